import Verif.Proof.Broadword

/-! # The selecting loops of popcount.h -/

set_option linter.unusedSectionVars false
set_option autoImplicit false

namespace Surf

theorem and_one_shl (x : Word) {i : Nat} (hi : i < 64) : x &&& (1#64 <<< i) ≠ 0 ↔ x.getMsbD (63 - i) = true := by
  have e : ∀ j, (x &&& (1#64 <<< i)).getLsbD j = (x.getLsbD j && decide (j = i)) := by
    intro j
    rw [BitVec.getLsbD_and, BitVec.getLsbD_shiftLeft]
    by_cases hj : j < 64
    · congr 1
      by_cases h : j = i
      · subst h; simp [hj]
      · simp [h, hj, BitVec.getLsbD_one]; omega
    · rw [BitVec.getLsbD_of_ge _ _ (by omega)]; rfl
  have m : x.getMsbD (63 - i) = x.getLsbD i := by
    rw [BitVec.getMsbD, show 64 - 1 - (63 - i) = i by omega]; simp; omega
  rw [m]
  constructor
  · intro h
    by_contra hn
    apply h
    apply BitVec.eq_of_getLsbD_eq
    intro j _
    rw [e]
    by_cases hj : j = i
    · subst hj; simp [hn]
    · simp [hj]
  · intro h h0
    have := e i
    rw [h0] at this
    simp [h] at this

theorem naiveLoop_spec (x : Word) (n : Nat) (hn : n ≤ 64) (k K : Nat) (hk : 1 ≤ k)
    (hK : rk x.getMsbD (64 - n) + k = K) :
    (K ≤ popcount x → ∃ p : Nat, naiveLoop x n (63 - n) k = p ∧ p < 64 ∧ x.getMsbD p = true ∧ rk x.getMsbD p + 1 = K) ∧
    (popcount x < K → naiveLoop x n (63 - n) k = -1) := by
  induction n generalizing k with
  | zero =>
    rw [Nat.sub_zero, ← popcount_eq] at hK
    exact ⟨fun h => by omega, fun _ => rfl⟩
  | succ i ih =>
    have e : (63 - ((i + 1 : Nat) : Int) + 1) = 63 - (i : Int) := by omega
    rw [naiveLoop]
    dsimp only
    rw [e]
    have hs : rk x.getMsbD (64 - i) = rk x.getMsbD (64 - (i + 1)) + if x.getMsbD (63 - i) then 1 else 0 := by
      rw [show 64 - i = 64 - (i + 1) + 1 by omega, rk_succ, show 64 - (i + 1) = 63 - i by omega]
    by_cases hb : x.getMsbD (63 - i) = true
    · rw [if_pos ((and_one_shl x (by omega)).2 hb)]
      rw [if_pos hb] at hs
      by_cases h1 : (k : Int) - 1 = 0
      · rw [if_pos h1]
        refine ⟨fun _ => ⟨63 - i, by omega, by omega, hb, ?_⟩, fun h => ?_⟩
        · rw [show 64 - (i + 1) = 63 - i by omega] at hK; omega
        · rw [popcount_eq] at h
          have := rk_mono x.getMsbD (show 64 - i ≤ 64 by omega)
          omega
      · rw [if_neg h1, show (k : Int) - 1 = ((k - 1 : Nat) : Int) by omega]
        exact ih (by omega) (k - 1) (by omega) (by omega)
    · rw [if_neg (fun h => hb ((and_one_shl x (by omega)).1 h))]
      rw [if_neg hb] at hs
      exact ih (by omega) k hk (by omega)

section
variable [Env]

/-- The one bits counted by the loops: those of the array from word `x` on. -/
def tail (ws : List Word) (x j : Nat) : Bool := bitAt ws (64 * x + j)

theorem rk_tail (ws : List Word) (x i : Nat) : rk (tail ws x) (64 * (i + 1)) = rk (tail ws x) (64 * i) + popcount (ws.getD (x + i) 0) := by
  rw [show 64 * (i + 1) = 64 * i + 64 by omega, rk_add, popcount_eq]
  congr 1
  apply rk_congr
  intro j hj
  unfold tail
  rw [show 64 * x + (64 * i + j) = 64 * (x + i) + j by omega, bitAt_word _ _ hj]

theorem selLinLoop_ok {ws : List Word} {x K : Nat} (n : Nat) (k i : Nat) (hk : 1 ≤ k) (hi : x + i < ws.length)
    (hK : rk (tail ws x) (64 * i) + k = K)
    (hr : x + i + n < ws.length ∨ K ≤ rk (tail ws x) (64 * (ws.length - x))) :
    ∃ k' i', selLinLoop ws x n k i (ws.getD (x + i) 0) = .ok (k', i', ws.getD (x + i') 0) ∧ i ≤ i' ∧ i' ≤ i + n ∧
      x + i' < ws.length ∧ rk (tail ws x) (64 * i') + k' = K ∧ 1 ≤ k' ∧
      (k' ≤ popcount (ws.getD (x + i') 0) ∨ i' = i + n) := by
  induction n generalizing k i with
  | zero => exact ⟨k, i, rfl, by omega, by omega, hi, hK, hk, Or.inr rfl⟩
  | succ n ih =>
    rw [selLinLoop]
    by_cases hc : k > popcount (ws.getD (x + i) 0)
    · rw [if_pos hc]
      have ht := rk_tail ws x i
      have hlt : x + (i + 1) < ws.length := by
        rcases hr with hr | hr
        · omega
        · by_contra hn
          rw [show ws.length - x = i + 1 by omega] at hr
          omega
      rw [rdW_ok hlt, ok_bind]
      obtain ⟨k', i', h1, h2, h3, h4⟩ := ih (k - popcount (ws.getD (x + i) 0)) (i + 1) (by omega) hlt (by omega)
        (by rcases hr with hr | hr
            · left; omega
            · right; exact hr)
      refine ⟨k', i', h1, by omega, by omega, h4.1, h4.2.1, h4.2.2.1, ?_⟩
      rcases h4.2.2.2 with h | h
      · exact Or.inl h
      · right; omega
    · rw [if_neg hc]
      exact ⟨k, i, rfl, by omega, by omega, hi, hK, hk, Or.inl (by omega)⟩

/-- Asked for more ones than there are, the loop runs into the end of the array. -/
theorem selLinLoop_over (hs : Env.strict = true) {ws : List Word} {x K : Nat} (n : Nat) (k i : Nat) (hi : x + i < ws.length)
    (hK : rk (tail ws x) (64 * i) + k = K) (hn : ws.length ≤ x + i + n)
    (hr : rk (tail ws x) (64 * (ws.length - x)) < K) :
    selLinLoop ws x n k i (ws.getD (x + i) 0) = .error .oobRead := by
  induction n generalizing k i with
  | zero => omega
  | succ n ih =>
    have ht := rk_tail ws x i
    have hm := rk_mono (tail ws x) (show 64 * (i + 1) ≤ 64 * (ws.length - x) by omega)
    rw [selLinLoop, if_pos (by omega)]
    by_cases hlt : x + (i + 1) < ws.length
    · rw [rdW_ok hlt, ok_bind]
      exact ih _ (i + 1) hlt (by omega) (by omega)
    · unfold rdW
      rw [List.getElem?_eq_none (by omega)]
      simp only [hs, if_true]
      rfl

theorem sel512Loop_eq (ws : List Word) (x n k i : Nat) (w : Word) :
    sel512Loop ws x n k i w = (selLinLoop ws x n k i w).map fun r => ((r.1 : Int), r.2.1, r.2.2) := by
  induction n generalizing k i w with
  | zero => rfl
  | succ n ih =>
    rw [sel512Loop, selLinLoop]
    by_cases h : k > popcount w
    · rw [if_pos h, if_pos (by omega)]
      cases hw : rdW ws (x + (i + 1)) with
      | error e => rfl
      | ok w' =>
        rw [ok_bind, ok_bind, show (k : Int) - (popcount w : Int) = ((k - popcount w : Nat) : Int) by omega, ih]
    · rw [if_neg h, if_neg (by omega)]; rfl

/-- The position found in the last word looked at. -/
theorem sel_tail {ws : List Word} {x i k K : Nat} (hk : 1 ≤ k) (hp : k ≤ popcount (ws.getD (x + i) 0))
    (hK : rk (tail ws x) (64 * i) + k = K) :
    ∃ q : Nat, select64 (ws.getD (x + i) 0) k = q ∧ q < 64 ∧ tail ws x (64 * i + q) = true ∧ rk (tail ws x) (64 * i + q) + 1 = K := by
  obtain ⟨q, h1, h2, h3, h4⟩ := select64_spec hk hp
  have ht : ∀ j, j < 64 → tail ws x (64 * i + j) = (ws.getD (x + i) 0).getMsbD j := by
    intro j hj
    unfold tail
    rw [show 64 * x + (64 * i + j) = 64 * (x + i) + j by omega, bitAt_word _ _ hj]
  refine ⟨q, h1, h2, by rw [ht q h2, h3], ?_⟩
  rw [rk_add, rk_congr fun j hj => ht j (by omega)]
  omega

theorem select512_ok {ws : List Word} {x K : Nat} (hx : x + 8 ≤ ws.length) (hK : 1 ≤ K) :
    (K ≤ rk (tail ws x) 512 → ∃ p : Nat, select512 ws x K = .ok (p : Int) ∧ p < 512 ∧ tail ws x p = true ∧ rk (tail ws x) p + 1 = K) ∧
    (rk (tail ws x) 512 < K → select512 ws x K = .ok (-1)) := by
  obtain ⟨k', i', h1, h2, h3, h4, h5, h6, h7⟩ := selLinLoop_ok (ws := ws) (x := x) (K := K) 7 K 0 hK (by omega)
    (by rw [Nat.mul_zero, rk_zero]; omega) (Or.inl (by omega))
  have ht := rk_tail ws x i'
  have hm := rk_mono (tail ws x) (show 64 * (i' + 1) ≤ 512 by omega)
  rw [Nat.add_zero] at h1
  unfold select512
  rw [rdW_ok (by omega), ok_bind, sel512Loop_eq, h1]
  simp only [Except.map, ok_bind]
  constructor
  · intro hle
    have hp : k' ≤ popcount (ws.getD (x + i') 0) := by
      rcases h7 with h | h
      · exact h
      · have : 64 * (i' + 1) = 512 := by omega
        rw [this] at ht; omega
    obtain ⟨q, q1, q2, q3, q4⟩ := sel_tail h6 hp h5
    refine ⟨64 * i' + q, ?_, by omega, q3, q4⟩
    rw [if_neg (by omega), q1]
    change Except.ok _ = Except.ok _
    congr 1
    omega
  · intro hlt
    have hn : ¬ k' ≤ popcount (ws.getD (x + i') 0) := by omega
    have : i' = 7 := by rcases h7 with h | h <;> omega
    rw [if_pos ⟨this, by omega⟩]; rfl

theorem sub64_eq {a b : Nat} (h : b ≤ a) (ha : a < 2 ^ 64) : sub64 a b = a - b := by
  unfold sub64; omega

theorem selectLinear_ok {ws : List Word} {x K : Nat} (hl : 64 * ws.length < 2 ^ 64) (hx : x < ws.length) (hK : 1 ≤ K)
    (hle : K ≤ rk (tail ws x) (64 * (ws.length - x))) :
    ∃ p : Nat, selectLinear ws ws.length x K = .ok p ∧ p < 64 * (ws.length - x) ∧ tail ws x p = true ∧ rk (tail ws x) p + 1 = K := by
  have hb := rk_le (tail ws x) (64 * (ws.length - x))
  unfold selectLinear
  rw [sub64_eq (by omega) (by omega), sub64_eq (by omega) (by omega), if_neg (by
    rw [Nat.mod_eq_of_lt (by omega)]; omega), rdW_ok hx, ok_bind]
  obtain ⟨k', i', h1, h2, h3, h4, h5, h6, h7⟩ := selLinLoop_ok (ws := ws) (x := x) (K := K) (ws.length - 1) K 0 hK (by omega)
    (by rw [Nat.mul_zero, rk_zero]; omega) (Or.inr hle)
  rw [Nat.add_zero] at h1
  rw [h1, ok_bind]
  have ht := rk_tail ws x i'
  have hp : k' ≤ popcount (ws.getD (x + i') 0) := by
    rcases h7 with h | h
    · exact h
    · have : i' + 1 = ws.length - x := by omega
      rw [this] at ht; omega
  obtain ⟨q, q1, q2, q3, q4⟩ := sel_tail h6 hp h5
  refine ⟨64 * i' + q, ?_, by omega, q3, q4⟩
  dsimp only
  rw [if_neg (by omega), q1]
  change Except.ok _ = Except.ok _
  congr 1
  omega

theorem selectLinear_none {ws : List Word} {K : Nat} (hl : 64 * ws.length < 2 ^ 64) (hx : 0 < ws.length)
    (hlt : rk (tail ws 0) (64 * ws.length) < K) : selectLinear ws ws.length 0 K = .ok (2 ^ 64 - 1) := by
  unfold selectLinear
  rw [sub64_eq (by omega) (by omega), sub64_eq (by omega) (by omega)]
  split
  · rfl
  · rw [rdW_ok hx, ok_bind]
    obtain ⟨k', i', h1, h2, h3, h4, h5, h6, h7⟩ := selLinLoop_ok (ws := ws) (x := 0) (K := K) (ws.length - 1) K 0 (by omega) (by omega)
      (by rw [Nat.mul_zero, rk_zero]; omega) (Or.inl (by omega))
    rw [Nat.add_zero] at h1
    rw [h1, ok_bind]
    have ht := rk_tail ws 0 i'
    have hm := rk_mono (tail ws 0) (show 64 * (i' + 1) ≤ 64 * ws.length by omega)
    have hn : ¬ k' ≤ popcount (ws.getD (0 + i') 0) := by omega
    have : i' = ws.length - 1 := by rcases h7 with h | h <;> omega
    dsimp only
    rw [if_pos ⟨this, by omega⟩]; rfl

theorem selectLinear_over (hs : Env.strict = true) {ws : List Word} {x K : Nat} (hl : 64 * ws.length < 2 ^ 64) (hx : x < ws.length)
    (h0 : 0 < x) (hlt : rk (tail ws x) (64 * (ws.length - x)) < K) (hK : K ≤ 64 * (ws.length - x)) :
    selectLinear ws ws.length x K = .error .oobRead := by
  unfold selectLinear
  rw [sub64_eq (by omega) (by omega), sub64_eq (by omega) (by omega), if_neg (by
    rw [Nat.mod_eq_of_lt (by omega)]; omega), rdW_ok hx, ok_bind]
  have := selLinLoop_over hs (ws := ws) (x := x) (K := K) (ws.length - 1) K 0 (by omega)
    (by rw [Nat.mul_zero, rk_zero]; omega) (by omega) hlt
  rw [Nat.add_zero] at this
  rw [this]; rfl

end

end Surf
