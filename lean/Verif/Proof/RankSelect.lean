import Verif.Proof.BV
import Mathlib.Tactic.Ring

/-! # rank.hpp and select.hpp -/

set_option linter.unusedSectionVars false

namespace Surf
variable [Env]

theorem popLoop_ok {ws : List Word} {x n : Nat} (h : x + n ≤ ws.length) :
    ∃ p, popLoop ws x n = .ok p ∧ rk (bitAt ws) (64 * x) + p = rk (bitAt ws) (64 * (x + n)) := by
  induction n with
  | zero => exact ⟨0, rfl, by simp⟩
  | succ n ih =>
    obtain ⟨p, h1, h2⟩ := ih (by omega)
    refine ⟨p + popcount (ws.getD (x + n) 0), ?_, ?_⟩
    · rw [popLoop, h1, ok_bind, rdW_ok (by omega)]; rfl
    · rw [show x + (n + 1) = (x + n) + 1 by omega, rk_full_word, ← h2]; omega

omit [Env] in
theorem popcount_shr (w : Word) {off : Nat} (ho : off < 64) :
    popcount (w >>> (63 - off)) = rk w.getMsbD (off + 1) := by
  have e : rk (w >>> (63 - off)).getMsbD 64 = rk (w >>> (63 - off)).getMsbD ((63 - off) + (off + 1)) := by
    congr 1; omega
  rw [popcount_eq, e, rk_add, rk_eq_zero, Nat.zero_add]
  · apply rk_congr
    intro i hi
    rw [BitVec.getMsbD_ushiftRight]
    simp [show 63 - off + i < 64 by omega]
  · intro i hi
    rw [BitVec.getMsbD_ushiftRight]
    simp [hi]

/-- `popcountLinear(bits, x, n)` counts the one bits in `[64 x, 64 x + n)`. -/
theorem popcountLinear_ok {ws : List Word} {x n : Nat} (h : 64 * x + n ≤ 64 * ws.length) :
    ∃ p, popcountLinear ws x n = .ok p ∧ rk (bitAt ws) (64 * x) + p = rk (bitAt ws) (64 * x + n) := by
  unfold popcountLinear
  by_cases hn : n = 0
  · rw [if_pos hn]; exact ⟨0, rfl, by simp [hn]⟩
  · rw [if_neg hn]
    obtain ⟨p, h1, h2⟩ := popLoop_ok (ws := ws) (x := x) (n := (n - 1) / 64) (by omega)
    dsimp only
    rw [h1, ok_bind, rdW_ok (by omega), ok_bind]
    refine ⟨_, rfl, ?_⟩
    rw [popcount_shr _ (by omega)]
    rw [show 64 * x + n = 64 * (x + (n - 1) / 64) + ((n - 1) % 64 + 1) by omega,
      rk_word _ _ (by omega)]
    omega

namespace BitvectorRank

/-- Invariant of a constructed rank vector. -/
structure Rep (b : BitvectorRank) (xs : List Bool) : Prop where
  base : b.toBitvector.Rep xs
  bbs : b.basicBlockSize = 512 ∨ b.basicBlockSize = 64
  lutLen : b.rankLut.length = xs.length / b.basicBlockSize + 1
  lut : ∀ i, i ≤ xs.length / b.basicBlockSize →
    b.rankLut.getD i 0 = (xs.take (b.basicBlockSize * i)).count true

theorem lutLoop_ok {ws : List Word} {wpb : Nat} (n i cumu : Nat)
    (hb : wpb * (i + n) ≤ ws.length) (hc : cumu = rk (bitAt ws) (64 * (wpb * i))) :
    ∃ l, lutLoop ws wpb (64 * wpb) n i cumu = .ok l ∧ l.length = n + 1 ∧
      ∀ j, j ≤ n → l.getD j 0 = rk (bitAt ws) (64 * (wpb * (i + j))) := by
  induction n generalizing i cumu with
  | zero =>
    refine ⟨[cumu], rfl, rfl, ?_⟩
    intro j hj
    obtain rfl : j = 0 := by omega
    simpa using hc
  | succ n ih =>
    have hm1 : wpb * (i + (n + 1)) = wpb * i + wpb * n + wpb := by ring
    have hm2 : wpb * (i + 1 + n) = wpb * i + wpb * n + wpb := by ring
    have hm3 : wpb * (i + 1) = wpb * i + wpb := by ring
    have hm4 : i * wpb = wpb * i := by ring
    obtain ⟨p, h1, h2⟩ := popcountLinear_ok (ws := ws) (x := i * wpb) (n := 64 * wpb) (by omega)
    have hc' : cumu + p = rk (bitAt ws) (64 * (wpb * (i + 1))) := by
      rw [hc, hm3, ← hm4, h2]
      congr 1; omega
    obtain ⟨l, g1, g2, g3⟩ := ih (i + 1) (cumu + p) (by omega) hc'
    refine ⟨cumu :: l, ?_, by simp [g2], ?_⟩
    · rw [lutLoop, h1, ok_bind, g1]; rfl
    · intro j hj
      cases j with
      | zero => simpa using hc
      | succ j =>
        rw [List.getD_cons_succ, g3 j (by omega)]
        congr 3; omega

theorem mk'_ok {bbs : Nat} {levels : List (List Word × Nat)} {b : Bitvector} {xs : List Bool}
    (hbb : bbs = 512 ∨ bbs = 64) (hb : Bitvector.mk' levels = .ok b) (hr : b.Rep xs) :
    ∃ r, mk' bbs levels = .ok r ∧ r.toBitvector = b ∧ r.Rep xs ∧ r.basicBlockSize = bbs := by
  have hl := hr.len_bounds
  have hn := hr.num
  obtain ⟨wpb, rfl⟩ : ∃ w, bbs = 64 * w := by
    rcases hbb with rfl | rfl
    · exact ⟨8, rfl⟩
    · exact ⟨1, rfl⟩
  have hw : wpb = 8 ∨ wpb = 1 := by omega
  obtain ⟨l, g1, g2, g3⟩ := lutLoop_ok (ws := b.bits) (wpb := wpb) (b.numBits / (64 * wpb)) 0 0
    (by
      have : 64 * wpb * (b.numBits / (64 * wpb)) ≤ b.numBits := Nat.mul_div_le _ _
      rw [Nat.mul_assoc] at this
      rw [Nat.zero_add]; omega)
    (by simp [rk_zero])
  refine ⟨⟨b, 64 * wpb, l⟩, ?_, rfl, ⟨hr, hbb, ?_, ?_⟩, rfl⟩
  · unfold mk'
    rw [hb, ok_bind, show 64 * wpb / 64 = wpb by omega, g1]; rfl
  · simp [g2, hn]
  · intro i hi
    dsimp only at hi ⊢
    rw [g3 i (by rw [hn]; exact hi), hr.rk_eq, rk_list, Nat.zero_add, Nat.mul_assoc]

/-- `rank(pos)` is the number of one bits in positions `0 .. pos`. -/
theorem rank_ok {b : BitvectorRank} {xs : List Bool} (h : b.Rep xs) {pos : Nat}
    (hp : pos < xs.length ∨ (pos = xs.length ∧ xs.length % 64 ≠ 0)) :
    b.rank pos = .ok ((xs.take (pos + 1)).count true) := by
  have hl := h.base.len_bounds
  have hn := h.base.num
  unfold rank
  rw [assertR_ok (by simp; omega), ok_bind]
  dsimp only
  have hand : pos &&& (b.basicBlockSize - 1) = pos % b.basicBlockSize := by
    rcases h.bbs with e | e <;> rw [e]
    · exact Nat.and_two_pow_sub_one_eq_mod pos 9
    · exact Nat.and_two_pow_sub_one_eq_mod pos 6
  have hle : pos / b.basicBlockSize ≤ xs.length / b.basicBlockSize :=
    Nat.div_le_div_right (by omega)
  rw [hand, rdP_ok (by rw [h.lutLen]; omega), ok_bind, h.lut _ hle]
  obtain ⟨p, h1, h2⟩ := popcountLinear_ok (ws := b.bits) (x := pos / b.basicBlockSize * (b.basicBlockSize / 64))
    (n := pos % b.basicBlockSize + 1) (by rcases h.bbs with e | e <;> rw [e] <;> omega)
  rw [h1, ok_bind]
  refine ok_congr ?_
  rw [h.base.rk_eq, rk_list, h.base.rk_eq, rk_list] at h2
  have e1 : 64 * (pos / b.basicBlockSize * (b.basicBlockSize / 64)) =
      b.basicBlockSize * (pos / b.basicBlockSize) := by
    rcases h.bbs with e | e <;> rw [e] <;> omega
  have e2 : b.basicBlockSize * (pos / b.basicBlockSize) + (pos % b.basicBlockSize + 1) = pos + 1 := by
    have := Nat.div_add_mod pos b.basicBlockSize; omega
  rw [e1, e2] at h2
  exact h2

end BitvectorRank

/-- Position `p` holds the `r`-th one bit. -/
def IsSel (f : Nat → Bool) (r p : Nat) : Prop := f p = true ∧ rk f p + 1 = r

omit [Env] in
theorem IsSel.unique {f : Nat → Bool} {r p q : Nat} (h1 : IsSel f r p) (h2 : IsSel f r q) : p = q :=
  rk_inj h1.1 h2.1 (by have := h1.2; have := h2.2; omega)

omit [Env] in
theorem exists_isSel {f : Nat → Bool} {n r : Nat} (h1 : 1 ≤ r) (h2 : r ≤ rk f n) :
    ∃ p, p < n ∧ IsSel f r p := by
  induction n with
  | zero => rw [rk_zero] at h2; omega
  | succ n ih =>
    by_cases h : r ≤ rk f n
    · obtain ⟨p, hp, hs⟩ := ih h
      exact ⟨p, by omega, hs⟩
    · rw [rk_succ] at h2
      by_cases hf : f n = true
      · simp only [hf, if_true] at h2
        exact ⟨n, by omega, hf, by omega⟩
      · simp only [hf] at h2
        simp at h2; omega

omit [Env] in
theorem getD_ge {α : Type} {l : List α} {j : Nat} {d : α} (h : l.length ≤ j) : l.getD j d = d := by
  simp [List.getD, h]

omit [Env] in
theorem getD_append_lt {α : Type} {l1 l2 : List α} {j : Nat} {d : α} (h : j < l1.length) :
    (l1 ++ l2).getD j d = l1.getD j d := by
  simp [List.getD, List.getElem?_append_left h]

omit [Env] in
theorem getD_append_ge {α : Type} {l1 l2 : List α} {j : Nat} {d : α} (h : l1.length ≤ j) :
    (l1 ++ l2).getD j d = l2.getD (j - l1.length) d := by
  simp [List.getD, List.getElem?_append_right h]

namespace BitvectorSelect

/-- Invariant of a constructed select vector. -/
structure Rep (b : BitvectorSelect) (xs : List Bool) : Prop where
  base : b.toBitvector.Rep xs
  si : 1 ≤ b.sampleInterval
  si32 : b.sampleInterval < M32
  first : xs ≠ [] → xs.getD 0 false = true
  ones : b.numOnes = xs.count true
  lutLen : b.selectLut.length = b.numOnes / b.sampleInterval + 1
  lut0 : b.selectLut.getD 0 0 = 0
  lut : ∀ i, 1 ≤ i → i ≤ b.numOnes / b.sampleInterval →
    IsSel (bitAt b.bits) (b.sampleInterval * i) (b.selectLut.getD i 0)

omit [Env] in
theorem isSel_word {ws : List Word} {i r k : Nat} (hk : 1 ≤ k) (hk' : k ≤ popcount (ws.getD i 0))
    (hr : rk (bitAt ws) (64 * i) + k = r) :
    ∃ p, IsSel (bitAt ws) r p ∧ ((i * 64 : Nat) + select64 (ws.getD i 0) k).toNat = p := by
  obtain ⟨p, h1, h2, h3, h4⟩ := select64_spec hk hk'
  refine ⟨64 * i + p, ⟨?_, ?_⟩, ?_⟩
  · rw [bitAt_word _ _ h2, h3]
  · rw [rk_word _ _ (by omega)]; omega
  · rw [h1]; omega

omit [Env] in
theorem sampleLoop_ok {ws : List Word} {i si : Nat} (hsi : 1 ≤ si) (fuel m : Nat)
    (hm : rk (bitAt ws) (64 * i) < si * m)
    (hf : 1 ≤ fuel ∧ rk (bitAt ws) (64 * (i + 1)) + 1 < fuel + si * m)
    (hm1 : si * (m - 1) ≤ rk (bitAt ws) (64 * (i + 1)))
    (hw : ∀ m, si * m ≤ rk (bitAt ws) (64 * (i + 1)) → si * (m + 1) < M32) :
    ∃ l, sampleLoop (ws.getD i 0) i si (rk (bitAt ws) (64 * i)) (popcount (ws.getD i 0)) fuel (si * m)
        = .ok (l, si * (m + l.length)) ∧
      rk (bitAt ws) (64 * (i + 1)) < si * (m + l.length) ∧
      si * (m + l.length - 1) ≤ rk (bitAt ws) (64 * (i + 1)) ∧
      ∀ j, j < l.length → IsSel (bitAt ws) (si * (m + j)) (l.getD j 0) := by
  have hfull := rk_full_word ws i
  induction fuel generalizing m with
  | zero => omega
  | succ fuel ih =>
    rw [sampleLoop]
    by_cases hc : si * m ≤ rk (bitAt ws) (64 * i) + popcount (ws.getD i 0)
    · rw [if_pos hc]
      have hmm : si * (m + 1) = si * m + si := by ring
      obtain ⟨l, g1, g2, g3, g4⟩ := ih (m + 1) (by omega) (by omega)
        (by rw [Nat.add_sub_cancel]; omega)
      obtain ⟨p, q1, q2⟩ := isSel_word (ws := ws) (i := i) (r := si * m)
        (k := si * m - rk (bitAt ws) (64 * i)) (by omega) (by omega) (by omega)
      refine ⟨p :: l, ?_, ?_, ?_, ?_⟩
      · dsimp only
        rw [add32, ← hmm, Nat.mod_eq_of_lt (hw m (by omega)), g1, ok_bind]
        have hw' := hw m (by omega)
        have hpc := popcount_le (ws.getD i 0)
        have e : (BitVec.ofNat 32 (sub32 (si * m) (rk (bitAt ws) (64 * i)))).toInt
          = ((si * m - rk (bitAt ws) (64 * i) : Nat) : Int) := by
          rw [sub32_eq (by omega) (by omega), BitVec.toInt_ofNat', Int.bmod_eq_of_le (by omega) (by omega)]
        rw [e, q2]
        simp only [List.length_cons]
        rw [show m + 1 + l.length = m + (l.length + 1) by omega]; rfl
      · rw [List.length_cons, show m + (l.length + 1) = m + 1 + l.length by omega]; exact g2
      · rw [List.length_cons, show m + (l.length + 1) = m + 1 + l.length by omega]; exact g3
      · intro j hj
        cases j with
        | zero => exact q1
        | succ j =>
          rw [List.getD_cons_succ, show m + (j + 1) = m + 1 + j by omega]
          exact g4 j (by simpa using hj)
    · rw [if_neg hc]
      exact ⟨[], rfl, by simpa using (by omega), by simpa using hm1, by simp⟩

theorem lutLoop_ok {ws : List Word} {si : Nat} (hsi : 1 ≤ si) (pre suf : List Word) (hw : ws = pre ++ suf)
    (m : Nat) (hm : rk (bitAt ws) (64 * pre.length) < si * m)
    (hm1 : si * (m - 1) ≤ rk (bitAt ws) (64 * pre.length)) (hm0 : 1 ≤ m)
    (hN : si * (rk (bitAt ws) (64 * ws.length) / si + 1) < M32) :
    ∃ l, lutLoop si suf pre.length (si * m) (rk (bitAt ws) (64 * pre.length))
        = .ok (l, rk (bitAt ws) (64 * ws.length)) ∧
      rk (bitAt ws) (64 * ws.length) < si * (m + l.length) ∧
      si * (m + l.length - 1) ≤ rk (bitAt ws) (64 * ws.length) ∧
      ∀ j, j < l.length → IsSel (bitAt ws) (si * (m + j)) (l.getD j 0) := by
  induction suf generalizing pre m with
  | nil =>
    simp at hw; subst hw
    exact ⟨[], rfl, by simpa using hm, by simpa using hm1, by simp⟩
  | cons w suf ih =>
    have hget : ws.getD pre.length 0 = w := by simp [hw]
    have hfull := rk_full_word ws pre.length
    rw [hget] at hfull
    have hpc := popcount_le w
    obtain ⟨l1, g1, g2, g3, g4⟩ := sampleLoop_ok (ws := ws) (i := pre.length) hsi 4294967297 m hm
      (by omega) (by omega) (fun m' hm' => by
        have h1 : 64 * (pre.length + 1) ≤ 64 * ws.length := by rw [hw]; simp
        have h2 := rk_mono (bitAt ws) h1
        have h3 : m' ≤ rk (bitAt ws) (64 * ws.length) / si := by
          rw [Nat.le_div_iff_mul_le (by omega), Nat.mul_comm]; omega
        exact lt_of_le_of_lt (Nat.mul_le_mul_left si (Nat.add_le_add_right h3 1)) hN)
    obtain ⟨l2, k1, k2, k3, k4⟩ := ih (pre ++ [w]) (by simp [hw]) (m + l1.length)
      (by simpa using g2) (by simpa using g3) (by omega)
    refine ⟨l1 ++ l2, ?_, ?_, ?_, ?_⟩
    · rw [lutLoop]
      dsimp only
      rw [hget] at g1
      rw [g1, ok_bind]
      dsimp only
      rw [← hfull]
      rw [List.length_append, List.length_singleton] at k1
      rw [k1, ok_bind]; rfl
    · simp only [List.length_append]; rw [← Nat.add_assoc]; exact k2
    · simp only [List.length_append]; rw [← Nat.add_assoc]; exact k3
    · intro j hj
      by_cases hj1 : j < l1.length
      · rw [getD_append_lt hj1]; exact g4 j hj1
      · rw [getD_append_ge (by omega)]
        have := k4 (j - l1.length) (by simp at hj; omega)
        rw [show m + l1.length + (j - l1.length) = m + j by omega] at this
        exact this

theorem mk'_ok {si : Nat} {levels : List (List Word × Nat)} {b : Bitvector} {xs : List Bool}
    (hsi : 1 ≤ si) (hN : si * (xs.count true / si + 1) < M32) (hb : Bitvector.mk' levels = .ok b) (hr : b.Rep xs)
    (hfirst : xs ≠ [] → xs.getD 0 false = true) :
    ∃ r, mk' si levels = .ok r ∧ r.toBitvector = b ∧ r.Rep xs ∧ r.sampleInterval = si := by
  have hl := hr.len_bounds
  have hones : rk (bitAt b.bits) (64 * b.bits.length) = xs.count true := by
    rw [hr.rk_eq, rk_list, List.take_of_length_le hl.1]
  obtain ⟨l, g1, g2, g3, g4⟩ := lutLoop_ok (ws := b.bits) hsi [] b.bits rfl 1
    (by simp [rk_zero]; omega) (by simp) (le_refl _) (by rw [hones]; exact hN)
  have hsi32 : si < M32 := lt_of_le_of_lt (by rw [Nat.mul_add, Nat.mul_one]; omega) hN
  have hlen : xs.count true / si = l.length := by
    rw [hones] at g2 g3
    apply Nat.div_eq_of_lt_le
    · rw [Nat.mul_comm]; simpa using g3
    · rw [Nat.mul_comm, Nat.add_comm]; exact g2
  refine ⟨⟨b, si, xs.count true, 0 :: l⟩, ?_, rfl, ⟨hr, hsi, hsi32, hfirst, rfl, ?_, rfl, ?_⟩, rfl⟩
  · unfold mk'
    rw [hb, ok_bind]
    simp only [List.length_nil, Nat.mul_zero, rk_zero, Nat.mul_one] at g1
    rw [g1, ok_bind, hones]; rfl
  · simp [hlen]
  · intro i h1 h2
    dsimp only at h2 ⊢
    obtain ⟨j, rfl⟩ : ∃ j, i = j + 1 := ⟨i - 1, by omega⟩
    rw [List.getD_cons_succ, Nat.add_comm j 1]
    exact g4 j (by omega)

omit [Env] in
/-- `word` is `w` with the first `off` bits cleared. -/
theorem masked_rk {w word : Word} {off b : Nat} (hm : ∀ i, i < 64 → word.getMsbD i = (decide (off ≤ i) && w.getMsbD i))
    (hb : off ≤ b) (hb64 : b ≤ 64) : rk w.getMsbD b = rk w.getMsbD off + rk word.getMsbD b := by
  obtain ⟨c, rfl⟩ : ∃ c, b = off + c := ⟨b - off, by omega⟩
  rw [rk_add, rk_add word.getMsbD, rk_eq_zero (f := word.getMsbD) (n := off), Nat.zero_add]
  · congr 1; apply rk_congr; intro i hi
    rw [hm _ (by omega)]; simp
  · intro i hi
    rw [hm _ (by omega)]; simp; omega

theorem selLoop_ok {b : BitvectorSelect} {r : Nat} (fuel wid off : Nat) (word : Word) (rl : Nat)
    (hoff : off ≤ 64) (hm : ∀ i, i < 64 → word.getMsbD i = (decide (off ≤ i) && (b.bits.getD wid 0).getMsbD i))
    (hr : rk (bitAt b.bits) (64 * wid + off) + rl = r) (hrl : 1 ≤ rl)
    (hones : r ≤ rk (bitAt b.bits) (64 * b.bits.length)) (hf : b.bits.length < fuel + wid) (hwid : wid < b.bits.length) :
    ∃ wid' word' rl', selLoop b fuel wid word rl = .ok (wid', word', rl') ∧
      IsSel (bitAt b.bits) r ((wid' * 64 : Nat) + select64 word' rl').toNat := by
  induction fuel generalizing wid off word rl with
  | zero => omega
  | succ fuel ih =>
    rw [selLoop]
    have hmk := masked_rk hm hoff (le_refl _)
    have hfull := rk_full_word b.bits wid
    have hpart := rk_word b.bits wid hoff
    by_cases hc : popcount word < rl
    · rw [if_pos hc]
      have hpc : rk (bitAt b.bits) (64 * (wid + 1)) + (rl - popcount word) = r := by
        rw [popcount_eq] at hc hfull ⊢
        omega
      have hlt : wid + 1 < b.bits.length := by
        by_contra hge
        have := rk_mono (bitAt b.bits) (show 64 * b.bits.length ≤ 64 * (wid + 1) by omega)
        omega
      dsimp only
      rw [rdW_ok hlt, ok_bind]
      exact ih (wid + 1) 0 _ (rl - popcount word) (by omega) (by intro i hi; simp) (by simpa using hpc)
        (by omega) (by omega) hlt
    · rw [if_neg hc]
      refine ⟨_, _, _, rfl, ?_⟩
      obtain ⟨p, h1, h2, h3, h4⟩ := select64_spec hrl (by omega : rl ≤ popcount word)
      rw [h1, show (((wid * 64 : Nat) : Int) + (p : Int)).toNat = 64 * wid + p by omega]
      rw [hm p h2] at h3
      simp only [Bool.and_eq_true, decide_eq_true_eq] at h3
      refine ⟨?_, ?_⟩
      · rw [bitAt_word _ _ h2, h3.2]
      · rw [rk_word _ _ (by omega), masked_rk hm h3.1 (by omega)]; omega

/-- `select(r)` is the position of the `r`-th one bit. -/
theorem select_ok {b : BitvectorSelect} {xs : List Bool} (h : b.Rep xs) {r : Nat} (h1 : 1 ≤ r)
    (h2 : r ≤ xs.count true) :
    ∃ p, b.select r = .ok p ∧ IsSel (fun i => xs.getD i false) r p := by
  have hl := h.base.len_bounds
  have hfun : bitAt b.bits = fun i => xs.getD i false := funext h.base.bit
  have hones : rk (bitAt b.bits) (64 * b.bits.length) = xs.count true := by
    rw [h.base.rk_eq, rk_list, List.take_of_length_le hl.1]
  have ho := h.ones
  have hsi := h.si
  have hdm := Nat.div_add_mod r b.sampleInterval
  have hmod := Nat.mod_lt r (show 0 < b.sampleInterval by omega)
  have hdle : r / b.sampleInterval ≤ b.numOnes / b.sampleInterval := Nat.div_le_div_right (by omega)
  rw [← hfun]
  unfold select
  rw [assertR_ok (by simp; omega), ok_bind, assertR_ok (by simp; omega), ok_bind]
  dsimp only
  rw [rdP_ok (by rw [h.lutLen]; omega), ok_bind]
  -- the sample and what remains
  obtain ⟨r0, hs0, hrl⟩ : ∃ r0, IsSel (bitAt b.bits) r0 (b.selectLut.getD (r / b.sampleInterval) 0) ∧
      (if r / b.sampleInterval = 0 then sub32 (r % b.sampleInterval) 1 else r % b.sampleInterval) + r0 = r := by
    by_cases h0 : r / b.sampleInterval = 0
    · refine ⟨1, ?_, ?_⟩
      · rw [h0, h.lut0]
        exact ⟨by rw [h.base.bit]; exact h.first (by rintro rfl; simp at h2; omega), by simp [rk_zero]⟩
      · rw [h0] at hdm
        rw [if_pos h0, sub32_eq (by omega) (by have := h.si32; omega)]; omega
    · refine ⟨_, h.lut _ (Nat.pos_of_ne_zero h0) hdle, ?_⟩
      rw [if_neg h0]; omega
  generalize (if r / b.sampleInterval = 0 then sub32 (r % b.sampleInterval) 1 else r % b.sampleInterval) = rl at *
  generalize b.selectLut.getD (r / b.sampleInterval) 0 = pos at *
  by_cases hz : rl = 0
  · rw [if_pos hz]
    refine ⟨pos, rfl, ?_⟩
    rw [← hrl, hz, Nat.zero_add]; exact hs0
  · rw [if_neg hz]
    have hstart : (if pos % 64 = 63 then (pos / 64 + 1, 0) else (pos / 64, pos % 64 + 1))
        = ((pos + 1) / 64, (pos + 1) % 64) := by
      split <;> simp only [Prod.mk.injEq] <;> omega
    rw [hstart]
    dsimp only
    have hrk : rk (bitAt b.bits) (pos + 1) = r0 := by
      rw [rk_succ, hs0.1]; have := hs0.2; simpa using this
    have hlt : (pos + 1) / 64 < b.bits.length := by
      by_contra hge
      have := rk_mono (bitAt b.bits) (show 64 * b.bits.length ≤ pos + 1 by omega)
      omega
    rw [rdW_ok hlt, ok_bind]
    obtain ⟨wid', word', rl', g1, g2⟩ := selLoop_ok (b := b) (r := r) (b.bits.length + 1) ((pos + 1) / 64)
      ((pos + 1) % 64) ((b.bits.getD ((pos + 1) / 64) 0 <<< ((pos + 1) % 64)) >>> ((pos + 1) % 64)) rl
      (by omega)
      (by
        intro i hi
        rw [BitVec.getMsbD_ushiftRight, BitVec.getMsbD_shiftLeft]
        by_cases hio : (pos + 1) % 64 ≤ i
        · simp [hio, hi, Nat.not_lt.mpr hio]
        · simp [hio, Nat.lt_of_not_le hio])
      (by rw [Nat.div_add_mod]; omega) (by omega) (by omega) (by omega) hlt
    rw [g1, ok_bind]
    exact ⟨_, rfl, g2⟩

end BitvectorSelect
end Surf
