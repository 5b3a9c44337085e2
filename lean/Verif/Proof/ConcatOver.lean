import Verif.Proof.Concat

/-! # Concatenation into an array that may be too small

The or-operations of the concatenation do not depend on the contents of the array.  Listing them first gives
the result for arrays of any length: it succeeds if every operation behind the end is with a zero word. -/

set_option linter.unusedSectionVars false
set_option autoImplicit false

namespace Surf

/-- The or-operations of `concatWords`. -/
def wordOps (sh : Nat) : List Word → Nat → List (Nat × Word)
  | [], _ => []
  | w :: ws, wid => (wid, w >>> sh) :: ((if sh > 0 then [(wid + 1, w <<< (64 - sh))] else []) ++ wordOps sh ws (wid + 1))

/-- The or-operations of `concatLevels`. -/
def levelOps : List (List Word × Nat) → Nat → Nat → List (Nat × Word)
  | [], _, _ => []
  | (ws, n) :: ls, wid, sh =>
    if n = 0 then levelOps ls wid sh
    else wordOps sh (ws.take (n / 64)) wid ++
      if n - n / 64 * 64 > 0 then
        (wid + n / 64, ws.getD (n / 64) 0 >>> sh) ::
          if sh + (n - n / 64 * 64) < 64 then levelOps ls (wid + n / 64) (sh + (n - n / 64 * 64))
          else (wid + n / 64 + 1, ws.getD (n / 64) 0 <<< (64 - sh)) :: levelOps ls (wid + n / 64 + 1) (sh + (n - n / 64 * 64) - 64)
      else levelOps ls (wid + n / 64) sh

variable [Env]

/-- The operations, one after the other. -/
def orAll (a : List Word) (os : List (Nat × Word)) : R (List Word) := os.foldlM (fun a o => orAt a o.1 o.2) a

theorem orAll_cons (a : List Word) (o : Nat × Word) (os : List (Nat × Word)) :
    orAll a (o :: os) = orAt a o.1 o.2 >>= fun a => orAll a os := rfl

theorem orAll_append (a : List Word) (os os' : List (Nat × Word)) :
    orAll a (os ++ os') = orAll a os >>= fun a => orAll a os' := by
  unfold orAll
  rw [List.foldlM_append]

theorem concatWords_ops (sh : Nat) (ws bits : List Word) (wid : Nat) :
    concatWords sh ws bits wid = orAll bits (wordOps sh ws wid) >>= fun b => .ok (b, wid + ws.length) := by
  induction ws generalizing bits wid with
  | nil => rfl
  | cons w ws ih =>
    rw [concatWords, wordOps, orAll_cons, bind_assoc]
    congr 1
    funext b
    dsimp only
    have e : wid + (w :: ws).length = wid + 1 + ws.length := by simp only [List.length_cons]; omega
    by_cases hp : sh > 0
    · rw [if_pos hp, if_pos hp, orAll_append, orAll_cons]
      simp only [bind_assoc, ih, e]
      rfl
    · rw [if_neg hp, if_neg hp, List.nil_append, pure_bind, ih, e]

theorem concatLevels_ops (lvs : List (List Word × Nat)) (hr : ∀ lv ∈ lvs, lv.2 ≤ 64 * lv.1.length) (bits : List Word) (wid sh : Nat)
    (hsh : sh < 64) : concatLevels lvs bits wid sh = orAll bits (levelOps lvs wid sh) := by
  induction lvs generalizing bits wid sh with
  | nil => rfl
  | cons lv lvs ih =>
    obtain ⟨ws, n⟩ := lv
    have h1 := hr (ws, n) List.mem_cons_self
    dsimp only at h1
    have ih := ih fun l hl => hr l (List.mem_cons_of_mem _ hl)
    rw [concatLevels, levelOps]
    by_cases h0 : n = 0
    · rw [if_pos h0, if_pos h0]; exact ih _ _ _ hsh
    · rw [if_neg h0, if_neg h0]
      dsimp only
      have hlt : (ws.take (n / 64)).length = n / 64 := by rw [List.length_take]; omega
      rw [if_neg (by omega), concatWords_ops, orAll_append, bind_assoc, hlt]
      congr 1
      funext b
      rw [ok_bind]
      dsimp only
      by_cases hrem : n - n / 64 * 64 > 0
      · rw [if_pos hrem, if_pos hrem, rdW_ok (by omega), ok_bind, orAll_cons]
        congr 1
        funext b2
        by_cases hsm : sh + (n - n / 64 * 64) < 64
        · rw [if_pos hsm, if_pos hsm]; exact ih _ _ _ hsm
        · rw [if_neg hsm, if_neg hsm, shlW, if_pos (by omega), ok_bind, orAll_cons]
          congr 1
          funext b3
          exact ih _ _ _ (by omega)
      · rw [if_neg hrem, if_neg hrem]; exact ih _ _ _ hsh

/-- Bit `i` is set by one of the operations. -/
def opsBit (os : List (Nat × Word)) (i : Nat) : Bool := os.any fun o => decide (i / 64 = o.1) && o.2.getMsbD (i % 64)

/-- The operations succeed if those behind the end do nothing. -/
theorem orAll_ok (hs : Env.strict = false) (os : List (Nat × Word)) (a : List Word)
    (h : ∀ o ∈ os, o.1 < a.length ∨ o.2 = 0) :
    ∃ b, orAll a os = .ok b ∧ b.length = a.length ∧ ∀ i, bitAt b i = (bitAt a i || opsBit os i) := by
  induction os generalizing a with
  | nil => exact ⟨a, rfl, rfl, fun i => by simp [opsBit]⟩
  | cons o os ih =>
    obtain ⟨a1, e1, l1, g1⟩ : ∃ a1, orAt a o.1 o.2 = .ok a1 ∧ a1.length = a.length ∧
        ∀ i, bitAt a1 i = (bitAt a i || (decide (i / 64 = o.1) && o.2.getMsbD (i % 64))) := by
      by_cases hk : o.1 < a.length
      · exact orAt_ok hk
      · have hz : o.2 = 0 := (h o List.mem_cons_self).resolve_left hk
        rw [hz]
        exact ⟨a, orAt_zero hs (by omega), rfl, fun i => by simp⟩
    obtain ⟨b, e, l, g⟩ := ih a1 fun o' ho' => by rw [l1]; exact h o' (List.mem_cons_of_mem _ ho')
    refine ⟨b, by rw [orAll_cons, e1, ok_bind, e], by omega, fun i => ?_⟩
    rw [g, g1, Bool.or_assoc]
    rfl

/-- Otherwise the first such operation writes outside the array. -/
theorem orAll_err (hs : Env.strict = false) (os : List (Nat × Word)) (a : List Word)
    (h : ¬ ∀ o ∈ os, o.1 < a.length ∨ o.2 = 0) : orAll a os = .error .oobWrite := by
  induction os generalizing a with
  | nil => simp at h
  | cons o os ih =>
    rw [orAll_cons]
    by_cases ho : o.1 < a.length ∨ o.2 = 0
    · have h2 : ¬ ∀ o' ∈ os, o'.1 < a.length ∨ o'.2 = 0 := by
        intro hc
        apply h
        intro o' ho'
        rcases List.mem_cons.1 ho' with rfl | h3
        · exact ho
        · exact hc o' h3
      obtain ⟨a1, e1, l1⟩ : ∃ a1, orAt a o.1 o.2 = .ok a1 ∧ a1.length = a.length := by
        by_cases hk : o.1 < a.length
        · obtain ⟨a1, e, l, -⟩ := orAt_ok (x := o.2) hk
          exact ⟨a1, e, l⟩
        · rw [ho.resolve_left hk]
          exact ⟨a, orAt_zero hs (by omega), rfl⟩
      rw [e1, ok_bind]
      exact ih a1 (by rw [l1]; exact h2)
    · have h1 : ¬ o.1 < a.length := fun hc => ho (Or.inl hc)
      have h3 : o.2 ≠ 0 := fun hc => ho (Or.inr hc)
      have : orAt a o.1 o.2 = .error .oobWrite := by
        unfold orAt
        rw [List.getElem?_eq_none (by omega)]
        simp only [hs, Bool.false_or, bne_iff_ne, ne_eq]
        rw [if_pos h3]
      rw [this, err_bind]

/-- Concatenation, for any number of bits: the vector reports the number of bits modulo 2^32, and it is
complete unless a one would lie behind the end of the array, in which case the construction writes there. -/
theorem Bitvector.mk'_any (hs : Env.strict = false) {lvs : List (List Word × Nat)} {xss : List (List Bool)}
    (hlv : List.Forall₂ LevelBits lvs xss) {N : Nat} (hN : N = xss.flatten.length % M32) :
    ((∀ i, (N + 63) / 64 * 64 ≤ i → xss.flatten.getD i false = false) →
      ∃ b, Bitvector.mk' lvs = .ok b ∧ b.numBits = N ∧ b.bits.length = (N + 63) / 64 ∧
        ∀ i, bitAt b.bits i = xss.flatten.getD i false) ∧
    ((∃ i, (N + 63) / 64 * 64 ≤ i ∧ xss.flatten.getD i false = true) → Bitvector.mk' lvs = .error .oobWrite) := by
  have hroom : ∀ lv ∈ lvs, lv.2 ≤ 64 * lv.1.length := by
    clear hN
    induction hlv with
    | nil => simp
    | cons h1 h2 ih =>
      intro lv hl
      rcases List.mem_cons.1 hl with rfl | hl
      · rw [h1.num]; exact h1.room
      · exact ih lv hl
  have hzero : ∀ (n i : Nat), bitAt (List.replicate n (0 : Word)) i = false := by
    intro n i
    unfold bitAt
    have : (List.replicate n (0 : Word)).getD (i / 64) 0 = 0 := by
      simp only [List.getD, List.getElem?_replicate]; split <;> rfl
    rw [this]; simp
  -- what the operations do in an array that is large enough
  have hops : ∀ i, opsBit (levelOps lvs 0 0) i = xss.flatten.getD i false := by
    obtain ⟨bits, e, l, g⟩ := concatLevels_ok hs lvs xss hlv [] (List.replicate (xss.flatten.length) 0) 0 0 (by omega) rfl
      (by intro i; rw [hzero]; simp) (by simp only [List.length_nil, List.length_replicate]; omega)
    rw [concatLevels_ops _ hroom _ _ _ (by omega)] at e
    have hall : ∀ o ∈ levelOps lvs 0 0, o.1 < (List.replicate (xss.flatten.length) (0 : Word)).length ∨ o.2 = 0 := by
      by_contra hc
      rw [orAll_err hs _ _ hc] at e
      simp at e
    obtain ⟨b, e2, l2, g2⟩ := orAll_ok hs _ _ hall
    rw [e] at e2
    have e3 := Except.ok.inj e2
    subst e3
    intro i
    have h1 := g2 i
    rw [hzero, Bool.false_or] at h1
    rw [← h1, g i, List.nil_append]
  have hsum : totalNumBits (lvs.map (·.2)) = N := by
    unfold totalNumBits
    rw [levels_sum hlv, u32, hN]
  have hW : (if N % 64 = 0 then N / 64 else N / 64 + 1) = (N + 63) / 64 := by split <;> omega
  have hmk : Bitvector.mk' lvs = orAll (List.replicate ((N + 63) / 64) 0) (levelOps lvs 0 0) >>= fun bits => .ok ⟨N, bits⟩ := by
    unfold Bitvector.mk'
    dsimp only
    rw [hsum, hW, concatLevels_ops _ hroom _ _ _ (by omega)]
    rfl
  rw [hmk]
  generalize (N + 63) / 64 = W at *
  constructor
  · intro hz
    obtain ⟨b, e, l, g⟩ := orAll_ok hs (levelOps lvs 0 0) (List.replicate W 0) (by
      intro o ho
      rw [List.length_replicate]
      by_cases hk : o.1 < W
      · exact Or.inl hk
      · right
        apply eq_zero_of_msb
        intro j hj
        have h1 := hz (64 * o.1 + j) (by omega)
        rw [← hops, opsBit, List.any_eq_false] at h1
        have h2 := h1 o ho
        rw [show (64 * o.1 + j) / 64 = o.1 by omega, show (64 * o.1 + j) % 64 = j by omega] at h2
        simpa using h2)
    refine ⟨⟨N, b⟩, by rw [e, ok_bind], rfl, by rw [l, List.length_replicate], fun i => ?_⟩
    dsimp only
    rw [g, hzero, hops, Bool.false_or]
  · rintro ⟨i, hi, h1⟩
    rw [orAll_err hs, err_bind]
    intro hall
    rw [← hops, opsBit, List.any_eq_true] at h1
    obtain ⟨o, ho, h2⟩ := h1
    rw [Bool.and_eq_true, decide_eq_true_eq] at h2
    rcases hall o ho with h3 | h3
    · rw [List.length_replicate] at h3; omega
    · rw [h3] at h2; simp at h2

end Surf
