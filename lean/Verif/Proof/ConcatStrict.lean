import Verif.Proof.ConcatOver

/-! # Which words the concatenation touches

The words named by the or-operations of the concatenation, against the length of the array: all lie inside, except
that a last level which fills the last word touches the word behind it. -/

set_option linter.unusedSectionVars false
set_option autoImplicit false

namespace Surf

/-- The number of bits, modulo 64, of the last level that has any. -/
def lastRest : List Nat → Nat
  | [] => 0
  | n :: ns => if ns.sum = 0 then n % 64 else lastRest ns

/-- Levels of these numbers of bits are concatenated without touching the word behind the last: the bits end inside a word, or the
last level is made of whole words. -/
def InsideN (ns : List Nat) : Prop := ns.sum % 64 = 0 → lastRest ns = 0

theorem wordOps_lt {sh : Nat} {ws : List Word} {wid : Nat} {o : Nat × Word} (ho : o ∈ wordOps sh ws wid) :
    64 * o.1 < 64 * wid + sh + 64 * ws.length := by
  induction ws generalizing wid with
  | nil => simp [wordOps] at ho
  | cons w ws ih =>
    rw [wordOps, List.mem_cons, List.mem_append] at ho
    simp only [List.length_cons]
    rcases ho with rfl | ho | ho
    · dsimp only; omega
    · split at ho
      · rw [List.mem_singleton] at ho; subst ho; dsimp only; omega
      · simp at ho
    · have := ih ho; omega

theorem levelOps_none {ls : List (List Word × Nat)} (h : (ls.map (·.2)).sum = 0) (wid sh : Nat) : levelOps ls wid sh = [] := by
  induction ls with
  | nil => rfl
  | cons lv ls ih =>
    obtain ⟨ws, n⟩ := lv
    simp only [List.map_cons, List.sum_cons] at h
    rw [levelOps, if_pos (by omega)]
    exact ih (by omega)

theorem lastRest_none {ns : List Nat} (h : ns.sum = 0) : lastRest ns = 0 := by
  cases ns with
  | nil => rfl
  | cons n ns =>
    simp only [List.sum_cons] at h
    rw [lastRest, if_pos (by omega)]
    have : n = 0 := by omega
    rw [this]

theorem lastRest_whole {ns : List Nat} (h : ∀ n ∈ ns, n % 64 = 0) : lastRest ns = 0 := by
  induction ns with
  | nil => rfl
  | cons n ns ih =>
    rw [lastRest]
    split
    · exact h n List.mem_cons_self
    · exact ih fun m hm => h m (List.mem_cons_of_mem _ hm)

/-- Levels made of whole words. -/
theorem InsideN.whole {ns : List Nat} (h : ∀ n ∈ ns, n % 64 = 0) : InsideN ns := fun _ => lastRest_whole h

/-- An operation behind the last bit: only at a word boundary, behind a last level that is not made of whole words. -/
theorem levelOps_over (ls : List (List Word × Nat)) (hr : ∀ lv ∈ ls, lv.2 ≤ 64 * lv.1.length) (wid sh : Nat) (hsh : sh < 64) :
    (∃ o ∈ levelOps ls wid sh, 64 * wid + sh + (ls.map (·.2)).sum ≤ 64 * o.1) ↔
      (64 * wid + sh + (ls.map (·.2)).sum) % 64 = 0 ∧ lastRest (ls.map (·.2)) ≠ 0 := by
  induction ls generalizing wid sh with
  | nil => simp [levelOps, lastRest]
  | cons lv ls ih =>
    obtain ⟨ws, n⟩ := lv
    have h1 := hr (ws, n) List.mem_cons_self
    dsimp only at h1
    have ih := ih fun l hl => hr l (List.mem_cons_of_mem _ hl)
    have hlt : (ws.take (n / 64)).length = n / 64 := by rw [List.length_take]; omega
    rw [levelOps]
    simp only [List.map_cons, List.sum_cons]
    rw [lastRest]
    by_cases h0 : n = 0
    · rw [if_pos h0]
      subst h0
      have hl : (if (ls.map (·.2)).sum = 0 then 0 % 64 else lastRest (ls.map (·.2))) = lastRest (ls.map (·.2)) := by
        split
        · rename_i hz; rw [lastRest_none hz]
        · rfl
      rw [hl, Nat.zero_add]
      exact ih wid sh hsh
    · rw [if_neg h0]
      -- the whole words
      have hw : ∀ o ∈ wordOps sh (ws.take (n / 64)) wid, ¬ (64 * wid + sh + (n + (ls.map (·.2)).sum) ≤ 64 * o.1) := by
        intro o ho
        have := wordOps_lt ho
        rw [hlt] at this
        omega
      have hsplit : ∀ os : List (Nat × Word), (∃ o ∈ wordOps sh (ws.take (n / 64)) wid ++ os,
          64 * wid + sh + (n + (ls.map (·.2)).sum) ≤ 64 * o.1) ↔ ∃ o ∈ os, 64 * wid + sh + (n + (ls.map (·.2)).sum) ≤ 64 * o.1 := by
        intro os
        constructor
        · rintro ⟨o, ho, hle⟩
          rcases List.mem_append.1 ho with h | h
          · exact absurd hle (hw o h)
          · exact ⟨o, h, hle⟩
        · rintro ⟨o, ho, hle⟩
          exact ⟨o, List.mem_append.2 (Or.inr ho), hle⟩
      rw [hsplit]
      by_cases hrem : n - n / 64 * 64 > 0
      · rw [if_pos hrem]
        simp only [List.mem_cons, exists_eq_or_imp]
        rw [or_iff_right (by omega)]
        by_cases hsm : sh + (n - n / 64 * 64) < 64
        · rw [if_pos hsm]
          have he : 64 * (wid + n / 64) + (sh + (n - n / 64 * 64)) + (ls.map (·.2)).sum = 64 * wid + sh + (n + (ls.map (·.2)).sum) := by omega
          have := ih (wid + n / 64) (sh + (n - n / 64 * 64)) hsm
          rw [he] at this
          rw [this]
          clear this he
          by_cases hz : (ls.map (·.2)).sum = 0
          · rw [if_pos hz, lastRest_none hz]
            constructor
            · rintro ⟨-, h⟩; exact absurd rfl h
            · rintro ⟨h, -⟩; omega
          · rw [if_neg hz]
        · rw [if_neg hsm]
          simp only [List.mem_cons, exists_eq_or_imp]
          have he : 64 * (wid + n / 64 + 1) + (sh + (n - n / 64 * 64) - 64) + (ls.map (·.2)).sum = 64 * wid + sh + (n + (ls.map (·.2)).sum) := by omega
          have := ih (wid + n / 64 + 1) (sh + (n - n / 64 * 64) - 64) (by omega)
          rw [he] at this
          rw [this]
          clear this he
          by_cases hz : (ls.map (·.2)).sum = 0
          · rw [if_pos hz, lastRest_none hz]
            constructor
            · rintro (h | ⟨-, h⟩)
              · omega
              · exact absurd rfl h
            · rintro ⟨h, -⟩; exact Or.inl (by omega)
          · rw [if_neg hz]
            constructor
            · rintro (h | h)
              · omega
              · exact h
            · exact Or.inr
      · rw [if_neg hrem]
        have he : 64 * (wid + n / 64) + sh + (ls.map (·.2)).sum = 64 * wid + sh + (n + (ls.map (·.2)).sum) := by omega
        have := ih (wid + n / 64) sh hsh
        rw [he] at this
        rw [this]
        clear this he
        by_cases hz : (ls.map (·.2)).sum = 0
        · rw [if_pos hz, lastRest_none hz]
          constructor
          · rintro ⟨-, h⟩; exact absurd rfl h
          · rintro ⟨-, h⟩; omega
        · rw [if_neg hz]

/-- Inside the array the operations do the same everywhere. -/
theorem orAll_env (e1 e2 : Env) (os : List (Nat × Word)) (a : List Word) (h : ∀ o ∈ os, o.1 < a.length) :
    @orAll e1 a os = @orAll e2 a os := by
  induction os generalizing a with
  | nil => rfl
  | cons o os ih =>
    have hk := h o List.mem_cons_self
    rw [@orAll_cons e1, @orAll_cons e2]
    have : @orAt e1 a o.1 o.2 = .ok (a.set o.1 (a[o.1] ||| o.2)) := by simp [orAt, hk]
    have h2 : @orAt e2 a o.1 o.2 = .ok (a.set o.1 (a[o.1] ||| o.2)) := by simp [orAt, hk]
    rw [this, h2, ok_bind, ok_bind]
    exact ih _ fun o' ho' => by rw [List.length_set]; exact h o' (List.mem_cons_of_mem _ ho')

/-- In strict C++ an operation outside the array is an error whatever it writes. -/
theorem orAll_strict [Env] (hs : Env.strict = true) (os : List (Nat × Word)) (a : List Word) (h : ∃ o ∈ os, a.length ≤ o.1) :
    orAll a os = .error .oobWrite := by
  induction os generalizing a with
  | nil => simp at h
  | cons o os ih =>
    rw [orAll_cons]
    by_cases hk : o.1 < a.length
    · obtain ⟨a1, e, l, -⟩ := orAt_ok (x := o.2) hk
      rw [e, ok_bind]
      refine ih a1 ?_
      obtain ⟨o', ho', hle⟩ := h
      rcases List.mem_cons.1 ho' with rfl | ho'
      · omega
      · exact ⟨o', ho', by omega⟩
    · have : orAt a o.1 o.2 = .error .oobWrite := by
        unfold orAt
        rw [List.getElem?_eq_none (by omega)]
        simp [hs]
      rw [this, err_bind]

/-- A machine on which a zero or-operation behind the array has no effect. -/
def Env.lax : Env := { Env.iso with strict := false }

/-- The constructor of `Bitvector`, in strict C++ too. -/
theorem Bitvector.mk'_strict [Env] {lvs : List (List Word × Nat)} {xss : List (List Bool)}
    (hlv : List.Forall₂ LevelBits lvs xss) (h32 : xss.flatten.length < M32) :
    (¬ (xss.flatten.length % 64 = 0 ∧ lastRest (lvs.map (·.2)) ≠ 0) → ∃ b, Bitvector.mk' lvs = .ok b ∧ b.Rep xss.flatten) ∧
    (Env.strict = true → xss.flatten.length % 64 = 0 → lastRest (lvs.map (·.2)) ≠ 0 → Bitvector.mk' lvs = .error .oobWrite) := by
  have hroom : ∀ lv ∈ lvs, lv.2 ≤ 64 * lv.1.length := by
    clear h32
    induction hlv with
    | nil => simp
    | cons h1 h2 ih =>
      intro lv hl
      rcases List.mem_cons.1 hl with rfl | hl
      · rw [h1.num]; exact h1.room
      · exact ih lv hl
  have hsum := levels_sum hlv
  have htot : totalNumBits (lvs.map (·.2)) = xss.flatten.length := by
    unfold totalNumBits
    rw [hsum, u32, Nat.mod_eq_of_lt h32]
  have hlax := @Bitvector.mk'_ok Env.lax rfl lvs xss hlv h32
  have hov := levelOps_over lvs hroom 0 0 (by omega)
  rw [hsum] at hov
  simp only [Nat.mul_zero, Nat.zero_add] at hov
  have hmk : ∀ e : Env, @Bitvector.mk' e lvs = @orAll e (List.replicate
      (if xss.flatten.length % 64 = 0 then xss.flatten.length / 64 else xss.flatten.length / 64 + 1) 0) (levelOps lvs 0 0) >>=
        fun bits => .ok ⟨xss.flatten.length, bits⟩ := by
    intro e
    unfold Bitvector.mk'
    dsimp only
    rw [htot, concatLevels_ops _ hroom _ _ _ (by omega)]
    rfl
  constructor
  · intro hn
    rw [hmk] at hlax ⊢
    rw [orAll_env _ Env.lax]
    · exact hlax
    · intro o ho
      rw [List.length_replicate]
      by_contra hc
      exact hn (hov.1 ⟨o, ho, by split at hc <;> omega⟩)
  · intro hs h1 h2
    rw [hmk, orAll_strict hs]
    · rfl
    · obtain ⟨o, ho, hle⟩ := hov.2 ⟨h1, h2⟩
      exact ⟨o, ho, by rw [List.length_replicate, if_pos h1]; omega⟩

/-- The constructor of `Bitvector`, on machines that ignore a zero or-operation behind an array, or if there is none. -/
theorem Bitvector.mk'_in [Env] {lvs : List (List Word × Nat)} {xss : List (List Bool)} (hs : Env.strict = false ∨ InsideN (lvs.map (·.2)))
    (hlv : List.Forall₂ LevelBits lvs xss) (h32 : xss.flatten.length < M32) :
    ∃ b, Bitvector.mk' lvs = .ok b ∧ b.Rep xss.flatten := by
  rcases hs with hs | hs
  · exact Bitvector.mk'_ok hs hlv h32
  · refine (Bitvector.mk'_strict hlv h32).1 ?_
    rintro ⟨h1, h2⟩
    rw [← levels_sum hlv] at h1
    exact h2 (hs h1)

end Surf
