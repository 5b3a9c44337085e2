import Verif.Proof.SparseNav

/-!
# Neighbours in the list of leaf strings

First and last leaf below a node, next and previous leaf.
-/

set_option autoImplicit false

namespace Surf
open Trie

variable {ts : List Str}

/-- `t` is the first leaf below `p`. -/
def IsLeft (ts : List Str) (p t : Str) : Prop := t ∈ ts ∧ p <+: t ∧ ∀ t' ∈ ts, p <+: t' → t ≤ t'

/-- `t` is the last leaf below `p`. -/
def IsRight (ts : List Str) (p t : Str) : Prop := t ∈ ts ∧ p <+: t ∧ ∀ t' ∈ ts, p <+: t' → t' ≤ t

/-- `t` is the first leaf behind the leaves below `p`. -/
def IsNext (ts : List Str) (p t : Str) : Prop :=
  t ∈ ts ∧ p < t ∧ ¬ p <+: t ∧ ∀ t' ∈ ts, p < t' → ¬ p <+: t' → t ≤ t'

/-- There is none. -/
def NoNext (ts : List Str) (p : Str) : Prop := ∀ t' ∈ ts, p < t' → p <+: t'

/-- `t` is the last leaf before the leaves below `p`. -/
def IsPrev (ts : List Str) (p t : Str) : Prop := t ∈ ts ∧ t < p ∧ ∀ t' ∈ ts, t' < p → t' ≤ t

/-- There is none. -/
def NoPrev (ts : List Str) (p : Str) : Prop := ∀ t' ∈ ts, ¬ t' < p

theorem snoc_lt_of_prefix {x a b : Str} {c d : Nat} (ha : x ++ [c] <+: a) (hb : x ++ [d] <+: b) (h : c < d) : a < b := by
  obtain ⟨r, rfl⟩ := ha
  obtain ⟨r', rfl⟩ := hb
  rw [List.append_assoc, List.append_assoc, lt_append]
  exact List.cons_lt_cons_iff.2 (Or.inl h)

theorem append_lt {x t : Str} (h1 : x < t) (h : ¬ x <+: t) (r : Str) : x ++ r < t := by
  induction x generalizing t with
  | nil => exact absurd (List.nil_prefix) h
  | cons a x ih =>
    cases t with
    | nil => simp at h1
    | cons b t =>
      rw [List.cons_append, List.cons_lt_cons_iff]
      rw [List.cons_lt_cons_iff] at h1
      rcases h1 with h1 | ⟨rfl, h1⟩
      · exact Or.inl h1
      · exact Or.inr ⟨rfl, ih h1 (fun hc => h (List.cons_prefix_cons.2 ⟨rfl, hc⟩))⟩

theorem le_append (x r : Str) : x ≤ x ++ r := by
  rcases eq_or_ne r [] with rfl | hr
  · simp
  · exact le_of_lt (lt_of_prefix ⟨r, rfl⟩ (by simpa using hr))

theorem lt_append_iff {x t : Str} {r : Str} (h : ¬ x <+: t) : x ++ r < t ↔ x < t :=
  ⟨fun h1 => lt_of_le_of_lt (le_append x r) h1, fun h1 => append_lt h1 h r⟩

/-- A string below `x ++ r` that does not extend `x` is below `x`. -/
theorem lt_of_lt_append {x t r : Str} (h : ¬ x <+: t) (h1 : t < x ++ r) : t < x := by
  rcases lt_trichotomy t x with h2 | rfl | h2
  · exact h2
  · exact absurd (List.prefix_refl _) h
  · exact absurd (append_lt h2 h r) (not_lt.2 (le_of_lt h1))

theorem snoc_of_int (h : WF ts) {x t : Str} (hx : isInt ts x = true) (ht : t ∈ ts) (hp : x <+: t) :
    ∃ c, x ++ [c] <+: t ∧ ex ts (x ++ [c]) = true := by
  obtain ⟨r, rfl⟩ := hp
  cases r with
  | nil => rw [List.append_nil] at ht; rw [(leaf_of_ex h (ex_mem ht)).2 ht] at hx; cases hx
  | cons c r =>
    have : x ++ [c] <+: x ++ c :: r := ⟨r, by simp⟩
    exact ⟨c, this, ex_iff.2 ⟨_, ht, this⟩⟩

theorem IsLeft.unique {p t t' : Str} (h : IsLeft ts p t) (h' : IsLeft ts p t') : t = t' :=
  le_antisymm (h.2.2 _ h'.1 h'.2.1) (h'.2.2 _ h.1 h.2.1)

theorem IsRight.unique {p t t' : Str} (h : IsRight ts p t) (h' : IsRight ts p t') : t = t' :=
  le_antisymm (h'.2.2 _ h.1 h.2.1) (h.2.2 _ h'.1 h'.2.1)

theorem IsNext.unique {p t t' : Str} (h : IsNext ts p t) (h' : IsNext ts p t') : t = t' :=
  le_antisymm (h.2.2.2 _ h'.1 h'.2.1 h'.2.2.1) (h'.2.2.2 _ h.1 h.2.1 h.2.2.1)

theorem IsPrev.unique {p t t' : Str} (h : IsPrev ts p t) (h' : IsPrev ts p t') : t = t' :=
  le_antisymm (h'.2.2 _ h.1 h.2.1) (h.2.2 _ h'.1 h'.2.1)

theorem isLeft_leaf (h : WF ts) {t : Str} (ht : t ∈ ts) : IsLeft ts t t :=
  ⟨ht, List.prefix_refl _, fun t' ht' hp => le_of_eq (h.pf t ht t' ht' hp)⟩

theorem isRight_leaf (h : WF ts) {t : Str} (ht : t ∈ ts) : IsRight ts t t :=
  ⟨ht, List.prefix_refl _, fun t' ht' hp => le_of_eq (h.pf t ht t' ht' hp).symm⟩

/-- Step down to the first child. -/
theorem IsLeft.up (h : WF ts) {x t : Str} {c : Nat} (hl : IsLeft ts (x ++ [c]) t)
    (hc : ∀ d, d < c → ex ts (x ++ [d]) = false) : IsLeft ts x t := by
  obtain ⟨h1, h2, h3⟩ := hl
  have hi : isInt ts x = true := int_of_ex_snoc (ex_iff.2 ⟨t, h1, h2⟩)
  refine ⟨h1, (List.prefix_append _ _).trans h2, fun t' ht' hp => ?_⟩
  obtain ⟨d, hd, he⟩ := snoc_of_int h hi ht' hp
  rcases lt_trichotomy d c with h4 | rfl | h4
  · rw [hc d h4] at he; cases he
  · exact h3 t' ht' hd
  · exact le_of_lt (snoc_lt_of_prefix h2 hd h4)

/-- Step down to the last child. -/
theorem IsRight.up (h : WF ts) {x t : Str} {c : Nat} (hl : IsRight ts (x ++ [c]) t)
    (hc : ∀ d, c < d → ex ts (x ++ [d]) = false) : IsRight ts x t := by
  obtain ⟨h1, h2, h3⟩ := hl
  have hi : isInt ts x = true := int_of_ex_snoc (ex_iff.2 ⟨t, h1, h2⟩)
  refine ⟨h1, (List.prefix_append _ _).trans h2, fun t' ht' hp => ?_⟩
  obtain ⟨d, hd, he⟩ := snoc_of_int h hi ht' hp
  rcases lt_trichotomy c d with h4 | rfl | h4
  · rw [hc d h4] at he; cases he
  · exact h3 t' ht' hd
  · exact le_of_lt (snoc_lt_of_prefix hd h2 h4)

/-- The next leaf is the first one below the next sibling. -/
theorem IsLeft.next (h : WF ts) {x t : Str} {c c' : Nat} (hl : IsLeft ts (x ++ [c']) t) (hcc : c < c')
    (hc : ∀ d, c < d → d < c' → ex ts (x ++ [d]) = false) : IsNext ts (x ++ [c]) t := by
  obtain ⟨h1, h2, h3⟩ := hl
  have hi : isInt ts x = true := int_of_ex_snoc (ex_iff.2 ⟨t, h1, h2⟩)
  refine ⟨h1, snoc_lt_of_prefix (List.prefix_refl _) h2 hcc, ?_, fun t' ht' hlt hp => ?_⟩
  · intro hp
    rcases List.prefix_or_prefix_of_prefix hp h2 with h4 | h4
    · have := h4.eq_of_length (by simp); simp at this; omega
    · have := h4.eq_of_length (by simp); simp at this; omega
  · by_cases hx : x <+: t'
    · obtain ⟨d, hd, he⟩ := snoc_of_int h hi ht' hx
      rcases lt_trichotomy d c' with h4 | rfl | h4
      · rcases lt_trichotomy d c with h5 | rfl | h5
        · exact absurd hlt (not_lt.2 (le_of_lt (snoc_lt_of_prefix hd (List.prefix_refl _) h5)))
        · exact absurd hd hp
        · rw [hc d h5 h4] at he; cases he
      · exact h3 t' ht' hd
      · exact le_of_lt (snoc_lt_of_prefix h2 hd h4)
    · obtain ⟨r, rfl⟩ := (List.prefix_append x [c']).trans h2
      exact le_of_lt (append_lt ((lt_append_iff hx).1 hlt) hx r)

/-- Without a later sibling the next leaf is the next leaf of the parent. -/
theorem IsNext.up (h : WF ts) {x t : Str} {c : Nat} (hx : isInt ts x = true)
    (hc : ∀ d, c < d → ex ts (x ++ [d]) = false) (hn : IsNext ts x t) : IsNext ts (x ++ [c]) t := by
  obtain ⟨h1, h2, h3, h4⟩ := hn
  refine ⟨h1, append_lt h2 h3 _, fun hp => h3 ((List.prefix_append _ _).trans hp), fun t' ht' hlt hp => ?_⟩
  by_cases hxt : x <+: t'
  · obtain ⟨d, hd, he⟩ := snoc_of_int h hx ht' hxt
    rcases lt_trichotomy d c with h5 | rfl | h5
    · exact absurd hlt (not_lt.2 (le_of_lt (snoc_lt_of_prefix hd (List.prefix_refl _) h5)))
    · exact absurd hd hp
    · rw [hc d h5] at he; cases he
  · exact h4 t' ht' ((lt_append_iff hxt).1 hlt) hxt

theorem NoNext.up (h : WF ts) {x : Str} {c : Nat} (hx : isInt ts x = true)
    (hc : ∀ d, c < d → ex ts (x ++ [d]) = false) (hn : NoNext ts x) : NoNext ts (x ++ [c]) := by
  intro t' ht' hlt
  by_cases hxt : x <+: t'
  · obtain ⟨d, hd, he⟩ := snoc_of_int h hx ht' hxt
    rcases lt_trichotomy d c with h5 | rfl | h5
    · exact absurd hlt (not_lt.2 (le_of_lt (snoc_lt_of_prefix hd (List.prefix_refl _) h5)))
    · exact hd
    · rw [hc d h5] at he; cases he
  · exact absurd (hn t' ht' ((lt_append_iff hxt).1 hlt)) hxt

theorem noNext_root : NoNext ts [] := fun _ _ _ => List.nil_prefix

theorem noPrev_root : NoPrev ts [] := fun _ _ h => by simp at h

/-- The previous leaf is the last one below the previous sibling. -/
theorem IsRight.prev (h : WF ts) {x t : Str} {c c' : Nat} (hl : IsRight ts (x ++ [c']) t) (hcc : c' < c)
    (hc : ∀ d, c' < d → d < c → ex ts (x ++ [d]) = false) : IsPrev ts (x ++ [c]) t := by
  obtain ⟨h1, h2, h3⟩ := hl
  have hi : isInt ts x = true := int_of_ex_snoc (ex_iff.2 ⟨t, h1, h2⟩)
  refine ⟨h1, snoc_lt_of_prefix h2 (List.prefix_refl _) hcc, fun t' ht' hlt => ?_⟩
  by_cases hx : x <+: t'
  · obtain ⟨d, hd, he⟩ := snoc_of_int h hi ht' hx
    rcases lt_trichotomy c' d with h4 | rfl | h4
    · rcases lt_or_ge d c with h5 | h5
      · rw [hc d h4 h5] at he; cases he
      · refine absurd hlt (not_lt.2 ?_)
        rcases h5.lt_or_eq with h6 | rfl
        · exact le_of_lt (snoc_lt_of_prefix (List.prefix_refl _) hd h6)
        · obtain ⟨r, rfl⟩ := hd; exact le_append _ _
    · exact h3 t' ht' hd
    · exact le_of_lt (snoc_lt_of_prefix hd h2 h4)
  · have h4 := lt_of_lt_append hx hlt
    obtain ⟨r, rfl⟩ := (List.prefix_append x [c']).trans h2
    exact le_of_lt (lt_of_lt_of_le h4 (le_append _ _))

theorem lt_parent (h : WF ts) {x t' : Str} {c : Nat} (hx : isInt ts x = true)
    (hc : ∀ d, d < c → ex ts (x ++ [d]) = false) (ht' : t' ∈ ts) (hlt : t' < x ++ [c]) : t' < x := by
  by_cases hxt : x <+: t'
  · obtain ⟨d, hd, he⟩ := snoc_of_int h hx ht' hxt
    rcases lt_or_ge d c with h5 | h5
    · rw [hc d h5] at he; cases he
    · refine absurd hlt (not_lt.2 ?_)
      rcases h5.lt_or_eq with h6 | rfl
      · exact le_of_lt (snoc_lt_of_prefix (List.prefix_refl _) hd h6)
      · obtain ⟨r, rfl⟩ := hd; exact le_append _ _
  · exact lt_of_lt_append hxt hlt

theorem IsPrev.up (h : WF ts) {x t : Str} {c : Nat} (hx : isInt ts x = true)
    (hc : ∀ d, d < c → ex ts (x ++ [d]) = false) (hn : IsPrev ts x t) : IsPrev ts (x ++ [c]) t :=
  ⟨hn.1, lt_of_lt_of_le hn.2.1 (le_append _ _), fun t' ht' hlt => hn.2.2 t' ht' (lt_parent h hx hc ht' hlt)⟩

theorem NoPrev.up (h : WF ts) {x : Str} {c : Nat} (hx : isInt ts x = true)
    (hc : ∀ d, d < c → ex ts (x ++ [d]) = false) (hn : NoPrev ts x) : NoPrev ts (x ++ [c]) :=
  fun t' ht' hlt => hn t' ht' (lt_parent h hx hc ht' hlt)

/-- Least and greatest elements of the leaves with a property. -/
theorem exists_min (h : WF ts) {P : Str → Prop} (hP : ∃ t ∈ ts, P t) : ∃ t ∈ ts, P t ∧ ∀ t' ∈ ts, P t' → t ≤ t' := by
  have hs := h.sorted
  clear h
  induction ts with
  | nil => simp at hP
  | cons a ts ih =>
    rw [List.pairwise_cons] at hs
    by_cases ha : P a
    · refine ⟨a, by simp, ha, fun t' ht' _ => ?_⟩
      rcases List.mem_cons.1 ht' with rfl | h1
      · exact le_refl _
      · exact le_of_lt (hs.1 _ h1)
    · obtain ⟨t, ht, h1, h2⟩ := ih (by
        obtain ⟨t, ht, h1⟩ := hP
        rcases List.mem_cons.1 ht with rfl | h3
        · exact absurd h1 ha
        · exact ⟨t, h3, h1⟩) hs.2
      refine ⟨t, by simp [ht], h1, fun t' ht' h3 => ?_⟩
      rcases List.mem_cons.1 ht' with rfl | h4
      · exact absurd h3 ha
      · exact h2 t' h4 h3

theorem exists_max (h : WF ts) {P : Str → Prop} (hP : ∃ t ∈ ts, P t) : ∃ t ∈ ts, P t ∧ ∀ t' ∈ ts, P t' → t' ≤ t := by
  have hs := h.sorted
  clear h
  induction ts with
  | nil => simp at hP
  | cons a ts ih =>
    rw [List.pairwise_cons] at hs
    by_cases hr : ∃ t ∈ ts, P t
    · obtain ⟨t, ht, h1, h2⟩ := ih hr hs.2
      refine ⟨t, by simp [ht], h1, fun t' ht' h3 => ?_⟩
      rcases List.mem_cons.1 ht' with rfl | h4
      · exact le_of_lt (hs.1 _ ht)
      · exact h2 t' h4 h3
    · obtain ⟨t, ht, h1⟩ := hP
      rcases List.mem_cons.1 ht with rfl | h3
      · refine ⟨t, by simp, h1, fun t' ht' h3 => ?_⟩
        rcases List.mem_cons.1 ht' with rfl | h4
        · exact le_refl _
        · exact absurd ⟨t', h4, h3⟩ hr
      · exact absurd ⟨t, h3, h1⟩ hr

theorem exists_left (h : WF ts) {p : Str} (he : ex ts p = true) : ∃ t, IsLeft ts p t := by
  obtain ⟨t, h1, h2, h3⟩ := exists_min h (ex_iff.1 he)
  exact ⟨t, h1, h2, h3⟩

theorem exists_right (h : WF ts) {p : Str} (he : ex ts p = true) : ∃ t, IsRight ts p t := by
  obtain ⟨t, h1, h2, h3⟩ := exists_max h (ex_iff.1 he)
  exact ⟨t, h1, h2, h3⟩

theorem next_or (h : WF ts) (p : Str) : NoNext ts p ∨ ∃ t, IsNext ts p t := by
  by_cases hc : ∃ t ∈ ts, p < t ∧ ¬ p <+: t
  · obtain ⟨t, h1, ⟨h2, h3⟩, h4⟩ := exists_min h hc
    exact Or.inr ⟨t, h1, h2, h3, fun t' ht' h5 h6 => h4 t' ht' ⟨h5, h6⟩⟩
  · refine Or.inl fun t ht hlt => ?_
    by_contra hp
    exact hc ⟨t, ht, hlt, hp⟩

theorem prev_or (h : WF ts) (p : Str) : NoPrev ts p ∨ ∃ t, IsPrev ts p t := by
  by_cases hc : ∃ t ∈ ts, t < p
  · obtain ⟨t, h1, h2, h3⟩ := exists_max h hc
    exact Or.inr ⟨t, h1, h2, fun t' ht' h5 => h3 t' ht' h5⟩
  · exact Or.inl fun t ht hlt => hc ⟨t, ht, hlt⟩

/-- The first child of an internal node. -/
theorem exists_first (h : WF ts) {x : Str} (hx : isInt ts x = true) :
    ∃ c, ex ts (x ++ [c]) = true ∧ ∀ d, d < c → ex ts (x ++ [d]) = false := by
  classical
  have : ∃ c, ex ts (x ++ [c]) = true := by
    obtain ⟨t, ht, hp⟩ := ex_iff.1 (ex_of_int hx)
    obtain ⟨c, -, he⟩ := snoc_of_int h hx ht hp
    exact ⟨c, he⟩
  exact ⟨Nat.find this, Nat.find_spec this, fun d hd => by simpa using Nat.find_min this hd⟩

/-- The first child with a byte greater or equal `c`, or none. -/
theorem next_kid (ts : List Str) (x : Str) (c : Nat) :
    (∀ d, c ≤ d → ex ts (x ++ [d]) = false) ∨
    ∃ c', c ≤ c' ∧ ex ts (x ++ [c']) = true ∧ ∀ d, c ≤ d → d < c' → ex ts (x ++ [d]) = false := by
  classical
  by_cases hc : ∃ c', c ≤ c' ∧ ex ts (x ++ [c']) = true
  · refine Or.inr ⟨Nat.find hc, (Nat.find_spec hc).1, (Nat.find_spec hc).2, fun d h1 h2 => ?_⟩
    have := Nat.find_min hc h2
    simpa [h1] using this
  · refine Or.inl fun d hd => ?_
    by_contra h
    exact hc ⟨d, hd, by simpa using h⟩

/-- The last child with a symbol below `c`, or none. -/
theorem prev_kid (ts : List Str) (x : Str) (c : Nat) :
    (∀ d, d < c → ex ts (x ++ [d]) = false) ∨
    ∃ c', c' < c ∧ ex ts (x ++ [c']) = true ∧ ∀ d, c' < d → d < c → ex ts (x ++ [d]) = false := by
  induction c with
  | zero => exact Or.inl fun d hd => by omega
  | succ c ih =>
    by_cases hc : ex ts (x ++ [c]) = true
    · exact Or.inr ⟨c, by omega, hc, fun d h1 h2 => by omega⟩
    · have hc' : ex ts (x ++ [c]) = false := by simpa using hc
      rcases ih with h | ⟨c', h1, h2, h3⟩
      · refine Or.inl fun d hd => ?_
        rcases Nat.lt_succ_iff_lt_or_eq.1 hd with h1 | rfl
        · exact h d h1
        · exact hc'
      · refine Or.inr ⟨c', by omega, h2, fun d h4 h5 => ?_⟩
        rcases Nat.lt_succ_iff_lt_or_eq.1 h5 with h6 | rfl
        · exact h3 d h4 h6
        · exact hc'

/-- A node other than a root without keys has a child that is not the terminator. -/
theorem exists_byte (h : WF ts) {x : Str} (hx : isInt ts x = true) (hx0 : x ≠ []) :
    ∃ c, ex ts (x ++ [c + 1]) = true ∧ ∀ d, d < c → ex ts (x ++ [d + 1]) = false := by
  rcases next_kid ts x 1 with h1 | ⟨c, h1, h2, h3⟩
  · obtain ⟨c, hc, -⟩ := exists_first h hx
    have h0 : c = 0 := by
      by_contra h0
      rw [h1 c (by omega)] at hc; cases hc
    subst h0
    have hm : x ++ [0] ∈ ts := (leaf_of_ex h hc).1 (isInt_term h x)
    obtain ⟨c', hne, he⟩ := two_kids h hx0 hm
    rw [h1 c' (by omega)] at he; cases he
  · obtain ⟨c, rfl⟩ : ∃ e, c = e + 1 := ⟨c - 1, by omega⟩
    exact ⟨c, h2, fun d hd => h3 (d + 1) (by omega) (by omega)⟩

end Surf
