import Verif.Proof.SparseNav
import Verif.Proof.Order

/-! # Counting nodes and leaves in level order -/

set_option linter.unusedSectionVars false
set_option autoImplicit false

namespace Surf
open Trie

/-- In level order `y` comes before the place of `q` among the strings of length `m`. -/
def bef (m : Nat) (q y : Str) : Bool := decide (y.length < m ∨ (y.length = m ∧ y < q))

theorem bef_iff {m : Nat} {q y : Str} : bef m q y = true ↔ y.length < m ∨ (y.length = m ∧ y < q) := by
  simp [bef]

/-- Number of nodes before a place. -/
def nIdx (ts : List Str) (m : Nat) (q : Str) : Nat := ((nodesR ts 0 (maxLen ts + 1)).filter (bef m q)).length

/-- Number of leaves before a place. -/
def lIdx (ts : List Str) (m : Nat) (q : Str) : Nat := (ts.filter (bef m q)).length

section
variable {ts : List Str}

theorem nIdx_congr {m : Nat} {q q' : Str} (h : ∀ y, isInt ts y = true → y.length = m → (y < q ↔ y < q')) :
    nIdx ts m q = nIdx ts m q' := by
  unfold nIdx
  congr 1
  apply List.filter_congr
  intro y hy
  have hi := (mem_nodesR.1 hy).2.2
  by_cases e : y.length = m
  · simp [bef, e, h y hi e]
  · simp [bef, e]

theorem lIdx_congr {m : Nat} {q q' : Str} (h : ∀ t ∈ ts, t.length = m → (t < q ↔ t < q')) : lIdx ts m q = lIdx ts m q' := by
  unfold lIdx
  congr 1
  apply List.filter_congr
  intro y hy
  by_cases e : y.length = m
  · simp [bef, e, h y hy e]
  · simp [bef, e]

/-- Level order of the nodes. -/
theorem nodesR_bef (h : WF ts) (a b : Nat) : (nodesR ts a b).Pairwise fun x y => bef y.length y x = true := by
  unfold nodesR
  rw [List.pairwise_flatMap]
  constructor
  · intro l _
    refine (nodes_sorted h.sorted l).imp_of_mem ?_
    intro x y hx hy hxy
    rw [bef_iff]
    right
    exact ⟨by rw [(mem_nodes.1 hx).1, (mem_nodes.1 hy).1], hxy⟩
  · refine (List.pairwise_lt_range' (s := a) (n := b - a)).imp ?_
    intro i j hij x hx y hy
    rw [bef_iff]
    left
    rw [(mem_nodes.1 hx).1, (mem_nodes.1 hy).1]
    exact hij

theorem bef_asymm {x y : Str} (h : bef y.length y x = true) : ¬ bef x.length x y = true := by
  rw [bef_iff] at h ⊢
  rintro (h1 | ⟨h1, h2⟩)
  · omega
  · rcases h with h | ⟨-, h⟩
    · omega
    · exact lt_asymm h h2

theorem bef_total {x y : Str} (hne : x ≠ y) : bef y.length y x = true ∨ bef x.length x y = true := by
  rw [bef_iff, bef_iff]
  rcases Nat.lt_trichotomy x.length y.length with h | h | h
  · exact Or.inl (Or.inl h)
  · rcases lt_trichotomy x y with h1 | h1 | h1
    · exact Or.inl (Or.inr ⟨h, h1⟩)
    · exact absurd h1 hne
    · exact Or.inr (Or.inr ⟨h.symm, h1⟩)
  · exact Or.inr (Or.inl h)

/-- The nodes listed before `x`. -/
theorem mem_front (h : WF ts) {a b : Nat} {A C : List Str} {x : Str} (e : nodesR ts a b = A ++ x :: C) {y : Str} :
    y ∈ A ↔ y ∈ nodesR ts a b ∧ bef x.length x y = true := by
  have hp := nodesR_bef h a b
  rw [e, List.pairwise_append] at hp
  constructor
  · intro hy
    exact ⟨by rw [e]; simp [hy], hp.2.2 y hy x (by simp)⟩
  · rintro ⟨hy, hb⟩
    rw [e] at hy
    rcases List.mem_append.1 hy with hy | hy
    · exact hy
    · rcases List.mem_cons.1 hy with rfl | hy
      · rw [bef_iff] at hb
        rcases hb with hb | ⟨-, hb⟩
        · omega
        · exact absurd hb (lt_irrefl _)
      · exact absurd hb (bef_asymm ((List.pairwise_cons.1 hp.2.1).1 y hy))

/-- The items listed before a symbol of a node. -/
theorem mem_before (h : WF ts) {a b : Nat} {A C : List Str} {x : Str} (e : nodesR ts a b = A ++ x :: C) {c : Nat} {p : Str} :
    p ∈ before ts A x c ↔ ex ts p = true ∧ a < p.length ∧ bef (x.length + 1) (x ++ [c]) p = true := by
  have hx : x ∈ nodesR ts a b := by rw [e]; simp
  obtain ⟨hx1, hx2, hx3⟩ := mem_nodesR.1 hx
  unfold before
  rw [List.mem_append, List.mem_flatMap, mem_kidsLT]
  constructor
  · rintro (⟨y, hy, hp⟩ | ⟨d, hd, rfl, he⟩)
    · obtain ⟨⟨d, rfl⟩, hex⟩ := mem_kidItems.1 hp
      obtain ⟨hy1, hy2⟩ := (mem_front h e).1 hy
      obtain ⟨h1, h2, h3⟩ := mem_nodesR.1 hy1
      refine ⟨ex_iff.2 hex, by simp; omega, ?_⟩
      rw [bef_iff] at hy2 ⊢
      rcases hy2 with hy2 | ⟨hy2, hy3⟩
      · left; simp; omega
      · right
        exact ⟨by simp [hy2], lt_append_of_lt hy2 hy3⟩
    · refine ⟨he, by simp; omega, ?_⟩
      rw [bef_iff]
      right
      exact ⟨by simp, lt_append.2 (by simp [List.cons_lt_cons_iff, hd])⟩
  · rintro ⟨he, ha, hb⟩
    have hne : p ≠ [] := by rintro rfl; simp at ha
    obtain ⟨y, d, rfl⟩ : ∃ y d, p = y ++ [d] := ⟨p.dropLast, p.getLast hne, (List.dropLast_append_getLast hne).symm⟩
    have hy := int_of_ex_snoc he
    rw [bef_iff] at hb
    simp only [List.length_append, List.length_singleton] at hb ha
    by_cases hyx : y = x
    · subst hyx
      right
      rcases hb with hb | ⟨-, hb⟩
      · omega
      · exact ⟨d, by simpa [lt_append, List.cons_lt_cons_iff] using hb, rfl, he⟩
    · left
      refine ⟨y, ?_, mem_kidItems.2 ⟨⟨d, rfl⟩, ex_iff.1 he⟩⟩
      rw [mem_front h e]
      refine ⟨mem_nodesR.2 ⟨by omega, by omega, hy⟩, ?_⟩
      rw [bef_iff]
      rcases hb with hb | ⟨h1, h2⟩
      · left; omega
      · right
        refine ⟨by omega, ?_⟩
        have h3 := take_le_of_lt h2 y.length
        rw [List.take_left, show y.length = x.length by omega, List.take_left] at h3
        exact lt_of_le_of_ne h3 hyx

theorem before_nodup (h : WF ts) {a b : Nat} {A C : List Str} {x : Str} (e : nodesR ts a b = A ++ x :: C) {c : Nat}
    (hc : c ≤ 257) : (before ts A x c).Nodup := by
  have h1 := items_nodup h.sorted a b
  rw [items_eq h.sorted, e] at h1
  refine h1.sublist ?_
  unfold before
  rw [List.flatMap_append, List.flatMap_cons]
  refine List.Sublist.append (List.Sublist.refl _) ?_
  refine List.Sublist.trans ?_ (List.sublist_append_left _ _)
  rw [kidItems_eq h]
  exact (kidsLT_prefix x hc).sublist

/-- Leaves before a symbol of a node. -/
theorem before_leaf (h : WF ts) {a b : Nat} {A C : List Str} {x : Str} (e : nodesR ts a b = A ++ x :: C) {c : Nat}
    (hc : c ≤ 257) :
    (before ts A x c).countP (fun p => !isInt ts p) + (ts.filter fun t => decide (t.length ≤ a)).length =
      lIdx ts (x.length + 1) (x ++ [c]) := by
  have hx : x ∈ nodesR ts a b := by rw [e]; simp
  have hx1 := (mem_nodesR.1 hx).1
  have hnd : ts.Nodup := h.sorted.imp (fun h => ne_of_lt h)
  unfold lIdx
  rw [List.countP_eq_length_filter, ← List.length_append]
  apply List.Perm.length_eq
  rw [List.perm_ext_iff_of_nodup]
  · intro p
    rw [List.mem_append, List.mem_filter, List.mem_filter, List.mem_filter, mem_before h e]
    constructor
    · rintro (⟨⟨h1, h2, h3⟩, h4⟩ | ⟨h1, h2⟩)
      · exact ⟨(leaf_of_ex h h1).1 (by simpa using h4), h3⟩
      · refine ⟨h1, bef_iff.2 (Or.inl ?_)⟩
        simp at h2
        omega
    · rintro ⟨h1, h2⟩
      by_cases h3 : p.length ≤ a
      · right; exact ⟨h1, by simp [h3]⟩
      · left
        exact ⟨⟨ex_mem h1, by omega, h2⟩, by simp [h.isInt_leaf h1]⟩
  · rw [List.nodup_append]
    refine ⟨(before_nodup h e hc).filter _, hnd.filter _, ?_⟩
    rintro p hp q hq rfl
    rw [List.mem_filter, mem_before h e] at hp
    have := (List.mem_filter.1 hq).2
    simp at this
    omega
  · exact hnd.filter _

/-- Nodes before a symbol of a node. -/
theorem before_int (h : WF ts) {a b : Nat} {A C : List Str} {x : Str} (e : nodesR ts a b = A ++ x :: C) {c : Nat}
    (hc : c ≤ 257) :
    (before ts A x c).countP (isInt ts) + (nodesR ts 0 (a + 1)).length = nIdx ts (x.length + 1) (x ++ [c]) := by
  have hx : x ∈ nodesR ts a b := by rw [e]; simp
  have hx1 := (mem_nodesR.1 hx).1
  unfold nIdx
  rw [List.countP_eq_length_filter, ← List.length_append]
  apply List.Perm.length_eq
  rw [List.perm_ext_iff_of_nodup]
  · intro p
    rw [List.mem_append, List.mem_filter, List.mem_filter, mem_before h e, mem_nodesR, mem_nodesR]
    constructor
    · rintro (⟨⟨h1, h2, h3⟩, h4⟩ | ⟨h1, h2, h3⟩)
      · have := int_length_lt h4
        exact ⟨⟨by omega, by omega, h4⟩, h3⟩
      · have := int_length_lt h3
        exact ⟨⟨by omega, by omega, h3⟩, bef_iff.2 (Or.inl (by omega))⟩
    · rintro ⟨⟨-, h1, h2⟩, h3⟩
      by_cases h4 : p.length ≤ a
      · right; exact ⟨by omega, by omega, h2⟩
      · left
        exact ⟨⟨ex_of_int h2, by omega, h3⟩, h2⟩
  · rw [List.nodup_append]
    refine ⟨(before_nodup h e hc).filter _, nodesR_nodup h.sorted _ _, ?_⟩
    rintro p hp q hq rfl
    rw [List.mem_filter, mem_before h e] at hp
    have := (mem_nodesR.1 hq).2.1
    omega
  · exact (nodesR_nodup h.sorted _ _).filter _

/-- The nodes before the place of a node. -/
theorem nIdx_node (h : WF ts) {x : Str} (hx : isInt ts x = true) : nIdx ts x.length x = num ts x := by
  obtain ⟨A, C, e, e2⟩ := nodes_at h hx (Nat.zero_le _) (Nat.lt_succ_of_lt (int_length_lt hx)) (le_refl _)
  have h0 : (nodesR ts 0 0).length = 0 := by simp [nodesR]
  rw [← e2, h0, Nat.zero_add]
  unfold nIdx
  apply List.Perm.length_eq
  have hnd := nodesR_nodup h.sorted 0 (maxLen ts + 1)
  rw [List.perm_ext_iff_of_nodup (hnd.filter _)]
  · intro p
    rw [List.mem_filter, mem_front h e]
  · rw [e] at hnd
    exact (List.nodup_append.1 hnd).1

/-- The first node of a level that is not below `q`, and what its number is; or all are below. -/
theorem nIdx_next (h : WF ts) (m : Nat) (hm : m ≤ maxLen ts) (q : Str) :
    (∃ x, isInt ts x = true ∧ x.length = m ∧ ¬ x < q ∧ (∀ y, isInt ts y = true → y.length = m → y < x → y < q) ∧
      nIdx ts m q = num ts x) ∨
    ((∀ y, isInt ts y = true → y.length = m → y < q) ∧ nIdx ts m q = (nodesR ts 0 (m + 1)).length) := by
  by_cases hall : ∀ y, isInt ts y = true → y.length = m → y < q
  · right
    refine ⟨hall, ?_⟩
    unfold nIdx
    apply List.Perm.length_eq
    rw [List.perm_ext_iff_of_nodup ((nodesR_nodup h.sorted _ _).filter _) (nodesR_nodup h.sorted _ _)]
    intro p
    rw [List.mem_filter, mem_nodesR, mem_nodesR, bef_iff]
    constructor
    · rintro ⟨⟨-, h1, h2⟩, h3⟩
      exact ⟨by omega, by omega, h2⟩
    · rintro ⟨-, h1, h2⟩
      refine ⟨⟨by omega, by omega, h2⟩, ?_⟩
      by_cases h3 : p.length = m
      · exact Or.inr ⟨h3, hall p h2 h3⟩
      · exact Or.inl (by omega)
  · left
    have hne : ∃ y ∈ nodes ts m, ¬ y < q := by
      by_contra hc
      push Not at hc
      exact hall fun y h1 h2 => hc y (mem_nodes.2 ⟨h2, h1⟩)
    have hs := nodes_sorted h.sorted m
    have key : ∀ l : List Str, l.Pairwise (· < ·) → (∃ y ∈ l, ¬ y < q) →
        ∃ x ∈ l, ¬ x < q ∧ ∀ y ∈ l, y < x → y < q := by
      intro l
      induction l with
      | nil => simp
      | cons a l ih =>
        intro hp hex
        rw [List.pairwise_cons] at hp
        by_cases ha : a < q
        · obtain ⟨x, hx, hxq, hmin⟩ := ih hp.2 (by
            obtain ⟨y, hy, hyq⟩ := hex
            rcases List.mem_cons.1 hy with rfl | hy
            · exact absurd ha hyq
            · exact ⟨y, hy, hyq⟩)
          refine ⟨x, by simp [hx], hxq, ?_⟩
          intro y hy hyx
          rcases List.mem_cons.1 hy with rfl | hy
          · exact ha
          · exact hmin y hy hyx
        · refine ⟨a, by simp, ha, ?_⟩
          intro y hy hya
          rcases List.mem_cons.1 hy with rfl | hy
          · exact absurd hya (lt_irrefl _)
          · exact absurd hya (lt_asymm (hp.1 y hy))
    obtain ⟨x, hx, hxq, hmin⟩ := key _ hs hne
    obtain ⟨hxm, hxi⟩ := mem_nodes.1 hx
    refine ⟨x, hxi, hxm, hxq, fun y h1 h2 h3 => hmin y (mem_nodes.2 ⟨h2, h1⟩) h3, ?_⟩
    rw [← nIdx_node h hxi, hxm]
    apply nIdx_congr
    intro y h1 h2
    constructor
    · intro h3
      exact lt_of_lt_of_le h3 (not_lt.1 hxq)
    · intro h3
      exact hmin y (mem_nodes.2 ⟨h2, h1⟩) h3

/-! ## Places of a leaf -/

/-- Prefixes of the same length as an item compare like the leaf. -/
theorem leaf_take_lt (h : WF ts) {t u : Str} (ht : t ∈ ts) (hu : u ∈ ts) : u < t.take u.length ↔ u < t := by
  constructor
  · intro h1
    exact lt_of_lt_of_le h1 (by
      by_cases h2 : t.take u.length = t
      · rw [h2]
      · exact le_of_lt (lt_of_prefix (List.take_prefix _ _) h2))
  · intro h1
    have h2 := take_le_of_lt h1 u.length
    rw [List.take_length] at h2
    rcases h2.lt_or_eq with h3 | h3
    · exact h3
    · exfalso
      have : u <+: t := by rw [h3]; exact List.take_prefix _ _
      rw [h.pf u hu t ht this] at h1
      exact lt_irrefl _ h1

/-- A node or leaf that is longer than the leaf `t`, and its parent, lie on the same side of it. -/
theorem snoc_lt_leaf {t y : Str} {c : Nat} (hl : t.length ≤ y.length) (hne : ¬ t <+: y) : y ++ [c] < t ↔ y < t := by
  have hnp : ¬ y <+: t := by
    intro hp
    have := hp.eq_of_length_le hl
    subst this
    exact hne (List.prefix_refl _)
  constructor
  · intro h1
    exact lt_of_le_of_lt (le_append _ _) h1
  · intro h1
    exact append_lt h1 hnp _

theorem not_prefix_int (h : WF ts) {t y : Str} (ht : t ∈ ts) (hy : isInt ts y = true) : ¬ t <+: y := by
  intro hp
  obtain ⟨u, hu, hyu, hne⟩ := isInt_iff.1 hy
  have := h.pf t ht u hu (hp.trans hyu)
  subst this
  exact hne (List.IsPrefix.eq_of_length_le hyu hp.length_le)

theorem leaf_ne_int (h : WF ts) {t y : Str} (ht : t ∈ ts) (hy : isInt ts y = true) : t ≠ y := by
  rintro rfl
  exact not_prefix_int h ht hy (List.prefix_refl _)

/-- Leaves of length `m` strictly between two leaves. -/
def btw (ts : List Str) (m : Nat) (tl tr : Str) : Nat :=
  (ts.filter fun t => decide (t.length = m ∧ tl < t ∧ t < tr)).length

theorem lIdx_btw (h : WF ts) {tl tr : Str} (hl : tl ∈ ts) (hlt : tl < tr) (m : Nat) :
    lIdx ts m tr = lIdx ts m tl + (if tl.length = m then 1 else 0) + btw ts m tl tr := by
  have hnd : ts.Nodup := h.sorted.imp (fun h => ne_of_lt h)
  have e1 : (if tl.length = m then 1 else 0) = (ts.filter fun t => decide (t.length = m ∧ t = tl)).length := by
    rw [show (1 : Nat) = [tl].length from rfl, show (0 : Nat) = ([] : List Str).length from rfl]
    split
    · rename_i hm
      apply List.Perm.length_eq
      rw [List.perm_ext_iff_of_nodup (by simp) (hnd.filter _)]
      intro p
      rw [List.mem_filter]
      simp only [List.mem_singleton, decide_eq_true_eq]
      constructor
      · rintro rfl; exact ⟨hl, hm, rfl⟩
      · rintro ⟨-, -, rfl⟩; rfl
    · rename_i hm
      rw [List.filter_eq_nil_iff.2]
      intro p _
      simp only [decide_eq_true_eq]
      rintro ⟨h1, rfl⟩
      exact hm h1
  rw [e1]
  unfold lIdx btw
  rw [← List.length_append, ← List.length_append]
  apply List.Perm.length_eq
  rw [List.perm_ext_iff_of_nodup (hnd.filter _)]
  · intro p
    rw [List.mem_append, List.mem_append, List.mem_filter, List.mem_filter, List.mem_filter, List.mem_filter,
      bef_iff, bef_iff, decide_eq_true_eq, decide_eq_true_eq]
    constructor
    · rintro ⟨hp, h1 | ⟨h1, h2⟩⟩
      · exact Or.inl (Or.inl ⟨hp, Or.inl h1⟩)
      · rcases lt_trichotomy p tl with h3 | h3 | h3
        · exact Or.inl (Or.inl ⟨hp, Or.inr ⟨h1, h3⟩⟩)
        · exact Or.inl (Or.inr ⟨hp, h1, h3⟩)
        · exact Or.inr ⟨hp, h1, h3, h2⟩
    · rintro ((⟨hp, h1 | ⟨h1, h2⟩⟩ | ⟨hp, h1, rfl⟩) | ⟨hp, h1, h2, h3⟩)
      · exact ⟨hp, Or.inl h1⟩
      · exact ⟨hp, Or.inr ⟨h1, h2.trans hlt⟩⟩
      · exact ⟨hp, Or.inr ⟨h1, hlt⟩⟩
      · exact ⟨hp, Or.inr ⟨h1, h3⟩⟩
  · rw [List.nodup_append, List.nodup_append]
    refine ⟨⟨hnd.filter _, hnd.filter _, ?_⟩, hnd.filter _, ?_⟩
    · rintro p hp q hq rfl
      have h1 := (List.mem_filter.1 hp).2
      have h2 := (List.mem_filter.1 hq).2
      rw [bef_iff] at h1
      simp only [decide_eq_true_eq] at h2
      obtain ⟨h2, rfl⟩ := h2
      rcases h1 with h1 | ⟨-, h1⟩
      · omega
      · exact lt_irrefl _ h1
    · rintro p hp q hq rfl
      have h2 := (List.mem_filter.1 hq).2
      simp only [decide_eq_true_eq] at h2
      rcases List.mem_append.1 hp with hp | hp
      · have h1 := (List.mem_filter.1 hp).2
        rw [bef_iff] at h1
        rcases h1 with h1 | ⟨-, h1⟩
        · omega
        · exact lt_asymm h1 h2.2.1
      · have h1 := (List.mem_filter.1 hp).2
        simp only [decide_eq_true_eq] at h1
        obtain ⟨-, rfl⟩ := h1
        exact lt_irrefl _ h2.2.1

theorem btw_pos {m : Nat} {tl tr : Str} : 0 < btw ts m tl tr ↔ ∃ t ∈ ts, t.length = m ∧ tl < t ∧ t < tr := by
  unfold btw
  rw [List.length_pos_iff_exists_mem]
  simp only [List.mem_filter, decide_eq_true_eq]

theorem btw_succ (ts : List Str) (tl tr : Str) (n : Nat) :
    (ts.filter fun t => decide (1 ≤ t.length ∧ t.length ≤ n ∧ tl < t ∧ t < tr)).length + btw ts (n + 1) tl tr =
      (ts.filter fun t => decide (1 ≤ t.length ∧ t.length ≤ n + 1 ∧ tl < t ∧ t < tr)).length := by
  unfold btw
  rw [← List.countP_eq_length_filter, ← List.countP_eq_length_filter, ← List.countP_eq_length_filter]
  induction ts with
  | nil => rfl
  | cons u ts ih =>
    rw [List.countP_cons, List.countP_cons, List.countP_cons, ← ih]
    simp only [decide_eq_true_eq]
    by_cases h1 : tl < u ∧ u < tr
    · simp only [h1.1, h1.2, and_true]
      split <;> split <;> split <;> omega
    · have h2 : ∀ P : Prop, ¬ (P ∧ tl < u ∧ u < tr) := fun P hP => h1 hP.2
      have h3 : ∀ P Q : Prop, ¬ (P ∧ Q ∧ tl < u ∧ u < tr) := fun P Q hP => h1 hP.2.2
      rw [if_neg (h3 _ _), if_neg (h2 _), if_neg (h3 _ _)]
      omega

/-- The levels together. -/
theorem btw_sum (ts : List Str) (tl tr : Str) (n : Nat) :
    ((List.range n).map fun i => btw ts (i + 1) tl tr).sum =
      (ts.filter fun t => decide (1 ≤ t.length ∧ t.length ≤ n ∧ tl < t ∧ t < tr)).length := by
  induction n with
  | zero =>
    rw [List.filter_eq_nil_iff.2]
    · rfl
    · intro t _
      simp only [decide_eq_true_eq]
      omega
  | succ n ih =>
    rw [List.range_succ, List.map_append, List.sum_append, ih]
    simp only [List.map_cons, List.map_nil, List.sum_cons, List.sum_nil, Nat.add_zero]
    exact btw_succ ts tl tr n

end

end Surf
