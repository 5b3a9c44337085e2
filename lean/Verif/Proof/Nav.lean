import Verif.Proof.Create

/-! # Positions of nodes and items in level order -/

set_option linter.unusedSectionVars false
set_option autoImplicit false

namespace Surf
open Trie

/-- `p` is a prefix of a leaf string: a node or an item of the trie. -/
def ex (ts : List Str) (p : Str) : Bool := ts.any fun t => decide (p <+: t)

section
variable {ts : List Str}

theorem ex_iff {p : Str} : ex ts p = true ↔ ∃ t ∈ ts, p <+: t := any_prefix_iff

theorem ex_of_int {p : Str} (h : isInt ts p = true) : ex ts p = true := by
  obtain ⟨t, ht, hp, -⟩ := isInt_iff.1 h
  exact ex_iff.2 ⟨t, ht, hp⟩

theorem ex_mem {t : Str} (h : t ∈ ts) : ex ts t = true := ex_iff.2 ⟨t, h, List.prefix_refl _⟩

theorem ex_prefix {p q : Str} (h : ex ts q = true) (hp : p <+: q) : ex ts p = true := by
  obtain ⟨t, ht, hq⟩ := ex_iff.1 h
  exact ex_iff.2 ⟨t, ht, hp.trans hq⟩

theorem int_of_ex_snoc {p : Str} {c : Nat} (h : ex ts (p ++ [c]) = true) : isInt ts p = true := by
  obtain ⟨t, ht, hq⟩ := ex_iff.1 h
  refine isInt_iff.2 ⟨t, ht, (List.prefix_append _ _).trans hq, ?_⟩
  rintro rfl
  have := hq.length_le
  simp at this

theorem isInt_term (h : WF ts) (x : Str) : isInt ts (x ++ [0]) = false := by
  by_contra hc
  obtain ⟨t, ht, hp, hne⟩ := isInt_iff.1 (by simpa using hc : isInt ts (x ++ [0]) = true)
  exact h.term t ht ((int_prefix hp hne).subset (by simp))

theorem leaf_of_ex (h : WF ts) {p : Str} (he : ex ts p = true) : isInt ts p = false ↔ p ∈ ts :=
  h.leaf_iff (ex_iff.1 he)

theorem mem_items_ex {a b : Nat} {p : Str} : p ∈ items ts a b ↔ a < p.length ∧ p.length ≤ b ∧ ex ts p = true := by
  rw [mem_items, ex_iff]

/-! ## Children of a node -/

/-- The items below `x` with a symbol smaller than `c`. -/
def kidsLT (ts : List Str) (x : Str) (c : Nat) : List Str :=
  ((List.range c).filter fun d => ex ts (x ++ [d])).map fun d => x ++ [d]

theorem kidsLT_zero (x : Str) : kidsLT ts x 0 = [] := rfl

theorem kidsLT_succ (x : Str) (c : Nat) :
    kidsLT ts x (c + 1) = kidsLT ts x c ++ if ex ts (x ++ [c]) then [x ++ [c]] else [] := by
  unfold kidsLT
  rw [List.range_succ, List.filter_append, List.map_append]
  congr 1
  by_cases h : ex ts (x ++ [c]) = true <;> simp [h]

theorem mem_kidsLT {x p : Str} {c : Nat} : p ∈ kidsLT ts x c ↔ ∃ d, d < c ∧ p = x ++ [d] ∧ ex ts p = true := by
  unfold kidsLT
  simp only [List.mem_map, List.mem_filter, List.mem_range]
  constructor
  · rintro ⟨d, ⟨h1, h2⟩, rfl⟩; exact ⟨d, h1, rfl, h2⟩
  · rintro ⟨d, h1, rfl, h2⟩; exact ⟨d, ⟨h1, h2⟩, rfl⟩

theorem kidsLT_sorted (x : Str) (c : Nat) : (kidsLT ts x c).Pairwise (· < ·) := by
  unfold kidsLT
  rw [List.pairwise_map]
  exact (List.pairwise_lt_range.filter _).imp fun h => snoc_lt.2 h

theorem sym_le (h : WF ts) {x : Str} {c : Nat} (he : ex ts (x ++ [c]) = true) : c ≤ 256 := by
  obtain ⟨t, ht, hp⟩ := ex_iff.1 he
  exact h.sym t ht c (hp.subset (by simp))

theorem kidItems_eq (h : WF ts) (x : Str) : kidItems ts x = kidsLT ts x 257 := by
  apply sorted_ext (kidItems_sorted h.sorted x) (kidsLT_sorted x 257)
  intro p
  rw [mem_kidItems, mem_kidsLT, ← ex_iff]
  constructor
  · rintro ⟨⟨c, rfl⟩, he⟩
    exact ⟨c, by have := sym_le h he; omega, rfl, he⟩
  · rintro ⟨c, -, rfl, he⟩
    exact ⟨⟨c, rfl⟩, he⟩

theorem kidsLT_prefix (x : Str) {c d : Nat} (hcd : c ≤ d) : kidsLT ts x c <+: kidsLT ts x d := by
  induction hcd with
  | refl => exact List.prefix_refl _
  | step _ ih => rw [kidsLT_succ]; exact ih.trans (List.prefix_append _ _)

/-- An item splits the list of its siblings. -/
theorem kidItems_split (h : WF ts) {x : Str} {c : Nat} (he : ex ts (x ++ [c]) = true) :
    ∃ R, kidItems ts x = kidsLT ts x c ++ (x ++ [c]) :: R := by
  have hc := sym_le h he
  rw [kidItems_eq h]
  obtain ⟨R, hR⟩ := kidsLT_prefix (ts := ts) x (show c + 1 ≤ 257 by omega)
  refine ⟨R, ?_⟩
  rw [← hR, kidsLT_succ, if_pos he]
  simp

/-! ## Numbers of nodes -/

/-- The number of node `x`: its index in level order. -/
def num (ts : List Str) (x : Str) : Nat := (nodesR ts 0 (maxLen ts + 1)).idxOf x

theorem num_root (h : WF ts) : num ts [] = 0 := by
  unfold num
  rw [h.nodesR_eq (by omega)]
  simp

theorem int_length_lt {x : Str} (hx : isInt ts x = true) : x.length < maxLen ts := by
  obtain ⟨t, ht, hp, hne⟩ := isInt_iff.1 hx
  have h1 := (int_prefix hp hne).length_le
  have := le_maxLen ht
  have h2 := hp.length_le
  rw [List.length_dropLast] at h1
  by_cases h0 : t.length = 0
  · have : t = [] := List.length_eq_zero_iff.1 h0
    subst this
    simp at hp
    exact absurd hp hne
  · omega

/-- The place of a node among the nodes of the levels `a .. b-1`. -/
theorem nodes_at (h : WF ts) {x : Str} (hx : isInt ts x = true) {a b : Nat} (ha : a ≤ x.length) (hb : x.length < b)
    (hbH : b ≤ maxLen ts + 1) :
    ∃ A C, nodesR ts a b = A ++ x :: C ∧ (nodesR ts 0 a).length + A.length = num ts x := by
  obtain ⟨A, C, e⟩ := List.append_of_mem (mem_nodesR.2 ⟨ha, hb, hx⟩)
  refine ⟨A, C, e, ?_⟩
  unfold num
  have hnd := nodesR_nodup h.sorted 0 (maxLen ts + 1)
  have e2 : nodesR ts 0 (maxLen ts + 1) = (nodesR ts 0 a ++ A) ++ x :: (C ++ nodesR ts b (maxLen ts + 1)) := by
    rw [nodesR_split ts (Nat.zero_le a) (show a ≤ maxLen ts + 1 by omega),
      nodesR_split ts (show a ≤ b by omega) hbH, e]
    simp
  rw [e2] at hnd ⊢
  have hx' : x ∉ nodesR ts 0 a ++ A := by
    intro hm
    rw [List.nodup_append] at hnd
    exact hnd.2.2 x hm x (by simp) rfl
  rw [idxOf_append_cons hx', List.length_append]

theorem num_inj {x y : Str} (hx : isInt ts x = true) (e : num ts x = num ts y) :
    x = y := by
  unfold num at e
  have hm : x ∈ nodesR ts 0 (maxLen ts + 1) := mem_nodesR.2 ⟨by omega, by have := int_length_lt hx; omega, hx⟩
  exact (List.idxOf_inj hm).1 e

theorem num_lt {x : Str} {s : Nat} (h : WF ts) (hx : isInt ts x = true) (hs : x.length < s) (hsH : s ≤ maxLen ts + 1) :
    num ts x < (nodesR ts 0 s).length := by
  obtain ⟨A, C, e, e2⟩ := nodes_at h hx (Nat.zero_le _) hs hsH
  have : (nodesR ts 0 0).length = 0 := by simp [nodesR]
  rw [e, List.length_append, List.length_cons]
  omega

/-- An internal item is numbered by the internal items up to it. -/
theorem num_item (h : WF ts) {p : Str} (hp : isInt ts p = true) {B D : List Str}
    (e : items ts 0 (maxLen ts + 1) = B ++ p :: D) : num ts p = B.countP (isInt ts) + 1 := by
  unfold num
  rw [h.nodesR_eq (by omega), e, List.filter_append, List.filter_cons, if_pos hp]
  have hnd := items_nodup h.sorted 0 (maxLen ts + 1)
  rw [e, List.nodup_append] at hnd
  have h1 : p ∉ B.filter (isInt ts) := fun hm => hnd.2.2 p (List.mem_of_mem_filter hm) p (by simp) rfl
  have h0 : p ≠ [] := by
    have : p ∈ items ts 0 (maxLen ts + 1) := by rw [e]; simp
    have := (mem_items.1 this).1
    rintro rfl
    simp at this
  rw [← List.cons_append, idxOf_append_cons (by simp [h0, h1])]
  rw [List.length_cons, List.countP_eq_length_filter]

/-! ## Items up to a place -/

/-- The items before symbol `c` of node `x`, where `A` are the nodes before `x`. -/
def before (ts : List Str) (A : List Str) (x : Str) (c : Nat) : List Str := A.flatMap (kidItems ts) ++ kidsLT ts x c

theorem before_succ (A : List Str) (x : Str) (c : Nat) :
    before ts A x (c + 1) = before ts A x c ++ if ex ts (x ++ [c]) then [x ++ [c]] else [] := by
  unfold before
  rw [kidsLT_succ, List.append_assoc]

/-- The list of items around an item. -/
theorem items_at (h : WF ts) {a b : Nat} {A C : List Str} {x : Str} (hA : nodesR ts a b = A ++ x :: C) {c : Nat}
    (he : ex ts (x ++ [c]) = true) : ∃ D, items ts a b = before ts A x c ++ (x ++ [c]) :: D := by
  obtain ⟨R, hR⟩ := kidItems_split h he
  refine ⟨R ++ C.flatMap (kidItems ts), ?_⟩
  rw [items_eq h.sorted, hA]
  simp [hR, before]

/-- Not the terminator. -/
def nz (p : Str) : Bool := p.getLast? != some 0

theorem nz_snoc (x : Str) (c : Nat) : nz (x ++ [c]) = (c != 0) := by
  cases c <;> simp [nz]

theorem count_map (g : Nat → Bool) (n : Nat) : ((List.range n).map g).count true = (List.range n).countP g := by
  rw [List.count, List.countP_map]
  congr 1
  funext b
  simp

theorem kids_count {g : Str → Bool} (hg : ∀ p, g p = true → ex ts p = true) (x : Str) (n : Nat) :
    (List.range n).countP (fun b => g (x ++ [b + 1])) = (kidsLT ts x (n + 1)).countP (fun p => g p && nz p) := by
  induction n with
  | zero =>
    rw [kidsLT_succ, kidsLT_zero]
    by_cases h : ex ts (x ++ [0]) = true
    · simp [h, nz]
    · simp [h]
  | succ n ih =>
    rw [List.range_succ, List.countP_append, ih, kidsLT_succ x (n + 1), List.countP_append]
    congr 1
    by_cases h : g (x ++ [n + 1]) = true
    · simp [h, hg _ h, nz]
    · by_cases h2 : ex ts (x ++ [n + 1]) = true <;> simp [h, h2]

/-- A bitmap with 256 bits per node. -/
def bitsOf (g : Str → Bool) (X : List Str) : List Bool :=
  X.flatMap fun y => (List.range 256).map fun b => g (y ++ [b + 1])

theorem labelBits_eq (X : List Str) : labelBits ts X = bitsOf (ex ts) X := rfl
theorem childBits_eq (X : List Str) : childBits ts X = bitsOf (isInt ts) X := rfl

theorem bitsOf_length (g : Str → Bool) (X : List Str) : (bitsOf g X).length = 256 * X.length :=
  length_map256 (g := fun y b => g (y ++ [b + 1])) X

theorem bitsOf_getD (g : Str → Bool) {A C : List Str} {x : Str} {b : Nat} (hb : b < 256) :
    (bitsOf g (A ++ x :: C)).getD (256 * A.length + b) false = g (x ++ [b + 1]) := by
  unfold bitsOf
  rw [getD_map256 (g := fun y b => g (y ++ [b + 1]))]
  have e1 : (256 * A.length + b) / 256 = A.length := by omega
  have e2 : (256 * A.length + b) % 256 = b := by omega
  rw [e1, e2]
  simp

/-- Rank in such a bitmap. -/
theorem bitsOf_count (h : WF ts) {g : Str → Bool} (hg : ∀ p, g p = true → ex ts p = true) {A C : List Str} {x : Str}
    {n : Nat} (hn : n ≤ 256) :
    ((bitsOf g (A ++ x :: C)).take (256 * A.length + n)).count true =
      (before ts A x (n + 1)).countP (fun p => g p && nz p) := by
  have e : bitsOf g (A ++ x :: C) = bitsOf g A ++ bitsOf g (x :: C) := by simp [bitsOf]
  rw [e, ← bitsOf_length g A, List.take_length_add_append, List.count_append]
  unfold before
  rw [List.countP_append]
  congr 1
  · unfold bitsOf
    induction A with
    | nil => rfl
    | cons y A ih =>
      rw [List.flatMap_cons, List.flatMap_cons, List.count_append, List.countP_append, ih, count_map,
        kids_count hg, kidItems_eq h]
      simp [bitsOf]
  · unfold bitsOf
    rw [List.flatMap_cons, List.take_append_of_le_length (by simpa using hn), ← List.map_take, List.take_range,
      count_map, min_eq_left hn, kids_count hg]

theorem pref_count (h : WF ts) {A C : List Str} {x : Str} (n : Nat) :
    ((prefBits ts (A ++ x :: C)).take (A.length + 1)).count true =
      (before ts A x (n + 1)).countP (fun p => !nz p) := by
  have key : ∀ y : Str, ∀ n, (kidsLT ts y (n + 1)).countP (fun p => !nz p) = if ex ts (y ++ [0]) then 1 else 0 := by
    intro y n
    induction n with
    | zero =>
      rw [kidsLT_succ, kidsLT_zero]
      by_cases h : ex ts (y ++ [0]) = true <;> simp [h, nz]
    | succ n ih =>
      rw [kidsLT_succ, List.countP_append, ih]
      by_cases h : ex ts (y ++ [n + 1]) = true <;> simp [h, nz]
  have e : (prefBits ts (A ++ x :: C)).take (A.length + 1) = prefBits ts (A ++ [x]) := by
    unfold prefBits
    simp [List.take_append]
  rw [e]
  unfold before prefBits
  rw [List.map_append, List.count_append, List.countP_append]
  congr 1
  · induction A with
    | nil => rfl
    | cons y A ih =>
      rw [List.flatMap_cons, List.countP_append, List.map_cons, List.count_cons, kidItems_eq h, key]
      rw [ih (by unfold prefBits; simp [List.take_append])]
      change _ + (if (ex ts (y ++ [0]) == true) = true then 1 else 0) = _
      rw [Nat.add_comm]
      simp
  · rw [key]
    change ([ex ts (x ++ [0])]).count true = _
    cases ex ts (x ++ [0]) <;> rfl

end

end Surf
