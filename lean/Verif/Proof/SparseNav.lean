import Verif.Proof.DenseNav

/-! # Navigation in LoudsSparse -/

set_option linter.unusedSectionVars false
set_option autoImplicit false

namespace Surf
open Trie
variable [Env] {cfg : Config} {ts : List Str} {sw : Str → Word} {s : Nat} {f : Filter}

/-- The sparse nodes. -/
abbrev snodes (ts : List Str) (s : Nat) : List Str := nodesR ts s (maxLen ts + 1)

/-- The sparse items. -/
abbrev sitems (ts : List Str) (s : Nat) : List Str := items ts s (maxLen ts + 1)

/-- The position of a sparse item. -/
def ipos (ts : List Str) (s : Nat) (p : Str) : Nat := (sitems ts s).idxOf p

omit [Env] in
theorem ipos_of_split (h : WF ts) {B D : List Str} {p : Str} (e : sitems ts s = B ++ p :: D) : ipos ts s p = B.length := by
  unfold ipos
  have hnd := items_nodup h.sorted s (maxLen ts + 1)
  change (sitems ts s).Nodup at hnd
  rw [e, List.nodup_append] at hnd
  rw [e]
  exact idxOf_append_cons fun hm => hnd.2.2 p hm p (by simp) rfl

omit [Env] in
theorem ipos_split (h : WF ts) {p : Str} (hp : p ∈ sitems ts s) :
    ∃ B D, sitems ts s = B ++ p :: D ∧ ipos ts s p = B.length := by
  obtain ⟨B, D, e⟩ := List.append_of_mem hp
  exact ⟨B, D, e, ipos_of_split h e⟩

omit [Env] in
theorem ipos_eq (h : WF ts) {A C : List Str} {x : Str} (hA : snodes ts s = A ++ x :: C) {c : Nat}
    (he : ex ts (x ++ [c]) = true) : ipos ts s (x ++ [c]) = (before ts A x c).length := by
  obtain ⟨D, hD⟩ := items_at h hA he
  exact ipos_of_split h hD

omit [Env] in
theorem ipos_lt {p : Str} (hp : p ∈ sitems ts s) : ipos ts s p < (sitems ts s).length := List.idxOf_lt_length_of_mem hp

omit [Env] in
theorem ipos_inj {p q : Str} (hp : p ∈ sitems ts s) (e : ipos ts s p = ipos ts s q) : p = q := (List.idxOf_inj hp).1 e

omit [Env] in
/-- The place of a sparse node. -/
theorem FRep0.snode (h : FRep0 cfg ts sw s f) {x : Str} (hx : isInt ts x = true) (hs : s ≤ x.length) :
    ∃ A C, snodes ts s = A ++ x :: C ∧ (nodesR ts 0 s).length + A.length = num ts x :=
  nodes_at h.wf hx hs (by have := int_length_lt hx; omega) (by omega)

omit [Env] in
theorem FRep0.sitems_le (h : FRep0 cfg ts sw s f) : (sitems ts s).length + 64 < M32 := by
  have := h.i32
  rw [items_split ts (Nat.zero_le s) h.nodes_s, List.length_append] at this
  unfold sitems
  omega

theorem FRep.sitems_half (h : FRep cfg ts sw s f) : (sitems ts s).length + 64 ≤ 2147483648 := by
  have := h.half
  rw [items_split ts (Nat.zero_le s) h.nodes_s, List.length_append] at this
  unfold sitems
  omega

theorem FRep0.slabel (h : FRep0 cfg ts sw s f) {p : Str} (hp : p ∈ sitems ts s) :
    labAt f.sparse.labels.labels (ipos ts s p) = lab p ∧ f.sparse.labels.read (ipos ts s p) = .ok (lab p) := by
  obtain ⟨B, D, e, e2⟩ := ipos_split h.wf hp
  obtain ⟨rest, hr⟩ := h.sparse.labels
  have hlt : ipos ts s p < f.sparse.labels.labels.length := by
    have := ipos_lt hp
    change f.sparse.labels.labels = (sitems ts s).map lab ++ 0 :: rest at hr
    rw [hr]; simp; omega
  have hv : f.sparse.labels.labels.getD (ipos ts s p) 0 = lab p := by
    change f.sparse.labels.labels = (sitems ts s).map lab ++ 0 :: rest at hr
    rw [hr, e, e2]; simp
  refine ⟨by rw [labAt_lt hlt, hv], ?_⟩
  unfold LabelVector.read
  rw [rdB_ok hlt, hv]

theorem FRep0.schild (h : FRep0 cfg ts sw s f) {p : Str} (hp : p ∈ sitems ts s) :
    f.sparse.childBits.readBit (ipos ts s p) = .ok (isInt ts p) := by
  obtain ⟨B, D, e, e2⟩ := ipos_split h.wf hp
  have hc := h.sparse.chl
  change f.sparse.childBits.Rep ((sitems ts s).map (isInt ts)) at hc
  rw [Bitvector.readBit_ok hc.base (by rw [List.length_map]; exact ipos_lt hp), e, e2]
  simp

omit [Env] in
theorem count_true_map {α : Type} (g : α → Bool) (l : List α) : (l.map g).count true = l.countP g := by
  rw [List.count, List.countP_map]
  congr 1
  funext b
  simp

theorem FRep0.srank (h : FRep0 cfg ts sw s f) {B D : List Str} {p : Str} (e : sitems ts s = B ++ p :: D) :
    f.sparse.childBits.rank B.length = .ok ((B ++ [p]).countP (isInt ts)) := by
  have hc := h.sparse.chl
  change f.sparse.childBits.Rep ((sitems ts s).map (isInt ts)) at hc
  rw [BitvectorRank.rank_ok hc (Or.inl (by rw [e]; simp)), ← List.map_take, e, count_true_map]
  congr 2
  simp [List.take_append]

omit [Env] in
theorem dense_int_count (ts : List Str) (s : Nat) : (items ts 0 s).countP (isInt ts) = (nodesR ts 1 (s + 1)).length := by
  rw [List.countP_eq_length_filter, filter_items]

theorem FRep0.schildNum (h : FRep0 cfg ts sw s f) {p : Str} (hp : p ∈ sitems ts s) (hi : isInt ts p = true) :
    f.sparse.getChildNodeNum (ipos ts s p) = .ok (num ts p) := by
  obtain ⟨B, D, e, e2⟩ := ipos_split h.wf hp
  have e3 : items ts 0 (maxLen ts + 1) = (items ts 0 s ++ B) ++ p :: D := by
    rw [items_split ts (Nat.zero_le s) h.nodes_s, List.append_assoc]
    congr 1
  unfold LoudsSparse.getChildNodeNum
  rw [e2, h.srank e, ok_bind, h.sparse.ccd, num_item h.wf hi e3,
    List.countP_append (l₁ := items ts 0 s), dense_int_count]
  have hle : (items ts 0 s ++ B).countP (isInt ts) + 1 ≤ (items ts 0 (maxLen ts + 1)).length := by
    rw [e3, List.length_append, List.length_cons]
    have := List.countP_le_length (p := isInt ts) (l := items ts 0 s ++ B)
    omega
  have h32 := h.i32
  rw [List.countP_append, dense_int_count] at hle
  have h1 : (B ++ [p]).countP (isInt ts) = B.countP (isInt ts) + 1 := by simp [hi]
  rw [h1]
  exact ok_congr (by rw [add32_eq (by omega)]; omega)

/-- The suffix of a sparse leaf. -/
theorem FRep0.ssfx (h : FRep0 cfg ts sw s f) {p : Str} (hp : p ∈ sitems ts s) (ht : p ∈ ts) :
    ∃ i, f.sparse.getSuffixPos (ipos ts s p) = .ok i ∧ (leafWords ts sw (sitems ts s))[i]? = some (sw p) := by
  obtain ⟨B, D, e, e2⟩ := ipos_split h.wf hp
  have hl := h.wf.isInt_leaf ht
  refine ⟨_, ?_, leafWords_at e hl⟩
  unfold LoudsSparse.getSuffixPos
  rw [e2, h.srank e, ok_bind]
  have h1 : (B ++ [p]).countP (isInt ts) = B.countP (isInt ts) := by simp [hl]
  have h2 := List.length_eq_countP_add_countP (p := isInt ts) (l := B)
  have h3 := h.sitems_le
  rw [e, List.length_append] at h3
  have h4 : B.countP (fun q => !isInt ts q) = B.countP (fun a => decide ¬isInt ts a = true) := by
    congr 1; funext a; simp
  rw [h1]
  exact ok_congr (by rw [sub32_eq (by omega) (by omega)]; omega)

/-! ## LOUDS bits -/

omit [Env] in
theorem kids_ne (hx : ∀ y ∈ snodes ts s, isInt ts y = true) : ∀ y ∈ snodes ts s, kidItems ts y ≠ [] :=
  fun y hy => kidItems_ne_nil (hx y hy)

omit [Env] in
theorem snodes_int : ∀ y ∈ snodes ts s, isInt ts y = true := fun _ hy => (mem_nodesR.1 hy).2.2

omit [Env] in
theorem loudsOf_length {X : List Str} (hX : ∀ y ∈ X, isInt ts y = true) :
    (loudsOf ts X).length = (X.flatMap (kidItems ts)).length :=
  length_blks (f := kidItems ts) fun y hy => kidItems_ne_nil (hX y hy)

omit [Env] in
theorem loudsOf_count (X : List Str) : (loudsOf ts X).count true = X.length := count_blks (kidItems ts) X

omit [Env] in
theorem louds_total (h : WF ts) : (loudsOf ts (snodes ts s)).length = (sitems ts s).length := by
  rw [loudsOf_length snodes_int, ← items_eq h.sorted]

section at_node
variable {A C : List Str} {x : Str} (hA : snodes ts s = A ++ x :: C)
include hA

omit [Env] in
theorem A_int : ∀ y ∈ A, isInt ts y = true := fun y hy => snodes_int (s := s) y (by rw [hA]; simp [hy])
omit [Env] in
theorem x_int : isInt ts x = true := snodes_int (s := s) x (by rw [hA]; simp)
omit [Env] in
theorem C_int : ∀ y ∈ C, isInt ts y = true := fun y hy => snodes_int (s := s) y (by rw [hA]; simp [hy])

omit [Env] in
/-- LOUDS bits inside the block of a node. -/
theorem louds_getD {i : Nat} (hi : i < (kidItems ts x).length) :
    (loudsOf ts (snodes ts s)).getD ((before ts A x 0).length + i) false = decide (i = 0) := by
  have e : loudsOf ts (snodes ts s) = loudsOf ts A ++ (blk (kidItems ts x).length ++ loudsOf ts C) := by
    rw [hA]; simp [loudsOf]
  have hl : (before ts A x 0).length = (loudsOf ts A).length := by
    rw [loudsOf_length (A_int hA)]; simp [before, kidsLT_zero]
  rw [e, hl, getD_append_ge (by omega), Nat.add_sub_cancel_left, getD_append_lt (by rw [blk_length (by omega)]; exact hi)]
  unfold blk
  cases i with
  | zero => rfl
  | succ i => simp [List.getD_eq_getElem?_getD, List.getElem?_replicate]; split <;> simp

omit [Env] in
/-- The bit after the block of a node. -/
theorem louds_next (hC : C ≠ []) :
    (loudsOf ts (snodes ts s)).getD ((before ts A x 0).length + (kidItems ts x).length) false = true := by
  obtain ⟨y, C', rfl⟩ := List.exists_cons_of_ne_nil hC
  have e : loudsOf ts (snodes ts s) = (loudsOf ts A ++ blk (kidItems ts x).length) ++
      (blk (kidItems ts y).length ++ loudsOf ts C') := by
    rw [hA]; simp [loudsOf]
  have hl : (before ts A x 0).length = (loudsOf ts A).length := by
    rw [loudsOf_length (A_int hA)]; simp [before, kidsLT_zero]
  have hp : 0 < (kidItems ts x).length := List.length_pos_of_ne_nil (kidItems_ne_nil (x_int hA))
  have hlen : (loudsOf ts A ++ blk (kidItems ts x).length).length = (before ts A x 0).length + (kidItems ts x).length := by
    rw [List.length_append, blk_length hp, hl]
  rw [e, getD_append_ge (by omega), hlen, Nat.sub_self]
  rfl

omit [Env] in
theorem sitems_eq (h : WF ts) : sitems ts s = before ts A x 0 ++ (kidItems ts x ++ C.flatMap (kidItems ts)) := by
  rw [sitems, items_eq h.sorted]
  change (snodes ts s).flatMap _ = _
  rw [hA]; simp [before, kidsLT_zero]

omit [Env] in
theorem louds_isSel : IsSel (fun i => (loudsOf ts (snodes ts s)).getD i false) (A.length + 1) (before ts A x 0).length := by
  have hp : 0 < (kidItems ts x).length := List.length_pos_of_ne_nil (kidItems_ne_nil (x_int hA))
  refine ⟨by simpa using louds_getD hA hp, ?_⟩
  rw [rk_list]
  have e : loudsOf ts (snodes ts s) = loudsOf ts A ++ (blk (kidItems ts x).length ++ loudsOf ts C) := by
    rw [hA]; simp [loudsOf]
  have hl : (before ts A x 0).length = (loudsOf ts A).length := by
    rw [loudsOf_length (A_int hA)]; simp [before, kidsLT_zero]
  rw [e, hl, List.take_left', loudsOf_count]
  rfl

end at_node

theorem FRep0.sselect (h : FRep0 cfg ts sw s f) {A C : List Str} {x : Str} (hA : snodes ts s = A ++ x :: C) :
    f.sparse.loudsBits.select (A.length + 1) = .ok (before ts A x 0).length := by
  have hr := h.sparse.louds
  obtain ⟨p, e, hp⟩ := BitvectorSelect.select_ok hr (r := A.length + 1) (by omega) (by
    change _ ≤ (loudsOf ts (snodes ts s)).count true
    rw [loudsOf_count, hA]; simp)
  rw [e, hp.unique (louds_isSel hA)]

/-- The first item of a node. -/
theorem FRep0.sfirst (h : FRep0 cfg ts sw s f) {A C : List Str} {x : Str} (hA : snodes ts s = A ++ x :: C)
    (hn : (nodesR ts 0 s).length + A.length = num ts x) :
    f.sparse.getFirstLabelPos (num ts x) = .ok (before ts A x 0).length := by
  unfold LoudsSparse.getFirstLabelPos
  have h32 := h.i32
  have hlt : num ts x < (items ts 0 (maxLen ts + 1)).length + 1 := by
    have := num_lt h.wf (x_int hA) (s := maxLen ts + 1) (by have := int_length_lt (x_int hA); omega) le_rfl
    rw [h.wf.nodesR_eq (by omega), List.length_cons] at this
    have := List.length_filter_le (isInt ts) (items ts 0 (maxLen ts + 1))
    omega
  rw [h.sparse.ncd, add32_eq (by omega), sub32_eq (by omega) (by omega)]
  have : num ts x + 1 - (nodesR ts 0 s).length = A.length + 1 := by omega
  rw [this, h.sselect hA]

omit [Env] in
theorem FRep0.louds_words (h : FRep0 cfg ts sw s f) :
    (sitems ts s).length ≤ 64 * f.sparse.loudsBits.bits.length ∧
    64 * f.sparse.loudsBits.bits.length < (sitems ts s).length + 64 := by
  have := h.sparse.louds.base.len_bounds
  rwa [louds_total h.wf] at this

omit [Env] in
theorem nodesR_len (ts : List Str) (a b : Nat) : (nodesR ts a b).Pairwise fun x y => x.length ≤ y.length := by
  unfold nodesR
  generalize b - a = n
  induction n generalizing a with
  | zero => simp
  | succ n ih =>
    rw [List.range'_succ, List.flatMap_cons, List.pairwise_append]
    refine ⟨?_, ih (a + 1), ?_⟩
    · apply List.pairwise_of_forall_mem_list
      intro x hx y hy
      rw [(mem_nodes.1 hx).1, (mem_nodes.1 hy).1]
    · intro x hx y hy
      obtain ⟨l, hl, hy⟩ := List.mem_flatMap.1 hy
      rw [List.mem_range'_1] at hl
      rw [(mem_nodes.1 hx).1, (mem_nodes.1 hy).1]
      omega

omit [Env] in
/-- A node below the root that has a leaf has two items. -/
theorem two_kids (h : WF ts) {x : Str} (hx : x ≠ []) {c : Nat} (ht : x ++ [c] ∈ ts) :
    ∃ c', c' ≠ c ∧ ex ts (x ++ [c']) = true := by
  obtain ⟨t', ht', hne, hp⟩ := h.sib _ ht (by
    have : x.length ≠ 0 := by simpa using hx
    simp; omega)
  rw [List.dropLast_concat] at hp
  obtain ⟨r, hr⟩ := hp
  cases r with
  | nil =>
    rw [List.append_nil] at hr
    subst hr
    exact absurd (h.pf x ht' _ ht (List.prefix_append _ _)) (by simp)
  | cons c' r =>
    refine ⟨c', ?_, ex_iff.2 ⟨t', ht', r, by rw [← hr]; simp⟩⟩
    rintro rfl
    exact hne (h.pf _ ht t' ht' ⟨r, by rw [← hr]; simp⟩).symm

omit [Env] in
theorem last_kids (h : WF ts) {A : List Str} {x : Str} (hs : 1 ≤ s) (hA : snodes ts s = A ++ [x]) :
    2 ≤ (kidItems ts x).length := by
  have hx : isInt ts x = true := x_int hA
  have hxs : s ≤ x.length := (mem_nodesR.1 (show x ∈ snodes ts s by rw [hA]; simp)).1
  have hne := kidItems_ne_nil hx
  obtain ⟨p, hp⟩ := List.exists_mem_of_ne_nil _ hne
  obtain ⟨⟨c, rfl⟩, he⟩ := mem_kidItems.1 hp
  rw [← ex_iff] at he
  have hleaf : isInt ts (x ++ [c]) = false := by
    by_contra hc
    have hc : isInt ts (x ++ [c]) = true := by simpa using hc
    have hm : x ++ [c] ∈ snodes ts s := mem_nodesR.2 ⟨by simp; omega, by have := int_length_lt hc; omega, hc⟩
    have hpw := nodesR_len ts s (maxLen ts + 1)
    change (snodes ts s).Pairwise _ at hpw
    rw [hA] at hm hpw
    rw [List.pairwise_append] at hpw
    rcases List.mem_append.1 hm with hm | hm
    · have := hpw.2.2 _ hm x (by simp)
      simp at this
    · simp at hm
  obtain ⟨c', hc', he'⟩ := two_kids h (by rintro rfl; simp at hxs; omega) ((leaf_of_ex h he).1 hleaf)
  have hp' : x ++ [c'] ∈ kidItems ts x := mem_kidItems.2 ⟨⟨c', rfl⟩, ex_iff.1 he'⟩
  rcases hk : kidItems ts x with _ | ⟨a, _ | ⟨b, r⟩⟩
  · exact absurd hk hne
  · rw [hk] at hp hp'
    simp only [List.mem_singleton] at hp hp'
    rw [← hp] at hp'
    simp at hp'
    exact absurd hp' hc'
  · simp

/-- The search in the last node `x` runs on into the padding: the items are not a multiple of 64 and the word of the bit behind the
first item of `x` is not the last one. -/
def Overrun (ts : List Str) (s : Nat) (x : Str) : Prop :=
  (sitems ts s).length % 64 ≠ 0 ∧ ((sitems ts s).length - (kidItems ts x).length + 1) / 64 < (sitems ts s).length / 64

/-- The size of a node: exact unless the node is the last one. -/
theorem FRep0.snodeSize_exact (h : FRep0 cfg ts sw s f) {A C : List Str} {x : Str}
    (hA : snodes ts s = A ++ x :: C) :
    ∃ n, f.sparse.nodeSize (before ts A x 0).length = .ok n ∧
      ((n = (kidItems ts x).length ∧ ¬ (C = [] ∧ Overrun ts s x)) ∨
        ((C = [] ∧ Overrun ts s x) ∧ 64 ≤ n ∧ (kidItems ts x).length < n ∧ 64 ≤ (sitems ts s).length ∧
          (before ts A x 0).length + n = 64 * f.sparse.loudsBits.bits.length)) := by
  have hr := h.sparse.louds
  change f.sparse.loudsBits.Rep (loudsOf ts (snodes ts s)) at hr
  have hp : 0 < (kidItems ts x).length := List.length_pos_of_ne_nil (kidItems_ne_nil (x_int hA))
  have hlen : (loudsOf ts (snodes ts s)).length = (sitems ts s).length := louds_total h.wf
  have htot := congrArg List.length (sitems_eq hA h.wf)
  rw [List.length_append, List.length_append] at htot
  have h32 := h.sitems_le
  have hst : (loudsOf ts (snodes ts s)).getD (before ts A x 0).length false = true := by
    simpa using louds_getD hA hp
  have e0 : f.sparse.nodeSize (before ts A x 0).length =
      f.sparse.loudsBits.distanceToNextSetBit (before ts A x 0).length := by
    unfold LoudsSparse.nodeSize
    cases Env.ndebug with
    | true => simp
    | false =>
      simp only [Bool.not_false, if_true]
      rw [Bitvector.readBit_ok hr.base (by omega), ok_bind, hst, assertR_ok rfl, ok_bind]
  rw [e0]
  have ha : add32 (before ts A x 0).length 1 = (before ts A x 0).length + 1 := add32_eq (by omega)
  by_cases hC : C = []
  · subst hC
    simp only [List.flatMap_nil, List.length_nil, Nat.add_zero] at htot
    obtain ⟨w1, w2⟩ := h.louds_words
    have h2 := last_kids h.wf h.s1 hA
    have := Bitvector.distNext_none hr.base (by omega) (pos := (before ts A x 0).length) (by omega) (by omega) (by
          intro j hj
          by_cases hj2 : j < (before ts A x 0).length + (kidItems ts x).length
          · have := louds_getD hA (i := j - (before ts A x 0).length) (by omega)
            rw [show (before ts A x 0).length + (j - (before ts A x 0).length) = j by omega] at this
            rw [this]; simp; omega
          · exact getD_ge (by omega))
    refine ⟨_, this, ?_⟩
    unfold Overrun
    split
    · exact Or.inl ⟨by omega, by omega⟩
    · by_cases h64 : (sitems ts s).length % 64 = 0
      · exact Or.inl ⟨by omega, by omega⟩
      · exact Or.inr ⟨⟨rfl, by omega, by omega⟩, by omega, by omega, by omega, by omega⟩
  · have := Bitvector.distNext_some hr.base (by omega) (pos := (before ts A x 0).length)
      (q := (before ts A x 0).length + (kidItems ts x).length) (Or.inl (by omega)) (louds_next hA hC) (by omega) (by
        intro j hj hj2
        have := louds_getD hA (i := j - (before ts A x 0).length) (by omega)
        rw [show (before ts A x 0).length + (j - (before ts A x 0).length) = j by omega] at this
        rw [this]; simp; omega)
    exact ⟨_, this, Or.inl ⟨by omega, fun hc => hC hc.1⟩⟩

theorem FRep0.snodeSize (h : FRep0 cfg ts sw s f) {A C : List Str} {x : Str}
    (hA : snodes ts s = A ++ x :: C) :
    ∃ n, f.sparse.nodeSize (before ts A x 0).length = .ok n ∧
      (n = (kidItems ts x).length ∨
        (C = [] ∧ 64 ≤ n ∧ (sitems ts s).length % 64 ≠ 0 ∧ (kidItems ts x).length < n ∧ 64 ≤ (sitems ts s).length ∧
          (before ts A x 0).length + n = 64 * f.sparse.loudsBits.bits.length)) := by
  obtain ⟨n, e, h1⟩ := h.snodeSize_exact hA
  refine ⟨n, e, ?_⟩
  rcases h1 with h1 | ⟨⟨h1, h2, -⟩, h3, h4, h5, h6⟩
  · exact Or.inl h1.1
  · exact Or.inr ⟨h1, h3, h2, h4, h5, h6⟩

end Surf
