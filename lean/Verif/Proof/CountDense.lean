import Verif.Proof.CountTrie
import Verif.Proof.Iter
import Mathlib.Data.ZMod.Basic
import Mathlib.Tactic.LinearCombination

/-! # Counting in the dense levels -/

set_option linter.unusedSectionVars false
set_option autoImplicit false

namespace Surf
open Trie

/-! ## 32-bit arithmetic -/

theorem add32_cast (a b : Nat) : ((add32 a b : Nat) : ZMod 4294967296) = a + b := by
  unfold add32 M32
  rw [ZMod.natCast_mod, Nat.cast_add]

theorem sub32_cast (a b : Nat) : ((sub32 a b : Nat) : ZMod 4294967296) = a - b := by
  unfold sub32 M32
  rw [ZMod.natCast_mod, Nat.cast_add, Nat.cast_sub (Nat.le_of_lt (Nat.mod_lt _ (by decide))), ZMod.natCast_self,
    ZMod.natCast_mod]
  ring

theorem sub32_bd (a b : Nat) : sub32 a b < 4294967296 := Nat.mod_lt _ (by decide)
theorem add32_lt (a b : Nat) : add32 a b < 4294967296 := Nat.mod_lt _ (by decide)

theorem cast_inj {a b : Nat} (ha : a < 4294967296) (hb : b < 4294967296) (h : (a : ZMod 4294967296) = b) : a = b := by
  have := (ZMod.natCast_eq_natCast_iff' a b 4294967296).1 h
  rwa [Nat.mod_eq_of_lt ha, Nat.mod_eq_of_lt hb] at this

/-! ## Level cuts -/

theorem levelCuts_getD (l : List Nat) (acc i : Nat) (hi : i < l.length) :
    (levelCutsFrom acc l).getD i 0 = sub32 (acc + (l.take (i + 1)).sum) 1 := by
  induction l generalizing acc i with
  | nil => simp at hi
  | cons a l ih =>
    rw [levelCutsFrom]
    cases i with
    | zero => 
      rw [List.getD_cons_zero, List.take_succ_cons, List.take_zero, List.sum_cons, List.sum_nil, Nat.add_zero]
    | succ i =>
      rw [List.getD_cons_succ, ih _ _ (Nat.lt_of_succ_lt_succ hi), List.take_succ_cons, List.sum_cons, ← Nat.add_assoc]

theorem levelCuts_length (acc : Nat) (l : List Nat) : (levelCutsFrom acc l).length = l.length := by
  induction l generalizing acc with
  | nil => rfl
  | cons a l ih => rw [levelCutsFrom, List.length_cons, ih, List.length_cons]

section
variable {ts : List Str}

theorem nodesR_sum (ts : List Str) (n : Nat) :
    ((List.range n).map fun l => 256 * (nodes ts l).length).sum = 256 * (nodesR ts 0 n).length := by
  induction n with
  | zero => simp [nodesR]
  | succ n ih =>
    rw [List.range_succ, List.map_append, List.sum_append, ih, nodesR_split ts (Nat.zero_le n) (Nat.le_succ n), nodesR_one,
      List.length_append]
    simp
    omega

/-! ## Numbers of nodes in level order -/

theorem num_lt_of_bef (h : WF ts) {x y : Str} (hx : isInt ts x = true) (hy : isInt ts y = true)
    (hb : bef y.length y x = true) : num ts x < num ts y := by
  obtain ⟨A, C, e, e2⟩ := nodes_at h hy (Nat.zero_le _) (Nat.lt_succ_of_lt (int_length_lt hy)) (le_refl _)
  have h0 : (nodesR ts 0 0).length = 0 := by simp [nodesR]
  rw [← e2, h0, Nat.zero_add]
  have hm : x ∈ A := (mem_front h e).2 ⟨mem_nodesR.2 ⟨by omega, Nat.lt_succ_of_lt (int_length_lt hx), hx⟩, hb⟩
  unfold num
  rw [e]
  rw [List.idxOf_append_of_mem hm]
  exact List.idxOf_lt_length_of_mem hm

theorem num_lt_of_lt (h : WF ts) {x y : Str} (hx : isInt ts x = true) (hy : isInt ts y = true) (hl : x.length = y.length)
    (hlt : x < y) : num ts x < num ts y := num_lt_of_bef h hx hy (bef_iff.2 (Or.inr ⟨hl, hlt⟩))

theorem num_le_of_le (h : WF ts) {x y : Str} (hx : isInt ts x = true) (hy : isInt ts y = true) (hl : x.length = y.length)
    (hle : x ≤ y) : num ts x ≤ num ts y := by
  rcases hle.lt_or_eq with h1 | rfl
  · exact le_of_lt (num_lt_of_lt h hx hy hl h1)
  · exact le_refl _

/-- Nodes exist at every depth below the greatest length. -/
theorem exists_node (h : WF ts) {m : Nat} (hm : m < maxLen ts) : ∃ x, isInt ts x = true ∧ x.length = m := by
  obtain ⟨t, ht, hl⟩ := exists_maxLen h.ne
  refine ⟨t.take m, isInt_iff.2 ⟨t, ht, List.take_prefix _ _, ?_⟩, by rw [List.length_take]; omega⟩
  intro e
  have := congrArg List.length e
  rw [List.length_take] at this
  omega

/-- The first node of a level. -/
theorem firstNode (h : WF ts) {m : Nat} (hm : m < maxLen ts) :
    ∃ x, isInt ts x = true ∧ x.length = m ∧ (∀ y, isInt ts y = true → y.length = m → x ≤ y) ∧
      num ts x = (nodesR ts 0 m).length := by
  rcases nIdx_next h m (by omega) [] with ⟨x, h1, h2, -, h4, h5⟩ | ⟨h1, -⟩
  · refine ⟨x, h1, h2, ?_, ?_⟩
    · intro y hy hyl
      by_contra hlt
      exact absurd (h4 y hy hyl (not_le.1 hlt)) (by simp)
    · rw [← h5]
      unfold nIdx
      apply List.Perm.length_eq
      rw [List.perm_ext_iff_of_nodup ((nodesR_nodup h.sorted _ _).filter _) (nodesR_nodup h.sorted _ _)]
      intro p
      rw [List.mem_filter, mem_nodesR, mem_nodesR, bef_iff]
      constructor
      · rintro ⟨⟨-, h1, h2⟩, h3 | ⟨-, h3⟩⟩
        · exact ⟨by omega, h3, h2⟩
        · simp at h3
      · rintro ⟨-, h1, h2⟩
        exact ⟨⟨by omega, by omega, h2⟩, Or.inl h1⟩
  · obtain ⟨x, hx, hxl⟩ := exists_node h hm
    exact absurd (h1 x hx hxl) (by simp)

/-- The last node of a level. -/
theorem lastNode (h : WF ts) {m : Nat} (hm : m < maxLen ts) :
    ∃ x, isInt ts x = true ∧ x.length = m ∧ (∀ y, isInt ts y = true → y.length = m → y ≤ x) ∧
      num ts x + 1 = (nodesR ts 0 (m + 1)).length := by
  obtain ⟨x0, hx0, hx0l⟩ := exists_node h hm
  have hne : nodes ts m ≠ [] := List.ne_nil_of_mem (mem_nodes.2 ⟨hx0l, hx0⟩)
  have e := List.dropLast_append_getLast hne
  set z := (nodes ts m).getLast hne with hz
  obtain ⟨hzl, hzi⟩ := mem_nodes.1 (List.getLast_mem hne)
  rw [← hz] at hzl hzi
  refine ⟨z, hzi, hzl, ?_, ?_⟩
  · intro y hy hyl
    have hm : y ∈ nodes ts m := mem_nodes.2 ⟨hyl, hy⟩
    have hs := nodes_sorted h.sorted m
    rw [← e] at hm hs
    rcases List.mem_append.1 hm with hm | hm
    · exact le_of_lt ((List.pairwise_append.1 hs).2.2 y hm z (by simp))
    · simp only [List.mem_singleton] at hm
      rw [hm]
  · obtain ⟨A, C, e1, e2⟩ := nodes_at h hzi (Nat.zero_le _) (show z.length < m + 1 by omega) (by omega)
    have h0 : (nodesR ts 0 0).length = 0 := by simp [nodesR]
    have hC : C = [] := by
      have e3 : nodesR ts 0 (m + 1) = (nodesR ts 0 m ++ (nodes ts m).dropLast) ++ z :: [] := by
        rw [nodesR_split ts (Nat.zero_le m) (Nat.le_succ m), nodesR_one, List.append_assoc, e]
      have hnd := nodesR_nodup h.sorted 0 (m + 1)
      have hA : z ∉ A := by
        rw [e1] at hnd
        intro hm
        exact (List.nodup_append.1 hnd).2.2 z hm z (by simp) rfl
      have hB : z ∉ nodesR ts 0 m ++ (nodes ts m).dropLast := by
        rw [e3] at hnd
        intro hm
        exact (List.nodup_append.1 hnd).2.2 z hm z (by simp) rfl
      have e4 : (A ++ z :: C).idxOf z = ((nodesR ts 0 m ++ (nodes ts m).dropLast) ++ z :: []).idxOf z := by rw [← e1, e3]
      rw [idxOf_append_cons hA, idxOf_append_cons hB] at e4
      have e5 := congrArg List.length (e1.symm.trans e3)
      simp only [List.length_append, List.length_cons, List.length_nil] at e5 e4
      exact List.length_eq_zero_iff.1 (by omega)
    subst hC
    rw [e1, List.length_append, List.length_singleton]
    omega

/-- Leaves up to a symbol. -/
theorem lIdx_snoc (h : WF ts) (x : Str) (c : Nat) :
    lIdx ts (x.length + 1) (x ++ [c + 1]) = lIdx ts (x.length + 1) (x ++ [c]) + if x ++ [c] ∈ ts then 1 else 0 := by
  have hnd : ts.Nodup := h.sorted.imp (fun h => ne_of_lt h)
  unfold lIdx
  have e1 : (if x ++ [c] ∈ ts then 1 else 0) = (ts.filter fun t => decide (t = x ++ [c])).length := by
    rw [show (1 : Nat) = [x ++ [c]].length from rfl, show (0 : Nat) = ([] : List Str).length from rfl]
    split
    · rename_i hm
      apply List.Perm.length_eq
      rw [List.perm_ext_iff_of_nodup (by simp) (hnd.filter _)]
      intro p
      rw [List.mem_filter]
      simp only [List.mem_singleton, decide_eq_true_eq]
      constructor
      · rintro rfl; exact ⟨hm, rfl⟩
      · rintro ⟨-, rfl⟩; rfl
    · rename_i hm
      rw [List.filter_eq_nil_iff.2]
      intro p hp
      simp only [decide_eq_true_eq]
      rintro rfl
      exact hm hp
  rw [e1, ← List.length_append]
  apply List.Perm.length_eq
  rw [List.perm_ext_iff_of_nodup (hnd.filter _)]
  · intro p
    rw [List.mem_append, List.mem_filter, List.mem_filter, List.mem_filter, bef_iff, bef_iff, decide_eq_true_eq]
    constructor
    · rintro ⟨hp, h1 | ⟨h1, h2⟩⟩
      · exact Or.inl ⟨hp, Or.inl h1⟩
      · by_cases h3 : p < x ++ [c]
        · exact Or.inl ⟨hp, Or.inr ⟨h1, h3⟩⟩
        · right
          refine ⟨hp, ?_⟩
          have hne : p ≠ [] := by rintro rfl; simp at h1
          obtain ⟨y, d, rfl⟩ : ∃ y d, p = y ++ [d] := ⟨p.dropLast, p.getLast hne, (List.dropLast_append_getLast hne).symm⟩
          have hyl : y.length = x.length := by simpa using h1
          have hxy : y = x := by
            by_contra hne2
            rcases lt_trichotomy y x with h4 | h4 | h4
            · exact h3 (lt_append_of_lt hyl h4)
            · exact hne2 h4
            · exact lt_asymm h2 (lt_append_of_lt hyl.symm h4)
          subst hxy
          rw [lt_append] at h2 h3
          simp only [List.cons_lt_cons_iff] at h2 h3
          simp at h2 h3
          rw [show d = c by omega]
    · rintro (⟨hp, h1 | ⟨h1, h2⟩⟩ | ⟨hp, rfl⟩)
      · exact ⟨hp, Or.inl h1⟩
      · exact ⟨hp, Or.inr ⟨h1, h2.trans (lt_append.2 (by simp [List.cons_lt_cons_iff]))⟩⟩
      · exact ⟨hp, Or.inr ⟨by simp, lt_append.2 (by simp [List.cons_lt_cons_iff])⟩⟩
  · rw [List.nodup_append]
    refine ⟨hnd.filter _, hnd.filter _, ?_⟩
    rintro p hp q hq rfl
    have h1 := (List.mem_filter.1 hp).2
    have h2 := (List.mem_filter.1 hq).2
    simp only [decide_eq_true_eq] at h2
    subst h2
    rw [bef_iff] at h1
    rcases h1 with h1 | ⟨-, h1⟩
    · simp at h1
    · exact lt_irrefl _ h1

/-- The same at an item. -/
theorem lIdx_item (h : WF ts) {x : Str} {c : Nat} (he : ex ts (x ++ [c]) = true) :
    lIdx ts (x.length + 1) (x ++ [c + 1]) + (if isInt ts (x ++ [c]) then 1 else 0) = lIdx ts (x.length + 1) (x ++ [c]) + 1 := by
  rw [lIdx_snoc h]
  by_cases hi : isInt ts (x ++ [c]) = true
  · rw [if_pos hi, if_neg]
    intro hm
    rw [h.isInt_leaf hm] at hi
    cases hi
  · rw [if_neg hi, if_pos ((leaf_of_ex h he).1 (by simpa using hi))]

theorem lIdx_skip (h : WF ts) {x : Str} {a b : Nat} (hab : a ≤ b) (hno : ∀ d, a ≤ d → d < b → ex ts (x ++ [d]) = false) :
    lIdx ts (x.length + 1) (x ++ [b]) = lIdx ts (x.length + 1) (x ++ [a]) := by
  induction b with
  | zero => rw [show a = 0 by omega]
  | succ b ih =>
    by_cases e : a = b + 1
    · rw [e]
    · rw [lIdx_snoc h, ih (by omega) (fun d h1 h2 => hno d h1 (by omega)), if_neg, Nat.add_zero]
      intro hm
      have := hno b (by omega) (by omega)
      rw [ex_mem hm] at this
      cases this

end

/-! ## Positions per level -/

section
variable {ts : List Str}

/-- The position of the leaf's own item at level `i` (of the first label of the node for a prefix key). -/
def DPathM (ts : List Str) (t : Str) (i v : Nat) : Prop :=
  ∃ x b, x.length = i ∧ isInt ts x = true ∧ b < 256 ∧ v = 256 * num ts x + b ∧ ex ts (x ++ [b + 1]) = true ∧
    (x ++ [b + 1] <+: t ∨ (t = x ++ [0] ∧ ∀ d, d < b → ex ts (x ++ [d + 1]) = false))

/-- The start of the first node behind the leaf at a level below it. -/
def DExtM (ts : List Str) (t : Str) (i v : Nat) : Prop :=
  t.length ≤ i ∧ ∃ x, x.length = i ∧ isInt ts x = true ∧ t < x ∧
    (∀ y, isInt ts y = true → y.length = i → y < x → y < t) ∧ v = 256 * num ts x

/-- There is no node behind the leaf. -/
def NoneM (ts : List Str) (t : Str) (i : Nat) : Prop :=
  t.length ≤ i ∧ ∀ y, isInt ts y = true → y.length = i → y < t

theorem NoneM.deeper (h : WF ts) {t : Str} (ht : t ∈ ts) {i j : Nat} (hn : NoneM ts t i) (hij : i ≤ j) : NoneM ts t j := by
  refine ⟨hn.1.trans hij, ?_⟩
  intro y hy hyl
  have hyi : isInt ts (y.take i) = true := by
    obtain ⟨u, hu, hyu, hne⟩ := isInt_iff.1 hy
    refine isInt_iff.2 ⟨u, hu, (List.take_prefix _ _).trans hyu, ?_⟩
    intro e
    exact hne (List.IsPrefix.eq_of_length_le hyu (by rw [← e, List.length_take]; omega))
  have hl : (y.take i).length = i := by rw [List.length_take]; omega
  have h1 := hn.2 _ hyi hl
  have h2 : ¬ y.take i <+: t := by
    intro hp
    have h3 := hp.eq_of_length_le (by rw [hl]; exact hn.1)
    rw [h3, h.isInt_leaf ht] at hyi
    cases hyi
  have h3 := append_lt h1 h2 (y.drop i)
  rwa [List.take_append_drop] at h3

theorem NoneM.btw (h : WF ts) {t tr : Str} (ht : t ∈ ts) {i j : Nat} (hn : NoneM ts t i) (hij : i ≤ j) :
    btw ts (j + 1) t tr = 0 := by
  by_contra hne
  obtain ⟨u, hu, hul, h1, -⟩ := btw_pos.1 (Nat.pos_of_ne_zero hne)
  have hu0 : u ≠ [] := by rintro rfl; simp at hul
  obtain ⟨y, d, rfl⟩ : ∃ y d, u = y ++ [d] := ⟨u.dropLast, u.getLast hu0, (List.dropLast_append_getLast hu0).symm⟩
  have hy := int_of_ex_snoc (ex_mem hu)
  have hd := hn.deeper h ht hij
  have h2 := hd.2 y hy (by simpa using hul)
  have h3 := (snoc_lt_leaf (c := d) (by have := hd.1; simp at hul; omega) (not_prefix_int h ht hy)).2 h2
  exact lt_asymm h1 h3

end

section
variable [Env] {cfg : Config} {ts : List Str} {sw : Str → Word} {s : Nat} {f : Filter}

omit [Env] in
theorem FRep0.dlen (h : FRep0 cfg ts sw s f) {i : Nat} (hi : i ≤ s) : (nodesR ts 0 i).length ≤ (nodesR ts 0 s).length := by
  rw [nodesR_split ts (Nat.zero_le i) hi, List.length_append]
  omega

theorem FRep0.dcut (h : FRep0 cfg ts sw s f) {i : Nat} (hi : i < s) :
    rdP f.dense.levelCuts i = .ok (256 * (nodesR ts 0 (i + 1)).length - 1) := by
  have hl : f.dense.levelCuts.length = s := by rw [h.dense.cuts, levelCuts_length]; simp
  rw [rdP_ok (by omega), h.dense.cuts, levelCuts_getD _ _ _ (by simpa using hi), Nat.zero_add, ← List.map_take,
    List.take_range, Nat.min_eq_left (by omega), nodesR_sum]
  have h1 := h.dlen (show i + 1 ≤ s by omega)
  have h2 : 1 ≤ (nodesR ts 0 (i + 1)).length := by
    rw [nodesR_split ts (Nat.zero_le 1) (show 1 ≤ i + 1 by omega), nodesR_one, h.wf.nodes_zero]
    simp
  have h3 := h.d32
  rw [sub32_eq (by omega) (by omega)]

omit [Env] in
/-- Positions are numbers of a node and a byte; they are not `kMaxPos`. -/
theorem FRep0.dpos_ne (h : FRep0 cfg ts sw s f) {x : Str} (hx : isInt ts x = true) (hs : x.length < s) {b : Nat}
    (hb : b < 256) : 256 * num ts x + b ≠ kMaxPos ∧ 256 * num ts x + b < 4294967296 := by
  have h1 := (h.dpos_lt hx hs hb).2
  have h2 := h.d32
  rw [M32_eq] at h2
  constructor
  · intro h3
    unfold kMaxPos at h3
    omega
  · omega

/-- The node number computed for the next level. -/
theorem FRep0.dchildIdx (h : FRep0 cfg ts sw s f) {x : Str} (hx : isInt ts x = true) (hs : x.length < s) {b : Nat}
    (hb : b < 256) :
    ∃ n c, f.dense.getChildNodeNum (256 * num ts x + b) = .ok n ∧ f.dense.childBitmaps.readBit (256 * num ts x + b) = .ok c ∧
      (if c then n else add32 n 1) = nIdx ts (x.length + 1) (x ++ [b + 1]) := by
  obtain ⟨A, C, e, eA⟩ := h.dnode hx hs
  refine ⟨(before ts A x (b + 2)).countP (isInt ts), _, ?_, h.dchild hx hs hb, ?_⟩
  · rw [← eA]
    exact h.drankC e hb
  · have h1 := before_int h.wf e (show b + 1 ≤ 257 by omega)
    rw [nodesR_one, h.wf.nodes_zero] at h1
    simp only [List.length_singleton] at h1
    rw [← h1, before_succ, List.countP_append]
    by_cases hi : isInt ts (x ++ [b + 1]) = true
    · rw [if_pos hi, ex_of_int hi]
      simp [hi]
    · rw [if_neg hi]
      have h2 : (if ex ts (x ++ [b + 1]) = true then [x ++ [b + 1]] else []).countP (isInt ts) = 0 := by
        split
        · simp [hi]
        · rfl
      rw [h2, Nat.add_zero, add32_eq]
      have := h.count_lt e (show b + 1 ≤ 257 by omega) (isInt ts)
      have := h.i32
      omega

omit [Env] in
/-- The places of a leaf and of its position are the same for the nodes of the next level. -/
theorem nIdx_path (h : WF ts) {t : Str} (ht : t ∈ ts) {x : Str} {b : Nat}
    (hp : x ++ [b + 1] <+: t ∨ (t = x ++ [0] ∧ ∀ d, d < b → ex ts (x ++ [d + 1]) = false)) :
    nIdx ts (x.length + 1) (x ++ [b + 1]) = nIdx ts (x.length + 1) (t.take (x.length + 1)) := by
  rcases hp with hp | ⟨rfl, hmin⟩
  · have := List.prefix_iff_eq_take.1 hp
    simp only [List.length_append, List.length_singleton] at this
    rw [← this]
  · rw [List.take_of_length_le (by simp)]
    apply nIdx_congr
    intro y hy hyl
    constructor
    · intro h1
      have hy0 : y ≠ [] := by rintro rfl; simp at hyl
      obtain ⟨z, d, rfl⟩ : ∃ z d, y = z ++ [d] := ⟨y.dropLast, y.getLast hy0, (List.dropLast_append_getLast hy0).symm⟩
      have hzl : z.length = x.length := by simpa using hyl
      rcases lt_trichotomy z x with h2 | rfl | h2
      · exact lt_append_of_lt hzl h2
      · exfalso
        rw [lt_append] at h1
        simp [List.cons_lt_cons_iff] at h1
        cases d with
        | zero => rw [isInt_term h] at hy; cases hy
        | succ d =>
          have := hmin d (by omega)
          rw [ex_of_int hy] at this
          cases this
      · exact absurd h1 (lt_asymm (lt_append_of_lt hzl.symm h2))
    · intro h1
      exact h1.trans (lt_append.2 (by simp [List.cons_lt_cons_iff]))

omit [Env] in
theorem nIdx_ext (h : WF ts) {t : Str} (ht : t ∈ ts) {x : Str} (hl : t.length ≤ x.length) (hlt : t < x)
    (hmin : ∀ y, isInt ts y = true → y.length = x.length → y < x → y < t) :
    nIdx ts (x.length + 1) (x ++ [1]) = nIdx ts (x.length + 1) (t.take (x.length + 1)) := by
  rw [List.take_of_length_le (by omega)]
  apply nIdx_congr
  intro y hy hyl
  have hy0 : y ≠ [] := by rintro rfl; simp at hyl
  obtain ⟨z, d, rfl⟩ : ∃ z d, y = z ++ [d] := ⟨y.dropLast, y.getLast hy0, (List.dropLast_append_getLast hy0).symm⟩
  have hzl : z.length = x.length := by simpa using hyl
  have hz := int_of_ex_snoc (ex_of_int hy)
  rw [snoc_lt_leaf (by omega) (not_prefix_int h ht hz)]
  constructor
  · intro h1
    rcases lt_trichotomy z x with h2 | rfl | h2
    · exact hmin z hz hzl h2
    · exfalso
      rw [lt_append] at h1
      simp [List.cons_lt_cons_iff] at h1
      subst h1
      rw [isInt_term h] at hy
      cases hy
    · exact absurd h1 (lt_asymm (lt_append_of_lt hzl.symm h2))
  · intro h1
    exact lt_append_of_lt hzl (h1.trans hlt)

/-- The entry of level `i` in an extended list of positions. -/
def DMark (ts : List Str) (t : Str) (i v : Nat) : Prop :=
  (DPathM ts t i v ∨ DExtM ts t i v) ∨ (v = kMaxPos ∧ NoneM ts t i)

/-- The step to the next level. -/
theorem FRep0.dmarkStep (h : FRep0 cfg ts sw s f) {t : Str} (ht : t ∈ ts) {i v : Nat} (hi : i < s)
    (hm : DPathM ts t i v ∨ DExtM ts t i v) :
    ∃ n c, f.dense.getChildNodeNum v = .ok n ∧ f.dense.childBitmaps.readBit v = .ok c ∧
      (if c then n else add32 n 1) = nIdx ts (i + 1) (t.take (i + 1)) := by
  rcases hm with ⟨x, b, rfl, hx, hb, rfl, he, hp⟩ | ⟨hl, x, rfl, hx, hlt, hmin, rfl⟩
  · obtain ⟨n, c, e1, e2, e3⟩ := h.dchildIdx hx hi hb
    exact ⟨n, c, e1, e2, by rw [e3, nIdx_path h.wf ht hp]⟩
  · obtain ⟨n, c, e1, e2, e3⟩ := h.dchildIdx hx hi (show 0 < 256 by omega)
    exact ⟨n, c, e1, e2, by rw [e3, nIdx_ext h.wf ht hl hlt hmin]⟩

omit [Env] in
theorem nIdx_next_leaf (h : WF ts) {t : Str} (ht : t ∈ ts) {m : Nat} (hm : m ≤ maxLen ts) (hl : t.length ≤ m) :
    (∃ x, x.length = m ∧ isInt ts x = true ∧ t < x ∧ (∀ y, isInt ts y = true → y.length = m → y < x → y < t) ∧
      nIdx ts m t = num ts x) ∨ (NoneM ts t m ∧ nIdx ts m t = (nodesR ts 0 (m + 1)).length) := by
  rcases nIdx_next h m hm t with ⟨x, h1, h2, h3, h4, h5⟩ | ⟨h1, h2⟩
  · left
    exact ⟨x, h2, h1, lt_of_le_of_ne (not_lt.1 h3) (leaf_ne_int h ht h1), h4, h5⟩
  · exact Or.inr ⟨⟨hl, h1⟩, h2⟩

theorem FRep0.dextend (h : FRep0 cfg ts sw s f) {t : Str} (ht : t ∈ ts) (n i : Nat) (hn : i + n = s) (h1 : 1 ≤ i) (pos : Nat)
    (l : List Nat) (hl : l.length = i) (hm : ∀ j, j < i → DMark ts t j (l.getD j 0))
    (hp : DPathM ts t (i - 1) pos ∨ DExtM ts t (i - 1) pos) (hti : t.length ≤ i ∨ n = 0) :
    ∃ pos' l', f.dense.extendLoop n i pos l = .ok (pos', l') ∧ l'.length ≤ s ∧
      (∀ j, j < l'.length → DMark ts t j (l'.getD j 0)) ∧
      ((pos' = kMaxPos ∧ 1 ≤ l'.length ∧ NoneM ts t (l'.length - 1)) ∨
        (l'.length = s ∧ (DPathM ts t (s - 1) pos' ∨ DExtM ts t (s - 1) pos'))) := by
  induction n generalizing i pos l with
  | zero =>
    have : i = s := by omega
    subst this
    exact ⟨pos, l, rfl, by omega, fun j hj => hm j (by omega), Or.inr ⟨hl, hp⟩⟩
  | succ n ih =>
    have hti : t.length ≤ i := by omega
    unfold LoudsDense.extendLoop
    obtain ⟨nn, c, e1, e2, e3⟩ := h.dmarkStep ht (show i - 1 < s by omega) hp
    rw [e1, ok_bind, e2, ok_bind]
    dsimp only
    rw [e3, show i - 1 + 1 = i by omega, List.take_of_length_le hti, h.dcut (by omega), ok_bind]
    have hlen := h.dlen (show i + 1 ≤ s by omega)
    have h32 := h.d32
    have hH := h.sH
    rcases nIdx_next_leaf h.wf ht (show i ≤ maxLen ts by omega) hti with ⟨x, hxl, hx, hlt, hmin, e⟩ | ⟨hno, e⟩
    · have hnum : num ts x < (nodesR ts 0 (i + 1)).length := num_lt h.wf hx (by omega) (by omega)
      rw [e, mul32_eq (by unfold kFanout; omega), if_neg (by unfold kFanout; omega)]
      have hext : DExtM ts t i (num ts x * kFanout) :=
        ⟨hti, x, hxl, hx, hlt, hmin, by unfold kFanout; omega⟩
      apply ih (i + 1) (by omega) (by omega) _ _ (by simp [hl])
      · intro j hj
        by_cases hji : j = i
        · subst hji
          rw [getD_append_ge (by omega), hl, Nat.sub_self]
          exact Or.inl (Or.inr hext)
        · rw [getD_append_lt (by omega)]
          exact hm j (by omega)
      · exact Or.inr hext
      · exact Or.inl (by omega)
    · rw [e, mul32_eq (by unfold kFanout; omega)]
      have h2 : 1 ≤ (nodesR ts 0 (i + 1)).length := by
        rw [nodesR_split ts (Nat.zero_le 1) (show 1 ≤ i + 1 by omega), nodesR_one, h.wf.nodes_zero]
        simp
      rw [if_pos (by unfold kFanout; omega)]
      refine ⟨_, _, rfl, by simp; omega, ?_, Or.inl ⟨rfl, by simp, by simp [hl]; exact hno⟩⟩
      intro j hj
      simp only [List.length_append, List.length_singleton, hl] at hj
      by_cases hji : j = i
      · subst hji
        rw [getD_append_ge (by omega), hl, Nat.sub_self]
        exact Or.inr ⟨rfl, hno⟩
      · rw [getD_append_lt (by omega)]
        exact hm j (by omega)

/-- The positions an iterator holds. -/
theorem FRep0.dstart (h : FRep0 cfg ts sw s f) {t : Str} (ht : t ∈ ts) {it : DIter} (ha : DAt ts s it t) :
    (it.pos.take it.keyLen).length = min t.length s ∧
      ∀ j, j < min t.length s → DPathM ts t j ((it.pos.take it.keyLen).getD j 0) := by
  have hne := h.wf.nonempty t ht
  have key : ∀ p : Str, DOn ts s it p → p.length = min t.length s →
      (∀ x b, x ++ [b + 1] <+: p → ex ts (x ++ [b + 1]) = true ∧ isInt ts x = true ∧ b < 256 ∧
        (x ++ [b + 1] <+: t ∨ (t = x ++ [0] ∧ ∀ d, d < b → ex ts (x ++ [d + 1]) = false))) → 0 ∉ p →
      (it.pos.take it.keyLen).length = min t.length s ∧
      ∀ j, j < min t.length s → DPathM ts t j ((it.pos.take it.keyLen).getD j 0) := by
    intro p hon hpl hpre h0
    refine ⟨by rw [List.length_take, hon.len, hon.pl, hpl]; omega, ?_⟩
    intro j hj
    have hjp : j < p.length := by omega
    have hpt : p.take (j + 1) = p.take j ++ [p[j]] := by rw [List.take_append_getElem]
    obtain ⟨b, hb⟩ : ∃ b, p[j] = b + 1 := by
      refine ⟨p[j] - 1, ?_⟩
      have : p[j] ≠ 0 := by
        intro e
        exact h0 (e ▸ List.getElem_mem hjp)
      omega
    have hpx : p.take j ++ [b + 1] <+: p := by rw [← hb, ← hpt]; exact List.take_prefix _ _
    have hl : (p.take j).length = j := by rw [List.length_take]; omega
    have hpos := hon.pos _ _ hpx
    obtain ⟨h1, h2, h3, h4⟩ := hpre _ _ hpx
    refine ⟨p.take j, b, hl, h2, h3, ?_, h1, h4⟩
    rw [hl] at hpos
    rw [List.getD_eq_getElem?_getD, List.getElem?_take_of_lt (by rw [hon.len]; omega), hpos]
    rfl
  by_cases hs : s < t.length
  · refine key (t.take s) (ha.onS hs) (by rw [List.length_take]; omega) ?_ (not_zero_take h.wf ht hs)
    intro x b hx
    have hxt := hx.trans (List.take_prefix s t)
    have he := ex_prefix (ex_mem ht) hxt
    have := sym_le h.wf he
    exact ⟨he, int_of_ex_snoc he, by omega, Or.inl hxt⟩
  · obtain ⟨x, c, rfl⟩ : ∃ x c, t = x ++ [c] := ⟨t.dropLast, t.getLast hne, (List.dropLast_append_getLast hne).symm⟩
    have h0 : 0 ∉ x := by
      have := h.wf.term _ ht
      simpa using this
    cases c with
    | succ c =>
      refine key (x ++ [c + 1]) (ha.on x c rfl (by omega)) (by omega) ?_ (by simp [h0])
      intro y b hy
      have he := ex_prefix (ex_mem ht) hy
      have := sym_le h.wf he
      exact ⟨he, int_of_ex_snoc he, by omega, Or.inl hy⟩
    | zero =>
      obtain ⟨b, hb, hmin, hon⟩ := ha.onP x rfl (by omega)
      refine key (x ++ [b + 1]) hon (by simp at hs ⊢; omega) ?_ (by simp [h0])
      intro y c hy
      rcases prefix_snoc hy with h1 | ⟨rfl, h1⟩
      · have hyt : y ++ [c + 1] <+: x ++ [0] := h1.trans (List.prefix_append _ _)
        have he := ex_prefix (ex_mem ht) hyt
        have := sym_le h.wf he
        exact ⟨he, int_of_ex_snoc he, by omega, Or.inl hyt⟩
      · have hc : c = b := by omega
        subst hc
        have := sym_le h.wf hb
        exact ⟨hb, int_of_ex_snoc hb, by omega, Or.inr ⟨rfl, hmin⟩⟩

/-- `extendPosList`: an entry for every dense level. -/
theorem FRep0.dextendPosList (h : FRep0 cfg ts sw s f) {t : Str} (ht : t ∈ ts) {it : DIter} (ha : DAt ts s it t) :
    ∃ l out, f.dense.extendPosList (it.pos.take it.keyLen) = .ok (l, out) ∧ l.length = s ∧
      (∀ j, j < s → DMark ts t j (l.getD j 0)) ∧
      ((out = kMaxPos ∧ NoneM ts t (s - 1)) ∨ (out ≠ kMaxPos ∧ out = nIdx ts s (t.take s))) := by
  obtain ⟨hl, hm⟩ := h.dstart ht ha
  have hne := h.wf.nonempty t ht
  have ht1 : 1 ≤ t.length := by
    cases t with
    | nil => exact absurd rfl hne
    | cons _ _ => simp
  have hs1 := h.s1
  have h32 := h.h32
  have hsH := h.sH
  set l := it.pos.take it.keyLen with hldef
  unfold LoudsDense.extendPosList
  rw [sub32_eq (by omega) (by omega), rdP_ok (by omega), ok_bind, h.dense.height]
  obtain ⟨pos', l', e1, h1, h2, h3⟩ := h.dextend ht (s - l.length) l.length (by omega) (by omega) (l.getD (l.length - 1) 0) l rfl
    (fun j hj => Or.inl (Or.inl (hm j (by omega)))) (Or.inl (hm _ (by omega))) (by omega)
  rw [e1, ok_bind]
  dsimp only
  rcases h3 with ⟨rfl, h3, h4⟩ | ⟨h3, h4⟩
  · rw [if_pos rfl]
    refine ⟨_, _, rfl, by simp; omega, ?_, Or.inl ⟨rfl, h4.deeper h.wf ht (by omega)⟩⟩
    intro j hj
    by_cases hjl : j < l'.length
    · rw [getD_append_lt hjl]
      exact h2 j hjl
    · rw [getD_append_ge (by omega)]
      right
      refine ⟨?_, h4.deeper h.wf ht (by omega)⟩
      rw [List.getD_eq_getElem?_getD, List.getElem?_replicate, if_pos (by omega)]
      rfl
  · have hpk : pos' ≠ kMaxPos := by
      rcases h4 with ⟨x, b, hxl, hx, hb, rfl, -⟩ | ⟨-, x, hxl, hx, -, -, rfl⟩
      · exact (h.dpos_ne hx (by omega) hb).1
      · exact (h.dpos_ne hx (by omega) (show 0 < 256 by omega)).1
    rw [if_neg hpk]
    obtain ⟨n, c, e2, e3, e4⟩ := h.dmarkStep ht (show s - 1 < s by omega) h4
    rw [e2, ok_bind, e3, ok_bind]
    rw [show s - 1 + 1 = s by omega] at e4
    refine ⟨l', _, rfl, h3, fun j hj => h2 j (by omega), Or.inr ⟨?_, e4⟩⟩
    rw [e4]
    have : nIdx ts s (t.take s) ≤ (nodesR ts 0 (maxLen ts + 1)).length := List.length_filter_le _ _
    rw [h.wf.nodesR_eq (by omega), List.length_cons] at this
    have h5 : ((items ts 0 (maxLen ts + 1)).filter (isInt ts)).length ≤ (items ts 0 (maxLen ts + 1)).length :=
      List.length_filter_le _ _
    have := h.i32
    rw [M32_eq] at this
    unfold kMaxPos
    omega

end

end Surf
