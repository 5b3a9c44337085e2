import Verif.Proof.CountLevel

/-!
# Approximate count: the sparse levels

The sparse part of the count (`louds_sparse.hpp:296-398`).  The extension of the position lists asks for the node behind
the last one; `PastOk` says what the memory behind the LOUDS bits has to hold for that.
-/

set_option linter.unusedSectionVars false
set_option autoImplicit false

namespace Surf

open Trie

section
variable [Env] {cfg : Config} {ts : List Str} {sw : Str → Word} {s : Nat} {f : Filter}

/-! ## Ranks -/

/-- `rank` and `readBit` at a position, the position behind the last one included: there both look at the same bit. -/
theorem BitvectorRank.rank_any {b : BitvectorRank} {xs : List Bool} (h : b.Rep xs) (hstr : Env.strict = false) {pos : Nat}
    (hp : pos ≤ xs.length) :
    ∃ r c, b.rank pos = .ok r ∧ b.readBit pos = .ok c ∧ r = (xs.take pos).count true + (if c then 1 else 0) := by
  by_cases hlt : pos < xs.length
  · refine ⟨_, _, rank_ok h (Or.inl hlt), Bitvector.readBit_ok h.base hlt, ?_⟩
    rw [List.take_succ_eq_append_getElem hlt, List.count_append]
    rw [List.getD_eq_getElem?_getD, List.getElem?_eq_getElem hlt]
    cases xs[pos] <;> rfl
  · have he : pos = xs.length := by omega
    subst he
    by_cases hm : xs.length % 64 = 0
    · have hl := h.base.len_bounds
      have hn := h.base.num
      have hlen : b.bits.length = xs.length / 64 := by omega
      have hrd : rdW b.bits (xs.length / 64) = .ok (Env.junkW b.bits (xs.length / 64)) := by
        unfold rdW
        rw [List.getElem?_eq_none (by omega)]
        simp [hstr]
      have hand : xs.length &&& (b.basicBlockSize - 1) = xs.length % b.basicBlockSize := by
        rcases h.bbs with e | e <;> rw [e]
        · exact Nat.and_two_pow_sub_one_eq_mod _ 9
        · exact Nat.and_two_pow_sub_one_eq_mod _ 6
      obtain ⟨p, h1, h2⟩ := popLoop_ok (ws := b.bits) (x := xs.length / b.basicBlockSize * (b.basicBlockSize / 64))
        (n := xs.length % b.basicBlockSize / 64) (by rcases h.bbs with e | e <;> rw [e] <;> omega)
      have hw : xs.length / b.basicBlockSize * (b.basicBlockSize / 64) + xs.length % b.basicBlockSize / 64 = xs.length / 64 := by
        rcases h.bbs with e | e <;> rw [e] <;> omega
      refine ⟨_, (Env.junkW b.bits (xs.length / 64)).getMsbD 0, ?_, ?_, rfl⟩
      · unfold rank
        rw [assertR_ok (by simp; omega), ok_bind]
        dsimp only
        rw [hand, rdP_ok (by rw [h.lutLen]; omega), ok_bind, h.lut _ (le_refl _)]
        unfold popcountLinear
        rw [if_neg (by omega), Nat.add_sub_cancel]
        dsimp only
        rw [h1, ok_bind, hw, hrd, ok_bind]
        simp only [pure_ok]
        rw [ok_bind]
        refine ok_congr ?_
        rw [popcount_shr _ (by omega), show xs.length % b.basicBlockSize % 64 = 0 by
          rcases h.bbs with e | e <;> rw [e] <;> omega]
        rw [h.base.rk_eq, rk_list, h.base.rk_eq, rk_list] at h2
        have e1 : 64 * (xs.length / b.basicBlockSize * (b.basicBlockSize / 64)) =
            b.basicBlockSize * (xs.length / b.basicBlockSize) := by
          rcases h.bbs with e | e <;> rw [e] <;> omega
        rw [hw, e1, show 64 * (xs.length / 64) = xs.length by omega] at h2
        rw [rk_succ, rk_zero, ← h2]
        simp only [Nat.zero_add]
        omega
      · unfold Bitvector.readBit
        rw [assertR_ok (by simp; omega), ok_bind, hrd, ok_bind, testMsb_eq _ (by omega), hm]
        rfl
    · refine ⟨_, _, rank_ok h (Or.inr ⟨rfl, hm⟩), Bitvector.readBit_end h.base hm, ?_⟩
      rw [List.take_of_length_le (by omega), List.take_of_length_le (le_refl _)]
      rfl

/-- Leaves among the first `p` sparse items. -/
def sleaves (ts : List Str) (s p : Nat) : Nat := ((sitems ts s).take p).countP fun q => !isInt ts q

theorem FRep0.srank3 (h : FRep0 cfg ts sw s f) (hstr : Env.strict = false) {p : Nat} (hp : p ≤ (sitems ts s).length) :
    ∃ r c, f.sparse.childBits.rank p = .ok r ∧ f.sparse.childBits.readBit p = .ok c ∧
      p + (if c then 1 else 0) = sleaves ts s p + r := by
  obtain ⟨r, c, e1, e2, e3⟩ := BitvectorRank.rank_any h.sparse.chl hstr (pos := p) (by simpa using hp)
  refine ⟨r, c, e1, e2, ?_⟩
  rw [← List.map_take, count_true_map] at e3
  change r = ((sitems ts s).take p).countP (isInt ts) + _ at e3
  have h1 := List.length_eq_countP_add_countP (isInt ts) (l := (sitems ts s).take p)
  rw [List.length_take, Nat.min_eq_left hp] at h1
  unfold sleaves
  have h2 : ((sitems ts s).take p).countP (fun q => !isInt ts q) =
      ((sitems ts s).take p).countP (fun a => decide (¬ isInt ts a = true)) := by
    congr 1
    funext a
    cases isInt ts a <;> rfl
  rw [h2]
  omega

omit [Env] in
theorem sleaves_mono {p q : Nat} (hpq : p ≤ q) : sleaves ts s p ≤ sleaves ts s q := by
  unfold sleaves
  apply List.Sublist.countP_le
  exact (List.take_prefix_take_left hpq).sublist

/-! ## Items -/

omit [Env] in
theorem before_prefix (h : WF ts) {A C : List Str} {x : Str} (hA : snodes ts s = A ++ x :: C) {c : Nat} (hc : c ≤ 257) :
    before ts A x c <+: sitems ts s := by
  show _ <+: items ts s (maxLen ts + 1)
  change nodesR ts s (maxLen ts + 1) = _ at hA
  rw [items_eq h.sorted, hA]
  unfold before
  rw [List.flatMap_append, List.flatMap_cons]
  refine List.prefix_append_right_inj _ |>.2 ?_
  rw [kidItems_eq h]
  exact (kidsLT_prefix x hc).trans (List.prefix_append _ _)

theorem FRep0.sleaves_item (h : FRep0 cfg ts sw s f) {x : Str} {c : Nat} (hs : s ≤ x.length) (he : ex ts (x ++ [c]) = true) :
    sleaves ts s (ipos ts s (x ++ [c])) + (ts.filter fun t => decide (t.length ≤ s)).length =
      lIdx ts (x.length + 1) (x ++ [c]) := by
  obtain ⟨A, C, e, -⟩ := h.snode (int_of_ex_snoc he) hs
  have hc := sym_le h.wf he
  have hp := before_prefix h.wf e (show c ≤ 257 by omega)
  unfold sleaves
  rw [ipos_eq h.wf e he, ← List.prefix_iff_eq_take.1 hp]
  exact before_leaf h.wf e (by omega)

omit [Env] in
theorem items_leaf (h : WF ts) {a b : Nat} (hab : a ≤ b) :
    (items ts a b).countP (fun p => !isInt ts p) + (ts.filter fun t => decide (t.length ≤ a)).length =
      (ts.filter fun t => decide (t.length ≤ b)).length := by
  have hnd : ts.Nodup := h.sorted.imp (fun h => ne_of_lt h)
  rw [List.countP_eq_length_filter, ← List.length_append]
  apply List.Perm.length_eq
  rw [List.perm_ext_iff_of_nodup]
  · intro p
    rw [List.mem_append, List.mem_filter, List.mem_filter, List.mem_filter, mem_items]
    constructor
    · rintro (⟨⟨h1, h2, h3⟩, h4⟩ | ⟨h1, h2⟩)
      · exact ⟨(leaf_of_ex h (ex_iff.2 h3)).1 (by simpa using h4), by simpa using h2⟩
      · simp at h2
        exact ⟨h1, by simp; omega⟩
    · rintro ⟨h1, h2⟩
      simp at h2
      by_cases h3 : p.length ≤ a
      · right; exact ⟨h1, by simp [h3]⟩
      · left
        exact ⟨⟨by omega, by omega, ex_iff.1 (ex_mem h1)⟩, by simp [h.isInt_leaf h1]⟩
  · rw [List.nodup_append]
    refine ⟨(items_nodup h.sorted a b).filter _, hnd.filter _, ?_⟩
    rintro p hp q hq rfl
    rw [List.mem_filter, mem_items] at hp
    have := (List.mem_filter.1 hq).2
    simp at this
    omega
  · exact hnd.filter _

omit [Env] in
theorem FRep0.sleaves_level (h : FRep0 cfg ts sw s f) {m : Nat} (hs : s ≤ m) (hm : m ≤ maxLen ts) :
    sleaves ts s (items ts s (m + 1)).length + (ts.filter fun t => decide (t.length ≤ s)).length =
      (ts.filter fun t => decide (t.length ≤ m + 1)).length := by
  unfold sleaves sitems
  rw [items_split ts (show s ≤ m + 1 by omega) (show m + 1 ≤ maxLen ts + 1 by omega), List.take_left]
  exact items_leaf h.wf (by omega)

omit [Env] in
theorem none_lt (h : WF ts) {t u : Str} (ht : t ∈ ts) (hu : u ∈ ts) {i : Nat} (hn : NoneM ts t i) (hul : u.length = i + 1) :
    u < t := by
  have hu0 := h.nonempty u hu
  obtain ⟨z, d, rfl⟩ : ∃ z d, u = z ++ [d] := ⟨u.dropLast, u.getLast hu0, (List.dropLast_append_getLast hu0).symm⟩
  have hzl : z.length = i := by simpa using hul
  have hz := int_of_ex_snoc (ex_mem hu)
  rw [snoc_lt_leaf (by have := hn.1; omega) (not_prefix_int h ht hz)]
  exact hn.2 z hz hzl

omit [Env] in
theorem lIdx_all (h : WF ts) {t : Str} (ht : t ∈ ts) {i : Nat} (hn : NoneM ts t i) :
    lIdx ts (i + 1) t = (ts.filter fun u => decide (u.length ≤ i + 1)).length := by
  unfold lIdx
  congr 1
  apply List.filter_congr
  intro u hu
  rw [Bool.eq_iff_iff, bef_iff, decide_eq_true_eq]
  constructor
  · rintro (h1 | ⟨h1, -⟩) <;> omega
  · intro h1
    by_cases h2 : u.length = i + 1
    · exact Or.inr ⟨h2, none_lt h ht hu hn h2⟩
    · exact Or.inl (by omega)

omit [Env] in
theorem ipos_range (h : WF ts) {q : Str} {m : Nat} (hs : s ≤ m) (hq : ex ts q = true) (hl : q.length = m + 1) :
    (items ts s m).length ≤ ipos ts s q ∧ ipos ts s q < (items ts s (m + 1)).length := by
  have hm : m + 1 ≤ maxLen ts := hl ▸ ex_len hq
  have e1 := items_split ts (show s ≤ m + 1 by omega) (show m + 1 ≤ maxLen ts + 1 by omega)
  have e2 := items_split ts hs (show m ≤ m + 1 by omega)
  have hmem : q ∈ items ts m (m + 1) := mem_items.2 ⟨by omega, by omega, ex_iff.1 hq⟩
  obtain ⟨B, D, e3⟩ := List.append_of_mem hmem
  have e4 : sitems ts s = (items ts s m ++ B) ++ q :: (D ++ items ts (m + 1) (maxLen ts + 1)) := by
    show items ts s (maxLen ts + 1) = _
    rw [e1, e2, e3]
    simp
  rw [ipos_of_split h e4, e2, e3]
  simp

omit [Env] in
theorem FRep0.items_pos (h : FRep0 cfg ts sw s f) (hsm : s < maxLen ts) {m : Nat} (hs : s ≤ m) :
    1 ≤ (items ts s (m + 1)).length := by
  obtain ⟨x, hx, hxl⟩ := exists_node h.wf hsm
  obtain ⟨c, hc, -⟩ := exists_first h.wf hx
  have : x ++ [c] ∈ items ts s (m + 1) := mem_items.2 ⟨by simp; omega, by simp; omega, ex_iff.1 hc⟩
  exact List.length_pos_of_mem this

omit [Env] in
theorem FRep0.items_le (h : FRep0 cfg ts sw s f) {m : Nat} (hs : s ≤ m) (hm : m ≤ maxLen ts) :
    (items ts s (m + 1)).length ≤ (sitems ts s).length := by
  show _ ≤ (items ts s (maxLen ts + 1)).length
  rw [items_split ts (show s ≤ m + 1 by omega) (show m + 1 ≤ maxLen ts + 1 by omega), List.length_append]
  omega

theorem FRep0.scut (h : FRep0 cfg ts sw s f) {i : Nat} (hi : s + i ≤ maxLen ts) :
    rdP f.sparse.levelCuts (f.sparse.startLevel + i) = .ok (sub32 (items ts s (s + i + 1)).length 1) := by
  have hsH := h.sH
  rw [h.sparse.start, h.sparse.cuts, rdP_ok (by simp [levelCuts_length]; omega), getD_append_ge (by simp),
    List.length_replicate, Nat.add_sub_cancel_left, levelCuts_getD _ _ _ (by simp; omega), Nat.zero_add, ← List.map_take]
  congr 2
  unfold items
  rw [List.length_flatMap, show s + i + 1 - s = i + 1 by omega]
  congr 2
  rw [show maxLen ts + 1 - s = (i + 1) + (maxLen ts - s - i) by omega, ← List.range'_append_1, List.take_left' (by simp)]

/-! ## Marks -/

/-- The position of a level: the leaf's own item, or the first item of the first node behind the leaf. -/
def SPE (ts : List Str) (s : Nat) (t : Str) (m v : Nat) : Prop :=
  ∃ x c, x.length = m ∧ ex ts (x ++ [c]) = true ∧ v = ipos ts s (x ++ [c]) ∧
    (x ++ [c] <+: t ∨ (t.length ≤ m ∧ t < x ∧ (∀ y, isInt ts y = true → y.length = m → y < x → y < t) ∧
      ∀ d, d < c → ex ts (x ++ [d]) = false))

def SMark (ts : List Str) (s : Nat) (t : Str) (m v : Nat) : Prop := SPE ts s t m v ∨ (v = kMaxPos ∧ NoneM ts t m)

omit [Env] in
theorem FRep0.spe_lt (h : FRep0 cfg ts sw s f) {t : Str} {m v : Nat} (hs : s ≤ m) (hm : SPE ts s t m v) :
    (items ts s m).length ≤ v ∧ v < (items ts s (m + 1)).length ∧ v < (sitems ts s).length ∧ v ≠ kMaxPos := by
  obtain ⟨x, c, rfl, he, rfl, -⟩ := hm
  have h1 := ipos_range h.wf hs he (by simp)
  have h2 := ipos_lt (mem_sitems.2 ⟨by simp; omega, he⟩ : x ++ [c] ∈ sitems ts s)
  have h3 := h.sitems_le
  rw [M32_eq] at h3
  refine ⟨h1.1, h1.2, h2, ?_⟩
  unfold kMaxPos
  omega

theorem FRep0.spe_leaves (h : FRep0 cfg ts sw s f) {t : Str} (ht : t ∈ ts) {m v : Nat} (hs : s ≤ m) (hm : SPE ts s t m v) :
    sleaves ts s v + (ts.filter fun t => decide (t.length ≤ s)).length = lIdx ts (m + 1) t := by
  obtain ⟨x, c, rfl, he, rfl, hk⟩ := hm
  rw [h.sleaves_item hs he]
  rcases hk with hp | ⟨hl, hlt, hmin, hc⟩
  · exact lIdx_prefix h.wf ht hp
  · rw [lIdx_skip h.wf (Nat.zero_le c) (fun d _ hd => hc d hd)]
    exact lIdx_ext h.wf ht hl hlt hmin

omit [Env] in
theorem nIdx_ext' (h : WF ts) {t : Str} (ht : t ∈ ts) {x : Str} {c : Nat} (hl : t.length ≤ x.length) (hlt : t < x)
    (hmin : ∀ y, isInt ts y = true → y.length = x.length → y < x → y < t) (hc : ∀ d, d < c → ex ts (x ++ [d]) = false) :
    nIdx ts (x.length + 1) (x ++ [c]) = nIdx ts (x.length + 1) (t.take (x.length + 1)) := by
  rw [List.take_of_length_le (by omega)]
  apply nIdx_congr
  intro y hy hyl
  have hy0 : y ≠ [] := by rintro rfl; simp at hyl
  obtain ⟨z, d, rfl⟩ : ∃ z d, y = z ++ [d] := ⟨y.dropLast, y.getLast hy0, (List.dropLast_append_getLast hy0).symm⟩
  have hzl : z.length = x.length := by simpa using hyl
  have hz := int_of_ex_snoc (ex_of_int hy)
  rw [snoc_lt_leaf (by omega) (not_prefix_int h ht hz)]
  constructor
  · intro h1
    rcases lt_trichotomy z x with h2 | rfl | h2
    · exact hmin z hz hzl h2
    · exfalso
      rw [lt_append] at h1
      simp [List.cons_lt_cons_iff] at h1
      have := hc d h1
      rw [ex_of_int hy] at this
      cases this
    · exact absurd h1 (lt_asymm (lt_append_of_lt hzl.symm h2))
  · intro h1
    exact lt_append_of_lt hzl (h1.trans hlt)

/-- The step to the next level. -/
theorem FRep0.smarkStep (h : FRep0 cfg ts sw s f) {t : Str} (ht : t ∈ ts) {m v : Nat} (hs : s ≤ m) (hm : SPE ts s t m v) :
    ∃ n c, f.sparse.getChildNodeNum v = .ok n ∧ f.sparse.childBits.readBit v = .ok c ∧
      (if c then n else add32 n 1) = nIdx ts (m + 1) (t.take (m + 1)) := by
  obtain ⟨x, c, rfl, he, rfl, hk⟩ := hm
  have hmem : x ++ [c] ∈ sitems ts s := mem_sitems.2 ⟨by simp; omega, he⟩
  obtain ⟨A, C, e, -⟩ := h.snode (int_of_ex_snoc he) hs
  have hc := sym_le h.wf he
  have hidx : nIdx ts (x.length + 1) (x ++ [c]) = nIdx ts (x.length + 1) (t.take (x.length + 1)) := by
    rcases hk with hp | ⟨hl, hlt, hmin, hc⟩
    · have := List.prefix_iff_eq_take.1 hp
      simp only [List.length_append, List.length_singleton] at this
      rw [← this]
    · exact nIdx_ext' h.wf ht hl hlt hmin hc
  rw [← hidx]
  have hb := before_int h.wf e (show c ≤ 257 by omega)
  obtain ⟨B, D, eB, eB2⟩ := ipos_split h.wf hmem
  have hBb : B = before ts A x c := by
    have h1 := before_prefix h.wf e (show c ≤ 257 by omega)
    have h2 : B <+: sitems ts s := ⟨_, eB.symm⟩
    have h3 := ipos_eq h.wf e he
    rw [eB2] at h3
    rw [List.prefix_iff_eq_take.1 h2, List.prefix_iff_eq_take.1 h1, h3]
  have hn0 : (nodesR ts 0 (s + 1)).length = (nodesR ts 1 (s + 1)).length + 1 := by
    rw [nodesR_split ts (Nat.zero_le 1) (show 1 ≤ s + 1 by omega), nodesR_one, h.wf.nodes_zero, List.length_append]
    simp
    omega
  have hlt : nIdx ts (x.length + 1) (x ++ [c]) + 1 < M32 := by
    have : nIdx ts (x.length + 1) (x ++ [c]) ≤ (nodesR ts 0 (maxLen ts + 1)).length := List.length_filter_le _ _
    rw [h.wf.nodesR_eq (by omega), List.length_cons] at this
    have h5 : ((items ts 0 (maxLen ts + 1)).filter (isInt ts)).length ≤ (items ts 0 (maxLen ts + 1)).length :=
      List.length_filter_le _ _
    have := h.i32
    omega
  refine ⟨add32 ((B ++ [x ++ [c]]).countP (isInt ts)) (nodesR ts 1 (s + 1)).length, _, ?_, h.schild hmem, ?_⟩
  · unfold LoudsSparse.getChildNodeNum
    rw [eB2, h.srank eB, ok_bind, h.sparse.ccd]
    rfl
  · rw [List.countP_append, hBb]
    by_cases hi : isInt ts (x ++ [c]) = true
    · rw [if_pos hi]
      simp only [List.countP_singleton, hi, if_true]
      rw [add32_eq (by omega)]
      omega
    · rw [if_neg hi]
      have e0 : (if isInt ts (x ++ [c]) = true then 1 else 0) = 0 := if_neg hi
      rw [List.countP_singleton, e0, Nat.add_zero,
        add32_eq (a := (before ts A x c).countP (isInt ts)) (by omega), add32_eq (by omega)]
      omega

/-! ## Extension of the lists -/

/-- The select query for the node behind the last one delivers a position behind the last item. -/
def PastOk (f : Filter) : Prop :=
  ∃ p, f.sparse.loudsBits.select (f.sparse.loudsBits.numOnes + 1) = .ok p ∧ f.sparse.loudsBits.numBits ≤ p

omit [Env] in
theorem FRep0.ones (h : FRep0 cfg ts sw s f) : f.sparse.loudsBits.numOnes = (snodes ts s).length := by
  rw [h.sparse.louds.ones, loudsOf_count]

theorem FRep0.sappendPos (h : FRep0 cfg ts sw s f) (hpast : PastOk f) (hsm : s < maxLen ts) {t : Str} (ht : t ∈ ts) {m : Nat}
    (hs : s ≤ m) (hm : m ≤ maxLen ts) (hl : t.length ≤ m) (l : List Nat) (isLeft done : Bool) :
    (∃ v, SPE ts s t m v ∧ f.sparse.appendToPosList l (nIdx ts m t) (m - s) isLeft done = .ok (l ++ [v], v, done)) ∨
    (NoneM ts t m ∧ f.sparse.appendToPosList l (nIdx ts m t) (m - s) isLeft done =
      .ok ((if isLeft then l ++ [kMaxPos] else l ++ List.replicate ((maxLen ts + 1 - (m - s)) - 1) kMaxPos) ++ [kMaxPos],
        kMaxPos, true)) := by
  have h32 := h.sitems_le
  rw [M32_eq] at h32
  have h1 := h.items_pos hsm hs
  have h2 := h.items_le hs hm
  have hcut := h.scut (i := m - s) (by omega)
  rw [show s + (m - s) + 1 = m + 1 by omega, sub32_eq (by omega) (by rw [M32_eq]; omega)] at hcut
  have hpush : ∀ p, (items ts s (m + 1)).length ≤ p → f.sparse.getFirstLabelPos (nIdx ts m t) = .ok p →
      f.sparse.appendToPosList l (nIdx ts m t) (m - s) isLeft done =
      .ok ((if isLeft then l ++ [kMaxPos] else l ++ List.replicate ((maxLen ts + 1 - (m - s)) - 1) kMaxPos) ++ [kMaxPos],
        kMaxPos, true) := by
    intro p hp e
    unfold LoudsSparse.appendToPosList
    rw [e, ok_bind, hcut, ok_bind, if_pos (by omega), h.sparse.height]
    rfl
  rcases nIdx_next_leaf h.wf ht hm hl with ⟨x, hxl, hx, hlt, hmin, e⟩ | ⟨hno, e⟩
  · left
    obtain ⟨c, hc, hcm⟩ := exists_first h.wf hx
    have hspe : SPE ts s t m (ipos ts s (x ++ [c])) := ⟨x, c, hxl, hc, rfl, Or.inr ⟨hl, hlt, hmin, hcm⟩⟩
    refine ⟨_, hspe, ?_⟩
    have h3 := h.spe_lt hs hspe
    unfold LoudsSparse.appendToPosList
    rw [e, h.sfirst' (by omega) hc hcm, ok_bind, hcut, ok_bind, if_neg (by omega)]
    rfl
  · right
    refine ⟨hno, ?_⟩
    by_cases hm1 : m + 1 < maxLen ts
    · obtain ⟨x, hx, hxl, hmin, hnum⟩ := firstNode h.wf hm1
      obtain ⟨c, hc, hcm⟩ := exists_first h.wf hx
      have h3 := (ipos_range h.wf (show s ≤ m + 1 by omega) hc (by simp [hxl])).1
      refine hpush _ h3 ?_
      rw [e, ← hnum]
      exact h.sfirst' (by omega) hc hcm
    · obtain ⟨p, e1, e2⟩ := hpast
      refine hpush p (by rw [h.louds_len] at e2; omega) ?_
      have hall : (nodesR ts 0 (m + 1)).length = (nodesR ts 0 s).length + (snodes ts s).length := by
        have e3 : nodesR ts 0 (m + 1) = nodesR ts 0 (maxLen ts + 1) := by
          by_cases hmm : m = maxLen ts
          · rw [hmm]
          · have hmm : maxLen ts = m + 1 := by omega
            rw [hmm, nodesR_split ts (Nat.zero_le (m + 1)) (Nat.le_succ _), nodesR_one]
            have : nodes ts (m + 1) = [] := by
              rw [List.eq_nil_iff_forall_not_mem]
              intro y hy
              obtain ⟨h4, h5⟩ := mem_nodes.1 hy
              have := int_length_lt h5
              omega
            rw [this, List.append_nil]
        rw [e3, nodesR_split ts (Nat.zero_le s) (show s ≤ maxLen ts + 1 by omega), List.length_append]
      unfold LoudsSparse.getFirstLabelPos
      have hN : (nodesR ts 0 s).length + (snodes ts s).length + 64 ≤ 4294967296 := by
        have h4 := h.i32
        have h5 : (nodesR ts 0 (maxLen ts + 1)).length = (nodesR ts 0 s).length + (snodes ts s).length := by
          rw [nodesR_split ts (Nat.zero_le s) (show s ≤ maxLen ts + 1 by omega), List.length_append]
        rw [h.wf.nodesR_eq (by omega), List.length_cons] at h5
        have h6 : ((items ts 0 (maxLen ts + 1)).filter (isInt ts)).length ≤ (items ts 0 (maxLen ts + 1)).length :=
          List.length_filter_le _ _
        rw [M32_eq] at h4
        omega
      rw [e, hall, h.sparse.ncd, add32_eq (by rw [M32_eq]; omega), sub32_eq (by omega) (by rw [M32_eq]; omega),
        show (nodesR ts 0 s).length + (snodes ts s).length + 1 - (nodesR ts 0 s).length = (snodes ts s).length + 1 by omega,
        ← h.ones]
      exact e1

/-- One side of a pass of the extension loop, louds_sparse.hpp:338-351. -/
def stepPos (t : LoudsSparse) (i : Nat) (l : List Nat) (p : Nat) (d isLeft : Bool) : R (List Nat × Nat × Bool) :=
  if (!d && decide (l.length ≤ i)) = true then do
    let nn ← t.getChildNodeNum p
    let c ← t.childBits.readBit p
    t.appendToPosList l (if c then nn else add32 nn 1) i isLeft d
  else .ok (l, p, d)

theorem extendLoop_succ (t : LoudsSparse) (n i : Nat) (ll rl : List Nat) (lp rp : Nat) (ld rd : Bool) (hne : lp ≠ rp) :
    t.extendLoop (n + 1) i ll rl lp rp ld rd = stepPos t i ll lp ld true >>= fun a =>
      stepPos t i rl rp rd false >>= fun b => t.extendLoop n (i + 1) a.1 b.1 a.2.1 b.2.1 a.2.2 b.2.2 := by
  rw [LoudsSparse.extendLoop, if_neg hne]
  unfold stepPos
  dsimp only
  by_cases c1 : (!ld && decide (ll.length ≤ i)) = true <;> by_cases c2 : (!rd && decide (rl.length ≤ i)) = true
  all_goals
    first | rw [if_pos c1, if_pos c1] | rw [if_neg c1, if_neg c1]
    simp only [c2, if_true, bind_assoc, pure_ok, ok_bind]
    try rfl

/-- State of the left list before pass `i`. -/
structure LI (ts : List Str) (s : Nat) (t : Str) (i : Nat) (l : List Nat) (p : Nat) (d : Bool) : Prop where
  marks : ∀ j, j < l.length → SMark ts s t (s + j) (l.getD j 0)
  st : (d = false ∧ i ≤ l.length ∧ 1 ≤ l.length ∧ t.length ≤ s + l.length ∧ p = l.getD (l.length - 1) 0 ∧
      SPE ts s t (s + (l.length - 1)) p) ∨
    (d = true ∧ p = kMaxPos ∧ ∃ j, j < l.length ∧ NoneM ts t (s + j))

/-- State of the right list before pass `i`. -/
structure RI (ts : List Str) (s : Nat) (t : Str) (i : Nat) (l : List Nat) (p : Nat) (d : Bool) : Prop where
  marks : ∀ j, j < l.length → SMark ts s t (s + j) (l.getD j 0)
  st : (d = false ∧ i ≤ l.length ∧ 1 ≤ l.length ∧ t.length ≤ s + l.length ∧ p = l.getD (l.length - 1) 0 ∧
      SPE ts s t (s + (l.length - 1)) p) ∨
    (p = kMaxPos ∧ maxLen ts + 1 - s ≤ l.length)

theorem FRep0.stepL (h : FRep0 cfg ts sw s f) (hpast : PastOk f) (hsm : s < maxLen ts) {t : Str} (ht : t ∈ ts) {i : Nat}
    (hi : s + i ≤ maxLen ts) {l : List Nat} {p : Nat} {d : Bool} (hli : LI ts s t i l p d) :
    ∃ a, stepPos f.sparse i l p d true = .ok a ∧ LI ts s t (i + 1) a.1 a.2.1 a.2.2 := by
  unfold stepPos
  rcases hli.st with ⟨rfl, h1, h2, h3, h4, h5⟩ | ⟨rfl, h1, h2⟩
  · by_cases hc : l.length ≤ i
    · have hli' : l.length = i := by omega
      rw [if_pos (by simpa using hc)]
      obtain ⟨n, c, e1, e2, e3⟩ := h.smarkStep ht (by omega) h5
      rw [e1, ok_bind, e2, ok_bind, e3, show s + (l.length - 1) + 1 = s + i by omega, List.take_of_length_le (by omega)]
      have key := h.sappendPos hpast hsm ht (show s ≤ s + i by omega) hi (by omega) l true false
      rw [Nat.add_sub_cancel_left] at key
      rcases key with ⟨v, hv, e⟩ | ⟨hn, e⟩
      · refine ⟨_, e, ?_, Or.inl ⟨rfl, by simp; omega, by simp, by simp; omega, ?_, ?_⟩⟩
        · intro j hj
          simp only [List.length_append, List.length_singleton] at hj
          by_cases hjl : j = l.length
          · subst hjl
            dsimp only
            rw [getD_append_ge (le_refl _), Nat.sub_self, hli']
            exact Or.inl hv
          · dsimp only
            rw [getD_append_lt (by omega)]
            exact hli.marks j (by omega)
        · dsimp only
          rw [List.length_append, List.length_singleton, Nat.add_sub_cancel, getD_append_ge (le_refl _), Nat.sub_self]
          rfl
        · dsimp only
          rw [List.length_append, List.length_singleton, Nat.add_sub_cancel, hli']
          exact hv
      · refine ⟨_, e, ?_, Or.inr ⟨rfl, rfl, l.length, by simp, by rw [hli']; exact hn⟩⟩
        intro j hj
        dsimp only at hj ⊢
        rw [if_pos rfl] at hj ⊢
        by_cases hjl : j < l.length
        · rw [List.append_assoc, getD_append_lt hjl]
          exact hli.marks j hjl
        · right
          refine ⟨?_, hn.deeper h.wf ht (by omega)⟩
          rw [List.append_assoc, getD_append_ge (by omega)]
          simp only [List.length_append, List.length_singleton] at hj
          obtain e | e : j - l.length = 0 ∨ j - l.length = 1 := by omega
          · rw [e]; rfl
          · rw [e]; rfl
    · rw [if_neg (by simpa using hc)]
      exact ⟨_, rfl, hli.marks, Or.inl ⟨rfl, by dsimp only; omega, h2, h3, h4, h5⟩⟩
  · rw [if_neg (by simp)]
    exact ⟨_, rfl, hli.marks, Or.inr ⟨rfl, h1, h2⟩⟩

theorem FRep0.stepR (h : FRep0 cfg ts sw s f) (hpast : PastOk f) (hsm : s < maxLen ts) {t : Str} (ht : t ∈ ts) {i : Nat}
    (hi : s + i ≤ maxLen ts) {l : List Nat} {p : Nat} {d : Bool} (hli : RI ts s t i l p d) :
    ∃ a, stepPos f.sparse i l p d false = .ok a ∧ RI ts s t (i + 1) a.1 a.2.1 a.2.2 := by
  unfold stepPos
  rcases hli.st with ⟨rfl, h1, h2, h3, h4, h5⟩ | ⟨h1, h2⟩
  · by_cases hc : l.length ≤ i
    · have hli' : l.length = i := by omega
      rw [if_pos (by simpa using hc)]
      obtain ⟨n, c, e1, e2, e3⟩ := h.smarkStep ht (by omega) h5
      rw [e1, ok_bind, e2, ok_bind, e3, show s + (l.length - 1) + 1 = s + i by omega, List.take_of_length_le (by omega)]
      have key := h.sappendPos hpast hsm ht (show s ≤ s + i by omega) hi (by omega) l false false
      rw [Nat.add_sub_cancel_left] at key
      rcases key with ⟨v, hv, e⟩ | ⟨hn, e⟩
      · refine ⟨_, e, ?_, Or.inl ⟨rfl, by simp; omega, by simp, by simp; omega, ?_, ?_⟩⟩
        · intro j hj
          simp only [List.length_append, List.length_singleton] at hj
          by_cases hjl : j = l.length
          · subst hjl
            dsimp only
            rw [getD_append_ge (le_refl _), Nat.sub_self, hli']
            exact Or.inl hv
          · dsimp only
            rw [getD_append_lt (by omega)]
            exact hli.marks j (by omega)
        · dsimp only
          rw [List.length_append, List.length_singleton, Nat.add_sub_cancel, getD_append_ge (le_refl _), Nat.sub_self]
          rfl
        · dsimp only
          rw [List.length_append, List.length_singleton, Nat.add_sub_cancel, hli']
          exact hv
      · refine ⟨_, e, ?_, Or.inr ⟨rfl, by simp; omega⟩⟩
        intro j hj
        dsimp only at hj ⊢
        rw [if_neg (by simp)] at hj ⊢
        by_cases hjl : j < l.length
        · rw [List.append_assoc, getD_append_lt hjl]
          exact hli.marks j hjl
        · right
          refine ⟨?_, hn.deeper h.wf ht (by omega)⟩
          rw [List.append_assoc, getD_append_ge (by omega), ← List.replicate_succ', List.getD_eq_getElem?_getD,
            List.getElem?_replicate, if_pos]
          · rfl
          · simp only [List.length_append, List.length_singleton, List.length_replicate] at hj
            omega
    · rw [if_neg (by simpa using hc)]
      exact ⟨_, rfl, hli.marks, Or.inl ⟨rfl, by dsimp only; omega, h2, h3, h4, h5⟩⟩
  · rw [if_neg (by simp; omega)]
    exact ⟨_, rfl, hli.marks, Or.inr ⟨h1, h2⟩⟩

omit [Env] in
/-- Two equal positions: nothing lies between the two leaves below. -/
theorem spe_same (h : WF ts) {tl tr : Str} (htl : tl ∈ ts) (htr : tr ∈ ts) {x : Str} {c m : Nat}
    (hxl : x.length = m) (hl1 : tl.length ≤ m + 1) (hr1 : tr.length ≤ m + 1)
    (hL : x ++ [c] <+: tl ∨ (tl.length ≤ m ∧ tl < x ∧ (∀ y, isInt ts y = true → y.length = m → y < x → y < tl) ∧
      ∀ d, d < c → ex ts (x ++ [d]) = false))
    (hR : x ++ [c] <+: tr ∨ (tr.length ≤ m ∧ tr < x ∧ (∀ y, isInt ts y = true → y.length = m → y < x → y < tr) ∧
      ∀ d, d < c → ex ts (x ++ [d]) = false)) {j : Nat} (hj : m < j) : btw ts (j + 1) tl tr = 0 := by
  by_contra hne
  obtain ⟨u, hu, hul, h1, h2⟩ := btw_pos.1 (Nat.pos_of_ne_zero hne)
  have hlt := h1.trans h2
  have hql : (x ++ [c]).length = m + 1 := by simp [hxl]
  rcases hL with hL | ⟨hL1, hL2, hL3, hL4⟩
  · have e1 := hL.eq_of_length_le (by omega)
    rcases hR with hR | ⟨hR1, hR2, -, -⟩
    · have e2 := hR.eq_of_length_le (by omega)
      rw [← e1, ← e2] at hlt
      exact lt_irrefl _ hlt
    · rw [← e1] at hlt
      have h3 : x < x ++ [c] := by
        have := (lt_append (p := x) (a := []) (b := [c])).2 (by simp)
        simpa using this
      exact lt_asymm hlt (hR2.trans h3)
  · have hy : isInt ts (u.take m) = true := by
      refine isInt_iff.2 ⟨u, hu, List.take_prefix _ _, ?_⟩
      intro e
      have := congrArg List.length e
      rw [List.length_take] at this
      omega
    have hyl : (u.take m).length = m := by rw [List.length_take]; omega
    have hxy : x ≤ u.take m := by
      by_contra hc
      have h3 := hL3 _ hy hyl (not_le.1 hc)
      have h4 : ¬ u.take m <+: tl := by
        intro hp
        have := hp.eq_of_length_le (by omega)
        rw [this, h.isInt_leaf htl] at hy
        cases hy
      have h5 := append_lt h3 h4 (u.drop m)
      rw [List.take_append_drop] at h5
      exact lt_asymm h1 h5
    rcases hR with hR | ⟨hR1, hR2, -, -⟩
    · have e2 := hR.eq_of_length_le (by omega)
      have h3 := take_le_of_lt h2 m
      rw [← e2, List.take_left' hxl] at h3
      have hyx : u.take m = x := le_antisymm h3 hxy
      have hum : m < u.length := by omega
      have h4 : u.take (m + 1) = x ++ [u[m]] := by rw [← hyx, List.take_append_getElem]
      have h5 := take_le_of_lt h2 (m + 1)
      rw [← e2, List.take_of_length_le (l := x ++ [c]) (by omega), h4] at h5
      have h6 : ex ts (x ++ [u[m]]) = true := by
        rw [← h4]
        exact ex_prefix (ex_mem hu) (List.take_prefix _ _)
      rcases h5.lt_or_eq with h7 | h7
      · rw [lt_append] at h7
        simp [List.cons_lt_cons_iff] at h7
        rw [hL4 _ h7] at h6
        cases h6
      · have h8 : tr <+: u := by rw [← e2, ← h7, ← h4]; exact List.take_prefix _ _
        rw [h.pf _ htr _ hu h8] at h2
        exact lt_irrefl _ h2
    · have h3 : tr < u.take m := lt_of_lt_of_le hR2 hxy
      have h4 : u.take m ≤ u := by
        have := not_lt.1 (fun hc : u < u.take m => by
          have h5 := take_le_of_lt hc m
          rw [List.take_take, Nat.min_self] at h5
          have h6 : u.take m ++ u.drop m < u.take m ++ [] := by
            rw [List.take_append_drop, List.append_nil]; exact hc
          rw [lt_append] at h6
          simp at h6)
        exact this
      exact lt_asymm h2 (lt_of_lt_of_le h3 h4)

/-- The extended lists. -/
theorem FRep0.sextendLoop (h : FRep0 cfg ts sw s f) (hpast : PastOk f) (hsm : s < maxLen ts) {tl tr : Str} (htl : tl ∈ ts)
    (htr : tr ∈ ts) (n i : Nat) (hn : i + n = maxLen ts + 1 - s) (ll rl : List Nat) (lp rp : Nat)
    (ld rd : Bool) (hL : LI ts s tl i ll lp ld) (hR : RI ts s tr i rl rp rd) :
    ∃ ll' rl', f.sparse.extendLoop n i ll rl lp rp ld rd = .ok (ll', rl') ∧
      (∀ j, j < ll'.length → SMark ts s tl (s + j) (ll'.getD j 0)) ∧
      (∀ j, j < rl'.length → SMark ts s tr (s + j) (rl'.getD j 0)) ∧
      ∀ j, min ll'.length rl'.length ≤ j → btw ts (s + j + 1) tl tr = 0 := by
  have hdeep : ∀ j, maxLen ts + 1 - s ≤ j → btw ts (s + j + 1) tl tr = 0 := by
    intro j hj
    by_contra hne
    obtain ⟨u, hu, hul, -⟩ := btw_pos.1 (Nat.pos_of_ne_zero hne)
    have := le_maxLen hu
    omega
  induction n generalizing i ll rl lp rp ld rd with
  | zero =>
    refine ⟨ll, rl, rfl, hL.marks, hR.marks, ?_⟩
    intro j hj
    have hr : maxLen ts + 1 - s ≤ rl.length := by
      rcases hR.st with ⟨-, h1, -⟩ | ⟨-, h1⟩ <;> omega
    rcases hL.st with ⟨-, h1, -⟩ | ⟨-, -, k, hk, hno⟩
    · exact hdeep j (by omega)
    · by_cases hc : maxLen ts + 1 - s ≤ j
      · exact hdeep j hc
      · exact hno.btw h.wf htl (by omega)
  | succ n ih =>
    by_cases he : lp = rp
    · refine ⟨ll, rl, ?_, hL.marks, hR.marks, ?_⟩
      · rw [LoudsSparse.extendLoop, if_pos he]
        rfl
      · intro j hj
        rcases hL.st with ⟨-, h1, h2, h3, -, h5⟩ | ⟨-, h1, k, hk, hno⟩
        · have h6 := h.spe_lt (by omega) h5
          rcases hR.st with ⟨-, g1, g2, g3, -, g5⟩ | ⟨g1, g2⟩
          · have g6 := h.spe_lt (by omega) g5
            have hlen : ll.length = rl.length := by
              by_contra hne
              rcases Nat.lt_or_gt_of_ne hne with hc | hc
              · have : (items ts s (s + (ll.length - 1) + 1)).length ≤ (items ts s (s + (rl.length - 1))).length := by
                  rw [items_split ts (show s ≤ s + (ll.length - 1) + 1 by omega)
                    (show s + (ll.length - 1) + 1 ≤ s + (rl.length - 1) by omega), List.length_append]
                  omega
                omega
              · have : (items ts s (s + (rl.length - 1) + 1)).length ≤ (items ts s (s + (ll.length - 1))).length := by
                  rw [items_split ts (show s ≤ s + (rl.length - 1) + 1 by omega)
                    (show s + (rl.length - 1) + 1 ≤ s + (ll.length - 1) by omega), List.length_append]
                  omega
                omega
            rw [← hlen] at g5
            obtain ⟨x, c, hxl, hex, hv, hk⟩ := h5
            obtain ⟨x', c', hxl', hex', hv', hk'⟩ := g5
            have hq : x ++ [c] = x' ++ [c'] := ipos_inj (mem_sitems.2 ⟨by simp; omega, hex⟩ : x ++ [c] ∈ sitems ts s) (by rw [← hv, ← hv', he])
            obtain ⟨rfl, hcc⟩ := List.append_inj hq (by omega)
            obtain rfl : c = c' := by simpa using hcc
            exact spe_same h.wf htl htr hxl (by omega) (by omega) hk hk' (j := s + j) (by omega)
          · exact absurd (he.trans g1) h6.2.2.2
        · rcases hR.st with ⟨-, g1, g2, g3, -, g5⟩ | ⟨g1, g2⟩
          · have g6 := h.spe_lt (by omega) g5
            exact absurd (he.symm.trans h1) g6.2.2.2
          · by_cases hc : maxLen ts + 1 - s ≤ j
            · exact hdeep j hc
            · exact hno.btw h.wf htl (by omega)
    · rw [extendLoop_succ _ _ _ _ _ _ _ _ _ he]
      obtain ⟨a, e1, hL'⟩ := h.stepL hpast hsm htl (show s + i ≤ maxLen ts by omega) hL
      obtain ⟨b, e2, hR'⟩ := h.stepR hpast hsm htr (show s + i ≤ maxLen ts by omega) hR
      rw [e1, ok_bind, e2, ok_bind]
      exact ih (i + 1) (by omega) _ _ _ _ _ _ hL' hR'

/-- The positions a sparse iterator holds. -/
structure SList (ts : List Str) (s : Nat) (t : Str) (l : List Nat) : Prop where
  len : t.length ≤ s + l.length
  mark : ∀ j, j < l.length → SPE ts s t (s + j) (l.getD j 0)

omit [Env] in
theorem SList.li {t : Str} {l : List Nat} (h : SList ts s t l) {i : Nat} (hi : i ≤ l.length) (h1 : 1 ≤ l.length) :
    LI ts s t i l (l.getD (l.length - 1) 0) false :=
  ⟨fun j hj => Or.inl (h.mark j hj), Or.inl ⟨rfl, hi, h1, by have := h.len; omega, rfl, h.mark _ (by omega)⟩⟩

omit [Env] in
theorem SList.ri {t : Str} {l : List Nat} (h : SList ts s t l) {i : Nat} (hi : i ≤ l.length) (h1 : 1 ≤ l.length) :
    RI ts s t i l (l.getD (l.length - 1) 0) false :=
  ⟨fun j hj => Or.inl (h.mark j hj), Or.inl ⟨rfl, hi, h1, by have := h.len; omega, rfl, h.mark _ (by omega)⟩⟩

/-- The first entry of the left list when the leaf is dense. -/
theorem FRep0.startL (h : FRep0 cfg ts sw s f) (hpast : PastOk f) (hsm : s < maxLen ts) {t : Str} (ht : t ∈ ts)
    (hl : t.length ≤ s) : ∃ l p d, f.sparse.appendToPosList [] (nIdx ts s (t.take s)) 0 true false = .ok (l, p, d) ∧
      1 ≤ l.length ∧ LI ts s t 1 l (l.getD (l.length - 1) 0) d := by
  have key := h.sappendPos hpast hsm ht (le_refl s) (by omega) hl [] true false
  rw [Nat.sub_self] at key
  rw [List.take_of_length_le hl]
  rcases key with ⟨v, hv, e⟩ | ⟨hn, e⟩
  · refine ⟨_, _, _, e, by simp, ?_, Or.inl ⟨rfl, by simp, by simp, by simp; omega, rfl, ?_⟩⟩
    · intro j hj
      obtain rfl : j = 0 := by simpa using hj
      exact Or.inl hv
    · exact hv
  · refine ⟨_, _, _, e, by simp, ?_, Or.inr ⟨rfl, rfl, 0, by simp, hn⟩⟩
    intro j hj
    right
    refine ⟨?_, hn.deeper h.wf ht (by omega)⟩
    simp at hj
    obtain e | e : j = 0 ∨ j = 1 := by omega
    · rw [e]; rfl
    · rw [e]; rfl

theorem FRep0.startR (h : FRep0 cfg ts sw s f) (hpast : PastOk f) (hsm : s < maxLen ts) {t : Str} (ht : t ∈ ts)
    (hl : t.length ≤ s) : ∃ l p d, f.sparse.appendToPosList [] (nIdx ts s (t.take s)) 0 false false = .ok (l, p, d) ∧
      1 ≤ l.length ∧ RI ts s t 1 l (l.getD (l.length - 1) 0) d := by
  have key := h.sappendPos hpast hsm ht (le_refl s) (by omega) hl [] false false
  rw [Nat.sub_self] at key
  rw [List.take_of_length_le hl]
  rcases key with ⟨v, hv, e⟩ | ⟨hn, e⟩
  · refine ⟨_, _, _, e, by simp, ?_, Or.inl ⟨rfl, by simp, by simp, by simp; omega, rfl, ?_⟩⟩
    · intro j hj
      obtain rfl : j = 0 := by simpa using hj
      exact Or.inl hv
    · exact hv
  · rw [if_neg (by simp), List.nil_append, ← List.replicate_succ'] at e
    have hget : ∀ j, j < (List.replicate (maxLen ts + 1 - 0 - 1 + 1) kMaxPos).length →
        (List.replicate (maxLen ts + 1 - 0 - 1 + 1) kMaxPos).getD j 0 = kMaxPos := by
      intro j hj
      rw [List.length_replicate] at hj
      rw [List.getD_eq_getElem?_getD, List.getElem?_replicate, if_pos hj]
      rfl
    refine ⟨_, _, _, e, by simp, ?_, Or.inr ⟨hget _ (by simp), by simp⟩⟩
    intro j hj
    exact Or.inr ⟨hget j hj, hn.deeper h.wf ht (by omega)⟩

/-- `extendPosList`. -/
theorem FRep0.sextendPosList (h : FRep0 cfg ts sw s f) (hpast : PastOk f) (hsm : s < maxLen ts) {tl tr : Str} (htl : tl ∈ ts)
    (htr : tr ∈ ts) {ll rl : List Nat} {inR : Nat} (hL : SList ts s tl ll)
    (hR : (rl = List.replicate (maxLen ts + 1 - s) kMaxPos ∧ NoneM ts tr (s - 1)) ∨
      (inR = nIdx ts s (tr.take s) ∧ SList ts s tr rl)) :
    ∃ ll' rl', f.sparse.extendPosList ll rl (nIdx ts s (tl.take s)) inR = .ok (ll', rl') ∧
      (∀ j, j < ll'.length → SMark ts s tl (s + j) (ll'.getD j 0)) ∧
      (∀ j, j < rl'.length → SMark ts s tr (s + j) (rl'.getD j 0)) ∧
      ∀ j, min ll'.length rl'.length ≤ j → btw ts (s + j + 1) tl tr = 0 := by
  have hri : 1 ≤ rl.length → ∀ i, i ≤ min ll.length rl.length ∨ i = 1 → RI ts s tr i rl (rl.getD (rl.length - 1) 0) false := by
    intro h1 i hi
    rcases hR with ⟨rfl, hn⟩ | ⟨-, hR⟩
    · have hget : ∀ j, j < (List.replicate (maxLen ts + 1 - s) kMaxPos).length →
          (List.replicate (maxLen ts + 1 - s) kMaxPos).getD j 0 = kMaxPos := by
        intro j hj
        rw [List.length_replicate] at hj
        rw [List.getD_eq_getElem?_getD, List.getElem?_replicate, if_pos hj]
        rfl
      exact ⟨fun j hj => Or.inr ⟨hget j hj, hn.deeper h.wf htr (by omega)⟩, Or.inr ⟨hget _ (by omega), by simp⟩⟩
    · exact hR.ri (by omega) h1
  have fin : ∀ (a b : List Nat) (ld rd : Bool) (i : Nat), 1 ≤ a.length → 1 ≤ b.length → i ≤ maxLen ts + 1 - s →
      LI ts s tl i a (a.getD (a.length - 1) 0) ld → RI ts s tr i b (b.getD (b.length - 1) 0) rd →
      ∃ ll' rl', (rdP a (a.length - 1) >>= fun lp => rdP b (b.length - 1) >>= fun rp =>
        f.sparse.extendLoop (f.sparse.height - f.sparse.startLevel - i) i a b lp rp ld rd) = .ok (ll', rl') ∧
      (∀ j, j < ll'.length → SMark ts s tl (s + j) (ll'.getD j 0)) ∧
      (∀ j, j < rl'.length → SMark ts s tr (s + j) (rl'.getD j 0)) ∧
      ∀ j, min ll'.length rl'.length ≤ j → btw ts (s + j + 1) tl tr = 0 := by
    intro a b ld rd i ha hb hi hLI hRI
    rw [rdP_ok (by omega), ok_bind, rdP_ok (by omega), ok_bind, h.sparse.height, h.sparse.start]
    exact h.sextendLoop hpast hsm htl htr _ i (by omega) a b _ _ ld rd hLI hRI
  have hlenL := hL.len
  have hmaxL := le_maxLen htl
  have hub : ll.length ≤ maxLen ts + 1 - s := by
    by_cases h0 : ll.length = 0
    · omega
    · obtain ⟨x, c, hxl, hex, -⟩ := hL.mark (ll.length - 1) (by omega)
      have := ex_len hex
      simp at this
      omega
  have hR0 : rl.length = 0 → rl = [] ∧ inR = nIdx ts s (tr.take s) ∧ tr.length ≤ s := by
    intro h0
    rcases hR with ⟨rfl, -⟩ | ⟨e, hR⟩
    · simp at h0; omega
    · have := hR.len
      exact ⟨List.length_eq_zero_iff.1 h0, e, by omega⟩
  unfold LoudsSparse.extendPosList
  dsimp only
  by_cases hd : min ll.length rl.length = 0
  · rw [if_pos hd]
    by_cases h1 : ll.length = 0
    · rw [if_pos h1]
      obtain rfl := List.length_eq_zero_iff.1 h1
      obtain ⟨a, p, d, e1, ha, hLI⟩ := h.startL hpast hsm htl (by simp at hlenL; omega)
      rw [e1, ok_bind]
      dsimp only
      simp only [pure_ok]
      rw [ok_bind]
      by_cases h2 : rl.length = 0
      · obtain ⟨rfl, rfl, htr'⟩ := hR0 h2
        obtain ⟨b, p', d', e2, hb, hRI⟩ := h.startR hpast hsm htr htr'
        dsimp only
        rw [if_pos h2, e2, ok_bind]
        dsimp only
        rw [ok_bind, ok_bind]
        exact fin a b d d' 1 ha hb (by omega) hLI hRI
      · dsimp only
        rw [if_neg h2, ok_bind]
        dsimp only
        rw [ok_bind]
        exact fin a rl d false 1 ha (by omega) (by omega) hLI (hri (by omega) 1 (Or.inr rfl))
    · rw [if_neg h1]
      simp only [pure_ok]
      rw [ok_bind]
      have h2 : rl.length = 0 := by omega
      obtain ⟨rfl, rfl, htr'⟩ := hR0 h2
      obtain ⟨b, p', d', e2, hb, hRI⟩ := h.startR hpast hsm htr htr'
      dsimp only
      rw [if_pos h2, e2, ok_bind]
      dsimp only
      rw [ok_bind, ok_bind]
      exact fin ll b false d' 1 (by omega) hb (by omega) (hL.li (by omega) (by omega)) hRI
  · rw [if_neg hd]
    simp only [pure_ok]
    rw [ok_bind]
    dsimp only
    exact fin ll rl false false _ (by omega) (by omega) (by omega) (hL.li (by omega) (by omega))
      (hri (by omega) _ (Or.inl (le_refl _)))

/-! ## Counting -/

theorem slevel_arith (L R rL rR BL BR k C : Nat) (cl cr o : Prop) [Decidable cl] [Decidable cr] [Decidable o]
    (hL : L + (if cl then 1 else 0) = BL + rL) (hR : R + (if cr then 1 else 0) = BR + rR)
    (hB : BR + C = BL + C + (if o then 1 else 0) + k) (hk : k < 4294967296) :
    (let leafs := sub32 (sub32 R L) (sub32 rR rL)
     let leafs := if cr then add32 leafs 1 else leafs
     let leafs := if cl then sub32 leafs 1 else leafs
     if o then sub32 leafs 1 else leafs) = k := by
  dsimp only
  apply cast_inj _ hk
  · have hL' := congrArg (Nat.cast : Nat → ZMod 4294967296) hL
    have hR' := congrArg (Nat.cast : Nat → ZMod 4294967296) hR
    have hB' := congrArg (Nat.cast : Nat → ZMod 4294967296) hB
    simp only [Nat.cast_add] at hL' hR' hB'
    rw [ite_sub_cast, ite_sub_cast, ite_add_cast, sub32_cast, sub32_cast, sub32_cast]
    linear_combination hR' - hL' + hB'
  · exact ite_sub_lt _ (ite_sub_lt _ (ite_add_lt _ (sub32_bd _ _)))

theorem FRep0.scountLoop (h : FRep0 cfg ts sw s f) (hstr : Env.strict = false) (hsm : s < maxLen ts) {tl tr : Str}
    (htl : tl ∈ ts) (htr : tr ∈ ts) (hlt : tl < tr) {ll rl : List Nat}
    (hml : ∀ j, j < ll.length → SMark ts s tl (s + j) (ll.getD j 0))
    (hmr : ∀ j, j < rl.length → SMark ts s tr (s + j) (rl.getD j 0)) (n i count : Nat)
    (hn : i + n = min ll.length rl.length)
    (hlt64 : count + ((List.range' i n).map fun j => btw ts (s + j + 1) tl tr).sum < 18446744073709551616) :
    f.sparse.countLoop (tl.length - s) ll rl n i count =
      .ok (count + ((List.range' i n).map fun j => btw ts (s + j + 1) tl tr).sum) := by
  have h32 := h.sitems_le
  have hh32 := h.h32
  have hmax := le_maxLen htl
  rw [M32_eq] at h32 hh32
  induction n generalizing i count with
  | zero => rfl
  | succ n ih =>
    unfold LoudsSparse.countLoop
    rw [rdP_ok (by omega), ok_bind]
    rw [List.range'_succ, List.map_cons, List.sum_cons] at hlt64 ⊢
    rcases hml i (by omega) with hm | ⟨hm, hnone⟩
    · have hL := h.spe_lt (by omega) hm
      have hlvl : s + i < maxLen ts := by
        obtain ⟨x, c, hxl, hex, -⟩ := hm
        have := ex_len hex
        simp at this
        omega
      rw [if_neg hL.2.2.2, rdP_ok (by omega), ok_bind]
      obtain ⟨R, hR1, hR2, hR3⟩ : ∃ R, R ≤ (sitems ts s).length ∧
          sleaves ts s R + (ts.filter fun t => decide (t.length ≤ s)).length = lIdx ts (s + i + 1) tr ∧
          ((rl.getD i 0 = kMaxPos ∧ R = (items ts s (s + i + 1)).length) ∨ (rl.getD i 0 ≠ kMaxPos ∧ R = rl.getD i 0)) := by
        rcases hmr i (by omega) with hr | ⟨hr, hno⟩
        · have hR := h.spe_lt (by omega) hr
          exact ⟨_, by omega, h.spe_leaves htr (by omega) hr, Or.inr ⟨hR.2.2.2, rfl⟩⟩
        · refine ⟨_, h.items_le (show s ≤ s + i by omega) (by omega), ?_, Or.inl ⟨hr, rfl⟩⟩
          rw [h.sleaves_level (by omega) (by omega), lIdx_all h.wf htr hno]
      have hBL := h.spe_leaves htl (by omega) hm
      have hbt := lIdx_btw h.wf htl hlt (s + i + 1)
      have hk : btw ts (s + i + 1) tl tr < 4294967296 := lt_of_le_of_lt (btw_le _ _ _ _) h.ts_lt
      obtain ⟨rL, cL, e1, e2, e3⟩ := h.srank3 hstr (show ll.getD i 0 ≤ (sitems ts s).length by omega)
      obtain ⟨rR, cR, e4, e5, e6⟩ := h.srank3 hstr hR1
      have ho : (i = sub32 (tl.length - s) 1) ↔ tl.length = s + i + 1 := by
        by_cases h0 : tl.length - s = 0
        · rw [h0]
          have : sub32 0 1 = 4294967295 := by decide
          rw [this]
          omega
        · rw [sub32_eq (by omega) (by rw [M32_eq]; omega)]
          omega
      have key := slevel_arith (ll.getD i 0) R rL rR (sleaves ts s (ll.getD i 0)) (sleaves ts s R) (btw ts (s + i + 1) tl tr)
        (ts.filter fun t => decide (t.length ≤ s)).length (cL = true) (cR = true) (i = sub32 (tl.length - s) 1) e3 e6
        (by rw [hBL, hR2, if_congr ho rfl rfl]; omega) hk
      dsimp only at key
      have body : (if ll.getD i 0 < R then do
          let rkl ← f.sparse.childBits.rank (ll.getD i 0)
          let rkr ← f.sparse.childBits.rank R
          let leafs := sub32 (sub32 R (ll.getD i 0)) (sub32 rkr rkl)
          let cr ← f.sparse.childBits.readBit R
          let leafs := if cr then add32 leafs 1 else leafs
          let cl ← f.sparse.childBits.readBit (ll.getD i 0)
          let leafs := if cl then sub32 leafs 1 else leafs
          let leafs := if i = sub32 (tl.length - s) 1 then sub32 leafs 1 else leafs
          f.sparse.countLoop (tl.length - s) ll rl n (i + 1) ((count + leafs) % 18446744073709551616)
        else f.sparse.countLoop (tl.length - s) ll rl n (i + 1) count) =
          .ok (count + (btw ts (s + i + 1) tl tr + ((List.range' (i + 1) n).map fun j => btw ts (s + j + 1) tl tr).sum)) := by
        by_cases hc : ll.getD i 0 < R
        · rw [if_pos hc, e1, ok_bind, e4, ok_bind]
          dsimp only
          rw [e5, ok_bind, e2, ok_bind, key, Nat.mod_eq_of_lt (by omega), ih (i + 1) _ (by omega) (by omega), Nat.add_assoc]
        · have h1 := sleaves_mono (ts := ts) (s := s) (Nat.le_of_not_lt hc)
          have h2 : btw ts (s + i + 1) tl tr = 0 := by omega
          rw [if_neg hc, ih (i + 1) _ (by omega) (by omega), h2, Nat.zero_add]
      rcases hR3 with ⟨hr, hRe⟩ | ⟨hr, hRe⟩
      · rw [if_pos hr, h.scut (by omega), ok_bind]
        simp only [pure_ok]
        rw [ok_bind]
        have h1 := h.items_pos hsm (show s ≤ s + i by omega)
        have h2 := h.items_le (show s ≤ s + i by omega) (by omega)
        rw [sub32_eq (by omega) (by rw [M32_eq]; omega), add32_eq (by rw [M32_eq]; omega),
          show (items ts s (s + i + 1)).length - 1 + 1 = (items ts s (s + i + 1)).length by omega, ← hRe]
        exact body
      · rw [if_neg hr]
        simp only [pure_ok]
        rw [ok_bind, ← hRe]
        exact body
    · rw [if_pos hm]
      have h0 : ((List.range' (i + 1) n).map fun j => btw ts (s + j + 1) tl tr).sum = 0 := by
        rw [List.sum_eq_zero]
        intro a ha
        obtain ⟨j, hj, rfl⟩ := List.mem_map.1 ha
        rw [List.mem_range'_1] at hj
        exact hnone.btw h.wf htl (by omega)
      rw [h0, hnone.btw h.wf htl (le_refl _)]
      rfl

omit [Env] in
/-- The marks of a leaf are determined. -/
theorem smark_unique (h : WF ts) {t : Str} {m v v' : Nat} (h1 : SMark ts s t m v) (h2 : SMark ts s t m v') : v = v' := by
  have aux : ∀ {x x' : Str} {c c' : Nat}, x.length = m → x'.length = m → ex ts (x ++ [c]) = true →
      x ++ [c] <+: t → t.length ≤ m → False := by
    intro x x' c c' hx _ _ hp hl
    have := hp.length_le
    simp at this
    omega
  rcases h1 with ⟨x, c, hx, hex, rfl, hk⟩ | ⟨rfl, hn⟩
  · rcases h2 with ⟨x', c', hx', hex', rfl, hk'⟩ | ⟨rfl, hn'⟩
    · have : x ++ [c] = x' ++ [c'] := by
        rcases hk with hk | ⟨hl, hlt, hmin, hc⟩
        · rcases hk' with hk' | ⟨hl', -⟩
          · rcases List.prefix_or_prefix_of_prefix hk hk' with h3 | h3
            · exact h3.eq_of_length (by simp [hx, hx'])
            · exact (h3.eq_of_length (by simp [hx, hx'])).symm
          · exact absurd (aux (c' := 0) hx hx' hex hk hl') id
        · rcases hk' with hk' | ⟨hl', hlt', hmin', hc'⟩
          · exact absurd (aux (c' := 0) hx' hx hex' hk' hl) id
          · have hxx : x = x' := by
              rcases lt_trichotomy x x' with h3 | h3 | h3
              · exact absurd (hmin' x (int_of_ex_snoc hex) hx h3) (lt_asymm hlt)
              · exact h3
              · exact absurd (hmin x' (int_of_ex_snoc hex') hx' h3) (lt_asymm hlt')
            subst hxx
            rcases Nat.lt_trichotomy c c' with h3 | h3 | h3
            · rw [hc' c h3] at hex; cases hex
            · rw [h3]
            · rw [hc c' h3] at hex'; cases hex'
      rw [this]
    · rcases hk with hk | ⟨-, hlt, -, -⟩
      · exact absurd (aux (c' := 0) hx hx hex hk hn'.1) id
      · exact absurd (hn'.2 x (int_of_ex_snoc hex) hx) (lt_asymm hlt)
  · rcases h2 with ⟨x', c', hx', hex', rfl, hk'⟩ | ⟨rfl, hn'⟩
    · rcases hk' with hk' | ⟨-, hlt, -, -⟩
      · exact absurd (aux (c' := 0) hx' hx' hex' hk' hn.1) id
      · exact absurd (hn.2 x' (int_of_ex_snoc hex') hx') (lt_asymm hlt)
    · rfl

/-- Counting with twice the same marks. -/
theorem scountSame (t : LoudsSparse) (ori : Nat) {ll rl : List Nat} (n i : Nat) (hn : i + n ≤ min ll.length rl.length)
    (he : ∀ j, j < min ll.length rl.length → ll.getD j 0 = rl.getD j 0) :
    t.countLoop ori ll rl n i 0 = .ok 0 := by
  induction n generalizing i with
  | zero => rfl
  | succ n ih =>
    unfold LoudsSparse.countLoop
    rw [rdP_ok (by omega), ok_bind]
    by_cases hk : ll.getD i 0 = kMaxPos
    · rw [if_pos hk]; rfl
    · rw [if_neg hk, rdP_ok (by omega), ok_bind, ← he i (by omega), if_neg hk]
      dsimp only
      simp only [pure_ok]
      rw [ok_bind, if_neg (by omega)]
      exact ih (i + 1) (by omega)

end

end Surf
