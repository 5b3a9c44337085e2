import Verif.Proof.Nav

/-! # Navigation in LoudsDense -/

set_option linter.unusedSectionVars false
set_option autoImplicit false

namespace Surf
open Trie
variable [Env] {cfg : Config} {ts : List Str} {sw : Str → Word} {s : Nat} {f : Filter}

omit [Env] in
theorem leafWords_at {l B D : List Str} {p : Str} (e : l = B ++ p :: D) (hp : isInt ts p = false) :
    (leafWords ts sw l)[B.countP fun q => !isInt ts q]? = some (sw p) := by
  rw [e, leafWords_append]
  have h1 : (leafWords ts sw B).length = B.countP fun q => !isInt ts q := by
    simp [leafWords, List.countP_eq_length_filter]
  rw [List.getElem?_append_right (by omega), h1, Nat.sub_self]
  simp [leafWords, hp]

omit [Env] in
theorem FRep0.nodes_s (h : FRep0 cfg ts sw s f) : s ≤ maxLen ts + 1 := by have := h.sH; omega

omit [Env] in
/-- The place of a dense node. -/
theorem FRep0.dnode (h : FRep0 cfg ts sw s f) {x : Str} (hx : isInt ts x = true) (hs : x.length < s) :
    ∃ A C, nodesR ts 0 s = A ++ x :: C ∧ A.length = num ts x := by
  obtain ⟨A, C, e, e2⟩ := nodes_at h.wf hx (Nat.zero_le _) hs h.nodes_s
  have : (nodesR ts 0 0).length = 0 := by simp [nodesR]
  exact ⟨A, C, e, by omega⟩

omit [Env] in
theorem FRep0.dpos_lt (h : FRep0 cfg ts sw s f) {x : Str} (hx : isInt ts x = true) (hs : x.length < s) {b : Nat}
    (hb : b < 256) : 256 * num ts x + b < M32 ∧ 256 * num ts x + b < 256 * (nodesR ts 0 s).length := by
  have := num_lt h.wf hx hs h.nodes_s
  have := h.d32
  omega

theorem FRep0.dlabel (h : FRep0 cfg ts sw s f) {x : Str} (hx : isInt ts x = true) (hs : x.length < s) {b : Nat}
    (hb : b < 256) : f.dense.labelBitmaps.readBit (256 * num ts x + b) = .ok (ex ts (x ++ [b + 1])) := by
  obtain ⟨A, C, e, e2⟩ := h.dnode hx hs
  have hl := h.dense.lab
  rw [labelBits_eq] at hl
  rw [Bitvector.readBit_ok hl.base (by rw [bitsOf_length]; exact (h.dpos_lt hx hs hb).2), e, ← e2, bitsOf_getD _ hb]

theorem FRep0.dchild (h : FRep0 cfg ts sw s f) {x : Str} (hx : isInt ts x = true) (hs : x.length < s) {b : Nat}
    (hb : b < 256) : f.dense.childBitmaps.readBit (256 * num ts x + b) = .ok (isInt ts (x ++ [b + 1])) := by
  obtain ⟨A, C, e, e2⟩ := h.dnode hx hs
  have hl := h.dense.chl
  rw [childBits_eq] at hl
  rw [Bitvector.readBit_ok hl.base (by rw [bitsOf_length]; exact (h.dpos_lt hx hs hb).2), e, ← e2, bitsOf_getD _ hb]

theorem FRep0.dpref (h : FRep0 cfg ts sw s f) {x : Str} (hx : isInt ts x = true) (hs : x.length < s) :
    f.dense.prefixBits.readBit (num ts x) = .ok (ex ts (x ++ [0])) := by
  obtain ⟨A, C, e, e2⟩ := h.dnode hx hs
  have hl := h.dense.pre
  have hn := num_lt h.wf hx hs h.nodes_s
  rw [Bitvector.readBit_ok hl.base (by simpa [prefBits] using hn), e, ← e2]
  simp [prefBits, ex]

omit [Env] in
theorem isInt_nz (h : WF ts) : (fun p => isInt ts p && nz p) = isInt ts := by
  funext p
  by_cases hp : isInt ts p = true
  · rcases List.eq_nil_or_concat p with rfl | ⟨x, c, rfl⟩
    · simp [nz]
    · rw [List.concat_eq_append] at hp ⊢
      rw [nz_snoc]
      by_cases hc : c = 0
      · subst hc; rw [isInt_term h] at hp; simp at hp
      · simp [hc]
  · simp [hp]

theorem FRep0.drankC (h : FRep0 cfg ts sw s f) {A C : List Str} {x : Str} (e : nodesR ts 0 s = A ++ x :: C) {b : Nat}
    (hb : b < 256) : f.dense.childBitmaps.rank (256 * A.length + b) = .ok ((before ts A x (b + 2)).countP (isInt ts)) := by
  have hl := h.dense.chl
  rw [childBits_eq] at hl
  rw [BitvectorRank.rank_ok hl (Or.inl (by rw [bitsOf_length, e]; simp; omega)), e, Nat.add_assoc,
    bitsOf_count h.wf (fun p => ex_of_int) (by omega), isInt_nz h.wf]

theorem FRep0.drankL (h : FRep0 cfg ts sw s f) {A C : List Str} {x : Str} (e : nodesR ts 0 s = A ++ x :: C) {b : Nat}
    (hb : b < 256) : f.dense.labelBitmaps.rank (256 * A.length + b) =
      .ok ((before ts A x (b + 2)).countP (fun p => ex ts p && nz p)) := by
  have hl := h.dense.lab
  rw [labelBits_eq] at hl
  rw [BitvectorRank.rank_ok hl (Or.inl (by rw [bitsOf_length, e]; simp; omega)), e, Nat.add_assoc,
    bitsOf_count h.wf (fun p => id) (by omega)]

theorem FRep0.drankP (h : FRep0 cfg ts sw s f) {A C : List Str} {x : Str} (e : nodesR ts 0 s = A ++ x :: C) (n : Nat) :
    f.dense.prefixBits.rank A.length = .ok ((before ts A x (n + 1)).countP (fun p => !nz p)) := by
  have hl := h.dense.pre
  rw [BitvectorRank.rank_ok hl (Or.inl (by rw [e]; simp [prefBits])), e, pref_count h.wf n]

omit [Env] in
theorem before_ex {A : List Str} {x : Str} {c : Nat} :
    ∀ p ∈ before ts A x c, ex ts p = true := by
  intro p hp
  rcases List.mem_append.1 hp with hp | hp
  · obtain ⟨y, -, hy⟩ := List.mem_flatMap.1 hp
    exact ex_iff.2 (mem_kidItems.1 hy).2
  · obtain ⟨_, _, _, h⟩ := mem_kidsLT.1 hp
    exact h

omit [Env] in
/-- The three ranks add up to the number of leaves. -/
theorem count_sum (h : WF ts) (l : List Str) (hl : ∀ p ∈ l, ex ts p = true) :
    l.countP (fun p => ex ts p && nz p) + l.countP (fun p => !nz p) =
      l.countP (fun p => !isInt ts p) + l.countP (isInt ts) ∧
    l.countP (isInt ts) ≤ l.countP (fun p => ex ts p && nz p) := by
  induction l with
  | nil => simp
  | cons p l ih =>
    obtain ⟨h1, h2⟩ := ih fun q hq => hl q (by simp [hq])
    have he := hl p (by simp)
    have hn := congrFun (isInt_nz h) p
    simp only [List.countP_cons]
    cases hi : isInt ts p <;> cases hz : nz p <;> simp [hi, hz, he] at hn ⊢ <;> omega

omit [Env] in
theorem FRep0.count_lt (h : FRep0 cfg ts sw s f) {A C : List Str} {x : Str} (e : nodesR ts 0 s = A ++ x :: C) {n : Nat}
    (hn : n ≤ 257) (P : Str → Bool) : (before ts A x n).countP P ≤ (items ts 0 (maxLen ts + 1)).length := by
  refine List.countP_le_length.trans ?_
  have : before ts A x n <+: items ts 0 s := by
    rw [items_eq h.wf.sorted, e]
    unfold before
    rw [List.flatMap_append, List.flatMap_cons]
    refine List.prefix_append_right_inj _ |>.2 ?_
    rw [kidItems_eq h.wf]
    exact (kidsLT_prefix x hn).trans (List.prefix_append _ _)
  refine this.length_le.trans ?_
  rw [items_split ts (Nat.zero_le s) h.nodes_s, List.length_append]
  omega

/-- The child of a dense item. -/
theorem FRep0.dchildNum (h : FRep0 cfg ts sw s f) {x : Str} (hx : isInt ts x = true) (hs : x.length < s) {b : Nat}
    (hb : b < 256) (hi : isInt ts (x ++ [b + 1]) = true) :
    f.dense.getChildNodeNum (256 * num ts x + b) = .ok (num ts (x ++ [b + 1])) := by
  obtain ⟨A, C, e, e2⟩ := h.dnode hx hs
  unfold LoudsDense.getChildNodeNum
  rw [← e2, h.drankC e hb]
  obtain ⟨D, hD⟩ := items_at h.wf e (ex_of_int hi)
  have := num_item h.wf hi (B := before ts A x (b + 1)) (D := D ++ items ts s (maxLen ts + 1)) (by
    rw [items_split ts (Nat.zero_le s) h.nodes_s, hD]; simp)
  rw [this, before_succ, if_pos (ex_of_int hi), List.countP_append]
  simp [hi]

/-- The base of `getSuffixPos`. -/
theorem FRep0.dsfxBase (h : FRep0 cfg ts sw s f) {A C : List Str} {x : Str} (e : nodesR ts 0 s = A ++ x :: C) {b : Nat}
    (hb : b < 256) (h1 : 1 ≤ (before ts A x (b + 2)).countP fun p => !isInt ts p) (pk : Bool) :
    f.dense.getSuffixPos (256 * A.length + b) pk =
      (do if pk then do
            let l ← f.dense.labelBitmaps.readBit (256 * A.length + b)
            if l then do
              let ch ← f.dense.childBitmaps.readBit (256 * A.length + b)
              if !ch then return sub32 ((before ts A x (b + 2)).countP (fun p => !isInt ts p) - 1) 1
              else return ((before ts A x (b + 2)).countP fun p => !isInt ts p) - 1
            else return ((before ts A x (b + 2)).countP fun p => !isInt ts p) - 1
          else return ((before ts A x (b + 2)).countP fun p => !isInt ts p) - 1) := by
  obtain ⟨c1, c2⟩ := count_sum h.wf (before ts A x (b + 2)) before_ex
  have b1 := h.count_lt e (n := b + 2) (by omega) (fun p => ex ts p && nz p)
  have b2 := h.count_lt e (n := b + 2) (by omega) (isInt ts)
  have b3 := h.count_lt e (n := b + 2) (by omega) (fun p => !nz p)
  have b4 := h.count_lt e (n := b + 2) (by omega) (fun p => !isInt ts p)
  have h32 := h.i32
  have hk : (256 * A.length + b) / kFanout = A.length := by unfold kFanout; omega
  have key : sub32 (add32 (sub32 ((before ts A x (b + 2)).countP (fun p => ex ts p && nz p))
      ((before ts A x (b + 2)).countP (isInt ts))) ((before ts A x (b + 2)).countP (fun p => !nz p))) 1 =
      ((before ts A x (b + 2)).countP fun p => !isInt ts p) - 1 := by
    rw [sub32_eq c2 (by omega), add32_eq (by omega), sub32_eq (by omega) (by omega)]
    omega
  unfold LoudsDense.getSuffixPos
  dsimp only
  rw [h.drankL e hb, ok_bind, h.drankC e hb, ok_bind, hk, h.drankP e (b + 1), ok_bind, key]

/-- The suffix of a dense leaf. -/
theorem FRep0.dsfx (h : FRep0 cfg ts sw s f) {x : Str} (hx : isInt ts x = true) (hs : x.length < s) {b : Nat}
    (hb : b < 256) (ht : x ++ [b + 1] ∈ ts) :
    ∃ i, f.dense.getSuffixPos (256 * num ts x + b) false = .ok i ∧
      (leafWords ts sw (items ts 0 s))[i]? = some (sw (x ++ [b + 1])) := by
  obtain ⟨A, C, e, e2⟩ := h.dnode hx hs
  have hl := h.wf.isInt_leaf ht
  have hc : (before ts A x (b + 2)).countP (fun p => !isInt ts p) =
      (before ts A x (b + 1)).countP (fun p => !isInt ts p) + 1 := by
    rw [before_succ, if_pos (ex_mem ht), List.countP_append]; simp [hl]
  rw [← e2, h.dsfxBase e hb (by omega)]
  refine ⟨_, rfl, ?_⟩
  obtain ⟨D, hD⟩ := items_at h.wf e (ex_mem ht)
  rw [hc, Nat.add_sub_cancel]
  exact leafWords_at hD hl

/-- The suffix of a prefix key of a dense node. -/
theorem FRep0.dsfxPre (h : FRep0 cfg ts sw s f) {x : Str} (hx : isInt ts x = true) (hs : x.length < s)
    (ht : x ++ [0] ∈ ts) :
    ∃ i, f.dense.getSuffixPos (256 * num ts x) true = .ok i ∧
      (leafWords ts sw (items ts 0 s))[i]? = some (sw (x ++ [0])) := by
  obtain ⟨A, C, e, e2⟩ := h.dnode hx hs
  have hl := h.wf.isInt_leaf ht
  obtain ⟨D, hD⟩ := items_at h.wf e (ex_mem ht)
  refine ⟨_, ?_, leafWords_at hD hl⟩
  have h1 : (before ts A x 1).countP (fun p => !isInt ts p) =
      (before ts A x 0).countP (fun p => !isInt ts p) + 1 := by
    rw [before_succ, if_pos (ex_mem ht), List.countP_append]; simp [hl]
  have h2 : (before ts A x 2).countP (fun p => !isInt ts p) =
      (before ts A x 0).countP (fun p => !isInt ts p) + 1 +
        if ex ts (x ++ [1]) && !isInt ts (x ++ [1]) then 1 else 0 := by
    rw [before_succ, List.countP_append, h1]
    cases hq : ex ts (x ++ [1]) <;> simp
  have b4 := h.count_lt e (n := 2) (by omega) (fun p => !isInt ts p)
  have h32 := h.i32
  have := h.dsfxBase e (b := 0) (by omega) (by rw [h2]; omega) true
  rw [Nat.add_zero] at this
  rw [← e2, this, if_pos rfl]
  have r1 := h.dlabel hx hs (b := 0) (by omega)
  have r2 := h.dchild hx hs (b := 0) (by omega)
  rw [← e2, Nat.add_zero] at r1 r2
  rw [r1, ok_bind]
  rw [h2] at b4 ⊢
  simp only [Nat.zero_add] at *
  cases hq : ex ts (x ++ [1])
  · simp
  · rw [if_pos rfl, r2, ok_bind]
    cases hi : isInt ts (x ++ [1])
    · simp only [hq, hi, Bool.not_false, Bool.and_self, if_true] at b4 ⊢
      exact ok_congr (by rw [sub32_eq (by omega) (by omega)]; omega)
    · simp

end Surf
