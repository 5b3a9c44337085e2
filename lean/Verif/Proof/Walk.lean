import Verif.Proof.Lookup

/-!
# Walking down to a node, for filters of any size
-/

set_option linter.unusedSectionVars false
set_option autoImplicit false

namespace Surf
open Trie

variable [Env] {cfg : Config} {ts : List Str} {sw : Str → Word} {s : Nat} {f : Filter}

/-- The bitmaps lead to the node of depth `s`. -/
theorem FRep0.dwalk (h : FRep0 cfg ts sw s f) (key : Key) (n l : Nat)
    (hn : l + n = s) (hl : s ≤ key.length) (hx : isInt ts ((syms key).take s) = true) :
    f.dense.lookupLoop key n l (num ts ((syms key).take l)) = .ok (true, num ts ((syms key).take s)) := by
  induction n generalizing l with
  | zero => rw [show l = s by omega]; rfl
  | succ n ih =>
    have hpre : ∀ {j}, j < s → isInt ts ((syms key).take j) = true := by
      intro j hj
      obtain ⟨t, ht, hp, hne⟩ := isInt_iff.1 hx
      have hle := hp.length_le
      simp only [List.length_take, syms_length] at hle
      refine isInt_iff.2 ⟨t, ht, (List.take_prefix_take_left (by omega)).trans hp, fun hc => ?_⟩
      have := congrArg List.length hc
      simp only [List.length_take, syms_length] at this
      omega
    have hxl : ((syms key).take l).length = l := by simp; omega
    have hls : ((syms key).take l).length < s := by omega
    have hxi := hpre (show l < s by omega)
    have hp0 := (h.dpos_lt hxi hls (b := 0) (by omega)).1
    rw [LoudsDense.lookupLoop]
    dsimp only
    have hm : mul32 (num ts ((syms key).take l)) kFanout = 256 * num ts ((syms key).take l) := by
      unfold kFanout; rw [mul32_eq (by omega), Nat.mul_comm]
    have hb : (key.getD l 0).toNat < 256 := UInt8.toNat_lt _
    obtain ⟨e1, e2⟩ := take_succ_w (show l < key.length by omega)
    have hi : isInt ts ((syms key).take l ++ [(key.getD l 0).toNat + 1]) = true := by
      rw [e1]
      rcases Nat.lt_or_ge (l + 1) s with g | g
      · exact hpre g
      · rw [show l + 1 = s by omega]; exact hx
    rw [hm, if_neg (by omega), add32_eq (h.dpos_lt hxi hls hb).1, h.dlabel hxi hls hb, ok_bind, ex_of_int hi]
    simp only [Bool.not_true, Bool.false_eq_true, if_false]
    rw [h.dchild hxi hls hb, ok_bind, hi]
    simp only [Bool.not_true, Bool.false_eq_true, if_false]
    rw [h.dchildNum hxi hls hb hi, ok_bind, e1]
    exact ih (l + 1) (by omega)

/-- The lists lead to the node of depth `m` if the searches on the way are exact. -/
theorem FRep0.swalk (h : FRep0 cfg ts sw s f) (hs : Env.strict = false) (key : Key) (m : Nat) (hm : m ≤ key.length)
    (hx : isInt ts ((syms key).take m) = true)
    (hlow : ∀ l, s ≤ l → l < m → ∀ A C, snodes ts s = A ++ (syms key).take l :: C → LowNode ts A ((syms key).take l))
    {A C : List Str} (hA : snodes ts s = A ++ (syms key).take m :: C) (n l : Nat) (hn : l + n = m) (hsl : s ≤ l)
    {A' C' : List Str} (hA' : snodes ts s = A' ++ (syms key).take l :: C') :
    f.sparse.lookupLoop key (key.drop l) l (before ts A' ((syms key).take l) 0).length =
      f.sparse.lookupLoop key (key.drop m) m (before ts A ((syms key).take m) 0).length := by
  induction n generalizing l A' C' with
  | zero =>
    obtain rfl : l = m := by omega
    have hnd := nodesR_nodup h.wf.sorted s (maxLen ts + 1)
    change (snodes ts s).Nodup at hnd
    have hsp : A = A' := by
      have g1 : (snodes ts s).idxOf ((syms key).take l) = A.length := by
        have h1 := hnd
        rw [hA] at h1 ⊢
        have h2 : (syms key).take l ∉ A := fun hc => (List.nodup_append.1 h1).2.2 _ hc _ (by simp) rfl
        rw [List.idxOf_append_of_notMem h2]; simp
      have g2 : (snodes ts s).idxOf ((syms key).take l) = A'.length := by
        have h1 := hnd
        rw [hA'] at h1 ⊢
        have h2 : (syms key).take l ∉ A' := fun hc => (List.nodup_append.1 h1).2.2 _ hc _ (by simp) rfl
        rw [List.idxOf_append_of_notMem h2]; simp
      have g3 : A.length = A'.length := g1.symm.trans g2
      exact (List.append_inj (hA.symm.trans hA') g3).1
    rw [hsp]
  | succ n ih =>
    have hlt : l < key.length := by omega
    have hd : key.drop l = key.getD l 0 :: key.drop (l + 1) := by
      rw [List.drop_eq_getElem_cons hlt]; simp [List.getD, hlt]
    obtain ⟨e1, e2⟩ := take_succ_w hlt
    have hi : isInt ts ((syms key).take (l + 1)) = true := by
      rcases Nat.lt_or_ge (l + 1) m with g | g
      · obtain ⟨t, ht, hp, hne⟩ := isInt_iff.1 hx
        have hle := hp.length_le
        simp only [List.length_take, syms_length] at hle
        refine isInt_iff.2 ⟨t, ht, (List.take_prefix_take_left (by omega)).trans hp, fun hc => ?_⟩
        have := congrArg List.length hc
        simp only [List.length_take, syms_length] at this
        omega
      · rw [show l + 1 = m by omega]; exact hx
    have he : ex ts ((syms key).take l ++ [(key.getD l 0).toNat + 1]) = true := by rw [e1]; exact ex_of_int hi
    obtain ⟨n', found, pos, en, ese, hfound, -⟩ := h.ssearch_exact hs hA' (hlow l hsl (by omega) _ _ hA') (key.getD l 0)
    obtain ⟨rfl, rfl⟩ := hfound he
    have hmem := mem_sitems_kid hA' he
    rw [hd, LoudsSparse.lookupLoop, en, ok_bind, ese, ok_bind]
    dsimp only
    simp only [Bool.not_true, Bool.false_eq_true, if_false]
    have hi' : isInt ts ((syms key).take l ++ [(key.getD l 0).toNat + 1]) = true := by rw [e1]; exact hi
    rw [h.schild hmem, ok_bind, hi']
    simp only [Bool.not_true, Bool.false_eq_true, if_false]
    rw [h.schildNum hmem hi', ok_bind]
    obtain ⟨A2, C2, hA2, hn2⟩ := h.snode hi (by simp; omega)
    rw [e1, h.sfirst hA2 hn2, ok_bind]
    exact ih (l + 1) (by omega) (by omega) hA2

/-- A point lookup reaches the node of depth `m` on its path. -/
theorem FRep0.walk (h : FRep0 cfg ts sw s f) (hs : Env.strict = false) (key : Key) (m : Nat) (hsm : s ≤ m) (hm : m ≤ key.length)
    (hx : isInt ts ((syms key).take m) = true)
    (hlow : ∀ l, s ≤ l → l < m → ∀ A C, snodes ts s = A ++ (syms key).take l :: C → LowNode ts A ((syms key).take l))
    {A C : List Str} (hA : snodes ts s = A ++ (syms key).take m :: C) :
    f.lookupKey key = f.sparse.lookupLoop key (key.drop m) m (before ts A ((syms key).take m) 0).length := by
  have h2 : isInt ts ((syms key).take s) = true := by
    rcases Nat.eq_or_lt_of_le hsm with g | g
    · rw [g]; exact hx
    · obtain ⟨t, ht, hp, hne⟩ := isInt_iff.1 hx
      have hle := hp.length_le
      simp only [List.length_take, syms_length] at hle
      refine isInt_iff.2 ⟨t, ht, (List.take_prefix_take_left (by omega)).trans hp, fun hc => ?_⟩
      have := congrArg List.length hc
      simp only [List.length_take, syms_length] at this
      omega
  have e := h.dwalk key s 0 (by omega) (by omega) h2
  rw [List.take_zero, num_root h.wf] at e
  unfold Filter.lookupKey LoudsDense.lookupKey
  rw [h.dense.height, e, ok_bind]
  dsimp only
  have hxl : ((syms key).take s).length = s := by simp; omega
  have hne : num ts ((syms key).take s) ≠ 0 := by
    intro h0
    rw [← num_root h.wf] at h0
    have := num_inj h2 h0
    rw [this] at hxl
    have := h.s1
    simp at hxl; omega
  simp only [Bool.not_true, Bool.false_eq_true, if_false, ne_eq, hne, not_false_eq_true, if_true]
  unfold LoudsSparse.lookupKey
  obtain ⟨A', C', hA', hn⟩ := h.snode h2 (by omega)
  rw [h.sfirst hA' hn, ok_bind, h.sparse.start]
  exact h.swalk hs key m hm hx hlow hA (m - s) s (by omega) le_rfl hA'

/-- A byte of a node behind position `2^31` that has between 3 and 11 branches and no terminator is not found if the label at the wrong midpoint is larger. -/
theorem FRep0.miss (h : FRep0 cfg ts sw s f) (hs : Env.strict = false) {A C : List Str} {x : Str} (hA : snodes ts s = A ++ x :: C)
    (h3 : 3 ≤ (kidItems ts x).length) (h12 : (kidItems ts x).length < 12) (hov : ¬ (C = [] ∧ Overrun ts s x)) (h0 : ex ts (x ++ [0]) = false)
    {P mid : Nat} (hP : (before ts A x 0).length = P) (hhi : 2147483648 ≤ P) (hmid : mid = (2 * P + (kidItems ts x).length - 4294967296) / 2) (b : UInt8)
    (hb : b < labAt f.sparse.labels.labels mid) :
    ∃ n p, f.sparse.nodeSize P = .ok n ∧ f.sparse.labels.search b P n = .ok (false, p) := by
  obtain ⟨n, en, hne⟩ := h.snodeSize_exact hA
  have hn : n = (kidItems ts x).length := by
    rcases hne with hne | ⟨hne, -⟩
    · exact hne.1
    · exact absurd hne hov
  have hsk := h.sskip hA (Or.inl hn)
  have hP1 : (before ts A x 1).length = P := by rw [before_succ, h0, ← hP]; simp
  have htop := before_top (A := A) (x := x) h.wf
  have htot := congrArg List.length (sitems_eq hA h.wf)
  rw [List.length_append, List.length_append, hP] at htot
  have h32 := h.sitems_le
  rw [M32_eq] at h32
  rw [hP, hP1, Nat.sub_self, Nat.sub_zero] at hsk
  rw [hP] at en
  refine ⟨n, P, en, ?_⟩
  unfold LabelVector.search
  rw [LabelVector.skipTerm_ok hs, ok_bind, hsk]
  dsimp only
  rw [if_neg (by omega), if_pos (by omega)]
  unfold LabelVector.binarySearch
  obtain ⟨F, hF⟩ : ∃ F, F + 2 = LabelVector.binFuel := ⟨18446744073709551615, by rw [LabelVector.binFuel_eq]⟩
  rw [← hF, LabelVector.binLoop, if_pos (by omega)]
  dsimp only
  have hm : add32 P (P + n) / 2 = mid := by
    unfold add32
    rw [M32_eq, hmid, ← hn]
    omega
  rw [hm, rdB_labAt hs, ok_bind, if_pos hb, LabelVector.binLoop, if_neg (by omega)]

end Surf
