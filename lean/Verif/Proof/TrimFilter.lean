import Verif.Proof.Trim

/-!
# A filter and its trimmed copy do the same
-/

set_option linter.unusedSectionVars false
set_option autoImplicit false

namespace Surf
open Trie

variable [Env]
variable {cfg : Config} {ts : List Str} {sw : Str → Word} {s : Nat} {f : Filter}

omit [Env] in
theorem sitem_split {p : Str} (h : p ∈ sitems ts s) : ∃ x c, p = x ++ [c] ∧ s ≤ x.length ∧ ex ts (x ++ [c]) = true := by
  have h1 := mem_sitems.1 h
  rcases List.eq_nil_or_concat p with rfl | ⟨x, c, rfl⟩
  · simp at h1
  · exact ⟨x, c, by simp, by have := h1.1; simp at this; omega, by simpa using h1.2⟩

/-- Every position of the sparse part belongs to an item. -/
theorem FRep.at_pos (h : FRep cfg ts sw s f) {i : Nat} (hi : i < (sitems ts s).length) :
    ∃ x c, s ≤ x.length ∧ ex ts (x ++ [c]) = true ∧ ipos ts s (x ++ [c]) = i := by
  have hm : (sitems ts s)[i] ∈ sitems ts s := List.getElem_mem hi
  obtain ⟨x, c, e3, h1, h2⟩ := sitem_split hm
  refine ⟨x, c, h1, h2, ?_⟩
  rw [← e3]
  have hnd : (sitems ts s).Nodup := items_nodup h.wf.sorted _ _
  exact hnd.idxOf_getElem i hi

theorem FRep.agree (h : FRep cfg ts sw s f) (hs : Env.strict = false) :
    Agree (sitems ts s).length f.sparse f.sparse.labels.trim := by
  refine ⟨hs, fun i hi => h.trim_lab hi, h.louds_len, ?_, ?_, ?_, ?_⟩
  · have := h.sitems_le
    have := h.i32
    omega
  · intro hn hc
    have hr := hinjR (h.louds_read hn) hc
    have hne : snodes ts s ≠ [] := fun hc => by rw [← louds_total h.wf, hc] at hn; simp [loudsOf] at hn
    obtain ⟨x, C, hA⟩ := List.exists_cons_of_ne_nil hne
    have hA' : snodes ts s = [] ++ x :: C := hA
    have hp : 0 < (kidItems ts x).length := List.length_pos_of_ne_nil (kidItems_ne_nil (x_int hA'))
    have := louds_getD hA' hp
    have hb0 : (before ts [] x 0).length = 0 := by simp [before, kidsLT_zero]
    rw [hb0, hr] at this
    simp at this
  · intro p c q hp h1 h2 h3
    obtain ⟨x, d, g1, g2, rfl⟩ := h.at_pos hp
    have hi := hinjR (h.schild' g1 g2) h1
    cases hinjR (h.schildNum' g1 hi) h2
    obtain ⟨e, g3, g4⟩ := exists_first h.wf hi
    cases hinjR (h.sfirst' (by simp; omega) g3 g4) h3
    exact ipos_lt (mem_sitems.2 ⟨by simp; omega, g3⟩)
  · intro p c q hp h1 h2 h3
    obtain ⟨x, d, g1, g2, rfl⟩ := h.at_pos hp
    have hi := hinjR (h.schild' g1 g2) h1
    cases hinjR (h.schildNum' g1 hi) h2
    obtain ⟨e, g3, g4⟩ := exists_last h.wf hi
    cases hinjR (h.slast (by simp; omega) g3 g4) h3
    exact ipos_lt (mem_sitems.2 ⟨by simp; omega, g3⟩)

/-- A search along the key reads the same on both filters. -/
theorem FRep.way (h : FRep cfg ts sw s f) (hs : Env.strict = false) {T : Prop} (key : Key)
    (hsafe : ∀ x b A, snodes ts s = A ++ [x] → x ++ [b + 1] <+: w key → ex ts (x ++ [b + 1]) = false →
      ¬ Overrun ts s x ∧ (T → ex ts (x ++ [0]) = false))
    (rest : Key) (l : Nat)
    (hl : l ≤ key.length) (hrest : rest = key.drop l) (hsl : s ≤ l) (hx : isInt ts ((syms key).take l) = true)
    {A C : List Str} (hA : snodes ts s = A ++ (syms key).take l :: C) :
    Agree.Way T (sitems ts s).length f.sparse f.sparse.labels.trim rest (before ts A ((syms key).take l) 0).length := by
  induction rest generalizing l A C with
  | nil =>
    have hp : 0 < (kidItems ts ((syms key).take l)).length := List.length_pos_of_ne_nil (kidItems_ne_nil hx)
    have e := congrArg List.length (sitems_eq hA h.wf)
    rw [List.length_append, List.length_append] at e
    unfold Agree.Way
    omega
  | cons b rest ih =>
    have hlt : l < key.length := by
      have := congrArg List.length hrest
      simp at this; omega
    have hb : key.getD l 0 = b := by
      have := congrArg (fun r => r[0]?) hrest
      simp only [List.getElem?_cons_zero, List.getElem?_drop, Nat.add_zero] at this
      rw [List.getD, ← this]; rfl
    have hrest' : rest = key.drop (l + 1) := by
      have := congrArg List.tail hrest
      simpa using this
    obtain ⟨e1, e2⟩ := take_succ_w hlt
    rw [hb] at e1 e2
    obtain ⟨n, found, pos, en, ese, hfound, hnot⟩ := h.ssearch_exact hs hA b
    obtain ⟨n', found', pos', en', ese', hfound', hnot'⟩ := h.trim.ssearch hs hA b
    obtain ⟨n2, en2, hn2⟩ := h.snodeSize_exact hA
    have e := congrArg List.length (sitems_eq hA h.wf)
    rw [List.length_append, List.length_append] at e
    intro sz h1
    cases hinjR en h1
    cases hinjR en en2
    cases hinjR en (en' : f.sparse.nodeSize _ = _)
    cases he : ex ts ((syms key).take l ++ [b.toNat + 1])
    · have hC : C = [] → n = (kidItems ts ((syms key).take l)).length ∧ (T → ex ts ((syms key).take l ++ [0]) = false) := by
        rintro rfl
        obtain ⟨g1, g2⟩ := hsafe _ _ _ hA e2 he
        refine ⟨?_, g2⟩
        rcases hn2 with hn2 | hn2
        · exact hn2.1
        · exact absurd hn2.1.2 g1
      have hsz : n = (kidItems ts ((syms key).take l)).length := by
        rcases hn2 with hn2 | hn2
        · exact hn2.1
        · exact (hC hn2.1.1).1
      refine ⟨?_, fun p hp => ?_⟩
      · rcases C with _ | ⟨y, C⟩
        · right; left
          have hg := (hC rfl).2
          refine ⟨by rw [hsz]; omega, fun ht hc => ?_⟩
          have hg := hg ht
          have hk2 := last_kids h.wf h.s1 hA
          obtain ⟨c, c1, c2⟩ := exists_first h.wf hx
          have hxl : ((syms key).take l).length = l := by simp; omega
          have hip := ipos_eq h.wf hA c1
          rw [before_skip A _ (Nat.zero_le c) fun d _ hd => c2 d hd] at hip
          rw [← hip, h.sread (by omega) c1] at hc
          have hc := hinjR rfl hc
          have hc256 := sym_le h.wf c1
          have hc0 : c ≠ 0 := fun h0 => by rw [h0, hg] at c1; cases c1
          have hcv : c = 256 := by
            rw [labB_eq hc0] at hc
            have := congrArg UInt8.toNat hc
            simp [toB, kTerminator] at this
            omega
          have hall : ∀ p ∈ kidItems ts ((syms key).take l), p = (syms key).take l ++ [256] := by
            intro p hp
            obtain ⟨⟨d, rfl⟩, hd⟩ := mem_kidItems.1 hp
            have hd := ex_iff.2 hd
            have := sym_le h.wf hd
            rcases Nat.lt_or_ge d c with h7 | h7
            · rw [c2 d h7] at hd; cases hd
            · rw [show d = 256 by omega]
          have hsrt := kidItems_sorted h.wf.sorted ((syms key).take l)
          have h01 := List.pairwise_iff_getElem.1 hsrt 0 1 (by omega) (by omega) (by omega)
          rw [hall _ (List.getElem_mem _), hall _ (List.getElem_mem _)] at h01
          exact absurd h01 (lt_irrefl _)
        · left
          have hy : 0 < (kidItems ts y).length := List.length_pos_of_ne_nil (kidItems_ne_nil
            (by have : y ∈ snodes ts s := by rw [hA]; simp
                exact (mem_nodesR.1 this).2.2))
          rw [List.flatMap_cons, List.length_append] at e
          omega
      · have he' := hinjR ese hp
        cases he'
        rcases hnot he with ⟨hc, -⟩ | ⟨-, hc, g1, g6, -⟩
        · cases hc
        · exact absurd g1 (by first | exact (hsafe _ _ _ (by rw [hA, hc]) e2 he).1 | exact hsafe _ _ _ (by rw [hA, hc]) e2 he)
    · obtain ⟨rfl, rfl⟩ := hfound he
      obtain ⟨rfl, rfl⟩ := hfound' he
      have hmem := mem_sitems_kid hA he
      refine ⟨Or.inr (Or.inr ⟨_, ese, ese'⟩), fun p hp => ?_⟩
      have he' := hinjR ese hp
      cases he'
      refine ⟨ipos_lt hmem, fun nn p2 h3 h4 h5 => ?_⟩
      have hi := hinjR (h.schild hmem) h3
      cases hinjR (h.schildNum hmem hi) h4
      have hi' : isInt ts ((syms key).take (l + 1)) = true := by rw [← e1]; exact hi
      obtain ⟨A', C', hA', hn'⟩ := h.snode hi' (by simp; omega)
      rw [e1] at h5
      cases hinjR (h.sfirst hA' hn') h5
      exact ih (l + 1) (by omega) hrest' (by omega) hi' hA'

omit [Env] in
theorem RRel.eq {α : Type} {P : α → α → Prop} {x y : R α} (h : RRel P x y) (hp : ∀ a b, P a b → a = b) : x = y := by
  cases x with
  | error e => cases y with
    | error e' => exact congrArg _ h
    | ok b => exact h.elim
  | ok a => cases y with
    | error e' => exact h.elim
    | ok b => exact congrArg _ (hp a b h)

omit [Env] in
theorem trim_sparse (f : Filter) : f.trim.sparse = f.sparse.lab f.sparse.labels.trim := rfl

omit [Env] in
theorem trim_dense (f : Filter) : f.trim.dense = f.dense := rfl

/-- A point lookup does the same on both filters, if it does not search for a missing byte in the last node. -/
theorem FRep.trim_lookup (h : FRep cfg ts sw s f) (hs : Env.strict = false) (hc : cfg.Ok) (key : Key)
    (hsafe : ∀ x b A, snodes ts s = A ++ [x] → x ++ [b + 1] <+: w key → ex ts (x ++ [b + 1]) = false →
      ¬ Overrun ts s x) :
    f.trim.lookupKey key = f.lookupKey key := by
  have hroot := root_int h.wf
  obtain ⟨r, e, hr⟩ := h.dlookup hs hc key s 0 (by omega) (by omega) (by simpa using hroot)
  rw [List.take_zero, num_root h.wf] at e
  unfold Filter.lookupKey
  rw [trim_dense]
  unfold LoudsDense.lookupKey
  rw [h.dense.height, e, ok_bind, ok_bind]
  rcases hr with ⟨t, -, -, rfl⟩ | ⟨h1, h2, rfl⟩ | ⟨-, -, rfl⟩
  · simp
  · dsimp only
    congr 2
    unfold LoudsSparse.lookupKey
    obtain ⟨A, C, hA, hn⟩ := h.snode h2 (by simp; omega)
    rw [h.sfirst hA hn, h.trim.sfirst hA hn, ok_bind, ok_bind, h.sparse.start, trim_sparse]
    show LoudsSparse.lookupLoop (f.sparse.lab f.sparse.labels.trim) key (List.drop f.sparse.startLevel key) f.sparse.startLevel _ = _
    rw [h.sparse.start]
    exact (h.agree hs).lookupLoop (T := False) key _ _ _
      (h.way hs key (fun x b A g1 g2 g3 => ⟨hsafe x b A g1 g2 g3, False.elim⟩) _ s h1 rfl le_rfl h2 hA)
  · rfl

/-- The first label of a node at the start of the sparse part. -/
theorem FRep.start_first (h : FRep cfg ts sw s f) {x : Str} (hi : isInt ts x = true) (hx : s ≤ x.length) {q : Nat}
    (e : f.sparse.getFirstLabelPos (num ts x) = .ok q) : q < (sitems ts s).length := by
  obtain ⟨c, g3, g4⟩ := exists_first h.wf hi
  cases hinjR (h.sfirst' hx g3 g4) e
  exact ipos_lt (mem_sitems.2 ⟨by simp; omega, g3⟩)

theorem FRep.start_last (h : FRep cfg ts sw s f) {x : Str} (hi : isInt ts x = true) (hx : s ≤ x.length) {q : Nat}
    (e : f.sparse.getLastLabelPos (num ts x) = .ok q) : q < (sitems ts s).length := by
  obtain ⟨c, g3, g4⟩ := exists_last h.wf hi
  cases hinjR (h.slast hx g3 g4) e
  exact ipos_lt (mem_sitems.2 ⟨by simp; omega, g3⟩)

omit [Env] in
theorem take_int {t : Str} (ht : t ∈ ts) (hl : s < t.length) : isInt ts (t.take s) = true := by
  refine isInt_iff.2 ⟨t, ht, List.take_prefix _ _, fun e => ?_⟩
  rw [← e] at hl; simp at hl

/-- Entering the sparse part. -/
theorem FRep.trim_left (h : FRep cfg ts sw s f) (hs : Env.strict = false) {d : DIter} {t : Str} (hd : DLeft ts s d t)
    (ht : t ∈ ts) (hl : s < t.length) {a : SIter} (ha : Agree.InR (sitems ts s).length a.keyLen a) :
    RRel (Agree.EqR (sitems ts s).length) (SIter.moveToLeftMostKey f.trim.sparse { a with startNode := d.sendOut })
      (SIter.moveToLeftMostKey f.sparse { a with startNode := d.sendOut }) := by
  refine (h.agree hs).moveToLeftMostKey (a := { a with startNode := d.sendOut }) ha fun _ q hq => ?_
  dsimp only at hq
  rw [hd.send hl] at hq
  exact h.start_first (take_int ht hl) (by simp; omega) hq

theorem FRep.trim_right (h : FRep cfg ts sw s f) (hs : Env.strict = false) {d : DIter} {t : Str} (hd : DRight ts s d t)
    (ht : t ∈ ts) (hl : s < t.length) {a : SIter} (ha : Agree.InR (sitems ts s).length a.keyLen a) :
    RRel (Agree.EqR (sitems ts s).length) (SIter.moveToRightMostKey f.trim.sparse { a with startNode := d.sendOut })
      (SIter.moveToRightMostKey f.sparse { a with startNode := d.sendOut }) := by
  refine (h.agree hs).moveToRightMostKey (a := { a with startNode := d.sendOut }) ha fun _ q hq => ?_
  dsimp only at hq
  rw [hd.send hl] at hq
  exact h.start_last (take_int ht hl) (by simp; omega) hq

/-- A dense iterator whose steps are known: it is off, at a leaf, or at a path that exists. -/
inductive DFine (ts : List Str) (s : Nat) (d : DIter) : Prop
  | off (hv : d.valid = false)
  | leaf (t : Str) (ht : t ∈ ts) (ha : DAt ts s d t)
  | on (p : Str) (hp : p ≠ []) (ho : DOn ts s d p) (hpath : DPath ts s p) (hpre : d.atPrefix = false) (he : ex ts p = true)

/-- An iterator that does the same on both filters. -/
structure Fine (ts : List Str) (s : Nat) (it : Iter) : Prop where
  d : DFine ts s it.dense
  sp : Agree.InR (sitems ts s).length it.sparse.keyLen it.sparse

theorem FRep.dincFine (h : FRep cfg ts sw s f) (hs : Env.strict = false) {d : DIter} (hd : DFine ts s d) (hv : d.valid = true) :
    ∃ d', d.inc f.dense = .ok d' ∧ (d'.valid = false ∨ ∃ t ∈ ts, DLeft ts s d' t) := by
  rcases hd with hv' | ⟨t, ht, ha⟩ | ⟨p, hp, ho, hpath, hpre, he⟩
  · rw [hv'] at hv; cases hv
  · obtain ⟨d', e, hr⟩ := h.dincAt hs ha ht
    refine ⟨d', e, ?_⟩
    rcases hr with ⟨-, h1, -⟩ | ⟨t', h1, h2⟩
    · exact Or.inl h1
    · exact Or.inr ⟨t', h1.1, h2⟩
  · obtain ⟨d', e, hr⟩ := h.dinc hs hp ho hpath hpre
    refine ⟨d', e, ?_⟩
    rcases hr with ⟨-, h1, -⟩ | ⟨t', h1, h2⟩
    · exact Or.inl h1
    · exact Or.inr ⟨t', h1.1, h2⟩

theorem FRep.ddecFine (h : FRep cfg ts sw s f) (hroot : ∀ t ∈ ts, ¬ [0] <+: t) {d : DIter} (hd : DFine ts s d) (hv : d.valid = true) :
    ∃ d', d.dec f.dense = .ok d' ∧ (d'.valid = false ∨ ∃ t ∈ ts, DRight ts s d' t) := by
  rcases hd with hv' | ⟨t, ht, ha⟩ | ⟨p, hp, ho, hpath, hpre, he⟩
  · rw [hv'] at hv; cases hv
  · obtain ⟨d', e, hr⟩ := h.ddecAt hroot ha ht
    refine ⟨d', e, ?_⟩
    rcases hr with ⟨h1, -⟩ | ⟨t', h1, h2⟩
    · exact Or.inl h1
    · exact Or.inr ⟨t', h1.1, h2⟩
  · obtain ⟨d', e, hr⟩ := h.ddec hp ho hpath hpre he
    refine ⟨d', e, ?_⟩
    rcases hr with ⟨h1, -⟩ | ⟨t', h1, h2⟩
    · exact Or.inl h1
    · exact Or.inr ⟨t', h1.1, h2⟩

/-- The same result, from which both filters go on alike. -/
def FineR (ts : List Str) (s : Nat) (a b : Bool × Iter) : Prop := a = b ∧ Fine ts s a.2

def FineI (ts : List Str) (s : Nat) (a b : Iter) : Prop := a = b ∧ Fine ts s a

theorem FRep.trim_incDense (h : FRep cfg ts sw s f) (hs : Env.strict = false) {it : Iter} (hf : Fine ts s it) :
    RRel (FineR ts s) (it.incrementDense f.trim) (it.incrementDense f) := by
  unfold Iter.incrementDense
  cases hv : it.dense.valid
  · exact ⟨rfl, hf⟩
  obtain ⟨d, e, hr⟩ := h.dincFine hs hf.d hv
  simp only [Bool.not_true, Bool.false_eq_true, if_false]
  rw [trim_dense, e, ok_bind, ok_bind]
  rcases hr with h2 | ⟨t, h1, h2⟩
  · rw [h2]; exact RRel.pure ⟨rfl, .off h2, hf.sp⟩
  · rw [h2.valid, h2.left]
    rcases Nat.lt_or_ge s t.length with h3 | h3
    · rw [decide_eq_false (by omega)]
      unfold Iter.passToSparse
      refine RRel.bind (h.trim_left hs h2 h1 h3 hf.sp) fun x y _ _ hxy => ?_
      obtain ⟨rfl, hx⟩ := hxy
      exact RRel.pure ⟨rfl, .leaf t h1 h2.toDAt, hx⟩
    · rw [decide_eq_true h3]; exact RRel.pure ⟨rfl, .leaf t h1 h2.toDAt, hf.sp⟩

theorem FRep.trim_decDense (h : FRep cfg ts sw s f) (hs : Env.strict = false) (hroot : ∀ t ∈ ts, ¬ [0] <+: t)
    {it : Iter} (hf : Fine ts s it) : RRel (FineR ts s) (it.decrementDense f.trim) (it.decrementDense f) := by
  unfold Iter.decrementDense
  cases hv : it.dense.valid
  · exact ⟨rfl, hf⟩
  obtain ⟨d, e, hr⟩ := h.ddecFine hroot hf.d hv
  simp only [Bool.not_true, Bool.false_eq_true, if_false]
  rw [trim_dense, e, ok_bind, ok_bind]
  rcases hr with h2 | ⟨t, h1, h2⟩
  · rw [h2]; exact RRel.pure ⟨rfl, .off h2, hf.sp⟩
  · rw [h2.valid, h2.right]
    rcases Nat.lt_or_ge s t.length with h3 | h3
    · rw [decide_eq_false (by omega)]
      unfold Iter.passToSparse
      refine RRel.bind (h.trim_right hs h2 h1 h3 hf.sp) fun x y _ _ hxy => ?_
      obtain ⟨rfl, hx⟩ := hxy
      exact RRel.pure ⟨rfl, .leaf t h1 h2.toDAt, hx⟩
    · rw [decide_eq_true h3]; exact RRel.pure ⟨rfl, .leaf t h1 h2.toDAt, hf.sp⟩

/-- `++` does the same on both filters. -/
theorem FRep.trim_inc (h : FRep cfg ts sw s f) (hs : Env.strict = false) {it : Iter} (hf : Fine ts s it) :
    RRel (FineR ts s) (it.inc f.trim) (it.inc f) := by
  unfold Iter.inc
  split
  · exact ⟨rfl, hf⟩
  unfold Iter.incrementSparse
  split
  · rw [ok_bind, ok_bind]
    exact h.trim_incDense hs hf
  · simp only [bind_assoc]
    refine RRel.bind ((h.agree hs).inc (a := it.sparse) hf.sp.1 (hf.sp.mono (by omega))) fun x y _ _ hxy => ?_
    obtain ⟨rfl, hx⟩ := hxy
    simp only [pure_ok]
    rw [ok_bind, ok_bind]
    dsimp only
    have hf' : Fine ts s { it with sparse := x } := ⟨hf.d, hx⟩
    split
    · exact ⟨rfl, hf'⟩
    · exact h.trim_incDense hs hf'

/-- `--` does the same on both filters. -/
theorem FRep.trim_dec (h : FRep cfg ts sw s f) (hs : Env.strict = false) (hroot : ∀ t ∈ ts, ¬ [0] <+: t)
    {it : Iter} (hf : Fine ts s it) : RRel (FineR ts s) (it.dec f.trim) (it.dec f) := by
  unfold Iter.dec
  split
  · exact ⟨rfl, hf⟩
  unfold Iter.decrementSparse
  split
  · rw [ok_bind, ok_bind]
    exact h.trim_decDense hs hroot hf
  · simp only [bind_assoc]
    refine RRel.bind ((h.agree hs).dec (a := it.sparse) hf.sp) fun x y _ _ hxy => ?_
    obtain ⟨rfl, hx⟩ := hxy
    simp only [pure_ok]
    rw [ok_bind, ok_bind]
    dsimp only
    have hf' : Fine ts s { it with sparse := x } := ⟨hf.d, hx⟩
    split
    · exact ⟨rfl, hf'⟩
    · exact h.trim_decDense hs hroot hf'

omit [Env] in
theorem InR_zero {n : Nat} {a : SIter} (e : a.keyLen = 0) : Agree.InR n a.keyLen a := by
  rw [e]; exact ⟨Nat.zero_le _, fun i p hi => by cases hi⟩

theorem FRep.trim_first (h : FRep cfg ts sw s f) (hs : Env.strict = false) (hroot : ∀ t ∈ ts, ¬ [0] <+: t) :
    RRel (FineI ts s) f.trim.moveToFirst f.moveToFirst := by
  obtain ⟨d, d', t, e, e', hl, hd⟩ := h.dfirstRoot hs hroot
  have hs1 := h.s1
  unfold Filter.moveToFirst
  rw [trim_dense, if_pos (by rw [h.dense.height]; omega), if_pos (by rw [h.dense.height]; omega)]
  simp only [Iter.new, trim_dense]
  rw [e, ok_bind, ok_bind, e', ok_bind, ok_bind, hd.left]
  rcases Nat.lt_or_ge s t.length with h3 | h3
  · rw [decide_eq_false (by omega)]
    unfold Iter.passToSparse
    refine RRel.bind (h.trim_left hs hd hl.1 h3 (a := SIter.new f.sparse) (InR_zero rfl)) fun x y _ _ hxy => ?_
    obtain ⟨rfl, hx⟩ := hxy
    exact RRel.pure ⟨rfl, .leaf t hl.1 hd.toDAt, hx⟩
  · rw [decide_eq_true h3]; exact RRel.pure ⟨rfl, .leaf t hl.1 hd.toDAt, InR_zero rfl⟩

theorem FRep.trim_last (h : FRep cfg ts sw s f) (hs : Env.strict = false) (hroot : ∀ t ∈ ts, ¬ [0] <+: t) :
    RRel (FineI ts s) f.trim.moveToLast f.moveToLast := by
  obtain ⟨d, d', t, e, e', hl, hd⟩ := h.dlastRoot hroot
  have hs1 := h.s1
  unfold Filter.moveToLast
  rw [trim_dense, if_pos (by rw [h.dense.height]; omega), if_pos (by rw [h.dense.height]; omega)]
  simp only [Iter.new, trim_dense]
  rw [e, ok_bind, ok_bind, e', ok_bind, ok_bind, hd.right]
  rcases Nat.lt_or_ge s t.length with h3 | h3
  · rw [decide_eq_false (by omega)]
    unfold Iter.passToSparse
    refine RRel.bind (h.trim_right hs hd hl.1 h3 (a := SIter.new f.sparse) (InR_zero rfl)) fun x y _ _ hxy => ?_
    obtain ⟨rfl, hx⟩ := hxy
    exact RRel.pure ⟨rfl, .leaf t hl.1 hd.toDAt, hx⟩
  · rw [decide_eq_true h3]; exact RRel.pure ⟨rfl, .leaf t hl.1 hd.toDAt, InR_zero rfl⟩

/-- The search of `key` never looks for a missing byte in the last node, unless that node ends the label array in a known
way. -/
def NotLast (ts : List Str) (s : Nat) (key : Key) : Prop :=
  ∀ x b A, snodes ts s = A ++ [x] → x ++ [b + 1] <+: w key → ex ts (x ++ [b + 1]) = false →
    ¬ Overrun ts s x ∧ ex ts (x ++ [0]) = false

/-- The sparse half of a seek. -/
theorem FRep.trim_sseek (h : FRep cfg ts sw s f) (hs : Env.strict = false) {key : Key} (hsafe : NotLast ts s key) (incl : Bool)
    (hks : s ≤ key.length) (hi : isInt ts ((syms key).take s) = true) {a : SIter} (ha : a.keyLen = 0)
    (hst : a.startNode = num ts ((syms key).take s)) :
    RRel (fun x y => x = y ∧ Agree.InR (sitems ts s).length x.2.keyLen x.2)
      (f.trim.sparse.moveToKeyGreaterThan key incl a) (f.sparse.moveToKeyGreaterThan key incl a) := by
  have hxl : ((syms key).take s).length = s := by simp; omega
  obtain ⟨A, C, hA, hn⟩ := h.snode hi (by omega)
  unfold LoudsSparse.moveToKeyGreaterThan
  rw [hst, h.sfirst hA hn, h.trim.sfirst hA hn, ok_bind, ok_bind, trim_sparse]
  show RRel _ (LoudsSparse.seekLoop (f.sparse.lab f.sparse.labels.trim) key incl (List.drop f.sparse.startLevel key) f.sparse.startLevel
    _ _) _
  rw [h.sparse.start]
  exact (h.agree hs).seekLoop key incl _ _ _
    (h.way hs (T := True) key (fun x b A g1 g2 g3 => ⟨(hsafe x b A g1 g2 g3).1, fun _ => (hsafe x b A g1 g2 g3).2⟩)
      _ s hks rfl le_rfl hi hA) (InR_zero ha) fun _ q hq => by rw [hst] at hq; exact h.start_first hi (by omega) hq

/-- The dense half of a seek leaves an iterator both filters go on with alike. -/
theorem FRep.dseekFine (h : FRep cfg ts sw s f) (hs : Env.strict = false) (hroot : ∀ t ∈ ts, ¬ [0] <+: t)
    (key : Key) (hne : key ≠ [] ∨ Env.ndebug = true) (incl : Bool) {it : Iter} (hcl : Clean ts s it) :
    ∃ fp d, f.dense.moveToKeyGreaterThan key incl it.dense = .ok (fp, d) ∧ DFine ts s d ∧
      (d.valid = false ∨ d.isComplete = true ∨ (d.searchComplete = true ∧ ∃ t ∈ ts, s < t.length ∧ DLeft ts s d t) ∨
        (d.searchComplete = false ∧ s ≤ key.length ∧ isInt ts ((syms key).take s) = true ∧ d.sendOut = num ts ((syms key).take s))) := by
  obtain ⟨fp, d, ed, hd⟩ := h.dseek hs hroot key hne incl s 0 (by omega) (by omega) (by simpa using root_int h.wf)
    (it := it.dense) (by simpa using hcl.d) (by simp [DPath]) hcl.pre
  rw [List.take_zero, num_root h.wf] at ed
  refine ⟨fp, d, by unfold LoudsDense.moveToKeyGreaterThan; rw [h.dense.height, ed], ?_⟩
  rcases hd with ⟨rfl, p, hpast, hpl, hr⟩ | ⟨rfl, p, hp, hpw, hpl, hpc, ha⟩ | ⟨rfl, hks, hi, hno, t, hl, h1, h2⟩ |
    ⟨rfl, hks, hi, hon, hpath, hpre, hv, hsc, hsend⟩
  · rcases hr with ⟨h1, h2⟩ | ⟨t, h1, h2⟩
    · exact ⟨.off h2, Or.inl h2⟩
    · refine ⟨.leaf t h1.1 h2.toDAt, ?_⟩
      rcases Nat.lt_or_ge s t.length with h3 | h3
      · exact Or.inr (Or.inr (Or.inl ⟨h2.srch, t, h1.1, h3, h2⟩))
      · exact Or.inr (Or.inl (by rw [h2.complete, decide_eq_true h3]))
  · exact ⟨.leaf p hp ha, Or.inr (Or.inl (by rw [ha.complete, decide_eq_true hpl]))⟩
  · rcases Nat.lt_or_ge s t.length with h3 | h3
    · have hst := h2 h3
      have hl' : (t.take s).length = s := by simp; omega
      refine ⟨.on (t.take s) ?_ hst.on
        (dpath_take h.wf hl.1 (List.take_prefix _ _) (le_of_eq hl') (not_zero_take h.wf hl.1 h3)) hst.pre
        (ex_iff.2 ⟨t, hl.1, List.take_prefix _ _⟩), Or.inr (Or.inl hst.complete)⟩
      rw [← List.length_pos_iff, hl']; exact h.s1
    · exact ⟨.leaf t hl.1 (h1 h3), Or.inr (Or.inl (by rw [(h1 h3).complete, decide_eq_true h3]))⟩
  · have hxl : ((syms key).take s).length = s := by simp; omega
    refine ⟨.on _ ?_ hon hpath hpre (ex_of_int hi), Or.inr (Or.inr (Or.inr ⟨hsc, hks, hi, hsend⟩))⟩
    rw [← List.length_pos_iff, hxl]; exact h.s1

/-- A seek does the same on both filters, if it does not search for a missing byte in the last node. -/
theorem FRep.trim_seek (h : FRep cfg ts sw s f) (hs : Env.strict = false) (hroot : ∀ t ∈ ts, ¬ [0] <+: t)
    {key : Key} (hne : key ≠ [] ∨ Env.ndebug = true) (incl : Bool) (hsafe : NotLast ts s key) :
    RRel (FineI ts s) (f.trim.moveToKeyGreaterThan key incl) (f.moveToKeyGreaterThan key incl) := by
  obtain ⟨fp, d, ed, hd, hr⟩ := h.dseekFine hs hroot key hne incl (h.newClean)
  unfold Filter.moveToKeyGreaterThan
  dsimp only
  change RRel _ (f.dense.moveToKeyGreaterThan key incl (Iter.new f).dense >>= _) _
  rw [ed, ok_bind, ok_bind]
  dsimp only
  have hz : Agree.InR (sitems ts s).length (Iter.new f).sparse.keyLen (Iter.new f).sparse := InR_zero rfl
  cases hv : d.valid
  · exact RRel.pure ⟨rfl, hd, hz⟩
  cases hc : d.isComplete
  · simp only [Bool.not_true, Bool.false_eq_true, if_false]
    rcases hr with hr | hr | ⟨h1, t, h2, h3, h4⟩ | ⟨h1, h2, h3, h4⟩
    · rw [hr] at hv; cases hv
    · rw [hr] at hc; cases hc
    · rw [h1, h4.left, decide_eq_false (by omega)]
      simp only [Bool.not_true, Bool.false_eq_true, if_false, Bool.not_false, if_true]
      refine RRel.bind (h.trim_left hs h4 h2 h3 hz) fun x y _ _ hxy => ?_
      obtain ⟨rfl, hx⟩ := hxy
      exact RRel.pure ⟨rfl, hd, hx⟩
    · rw [h1]
      simp only [Bool.not_false, if_true]
      refine RRel.bind (h.trim_sseek hs hsafe incl h2 h3 (a := { (Iter.new f).sparse with startNode := d.sendOut }) rfl h4)
        fun x y _ _ hxy => ?_
      obtain ⟨rfl, hx⟩ := hxy
      obtain ⟨fp, a⟩ := x
      dsimp only at hx ⊢
      have hf' : Fine ts s ⟨d, a, fp⟩ := ⟨hd, hx⟩
      cases a.valid
      · simp only [Bool.not_false, if_true]
        refine RRel.bind (h.trim_incDense hs hf') fun x y _ _ hxy => ?_
        obtain ⟨rfl, hx⟩ := hxy
        exact RRel.pure ⟨rfl, hx⟩
      · exact RRel.pure ⟨rfl, hf'⟩
  · exact RRel.pure ⟨rfl, hd, hz⟩

theorem FRep.trim_rangeSeek (h : FRep cfg ts sw s f) (hs : Env.strict = false) (hroot : ∀ t ∈ ts, ¬ [0] <+: t)
    {key : Key} (hne : key ≠ [] ∨ Env.ndebug = true) (incl : Bool) (hsafe : NotLast ts s key) :
    RRel (FineI ts s) (f.trim.rangeSeek (Iter.new f) key incl) (f.rangeSeek (Iter.new f) key incl) := by
  obtain ⟨fp, d, ed, hd, hr⟩ := h.dseekFine hs hroot key hne incl (h.newClean)
  unfold Filter.rangeSeek
  dsimp only
  change RRel _ (f.dense.moveToKeyGreaterThan key incl (Iter.new f).dense >>= _) (f.dense.moveToKeyGreaterThan key incl (Iter.new f).dense >>= _)
  rw [ed, ok_bind, ok_bind]
  dsimp only
  have hz : Agree.InR (sitems ts s).length (Iter.new f).sparse.keyLen (Iter.new f).sparse := InR_zero rfl
  cases hv : d.valid
  · exact RRel.pure ⟨rfl, hd, hz⟩
  cases hc : d.isComplete
  · simp only [Bool.not_true, Bool.false_eq_true, if_false, Bool.not_false, if_true]
    rcases hr with hr | hr | ⟨h1, t, h2, h3, h4⟩ | ⟨h1, h2, h3, h4⟩
    · rw [hr] at hv; cases hv
    · rw [hr] at hc; cases hc
    · rw [h1, h4.left, decide_eq_false (by omega)]
      simp only [Bool.not_true, Bool.false_eq_true, if_false, Bool.not_false, if_true]
      refine RRel.bind (h.trim_left hs h4 h2 h3 (a := (Iter.new f).clear.sparse) (InR_zero rfl)) fun x y _ _ hxy => ?_
      obtain ⟨rfl, hx⟩ := hxy
      exact RRel.pure ⟨rfl, hd, hx⟩
    · rw [h1]
      simp only [Bool.not_false, if_true]
      refine RRel.bind (h.trim_sseek hs hsafe incl h2 h3 (a := { (Iter.new f).clear.sparse with startNode := d.sendOut }) rfl h4)
        fun x y _ _ hxy => ?_
      obtain ⟨rfl, hx⟩ := hxy
      obtain ⟨fp, a⟩ := x
      dsimp only at hx ⊢
      have hf' : Fine ts s ⟨d, a, (Iter.new f).clear.couldBeFp⟩ := ⟨hd, hx⟩
      cases a.valid
      · simp only [Bool.not_false, if_true]
        refine RRel.bind (h.trim_incDense hs hf') fun x y _ _ hxy => ?_
        obtain ⟨rfl, hx⟩ := hxy
        exact RRel.pure ⟨rfl, hx⟩
      · exact RRel.pure ⟨rfl, hf'⟩
  · exact RRel.pure ⟨rfl, hd, hz⟩

theorem FRep.trim_less (h : FRep cfg ts sw s f) (hs : Env.strict = false) (hc : cfg.Ok) (hroot : ∀ t ∈ ts, ¬ [0] <+: t)
    {key : Key} (hne : key ≠ [] ∨ Env.ndebug = true) (incl : Bool) (hsafe : NotLast ts s key) :
    RRel (FineI ts s) (f.trim.moveToKeyLessThan key incl) (f.moveToKeyLessThan key incl) := by
  unfold Filter.moveToKeyLessThan
  refine RRel.bind (h.trim_seek hs hroot hne false hsafe) fun x y _ _ hxy => ?_
  obtain ⟨rfl, hx⟩ := hxy
  split
  · exact h.trim_last hs hroot
  split
  · refine RRel.bind (h.trim_dec hs hroot hx) fun x y _ _ hxy => ?_
    obtain ⟨rfl, hx⟩ := hxy
    obtain ⟨b, it⟩ := x
    dsimp only
    rw [h.trim_lookup hs hc key fun x b A g1 g2 g3 => (hsafe x b A g1 g2 g3).1]
    refine RRel.same _ fun b' _ => ?_
    cases b'
    · exact RRel.pure ⟨rfl, hx⟩
    · refine RRel.bind (h.trim_dec hs hroot hx) fun x y _ _ hxy => ?_
      obtain ⟨rfl, hx⟩ := hxy
      exact RRel.pure ⟨rfl, hx⟩
  · exact RRel.pure ⟨rfl, hx⟩

/-! ## Functions that do not read labels -/

theorem extendLoop_lab (t : LoudsSparse) (l : LabelVector) (n i : Nat) (ll rl : List Nat) (lp rp : Nat) (ld rd : Bool) :
    (t.lab l).extendLoop n i ll rl lp rp ld rd = t.extendLoop n i ll rl lp rp ld rd := by
  induction n generalizing i ll rl lp rp ld rd with
  | zero => rfl
  | succ n ih =>
    unfold LoudsSparse.extendLoop
    simp only [ih]
    rfl

theorem countLoop_lab (t : LoudsSparse) (l : LabelVector) (ori : Nat) (ll rl : List Nat) (n i c : Nat) :
    (t.lab l).countLoop ori ll rl n i c = t.countLoop ori ll rl n i c := by
  induction n generalizing i c with
  | zero => rfl
  | succ n ih =>
    unfold LoudsSparse.countLoop
    simp only [ih]

theorem trim_countIter (f : Filter) (a b : Iter) : f.trim.approxCountIter a b = f.approxCountIter a b := by
  unfold Filter.approxCountIter
  rw [trim_dense, trim_sparse]
  unfold LoudsSparse.approxCount LoudsSparse.extendPosList
  simp only [extendLoop_lab, countLoop_lab]
  rfl

end Surf
