import Verif.Proof.Compare

/-! # Sparse iterators whose path need not be a path of the trie

A seek that leaves its node in the search for the next label, and steps from there on, walk over positions that
belong to different nodes.  This file shows that they all come to an end without leaving the arrays of the iterator. -/

set_option linter.unusedSectionVars false
set_option autoImplicit false

namespace Surf
open Trie

variable [Env] {cfg : Config} {ts : List Str} {sw : Str → Word} {s : Nat} {f : Filter}

/-- Position `q` may stand at index `i` of the path: it is the position of a label at least as deep. -/
def RealPos (ts : List Str) (s i q : Nat) : Prop :=
  ∃ x c, ex ts (x ++ [c]) = true ∧ s + i ≤ x.length ∧ q = ipos ts s (x ++ [c])

/-- The first `m` entries of the path are positions of labels. -/
structure SPath (ts : List Str) (s : Nat) (it : SIter) (m : Nat) : Prop where
  kl : it.key.length = maxLen ts + 1 - s
  pl : it.pos.length = maxLen ts + 1 - s
  len : it.keyLen = m
  pos : ∀ i, i < m → ∃ q, it.pos[i]? = some q ∧ RealPos ts s i q

/-- What holds of the sparse part between two calls. -/
structure SL (ts : List Str) (s : Nat) (it : SIter) : Prop where
  kl : it.key.length = maxLen ts + 1 - s
  pl : it.pos.length = maxLen ts + 1 - s
  pos : ∀ i, i < it.keyLen → ∃ q, it.pos[i]? = some q ∧ (RealPos ts s i q ∨
    (i + 1 = it.keyLen ∧ it.valid = true ∧ q = (sitems ts s).length ∧ RealPos ts s i (q - 1) ∧ 0 < q))
  ne : it.valid = true → 0 < it.keyLen

omit [Env] in
theorem RealPos.lt {i q : Nat} (h : RealPos ts s i q) : q < (sitems ts s).length := by
  obtain ⟨x, c, he, hl, rfl⟩ := h
  exact ipos_lt (mem_sitems.2 ⟨by simp; omega, he⟩)

omit [Env] in
theorem RealPos.idx {i q : Nat} (h : RealPos ts s i q) : i < maxLen ts + 1 - s := by
  obtain ⟨x, c, he, hl, rfl⟩ := h
  have := ex_len he
  simp at this
  omega

omit [Env] in
theorem SPath.congr {a b : SIter} {m : Nat} (h : SPath ts s a m) (h1 : b.keyLen = a.keyLen) (h2 : b.key = a.key)
    (h3 : b.pos = a.pos) : SPath ts s b m :=
  ⟨by rw [h2]; exact h.kl, by rw [h3]; exact h.pl, by rw [h1]; exact h.len, by rw [h3]; exact h.pos⟩

omit [Env] in
theorem SPath.sl {it : SIter} {m : Nat} (h : SPath ts s it m) (hm : it.valid = true → 0 < m) : SL ts s it :=
  ⟨h.kl, h.pl, fun i hi => by
    obtain ⟨q, e, hq⟩ := h.pos i (by rw [← h.len]; exact hi)
    exact ⟨q, e, Or.inl hq⟩, fun hv => by rw [h.len]; exact hm hv⟩

omit [Env] in
theorem SL.path {it : SIter} (h : SL ts s it) (hv : it.valid = false) : SPath ts s it it.keyLen :=
  ⟨h.kl, h.pl, rfl, fun i hi => by
    obtain ⟨q, e, hq | hq⟩ := h.pos i hi
    · exact ⟨q, e, hq⟩
    · rw [hv] at hq; simp at hq⟩

omit [Env] in
theorem SOn.spath {it : SIter} {p : Str} (h : SOn ts s it p) (hs : s ≤ p.length) (he : ex ts p = true ∨ p.length = s) :
    SPath ts s it (p.length - s) := by
  refine ⟨h.kl, h.pl, h.len, fun i hi => ?_⟩
  have he : ex ts p = true := by rcases he with he | he; · exact he
                                 · omega
  have hlt : s + i < p.length := by omega
  have hx : p.take (s + i) ++ [p[s + i]] <+: p := by rw [List.take_append_getElem]; exact List.take_prefix _ _
  refine ⟨_, ?_, p.take (s + i), p[s + i], ?_, ?_, rfl⟩
  · have := h.pos _ _ hx (by simp; omega)
    simpa [Nat.min_eq_left (show s + i ≤ p.length by omega)] using this
  · obtain ⟨t, ht, hp⟩ := ex_iff.1 he
    exact ex_iff.2 ⟨t, ht, hx.trans hp⟩
  · simp; omega

/-- Reading a label never fails. -/
theorem labels_read (hs : Env.strict = false) (lv : LabelVector) (p : Nat) : ∃ l, lv.read p = .ok l :=
  rdB_lenient hs _ _

theorem readBit_some (hs : Env.strict = false) {b : Bitvector} {pos : Nat} (hp : pos ≤ b.numBits) :
    ∃ r, b.readBit pos = .ok r := by
  obtain ⟨w, e⟩ := rdW_lenient hs b.bits (pos / 64)
  unfold Bitvector.readBit
  rw [assertR_ok (by simpa using hp), ok_bind, e, ok_bind]
  exact ⟨_, rfl⟩

/-- Writing at an index of the path. -/
theorem spath_wr {it : SIter} {i q : Nat} {l : UInt8} (h : SPath ts s it i) (hi : i < maxLen ts + 1 - s) (hq : RealPos ts s i q) :
    SPath ts s { it with key := it.key.set i l, pos := it.pos.set i q, keyLen := i + 1 } (i + 1) := by
  refine ⟨by simp [h.kl], by simp [h.pl], rfl, fun j hj => ?_⟩
  dsimp only
  rcases Nat.lt_or_ge j i with h1 | h1
  · rw [List.getElem?_set_ne (by omega)]
    exact h.pos j h1
  · have : j = i := by omega
    subst this
    refine ⟨q, ?_, hq⟩
    rw [List.getElem?_set_self (by rw [h.pl]; exact hi)]

theorem spath_appendL {it : SIter} {m q : Nat} (h : SPath ts s it m) (l : UInt8) (hq : RealPos ts s m q) :
    ∃ it', it.appendL l q = .ok it' ∧ SPath ts s it' (m + 1) ∧ SameS it' it := by
  have hi := hq.idx
  have hl := h.len
  unfold SIter.appendL
  rw [hl, assertR_ok (by simp; have := h.kl; omega), ok_bind, wr_ok (by have := h.kl; omega), ok_bind,
    wr_ok (by have := h.pl; omega), ok_bind]
  exact ⟨_, rfl, spath_wr h hi hq, rfl, rfl, rfl⟩

theorem spath_append (hs : Env.strict = false) (t : LoudsSparse) {it : SIter} {m q : Nat} (h : SPath ts s it m) (hq : RealPos ts s m q) :
    ∃ it', it.append t q = .ok it' ∧ SPath ts s it' (m + 1) ∧ SameS it' it := by
  have hi := hq.idx
  have hl := h.len
  obtain ⟨l, el⟩ := labels_read hs t.labels q
  unfold SIter.append
  rw [hl, assertR_ok (by simp; have := h.kl; omega), ok_bind, el, ok_bind, wr_ok (by have := h.kl; omega), ok_bind,
    wr_ok (by have := h.pl; omega), ok_bind]
  exact ⟨_, rfl, spath_wr h hi hq, rfl, rfl, rfl⟩

theorem spath_set (hs : Env.strict = false) (t : LoudsSparse) {it : SIter} {i q : Nat} (h : SPath ts s { it with keyLen := i } i)
    (hq : RealPos ts s i q) :
    ∃ it', ({ it with keyLen := i + 1 } : SIter).set t i q = .ok it' ∧ SPath ts s it' (i + 1) ∧ SameS it' it := by
  have hi := hq.idx
  have hkl := h.kl
  have hpl := h.pl
  dsimp only at hkl hpl
  obtain ⟨l, el⟩ := labels_read hs t.labels q
  unfold SIter.set
  dsimp only
  rw [assertR_ok (by simp; omega), ok_bind, el, ok_bind, wr_ok (by omega), ok_bind, wr_ok (by omega), ok_bind]
  exact ⟨_, rfl, spath_wr (it := { it with keyLen := i }) h hi hq, rfl, rfl, rfl⟩

theorem FRep.finishLeafL (h : FRep cfg ts sw s f) (hs : Env.strict = false) {it : SIter} {m q : Nat} (hp : SPath ts s it (m + 1))
    (l : UInt8) (hq : q < (sitems ts s).length) :
    ∃ it', it.finishLeaf f.sparse l q = .ok it' ∧ SPath ts s it' (m + 1) ∧ it'.valid = true ∧ it'.startNode = it.startNode := by
  have hnb := h.louds_len
  have hsl := h.sitems_le
  unfold SIter.finishLeaf
  by_cases hl : l = kTerminator
  · rw [if_pos hl]
    unfold LoudsSparse.isEndofNode
    split
    · rw [ok_bind]
      exact ⟨_, rfl, hp.congr rfl rfl rfl, rfl, rfl⟩
    · rw [add32_eq (by omega)]
      obtain ⟨r, e⟩ := readBit_some hs (b := f.sparse.loudsBits.toBitvector) (pos := q + 1) (by omega)
      rw [e, ok_bind]
      exact ⟨_, rfl, hp.congr rfl rfl rfl, rfl, rfl⟩
  · rw [if_neg hl]
    exact ⟨_, rfl, hp.congr rfl rfl rfl, rfl, rfl⟩

theorem FRep.leftLoopL (h : FRep cfg ts sw s f) (hs : Env.strict = false) (n : Nat) {m : Nat} {x : Str} {c : Nat} {it : SIter}
    (hp : SPath ts s it (m + 1)) (hx : s + m ≤ x.length) (hi : isInt ts (x ++ [c]) = true) (hn : maxLen ts < x.length + 1 + n) :
    ∃ it' m', it.leftLoop f.sparse n (ipos ts s (x ++ [c])) = .ok it' ∧ SPath ts s it' (m' + 1) ∧ it'.valid = true ∧
      it'.startNode = it.startNode := by
  induction n generalizing x c it m with
  | zero =>
    have := int_length_lt hi
    simp at this; omega
  | succ n ih =>
    unfold SIter.leftLoop
    rw [h.schildNum' (by omega) hi, ok_bind]
    obtain ⟨d, hd, hmin⟩ := exists_first h.wf hi
    have hs' : s ≤ (x ++ [c]).length := by simp; omega
    rw [h.sfirst' hs' hd hmin, ok_bind, h.sread hs' hd, ok_bind, h.schild' hs' hd, ok_bind]
    obtain ⟨it1, e1, hp1, hsame⟩ := spath_appendL hp (labB d) (q := ipos ts s (x ++ [c] ++ [d]))
      ⟨x ++ [c], d, hd, by simp; omega, rfl⟩
    rw [e1, ok_bind]
    by_cases hic : isInt ts (x ++ [c] ++ [d]) = true
    · rw [hic]
      simp only [Bool.not_true, Bool.false_eq_true, if_false]
      obtain ⟨it2, m', e2, g1, g2, g3⟩ := ih hp1 (by simp; omega) hic (by simp; omega)
      exact ⟨it2, m', e2, g1, g2, by rw [g3, hsame.2.1]⟩
    · have hicf : isInt ts (x ++ [c] ++ [d]) = false := by simpa using hic
      rw [hicf]
      simp only [Bool.not_false, if_true]
      obtain ⟨it2, e2, g1, g2, g3⟩ := h.finishLeafL hs hp1 (labB d) (ipos_lt (mem_sitems.2 ⟨by simp; omega, hd⟩))
      exact ⟨it2, m + 1, e2, g1, g2, by rw [g3, hsame.2.1]⟩

theorem FRep.rightLoopL (h : FRep cfg ts sw s f) (hs : Env.strict = false) (n : Nat) {m : Nat} {x : Str} {c : Nat} {it : SIter}
    (hp : SPath ts s it (m + 1)) (hx : s + m ≤ x.length) (hi : isInt ts (x ++ [c]) = true) (hn : maxLen ts < x.length + 1 + n) :
    ∃ it' m', it.rightLoop f.sparse n (ipos ts s (x ++ [c])) = .ok it' ∧ SPath ts s it' (m' + 1) ∧ it'.valid = true ∧
      it'.startNode = it.startNode := by
  induction n generalizing x c it m with
  | zero =>
    have := int_length_lt hi
    simp at this; omega
  | succ n ih =>
    unfold SIter.rightLoop
    rw [h.schildNum' (by omega) hi, ok_bind]
    obtain ⟨d, hd, hmax⟩ := exists_last h.wf hi
    have hs' : s ≤ (x ++ [c]).length := by simp; omega
    rw [h.slast hs' hd hmax, ok_bind, h.sread hs' hd, ok_bind, h.schild' hs' hd, ok_bind]
    obtain ⟨it1, e1, hp1, hsame⟩ := spath_appendL hp (labB d) (q := ipos ts s (x ++ [c] ++ [d]))
      ⟨x ++ [c], d, hd, by simp; omega, rfl⟩
    rw [e1, ok_bind]
    by_cases hic : isInt ts (x ++ [c] ++ [d]) = true
    · rw [hic]
      simp only [Bool.not_true, Bool.false_eq_true, if_false]
      obtain ⟨it2, m', e2, g1, g2, g3⟩ := ih hp1 (by simp; omega) hic (by simp; omega)
      exact ⟨it2, m', e2, g1, g2, by rw [g3, hsame.2.1]⟩
    · have hicf : isInt ts (x ++ [c] ++ [d]) = false := by simpa using hic
      rw [hicf]
      simp only [Bool.not_false, if_true]
      obtain ⟨it2, e2, g1, g2, g3⟩ := h.finishLeafL hs hp1 (labB d) (ipos_lt (mem_sitems.2 ⟨by simp; omega, hd⟩))
      exact ⟨it2, m + 1, e2, g1, g2, by rw [g3, hsame.2.1]⟩

omit [Env] in
theorem rdP_some [Env] {a : List Nat} {i q : Nat} (h : a[i]? = some q) : rdP a i = .ok q := by
  unfold rdP; rw [h]

theorem FRep.leftL (h : FRep cfg ts sw s f) (hs : Env.strict = false) {m : Nat} {it : SIter} (hp : SPath ts s it (m + 1)) :
    ∃ it' m', it.moveToLeftMostKey f.sparse = .ok it' ∧ SPath ts s it' (m' + 1) ∧ it'.valid = true ∧
      it'.startNode = it.startNode := by
  obtain ⟨q, eq, x, c, he, hl, rfl⟩ := hp.pos m (by omega)
  have hlen := hp.len
  unfold SIter.moveToLeftMostKey
  rw [if_neg (by omega)]
  simp only [pure_bind]
  have e1 : it.keyLen - 1 = m := by omega
  rw [e1, rdP_some eq, ok_bind, h.sread (by omega) he, ok_bind, h.schild' (by omega) he, ok_bind]
  by_cases hic : isInt ts (x ++ [c]) = true
  · rw [hic]
    simp only [Bool.not_true, Bool.false_eq_true, if_false]
    refine h.leftLoopL hs _ hp hl hic ?_
    rw [h.sparse.height]; omega
  · have hicf : isInt ts (x ++ [c]) = false := by simpa using hic
    rw [hicf]
    simp only [Bool.not_false, if_true]
    obtain ⟨it2, e2, g⟩ := h.finishLeafL hs hp (labB c) (ipos_lt (mem_sitems.2 ⟨by simp; omega, he⟩))
    exact ⟨it2, m, e2, g⟩

theorem FRep.rightL (h : FRep cfg ts sw s f) (hs : Env.strict = false) {m : Nat} {it : SIter} (hp : SPath ts s it (m + 1)) :
    ∃ it' m', it.moveToRightMostKey f.sparse = .ok it' ∧ SPath ts s it' (m' + 1) ∧ it'.valid = true ∧
      it'.startNode = it.startNode := by
  obtain ⟨q, eq, x, c, he, hl, rfl⟩ := hp.pos m (by omega)
  have hlen := hp.len
  unfold SIter.moveToRightMostKey
  rw [if_neg (by omega)]
  simp only [pure_bind]
  have e1 : it.keyLen - 1 = m := by omega
  rw [e1, rdP_some eq, ok_bind, h.sread (by omega) he, ok_bind, h.schild' (by omega) he, ok_bind]
  by_cases hic : isInt ts (x ++ [c]) = true
  · rw [hic]
    simp only [Bool.not_true, Bool.false_eq_true, if_false]
    refine h.rightLoopL hs _ hp hl hic ?_
    rw [h.sparse.height]; omega
  · have hicf : isInt ts (x ++ [c]) = false := by simpa using hic
    rw [hicf]
    simp only [Bool.not_false, if_true]
    obtain ⟨it2, e2, g⟩ := h.finishLeafL hs hp (labB c) (ipos_lt (mem_sitems.2 ⟨by simp; omega, he⟩))
    exact ⟨it2, m, e2, g⟩

/-- Entering the sparse part from the left, with any path left behind by an exhausted iterator. -/
theorem FRep.enterL (h : FRep cfg ts sw s f) (hs : Env.strict = false) {x : Str} {it : SIter} (hsl : SL ts s it) (hv : it.valid = false)
    (hx : isInt ts x = true) (hxs : x.length = s) (hst : it.startNode = num ts x) :
    ∃ it', it.moveToLeftMostKey f.sparse = .ok it' ∧ SL ts s it' ∧ it'.valid = true := by
  have hp := hsl.path hv
  cases hk : it.keyLen with
  | succ m =>
    rw [hk] at hp
    obtain ⟨it', m', e, g1, g2, -⟩ := h.leftL hs hp
    exact ⟨it', e, g1.sl fun _ => by omega, g2⟩
  | zero =>
    rw [hk] at hp
    obtain ⟨c, hc, hmin⟩ := exists_first h.wf hx
    obtain ⟨it1, e1, hp1, hsame⟩ := spath_appendL hp (labB c) (q := ipos ts s (x ++ [c])) ⟨x, c, hc, by omega, rfl⟩
    obtain ⟨it2, m', e2, g1, g2, -⟩ := h.leftL hs hp1
    refine ⟨it2, ?_, g1.sl fun _ => by omega, g2⟩
    rw [← e2]
    have hl1 := hp1.len
    unfold SIter.moveToLeftMostKey
    rw [if_pos hk, if_neg (by omega), hst, h.sfirst' (le_of_eq hxs.symm) hc hmin, ok_bind,
      h.sread (le_of_eq hxs.symm) hc, ok_bind, e1]
    rfl

theorem FRep.enterR (h : FRep cfg ts sw s f) (hs : Env.strict = false) {x : Str} {it : SIter} (hsl : SL ts s it) (hv : it.valid = false)
    (hx : isInt ts x = true) (hxs : x.length = s) (hst : it.startNode = num ts x) :
    ∃ it', it.moveToRightMostKey f.sparse = .ok it' ∧ SL ts s it' ∧ it'.valid = true := by
  have hp := hsl.path hv
  cases hk : it.keyLen with
  | succ m =>
    rw [hk] at hp
    obtain ⟨it', m', e, g1, g2, -⟩ := h.rightL hs hp
    exact ⟨it', e, g1.sl fun _ => by omega, g2⟩
  | zero =>
    rw [hk] at hp
    obtain ⟨c0, hc0, hmin⟩ := exists_first h.wf hx
    obtain ⟨c, hc, hmax⟩ := exists_last h.wf hx
    obtain ⟨it1, e1, hp1, hsame⟩ := spath_appendL hp (labB c) (q := ipos ts s (x ++ [c])) ⟨x, c, hc, by omega, rfl⟩
    obtain ⟨it2, m', e2, g1, g2, -⟩ := h.rightL hs hp1
    refine ⟨it2, ?_, g1.sl fun _ => by omega, g2⟩
    rw [← e2]
    have hl1 := hp1.len
    unfold SIter.moveToRightMostKey
    rw [if_pos hk, if_neg (by omega), hst, h.sfirst' (le_of_eq hxs.symm) hc0 hmin, ok_bind,
      h.slast (le_of_eq hxs.symm) hc hmax, ok_bind, h.sread (le_of_eq hxs.symm) hc, ok_bind, e1]
    rfl

/-! ## Steps -/

theorem FRep.incLoopL (h : FRep cfg ts sw s f) (hs : Env.strict = false) (n : Nat) {it : SIter}
    (hp : SPath ts s { it with keyLen := n } n) {q : Nat} (eq : it.pos[n]? = some q)
    (hq : RealPos ts s n q ∨ ((sitems ts s).length ≤ q ∧ q + 1 < M32)) :
    ∃ it', it.incLoop f.sparse (n + 1) = .ok it' ∧ SL ts s it' := by
  induction n generalizing q with
  | zero =>
    have hnb := h.louds_len
    have hsl := h.sitems_le
    have hq32 : q + 1 < M32 := by
      rcases hq with hq | hq
      · have := hq.lt; omega
      · exact hq.2
    unfold SIter.incLoop
    rw [rdP_some eq, ok_bind]
    dsimp only
    rw [add32_eq hq32]
    have hoff : SL ts s { it with keyLen := 0, valid := false } :=
      ⟨hp.kl, hp.pl, fun i hi => absurd hi (by simp), fun hv => by simp at hv⟩
    by_cases hge : q + 1 ≥ f.sparse.loudsBits.numBits
    · rw [if_pos hge]
      exact ⟨_, rfl, hoff⟩
    · rw [if_neg hge]
      rcases hq with ⟨x, c, he, hl, rfl⟩ | hq
      · rcases h.snext (by omega) he with ⟨c', h1, h2, h3, h4, h5, h6⟩ | ⟨h1, h2 | h2⟩
        · rw [h6, ok_bind]
          simp only [Bool.false_eq_true, if_false]
          obtain ⟨it1, e1, hp1, hsame⟩ := spath_set hs f.sparse hp (q := ipos ts s (x ++ [c']))
            ⟨x, c', h2, hl, rfl⟩
          rw [h4] at e1
          rw [e1, ok_bind]
          obtain ⟨it2, m', e2, g1, g2, -⟩ := h.leftL hs hp1
          exact ⟨it2, e2, g1.sl fun _ => by omega⟩
        · omega
        · rw [h2.2, ok_bind]
          exact ⟨_, rfl, hoff⟩
      · omega
  | succ n ih =>
    have hnb := h.louds_len
    have hsl := h.sitems_le
    have hq32 : q + 1 < M32 := by
      rcases hq with hq | hq
      · have := hq.lt; omega
      · exact hq.2
    obtain ⟨q', eq', hq'⟩ := hp.pos n (by omega)
    obtain ⟨it', e', hr⟩ := ih (q := q') ⟨hp.kl, hp.pl, rfl, fun i hi => hp.pos i (by omega)⟩ eq' (Or.inl hq')
    unfold SIter.incLoop
    rw [rdP_some eq, ok_bind]
    dsimp only
    rw [add32_eq hq32]
    by_cases hge : q + 1 ≥ f.sparse.loudsBits.numBits
    · rw [if_pos hge]
      exact ⟨_, e', hr⟩
    · rw [if_neg hge]
      rcases hq with ⟨x, c, he, hl, rfl⟩ | hq
      · rcases h.snext (by omega) he with ⟨c', h1, h2, h3, h4, h5, h6⟩ | ⟨h1, h2 | h2⟩
        · rw [h6, ok_bind]
          simp only [Bool.false_eq_true, if_false]
          obtain ⟨it1, e1, hp1, hsame⟩ := spath_set hs f.sparse hp (q := ipos ts s (x ++ [c']))
            ⟨x, c', h2, hl, rfl⟩
          rw [h4] at e1
          rw [e1, ok_bind]
          obtain ⟨it2, m', e2, g1, g2, -⟩ := h.leftL hs hp1
          exact ⟨it2, e2, g1.sl fun _ => by omega⟩
        · omega
        · rw [h2.2, ok_bind]
          exact ⟨_, e', hr⟩
      · omega

theorem FRep.decLoopL (h : FRep cfg ts sw s f) (hs : Env.strict = false) (n : Nat) {it : SIter}
    (hp : SPath ts s { it with keyLen := n } n) {q : Nat} (eq : it.pos[n]? = some q)
    (hq : RealPos ts s n q ∨ (q = (sitems ts s).length ∧ RealPos ts s n (q - 1) ∧ 0 < q)) :
    ∃ it', it.decLoop f.sparse (n + 1) = .ok it' ∧ SL ts s it' := by
  induction n generalizing q with
  | zero =>
    have hnb := h.louds_len
    have hsl := h.sitems_le
    have hoff : SL ts s { it with keyLen := 0, valid := false } :=
      ⟨hp.kl, hp.pl, fun i hi => absurd hi (by simp), fun hv => by simp at hv⟩
    unfold SIter.decLoop
    rw [rdP_some eq, ok_bind]
    have key : ∃ st, f.sparse.loudsBits.readBit q = .ok st ∧ (st = false → RealPos ts s 0 (q - 1) ∧ 0 < q ∧ q ≤ (sitems ts s).length) := by
      rcases hq with ⟨x, c, he, hl, rfl⟩ | ⟨rfl, hq, h0⟩
      · have hil := ipos_lt (s := s) (mem_sitems.2 ⟨show s < (x ++ [c]).length by simp; omega, he⟩)
        rcases h.sprev (by omega) he with ⟨c', h1, h2, h3, h4, h6⟩ | ⟨h1, h2⟩
        · exact ⟨false, h6, fun _ => ⟨⟨x, c', h2, hl, by omega⟩, by omega, by omega⟩⟩
        · exact ⟨true, h2, fun hc => by cases hc⟩
      · obtain ⟨r, e⟩ := readBit_some hs (b := f.sparse.loudsBits.toBitvector) (pos := (sitems ts s).length) (by omega)
        exact ⟨r, e, fun _ => ⟨hq, h0, le_rfl⟩⟩
    obtain ⟨st, es, hst⟩ := key
    rw [es, ok_bind]
    cases st
    · obtain ⟨hr, h0, hle⟩ := hst rfl
      simp only [Bool.false_eq_true, if_false]
      obtain ⟨it1, e1, hp1, hsame⟩ := spath_set hs f.sparse hp hr
      rw [sub32_eq (by omega) (by omega), e1, ok_bind]
      obtain ⟨it2, m', e2, g1, g2, -⟩ := h.rightL hs hp1
      exact ⟨it2, e2, g1.sl fun _ => by omega⟩
    · exact ⟨_, rfl, hoff⟩
  | succ n ih =>
    have hnb := h.louds_len
    have hsl := h.sitems_le
    obtain ⟨q', eq', hq'⟩ := hp.pos n (by omega)
    obtain ⟨it', e', hr'⟩ := ih (q := q') ⟨hp.kl, hp.pl, rfl, fun i hi => hp.pos i (by omega)⟩ eq' (Or.inl hq')
    unfold SIter.decLoop
    rw [rdP_some eq, ok_bind]
    have key : ∃ st, f.sparse.loudsBits.readBit q = .ok st ∧
        (st = false → RealPos ts s (n + 1) (q - 1) ∧ 0 < q ∧ q ≤ (sitems ts s).length) := by
      rcases hq with ⟨x, c, he, hl, rfl⟩ | ⟨rfl, hq, h0⟩
      · have hil := ipos_lt (s := s) (mem_sitems.2 ⟨show s < (x ++ [c]).length by simp; omega, he⟩)
        rcases h.sprev (by omega) he with ⟨c', h1, h2, h3, h4, h6⟩ | ⟨h1, h2⟩
        · exact ⟨false, h6, fun _ => ⟨⟨x, c', h2, hl, by omega⟩, by omega, by omega⟩⟩
        · exact ⟨true, h2, fun hc => by cases hc⟩
      · obtain ⟨r, e⟩ := readBit_some hs (b := f.sparse.loudsBits.toBitvector) (pos := (sitems ts s).length) (by omega)
        exact ⟨r, e, fun _ => ⟨hq, h0, le_rfl⟩⟩
    obtain ⟨st, es, hst⟩ := key
    rw [es, ok_bind]
    cases st
    · obtain ⟨hr, h0, hle⟩ := hst rfl
      simp only [Bool.false_eq_true, if_false]
      obtain ⟨it1, e1, hp1, hsame⟩ := spath_set hs f.sparse hp hr
      rw [sub32_eq (by omega) (by omega), e1, ok_bind]
      obtain ⟨it2, m', e2, g1, g2, -⟩ := h.rightL hs hp1
      exact ⟨it2, e2, g1.sl fun _ => by omega⟩
    · exact ⟨_, e', hr'⟩

theorem FRep.incL (h : FRep cfg ts sw s f) (hs : Env.strict = false) {it : SIter} (hsl : SL ts s it) (h0 : 0 < it.keyLen) :
    ∃ it', it.inc f.sparse = .ok it' ∧ SL ts s it' := by
  obtain ⟨n, hn⟩ : ∃ n, it.keyLen = n + 1 := ⟨it.keyLen - 1, by omega⟩
  have hsi := h.sitems_le
  obtain ⟨q, eq, hq⟩ := hsl.pos n (by omega)
  unfold SIter.inc
  rw [assertR_ok (by simp; omega), ok_bind, hn]
  refine h.incLoopL hs n (it := { it with atTerm := false, keyLen := n + 1 }) ⟨hsl.kl, hsl.pl, rfl, fun i hi => ?_⟩ eq ?_
  · obtain ⟨q', e', hq' | hq'⟩ := hsl.pos i (by omega)
    · exact ⟨q', e', hq'⟩
    · omega
  · rcases hq with hq | ⟨-, -, hq, -, -⟩
    · exact Or.inl hq
    · exact Or.inr ⟨by omega, by omega⟩

theorem FRep.decL (h : FRep cfg ts sw s f) (hs : Env.strict = false) {it : SIter} (hsl : SL ts s it) (h0 : 0 < it.keyLen) :
    ∃ it', it.dec f.sparse = .ok it' ∧ SL ts s it' := by
  obtain ⟨n, hn⟩ : ∃ n, it.keyLen = n + 1 := ⟨it.keyLen - 1, by omega⟩
  have hsi := h.sitems_le
  obtain ⟨q, eq, hq⟩ := hsl.pos n (by omega)
  have hpath : ∀ i, i < n → ∃ q, it.pos[i]? = some q ∧ RealPos ts s i q := by
    intro i hi
    obtain ⟨q', e', hq' | hq'⟩ := hsl.pos i (by omega)
    · exact ⟨q', e', hq'⟩
    · omega
  unfold SIter.dec
  rw [assertR_ok (by simp; omega), ok_bind]
  dsimp only
  rw [hn, Nat.add_sub_cancel, rdP_some eq, ok_bind]
  by_cases hq0 : q = 0
  · rw [if_pos hq0]
    refine ⟨_, rfl, hsl.kl, hsl.pl, fun i hi => ?_, fun hv => by simp at hv⟩
    dsimp only at hi ⊢
    rcases Nat.lt_or_ge i n with h1 | h1
    · obtain ⟨q', e', hq'⟩ := hpath i h1
      exact ⟨q', e', Or.inl hq'⟩
    · have : i = n := by omega
      subst this
      refine ⟨q, eq, Or.inl ?_⟩
      rcases hq with hq | hq
      · exact hq
      · omega
  · rw [if_neg hq0]
    refine h.decLoopL hs n (it := { it with atTerm := false, keyLen := n + 1 }) ⟨hsl.kl, hsl.pl, rfl, hpath⟩ eq ?_
    rcases hq with hq | ⟨-, -, hq⟩
    · exact Or.inl hq
    · exact Or.inr hq


/-! ## Searching beyond the end of a node -/

theorem LabelVector.linGT_res (hs : Env.strict = false) (lv : LabelVector) (t : UInt8) (pos left i : Nat) :
    ∃ fd q, LabelVector.linearGTFrom lv t pos left i = .ok (fd, q) ∧ (fd = false → q = pos) ∧
      (fd = true → pos + i ≤ q ∧ q < pos + i + left ∧ t < labAt lv.labels q) := by
  induction left generalizing i with
  | zero => exact ⟨false, pos, rfl, fun _ => rfl, fun hc => by cases hc⟩
  | succ left ih =>
    rw [LabelVector.linearGTFrom, rdB_labAt hs, ok_bind]
    by_cases hl : labAt lv.labels (pos + i) > t
    · rw [if_pos hl]
      exact ⟨true, pos + i, rfl, (fun hc => by cases hc), fun _ => ⟨le_rfl, by omega, hl⟩⟩
    · rw [if_neg hl]
      obtain ⟨fd, q, e, h1, h2⟩ := ih (i + 1)
      refine ⟨fd, q, e, h1, fun hf => ?_⟩
      obtain ⟨g1, g2, g3⟩ := h2 hf
      exact ⟨by omega, by omega, g3⟩

theorem LabelVector.binGT_res (hs : Env.strict = false) (lv : LabelVector) (t : UInt8) (pos len fuel l r : Nat) (hhalf : pos + len ≤ 2147483648)
    (hpl : pos ≤ l) (hlr : l ≤ r) (hr : r ≤ pos + len) (hf : r - l < fuel) (hlab : r < pos + len → t < labAt lv.labels r) :
    ∃ fd q, LabelVector.binGTLoop lv t pos len fuel l r = .ok (fd, q) ∧ (fd = false → q = pos) ∧
      (fd = true → pos ≤ q ∧ q < pos + len ∧ (t < labAt lv.labels q ∨ (pos < q ∧ labAt lv.labels (q - 1) = t))) := by
  induction fuel generalizing l r with
  | zero => omega
  | succ fuel ih =>
    rw [LabelVector.binGTLoop]
    by_cases h1 : l < r
    · rw [if_pos h1]
      obtain ⟨m, hm, hma, hmb⟩ : ∃ m, (l + r) / 2 = m ∧ l ≤ m ∧ m < r := ⟨(l + r) / 2, rfl, by omega, by omega⟩
      dsimp only
      rw [add32, M32_eq, Nat.mod_eq_of_lt (by omega : l + r < 4294967296), hm, rdB_labAt hs, ok_bind]
      by_cases h2 : t < labAt lv.labels m
      · rw [if_pos h2]
        exact ih l m hpl hma (by omega) (by omega) fun _ => h2
      · rw [if_neg h2]
        by_cases h3 : t = labAt lv.labels m
        · rw [if_pos h3]
          by_cases h4 : m < pos + len - 1
          · rw [if_pos h4]
            exact ⟨true, m + 1, rfl, (fun hc => by cases hc), fun _ => ⟨by omega, by omega, Or.inr ⟨by omega, h3.symm⟩⟩⟩
          · rw [if_neg h4]
            exact ⟨false, pos, rfl, fun _ => rfl, fun hc => by cases hc⟩
        · rw [if_neg h3]
          exact ih (m + 1) r (by omega) (by omega) hr (by omega) hlab
    · rw [if_neg h1]
      have hlr' : l = r := by omega
      subst hlr'
      by_cases h4 : l < pos + len
      · rw [if_pos h4]
        exact ⟨true, l, rfl, (fun hc => by cases hc), fun _ => ⟨hpl, h4, Or.inl (hlab h4)⟩⟩
      · rw [if_neg h4]
        exact ⟨false, pos, rfl, fun _ => rfl, fun hc => by cases hc⟩

/-- What a search for the next label can return, whatever the labels are. -/
theorem LabelVector.searchGT_res (hs : Env.strict = false) (lv : LabelVector) (t : UInt8) (pos len : Nat) (hhalf : pos + len ≤ 2147483648) :
    ∃ fd q, lv.searchGreaterThan t pos len = .ok (fd, q) ∧ (fd = false → q = pos ∨ q = pos + 1) ∧
      (fd = true → pos ≤ q ∧ q < pos + len ∧ (t < labAt lv.labels q ∨ (pos < q ∧ labAt lv.labels (q - 1) = t))) := by
  obtain ⟨p, l, hsk, hp1, hp2, hpl⟩ : ∃ p l, LabelVector.skipped (labAt lv.labels) pos len = (p, l) ∧ pos ≤ p ∧ p ≤ pos + 1 ∧
      p + l = pos + len := by
    unfold LabelVector.skipped
    split
    · exact ⟨pos + 1, len - 1, rfl, by omega, by omega, by omega⟩
    · exact ⟨pos, len, rfl, by omega, by omega, by omega⟩
  unfold LabelVector.searchGreaterThan
  rw [LabelVector.skipTerm_ok hs, hsk, ok_bind]
  dsimp only
  by_cases h3 : l < 3
  · rw [if_pos h3]
    unfold LabelVector.linearSearchGreaterThan
    obtain ⟨fd, q, e, h1, h2⟩ := LabelVector.linGT_res hs lv t p l 0
    refine ⟨fd, q, e, fun hf => ?_, fun hf => ?_⟩
    · have := h1 hf; omega
    · obtain ⟨g1, g2, g3⟩ := h2 hf
      exact ⟨by omega, by omega, Or.inl g3⟩
  · rw [if_neg h3]
    unfold LabelVector.binarySearchGreaterThan
    obtain ⟨fd, q, e, h1, h2⟩ := LabelVector.binGT_res hs lv t p l LabelVector.binFuel p (p + l) (by omega) (by omega) (by omega) (by omega)
      (by rw [LabelVector.binFuel_eq]; omega) (by omega)
    refine ⟨fd, q, e, fun hf => ?_, fun hf => ?_⟩
    · have := h1 hf; omega
    · obtain ⟨g1, g2, g3⟩ := h2 hf
      refine ⟨by omega, by omega, ?_⟩
      rcases g3 with g3 | ⟨g3, g4⟩
      · exact Or.inl g3
      · exact Or.inr ⟨by omega, g4⟩

/-- A failed search leaves the position behind the terminator. -/
theorem LabelVector.search_false (hs : Env.strict = false) {lv : LabelVector} {t : UInt8} {pos len p : Nat}
    (h : lv.search t pos len = .ok (false, p)) : p = (LabelVector.skipped (labAt lv.labels) pos len).1 := by
  unfold LabelVector.search at h
  rw [LabelVector.skipTerm_ok hs, ok_bind] at h
  generalize LabelVector.skipped (labAt lv.labels) pos len = pl at *
  obtain ⟨P, l⟩ := pl
  dsimp only at h ⊢
  split at h
  · obtain ⟨res, e, hsp⟩ := LabelVector.linearSearch_ok hs lv t P l
    rw [e] at h
    cases h
    rcases hsp with ⟨i, -, -, -, hc⟩ | ⟨-, hc⟩
    · simp at hc
    · simpa using hc
  · split at h
    · have key : ∀ fuel a b, LabelVector.binLoop lv t P fuel a b = .ok (false, p) → p = P := by
        intro fuel
        induction fuel with
        | zero => intro a b h; cases h
        | succ fuel ih =>
          intro a b h
          rw [LabelVector.binLoop] at h
          split at h
          · dsimp only at h
            rw [rdB_labAt hs, ok_bind] at h
            split at h
            · exact ih _ _ h
            · split at h
              · cases h
              · exact ih _ _ h
          · cases h; rfl
      exact key _ _ _ h
    · obtain ⟨res, e, hsp⟩ := LabelVector.simdSearch_ok hs lv t P l
      rw [e] at h
      cases h
      rcases hsp with ⟨i, -, -, -, hc⟩ | ⟨-, hc⟩
      · simp at hc
      · simpa using hc

/-- A position from a node on belongs to a label at least as deep as that node. -/
theorem FRep.realPos (h : FRep cfg ts sw s f) {A C : List Str} {x : Str} (hA : snodes ts s = A ++ x :: C) {q : Nat}
    (h1 : (before ts A x 0).length ≤ q) (h2 : q < (sitems ts s).length) : RealPos ts s (x.length - s) q := by
  have hxm : x ∈ snodes ts s := by rw [hA]; simp
  have hxs : s ≤ x.length := (mem_nodesR.1 hxm).1
  have he := sitems_eq hA h.wf
  have hq : (sitems ts s)[q] ∈ kidItems ts x ++ C.flatMap (kidItems ts) := by
    rw [List.getElem_of_eq he, List.getElem_append_right h1]
    exact List.getElem_mem _
  have hmem : (sitems ts s)[q] ∈ sitems ts s := List.getElem_mem _
  obtain ⟨g1, g2⟩ := mem_sitems.1 hmem
  have hip : ipos ts s (sitems ts s)[q] = q :=
    List.Nodup.idxOf_getElem (items_nodup h.wf.sorted s (maxLen ts + 1)) q h2
  generalize (sitems ts s)[q] = p at *
  obtain ⟨y, hy, hpy⟩ : ∃ y ∈ x :: C, p ∈ kidItems ts y := by
    rcases List.mem_append.1 hq with hq | hq
    · exact ⟨x, by simp, hq⟩
    · obtain ⟨y, hy, hp⟩ := List.mem_flatMap.1 hq
      exact ⟨y, by simp [hy], hp⟩
  have hlen : x.length ≤ y.length := by
    rcases List.mem_cons.1 hy with rfl | hy
    · exact le_rfl
    · have := nodesR_len ts s (maxLen ts + 1)
      change (snodes ts s).Pairwise _ at this
      rw [hA, List.pairwise_append] at this
      exact (List.pairwise_cons.1 this.2.1).1 y hy
  obtain ⟨g3, g4⟩ := List.mem_filter.1 hpy
  have hpl := (mem_lev.1 g3).1
  obtain ⟨z, c, rfl⟩ : ∃ z c, p = z ++ [c] := by
    rcases List.eq_nil_or_concat p with rfl | ⟨z, c, rfl⟩
    · simp at hpl
    · exact ⟨z, c, by simp⟩
  exact ⟨z, c, g2, by simp at hpl; omega, hip.symm⟩

/-- The search for the next label after a failed search: it stays among the labels, or gives up. -/
theorem FRep.sgapL (h : FRep cfg ts sw s f) (hs : Env.strict = false) (hpad : PadOk f ts s) {A C : List Str} {x : Str}
    (hA : snodes ts s = A ++ x :: C) (b : UInt8) (he : ex ts (x ++ [b.toNat + 1]) = false) {n P : Nat}
    (en : f.sparse.nodeSize (before ts A x 0).length = .ok n)
    (ese : f.sparse.labels.search b (before ts A x 0).length n = .ok (false, P)) :
    ∃ fd q, f.sparse.labels.searchGreaterThan b P n = .ok (fd, q) ∧
      (fd = true → RealPos ts s (x.length - s) q) ∧
      (fd = false → (RealPos ts s (x.length - s) (q + n - 1) ∨ ((sitems ts s).length ≤ q + n - 1 ∧ q + n - 1 + 1 < M32))) := by
  obtain ⟨n', en', hne⟩ := h.snodeSize_exact hA
  rw [en] at en'
  cases en'
  have hn' : n = (kidItems ts x).length ∨ (C = [] ∧ (kidItems ts x).length < n) := by
    rcases hne with hne | ⟨⟨h1, h2⟩, h3, h4, h5, h6⟩
    · exact Or.inl hne.1
    · exact Or.inr ⟨h1, h4⟩
  have hsk := h.sskip hA hn'
  have hP := LabelVector.search_false hs ese
  rw [hsk] at hP
  dsimp only at hP
  have hkid : 0 < (kidItems ts x).length := List.length_pos_of_ne_nil (kidItems_ne_nil (x_int hA))
  have htop := before_top (A := A) (x := x) h.wf
  have htot := congrArg List.length (sitems_eq hA h.wf)
  rw [List.length_append, List.length_append] at htot
  have hw := h.louds_words
  have hsl := h.sitems_le
  have hm1 := before_mono (ts := ts) (A := A) (x := x) (show 0 ≤ 1 by omega)
  have hP1' : (before ts A x 1).length ≤ (before ts A x 0).length + 1 := by
    rw [before_succ, List.length_append]; split <;> simp
  obtain ⟨n2, found, pos2, en2, ese2, -, hnot⟩ := h.ssearch_exact hs hA b
  rw [en] at en2
  cases en2
  rw [ese] at ese2
  cases ese2
  have hnopad : C = [] → Overrun ts s x → ∀ j, (sitems ts s).length ≤ j → j < 64 * f.sparse.loudsBits.bits.length →
      labAt f.sparse.labels.labels j ≠ b := by
    rcases hnot he with g | g
    · exact g.2
    · exact absurd g.1 (by simp)
  -- the labels of the node are not the byte
  have hreal : ∀ j, P ≤ j → j < (before ts A x 0).length + (kidItems ts x).length → labAt f.sparse.labels.labels j ≠ b := by
    intro j h1 h2 hc
    obtain ⟨c, c1, c2, c3, c4⟩ := kid_at (ts := ts) (A := A) (x := x) (a := 1) (b := j) (by omega) 257 (by omega)
    rw [← c4, h.klabel hA c3] at hc
    obtain ⟨c, rfl⟩ := Nat.exists_eq_succ_of_ne_zero (show c ≠ 0 by omega)
    rw [lab_succ] at hc
    have := congrArg UInt8.toNat hc
    rw [UInt8.toNat_ofNat'] at this
    have hcb : c = b.toNat := by omega
    subst hcb
    rw [he] at c3; cases c3
  have hzero : labAt f.sparse.labels.labels (sitems ts s).length = 0 := by
    obtain ⟨rest, hr⟩ := h.sparse.labels
    change f.sparse.labels.labels = (sitems ts s).map lab ++ 0 :: rest at hr
    rw [hr, labAt_lt (by simp)]
    simp [List.getD]
  obtain ⟨fd, q, e, g1, g2⟩ := LabelVector.searchGT_res hs f.sparse.labels b P n (by
    have := h.sitems_half
    rcases hne with hne | ⟨⟨rfl, -⟩, -, -, -, h6⟩
    · omega
    · simp only [List.flatMap_nil, List.length_nil] at htot
      omega)
  set P0 := (before ts A x 0).length with hP0
  refine ⟨fd, q, e, fun hf => ?_, fun hf => ?_⟩
  · obtain ⟨k1, k2, k3⟩ := g2 hf
    refine h.realPos hA (by omega) ?_
    by_contra hge
    have hge : (sitems ts s).length ≤ q := by omega
    have hC : C.flatMap (kidItems ts) = [] := by
      rw [← List.length_eq_zero_iff]
      by_contra hc
      rcases hne with hne | ⟨⟨rfl, -⟩, -⟩
      · omega
      · simp at hc
    rw [hC, List.length_nil, Nat.add_zero] at htot
    rcases hne with ⟨hn, hov⟩ | ⟨⟨rfl, hov⟩, a1, a2, a3, a4⟩
    · have hq : q = (sitems ts s).length := by omega
      rcases k3 with k3 | ⟨k3, k4⟩
      · rw [hq, hzero, UInt8.lt_iff_toNat_lt] at k3
        simp at k3
      · exact hreal (q - 1) (by omega) (by omega) k4
    · rcases k3 with k3 | ⟨k3, k4⟩
      · rw [hpad.zero hge (by omega) a3, UInt8.lt_iff_toNat_lt] at k3
        simp at k3
      · by_cases hqn : q - 1 < (sitems ts s).length
        · exact hreal (q - 1) (by omega) (by omega) k4
        · exact hnopad rfl hov (q - 1) (by omega) (by omega) k4
  · have hq := g1 hf
    rcases Nat.lt_or_ge (q + n - 1) (sitems ts s).length with hlt | hge
    · refine Or.inl (h.realPos hA ?_ hlt)
      rcases hn' with hn' | hn' <;> omega
    · refine Or.inr ⟨hge, ?_⟩
      have hM : M32 = 4294967296 := M32_eq
      rcases hne with ⟨hn, hov⟩ | ⟨⟨rfl, hov⟩, a1, a2, a3, a4⟩ <;> omega

/-! ## The sparse part of a seek -/

theorem popLoop_some (hs : Env.strict = false) (bits : List Word) (x n : Nat) : ∃ r, popLoop bits x n = .ok r := by
  induction n with
  | zero => exact ⟨0, rfl⟩
  | succ n ih =>
    obtain ⟨r, e⟩ := ih
    obtain ⟨v, e2⟩ := rdW_lenient hs bits (x + n)
    rw [popLoop, e, ok_bind, e2, ok_bind]
    exact ⟨_, rfl⟩

theorem rank_some (hs : Env.strict = false) {b : BitvectorRank} {pos : Nat} (hp : pos ≤ b.numBits) : ∃ r, b.rank pos = .ok r := by
  unfold BitvectorRank.rank
  rw [assertR_ok (by simpa using hp), ok_bind]
  dsimp only
  have h1 : ∀ a i, ∃ r, rdP a i = .ok r := fun a i => by
    unfold rdP
    split
    · exact ⟨_, rfl⟩
    · simp [hs]
  obtain ⟨r1, e1⟩ := h1 b.rankLut (pos / b.basicBlockSize)
  rw [e1, ok_bind]
  unfold popcountLinear
  rw [if_neg (by omega)]
  dsimp only
  obtain ⟨r2, e2⟩ := popLoop_some hs b.bits (pos / b.basicBlockSize * (b.basicBlockSize / 64))
    (((pos &&& (b.basicBlockSize - 1)) + 1 - 1) / 64)
  obtain ⟨r3, e3⟩ := rdW_lenient hs b.bits (pos / b.basicBlockSize * (b.basicBlockSize / 64) +
    ((pos &&& (b.basicBlockSize - 1)) + 1 - 1) / 64)
  rw [e2, ok_bind, e3, ok_bind]
  exact ⟨_, rfl⟩

theorem shrW_some (hs : Env.strict = false) (v : Word) (n : Nat) : ∃ r, shrW v n = .ok r := by
  unfold shrW
  split
  · exact ⟨_, rfl⟩
  · simp [hs]

theorem compare_some (hs : Env.strict = false) (b : BitvectorSuffix) (i : Nat) (key : Key) (level : Nat) :
    ∃ c, b.compare i key level = .ok c := by
  unfold BitvectorSuffix.compare
  split
  · exact ⟨_, rfl⟩
  · have h1 : ∃ v, b.read i = .ok v := by
      unfold BitvectorSuffix.read
      split
      · exact ⟨_, rfl⟩
      · split
        · exact ⟨_, rfl⟩
        · dsimp only
          obtain ⟨v, e⟩ := rdW_lenient hs b.bits (mul32 i b.suffixLen / 64)
          obtain ⟨v2, e2⟩ := shrW_some hs (v <<< (mul32 i b.suffixLen % 64)) (sub32 64 b.suffixLen)
          rw [e, ok_bind, e2, ok_bind]
          split
          · obtain ⟨v3, e3⟩ := rdW_lenient hs b.bits (mul32 i b.suffixLen / 64 + 1)
            obtain ⟨v4, e4⟩ := shrW_some hs v3 (sub32 (sub32 64 (mul32 i b.suffixLen % 64)) b.suffixLen)
            rw [e3, ok_bind, e4, ok_bind]
            exact ⟨_, rfl⟩
          · exact ⟨_, rfl⟩
    obtain ⟨v, e⟩ := h1
    rw [e, ok_bind]
    dsimp only
    have h2 : ∃ v', BitvectorSuffix.extractRealSuffix v b.realLen = .ok v' := by
      unfold BitvectorSuffix.extractRealSuffix shlW
      split
      · exact ⟨_, rfl⟩
      · rw [hs]; exact ⟨_, rfl⟩
    obtain ⟨v', e'⟩ := h2
    split
    · rw [e', ok_bind]
      split
      · exact ⟨_, rfl⟩
      · split
        · exact ⟨_, rfl⟩
        · split <;> exact ⟨_, rfl⟩
    · simp only [pure_bind]
      split
      · exact ⟨_, rfl⟩
      · split
        · exact ⟨_, rfl⟩
        · split <;> exact ⟨_, rfl⟩

theorem FRep.suffixPos_some (h : FRep cfg ts sw s f) (hs : Env.strict = false) {q : Nat} (hq : q ≤ (sitems ts s).length) :
    ∃ i, f.sparse.getSuffixPos q = .ok i := by
  have hn : f.sparse.childBits.numBits = (sitems ts s).length := by
    have hc := h.sparse.chl
    change f.sparse.childBits.Rep ((sitems ts s).map (isInt ts)) at hc
    have := hc.base.num
    simpa using this
  obtain ⟨r, e⟩ := rank_some hs (b := f.sparse.childBits) (pos := q) (by rw [hn]; exact hq)
  unfold LoudsSparse.getSuffixPos
  rw [e, ok_bind]
  exact ⟨_, rfl⟩

omit [Env] in
theorem SAt.sl {it : SIter} {t : Str} (ht : t ∈ ts) (h : SAt ts s it t) : SL ts s it := by
  have hl := h.lt
  refine (h.on.spath (by omega) (Or.inl (ex_mem ht))).sl fun _ => by omega

omit [Env] in
theorem SOff.sl {it : SIter} (h : SOff ts s it) : SL ts s it :=
  ⟨h.kl, h.pl, fun i hi => absurd hi (by rw [h.len]; simp), fun hv => by rw [h.valid] at hv; cases hv⟩

omit [Env] in
theorem SNext.sl {it : SIter} {p : Str} (h : SNext ts s p it) : SL ts s it := by
  rcases h with ⟨h, -⟩ | ⟨t, h1, -, h2⟩
  · exact h.sl
  · exact h2.sl h1.1

/-- Appending any position. -/
theorem append_any {it : SIter} {m : Nat} (h : SPath ts s it m) (hm : m < maxLen ts + 1 - s) (l : UInt8) (q : Nat) :
    ∃ it', it.appendL l q = .ok it' ∧ it'.keyLen = m + 1 ∧ it'.pos[m]? = some q ∧ SPath ts s { it' with keyLen := m } m ∧
      it'.key.length = maxLen ts + 1 - s ∧ it'.pos.length = maxLen ts + 1 - s ∧ SameS it' it := by
  have hl := h.len
  have hkl := h.kl
  have hpl := h.pl
  unfold SIter.appendL
  rw [hl, assertR_ok (by simp; omega), ok_bind, wr_ok (by omega), ok_bind, wr_ok (by omega), ok_bind]
  refine ⟨_, rfl, rfl, ?_, ⟨by simpa using hkl, by simpa using hpl, rfl, fun i hi => ?_⟩, by simpa using hkl, by simpa using hpl, rfl, rfl, rfl⟩
  · dsimp only
    rw [List.getElem?_set_self (by omega)]
  · dsimp only
    rw [List.getElem?_set_ne (by omega)]
    exact h.pos i hi

theorem append_eq (hs : Env.strict = false) (t : LoudsSparse) {it : SIter} (hk : it.keyLen < it.key.length) (q : Nat) :
    ∃ l, it.append t q = it.appendL l q := by
  obtain ⟨l, e⟩ := labels_read hs t.labels q
  refine ⟨l, ?_⟩
  unfold SIter.append SIter.appendL
  rw [assertR_ok (by simpa using hk), ok_bind, ok_bind, e, ok_bind]

theorem FRep.inc_any (h : FRep cfg ts sw s f) (hs : Env.strict = false) {it : SIter} {m q : Nat} (hk : it.keyLen = m + 1)
    (eq : it.pos[m]? = some q) (hp : SPath ts s { it with keyLen := m } m)
    (hq : RealPos ts s m q ∨ ((sitems ts s).length ≤ q ∧ q + 1 < M32)) :
    ∃ it', it.inc f.sparse = .ok it' ∧ SL ts s it' := by
  unfold SIter.inc
  rw [assertR_ok (by simp; omega), ok_bind, hk]
  exact h.incLoopL hs m (it := { it with atTerm := false, keyLen := m + 1 }) (hp.congr rfl rfl rfl) eq hq

/-- Moving on from a node in which the byte is missing. -/
theorem FRep.nextL (h : FRep cfg ts sw s f) (hs : Env.strict = false) (hpad : PadOk f ts s) {A C : List Str} {x : Str}
    (hA : snodes ts s = A ++ x :: C) (b : UInt8) (he : ex ts (x ++ [b.toNat + 1]) = false) {n P : Nat}
    (en : f.sparse.nodeSize (before ts A x 0).length = .ok n)
    (ese : f.sparse.labels.search b (before ts A x 0).length n = .ok (false, P))
    {it : SIter} (hp : SPath ts s it (x.length - s)) :
    ∃ it', f.sparse.moveToLeftInNextSubtrie P n b it = .ok it' ∧ SL ts s it' := by
  obtain ⟨fd, q, e, h1, h2⟩ := h.sgapL hs hpad hA b he en ese
  have hm : x.length - s < maxLen ts + 1 - s := by
    have := int_length_lt (x_int hA)
    have := (mem_nodesR.1 (show x ∈ snodes ts s by rw [hA]; simp)).1
    omega
  have hk : it.keyLen < it.key.length := by rw [hp.len, hp.kl]; exact hm
  unfold LoudsSparse.moveToLeftInNextSubtrie
  rw [e, ok_bind]
  dsimp only
  cases fd
  · simp only [Bool.not_false, if_true]
    obtain ⟨l, el⟩ := append_eq hs f.sparse hk (q + n - 1)
    obtain ⟨it1, e1, g1, g2, g3, -⟩ := append_any hp hm l (q + n - 1)
    rw [el, e1, ok_bind]
    exact h.inc_any hs g1 g2 g3 (h2 rfl)
  · simp only [Bool.not_true, Bool.false_eq_true, if_false]
    obtain ⟨it1, e1, hp1, -⟩ := spath_append hs f.sparse hp (h1 rfl)
    rw [e1, ok_bind]
    obtain ⟨it2, m', e2, g1, g2, -⟩ := h.leftL hs hp1
    exact ⟨it2, e2, g1.sl fun _ => by omega⟩

/-- The sparse part of a seek always comes to an end. -/
theorem FRep.sseekL (h : FRep cfg ts sw s f) (hs : Env.strict = false) (hpad : PadOk f ts s) (key : Key) (incl : Bool)
    (rest : Key) (l : Nat) (hl : l ≤ key.length) (hrest : rest = key.drop l) (hsl : s ≤ l)
    (hx : isInt ts ((syms key).take l) = true) {A C : List Str} (hA : snodes ts s = A ++ (syms key).take l :: C)
    {it : SIter} (hon : SOn ts s it ((syms key).take l)) (h0 : it.atTerm = false)
    (hst : it.startNode = num ts ((syms key).take s)) :
    ∃ fp it', f.sparse.seekLoop key incl rest l (before ts A ((syms key).take l) 0).length it = .ok (fp, it') ∧ SL ts s it' := by
  induction rest generalizing l A C it with
  | nil =>
    have hlk : l = key.length := by
      have := congrArg List.length hrest
      simp at this; omega
    obtain ⟨fp, it', e, hr⟩ := h.sseek hs hpad key incl (fun l' h1 h2 h3 h4 => by
        exfalso
        have : ex ts ((syms key).take (l' + 1)) = true := by
          obtain ⟨t, ht, hp⟩ := ex_iff.1 (ex_of_int hx)
          exact ex_iff.2 ⟨t, ht, (List.take_prefix_take_left (by omega)).trans hp⟩
        rw [this] at h4; cases h4) [] l hl hrest hsl hx hA hon h0 hst
    refine ⟨fp, it', e, ?_⟩
    rcases hr with ⟨-, p, -, -, hr⟩ | ⟨p, hp, -, -, hr, -⟩ | ⟨-, -, -, t, ht, hr⟩
    · exact SNext.sl hr
    · exact hr.sl hp
    · exact hr.sl ht.1
  | cons b rest ih =>
    have hlt : l < key.length := by
      have := congrArg List.length hrest
      simp at this; omega
    have hb : key.getD l 0 = b := by
      have := congrArg (fun r => r[0]?) hrest
      simp only [List.getElem?_cons_zero, List.getElem?_drop, Nat.add_zero] at this
      rw [List.getD, ← this]; rfl
    have hrest' : rest = key.drop (l + 1) := by
      have := congrArg List.tail hrest
      simpa using this
    obtain ⟨e1, e2⟩ := take_succ_w hlt
    rw [hb] at e1 e2
    have hxl : ((syms key).take l).length = l := by simp; omega
    have hpath := hon.spath (by omega) (Or.inl (ex_of_int hx))
    have hsi := h.sitems_le
    obtain ⟨n, found, pos, en, ese, hfound, hnot⟩ := h.ssearch_exact hs hA b
    rw [LoudsSparse.seekLoop, en, ok_bind, ese, ok_bind]
    dsimp only
    cases he : ex ts ((syms key).take l ++ [b.toNat + 1])
    · rcases hnot he with ⟨rfl, -⟩ | ⟨rfl, rfl, hov, h64, k1, k2, k3, k4, k5⟩
      · simp only [Bool.not_false, if_true]
        obtain ⟨it', e, hr⟩ := h.nextL hs hpad hA b he en ese hpath
        rw [e, ok_bind]
        exact ⟨_, _, rfl, hr⟩
      · -- a zero byte of the padding
        have hpos : pos = (sitems ts s).length := by
          by_contra hc
          have := k5 (sitems ts s).length le_rfl (by omega)
          rw [hpad.zero le_rfl (by omega) h64, ← k4, hpad.zero k1 k2 h64] at this
          exact this rfl
        subst hpos
        simp only [Bool.not_true, Bool.false_eq_true, if_false]
        have hm : ((syms key).take l).length - s < maxLen ts + 1 - s := by
          have := int_length_lt hx
          omega
        obtain ⟨it1, ea, g1, g2, g3, g4, g5, g6⟩ := append_any hpath hm b (sitems ts s).length
        have hch : f.sparse.childBits.readBit (sitems ts s).length = .ok false := by
          have hc := h.sparse.chl
          change f.sparse.childBits.Rep ((sitems ts s).map (isInt ts)) at hc
          have := Bitvector.readBit_end hc.base (by rw [List.length_map]; exact hov.1)
          rwa [List.length_map] at this
        rw [ea, ok_bind, hch, ok_bind]
        simp only [Bool.not_false, if_true]
        unfold LoudsSparse.compareSuffixGreaterThan
        obtain ⟨i, ei⟩ := h.suffixPos_some hs (q := (sitems ts s).length) le_rfl
        obtain ⟨c, ec⟩ := compare_some hs f.sparse.suffixes i key (l + 1)
        rw [ei, ok_bind, ec, ok_bind]
        by_cases hc : c ≠ kCouldBePositive ∧ c < 0
        · rw [if_pos hc]
          obtain ⟨it2, e4, hr⟩ := h.inc_any hs g1 g2 g3 (Or.inr ⟨le_rfl, by omega⟩)
          rw [e4, ok_bind]
          exact ⟨_, _, rfl, hr⟩
        · rw [if_neg hc]
          refine ⟨_, _, rfl, g4, g5, fun j hj => ?_, fun _ => by dsimp only; omega⟩
          dsimp only at hj ⊢
          rcases Nat.lt_or_ge j (((syms key).take l).length - s) with h1 | h1
          · obtain ⟨q, eq, hq⟩ := g3.pos j h1
            exact ⟨q, eq, Or.inl hq⟩
          · have hj' : j = ((syms key).take l).length - s := by omega
            subst hj'
            refine ⟨_, g2, Or.inr ⟨by omega, rfl, rfl, h.realPos hA ?_ (by omega), by omega⟩⟩
            have htot := congrArg List.length (sitems_eq hA h.wf)
            rw [List.length_append, List.length_append] at htot
            have hkid : 0 < (kidItems ts ((syms key).take l)).length :=
              List.length_pos_of_ne_nil (kidItems_ne_nil (x_int hA))
            omega
    · obtain ⟨rfl, rfl⟩ := hfound he
      have hmem := mem_sitems_kid hA he
      simp only [Bool.not_true, Bool.false_eq_true, if_false]
      obtain ⟨it1, ea, hon1, hsame⟩ := hon.appendL (by omega) he
      have ea' : it.appendL b (ipos ts s ((syms key).take l ++ [b.toNat + 1])) = .ok it1 := by
        rw [← ea]
        congr 1
        show b = UInt8.ofNat b.toNat
        simp
      rw [ea', ok_bind, h.schild hmem, ok_bind]
      cases hi : isInt ts ((syms key).take l ++ [b.toNat + 1])
      · simp only [Bool.not_false, if_true]
        unfold LoudsSparse.compareSuffixGreaterThan
        obtain ⟨i, ei⟩ := h.suffixPos_some hs (le_of_lt (ipos_lt hmem))
        obtain ⟨c, ec⟩ := compare_some hs f.sparse.suffixes i key (l + 1)
        rw [ei, ok_bind, ec, ok_bind]
        have hp1 := hon1.spath (by simp; omega) (Or.inl he)
        have hpos : 0 < ((syms key).take l ++ [b.toNat + 1]).length - s := by simp; omega
        by_cases hc : c ≠ kCouldBePositive ∧ c < 0
        · rw [if_pos hc]
          obtain ⟨it2, e4, hr⟩ := h.incL hs (hp1.sl fun _ => hpos) (by rw [hp1.len]; exact hpos)
          rw [e4, ok_bind]
          exact ⟨_, _, rfl, hr⟩
        · rw [if_neg hc]
          exact ⟨_, _, rfl, (SPath.congr hp1 rfl rfl rfl : SPath ts s { it1 with valid := true } _).sl fun _ => hpos⟩
      · simp only [Bool.not_true, Bool.false_eq_true, if_false]
        rw [h.schildNum hmem hi, ok_bind]
        have hi' : isInt ts ((syms key).take (l + 1)) = true := by rw [← e1]; exact hi
        obtain ⟨A', C', hA', hn'⟩ := h.snode hi' (by simp; omega)
        rw [e1, h.sfirst hA' hn', ok_bind]
        rw [e1] at hon1
        exact ih (l + 1) (by omega) hrest' (by omega) hi' hA' hon1 (by rw [hsame.2.2]; exact h0) (by rw [hsame.2.1]; exact hst)

/-! ## The whole iterator -/

/-- The dense part between two calls. -/
def DL (ts : List Str) (s : Nat) (d : DIter) : Prop :=
  d.valid = false ∨ ∃ t ∈ ts, DAt ts s d t ∨ (s < t.length ∧ DStuck ts s d t)

/-- What holds of an iterator after any seek and any steps. -/
structure IL (ts : List Str) (s : Nat) (it : Iter) : Prop where
  d : DL ts s it.dense
  sp : SL ts s it.sparse

omit [Env] in
theorem SL.start {it : SIter} (h : SL ts s it) (n : Nat) : SL ts s { it with startNode := n } := ⟨h.kl, h.pl, h.pos, h.ne⟩

omit [Env] in
theorem leaf_int (h : WF ts) {t : Str} (ht : t ∈ ts) (hs : s < t.length) : isInt ts (t.take s) = true ∧ (t.take s).length = s := by
  have hl : (t.take s).length = s := by simp; omega
  refine ⟨?_, hl⟩
  have hx : t.take s ++ [t[s]] <+: t := by rw [List.take_append_getElem]; exact List.take_prefix _ _
  exact int_of_ex_snoc (ex_iff.2 ⟨t, ht, hx⟩)

theorem FRep.dincL (h : FRep cfg ts sw s f) (hs : Env.strict = false) {d : DIter} (hd : DL ts s d) (hv : d.valid = true) :
    ∃ d', d.inc f.dense = .ok d' ∧ (d'.valid = false ∨ ∃ t ∈ ts, DLeft ts s d' t) := by
  rcases hd with hd | ⟨t, ht, hd | ⟨hl, hd⟩⟩
  · rw [hd] at hv; cases hv
  · obtain ⟨d', e, g⟩ := h.dincAt hs hd ht
    refine ⟨d', e, ?_⟩
    rcases g with ⟨-, g, -⟩ | ⟨t', g1, g2⟩
    · exact Or.inl g
    · exact Or.inr ⟨t', g1.1, g2⟩
  · have hl' : (t.take s).length = s := by simp; omega
    obtain ⟨d', e, g⟩ := h.dinc hs (by have := h.s1; rw [← List.length_pos_iff]; omega) hd.on
      (dpath_take h.wf ht (List.take_prefix _ _) (le_of_eq hl') (not_zero_take h.wf ht hl)) hd.pre
    refine ⟨d', e, ?_⟩
    rcases g with ⟨-, g, -⟩ | ⟨t', g1, g2⟩
    · exact Or.inl g
    · exact Or.inr ⟨t', g1.1, g2⟩

theorem FRep.ddecL (h : FRep cfg ts sw s f) (hroot : ∀ t ∈ ts, ¬ [0] <+: t) {d : DIter} (hd : DL ts s d) (hv : d.valid = true) :
    ∃ d', d.dec f.dense = .ok d' ∧ (d'.valid = false ∨ ∃ t ∈ ts, DRight ts s d' t) := by
  rcases hd with hd | ⟨t, ht, hd | ⟨hl, hd⟩⟩
  · rw [hd] at hv; cases hv
  · obtain ⟨d', e, g⟩ := h.ddecAt hroot hd ht
    refine ⟨d', e, ?_⟩
    rcases g with ⟨g, -⟩ | ⟨t', g1, g2⟩
    · exact Or.inl g
    · exact Or.inr ⟨t', g1.1, g2⟩
  · have hl' : (t.take s).length = s := by simp; omega
    obtain ⟨d', e, g⟩ := h.ddec (by have := h.s1; rw [← List.length_pos_iff]; omega) hd.on
      (dpath_take h.wf ht (List.take_prefix _ _) (le_of_eq hl') (not_zero_take h.wf ht hl)) hd.pre
      (ex_iff.2 ⟨t, ht, List.take_prefix _ _⟩)
    refine ⟨d', e, ?_⟩
    rcases g with ⟨g, -⟩ | ⟨t', g1, g2⟩
    · exact Or.inl g
    · exact Or.inr ⟨t', g1.1, g2⟩

theorem FRep.incDenseL (h : FRep cfg ts sw s f) (hs : Env.strict = false) {it : Iter} (hi : IL ts s it)
    (hsv : it.sparse.valid = false) : ∃ r it', it.incrementDense f = .ok (r, it') ∧ IL ts s it' := by
  unfold Iter.incrementDense
  cases hv : it.dense.valid
  · exact ⟨_, _, rfl, hi⟩
  · simp only [Bool.not_true, Bool.false_eq_true, if_false]
    obtain ⟨d', e, g⟩ := h.dincL hs hi.d hv
    rw [e, ok_bind]
    rcases g with g | ⟨t, ht, g⟩
    · rw [g]
      exact ⟨_, _, rfl, Or.inl g, hi.sp⟩
    · rw [g.valid, g.left]
      simp only [Bool.not_true, Bool.false_eq_true, if_false]
      rcases Nat.lt_or_ge s t.length with h3 | h3
      · rw [decide_eq_false (by omega)]
        simp only [Bool.false_eq_true, if_false]
        obtain ⟨k1, k2⟩ := leaf_int h.wf ht h3
        unfold Iter.passToSparse
        dsimp only
        obtain ⟨it', e', g1, -⟩ := h.enterL hs (it := { it.sparse with startNode := d'.sendOut }) (hi.sp.start _) hsv k1 k2 (g.send h3)
        rw [e', ok_bind]
        exact ⟨_, _, rfl, Or.inr ⟨t, ht, Or.inl g.toDAt⟩, g1⟩
      · rw [decide_eq_true h3]
        simp only [if_true]
        exact ⟨_, _, rfl, Or.inr ⟨t, ht, Or.inl g.toDAt⟩, hi.sp⟩

theorem FRep.decDenseL (h : FRep cfg ts sw s f) (hs : Env.strict = false) (hroot : ∀ t ∈ ts, ¬ [0] <+: t) {it : Iter} (hi : IL ts s it)
    (hsv : it.sparse.valid = false) : ∃ r it', it.decrementDense f = .ok (r, it') ∧ IL ts s it' := by
  unfold Iter.decrementDense
  cases hv : it.dense.valid
  · exact ⟨_, _, rfl, hi⟩
  · simp only [Bool.not_true, Bool.false_eq_true, if_false]
    obtain ⟨d', e, g⟩ := h.ddecL hroot hi.d hv
    rw [e, ok_bind]
    rcases g with g | ⟨t, ht, g⟩
    · rw [g]
      exact ⟨_, _, rfl, Or.inl g, hi.sp⟩
    · rw [g.valid, g.right]
      simp only [Bool.not_true, Bool.false_eq_true, if_false]
      rcases Nat.lt_or_ge s t.length with h3 | h3
      · rw [decide_eq_false (by omega)]
        simp only [Bool.false_eq_true, if_false]
        obtain ⟨k1, k2⟩ := leaf_int h.wf ht h3
        unfold Iter.passToSparse
        dsimp only
        obtain ⟨it', e', g1, -⟩ := h.enterR hs (it := { it.sparse with startNode := d'.sendOut }) (hi.sp.start _) hsv k1 k2 (g.send h3)
        rw [e', ok_bind]
        exact ⟨_, _, rfl, Or.inr ⟨t, ht, Or.inl g.toDAt⟩, g1⟩
      · rw [decide_eq_true h3]
        simp only [if_true]
        exact ⟨_, _, rfl, Or.inr ⟨t, ht, Or.inl g.toDAt⟩, hi.sp⟩

/-- `++` always comes to an end. -/
theorem FRep.stepInc (h : FRep cfg ts sw s f) (hs : Env.strict = false) {it : Iter} (hi : IL ts s it) :
    ∃ r it', it.inc f = .ok (r, it') ∧ IL ts s it' := by
  unfold Iter.inc
  cases it.isValid
  · exact ⟨_, _, rfl, hi⟩
  · simp only [Bool.not_true, Bool.false_eq_true, if_false]
    unfold Iter.incrementSparse
    cases hsv : it.sparse.valid
    · simp only [Bool.not_false, if_true]
      rw [ok_bind]
      exact h.incDenseL hs hi hsv
    · simp only [Bool.not_true, Bool.false_eq_true, if_false]
      obtain ⟨s', e, g⟩ := h.incL hs hi.sp (hi.sp.ne hsv)
      rw [e, ok_bind]
      dsimp only [pure, Except.pure]
      rw [ok_bind]
      dsimp only
      cases hv' : s'.valid
      · simp only [Bool.false_eq_true, if_false]
        exact h.incDenseL hs (it := { it with sparse := s' }) ⟨hi.d, g⟩ hv'
      · exact ⟨_, _, rfl, hi.d, g⟩

/-- `--` always comes to an end. -/
theorem FRep.stepDec (h : FRep cfg ts sw s f) (hs : Env.strict = false) (hroot : ∀ t ∈ ts, ¬ [0] <+: t) {it : Iter} (hi : IL ts s it) :
    ∃ r it', it.dec f = .ok (r, it') ∧ IL ts s it' := by
  unfold Iter.dec
  cases it.isValid
  · exact ⟨_, _, rfl, hi⟩
  · simp only [Bool.not_true, Bool.false_eq_true, if_false]
    unfold Iter.decrementSparse
    cases hsv : it.sparse.valid
    · simp only [Bool.not_false, if_true]
      rw [ok_bind]
      exact h.decDenseL hs hroot hi hsv
    · simp only [Bool.not_true, Bool.false_eq_true, if_false]
      obtain ⟨s', e, g⟩ := h.decL hs hi.sp (hi.sp.ne hsv)
      rw [e, ok_bind]
      dsimp only [pure, Except.pure]
      rw [ok_bind]
      dsimp only
      cases hv' : s'.valid
      · simp only [Bool.false_eq_true, if_false]
        exact h.decDenseL hs hroot (it := { it with sparse := s' }) ⟨hi.d, g⟩ hv'
      · exact ⟨_, _, rfl, hi.d, g⟩

/-- A seek always comes to an end. -/
theorem FRep.seekL (h : FRep cfg ts sw s f) (hs : Env.strict = false) (hpad : PadOk f ts s) (hroot : ∀ t ∈ ts, ¬ [0] <+: t)
    (key : Key) (hne : key ≠ [] ∨ Env.ndebug = true) (incl : Bool) {it : Iter} (hcl : Clean ts s it) :
    ∃ it', seekFrom f it key incl = .ok it' ∧ IL ts s it' := by
  obtain ⟨fp, d, ed, hd⟩ := h.dseek hs hroot key hne incl s 0 (by omega) (by omega) (by simpa using root_int h.wf)
    (it := it.dense) (by simpa using hcl.d) (by simp [DPath]) hcl.pre
  rw [List.take_zero, num_root h.wf] at ed
  have hsp := hcl.sp.sl
  unfold seekFrom LoudsDense.moveToKeyGreaterThan
  rw [h.dense.height, ed, ok_bind]
  dsimp only
  rcases hd with ⟨rfl, p, hpast, hpl, hr⟩ | ⟨rfl, p, hp, hpw, hpl, hpc, ha⟩ | ⟨rfl, hks, hi, hno, t, hl, h1, h2⟩ |
    ⟨rfl, hks, hi, hon, hpath, hpre, hv, hsc, hsend⟩
  · rcases hr with ⟨h1, h2⟩ | ⟨t, h1, h2⟩
    · rw [h2]
      exact ⟨_, rfl, Or.inl h2, hsp⟩
    · rw [h2.valid, h2.complete, h2.srch, h2.left]
      simp only [Bool.not_true, Bool.false_eq_true, if_false]
      rcases Nat.lt_or_ge s t.length with h3 | h3
      · rw [decide_eq_false (by omega)]
        simp only [Bool.false_eq_true, if_false, Bool.not_false, if_true]
        obtain ⟨k1, k2⟩ := leaf_int h.wf h1.1 h3
        unfold Iter.passToSparse
        dsimp only
        obtain ⟨it', e', g1, -⟩ := h.enterL hs (it := { it.sparse with startNode := d.sendOut }) (hsp.start _) hcl.sp.valid k1 k2
          (h2.send h3)
        rw [e', ok_bind]
        exact ⟨_, rfl, Or.inr ⟨t, h1.1, Or.inl h2.toDAt⟩, g1⟩
      · rw [decide_eq_true h3]
        simp only [if_true]
        exact ⟨_, rfl, Or.inr ⟨t, h1.1, Or.inl h2.toDAt⟩, hsp⟩
  · rw [ha.valid, ha.complete, decide_eq_true hpl]
    simp only [Bool.not_true, Bool.false_eq_true, if_false, if_true]
    exact ⟨_, rfl, Or.inr ⟨p, hp, Or.inl ha⟩, hsp⟩
  · rcases Nat.lt_or_ge s t.length with h3 | h3
    · have hst := h2 h3
      rw [hst.valid, hst.complete]
      simp only [Bool.not_true, Bool.false_eq_true, if_false, if_true]
      exact ⟨_, rfl, Or.inr ⟨t, hl.1, Or.inr ⟨h3, hst⟩⟩, hsp⟩
    · have ha := h1 h3
      rw [ha.valid, ha.complete, decide_eq_true h3]
      simp only [Bool.not_true, Bool.false_eq_true, if_false, if_true]
      exact ⟨_, rfl, Or.inr ⟨t, hl.1, Or.inl ha⟩, hsp⟩
  · have hxl : ((syms key).take s).length = s := by simp; omega
    have hcomp : d.isComplete = false := by unfold DIter.isComplete; rw [hsc]; rfl
    rw [hv, hcomp, hsc]
    simp only [Bool.not_true, Bool.false_eq_true, if_false, Bool.not_false, if_true]
    obtain ⟨A, C, hA, hn⟩ := h.snode hi (by omega)
    obtain ⟨fp, it', e, hr⟩ := h.sseekL hs hpad key incl _ s hks rfl le_rfl hi hA
      (it := { it.sparse with startNode := num ts ((syms key).take s) })
      (SOn.start hcl.sp.len hcl.sp.kl hcl.sp.pl hxl) hcl.sp.term rfl
    unfold Iter.passToSparse LoudsSparse.moveToKeyGreaterThan
    dsimp only
    rw [hsend, h.sfirst hA hn, ok_bind, h.sparse.start, e, ok_bind]
    dsimp only
    obtain ⟨c, hc, -⟩ := exists_first h.wf hi
    obtain ⟨t, ht, hp⟩ := ex_iff.1 hc
    have hlt : s < t.length := by
      have := hp.length_le
      simp at this; omega
    have hp' : (syms key).take s <+: t := (List.prefix_append _ _).trans hp
    have hdat : DAt ts s d t := by
      have htk : t.take s = (syms key).take s := by
        obtain ⟨r, rfl⟩ := hp'
        rw [List.take_append_of_le_length (by omega), List.take_of_length_le (by omega)]
      exact ⟨hv, by rw [hcomp, decide_eq_false (by omega)], by rw [hpre, decide_eq_false (by omega)],
        fun _ _ _ h4 => absurd h4 (by omega), fun _ _ h4 => absurd h4 (by omega), fun _ => by rw [htk]; exact hon⟩
    have hil : IL ts s { it with dense := d, sparse := it', couldBeFp := fp } := ⟨Or.inr ⟨t, ht, Or.inl hdat⟩, hr⟩
    cases hv' : it'.valid
    · simp only [Bool.not_false, if_true]
      obtain ⟨r, it2, e2, g⟩ := h.incDenseL hs hil hv'
      rw [e2, ok_bind]
      exact ⟨_, rfl, g⟩
    · simp only [Bool.not_true, Bool.false_eq_true, if_false]
      exact ⟨_, rfl, hil⟩

/-- Comparing with the right end of a range always gives a result. -/
theorem FRep.compareL (h : FRep cfg ts sw s f) (hs : Env.strict = false) {it : Iter} (hi : IL ts s it) (hv : it.isValid = true)
    (q : Key) (hq : q.length < 2 ^ 64) : ∃ c, it.compare f q = .ok c := by
  have hdv : it.dense.valid = true := by
    unfold Iter.isValid at hv
    simp only [Bool.and_eq_true] at hv
    exact hv.1
  have h1 := h.s1
  have h32 := h.h32
  have hsH := h.sH
  have hM : M32 = 4294967296 := M32_eq
  rcases hi.d with hd | ⟨t, ht, ha | ⟨hts, hst⟩⟩
  · rw [hd] at hdv; cases hdv
  · rcases Nat.lt_or_ge s t.length with hts | hts
    · have hz := not_zero_take h.wf ht hts
      have hon := ha.onS hts
      have hkey : it.dense.getKey = bytesOf (t.take s) := by
        unfold DIter.getKey
        rw [ha.valid, ha.pre, decide_eq_false (by omega)]
        simp only [Bool.not_true, Bool.false_eq_true, if_false]
        rw [hon.len, hon.key, bytesOf_nz hz]
      unfold Iter.compare DIter.compare
      rw [hv, assertR_ok rfl, ok_bind, ha.complete, ha.pre, decide_eq_false (show ¬ t.length ≤ s by omega),
        decide_eq_false (show ¬ (t.length ≤ s ∧ 0 ∈ t) by omega)]
      simp only [Bool.false_and, Bool.false_eq_true, if_false, Bool.false_or]
      rw [hkey]
      rcases strCompare_spec (bytesOf (t.take s)) q with ⟨e, hp⟩ | ⟨e, g1, g2⟩ | ⟨e, g1⟩
      · rw [if_neg (by simp [e]), e]
        simp only [pure_ok]
        rw [ok_bind]
        simp only [bne_self_eq_false, Bool.false_eq_true, if_false]
        have hql : s ≤ q.length := by
          have := hp.length_le
          rw [bytesOf_nz hz] at this
          simp at this; omega
        have hsv : it.sparse.valid = true := by
          unfold Iter.isValid at hv
          rw [ha.valid, ha.complete, decide_eq_false (show ¬ t.length ≤ s by omega)] at hv
          simpa using hv
        have hk0 := hi.sp.ne hsv
        obtain ⟨n, hn⟩ : ∃ n, it.sparse.keyLen = n + 1 := ⟨it.sparse.keyLen - 1, by omega⟩
        obtain ⟨p, ep, hp'⟩ := hi.sp.pos n (by omega)
        have hpn : p ≤ (sitems ts s).length := by
          rcases hp' with hp' | hp'
          · exact le_of_lt hp'.lt
          · omega
        have hn32 : n + 1 < M32 := by
          have hlt : n < it.sparse.pos.length := by
            by_contra hc
            rw [List.getElem?_eq_none (by omega)] at ep; cases ep
          rw [hi.sp.pl] at hlt
          omega
        unfold SIter.compare
        rw [hn, sub32_eq (by omega) (by omega), Nat.add_sub_cancel]
        split
        · exact ⟨_, rfl⟩
        · dsimp only
          unfold substrFrom
          rw [h.sparse.start, if_pos hql, ok_bind]
          split
          · exact ⟨_, rfl⟩
          · obtain ⟨i, ei⟩ := h.suffixPos_some hs hpn
            obtain ⟨c, ec⟩ := compare_some hs f.sparse.suffixes i (q.drop s) (n + 1)
            rw [rdP_some ep, ok_bind, ei, ok_bind, ec]
            exact ⟨_, rfl⟩
      · rw [if_pos (by omega)]
        simp only [pure_ok]
        rw [ok_bind, if_pos (by simp; omega)]
        exact ⟨_, rfl⟩
      · rw [if_pos (by omega)]
        simp only [pure_ok]
        rw [ok_bind, if_pos (by simp; omega)]
        exact ⟨_, rfl⟩
    · have hcomp : it.dense.isComplete = true := by rw [ha.complete, decide_eq_true hts]
      have hAt : At ts s { it with sparse := (Iter.new f).sparse } t :=
        ⟨ht, ha, fun h4 => absurd h4 (by omega), fun _ => h.newIdle t⟩
      obtain ⟨c, e, -⟩ := h.compareVal hs hAt q hq
      refine ⟨c, ?_⟩
      rw [← e]
      unfold Iter.compare
      rw [hv, hAt.isValid, hcomp]
      simp only [Bool.true_or, if_true]
  · unfold Iter.compare DIter.compare
    rw [hv, assertR_ok rfl, ok_bind, hst.complete, hst.pre, (hst.getKey h.wf ht hts).2]
    simp only [Bool.false_and, Bool.false_eq_true, if_false, Bool.true_or, if_true]
    split
    · exact ⟨_, rfl⟩
    · obtain ⟨x, c, hx⟩ : ∃ x c, t.take s = x ++ [c] := by
        rcases List.eq_nil_or_concat (t.take s) with hc | ⟨x, c, hc⟩
        · have := congrArg List.length hc
          rw [List.length_take, List.length_nil] at this
          omega
        · exact ⟨x, c, by simpa using hc⟩
      have hl : x.length + 1 = s := by
        have := congrArg List.length hx
        simp at this; omega
      have hz := not_zero_take h.wf ht hts
      rw [hx] at hz
      obtain ⟨b, rfl⟩ : ∃ b, c = b + 1 := Nat.exists_eq_succ_of_ne_zero fun hc => hz (by simp [hc])
      have hex : ex ts (x ++ [b + 1]) = true := ex_iff.2 ⟨t, ht, hx ▸ List.take_prefix _ _⟩
      have hb := sym_le h.wf hex
      have hon := hst.on
      rw [hx] at hon
      have hlen := hon.len
      simp only [List.length_append, List.length_singleton] at hlen
      have hsub : sub32 (x.length + 1) 1 = x.length := by rw [sub32_eq (by omega) (by omega)]; omega
      obtain ⟨A, C, e1, e2⟩ := h.dnode (int_of_ex_snoc hex) (by omega)
      obtain ⟨i, hi'⟩ : ∃ i, f.dense.getSuffixPos (256 * num ts x + b) false = .ok i := by
        have hk : (256 * A.length + b) / kFanout = A.length := by unfold kFanout; omega
        unfold LoudsDense.getSuffixPos
        dsimp only
        rw [← e2, h.drankL e1 (by omega), ok_bind, h.drankC e1 (by omega), ok_bind, hk, h.drankP e1 (b + 1), ok_bind]
        exact ⟨_, rfl⟩
      obtain ⟨c, ec⟩ := compare_some hs f.dense.suffixes i q it.dense.keyLen
      have hrd : rdP it.dense.pos (sub32 it.dense.keyLen 1) = .ok (256 * num ts x + b) := by
        rw [hlen, hsub]
        exact rdP_some (hon.pos x b (List.prefix_refl _))
      rw [hrd, ok_bind, hi', ok_bind, ec]
      exact ⟨_, rfl⟩

/-! ## Suffixes of such an iterator -/

theorem readReal_some (hs : Env.strict = false) (b : BitvectorSuffix) (i : Nat) : ∃ v, b.readReal i = .ok v := by
  have h1 : ∃ v, b.read i = .ok v := by
    unfold BitvectorSuffix.read
    split
    · exact ⟨_, rfl⟩
    · split
      · exact ⟨_, rfl⟩
      · dsimp only
        obtain ⟨v, e⟩ := rdW_lenient hs b.bits (mul32 i b.suffixLen / 64)
        obtain ⟨v2, e2⟩ := shrW_some hs (v <<< (mul32 i b.suffixLen % 64)) (sub32 64 b.suffixLen)
        rw [e, ok_bind, e2, ok_bind]
        split
        · obtain ⟨v3, e3⟩ := rdW_lenient hs b.bits (mul32 i b.suffixLen / 64 + 1)
          obtain ⟨v4, e4⟩ := shrW_some hs v3 (sub32 (sub32 64 (mul32 i b.suffixLen % 64)) b.suffixLen)
          rw [e3, ok_bind, e4, ok_bind]
          exact ⟨_, rfl⟩
        · exact ⟨_, rfl⟩
  obtain ⟨v, e⟩ := h1
  unfold BitvectorSuffix.readReal BitvectorSuffix.extractRealSuffix shlW
  rw [e, ok_bind]
  split
  · exact ⟨_, rfl⟩
  · rw [hs]; exact ⟨_, rfl⟩

theorem shlW_some (hs : Env.strict = false) (w : Word) (n : Nat) : ∃ v, shlW w n = .ok v := by
  unfold shlW
  split
  · exact ⟨_, rfl⟩
  · rw [hs]; exact ⟨_, rfl⟩

theorem FRep.sposL (h : FRep cfg ts sw s f) (hs : Env.strict = false) {it : SIter} (hsl : SL ts s it) (hv : it.valid = true) :
    ∃ p i, rdP it.pos (sub32 it.keyLen 1) = .ok p ∧ f.sparse.getSuffixPos p = .ok i := by
  have h1 := h.s1
  have h32 := h.h32
  have hM : M32 = 4294967296 := M32_eq
  have hk0 := hsl.ne hv
  obtain ⟨n, hn⟩ : ∃ n, it.keyLen = n + 1 := ⟨it.keyLen - 1, by omega⟩
  obtain ⟨p, ep, hp'⟩ := hsl.pos n (by omega)
  have hpn : p ≤ (sitems ts s).length := by
    rcases hp' with hp' | hp'
    · exact le_of_lt hp'.lt
    · omega
  have hn32 : n + 1 < M32 := by
    have hlt : n < it.pos.length := by
      by_contra hc
      rw [List.getElem?_eq_none (by omega)] at ep; cases ep
    rw [hsl.pl] at hlt
    omega
  obtain ⟨i, ei⟩ := h.suffixPos_some hs hpn
  rw [hn, sub32_eq (by omega) (by omega), Nat.add_sub_cancel]
  exact ⟨p, i, rdP_some ep, ei⟩

theorem FRep.dposL (h : FRep cfg ts sw s f) {it : Iter} (hd : DL ts s it.dense) (hv : it.dense.valid = true) (hc : it.dense.isComplete = true) :
    ∃ p i, rdP it.dense.pos (sub32 it.dense.keyLen 1) = .ok p ∧ f.dense.getSuffixPos p it.dense.atPrefix = .ok i := by
  have h1 := h.s1
  have h32 := h.h32
  have hsH := h.sH
  have hM : M32 = 4294967296 := M32_eq
  rcases hd with hd | ⟨t, ht, ha | ⟨hts, hst⟩⟩
  · rw [hd] at hv; cases hv
  · have hts : t.length ≤ s := by
      rw [ha.complete] at hc
      exact of_decide_eq_true hc
    have hAt : At ts s { it with sparse := (Iter.new f).sparse } t :=
      ⟨ht, ha, fun h4 => absurd h4 (by omega), fun _ => h.newIdle t⟩
    obtain ⟨p, i, e1, e2, -⟩ := h.sfxAt hAt hts
    exact ⟨p, i, e1, e2⟩
  · obtain ⟨x, c, hx⟩ : ∃ x c, t.take s = x ++ [c] := by
      rcases List.eq_nil_or_concat (t.take s) with hc | ⟨x, c, hc⟩
      · have := congrArg List.length hc
        rw [List.length_take, List.length_nil] at this
        omega
      · exact ⟨x, c, by simpa using hc⟩
    have hl : x.length + 1 = s := by
      have := congrArg List.length hx
      simp at this; omega
    have hz := not_zero_take h.wf ht hts
    rw [hx] at hz
    obtain ⟨b, rfl⟩ : ∃ b, c = b + 1 := Nat.exists_eq_succ_of_ne_zero fun hc => hz (by simp [hc])
    have hex : ex ts (x ++ [b + 1]) = true := ex_iff.2 ⟨t, ht, hx ▸ List.take_prefix _ _⟩
    have hb := sym_le h.wf hex
    have hon := hst.on
    rw [hx] at hon
    have hlen := hon.len
    simp only [List.length_append, List.length_singleton] at hlen
    have hsub : sub32 (x.length + 1) 1 = x.length := by rw [sub32_eq (by omega) (by omega)]; omega
    obtain ⟨A, C, e1, e2⟩ := h.dnode (int_of_ex_snoc hex) (by omega)
    obtain ⟨i, hi'⟩ : ∃ i, f.dense.getSuffixPos (256 * num ts x + b) false = .ok i := by
      have hk : (256 * A.length + b) / kFanout = A.length := by unfold kFanout; omega
      unfold LoudsDense.getSuffixPos
      dsimp only
      rw [← e2, h.drankL e1 (by omega), ok_bind, h.drankC e1 (by omega), ok_bind, hk, h.drankP e1 (b + 1), ok_bind]
      exact ⟨_, rfl⟩
    refine ⟨_, i, ?_, by rw [hst.pre]; exact hi'⟩
    rw [hlen, hsub]
    exact rdP_some (hon.pos x b (List.prefix_refl _))

theorem FRep.suffixL (h : FRep cfg ts sw s f) (hs : Env.strict = false) {it : Iter} (hi : IL ts s it) :
    (∃ r, it.getSuffix f = .ok r) ∧ ∃ r, it.getKeyWithSuffix f = .ok r := by
  unfold Iter.getSuffix Iter.getKeyWithSuffix
  cases hv : it.isValid
  · exact ⟨⟨_, rfl⟩, ⟨_, rfl⟩⟩
  · simp only [Bool.not_true, Bool.false_eq_true, if_false]
    have hdv : it.dense.valid = true := by
      unfold Iter.isValid at hv
      simp only [Bool.and_eq_true] at hv
      exact hv.1
    cases hc : it.dense.isComplete
    · have hsv : it.sparse.valid = true := by
        unfold Iter.isValid at hv
        rw [hdv, hc] at hv
        simpa using hv
      obtain ⟨p, i, e1, e2⟩ := h.sposL hs hi.sp hsv
      obtain ⟨w, e3⟩ := readReal_some hs f.sparse.suffixes i
      obtain ⟨w', e4⟩ := shlW_some hs w (sub32 64 f.sparse.suffixes.realLen)
      simp only [Bool.false_eq_true, if_false]
      constructor
      · unfold SIter.getSuffix
        split
        · rw [e1, ok_bind, e2, ok_bind, e3]
          exact ⟨_, rfl⟩
        · exact ⟨_, rfl⟩
      · unfold DIter.getKeyWithSuffix SIter.getKeyWithSuffix
        rw [hc]
        simp only [Bool.false_and, Bool.false_eq_true, if_false]
        dsimp only [pure, Except.pure]
        rw [ok_bind]
        dsimp only
        split
        · rw [e1, ok_bind, e2, ok_bind, e3, ok_bind]
          split
          · rw [e4]
            exact ⟨_, rfl⟩
          · exact ⟨_, rfl⟩
        · exact ⟨_, rfl⟩
    · obtain ⟨p, i, e1, e2⟩ := h.dposL hi.d hdv hc
      obtain ⟨w, e3⟩ := readReal_some hs f.dense.suffixes i
      obtain ⟨w', e4⟩ := shlW_some hs w (sub32 64 f.dense.suffixes.realLen)
      simp only [if_true]
      unfold DIter.getSuffix DIter.getKeyWithSuffix
      constructor
      · split
        · rw [e1, ok_bind, e2, ok_bind, e3]
          exact ⟨_, rfl⟩
        · exact ⟨_, rfl⟩
      · split
        · rw [e1, ok_bind, e2, ok_bind, e3, ok_bind]
          split
          · rw [e4]
            exact ⟨_, rfl⟩
          · exact ⟨_, rfl⟩
        · exact ⟨_, rfl⟩

omit [Env] in
theorem At.il {it : Iter} {t : Str} (h : At ts s it t) : IL ts s it := by
  refine ⟨Or.inr ⟨t, h.mem, Or.inl h.d⟩, ?_⟩
  rcases Nat.lt_or_ge s t.length with h1 | h1
  · exact (h.sp h1).sl h.mem
  · have hi := h.sx h1
    rcases hi.st with h2 | ⟨x, c, h2, h3, h4, -⟩
    · exact SOff.sl ⟨hi.valid, h2, hi.term, hi.kl, hi.pl⟩
    · exact (h4.spath (by simp; omega) (Or.inl (ex_mem h3))).sl fun hv => by rw [hi.valid] at hv; cases hv

end Surf
