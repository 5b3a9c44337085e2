import Verif.Proof.CountKeys

/-!
# What `approxCount` reads of an iterator besides its position

The search of an iterator that `moveToFirst`, a seek or `++` left at a leaf of the dense levels is complete and the sparse part is empty.
At a leaf below, the search is complete unless the iterator came to its dense node by the bytes of the query.
-/

set_option linter.unusedSectionVars false
set_option autoImplicit false

namespace Surf
open Trie

variable {cfg : Config} {ts : List Str} {sw : Str → Word} {s : Nat} {f : Filter} [Env]

/-- At a leaf of the dense levels the search is complete and the sparse part empty. -/
def Side (s : Nat) (it : Iter) (t : Str) : Prop := t.length ≤ s → it.dense.searchComplete = true ∧ it.sparse.keyLen = 0

theorem FRep.incDenseSide (h : FRep cfg ts sw s f) {it : Iter} {p : Str} (hv : it.dense.valid = true)
    (hst : SIdle ts s it.sparse p) (hk : it.sparse.keyLen = 0) (hps : p.length ≤ s)
    (hd : ∃ d, it.dense.inc f.dense = .ok d ∧
      ((NoNext ts p ∧ d.valid = false ∧ d.keyLen = 0) ∨ ∃ t, IsNext ts p t ∧ DLeft ts s d t)) :
    ∃ r it', it.incrementDense f = .ok (r, it') ∧
      ((r = false ∧ it'.isValid = false ∧ NoNext ts p) ∨
        (r = true ∧ ∃ t, IsNext ts p t ∧ At ts s it' t ∧ it'.dense.searchComplete = true ∧ Side s it' t)) := by
  obtain ⟨d, e, hr⟩ := hd
  unfold Iter.incrementDense
  rw [hv]
  simp only [Bool.not_true, Bool.false_eq_true, if_false]
  rw [e, ok_bind]
  rcases hr with ⟨h1, h2, -⟩ | ⟨t, h1, h2⟩
  · rw [h2]
    exact ⟨false, _, rfl, Or.inl ⟨rfl, by simp [Iter.isValid, h2], h1⟩⟩
  · rw [h2.valid, h2.left]
    simp only [Bool.not_true, Bool.false_eq_true, if_false]
    rcases Nat.lt_or_ge s t.length with h3 | h3
    · rw [decide_eq_false (by omega)]
      simp only [Bool.false_eq_true, if_false]
      obtain ⟨it', e', ha⟩ := h.enterLeft hst (Or.inr hk) hps h1 h3
      unfold Iter.passToSparse
      dsimp only
      rw [h2.send h3, e', ok_bind]
      exact ⟨true, _, rfl, Or.inr ⟨rfl, t, h1, ⟨h1.1, h2.toDAt, fun _ => ha, fun h4 => absurd h4 (by omega)⟩, h2.srch,
        fun h4 => absurd h4 (by omega)⟩⟩
    · rw [decide_eq_true h3]
      simp only [if_true]
      exact ⟨true, _, rfl, Or.inr ⟨rfl, t, h1, ⟨h1.1, h2.toDAt, fun h4 => absurd h4 (by omega), fun _ =>
        ⟨hst.valid, hst.term, hst.kl, hst.pl, Or.inl hk⟩⟩, h2.srch, fun _ => ⟨h2.srch, hk⟩⟩⟩

/-- `++` keeps this.  The search is complete or as complete as it was. -/
theorem FRep.incSide (h : FRep cfg ts sw s f) (hstr : Env.strict = false) {it : Iter} {t : Str} (ha : At ts s it t) (hsd : Side s it t) :
    ∃ r it', it.inc f = .ok (r, it') ∧
      ((r = false ∧ it'.isValid = false ∧ NoNext ts t) ∨
        (r = true ∧ ∃ t', IsNext ts t t' ∧ At ts s it' t' ∧ Side s it' t' ∧
          (it'.dense.searchComplete = true ∨ it'.dense.searchComplete = it.dense.searchComplete))) := by
  unfold Iter.inc
  rw [ha.isValid]
  simp only [Bool.not_true, Bool.false_eq_true, if_false]
  unfold Iter.incrementSparse
  rcases Nat.lt_or_ge s t.length with hs | hs
  · have hsp := ha.sp hs
    have hl : (t.take s).length = s := by simp; omega
    rw [hsp.valid]
    simp only [Bool.not_true, Bool.false_eq_true, if_false]
    obtain ⟨it1, e1, hr⟩ := h.sinc hs hsp.on (ex_mem ha.mem)
    rw [e1, ok_bind]
    rcases hr with ⟨h1, h2, h3⟩ | ⟨t', h1, h2, h3⟩
    · dsimp only [pure, Except.pure]
      rw [ok_bind, h1.valid]
      simp only [Bool.false_eq_true, if_false]
      obtain ⟨r, it', e', hr'⟩ := h.incDenseSide (it := { it with sparse := it1 }) (p := t.take s) ha.d.valid
        (h1.idle _) h1.len (le_of_eq hl) (by have := h.dincAt hstr ha.d ha.mem; rwa [if_pos hs] at this)
      refine ⟨r, it', e', ?_⟩
      rcases hr' with ⟨g1, g2, g3⟩ | ⟨g1, t', g2, g3, g4, g5⟩
      · exact Or.inl ⟨g1, g2, h3 g3⟩
      · exact Or.inr ⟨g1, t', h2 _ g2, g3, g5, Or.inl g4⟩
    · dsimp only [pure, Except.pure]
      rw [ok_bind, h3.valid]
      simp only [if_true]
      have h4 : t.take s = t'.take s := by
        have := List.prefix_iff_eq_take.1 h2
        rwa [hl] at this
      have hlt := h3.lt
      exact ⟨true, _, rfl, Or.inr ⟨rfl, t', h1, ⟨h1.1, ha.d.same hs h3.lt h4, fun _ => h3, fun h5 => absurd h3.lt (by omega)⟩,
        fun h5 => absurd h5 (by omega), Or.inr rfl⟩⟩
  · have hsx := ha.sx hs
    rw [hsx.valid]
    simp only [Bool.not_false, if_true]
    rw [ok_bind]
    simp only [Bool.false_eq_true, if_false]
    obtain ⟨r, it', e', hr'⟩ := h.incDenseSide ha.d.valid hsx (hsd hs).2 hs
      (by have := h.dincAt hstr ha.d ha.mem; rwa [if_neg (by omega)] at this)
    refine ⟨r, it', e', ?_⟩
    rcases hr' with ⟨g1, g2, g3⟩ | ⟨g1, t', g2, g3, g4, g5⟩
    · exact Or.inl ⟨g1, g2, g3⟩
    · exact Or.inr ⟨g1, t', g2, g3, g5, Or.inl g4⟩

theorem FRep.firstSide (h : FRep cfg ts sw s f) (hstr : Env.strict = false) (hroot : ∀ t ∈ ts, ¬ [0] <+: t) :
    ∃ it t, f.moveToFirst = .ok it ∧ IsLeft ts [] t ∧ At ts s it t ∧ it.dense.searchComplete = true ∧ Side s it t := by
  have hs1 := h.s1
  obtain ⟨d, d', t, e, e', hl0, hd⟩ := h.dfirstRoot hstr hroot
  unfold Filter.moveToFirst
  rw [if_pos (by rw [h.dense.height]; omega)]
  simp only [Iter.new]
  rw [e, ok_bind, e', ok_bind, hd.left]
  rcases Nat.lt_or_ge s t.length with h3 | h3
  · rw [decide_eq_false (by omega)]
    simp only [Bool.false_eq_true, if_false]
    unfold Iter.passToSparse
    dsimp only
    rw [hd.send h3]
    have htl : (t.take s).length = s := by simp; omega
    have hti : isInt ts (t.take s) = true := by
      refine isInt_iff.2 ⟨t, hl0.1, List.take_prefix _ _, fun e => ?_⟩
      rw [← e] at h3; omega
    obtain ⟨it', t', e', hl', ha⟩ := h.sleft0 (it := { SIter.new f.sparse with startNode := num ts (t.take s) }) hti htl rfl
      (h.newIdle t).kl (h.newIdle t).pl rfl rfl
    have : t' = t := hl'.unique ⟨hl0.1, List.take_prefix _ _, fun u hu _ => hl0.2.2 u hu List.nil_prefix⟩
    rw [e', ok_bind]
    rw [this] at ha
    exact ⟨_, t, rfl, hl0, ⟨hl0.1, hd.toDAt, fun _ => ha, fun h4 => absurd h4 (by omega)⟩, hd.srch,
      fun h4 => absurd h4 (by omega)⟩
  · rw [decide_eq_true h3]
    simp only [if_true]
    exact ⟨_, t, rfl, hl0, ⟨hl0.1, hd.toDAt, fun h4 => absurd h4 (by omega), fun _ => h.newIdle t⟩, hd.srch,
      fun _ => ⟨hd.srch, rfl⟩⟩

omit [Env] in
theorem next_ne {p t y : Str} (hn : IsNext ts p t) (hp : p <+: y) (hl : p.length ≤ s) : t.take s ≠ y.take s := by
  intro hc
  refine hn.2.2.1 (List.IsPrefix.trans ?_ (List.take_prefix s t))
  rw [hc]
  exact List.prefix_take_iff.2 ⟨hp, hl⟩

omit [Env] in
/-- Where a seek ends, and whether the search counts as complete. -/
def SideOut (ts : List Str) (s : Nat) (key : Key) (it : Iter) : Prop :=
  it.isValid = false ∨
  (∃ t, At ts s it t ∧ Side s it t ∧ (s < t.length → (it.dense.searchComplete = false ↔ t.take s = (syms key).take s))) ∨
  (key.length < s ∧ isInt ts (syms key) = true ∧ w key ∉ ts ∧ ∃ t, IsLeft ts (syms key) t ∧ s < t.length)

theorem FRep.seekSide (h : FRep cfg ts sw s f) (hs : Env.strict = false) (hpad : PadOk f ts s) (hroot : ∀ t ∈ ts, ¬ [0] <+: t)
    (key : Key) (hne : key ≠ [] ∨ Env.ndebug = true) (incl : Bool)
    (hok : ∀ l, s ≤ l → l < key.length → isInt ts ((syms key).take l) = true → ex ts ((syms key).take (l + 1)) = false →
      NextOk ts s ((syms key).take l) (key.getD l 0).toNat)
    {it : Iter} (hcl : Clean ts s it) :
    ∃ it', seekFrom f it key incl = .ok it' ∧ SideOut ts s key it' := by
  obtain ⟨fp, d, ed, hd⟩ := h.dseek hs hroot key hne incl s 0 (by omega) (by omega) (by simpa using root_int h.wf)
    (it := it.dense) (by simpa using hcl.d) (by simp [DPath]) hcl.pre
  have hout := fun hv hc => h.dseekOut key incl s 0 (by omega) (by omega) (by simpa using root_int h.wf) ed hv hc
  rw [List.take_zero, num_root h.wf] at ed
  have hidle := fun t => hcl.sp.idle t
  unfold seekFrom LoudsDense.moveToKeyGreaterThan
  rw [h.dense.height, ed, ok_bind]
  dsimp only
  have hpast' : ∀ {p t : Str}, p <+: w key → p.length ≤ s → IsNext ts p t → s < t.length → t.take s ≠ (syms key).take s := by
    intro p t hp hl hn hlt hc
    have hsk : s ≤ key.length := by
      have := congrArg List.length hc
      simp at this; omega
    refine next_ne hn hp hl ?_
    rw [hc, w_eq, List.take_append_of_le_length (by simpa using hsk)]
  rcases hd with ⟨rfl, p, hpast, hpl, hr⟩ | ⟨rfl, p, hp, hpw, hpl, hpc, ha⟩ | ⟨rfl, hks, hi, hno, t, hl, h1, h2⟩ |
    ⟨rfl, hks, hi, hon, hpath, hpre, hv, hsc, hsend⟩
  · rcases hr with ⟨h1, h2⟩ | ⟨t, h1, h2⟩
    · rw [h2]
      exact ⟨_, rfl, Or.inl (by simp [Iter.isValid, h2])⟩
    · rw [h2.valid, h2.complete, h2.srch, h2.left]
      simp only [Bool.not_true, Bool.false_eq_true, if_false]
      rcases Nat.lt_or_ge s t.length with h3 | h3
      · rw [decide_eq_false (by omega)]
        simp only [Bool.false_eq_true, if_false, Bool.not_false, if_true]
        obtain ⟨it', e', ha⟩ := h.enterLeft (hidle p) (Or.inr hcl.sp.len) hpl h1 h3
        unfold Iter.passToSparse
        dsimp only
        rw [h2.send h3, e', ok_bind]
        refine ⟨_, rfl, Or.inr (Or.inl ⟨t, ⟨h1.1, h2.toDAt, fun _ => ha, fun h4 => absurd h4 (by omega)⟩,
          fun h4 => absurd h4 (by omega), fun _ => ?_⟩)⟩
        exact ⟨fun hc => absurd (show d.searchComplete = false from hc) (by rw [h2.srch]; decide),
          fun hc => absurd hc (hpast' hpast.1 hpl h1 h3)⟩
      · rw [decide_eq_true h3]
        simp only [if_true]
        exact ⟨_, rfl, Or.inr (Or.inl ⟨t, ⟨h1.1, h2.toDAt, fun h4 => absurd h4 (by omega), fun _ => hidle t⟩,
          fun _ => ⟨h2.srch, hcl.sp.len⟩, fun h4 => absurd h4 (by omega)⟩)⟩
  · have hsc : d.searchComplete = true := by
      cases hc : d.searchComplete
      · obtain ⟨h1, h2, -⟩ := hout ha.valid hc
        refine absurd ?_ (no_leaf_above h.wf h2 hp)
        refine List.prefix_of_prefix_length_le (l₃ := w key) hpw ?_ (by simp; omega)
        rw [w_eq]
        exact (List.take_prefix _ _).trans (List.prefix_append _ _)
      · rfl
    rw [ha.valid, ha.complete, decide_eq_true hpl]
    simp only [Bool.not_true, Bool.false_eq_true, if_false, if_true]
    exact ⟨_, rfl, Or.inr (Or.inl ⟨p, ⟨hp, ha, fun h4 => absurd h4 (by omega), fun _ => hidle p⟩, fun _ => ⟨hsc, hcl.sp.len⟩,
      fun h4 => absurd h4 (by omega)⟩)⟩
  · rcases Nat.lt_or_ge s t.length with h3 | h3
    · have hst := h2 h3
      rw [hst.valid, hst.complete]
      simp only [Bool.not_true, Bool.false_eq_true, if_false, if_true]
      exact ⟨_, rfl, Or.inr (Or.inr ⟨hks, hi, hno, t, hl, h3⟩)⟩
    · have ha := h1 h3
      have hsc : d.searchComplete = true := by
        cases hc : d.searchComplete
        · obtain ⟨h1, h2, -⟩ := hout ha.valid hc
          omega
        · rfl
      rw [ha.valid, ha.complete, decide_eq_true h3]
      simp only [Bool.not_true, Bool.false_eq_true, if_false, if_true]
      exact ⟨_, rfl, Or.inr (Or.inl ⟨t, ⟨hl.1, ha, fun h4 => absurd h4 (by omega), fun _ => hidle t⟩, fun _ => ⟨hsc, hcl.sp.len⟩,
        fun h4 => absurd h4 (by omega)⟩)⟩
  · have hxl : ((syms key).take s).length = s := by simp; omega
    have hcomp : d.isComplete = false := by unfold DIter.isComplete; rw [hsc]; rfl
    rw [hv, hcomp, hsc]
    simp only [Bool.not_true, Bool.false_eq_true, if_false, Bool.not_false, if_true]
    obtain ⟨A, C, hA, hn⟩ := h.snode hi (by omega)
    obtain ⟨fp, it', e, hr⟩ := h.sseek hs hpad key incl hok _ s hks rfl le_rfl hi hA
      (it := { it.sparse with startNode := num ts ((syms key).take s) })
      (SOn.start hcl.sp.len hcl.sp.kl hcl.sp.pl hxl) hcl.sp.term rfl
    unfold Iter.passToSparse LoudsSparse.moveToKeyGreaterThan
    dsimp only
    rw [hsend, h.sfirst hA hn, ok_bind, h.sparse.start, e, ok_bind]
    dsimp only
    have htake : ∀ {t : Str}, (syms key).take s <+: t → t.take s = (syms key).take s := by
      rintro t ⟨r, rfl⟩
      rw [List.take_append_of_le_length (by omega), List.take_of_length_le (by omega)]
    have hdat : ∀ {t : Str} (ht : t ∈ ts), (syms key).take s <+: t → s < t.length → DAt ts s d t := by
      intro t ht hp hlt
      exact ⟨hv, by rw [hcomp, decide_eq_false (by omega)], by rw [hpre, decide_eq_false (by omega)],
        fun _ _ _ h4 => absurd h4 (by omega), fun _ _ h4 => absurd h4 (by omega), fun _ => by rw [htake hp]; exact hon⟩
    have hpt : ∀ {p : Str}, p <+: w key → s < p.length → p.take s = (syms key).take s := by
      intro p hp hlt
      have : p.take s = (w key).take s := by
        obtain ⟨r, hr⟩ := hp
        rw [← hr, List.take_append_of_le_length (by omega)]
      rw [this, w_eq, List.take_append_of_le_length (by simp; omega)]
    have hin : ∀ {t : Str} {b : Bool}, t ∈ ts → (syms key).take s <+: t → SAt ts s it' t →
        SideOut ts s key { it with dense := d, sparse := it', couldBeFp := b } := by
      intro t b ht hp ha
      have hlt := ha.lt
      exact Or.inr (Or.inl ⟨t, ⟨ht, hdat ht hp hlt, fun _ => ha, fun h4 => absurd h4 (by omega)⟩, fun h4 => absurd h4 (by omega),
        fun _ => ⟨fun _ => htake hp, fun _ => hsc⟩⟩)
    rcases hr with ⟨rfl, p, hpast, hlt, hr⟩ | ⟨p, hp, hpw, hlt, ha, hfp⟩ | ⟨rfl, h1, h2, t, h3, h4⟩
    · rcases hr with ⟨r1, r2, r3⟩ | ⟨t, r1, r2, r3⟩
      · rw [hpt hpast.1 hlt] at r2 r3
        rw [r1.valid]
        simp only [Bool.not_false, if_true]
        have hpe : (syms key).take s ≠ [] := by
          intro h0; rw [h0] at hxl; have := h.s1; simp at hxl; omega
        obtain ⟨r, it2, e2, hr2⟩ := h.incDenseSide (it := { it with dense := d, sparse := it', couldBeFp := false })
          (p := (syms key).take s) hv (r1.idle _) r1.len (by omega) (h.dinc hs hpe hon hpath hpre)
        rw [e2, ok_bind]
        refine ⟨_, rfl, ?_⟩
        rcases hr2 with ⟨-, g1, g2⟩ | ⟨-, t, g1, g2, g3, g4⟩
        · exact Or.inl g1
        · refine Or.inr (Or.inl ⟨t, g2, g4, fun hlt' => ⟨fun hc => ?_, fun hc => ?_⟩⟩)
          · rw [show it2.dense.searchComplete = true from g3] at hc; cases hc
          · exact absurd hc (hpast' ((List.take_prefix _ _).trans (by rw [w_eq]; exact List.prefix_append _ _)) (by omega) g1 hlt')
      · rw [r3.valid]
        simp only [Bool.not_true, Bool.false_eq_true, if_false]
        rw [hpt hpast.1 hlt] at r2
        exact ⟨_, rfl, hin r1.1 r2 r3⟩
    · rw [ha.valid]
      simp only [Bool.not_true, Bool.false_eq_true, if_false]
      have hpre' : (syms key).take s <+: p := by rw [← hpt hpw hlt]; exact List.take_prefix _ _
      exact ⟨_, rfl, hin hp hpre' ha⟩
    · rw [h4.valid]
      simp only [Bool.not_true, Bool.false_eq_true, if_false]
      exact ⟨_, rfl, hin h3.1 ((List.take_prefix _ _).trans h3.2.1) h4⟩

/-! ## The left leaf behind the right one -/

section
variable [Env] {cfg : Config} {ts : List Str} {sw : Str → Word} {s : Nat} {f : Filter}

omit [Env] in
/-- The nodes of a level that stand for two leaves are in the order of the leaves. -/
theorem node_le (h : WF ts) {tl tr xl xr : Str} (htr : tr ∈ ts) (hlt : tr < tl) {i : Nat} (hxl : xl.length = i)
    (hxr : xr.length = i) (hi : isInt ts xl = true) (hl : xl <+: tl ∨ tl < xl)
    (hr : xr <+: tr ∨ (tr.length ≤ i ∧ (xl < xr → xl < tr))) : xr ≤ xl := by
  refine not_lt.1 fun hc => ?_
  rcases hr with ⟨r, rfl⟩ | ⟨hr1, hr2⟩
  · have h1 : xl < xr ++ r := lt_of_lt_of_le hc (le_append _ _)
    rcases hl with ⟨q, rfl⟩ | hl
    · exact lt_asymm hlt (lt_append_of_lt (by omega) hc)
    · exact lt_asymm (hlt.trans hl) h1
  · have h1 := hr2 hc
    rcases hl with hp | hl
    · obtain ⟨q, rfl⟩ := hp
      have h2 : ¬ xl <+: tr := fun hp => by
        have := hp.eq_of_length_le (by omega)
        exact leaf_ne_int h htr hi this.symm
      exact lt_asymm hlt (append_lt h1 h2 q)
    · exact lt_asymm (hlt.trans hl) h1

omit [Env] in
theorem noneM_absurd (h : WF ts) {tl tr xl : Str} (htr : tr ∈ ts) (hlt : tr < tl) {i : Nat} (hxl : xl.length = i)
    (hi : isInt ts xl = true) (hl : xl <+: tl ∨ tl < xl) (hn : NoneM ts tr i) : False := by
  have h1 := hn.2 xl hi hxl
  rcases hl with ⟨q, rfl⟩ | hl
  · have h2 : ¬ xl <+: tr := fun hp => by
      have := hp.eq_of_length_le (by have := hn.1; omega)
      exact leaf_ne_int h htr hi this.symm
    exact lt_asymm hlt (append_lt h1 h2 q)
  · exact lt_asymm (hlt.trans hl) h1

omit [Env] in
theorem Adj.side {t : Str} {i v : Nat} {x : Str} {b : Nat} (h : Adj ts t i v x b) : x <+: t ∨ t < x := by
  rcases h.kind with hp | ⟨hp, -⟩ | ⟨-, hp, -⟩
  · exact Or.inl ((List.prefix_append _ _).trans hp)
  · exact Or.inl (hp ▸ List.prefix_append _ _)
  · exact Or.inr hp

omit [Env] in
theorem adj_le (h : WF ts) {tl tr : Str} (htr : tr ∈ ts) (hlt : tr < tl) {i vl vr : Nat} {xl xr : Str} {bl br : Nat}
    (hl : Adj ts tl i vl xl bl) (hr : Adj ts tr i vr xr br) : vr ≤ vl := by
  have hle : xr ≤ xl := by
    refine node_le h htr hlt hl.len hr.len hl.int hl.side ?_
    rcases hr.kind with hp | ⟨hp, -⟩ | ⟨h1, -, h3, -⟩
    · exact Or.inl ((List.prefix_append _ _).trans hp)
    · exact Or.inl (hp ▸ List.prefix_append _ _)
    · exact Or.inr ⟨h1, h3 xl hl.int hl.len⟩
  rw [hl.val, hr.val]
  rcases lt_or_eq_of_le hle with h1 | h1
  · have h2 := num_lt_of_lt h hr.int hl.int (by rw [hr.len, hl.len]) h1
    have := hr.lt
    omega
  · subst h1
    suffices hb : br ≤ bl by omega
    rcases hr.kind with hp | ⟨-, hp⟩ | ⟨-, -, -, hp⟩
    · obtain ⟨r, hrr⟩ := hp
      rcases hl.kind with hq | ⟨hq, -⟩ | ⟨-, hq, -⟩
      · by_contra hc
        obtain ⟨q, hqq⟩ := hq
        have h3 : xr ++ [bl + 1] < xr ++ [br + 1] := by rw [lt_append]; simp [List.cons_lt_cons_iff]; omega
        have h4 := lt_append_of_lt (a := q) (b := r) (by simp) h3
        rw [hqq, hrr] at h4
        exact lt_asymm hlt h4
      · exfalso
        have h3 : xr ++ [0] < xr ++ [br + 1] := by rw [lt_append]; simp [List.cons_lt_cons_iff]
        have h4 := lt_append_of_lt (a := []) (b := r) (by simp) h3
        rw [hrr, List.append_nil, ← hq] at h4
        exact lt_asymm hlt h4
      · exfalso
        have h4 : xr ≤ tr := by rw [← hrr, List.append_assoc]; exact le_append _ _
        exact lt_irrefl _ (lt_of_le_of_lt h4 (hlt.trans hq))
    · omega
    · omega

theorem FRep.dcountRev (h : FRep cfg ts sw s f) {tl tr : Str} (htl : tl ∈ ts)
    (htr : tr ∈ ts) (hlt : tr < tl) {itl itr : DIter} (hal : DAt ts s itl tl) (har : DAt ts s itr tr)
    {ll rl : List Nat} (hll : ll.length = s) (hrl : rl.length = s)
    (hml : ∀ j, j < s → DMark ts tl j (ll.getD j 0)) (hmr : ∀ j, j < s → DMark ts tr j (rl.getD j 0)) (n i : Nat)
    (hn : i + n = s) : f.dense.countLoop itl itr (min tl.length s) (min tr.length s) ll rl n i 0 = .ok 0 := by
  have h32 := h.h32
  have hsH := h.sH
  rw [M32_eq] at h32
  induction n generalizing i with
  | zero => rfl
  | succ n ih =>
    unfold LoudsDense.countLoop
    rw [rdP_ok (by omega), ok_bind]
    rcases hml i (by omega) with hm | ⟨hm, hnone⟩
    · have hne : ll.getD i 0 ≠ kMaxPos := by
        rcases hm with ⟨x, b, hxl, hx, hb, e, -⟩ | ⟨-, x, hxl, hx, -, -, e⟩
        · rw [e]; exact (h.dpos_ne hx (by omega) hb).1
        · rw [e]; exact (h.dpos_ne hx (by omega) (show 0 < 256 by omega)).1
      obtain ⟨xl, bl, hAl⟩ := dadj h.wf htl hal (show i < s by omega) (by omega) rfl hm
      rw [if_neg hne, rdP_ok (by omega), ok_bind, h.dcut (by omega), ok_bind, h.dense.height, h.dcut (by omega), ok_bind]
      dsimp only
      rcases hmr i (by omega) with hmr' | ⟨-, hnone⟩
      · have hvr : rl.getD i 0 ≠ kMaxPos := by
          rcases hmr' with ⟨x, b, hxl, hx, hb, e, -⟩ | ⟨-, x, hxl, hx, -, -, e⟩
          · rw [e]; exact (h.dpos_ne hx (by omega) hb).1
          · rw [e]; exact (h.dpos_ne hx (by omega) (show 0 < 256 by omega)).1
        obtain ⟨xr, br, hAr⟩ := dadj h.wf htr har (show i < s by omega) (by omega) rfl hmr'
        have := adj_le h.wf htr hlt hAl hAr
        rw [if_neg hvr, if_neg (not_lt.2 this)]
        exact ih (i + 1) (by omega)
      · exact (noneM_absurd h.wf htr hlt hAl.len hAl.int hAl.side hnone).elim
    · rw [if_pos hm]
      rfl

theorem FRep.dapproxRev (h : FRep cfg ts sw s f) {tl tr : Str} (htl : tl ∈ ts)
    (htr : tr ∈ ts) (hlt : tr < tl) {itl itr : DIter} (hal : DAt ts s itl tl) (har : DAt ts s itr tr) :
    ∃ outL outR, f.dense.approxCount itl itr = .ok (0, outL, outR) ∧
      ((outL = kMaxPos ∧ NoneM ts tl (s - 1)) ∨ (outL ≠ kMaxPos ∧ outL = nIdx ts s (tl.take s))) ∧
      ((outR = kMaxPos ∧ NoneM ts tr (s - 1)) ∨ (outR ≠ kMaxPos ∧ outR = nIdx ts s (tr.take s))) := by
  obtain ⟨ll, outL, e1, hll, hml, hol⟩ := h.dextendPosList htl hal
  obtain ⟨rl, outR, e2, hrl, hmr, hor⟩ := h.dextendPosList htr har
  refine ⟨outL, outR, ?_, hol, hor⟩
  unfold LoudsDense.approxCount
  dsimp only
  rw [e1, ok_bind]
  dsimp only
  rw [e2, ok_bind]
  dsimp only
  rw [(h.dstart htl hal).1, (h.dstart htr har).1, h.dense.height]
  rw [h.dcountRev htl htr hlt hal har hll hrl hml hmr s 0 (by omega), ok_bind]
  rfl

omit [Env] in
theorem items_order (h : WF ts) (a b : Nat) :
    (items ts a b).Pairwise fun x y => x.length < y.length ∨ (x.length = y.length ∧ x < y) := by
  unfold items
  rw [List.pairwise_flatMap]
  constructor
  · intro l _
    refine (lev_sorted h.sorted (l + 1)).imp_of_mem ?_
    intro x y hx hy hxy
    right
    exact ⟨by rw [(mem_lev.1 hx).1, (mem_lev.1 hy).1], hxy⟩
  · refine (List.pairwise_lt_range' (s := a) (n := b - a)).imp ?_
    intro i j hij x hx y hy
    left
    rw [(mem_lev.1 hx).1, (mem_lev.1 hy).1]
    omega

omit [Env] in
theorem ipos_le (h : WF ts) {x y : Str} {c d : Nat} (hs : s ≤ x.length) (hl : x.length = y.length)
    (hx : ex ts (x ++ [c]) = true) (hy : ex ts (y ++ [d]) = true) (hle : x < y ∨ (x = y ∧ c ≤ d)) :
    ipos ts s (x ++ [c]) ≤ ipos ts s (y ++ [d]) := by
  have hmx : x ++ [c] ∈ sitems ts s := mem_items.2 ⟨by simp; omega, by have := ex_len hx; omega, ex_iff.1 hx⟩
  have hmy : y ++ [d] ∈ sitems ts s := mem_items.2 ⟨by simp; omega, by have := ex_len hy; omega, ex_iff.1 hy⟩
  refine not_lt.1 fun hc => ?_
  have h1 := ipos_lt hmx
  have h2 := ipos_lt hmy
  have h3 := List.pairwise_iff_getElem.1 (items_order h s (maxLen ts + 1)) _ _ h2 h1 hc
  have e1 : (items ts s (maxLen ts + 1))[ipos ts s (x ++ [c])] = x ++ [c] := List.getElem_idxOf h1
  have e2 : (items ts s (maxLen ts + 1))[ipos ts s (y ++ [d])] = y ++ [d] := List.getElem_idxOf h2
  rw [e1, e2] at h3
  rcases h3 with h3 | ⟨-, h3⟩
  · simp at h3; omega
  · rcases hle with h4 | ⟨rfl, h4⟩
    · exact lt_asymm h3 (lt_append_of_lt hl h4)
    · rcases Nat.lt_or_eq_of_le h4 with h5 | rfl
      · have : x ++ [c] < x ++ [d] := by rw [lt_append]; simp [List.cons_lt_cons_iff]; omega
        exact lt_asymm h3 this
      · exact lt_irrefl _ h3

omit [Env] in
theorem spe_le (h : WF ts) {tl tr : Str} (htr : tr ∈ ts) (hlt : tr < tl) {m vl vr : Nat} (hs : s ≤ m)
    (hl : SPE ts s tl m vl) (hr : SPE ts s tr m vr) : vr ≤ vl := by
  obtain ⟨xl, cl, hxl, hel, rfl, hkl⟩ := hl
  obtain ⟨xr, cr, hxr, her, rfl, hkr⟩ := hr
  have hle : xr ≤ xl := by
    refine node_le h htr hlt hxl hxr (int_of_ex_snoc hel) ?_ ?_
    · rcases hkl with hp | ⟨-, hp, -⟩
      · exact Or.inl ((List.prefix_append _ _).trans hp)
      · exact Or.inr hp
    · rcases hkr with hp | ⟨h1, -, h3, -⟩
      · exact Or.inl ((List.prefix_append _ _).trans hp)
      · exact Or.inr ⟨h1, h3 xl (int_of_ex_snoc hel) hxl⟩
  refine ipos_le h (by omega) (by omega) her hel ?_
  rcases lt_or_eq_of_le hle with h1 | h1
  · exact Or.inl h1
  · refine Or.inr ⟨h1, ?_⟩
    subst h1
    rcases hkr with ⟨r, hrr⟩ | ⟨-, -, -, hc⟩
    · rcases hkl with ⟨q, hqq⟩ | ⟨-, hq, -⟩
      · by_contra hc
        have h3 : xr ++ [cl] < xr ++ [cr] := by rw [lt_append]; simp [List.cons_lt_cons_iff]; omega
        have h4 := lt_append_of_lt (a := q) (b := r) (by simp) h3
        rw [hqq, hrr] at h4
        exact lt_asymm hlt h4
      · exfalso
        have h4 : xr ≤ tr := by rw [← hrr, List.append_assoc]; exact le_append _ _
        exact lt_irrefl _ (lt_of_le_of_lt h4 (hlt.trans hq))
    · by_contra hc'
      rw [hc cl (by omega)] at hel
      cases hel

theorem FRep.scountRev (h : FRep cfg ts sw s f) {tl tr : Str} (htr : tr ∈ ts) (hlt : tr < tl) {ll rl : List Nat} (ori : Nat)
    (hml : ∀ j, j < ll.length → SMark ts s tl (s + j) (ll.getD j 0))
    (hmr : ∀ j, j < rl.length → SMark ts s tr (s + j) (rl.getD j 0)) (n i : Nat)
    (hn : i + n ≤ min ll.length rl.length) : f.sparse.countLoop ori ll rl n i 0 = .ok 0 := by
  induction n generalizing i with
  | zero => rfl
  | succ n ih =>
    unfold LoudsSparse.countLoop
    rw [rdP_ok (by omega), ok_bind]
    rcases hml i (by omega) with hm | ⟨hm, -⟩
    · have hL := h.spe_lt (by omega) hm
      rw [if_neg hL.2.2.2, rdP_ok (by omega), ok_bind]
      rcases hmr i (by omega) with hr | ⟨-, hno⟩
      · have hR := h.spe_lt (by omega) hr
        rw [if_neg hR.2.2.2]
        simp only [pure_ok]
        rw [ok_bind, if_neg (not_lt.2 (spe_le h.wf htr hlt (by omega) hm hr))]
        exact ih (i + 1) (by omega)
      · exfalso
        obtain ⟨x, c, hx, he, -, hk⟩ := hm
        refine noneM_absurd h.wf htr hlt hx (int_of_ex_snoc he) ?_ hno
        rcases hk with hp | ⟨-, hp, -⟩
        · exact Or.inl ((List.prefix_append _ _).trans hp)
        · exact Or.inr hp
    · rw [if_pos hm]
      rfl

/-- Counting from a leaf to a smaller leaf. -/
theorem FRep.approxRev (h : FRep cfg ts sw s f) (hpast : s < maxLen ts → PastOk f) {tl tr : Str} {it it2 : Iter}
    (hal : At ts s it tl) (har : At ts s it2 tr) (hlt : tr < tl) : f.approxCountIter it it2 = .ok 0 := by
  obtain ⟨outL, outR, e, hol, hor⟩ := h.dapproxRev hal.mem har.mem hlt hal.d har.d
  have hSL : ∀ {it : Iter} {t : Str}, At ts s it t → SList ts s t (it.sparse.pos.take it.sparse.keyLen) := by
    intro it t ha
    rcases Nat.lt_or_ge s t.length with h1 | h1
    · exact ((ha.sp h1).slist ha.mem).1
    · exact (ha.sx h1).slist h.wf ha.mem h1
  have hL := hSL hal
  have hR := hSL har
  have e1 : f.sparse.approxCount it.sparse it2.sparse outL outR = .ok 0 := by
    rcases Nat.lt_or_ge s (maxLen ts) with h1 | h1
    · unfold LoudsSparse.approxCount
      rcases hol with ⟨rfl, hn⟩ | ⟨hne, rfl⟩
      · rw [if_pos rfl]; rfl
      · rw [if_neg hne]
        dsimp only
        obtain ⟨ll, rl, e2, hml, hmr, -⟩ := h.sextendPosList (hpast h1) h1 hal.mem har.mem hL
          (rl := if outR = kMaxPos then List.replicate (maxLen ts + 1 - s) kMaxPos else it2.sparse.pos.take it2.sparse.keyLen) (inR := outR)
          (by
            rcases hor with ⟨rfl, hn⟩ | ⟨hne', rfl⟩
            · exact Or.inl ⟨if_pos rfl, hn⟩
            · exact Or.inr ⟨rfl, by rw [if_neg hne']; exact hR⟩)
        rw [h.sparse.height, h.sparse.start, e2, ok_bind]
        dsimp only
        exact h.scountRev har.mem hlt _ hml hmr _ _ (by omega)
    · obtain ⟨c, e2, hc⟩ := h.sapprox0 (le_antisymm h.sH h1) hal.mem har.mem hL hR hol hor
      rw [e2]
      have : (ts.filter fun u => decide (tl < u ∧ u < tr)).length = 0 := by
        rw [List.length_eq_zero_iff, List.filter_eq_nil_iff]
        intro u _ hu
        simp only [decide_eq_true_eq] at hu
        exact lt_asymm hlt (hu.1.trans hu.2)
      rw [show c = 0 by omega]
  unfold Filter.approxCountIter
  rw [hal.isValid, har.isValid]
  simp only [Bool.not_true, Bool.or_self, Bool.false_eq_true, if_false]
  rw [e, ok_bind]
  dsimp only
  rw [e1, ok_bind]
  rfl

end

end Surf
