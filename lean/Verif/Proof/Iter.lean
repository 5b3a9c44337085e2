import Verif.Proof.SparseIter

/-!
# The whole iterator

`At` says that an iterator points at a leaf.  `moveToFirst`, `moveToLast`, `++` and `--` go to the
first, last, next and previous leaf.
-/

set_option autoImplicit false
set_option linter.unusedSectionVars false

namespace Surf
open Trie

variable {ts : List Str}

/-! ## Order -/

theorem next_left {p t P : Str} (hn : IsNext ts p t) (hP : P <+: t) (hnp : ¬ P <+: p) : IsLeft ts P t := by
  refine ⟨hn.1, hP, fun t'' ht'' hP'' => ?_⟩
  have h1 : p < P := by
    obtain ⟨r, rfl⟩ := hP
    exact lt_of_lt_append hnp hn.2.1
  have h2 : ¬ p <+: P := fun hc => hn.2.2.1 (hc.trans hP)
  refine hn.2.2.2 t'' ht'' ?_ fun hc => ?_
  · obtain ⟨r, rfl⟩ := hP''
    exact lt_of_lt_of_le h1 (le_append _ _)
  · rcases List.prefix_or_prefix_of_prefix hc hP'' with h3 | h3
    · exact h2 h3
    · exact hnp h3

theorem prev_right {p t P : Str} (hn : IsPrev ts p t) (hP : P <+: t) (hnp : ¬ P <+: p) : IsRight ts P t := by
  refine ⟨hn.1, hP, fun t'' ht'' hP'' => hn.2.2 t'' ht'' ?_⟩
  obtain ⟨r, rfl⟩ := hP
  obtain ⟨r', rfl⟩ := hP''
  exact (lt_append_iff hnp).2 ((lt_append_iff hnp).1 hn.2.1)

/-- The next leaf of a leaf is the least leaf above it. -/
theorem isNext_iff (h : WF ts) {t t' : Str} (ht : t ∈ ts) : IsNext ts t t' ↔ t' ∈ ts ∧ t < t' ∧ ∀ u ∈ ts, t < u → t' ≤ u := by
  have hpf : ∀ u ∈ ts, t < u → ¬ t <+: u := fun u hu hlt hc => by
    rw [h.pf t ht u hu hc] at hlt
    exact lt_irrefl _ hlt
  constructor
  · rintro ⟨h1, h2, -, h4⟩
    exact ⟨h1, h2, fun u hu hlt => h4 u hu hlt (hpf u hu hlt)⟩
  · rintro ⟨h1, h2, h3⟩
    exact ⟨h1, h2, hpf _ h1 h2, fun u hu hlt _ => h3 u hu hlt⟩

theorem noNext_iff (h : WF ts) {t : Str} (ht : t ∈ ts) : NoNext ts t ↔ ∀ u ∈ ts, ¬ t < u := by
  constructor
  · intro hn u hu hlt
    rw [h.pf t ht u hu (hn u hu hlt)] at hlt
    exact lt_irrefl _ hlt
  · intro hn u hu hlt
    exact absurd hlt (hn u hu)

/-- A leaf of the sparse part is not below the first sparse leaf. -/
theorem stuck_le (h : WF ts) {s : Nat} {x : Str} {c : Nat} (hxs : x.length = s) (hm : x ++ [c] ∈ ts)
    (hc : ∀ d, d < c → ex ts (x ++ [d]) = false) (hmin : ∀ y, isInt ts y = true → y.length = s → x ≤ y)
    {t : Str} (ht : t ∈ ts) (hs : s < t.length) : x ++ [c] ≤ t := by
  have hl : (t.take s).length = s := by simp; omega
  have hi : isInt ts (t.take s) = true := by
    refine isInt_iff.2 ⟨t, ht, List.take_prefix _ _, fun e => ?_⟩
    rw [← e] at hs; omega
  have htp := List.take_prefix s t
  rcases lt_or_eq_of_le (hmin _ hi hl) with h1 | h1
  · have h2 : ¬ x <+: t.take s := fun hp => by
      rw [hp.eq_of_length (by omega)] at h1
      exact lt_irrefl _ h1
    have h3 := append_lt h1 h2 [c]
    obtain ⟨r, e⟩ := htp
    rw [← e]
    exact le_trans (le_of_lt h3) (le_append _ _)
  · obtain ⟨d, hd, hde⟩ := snoc_of_int h hi ht htp
    rw [← h1] at hd hde
    rcases Nat.lt_trichotomy d c with h4 | h4 | h4
    · rw [hc d h4] at hde; cases hde
    · subst h4
      obtain ⟨r, e⟩ := hd
      rw [← e]; exact le_append _ _
    · exact le_of_lt (snoc_lt_of_prefix (List.prefix_refl _) hd h4)

variable {cfg : Config} {sw : Str → Word} {s : Nat} {f : Filter} [Env]

/-! ## Position of an iterator -/

/-- The iterator points at the leaf `t`. -/
structure At (ts : List Str) (s : Nat) (it : Iter) (t : Str) : Prop where
  mem : t ∈ ts
  d : DAt ts s it.dense t
  sp : s < t.length → SAt ts s it.sparse t
  sx : t.length ≤ s → SIdle ts s it.sparse t

omit [Env] in
theorem At.isValid {it : Iter} {t : Str} (h : At ts s it t) : it.isValid = true := by
  unfold Iter.isValid
  rw [h.d.valid, h.d.complete]
  rcases Nat.lt_or_ge s t.length with h1 | h1
  · simp [(h.sp h1).valid]
  · simp [h1]

omit [Env] in
theorem dpath_take (h : WF ts) {t p : Str} (ht : t ∈ ts) (hp : p <+: t) (hs : p.length ≤ s) (h0 : 0 ∉ p) : DPath ts s p := by
  intro x c hx
  have hxt := hx.trans hp
  refine ⟨int_of_ex_snoc (ex_iff.2 ⟨t, ht, hxt⟩), ?_, ?_, ?_⟩
  · have := hx.length_le; simp at this; omega
  · rcases Nat.eq_zero_or_pos c with rfl | h1
    · exact absurd (hx.subset (by simp)) h0
    · exact h1
  · exact h.sym t ht c (hxt.subset (by simp))

omit [Env] in
theorem not_zero_take (h : WF ts) {t : Str} (ht : t ∈ ts) (hs : s < t.length) : 0 ∉ t.take s := by
  intro hc
  refine h.term t ht ?_
  rw [List.dropLast_eq_take]
  exact ((List.take_prefix_take_left (l := t) (by omega : s ≤ t.length - 1))).subset hc

omit [Env] in
theorem DAt.same {it : DIter} {t t' : Str} (h : DAt ts s it t) (hs : s < t.length) (hs' : s < t'.length)
    (hp : t.take s = t'.take s) : DAt ts s it t' := by
  refine ⟨h.valid, ?_, ?_, ?_, ?_, ?_⟩
  · rw [h.complete]; simp; omega
  · rw [h.pre, decide_eq_decide]
    exact ⟨fun hh => absurd hh.1 (by omega), fun hh => absurd hh.1 (by omega)⟩
  · intro x b _ hle; omega
  · intro x _ hle; omega
  · intro _; rw [← hp]; exact h.onS hs

omit [Env] in
theorem SIdle.mono {it : SIter} {t t' : Str} (h : SIdle ts s it t) (hlt : t' < t) : SIdle ts s it t' := by
  refine ⟨h.valid, h.term, h.kl, h.pl, ?_⟩
  rcases h.st with h1 | ⟨x, c, h1, h2, h3, h4, h5⟩
  · exact Or.inl h1
  · exact Or.inr ⟨x, c, h1, h2, h3, lt_trans hlt h4, h5⟩

/-! ## `++` -/

/-- Entering the sparse part from the left. -/
theorem FRep0.enterLeft (h : FRep0 cfg ts sw s f) {it : SIter} {p t : Str} (hst : SIdle ts s it p)
    (hp : p ∈ ts ∨ it.keyLen = 0) (hps : p.length ≤ s) (hn : IsNext ts p t) (hs : s < t.length) :
    ∃ it', ({ it with startNode := num ts (t.take s) } : SIter).moveToLeftMostKey f.sparse = .ok it' ∧ SAt ts s it' t := by
  have hl : (t.take s).length = s := by simp; omega
  have hi : isInt ts (t.take s) = true := by
    refine isInt_iff.2 ⟨t, hn.1, List.take_prefix _ _, fun e => ?_⟩
    rw [← e] at hs; omega
  rcases hst.st with h1 | ⟨x, c, h1, h2, h3, h4, h5, h6⟩
  · obtain ⟨it', t', e, hl', ha⟩ := h.sleft0 (it := { it with startNode := num ts (t.take s) }) hi hl h1 hst.kl hst.pl rfl hst.term
    have := hl'.unique (next_left hn (List.take_prefix _ _) fun hc => ?_)
    · rw [this] at ha
      exact ⟨it', e, ha⟩
    · have := hc.eq_of_length (by have := hc.length_le; omega)
      exact hn.2.2.1 (this ▸ List.take_prefix _ _)
  · have hle := stuck_le h.wf h1 h2 h5 h6 hn.1 hs
    have hge : t ≤ x ++ [c] := by
      refine hn.2.2.2 _ h2 h4 fun hc => ?_
      rcases hp with hp | hp
      · have := h.wf.pf _ hp _ h2 hc
        rw [this] at hps; simp at hps; omega
      · have := h3.len
        simp at this; omega
    have e := le_antisymm hge hle
    obtain ⟨it', t', e', hl', ha, -⟩ := h.sleft (it := { it with startNode := num ts (t.take s) }) (h3.congr rfl rfl rfl)
      (le_of_eq h1.symm) hst.term (ex_mem h2)
    have := hl'.unique (isLeft_leaf h.wf h2)
    rw [this, ← e] at ha
    exact ⟨it', e', ha⟩

theorem FRep0.incDense (h : FRep0 cfg ts sw s f) {it : Iter} {p : Str} (hv : it.dense.valid = true)
    (hst : SIdle ts s it.sparse p) (hp : p ∈ ts ∨ it.sparse.keyLen = 0) (hps : p.length ≤ s)
    (hd : ∃ d, it.dense.inc f.dense = .ok d ∧
      ((NoNext ts p ∧ d.valid = false ∧ d.keyLen = 0) ∨ ∃ t, IsNext ts p t ∧ DLeft ts s d t)) :
    ∃ r it', it.incrementDense f = .ok (r, it') ∧
      ((r = false ∧ it'.isValid = false ∧ NoNext ts p) ∨ (r = true ∧ ∃ t, IsNext ts p t ∧ At ts s it' t)) := by
  obtain ⟨d, e, hr⟩ := hd
  unfold Iter.incrementDense
  rw [hv]
  simp only [Bool.not_true, Bool.false_eq_true, if_false]
  rw [e, ok_bind]
  rcases hr with ⟨h1, h2, -⟩ | ⟨t, h1, h2⟩
  · rw [h2]
    exact ⟨false, _, rfl, Or.inl ⟨rfl, by simp [Iter.isValid, h2], h1⟩⟩
  · rw [h2.valid, h2.left]
    simp only [Bool.not_true, Bool.false_eq_true, if_false]
    rcases Nat.lt_or_ge s t.length with h3 | h3
    · rw [decide_eq_false (by omega)]
      simp only [Bool.false_eq_true, if_false]
      obtain ⟨it', e', ha⟩ := h.enterLeft hst hp hps h1 h3
      unfold Iter.passToSparse
      dsimp only
      rw [h2.send h3, e', ok_bind]
      exact ⟨true, _, rfl, Or.inr ⟨rfl, t, h1, ⟨h1.1, h2.toDAt, fun _ => ha, fun h4 => absurd h4 (by omega)⟩⟩⟩
    · rw [decide_eq_true h3]
      simp only [if_true]
      refine ⟨true, _, rfl, Or.inr ⟨rfl, t, h1, ⟨h1.1, h2.toDAt, fun h4 => absurd h4 (by omega), fun _ => ?_⟩⟩⟩
      refine ⟨hst.valid, hst.term, hst.kl, hst.pl, ?_⟩
      rcases hst.st with g1 | ⟨x, c, g1, g2, g3, g4, g5⟩
      · exact Or.inl g1
      · refine Or.inr ⟨x, c, g1, g2, g3, lt_of_le_of_ne (h1.2.2.2 _ g2 g4 fun hc => ?_) fun hc => ?_, g5⟩
        · rcases hp with hp | hp
          · have := h.wf.pf _ hp _ g2 hc
            rw [this] at hps; simp at hps; omega
          · have := g3.len
            simp at this; omega
        · rw [hc] at h3; simp at h3; omega

theorem FRep0.dincAt (h : FRep0 cfg ts sw s f) (hstr : Env.strict = false) {it : DIter} {t : Str} (ha : DAt ts s it t) (ht : t ∈ ts) :
    ∃ d, it.inc f.dense = .ok d ∧ ((NoNext ts (if s < t.length then t.take s else t) ∧ d.valid = false ∧ d.keyLen = 0) ∨
      ∃ t', IsNext ts (if s < t.length then t.take s else t) t' ∧ DLeft ts s d t') := by
  rcases Nat.lt_or_ge s t.length with hs | hs
  · have hl : (t.take s).length = s := by simp; omega
    have hz := not_zero_take h.wf ht hs
    rw [if_pos hs]
    exact h.dinc hstr (by have := h.s1; rw [← List.length_pos_iff]; omega) (ha.onS hs)
          (dpath_take h.wf ht (List.take_prefix _ _) (le_of_eq hl) hz)
          (by rw [ha.pre, decide_eq_false]; omega)
  · rw [if_neg (by omega)]
    obtain ⟨x, c, rfl⟩ : ∃ x c, t = x ++ [c] := by
      rcases List.eq_nil_or_concat t with rfl | ⟨x, c, rfl⟩
      · exact absurd rfl (h.wf.nonempty _ ht)
      · exact ⟨x, c, by simp⟩
    rcases c with _ | b
    · obtain ⟨b, hb, hmin, hon⟩ := ha.onP x rfl hs
      have hxs : x.length + 1 ≤ s := by simpa using hs
      have hb' := sym_le h.wf hb
      obtain ⟨it', t', e', g1, g2⟩ := h.dincPre hon ((dpath_take h.wf ht (List.prefix_append _ _) (by omega)
        (by have := h.wf.term _ ht; simpa using this)).snoc (int_of_ex_snoc hb) (by omega) (by omega))
        (by rw [ha.pre, decide_eq_true]; exact ⟨hs, by simp⟩) hb hmin
      exact ⟨it', e', Or.inr ⟨t', g1, g2⟩⟩
    · have h0 : 0 ∉ x ++ [b + 1] := fun hc => by
        have := (leaf_zero_iff h.wf ht).1 hc
        omega
      exact h.dinc hstr (by simp) (ha.on x b rfl hs) (dpath_take h.wf ht (List.prefix_refl _) hs h0)
        (by rw [ha.pre, decide_eq_false]; exact fun hc => h0 hc.2)

/-- `++` goes to the next leaf. -/
theorem FRep0.inc (h : FRep0 cfg ts sw s f) (hstr : Env.strict = false) {it : Iter} {t : Str} (ha : At ts s it t) :
    ∃ r it', it.inc f = .ok (r, it') ∧
      ((r = false ∧ it'.isValid = false ∧ NoNext ts t) ∨ (r = true ∧ ∃ t', IsNext ts t t' ∧ At ts s it' t')) := by
  unfold Iter.inc
  rw [ha.isValid]
  simp only [Bool.not_true, Bool.false_eq_true, if_false]
  unfold Iter.incrementSparse
  rcases Nat.lt_or_ge s t.length with hs | hs
  · have hsp := ha.sp hs
    have hl : (t.take s).length = s := by simp; omega
    rw [hsp.valid]
    simp only [Bool.not_true, Bool.false_eq_true, if_false]
    obtain ⟨it1, e1, hr⟩ := h.sinc hs hsp.on (ex_mem ha.mem)
    rw [e1, ok_bind]
    rcases hr with ⟨h1, h2, h3⟩ | ⟨t', h1, h2, h3⟩
    · dsimp only [pure, Except.pure]
      rw [ok_bind, h1.valid]
      simp only [Bool.false_eq_true, if_false]
      obtain ⟨r, it', e', hr'⟩ := h.incDense (it := { it with sparse := it1 }) (p := t.take s) ha.d.valid
        (h1.idle _) (Or.inr h1.len) (le_of_eq hl) (by have := h.dincAt hstr ha.d ha.mem; rwa [if_pos hs] at this)
      refine ⟨r, it', e', ?_⟩
      rcases hr' with ⟨g1, g2, g3⟩ | ⟨g1, t', g2, g3⟩
      · exact Or.inl ⟨g1, g2, h3 g3⟩
      · exact Or.inr ⟨g1, t', h2 _ g2, g3⟩
    · dsimp only [pure, Except.pure]
      rw [ok_bind, h3.valid]
      simp only [if_true]
      have h4 : t.take s = t'.take s := by
        have := List.prefix_iff_eq_take.1 h2
        rwa [hl] at this
      exact ⟨true, _, rfl, Or.inr ⟨rfl, t', h1, ⟨h1.1, ha.d.same hs h3.lt h4, fun _ => h3, fun h5 => absurd h3.lt (by omega)⟩⟩⟩
  · have hsx := ha.sx hs
    rw [hsx.valid]
    simp only [Bool.not_false, if_true]
    rw [ok_bind]
    simp only [Bool.false_eq_true, if_false]
    exact h.incDense ha.d.valid hsx (Or.inl ha.mem) hs (by have := h.dincAt hstr ha.d ha.mem; rwa [if_neg (by omega)] at this)

/-! ## `--` -/

theorem FRep0.decDense (h : FRep0 cfg ts sw s f) {it : Iter} {p : Str} (hv : it.dense.valid = true)
    (hst : ∀ t ∈ ts, t < p → SIdle ts s it.sparse t) (hps : p.length ≤ s)
    (hd : ∃ d, it.dense.dec f.dense = .ok d ∧
      ((d.valid = false ∧ ∀ t, IsPrev ts p t → Low t) ∨ ∃ t, IsPrev ts p t ∧ DRight ts s d t)) :
    ∃ r it', it.decrementDense f = .ok (r, it') ∧
      ((r = false ∧ it'.isValid = false ∧ ∀ t, IsPrev ts p t → Low t) ∨
        (r = true ∧ ∃ t, IsPrev ts p t ∧ At ts s it' t)) := by
  obtain ⟨d, e, hr⟩ := hd
  unfold Iter.decrementDense
  rw [hv]
  simp only [Bool.not_true, Bool.false_eq_true, if_false]
  rw [e, ok_bind]
  rcases hr with ⟨h2, h1⟩ | ⟨t, h1, h2⟩
  · rw [h2]
    exact ⟨false, _, rfl, Or.inl ⟨rfl, by simp [Iter.isValid, h2], h1⟩⟩
  · rw [h2.valid, h2.right]
    simp only [Bool.not_true, Bool.false_eq_true, if_false]
    have hst := hst t h1.1 h1.2.1
    rcases Nat.lt_or_ge s t.length with h3 | h3
    · rw [decide_eq_false (by omega)]
      simp only [Bool.false_eq_true, if_false]
      have hl : (t.take s).length = s := by simp; omega
      have hi : isInt ts (t.take s) = true := by
        refine isInt_iff.2 ⟨t, h1.1, List.take_prefix _ _, fun e => ?_⟩
        rw [← e] at h3; omega
      unfold Iter.passToSparse
      dsimp only
      rw [h2.send h3]
      rcases hst.st with g1 | ⟨x, c, g1, g2, g3, g4, g5, g6⟩
      · obtain ⟨it', t', e', hl', ha⟩ := h.sright0 (it := { it.sparse with startNode := num ts (t.take s) }) hi hl g1
          hst.kl hst.pl rfl hst.term
        rw [e', ok_bind]
        have := hl'.unique (prev_right h1 (List.take_prefix _ _) fun hc => ?_)
        · rw [this] at ha
          exact ⟨true, _, rfl, Or.inr ⟨rfl, t, h1, ⟨h1.1, h2.toDAt, fun _ => ha, fun h4 => absurd h4 (by omega)⟩⟩⟩
        · have := hc.eq_of_length (by have := hc.length_le; omega)
          have h5 := h1.2.1
          rw [← this] at h5
          obtain ⟨r, e⟩ := List.take_prefix s t
          have := le_append (t.take s) r
          rw [e] at this
          exact absurd h5 (not_lt.2 this)
      · exact absurd g4 (not_lt.2 (stuck_le h.wf g1 g2 g5 g6 h1.1 h3))
    · rw [decide_eq_true h3]
      simp only [if_true]
      exact ⟨true, _, rfl, Or.inr ⟨rfl, t, h1, ⟨h1.1, h2.toDAt, fun h4 => absurd h4 (by omega), fun _ => hst⟩⟩⟩

theorem FRep0.ddecAt (h : FRep0 cfg ts sw s f) (hroot : ∀ t ∈ ts, ¬ [0] <+: t) {it : DIter} {t : Str} (ha : DAt ts s it t) (ht : t ∈ ts) :
    ∃ d, it.dec f.dense = .ok d ∧
      ((d.valid = false ∧ ∀ t', IsPrev ts (if s < t.length then t.take s else t) t' → Low t') ∨
        ∃ t', IsPrev ts (if s < t.length then t.take s else t) t' ∧ DRight ts s d t') := by
  rcases Nat.lt_or_ge s t.length with hs | hs
  · have hl : (t.take s).length = s := by simp; omega
    have hz := not_zero_take h.wf ht hs
    rw [if_pos hs]
    exact h.ddec (by have := h.s1; rw [← List.length_pos_iff]; omega) (ha.onS hs)
          (dpath_take h.wf ht (List.take_prefix _ _) (le_of_eq hl) hz)
          (by rw [ha.pre, decide_eq_false]; omega) (ex_iff.2 ⟨t, ht, List.take_prefix _ _⟩)
  · rw [if_neg (by omega)]
    obtain ⟨x, c, rfl⟩ : ∃ x c, t = x ++ [c] := by
      rcases List.eq_nil_or_concat t with rfl | ⟨x, c, rfl⟩
      · exact absurd rfl (h.wf.nonempty _ ht)
      · exact ⟨x, c, by simp⟩
    rcases c with _ | b
    · obtain ⟨b, hb, hmin, hon⟩ := ha.onP x rfl hs
      have hxs : x.length + 1 ≤ s := by simpa using hs
      have hb' := sym_le h.wf hb
      exact h.ddecPre (fun hc => hroot _ ht (by rw [hc]; exact List.prefix_refl _)) hon
        ((dpath_take h.wf ht (List.prefix_append _ _) (by omega)
        (by have := h.wf.term _ ht; simpa using this)).snoc (int_of_ex_snoc hb) (by omega) (by omega))
        (by rw [ha.pre, decide_eq_true]; exact ⟨hs, by simp⟩)
    · have h0 : 0 ∉ x ++ [b + 1] := fun hc => by
        have := (leaf_zero_iff h.wf ht).1 hc
        omega
      exact h.ddec (by simp) (ha.on x b rfl hs) (dpath_take h.wf ht (List.prefix_refl _) hs h0)
        (by rw [ha.pre, decide_eq_false]; exact fun hc => h0 hc.2) (ex_mem ht)

/-- `--` goes to the previous leaf.  It can fail only if that leaf starts with byte 0x00. -/
theorem FRep0.dec (h : FRep0 cfg ts sw s f) (hroot : ∀ t ∈ ts, ¬ [0] <+: t) {it : Iter} {t : Str} (ha : At ts s it t) :
    ∃ r it', it.dec f = .ok (r, it') ∧
      ((r = false ∧ it'.isValid = false ∧ ∀ t', IsPrev ts t t' → Low t') ∨
        (r = true ∧ ∃ t', IsPrev ts t t' ∧ At ts s it' t')) := by
  unfold Iter.dec
  rw [ha.isValid]
  simp only [Bool.not_true, Bool.false_eq_true, if_false]
  unfold Iter.decrementSparse
  rcases Nat.lt_or_ge s t.length with hs | hs
  · have hsp := ha.sp hs
    have hl : (t.take s).length = s := by simp; omega
    rw [hsp.valid]
    simp only [Bool.not_true, Bool.false_eq_true, if_false]
    obtain ⟨it1, e1, hr⟩ := h.sdec hs hsp.on ha.mem
    rw [e1, ok_bind]
    rcases hr with ⟨h1, h2, h3, h4⟩ | ⟨t', h1, h2, h3⟩
    · dsimp only [pure, Except.pure]
      rw [ok_bind, h1]
      simp only [Bool.false_eq_true, if_false]
      have hz := not_zero_take h.wf ha.mem hs
      have hlt : t.take s < t := by
        refine lt_of_le_of_ne ?_ fun e => ?_
        · obtain ⟨r, e⟩ := List.take_prefix s t
          have := le_append (t.take s) r
          rwa [e] at this
        · rw [e] at hl; omega
      obtain ⟨r, it', e', hr'⟩ := h.decDense (it := { it with sparse := it1 }) (p := t.take s) ha.d.valid
        (fun u hu hlu => h4 u hu (lt_trans hlu hlt)) (le_of_eq hl)
        (by have := h.ddecAt hroot ha.d ha.mem; rwa [if_pos hs] at this)
      refine ⟨r, it', e', ?_⟩
      rcases hr' with ⟨g1, g2, g3⟩ | ⟨g1, t', g2, g3⟩
      · refine Or.inl ⟨g1, g2, fun t' ht' => g3 t' ⟨ht'.1, h3 _ ht'.1 ht'.2.1, fun u hu hlu => ht'.2.2 u hu (lt_trans hlu hlt)⟩⟩
      · exact Or.inr ⟨g1, t', h2 _ g2, g3⟩
    · dsimp only [pure, Except.pure]
      rw [ok_bind, h3.valid]
      simp only [if_true]
      have h4 : t.take s = t'.take s := by
        have := List.prefix_iff_eq_take.1 h2
        rwa [hl] at this
      exact ⟨true, _, rfl, Or.inr ⟨rfl, t', h1, ⟨h1.1, ha.d.same hs h3.lt h4, fun _ => h3, fun h5 => absurd h3.lt (by omega)⟩⟩⟩
  · have hsx := ha.sx hs
    rw [hsx.valid]
    simp only [Bool.not_false, if_true]
    rw [ok_bind]
    simp only [Bool.false_eq_true, if_false]
    exact h.decDense ha.d.valid (fun u _ hlu => hsx.mono hlu) hs (by have := h.ddecAt hroot ha.d ha.mem; rwa [if_neg (by omega)] at this)

/-! ## First and last leaf -/

omit [Env] in
theorem root_int (h : WF ts) : isInt ts [] = true := by
  obtain ⟨t, ht⟩ := List.exists_mem_of_ne_nil _ h.ne
  exact isInt_iff.2 ⟨t, ht, List.nil_prefix, (h.nonempty t ht).symm⟩

omit [Env] in
theorem FRep0.newIdle (h : FRep0 cfg ts sw s f) (t : Str) : SIdle ts s (SIter.new f.sparse) t :=
  ⟨rfl, rfl, by simp [SIter.new, h.sparse.height, h.sparse.start], by simp [SIter.new, h.sparse.height, h.sparse.start], Or.inl rfl⟩

theorem FRep0.newOn (h : FRep0 cfg ts sw s f) : DOn ts s (DIter.new f.dense) [] :=
  DOn.nil rfl (by simp [DIter.new, h.dense.height]) (by simp [DIter.new, h.dense.height])

/-- Setting the root label by hand is `append`. -/
theorem rootAppend {it : DIter} {b : Nat} (hk : it.keyLen = 0) (h1 : 0 < it.key.length) (hb : b < 256) :
    it.append b = (do
      let ps ← wr it.pos 0 b
      let k ← wr it.key 0 (UInt8.ofNat b)
      return { it with pos := ps, key := k, keyLen := it.keyLen + 1 }) := by
  unfold DIter.append
  rw [assertR_ok (by simp; omega), ok_bind, hk, wr_ok h1, ok_bind]
  have : b % kFanout = b := Nat.mod_eq_of_lt hb
  rw [this, wr_ok h1]
  rfl

theorem FRep0.dfirstRoot (h : FRep0 cfg ts sw s f) (hstr : Env.strict = false) (hroot : ∀ t ∈ ts, ¬ [0] <+: t) :
    ∃ d d' t, (DIter.new f.dense).setToFirstLabelInRoot f.dense = .ok d ∧ d.moveToLeftMostKey f.dense = .ok d' ∧
      IsLeft ts [] t ∧ DLeft ts s d' t := by
  have hi := root_int h.wf
  obtain ⟨c, hc, hmin⟩ := exists_first h.wf hi
  have hs1 := h.s1
  obtain ⟨b, rfl⟩ : ∃ b, c = b + 1 := by
    rcases c with _ | b
    · obtain ⟨t, ht, hp⟩ := ex_iff.1 hc
      exact absurd hp (hroot t ht)
    · exact ⟨b, rfl⟩
  have hb : b < 256 := by have := sym_le h.wf hc; omega
  have hn0 := num_root h.wf
  have hset : ∃ d, (DIter.new f.dense).setToFirstLabelInRoot f.dense = .ok d ∧ DOn ts s d ([] ++ [b + 1]) ∧ SameD d (DIter.new f.dense) := by
    obtain ⟨d, e, hon, hsame⟩ := h.newOn.append (b := b) (by simp; omega) hb
    refine ⟨d, ?_, hon, hsame⟩
    rw [← e, hn0, Nat.mul_zero, Nat.zero_add, rootAppend rfl (by simp [DIter.new, h.dense.height]; omega) hb]
    unfold DIter.setToFirstLabelInRoot
    have hr := h.dlabel hi (by simp; omega) (b := 0) (by omega)
    rw [hn0] at hr
    rw [hr, ok_bind]
    by_cases h0 : ex ts ([] ++ [0 + 1]) = true
    · rw [h0]
      have : b = 0 := by
        by_contra hb0
        rw [hmin 1 (by omega)] at h0; cases h0
      subst this
      rfl
    · rw [if_neg h0]
      obtain ⟨n, e, hn⟩ := h.dnext hstr hi (by simp; omega) (b := 0) (by omega)
      rw [hn0, Nat.mul_zero, Nat.zero_add] at e
      rw [e, ok_bind]
      have : n = b := by
        rcases hn with ⟨b', h1, h2, h3, h4, h5⟩ | ⟨h1, -⟩
        · rw [h5, hn0]
          have h6 : ¬ b' < b := fun hlt => by rw [hmin (b' + 1) (by omega)] at h3; cases h3
          have h7 : ¬ b < b' := fun hlt => by
            have h8 : b ≠ 0 := fun hb0 => h0 (by rw [hb0] at hc; exact hc)
            rw [h4 b (by omega) hlt] at hc; cases hc
          omega
        · have h8 : b ≠ 0 := fun hb0 => h0 (by rw [hb0] at hc; exact hc)
          rw [h1 b (by omega)] at hc; cases hc
      rw [this]
  obtain ⟨d, e, hon, hsame⟩ := hset
  have hpath : DPath ts s ([] ++ [b + 1]) := DPath.nil.snoc hi (by simp; omega) hb
  obtain ⟨d', t, e', hl, hd⟩ := h.dleft hon hpath (by rw [hsame.2.2.2.2.2]; rfl) hc
  exact ⟨d, d', t, e, e', hl.up h.wf hmin, hd⟩

theorem FRep0.moveToFirst (h : FRep0 cfg ts sw s f) (hstr : Env.strict = false) (hroot : ∀ t ∈ ts, ¬ [0] <+: t) :
    ∃ it t, f.moveToFirst = .ok it ∧ IsLeft ts [] t ∧ At ts s it t ∧ it.couldBeFp = false := by
  have hs1 := h.s1
  obtain ⟨d, d', t, e, e', hl0, hd⟩ := h.dfirstRoot hstr hroot
  unfold Filter.moveToFirst
  rw [if_pos (by rw [h.dense.height]; omega)]
  simp only [Iter.new]
  rw [e, ok_bind, e', ok_bind, hd.left]
  rcases Nat.lt_or_ge s t.length with h3 | h3
  · rw [decide_eq_false (by omega)]
    simp only [Bool.false_eq_true, if_false]
    unfold Iter.passToSparse
    dsimp only
    rw [hd.send h3]
    have htl : (t.take s).length = s := by simp; omega
    have hti : isInt ts (t.take s) = true := by
      refine isInt_iff.2 ⟨t, hl0.1, List.take_prefix _ _, fun e => ?_⟩
      rw [← e] at h3; omega
    obtain ⟨it', t', e', hl', ha⟩ := h.sleft0 (it := { SIter.new f.sparse with startNode := num ts (t.take s) }) hti htl rfl
      (h.newIdle t).kl (h.newIdle t).pl rfl rfl
    have : t' = t := hl'.unique ⟨hl0.1, List.take_prefix _ _, fun u hu _ => hl0.2.2 u hu List.nil_prefix⟩
    rw [e', ok_bind]
    rw [this] at ha
    exact ⟨_, t, rfl, hl0, ⟨hl0.1, hd.toDAt, fun _ => ha, fun h4 => absurd h4 (by omega)⟩, rfl⟩
  · rw [decide_eq_true h3]
    simp only [if_true]
    exact ⟨_, t, rfl, hl0, ⟨hl0.1, hd.toDAt, fun h4 => absurd h4 (by omega), fun _ => h.newIdle t⟩, rfl⟩

theorem FRep0.dlastRoot (h : FRep0 cfg ts sw s f) (hroot : ∀ t ∈ ts, ¬ [0] <+: t) :
    ∃ d d' t, (DIter.new f.dense).setToLastLabelInRoot f.dense = .ok d ∧ d.moveToRightMostKey f.dense = .ok d' ∧
      IsRight ts [] t ∧ DRight ts s d' t := by
  have hi := root_int h.wf
  obtain ⟨c, hc, hmax⟩ := exists_last h.wf hi
  have hs1 := h.s1
  obtain ⟨b, rfl⟩ : ∃ b, c = b + 1 := by
    rcases c with _ | b
    · obtain ⟨t, ht, hp⟩ := ex_iff.1 hc
      exact absurd hp (hroot t ht)
    · exact ⟨b, rfl⟩
  have hb : b < 256 := by have := sym_le h.wf hc; omega
  have hn0 := num_root h.wf
  have hset : ∃ d, (DIter.new f.dense).setToLastLabelInRoot f.dense = .ok d ∧ DOn ts s d ([] ++ [b + 1]) ∧ SameD d (DIter.new f.dense) := by
    obtain ⟨d, e, hon, hsame⟩ := h.newOn.append (b := b) (by simp; omega) hb
    refine ⟨d, ?_, hon, hsame⟩
    rw [← e, hn0, Nat.mul_zero, Nat.zero_add, rootAppend rfl (by simp [DIter.new, h.dense.height]; omega) hb]
    unfold DIter.setToLastLabelInRoot
    obtain ⟨n, e, hn⟩ := h.dprev hi (by simp; omega) (b := 256) (by omega) (by simp)
    rw [hn0, Nat.mul_zero, Nat.zero_add] at e
    change f.dense.getPrevPos kFanout = _ at e
    rw [e, ok_bind]
    have : n.getD 0 = b := by
      rcases hn with ⟨b', h1, h2, h3, h4⟩ | ⟨h1, -⟩
      · have h6 : ¬ b < b' := fun hlt => by rw [hmax (b' + 1) (by omega)] at h2; cases h2
        have h7 : ¬ b' < b := fun hlt => by rw [h3 b hlt hb] at hc; cases hc
        have h8 : b' = b := by omega
        rcases h4 with h4 | ⟨h4, -, h5⟩
        · rw [h4, hn0]; simp [h8]
        · rw [h4]; simp; omega
      · rw [h1 b hb] at hc; cases hc
    simp only [this]
  obtain ⟨d, e, hon, hsame⟩ := hset
  have hpath : DPath ts s ([] ++ [b + 1]) := DPath.nil.snoc hi (by simp; omega) hb
  obtain ⟨d', t, e', hl, hd⟩ := h.dright hon hpath (by rw [hsame.2.2.2.2.2]; rfl) hc
  exact ⟨d, d', t, e, e', hl.up h.wf hmax, hd⟩

theorem FRep0.moveToLast (h : FRep0 cfg ts sw s f) (hroot : ∀ t ∈ ts, ¬ [0] <+: t) :
    ∃ it t, f.moveToLast = .ok it ∧ IsRight ts [] t ∧ At ts s it t ∧ it.couldBeFp = false := by
  have hs1 := h.s1
  obtain ⟨d, d', t, e, e', hl0, hd⟩ := h.dlastRoot hroot
  unfold Filter.moveToLast
  rw [if_pos (by rw [h.dense.height]; omega)]
  simp only [Iter.new]
  rw [e, ok_bind, e', ok_bind, hd.right]
  rcases Nat.lt_or_ge s t.length with h3 | h3
  · rw [decide_eq_false (by omega)]
    simp only [Bool.false_eq_true, if_false]
    unfold Iter.passToSparse
    dsimp only
    rw [hd.send h3]
    have htl : (t.take s).length = s := by simp; omega
    have hti : isInt ts (t.take s) = true := by
      refine isInt_iff.2 ⟨t, hl0.1, List.take_prefix _ _, fun e => ?_⟩
      rw [← e] at h3; omega
    obtain ⟨it', t', e', hl', ha⟩ := h.sright0 (it := { SIter.new f.sparse with startNode := num ts (t.take s) }) hti htl rfl
      (h.newIdle t).kl (h.newIdle t).pl rfl rfl
    have : t' = t := hl'.unique ⟨hl0.1, List.take_prefix _ _, fun u hu _ => hl0.2.2 u hu List.nil_prefix⟩
    rw [e', ok_bind]
    rw [this] at ha
    exact ⟨_, t, rfl, hl0, ⟨hl0.1, hd.toDAt, fun _ => ha, fun h4 => absurd h4 (by omega)⟩, rfl⟩
  · rw [decide_eq_true h3]
    simp only [if_true]
    exact ⟨_, t, rfl, hl0, ⟨hl0.1, hd.toDAt, fun h4 => absurd h4 (by omega), fun _ => h.newIdle t⟩, rfl⟩

/-! ## The key -/

/-- The bytes of a leaf string. -/
def bytesOf (t : Str) : Key := (t.filter (· ≠ 0)).map toB

omit [Env] in
theorem bytesOf_nz {t : Str} (h : 0 ∉ t) : bytesOf t = t.map toB := by
  unfold bytesOf
  congr 1
  refine List.filter_eq_self.2 fun a ha => ?_
  simp only [ne_eq, decide_not, Bool.not_eq_eq_eq_not, Bool.not_true, decide_eq_false_iff_not]
  intro hc
  exact h (hc ▸ ha)

omit [Env] in
theorem bytesOf_append (a b : Str) : bytesOf (a ++ b) = bytesOf a ++ bytesOf b := by
  simp [bytesOf]

omit [Env] in
theorem labB_eq {c : Nat} (h : c ≠ 0) : labB c = toB c := by
  cases c with
  | zero => exact absurd rfl h
  | succ c => rfl

omit [Env] in
theorem map_labB {t : Str} (h : 0 ∉ t) : t.map labB = t.map toB :=
  List.map_congr_left fun _ hc => labB_eq fun h0 => h (h0 ▸ hc)

omit [Env] in
theorem At.denseKey {it : Iter} {t : Str} (h : At ts s it t) (hs : s < t.length) (hz : 0 ∉ t.take s) :
    it.dense.getKey = bytesOf (t.take s) := by
  have hon := h.d.onS hs
  have hk := hon.key
  unfold DIter.getKey
  rw [h.d.valid, h.d.pre, decide_eq_false (by omega)]
  simp only [Bool.not_true, Bool.false_eq_true, if_false]
  rw [hon.len, hk, bytesOf_nz hz]

omit [Env] in
/-- `getKey` returns the bytes of the leaf. -/
theorem At.getKey (hwf : WF ts) {it : Iter} {t : Str} (h : At ts s it t) : it.getKey = bytesOf t := by
  unfold Iter.getKey
  rw [h.isValid, h.d.complete]
  simp only [Bool.not_true, Bool.false_eq_true, if_false]
  rcases Nat.lt_or_ge s t.length with hs | hs
  · rw [decide_eq_false (by omega)]
    simp only [Bool.false_eq_true, if_false]
    have hz := not_zero_take hwf h.mem hs
    rw [h.denseKey hs hz]
    have hsp := h.sp hs
    have hk := hsp.on.key
    have : it.sparse.getKey = bytesOf (t.drop s) := by
      unfold SIter.getKey
      rw [hsp.valid, hsp.term, hsp.on.len]
      simp only [Bool.not_true, Bool.false_eq_true, if_false, decide_eq_true_eq]
      obtain ⟨x, c, rfl⟩ : ∃ x c, t = x ++ [c] := by
        rcases List.eq_nil_or_concat t with rfl | ⟨x, c, rfl⟩
        · simp at hs
        · exact ⟨x, c, by simp⟩
      have hxs : s ≤ x.length := by simp at hs; omega
      have hx0 : 0 ∉ x := by have := hwf.term _ h.mem; simpa using this
      have hxd : 0 ∉ x.drop s := fun hc => hx0 ((List.drop_suffix _ _).subset hc)
      rw [List.drop_append_of_le_length hxs, bytesOf_append, bytesOf_nz hxd]
      rw [List.drop_append_of_le_length hxs, List.map_append, map_labB hxd] at hk
      have hl : ((x.drop s).map toB).length = x.length - s := by simp
      by_cases h0 : c = 0
      · subst h0
        rw [if_pos (by simp)]
        have : it.sparse.key.take ((x ++ [0]).length - s - 1) =
            (it.sparse.key.take ((x ++ [0]).length - s)).take ((x ++ [0]).length - s - 1) := by
          rw [List.take_take]; congr 1; omega
        rw [this, hk]
        have : (x ++ [0]).length - s - 1 = ((x.drop s).map toB).length := by simp; omega
        rw [this, List.take_left]
        simp [bytesOf]
      · rw [if_neg (by rw [leaf_zero_iff hwf h.mem]; exact h0), hk]
        simp [bytesOf, h0, labB_eq h0]
    rw [this, ← bytesOf_append, List.take_append_drop]
  · rw [decide_eq_true hs]
    simp only [if_true]
    unfold DIter.getKey
    rw [h.d.valid, h.d.pre]
    simp only [Bool.not_true, Bool.false_eq_true, if_false, decide_eq_true_eq]
    obtain ⟨x, c, rfl⟩ : ∃ x c, t = x ++ [c] := by
      rcases List.eq_nil_or_concat t with rfl | ⟨x, c, rfl⟩
      · exact absurd rfl (hwf.nonempty _ h.mem)
      · exact ⟨x, c, by simp⟩
    have hx0 : 0 ∉ x := by have := hwf.term _ h.mem; simpa using this
    rcases c with _ | b
    · obtain ⟨b, -, -, hon⟩ := h.d.onP x rfl hs
      rw [if_pos ⟨hs, by simp⟩, hon.len]
      have hk := hon.key
      have : it.dense.key.take ((x ++ [b + 1]).length - 1) =
          (it.dense.key.take (x ++ [b + 1]).length).take ((x ++ [b + 1]).length - 1) := by
        rw [List.take_take]; congr 1; omega
      rw [this, hk, bytesOf_append, bytesOf_nz hx0]
      simp [bytesOf]
    · have hon := h.d.on x b rfl hs
      have h0 : 0 ∉ x ++ [b + 1] := fun hc => by
        have := (leaf_zero_iff hwf h.mem).1 hc
        omega
      rw [if_neg (fun hc => h0 hc.2), hon.len, hon.key, bytesOf_nz h0]

/-! ## The suffix -/

/-- The suffix of a prefix key, at the position of the first label of its node. -/
theorem FRep0.dsfxPre' (h : FRep0 cfg ts sw s f) {x : Str} (hx : isInt ts x = true) (hs : x.length < s)
    (ht : x ++ [0] ∈ ts) {b : Nat} (hb : b < 256) (hmin : ∀ d, d < b → ex ts (x ++ [d + 1]) = false) :
    ∃ i, f.dense.getSuffixPos (256 * num ts x + b) true = .ok i ∧
      (leafWords ts sw (items ts 0 s))[i]? = some (sw (x ++ [0])) := by
  obtain ⟨A, C, e, e2⟩ := h.dnode hx hs
  have hl := h.wf.isInt_leaf ht
  obtain ⟨D, hD⟩ := items_at h.wf e (ex_mem ht)
  refine ⟨_, ?_, leafWords_at hD hl⟩
  have h0 : before ts A x (b + 1) = before ts A x 1 :=
    before_skip A x (by omega) fun d h1 h2 => by
      obtain ⟨d, rfl⟩ : ∃ d', d = d' + 1 := ⟨d - 1, by omega⟩
      exact hmin d (by omega)
  have h1 : (before ts A x (b + 1)).countP (fun p => !isInt ts p) =
      (before ts A x 0).countP (fun p => !isInt ts p) + 1 := by
    rw [h0, before_succ, if_pos (ex_mem ht), List.countP_append]; simp [hl]
  have h2 : (before ts A x (b + 2)).countP (fun p => !isInt ts p) =
      (before ts A x 0).countP (fun p => !isInt ts p) + 1 +
        if ex ts (x ++ [b + 1]) && !isInt ts (x ++ [b + 1]) then 1 else 0 := by
    rw [before_succ, List.countP_append, h1]
    cases hq : ex ts (x ++ [b + 1]) <;> simp
  have b4 := h.count_lt e (n := b + 2) (by omega) (fun p => !isInt ts p)
  have h32 := h.i32
  have := h.dsfxBase e (b := b) (by omega) (by rw [h2]; omega) true
  rw [← e2, this, if_pos rfl]
  have r1 := h.dlabel hx hs (b := b) (by omega)
  have r2 := h.dchild hx hs (b := b) (by omega)
  rw [← e2] at r1 r2
  rw [r1, ok_bind]
  rw [h2] at b4 ⊢
  cases hq : ex ts (x ++ [b + 1])
  · simp
  · rw [if_pos rfl, r2, ok_bind]
    cases hi : isInt ts (x ++ [b + 1])
    · simp only [hq, hi, Bool.not_false, Bool.and_self, if_true] at b4 ⊢
      exact ok_congr (by rw [sub32_eq (by omega) (by omega)]; omega)
    · simp

/-- Position of the suffix of a leaf in its suffix vector. -/
theorem FRep0.sfxAt (h : FRep0 cfg ts sw s f) {it : Iter} {t : Str} (ha : At ts s it t) (hs : t.length ≤ s) :
    ∃ p i, rdP it.dense.pos (sub32 it.dense.keyLen 1) = .ok p ∧ f.dense.getSuffixPos p it.dense.atPrefix = .ok i ∧
      (leafWords ts sw (items ts 0 s))[i]? = some (sw t) := by
  have h32 := h.h32
  have hsH := h.sH
  obtain ⟨x, c, rfl⟩ : ∃ x c, t = x ++ [c] := by
    rcases List.eq_nil_or_concat t with rfl | ⟨x, c, rfl⟩
    · exact absurd rfl (h.wf.nonempty _ ha.mem)
    · exact ⟨x, c, by simp⟩
  have hxs : x.length + 1 ≤ s := by simpa using hs
  have hxi := int_of_ex_snoc (ex_mem ha.mem)
  have hsub : sub32 (x.length + 1) 1 = x.length := by rw [sub32_eq (by omega) (by omega)]; omega
  rw [ha.d.pre]
  rcases c with _ | b
  · obtain ⟨b, hb, hmin, hon⟩ := ha.d.onP x rfl hs
    have hlen := hon.len
    simp only [List.length_append, List.length_singleton] at hlen
    rw [decide_eq_true ⟨hs, by simp⟩, hlen, hsub]
    have hb' := sym_le h.wf hb
    obtain ⟨i, e1, e2⟩ := h.dsfxPre' hxi (by omega) ha.mem (b := b) (by omega) hmin
    exact ⟨_, i, hon.rd (List.prefix_refl _), e1, e2⟩
  · have hon := ha.d.on x b rfl hs
    have hlen := hon.len
    simp only [List.length_append, List.length_singleton] at hlen
    have h0 : 0 ∉ x ++ [b + 1] := fun hc => by
      have := (leaf_zero_iff h.wf ha.mem).1 hc
      omega
    rw [decide_eq_false (fun hc => h0 hc.2), hlen, hsub]
    have hb' := sym_le h.wf (ex_mem ha.mem)
    obtain ⟨i, e1, e2⟩ := h.dsfx hxi (by omega) (b := b) (by omega) ha.mem
    exact ⟨_, i, hon.rd (List.prefix_refl _), e1, e2⟩

theorem FRep0.sfxAtS (h : FRep0 cfg ts sw s f) {it : Iter} {t : Str} (ha : At ts s it t) (hs : s < t.length) :
    ∃ p i, rdP it.sparse.pos (sub32 it.sparse.keyLen 1) = .ok p ∧ f.sparse.getSuffixPos p = .ok i ∧
      (leafWords ts sw (sitems ts s))[i]? = some (sw t) := by
  have h32 := h.h32
  obtain ⟨x, c, rfl⟩ : ∃ x c, t = x ++ [c] := by
    rcases List.eq_nil_or_concat t with rfl | ⟨x, c, rfl⟩
    · exact absurd rfl (h.wf.nonempty _ ha.mem)
    · exact ⟨x, c, by simp⟩
  have hxs : s ≤ x.length := by simp at hs; omega
  have hon := (ha.sp hs).on
  have hlen := hon.len
  simp only [List.length_append, List.length_singleton] at hlen
  have hle := ex_len (ex_mem ha.mem)
  simp only [List.length_append, List.length_singleton] at hle
  have hsub : sub32 (x.length + 1 - s) 1 = x.length - s := by rw [sub32_eq (by omega) (by omega)]; omega
  obtain ⟨i, e1, e2⟩ := h.ssfx (mem_sitems.2 ⟨hs, ex_mem ha.mem⟩) ha.mem
  rw [hlen, hsub]
  exact ⟨_, i, hon.rd (List.prefix_refl _) hxs, e1, e2⟩

/-- `getSuffix`: the real part of the stored suffix word. -/
theorem FRep0.getSuffix (h : FRep0 cfg ts sw s f) (hstr : Env.strict = false) {it : Iter} {t : Str} (ha : At ts s it t) :
    it.getSuffix f = (if cfg.suffixType = .kReal ∨ cfg.suffixType = .kMixed then do
        let w ← BitvectorSuffix.extractRealSuffix (sw t) cfg.realLen
        return (cfg.realLen, w)
      else .ok (0, 0)) := by
  unfold Iter.getSuffix
  rw [ha.isValid, ha.d.complete]
  simp only [Bool.not_true, Bool.false_eq_true, if_false]
  rcases Nat.lt_or_ge s t.length with hs | hs
  · rw [decide_eq_false (by omega)]
    simp only [Bool.false_eq_true, if_false]
    unfold SIter.getSuffix
    rw [h.sparse.sfx.type]
    by_cases hc : cfg.suffixType = .kReal ∨ cfg.suffixType = .kMixed
    · rw [if_pos hc, if_pos (by simpa using hc)]
      obtain ⟨p, i, e1, e2, e3⟩ := h.sfxAtS ha hs
      obtain ⟨g1, g2, g3⟩ := h.sparse.sfx.some (by rcases hc with hc | hc <;> rw [hc] <;> decide)
      have hi : i < (leafWords ts sw (sitems ts s)).length := by
        by_contra hn
        rw [List.getElem?_eq_none (by omega)] at e3; cases e3
      rw [e1, ok_bind, e2, ok_bind]
      unfold BitvectorSuffix.readReal
      rw [BitvectorSuffix.read_ok hstr g3 hi, ok_bind, g2, List.getD_eq_getElem?_getD, e3]
      rfl
    · rw [if_neg hc, if_neg (by simpa using hc)]
      rfl
  · rw [decide_eq_true hs]
    simp only [if_true]
    unfold DIter.getSuffix
    rw [h.dense.sfx.type, ha.d.complete, decide_eq_true hs, Bool.true_and]
    by_cases hc : cfg.suffixType = .kReal ∨ cfg.suffixType = .kMixed
    · rw [if_pos hc, if_pos (by simpa using hc)]
      obtain ⟨p, i, e1, e2, e3⟩ := h.sfxAt ha hs
      obtain ⟨g1, g2, g3⟩ := h.dense.sfx.some (by rcases hc with hc | hc <;> rw [hc] <;> decide)
      have hi : i < (leafWords ts sw (items ts 0 s)).length := by
        by_contra hn
        rw [List.getElem?_eq_none (by omega)] at e3; cases e3
      rw [e1, ok_bind, e2, ok_bind]
      unfold BitvectorSuffix.readReal
      rw [BitvectorSuffix.read_ok hstr g3 hi, ok_bind, g2, List.getD_eq_getElem?_getD, e3]
      rfl
    · rw [if_neg hc, if_neg (by simpa using hc)]
      rfl

omit [Env] in
theorem mask_msb {r : Nat} (hr : r < 64) {i : Nat} (hi : i < 64) : (1#64 <<< r - 1#64).getMsbD i = decide (64 - r ≤ i) := by
  have hp : 2 ^ r < 2 ^ 64 := Nat.pow_lt_pow_right (by omega) hr
  have h1 : 1 ≤ 2 ^ r := Nat.one_le_two_pow
  have : (1#64 <<< r - 1#64) = BitVec.ofNat 64 (2 ^ r - 1) := by
    apply BitVec.eq_of_toNat_eq
    rw [BitVec.toNat_sub, BitVec.toNat_shiftLeft, BitVec.toNat_ofNat, BitVec.toNat_ofNat, Nat.shiftLeft_eq]
    simp only [Nat.one_mod, Nat.one_mul]
    rw [Nat.mod_eq_of_lt hp, Nat.mod_eq_of_lt (by omega : 2 ^ r - 1 < 2 ^ 64)]
    omega
  rw [this, BitVec.getMsbD_eq_getLsbD, BitVec.getLsbD_ofNat, Nat.testBit_two_pow_sub_one]
  rw [decide_eq_true hi, decide_eq_true (by omega : 64 - 1 - i < 64), Bool.true_and, Bool.true_and, decide_eq_decide]
  omega

/-- `extractRealSuffix` keeps the last `realLen` bits. -/
theorem extractReal {r : Nat} (hr : r < 64) (w : Word) : ∃ v, BitvectorSuffix.extractRealSuffix w r = .ok v ∧
    Fits r v ∧ valBits r v = valBits r w := by
  refine ⟨w &&& (1#64 <<< r - 1#64), ?_, ?_, ?_⟩
  · unfold BitvectorSuffix.extractRealSuffix shlW
    rw [if_pos hr]
    rfl
  · intro i hi
    rw [BitVec.getMsbD_and, mask_msb hr (by omega), decide_eq_false (by omega), Bool.and_false]
  · refine List.map_congr_left fun i hi => ?_
    have := List.mem_range.1 hi
    rw [BitVec.getMsbD_and, mask_msb hr (by omega), decide_eq_true (by omega), Bool.and_true]

/-- The real part of a stored suffix. -/
theorem sfxOf_real (hs : Env.strict = false) (hc : cfg.Ok) (hn : cfg.suffixType = .kReal ∨ cfg.suffixType = .kMixed)
    (hr : cfg.realLen < 64) (k : Key) (l : Nat) :
    BitvectorSuffix.extractRealSuffix (sfxOf cfg k l) cfg.realLen = .ok (BitvectorSuffix.constructRealSuffix k l cfg.realLen) := by
  obtain ⟨v, e, hf, hv⟩ := extractReal hr (sfxOf cfg k l)
  rw [e]
  congr 1
  have h64 := hc.1
  refine hf.ext (constructRealSuffix_spec k l cfg.realLen (by omega)).1 (by omega) ?_
  rw [hv]
  rcases hn with hn | hn
  · have : sfxOf cfg k l = BitvectorSuffix.constructRealSuffix k l cfg.realLen := by
      unfold sfxOf BitvectorSuffix.constructSuffix
      rw [hn]
      rfl
    rw [this]
  · have h1 : 1 ≤ cfg.hashLen := by have := hc.2; rw [hn] at this; exact this
    obtain ⟨w, e1, e2⟩ := constructHashSuffix_ok hs k h1 (by omega)
    have e4 : sfxOf cfg k l = (w <<< cfg.realLen) ||| BitvectorSuffix.constructRealSuffix k l cfg.realLen := by
      unfold sfxOf BitvectorSuffix.constructSuffix
      rw [hn]
      dsimp only [BitvectorSuffix.constructMixedSuffix]
      rw [e1, ok_bind, shlW, if_pos (by omega), ok_bind]
      rfl
    rw [e4]
    refine List.map_congr_left fun i hi => ?_
    have := List.mem_range.1 hi
    rw [BitVec.getMsbD_or, BitVec.getMsbD_shiftLeft, BitVec.getMsbD_of_ge _ _ (by omega)]
    simp

end Surf
