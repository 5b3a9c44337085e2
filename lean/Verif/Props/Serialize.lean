import Verif.Proof.TrimFilter
import Verif.Proof.SerialShift
import Verif.Props.History

/-!
# Serialization
-/

set_option autoImplicit false
set_option maxRecDepth 1000000
set_option linter.unusedSectionVars false

namespace Surf.Props
open Surf Trie

section
variable [Env] {cfg : Config} {keys : List Key}

/-- Ways to get an iterator from a filter. -/
inductive Start
  | first
  | last
  | greater (q : Key) (incl : Bool)
  | less (q : Key) (incl : Bool)

/-- The iterator it gives. -/
def Start.get (f : Filter) : Start → R Iter
  | .first => f.moveToFirst
  | .last => f.moveToLast
  | .greater q incl => f.moveToKeyGreaterThan q incl
  | .less q incl => f.moveToKeyLessThan q incl

/-- The queries which the theorem on deserialized filters covers; `s` is the level at which the second encoding starts.
What they have in common is that the search does not run past the last label. -/
def CallAligned (keys : List Key) (s : Nat) : Call → Prop
  | .lookup q => Spec.LookupAligned keys s q
  | .range l _ _ _ => (l ≠ [] ∨ Env.ndebug = true) ∧ Spec.SeekAligned keys s l
  | .count l r => (l ≠ [] ∨ Env.ndebug = true) ∧ (r ≠ [] ∨ Env.ndebug = true) ∧ Spec.SeekAligned keys s l ∧ Spec.SeekAligned keys s r

def StartAligned (keys : List Key) (s : Nat) : Start → Prop
  | .first => True
  | .last => True
  | .greater q _ => (q ≠ [] ∨ Env.ndebug = true) ∧ Spec.SeekAligned keys s q
  | .less q _ => (q ≠ [] ∨ Env.ndebug = true) ∧ Spec.SeekAligned keys s q

theorem lookupEnd (h : Setting cfg keys) {s : Nat} (hs1 : 1 ≤ s) {q : Key} (ha : Spec.LookupAligned keys s q) :
    ∀ x b A, snodes (leafStrs keys) s = A ++ [x] → x ++ [b + 1] <+: w q → ex (leafStrs keys) (x ++ [b + 1]) = false →
      ¬ Overrun (leafStrs keys) s x := by
  intro x b A hA hp he
  obtain ⟨p, c, rfl, h1, h2, h3⟩ := h.leavesLast hs1 hA hp he
  rw [h.overrun_iff hs1 (x_int hA)]
  exact ha p c h1 h2 h3

theorem seekEnd (h : Setting cfg keys) {s : Nat} (hs1 : 1 ≤ s) {q : Key} (ha : Spec.SeekAligned keys s q) :
    NotLast (leafStrs keys) s q := by
  intro x b A hA hp he
  obtain ⟨p, c, rfl, h1, h2, h3⟩ := h.leavesLast hs1 hA hp he
  rw [h.overrun_iff hs1 (x_int hA)]
  obtain ⟨g1, g2⟩ := ha p c h1 h2 h3
  refine ⟨g2, ?_⟩
  by_contra hc
  obtain ⟨t, ht, hpt⟩ := ex_iff.1 (by simpa using hc : ex (leafStrs keys) (syms p ++ [0]) = true)
  obtain ⟨k, hk, rfl⟩ := h.mem_ts.1 ht
  have := w_pf (k := p) (hpt.trans (h.leaf_pre hk))
  exact g1 (this ▸ hk)

theorem moves_trim {sw : Str → Word} {ts : List Str} {s : Nat} {f : Filter} (hr : FRep cfg ts sw s f) (hs : Env.strict = false)
    (hroot : ∀ t ∈ ts, ¬ [0] <+: t) (ms : List Spec.Move) {it : Iter} (hf : Fine ts s it) :
    runMoves f.trim ms it = runMoves f ms it := by
  induction ms generalizing it with
  | nil => rfl
  | cons m ms ih =>
    unfold runMoves
    refine RRel.eq (P := (· = ·)) ?_ fun _ _ e => e
    refine RRel.bind (P := FineR ts s) ?_ fun x y _ _ hxy => ?_
    · cases m
      · exact hr.trim_inc hs hf
      · exact hr.trim_dec hs hroot hf
    · obtain ⟨rfl, hx⟩ := hxy
      obtain ⟨b, it'⟩ := x
      dsimp only
      rw [ih hx]
      exact RRel.refl _

theorem start_trim (h : Setting cfg keys) {s : Nat} {sw : Str → Word} {f : Filter} (hr : FRep cfg (leafStrs keys) sw s f)
    (hs : Env.strict = false) (st : Start) (ha : StartAligned keys s st) :
    RRel (FineI (leafStrs keys) s) (st.get f.trim) (st.get f) := by
  cases st with
  | first => exact hr.trim_first hs h.root
  | last => exact hr.trim_last hs h.root
  | greater q incl => exact hr.trim_seek hs h.root ha.1 incl (seekEnd h hr.s1 ha.2)
  | less q incl => exact hr.trim_less hs h.ok h.root ha.1 incl (seekEnd h hr.s1 ha.2)

theorem call_trim (h : Setting cfg keys) {s : Nat} {sw : Str → Word} {f : Filter} (hr : FRep cfg (leafStrs keys) sw s f)
    (hs : Env.strict = false) (c : Call) (ha : CallAligned keys s c) :
    (Prod.fst <$> call ⟨f.trim, Iter.new f.trim, Iter.new f.trim⟩ c) = (Prod.fst <$> call ⟨f, Iter.new f, Iter.new f⟩ c) := by
  have hs1 := hr.s1
  cases c with
  | lookup k =>
    unfold call SuRF.lookupKey
    dsimp only
    rw [hr.trim_lookup hs h.ok k (lookupEnd h hs1 ha)]
    simp only [map_bind, map_pure]
  | range l li r ri =>
    unfold call SuRF.lookupRange Filter.lookupRange
    dsimp only
    simp only [map_bind, map_pure, bind_assoc]
    refine RRel.eq (P := (· = ·)) ?_ fun _ _ e => e
    refine RRel.bind (hr.trim_rangeSeek hs h.root ha.1 li (seekEnd h hs1 ha.2)) fun x y _ _ hxy => ?_
    obtain ⟨rfl, hx⟩ := hxy
    split
    · exact RRel.refl _
    · exact RRel.refl _
  | count l r =>
    unfold call SuRF.approxCount Filter.approxCount
    dsimp only
    simp only [map_bind, map_pure, bind_assoc]
    refine RRel.eq (P := (· = ·)) ?_ fun _ _ e => e
    refine RRel.bind (hr.trim_seek hs h.root ha.1 true (seekEnd h hs1 ha.2.2.1)) fun x y _ _ hxy => ?_
    obtain ⟨rfl, hx⟩ := hxy
    split
    · exact RRel.refl _
    · simp only [bind_assoc]
      refine RRel.bind (hr.trim_seek hs h.root ha.2.1 true (seekEnd h hs1 ha.2.2.2)) fun y y' _ _ hyy => ?_
      obtain ⟨rfl, hy⟩ := hyy
      simp only [trim_countIter]
      split
      · simp only [bind_assoc]
        refine RRel.bind (hr.trim_last hs h.root) fun z z' _ _ hzz => ?_
        obtain ⟨rfl, -⟩ := hzz
        exact RRel.refl _
      · exact RRel.refl _

/-- Looking up a stored key is always covered. -/
theorem lookupAligned_stored {k : Key} (hk : k ∈ keys) (s : Nat) : Spec.LookupAligned keys s k :=
  fun _ _ hl _ _ => absurd hl.2.1 (hl.2.2 k hk)

theorem few_items (h : Setting cfg keys) (hk : keys.length ≤ 2 ^ 31) :
    (items (leafStrs keys) 0 (maxLen (leafStrs keys) + 1)).length ≤ 2 ^ 31 + 2 ^ 25 := by
  have h1 := items_le h.wf 0 (maxLen (leafStrs keys) + 1)
  have h2 := nodes_le h.wf h.sorted 0 (maxLen (leafStrs keys) + 1 + 1)
  rw [nodesR_split _ (Nat.zero_le 1) (by omega), List.length_append] at h2
  have h3 := h.fits.node
  have h4 : (leafStrs keys).length ≤ keys.length := leafStrs_length keys
  rw [Nat.zero_add] at h1
  omega

/-! ## C18 -/

theorem copy_answers (h : Setting cfg keys) (hs : Env.strict = false) (hff : ¬ Spec.SingleFF keys) :
    ∃ o, SuRF.create cfg keys = .ok o ∧ ∀ base fresh data, base % 8 = 0 → o.filter.Wf → o.filter.serialize base fresh = .ok data →
      ∀ base' post it2, base' % 8 = 0 → ∃ o', SuRF.deSerialize base' (data ++ post) it2 = .ok o' ∧
        (∀ k ∈ keys, o'.lookupKey k = .ok true) ∧
        (∀ cs, (∀ c ∈ cs, CallAligned keys o.filter.getSparseStartLevel c) → answers o' cs = answers o cs) ∧
        (∀ st ms, StartAligned keys o.filter.getSparseStartLevel st →
          (st.get o'.filter >>= runMoves o'.filter ms) = (st.get o.filter >>= runMoves o.filter ms)) ∧
        (∀ it : Iter, it.getSuffix o'.filter = it.getSuffix o.filter ∧
          it.getKeyWithSuffix o'.filter = it.getKeyWithSuffix o.filter ∧ ∀ q, it.compare o'.filter q = it.compare o.filter q) := by
  obtain ⟨f, s, e, hr, hp⟩ := h.create hs hff
  have hst : f.getSparseStartLevel = s := hr.sparse.start
  refine ⟨⟨f, Iter.new f, Iter.new f⟩, by unfold SuRF.create; rw [e]; rfl, fun base fresh data hb hw hd base' post it2 hb' => ?_⟩
  obtain ⟨data', e1, -, -, h2⟩ := Filter.roundtrip hw hb fresh
  obtain rfl : data' = data := Except.ok.inj (e1.symm.trans hd)
  refine ⟨⟨f.trim, Iter.new f.trim, it2⟩, by unfold SuRF.deSerialize; rw [h2 base' post hb']; rfl, ?_, ?_, ?_, ?_⟩
  · intro k hk
    obtain ⟨f', e', hl⟩ := C01_partial h hs hff
    rw [e] at e'
    cases e'
    exact (hr.trim_lookup hs h.ok k (lookupEnd h hr.s1 (lookupAligned_stored hk s))).trans (hl k hk)
  · intro cs hcs
    dsimp only at hcs ⊢
    rw [hst] at hcs
    rw [answers_fresh (hr.trim.navAll hs) cs rfl (Sized.new f.trim), answers_fresh (hr.navAll hs) cs rfl (Sized.new f)]
    induction cs with
    | nil => rfl
    | cons c cs ih =>
      rw [List.mapM_cons, List.mapM_cons, call_trim h hr hs c (hcs c (by simp)), ih fun c' hc' => hcs c' (by simp [hc'])]
  · intro st ms ha
    dsimp only at ha ⊢
    rw [hst] at ha
    refine RRel.eq (P := (· = ·)) ?_ fun _ _ e => e
    refine RRel.bind (start_trim h hr hs st ha) fun x y _ _ hxy => ?_
    obtain ⟨rfl, hx⟩ := hxy
    rw [moves_trim hr hs h.root ms hx]
    exact RRel.refl _
  · exact fun it => ⟨rfl, rfl, fun q => rfl⟩

/-- A filter read back from the bytes `serialize` wrote answers as the original: stored keys are found, every sequence of
covered queries gets the same answers, and every iterator obtained in a covered way and moved in any way shows the same.
`fresh` is what the buffer held before, `post` what follows it, `it2` the content of the member `deSerialize` leaves
uninitialized; the addresses of both buffers are multiples of 8.
Missing from C18: the queries that are not covered (they run past the last label, where the copy has no padding,
`C18_refuted`), `SingleFF` lists, and more than `2^31` keys. -/
theorem C18_partial (h : Setting cfg keys) (hs : Env.strict = false) (hff : ¬ Spec.SingleFF keys) (hk : keys.length ≤ 2 ^ 31) :
    ∃ o, SuRF.create cfg keys = .ok o ∧ ∀ base fresh, base % 8 = 0 → ∃ data, o.filter.serialize base fresh = .ok data ∧
      ∀ base' post it2, base' % 8 = 0 → ∃ o', SuRF.deSerialize base' (data ++ post) it2 = .ok o' ∧
        (∀ k ∈ keys, o'.lookupKey k = .ok true) ∧
        (∀ cs, (∀ c ∈ cs, CallAligned keys o.filter.getSparseStartLevel c) → answers o' cs = answers o cs) ∧
        (∀ st ms, StartAligned keys o.filter.getSparseStartLevel st →
          (st.get o'.filter >>= runMoves o'.filter ms) = (st.get o.filter >>= runMoves o.filter ms)) ∧
        (∀ it : Iter, it.getSuffix o'.filter = it.getSuffix o.filter ∧
          it.getKeyWithSuffix o'.filter = it.getKeyWithSuffix o.filter ∧ ∀ q, it.compare o'.filter q = it.compare o.filter q) := by
  obtain ⟨o, e, hx⟩ := copy_answers h hs hff
  refine ⟨o, e, fun base fresh hb => ?_⟩
  obtain ⟨f, s, e', hr, hp⟩ := h.create hs hff
  have hf : o.filter = f := by
    unfold SuRF.create at e
    rw [e'] at e
    cases e; rfl
  have hw : o.filter.Wf := by rw [hf]; exact hr.filterWf h.ok (few_items h hk)
  obtain ⟨data, e1, -⟩ := Filter.roundtrip hw hb fresh
  exact ⟨data, e1, hx base fresh data hb hw e1⟩

/-! ## C19 -/

/-- `serialize` fills a buffer of `serializedSize()` bytes exactly (its final assertion holds), and this number is a multiple
of 8, whatever the buffer held before.
Missing from C19: more than `2^31` keys.  (`serializedSize` adds the sizes of the parts in 32 bits, and the labels alone take
a byte each.) -/
theorem C19_partial (h : Setting cfg keys) (hs : Env.strict = false) (hk : keys.length ≤ 2 ^ 31) :
    ∃ f, Filter.create cfg keys = .ok f ∧ f.serializedSize % 8 = 0 ∧ ∀ base fresh, base % 8 = 0 →
      ∃ data, f.serialize base fresh = .ok data ∧ data.length = f.serializedSize := by
  have key : ∀ f, Filter.create cfg keys = .ok f → f.Wf → ∃ f, Filter.create cfg keys = .ok f ∧ f.serializedSize % 8 = 0 ∧
      ∀ base fresh, base % 8 = 0 → ∃ data, f.serialize base fresh = .ok data ∧ data.length = f.serializedSize := by
    intro f e hw
    refine ⟨f, e, ?_, fun base fresh hb => ?_⟩
    · obtain ⟨data, -, -, h8, -⟩ := Filter.roundtrip hw (base := 0) rfl fun _ => 0
      exact h8
    · obtain ⟨data, e1, h1, -, -⟩ := Filter.roundtrip hw hb fresh
      exact ⟨data, e1, h1⟩
  by_cases hff : Spec.SingleFF keys
  · obtain ⟨f, s, sw, e, hr, hp⟩ := h.create_ff hs hff
    exact key f e (hr.filterWf h.ok (by decide))
  · obtain ⟨f, s, e, hr, hp⟩ := h.create hs hff
    exact key f e (hr.filterWf h.ok (few_items h hk))

/-! ## C20 -/

/-- What `deSerialize` makes of some bytes (whatever they are) depends on the address of the buffer only through its remainder
modulo 8.  Missing from C20: buffers that are aligned differently (`C20_refuted`). -/
theorem C20_partial (data : List UInt8) (base base' : Nat) (h : base % 8 = base' % 8) :
    Filter.deSerialize base data = Filter.deSerialize base' data :=
  deSerialize_shift data h

/-! ## C39 -/

omit [Env] in
theorem mapM_congr' {α β : Type} {g g' : α → R β} {l : List α} (h : ∀ x ∈ l, g x = g' x) : l.mapM g = l.mapM g' := by
  induction l with
  | nil => rfl
  | cons a l ih =>
    rw [List.mapM_cons, List.mapM_cons, h a (by simp), ih fun x hx => h x (by simp [hx])]

theorem putLabels_take {a : List UInt8} {n : Nat} (h : n ≤ a.length) : putLabels (a.take n) n = putLabels a n := by
  funext B out
  unfold putLabels
  rw [mapM_congr' (g' := rdB a)]
  intro i hi
  have : i < n := by simpa using hi
  rw [rdB_ok (by rw [List.length_take]; omega), rdB_ok (by omega)]
  simp [List.getD, List.getElem?_take, this]

theorem serialize_trim {f : Filter} (h : f.Wf) (base : Nat) (fresh : Nat → UInt8) : f.trim.serialize base fresh = f.serialize base fresh := by
  have e : f.trim.sparse.serialize = f.sparse.serialize := by
    unfold LoudsSparse.serialize LabelVector.serialize
    have := putLabels_take h.sparse.labels.len
    have e1 : f.trim.sparse.labels.labels = f.sparse.labels.labels.take f.sparse.labels.numBytes := rfl
    have e2 : f.trim.sparse.labels.numBytes = f.sparse.labels.numBytes := rfl
    rw [e1, e2, this]
    rfl
  unfold Filter.serialize
  rw [e]
  rfl

/-- Writing a filter that was read back gives the same bytes again (if the buffer held the same bytes before, see `C40_refuted`),
at every address that is a multiple of 8. -/
theorem C39_partial (h : Setting cfg keys) (hs : Env.strict = false) (hk : keys.length ≤ 2 ^ 31) :
    ∃ f, Filter.create cfg keys = .ok f ∧ ∀ base fresh, base % 8 = 0 → ∃ data, f.serialize base fresh = .ok data ∧
      ∀ base' post, base' % 8 = 0 → ∃ f', Filter.deSerialize base' (data ++ post) = .ok f' ∧
        f'.serializedSize = f.serializedSize ∧ f'.serialize base fresh = .ok data := by
  have key : ∀ f, Filter.create cfg keys = .ok f → f.Wf → ∃ f, Filter.create cfg keys = .ok f ∧ ∀ base fresh, base % 8 = 0 →
      ∃ data, f.serialize base fresh = .ok data ∧
      ∀ base' post, base' % 8 = 0 → ∃ f', Filter.deSerialize base' (data ++ post) = .ok f' ∧
        f'.serializedSize = f.serializedSize ∧ f'.serialize base fresh = .ok data := by
    intro f e hw
    refine ⟨f, e, fun base fresh hb => ?_⟩
    obtain ⟨data, e1, -, -, h2⟩ := Filter.roundtrip hw hb fresh
    exact ⟨data, e1, fun base' post hb' => ⟨f.trim, h2 base' post hb', rfl, (serialize_trim hw base fresh).trans e1⟩⟩
  by_cases hff : Spec.SingleFF keys
  · obtain ⟨f, s, sw, e, hr, hp⟩ := h.create_ff hs hff
    exact key f e (hr.filterWf h.ok (by decide))
  · obtain ⟨f, s, e, hr, hp⟩ := h.create hs hff
    exact key f e (hr.filterWf h.ok (few_items h hk))

/-! ## C40 -/

/-- Whatever the buffers held before and wherever they are, what is written has the same length and reads back as the same
filter.  Missing from C40: the bytes may differ (`C40_refuted`), and more than `2^31` keys. -/
theorem C40_partial (h : Setting cfg keys) (hs : Env.strict = false) (hk : keys.length ≤ 2 ^ 31) :
    ∃ f, Filter.create cfg keys = .ok f ∧ ∃ f', ∀ base fresh, base % 8 = 0 → ∃ data, f.serialize base fresh = .ok data ∧
      data.length = f.serializedSize ∧ ∀ base', base' % 8 = 0 → Filter.deSerialize base' data = .ok f' := by
  have key : ∀ f, Filter.create cfg keys = .ok f → f.Wf → ∃ f, Filter.create cfg keys = .ok f ∧ ∃ f', ∀ base fresh, base % 8 = 0 →
      ∃ data, f.serialize base fresh = .ok data ∧
      data.length = f.serializedSize ∧ ∀ base', base' % 8 = 0 → Filter.deSerialize base' data = .ok f' := by
    intro f e hw
    refine ⟨f, e, f.trim, fun base fresh hb => ?_⟩
    obtain ⟨data, e1, e2, -, h2⟩ := Filter.roundtrip hw hb fresh
    exact ⟨data, e1, e2, fun base' hb' => by have := h2 base' [] hb'; rwa [List.append_nil] at this⟩
  by_cases hff : Spec.SingleFF keys
  · obtain ⟨f, s, sw, e, hr, hp⟩ := h.create_ff hs hff
    exact key f e (hr.filterWf h.ok (by decide))
  · obtain ⟨f, s, e, hr, hp⟩ := h.create hs hff
    exact key f e (hr.filterWf h.ok (few_items h hk))

end

/-! ## Witnesses -/

/-- x86-64 release build in which out-of-range bytes happen to be 1; for witnesses. -/
@[reducible] def Env.ones : Env := ⟨false, true, fun _ _ => 0, fun _ _ => 1, fun _ _ => 0⟩

/-- The copy of a filter answers a lookup differently, for keys that meet all conditions of `C18_partial`: the original reads
the zero padding behind its labels, the copy whatever follows its array. -/
theorem C18_refuted : Setting cfgNone gapKeys ∧ ¬ Spec.SingleFF gapKeys ∧
    ∃ f data f', @Filter.create Env.ones cfgNone gapKeys = .ok f ∧ @Filter.serialize Env.ones f 0 (fun _ => 0) = .ok data ∧
      @Filter.deSerialize Env.ones 0 data = .ok f' ∧
      @Filter.lookupKey Env.ones f [98, 1] = .ok false ∧ @Filter.lookupKey Env.ones f' [98, 1] = .ok true := by
  refine ⟨gapSetting.1, gapSetting.2, ?_⟩
  letI := Env.ones
  obtain ⟨f, s, e, hr, -⟩ := gapSetting.1.create rfl gapSetting.2
  obtain ⟨data, e1, -, -, h2⟩ := Filter.roundtrip (hr.filterWf gapSetting.1.ok (few_items gapSetting.1 (by decide))) (base := 0) rfl fun _ => 0
  have e2 := h2 0 [] rfl
  rw [List.append_nil] at e2
  have h : ∀ (g : Filter → R Bool) b, (Filter.create cfgNone gapKeys >>= g) = .ok b → g f = .ok b := by
    intro g b hg
    rwa [e, ok_bind] at hg
  exact ⟨f, data, f.trim, e, e1, e2, h (fun f => f.lookupKey _) _ (by decide +kernel), h (fun f => f.trim.lookupKey _) _ (by decide +kernel)⟩

/-- Builds a filter, writes it out to a buffer at a multiple of 8, and reads the bytes at address `base`. -/
def readAt [Env] (cfg : Config) (keys : List Key) (base : Nat) : R Nat := do
  let f ← Filter.create cfg keys
  let data ← f.serialize 0 fun _ => 0
  let f' ← Filter.deSerialize base data
  return f'.getHeight

/-- From a buffer whose address is not a multiple of 8 the same bytes are misread: here a zero is taken for the size of a
block, by which the code then divides. -/
theorem C20_refuted : @readAt Env.x86 cfgNone [[97]] 0 = .ok 2 ∧ @readAt Env.x86 cfgNone [[97]] 4 = .error .divZero := by
  constructor <;> decide +kernel

/-- The bytes of a filter, when the buffer was filled with `x`. -/
def bytesOf [Env] (cfg : Config) (keys : List Key) (x : UInt8) : R (List UInt8) := do
  let f ← Filter.create cfg keys
  f.serialize 0 fun _ => x

/-- The bytes written depend on what was in memory before: the gaps left for alignment are not filled. -/
theorem C40_refuted : @bytesOf Env.x86 cfgNone [[97]] 0 ≠ @bytesOf Env.x86 cfgNone [[97]] 1 := by decide +kernel

/-- The theorems apply to a filter with suffixes.  The queries are covered; the first and the third leave the stored keys. -/
example : ∃ o, @SuRF.create Env.x86 cfgReal8 rgKeys = .ok o ∧
    ∀ c ∈ [Call.lookup [97, 98, 104], .lookup [98, 99], .range [97, 98, 104] true [98] false, .count [97, 98, 104] [98]],
      @CallAligned Env.x86 rgKeys o.filter.getSparseStartLevel c := by
  letI := Env.x86
  obtain ⟨o, e, -⟩ := C18_partial rgSetting.2.1 rfl rgSetting.2.2 (by decide)
  have hl : (SuRF.create cfgReal8 rgKeys).map (fun o => o.filter.getSparseStartLevel) = .ok 1 := by decide +kernel
  rw [e] at hl
  have h1 : o.filter.getSparseStartLevel = 1 := by
    have hinj : ∀ {a b : Nat}, (Except.ok a : R Nat) = .ok b → a = b := fun h => by cases h; rfl
    exact hinj hl
  have hb : (Spec.branches rgKeys 1).length < 64 := by decide +kernel
  have hseek : ∀ q, (∀ p ∈ q.inits, Spec.LastShared rgKeys p → p ∉ rgKeys ∨ ∃ k ∈ rgKeys, q <+: k) → Spec.SeekAligned rgKeys 1 q := by
    intro q hq p b hl h2 h3
    refine ⟨?_, Spec.not_overrun (Or.inl hb)⟩
    rcases hq p ((List.mem_inits _ _).2 ((List.prefix_append p [b]).trans hl.2.1)) h3 with h4 | ⟨k, hk, h4⟩
    · exact h4
    · exact absurd (hl.2.1.trans h4) (hl.2.2 k hk)
  refine ⟨o, e, ?_⟩
  rw [h1]
  have q1 : Spec.SeekAligned rgKeys 1 [97, 98, 104] := hseek _ fun p hp _ => Or.inl (by
    have : ∀ p ∈ ([97, 98, 104] : Key).inits, p ∉ rgKeys := by decide
    exact this p hp)
  have q2 : Spec.SeekAligned rgKeys 1 [98] := hseek _ fun p _ _ => Or.inr ⟨[98], by decide, by decide⟩
  intro c hc
  simp only [List.mem_cons, List.not_mem_nil, or_false] at hc
  rcases hc with rfl | rfl | rfl | rfl
  · exact fun p b h2 h3 h4 => Spec.not_overrun (Or.inl hb)
  · exact fun p b h2 h3 h4 => Spec.not_overrun (Or.inl hb)
  · exact ⟨Or.inl (by decide), q1⟩
  · exact ⟨Or.inl (by decide), Or.inl (by decide), q1, q2⟩

end Surf.Props
