import Verif.Props.RangeExact
import Verif.Props.SuffixWrap
import Verif.Props.SuffixKinds
import Verif.Props.CountAny

/-!
# Answers do not depend on the memory around the filter, nor on the split (C67, C68)

Two machines are compared (`e1`, `e2`: with or without assertions, with different contents of the memory that does not belong to the filter or was never
written), and two ratios.
-/

set_option linter.unusedSectionVars false
set_option autoImplicit false
set_option maxRecDepth 1000000

namespace Surf.Props
open Surf Trie

/-! ## The suffix of a key and the start level are the same on all machines -/

section
variable {cfg : Config} {keys : List Key} {e1 e2 : Env}

theorem shlW_env (h1 : e1.strict = false) (h2 : e2.strict = false) (w : Word) (n : Nat) : @shlW e1 w n = @shlW e2 w n := by
  unfold shlW; rw [h1, h2]

theorem shrW_env (h1 : e1.strict = false) (h2 : e2.strict = false) (w : Word) (n : Nat) : @shrW e1 w n = @shrW e2 w n := by
  unfold shrW; rw [h1, h2]

theorem constructSuffix_env (h1 : e1.strict = false) (h2 : e2.strict = false) (t : SuffixType) (k : Key) (a l b : Nat) :
    @BitvectorSuffix.constructSuffix e1 t k a l b = @BitvectorSuffix.constructSuffix e2 t k a l b := by
  cases t with
  | kHash =>
    simp only [BitvectorSuffix.constructSuffix, BitvectorSuffix.constructHashSuffix, shlW_env h1 h2, shrW_env h1 h2]
  | kMixed =>
    simp only [BitvectorSuffix.constructSuffix, BitvectorSuffix.constructMixedSuffix, BitvectorSuffix.constructHashSuffix, shlW_env h1 h2,
      shrW_env h1 h2]
  | kReal => rfl
  | kNone => rfl

theorem sfxOf_env (h1 : e1.strict = false) (h2 : e2.strict = false) (k : Key) (l : Nat) : @sfxOf e1 cfg k l = @sfxOf e2 cfg k l := by
  unfold sfxOf; rw [constructSuffix_env h1 h2]

theorem passes_env (h1 : e1.strict = false) (h2 : e2.strict = false) (w : Word) (k : Key) (l : Nat) :
    @passes e1 cfg w k l = @passes e2 cfg w k l := by
  unfold passes chk; rw [constructSuffix_env h1 h2]

/-- What the computation of the start level looks at. -/
def stripLevel (lv : Level) : Level := ⟨List.replicate lv.labels.length 0, [], [], [], lv.suffixCount, lv.nodeCount, false⟩

theorem denseMem_strip (L : Nat) (ls : List Level) (c : Nat) :
    Builder.computeDenseMem L (ls.map stripLevel) c = Builder.computeDenseMem L ls c := by
  unfold Builder.computeDenseMem
  congr 1
  apply List.map_congr_left
  intro l _
  unfold Builder.denseMemLevel
  have hg : ∀ (i : Nat), ((ls.map stripLevel)[i]?).map (·.nodeCount) = (ls[i]?).map (·.nodeCount) := by
    intro i
    rw [List.getElem?_map]
    cases ls[i]? <;> rfl
  have h2 : ((ls.map stripLevel).getD l Builder.newLevel).nodeCount = (ls.getD l Builder.newLevel).nodeCount ∧
      ((ls.map stripLevel).getD l Builder.newLevel).suffixCount = (ls.getD l Builder.newLevel).suffixCount := by
    rw [List.getD_eq_getElem?_getD, List.getD_eq_getElem?_getD, List.getElem?_map]
    cases ls[l]? <;> exact ⟨rfl, rfl⟩
  rw [h2.1, h2.2, hg]

theorem sparseMem_strip (L : Nat) (ls : List Level) (c : Nat) :
    Builder.computeSparseMem L (ls.map stripLevel) c = Builder.computeSparseMem L ls c := by
  unfold Builder.computeSparseMem
  rw [← List.map_drop, List.map_map]
  congr 1
  apply List.map_congr_left
  intro lv _
  simp [stripLevel]

theorem cutoff_strip (L ratio : Nat) (ls : List Level) :
    Builder.determineCutoffLevel L ratio (ls.map stripLevel) = Builder.determineCutoffLevel L ratio ls := by
  unfold Builder.determineCutoffLevel
  rw [List.length_map]
  generalize ls.length = n
  generalize 0 = c
  induction n generalizing c with
  | zero => rfl
  | succ n ih => simp only [Builder.cutoffLoop, denseMem_strip, sparseMem_strip, ih]

/-- The split is the same on all machines. -/
theorem start_env (h1 : e1.strict = false) (h2 : e2.strict = false) (h : Setting cfg keys) {f1 f2 : Filter}
    (c1 : @Filter.create e1 cfg keys = .ok f1) (c2 : @Filter.create e2 cfg keys = .ok f2) :
    f1.getSparseStartLevel = f2.getSparseStartLevel := by
  have hk := keysOk h.valid h.fits.toSmall
  obtain ⟨ls1, b1, r1⟩ := @buildSparse_ok e1 cfg (Or.inl h1) h.ok keys hk (@small_level e1 _ _ h.fits.toSmall)
  obtain ⟨ls2, b2, r2⟩ := @buildSparse_ok e2 cfg (Or.inl h2) h.ok keys hk (@small_level e2 _ _ h.fits.toSmall)
  rw [@start_of_create e1 _ _ _ h.dense b1 _ c1, @start_of_create e2 _ _ _ h.dense b2 _ c2, ← cutoff_strip _ _ ls1, ← cutoff_strip _ _ ls2]
  congr 1
  have hsf : @sfxs e1 cfg (leaves 0 (uniq keys)) = @sfxs e2 cfg (leaves 0 (uniq keys)) := by
    unfold sfxs
    apply List.map_congr_left
    intro x _
    rw [sfxOf_env h1 h2]
  rw [hsf] at r1
  apply List.ext_getElem?
  intro l
  rw [List.getElem?_map, List.getElem?_map]
  by_cases hl : l < ls1.length
  · have hl2 : l < ls2.length := by rw [r2.len, ← r1.len]; exact hl
    have g1 := r1.lvl l _ (List.getElem?_eq_getElem hl)
    have g2 := r2.lvl l _ (List.getElem?_eq_getElem hl2)
    rw [List.getElem?_eq_getElem hl, List.getElem?_eq_getElem hl2]
    simp only [Option.map_some, stripLevel, g1.labels, g2.labels, g1.node, g2.node, g1.sfxCount, g2.sfxCount]
  · have hl2 : ¬ l < ls2.length := by rw [r2.len, ← r1.len]; exact hl
    rw [List.getElem?_eq_none (by omega), List.getElem?_eq_none (by omega)]

/-! ## C67: two machines -/

/-- Observed positions determine what is observed. -/
theorem shows_same {it it' : Iter} {o : Option Nat} (h : Shows keys it o) (h' : Shows keys it' o) :
    it.isValid = it'.isValid ∧ it.getKey = it'.getKey := by
  cases o with
  | none => exact ⟨h.1.trans h'.1.symm, h.2.trans h'.2.symm⟩
  | some i =>
    obtain ⟨hv, k, hk, hg⟩ := h
    obtain ⟨hv', k', hk', hg'⟩ := h'
    rw [hk] at hk'
    cases hk'
    exact ⟨hv.trans hv'.symm, hg.trans hg'.symm⟩

/-- **C67**, point queries and iteration: on any two machines the filters of the same keys have the same split, answer every point query alike, and any steps from the
first or the last key have the same results and lead to the same key.
Missing from C67: `--` for lists with a key that starts with a zero byte, seeks and ranges that are not safe (`C67_range_partial`), `SingleFF` lists, and
counts, which do depend on the memory (`C67_refuted`). -/
theorem C67_partial (h1 : e1.strict = false) (h2 : e2.strict = false) (h : Setting cfg keys) (hff : ¬ Spec.SingleFF keys) :
    ∃ f1 f2, @Filter.create e1 cfg keys = .ok f1 ∧ @Filter.create e2 cfg keys = .ok f2 ∧
      f1.getSparseStartLevel = f2.getSparseStartLevel ∧
      (∀ q, ∃ r, @Filter.lookupKey e1 f1 q = .ok r ∧ @Filter.lookupKey e2 f2 q = .ok r) ∧
      ∀ ms : List Spec.Move, (Spec.Move.prev ∈ ms → ∀ k ∈ keys, k.head? ≠ some 0) →
        (∃ rs a1 a2 b1 b2, @Filter.moveToFirst e1 f1 = .ok a1 ∧ @Filter.moveToFirst e2 f2 = .ok a2 ∧
          @runMoves e1 f1 ms a1 = .ok (rs, b1) ∧ @runMoves e2 f2 ms a2 = .ok (rs, b2) ∧
          b1.isValid = b2.isValid ∧ b1.getKey = b2.getKey) ∧
        (∃ rs a1 a2 b1 b2, @Filter.moveToLast e1 f1 = .ok a1 ∧ @Filter.moveToLast e2 f2 = .ok a2 ∧
          @runMoves e1 f1 ms a1 = .ok (rs, b1) ∧ @runMoves e2 f2 ms a2 = .ok (rs, b2) ∧
          b1.isValid = b2.isValid ∧ b1.getKey = b2.getKey) := by
  obtain ⟨f1, c1, l1⟩ := @Setting.lookup _ _ e1 h h1 hff
  obtain ⟨f2, c2, l2⟩ := @Setting.lookup _ _ e2 h h2 hff
  obtain ⟨f1', c1', m1⟩ := @C13_partial e1 _ _ h h1 hff
  obtain ⟨f2', c2', m2⟩ := @C13_partial e2 _ _ h h2 hff
  rw [c1] at c1'; cases c1'
  rw [c2] at c2'; cases c2'
  have hst := start_env h1 h2 h c1 c2
  refine ⟨f1, f2, c1, c2, hst, fun q => ?_, fun ms hz => ?_⟩
  · obtain ⟨r1, g1, d1⟩ := l1 q
    obtain ⟨r2, g2, d2⟩ := l2 q
    refine ⟨r1, g1, ?_⟩
    rw [g2]
    congr 1
    rcases d1 with ⟨k, hm, rfl⟩ | ⟨hno, d1⟩
    · rcases d2 with ⟨k', hm', rfl⟩ | ⟨hno, -⟩
      · have := matches_unique h hm hm'
        subst this
        rw [sfxOf_env h1 h2, passes_env h1 h2]
      · exact absurd hm (hno k)
    · rcases d2 with ⟨k', hm', rfl⟩ | ⟨-, d2⟩
      · exact absurd hm' (hno k')
      · rw [Bool.eq_iff_iff, d1, d2, hst]
  · obtain ⟨⟨a1, b1, p1, p2, p3⟩, u1, v1, q1, q2, q3⟩ := m1 ms hz
    obtain ⟨⟨a2, b2, p1', p2', p3'⟩, u2, v2, q1', q2', q3'⟩ := m2 ms hz
    exact ⟨⟨_, a1, a2, b1, b2, p1, p1', p2, p2', shows_same p3 p3'⟩, _, u1, u2, v1, v2, q1, q1', q2, q2', shows_same q3 q3'⟩

/-- **C67**, range queries with a safe left bound that is included, or of keys without prefixes.
Missing: the left bounds that are not `SafeSeek`. -/
theorem C67_range_partial (h1 : e1.strict = false) (h2 : e2.strict = false) (h : Setting cfg keys) (hff : ¬ Spec.SingleFF keys) :
    ∃ o1 o2, @SuRF.create e1 cfg keys = .ok o1 ∧ @SuRF.create e2 cfg keys = .ok o2 ∧ ∀ left li right ri,
      @SafeSeek e1 cfg keys o1.filter.getSparseStartLevel left → @SafeSeek e2 cfg keys o1.filter.getSparseStartLevel left →
      right.length < 2 ^ 64 → Suffixes cfg keys right → (li = true ∨ Spec.PrefixFree keys) →
      ∃ r o1' o2', @SuRF.lookupRange e1 o1 left li right ri = .ok (r, o1') ∧ @SuRF.lookupRange e2 o2 left li right ri = .ok (r, o2') := by
  obtain ⟨f1, c1, m1⟩ := @C55_partial e1 _ _ h h1 hff
  obtain ⟨f2, c2, m2⟩ := @C55_partial e2 _ _ h h2 hff
  have hst : f1.getSparseStartLevel = f2.getSparseStartLevel := by
    obtain ⟨g1, d1, d1'⟩ := bind_inv c1
    obtain ⟨g2, d2, d2'⟩ := bind_inv c2
    cases d1'
    cases d2'
    exact start_env h1 h2 h d1 d2
  refine ⟨_, _, c1, c2, fun left li right ri s1 s2 h64 hsx hli => ?_⟩
  dsimp only at s1 s2
  obtain ⟨r1, o1, g1, -, d1⟩ := m1 left li right ri s1 h64 hsx
  rw [hst] at s2
  obtain ⟨r2, o2, g2, -, d2⟩ := m2 left li right ri s2 h64 hsx
  have : r1 = r2 := by rw [Bool.eq_iff_iff, d1 hli, d2 hli, hst]
  subst this
  exact ⟨r1, o1, o2, g1, g2⟩

end

/-- C67 fails for counts: the same count of the same filter, with two contents of the memory behind it. -/
theorem C67_refuted : @countQ Env.onesW cfgNone abKeys [97, 98] [98, 97] = .ok 0 ∧
    @countQ Env.x86 cfgNone abKeys [97, 98] [98, 97] = .error .diverge := C21_past_refuted

/-- Two machines as in the theorems. -/
theorem C67_example : Env.onesW.strict = false ∧ Env.x86dbg.strict = false ∧ Env.onesW.ndebug ≠ Env.x86dbg.ndebug ∧
    Env.onesW.junkW [] 0 ≠ Env.x86dbg.junkW [] 0 := by decide

/-! ## C68: two ratios -/

section
variable [Env] {cfg : Config} {keys : List Key}

/-- **C68**, iteration: filters of the same keys with different ratios deliver the same keys for any steps from the first or the last key.
Missing from C68: `--` for lists with a key that starts with a zero byte, `SingleFF` lists; ranges (`C68_range_partial`), counts (`C68_count_refuted`). -/
theorem C68_partial (h : Setting cfg keys) (hs : Env.strict = false) (hff : ¬ Spec.SingleFF keys) {ratio : Nat} (hr : 1 ≤ ratio ∧ ratio < 2 ^ 28) :
    ∃ f f', Filter.create cfg keys = .ok f ∧ Filter.create { cfg with ratio := ratio } keys = .ok f' ∧
      ∀ ms : List Spec.Move, (Spec.Move.prev ∈ ms → ∀ k ∈ keys, k.head? ≠ some 0) →
        (∃ rs a1 a2 b1 b2, f.moveToFirst = .ok a1 ∧ f'.moveToFirst = .ok a2 ∧ runMoves f ms a1 = .ok (rs, b1) ∧ runMoves f' ms a2 = .ok (rs, b2) ∧
          b1.isValid = b2.isValid ∧ b1.getKey = b2.getKey) ∧
        (∃ rs a1 a2 b1 b2, f.moveToLast = .ok a1 ∧ f'.moveToLast = .ok a2 ∧ runMoves f ms a1 = .ok (rs, b1) ∧ runMoves f' ms a2 = .ok (rs, b2) ∧
          b1.isValid = b2.isValid ∧ b1.getKey = b2.getKey) := by
  have h' : Setting { cfg with ratio := ratio } keys := ⟨h.ok, h.dense, hr, h.valid, h.fits⟩
  obtain ⟨f, c1, m1⟩ := C13_partial h hs hff
  obtain ⟨f', c2, m2⟩ := C13_partial h' hs hff
  refine ⟨f, f', c1, c2, fun ms hz => ?_⟩
  obtain ⟨⟨a1, b1, p1, p2, p3⟩, u1, v1, q1, q2, q3⟩ := m1 ms hz
  obtain ⟨⟨a2, b2, p1', p2', p3'⟩, u2, v2, q1', q2', q3'⟩ := m2 ms hz
  exact ⟨⟨_, a1, a2, b1, b2, p1, p1', p2, p2', shows_same p3 p3'⟩, _, u1, u2, v1, v2, q1, q1', q2, q2', shows_same q3 q3'⟩

/-- **C68**, range queries of keys without prefixes whose left bound is a safe seek in both filters.
Missing: the others (`C68_refuted`). -/
theorem C68_range_partial (h : Setting cfg keys) (hs : Env.strict = false) (hff : ¬ Spec.SingleFF keys) (hpf : Spec.PrefixFree keys) {ratio : Nat}
    (hr : 1 ≤ ratio ∧ ratio < 2 ^ 28) :
    ∃ o o', SuRF.create cfg keys = .ok o ∧ SuRF.create { cfg with ratio := ratio } keys = .ok o' ∧ ∀ left li right ri,
      SafeSeek cfg keys o.filter.getSparseStartLevel left → SafeSeek { cfg with ratio := ratio } keys o'.filter.getSparseStartLevel left →
      right.length < 2 ^ 64 → Suffixes cfg keys right → (∀ k ∈ keys, right <+: k → (Spec.stored keys k).length < right.length + 2018) →
      ∃ r o1 o2, o.lookupRange left li right ri = .ok (r, o1) ∧ o'.lookupRange left li right ri = .ok (r, o2) := by
  have h' : Setting { cfg with ratio := ratio } keys := ⟨h.ok, h.dense, hr, h.valid, h.fits⟩
  obtain ⟨f, c1, m1⟩ := C55_free_partial h hs hff hpf
  obtain ⟨f', c2, m2⟩ := C55_free_partial h' hs hff hpf
  refine ⟨_, _, c1, c2, fun left li right ri s1 s2 h64 hsx hfar => ?_⟩
  obtain ⟨r1, o1, g1, d1⟩ := m1 left li right ri s1 h64 hsx hfar
  obtain ⟨r2, o2, g2, d2⟩ := m2 left li right ri s2 h64 hsx hfar
  have : r1 = r2 := by rw [Bool.eq_iff_iff, d1, d2]; rfl
  subst this
  exact ⟨r1, o1, o2, g1, g2⟩

end

/-- C68 fails for ranges: with ratios 16 and 1 the same range over the same keys gets different answers. -/
theorem C68_refuted : @rangeQ Env.x86 { ratio := 16 } splitKeys [97, 200, 0] true [97, 200, 0, 0] true = .ok false ∧
    @rangeQ Env.x86 { ratio := 1 } splitKeys [97, 200, 0] true [97, 200, 0, 0] true = .ok true := by decide +kernel

/-- C68 fails for counts: from "a" to "a\xc8\x09" there are 265 keys; with ratio 16 the count is 263, with ratio 1 it is 2^32 more than that. -/
theorem C68_count_refuted : @countQ Env.onesW { ratio := 16 } splitKeys [97] [97, 200, 9] = .ok 263 ∧
    @countQ Env.onesW { ratio := 1 } splitKeys [97] [97, 200, 9] = .ok 4294967559 := by decide +kernel

end Surf.Props
