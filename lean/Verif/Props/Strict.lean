import Verif.Props.Vectors
import Verif.Props.Build
import Verif.Proof.StrictCreate

/-!
# Construction in ISO C++ (C84)
-/

set_option linter.unusedSectionVars false
set_option autoImplicit false
set_option maxRecDepth 1000000

/-- The bit vectors of a filter whose first `s` levels are in the first encoding, with `n` suffix bits per key, end inside a word or
with a level made of whole words. -/
structure Spec.InsideFilter (n : Nat) (keys : List Spec.Bytes) (s : Nat) : Prop where
  nodes : Spec.Inside ((List.range s).map (Spec.nodesAt keys))
  suffixes : Spec.Inside ((List.range s).map fun l => n * Spec.endsAt keys l)
  branches : Spec.Inside ((List.range' s (Spec.levels keys - s)).map (Spec.branchesAt keys))
  moreSuffixes : Spec.Inside ((List.range' s (Spec.levels keys - s)).map fun l => n * Spec.endsAt keys l)

namespace Surf.Props
open Surf Trie

section
variable [Env] {cfg : Config} {keys : List Key}

/-- C84 for one bit vector, exactly: in ISO C++ it is made of its levels, and has their bits, unless they end at a word boundary with a level
that is not made of whole words; then the constructor writes the word behind its array. -/
theorem C84_vector {lvs : List (List Word × Nat)} (hs : Env.strict = true) (h : ∀ lv ∈ lvs, Spec.Padded lv)
    (h32 : (Spec.allBits lvs).length < 2 ^ 32) :
    (Spec.Inside (lvs.map (·.2)) → ∃ b, Bitvector.mk' lvs = .ok b ∧ b.numBits = (Spec.allBits lvs).length ∧
      ∀ i, Spec.wordBit b.bits i = (Spec.allBits lvs).getD i false) ∧
    (¬ Spec.Inside (lvs.map (·.2)) → Bitvector.mk' lvs = .error .oobWrite) := by
  have hf : (lvs.map fun lv => (List.range lv.2).map (Spec.wordBit lv.1)).flatten = Spec.allBits lvs := by
    rw [Spec.allBits, List.flatMap_def]
  constructor
  · intro hi
    obtain ⟨b, e, hr⟩ := bitvector_ok (Or.inr hi) h h32
    exact ⟨b, e, hr.num, hr.bit⟩
  · intro hi
    unfold Spec.Inside at hi
    rw [← lastRest_iff] at hi
    obtain ⟨h1, h2⟩ := Classical.not_imp.1 hi
    have hl := levelBits_of_padded h
    rw [levels_sum hl] at h1
    exact (Bitvector.mk'_strict hl (by rw [hf, M32_eq]; exact h32)).2 hs h1 (not_not.1 h2)

theorem insideAt_iff (hv : Spec.Valid keys) (hf : Spec.Small (cfg.hashLen + cfg.realLen) keys) (s : Nat) :
    InsideAt cfg keys s ↔ Spec.InsideFilter (cfg.hashLen + cfg.realLen) keys s := by
  have hk := keysOk hv hf
  have hwf := leafStrs_wf hk
  have hu := uniq_sorted hk.sorted
  have e0 : ∀ g g' : Nat → Nat, (∀ l, g l = g' l) → InsideN ((List.range' 0 (s - 0)).map g) = Spec.Inside ((List.range s).map g') := by
    intro g g' hg
    rw [funext hg, List.range_eq_range', Nat.sub_zero]
    exact propext insideN_iff
  have e1 : ∀ g g' : Nat → Nat, (∀ l, g l = g' l) → InsideN ((List.range' s (maxLen (leafStrs keys) + 1 - s)).map g) =
      Spec.Inside ((List.range' s (Spec.levels keys - s)).map g') := by
    intro g g' hg
    rw [funext hg, levels_eq hwf hu]
    exact propext insideN_iff
  have a1 := e0 _ _ (fun l => nodes_card hwf hu l)
  have a2 := e1 _ _ (fun l => lev_card hwf hu hv.nonempty l)
  have hw : ∀ l, (cfg.hashLen + cfg.realLen) * (wordsAt (sfxs cfg (leaves 0 (uniq keys))) l).length =
      (cfg.hashLen + cfg.realLen) * Spec.endsAt keys l := by
    intro l
    unfold wordsAt
    rw [List.length_map, ends_card cfg hwf hu]
  have a3 := e0 _ _ hw
  have a4 := e1 _ _ hw
  constructor
  · rintro ⟨h1, h2, h3, h4⟩
    exact ⟨a1 ▸ h1, a3 ▸ h3, a2 ▸ h2, a4 ▸ h4⟩
  · rintro ⟨h1, h2, h3, h4⟩
    exact ⟨a1 ▸ h1, a2 ▸ h3, a3 ▸ h2, a4 ▸ h4⟩

/-- C84 with suffixes of real bits, exactly: in ISO C++ the filter is built if and only if its bit vectors end inside a word or with a
level made of whole words.  The number `s` of levels in the first encoding is the one of C31.
Missing from C84: that it always holds, which is false (`C84_refuted`); hash and mixed suffixes; a single key starting with byte 0xFF. -/
theorem C84_partial (hs : Env.strict = true) (hre : cfg.suffixType = .kReal) (h : Setting0 cfg keys) (hff : ¬ Spec.SingleFF keys)
    (h1 : (Spec.sharedPrefixes keys).length < 2 ^ 22) (h2 : keys.length ≤ 2 ^ 30) :
    ∃ s, 1 ≤ s ∧ s < Spec.levels keys ∧
      (∀ c, c < s → Spec.denseCost (cfg.hashLen + cfg.realLen) keys c * cfg.ratio < Spec.sparseCost (cfg.hashLen + cfg.realLen) keys c) ∧
      Spec.sparseCost (cfg.hashLen + cfg.realLen) keys s ≤ Spec.denseCost (cfg.hashLen + cfg.realLen) keys s * cfg.ratio ∧
      ((∃ f, Filter.create cfg keys = .ok f) ↔ Spec.InsideFilter (cfg.hashLen + cfg.realLen) keys s) := by
  have hk := keysOk h.valid h.fits.toSmall
  obtain ⟨ls, e, hr⟩ := buildSparse_ok (Or.inr hre) h.ok hk (small_level h.fits.toSmall)
  obtain ⟨c1, c2, c3, c4⟩ := cutoff_costs h.valid h.fits.toSmall h.ratio h1 h2 hr.weak
  refine ⟨_, c1, c2, c3, c4, ?_⟩
  rw [← insideAt_iff h.valid h.fits.toSmall]
  constructor
  · rintro ⟨f, hf⟩
    exact create_out hs hre h.dense h.ratio h.valid h.fits hff e hr.weak rfl hf
  · intro hin
    exact create_in hre h.ok h.dense h.ratio h.valid h.fits hff e hr.weak rfl hin

end

/-- Eight keys that are told apart by two and three bytes, four each. -/
def eightKeys : List Key := [[1, 1], [1, 2], [1, 3], [1, 4], [1, 5, 1], [1, 5, 2], [1, 5, 3], [1, 5, 4]]

/-- The hypotheses of `C84_partial` hold for these keys. -/
example : @Env.strict Env.iso = true ∧ Setting0 { suffixType := .kReal, realLen := 8 } eightKeys ∧ ¬ Spec.SingleFF eightKeys ∧
    (Spec.sharedPrefixes eightKeys).length < 2 ^ 22 ∧ eightKeys.length ≤ 2 ^ 30 := by
  refine ⟨rfl, Setting.weak ⟨by decide, rfl, by decide, by constructor <;> decide +kernel, fits_of_total (by decide) (by decide +kernel)⟩,
    ?_, by decide +kernel, by decide⟩
  rintro ⟨k, g, -⟩
  exact absurd ((g [1, 1] (by decide)).trans (g [1, 2] (by decide)).symm) (by decide)

/-- Both cases of `C84_vector`: 40 + 30 bits end inside a word, 34 + 30 bits end at a word boundary with a level of 30 bits. -/
example : Spec.Inside [40, 30] ∧ ¬ Spec.Inside [34, 30] ∧ Spec.Inside [64, 0] :=
  ⟨fun h => absurd h (by decide), fun h => h (by decide) ⟨[34], 30, [], rfl, by decide, by simp⟩, insideN_iff.1 (by unfold InsideN; decide)⟩

/-- C84 fails: eight suffixes of eight bits fill a word, and building the filter writes behind it in ISO C++.  With a ninth key it does not. -/
theorem C84_refuted : @Filter.create Env.iso { suffixType := .kReal, realLen := 8 } eightKeys = .error .oobWrite ∧
    (@Filter.create Env.iso { suffixType := .kReal, realLen := 8 } (eightKeys ++ [[1, 6]])).isOk = true := by decide +kernel

end Surf.Props
