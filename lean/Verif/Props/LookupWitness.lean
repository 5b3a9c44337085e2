import Verif.Props.Lookup

/-!
# Point queries: counterexamples

Concrete executions of the model that violate a claim, evaluated by the kernel, and examples that the
hypotheses of the theorems in `Props/Lookup.lean` are satisfiable.
-/

set_option autoImplicit false
set_option maxRecDepth 1000000

namespace Surf.Props
open Surf

/-- Build and look up one key. -/
def run [Env] (cfg : Config) (keys : List Key) (q : Key) : R Bool := do
  let f ← Filter.create cfg keys
  f.lookupKey q

/-! ## C01 -/

theorem ffSetting : Setting cfgNone [[255, 1]] ∧ Spec.SingleFF [[255, 1]] :=
  ⟨⟨by decide, rfl, by decide, ⟨by decide, by decide, by decide⟩, fits_of_total (by decide) (by decide)⟩,
    ⟨[255, 1], by decide, rfl⟩⟩

/-- C01 fails, on every machine: a filter for the only key "\xff\x01" does not find it. -/
theorem C01_refuted [Env] (hs : Env.strict = false) : run cfgNone [[255, 1]] [255, 1] = .ok false := by
  obtain ⟨f, e, -, h⟩ := C35 ffSetting.1 hs
  unfold run
  rw [e]
  exact h ffSetting.2 _ (by decide)

/-- Outside the hypotheses: an empty stored key is not found. -/
theorem empty_key_missed : @run Env.x86 cfgNone [[], [1]] [] = .ok false := by decide +kernel

/-- Outside the hypotheses: with ratio 0 all levels become dense and the constructor reads outside a vector. -/
theorem ratio_zero_fails : @run Env.x86 { ratio := 0 } [[1, 1], [2, 2]] [7] = .error .oobRead := by decide +kernel

/-- Outside the hypotheses: suffixes of length 0 make every point query fail. -/
theorem zero_suffix_missed :
    @run Env.x86 { suffixType := .kReal } [[1, 1], [2, 2]] [1, 1] = .ok false ∧
    @run Env.x86 { suffixType := .kHash } [[1, 1], [2, 2]] [1, 1] = .ok false := by decide +kernel

/-! ## C02 -/

/-- 60 keys "a?" and ten keys "b?", none of them "b\x00". -/
def gapKeys : List Key :=
  (List.range 60).map (fun i => [97, UInt8.ofNat (2 * i + 1)]) ++ (List.range 10).map (fun i => [98, UInt8.ofNat (10 * i + 10)])

theorem gapSetting : Setting cfgNone gapKeys ∧ ¬ Spec.SingleFF gapKeys := by
  refine ⟨⟨by decide, rfl, by decide, ⟨by decide, by decide +kernel, by decide +kernel⟩, fits_of_total (by decide) (by decide +kernel)⟩, ?_⟩
  rintro ⟨k, h1, h2⟩
  have h3 := h1 [97, 1] (by decide +kernel)
  subst h3
  simp at h2

/-- The query "b\x00" matches no stored key. -/
theorem gap_no_match : ∀ k, ¬ Spec.Matches gapKeys k [98, 0] := by
  rintro k ⟨hk, h⟩
  rcases h with rfl | ⟨p, hp, hpk, hpq, hu⟩
  · exact absurd hk (by decide +kernel)
  · -- `p` is "b" or "b\x00"
    have hb : p <+: [98] ∨ p = [98, 0] := by
      rcases List.prefix_concat_iff.1 (show p <+: [98] ++ [0] from hpq) with h | h
      · exact Or.inr h
      · exact Or.inl h
    rcases hb with h | rfl
    · have h1 := hu [98, 10] (by decide +kernel) (h.trans ⟨[10], rfl⟩)
      have h2 := hu [98, 20] (by decide +kernel) (h.trans ⟨[20], rfl⟩)
      rw [← h1] at h2
      exact absurd h2 (by decide)
    · obtain ⟨r, rfl⟩ := hpk
      have : ∀ k ∈ gapKeys, k.take 2 ≠ [98, 0] := by decide +kernel
      exact this _ hk rfl

/-- C02 fails: the query "b\x00" is answered `true`, although no stored key matches it. -/
theorem C02_refuted : (∀ k, ¬ Spec.Matches gapKeys k [98, 0]) ∧ @run Env.x86 cfgNone gapKeys [98, 0] = .ok true :=
  ⟨gap_no_match, by decide +kernel⟩

/-! ## C07 -/

/-- The keys "a\x00?" for every byte and "a\xc8?" for the bytes 1 … 190. -/
def splitKeys : List Key :=
  (List.range 256).map (fun i => [97, 0, UInt8.ofNat i]) ++ (List.range 190).map (fun i => [97, 200, UInt8.ofNat (i + 1)])

theorem split_ratio16 : @run Env.x86 cfgNone splitKeys [97, 200, 0] = .ok false := by decide +kernel

theorem split_ratio1 : @run Env.x86 { ratio := 1 } splitKeys [97, 200, 0] = .ok true := by decide +kernel

/-- C07 fails: for ratios 16 and 1 the same query on the same keys gets different answers. -/
theorem C07_refuted : @run Env.x86 { ratio := 16 } splitKeys [97, 200, 0] ≠ @run Env.x86 { ratio := 1 } splitKeys [97, 200, 0] := by
  rw [split_ratio1, show @run Env.x86 { ratio := 16 } splitKeys [97, 200, 0] = .ok false from split_ratio16]
  intro h
  cases h

/-! ## C23, C24 -/

/-- C23 fails in strict ISO C++: without suffixes the builder shifts a 64-bit word by 64. -/
theorem C23_refuted : @Filter.create Env.iso cfgNone [[1], [2]] = .error .overShift := by decide +kernel

/-- C24 fails in strict ISO C++: the construction is fine, but searching a node of 20 labels
reads 16 bytes at a time and goes behind the end of the label array. -/
theorem C24_refuted :
    (∃ f, @Filter.create Env.iso cfgReal ((List.range 20).map fun i => [1, UInt8.ofNat i]) = .ok f) ∧
    @run Env.iso cfgReal ((List.range 20).map fun i => [1, UInt8.ofNat i]) [1, 30] = .error .oobRead := by
  constructor
  · have : (@Filter.create Env.iso cfgReal ((List.range 20).map fun i => [1, UInt8.ofNat i])).isOk = true := by
      decide +kernel
    revert this
    generalize @Filter.create Env.iso cfgReal ((List.range 20).map fun i => [1, UInt8.ofNat i]) = x
    cases x with
    | ok f => intro _; exact ⟨f, rfl⟩
    | error e => intro h; cases h
  · decide +kernel

/-! ## C34 -/

/-- C34 fails: a filter without dense levels answers `true` for an absent key; with suffixes its
construction reads outside a vector. -/
theorem C34_witness :
    @run Env.x86 { includeDense := false } [[1], [2]] [7] = .ok true ∧
    @run Env.x86 { cfgReal with includeDense := false } [[1, 1], [2, 2]] [7] = .error .oobRead := by decide +kernel

end Surf.Props
