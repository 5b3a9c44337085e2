import Verif.Props.Range
import Verif.Props.IterWitness

/-!
# Seeks, comparison and range queries: examples and refutations

Concrete lists and queries that meet the hypotheses of the theorems in `Verif/Props/Range.lean`, and executions of
the model that violate the full claims.
-/

set_option autoImplicit false
set_option maxRecDepth 1000000

namespace Surf.Props
open Surf Trie

/-! ## Examples -/

/-- Real suffixes of one byte. -/
def cfgReal8 : Config := { suffixType := .kReal, realLen := 8 }

/-- "abcd", "abe", "abkx", "b", "bc". -/
def rgKeys : List Key := [[97, 98, 99, 100], [97, 98, 101], [97, 98, 107, 120], [98], [98, 99]]

theorem rgSetting : Setting cfgNone rgKeys ∧ Setting cfgReal8 rgKeys ∧ ¬ Spec.SingleFF rgKeys := by
  have hv : Spec.Valid rgKeys := ⟨by decide, by decide, by decide⟩
  have hf : ∀ n, n ≤ 64 → Spec.Fits n rgKeys := fun n hn => fits_of_total hn (by decide)
  refine ⟨⟨by decide, rfl, by decide, hv, hf _ (by decide)⟩, ⟨by decide, rfl, by decide, hv, hf _ (by decide)⟩, ?_⟩
  rintro ⟨k, h1, h2⟩
  have := h1 [98] (by decide)
  subst this
  simp at h2

/-- Seeking "abh", which leaves the stored keys behind "ab" and is between two of them, meets all conditions. -/
theorem rgSafe : @SafeSeek Env.x86 cfgReal8 rgKeys 1 [97, 98, 104] := by
  letI := Env.x86
  refine ⟨Or.inl (by decide), fun p b hl h1 => Or.inl ⟨?_, ?_⟩, suffixes_of_le (by decide) _, Or.inl (by decide)⟩
  · have hp : p ∈ ([97, 98, 104] : Key).inits := (List.mem_inits _ _).2 ((List.prefix_append p [b]).trans hl.2.1)
    have : ∀ p ∈ ([97, 98, 104] : Key).inits, p ∉ rgKeys := by decide
    exact this p hp
  · exact Or.inl fun hc => Spec.not_overrun (Or.inl (by decide +kernel)) hc.2

theorem rgLevel : (@Filter.create Env.x86 cfgReal8 rgKeys).map Filter.getSparseStartLevel = .ok 1 := by decide +kernel

/-- The theorems apply: the scan from "abh". -/
example : ∃ f, @Filter.create Env.x86 cfgReal8 rgKeys = .ok f ∧
    ∃ it, @Filter.moveToKeyGreaterThan Env.x86 f [97, 98, 104] true = .ok it := by
  obtain ⟨f, e, h⟩ := @C38_partial Env.x86 _ _ rgSetting.2.1 rfl rgSetting.2.2
  have hl := rgLevel
  rw [e] at hl
  have : f.getSparseStartLevel = 1 := by
    have hinj : ∀ {a b : Nat}, (Except.ok a : R Nat) = .ok b → a = b := fun h => by cases h; rfl
    exact hinj hl
  obtain ⟨it, o, e1, -⟩ := h [97, 98, 104] true (this ▸ rgSafe)
  exact ⟨f, e, it, e1⟩

/-- The additional hypotheses of `C16_partial` hold for the query "abh". -/
example : (∀ k ∈ rgKeys, k.head? ≠ some 0) ∧ (∀ k, Spec.Matches rgKeys k [97, 98, 104] → k ≠ [97, 98, 104] →
    Spec.realSuffix0 8 k (Spec.cut rgKeys k) ≠ List.replicate 8 false) := by
  refine ⟨by decide, fun k hm _ => ?_⟩
  exfalso
  obtain ⟨hk, h | ⟨p, hp, h1, h2, h3⟩⟩ := hm
  · subst h
    exact absurd hk (by decide)
  · have h4 : ∀ k ∈ rgKeys, ∀ p ∈ ([97, 98, 104] : Key).inits, p <+: k → p ≠ [] → ∃ k' ∈ rgKeys, p <+: k' ∧ k' ≠ k := by decide
    obtain ⟨k', h5, h6, h7⟩ := h4 k hk p ((List.mem_inits _ _).2 h2) h1 hp
    exact h7 (h3 k' h5 h6)

section
variable [Env]

/-- One range query on a new object. -/
def rangeQ (cfg : Config) (keys : List Key) (left : Key) (li : Bool) (right : Key) (ri : Bool) : R Bool := do
  let o ← SuRF.create cfg keys
  let (b, _) ← o.lookupRange left li right ri
  return b

/-- A seek, its flag, and a sequence of steps: validity and key before and after them. -/
def seekQ (cfg : Config) (keys : List Key) (q : Key) (incl : Bool) (ms : List Spec.Move) :
    R ((Bool × Bool × Key) × List Bool × Bool × Key) := do
  let f ← Filter.create cfg keys
  let it ← f.moveToKeyGreaterThan q incl
  let (rs, it') ← runMoves f ms it
  return ((it.getFpFlag, it.isValid, it.getKey), rs, it'.isValid, it'.getKey)

/-- A seek backward: flag, validity and key. -/
def lessQ (cfg : Config) (keys : List Key) (q : Key) (incl : Bool) : R (Bool × Bool × Key) := do
  let f ← Filter.create cfg keys
  let it ← f.moveToKeyLessThan q incl
  return (it.getFpFlag, it.isValid, it.getKey)

/-- The key of the first iterator and the result of comparing it. -/
def cmpQ (cfg : Config) (keys : List Key) (q : Key) : R (Key × Int) := do
  let f ← Filter.create cfg keys
  let it ← f.moveToFirst
  let c ← it.compare f q
  return (it.getKey, c)

end

/-- The model on the example: "abh" leads to "abk", then "b"; backward to "abe". -/
theorem seek_example :
    @seekQ Env.x86 cfgReal8 rgKeys [97, 98, 104] true [.next] = .ok ((false, true, [97, 98, 107]), [true], true, [98]) ∧
    @lessQ Env.x86 cfgReal8 rgKeys [97, 98, 104] false = .ok (false, true, [97, 98, 101]) ∧
    @rangeQ Env.x86 cfgReal8 rgKeys [97, 98, 104] true [97, 99] true = .ok true ∧
    @rangeQ Env.x86 cfgReal8 rgKeys [97, 98, 104] true [97, 98, 105] true = .ok false := by decide +kernel

/-! ## A branch that is a stored key: C08, C14, C16 -/

/-- "ab", "abc", "abe", "abg", "abk": the first key is a prefix of the others. -/
def preKeys : List Key := [[97, 98], [97, 98, 99], [97, 98, 101], [97, 98, 103], [97, 98, 107]]

/-- Seeking "abd" leaves the stored keys behind the stored key "ab", but two bytes, e and g, are greater: this seek meets all
conditions. -/
theorem preSafe : @SafeSeek Env.x86 cfgReal8 preKeys 1 [97, 98, 100] := by
  letI := Env.x86
  refine ⟨Or.inl (by decide), fun p b hl h1 => Or.inr ?_, suffixes_of_le (by decide) _, Or.inl (by decide)⟩
  have hp : p ∈ ([97, 98, 100] : Key).inits := (List.mem_inits _ _).2 ((List.prefix_append p [b]).trans hl.2.1)
  have hb : p ++ [b] ∈ ([97, 98, 100] : Key).inits := (List.mem_inits _ _).2 hl.2.1
  have e : p = [97, 98] ∧ b = 100 := by
    have h2 := hl.2.2 [97, 98, 99] (by decide)
    have h3 : p = [] ∨ p = [97] ∨ p = [97, 98] ∨ p = [97, 98, 100] := by simpa [List.inits] using hp
    rcases h3 with rfl | rfl | rfl | rfl
    · exact absurd h1 (by decide)
    · have : b = 98 := by simpa [List.inits] using hb
      subst this
      exact absurd (by decide) h2
    · exact ⟨rfl, by simpa [List.inits] using hb⟩
    · simp [List.inits] at hb
  obtain ⟨rfl, rfl⟩ := e
  refine ⟨by decide, fun hc => Spec.not_overrun (Or.inl (by decide +kernel)) hc.2, Or.inl ⟨101, 103, by decide, by decide, ?_, ?_⟩⟩
  · exact ⟨[97, 98, 101], by decide, by decide⟩
  · exact ⟨[97, 98, 103], by decide, by decide⟩

/-- C08 fails: "abk" is in the range from "abh" to "abz". -/
theorem C08_refuted : @rangeQ Env.x86 cfgNone preKeys [97, 98, 104] true [97, 98, 122] true = .ok false ∧
    ∃ k ∈ preKeys, Spec.InRange [97, 98, 104] true [97, 98, 122] true k := by
  refine ⟨by decide +kernel, [97, 98, 107], by decide, Or.inl (by decide), Or.inl (by decide)⟩

/-- C14 and C37 fail: seeking "abh" ends with an invalid iterator. -/
theorem C14_refuted : @seekQ Env.x86 cfgNone preKeys [97, 98, 104] true [] = .ok ((false, false, []), [], false, []) ∧
    ∃ k ∈ preKeys, Spec.Above [97, 98, 104] true k :=
  ⟨by decide +kernel, [97, 98, 107], by decide, Or.inl (by decide)⟩

/-- C16 fails: seeking the last key below "abh" ends at "abk", with a clear flag. -/
theorem C16_refuted : @lessQ Env.x86 cfgNone preKeys [97, 98, 104] false = .ok (false, true, [97, 98, 107]) ∧
    ([97, 98, 104] : Key) < [97, 98, 107] := ⟨by decide +kernel, by decide⟩

/-! ## Incomplete real suffixes: C08, C14 -/

/-- "abz" and "b". -/
def sfxKeys : List Key := [[97, 98, 122], [98]]

/-- C08 fails with 24 real bits: the suffix of "abz" is not stored, and it counts as smaller than any other. -/
theorem C08_suffix_refuted :
    @rangeQ Env.x86 { suffixType := .kReal, realLen := 24 } sfxKeys [97, 98, 97, 120, 120] true [97, 99] true = .ok false ∧
    ∃ k ∈ sfxKeys, Spec.InRange [97, 98, 97, 120, 120] true [97, 99] true k :=
  ⟨by decide +kernel, [97, 98, 122], by decide, Or.inl (by decide), Or.inl (by decide)⟩

/-- C14 fails for the same filter: seeking "abaxx" skips "abz". -/
theorem C14_suffix_refuted :
    @seekQ Env.x86 { suffixType := .kReal, realLen := 24 } sfxKeys [97, 98, 97, 120, 120] true [] =
      .ok ((false, true, [98]), [], true, [98]) ∧
    ([97, 98, 97, 120, 120] : Key) < [97, 98, 122] ∧ ([97, 98, 122] : Key) < [98] :=
  ⟨by decide +kernel, by decide, by decide⟩

/-! ## Queries shorter than the dense levels: C08, C15, C38 -/

/-- "0zz" and two long keys that differ in the last byte. -/
def longKeys : List Key := [[48, 122, 122], List.replicate 300 97 ++ [98], List.replicate 300 97 ++ [99]]

/-- C08 fails for the left bound "a" and two dense levels: both long keys are between "a" and "aab". -/
theorem C08_short_refuted : @rangeQ Env.x86 { cfgReal8 with ratio := 1 } longKeys [97] true [97, 97, 98] true = .ok false ∧
    ∃ k ∈ longKeys, Spec.InRange [97] true [97, 97, 98] true k := by
  refine ⟨by decide +kernel, List.replicate 300 97 ++ [98], by decide, Or.inl (by decide +kernel), Or.inl (by decide +kernel)⟩

/-- C15 fails for the empty query: the key "a" is a prefix of two stored keys. -/
theorem C15_seek_refuted :
    @seekQ Env.x86 cfgNone [[97, 98], [97, 99], [98]] [] true [] = .ok ((true, true, [97]), [], true, [97]) ∧
    ∃ k ∈ ([[97, 98], [97, 99], [98]] : List Key), ∃ k' ∈ ([[97, 98], [97, 99], [98]] : List Key),
      k ≠ k' ∧ [97] <+: k ∧ [97] <+: k' := ⟨by decide +kernel, by decide⟩

/-- C38 fails for the empty query: the scan shows "a" and then "b", skipping one of the keys "ab" and "ac". -/
theorem C38_refuted :
    @seekQ Env.x86 cfgNone [[97, 98], [97, 99], [98]] [] true [.next] = .ok ((true, true, [97]), [true], true, [98]) := by
  decide +kernel

/-! ## Comparison: C32 -/

/-- C32 fails for a key that is a prefix of another one: "ab" compares as smaller than "aaz". -/
theorem C32_refuted : @cmpQ Env.x86 cfgNone [[97, 98], [97, 98, 99]] [97, 97, 122] = .ok ([97, 98], -1) ∧
    ¬ ([97, 98] : Key) < [97, 97, 122] := ⟨by decide +kernel, by decide⟩

/-! ## Seeking backward: C16 -/

/-- C16 fails for a stored key that starts with 0x00: "\x00" is below "\x03", but the iterator is invalid. -/
theorem C16_zero_refuted : @lessQ Env.x86 cfgNone [[0], [5], [7]] [3] false = .ok (false, false, []) ∧
    ([0] : Key) < [3] := ⟨by decide +kernel, by decide⟩

/-- C16 fails for a key without a stored suffix: "a" is below "ab", but the iterator is invalid. -/
theorem C16_suffix_refuted : @lessQ Env.x86 cfgReal8 [[97], [99]] [97, 98] false = .ok (false, false, []) ∧
    ([97] : Key) < [97, 98] := ⟨by decide +kernel, by decide⟩

/-- The parameter `inclusive` of `moveToKeyLessThan` has no effect: for the stored key "ab" both values lead
to "aa". -/
theorem C16_inclusive : @lessQ Env.x86 cfgNone [[97, 97], [97, 98], [97, 98, 99], [99]] [97, 98] true = .ok (false, true, [97, 97]) ∧
    @lessQ Env.x86 cfgNone [[97, 97], [97, 98], [97, 98, 99], [99]] [97, 98] false = .ok (false, true, [97, 97]) := by
  decide +kernel

/-- With `assert`s the empty query aborts the program. -/
theorem empty_seek_aborts :
    @seekQ Env.x86dbg cfgNone [[97, 98], [97, 99], [98]] [] true [] = .error .assertFail := by decide +kernel

end Surf.Props
