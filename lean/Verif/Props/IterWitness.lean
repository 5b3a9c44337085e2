import Verif.Props.Iter
import Verif.Props.LookupWitness

/-!
# Iteration: examples and refutations

Concrete lists that meet the hypotheses of the theorems in `Verif/Props/Iter.lean`, and executions of
the model that violate the full claims.
-/

set_option autoImplicit false

namespace Surf.Props
open Surf Trie

/-- The theorems of `Verif/Props/Iter.lean` apply to a list with duplicates and keys that are prefixes of others. -/
example [Env] (hs : Env.strict = false) : (∃ f, Filter.create cfgReal exKeys = .ok f ∧ ∃ it, f.moveToFirst = .ok it ∧
    it.isValid = true ∧ ∃ k ∈ exKeys, (∀ k' ∈ exKeys, k ≤ k') ∧ it.getKey = Spec.stored exKeys k) :=
  C10_partial exSetting.2.1 hs exSetting.2.2.2.2

/-- No key of the example list starts with 0x00: the hypothesis of `C13_partial` holds for all sequences. -/
example : ∀ k ∈ exKeys, k.head? ≠ some 0 := by decide

/-- The number of real bits of the example configurations is below 64. -/
example : cfgReal.realLen < 64 ∧ cfgMixed.realLen < 64 := by decide

section
variable [Env]

/-- `isValid` and `getKey` after a sequence of steps from the first (or last) key. -/
def walkFrom (first : Bool) (cfg : Config) (keys : List Key) (ms : List Spec.Move) : R (List Bool × Bool × Key) := do
  let f ← Filter.create cfg keys
  let it ← if first then f.moveToFirst else f.moveToLast
  let (rs, it) ← runMoves f ms it
  return (rs, it.isValid, it.getKey)

/-- `getSuffix` at the first key. -/
def firstSuffix (cfg : Config) (keys : List Key) : R (Nat × Word) := do
  let f ← Filter.create cfg keys
  let it ← f.moveToFirst
  it.getSuffix f

end

/-- The model walks along the example list: three steps forward from "ab" lead to "b", one back to "abe". -/
theorem walk_example : @walkFrom Env.x86 true cfgNone exKeys [.next, .next, .next, .prev] =
    .ok ([true, true, true, true], true, [97, 98, 101]) := by decide +kernel

/-- C10 and C11 fail for a single key that starts with 0xFF: the key of the iterator is not a prefix of it. -/
theorem C10_refuted : @walkFrom Env.x86 true cfgNone [[255]] [] = .ok ([], true, [0]) := by decide +kernel

/-- See `C10_refuted`. -/
theorem C11_refuted : @walkFrom Env.x86 false cfgNone [[255]] [] = .ok ([], true, [0]) := by decide +kernel

/-- C12 fails for such a list: the filter of a single key delivers a second one. -/
theorem C12_refuted : @walkFrom Env.x86 true cfgNone [[255]] [.next] = .ok ([true], true, [64]) := by decide +kernel

/-- C15 fails for such a list: the iterator is valid, but its key is not a prefix of a stored key. -/
theorem C15_refuted : @walkFrom Env.x86 true cfgNone [[255]] [] = .ok ([], true, [0]) ∧ ∀ k ∈ [[(255 : UInt8)]], ¬ [0] <+: k := by
  refine ⟨C10_refuted, ?_⟩
  decide

/-- C13 fails: `--` from "\x01" does not reach the stored key "\x00". -/
theorem C13_refuted : @walkFrom Env.x86 false cfgNone [[0], [1]] [.prev] = .ok ([false], false, []) := by decide +kernel

/-- C17 fails for 64 real bits: the suffix is read as zero although the key goes on with the bytes 2 … 9. -/
theorem C17_refuted :
    @firstSuffix Env.x86 { suffixType := .kReal, realLen := 64 } [[1, 2, 3, 4, 5, 6, 7, 8, 9, 10]] = .ok (64, 0) ∧
    Spec.realSuffix0 64 [1, 2, 3, 4, 5, 6, 7, 8, 9, 10] (Spec.cut [[1, 2, 3, 4, 5, 6, 7, 8, 9, 10]] [1, 2, 3, 4, 5, 6, 7, 8, 9, 10]) ≠
      List.replicate 64 false := by
  constructor
  · decide +kernel
  · decide +kernel

/-- In strict ISO C++ that call is undefined: the code shifts a 64-bit word by 64. -/
theorem C17_strict : @firstSuffix Env.iso { suffixType := .kReal, realLen := 64 } [[1, 2, 3, 4, 5, 6, 7, 8, 9, 10]] =
    .error .overShift := by decide +kernel

end Surf.Props
