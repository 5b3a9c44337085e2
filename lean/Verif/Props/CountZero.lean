import Verif.Props.CountWitness

/-!
# Counts: a refutation with two dense levels
-/

set_option autoImplicit false
set_option maxRecDepth 1000000

namespace Surf.Props
open Surf Trie

/-- 64 real suffix bits, and dense levels as large as the sparse ones. -/
def cfgZero : Config := { ratio := 1, suffixType := .kReal, realLen := 64 }

/-- A filter with two dense levels needs many keys: "a", "b\x00", and 70 keys of three bytes that start with "b\x01" or "b\x02". -/
def zeroKeys : List Key := [[97], [98, 0]] ++ ((List.range 35).map fun i => [98, 1, UInt8.ofNat i]) ++
  (List.range 35).map fun i => [98, 2, UInt8.ofNat i]

theorem zeroSetting : Setting cfgZero zeroKeys :=
  ⟨by decide, rfl, by decide, ⟨by decide +kernel, by decide +kernel, by decide +kernel⟩, fits_of_total (by decide +kernel) (by decide +kernel)⟩

/-- C21: the count is off by 3 between two stored keys when a label for byte 0 stands in the second dense level. -/
theorem C21_zero_refuted : @countQ Env.onesW cfgZero zeroKeys [97] [98, 1, 4] = .ok 4 ∧
    Spec.within zeroKeys [97] [98, 1, 4] = 7 := by decide +kernel

end Surf.Props
