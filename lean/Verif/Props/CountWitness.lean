import Verif.Props.Serialize

/-!
# Counts: refutations
-/

set_option autoImplicit false
set_option maxRecDepth 1000000

namespace Surf.Props
open Surf Trie

/-- The memory behind the word arrays is filled with ones.  (An unsuccessful search for a set bit that runs past the end
of an array stops there.) -/
@[reducible] def Env.onesW : Env := ⟨false, true, fun _ _ => BitVec.allOnes 64, fun _ _ => 0, fun _ _ => 0⟩

/-- Builds a filter and counts. -/
def countQ [Env] (cfg : Config) (keys : List Key) (l r : Key) : R Nat := do
  let o ← SuRF.create cfg keys
  let (c, _) ← o.approxCount l r
  return c

/-- "aa", "ab", "ba", "bb". -/
def abKeys : List Key := [[97, 97], [97, 98], [98, 97], [98, 98]]

theorem abSetting : Setting cfgNone abKeys ∧ ¬ Spec.SingleFF abKeys := by
  refine ⟨⟨by decide, rfl, by decide, ⟨by decide, by decide +kernel, by decide +kernel⟩, fits_of_total (by decide) (by decide +kernel)⟩, ?_⟩
  rintro ⟨k, h1, h2⟩
  have h3 := h1 [97, 97] (by decide +kernel)
  subst h3
  simp at h2

/-- C21: the count from "A", below the first key, to the third of four keys is `2^32`. -/
theorem C21_refuted : @countQ Env.onesW cfgNone abKeys [65] [98, 97] = .ok 4294967296 := by decide +kernel

/-- C21: counting between the stored keys "ab" and "ba" looks for a set bit behind the end of an array: what happens depends on
the memory there.  If it is zero the search does not end. -/
theorem C21_past_refuted : @countQ Env.onesW cfgNone abKeys [97, 98] [98, 97] = .ok 0 ∧
    @countQ Env.x86 cfgNone abKeys [97, 98] [98, 97] = .error .diverge := by decide +kernel

/-- "aa", "ab", "\xFFa", "\xFFb". -/
def ff2Keys : List Key := [[97, 97], [97, 98], [255, 97], [255, 98]]

theorem ff2Setting : Setting cfgNone ff2Keys ∧ ¬ Spec.SingleFF ff2Keys := by
  refine ⟨⟨by decide, rfl, by decide, ⟨by decide, by decide +kernel, by decide +kernel⟩, fits_of_total (by decide) (by decide +kernel)⟩, ?_⟩
  rintro ⟨k, h1, h2⟩
  have h3 := h1 [97, 97] (by decide +kernel)
  subst h3
  simp at h2

/-- C21: the count is also greater than the number of keys: there is one key between "aa" and "\xFFa". -/
theorem C21_over_refuted : @countQ Env.onesW cfgNone ff2Keys [97, 97] [255, 97] = .ok 2 := by decide +kernel

end Surf.Props
