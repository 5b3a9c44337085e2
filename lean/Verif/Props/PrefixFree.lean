import Verif.Props.Ints

/-!
# Key lists without prefixes (C54)

No stored key is the beginning of another one.  Strings that all end with a terminator, which occurs nowhere else in them, are such keys.
-/

set_option linter.unusedSectionVars false
set_option autoImplicit false
set_option maxRecDepth 1000000

namespace Spec

/-- No key is the beginning of a different key. -/
def PrefixFree (keys : List Bytes) : Prop := ∀ k ∈ keys, ∀ k' ∈ keys, k <+: k' → k = k'

instance (keys : List Bytes) : Decidable (PrefixFree keys) := by unfold PrefixFree; infer_instance

/-- Every key ends with the byte `z`, which occurs nowhere else in it. -/
def Terminated (z : UInt8) (keys : List Bytes) : Prop := ∀ k ∈ keys, ∃ t, k = t ++ [z] ∧ z ∉ t

theorem Terminated.prefixFree {z : UInt8} {keys : List Bytes} (h : Terminated z keys) : PrefixFree keys := by
  intro k hk k' hk' hp
  obtain ⟨t, rfl, -⟩ := h k hk
  obtain ⟨t', rfl, ht'⟩ := h k' hk'
  rcases List.prefix_concat_iff.1 hp with he | he
  · exact he
  · exact absurd (he.subset (by simp)) ht'

theorem PrefixFree.not_shared {keys : List Bytes} (h : PrefixFree keys) {p : Bytes} (hp : Shared keys p) : p ∉ keys := by
  obtain ⟨k, hk, k', hk', hne, h1, h2⟩ := hp
  intro hm
  exact hne ((h p hm k hk h1).symm.trans (h p hm k' hk' h2))

/-- All searches in such lists are safe unless they overrun the last block. -/
theorem PrefixFree.seekSafe {keys : List Bytes} (h : PrefixFree keys) {s : Nat} (hov : ∀ p, LastShared keys p → ¬ Overrun keys s p) (q : Bytes) :
    SeekSafe keys s q := fun p _ hl _ => Or.inl ⟨h.not_shared hl.1, Or.inl fun hc => hov p hc.1 hc.2⟩

end Spec

namespace Surf.Props
open Surf Trie

section
variable [Env] {cfg : Config} {keys : List Key}

/-- For keys none of which is the beginning of another: every seek for a non-empty string ends at a stored key that no key above the string precedes, or
behind the last key if there is none, and no range query misses a key.  Missing from C54: lists whose last labels overrun the block (`C54_refuted`), more
than 8 real suffix bits, for real suffixes left bounds of a range that are not `LongEnough` (`C54_real_refuted`), lists of a single key that starts with 0xFF. -/
theorem C54_partial (h : Setting cfg keys) (hs : Env.strict = false) (hff : ¬ Spec.SingleFF keys) (hp : Spec.PrefixFree keys)
    (h8 : cfg.suffixType = .kReal ∨ cfg.suffixType = .kMixed → cfg.realLen ≤ 8) :
    ∃ f, SuRF.create cfg keys = .ok ⟨f, Iter.new f, Iter.new f⟩ ∧
      ((∀ p, Spec.LastShared keys p → ¬ Spec.Overrun keys f.getSparseStartLevel p) → ∀ q, q ≠ [] →
        (∀ incl, ∃ it, f.moveToKeyGreaterThan q incl = .ok it ∧
          (it.isValid = false → ∀ k ∈ keys, ¬ Spec.Above q incl k) ∧
          (it.isValid = true → ∃ k ∈ keys, (∀ k' ∈ keys, Spec.Above q incl k' → k ≤ k') ∧ it.getKey <+: k)) ∧
        ∀ (li ri : Bool) (hi : Key), hi.length < 2 ^ 64 →
          (cfg.suffixType = .kReal ∨ cfg.suffixType = .kMixed → Spec.LongEnough keys f.getSparseStartLevel q) →
          ∃ r o', SuRF.lookupRange ⟨f, Iter.new f, Iter.new f⟩ q li hi ri = .ok (r, o') ∧
            ((∃ k ∈ keys, Spec.InRange q li hi ri k) → r = true)) := by
  obtain ⟨f, e, hq⟩ := C08_partial h hs hff
  obtain ⟨f', e', hq'⟩ := C14_partial h hs hff
  have hfe : f' = f := by
    unfold SuRF.create at e
    rw [e'] at e
    cases e; rfl
  subst hfe
  refine ⟨f', e, fun hov q hne => ⟨fun incl => ?_, fun li ri hi h64 hl => ?_⟩⟩
  · obtain ⟨it, e1, h1, h2⟩ := hq' q incl (Or.inl hne) (hp.seekSafe hov q) (suffixes_of_le h8 q)
    refine ⟨it, e1, h1, fun hv => ?_⟩
    obtain ⟨k, hk, h3, h4, -⟩ := h2 hv
    exact ⟨k, hk, h3, h4⟩
  · exact hq q li hi ri (Or.inl hne) h64 (hp.seekSafe hov q) (suffixes_of_le h8 q) (suffixes_of_le h8 hi) hl

end

/-! ## Example and refutations -/

/-- C strings with their zero bytes: "a", "ab", "abc", "b". -/
def cStrings : List Key := [[97, 0], [97, 98, 0], [97, 98, 99, 0], [98, 0]]

/-- The hypotheses of `C54_partial` hold for this list, and the model finds "abc" between "abb" and "abd" and nothing between "abd" and "abz". -/
theorem C54_example : Setting cfgNone cStrings ∧ ¬ Spec.SingleFF cStrings ∧ Spec.Terminated 0 cStrings ∧ Spec.PrefixFree cStrings ∧
    (∀ p, ¬ Spec.Overrun cStrings 1 p) ∧
    @rangeQ Env.x86 cfgNone cStrings [97, 98, 98, 0] true [97, 98, 100, 0] true = .ok true ∧
    @rangeQ Env.x86 cfgNone cStrings [97, 98, 100, 0] true [97, 98, 122, 0] true = .ok false := by
  refine ⟨⟨by decide, rfl, by decide, ⟨by decide, by decide, by decide⟩, fits_of_total (by decide) (by decide +kernel)⟩, ?_, ?_, by decide,
    fun p => Spec.not_overrun (Or.inl (by decide +kernel)), by decide +kernel, by decide +kernel⟩
  · rintro ⟨k, hk, -⟩
    have h1 := hk [97, 0] (by decide)
    have h2 := hk [98, 0] (by decide)
    rw [← h2] at h1
    exact absurd h1 (by decide)
  · intro k hk
    refine ⟨k.dropLast, ?_⟩
    revert k
    decide

/-- C54 fails for a list with an overrun. -/
theorem C54_refuted : Spec.PrefixFree gapKeys ∧ @rangeQ Env.x86 cfgNone gapKeys [98, 15] true [98, 25] true = .ok false ∧
    ∃ k ∈ gapKeys, Spec.InRange [98, 15] true [98, 25] true k := ⟨by decide +kernel, C08_overrun_refuted⟩

/-- It fails for 24 real suffix bits, and for 8 of them with a left bound that is shorter than the levels of the first encoding. -/
theorem C54_real_refuted :
    (Spec.PrefixFree sfxKeys ∧ @rangeQ Env.x86 { suffixType := .kReal, realLen := 24 } sfxKeys [97, 98, 97, 120, 120] true [97, 99] true = .ok false ∧
      ∃ k ∈ sfxKeys, Spec.InRange [97, 98, 97, 120, 120] true [97, 99] true k) ∧
    Spec.PrefixFree longKeys ∧ @rangeQ Env.x86 { cfgReal8 with ratio := 1 } longKeys [97] true [97, 97, 98] true = .ok false ∧
      ∃ k ∈ longKeys, Spec.InRange [97] true [97, 97, 98] true k :=
  ⟨⟨by decide, C08_suffix_refuted⟩, by decide +kernel, C08_short_refuted⟩

end Surf.Props
