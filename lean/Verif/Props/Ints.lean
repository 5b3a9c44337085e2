import Verif.Props.RangeWitness
import Verif.Props.LookupWitness
import Verif.Props.Vectors
import Verif.Props.KeySuffix
import Verif.Props.SingleFF

/-!
# Filters for 64-bit integers (C44)

Integers are stored as the eight bytes that `uint64ToString` makes of them.
-/

set_option linter.unusedSectionVars false
set_option autoImplicit false
set_option maxRecDepth 1000000

namespace Surf.Props
open Surf Trie

/-- Integer lists a filter can be built from. -/
def IntsOk (xs : List (BitVec 64)) : Prop := xs ≠ [] ∧ xs.Pairwise fun x y => x.toNat ≤ y.toNat

theorem u64_len (x : BitVec 64) : (uint64ToString x).length = 8 := (C22 x x).1

theorem u64_le {x y : BitVec 64} : uint64ToString x ≤ uint64ToString y ↔ x.toNat ≤ y.toNat := by
  have h := (C22 y x).2.2
  constructor
  · intro hle
    by_contra hn
    exact absurd (h.2 (by omega)) (List.not_lt.2 hle)
  · intro hle
    refine List.not_lt.1 fun hc => ?_
    have := h.1 hc
    omega

theorem u64_inj {x y : BitVec 64} (h : uint64ToString x = uint64ToString y) : x = y := by
  rw [← (C22 x x).2.1, h, (C22 y y).2.1]

theorem ints_valid {xs : List (BitVec 64)} (h : IntsOk xs) : Spec.Valid (xs.map uint64ToString) := by
  refine ⟨by simpa using h.1, ?_, ?_⟩
  · rw [List.pairwise_map]
    exact h.2.imp fun hle => u64_le.2 hle
  · intro k hk hc
    obtain ⟨x, -, rfl⟩ := List.mem_map.1 hk
    have := u64_len x
    rw [hc] at this
    cases this

theorem not_lt_zeros : ∀ l : List UInt8, ¬ l < List.replicate l.length 0
  | [] => by simp
  | a :: l => by
    rw [List.length_cons, List.replicate_succ, List.cons_lt_cons_iff]
    rintro (h | ⟨-, h⟩)
    · exact absurd h (by simp)
    · exact not_lt_zeros l h

theorem u64_head {x : BitVec 64} (h : x.toNat < 255 * 2 ^ 56) : (uint64ToString x).head? ≠ some 255 := by
  intro hc
  have h1 := (C22 x (BitVec.ofNat 64 (255 * 2 ^ 56))).2.2.2 (by rw [BitVec.toNat_ofNat]; omega)
  have h2 : uint64ToString (BitVec.ofNat 64 (255 * 2 ^ 56)) = 255 :: List.replicate 7 0 := by decide +kernel
  have h3 := u64_len x
  rw [h2] at h1
  cases he : uint64ToString x with
  | nil => rw [he] at hc; cases hc
  | cons a l =>
    rw [he] at hc h1 h3
    cases hc
    rw [List.cons_lt_cons_iff] at h1
    have hl : l.length = 7 := by simpa using h3
    rw [← hl] at h1
    rcases h1 with h1 | ⟨-, h1⟩
    · exact absurd h1 (by decide)
    · exact not_lt_zeros l h1

theorem u64_head_ge {x : BitVec 64} (h : 255 * 2 ^ 56 ≤ x.toNat) : (uint64ToString x).head? = some 255 := by
  have h1 := (u64_le (x := BitVec.ofNat 64 (255 * 2 ^ 56)) (y := x)).2 (by rw [BitVec.toNat_ofNat]; omega)
  have h2 : uint64ToString (BitVec.ofNat 64 (255 * 2 ^ 56)) = 255 :: List.replicate 7 0 := by decide +kernel
  rw [h2] at h1
  cases he : uint64ToString x with
  | nil => rw [he] at h1; exact absurd h1 (by decide)
  | cons a l =>
    rw [he, List.cons_le_cons_iff] at h1
    have ha : (255 : UInt8) ≤ a := by
      rcases h1 with h1 | ⟨h1, -⟩
      · exact UInt8.le_of_lt h1
      · rw [h1]; exact UInt8.le_refl _
    have hb := UInt8.le_iff_toNat_le.1 ha
    have hc := a.toNat_lt
    have : a = 255 := UInt8.toNat_inj.1 (by have : (255 : UInt8).toNat = 255 := rfl; omega)
    rw [this]; rfl

section
variable [Env] {cfg : Config}

/-- Keys of one length, with any suffixes, whose labels do not overrun the last block of 64: `lookupRange` answers `true` when a stored key lies
in the range, for all bounds of that length.  Missing from C44: lists whose last labels overrun the block (`C44_refuted`), lists of a single key
that starts with 0xFF. -/
theorem C44_fixed_partial {keys : List Key} {n : Nat} (hn : ∀ k ∈ keys, k.length = n) (h64 : n < 2 ^ 64) (h : Setting cfg keys)
    (hs : Env.strict = false) (hff : ¬ Spec.SingleFF keys) :
    ∃ f, SuRF.create cfg keys = .ok ⟨f, Iter.new f, Iter.new f⟩ ∧
      ((∀ p, Spec.LastShared keys p → ¬ Spec.Overrun keys f.getSparseStartLevel p) →
        ∀ (lo hi : Key) (li ri : Bool), lo.length = n → hi.length = n →
        ∃ r o', SuRF.lookupRange ⟨f, Iter.new f, Iter.new f⟩ lo li hi ri = .ok (r, o') ∧
          ((∃ k ∈ keys, Spec.InRange lo li hi ri k) → r = true)) := by
  obtain ⟨f, e, hq⟩ := C08_partial h hs hff
  obtain ⟨f', m, e', -, ⟨k0, hk0, hm⟩, hH, h1, h2⟩ := C33 h hs
  have hff' : f' = f := by
    unfold SuRF.create at e
    rw [e'] at e
    cases e; rfl
  subst hff'
  have hn0 : 0 < n := hn k0 hk0 ▸ List.length_pos_iff.2 (h.valid.nonempty k0 hk0)
  have hsn : f'.getSparseStartLevel ≤ n := by
    have : (Spec.stored keys k0).length ≤ n := by
      unfold Spec.stored
      rw [List.length_take, hn k0 hk0]
      omega
    omega
  have hsx : ∀ q : Key, q.length = n → Suffixes cfg keys q := fun q hq _ => Spec.suffixFair_of_length hn hq
  refine ⟨f', e, fun hov lo hi li ri hlo hhi => ?_⟩
  have hne : lo ≠ [] := fun hc => by rw [hc] at hlo; simp at hlo; omega
  exact hq lo li hi ri (Or.inl hne) (hhi ▸ h64) (by
    intro p b hl _
    refine Or.inl ⟨fun hm => ?_, Or.inl fun hc => hov p hc.1 hc.2⟩
    have h3 := hl.2.1.length_le
    rw [hlo, List.length_append, hn p hm, List.length_singleton] at h3
    omega) (hsx lo hlo) (hsx hi hhi) (fun _ => Or.inl (hlo.symm ▸ hsn))

/-- The same for integers.  Missing from C44: lists whose last labels overrun the block (`C44_refuted`), lists of a single integer
from 255 * 2^56 on (`C44_single_refuted`). -/
theorem C44_partial {xs : List (BitVec 64)} (h : Setting cfg (xs.map uint64ToString)) (hs : Env.strict = false)
    (h2 : ∃ x ∈ xs, ∃ y ∈ xs, x ≠ y ∨ x.toNat < 255 * 2 ^ 56) :
    ∃ f, SuRF.create cfg (xs.map uint64ToString) = .ok ⟨f, Iter.new f, Iter.new f⟩ ∧
      ((∀ p, Spec.LastShared (xs.map uint64ToString) p → ¬ Spec.Overrun (xs.map uint64ToString) f.getSparseStartLevel p) →
        ∀ (lo hi : BitVec 64) (li ri : Bool),
        ∃ r o', SuRF.lookupRange ⟨f, Iter.new f, Iter.new f⟩ (uint64ToString lo) li (uint64ToString hi) ri = .ok (r, o') ∧
          ((∃ x ∈ xs, (lo.toNat < x.toNat ∨ (li = true ∧ x = lo)) ∧ (x.toNat < hi.toNat ∨ (ri = true ∧ x = hi))) → r = true)) := by
  have hff : ¬ Spec.SingleFF (xs.map uint64ToString) := by
    rintro ⟨k, hk, hh⟩
    obtain ⟨x, hx, y, hy, hne | hlt⟩ := h2
    swap
    · rw [← hk _ (List.mem_map_of_mem hx)] at hh
      exact u64_head hlt hh
    exact hne (u64_inj ((hk _ (List.mem_map_of_mem hx)).trans (hk _ (List.mem_map_of_mem hy)).symm))
  obtain ⟨f, e, hq⟩ := C44_fixed_partial (n := 8)
    (fun k hk => by obtain ⟨y, -, rfl⟩ := List.mem_map.1 hk; exact u64_len y) (by decide) h hs hff
  refine ⟨f, e, fun hov lo hi li ri => ?_⟩
  obtain ⟨r, o', er, hr⟩ := hq hov _ _ li ri (u64_len lo) (u64_len hi)
  refine ⟨r, o', er, ?_⟩
  rintro ⟨x, hxm, h3, h4⟩
  refine hr ⟨uint64ToString x, List.mem_map_of_mem hxm, ?_, ?_⟩
  · rcases h3 with h3 | ⟨h3, rfl⟩
    · exact Or.inl ((C22 lo x).2.2.2 h3)
    · exact Or.inr ⟨h3, rfl⟩
  · rcases h4 with h4 | ⟨h4, rfl⟩
    · exact Or.inl ((C22 x hi).2.2.2 h4)
    · exact Or.inr ⟨h4, rfl⟩

/-- C44 fails for every list of one integer from 255 * 2^56 on (also repeated), the case left out in `C44_partial`: every range of integers is
reported empty. -/
theorem C44_single_refuted {xs : List (BitVec 64)} (h : Setting cfg (xs.map uint64ToString)) (hs : Env.strict = false)
    {x : BitVec 64} (h1 : ∀ y ∈ xs, y = x) (h2 : 255 * 2 ^ 56 ≤ x.toNat) :
    ∃ f, SuRF.create cfg (xs.map uint64ToString) = .ok ⟨f, Iter.new f, Iter.new f⟩ ∧
      ∀ (lo hi : BitVec 64) (li ri : Bool),
        ∃ o', SuRF.lookupRange ⟨f, Iter.new f, Iter.new f⟩ (uint64ToString lo) li (uint64ToString hi) ri = .ok (false, o') := by
  obtain ⟨f, e, -, -, hq⟩ := C53 h hs
  have hff : Spec.SingleFF (xs.map uint64ToString) := by
    refine ⟨uint64ToString x, fun k hk => ?_, u64_head_ge h2⟩
    obtain ⟨y, hy, rfl⟩ := List.mem_map.1 hk
    rw [h1 y hy]
  refine ⟨f, e, fun lo hi li ri => ?_⟩
  have hne : uint64ToString lo ≠ [] := fun hc => by have := u64_len lo; rw [hc] at this; cases this
  exact (hq hff _ hne).2.1 li _ ri

end

/-! ## Example and refutations -/

/-- The hypotheses of `C44_single_refuted` hold for the list of the greatest integer. -/
theorem maxInt_ok : Setting cfgReal12 ([18446744073709551615#64].map uint64ToString) ∧ 255 * 2 ^ 56 ≤ (18446744073709551615#64).toNat :=
  ⟨⟨by decide, rfl, by decide, ints_valid ⟨by decide, by decide⟩, fits_of_total (by decide) (by decide +kernel)⟩, by decide⟩

/-- 3, 300, 70000 and 2^63. -/
def exInts : List (BitVec 64) := [3#64, 300#64, 70000#64, 9223372036854775808#64]

/-- The hypotheses of `C44_partial` hold for this list, with 12 real suffix bits. -/
theorem exInts_ok : IntsOk exInts ∧ Setting cfgReal12 (exInts.map uint64ToString) ∧ (∃ x ∈ exInts, ∃ y ∈ exInts, x ≠ y ∨ x.toNat < 255 * 2 ^ 56) ∧
    ∀ p, ¬ Spec.Overrun (exInts.map uint64ToString) 1 p := by
  have h : IntsOk exInts := ⟨by decide, by decide⟩
  refine ⟨h, ⟨by decide, rfl, by decide, ints_valid h, fits_of_total (by decide) (by decide +kernel)⟩,
    ⟨3#64, by decide, 300#64, by decide, Or.inl (by decide)⟩, fun p => Spec.not_overrun (Or.inl (by decide +kernel))⟩

/-- The model on this list: 300 is found between 299 and 301, and nothing between 600 and 700. -/
theorem exInts_run :
    @rangeQ Env.x86 cfgReal12 (exInts.map uint64ToString) (uint64ToString 299#64) true (uint64ToString 301#64) true = .ok true ∧
    @rangeQ Env.x86 cfgReal12 (exInts.map uint64ToString) (uint64ToString 600#64) true (uint64ToString 700#64) true = .ok false ∧
    (@Filter.create Env.x86 cfgReal12 (exInts.map uint64ToString)).map Filter.getSparseStartLevel = .ok 1 := by decide +kernel

/-- 1 … 54 and ten integers from 256 on. -/
def manyInts : List (BitVec 64) :=
  (List.range 54).map (fun i => BitVec.ofNat 64 (i + 1)) ++ (List.range 10).map (fun i => BitVec.ofNat 64 (266 + 10 * i))

/-- C44 fails for 64 small integers: 276 is not found between 270 and 280. -/
theorem C44_refuted : IntsOk manyInts ∧ 276#64 ∈ manyInts ∧
    @rangeQ Env.x86 cfgNone (manyInts.map uint64ToString) (uint64ToString 270#64) true (uint64ToString 280#64) true = .ok false :=
  ⟨⟨by decide +kernel, by decide +kernel⟩, by decide +kernel, by decide +kernel⟩

/-- The same for C08: a list without prefixes, and a bound that leaves the keys behind the last shared prefix "b". -/
theorem C08_overrun_refuted : @rangeQ Env.x86 cfgNone gapKeys [98, 15] true [98, 25] true = .ok false ∧
    ∃ k ∈ gapKeys, Spec.InRange [98, 15] true [98, 25] true k :=
  ⟨by decide +kernel, [98, 20], by decide +kernel, Or.inl (by decide), Or.inl (by decide)⟩

/-- The same for C14 and C37: the seek for "b\x0f" ends with an invalid iterator. -/
theorem C14_overrun_refuted : @seekQ Env.x86 cfgNone gapKeys [98, 15] true [] = .ok ((false, false, []), [], false, []) ∧
    ∃ k ∈ gapKeys, Spec.Above [98, 15] true k :=
  ⟨by decide +kernel, [98, 20], by decide +kernel, Or.inl (by decide)⟩

end Surf.Props
