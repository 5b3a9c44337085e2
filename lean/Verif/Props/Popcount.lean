import Verif.Spec
import Verif.Proof.Selects

/-! # Counting and selecting bits in words and arrays of words (C56) -/

set_option linter.unusedSectionVars false
set_option autoImplicit false
set_option maxRecDepth 1000000

namespace Spec

/-- How many of the bits `0 .. n-1` are ones. -/
def ones (bit : Nat → Bool) (n : Nat) : Nat := ((List.range n).filter fun i => bit i).length

/-- `p` is the place of the `k`-th one (`k = 1, 2, …`). -/
def KthOne (bit : Nat → Bool) (k p : Nat) : Prop := bit p = true ∧ ones bit p + 1 = k

/-- Bit `j` of the array from word `x` on; bit 0 of a word is its most significant one. -/
def bitFrom (ws : List (BitVec 64)) (x j : Nat) : Bool := wordBit ws (64 * x + j)

end Spec

namespace Surf.Props
open Surf

theorem ones_rk (f : Nat → Bool) (n : Nat) : Spec.ones f n = rk f n := by
  unfold Spec.ones
  induction n with
  | zero => rfl
  | succ n ih =>
    rw [List.range_succ, List.filter_append, List.length_append, ih, rk_succ]
    cases h : f n <;> simp [h]

section
variable [Env]

/-- **C56**, the counting routine: the portable population count is the number of ones of the word,
for every word, and so is the compiler's builtin that it can replace. -/
theorem C56_count (x : Word) : suxpopcount x = Spec.ones x.getMsbD 64 ∧ popcount x = suxpopcount x := by
  rw [ones_rk, suxpopcount_eq]
  exact ⟨rfl, rfl⟩

/-- **C56**, selecting in a word and in arrays of words: the routines find the place of the `k`-th one,
and those that look for the end answer `-1` if there are fewer.

Missing from C56: `select64` does not answer `-1` (`C56_refuted`), `select64_broadword` numbers the ones
and the bits from the other end (`C56_broadword_refuted`; what it does compute is the fourth part), and
`selectLinear` started in the middle of an array reads past its end if there are fewer ones than asked
for (`C56_linear_refuted`). -/
theorem C56_partial (x : Word) (ws : List Word) {k : Nat} (hk : 1 ≤ k) :
    (k ≤ Spec.ones x.getMsbD 64 → ∃ p : Nat, p < 64 ∧ Spec.KthOne x.getMsbD k p ∧
      select64 x k = p ∧ select64Naive x k = p) ∧
    (Spec.ones x.getMsbD 64 < k → select64Naive x k = -1) ∧
    (∀ b, b + 8 ≤ ws.length →
      (k ≤ Spec.ones (Spec.bitFrom ws b) 512 → ∃ p : Nat, p < 512 ∧ Spec.KthOne (Spec.bitFrom ws b) k p ∧
        select512 ws b k = .ok (p : Int)) ∧
      (Spec.ones (Spec.bitFrom ws b) 512 < k → select512 ws b k = .ok (-1))) ∧
    (k ≤ Spec.ones x.getLsbD 64 → ∃ p : Nat, p < 64 ∧ Spec.KthOne x.getLsbD k p ∧
      select64Broadword x (BitVec.ofNat 32 (k - 1)) = .ok (p : Int)) ∧
    (64 * ws.length < 2 ^ 64 →
      (∀ b, b < ws.length → k ≤ Spec.ones (Spec.bitFrom ws b) (64 * (ws.length - b)) →
        ∃ p, p < 64 * (ws.length - b) ∧ Spec.KthOne (Spec.bitFrom ws b) k p ∧
          selectLinear ws ws.length b k = .ok p) ∧
      (ws ≠ [] → Spec.ones (Spec.bitFrom ws 0) (64 * ws.length) < k →
        selectLinear ws ws.length 0 k = .ok (2 ^ 64 - 1))) := by
  unfold Spec.KthOne
  simp only [ones_rk]
  refine ⟨?_, ?_, ?_, ?_, ?_⟩
  · intro h
    obtain ⟨p, h1, h2, h3, h4⟩ := select64_spec hk (show k ≤ popcount x from h)
    obtain ⟨q, q1, q2, q3, q4⟩ := (naiveLoop_spec x 64 (by omega) k k hk (by rw [Nat.sub_self, rk_zero]; omega)).1 h
    have : q = p := rk_inj q3 h3 (by omega)
    subst this
    exact ⟨q, h2, ⟨h3, h4⟩, h1, q1⟩
  · intro h
    exact (naiveLoop_spec x 64 (by omega) k k hk (by rw [Nat.sub_self, rk_zero]; omega)).2 h
  · intro b hb
    have := select512_ok hb hk
    refine ⟨fun h => ?_, this.2⟩
    obtain ⟨p, h1, h2, h3⟩ := this.1 h
    exact ⟨p, h2, h3, h1⟩
  · intro h
    rw [← popcount_lsb] at h
    obtain ⟨p, h1, h2, h3, h4⟩ := select64Broadword_ok x (k := k - 1) (by omega)
    exact ⟨p, h2, ⟨h3, by omega⟩, h1⟩
  · intro hl
    refine ⟨fun b hb h => ?_, fun hne h => ?_⟩
    · obtain ⟨p, h1, h2, h3⟩ := selectLinear_ok hl hb hk h
      exact ⟨p, h2, h3, h1⟩
    · exact selectLinear_none hl (List.length_pos_iff.2 hne) h

/-- The end of an array is not respected when the search starts in its middle: whenever there are
fewer than `k` ones from word `b` on, with `b > 0` and `k` not above the number of bits, words outside
the array are read. -/
theorem C56_linear_refuted (hs : Env.strict = true) {ws : List Word} {b k : Nat} (hl : 64 * ws.length < 2 ^ 64)
    (hb : b < ws.length) (h0 : 0 < b) (hlt : Spec.ones (Spec.bitFrom ws b) (64 * (ws.length - b)) < k)
    (hk : k ≤ 64 * (ws.length - b)) : selectLinear ws ws.length b k = .error .oobRead := by
  rw [ones_rk] at hlt
  exact selectLinear_over hs hl hb h0 hlt hk

/-- The hypotheses of `C56_linear_refuted` are met by the second of two words, which holds one one. -/
example : 0 < 1 ∧ Spec.ones (Spec.bitFrom [0#64, 1#64] 1) (64 * ([0#64, 1#64].length - 1)) = 1 := by decide +kernel

/-- For any word with fewer than `k + 1` ones, `select64_broadword(x, k)` shifts by 64 bits, which C++
leaves undefined. -/
theorem C56_over_refuted (hs : Env.strict = true) (x : Word) {k : Nat} (hk : Spec.ones x.getMsbD 64 ≤ k) (hk' : k < 128) :
    select64Broadword x (BitVec.ofNat 32 k) = .error .overShift := by
  rw [ones_rk] at hk
  exact select64Broadword_over hs x hk hk'

end

/-- `select64` asked for the second of one ones answers with a position instead of `-1`. -/
theorem C56_refuted : Spec.ones (0x8000000000000000#64).getMsbD 64 = 1 ∧ select64 0x8000000000000000#64 2 = 63 ∧
    select64Naive 0x8000000000000000#64 2 = -1 := by decide +kernel

/-- The three routines that select in a word cannot be exchanged: of the word 0xC000000000000001 the
second one is at place 1, but `select64_broadword` answers 63 for the same arguments (its ones number 0,
1 and 2 are at the places 0, 62 and 63). -/
theorem C56_broadword_refuted : select64 0xC000000000000001#64 2 = 1 ∧ select64Naive 0xC000000000000001#64 2 = 1 ∧
    @select64Broadword Env.iso 0xC000000000000001#64 2#32 = .ok 63 ∧
    @select64Broadword Env.iso 0xC000000000000001#64 1#32 = .ok 62 ∧
    @select64Broadword Env.iso 0xC000000000000001#64 0#32 = .ok 0 := by decide +kernel

/-- Cases of `C56_partial` with more than one word: the third one from the second word on is in the
third word, there is no fourth. -/
example : Spec.ones (Spec.bitFrom [0#64, 3#64, 1#64, 0#64, 0#64, 0#64, 0#64, 0#64, 0#64] 1) 512 = 3 ∧
    @select512 Env.iso [0#64, 3#64, 1#64, 0#64, 0#64, 0#64, 0#64, 0#64, 0#64] 1 3 = .ok 127 ∧
    @select512 Env.iso [0#64, 3#64, 1#64, 0#64, 0#64, 0#64, 0#64, 0#64, 0#64] 1 4 = .ok (-1) ∧
    @selectLinear Env.iso [0#64, 3#64, 1#64] 3 1 3 = .ok 127 := by decide +kernel

end Surf.Props
