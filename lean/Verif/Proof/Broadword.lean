import Verif.Model.Popcount
import Verif.Proof.RankSelect

/-!
# Arithmetic on the eight bytes of a word

`pk f n` is the number whose bytes, least significant first, are `f 0, …, f (n-1)`.
-/

set_option linter.unusedSectionVars false
set_option autoImplicit false

namespace Surf

def pk (f : Nat → Nat) : Nat → Nat
  | 0 => 0
  | n + 1 => f 0 + 256 * pk (fun i => f (i + 1)) n

theorem pk_congr {f g : Nat → Nat} {n : Nat} (h : ∀ i, i < n → f i = g i) : pk f n = pk g n := by
  induction n generalizing f g with
  | zero => rfl
  | succ n ih => rw [pk, pk, h 0 (by omega), ih fun i hi => h (i + 1) (by omega)]

theorem pk_lt {f : Nat → Nat} {n : Nat} (h : ∀ i, i < n → f i < 256) : pk f n < 256 ^ n := by
  induction n generalizing f with
  | zero => simp [pk]
  | succ n ih =>
    have := ih (f := fun i => f (i + 1)) fun i hi => h (i + 1) (by omega)
    have := h 0 (by omega)
    rw [pk, Nat.pow_succ]; omega

theorem pk_byte {f : Nat → Nat} {n : Nat} (h : ∀ i, i < n → f i < 256) {j : Nat} (hj : j < n) :
    pk f n / 256 ^ j % 256 = f j := by
  induction n generalizing f j with
  | zero => omega
  | succ n ih =>
    have h0 := h 0 (by omega)
    cases j with
    | zero => rw [pk]; simp; omega
    | succ j =>
      rw [pk, Nat.pow_succ, Nat.mul_comm (256 ^ j), ← Nat.div_div_eq_div_mul]
      rw [show (f 0 + 256 * pk (fun i => f (i + 1)) n) / 256 = pk (fun i => f (i + 1)) n by omega]
      exact ih (f := fun i => f (i + 1)) (fun i hi => h (i + 1) (by omega)) (by omega)

theorem pk_of (x n : Nat) : pk (fun i => x / 256 ^ i % 256) n = x % 256 ^ n := by
  induction n generalizing x with
  | zero => simp [pk, Nat.mod_one]
  | succ n ih =>
    rw [pk]
    have : (fun i => x / 256 ^ (i + 1) % 256) = fun i => x / 256 / 256 ^ i % 256 := by
      funext i; rw [Nat.pow_succ, Nat.mul_comm (256 ^ i), Nat.div_div_eq_div_mul]
    rw [this, ih, Nat.pow_succ, Nat.mul_comm (256 ^ n), Nat.mod_mul]
    simp

/-- Bitwise operations act on the lowest byte and on the rest. -/
theorem bit_step {a b c d : Nat} (ha : a < 256) (hc : c < 256) :
    ((a + 256 * b) &&& (c + 256 * d) = (a &&& c) + 256 * (b &&& d)) ∧
    ((a + 256 * b) ||| (c + 256 * d) = (a ||| c) + 256 * (b ||| d)) ∧
    ((a + 256 * b) ^^^ (c + 256 * d) = (a ^^^ c) + 256 * (b ^^^ d)) := by
  have e : ∀ (u v : Nat), u + 256 * v = 2 ^ 8 * v + u := by intro u v; omega
  have l1 : a &&& c < 2 ^ 8 := Nat.and_lt_two_pow _ hc
  have l2 : a ||| c < 2 ^ 8 := Nat.or_lt_two_pow ha hc
  have l3 : a ^^^ c < 2 ^ 8 := Nat.xor_lt_two_pow ha hc
  have ha' : a < 2 ^ 8 := ha
  have hc' : c < 2 ^ 8 := hc
  rw [e a b, e c d, e _ (b &&& d), e _ (b ||| d), e _ (b ^^^ d)]
  refine ⟨?_, ?_, ?_⟩ <;>
  · apply Nat.eq_of_testBit_eq
    intro i
    simp only [Nat.testBit_and, Nat.testBit_or, Nat.testBit_xor, Nat.testBit_two_pow_mul_add _ ha',
      Nat.testBit_two_pow_mul_add _ hc', Nat.testBit_two_pow_mul_add _ l1, Nat.testBit_two_pow_mul_add _ l2,
      Nat.testBit_two_pow_mul_add _ l3]
    split <;> rfl

theorem pk_and {f g : Nat → Nat} {n : Nat} (hf : ∀ i, i < n → f i < 256) (hg : ∀ i, i < n → g i < 256) :
    pk f n &&& pk g n = pk (fun i => f i &&& g i) n := by
  induction n generalizing f g with
  | zero => simp [pk]
  | succ n ih =>
    rw [pk, pk, pk, (bit_step (hf 0 (by omega)) (hg 0 (by omega))).1,
      ih (fun i hi => hf (i + 1) (by omega)) (fun i hi => hg (i + 1) (by omega))]

theorem pk_or {f g : Nat → Nat} {n : Nat} (hf : ∀ i, i < n → f i < 256) (hg : ∀ i, i < n → g i < 256) :
    pk f n ||| pk g n = pk (fun i => f i ||| g i) n := by
  induction n generalizing f g with
  | zero => simp [pk]
  | succ n ih =>
    rw [pk, pk, pk, (bit_step (hf 0 (by omega)) (hg 0 (by omega))).2.1,
      ih (fun i hi => hf (i + 1) (by omega)) (fun i hi => hg (i + 1) (by omega))]

theorem pk_xor {f g : Nat → Nat} {n : Nat} (hf : ∀ i, i < n → f i < 256) (hg : ∀ i, i < n → g i < 256) :
    pk f n ^^^ pk g n = pk (fun i => f i ^^^ g i) n := by
  induction n generalizing f g with
  | zero => simp [pk]
  | succ n ih =>
    rw [pk, pk, pk, (bit_step (hf 0 (by omega)) (hg 0 (by omega))).2.2,
      ih (fun i hi => hf (i + 1) (by omega)) (fun i hi => hg (i + 1) (by omega))]

theorem pk_add (f g : Nat → Nat) (n : Nat) : pk f n + pk g n = pk (fun i => f i + g i) n := by
  induction n generalizing f g with
  | zero => rfl
  | succ n ih =>
    have := ih (fun i => f (i + 1)) (fun i => g (i + 1))
    rw [pk, pk, pk]; omega

theorem pk_sub {f g : Nat → Nat} {n : Nat} (h : ∀ i, i < n → g i ≤ f i) :
    pk g n ≤ pk f n ∧ pk f n - pk g n = pk (fun i => f i - g i) n := by
  have e := pk_add (fun i => f i - g i) g n
  have : pk (fun i => f i - g i + g i) n = pk f n := pk_congr fun i hi => by have := h i hi; omega
  rw [this] at e
  omega

/-- Shifting right by `s ≤ 8` bits and masking so that nothing of a neighbouring byte is seen. -/
theorem pk_shr_and {f m : Nat → Nat} {n s : Nat} (hs : s ≤ 8) (hf : ∀ i, i < n → f i < 256)
    (hm : ∀ i, i < n → m i < 2 ^ (8 - s)) :
    pk f n >>> s &&& pk m n = pk (fun i => f i >>> s &&& m i) n := by
  induction n generalizing f m with
  | zero => simp [pk]
  | succ n ih =>
    have h1 := ih (f := fun i => f (i + 1)) (m := fun i => m (i + 1)) (fun i hi => hf (i + 1) (by omega))
      (fun i hi => hm (i + 1) (by omega))
    have h0 := hf 0 (by omega)
    have m0 := hm 0 (by omega)
    have m0' : m 0 < 256 := lt_of_lt_of_le m0 (Nat.pow_le_pow_right (by omega) (by omega : 8 - s ≤ 8))
    rw [pk, pk, pk, ← h1]
    have e : (f 0 + 256 * pk (fun i => f (i + 1)) n) >>> s =
        (f 0 >>> s + 2 ^ (8 - s) * (pk (fun i => f (i + 1)) n % 2 ^ s)) + 256 * (pk (fun i => f (i + 1)) n >>> s) := by
      generalize pk (fun i => f (i + 1)) n = P
      simp only [Nat.shiftRight_eq_div_pow]
      have h256 : 256 = 2 ^ s * 2 ^ (8 - s) := by rw [← Nat.pow_add, show s + (8 - s) = 8 by omega]
      rw [h256, Nat.mul_assoc, Nat.add_mul_div_left _ _ (Nat.two_pow_pos s)]
      conv_lhs => rw [← Nat.div_add_mod P (2 ^ s)]
      rw [Nat.mul_add]
      rw [Nat.mul_comm (2 ^ s) (2 ^ (8 - s)), Nat.mul_assoc]
      omega
    have la : f 0 >>> s < 2 ^ (8 - s) := by
      rw [Nat.shiftRight_eq_div_pow, Nat.div_lt_iff_lt_mul (Nat.two_pow_pos s), ← Nat.pow_add,
        show 8 - s + s = 8 by omega]
      exact h0
    have lt : f 0 >>> s + 2 ^ (8 - s) * (pk (fun i => f (i + 1)) n % 2 ^ s) < 256 := by
      have l2 := Nat.mod_lt (pk (fun i => f (i + 1)) n) (Nat.two_pow_pos s)
      have h256 : 256 = 2 ^ (8 - s) * 2 ^ s := by rw [← Nat.pow_add, show 8 - s + s = 8 by omega]
      calc _ < 2 ^ (8 - s) + 2 ^ (8 - s) * (pk (fun i => f (i + 1)) n % 2 ^ s) := by omega
        _ = 2 ^ (8 - s) * (pk (fun i => f (i + 1)) n % 2 ^ s + 1) := by rw [Nat.mul_add, Nat.mul_one, Nat.add_comm]
        _ ≤ _ := by rw [h256]; exact Nat.mul_le_mul_left _ l2
    rw [e, (bit_step lt m0').1]
    congr 1
    apply Nat.eq_of_testBit_eq
    intro i
    rw [Nat.testBit_and, Nat.testBit_and, Nat.add_comm, Nat.testBit_two_pow_mul_add _ la]
    split
    · rfl
    · rename_i hi
      have : (m 0).testBit i = false := by
        apply Nat.testBit_lt_two_pow
        exact lt_of_lt_of_le m0 (Nat.pow_le_pow_right (by omega) (by omega))
      simp [this]

/-- Sums of the bytes `0 .. i`. -/
def psum (f : Nat → Nat) (i : Nat) : Nat := ((List.range (i + 1)).map f).sum

/-- Multiplication with `0x0101010101010101` forms the sums of the bytes up to each byte. -/
theorem pk_mul_ones {f : Nat → Nat} (h : psum f 7 < 256) :
    pk f 8 * 0x0101010101010101 % 2 ^ 64 = pk (psum f) 8 ∧ ∀ i, i < 8 → psum f i < 256 := by
  have hs : ∀ i, i < 8 → psum f i < 256 := by
    intro i hi
    simp only [psum, List.range_succ, List.range_zero, List.map_append, List.map_cons, List.map_nil, List.sum_append,
      List.sum_cons, List.sum_nil, List.nil_append] at h
    have : i = 0 ∨ i = 1 ∨ i = 2 ∨ i = 3 ∨ i = 4 ∨ i = 5 ∨ i = 6 ∨ i = 7 := by omega
    rcases this with rfl | rfl | rfl | rfl | rfl | rfl | rfl | rfl <;>
    simp only [psum, List.range_succ, List.range_zero, List.map_append, List.map_cons, List.map_nil, List.sum_append,
      List.sum_cons, List.sum_nil, List.nil_append] <;> omega
  refine ⟨?_, hs⟩
  have l := pk_lt (f := psum f) (n := 8) hs
  have e : pk f 8 * 0x0101010101010101 = pk (psum f) 8 + 2 ^ 64 *
      ((f 1 + f 2 + f 3 + f 4 + f 5 + f 6 + f 7) + 256 * ((f 2 + f 3 + f 4 + f 5 + f 6 + f 7) +
        256 * ((f 3 + f 4 + f 5 + f 6 + f 7) + 256 * ((f 4 + f 5 + f 6 + f 7) + 256 * ((f 5 + f 6 + f 7) +
          256 * ((f 6 + f 7) + 256 * f 7)))))) := by
    simp only [pk, psum, List.range_succ, List.range_zero, List.map_append, List.map_cons, List.map_nil,
      List.sum_append, List.sum_cons, List.sum_nil, List.nil_append, Nat.zero_add, Nat.reduceAdd]
    omega
  rw [e, Nat.add_mul_mod_self_left, Nat.mod_eq_of_lt]
  exact l

theorem pk_smul (c : Nat) (f : Nat → Nat) (n : Nat) : pk (fun i => c * f i) n = c * pk f n := by
  induction n generalizing f with
  | zero => rfl
  | succ n ih => rw [pk, pk, ih (fun i => f (i + 1)), Nat.mul_add]; congr 1; rw [Nat.mul_left_comm]

theorem pk_shr_of_mul {f g : Nat → Nat} {n : Nat} (s : Nat) (h : ∀ i, i < n → f i = 2 ^ s * g i) :
    pk f n >>> s = pk g n := by
  rw [pk_congr h, pk_smul, Nat.shiftRight_eq_div_pow, Nat.mul_div_cancel_left _ (Nat.two_pow_pos s)]

theorem pk_nibbles {f : Nat → Nat} {n : Nat} (h : ∀ i, i < n → f i ≤ 68 ∧ f i % 16 ≤ 4) :
    (pk f n + pk f n >>> 4) &&& pk (fun _ => 15) n = pk (fun i => (f i + f i >>> 4) &&& 15) n := by
  induction n generalizing f with
  | zero => simp [pk]
  | succ n ih =>
    have h1 := ih (f := fun i => f (i + 1)) fun i hi => h (i + 1) (by omega)
    have h0 := h 0 (by omega)
    have hP : pk (fun i => f (i + 1)) n % 16 ≤ 4 := by
      cases n with
      | zero => simp [pk]
      | succ n => have := h 1 (by omega); rw [pk]; simp only [Nat.zero_add]; omega
    rw [pk, pk, pk, ← h1]
    generalize pk (fun i => f (i + 1)) n = P at hP
    have e : f 0 + 256 * P + (f 0 + 256 * P) >>> 4 =
        (f 0 + f 0 / 16 + 16 * (P % 16)) + 256 * (P + P >>> 4) := by
      simp only [Nat.shiftRight_eq_div_pow]; omega
    rw [e, (bit_step (by omega) (by omega)).1]
    congr 1
    have m : ∀ a : Nat, a &&& 15 = a % 16 := fun a => Nat.and_two_pow_sub_one_eq_mod a 4
    rw [m, m, Nat.shiftRight_eq_div_pow]
    omega

/-- Byte `i` of a word, least significant first. -/
def byteOf (x : Word) (i : Nat) : Nat := x.toNat / 256 ^ i % 256

theorem byteOf_lt (x : Word) (i : Nat) : byteOf x i < 256 := Nat.mod_lt _ (by omega)

theorem pk_byteOf (x : Word) : x.toNat = pk (byteOf x) 8 := by
  have := pk_of x.toNat 8
  rw [Nat.mod_eq_of_lt (by have := x.isLt; omega)] at this
  exact this.symm

/-- Number of one bits of a byte. -/
def bc (b : Nat) : Nat := rk b.testBit 8

theorem byte_steps : ∀ b : Fin 256,
    (b.val &&& 0xAA) = 2 ^ 1 * ((b.val &&& 0xAA) / 2) ∧ (b.val &&& 0xAA) / 2 ≤ b.val ∧
    ∀ y, y = b.val - (b.val &&& 0xAA) / 2 → ∀ z, z = (y &&& 0x33) + (y >>> 2 &&& 0x33) →
      z ≤ 68 ∧ z % 16 ≤ 4 ∧ ((z + z >>> 4) &&& 15) = bc b.val := by
  have : ∀ b : Fin 256,
    (b.val &&& 0xAA) = 2 ^ 1 * ((b.val &&& 0xAA) / 2) ∧ (b.val &&& 0xAA) / 2 ≤ b.val ∧
      (((b.val - (b.val &&& 0xAA) / 2) &&& 0x33) + ((b.val - (b.val &&& 0xAA) / 2) >>> 2 &&& 0x33) ≤ 68 ∧
       (((b.val - (b.val &&& 0xAA) / 2) &&& 0x33) + ((b.val - (b.val &&& 0xAA) / 2) >>> 2 &&& 0x33)) % 16 ≤ 4 ∧
       (((((b.val - (b.val &&& 0xAA) / 2) &&& 0x33) + ((b.val - (b.val &&& 0xAA) / 2) >>> 2 &&& 0x33)) +
         (((b.val - (b.val &&& 0xAA) / 2) &&& 0x33) + ((b.val - (b.val &&& 0xAA) / 2) >>> 2 &&& 0x33)) >>> 4) &&& 15)
         = bc b.val) := by decide +kernel
  intro b
  refine ⟨(this b).1, (this b).2.1, ?_⟩
  rintro y rfl z rfl
  exact (this b).2.2

theorem toNat_pk_lt {w : Word} {f : Nat → Nat} (h : w.toNat = pk f 8) : pk f 8 < 2 ^ 64 := h ▸ w.isLt

theorem byteCounts_pk (x : Word) : (byteCounts x).toNat = pk (fun i => bc (byteOf x i)) 8 := by
  have hb : ∀ i, i < 8 → byteOf x i < 256 := fun i _ => byteOf_lt x i
  have st := fun i => byte_steps ⟨byteOf x i, byteOf_lt x i⟩
  dsimp only at st
  have e1 : ((x &&& maskG2) >>> 1).toNat = pk (fun i => (byteOf x i &&& 0xAA) / 2) 8 := by
    rw [BitVec.toNat_ushiftRight, BitVec.toNat_and, pk_byteOf x,
      show maskG2.toNat = pk (fun _ => 0xAA) 8 by decide +kernel, pk_and hb (fun _ _ => by omega)]
    exact pk_shr_of_mul 1 fun i _ => (st i).1
  have e2 : (x - ((x &&& maskG2) >>> 1)).toNat = pk (fun i => byteOf x i - (byteOf x i &&& 0xAA) / 2) 8 := by
    have := pk_sub (n := 8) fun i _ => (st i).2.1
    rw [BitVec.toNat_sub_of_le (by rw [BitVec.le_def, e1, pk_byteOf x]; exact this.1), e1, pk_byteOf x]
    exact this.2
  unfold byteCounts
  generalize hy : x - ((x &&& maskG2) >>> 1) = y at e2
  generalize hf : (fun i => byteOf x i - (byteOf x i &&& 0xAA) / 2) = f at e2
  have fl : ∀ i, i < 8 → f i < 256 := by
    intro i hi; subst hf; have := hb i hi; dsimp only; omega
  have e3 : (y &&& maskG4).toNat = pk (fun i => f i &&& 0x33) 8 := by
    rw [BitVec.toNat_and, e2, show maskG4.toNat = pk (fun _ => 0x33) 8 by decide +kernel, pk_and fl (fun _ _ => by omega)]
  have e4 : ((y >>> 2) &&& maskG4).toNat = pk (fun i => f i >>> 2 &&& 0x33) 8 := by
    rw [BitVec.toNat_and, BitVec.toNat_ushiftRight, e2, show maskG4.toNat = pk (fun _ => 0x33) 8 by decide +kernel,
      pk_shr_and (by omega) fl (fun _ _ => by omega)]
  have zl : ∀ i, i < 8 → (f i &&& 0x33) + (f i >>> 2 &&& 0x33) ≤ 68 ∧ ((f i &&& 0x33) + (f i >>> 2 &&& 0x33)) % 16 ≤ 4 := by
    intro i _
    have := (st i).2.2 (f i) (by subst hf; rfl) _ rfl
    exact ⟨this.1, this.2.1⟩
  have e5 : ((y &&& maskG4) + ((y >>> 2) &&& maskG4)).toNat = pk (fun i => (f i &&& 0x33) + (f i >>> 2 &&& 0x33)) 8 := by
    rw [BitVec.toNat_add, e3, e4, pk_add, Nat.mod_eq_of_lt]
    exact pk_lt fun i hi => by have := (zl i hi).1; omega
  dsimp only
  generalize (y &&& maskG4) + ((y >>> 2) &&& maskG4) = z at e5
  rw [BitVec.toNat_and, BitVec.toNat_add, BitVec.toNat_ushiftRight, e5, Nat.mod_eq_of_lt,
    show maskG8.toNat = pk (fun _ => 15) 8 by decide +kernel, pk_nibbles zl]
  · apply pk_congr
    intro i _
    exact ((st i).2.2 (f i) (by subst hf; rfl) _ rfl).2.2
  · have : pk (fun i => (f i &&& 0x33) + (f i >>> 2 &&& 0x33)) 8 ≤ pk (fun _ => 68) 8 :=
      by have := (pk_sub (n := 8) fun i hi => (zl i hi).1).1; exact this
    have h68 : pk (fun _ => 68) 8 = 4919131752989213764 := by decide +kernel
    rw [Nat.shiftRight_eq_div_pow]; omega

theorem getLsbD_byte (x : Word) (j : Nat) {i : Nat} (hi : i < 8) : x.getLsbD (8 * j + i) = (byteOf x j).testBit i := by
  unfold byteOf
  rw [show (256 : Nat) = 2 ^ 8 by rfl, ← Nat.pow_mul, Nat.testBit_mod_two_pow, Nat.testBit_div_two_pow]
  simp [hi, BitVec.getLsbD, Nat.add_comm]

/-- One bits counted from the least significant end. -/
theorem rk_lsb (x : Word) (j : Nat) (hj : j ≤ 8) : rk x.getLsbD (8 * j) = ((List.range j).map fun i => bc (byteOf x i)).sum := by
  induction j with
  | zero => simp [rk_zero]
  | succ j ih =>
    rw [List.range_succ, List.map_append, List.sum_append, ← ih (by omega), show 8 * (j + 1) = 8 * j + 8 by omega, rk_add]
    congr 1
    simp only [List.map_cons, List.map_nil, List.sum_cons, List.sum_nil, Nat.add_zero]
    exact rk_congr fun i hi => getLsbD_byte x j hi

theorem bc_le (b : Nat) : bc b ≤ 8 := rk_le _ _

theorem rk_rev (f : Nat → Bool) (n : Nat) : rk (fun i => f (n - 1 - i)) n = rk f n := by
  induction n with
  | zero => rw [rk_zero, rk_zero]
  | succ n ih =>
    rw [Nat.add_comm n 1, rk_add, rk_succ, rk_zero, ← Nat.add_comm n 1, rk_succ, ← ih]
    rw [rk_congr (f := fun i => f (n + 1 - 1 - (1 + i))) (g := fun i => f (n - 1 - i))
      fun i hi => by congr 1; omega]
    simp only [Nat.add_sub_cancel, Nat.sub_zero]
    omega

/-- Counting from either end gives the same. -/
theorem popcount_lsb (x : Word) : popcount x = rk x.getLsbD 64 := by
  rw [popcount_eq, ← rk_rev x.getLsbD]
  apply rk_congr
  intro i hi
  rw [BitVec.getMsbD]
  simp [hi]

theorem psum_bc (x : Word) {i : Nat} (hi : i < 8) : psum (fun i => bc (byteOf x i)) i = rk x.getLsbD (8 * (i + 1)) := by
  rw [rk_lsb x _ (by omega)]; rfl

/-- The byte sums of both routines. -/
theorem byteSums_pk (x : Word) :
    (byteCounts x * onesStep8).toNat = pk (fun i => rk x.getLsbD (8 * (i + 1))) 8 := by
  have h7 : psum (fun i => bc (byteOf x i)) 7 < 256 := by
    rw [psum_bc x (by omega)]; have := rk_le x.getLsbD (8 * (7 + 1)); omega
  have h := (pk_mul_ones h7).1
  rw [BitVec.toNat_mul, byteCounts_pk, show onesStep8.toNat = 0x0101010101010101 by decide +kernel, h]
  exact pk_congr fun i hi => psum_bc x hi

theorem pk_top {f : Nat → Nat} (h : ∀ i, i < 8 → f i < 256) : pk f 8 >>> 56 = f 7 := by
  have h1 := pk_byte h (j := 7) (by omega)
  have h2 := pk_lt h
  rw [Nat.shiftRight_eq_div_pow]
  have : (256 : Nat) ^ 7 = 2 ^ 56 := by norm_num
  rw [this] at h1
  omega

theorem suxpopcount_eq (x : Word) : suxpopcount x = popcount x := by
  unfold suxpopcount
  rw [BitVec.toNat_ushiftRight, byteSums_pk, pk_top, popcount_lsb]
  intro i _
  have := rk_le x.getLsbD (8 * (i + 1)); omega

theorem leq_byte : ∀ a b : Fin 128,
    ((b.val ||| 128) - (a.val &&& 127)) < 256 ∧ a.val &&& 127 ≤ b.val ||| 128 ∧
    ((((b.val ||| 128) - (a.val &&& 127)) ^^^ a.val ^^^ b.val) &&& 128) = 2 ^ 7 * (if a.val ≤ b.val then 1 else 0) := by
  decide +kernel

/-- `LEQ_STEP_8` compares bytes below 128. -/
theorem leqStep8_pk {u v : Word} {f g : Nat → Nat} (hu : u.toNat = pk f 8) (hv : v.toNat = pk g 8)
    (hf : ∀ i, i < 8 → f i < 128) (hg : ∀ i, i < 8 → g i < 128) :
    (leqStep8 u v).toNat = pk (fun i => if f i ≤ g i then 1 else 0) 8 := by
  have st := fun i (hi : i < 8) => leq_byte ⟨f i, hf i hi⟩ ⟨g i, hg i hi⟩
  dsimp only at st
  have hm : msbsStep8.toNat = pk (fun _ => 128) 8 := by decide +kernel
  have hm' : (~~~msbsStep8).toNat = pk (fun _ => 127) 8 := by decide +kernel
  have f' : ∀ i, i < 8 → f i < 256 := fun i hi => by have := hf i hi; omega
  have g' : ∀ i, i < 8 → g i < 256 := fun i hi => by have := hg i hi; omega
  have e1 : (v ||| msbsStep8).toNat = pk (fun i => g i ||| 128) 8 := by
    rw [BitVec.toNat_or, hv, hm, pk_or g' (fun _ _ => by omega)]
  have e2 : (u &&& ~~~msbsStep8).toNat = pk (fun i => f i &&& 127) 8 := by
    rw [BitVec.toNat_and, hu, hm', pk_and f' (fun _ _ => by omega)]
  have sb := pk_sub (n := 8) fun i hi => (st i hi).2.1
  have e3 : ((v ||| msbsStep8) - (u &&& ~~~msbsStep8)).toNat = pk (fun i => (g i ||| 128) - (f i &&& 127)) 8 := by
    rw [BitVec.toNat_sub_of_le (by rw [BitVec.le_def, e1, e2]; exact sb.1), e1, e2, sb.2]
  unfold leqStep8
  rw [BitVec.toNat_ushiftRight, BitVec.toNat_and, BitVec.toNat_xor, BitVec.toNat_xor, e3, hu, hv, hm,
    pk_xor (fun i hi => (st i hi).1) f', pk_xor (fun i hi => Nat.xor_lt_two_pow (n := 8) (st i hi).1 (f' i hi)) g',
    pk_and (fun i hi => Nat.xor_lt_two_pow (n := 8) (Nat.xor_lt_two_pow (n := 8) (st i hi).1 (f' i hi)) (g' i hi))
      (fun _ _ => by omega)]
  exact pk_shr_of_mul 7 fun i hi => (st i hi).2.2

theorem zcmp_byte : ∀ a : Fin 256, 1 ≤ a.val ||| 128 ∧ (a.val ||| 128) - 1 < 256 ∧ a.val ||| 128 < 256 ∧
    ((a.val ||| ((a.val ||| 128) - 1)) &&& 128) = 2 ^ 7 * (if a.val = 0 then 0 else 1) := by
  decide +kernel

/-- `ZCOMPARE_STEP_8` finds the bytes that are not zero. -/
theorem zcompareStep8_pk {u : Word} {f : Nat → Nat} (hu : u.toNat = pk f 8) (hf : ∀ i, i < 8 → f i < 256) :
    (zcompareStep8 u).toNat = pk (fun i => if f i = 0 then 0 else 1) 8 := by
  have st := fun i (hi : i < 8) => zcmp_byte ⟨f i, hf i hi⟩
  dsimp only at st
  have hm : msbsStep8.toNat = pk (fun _ => 128) 8 := by decide +kernel
  have ho : onesStep8.toNat = pk (fun _ => 1) 8 := by decide +kernel
  have e1 : (u ||| msbsStep8).toNat = pk (fun i => f i ||| 128) 8 := by
    rw [BitVec.toNat_or, hu, hm, pk_or hf (fun _ _ => by omega)]
  have sb := pk_sub (n := 8) fun i hi => (st i hi).1
  have e3 : ((u ||| msbsStep8) - onesStep8).toNat = pk (fun i => (f i ||| 128) - 1) 8 := by
    rw [BitVec.toNat_sub_of_le (by rw [BitVec.le_def, e1, ho]; exact sb.1), e1, ho, sb.2]
  unfold zcompareStep8
  rw [BitVec.toNat_ushiftRight, BitVec.toNat_and, BitVec.toNat_or, e3, hu, hm, pk_or hf (fun i hi => (st i hi).2.1),
    pk_and (fun i hi => Nat.or_lt_two_pow (n := 8) (hf i hi) (st i hi).2.1) (fun _ _ => by omega)]
  exact pk_shr_of_mul 7 fun i hi => (st i hi).2.2.2

/-- How many of the first `n` values are at most `k`. -/
theorem cnt_le {f : Nat → Nat} (hf : ∀ i j, i ≤ j → f i ≤ f j) (k n : Nat) :
    ∃ c, ((List.range n).map fun i => if f i ≤ k then 1 else 0).sum = c ∧ c ≤ n ∧ (∀ j, j < c → f j ≤ k) ∧ (c < n → k < f c) := by
  induction n with
  | zero => exact ⟨0, rfl, by omega, by omega, by omega⟩
  | succ n ih =>
    obtain ⟨c, h1, h2, h3, h4⟩ := ih
    rw [List.range_succ, List.map_append, List.sum_append, h1]
    simp only [List.map_cons, List.map_nil, List.sum_cons, List.sum_nil, Nat.add_zero]
    by_cases h : f n ≤ k
    · rw [if_pos h]
      have : c = n := by
        by_contra hc
        have := h4 (by omega)
        have := hf c n (by omega)
        omega
      subst this
      refine ⟨c + 1, rfl, by omega, ?_, by omega⟩
      intro j hj
      have := hf j c (by omega); omega
    · rw [if_neg h]
      refine ⟨c, rfl, by omega, h3, ?_⟩
      intro _
      by_cases hc : c < n
      · exact h4 hc
      · have : c = n := by omega
        subst this; omega

theorem const_mul {w : Word} {k : Nat} (h : w.toNat = k) (hk : k < 256) : (w * onesStep8).toNat = pk (fun _ => k) 8 := by
  rw [BitVec.toNat_mul, h, show onesStep8.toNat = 0x0101010101010101 by decide +kernel]
  have : pk (fun _ => k) 8 = k * 0x0101010101010101 := by simp only [pk]; omega
  rw [this, Nat.mod_eq_of_lt (by omega)]

/-- Comparing eight sums with a number and adding up the outcomes. -/
theorem leq_count {u v : Word} {f : Nat → Nat} {k : Nat} (hu : u.toNat = pk f 8) (hf : ∀ i, i < 8 → f i < 128)
    (hm : ∀ i j, i ≤ j → f i ≤ f j) (hv : v.toNat = k) (hk : k < 128) :
    ∃ c, ((leqStep8 u (v * onesStep8) * onesStep8) >>> 56).toNat = c ∧ c ≤ 8 ∧ (∀ j, j < c → f j ≤ k) ∧ (c < 8 → k < f c) := by
  obtain ⟨c, h1, h2, h3, h4⟩ := cnt_le hm k 8
  refine ⟨c, ?_, h2, h3, h4⟩
  have e := leqStep8_pk hu (const_mul hv (by omega)) hf (fun _ _ => hk)
  have h7 : psum (fun i => if f i ≤ k then 1 else 0) 7 = c := h1
  have m := pk_mul_ones (f := fun i => if f i ≤ k then 1 else 0) (by omega)
  rw [BitVec.toNat_ushiftRight, BitVec.toNat_mul, e, show onesStep8.toNat = 0x0101010101010101 by decide +kernel, m.1,
    pk_top m.2, h7]

theorem shr53 (w : Word) : (w >>> 53 &&& ~~~7#64).toNat = 8 * (w >>> 56).toNat := by
  have : w >>> 53 &&& ~~~7#64 = (w >>> 56) <<< 3 := by
    apply BitVec.eq_of_getLsbD_eq
    intro i hi
    have h7 : ∀ i : Fin 64, (~~~7#64).getLsbD i = decide (3 ≤ i.val) := by decide +kernel
    rw [BitVec.getLsbD_and, h7 ⟨i, hi⟩, BitVec.getLsbD_ushiftRight, BitVec.getLsbD_shiftLeft, BitVec.getLsbD_ushiftRight]
    by_cases h3 : 3 ≤ i
    · simp [h3, hi, show ¬ i < 3 by omega]
      congr 1; omega
    · simp [h3, show i < 3 by omega]
  rw [this, BitVec.toNat_shiftLeft, BitVec.toNat_ushiftRight, Nat.shiftLeft_eq, Nat.shiftRight_eq_div_pow]
  have := w.isLt
  rw [Nat.mod_eq_of_lt (by omega)]; omega

theorem pk_shl8 {f : Nat → Nat} (h : ∀ i, i < 8 → f i < 256) :
    pk f 8 <<< 8 % 2 ^ 64 = pk (fun i => if i = 0 then 0 else f (i - 1)) 8 := by
  have h0 := h 0 (by omega); have h1 := h 1 (by omega); have h2 := h 2 (by omega); have h3 := h 3 (by omega)
  have h4 := h 4 (by omega); have h5 := h 5 (by omega); have h6 := h 6 (by omega); have h7 := h 7 (by omega)
  simp only [pk, Nat.shiftLeft_eq, Nat.zero_add, Nat.reduceAdd, Nat.reduceSub, Nat.add_eq_zero_iff, Nat.reduceEqDiff,
    and_false, if_false, if_true]
  omega

theorem shr_byte {w : Word} {f : Nat → Nat} (hw : w.toNat = pk f 8) (h : ∀ i, i < 8 → f i < 256) {c : Nat} (hc : c < 8) :
    (w >>> (8 * c) &&& 0xFF#64).toNat = f c := by
  rw [BitVec.toNat_and, BitVec.toNat_ushiftRight, hw, show (0xFF#64 : Word).toNat = 2 ^ 8 - 1 by rfl,
    Nat.and_two_pow_sub_one_eq_mod, Nat.shiftRight_eq_div_pow, Nat.pow_mul]
  exact pk_byte h hc

theorem bit_and (b i : Nat) : (if b &&& 2 ^ i = 0 then 0 else 1) = if b.testBit i then 1 else 0 := by
  by_cases h : b.testBit i = true
  · rw [if_pos h, if_neg]
    intro h0
    have := congrArg (fun n => n.testBit i) h0
    simp [h] at this
  · rw [if_neg h, if_pos]
    apply Nat.eq_of_testBit_eq
    intro j
    simp only [Nat.testBit_and, Nat.testBit_two_pow, Nat.zero_testBit, Bool.and_eq_false_iff, decide_eq_false_iff_not]
    by_cases hj : i = j
    · subst hj; simp [h]
    · exact Or.inr hj

theorem rk_sum (f : Nat → Bool) (n : Nat) : ((List.range n).map fun i => if f i then 1 else 0).sum = rk f n := by
  induction n with
  | zero => rfl
  | succ n ih => rw [List.range_succ, List.map_append, List.sum_append, ih, rk_succ]; simp

section
variable [Env]

theorem broadword_place (x : Word) {k : Nat} (hk : k < 128) :
    ∃ c, (((leqStep8 (byteCounts x * onesStep8) (BitVec.ofNat 64 k * onesStep8) * onesStep8) >>> 53) &&& ~~~7#64).toNat = 8 * c ∧
      c ≤ 8 ∧ rk x.getLsbD (8 * c) ≤ k ∧ (c < 8 → k < rk x.getLsbD (8 * (c + 1))) := by
  have hv : (BitVec.ofNat 64 k).toNat = k := by rw [BitVec.toNat_ofNat, Nat.mod_eq_of_lt (by omega)]
  obtain ⟨c, h1, h2, h3, h4⟩ := leq_count (byteSums_pk x)
    (fun i hi => by have := rk_le x.getLsbD (8 * (i + 1)); omega)
    (fun i j hij => rk_mono _ (by omega)) hv hk
  refine ⟨c, by rw [shr53, h1], h2, ?_, h4⟩
  cases c with
  | zero => rw [Nat.mul_zero, rk_zero]; omega
  | succ c => exact h3 c (by omega)

theorem select64Broadword_ok (x : Word) {k : Nat} (hk : k < popcount x) :
    ∃ p : Nat, select64Broadword x (BitVec.ofNat 32 k) = .ok (p : Int) ∧ p < 64 ∧ x.getLsbD p = true ∧ rk x.getLsbD p = k := by
  have hp := popcount_le x
  rw [popcount_lsb] at hk hp
  obtain ⟨c, h1, h2, h3, h4⟩ := broadword_place x (k := k) (by omega)
  have hc : c < 8 := by
    by_contra hc
    have : c = 8 := by omega
    subst this; rw [show 8 * 8 = 64 by rfl] at h3; omega
  have h4 := h4 hc
  have sx : ∀ k : Fin 64, (BitVec.ofNat 32 k).signExtend 64 = BitVec.ofNat 64 k := by decide +kernel
  have sx' : ∀ k : Fin 64, ((BitVec.ofNat 64 k).setWidth 32).signExtend 64 = BitVec.ofNat 64 k := by decide +kernel
  have si : ∀ k : Fin 64, ((BitVec.ofNat 64 k).setWidth 32).toInt = k.val := by decide +kernel
  have sl : ∀ i, i < 8 → rk x.getLsbD (8 * (i + 1)) < 256 := fun i hi => by
    have := rk_le x.getLsbD (8 * (i + 1)); omega
  have e1 : ((byteCounts x * onesStep8) <<< 8).toNat =
      pk (fun i => if i = 0 then 0 else rk x.getLsbD (8 * (i - 1 + 1))) 8 := by
    rw [BitVec.toNat_shiftLeft, byteSums_pk, pk_shl8 sl]
  have e2 : (((byteCounts x * onesStep8) <<< 8) >>> (8 * c) &&& 0xFF#64).toNat = rk x.getLsbD (8 * c) := by
    rw [shr_byte e1 _ hc]
    · split
      · next h => subst h; rw [Nat.mul_zero, rk_zero]
      · congr 2; omega
    · intro i hi
      split
      · omega
      · exact sl _ (by omega)
  have e3 : (x >>> (8 * c) &&& 0xFF#64).toNat = byteOf x c := shr_byte (pk_byteOf x) (fun i _ => byteOf_lt x i) hc
  have hadd : ∀ d, d ≤ 8 → rk x.getLsbD (8 * c + d) = rk x.getLsbD (8 * c) + rk (byteOf x c).testBit d := by
    intro d hd
    rw [rk_add, rk_congr fun i hi => getLsbD_byte x c (by omega)]
  rw [show 8 * (c + 1) = 8 * c + 8 by omega, hadd 8 (by omega)] at h4
  have hb8 := bc_le (byteOf x c)
  unfold bc at hb8
  have hbr : BitVec.ofNat 64 k - (((byteCounts x * onesStep8) <<< 8) >>> (8 * c) &&& 0xFF#64) =
      BitVec.ofNat 64 (k - rk x.getLsbD (8 * c)) := by
    apply BitVec.eq_of_toNat_eq
    rw [BitVec.toNat_sub_of_le, e2, BitVec.toNat_ofNat, BitVec.toNat_ofNat]
    · omega
    · rw [BitVec.le_def, e2, BitVec.toNat_ofNat]; omega
  generalize hR : rk x.getLsbD (8 * c) = R at *
  generalize hB : byteOf x c = b at *
  have hb : b < 256 := hB ▸ byteOf_lt x c
  have e4 : (((x >>> (8 * c) &&& 0xFF#64) * onesStep8) &&& incrStep8).toNat = pk (fun i => b &&& 2 ^ i) 8 := by
    rw [BitVec.toNat_and, const_mul e3 hb, show incrStep8.toNat = pk (fun i => 2 ^ i) 8 by decide +kernel,
      pk_and (fun _ _ => hb)]
    intro i hi
    exact Nat.pow_lt_pow_right (by omega) (show i < 8 from hi)
  have e5 := zcompareStep8_pk e4 (fun i _ => lt_of_le_of_lt Nat.and_le_left hb)
  have e6 : (zcompareStep8 (((x >>> (8 * c) &&& 0xFF#64) * onesStep8) &&& incrStep8) * onesStep8).toNat =
      pk (fun i => rk b.testBit (i + 1)) 8 := by
    have hps : ∀ i, psum (fun i => if b &&& 2 ^ i = 0 then 0 else 1) i = rk b.testBit (i + 1) := by
      intro i
      rw [← rk_sum]
      unfold psum
      simp only [bit_and]
    have m := (pk_mul_ones (f := fun i => if b &&& 2 ^ i = 0 then 0 else 1) (by
      rw [hps]; have := rk_le b.testBit (7 + 1); omega)).1
    rw [BitVec.toNat_mul, e5, show onesStep8.toNat = 0x0101010101010101 by decide +kernel, m]
    exact pk_congr fun i _ => hps i
  have hv : (BitVec.ofNat 64 (k - R)).toNat = k - R := by rw [BitVec.toNat_ofNat, Nat.mod_eq_of_lt (by omega)]
  obtain ⟨d, d1, d2, d3, d4⟩ := leq_count e6
    (fun i hi => by have := rk_le b.testBit (i + 1); omega)
    (fun i j hij => rk_mono _ (by omega)) hv (by omega)
  have hd : d < 8 := by
    by_contra hd
    have : rk b.testBit 8 ≤ k - R := d3 7 (by omega)
    omega
  have d4 := d4 hd
  rw [rk_succ] at d4
  have d5 : rk b.testBit d ≤ k - R := by
    cases d with
    | zero => rw [rk_zero]; omega
    | succ d => exact d3 d (by omega)
  have hbit : b.testBit d = true := by
    by_contra hn
    rw [if_neg hn] at d4; omega
  rw [if_pos hbit] at d4
  refine ⟨8 * c + d, ?_, by omega, ?_, ?_⟩
  · unfold select64Broadword
    have hk64 : k < 64 := by omega
    dsimp only
    rw [sx ⟨k, hk64⟩]
    dsimp only
    rw [h1]
    have sh : ∀ w : Word, shrW w (8 * c) = .ok (w >>> (8 * c)) := fun w => by unfold shrW; rw [if_pos (by omega)]
    rw [sh, ok_bind, hbr, sx' ⟨k - R, by omega⟩, sh, ok_bind]
    have fin : ∀ P Q : Word, P.toNat = 8 * c → Q.toNat = d → P + Q = BitVec.ofNat 64 (8 * c + d) := by
      intro P Q h h'
      apply BitVec.eq_of_toNat_eq
      rw [BitVec.toNat_add, h, h', BitVec.toNat_ofNat]
    rw [fin _ _ h1 d1, si ⟨8 * c + d, by omega⟩]
    rfl
  · rw [getLsbD_byte x c hd, hB]; exact hbit
  · rw [hadd d (by omega)]; omega

/-- With fewer one bits than asked for, a 64 bit value is shifted by 64 bits. -/
theorem select64Broadword_over (hs : Env.strict = true) (x : Word) {k : Nat} (hk : popcount x ≤ k) (hk' : k < 128) :
    select64Broadword x (BitVec.ofNat 32 k) = .error .overShift := by
  rw [popcount_lsb] at hk
  obtain ⟨c, h1, h2, h3, h4⟩ := broadword_place x (k := k) (by omega)
  have hc : c = 8 := by
    by_contra hc
    have := h4 (by omega)
    have := rk_mono x.getLsbD (show 8 * (c + 1) ≤ 64 by omega)
    omega
  subst hc
  have sx : ∀ k : Fin 128, (BitVec.ofNat 32 k).signExtend 64 = BitVec.ofNat 64 k := by decide +kernel
  unfold select64Broadword
  dsimp only
  rw [sx ⟨k, hk'⟩]
  dsimp only
  rw [h1]
  have sh : ∀ w : Word, shrW w (8 * 8) = .error .overShift := fun w => by unfold shrW; rw [if_neg (by omega), if_pos hs]
  rw [sh]
  rfl

end

end Surf
