import Verif.Model.Murmur
import Verif.Model.Bench
import Verif.Props.Bloom
import Verif.Props.HashSuffix

/-!
# The hash functions of the benchmark and the content of its Bloom filters (C73)

The functions of bench/MurmurHash3.h against independently written ones, and the bits of a Bloom filter in terms of the latter.
-/

set_option autoImplicit false

/-! ## Specification -/

namespace Spec

/-- Rotation of a number of `n` bits by `r` bits to the left. -/
def rot (n r x : Nat) : Nat := (x * 2 ^ r + x / 2 ^ (n - r)) % 2 ^ n

/-- Word `i` of `n` bytes of the data, the least significant byte first; behind the end of the data are zeros. -/
def word (n : Nat) (data : Bytes) (i : Nat) : Nat := le ((data.drop (n * i)).take n)

/-- A word multiplied, rotated and multiplied again. -/
def scramble (n a r b x : Nat) : Nat := rot n r (x * a % 2 ^ n) * b % 2 ^ n

/-- Folding the bits from bit `r` on into the lower ones. -/
def fold (r x : Nat) : Nat := x ^^^ (x / 2 ^ r)

/-- The last step for a word of 32 bits. -/
def finish32 (x : Nat) : Nat := fold 16 (fold 13 (fold 16 x * 0x85ebca6b % 2 ^ 32) * 0xc2b2ae35 % 2 ^ 32)

/-- The last step for a word of 64 bits. -/
def finish64 (x : Nat) : Nat := fold 33 (fold 33 (fold 33 x * 0xff51afd7ed558ccd % 2 ^ 64) * 0xc4ceb9fe1a85ec53 % 2 ^ 64)

/-- MurmurHash3 with 32 bits.  The incomplete word at the end, zero if there is none, is mixed in without the second step. -/
def murmur32 (data : Bytes) (seed : Nat) : Nat :=
  let k := fun i => scramble 32 0xcc9e2d51 15 0x1b873593 (word 4 data i)
  let n := data.length / 4
  let h := (List.range n).foldl (fun h i => (rot 32 13 (h ^^^ k i) * 5 + 0xe6546b64) % 2 ^ 32) seed
  finish32 (h ^^^ k n ^^^ data.length % 2 ^ 32)

/-- The constants of the four words of `murmur128`. -/
def mulC : List Nat := [0x239b961b, 0xab0e9789, 0x38b34ae5, 0xa1e38b93]
def addC : List Nat := [0x561ccd1b, 0x0bcaa747, 0x96cd1c35, 0x32ac3b17]

/-- Word `i` (of four) of block `j` of the data, as it is mixed into word `i` of the hash. -/
def part (data : Bytes) (j i : Nat) : Nat := scramble 32 (mulC.getD i 0) (15 + i) (mulC.getD ((i + 1) % 4) 0) (word 4 data (4 * j + i))

/-- Every word plus the sum of all of them; the first becomes the sum. -/
def spread (n : Nat) (h : List Nat) : List Nat := h.set 0 0 |>.map fun x => (x + h.sum) % 2 ^ n

/-- MurmurHash3 with four words of 32 bits. -/
def murmur128 (data : Bytes) (seed : Nat) : List Nat :=
  let n := data.length / 16
  let step := fun (h : List Nat) (j : Nat) => (List.range 4).foldl (fun h i =>
    h.set i (((rot 32 (19 - 2 * i) (h.getD i 0 ^^^ part data j i) + h.getD ((i + 1) % 4) 0) * 5 + addC.getD i 0) % 2 ^ 32)) h
  let h := (List.range n).foldl step [seed, seed, seed, seed]
  let h := (List.range 4).map fun i => h.getD i 0 ^^^ part data n i ^^^ data.length % 2 ^ 32
  spread 32 ((spread 32 h).map finish32)

/-- MurmurHash3 with two words of 64 bits. -/
def murmur64 (data : Bytes) (seed : Nat) : List Nat :=
  let a := 0x87c37b91114253d5
  let b := 0x4cf5ad432745937f
  let k := fun j => scramble 64 a 31 b (word 8 data (2 * j))
  let l := fun j => scramble 64 b 33 a (word 8 data (2 * j + 1))
  let n := data.length / 16
  let step := fun (h : Nat × Nat) (j : Nat) =>
    let x := ((rot 64 27 (h.1 ^^^ k j) + h.2) * 5 + 0x52dce729) % 2 ^ 64
    (x, ((rot 64 31 (h.2 ^^^ l j) + x) * 5 + 0x38495ab5) % 2 ^ 64)
  let h := (List.range n).foldl step (seed, seed)
  spread 64 ((spread 64 [h.1 ^^^ k n ^^^ data.length % 2 ^ 64, h.2 ^^^ l n ^^^ data.length % 2 ^ 64]).map finish64)

/-- Bit `p` of an array of bytes is set; counted from the least significant bit of the first byte. -/
def bit (a : Bytes) (p : Nat) : Prop := (a.getD (p / 8) 0).toNat / 2 ^ (p % 8) % 2 = 1

/-- Probe `i` of a key with the hash `h` in an array of `bits` bits. -/
def probe (bits : Nat) (h : List Nat) (i : Nat) : Nat := (h.getD 0 0 + i * h.getD 1 0) % 2 ^ 32 % bits

/-- The Bloom filter of keys with the given hashes and `b` bits for each of them: the bits, with those of the probes set, and behind them
a byte with the number of probes. -/
structure Bloom (b : Nat) (hashes : List (List Nat)) (filt : Bytes) : Prop where
  size : filt.length = (max 64 (hashes.length * b) + 7) / 8 + 1
  last : filt.getLast?.map (·.toNat) = some (min 30 (max 1 (b * 69 / 100)))
  bits : ∀ p < (filt.length - 1) * 8, bit filt p ↔ ∃ h ∈ hashes, ∃ i < min 30 (max 1 (b * 69 / 100)), p = probe ((filt.length - 1) * 8) h i

/-- The answer to a query: all probes are set, as many as the last byte says; `true` if that is more than 30, `false` without bits. -/
def mayMatch (h : List Nat) (filt : Bytes) : Prop :=
  2 ≤ filt.length ∧ ∀ k, filt.getLast? = some k → k.toNat ≤ 30 → ∀ i < k.toNat, bit filt (probe ((filt.length - 1) * 8) h i)

/-- The eight bytes of an integer in memory. -/
def memory (x : Nat) : Bytes := (List.range 8).map fun i => UInt8.ofNat (x / 256 ^ i)

end Spec

namespace Surf.Props
open Surf Surf.Bench

/-! ## Operations on words -/

theorem rot_toNat {n : Nat} (x : BitVec n) {r : Nat} (hr : r < n) : ((x <<< r) ||| (x >>> (n - r))).toNat = Spec.rot n r x.toNat := by
  unfold Spec.rot
  have hx := x.isLt
  rw [BitVec.toNat_or, BitVec.toNat_shiftLeft, BitVec.toNat_ushiftRight, Nat.shiftLeft_eq, Nat.shiftRight_eq_div_pow]
  have h1 : x.toNat / 2 ^ (n - r) < 2 ^ r := by
    rw [Nat.div_lt_iff_lt_mul (Nat.two_pow_pos _), ← pow_add]
    rwa [show r + (n - r) = n by omega]
  have h2 : x.toNat * 2 ^ r % 2 ^ n = 2 ^ r * (x.toNat % 2 ^ (n - r)) := by
    rw [Nat.mul_comm, show 2 ^ n = 2 ^ r * 2 ^ (n - r) by rw [← pow_add]; congr 1; omega, Nat.mul_mod_mul_left]
  rw [h2, ← Nat.two_pow_add_eq_or_of_lt h1, ← h2, ← Nat.mod_add_mod]
  have h3 : 2 ^ r * (x.toNat % 2 ^ (n - r)) + x.toNat / 2 ^ (n - r) < 2 ^ n := by
    have : x.toNat % 2 ^ (n - r) < 2 ^ (n - r) := Nat.mod_lt _ (Nat.two_pow_pos _)
    calc 2 ^ r * (x.toNat % 2 ^ (n - r)) + x.toNat / 2 ^ (n - r) < 2 ^ r * (x.toNat % 2 ^ (n - r)) + 2 ^ r := by omega
      _ = 2 ^ r * (x.toNat % 2 ^ (n - r) + 1) := by ring
      _ ≤ 2 ^ r * 2 ^ (n - r) := Nat.mul_le_mul_left _ this
      _ = 2 ^ n := by rw [← pow_add]; congr 1; omega
  rw [h2, Nat.mod_eq_of_lt h3]

theorem fold_toNat {n : Nat} (x : BitVec n) (r : Nat) : (x ^^^ (x >>> r)).toNat = Spec.fold r x.toNat := by
  unfold Spec.fold
  rw [BitVec.toNat_xor, BitVec.toNat_ushiftRight, Nat.shiftRight_eq_div_pow]

theorem rotl32_toNat (x : BitVec 32) {r : Nat} (hr : r < 32) : (rotl32 x r).toNat = Spec.rot 32 r x.toNat := rot_toNat x hr

theorem rotl64_toNat (x : BitVec 64) {r : Nat} (hr : r < 64) : (rotl64 x r).toNat = Spec.rot 64 r x.toNat := rot_toNat x hr

theorem scramble32 (x a b : BitVec 32) {r : Nat} (hr : r < 32) :
    (rotl32 (x * a) r * b).toNat = Spec.scramble 32 a.toNat r b.toNat x.toNat := by
  unfold Spec.scramble
  rw [BitVec.toNat_mul, rotl32_toNat _ hr, BitVec.toNat_mul]

theorem scramble64 (x a b : BitVec 64) {r : Nat} (hr : r < 64) :
    (rotl64 (x * a) r * b).toNat = Spec.scramble 64 a.toNat r b.toNat x.toNat := by
  unfold Spec.scramble
  rw [BitVec.toNat_mul, rotl64_toNat _ hr, BitVec.toNat_mul]

theorem finish32_toNat (x : BitVec 32) : (fmix32 x).toNat = Spec.finish32 x.toNat := by
  unfold fmix32 Spec.finish32
  dsimp only
  rw [fold_toNat, BitVec.toNat_mul, fold_toNat, BitVec.toNat_mul, fold_toNat]
  rfl

theorem finish64_toNat (x : BitVec 64) : (fmix64 x).toNat = Spec.finish64 x.toNat := by
  unfold fmix64 Spec.finish64
  dsimp only
  rw [fold_toNat, BitVec.toNat_mul, fold_toNat, BitVec.toNat_mul, fold_toNat]
  rfl

theorem scramble_zero (n a r b : Nat) : Spec.scramble n a r b 0 = 0 := by
  unfold Spec.scramble Spec.rot
  simp

theorem le_lt (b : Key) : Spec.le b < 256 ^ b.length := by
  induction b with
  | nil => simp [le_nil]
  | cons a b ih =>
    rw [le_cons, List.length_cons, pow_succ]
    have := a.toNat_lt
    omega

theorem word_lt (n : Nat) (data : Key) (i : Nat) : Spec.word n data i < 256 ^ n := by
  unfold Spec.word
  refine lt_of_lt_of_le (le_lt _) (Nat.pow_le_pow_right (by omega) ?_)
  rw [List.length_take]
  omega

theorem getblock32_toNat (data : Key) (i : Nat) : (getblock32 data i).toNat = Spec.word 4 data i := by
  unfold getblock32
  rw [BitVec.toNat_ofNat, leNat_eq, Nat.mod_eq_of_lt]
  · rfl
  · exact word_lt 4 data i

theorem getblock64_toNat (data : Key) (i : Nat) : (getblock64 data i).toNat = Spec.word 8 data i := by
  unfold getblock64
  rw [BitVec.toNat_ofNat, leNat_eq, Nat.mod_eq_of_lt]
  · rfl
  · exact word_lt 8 data i

/-! ## The bytes at the end -/

/-- The first `n` bytes of the data from byte `i` on, with zeros behind the end. -/
theorem le_take_succ (data : Key) (n : Nat) : Spec.le (data.take (n + 1)) = Spec.le (data.take n) + (data.getD n 0).toNat * 256 ^ n := by
  induction n generalizing data with
  | zero => cases data <;> simp [le_nil, le_cons]
  | succ n ih =>
    cases data with
    | nil => simp [le_nil]
    | cons a data =>
      rw [List.take_succ_cons, le_cons, ih, List.take_succ_cons, le_cons, List.getD_cons_succ, pow_succ]
      ring

theorem xor_shift {x a n : Nat} (h : a < 2 ^ n) : x * 2 ^ n ^^^ a = x * 2 ^ n + a := by
  rw [Nat.mul_comm]
  apply Nat.eq_of_testBit_eq
  intro j
  rw [Nat.testBit_xor, Nat.testBit_two_pow_mul, Nat.testBit_two_pow_mul_add _ h]
  by_cases hj : j < n
  · simp [hj, Nat.not_le.2 hj]
  · have : a.testBit j = false := Nat.testBit_lt_two_pow (lt_of_lt_of_le h (Nat.pow_le_pow_right (by omega) (by omega)))
    simp [hj, Nat.not_lt.1 hj, this]

/-- One more byte in front of what the `switch` has collected. -/
theorem byte_toNat {w : Nat} (data : Key) (i n : Nat) (x : BitVec w) (hw : 8 * n + 8 ≤ w) (hx : x.toNat = Spec.le ((data.drop i).take n)) :
    ((BitVec.ofNat w (data.getD (i + n) 0).toNat <<< (8 * n)) ^^^ x).toNat = Spec.le ((data.drop i).take (n + 1)) := by
  have hb := (data.getD (i + n) 0).toNat_lt
  have hl := le_lt ((data.drop i).take n)
  have hl2 : Spec.le ((data.drop i).take n) < 2 ^ (8 * n) := by
    refine lt_of_lt_of_le hl ?_
    rw [show (256 : Nat) = 2 ^ 8 from rfl, ← pow_mul]
    exact Nat.pow_le_pow_right (by omega) (by rw [List.length_take]; omega)
  have h1 : (data.getD (i + n) 0).toNat * 2 ^ (8 * n) < 2 ^ w := by
    calc (data.getD (i + n) 0).toNat * 2 ^ (8 * n) < 2 ^ 8 * 2 ^ (8 * n) := Nat.mul_lt_mul_of_pos_right hb (Nat.two_pow_pos _)
      _ = 2 ^ (8 * n + 8) := by rw [← pow_add]; congr 1; omega
      _ ≤ 2 ^ w := Nat.pow_le_pow_right (by omega) hw
  have h0 : (data.getD (i + n) 0).toNat < 2 ^ w := lt_of_le_of_lt (Nat.le_mul_of_pos_right _ (Nat.two_pow_pos _)) h1
  rw [BitVec.toNat_xor, BitVec.toNat_shiftLeft, BitVec.toNat_ofNat, Nat.shiftLeft_eq, hx, Nat.mod_eq_of_lt h0, Nat.mod_eq_of_lt h1,
    xor_shift hl2, le_take_succ, Nat.add_comm]
  congr 2
  · rw [List.getD_eq_getElem?_getD, List.getD_eq_getElem?_getD, List.getElem?_drop]
  · rw [show (256 : Nat) = 2 ^ 8 from rfl, ← pow_mul]

theorem bytes4 (data : Key) (i : Nat) : ((byteAt data (i + 3) <<< 24) ^^^ (byteAt data (i + 2) <<< 16) ^^^ (byteAt data (i + 1) <<< 8) ^^^ byteAt data i).toNat =
    Spec.le ((data.drop i).take 4) := by
  have h1 : (byteAt data i).toNat = Spec.le ((data.drop i).take 1) := by
    have := byte_toNat (w := 32) data i 0 0#32 (by omega) (by simp [le_nil])
    simpa [byteAt] using this
  have h2 := byte_toNat (w := 32) data i 1 _ (by omega) h1
  have h3 := byte_toNat (w := 32) data i 2 _ (by omega) h2
  have h4 := byte_toNat (w := 32) data i 3 _ (by omega) h3
  rw [← h4]
  unfold byteAt
  simp only [BitVec.xor_assoc]

theorem bytes3 (data : Key) (i : Nat) (h : data.length ≤ i + 3) :
    ((byteAt data (i + 2) <<< 16) ^^^ (byteAt data (i + 1) <<< 8) ^^^ byteAt data i).toNat = Spec.le ((data.drop i).take 4) := by
  rw [← bytes4]
  have : byteAt data (i + 3) = 0#32 := by
    unfold byteAt
    rw [List.getD_eq_getElem?_getD, List.getElem?_eq_none (by omega)]
    rfl
  rw [this, BitVec.zero_shiftLeft, BitVec.zero_xor]

theorem bytes8 (data : Key) (i : Nat) : ((byteAt64 data (i + 7) <<< 56) ^^^ (byteAt64 data (i + 6) <<< 48) ^^^ (byteAt64 data (i + 5) <<< 40) ^^^
    (byteAt64 data (i + 4) <<< 32) ^^^ (byteAt64 data (i + 3) <<< 24) ^^^ (byteAt64 data (i + 2) <<< 16) ^^^ (byteAt64 data (i + 1) <<< 8) ^^^
    byteAt64 data i).toNat = Spec.le ((data.drop i).take 8) := by
  have h1 : (byteAt64 data i).toNat = Spec.le ((data.drop i).take 1) := by
    have := byte_toNat (w := 64) data i 0 0#64 (by omega) (by simp [le_nil])
    simpa [byteAt64] using this
  have h2 := byte_toNat (w := 64) data i 1 _ (by omega) h1
  have h3 := byte_toNat (w := 64) data i 2 _ (by omega) h2
  have h4 := byte_toNat (w := 64) data i 3 _ (by omega) h3
  have h5 := byte_toNat (w := 64) data i 4 _ (by omega) h4
  have h6 := byte_toNat (w := 64) data i 5 _ (by omega) h5
  have h7 := byte_toNat (w := 64) data i 6 _ (by omega) h6
  have h8 := byte_toNat (w := 64) data i 7 _ (by omega) h7
  rw [← h8]
  unfold byteAt64
  simp only [BitVec.xor_assoc]

theorem bytes7 (data : Key) (i : Nat) (h : data.length ≤ i + 7) : ((byteAt64 data (i + 6) <<< 48) ^^^ (byteAt64 data (i + 5) <<< 40) ^^^
    (byteAt64 data (i + 4) <<< 32) ^^^ (byteAt64 data (i + 3) <<< 24) ^^^ (byteAt64 data (i + 2) <<< 16) ^^^ (byteAt64 data (i + 1) <<< 8) ^^^
    byteAt64 data i).toNat = Spec.le ((data.drop i).take 8) := by
  rw [← bytes8]
  have : byteAt64 data (i + 7) = 0#64 := by
    unfold byteAt64
    rw [List.getD_eq_getElem?_getD, List.getElem?_eq_none (by omega)]
    rfl
  rw [this, BitVec.zero_shiftLeft, BitVec.zero_xor]

/-- A word behind the end of the data is zero and mixes to nothing. -/
theorem mix_tail {w : Nat} (h k : BitVec w) (m p n a r b : Nat) (tail : Key) (hm : tail.length = m)
    (hk : k.toNat = Spec.scramble w a r b (Spec.le ((tail.drop p).take n))) :
    (if m ≥ p + 1 then h ^^^ k else h).toNat = h.toNat ^^^ Spec.scramble w a r b (Spec.le ((tail.drop p).take n)) := by
  by_cases hc : m ≥ p + 1
  · rw [if_pos hc, BitVec.toNat_xor, hk]
  · rw [if_neg hc, List.drop_eq_nil_of_le (by omega), List.take_nil, le_nil, scramble_zero, Nat.xor_zero]

theorem word_tail (n : Nat) (data : Key) (o p i : Nat) (h : o + p = n * i) : Spec.le (((data.drop o).drop p).take n) = Spec.word n data i := by
  unfold Spec.word
  rw [List.drop_drop, h]

/-! ## The three functions -/

/-- `MurmurHash3_x86_32` computes the 32 bits of the specification. -/
theorem murmur32_spec (data : Key) (seed : BitVec 32) : (Bench.murmur32 data seed).toNat = Spec.murmur32 data seed.toNat := by
  have hr : ∀ n, (rounds32 data n seed).toNat = (List.range n).foldl (fun h i =>
      (Spec.rot 32 13 (h ^^^ Spec.scramble 32 0xcc9e2d51 15 0x1b873593 (Spec.word 4 data i)) * 5 + 0xe6546b64) % 2 ^ 32) seed.toNat := by
    intro n
    induction n with
    | zero => rfl
    | succ n ih =>
      rw [List.range_succ, List.foldl_append, List.foldl_cons, List.foldl_nil, ← ih, rounds32, round32]
      rw [BitVec.toNat_add, BitVec.toNat_mul, rotl32_toNat _ (by omega), BitVec.toNat_xor, scramble32 _ _ _ (by omega), getblock32_toNat,
        Nat.mod_add_mod]
      rfl
  have hlen : (data.drop (data.length / 4 * 4)).length = data.length % 4 := by rw [List.length_drop]; omega
  unfold Bench.murmur32 Spec.murmur32
  dsimp only
  rw [finish32_toNat, BitVec.toNat_xor, BitVec.toNat_ofNat, tailMix32, mix_tail _ _ _ 0 4 0xcc9e2d51 15 0x1b873593 _ hlen, hr,
    word_tail 4 data _ _ (data.length / 4) (by omega)]
  rw [scramble32 _ _ _ (by omega)]
  have := bytes3 (data.drop (data.length / 4 * 4)) 0 (by omega)
  rw [Nat.zero_add, Nat.zero_add] at this
  rw [this]
  rfl

/-- The four words as numbers. -/
def H4.nats (h : H4) : List Nat := [h.h1.toNat, h.h2.toNat, h.h3.toNat, h.h4.toNat]

theorem spread4 (h : H4) : H4.nats (addAll h) = Spec.spread 32 (H4.nats h) := by
  unfold addAll H4.nats Spec.spread
  dsimp only
  simp only [List.set_cons_zero, List.map_cons, List.map_nil, List.sum_cons, List.sum_nil, BitVec.toNat_add, List.cons.injEq, and_true]
  refine ⟨?_, ?_, ?_, ?_⟩ <;> omega

theorem foldl_set4 (f : Nat → Nat → Nat → Nat) (a b c d : Nat) :
    (List.range 4).foldl (fun h i => h.set i (f i (h.getD i 0) (h.getD ((i + 1) % 4) 0))) [a, b, c, d] =
      [f 0 a b, f 1 b c, f 2 c d, f 3 d (f 0 a b)] := rfl

theorem lane_toNat (x y k a b cN : BitVec 32) {r r' : Nat} (h1 : r < 32) (h2 : r' < 32) :
    ((rotl32 (x ^^^ (rotl32 (k * a) r * b)) r' + y) * 5#32 + cN).toNat =
      ((Spec.rot 32 r' (x.toNat ^^^ Spec.scramble 32 a.toNat r b.toNat k.toNat) + y.toNat) * 5 + cN.toNat) % 2 ^ 32 := by
  have h5 : (5#32 : BitVec 32).toNat = 5 := rfl
  rw [BitVec.toNat_add, BitVec.toNat_mul, BitVec.toNat_add, rotl32_toNat _ h2, BitVec.toNat_xor, scramble32 _ _ _ h1, h5, Nat.mod_mul_mod,
    Nat.mod_add_mod]

theorem part0 (data : Key) (j : Nat) : Spec.part data j 0 = Spec.scramble 32 c1.toNat 15 c2.toNat (Spec.word 4 data (j * 4 + 0)) := by
  have h1 : Spec.mulC.getD 0 0 = c1.toNat := rfl
  have h2 : Spec.mulC.getD ((0 + 1) % 4) 0 = c2.toNat := rfl
  unfold Spec.part; rw [Nat.mul_comm 4 j, h1, h2]

theorem part1 (data : Key) (j : Nat) : Spec.part data j 1 = Spec.scramble 32 c2.toNat 16 c3.toNat (Spec.word 4 data (j * 4 + 1)) := by
  have h1 : Spec.mulC.getD 1 0 = c2.toNat := rfl
  have h2 : Spec.mulC.getD ((1 + 1) % 4) 0 = c3.toNat := rfl
  unfold Spec.part; rw [Nat.mul_comm 4 j, h1, h2]

theorem part2 (data : Key) (j : Nat) : Spec.part data j 2 = Spec.scramble 32 c3.toNat 17 c4.toNat (Spec.word 4 data (j * 4 + 2)) := by
  have h1 : Spec.mulC.getD 2 0 = c3.toNat := rfl
  have h2 : Spec.mulC.getD ((2 + 1) % 4) 0 = c4.toNat := rfl
  unfold Spec.part; rw [Nat.mul_comm 4 j, h1, h2]

theorem part3 (data : Key) (j : Nat) : Spec.part data j 3 = Spec.scramble 32 c4.toNat 18 c1.toNat (Spec.word 4 data (j * 4 + 3)) := by
  have h1 : Spec.mulC.getD 3 0 = c4.toNat := rfl
  have h2 : Spec.mulC.getD ((3 + 1) % 4) 0 = c1.toNat := rfl
  unfold Spec.part; rw [Nat.mul_comm 4 j, h1, h2]

theorem round_spec (data : Key) (j : Nat) (h : H4) : H4.nats (Bench.round data j h) = (List.range 4).foldl (fun h i =>
    h.set i (((Spec.rot 32 (19 - 2 * i) (h.getD i 0 ^^^ Spec.part data j i) + h.getD ((i + 1) % 4) 0) * 5 + Spec.addC.getD i 0) % 2 ^ 32))
      (H4.nats h) := by
  have n0 : Spec.addC.getD 0 0 = (0x561ccd1b#32).toNat := rfl
  have n1 : Spec.addC.getD 1 0 = (0x0bcaa747#32).toNat := rfl
  have n2 : Spec.addC.getD 2 0 = (0x96cd1c35#32).toNat := rfl
  have n3 : Spec.addC.getD 3 0 = (0x32ac3b17#32).toNat := rfl
  unfold H4.nats
  rw [foldl_set4 (fun i x y => ((Spec.rot 32 (19 - 2 * i) (x ^^^ Spec.part data j i) + y) * 5 + Spec.addC.getD i 0) % 2 ^ 32)]
  rw [n0, n1, n2, n3, part0, part1, part2, part3, ← getblock32_toNat, ← getblock32_toNat, ← getblock32_toNat, ← getblock32_toNat]
  rw [show 19 - 2 * 0 = 19 from rfl, show 19 - 2 * 1 = 17 from rfl, show 19 - 2 * 2 = 15 from rfl, show 19 - 2 * 3 = 13 from rfl]
  rw [← lane_toNat _ _ _ _ _ _ (by omega) (by omega), ← lane_toNat _ _ _ _ _ _ (by omega) (by omega),
    ← lane_toNat _ _ _ _ _ _ (by omega) (by omega), ← lane_toNat _ _ _ _ _ _ (by omega) (by omega)]
  unfold Bench.round
  rfl

theorem rounds_spec (data : Key) (h : H4) (n : Nat) : H4.nats (rounds data n h) = (List.range n).foldl (fun h j => (List.range 4).foldl (fun h i =>
    h.set i (((Spec.rot 32 (19 - 2 * i) (h.getD i 0 ^^^ Spec.part data j i) + h.getD ((i + 1) % 4) 0) * 5 + Spec.addC.getD i 0) % 2 ^ 32)) h)
      (H4.nats h) := by
  induction n with
  | zero => rfl
  | succ n ih => rw [List.range_succ (n := n), List.foldl_append, List.foldl_cons, List.foldl_nil, ← ih, rounds, round_spec]

theorem tail_spec (data : Key) (h : H4) : H4.nats (tailMix (data.drop (data.length / 16 * 16)) (data.length % 16) h) =
    (List.range 4).map fun i => (H4.nats h).getD i 0 ^^^ Spec.part data (data.length / 16) i := by
  have hlen : (data.drop (data.length / 16 * 16)).length = data.length % 16 := by rw [List.length_drop]; omega
  have e : ∀ f : Nat → Nat, (List.range 4).map f = [f 0, f 1, f 2, f 3] := fun f => rfl
  rw [e, part0, part1, part2, part3]
  unfold tailMix H4.nats
  dsimp only
  rw [mix_tail h.h1 _ _ 0 4 c1.toNat 15 c2.toNat _ hlen, mix_tail h.h2 _ _ 4 4 c2.toNat 16 c3.toNat _ hlen,
    mix_tail h.h3 _ _ 8 4 c3.toNat 17 c4.toNat _ hlen, mix_tail h.h4 _ _ 12 4 c4.toNat 18 c1.toNat _ hlen,
    word_tail 4 data _ 0 (data.length / 16 * 4 + 0) (by omega), word_tail 4 data _ 4 (data.length / 16 * 4 + 1) (by omega),
    word_tail 4 data _ 8 (data.length / 16 * 4 + 2) (by omega), word_tail 4 data _ 12 (data.length / 16 * 4 + 3) (by omega)]
  · rfl
  · rw [scramble32 _ _ _ (by omega), bytes3 _ 12 (by omega)]
  · rw [scramble32 _ _ _ (by omega), bytes4 _ 8]
  · rw [scramble32 _ _ _ (by omega), bytes4 _ 4]
  · rw [scramble32 _ _ _ (by omega), bytes4 _ 0]

theorem finish4 (h : H4) : H4.nats ⟨fmix32 h.h1, fmix32 h.h2, fmix32 h.h3, fmix32 h.h4⟩ = (H4.nats h).map Spec.finish32 := by
  unfold H4.nats
  simp only [List.map_cons, List.map_nil, finish32_toNat]

theorem xor4 (h : H4) (l : BitVec 32) :
    H4.nats ⟨h.h1 ^^^ l, h.h2 ^^^ l, h.h3 ^^^ l, h.h4 ^^^ l⟩ = (H4.nats h).map (· ^^^ l.toNat) := by
  unfold H4.nats
  simp only [List.map_cons, List.map_nil, BitVec.toNat_xor]

/-- `MurmurHash3_x86_128` computes the four words of the specification. -/
theorem murmur128_spec (data : Key) (seed : BitVec 32) : H4.nats (murmur3 data seed) = Spec.murmur128 data seed.toNat := by
  have hn : H4.nats ⟨seed, seed, seed, seed⟩ = [seed.toNat, seed.toNat, seed.toNat, seed.toNat] := rfl
  unfold murmur3
  dsimp only
  rw [spread4, finish4, spread4, xor4, tail_spec, rounds_spec, List.map_map, BitVec.toNat_ofNat, hn]
  unfold Spec.murmur128
  rfl

theorem map_pair {α β : Type} (f : α → β) (a b : α) : [a, b].map f = [f a, f b] := rfl

theorem spread2 (a b : BitVec 64) : [(a + b).toNat, (b + (a + b)).toNat] = Spec.spread 64 [a.toNat, b.toNat] := by
  unfold Spec.spread
  simp only [List.set_cons_zero, List.map_cons, List.map_nil, List.sum_cons, List.sum_nil, BitVec.toNat_add, List.cons.injEq, and_true]
  refine ⟨?_, ?_⟩ <;> omega

theorem lane64_toNat (x y k a b cN : BitVec 64) {r r' : Nat} (h1 : r < 64) (h2 : r' < 64) :
    ((rotl64 (x ^^^ (rotl64 (k * a) r * b)) r' + y) * 5#64 + cN).toNat =
      ((Spec.rot 64 r' (x.toNat ^^^ Spec.scramble 64 a.toNat r b.toNat k.toNat) + y.toNat) * 5 + cN.toNat) % 2 ^ 64 := by
  have h5 : (5#64 : BitVec 64).toNat = 5 := rfl
  rw [BitVec.toNat_add, BitVec.toNat_mul, BitVec.toNat_add, rotl64_toNat _ h2, BitVec.toNat_xor, scramble64 _ _ _ h1, h5, Nat.mod_mul_mod,
    Nat.mod_add_mod]

/-- One step of the specification, with the words of the data as functions. -/
def step64 (k l : Nat → Nat) (h : Nat × Nat) (j : Nat) : Nat × Nat :=
  let x := ((Spec.rot 64 27 (h.1 ^^^ k j) + h.2) * 5 + 0x52dce729) % 2 ^ 64
  (x, ((Spec.rot 64 31 (h.2 ^^^ l j) + x) * 5 + 0x38495ab5) % 2 ^ 64)

def low64 (data : Key) (j : Nat) : Nat := Spec.scramble 64 d1.toNat 31 d2.toNat (Spec.word 8 data (2 * j))
def high64 (data : Key) (j : Nat) : Nat := Spec.scramble 64 d2.toNat 33 d1.toNat (Spec.word 8 data (2 * j + 1))

theorem round64_spec (data : Key) (j : Nat) (h : BitVec 64 × BitVec 64) :
    ((round64 data j h).1.toNat, (round64 data j h).2.toNat) = step64 (low64 data) (high64 data) (h.1.toNat, h.2.toNat) j := by
  have n0 : (0x52dce729 : Nat) = (0x52dce729#64).toNat := rfl
  have n1 : (0x38495ab5 : Nat) = (0x38495ab5#64).toNat := rfl
  unfold step64 low64 high64
  dsimp only
  rw [n0, n1, ← getblock64_toNat, ← getblock64_toNat, ← lane64_toNat _ _ _ _ _ _ (by omega) (by omega),
    ← lane64_toNat _ _ _ _ _ _ (by omega) (by omega), Nat.mul_comm 2 j]
  unfold round64
  rfl

theorem rounds64_spec (data : Key) (h : BitVec 64 × BitVec 64) (n : Nat) : ((rounds64 data n h).1.toNat, (rounds64 data n h).2.toNat) =
    (List.range n).foldl (step64 (low64 data) (high64 data)) (h.1.toNat, h.2.toNat) := by
  induction n with
  | zero => rfl
  | succ n ih => rw [List.range_succ, List.foldl_append, List.foldl_cons, List.foldl_nil, ← ih, rounds64, round64_spec]

theorem tail64_spec (data : Key) (h : BitVec 64 × BitVec 64) :
    (tailMix64 (data.drop (data.length / 16 * 16)) (data.length % 16) h).1.toNat = h.1.toNat ^^^ low64 data (data.length / 16) ∧
    (tailMix64 (data.drop (data.length / 16 * 16)) (data.length % 16) h).2.toNat = h.2.toNat ^^^ high64 data (data.length / 16) := by
  have hlen : (data.drop (data.length / 16 * 16)).length = data.length % 16 := by rw [List.length_drop]; omega
  unfold tailMix64 low64 high64
  dsimp only
  constructor
  · rw [mix_tail h.1 _ _ 0 8 d1.toNat 31 d2.toNat _ hlen, word_tail 8 data _ 0 (2 * (data.length / 16)) (by omega)]
    rw [scramble64 _ _ _ (by omega), bytes8 _ 0]
  · rw [mix_tail h.2 _ _ 8 8 d2.toNat 33 d1.toNat _ hlen, word_tail 8 data _ 8 (2 * (data.length / 16) + 1) (by omega)]
    rw [scramble64 _ _ _ (by omega), bytes7 _ 8 (by omega)]

theorem murmur64_unfold (data : Key) (seed : Nat) : Spec.murmur64 data seed =
    Spec.spread 64 ((Spec.spread 64 [((List.range (data.length / 16)).foldl (step64 (low64 data) (high64 data)) (seed, seed)).1 ^^^
        low64 data (data.length / 16) ^^^ data.length % 2 ^ 64,
      ((List.range (data.length / 16)).foldl (step64 (low64 data) (high64 data)) (seed, seed)).2 ^^^
        high64 data (data.length / 16) ^^^ data.length % 2 ^ 64]).map Spec.finish64) := by
  have n0 : (0x87c37b91114253d5 : Nat) = d1.toNat := rfl
  have n1 : (0x4cf5ad432745937f : Nat) = d2.toNat := rfl
  unfold Spec.murmur64
  rw [n0, n1]
  rfl

/-- `MurmurHash3_x64_128` computes the two words of the specification. -/
theorem murmur64_spec (data : Key) (seed : BitVec 32) : [(Bench.murmur64 data seed).1.toNat, (Bench.murmur64 data seed).2.toNat] =
    Spec.murmur64 data seed.toNat := by
  have hs : (seed.setWidth 64).toNat = seed.toNat := by
    rw [BitVec.toNat_setWidth]
    exact Nat.mod_eq_of_lt (lt_trans seed.isLt (by decide))
  have h := rounds64_spec data (seed.setWidth 64, seed.setWidth 64) (data.length / 16)
  rw [hs] at h
  rw [murmur64_unfold, ← h]
  unfold Bench.murmur64
  dsimp only
  rw [spread2, finish64_toNat, finish64_toNat, ← map_pair, spread2, BitVec.toNat_xor, BitVec.toNat_xor, (tail64_spec data _).1,
    (tail64_spec data _).2, BitVec.toNat_ofNat]

/-! ## C73 -/

theorem bit_iff (a : Key) (p : Nat) : Spec.bit a p ↔ byteBit a p = true := by
  unfold Spec.bit byteBit
  rw [Nat.testBit_eq_decide_div_mod_eq, decide_eq_true_iff]

theorem nats_getD (h : H4) : (H4.nats h).getD 0 0 = h.h1.toNat ∧ (H4.nats h).getD 1 0 = h.h2.toNat := ⟨rfl, rfl⟩

theorem murmur128_words (key : Key) (seed : BitVec 32) : (Spec.murmur128 key seed.toNat).getD 0 0 = (murmur3 key seed).h1.toNat ∧
    (Spec.murmur128 key seed.toNat).getD 1 0 = (murmur3 key seed).h2.toNat :=
  murmur128_spec key seed ▸ nats_getD (murmur3 key seed)

theorem bloomHash_nats (key : Key) : (Spec.murmur128 key 0xbc9f1d34).getD 0 0 = (bloomHash key).1.toNat ∧
    (Spec.murmur128 key 0xbc9f1d34).getD 1 0 = (bloomHash key).2.toNat := by
  have e : (0xbc9f1d34 : Nat) = (0xbc9f1d34#32).toNat := rfl
  unfold bloomHash
  rw [e]
  exact murmur128_words key _

theorem memory_eq (x : BitVec 64) : leBytes 8 x.toNat = Spec.memory x.toNat := by
  have h : ∀ k n : Nat, leBytes k n = (List.range k).map fun i => UInt8.ofNat (n / 256 ^ i) := by
    intro k
    induction k with
    | zero => intro n; rfl
    | succ k ih =>
      intro n
      rw [leBytes, ih, List.range_succ_eq_map, List.map_cons, List.map_map, pow_zero, Nat.div_one]
      congr 1
      · apply UInt8.toNat_inj.1
        rw [UInt8.toNat_ofNat', UInt8.toNat_ofNat']
        omega
      · refine List.map_congr_left fun i _ => ?_
        rw [Function.comp_apply, Nat.div_div_eq_div_mul, Nat.succ_eq_add_one, pow_succ, Nat.mul_comm]
  exact h 8 _

/-- `CreateFilter` and `KeyMayMatch` for a function that agrees with given hashes. -/
theorem bloom_content {α : Type} (hash : α → BitVec 32 × BitVec 32) (f : α → List Nat)
    (hf : ∀ x, (f x).getD 0 0 = (hash x).1.toNat ∧ (f x).getD 1 0 = (hash x).2.toNat) {b n : Nat} (hb : b < 2 ^ 31) (hn : n < 2 ^ 31) :
    (∀ keys : List α, keys.length = n → ∃ filt, Spec.Bloom b (keys.map f) filt ∧
      ∀ dst, createFilter hash b keys n dst = .ok (dst ++ filt)) ∧
    ∀ q filt, ∃ r, keyMayMatch hash q filt = .ok r ∧ (r = true ↔ Spec.mayMatch (f q) filt) := by
  have hprobe : ∀ bits x i, Spec.probe bits (f x) i = probe bits (hash x) i := by
    intro bits x i
    unfold Spec.probe probe
    rw [(hf x).1, (hf x).2]
  refine ⟨fun keys hk => ?_, fun q filt => ?_⟩
  · have hbytes : bloomBytes b n = (max 64 (n * b) + 7) / 8 := by
      unfold bloomBytes
      have : n * b < 18446744073709551616 := by
        calc n * b ≤ 2 ^ 31 * 2 ^ 31 := Nat.mul_le_mul hn.le hb.le
          _ < _ := by decide
      rw [Nat.mod_eq_of_lt this]
      dsimp only
      split <;> congr 2 <;> omega
    have hp := bloomBytes_pos b n
    obtain ⟨hk1, hk2⟩ := numProbes_le b
    obtain ⟨a, e, l, hbits⟩ := addKeys_ok (hash := hash) (k := numProbes b) (bits := bloomBytes b n * 8) (keys := keys) n 0
      (a := List.replicate (bloomBytes b n) 0) (by omega) (by simp) (by omega)
    rw [List.length_replicate] at l
    have hz : ∀ p, byteBit (List.replicate (bloomBytes b n) 0) p = false := by
      intro p
      unfold byteBit
      rw [List.getD_eq_getElem?_getD, List.getElem?_replicate]
      split <;> simp
    have hlen : (a ++ [UInt8.ofNat (numProbes b)]).length = bloomBytes b n + 1 := by simp [l]
    refine ⟨a ++ [UInt8.ofNat (numProbes b)], ⟨?_, ?_, fun p hpb => ?_⟩, fun dst => ?_⟩
    · rw [hlen, hbytes, List.length_map, hk]
    · rw [List.getLast?_concat, Option.map_some, UInt8.toNat_ofNat', Nat.mod_eq_of_lt (by omega)]
      rfl
    · rw [hlen, Nat.add_sub_cancel] at hpb ⊢
      have hap : byteBit (a ++ [UInt8.ofNat (numProbes b)]) p = byteBit a p := by
        unfold byteBit
        rw [List.getD_append _ _ _ _ (by omega)]
      rw [bit_iff, hap, hbits, hz, List.drop_zero, List.take_of_length_le hk.le]
      constructor
      · rintro (g | ⟨x, hx, j, hj, g⟩)
        · cases g
        · exact ⟨f x, List.mem_map_of_mem hx, j, hj, by rw [hprobe]; exact g⟩
      · rintro ⟨h, hh, j, hj, g⟩
        obtain ⟨x, hx, rfl⟩ := List.mem_map.1 hh
        exact Or.inr ⟨x, hx, j, hj, by rw [← hprobe]; exact g⟩
    · unfold createFilter
      dsimp only
      rw [e]
      change Except.ok _ = _
      rw [List.append_assoc]
  · unfold keyMayMatch Spec.mayMatch
    dsimp only
    by_cases h2 : filt.length < 2
    · rw [if_pos h2]
      exact ⟨false, rfl, by constructor <;> intro g; cases g; exact absurd g.1 (by omega)⟩
    rw [if_neg h2]
    have hlast : filt.getLast? = some filt[filt.length - 1] := by
      rw [List.getLast?_eq_getElem?, List.getElem?_eq_getElem (by omega)]
    have hg : getR filt (filt.length - 1) = .ok filt[filt.length - 1] := by
      unfold getR
      rw [List.getElem?_eq_getElem (by omega)]
    rw [hg]
    change ∃ r, (if filt[filt.length - 1].toNat > 30 then _ else _) = _ ∧ _
    by_cases hk : filt[filt.length - 1].toNat > 30
    · rw [if_pos hk]
      refine ⟨true, rfl, fun _ => ⟨by omega, fun k hke hk30 => ?_⟩, fun _ => rfl⟩
      rw [hlast] at hke
      injection hke with hke
      subst hke
      omega
    · rw [if_neg hk, testProbes_ok _ _ _ (by omega) (by omega)]
      refine ⟨_, rfl, ?_⟩
      rw [decide_eq_true_iff]
      constructor
      · intro g
        refine ⟨by omega, fun k hke _ i hi => ?_⟩
        rw [hlast] at hke
        injection hke with hke
        subst hke
        rw [bit_iff, hprobe]
        exact g i hi
      · intro g i hi
        have := g.2 _ hlast (by omega) i hi
        rwa [bit_iff, hprobe] at this

/-- The three hash functions of the benchmark are MurmurHash3.  The Bloom filter of `n` keys with `b` bits each is the one described by
`Spec.Bloom` with the first two of the four words of MurmurHash3 with seed 0xbc9f1d34; the hash of an integer is that of its eight bytes, the
least significant first.  A query of any byte string as a filter reads the bits it should and nothing outside of it. -/
theorem C73 :
    (∀ (data : Key) (seed : BitVec 32), (Bench.murmur32 data seed).toNat = Spec.murmur32 data seed.toNat ∧
      H4.nats (murmur3 data seed) = Spec.murmur128 data seed.toNat ∧
      [(Bench.murmur64 data seed).1.toNat, (Bench.murmur64 data seed).2.toNat] = Spec.murmur64 data seed.toNat) ∧
    (∀ b n : Nat, b < 2 ^ 31 → n < 2 ^ 31 →
      (∀ keys : List Key, keys.length = n → ∃ filt, Spec.Bloom b (keys.map fun k => Spec.murmur128 k 0xbc9f1d34) filt ∧
        ∀ dst, createFilter bloomHash b keys n dst = .ok (dst ++ filt)) ∧
      ∀ keys : List (BitVec 64), keys.length = n →
        ∃ filt, Spec.Bloom b (keys.map fun k => Spec.murmur128 (Spec.memory k.toNat) 0xbc9f1d34) filt ∧
          ∀ dst, createFilter bloomHashInt b keys n dst = .ok (dst ++ filt)) ∧
    (∀ (q : Key) (filt : Key), ∃ r, keyMayMatch bloomHash q filt = .ok r ∧ (r = true ↔ Spec.mayMatch (Spec.murmur128 q 0xbc9f1d34) filt)) ∧
    ∀ (q : BitVec 64) (filt : Key), ∃ r, keyMayMatch bloomHashInt q filt = .ok r ∧
      (r = true ↔ Spec.mayMatch (Spec.murmur128 (Spec.memory q.toNat) 0xbc9f1d34) filt) := by
  have hi : ∀ x : BitVec 64, (Spec.murmur128 (Spec.memory x.toNat) 0xbc9f1d34).getD 0 0 = (bloomHashInt x).1.toNat ∧
      (Spec.murmur128 (Spec.memory x.toNat) 0xbc9f1d34).getD 1 0 = (bloomHashInt x).2.toNat := by
    intro x
    rw [← memory_eq]
    exact bloomHash_nats _
  exact ⟨fun data seed => ⟨murmur32_spec data seed, murmur128_spec data seed, murmur64_spec data seed⟩,
    fun b n hb hn => ⟨(bloom_content bloomHash _ bloomHash_nats hb hn).1, (bloom_content bloomHashInt _ hi hb hn).1⟩,
    (bloom_content bloomHash _ bloomHash_nats (b := 0) (n := 0) (by decide) (by decide)).2,
    (bloom_content bloomHashInt _ hi (b := 0) (n := 0) (by decide) (by decide)).2⟩

/-- The filter "Bloom" of the benchmark has ten bits for each key and answers as such a filter should. -/
theorem C73_bench [Env] (keys : List Key) (hn : keys.length < 2 ^ 31) (suffixLen : Nat) :
    ∃ filt, mkFilter "Bloom" suffixLen keys = .ok (.bloom filt) ∧ Spec.Bloom 10 (keys.map fun k => Spec.murmur128 k 0xbc9f1d34) filt ∧
      ∀ q, ∃ r, (Flt.bloom filt).lookup q = .ok r ∧ (r = true ↔ Spec.mayMatch (Spec.murmur128 q 0xbc9f1d34) filt) := by
  obtain ⟨-, hc, hq, -⟩ := C73
  obtain ⟨filt, hf, hd⟩ := (hc 10 keys.length (by decide) hn).1 keys rfl
  refine ⟨filt, ?_, hf, fun q => hq q filt⟩
  unfold mkFilter
  rw [if_pos rfl, show kBitsPerKey = 10 from rfl, hd []]
  rfl

/-- "The quick brown fox jumps over the lazy dog". -/
def fox : Key := [84, 104, 101, 32, 113, 117, 105, 99, 107, 32, 98, 114, 111, 119, 110, 32, 102, 111, 120, 32, 106, 117, 109, 112, 115, 32, 111, 118,
  101, 114, 32, 116, 104, 101, 32, 108, 97, 122, 121, 32, 100, 111, 103]

/-- Published values of the three functions, for the specification and for the code. -/
theorem C73_example : Spec.murmur32 [] 1 = 0x514E28B7 ∧ Spec.murmur32 [0x21, 0x43, 0x65, 0x87] 0x5082EDEE = 0x2362F9DE ∧
    Spec.murmur32 [0x21, 0x43, 0x65] 0 = 0x7E4A8634 ∧ Spec.murmur32 [97, 97, 97] 0x9747b28c = 0x283e0130 ∧
    Spec.murmur128 fox 0 = [0x2f1583c3, 0xecee2c67, 0x5d7bf66c, 0xe5e91d2c] ∧
    Spec.murmur64 fox 0 = [0xe34bbc7bbc071b6c, 0x7a433ca9c49a9347] ∧
    H4.nats (murmur3 fox 0#32) = [0x2f1583c3, 0xecee2c67, 0x5d7bf66c, 0xe5e91d2c] := by
  decide +kernel

end Surf.Props
