import Verif.Model.Basic

/-!
# The Bloom filter of the benchmark (bench/bloom.hpp, bench/MurmurHash3.h)
-/

set_option autoImplicit false

namespace Surf.Bench
open Surf

/-! ## MurmurHash3_x86_128 -/

/-- MurmurHash3.h:26-29 -/
def rotl32 (x : BitVec 32) (r : Nat) : BitVec 32 := (x <<< r) ||| (x >>> (32 - r))

/-- MurmurHash3.h:58-67 -/
def fmix32 (h : BitVec 32) : BitVec 32 :=
  let h := h ^^^ (h >>> 16)
  let h := h * 0x85ebca6b#32
  let h := h ^^^ (h >>> 13)
  let h := h * 0xc2b2ae35#32
  h ^^^ (h >>> 16)

/-- The four hash words of MurmurHash3.h:146-149. -/
structure H4 where
  h1 : BitVec 32
  h2 : BitVec 32
  h3 : BitVec 32
  h4 : BitVec 32
  deriving DecidableEq, Repr

def c1 : BitVec 32 := 0x239b961b#32
def c2 : BitVec 32 := 0xab0e9789#32
def c3 : BitVec 32 := 0x38b34ae5#32
def c4 : BitVec 32 := 0xa1e38b93#32

/-- Byte `i` of the data as a 32-bit number. -/
def byteAt (data : List UInt8) (i : Nat) : BitVec 32 := BitVec.ofNat 32 (data.getD i 0).toNat

/-- `getblock32` (MurmurHash3.h:45-48) on a little-endian machine: word `i` of the data. -/
def getblock32 (data : List UInt8) (i : Nat) : BitVec 32 := BitVec.ofNat 32 (leNat ((data.drop (4 * i)).take 4))

/-- One round of the loop MurmurHash3.h:161-183 on block `i` (counted from 0; the code counts from `-nblocks`). -/
def round (data : List UInt8) (i : Nat) (h : H4) : H4 :=
  let k1 := getblock32 data (i * 4 + 0)
  let k2 := getblock32 data (i * 4 + 1)
  let k3 := getblock32 data (i * 4 + 2)
  let k4 := getblock32 data (i * 4 + 3)
  let h1 := h.h1 ^^^ (rotl32 (k1 * c1) 15 * c2)
  let h1 := (rotl32 h1 19 + h.h2) * 5#32 + 0x561ccd1b#32
  let h2 := h.h2 ^^^ (rotl32 (k2 * c2) 16 * c3)
  let h2 := (rotl32 h2 17 + h.h3) * 5#32 + 0x0bcaa747#32
  let h3 := h.h3 ^^^ (rotl32 (k3 * c3) 17 * c4)
  let h3 := (rotl32 h3 15 + h.h4) * 5#32 + 0x96cd1c35#32
  let h4 := h.h4 ^^^ (rotl32 (k4 * c4) 18 * c1)
  let h4 := (rotl32 h4 13 + h1) * 5#32 + 0x32ac3b17#32
  ⟨h1, h2, h3, h4⟩

/-- The first `n` rounds. -/
def rounds (data : List UInt8) : Nat → H4 → H4
  | 0, h => h
  | n + 1, h => round data n (rounds data n h)

/-- The `switch` MurmurHash3.h:195-220 with its fall-through, `m = len & 15`.  Simplification: `tail[11] << 24` and the like are computed in
`int`, where a byte of 128 or more overflows; the model takes the bits every compiler produces. -/
def tailMix (tail : List UInt8) (m : Nat) (h : H4) : H4 :=
  let k4 := (byteAt tail 14 <<< 16) ^^^ (byteAt tail 13 <<< 8) ^^^ byteAt tail 12
  let h4 := if m ≥ 13 then h.h4 ^^^ (rotl32 (k4 * c4) 18 * c1) else h.h4
  let k3 := (byteAt tail 11 <<< 24) ^^^ (byteAt tail 10 <<< 16) ^^^ (byteAt tail 9 <<< 8) ^^^ byteAt tail 8
  let h3 := if m ≥ 9 then h.h3 ^^^ (rotl32 (k3 * c3) 17 * c4) else h.h3
  let k2 := (byteAt tail 7 <<< 24) ^^^ (byteAt tail 6 <<< 16) ^^^ (byteAt tail 5 <<< 8) ^^^ byteAt tail 4
  let h2 := if m ≥ 5 then h.h2 ^^^ (rotl32 (k2 * c2) 16 * c3) else h.h2
  let k1 := (byteAt tail 3 <<< 24) ^^^ (byteAt tail 2 <<< 16) ^^^ (byteAt tail 1 <<< 8) ^^^ byteAt tail 0
  let h1 := if m ≥ 1 then h.h1 ^^^ (rotl32 (k1 * c1) 15 * c2) else h.h1
  ⟨h1, h2, h3, h4⟩

/-- Each word plus the sum of all, MurmurHash3.h:226-227 and 234-235. -/
def addAll (h : H4) : H4 :=
  let h1 := h.h1 + h.h2 + h.h3 + h.h4
  ⟨h1, h.h2 + h1, h.h3 + h1, h.h4 + h1⟩

/-- `MurmurHash3_x86_128` (MurmurHash3.h:140-241) for data of fewer than 2^31 bytes (`len` is an `int`). -/
def murmur3 (data : List UInt8) (seed : BitVec 32) : H4 :=
  let len := data.length
  let nblocks := len / 16
  let h := rounds data nblocks ⟨seed, seed, seed, seed⟩
  let h := tailMix (data.drop (nblocks * 16)) (len % 16) h
  let l := BitVec.ofNat 32 len
  let h := addAll ⟨h.h1 ^^^ l, h.h2 ^^^ l, h.h3 ^^^ l, h.h4 ^^^ l⟩
  addAll ⟨fmix32 h.h1, fmix32 h.h2, fmix32 h.h3, fmix32 h.h4⟩

/-- `BloomHash` of a string (bloom.hpp:58-60): the first two words, `h` and `delta` of the probes. -/
def bloomHash (key : Key) : BitVec 32 × BitVec 32 :=
  let h := murmur3 key 0xbc9f1d34#32
  (h.h1, h.h2)

/-- `BloomHash` of an integer (bloom.hpp:62-64): of its eight bytes in memory. -/
def bloomHashInt (key : BitVec 64) : BitVec 32 × BitVec 32 := bloomHash (leBytes 8 key.toNat)

/-! ## class BloomFilter -/

/-- The number of probes, bloom.hpp:72-78: `bits_per_key * 0.69` rounded down, at least 1 and at most 30.  For 0 ≤ `bits_per_key` < 100
the product is never within rounding distance of an integer (other than 0), and from 44 on the result is 30. -/
def numProbes (bitsPerKey : Nat) : Nat := min 30 (max 1 (bitsPerKey * 69 / 100))

/-- Bytes of the bit array, bloom.hpp:81-89; `n * bits_per_key_` in `size_t`. -/
def bloomBytes (bitsPerKey n : Nat) : Nat :=
  let bits := n * bitsPerKey % 18446744073709551616
  ((if bits < 64 then 64 else bits) + 7) / 8

/-- `array[bitpos/8] |= (1 << (bitpos % 8))` (bloom.hpp:105) -/
def setBit (a : List UInt8) (p : Nat) : R (List UInt8) :=
  match a[p / 8]? with
  | some b => .ok (a.set (p / 8) (b ||| UInt8.ofNat (2 ^ (p % 8))))
  | none => .error .oobWrite

/-- The loop over the probes of one key, bloom.hpp:103-107. -/
def setProbes (bits : Nat) : Nat → BitVec 32 → BitVec 32 → List UInt8 → R (List UInt8)
  | 0, _, _, a => .ok a
  | j + 1, h, delta, a => do
    let a ← setBit a (h.toNat % bits)
    setProbes bits j (h + delta) delta a

/-- The loop over the keys `keys[i], keys[i+1], …` (`n` of them), bloom.hpp:95-108; `hash` is `BloomHash`. -/
def addKeys {α : Type} (hash : α → BitVec 32 × BitVec 32) (k bits : Nat) (keys : List α) : Nat → Nat → List UInt8 → R (List UInt8)
  | _, 0, a => .ok a
  | i, n + 1, a => do
    let key ← getR keys i
    let a ← setProbes bits k (hash key).1 (hash key).2 a
    addKeys hash k bits keys (i + 1) n a

/-- `CreateFilter` (bloom.hpp:80-109 for strings, 111-140 for integers): `dst` with the filter appended.  `n` is an `int`
in the code, here a number below 2^31. -/
def createFilter {α : Type} (hash : α → BitVec 32 × BitVec 32) (bitsPerKey : Nat) (keys : List α) (n : Nat) (dst : List UInt8) :
    R (List UInt8) := do
  let bytes := bloomBytes bitsPerKey n
  let k := numProbes bitsPerKey
  let a ← addKeys hash k (bytes * 8) keys 0 n (List.replicate bytes 0)
  return dst ++ a ++ [UInt8.ofNat k]

/-- `(array[bitpos/8] & (1 << (bitpos % 8))) == 0` negated (bloom.hpp:164) -/
def testBit (a : List UInt8) (p : Nat) : R Bool :=
  match a[p / 8]? with
  | some b => .ok (b &&& UInt8.ofNat (2 ^ (p % 8)) != 0)
  | none => .error .oobRead

/-- The loop over the probes of a query, bloom.hpp:162-166. -/
def testProbes (bits : Nat) : Nat → BitVec 32 → BitVec 32 → List UInt8 → R Bool
  | 0, _, _, _ => .ok true
  | j + 1, h, delta, a => do
    let b ← testBit a (h.toNat % bits)
    if !b then return false
    testProbes bits j (h + delta) delta a

/-- `KeyMayMatch` (bloom.hpp:142-168 for strings, 170-196 for integers).  A last byte of 128 or more is a negative `char`, which as a
`size_t` is also above 30. -/
def keyMayMatch {α : Type} (hash : α → BitVec 32 × BitVec 32) (key : α) (filter : List UInt8) : R Bool := do
  let len := filter.length
  if len < 2 then return false
  let bits := (len - 1) * 8
  let k ← getR filter (len - 1)
  if k.toNat > 30 then return true
  testProbes bits k.toNat (hash key).1 (hash key).2 filter

end Surf.Bench
