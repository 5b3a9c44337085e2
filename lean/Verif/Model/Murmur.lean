import Verif.Model.Bloom

/-!
# The other two functions of bench/MurmurHash3.h

`MurmurHash3_x86_128`, the one the Bloom filter uses, is in Model/Bloom.lean.
-/

set_option autoImplicit false

namespace Surf.Bench
open Surf

/-! ## MurmurHash3_x86_32 -/

/-- One round of the loop MurmurHash3.h:100-111 on block `i` (counted from 0; the code counts from `-nblocks`). -/
def round32 (data : List UInt8) (i : Nat) (h1 : BitVec 32) : BitVec 32 :=
  let k1 := getblock32 data i
  let k1 := rotl32 (k1 * 0xcc9e2d51#32) 15 * 0x1b873593#32
  rotl32 (h1 ^^^ k1) 13 * 5#32 + 0xe6546b64#32

/-- The first `n` rounds. -/
def rounds32 (data : List UInt8) : Nat → BitVec 32 → BitVec 32
  | 0, h => h
  | n + 1, h => round32 data n (rounds32 data n h)

/-- The `switch` MurmurHash3.h:120-126 with its fall-through, `m = len & 3`. -/
def tailMix32 (tail : List UInt8) (m : Nat) (h1 : BitVec 32) : BitVec 32 :=
  let k1 := (byteAt tail 2 <<< 16) ^^^ (byteAt tail 1 <<< 8) ^^^ byteAt tail 0
  if m ≥ 1 then h1 ^^^ (rotl32 (k1 * 0xcc9e2d51#32) 15 * 0x1b873593#32) else h1

/-- `MurmurHash3_x86_32` (MurmurHash3.h:84-136) for data of fewer than 2^31 bytes (`len` is an `int`). -/
def murmur32 (data : List UInt8) (seed : BitVec 32) : BitVec 32 :=
  let nblocks := data.length / 4
  let h1 := rounds32 data nblocks seed
  let h1 := tailMix32 (data.drop (nblocks * 4)) (data.length % 4) h1
  fmix32 (h1 ^^^ BitVec.ofNat 32 data.length)

/-! ## MurmurHash3_x64_128 -/

/-- MurmurHash3.h:31-34 -/
def rotl64 (x : BitVec 64) (r : Nat) : BitVec 64 := (x <<< r) ||| (x >>> (64 - r))

/-- MurmurHash3.h:71-80 -/
def fmix64 (k : BitVec 64) : BitVec 64 :=
  let k := k ^^^ (k >>> 33)
  let k := k * 0xff51afd7ed558ccd#64
  let k := k ^^^ (k >>> 33)
  let k := k * 0xc4ceb9fe1a85ec53#64
  k ^^^ (k >>> 33)

/-- `getblock64` (MurmurHash3.h:50-53) on a little-endian machine: word `i` of the data. -/
def getblock64 (data : List UInt8) (i : Nat) : BitVec 64 := BitVec.ofNat 64 (leNat ((data.drop (8 * i)).take 8))

/-- The constants of MurmurHash3.h:254-255. -/
def d1 : BitVec 64 := 0x87c37b91114253d5#64
def d2 : BitVec 64 := 0x4cf5ad432745937f#64

/-- One round of the loop MurmurHash3.h:262-274. -/
def round64 (data : List UInt8) (i : Nat) (h : BitVec 64 × BitVec 64) : BitVec 64 × BitVec 64 :=
  let k1 := getblock64 data (i * 2 + 0)
  let k2 := getblock64 data (i * 2 + 1)
  let h1 := h.1 ^^^ (rotl64 (k1 * d1) 31 * d2)
  let h1 := (rotl64 h1 27 + h.2) * 5#64 + 0x52dce729#64
  let h2 := h.2 ^^^ (rotl64 (k2 * d2) 33 * d1)
  let h2 := (rotl64 h2 31 + h1) * 5#64 + 0x38495ab5#64
  (h1, h2)

/-- The first `n` rounds. -/
def rounds64 (data : List UInt8) : Nat → BitVec 64 × BitVec 64 → BitVec 64 × BitVec 64
  | 0, h => h
  | n + 1, h => round64 data n (rounds64 data n h)

/-- Byte `i` of the data as a 64-bit number. -/
def byteAt64 (data : List UInt8) (i : Nat) : BitVec 64 := BitVec.ofNat 64 (data.getD i 0).toNat

/-- The `switch` MurmurHash3.h:284-304 with its fall-through, `m = len & 15`. -/
def tailMix64 (tail : List UInt8) (m : Nat) (h : BitVec 64 × BitVec 64) : BitVec 64 × BitVec 64 :=
  let k2 := (byteAt64 tail 14 <<< 48) ^^^ (byteAt64 tail 13 <<< 40) ^^^ (byteAt64 tail 12 <<< 32) ^^^ (byteAt64 tail 11 <<< 24) ^^^
    (byteAt64 tail 10 <<< 16) ^^^ (byteAt64 tail 9 <<< 8) ^^^ byteAt64 tail 8
  let h2 := if m ≥ 9 then h.2 ^^^ (rotl64 (k2 * d2) 33 * d1) else h.2
  let k1 := (byteAt64 tail 7 <<< 56) ^^^ (byteAt64 tail 6 <<< 48) ^^^ (byteAt64 tail 5 <<< 40) ^^^ (byteAt64 tail 4 <<< 32) ^^^
    (byteAt64 tail 3 <<< 24) ^^^ (byteAt64 tail 2 <<< 16) ^^^ (byteAt64 tail 1 <<< 8) ^^^ byteAt64 tail 0
  let h1 := if m ≥ 1 then h.1 ^^^ (rotl64 (k1 * d1) 31 * d2) else h.1
  (h1, h2)

/-- `MurmurHash3_x64_128` (MurmurHash3.h:245-322) for data of fewer than 2^31 bytes (`len` is an `int`). -/
def murmur64 (data : List UInt8) (seed : BitVec 32) : BitVec 64 × BitVec 64 :=
  let nblocks := data.length / 16
  let h := rounds64 data nblocks (seed.setWidth 64, seed.setWidth 64)
  let h := tailMix64 (data.drop (nblocks * 16)) (data.length % 16) h
  let l := BitVec.ofNat 64 data.length
  let h1 := (h.1 ^^^ l) + (h.2 ^^^ l)
  let h2 := (h.2 ^^^ l) + h1
  let h1 := fmix64 h1
  let h2 := fmix64 h2
  let h1 := h1 + h2
  (h1, h2 + h1)

end Surf.Bench
