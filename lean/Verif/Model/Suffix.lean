import Verif.Model.Bitvector

/-! # hash.hpp and suffix.hpp -/

namespace Surf

/-! ## hash.hpp: LevelDB hash on 32-bit words -/

/-- The constant `m`, hash.hpp:19. -/
def hashM : BitVec 32 := 0xc6a4a793#32

/-- `DecodeFixed32` (hash.hpp:11-15): little-endian load of four bytes. -/
def decodeFixed32 (a b c d : UInt8) : BitVec 32 := BitVec.ofNat 32 (leNat [a, b, c, d])

/-- The part of `Hash` after the initialisation of `h`, hash.hpp:25-45: four bytes at a time, then
the remaining 0-3 bytes (the `switch` falls through from case 3 to case 1). -/
def hashLoop : Key → BitVec 32 → BitVec 32
  | a :: b :: c :: d :: rest, h =>
    let h := h + decodeFixed32 a b c d
    let h := h * hashM
    hashLoop rest (h ^^^ (h >>> 16))
  | [], h => h
  | [a], h =>
    let h := h + BitVec.ofNat 32 a.toNat
    let h := h * hashM
    h ^^^ (h >>> 24)
  | [a, b], h =>
    let h := h + (BitVec.ofNat 32 b.toNat <<< 8)
    let h := h + BitVec.ofNat 32 a.toNat
    let h := h * hashM
    h ^^^ (h >>> 24)
  | [a, b, c], h =>
    let h := h + (BitVec.ofNat 32 c.toNat <<< 16)
    let h := h + (BitVec.ofNat 32 b.toNat <<< 8)
    let h := h + BitVec.ofNat 32 a.toNat
    let h := h * hashM
    h ^^^ (h >>> 24)

/-- `suffixHash(key)` (hash.hpp:17-50). -/
def suffixHash (key : Key) : BitVec 32 :=
  hashLoop key (0xbc9f1d34#32 ^^^ (BitVec.ofNat 32 key.length * hashM))

/-! ## suffix.hpp -/

/-- `class BitvectorSuffix` (suffix.hpp:19-185). -/
structure BitvectorSuffix extends Bitvector where
  type : SuffixType
  hashLen : Nat
  realLen : Nat
  deriving DecidableEq, Repr, Inhabited

namespace BitvectorSuffix

/-- Default constructor, suffix.hpp:21 (`bits_ == nullptr`). -/
def empty : BitvectorSuffix := ⟨⟨0, []⟩, .kNone, 0, 0⟩

/-- Loop over complete bytes of `constructRealSuffix`, suffix.hpp:50-54 (`n` bytes). -/
def realBytes (key : Key) (level : Nat) : Nat → Word
  | 0 => 0
  | n + 1 => (realBytes key level n <<< 8) + BitVec.ofNat 64 (key.getD (level + n) 0).toNat

/-- suffix.hpp:43-65 -/
def constructRealSuffix (key : Key) (level len : Nat) : Word :=
  if key.length < level ∨ (key.length - level) * 8 < len then 0
  else
    let complete := len / 8
    let suffix := realBytes key level complete
    let offset := len % 8
    if offset > 0 then
      (suffix <<< offset)
        + (BitVec.ofNat 64 (key.getD (level + complete) 0).toNat >>> (8 - offset))
    else suffix

variable [Env]

/-- suffix.hpp:36-41 -/
def constructHashSuffix (key : Key) (len : Nat) : R Word := do
  let suffix : Word := (suffixHash key).setWidth 64
  let suffix ← shlW suffix (sub32 (sub32 64 len) kHashShift)
  shrW suffix (sub32 64 len)

/-- suffix.hpp:67-75 -/
def constructMixedSuffix (key : Key) (hashLen level realLen : Nat) : R Word := do
  let h ← constructHashSuffix key hashLen
  let r := constructRealSuffix key level realLen
  let s ← shlW h realLen
  return s ||| r

/-- suffix.hpp:77-90 -/
def constructSuffix (type : SuffixType) (key : Key) (hashLen level realLen : Nat) : R Word :=
  match type with
  | .kHash => constructHashSuffix key hashLen
  | .kReal => .ok (constructRealSuffix key level realLen)
  | .kMixed => constructMixedSuffix key hashLen level realLen
  | .kNone => .ok 0

/-- suffix.hpp:96-101 -/
def extractRealSuffix (suffix : Word) (realLen : Nat) : R Word := do
  let m ← shlW 1#64 realLen
  return suffix &&& (m - 1#64)

/-- suffix.hpp:107-109 -/
def suffixLen (b : BitvectorSuffix) : Nat := b.hashLen + b.realLen

/-- suffix.hpp:187-202.  The shift of line 200 has the (wrapped) count
`64 - offset - suffix_len`, which is always over-wide when it is executed. -/
def read (b : BitvectorSuffix) (idx : Nat) : R Word :=
  if b.type = .kNone then .ok 0
  else if mul32 idx b.suffixLen ≥ b.numBits then .ok 0
  else do
    let bitPos := mul32 idx b.suffixLen
    let wordId := bitPos / 64
    let offset := bitPos % 64
    let w ← rdW b.bits wordId
    let ret ← shrW (w <<< offset) (sub32 64 b.suffixLen)
    if offset + b.suffixLen > 64 then do
      let w' ← rdW b.bits (wordId + 1)
      let x ← shrW w' (sub32 (sub32 64 offset) b.suffixLen)
      return ret + x
    else return ret

/-- suffix.hpp:204-206 -/
def readReal (b : BitvectorSuffix) (idx : Nat) : R Word := do
  let w ← b.read idx
  extractRealSuffix w b.realLen

/-- suffix.hpp:208-227 -/
def checkEquality (b : BitvectorSuffix) (idx : Nat) (key : Key) (level : Nat) : R Bool :=
  if b.type = .kNone then .ok true
  else if mul32 idx b.suffixLen ≥ b.numBits then .ok false
  else do
    let stored ← b.read idx
    if b.type = .kReal ∧ stored = 0 then return true
    else if b.type = .kReal ∧ (key.length < level ∨ (key.length - level) * 8 < b.realLen) then
      return false
    else do
      let q ← constructSuffix b.type key b.hashLen level b.realLen
      return stored == q

/-- suffix.hpp:249-267 -/
def compare (b : BitvectorSuffix) (idx : Nat) (key : Key) (level : Nat) : R Int :=
  if mul32 idx b.suffixLen ≥ b.numBits ∨ b.type = .kNone ∨ b.type = .kHash then
    .ok kCouldBePositive
  else do
    let stored ← b.read idx
    let q := constructRealSuffix key level b.realLen
    let stored ← if b.type = .kMixed then extractRealSuffix stored b.realLen else pure stored
    if stored = 0 ∧ q = 0 then return kCouldBePositive
    else if stored = 0 ∨ stored < q then return (-1)
    else if stored = q then return kCouldBePositive
    else return 1

/-- Constructor, suffix.hpp:23-34. -/
def mk' (type : SuffixType) (hashLen realLen : Nat) (levels : List (List Word × Nat)) :
    R BitvectorSuffix := do
  let b ← Bitvector.mk' levels
  assertR (hashLen + realLen ≤ 64)
  return ⟨b, type, hashLen, realLen⟩

end BitvectorSuffix
end Surf
