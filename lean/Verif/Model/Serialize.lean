import Verif.Model.Surf

/-!
# Serialization (`serialize`, `deSerialize`, `serializedSize`)

Integers are little endian, `position_t` and `level_t` have 4 bytes, `word_t` has 8 bytes and
`enum SuffixType` has the 4 bytes of `int` (x86-64, Itanium ABI).

A buffer is its absolute address together with its bytes, because `align` (config.hpp:37-39) rounds
the *address* up.  The cursor `char*& dst` only ever moves forward, so while serializing the state is
the list of the bytes before the cursor; the bytes that `align` skips keep the value they had in the
freshly allocated buffer.
-/

namespace Surf

/-- `align`, config.hpp:37-39.  (Addresses are below `2^64 - 7`.) -/
def alignUp (a : Nat) : Nat := (a + 7) / 8 * 8

/-- `sizeAlign(position_t&)`, config.hpp:41-43. -/
def sizeAlign32 (a : Nat) : Nat := add32 a 7 / 8 * 8

/-- `sizeAlign(uint64_t&)`, config.hpp:45-47.  (Sizes are far below `2^64`.) -/
def sizeAlign64 (a : Nat) : Nat := (a + 7) / 8 * 8

/-- A freshly allocated buffer: its address and the bytes that happen to be in it. -/
structure OutBuf where
  base : Nat
  init : List UInt8

/-- Code that writes at the cursor; the state is the list of the bytes before the cursor. -/
abbrev Put (α : Type) := ReaderT OutBuf (StateT (List UInt8) R) α

/-- A buffer to read from. -/
structure InBuf where
  base : Nat
  data : List UInt8

/-- Code that reads at the cursor; the state is the address of the cursor. -/
abbrev Get (α : Type) := ReaderT InBuf (StateT Nat R) α

/-- `memcpy(dst, bytes, n); dst += n;` -/
def putBytes (bs : List UInt8) : Put Unit := fun B out =>
  if out.length + bs.length ≤ B.init.length then .ok ((), out ++ bs) else .error .oobWrite

/-- `memcpy(dst, &v, sizeof(v)); dst += sizeof(v);` for a 4 byte integer `v`. -/
def put4 (v : Nat) : Put Unit := putBytes (leBytes 4 v)

/-- `align(dst)`. -/
def putAlign : Put Unit := fun B out =>
  .ok ((), out ++ (B.init.drop out.length ++ List.replicate 8 0).take
    (alignUp (B.base + out.length) - (B.base + out.length)))

/-- `memcpy(bytes, src, n); src += n;` -/
def getBytes [Env] (n : Nat) : Get (List UInt8) := fun I cur =>
  match (List.range n).mapM (fun i => rdB I.data (cur - I.base + i)) with
  | .ok bs => .ok (bs, cur + n)
  | .error e => .error e

/-- `memcpy(&v, src, sizeof(v)); src += sizeof(v);` for a 4 byte integer `v`. -/
def get4 [Env] : Get Nat := do
  let bs ← getBytes 4
  pure (leNat bs)

/-- `align(src)`. -/
def getAlign : Get Unit := fun _ cur => .ok ((), alignUp cur)

section
variable [Env]

/-- `memcpy(dst, a, n); dst += n;` for an array of `label_t`. -/
def putLabels (a : List UInt8) (n : Nat) : Put Unit := fun B out =>
  match (List.range n).mapM (rdB a) with
  | .ok bs => putBytes bs B out
  | .error e => .error e

/-- `memcpy(dst, a, 8 * n); dst += 8 * n;` for an array of `word_t`. -/
def putWords (a : List Word) (n : Nat) : Put Unit := fun B out =>
  match (List.range n).mapM (rdW a) with
  | .ok ws => putBytes (ws.flatMap fun w => leBytes 8 w.toNat) B out
  | .error e => .error e

/-- `memcpy(dst, a, 4 * n); dst += 4 * n;` for an array of `position_t`. -/
def putPoss (a : List Nat) (n : Nat) : Put Unit := fun B out =>
  match (List.range n).mapM (rdP a) with
  | .ok ps => putBytes (ps.flatMap fun p => leBytes 4 p) B out
  | .error e => .error e

/-- `a = new word_t[n]; memcpy(a, src, 8 * n); src += 8 * n;` -/
def getWords : Nat → Get (List Word)
  | 0 => pure []
  | n + 1 => do
    let bs ← getBytes 8
    let ws ← getWords n
    pure (BitVec.ofNat 64 (leNat bs) :: ws)

/-- `a = new position_t[n]; memcpy(a, src, 4 * n); src += 4 * n;` -/
def getPoss : Nat → Get (List Nat)
  | 0 => pure []
  | n + 1 => do
    let p ← get4
    let ps ← getPoss n
    pure (p :: ps)

end

/-- Failure of a reader. -/
def getFail {α : Type} (e : UB) : Get α := fun _ _ => .error e

namespace LabelVector

/-- label_vector.hpp:47-51 -/
def serializedSize (l : LabelVector) : Nat := sizeAlign32 (u32 (4 + l.numBytes))

variable [Env]

/-- label_vector.hpp:75-81 -/
def serialize (l : LabelVector) : Put Unit := do
  put4 l.numBytes
  putLabels l.labels l.numBytes
  putAlign

/-- label_vector.hpp:83-96.  Only `num_bytes_` bytes are allocated, without the padding that the
constructor (label_vector.hpp:27-28) provides behind the labels. -/
def deSerialize : Get LabelVector := do
  let numBytes ← get4
  let labels ← getBytes numBytes
  getAlign
  pure ⟨numBytes, labels⟩

end LabelVector

namespace BitvectorRank

/-- rank.hpp:42-44: the number of elements of `rank_lut_` by `rankLutSize()`. -/
def rankLutLen (numBits bbs : Nat) : Nat := u32 (add32 (numBits / bbs) 1 * 4) / 4

/-- rank.hpp:46-51 (`bitsSize()` is at most `2^29`). -/
def serializedSize (b : BitvectorRank) : Nat :=
  sizeAlign32 (u32 (4 + 4 + b.bitsSize + 4 * rankLutLen b.numBits b.basicBlockSize))

variable [Env]

/-- rank.hpp:62-72 -/
def serialize (b : BitvectorRank) : Put Unit := do
  put4 b.numBits
  put4 b.basicBlockSize
  putWords b.bits b.numWords
  putPoss b.rankLut (rankLutLen b.numBits b.basicBlockSize)
  putAlign

/-- `rankLutSize()` of a vector under construction; it divides by `basic_block_size_`. -/
def getLutLen (n d : Nat) : Get Nat := if d = 0 then getFail .divZero else pure (rankLutLen n d)

/-- rank.hpp:74-95 -/
def deSerialize : Get BitvectorRank := do
  let numBits ← get4
  let bbs ← get4
  let bits ← getWords (Bitvector.numWords ⟨numBits, []⟩)
  let len ← getLutLen numBits bbs
  let lut ← getPoss len
  getAlign
  pure ⟨⟨numBits, bits⟩, bbs, lut⟩

end BitvectorRank

namespace BitvectorSelect

/-- select.hpp:72-77; `selectLutSize()` (select.hpp:68-70) has the same form as `rankLutSize()`. -/
def serializedSize (b : BitvectorSelect) : Nat :=
  sizeAlign32 (u32 (4 + 4 + 4 + b.bitsSize + 4 * BitvectorRank.rankLutLen b.numOnes b.sampleInterval))

variable [Env]

/-- select.hpp:87-99 -/
def serialize (b : BitvectorSelect) : Put Unit := do
  put4 b.numBits
  put4 b.sampleInterval
  put4 b.numOnes
  putWords b.bits b.numWords
  putPoss b.selectLut (BitvectorRank.rankLutLen b.numOnes b.sampleInterval)
  putAlign

/-- select.hpp:101-123 -/
def deSerialize : Get BitvectorSelect := do
  let numBits ← get4
  let si ← get4
  let ones ← get4
  let bits ← getWords (Bitvector.numWords ⟨numBits, []⟩)
  let len ← BitvectorRank.getLutLen ones si
  let lut ← getPoss len
  getAlign
  pure ⟨⟨numBits, bits⟩, si, ones, lut⟩

end BitvectorSelect

/-- The value of an enumerator of `enum SuffixType`, config.hpp:30-35. -/
def SuffixType.toNat : SuffixType → Nat
  | .kNone => 0
  | .kHash => 1
  | .kReal => 2
  | .kMixed => 3

/-- Reading 4 bytes into an `enum SuffixType`. -/
def getType [Env] : Get SuffixType := do
  let n ← get4
  match n with
  | 0 => pure .kNone
  | 1 => pure .kHash
  | 2 => pure .kReal
  | 3 => pure .kMixed
  | _ => getFail .badEnum

namespace BitvectorSuffix

/-- suffix.hpp:119-124 -/
def serializedSize (b : BitvectorSuffix) : Nat := sizeAlign32 (u32 (4 + 4 + 4 + 4 + b.bitsSize))

variable [Env]

/-- The `memcpy` under `if (type_ != kNone)`, suffix.hpp:147-150. -/
def putBits (b : BitvectorSuffix) : Put Unit :=
  if b.type = .kNone then pure () else putWords b.bits b.numWords

/-- suffix.hpp:138-152 -/
def serialize (b : BitvectorSuffix) : Put Unit := do
  put4 b.numBits
  put4 b.type.toNat
  put4 b.hashLen
  put4 b.realLen
  putBits b
  putAlign

/-- The `memcpy` under `if (sv->type_ != kNone)`, suffix.hpp:164-171. -/
def getBits (t : SuffixType) (numBits : Nat) : Get (List Word) :=
  if t = .kNone then pure [] else getWords (Bitvector.numWords ⟨numBits, []⟩)

/-- suffix.hpp:154-174 -/
def deSerialize : Get BitvectorSuffix := do
  let numBits ← get4
  let t ← getType
  let hl ← get4
  let rl ← get4
  let bits ← getBits t numBits
  getAlign
  pure ⟨⟨numBits, bits⟩, t, hl, rl⟩

end BitvectorSuffix

namespace LoudsDense

/-- louds_dense.hpp:365-375.  The sizes of the four parts have type `position_t`, so they are added in 32 bits. -/
def serializedSize (d : LoudsDense) : Nat :=
  sizeAlign64 (sizeAlign64 (4 + 4 * d.height) + u32 (d.labelBitmaps.serializedSize + d.childBitmaps.serializedSize
    + d.prefixBits.serializedSize + d.suffixes.serializedSize))

variable [Env]

/-- louds_dense.hpp:103-114 -/
def serialize (d : LoudsDense) : Put Unit := do
  put4 d.height
  putPoss d.levelCuts d.height
  putAlign
  d.labelBitmaps.serialize
  d.childBitmaps.serialize
  d.prefixBits.serialize
  d.suffixes.serialize
  putAlign

/-- louds_dense.hpp:116-131 -/
def deSerialize : Get LoudsDense := do
  let height ← get4
  let cuts ← getPoss height
  getAlign
  let lb ← BitvectorRank.deSerialize
  let cb ← BitvectorRank.deSerialize
  let pb ← BitvectorRank.deSerialize
  let sf ← BitvectorSuffix.deSerialize
  getAlign
  pure ⟨height, cuts, lb, cb, pb, sf⟩

end LoudsDense

namespace LoudsSparse

/-- louds_sparse.hpp:400-411.  The sizes of the four parts have type `position_t`, so they are added in 32 bits. -/
def serializedSize (t : LoudsSparse) : Nat :=
  sizeAlign64 (sizeAlign64 (4 + 4 + 4 + 4 + 4 * t.height) + u32 (t.labels.serializedSize + t.childBits.serializedSize
    + t.loudsBits.serializedSize + t.suffixes.serializedSize))

variable [Env]

/-- louds_sparse.hpp:87-104 -/
def serialize (t : LoudsSparse) : Put Unit := do
  put4 t.height
  put4 t.startLevel
  put4 t.nodeCountDense
  put4 t.childCountDense
  putPoss t.levelCuts t.height
  putAlign
  t.labels.serialize
  t.childBits.serialize
  t.loudsBits.serialize
  t.suffixes.serialize
  putAlign

/-- louds_sparse.hpp:106-127 -/
def deSerialize : Get LoudsSparse := do
  let height ← get4
  let start ← get4
  let ncd ← get4
  let ccd ← get4
  let cuts ← getPoss height
  getAlign
  let labels ← LabelVector.deSerialize
  let cb ← BitvectorRank.deSerialize
  let lb ← BitvectorSelect.deSerialize
  let sf ← BitvectorSuffix.deSerialize
  getAlign
  pure ⟨height, start, ncd, ccd, cuts, labels, cb, lb, sf⟩

end LoudsSparse

namespace Filter

/-- `SuRF::serializedSize`, surf.hpp:276-279. -/
def serializedSize (f : Filter) : Nat := f.dense.serializedSize + f.sparse.serializedSize

variable [Env]

/-- `SuRF::serialize`, surf.hpp:99-107.  `base` is the address returned by `new char[size]` and `fresh`
the content of the new memory. -/
def serialize (f : Filter) (base : Nat) (fresh : Nat → UInt8) : R (List UInt8) := do
  let size := f.serializedSize
  let B : OutBuf := ⟨base, (List.range size).map fresh⟩
  let r ← f.dense.serialize B []
  let r ← f.sparse.serialize B r.2
  assertR (decide (r.2.length = size))
  pure ((r.2 ++ B.init.drop r.2.length).take size)

/-- The two tries of `SuRF::deSerialize`, surf.hpp:109-115, from a buffer `data` at address `base`. -/
def deSerialize (base : Nat) (data : List UInt8) : R Filter := do
  let r ← LoudsDense.deSerialize ⟨base, data⟩ base
  let r' ← LoudsSparse.deSerialize ⟨base, data⟩ r.2
  pure ⟨r.1, r'.1⟩

end Filter

/-- `SuRF::deSerialize`, surf.hpp:109-115.  `iter_` is set up for the new filter, whereas `iter2_` is left
as default constructed (surf.hpp:18): `it2` stands for its content. -/
def SuRF.deSerialize [Env] (base : Nat) (data : List UInt8) (it2 : Iter) : R SuRF := do
  let f ← Filter.deSerialize base data
  pure ⟨f, Iter.new f, it2⟩

end Surf
