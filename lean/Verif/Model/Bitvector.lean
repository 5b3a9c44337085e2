import Verif.Model.Basic

/-! # bitvector.hpp, popcount.h, rank.hpp, select.hpp -/

namespace Surf

/-- `class Bitvector` (bitvector.hpp:12-68). -/
structure Bitvector where
  numBits : Nat
  bits : List Word
  deriving DecidableEq, Repr, Inhabited

namespace Bitvector

/-- bitvector.hpp:34-39 -/
def numWords (b : Bitvector) : Nat :=
  if b.numBits % 64 = 0 then b.numBits / 64 else b.numBits / 64 + 1

/-- bitvector.hpp:42-44 -/
def bitsSize (b : Bitvector) : Nat := b.numWords * 8

variable [Env]

/-- bitvector.hpp:70-75 -/
def readBit (b : Bitvector) (pos : Nat) : R Bool := do
  assertR (pos ≤ b.numBits)
  let w ← rdW b.bits (pos / 64)
  return testMsb w (pos % 64)

/-- The `while` loop of `distanceToNextSetBit`, bitvector.hpp:94-101. -/
def nextLoop (b : Bitvector) : Nat → Nat → Nat → R Nat
  | 0, _, _ => .error .diverge
  | fuel + 1, wordId, distance =>
    if wordId < sub32 b.numWords 1 then do
      let wordId := wordId + 1
      let testBits ← rdW b.bits wordId
      if testBits != 0 then return distance + clz testBits
      nextLoop b fuel wordId (distance + 64)
    else return distance

/-- bitvector.hpp:77-102.  `pos + 1` is `position_t` arithmetic and wraps for `pos = 2^32-1`
(this happens for the empty query key, louds_dense.hpp:240). -/
def distanceToNextSetBit (b : Bitvector) (pos : Nat) : R Nat := do
  assertR (pos < b.numBits)
  let wordId := add32 pos 1 / 64
  let offset := add32 pos 1 % 64
  let w ← rdW b.bits wordId
  let testBits := w <<< offset
  if testBits != 0 then return 1 + clz testBits
  if wordId = sub32 b.numWords 1 then return sub32 b.numBits pos
  nextLoop b (b.numWords + 1) wordId (1 + (64 - offset))

/-- The `while` loop of `distanceToPrevSetBit`, bitvector.hpp:122-129. -/
def prevLoop (b : Bitvector) : Nat → Nat → R Nat
  | 0, distance => return distance
  | wordId + 1, distance => do
    let testBits ← rdW b.bits wordId
    if testBits != 0 then return distance + ctz testBits
    prevLoop b wordId (distance + 64)

/-- bitvector.hpp:104-130 -/
def distanceToPrevSetBit (b : Bitvector) (pos : Nat) : R Nat := do
  assertR (pos ≤ b.numBits)
  if pos = 0 then return 0
  let wordId := (pos - 1) / 64
  let offset := (pos - 1) % 64
  let w ← rdW b.bits wordId
  let testBits := w >>> (63 - offset)
  if testBits != 0 then return 1 + ctz testBits
  prevLoop b wordId (1 + (offset + 1))

end Bitvector

/-- bitvector.hpp:132-139; the levels `[start_level, end_level)` are passed as a list.  The sum is a
`position_t`: it wraps modulo 2^32. -/
def totalNumBits (ns : List Nat) : Nat := u32 ns.sum

section
variable [Env]

/-- Inner loop over the complete words of a level, bitvector.hpp:150-155.
Returns the bit array and the new `word_id`. -/
def concatWords (bitShift : Nat) : List Word → List Word → Nat → R (List Word × Nat)
  | [], bits, wordId => .ok (bits, wordId)
  | w :: ws, bits, wordId => do
    let bits ← orAt bits wordId (w >>> bitShift)
    let wordId := wordId + 1
    let bits ← if bitShift > 0 then orAt bits wordId (w <<< (64 - bitShift)) else pure bits
    concatWords bitShift ws bits wordId

/-- bitvector.hpp:141-170.  Levels are passed as pairs (word vector, number of bits).
The shift `last_word << (kWordSize - bit_shift)` of line 165 has a count of 64 only when
`bit_shift = 0`, and then `bits_remain < 64` excludes that branch. -/
def concatLevels : List (List Word × Nat) → List Word → Nat → Nat → R (List Word)
  | [], bits, _, _ => .ok bits
  | (ws, n) :: ls, bits, wordId, bitShift =>
    if n = 0 then concatLevels ls bits wordId bitShift
    else do
      let complete := n / 64
      if ws.length < complete then .error .oobRead else
      let (bits, wordId) ← concatWords bitShift (ws.take complete) bits wordId
      let remain := n - complete * 64
      if remain > 0 then do
        let last ← rdW ws complete
        let bits ← orAt bits wordId (last >>> bitShift)
        if bitShift + remain < 64 then concatLevels ls bits wordId (bitShift + remain)
        else do
          let wordId := wordId + 1
          let sh ← shlW last (64 - bitShift)
          let bits ← orAt bits wordId sh
          concatLevels ls bits wordId (bitShift + remain - 64)
      else concatLevels ls bits wordId bitShift

/-- The `Bitvector` constructor, bitvector.hpp:16-26, on the list of levels
`[start_level, end_level)` (the `end_level == 0` default is resolved by the callers). -/
def Bitvector.mk' (levels : List (List Word × Nat)) : R Bitvector := do
  let n := totalNumBits (levels.map (·.2))
  let nw := if n % 64 = 0 then n / 64 else n / 64 + 1
  let bits ← concatLevels levels (List.replicate nw 0) 0 0
  return ⟨n, bits⟩

/-- The levels the constructor of `Bitvector` ranges over: `end_level == 0` means "all"
(bitvector.hpp:20-21).  The per level vectors are indexed by `operator[]`. -/
def levelRange (bv : List (List Word)) (nums : List Nat) (start end_ : Nat) :
    R (List (List Word × Nat)) :=
  let e := if end_ = 0 then bv.length else end_
  (List.range' start (e - start)).mapM fun l => do
    let n ← getR nums l
    let ws ← getR bv l
    return (ws, n)

/-! ## popcount.h -/

/-- The loop of `popcountLinear`, popcount.h:76-79: sum over words `x .. x+n-1`. -/
def popLoop (bits : List Word) (x : Nat) : Nat → R Nat
  | 0 => .ok 0
  | n + 1 => do
    let p ← popLoop bits x n
    let w ← rdW bits (x + n)
    return p + popcount w

/-- popcount.h:70-87 -/
def popcountLinear (bits : List Word) (x nbits : Nat) : R Nat :=
  if nbits = 0 then .ok 0 else do
    let lastword := (nbits - 1) / 64
    let p ← popLoop bits x lastword
    let w ← rdW bits (x + lastword)
    return p + popcount (w >>> (63 - (nbits - 1) % 64))

end

/-- Loop of `select64_popcount_search`, popcount.h:108-117. -/
def selSearchLoop : List Nat → Word → Int → Int → Int × Int
  | [], _, k, loc => (k, loc)
  | t :: ts, x, k, loc =>
    let lcount := popcount (x >>> t)
    if k > (lcount : Int) then
      selSearchLoop ts (x &&& (((1#64) <<< t) - 1#64)) (k - lcount) (loc + t)
    else selSearchLoop ts (x >>> t) k loc

/-- popcount.h:104-119 (`testbits` runs through 32, 16, 8, 4, 2, 1). -/
def select64 (x : Word) (k : Int) : Int :=
  let r := selSearchLoop [32, 16, 8, 4, 2, 1] x k (-1)
  r.2 + r.1

/-! ## rank.hpp -/

/-- `class BitvectorRank` (rank.hpp:14-118). -/
structure BitvectorRank extends Bitvector where
  basicBlockSize : Nat
  rankLut : List Nat
  deriving DecidableEq, Repr, Inhabited

namespace BitvectorRank
variable [Env]

/-- Loop of `initRankLut`, rank.hpp:108-113: `n` blocks left, starting with block `i`. -/
def lutLoop (bits : List Word) (wpb bbs : Nat) : Nat → Nat → Nat → R (List Nat)
  | 0, _, cumu => .ok [cumu]
  | n + 1, i, cumu => do
    let p ← popcountLinear bits (i * wpb) bbs
    let rest ← lutLoop bits wpb bbs n (i + 1) (cumu + p)
    return cumu :: rest

/-- rank.hpp:18-26 and 103-114 -/
def mk' (bbs : Nat) (levels : List (List Word × Nat)) : R BitvectorRank := do
  let b ← Bitvector.mk' levels
  let lut ← lutLoop b.bits (bbs / 64) bbs (b.numBits / bbs) 0 0
  return ⟨b, bbs, lut⟩

/-- rank.hpp:33-40 -/
def rank (b : BitvectorRank) (pos : Nat) : R Nat := do
  assertR (pos ≤ b.numBits)
  let wpb := b.basicBlockSize / 64
  let blockId := pos / b.basicBlockSize
  let offset := pos &&& (b.basicBlockSize - 1)
  let base ← rdP b.rankLut blockId
  let p ← popcountLinear b.bits (blockId * wpb) (offset + 1)
  return base + p

/-- rank.hpp:42-44 -/
def rankLutSize (b : BitvectorRank) : Nat := (b.numBits / b.basicBlockSize + 1) * 4

end BitvectorRank

/-! ## select.hpp -/

/-- `class BitvectorSelect` (select.hpp:15-164). -/
structure BitvectorSelect extends Bitvector where
  sampleInterval : Nat
  numOnes : Nat
  selectLut : List Nat
  deriving DecidableEq, Repr, Inhabited

namespace BitvectorSelect

/-- Inner loop of `initSelectLut`, select.hpp:144-149: samples falling into word `i`.
`sampling_ones` is a 32-bit number, so a loop that has not ended after 2^32 rounds never will. -/
def sampleLoop (w : Word) (i si cumu ones : Nat) : Nat → Nat → R (List Nat × Nat)
  | 0, _ => .error .diverge
  | fuel + 1, sampling =>
    if sampling ≤ cumu + ones then do
      let diff : Int := (BitVec.ofNat 32 (sub32 sampling cumu)).toInt
      let pos := ((i * 64 : Nat) + select64 w diff).toNat
      let (rest, s) ← sampleLoop w i si cumu ones fuel (add32 sampling si)
      return (pos :: rest, s)
    else .ok ([], sampling)

variable [Env]

/-- Outer loop of `initSelectLut`, select.hpp:142-151. -/
def lutLoop (si : Nat) : List Word → Nat → Nat → Nat → R (List Nat × Nat)
  | [], _, _, cumu => .ok ([], cumu)
  | w :: ws, i, sampling, cumu => do
    let ones := popcount w
    let (ps, sampling) ← sampleLoop w i si cumu ones 4294967297 sampling
    let (rest, total) ← lutLoop si ws (i + 1) sampling (cumu + popcount w)
    return (ps ++ rest, total)

/-- select.hpp:19-27 and 133-158 -/
def mk' (si : Nat) (levels : List (List Word × Nat)) : R BitvectorSelect := do
  let b ← Bitvector.mk' levels
  let (lut, ones) ← lutLoop si b.bits 0 si 0
  return ⟨b, si, ones, 0 :: lut⟩

/-- Loop of `select`, select.hpp:59-64; returns the word id, the word and the rank left. -/
def selLoop (b : BitvectorSelect) : Nat → Nat → Word → Nat → R (Nat × Word × Nat)
  | 0, _, _, _ => .error .diverge
  | fuel + 1, wordId, word, rankLeft =>
    if popcount word < rankLeft then do
      let wordId := wordId + 1
      let w ← rdW b.bits wordId
      selLoop b fuel wordId w (rankLeft - popcount word)
    else .ok (wordId, word, rankLeft)

/-- select.hpp:34-66.  The model's fuel allows the loop to look at one word past the end of
the array. -/
def select (b : BitvectorSelect) (rank : Nat) : R Nat := do
  assertR (rank > 0)
  assertR (rank ≤ b.numOnes + 1)
  let lutIdx := rank / b.sampleInterval
  let rankLeft := rank % b.sampleInterval
  let rankLeft := if lutIdx = 0 then sub32 rankLeft 1 else rankLeft
  let pos ← rdP b.selectLut lutIdx
  if rankLeft = 0 then return pos
  let wordId := pos / 64
  let offset := pos % 64
  let (wordId, offset) := if offset = 63 then (wordId + 1, 0) else (wordId, offset + 1)
  let w ← rdW b.bits wordId
  let word := (w <<< offset) >>> offset
  let (wordId, word, rankLeft) ← selLoop b (b.bits.length + 1) wordId word rankLeft
  return ((wordId * 64 : Nat) + select64 word rankLeft).toNat

/-- select.hpp:68-70 -/
def selectLutSize (b : BitvectorSelect) : Nat := (b.numOnes / b.sampleInterval + 1) * 4

end BitvectorSelect

end Surf
