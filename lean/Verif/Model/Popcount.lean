import Verif.Model.Bitvector

/-!
# popcount.h: the alternative counting and selecting routines

`popcountLinear` and `select64` (used by rank.hpp and select.hpp) are in Model/Bitvector.lean.  The
routines here are offered by the header as alternatives to them.  `__builtin_prefetch` and the
`prefetchnta` instruction (popcount.h:75, 154-156) have no observable effect and are left out.
-/

namespace Surf

/-- `L8` and `ONES_STEP_8`, popcount.h:11 and 21. -/
def onesStep8 : Word := 0x0101010101010101#64
/-- `G2` and `0xa * ONES_STEP_4`, popcount.h:12 and 20, 126. -/
def maskG2 : Word := 0xAAAAAAAAAAAAAAAA#64
/-- `G4` and `3 * ONES_STEP_4`, popcount.h:13 and 20, 127. -/
def maskG4 : Word := 0x3333333333333333#64
/-- `G8` and `0x0f * ONES_STEP_8`, popcount.h:14 and 21, 128. -/
def maskG8 : Word := 0x0F0F0F0F0F0F0F0F#64
/-- `MSBS_STEP_8`, popcount.h:26. -/
def msbsStep8 : Word := 0x80#64 * onesStep8
/-- `INCR_STEP_8`, popcount.h:29. -/
def incrStep8 : Word :=
  0x80#64 <<< 56 ||| 0x40#64 <<< 48 ||| 0x20#64 <<< 40 ||| 0x10#64 <<< 32 ||| 0x8#64 <<< 24 |||
    0x4#64 <<< 16 ||| 0x2#64 <<< 8 ||| 0x1#64

/-- `LEQ_STEP_8(x,y)`, popcount.h:35. -/
def leqStep8 (x y : Word) : Word :=
  ((((y ||| msbsStep8) - (x &&& ~~~msbsStep8)) ^^^ x ^^^ y) &&& msbsStep8) >>> 7

/-- `ZCOMPARE_STEP_8(x)`, popcount.h:41. -/
def zcompareStep8 (x : Word) : Word :=
  ((x ||| ((x ||| msbsStep8) - onesStep8)) &&& msbsStep8) >>> 7

/-- The first three steps of `suxpopcount` (popcount.h:50-54) and of `select64_broadword`
(popcount.h:126-128), which are the same computation. -/
def byteCounts (x : Word) : Word :=
  let x := x - ((x &&& maskG2) >>> 1)
  let x := (x &&& maskG4) + ((x >>> 2) &&& maskG4)
  (x + (x >>> 4)) &&& maskG8

/-- popcount.h:48-58 -/
def suxpopcount (x : Word) : Nat := ((byteCounts x * onesStep8) >>> 56).toNat

/-- Loop of `select64_naive`, popcount.h:92-100: `n` is `i + 1`, `count` the value before `count++`.
Simplification: `k--` does not wrap (it would for `k = INT_MIN` only). -/
def naiveLoop (x : Word) : Nat → Int → Int → Int
  | 0, _, _ => -1
  | i + 1, count, k =>
    let count := count + 1
    if x &&& (1#64 <<< i) ≠ 0 then
      let k := k - 1
      if k = 0 then count else naiveLoop x i count k
    else naiveLoop x i count k

/-- popcount.h:90-102 -/
def select64Naive (x : Word) (k : Int) : Int := naiveLoop x 64 (-1) k

section
variable [Env]

/-- popcount.h:121-145.  `residual` is an `int`, converted to `uint64_t` by sign extension;
`byte_rank` is computed in 64 bits and converted to `int` and back. -/
def select64Broadword (x : Word) (k : BitVec 32) : R Int := do
  let byteSums := byteCounts x * onesStep8
  let residualStep8 := k.signExtend 64 * onesStep8
  let place := ((leqStep8 byteSums residualStep8 * onesStep8) >>> 53) &&& ~~~7#64
  let t ← shrW (byteSums <<< 8) place.toNat
  let byteRank := ((k.signExtend 64 - (t &&& 0xFF#64)).setWidth 32).signExtend 64
  let t ← shrW x place.toNat
  let spreadBits := ((t &&& 0xFF#64) * onesStep8) &&& incrStep8
  let bitSums := zcompareStep8 spreadBits * onesStep8
  return ((place + ((leqStep8 bitSums (byteRank * onesStep8) * onesStep8) >>> 56)).setWidth 32).toInt

/-- Loop of `select512`, popcount.h:159-163: `n` is `7 - i`. -/
def sel512Loop (bits : List Word) (x : Nat) : Nat → Int → Nat → Word → R (Int × Nat × Word)
  | 0, k, i, w => .ok (k, i, w)
  | n + 1, k, i, w =>
    if k > (popcount w : Int) then do
      let w' ← rdW bits (x + (i + 1))
      sel512Loop bits x n (k - popcount w) (i + 1) w'
    else .ok (k, i, w)

/-- popcount.h:153-169 (`x` not negative). -/
def select512 (bits : List Word) (x : Nat) (k : Int) : R Int := do
  let w ← rdW bits x
  let (k, i, w) ← sel512Loop bits x 7 k 0 w
  if i = 7 ∧ (popcount w : Int) < k then return -1
  else return (i * 64 : Nat) + select64 w k

/-- Loop of `selectLinear`, popcount.h:180-184: `n` is `length - 1 - i`. -/
def selLinLoop (bits : List Word) (x : Nat) : Nat → Nat → Nat → Word → R (Nat × Nat × Word)
  | 0, k, i, w => .ok (k, i, w)
  | n + 1, k, i, w =>
    if k > popcount w then do
      let w' ← rdW bits (x + (i + 1))
      selLinLoop bits x n (k - popcount w) (i + 1) w'
    else .ok (k, i, w)

/-- popcount.h:175-190.  `-1` is returned as `uint64_t`. -/
def selectLinear (bits : List Word) (length x k : Nat) : R Nat :=
  if k > (sub64 length x * 64) % 2 ^ 64 then .ok (2 ^ 64 - 1) else do
    let w ← rdW bits x
    let (k, i, w) ← selLinLoop bits x (sub64 length 1) k 0 w
    if i = sub64 length 1 ∧ popcount w < k then return 2 ^ 64 - 1
    else return (((i * 64 : Nat) + select64 w k) % 2 ^ 64).toNat

end

end Surf
