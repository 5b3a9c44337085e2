import Verif.Model.Builder

/-! # louds_dense.hpp -/

namespace Surf

/-- `class LoudsDense` (louds_dense.hpp:152-163). -/
structure LoudsDense where
  height : Nat
  levelCuts : List Nat
  labelBitmaps : BitvectorRank
  childBitmaps : BitvectorRank
  prefixBits : BitvectorRank
  suffixes : BitvectorSuffix
  deriving DecidableEq, Repr, Inhabited

/-- `class LoudsDense::Iter` (louds_dense.hpp:61-77).  The pointer `trie_` is passed as an
argument to the operations. -/
structure DIter where
  valid : Bool
  searchComplete : Bool
  leftComplete : Bool
  rightComplete : Bool
  sendOut : Nat
  keyLen : Nat
  key : List UInt8
  pos : List Nat
  atPrefix : Bool
  deriving DecidableEq, Repr, Inhabited

/-- `level_cuts_`, louds_dense.hpp:172-177 and louds_sparse.hpp:202-206 (`bit_count - 1` wraps when
nothing precedes). -/
def levelCutsFrom (acc : Nat) : List Nat → List Nat
  | [] => []
  | n :: ns => sub32 (acc + n) 1 :: levelCutsFrom (acc + n) ns

namespace LoudsDense
variable [Env]

/-- `kRankBasicBlockSize`, louds_dense.hpp:154. -/
def rankBlock : Nat := 512

/-- Constructor, louds_dense.hpp:166-202.  The `Bitvector` constructors are called with
`end_level = height_`, which means "all levels" when `height_ == 0` (bitvector.hpp:20-21). -/
def mk' (cfg : Config) (b : Builder) : R LoudsDense := do
  let height := b.startLevel
  let nums ← (List.range height).mapM fun l => do
    let ws ← getR b.bitmapLabels l
    return u32 (ws.length * 64)
  let cuts := levelCutsFrom 0 nums
  let lv ← levelRange b.bitmapLabels nums 0 height
  let labels ← BitvectorRank.mk' rankBlock lv
  let lv ← levelRange b.bitmapChild nums 0 height
  let child ← BitvectorRank.mk' rankBlock lv
  let lv ← levelRange b.prefixkey (b.levels.map (·.nodeCount)) 0 height
  let pre ← BitvectorRank.mk' rankBlock lv
  let sfx ← if cfg.suffixType = .kNone then pure BitvectorSuffix.empty
    else do
      let snums ← (List.range height).mapM fun l => do
        let lv ← getR b.levels l
        return mul32 lv.suffixCount (cfg.hashLen + cfg.realLen)
      let lv ← levelRange (b.levels.map (·.suffixes)) snums 0 height
      BitvectorSuffix.mk' cfg.suffixType cfg.hashLen cfg.realLen lv
  return ⟨height, cuts, labels, child, pre, sfx⟩

/-- louds_dense.hpp:385-387 -/
def getChildNodeNum (d : LoudsDense) (pos : Nat) : R Nat := d.childBitmaps.rank pos

/-- louds_dense.hpp:389-398 -/
def getSuffixPos (d : LoudsDense) (pos : Nat) (isPrefixKey : Bool) : R Nat := do
  let nodeNum := pos / kFanout
  let a ← d.labelBitmaps.rank pos
  let b ← d.childBitmaps.rank pos
  let c ← d.prefixBits.rank nodeNum
  let sp := sub32 (add32 (sub32 a b) c) 1
  if isPrefixKey then do
    let l ← d.labelBitmaps.readBit pos
    if l then do
      let ch ← d.childBitmaps.readBit pos
      if !ch then return sub32 sp 1 else return sp
    else return sp
  else return sp

/-- louds_dense.hpp:400-402 -/
def getNextPos (d : LoudsDense) (pos : Nat) : R Nat := do
  let n ← d.labelBitmaps.distanceToNextSetBit pos
  return add32 pos n

/-- louds_dense.hpp:404-412; `none` stands for `*is_out_of_bound = true` (and return value 0). -/
def getPrevPos (d : LoudsDense) (pos : Nat) : R (Option Nat) := do
  let n ← d.labelBitmaps.distanceToPrevSetBit pos
  if pos ≤ n then return none else return some (pos - n)

/-- `lookupKey`, louds_dense.hpp:204-230, from `level` with `n` levels left.  The result pairs the
return value with `out_node_num` (0 unless the search continues in LoudsSparse). -/
def lookupLoop (d : LoudsDense) (key : Key) : Nat → Nat → Nat → R (Bool × Nat)
  | 0, _, nodeNum => .ok (true, nodeNum)
  | n + 1, level, nodeNum => do
    let pos := mul32 nodeNum kFanout
    if level ≥ key.length then do
      let p ← d.prefixBits.readBit nodeNum
      if p then do
        let sp ← d.getSuffixPos pos true
        let r ← d.suffixes.checkEquality sp key (level + 1)
        return (r, 0)
      else return (false, 0)
    else do
      let pos := add32 pos (key.getD level 0).toNat
      let l ← d.labelBitmaps.readBit pos
      if !l then return (false, 0)
      let c ← d.childBitmaps.readBit pos
      if !c then do
        let sp ← d.getSuffixPos pos false
        let r ← d.suffixes.checkEquality sp key (level + 1)
        return (r, 0)
      let nodeNum ← d.getChildNodeNum pos
      lookupLoop d key n (level + 1) nodeNum

def lookupKey (d : LoudsDense) (key : Key) : R (Bool × Nat) := d.lookupLoop key d.height 0 0

end LoudsDense

namespace DIter

/-- Constructor, louds_dense.hpp:18-28. -/
def new (d : LoudsDense) : DIter :=
  ⟨false, false, false, false, 0, 0, List.replicate d.height 0, List.replicate d.height 0, false⟩

/-- louds_dense.hpp:430-434 -/
def clear (it : DIter) : DIter := { it with valid := false, keyLen := 0, atPrefix := false }

/-- louds_dense.hpp:35-38 -/
def isComplete (it : DIter) : Bool := it.searchComplete && (it.leftComplete && it.rightComplete)

/-- louds_dense.hpp:506-514 -/
def setFlags (it : DIter) (v s l r : Bool) : DIter :=
  { it with valid := v, searchComplete := s, leftComplete := l, rightComplete := r }

variable [Env]

/-- louds_dense.hpp:493-498 -/
def append (it : DIter) (p : Nat) : R DIter := do
  assertR (it.keyLen < it.key.length)
  let k ← wr it.key it.keyLen (UInt8.ofNat (p % kFanout))
  let ps ← wr it.pos it.keyLen p
  return { it with key := k, pos := ps, keyLen := it.keyLen + 1 }

/-- louds_dense.hpp:500-504 -/
def set (it : DIter) (level p : Nat) : R DIter := do
  assertR (level < it.key.length)
  let k ← wr it.key level (UInt8.ofNat (p % kFanout))
  let ps ← wr it.pos level p
  return { it with key := k, pos := ps }

/-- louds_dense.hpp:516-525 -/
def setToFirstLabelInRoot (d : LoudsDense) (it : DIter) : R DIter := do
  let b ← d.labelBitmaps.readBit 0
  let p ← if b then pure 0 else d.getNextPos 0
  let ps ← wr it.pos 0 p
  let k ← wr it.key 0 (UInt8.ofNat p)
  return { it with pos := ps, key := k, keyLen := it.keyLen + 1 }

/-- louds_dense.hpp:527-532 -/
def setToLastLabelInRoot (d : LoudsDense) (it : DIter) : R DIter := do
  let p ← d.getPrevPos kFanout
  let p := p.getD 0
  let ps ← wr it.pos 0 p
  let k ← wr it.key 0 (UInt8.ofNat p)
  return { it with pos := ps, key := k, keyLen := it.keyLen + 1 }

/-- Loop of `moveToLeftMostKey`, louds_dense.hpp:542-564; `n = height - 1 - level`. -/
def leftLoop (d : LoudsDense) : Nat → Nat → DIter → R DIter
  | 0, pos, it => do
    let c ← d.getChildNodeNum pos
    return ({ it with sendOut := c } : DIter).setFlags true true false true
  | n + 1, pos, it => do
    let nodeNum ← d.getChildNodeNum pos
    let pk ← d.prefixBits.readBit nodeNum
    if pk then do
      let p ← d.getNextPos (sub32 (mul32 nodeNum kFanout) 1)
      let it ← it.append p
      return ({ it with atPrefix := true } : DIter).setFlags true true true true
    else do
      let pos ← d.getNextPos (sub32 (mul32 nodeNum kFanout) 1)
      let it ← it.append pos
      let c ← d.childBitmaps.readBit pos
      if !c then return it.setFlags true true true true
      leftLoop d n pos it

/-- louds_dense.hpp:534-565 -/
def moveToLeftMostKey (d : LoudsDense) (it : DIter) : R DIter := do
  assertR (it.keyLen > 0)
  let level := sub32 it.keyLen 1
  let pos ← rdP it.pos level
  let c ← d.childBitmaps.readBit pos
  if !c then return it.setFlags true true true true
  leftLoop d (d.height - 1 - level) pos it

/-- Loop of `moveToRightMostKey`, louds_dense.hpp:575-594. -/
def rightLoop (d : LoudsDense) : Nat → Nat → DIter → R DIter
  | 0, pos, it => do
    let c ← d.getChildNodeNum pos
    return ({ it with sendOut := c } : DIter).setFlags true true true false
  | n + 1, pos, it => do
    let nodeNum ← d.getChildNodeNum pos
    let p ← d.getPrevPos (mul32 (add32 nodeNum 1) kFanout)
    match p with
    | none => return { it with valid := false }
    | some pos => do
      let it ← it.append pos
      let c ← d.childBitmaps.readBit pos
      if !c then return it.setFlags true true true true
      rightLoop d n pos it

/-- louds_dense.hpp:567-595 -/
def moveToRightMostKey (d : LoudsDense) (it : DIter) : R DIter := do
  assertR (it.keyLen > 0)
  let level := sub32 it.keyLen 1
  let pos ← rdP it.pos level
  let c ← d.childBitmaps.readBit pos
  if !c then return it.setFlags true true true true
  rightLoop d (d.height - 1 - level) pos it

/-- The part of `operator ++` after line 602, louds_dense.hpp:603-616; the argument is `key_len_`. -/
def incLoop (d : LoudsDense) (it : DIter) : Nat → R DIter
  | 0 => .error .oobRead   -- `pos_in_trie_[key_len_ - 1]` with `key_len_ == 0`
  | kl + 1 => do
    let pos ← rdP it.pos kl
    let next ← d.getNextPos pos
    if next / kFanout > pos / kFanout then
      if kl = 0 then return { it with keyLen := 0, valid := false }
      else incLoop d it kl
    else do
      let it ← ({ it with keyLen := kl + 1 } : DIter).set kl next
      moveToLeftMostKey d it

/-- louds_dense.hpp:597-617 -/
def inc (d : LoudsDense) (it : DIter) : R DIter := do
  assertR (it.keyLen > 0)
  if it.atPrefix then moveToLeftMostKey d { it with atPrefix := false }
  else incLoop d it it.keyLen

/-- The part of `operator --` after line 624, louds_dense.hpp:625-656; the argument is `key_len_`. -/
def decLoop (d : LoudsDense) (it : DIter) : Nat → R DIter
  | 0 => .error .oobRead
  | kl + 1 => do
    let pos ← rdP it.pos kl
    let prev ← d.getPrevPos pos
    match prev with
    | none => return { it with keyLen := kl + 1, valid := false }
    | some prev =>
      if prev / kFanout < pos / kFanout then do
        let pk ← d.prefixBits.readBit (pos / kFanout)
        if pk then
          return ({ it with keyLen := kl + 1, atPrefix := true } : DIter).setFlags true true true true
        else if kl = 0 then return { it with keyLen := 0, valid := false }
        else decLoop d it kl
      else do
        let it ← ({ it with keyLen := kl + 1 } : DIter).set kl prev
        moveToRightMostKey d it

/-- louds_dense.hpp:619-657 -/
def dec (d : LoudsDense) (it : DIter) : R DIter := do
  assertR (it.keyLen > 0)
  if it.atPrefix then decLoop d { it with atPrefix := false } (it.keyLen - 1)
  else decLoop d it it.keyLen

omit [Env] in
/-- louds_dense.hpp:450-457; `std::string(key_.data(), len)`. -/
def getKey (it : DIter) : Key :=
  if !it.valid then []
  else it.key.take (if it.atPrefix then it.keyLen - 1 else it.keyLen)

/-- louds_dense.hpp:436-448 -/
def compare (d : LoudsDense) (it : DIter) (key : Key) : R Int :=
  if it.atPrefix && sub32 it.keyLen 1 < key.length then .ok (-1)
  else do
    let iterKey := it.getKey
    let c := strCompare iterKey (key.take iterKey.length)
    if c ≠ 0 then return c
    else if it.isComplete then do
      let p ← rdP it.pos (sub32 it.keyLen 1)
      let sp ← d.getSuffixPos p it.atPrefix
      d.suffixes.compare sp key it.keyLen
    else return c

/-- louds_dense.hpp:459-468: returns the length and the suffix word. -/
def getSuffix (d : LoudsDense) (it : DIter) : R (Nat × Word) :=
  if it.isComplete && (d.suffixes.type == .kReal || d.suffixes.type == .kMixed) then do
    let p ← rdP it.pos (sub32 it.keyLen 1)
    let sp ← d.getSuffixPos p it.atPrefix
    let w ← d.suffixes.readReal sp
    return (d.suffixes.realLen, w)
  else return (0, 0)

end DIter

/-- Loop of `getKeyWithSuffix` (louds_dense.hpp:480-487, louds_sparse.hpp:524-531): the bytes of the
left-aligned suffix word, most significant first, one for every started group of 8 bits. -/
def suffixBytes (suffix : Word) (suffixLen : Nat) : List UInt8 :=
  ((leBytes 8 suffix.toNat).reverse).take ((suffixLen + 7) / 8)

namespace DIter
variable [Env]

/-- louds_dense.hpp:470-491: the key and `*bitlen` (`bitlen` is the incoming value). -/
def getKeyWithSuffix (d : LoudsDense) (it : DIter) (bitlen : Nat) : R (Key × Nat) :=
  if it.isComplete && (d.suffixes.type == .kReal || d.suffixes.type == .kMixed) then do
    let p ← rdP it.pos (sub32 it.keyLen 1)
    let sp ← d.getSuffixPos p it.atPrefix
    let w ← d.suffixes.readReal sp
    if w != 0 then do
      let sw ← shlW w (sub32 64 d.suffixes.realLen)
      return (it.getKey ++ suffixBytes sw d.suffixes.realLen, d.suffixes.realLen % 8)
    else return (it.getKey, bitlen)
  else return (it.getKey, bitlen)

end DIter

namespace LoudsDense
variable [Env]

/-- louds_dense.hpp:414-426 -/
def compareSuffixGreaterThan (d : LoudsDense) (pos : Nat) (key : Key) (level : Nat)
    (_inclusive : Bool) (it : DIter) : R (Bool × DIter) := do
  let sp ← d.getSuffixPos pos false
  let c ← d.suffixes.compare sp key level
  if c ≠ kCouldBePositive ∧ c < 0 then do
    let it ← it.inc d
    return (false, it)
  else return (true, it.setFlags true true true true)

/-- `moveToKeyGreaterThan`, louds_dense.hpp:232-269, from `level` with `n` levels left. -/
def seekLoop (d : LoudsDense) (key : Key) (inclusive : Bool) :
    Nat → Nat → Nat → DIter → R (Bool × DIter)
  | 0, _, nodeNum, it =>
    return (true, ({ it with sendOut := nodeNum } : DIter).setFlags true false true true)
  | n + 1, level, nodeNum, it => do
    let pos := mul32 nodeNum kFanout
    if level ≥ key.length then do
      let p ← d.getNextPos (sub32 pos 1)
      let it ← it.append p
      let pk ← d.prefixBits.readBit nodeNum
      let it ← if pk then pure { it with atPrefix := true } else it.moveToLeftMostKey d
      return (true, it.setFlags true true true true)
    else do
      let pos := add32 pos (key.getD level 0).toNat
      let it ← it.append pos
      let l ← d.labelBitmaps.readBit pos
      if !l then do
        let it ← it.inc d
        return (false, it)
      let c ← d.childBitmaps.readBit pos
      if !c then d.compareSuffixGreaterThan pos key (level + 1) inclusive it
      else do
        let nodeNum ← d.getChildNodeNum pos
        seekLoop d key inclusive n (level + 1) nodeNum it

def moveToKeyGreaterThan (d : LoudsDense) (key : Key) (inclusive : Bool) (it : DIter) :
    R (Bool × DIter) := d.seekLoop key inclusive d.height 0 0 it

/-- Loop of `extendPosList`, louds_dense.hpp:275-286; `n` levels left, next level `i`. -/
def extendLoop (d : LoudsDense) : Nat → Nat → Nat → List Nat → R (Nat × List Nat)
  | 0, _, pos, l => .ok (pos, l)
  | n + 1, i, pos, l => do
    let nodeNum ← d.getChildNodeNum pos
    let c ← d.childBitmaps.readBit pos
    let nodeNum := if c then nodeNum else add32 nodeNum 1
    let pos := mul32 nodeNum kFanout
    let cut ← rdP d.levelCuts i
    if pos > cut then return (kMaxPos, l ++ [kMaxPos])
    extendLoop d n (i + 1) pos (l ++ [pos])

/-- louds_dense.hpp:271-296: the extended list and `out_node_num`. -/
def extendPosList (d : LoudsDense) (l : List Nat) : R (List Nat × Nat) := do
  let pos ← rdP l (sub32 l.length 1)
  let (pos, l) ← d.extendLoop (d.height - l.length) l.length pos l
  if pos = kMaxPos then return (l ++ List.replicate (d.height - l.length) pos, pos)
  else do
    let out ← d.getChildNodeNum pos
    let c ← d.childBitmaps.readBit pos
    return (l, if c then out else add32 out 1)

/-- Body of the counting loop of `approxCount`, louds_dense.hpp:325-360, for positions with
`left_pos < right_pos` at level `i`. -/
def countLevel (d : LoudsDense) (itl : DIter) (i oriLeft oriRight lastCut leftPos rightPos : Nat) :
    R Nat := do
  let leftPos ← if i ≥ oriLeft then d.getNextPos leftPos else pure leftPos
  let rightPos ← if i ≥ oriRight && rightPos != lastCut then d.getNextPos rightPos
    else pure rightPos
  let hasPL ← d.prefixBits.readBit (leftPos / kFanout)
  let hasPR ← d.prefixBits.readBit (rightPos / kFanout)
  let rll ← d.labelBitmaps.rank leftPos
  let rrl ← d.labelBitmaps.rank rightPos
  let rrl := if rightPos = lastCut then add32 rrl 1 else rrl
  let rli ← d.childBitmaps.rank leftPos
  let rri ← d.childBitmaps.rank rightPos
  let rlp ← d.prefixBits.rank (leftPos / kFanout)
  let rrp ← d.prefixBits.rank (rightPos / kFanout)
  let leafs := add32 (sub32 (sub32 rrl rll) (sub32 rri rli)) (sub32 rrp rlp)
  let cr ← d.childBitmaps.readBit rightPos
  let leafs := if cr then add32 leafs 1 else leafs
  let cl ← d.childBitmaps.readBit leftPos
  let leafs := if cl then sub32 leafs 1 else leafs
  let leafs := if i ≥ oriRight && hasPR then sub32 leafs 1 else leafs
  let leafs := if i ≥ oriLeft && hasPL then add32 leafs 1 else leafs
  let leafs := if itl.searchComplete && i == sub32 oriLeft 1 then sub32 leafs 1 else leafs
  return leafs

/-- Counting loop of `approxCount`, louds_dense.hpp:314-361; `n` levels left from level `i`. -/
def countLoop (d : LoudsDense) (itl itr : DIter) (oriLeft oriRight : Nat) (ll rl : List Nat) :
    Nat → Nat → Nat → R Nat
  | 0, _, count => .ok count
  | n + 1, i, count => do
    let leftPos ← rdP ll i
    if leftPos = kMaxPos then return count
    let leftPos := if i == sub32 oriLeft 1 && itl.atPrefix then leftPos / kFanout * kFanout else leftPos
    let rightPos ← rdP rl i
    let cut ← rdP d.levelCuts i
    let lastCut ← rdP d.levelCuts (d.height - 1)
    let rightPos := if rightPos = kMaxPos then cut else rightPos
    let rightPos := if i == sub32 oriRight 1 && itr.atPrefix then rightPos / kFanout * kFanout else rightPos
    if leftPos < rightPos then do
      let k ← d.countLevel itl i oriLeft oriRight lastCut leftPos rightPos
      countLoop d itl itr oriLeft oriRight ll rl n (i + 1) ((count + k) % 18446744073709551616)
    else countLoop d itl itr oriLeft oriRight ll rl n (i + 1) count

/-- louds_dense.hpp:298-363: the count, `out_node_num_left`, `out_node_num_right`. -/
def approxCount (d : LoudsDense) (itl itr : DIter) : R (Nat × Nat × Nat) := do
  let ll := itl.pos.take itl.keyLen
  let oriLeft := ll.length
  let (ll, outL) ← d.extendPosList ll
  let rl := itr.pos.take itr.keyLen
  let oriRight := rl.length
  let (rl, outR) ← d.extendPosList rl
  let count ← d.countLoop itl itr oriLeft oriRight ll rl d.height 0 0
  return (count, outL, outR)

end LoudsDense
end Surf
