import Verif.Model.Dense
import Verif.Model.Labels

/-! # louds_sparse.hpp -/

namespace Surf

/-- `class LoudsSparse` (louds_sparse.hpp:160-176). -/
structure LoudsSparse where
  height : Nat
  startLevel : Nat
  nodeCountDense : Nat
  childCountDense : Nat
  levelCuts : List Nat
  labels : LabelVector
  childBits : BitvectorRank
  loudsBits : BitvectorSelect
  suffixes : BitvectorSuffix
  deriving DecidableEq, Repr, Inhabited

/-- `class LoudsSparse::Iter` (louds_sparse.hpp:51-60); `trie_` and `start_level_` are taken from the
trie passed to the operations. -/
structure SIter where
  valid : Bool
  startNode : Nat
  keyLen : Nat
  key : List UInt8
  pos : List Nat
  atTerm : Bool
  deriving DecidableEq, Repr, Inhabited

namespace LoudsSparse
variable [Env]

/-- Constructor, louds_sparse.hpp:179-227.  The vectors are built with `end_level = height_`; the height
is at least 1 for a non-empty key list. -/
def mk' (cfg : Config) (b : Builder) : R LoudsSparse := do
  let height := b.levels.length
  let start := b.startLevel
  let ncd := ((b.levels.take start).map (·.nodeCount)).sum
  let ccd ← if start = 0 then pure 0 else do
    let lv ← getR b.levels start
    pure (sub32 (ncd + lv.nodeCount) 1)
  let labels ← LabelVector.mk' ((b.levels.drop start).flatMap (·.labels))
  let nums := b.levels.map (u32 ·.labels.length)
  let cuts := List.replicate start 0 ++ levelCutsFrom 0 (nums.drop start)
  let lv ← levelRange (b.levels.map (·.child)) nums start height
  let child ← BitvectorRank.mk' 512 lv
  let lv ← levelRange (b.levels.map (·.louds)) nums start height
  let louds ← BitvectorSelect.mk' 64 lv
  let sfx ← if cfg.suffixType = .kNone then pure BitvectorSuffix.empty
    else do
      let snums := b.levels.map (mul32 ·.suffixCount (cfg.hashLen + cfg.realLen))
      let lv ← levelRange (b.levels.map (·.suffixes)) snums start height
      BitvectorSuffix.mk' cfg.suffixType cfg.hashLen cfg.realLen lv
  return ⟨height, start, ncd, ccd, cuts, labels, child, louds, sfx⟩

/-- louds_sparse.hpp:421-423 -/
def getChildNodeNum (t : LoudsSparse) (pos : Nat) : R Nat := do
  let r ← t.childBits.rank pos
  return add32 r t.childCountDense

/-- louds_sparse.hpp:425-427 -/
def getFirstLabelPos (t : LoudsSparse) (nodeNum : Nat) : R Nat :=
  t.loudsBits.select (sub32 (add32 nodeNum 1) t.nodeCountDense)

/-- louds_sparse.hpp:429-434 -/
def getLastLabelPos (t : LoudsSparse) (nodeNum : Nat) : R Nat := do
  let nextRank := sub32 (add32 nodeNum 2) t.nodeCountDense
  if nextRank > t.loudsBits.numOnes then return sub32 t.loudsBits.numBits 1
  else do
    let p ← t.loudsBits.select nextRank
    return sub32 p 1

/-- louds_sparse.hpp:436-438 -/
def getSuffixPos (t : LoudsSparse) (pos : Nat) : R Nat := do
  let r ← t.childBits.rank pos
  return sub32 pos r

/-- louds_sparse.hpp:440-443 (the `assert` reads the bit only in a debug build) -/
def nodeSize (t : LoudsSparse) (pos : Nat) : R Nat := do
  if !Env.ndebug then do
    let b ← t.loudsBits.readBit pos
    assertR b
  t.loudsBits.distanceToNextSetBit pos

/-- louds_sparse.hpp:445-448 -/
def isEndofNode (t : LoudsSparse) (pos : Nat) : R Bool :=
  if pos = sub32 t.loudsBits.numBits 1 then .ok true else t.loudsBits.readBit (add32 pos 1)

/-- `lookupKey`, louds_sparse.hpp:229-249, from position `pos` at `level` with the remaining key
bytes. -/
def lookupLoop (t : LoudsSparse) (key : Key) : Key → Nat → Nat → R Bool
  | [], level, pos => do
    let l ← t.labels.read pos
    if l = kTerminator then do
      let c ← t.childBits.readBit pos
      if !c then do
        let sp ← t.getSuffixPos pos
        t.suffixes.checkEquality sp key (level + 1)
      else return false
    else return false
  | c :: rest, level, pos => do
    let sz ← t.nodeSize pos
    let (found, pos) ← t.labels.search c pos sz
    if !found then return false
    let ch ← t.childBits.readBit pos
    if !ch then do
      let sp ← t.getSuffixPos pos
      t.suffixes.checkEquality sp key (level + 1)
    else do
      let nodeNum ← t.getChildNodeNum pos
      let pos ← t.getFirstLabelPos nodeNum
      lookupLoop t key rest (level + 1) pos

/-- louds_sparse.hpp:229-249.  The loop runs over the key bytes from `start_level_` on; when the key is
shorter than that, `level` stays `start_level_`. -/
def lookupKey (t : LoudsSparse) (key : Key) (inNode : Nat) : R Bool := do
  let pos ← t.getFirstLabelPos inNode
  t.lookupLoop key (key.drop t.startLevel) t.startLevel pos

end LoudsSparse

namespace SIter

/-- Constructor, louds_sparse.hpp:20-27. -/
def new (t : LoudsSparse) : SIter :=
  ⟨false, 0, 0, List.replicate (t.height - t.startLevel) 0,
    List.replicate (t.height - t.startLevel) 0, false⟩

/-- louds_sparse.hpp:477-481 -/
def clear (it : SIter) : SIter := { it with valid := false, keyLen := 0, atTerm := false }

variable [Env]

/-- louds_sparse.hpp:544-549 -/
def appendL (it : SIter) (label : UInt8) (p : Nat) : R SIter := do
  assertR (it.keyLen < it.key.length)
  let k ← wr it.key it.keyLen label
  let ps ← wr it.pos it.keyLen p
  return { it with key := k, pos := ps, keyLen := it.keyLen + 1 }

/-- louds_sparse.hpp:537-542 -/
def append (t : LoudsSparse) (it : SIter) (p : Nat) : R SIter := do
  assertR (it.keyLen < it.key.length)
  let l ← t.labels.read p
  let k ← wr it.key it.keyLen l
  let ps ← wr it.pos it.keyLen p
  return { it with key := k, pos := ps, keyLen := it.keyLen + 1 }

/-- louds_sparse.hpp:551-555 -/
def set (t : LoudsSparse) (it : SIter) (level p : Nat) : R SIter := do
  assertR (level < it.key.length)
  let l ← t.labels.read p
  let k ← wr it.key level l
  let ps ← wr it.pos level p
  return { it with key := k, pos := ps }

/-- louds_sparse.hpp:557-561 (does not touch `key_len_`) -/
def setToFirstLabelInRoot (t : LoudsSparse) (it : SIter) : R SIter := do
  assertR (t.startLevel == 0)
  let ps ← wr it.pos 0 0
  let l ← t.labels.read 0
  let k ← wr it.key 0 l
  return { it with key := k, pos := ps }

/-- louds_sparse.hpp:563-567 -/
def setToLastLabelInRoot (t : LoudsSparse) (it : SIter) : R SIter := do
  assertR (t.startLevel == 0)
  let p ← t.getLastLabelPos 0
  let ps ← wr it.pos 0 p
  let l ← t.labels.read p
  let k ← wr it.key 0 l
  return { it with key := k, pos := ps }

/-- The leaf case shared by `moveToLeftMostKey` and `moveToRightMostKey`
(louds_sparse.hpp:581-585, 595-599, 620-624, 634-638). -/
def finishLeaf (t : LoudsSparse) (it : SIter) (label : UInt8) (pos : Nat) : R SIter :=
  if label = kTerminator then do
    let e ← t.isEndofNode pos
    return { it with atTerm := if e then it.atTerm else true, valid := true }
  else return { it with valid := true }

/-- Loop of `moveToLeftMostKey`, louds_sparse.hpp:588-604; the argument is `height - level`. -/
def leftLoop (t : LoudsSparse) : Nat → Nat → SIter → R SIter
  | 0, _, it => do
    assertR false
    return it
  | n + 1, pos, it => do
    let nodeNum ← t.getChildNodeNum pos
    let pos ← t.getFirstLabelPos nodeNum
    let label ← t.labels.read pos
    let c ← t.childBits.readBit pos
    let it ← it.appendL label pos
    if !c then finishLeaf t it label pos
    else leftLoop t n pos it

/-- louds_sparse.hpp:569-605 -/
def moveToLeftMostKey (t : LoudsSparse) (it : SIter) : R SIter := do
  let it ← if it.keyLen = 0 then do
      let pos ← t.getFirstLabelPos it.startNode
      let label ← t.labels.read pos
      it.appendL label pos
    else pure it
  let level := it.keyLen - 1
  let pos ← rdP it.pos level
  let label ← t.labels.read pos
  let c ← t.childBits.readBit pos
  if !c then finishLeaf t it label pos
  else leftLoop t (t.height - level) pos it

/-- Loop of `moveToRightMostKey`, louds_sparse.hpp:627-643. -/
def rightLoop (t : LoudsSparse) : Nat → Nat → SIter → R SIter
  | 0, _, it => do
    assertR false
    return it
  | n + 1, pos, it => do
    let nodeNum ← t.getChildNodeNum pos
    let pos ← t.getLastLabelPos nodeNum
    let label ← t.labels.read pos
    let c ← t.childBits.readBit pos
    let it ← it.appendL label pos
    if !c then finishLeaf t it label pos
    else rightLoop t n pos it

/-- louds_sparse.hpp:607-644 -/
def moveToRightMostKey (t : LoudsSparse) (it : SIter) : R SIter := do
  let it ← if it.keyLen = 0 then do
      let _ ← t.getFirstLabelPos it.startNode
      let pos ← t.getLastLabelPos it.startNode
      let label ← t.labels.read pos
      it.appendL label pos
    else pure it
  let level := it.keyLen - 1
  let pos ← rdP it.pos level
  let label ← t.labels.read pos
  let c ← t.childBits.readBit pos
  if !c then finishLeaf t it label pos
  else rightLoop t (t.height - level) pos it

/-- louds_sparse.hpp:649-661; the argument is `key_len_`. -/
def incLoop (t : LoudsSparse) (it : SIter) : Nat → R SIter
  | 0 => .error .oobRead
  | kl + 1 => do
    let pos ← rdP it.pos kl
    let pos := add32 pos 1
    let stop ← if pos ≥ t.loudsBits.numBits then pure true else t.loudsBits.readBit pos
    if stop then
      if kl = 0 then return { it with keyLen := 0, valid := false }
      else incLoop t it kl
    else do
      let it ← ({ it with keyLen := kl + 1 } : SIter).set t kl pos
      moveToLeftMostKey t it

/-- louds_sparse.hpp:646-662 -/
def inc (t : LoudsSparse) (it : SIter) : R SIter := do
  assertR (it.keyLen > 0)
  incLoop t { it with atTerm := false } it.keyLen

/-- louds_sparse.hpp:672-682; the argument is `key_len_`. -/
def decLoop (t : LoudsSparse) (it : SIter) : Nat → R SIter
  | 0 => .error .oobRead
  | kl + 1 => do
    let pos ← rdP it.pos kl
    let st ← t.loudsBits.readBit pos
    if st then
      if kl = 0 then return { it with keyLen := 0, valid := false }
      else decLoop t it kl
    else do
      let it ← ({ it with keyLen := kl + 1 } : SIter).set t kl (sub32 pos 1)
      moveToRightMostKey t it

/-- louds_sparse.hpp:664-683 -/
def dec (t : LoudsSparse) (it : SIter) : R SIter := do
  assertR (it.keyLen > 0)
  let it := { it with atTerm := false }
  let pos ← rdP it.pos (it.keyLen - 1)
  if pos = 0 then return { it with valid := false }
  else decLoop t it it.keyLen

omit [Env] in
/-- louds_sparse.hpp:496-503 -/
def getKey (it : SIter) : Key :=
  if !it.valid then []
  else it.key.take (if it.atTerm then it.keyLen - 1 else it.keyLen)

/-- louds_sparse.hpp:483-494 -/
def compare (t : LoudsSparse) (it : SIter) (key : Key) : R Int :=
  if it.atTerm && sub32 it.keyLen 1 < sub64 key.length t.startLevel then .ok (-1)
  else do
    let iterKey := it.getKey
    let ks ← substrFrom key t.startLevel
    let c := strCompare iterKey (ks.take iterKey.length)
    if c ≠ 0 then return c
    else do
      let p ← rdP it.pos (sub32 it.keyLen 1)
      let sp ← t.getSuffixPos p
      t.suffixes.compare sp ks it.keyLen

/-- louds_sparse.hpp:505-513 -/
def getSuffix (t : LoudsSparse) (it : SIter) : R (Nat × Word) :=
  if t.suffixes.type == .kReal || t.suffixes.type == .kMixed then do
    let p ← rdP it.pos (sub32 it.keyLen 1)
    let sp ← t.getSuffixPos p
    let w ← t.suffixes.readReal sp
    return (t.suffixes.realLen, w)
  else return (0, 0)

/-- louds_sparse.hpp:515-535 -/
def getKeyWithSuffix (t : LoudsSparse) (it : SIter) (bitlen : Nat) : R (Key × Nat) :=
  if t.suffixes.type == .kReal || t.suffixes.type == .kMixed then do
    let p ← rdP it.pos (sub32 it.keyLen 1)
    let sp ← t.getSuffixPos p
    let w ← t.suffixes.readReal sp
    if w != 0 then do
      let sw ← shlW w (sub32 64 t.suffixes.realLen)
      return (it.getKey ++ suffixBytes sw t.suffixes.realLen, t.suffixes.realLen % 8)
    else return (it.getKey, bitlen)
  else return (it.getKey, bitlen)

end SIter

namespace LoudsSparse
variable [Env]

/-- louds_sparse.hpp:450-460 -/
def moveToLeftInNextSubtrie (t : LoudsSparse) (pos nodeSize : Nat) (label : UInt8) (it : SIter) :
    R SIter := do
  let (found, pos) ← t.labels.searchGreaterThan label pos nodeSize
  if !found then do
    let it ← it.append t (pos + nodeSize - 1)
    it.inc t
  else do
    let it ← it.append t pos
    it.moveToLeftMostKey t

/-- louds_sparse.hpp:462-473 -/
def compareSuffixGreaterThan (t : LoudsSparse) (pos : Nat) (key : Key) (level : Nat)
    (_inclusive : Bool) (it : SIter) : R (Bool × SIter) := do
  let sp ← t.getSuffixPos pos
  let c ← t.suffixes.compare sp key level
  if c ≠ kCouldBePositive ∧ c < 0 then do
    let it ← it.inc t
    return (false, it)
  else return (true, { it with valid := true })

/-- `moveToKeyGreaterThan`, louds_sparse.hpp:251-294.  After the loop `key.length() <= level` always holds,
so lines 292-293 are unreachable. -/
def seekLoop (t : LoudsSparse) (key : Key) (inclusive : Bool) :
    Key → Nat → Nat → SIter → R (Bool × SIter)
  | [], _, pos, it => do
    let l ← t.labels.read pos
    let isT ← if l = kTerminator then do
        let c ← t.childBits.readBit pos
        if !c then do
          let e ← t.isEndofNode pos
          pure !e
        else pure false
      else pure false
    if isT then do
      let it ← it.appendL kTerminator pos
      let it := { it with atTerm := true }
      let it ← if !inclusive then it.inc t else pure it
      return (false, { it with valid := true })
    else do
      let it ← it.moveToLeftMostKey t
      return (false, it)
  | c :: rest, level, pos, it => do
    let sz ← t.nodeSize pos
    let (found, pos) ← t.labels.search c pos sz
    if !found then do
      let it ← t.moveToLeftInNextSubtrie pos sz c it
      return (false, it)
    else do
      let it ← it.appendL c pos
      let ch ← t.childBits.readBit pos
      if !ch then t.compareSuffixGreaterThan pos key (level + 1) inclusive it
      else do
        let nodeNum ← t.getChildNodeNum pos
        let pos ← t.getFirstLabelPos nodeNum
        seekLoop t key inclusive rest (level + 1) pos it

/-- louds_sparse.hpp:251-294 -/
def moveToKeyGreaterThan (t : LoudsSparse) (key : Key) (inclusive : Bool) (it : SIter) :
    R (Bool × SIter) := do
  let pos ← t.getFirstLabelPos it.startNode
  t.seekLoop key inclusive (key.drop t.startLevel) t.startLevel pos it

/-- louds_sparse.hpp:296-313: the new list, the position and the updated `done`. -/
def appendToPosList (t : LoudsSparse) (l : List Nat) (nodeNum level : Nat) (isLeft done : Bool) :
    R (List Nat × Nat × Bool) := do
  let pos ← t.getFirstLabelPos nodeNum
  let cut ← rdP t.levelCuts (t.startLevel + level)
  if pos > cut then
    let l := if isLeft then l ++ [kMaxPos]
      else l ++ List.replicate ((t.height - level) - 1) kMaxPos
    return (l ++ [kMaxPos], kMaxPos, true)
  else return (l ++ [pos], pos, done)

/-- Loop of `extendPosList`, louds_sparse.hpp:336-352; `n` levels left from `i`. -/
def extendLoop (t : LoudsSparse) :
    Nat → Nat → List Nat → List Nat → Nat → Nat → Bool → Bool → R (List Nat × List Nat)
  | 0, _, ll, rl, _, _, _, _ => .ok (ll, rl)
  | n + 1, i, ll, rl, lp, rp, ld, rd => do
    if lp = rp then return (ll, rl)
    let (ll, lp, ld) ← if !ld && ll.length ≤ i then do
        let nn ← t.getChildNodeNum lp
        let c ← t.childBits.readBit lp
        let nn := if c then nn else add32 nn 1
        t.appendToPosList ll nn i true ld
      else pure (ll, lp, ld)
    let (rl, rp, rd) ← if !rd && rl.length ≤ i then do
        let nn ← t.getChildNodeNum rp
        let c ← t.childBits.readBit rp
        let nn := if c then nn else add32 nn 1
        t.appendToPosList rl nn i false rd
      else pure (rl, rp, rd)
    extendLoop t n (i + 1) ll rl lp rp ld rd

/-- louds_sparse.hpp:315-353 -/
def extendPosList (t : LoudsSparse) (ll rl : List Nat) (inL inR : Nat) : R (List Nat × List Nat) := do
  let depth := min ll.length rl.length
  let (ll, rl, ld, rd, depth) ← if depth = 0 then do
      let (ll, ld) ← if ll.length = 0 then do
          let (ll, _, ld) ← t.appendToPosList ll inL 0 true false
          pure (ll, ld)
        else pure (ll, false)
      let (rl, rd) ← if rl.length = 0 then do
          let (rl, _, rd) ← t.appendToPosList rl inR 0 false false
          pure (rl, rd)
        else pure (rl, false)
      pure (ll, rl, ld, rd, 1)
    else pure (ll, rl, false, false, depth)
  let lp ← rdP ll (ll.length - 1)
  let rp ← rdP rl (rl.length - 1)
  t.extendLoop (t.height - t.startLevel - depth) depth ll rl lp rp ld rd

/-- Counting loop, louds_sparse.hpp:377-396; `n` levels left from `i`. -/
def countLoop (t : LoudsSparse) (oriLeft : Nat) (ll rl : List Nat) : Nat → Nat → Nat → R Nat
  | 0, _, count => .ok count
  | n + 1, i, count => do
    let leftPos ← rdP ll i
    if leftPos = kMaxPos then return count
    let rightPos ← rdP rl i
    let rightPos ← if rightPos = kMaxPos then do
        let cut ← rdP t.levelCuts (t.startLevel + i)
        pure (add32 cut 1)
      else pure rightPos
    if leftPos < rightPos then do
      let rkl ← t.childBits.rank leftPos
      let rkr ← t.childBits.rank rightPos
      let leafs := sub32 (sub32 rightPos leftPos) (sub32 rkr rkl)
      let cr ← t.childBits.readBit rightPos
      let leafs := if cr then add32 leafs 1 else leafs
      let cl ← t.childBits.readBit leftPos
      let leafs := if cl then sub32 leafs 1 else leafs
      let leafs := if i = sub32 oriLeft 1 then sub32 leafs 1 else leafs
      countLoop t oriLeft ll rl n (i + 1) ((count + leafs) % 18446744073709551616)
    else countLoop t oriLeft ll rl n (i + 1) count

/-- louds_sparse.hpp:355-398 -/
def approxCount (t : LoudsSparse) (itl itr : SIter) (inL inR : Nat) : R Nat := do
  if inL = kMaxPos then return 0
  let ll := itl.pos.take itl.keyLen
  let oriLeft := ll.length
  let rl := if inR = kMaxPos then List.replicate (t.height - t.startLevel) kMaxPos
    else itr.pos.take itr.keyLen
  let (ll, rl) ← t.extendPosList ll rl inL inR
  t.countLoop oriLeft ll rl (min ll.length rl.length) 0 0

end LoudsSparse
end Surf
