import Verif.Model.Suffix

/-! # surf_builder.hpp -/

namespace Surf

/-- One level of the builder.  The C++ class keeps parallel vectors indexed by level
(surf_builder.hpp:155-173); here they are merged into one record per level. -/
structure Level where
  labels : List UInt8        -- labels_[level]
  child : List Word          -- child_indicator_bits_[level]
  louds : List Word          -- louds_bits_[level]
  suffixes : List Word       -- suffixes_[level]
  suffixCount : Nat          -- suffix_counts_[level]
  nodeCount : Nat            -- node_counts_[level]
  isLastTerm : Bool          -- is_last_item_terminator_[level]
  deriving DecidableEq, Repr, Inhabited

/-- Configuration arguments of the constructors (surf.hpp:59-72, surf_builder.hpp:18-22). -/
structure Config where
  includeDense : Bool := kIncludeDense
  ratio : Nat := kSparseDenseRatio
  suffixType : SuffixType := .kNone
  hashLen : Nat := 0
  realLen : Nat := 0
  deriving DecidableEq, Repr, Inhabited

/-- `class SuRFBuilder` after `build` (surf_builder.hpp:148-174). -/
structure Builder where
  levels : List Level
  startLevel : Nat                  -- sparse_start_level_
  bitmapLabels : List (List Word)
  bitmapChild : List (List Word)
  prefixkey : List (List Word)
  deriving DecidableEq, Repr, Inhabited

namespace Builder
variable [Env]

/-- surf_builder.hpp:32-37 -/
def readBit (bits : List Word) (pos : Nat) : R Bool := do
  assertR (pos < bits.length * 64)
  let w ← rdW bits (pos / 64)
  return testMsb w (pos % 64)

/-- surf_builder.hpp:39-44 -/
def setBit (bits : List Word) (pos : Nat) : R (List Word) := do
  assertR (pos < bits.length * 64)
  orAt bits (pos / 64) (kMsbMask >>> (pos % 64))

omit [Env] in
/-- `addLevel`, surf_builder.hpp:399-411. -/
def newLevel : Level := ⟨[], [0], [0], [], 0, 0, false⟩

/-- Apply `f` to level `l` (reference access `x_[level]`). -/
def modLevel (ls : List Level) (l : Nat) (f : Level → R Level) : R (List Level) := do
  let lv ← getR ls l
  let lv ← f lv
  return ls.set l lv

/-- surf_builder.hpp:255-259; `labels_[level].back()` on an empty vector is an
out-of-range read. -/
def isCharCommonPrefix (ls : List Level) (c : UInt8) (level : Nat) : R Bool :=
  match ls[level]? with
  | none => .ok false
  | some lv =>
    if lv.isLastTerm then .ok false
    else match lv.labels.getLast? with
      | some b => .ok (c == b)
      | none => do
        let b ← rdB lv.labels 0
        return c == b

omit [Env] in
/-- surf_builder.hpp:261-263 -/
def isLevelEmpty (ls : List Level) (level : Nat) : Bool :=
  match ls[level]? with
  | none => true
  | some lv => lv.labels.length == 0

/-- Set the child indicator of the last item of a level
(surf_builder.hpp:202 and 283). -/
def markChild (lv : Level) : R Level := do
  let c ← setBit lv.child (sub32 lv.labels.length 1)
  return { lv with child := c }

/-- surf_builder.hpp:199-206: recursion over the remaining key bytes. -/
def skipCommonPrefix : Key → List Level → Nat → R (List Level × Nat)
  | [], ls, level => .ok (ls, level)
  | c :: rest, ls, level => do
    let b ← isCharCommonPrefix ls c level
    if b then do
      let ls ← modLevel ls level markChild
      skipCommonPrefix rest ls (level + 1)
    else .ok (ls, level)

/-- The part of `insertKeyByte` on the level itself, surf_builder.hpp:285-292, including
`moveToNextItemSlot` (lines 265-272). -/
def pushItem (lv : Level) (c : UInt8) (isStart isTerm : Bool) : R Level := do
  let labels := lv.labels ++ [c]
  let louds ← if isStart then setBit lv.louds (labels.length - 1) else pure lv.louds
  let nodeCount := if isStart then lv.nodeCount + 1 else lv.nodeCount
  let full : Bool := labels.length % 64 == 0
  let child := if full then lv.child ++ [0] else lv.child
  let louds := if full then louds ++ [0] else louds
  return { lv with labels := labels, louds := louds, child := child,
                   nodeCount := nodeCount, isLastTerm := isTerm }

/-- surf_builder.hpp:274-293 -/
def insertKeyByte (ls : List Level) (c : UInt8) (level : Nat) (isStart isTerm : Bool) :
    R (List Level) := do
  let ls := if level ≥ ls.length then ls ++ [newLevel] else ls
  assertR (level < ls.length)
  let ls ← if level > 0 then modLevel ls (level - 1) markChild else pure ls
  modLevel ls level (pushItem · c isStart isTerm)

/-- The `while` loop, surf_builder.hpp:229-232, and the final byte, lines 234-241; recursion over the
remaining bytes of `key` and `next_key`. -/
def insertRest : Key → Key → List Level → Nat → R (List Level × Nat)
  | k :: ks, n :: ns, ls, level =>
    if k = n then do
      let ls ← insertKeyByte ls k level true false
      insertRest ks ns ls (level + 1)
    else do
      let ls ← insertKeyByte ls k level true false
      return (ls, level + 1)
  | k :: _, [], ls, level => do
    let ls ← insertKeyByte ls k level true false
    return (ls, level + 1)
  | [], _, ls, level => do
    let ls ← insertKeyByte ls kTerminator level true true
    return (ls, level + 1)

/-- surf_builder.hpp:208-244 -/
def insertKeyBytesToTrieUntilUnique (ls : List Level) (key next : Key) (start : Nat) :
    R (List Level × Nat) := do
  assertR (start < key.length)
  let isStart := isLevelEmpty ls start
  -- `key[level]` with `level == key.length()` is the NUL byte of the string
  let ls ← insertKeyByte ls (key.getD start 0) start isStart false
  let level := start + 1
  if level > next.length ∨ key.take level ≠ next.take level then return (ls, level)
  else insertRest (key.drop level) (next.drop level) ls level

/-- surf_builder.hpp:296-317, with `suffix_len = getSuffixLen()`.  `pos` is a `position_t`: the product wraps
modulo 2^32. -/
def storeSuffix (lv : Level) (suffixLen : Nat) (suffix : Word) : R Level := do
  let pos := mul32 lv.suffixCount suffixLen
  assertR (pos ≤ lv.suffixes.length * 64)
  let sfx := if pos = lv.suffixes.length * 64 then lv.suffixes ++ [0] else lv.suffixes
  let wordId := pos / 64
  let offset := pos % 64
  let remaining := 64 - offset
  if suffixLen ≤ remaining then do
    let sh ← shlW suffix (remaining - suffixLen)
    let sfx ← addAt sfx wordId sh
    return { lv with suffixes := sfx, suffixCount := lv.suffixCount + 1 }
  else do
    let left ← shrW suffix (suffixLen - remaining)
    let sfx ← addAt sfx wordId left
    let sfx := sfx ++ [0]
    let right ← shlW suffix (64 - (suffixLen - remaining))
    let sfx ← addAt sfx (wordId + 1) right
    return { lv with suffixes := sfx, suffixCount := lv.suffixCount + 1 }

/-- surf_builder.hpp:246-253 (`level` is at least 1 at every call) -/
def insertSuffix (cfg : Config) (ls : List Level) (key : Key) (level : Nat) : R (List Level) := do
  let ls := if level ≥ ls.length then ls ++ [newLevel] else ls
  assertR (sub32 level 1 < ls.length)
  let w ← BitvectorSuffix.constructSuffix cfg.suffixType key cfg.hashLen level cfg.realLen
  modLevel ls (sub32 level 1) (storeSuffix · (cfg.hashLen + cfg.realLen) w)

/-- One iteration of the loop of `buildSparse` (surf_builder.hpp:187-195) for key `key`, whose first
different successor is `next` (the empty string when there is none). -/
def insertKey (cfg : Config) (ls : List Level) (key next : Key) : R (List Level) := do
  let (ls, level) ← skipCommonPrefix key ls 0
  let (ls, level) ← insertKeyBytesToTrieUntilUnique ls key next level
  insertSuffix cfg ls key level

omit [Env] in
/-- Lines 188-190: skip the keys equal to `k`. -/
def dropSame (k : Key) : List Key → List Key
  | [] => []
  | k' :: ks => if k = k' then dropSame k ks else k' :: ks

omit [Env] in
theorem dropSame_length (k : Key) (ks : List Key) : (dropSame k ks).length ≤ ks.length := by
  induction ks with
  | nil => simp [dropSame]
  | cons a t ih => simp only [dropSame]; split <;> simp; omega

/-- surf_builder.hpp:185-197.  Fuel is the number of keys (each iteration consumes at least one key). -/
def buildSparseLoop (cfg : Config) : Nat → List Key → List Level → R (List Level)
  | _, [], ls => .ok ls
  | 0, _ :: _, _ => .error .diverge
  | fuel + 1, k :: ks, ls => do
    let rest := dropSame k ks
    let ls ← insertKey cfg ls k (rest.head?.getD [])
    buildSparseLoop cfg fuel rest ls

def buildSparse (cfg : Config) (keys : List Key) : R (List Level) :=
  buildSparseLoop cfg keys.length keys []

/-! ### Cutoff level, surf_builder.hpp:319-351 -/

omit [Env] in
/-- Contribution of one level to the dense size, surf_builder.hpp:335-338;
`prev` is the node count of the level above (`none` for level 0).  The products have type `uint32_t`. -/
def denseMemLevel (suffixLen : Nat) (prev : Option Nat) (lv : Level) : Nat :=
  mul32 (2 * kFanout) lv.nodeCount
    + (match prev with | none => 0 | some p => p / 8 + 1)
    + mul32 lv.suffixCount suffixLen / 8

omit [Env] in
/-- surf_builder.hpp:331-341.  (The sum is far below `2^64`.) -/
def computeDenseMem (suffixLen : Nat) (ls : List Level) (downto : Nat) : Nat :=
  ((List.range downto).map fun l =>
    denseMemLevel suffixLen (if l = 0 then none else ((ls[l - 1]?).map (·.nodeCount)))
      (ls.getD l newLevel)).sum

omit [Env] in
/-- surf_builder.hpp:343-351.  The size of a level has type `uint32_t`; the sum is far below `2^64`. -/
def computeSparseMem (suffixLen : Nat) (ls : List Level) (start : Nat) : Nat :=
  ((ls.drop start).map fun lv =>
    add32 (add32 lv.labels.length (mul32 2 lv.labels.length / 8)) 1 + mul32 lv.suffixCount suffixLen / 8).sum

omit [Env] in
/-- Loop of `determineCutoffLevel`, surf_builder.hpp:323-327 (`n` = levels left). -/
def cutoffLoop (suffixLen ratio : Nat) (ls : List Level) : Nat → Nat → Nat
  | 0, c => c
  | n + 1, c =>
    if computeDenseMem suffixLen ls c * ratio % 18446744073709551616 < computeSparseMem suffixLen ls c then
      cutoffLoop suffixLen ratio ls n (c + 1)
    else c

omit [Env] in
/-- surf_builder.hpp:319-329.  `sparse_start_level_ = cutoff_level--` assigns the value
*before* the decrement. -/
def determineCutoffLevel (suffixLen ratio : Nat) (ls : List Level) : Nat :=
  cutoffLoop suffixLen ratio ls ls.length 0

/-! ### Dense levels, surf_builder.hpp:353-397 -/

/-- surf_builder.hpp:421-424 -/
def isTerminator (lv : Level) (pos : Nat) : R Bool := do
  let label ← rdB lv.labels pos
  let c ← readBit lv.child pos
  return label == kTerminator && !c

/-- The three bitmaps of a dense level. -/
structure DenseLevel where
  labels : List Word
  child : List Word
  prefixkey : List Word
  deriving DecidableEq, Repr, Inhabited

omit [Env] in
/-- surf_builder.hpp:376-389 -/
def initDenseVectors (nodeCount : Nat) : DenseLevel :=
  ⟨List.replicate (4 * nodeCount) 0, List.replicate (4 * nodeCount) 0,
   List.replicate ((nodeCount + 63) / 64) 0⟩

/-- surf_builder.hpp:391-397 -/
def setLabelAndChild (lv : Level) (d : DenseLevel) (nodeNum pos : Nat) : R DenseLevel := do
  let label ← rdB lv.labels pos
  let ls ← setBit d.labels (add32 (mul32 nodeNum kFanout) label.toNat)
  let c ← readBit lv.child pos
  if c then do
    let cs ← setBit d.child (add32 (mul32 nodeNum kFanout) label.toNat)
    return { d with labels := ls, child := cs }
  else return { d with labels := ls }

/-- Loop over the items of a level, surf_builder.hpp:363-372 (`n` items left). -/
def denseLoop (lv : Level) : Nat → Nat → Nat → DenseLevel → R DenseLevel
  | 0, _, _, d => .ok d
  | n + 1, pos, nodeNum, d => do
    let st ← readBit lv.louds pos
    let nodeNum := if st then nodeNum + 1 else nodeNum
    let term ← if st then isTerminator lv pos else pure false
    if st && term then do
      let p ← setBit d.prefixkey nodeNum
      denseLoop lv n (pos + 1) nodeNum { d with prefixkey := p }
    else do
      let d ← setLabelAndChild lv d nodeNum pos
      denseLoop lv n (pos + 1) nodeNum d

/-- One iteration of `buildDense`, surf_builder.hpp:355-372. -/
def buildDenseLevel (lv : Level) : R DenseLevel := do
  let d := initDenseVectors lv.nodeCount
  if lv.labels.length = 0 then return d
  let t ← isTerminator lv 0
  let d ← if t then (do
      let p ← setBit d.prefixkey 0
      pure { d with prefixkey := p })
    else setLabelAndChild lv d 0 0
  denseLoop lv (lv.labels.length - 1) 1 0 d

/-- surf_builder.hpp:353-374 -/
def buildDense (ls : List Level) (start : Nat) : R (List DenseLevel) :=
  (ls.take start).mapM buildDenseLevel

/-- surf_builder.hpp:176-183.  (`getNumItems(level)` for `level == getTreeHeight()` cannot happen:
`sparse_start_level_ <= height`.) -/
def build (cfg : Config) (keys : List Key) : R Builder := do
  assertR (keys.length > 0)
  let ls ← buildSparse cfg keys
  if cfg.includeDense then do
    let s := determineCutoffLevel (cfg.hashLen + cfg.realLen) cfg.ratio ls
    let ds ← buildDense ls s
    return ⟨ls, s, ds.map (·.labels), ds.map (·.child), ds.map (·.prefixkey)⟩
  else return ⟨ls, 0, [], [], []⟩

end Builder
end Surf
