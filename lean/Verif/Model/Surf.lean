import Verif.Model.Sparse

/-! # surf.hpp -/

namespace Surf

/-- `class SuRF::Iter` (surf.hpp:16-51). -/
structure Iter where
  dense : DIter
  sparse : SIter
  couldBeFp : Bool
  deriving DecidableEq, Repr, Inhabited

/-- The immutable part of `class SuRF` (surf.hpp:122-128): the two tries. -/
structure Filter where
  dense : LoudsDense
  sparse : LoudsSparse
  deriving DecidableEq, Repr, Inhabited

/-- A `SuRF` object including the member iterators that queries overwrite. -/
structure SuRF where
  filter : Filter
  iter : Iter
  iter2 : Iter
  deriving DecidableEq, Repr, Inhabited

namespace Iter

/-- surf.hpp:19-23 -/
def new (f : Filter) : Iter := ⟨DIter.new f.dense, SIter.new f.sparse, false⟩

/-- surf.hpp:295-298 -/
def clear (it : Iter) : Iter := { it with dense := it.dense.clear, sparse := it.sparse.clear }

/-- surf.hpp:304-307 -/
def isValid (it : Iter) : Bool := it.dense.valid && (it.dense.isComplete || it.sparse.valid)

/-- surf.hpp:300-302 -/
def getFpFlag (it : Iter) : Bool := it.couldBeFp

/-- surf.hpp:342-344 -/
def passToSparse (it : Iter) : Iter :=
  { it with sparse := { it.sparse with startNode := it.dense.sendOut } }

/-- surf.hpp:317-323 -/
def getKey (it : Iter) : Key :=
  if !it.isValid then []
  else if it.dense.isComplete then it.dense.getKey
  else it.dense.getKey ++ it.sparse.getKey

variable [Env]

/-- surf.hpp:309-315 -/
def compare (f : Filter) (it : Iter) (key : Key) : R Int := do
  assertR it.isValid
  let c ← it.dense.compare f.dense key
  if it.dense.isComplete || c != 0 then return c
  it.sparse.compare f.sparse key

/-- surf.hpp:325-331: length and suffix (the out parameter is untouched when the iterator is invalid:
modelled as 0). -/
def getSuffix (f : Filter) (it : Iter) : R (Nat × Word) :=
  if !it.isValid then .ok (0, 0)
  else if it.dense.isComplete then it.dense.getSuffix f.dense
  else it.sparse.getSuffix f.sparse

/-- surf.hpp:333-340 -/
def getKeyWithSuffix (f : Filter) (it : Iter) : R (Key × Nat) :=
  if !it.isValid then .ok ([], 0)
  else if it.dense.isComplete then it.dense.getKeyWithSuffix f.dense 0
  else do
    let (k, bl) ← it.dense.getKeyWithSuffix f.dense 0
    let (k', bl) ← it.sparse.getKeyWithSuffix f.sparse bl
    return (k ++ k', bl)

/-- surf.hpp:346-359 -/
def incrementDense (f : Filter) (it : Iter) : R (Bool × Iter) :=
  if !it.dense.valid then .ok (false, it)
  else do
    let d ← it.dense.inc f.dense
    let it := { it with dense := d }
    if !d.valid then return (false, it)
    if d.leftComplete then return (true, it)
    let it := it.passToSparse
    let s ← it.sparse.moveToLeftMostKey f.sparse
    return (true, { it with sparse := s })

/-- surf.hpp:361-366 -/
def incrementSparse (f : Filter) (it : Iter) : R (Bool × Iter) :=
  if !it.sparse.valid then .ok (false, it)
  else do
    let s ← it.sparse.inc f.sparse
    return (s.valid, { it with sparse := s })

/-- `operator ++`, surf.hpp:368-374. -/
def inc (f : Filter) (it : Iter) : R (Bool × Iter) :=
  if !it.isValid then .ok (false, it)
  else do
    let (b, it) ← it.incrementSparse f
    if b then return (true, it)
    it.incrementDense f

/-- surf.hpp:376-389 -/
def decrementDense (f : Filter) (it : Iter) : R (Bool × Iter) :=
  if !it.dense.valid then .ok (false, it)
  else do
    let d ← it.dense.dec f.dense
    let it := { it with dense := d }
    if !d.valid then return (false, it)
    if d.rightComplete then return (true, it)
    let it := it.passToSparse
    let s ← it.sparse.moveToRightMostKey f.sparse
    return (true, { it with sparse := s })

/-- surf.hpp:391-396 -/
def decrementSparse (f : Filter) (it : Iter) : R (Bool × Iter) :=
  if !it.sparse.valid then .ok (false, it)
  else do
    let s ← it.sparse.dec f.sparse
    return (s.valid, { it with sparse := s })

/-- `operator --`, surf.hpp:398-404. -/
def dec (f : Filter) (it : Iter) : R (Bool × Iter) :=
  if !it.isValid then .ok (false, it)
  else do
    let (b, it) ← it.decrementSparse f
    if b then return (true, it)
    it.decrementDense f

end Iter

namespace Filter
variable [Env]

/-- `SuRF::create` (surf.hpp:130-141) without the member iterators. -/
def create (cfg : Config) (keys : List Key) : R Filter := do
  let b ← Builder.build cfg keys
  let d ← LoudsDense.mk' cfg b
  let s ← LoudsSparse.mk' cfg b
  return ⟨d, s⟩

/-- surf.hpp:143-150 -/
def lookupKey (f : Filter) (key : Key) : R Bool := do
  let (b, node) ← f.dense.lookupKey key
  if !b then return false
  else if node ≠ 0 then f.sparse.lookupKey key node
  else return true

/-- surf.hpp:152-175 -/
def moveToKeyGreaterThan (f : Filter) (key : Key) (inclusive : Bool) : R Iter := do
  let it := Iter.new f
  let (fp, d) ← f.dense.moveToKeyGreaterThan key inclusive it.dense
  let it : Iter := { it with dense := d, couldBeFp := fp }
  if !d.valid then return it
  else if d.isComplete then return it
  else if !d.searchComplete then do
    let it := it.passToSparse
    let (fp, s) ← f.sparse.moveToKeyGreaterThan key inclusive it.sparse
    let it : Iter := { it with sparse := s, couldBeFp := fp }
    if !s.valid then do
      let (_, it) ← it.incrementDense f
      return it
    else return it
  else if !d.leftComplete then do
    let it := it.passToSparse
    let s ← it.sparse.moveToLeftMostKey f.sparse
    return { it with sparse := s }
  else do
    assertR false
    return it

/-- surf.hpp:191-205 -/
def moveToFirst (f : Filter) : R Iter := do
  let it := Iter.new f
  if f.dense.height > 0 then do
    let d ← it.dense.setToFirstLabelInRoot f.dense
    let d ← d.moveToLeftMostKey f.dense
    let it := { it with dense := d }
    if d.leftComplete then return it
    let it := it.passToSparse
    let s ← it.sparse.moveToLeftMostKey f.sparse
    return { it with sparse := s }
  else do
    let s ← it.sparse.setToFirstLabelInRoot f.sparse
    let s ← s.moveToLeftMostKey f.sparse
    return { it with sparse := s }

/-- surf.hpp:207-221 -/
def moveToLast (f : Filter) : R Iter := do
  let it := Iter.new f
  if f.dense.height > 0 then do
    let d ← it.dense.setToLastLabelInRoot f.dense
    let d ← d.moveToRightMostKey f.dense
    let it := { it with dense := d }
    if d.rightComplete then return it
    let it := it.passToSparse
    let s ← it.sparse.moveToRightMostKey f.sparse
    return { it with sparse := s }
  else do
    let s ← it.sparse.setToLastLabelInRoot f.sparse
    let s ← s.moveToRightMostKey f.sparse
    return { it with sparse := s }

/-- surf.hpp:177-189 (`inclusive` is ignored by the code) -/
def moveToKeyLessThan (f : Filter) (key : Key) (_inclusive : Bool) : R Iter := do
  let it ← f.moveToKeyGreaterThan key false
  if !it.isValid then f.moveToLast
  else if !it.getFpFlag then do
    let (_, it) ← it.dec f
    let b ← f.lookupKey key
    if b then do
      let (_, it) ← it.dec f
      return it
    else return it
  else return it

/-- The positioning part of `lookupRange`, surf.hpp:225-239, on the member iterator `it`. -/
def rangeSeek (f : Filter) (it : Iter) (left : Key) (leftIncl : Bool) : R Iter := do
  let it := it.clear
  let (_, d) ← f.dense.moveToKeyGreaterThan left leftIncl it.dense
  let it : Iter := { it with dense := d }
  if !d.valid then return it
  else if !d.isComplete then
    if !d.searchComplete then do
      let it := it.passToSparse
      let (_, s) ← f.sparse.moveToKeyGreaterThan left leftIncl it.sparse
      let it : Iter := { it with sparse := s }
      if !s.valid then do
        let (_, it) ← it.incrementDense f
        return it
      else return it
    else if !d.leftComplete then do
      let it := it.passToSparse
      let s ← it.sparse.moveToLeftMostKey f.sparse
      return { it with sparse := s }
    else return it
  else return it

/-- surf.hpp:223-248, returning the answer and the member iterator left behind. -/
def lookupRange (f : Filter) (it : Iter) (left : Key) (leftIncl : Bool) (right : Key)
    (rightIncl : Bool) : R (Bool × Iter) := do
  let it ← f.rangeSeek it left leftIncl
  if !it.isValid then return (false, it)
  else do
    let c ← it.compare f right
    if c = kCouldBePositive then return (true, it)
    else if rightIncl then return (decide (c ≤ 0), it)
    else return (decide (c < 0), it)

/-- surf.hpp:250-262 -/
def approxCountIter (f : Filter) (it it2 : Iter) : R Nat :=
  if !it.isValid || !it2.isValid then .ok 0
  else do
    let (c, ol, or_) ← f.dense.approxCount it.dense it2.dense
    let c' ← f.sparse.approxCount it.sparse it2.sparse ol or_
    return (c + c') % 18446744073709551616

/-- surf.hpp:264-274, returning the count and the two member iterators left behind
(`iter2_` is unchanged on the early return). -/
def approxCount (f : Filter) (iter2 : Iter) (left right : Key) : R (Nat × Iter × Iter) := do
  let it ← f.moveToKeyGreaterThan left true
  if !it.isValid then return (0, it, iter2.clear)
  else do
    let it2 ← f.moveToKeyGreaterThan right true
    let it2 ← if !it2.isValid then f.moveToLast else pure it2
    let c ← f.approxCountIter it it2
    return (c, it, it2)

omit [Env] in
/-- surf.hpp:285-287 -/
def getHeight (f : Filter) : Nat := f.sparse.height

omit [Env] in
/-- surf.hpp:289-291 -/
def getSparseStartLevel (f : Filter) : Nat := f.sparse.startLevel

end Filter

namespace SuRF
variable [Env]

/-- surf.hpp:59-72, 130-141 -/
def create (cfg : Config) (keys : List Key) : R SuRF := do
  let f ← Filter.create cfg keys
  return ⟨f, Iter.new f, Iter.new f⟩

/-- surf.hpp:143-150 (const) -/
def lookupKey (s : SuRF) (key : Key) : R Bool := s.filter.lookupKey key

/-- surf.hpp:223-248 as a state transformer -/
def lookupRange (s : SuRF) (left : Key) (leftIncl : Bool) (right : Key) (rightIncl : Bool) :
    R (Bool × SuRF) := do
  let (b, it) ← s.filter.lookupRange s.iter left leftIncl right rightIncl
  return (b, { s with iter := it })

/-- surf.hpp:264-274 as a state transformer -/
def approxCount (s : SuRF) (left right : Key) : R (Nat × SuRF) := do
  let (c, it, it2) ← s.filter.approxCount s.iter2 left right
  return (c, { s with iter := it, iter2 := it2 })

end SuRF
end Surf
