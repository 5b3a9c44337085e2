import Verif.Model.Serialize

/-!
# Memory: `getMemoryUsage`, `new`, `delete` and `destroy`

The heap is a list of blocks in order of allocation.  Simplifications: addresses are never used again, memory managed by `std::vector`,
`std::string` and automatic variables is not listed (the standard library releases it), and `new` does not fail.
-/

set_option autoImplicit false

namespace Surf

/-! ## `getMemoryUsage` -/

/-- `sizeof` of the classes, which depends on the compiler. -/
structure Sizeof where
  rank : Nat
  select : Nat
  labels : Nat
  suffix : Nat
  dense : Nat
  sparse : Nat
  surf : Nat
  builder : Nat

/-- `BitvectorRank::size`, rank.hpp:53-55 (returned as a 32-bit number). -/
def BitvectorRank.size (z : Sizeof) (b : BitvectorRank) : Nat := u32 (z.rank + b.bitsSize + u32 b.rankLutSize)

/-- `BitvectorSelect::size`, select.hpp:79-81. -/
def BitvectorSelect.size (z : Sizeof) (b : BitvectorSelect) : Nat := u32 (z.select + b.bitsSize + u32 b.selectLutSize)

/-- `LabelVector::size`, label_vector.hpp:53-55. -/
def LabelVector.size (z : Sizeof) (l : LabelVector) : Nat := u32 (z.labels + l.numBytes)

/-- `BitvectorSuffix::size`, suffix.hpp:126-128. -/
def BitvectorSuffix.size (z : Sizeof) (b : BitvectorSuffix) : Nat := u32 (z.suffix + b.bitsSize)

/-- louds_dense.hpp:377-383 -/
def LoudsDense.getMemoryUsage (z : Sizeof) (d : LoudsDense) : Nat :=
  z.dense + d.labelBitmaps.size z + d.childBitmaps.size z + d.prefixBits.size z + d.suffixes.size z

/-- louds_sparse.hpp:413-419; `sizeof(this)` is the size of a pointer. -/
def LoudsSparse.getMemoryUsage (z : Sizeof) (t : LoudsSparse) : Nat :=
  8 + t.labels.size z + t.childBits.size z + t.loudsBits.size z + t.suffixes.size z

/-- surf.hpp:281-283 -/
def Filter.getMemoryUsage (z : Sizeof) (f : Filter) : Nat := z.surf + f.dense.getMemoryUsage z + f.sparse.getMemoryUsage z

/-! ## The heap -/

/-- A block got from `new` (`array = false`) or `new[]` (`array = true`). -/
structure Block where
  addr : Nat
  array : Bool
  bytes : Nat
  deriving DecidableEq, Repr

/-- The blocks not yet released, and the next address (0 is the null pointer). -/
structure Heap where
  next : Nat
  live : List Block
  deriving DecidableEq, Repr

/-- Releasing something that is not a block in use of the right kind. -/
inductive HeapError
  | badFree
  deriving DecidableEq, Repr

/-- Code that uses the heap. -/
abbrev HM (α : Type) := StateT Heap (Except HeapError) α

/-- `new T` and `new T[n]`. -/
def alloc (array : Bool) (bytes : Nat) : HM Nat := fun h => .ok (h.next, ⟨h.next + 1, h.live ++ [⟨h.next, array, bytes⟩]⟩)

/-- `delete p` and `delete[] p`; nothing happens for the null pointer. -/
def free (array : Bool) (p : Nat) : HM Unit := fun h =>
  if p = 0 then .ok ((), h)
  else if h.live.any (fun b => b.addr == p && b.array == array) then .ok ((), ⟨h.next, h.live.filter fun b => b.addr != p⟩)
  else .error .badFree

/-! ## Objects on the heap

`f` is the content of the filter; the pointers are those of the C++ objects. -/

/-- The object at `obj` and its two arrays (`BitvectorRank`, `BitvectorSelect`). -/
structure VecPtr where
  obj : Nat
  bits : Nat
  lut : Nat
  deriving DecidableEq, Repr

/-- A `LabelVector` or `BitvectorSuffix` with its array; `used` is `type_ != kNone` for suffixes. -/
structure ArrPtr where
  obj : Nat
  arr : Nat
  used : Bool
  deriving DecidableEq, Repr

/-- `LoudsDense` (louds_dense.hpp:157-162) -/
structure DensePtr where
  obj : Nat
  cuts : Nat
  labelBitmaps : VecPtr
  childBitmaps : VecPtr
  prefixBits : VecPtr
  suffixes : ArrPtr
  deriving DecidableEq, Repr

/-- `LoudsSparse` (louds_sparse.hpp:170-175) -/
structure SparsePtr where
  obj : Nat
  cuts : Nat
  labels : ArrPtr
  childBits : VecPtr
  loudsBits : VecPtr
  suffixes : ArrPtr
  deriving DecidableEq, Repr

/-- The pointers of a `SuRF` object (surf.hpp:123-124). -/
structure SurfPtr where
  dense : DensePtr
  sparse : SparsePtr
  deriving DecidableEq, Repr

/-- `new BitvectorRank(…)` (bitvector.hpp:23, rank.hpp:106), `BitvectorRank::deSerialize` (rank.hpp:75, 81, 84). -/
def newRank (z : Sizeof) (b : BitvectorRank) : HM VecPtr := do
  let o ← alloc false z.rank
  let a ← alloc true (b.bits.length * 8)
  let l ← alloc true (b.rankLut.length * 4)
  return ⟨o, a, l⟩

/-- `new BitvectorSelect(…)` (bitvector.hpp:23, select.hpp:155), `BitvectorSelect::deSerialize` (select.hpp:102, 110, 113). -/
def newSelect (z : Sizeof) (b : BitvectorSelect) : HM VecPtr := do
  let o ← alloc false z.select
  let a ← alloc true (b.bits.length * 8)
  let l ← alloc true (b.selectLut.length * 4)
  return ⟨o, a, l⟩

/-- `new LabelVector(…)` (label_vector.hpp:28), `LabelVector::deSerialize` (label_vector.hpp:84, 88). -/
def newLabels (z : Sizeof) (l : LabelVector) : HM ArrPtr := do
  let o ← alloc false z.labels
  let a ← alloc true l.labels.length
  return ⟨o, a, true⟩

/-- `new BitvectorSuffix(…)` (louds_dense.hpp:188-201, louds_sparse.hpp:213-226, bitvector.hpp:14, 23),
`BitvectorSuffix::deSerialize` (suffix.hpp:155, 164-165).  Without suffixes there is no array (`bits_ == nullptr`). -/
def newSuffix (z : Sizeof) (b : BitvectorSuffix) : HM ArrPtr := do
  let o ← alloc false z.suffix
  if b.type = .kNone then return ⟨o, 0, false⟩
  let a ← alloc true (b.bits.length * 8)
  return ⟨o, a, true⟩

/-- `new LoudsDense(builder)` (surf.hpp:137, louds_dense.hpp:172-201), `LoudsDense::deSerialize` (louds_dense.hpp:117-128). -/
def newDense (z : Sizeof) (d : LoudsDense) : HM DensePtr := do
  let o ← alloc false z.dense
  let c ← alloc true (d.levelCuts.length * 4)
  let lb ← newRank z d.labelBitmaps
  let cb ← newRank z d.childBitmaps
  let pb ← newRank z d.prefixBits
  let sf ← newSuffix z d.suffixes
  return ⟨o, c, lb, cb, pb, sf⟩

/-- `new LoudsSparse(builder)` (surf.hpp:138, louds_sparse.hpp:192-226).  `LoudsSparse::deSerialize` (louds_sparse.hpp:107-124) allocates
the same blocks, `level_cuts_` first; the order does not matter here. -/
def newSparse (z : Sizeof) (t : LoudsSparse) : HM SparsePtr := do
  let o ← alloc false z.sparse
  let lv ← newLabels z t.labels
  let c ← alloc true (t.levelCuts.length * 4)
  let cb ← newRank z t.childBits
  let lb ← newSelect z t.loudsBits
  let sf ← newSuffix z t.suffixes
  return ⟨o, c, lv, cb, lb, sf⟩

/-- `SuRF::create`, surf.hpp:130-141, for a filter with content `f`.  The `SuRF` object itself belongs to the caller. -/
def heapCreate (z : Sizeof) (f : Filter) : HM SurfPtr := do
  let b ← alloc false z.builder
  let d ← newDense z f.dense
  let s ← newSparse z f.sparse
  free false b
  return ⟨d, s⟩

/-- `SuRF::deSerialize`, surf.hpp:109-115, of a filter with content `f`; the new `SuRF` object is returned to the caller as a pointer. -/
def heapLoad (z : Sizeof) (f : Filter) : HM (Nat × SurfPtr) := do
  let o ← alloc false z.surf
  let d ← newDense z f.dense
  let s ← newSparse z f.sparse
  return (o, ⟨d, s⟩)

/-- rank.hpp:97-100, select.hpp:125-128 -/
def VecPtr.destroy (p : VecPtr) : HM Unit := do
  free true p.bits
  free true p.lut

/-- suffix.hpp:176-179, label_vector.hpp:98-100 -/
def ArrPtr.destroy (p : ArrPtr) : HM Unit := if p.used then free true p.arr else pure ()

/-- louds_dense.hpp:133-138 -/
def DensePtr.destroy (p : DensePtr) : HM Unit := do
  p.labelBitmaps.destroy
  p.childBitmaps.destroy
  p.prefixBits.destroy
  p.suffixes.destroy

/-- louds_sparse.hpp:129-135 -/
def SparsePtr.destroy (p : SparsePtr) : HM Unit := do
  free true p.cuts
  p.labels.destroy
  p.childBits.destroy
  p.loudsBits.destroy
  p.suffixes.destroy

/-- surf.hpp:117-120 -/
def SurfPtr.destroy (p : SurfPtr) : HM Unit := do
  p.dense.destroy
  p.sparse.destroy

/-! ## Programs -/

/-- What a program does with `SuRF` objects, which are numbered in the order they come to exist.  `copy i` is the copy constructor of
`SuRF`, which copies the pointers (surf.hpp has none of its own).  `load` is `deSerialize`; the caller also has to `delete` the
object it returns, and as nothing else refers to that block the model releases it at once. -/
inductive MemOp
  | create (f : Filter)
  | load (f : Filter)
  | copy (i : Nat)
  | destroy (i : Nat)

/-- One operation; the state is the list of the filters. -/
def memStep (z : Sizeof) (ps : List SurfPtr) : MemOp → HM (List SurfPtr)
  | .create f => do
    let p ← heapCreate z f
    return ps ++ [p]
  | .load f => do
    let (o, p) ← heapLoad z f
    free false o
    return ps ++ [p]
  | .copy i =>
    match ps[i]? with
    | some p => return ps ++ [p]
    | none => return ps
  | .destroy i =>
    match ps[i]? with
    | some p => do
      p.destroy
      return ps
    | none => return ps

/-- A program. -/
def memRun (z : Sizeof) (ps : List SurfPtr) : List MemOp → HM (List SurfPtr)
  | [] => return ps
  | op :: ops => do
    let ps ← memStep z ps op
    memRun z ps ops

end Surf
