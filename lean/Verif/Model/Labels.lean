import Verif.Model.Basic

/-! # label_vector.hpp -/

namespace Surf

/-- `class LabelVector` (label_vector.hpp:12-105).  `labels` is the whole allocated array:
`num_bytes_` used entries (the last one is a zero) followed by the extra zero padding the
constructor allocates. -/
structure LabelVector where
  numBytes : Nat
  labels : List UInt8
  deriving DecidableEq, Repr, Inhabited

namespace LabelVector

/-- Constructor, label_vector.hpp:16-39, on the concatenated labels of the selected levels.
`alloc_bytes = num_bytes_ * (num_bytes_ / kWordSize + 1)` is computed in 32 bits and can wrap around;
when it comes out smaller than the number of labels, the copy loop writes behind the array. -/
def mk' (ls : List UInt8) : R LabelVector :=
  let n := ls.length + 1
  let alloc := mul32 n (n / 64 + 1)
  if alloc < ls.length then .error .oobWrite
  else .ok ⟨n, ls ++ List.replicate (alloc - ls.length) 0⟩

variable [Env]

/-- label_vector.hpp:57-59 -/
def read (lv : LabelVector) (pos : Nat) : R UInt8 := rdB lv.labels pos

/-- label_vector.hpp:183-191.  The searches return the new value of the reference argument
`pos` together with the result. -/
def linearSearchFrom (lv : LabelVector) (target : UInt8) (pos : Nat) : Nat → Nat → R (Bool × Nat)
  | 0, _ => .ok (false, pos)
  | left + 1, i => do
    let l ← rdB lv.labels (pos + i)
    if target = l then return (true, pos + i)
    linearSearchFrom lv target pos left (i + 1)

def linearSearch (lv : LabelVector) (target : UInt8) (pos len : Nat) : R (Bool × Nat) :=
  linearSearchFrom lv target pos len 0

/-- Number of rounds after which a binary search is taken to run on forever: there are fewer pairs of
32-bit positions, so a longer run would meet a pair again. -/
def binFuel : Nat := 18446744073709551617

/-- Loop of `binarySearch`, label_vector.hpp:138-149.  `r - l` decreases as long as `l + r` fits 32
bits; when the sum wraps around the midpoint lies below `l`, and the loop may then never end
(`diverge`).  Positions of labels are below 2^32, so `m + 1` and `pos + len` are not wrapped. -/
def binLoop (lv : LabelVector) (target : UInt8) (pos : Nat) : Nat → Nat → Nat → R (Bool × Nat)
  | 0, _, _ => .error .diverge
  | fuel + 1, l, r =>
    if l < r then do
      let m := add32 l r / 2
      let x ← rdB lv.labels m
      if target < x then binLoop lv target pos fuel l m
      else if target = x then return (true, m)
      else binLoop lv target pos fuel (m + 1) r
    else .ok (false, pos)

/-- label_vector.hpp:135-150 -/
def binarySearch (lv : LabelVector) (target : UInt8) (pos len : Nat) : R (Bool × Nat) :=
  binLoop lv target pos binFuel pos (pos + len)

/-- `_mm_loadu_si128`: sixteen bytes starting at `p`. -/
def load16 (lv : LabelVector) (p : Nat) : R (List UInt8) :=
  (List.range 16).mapM fun j => rdB lv.labels (p + j)

/-- Full 16-byte steps of `simdSearch`, label_vector.hpp:155-166, then the left-over step,
lines 168-180.  `cmpeq`+`movemask`(+mask)+`ctz` is the index of the first equal byte among the
first `16` (resp. `num_labels_left`) bytes. -/
def simdLoop (lv : LabelVector) (target : UInt8) (pos : Nat) : Nat → Nat → Nat → R (Bool × Nat)
  | 0, _, _ => .error .diverge
  | fuel + 1, searched, left =>
    if left / 16 > 0 then do
      let bs ← lv.load16 (pos + searched)
      if bs.any (· == target) then return (true, pos + (searched + bs.findIdx (· == target)))
      simdLoop lv target pos fuel (searched + 16) (left - 16)
    else if left > 0 then do
      let bs ← lv.load16 (pos + searched)
      let bs := bs.take left
      if bs.any (· == target) then return (true, pos + (searched + bs.findIdx (· == target)))
      return (false, pos)
    else .ok (false, pos)

/-- label_vector.hpp:152-181 -/
def simdSearch (lv : LabelVector) (target : UInt8) (pos len : Nat) : R (Bool × Nat) :=
  simdLoop lv target pos (len + 1) 0 len

/-- The terminator skip shared by `search` and `searchGreaterThan`,
label_vector.hpp:109-112 and 124-127.  The updated `pos` escapes to the caller. -/
def skipTerm (lv : LabelVector) (pos len : Nat) : R (Nat × Nat) :=
  if len > 1 then do
    let l ← rdB lv.labels pos
    if l = kTerminator then return (pos + 1, len - 1) else return (pos, len)
  else return (pos, len)

/-- label_vector.hpp:107-120 -/
def search (lv : LabelVector) (target : UInt8) (pos len : Nat) : R (Bool × Nat) := do
  let (pos, len) ← lv.skipTerm pos len
  if len < 3 then lv.linearSearch target pos len
  else if len < 12 then lv.binarySearch target pos len
  else lv.simdSearch target pos len

/-- label_vector.hpp:218-226 -/
def linearGTFrom (lv : LabelVector) (target : UInt8) (pos : Nat) : Nat → Nat → R (Bool × Nat)
  | 0, _ => .ok (false, pos)
  | left + 1, i => do
    let l ← rdB lv.labels (pos + i)
    if l > target then return (true, pos + i)
    linearGTFrom lv target pos left (i + 1)

def linearSearchGreaterThan (lv : LabelVector) (target : UInt8) (pos len : Nat) : R (Bool × Nat) :=
  linearGTFrom lv target pos len 0

/-- Loop of `binarySearchGreaterThan`, label_vector.hpp:196-215 (the same 32-bit midpoint). -/
def binGTLoop (lv : LabelVector) (target : UInt8) (pos len : Nat) :
    Nat → Nat → Nat → R (Bool × Nat)
  | 0, _, _ => .error .diverge
  | fuel + 1, l, r =>
    if l < r then do
      let m := add32 l r / 2
      let x ← rdB lv.labels m
      if target < x then binGTLoop lv target pos len fuel l m
      else if target = x then
        if m < pos + len - 1 then return (true, m + 1) else return (false, pos)
      else binGTLoop lv target pos len fuel (m + 1) r
    else if l < pos + len then return (true, l)
    else return (false, pos)

/-- label_vector.hpp:193-216 -/
def binarySearchGreaterThan (lv : LabelVector) (target : UInt8) (pos len : Nat) : R (Bool × Nat) :=
  binGTLoop lv target pos len binFuel pos (pos + len)

/-- label_vector.hpp:122-133 -/
def searchGreaterThan (lv : LabelVector) (target : UInt8) (pos len : Nat) : R (Bool × Nat) := do
  let (pos, len) ← lv.skipTerm pos len
  if len < 3 then lv.linearSearchGreaterThan target pos len
  else lv.binarySearchGreaterThan target pos len

end LabelVector
end Surf
