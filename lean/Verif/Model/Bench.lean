import Verif.Model.Bloom
import Verif.Model.Surf

/-!
# The filters and the single-threaded workload of the benchmark (bench/)
-/

set_option autoImplicit false

namespace Surf.Bench
open Surf

/-- `kIntRangeSize`, bench.hpp:25 -/
def kIntRangeSize : Nat := 92233697311

/-- The keys the benchmark distinguishes: `email` (text) and anything else, which is read as integers (workload.cpp:81-84). -/
inductive KeyType
  | email
  | int
  deriving DecidableEq, Repr

/-- `getUpperBoundKey` (bench.hpp:125-135) and the same computation in workload.cpp:132-137: the last byte plus `kEmailRangeSize` = 128, or
the integer plus `kIntRangeSize`.  Writing behind an empty string and reading eight bytes of a shorter one are errors. -/
def getUpperBoundKey (t : KeyType) (key : Key) : R Key :=
  match t with
  | .email =>
    match key.getLast? with
    | some c => .ok (key.dropLast ++ [c + 128])
    | none => .error .oobWrite
  | .int =>
    if key.length < 8 then .error .oobRead
    else .ok (uint64ToString (stringToUint64 key + BitVec.ofNat 64 kIntRangeSize))

/-- A filter of the benchmark: `FilterSuRF` (filter_surf.hpp) or `FilterBloom` (filter_bloom.hpp). -/
inductive Flt
  | surf (o : SuRF)
  | bloom (data : List UInt8)

/-- `kBitsPerKey`, filter_bloom.hpp:42 -/
def kBitsPerKey : Nat := 10

/-- The parameters of `FilterSuRF` for a filter type other than "Bloom" (filter_factory.hpp:12-27, filter_surf.hpp:14-20). -/
def configOf (filterType : String) (suffixLen : Nat) : Config :=
  if filterType = "SuRF" then { suffixType := .kNone }
  else if filterType = "SuRFHash" then { suffixType := .kHash, hashLen := suffixLen }
  else if filterType = "SuRFReal" then { suffixType := .kReal, realLen := suffixLen }
  else if filterType = "SuRFMixed" then { suffixType := .kMixed, hashLen := suffixLen, realLen := suffixLen }
  else { suffixType := .kReal, realLen := suffixLen }

section
variable [Env]

/-- `FilterFactory::createFilter` (filter_factory.hpp:12-27) -/
def mkFilter (filterType : String) (suffixLen : Nat) (keys : List Key) : R Flt := do
  if filterType = "Bloom" then
    let d ← createFilter bloomHash kBitsPerKey keys keys.length []
    return .bloom d
  else
    let o ← SuRF.create (configOf filterType suffixLen) keys
    return .surf o

/-- filter_surf.hpp:27-29, filter_bloom.hpp:23-25 -/
def Flt.lookup : Flt → Key → R Bool
  | .surf o, key => o.lookupKey key
  | .bloom d, key => keyMayMatch bloomHash key d

/-- filter_surf.hpp:31-34 (both bounds included), filter_bloom.hpp:27-30 -/
def Flt.lookupRange : Flt → Key → Key → R (Bool × Flt)
  | .surf o, l, r => do
    let (b, o) ← o.lookupRange l true r true
    return (b, .surf o)
  | .bloom d, _, _ => .ok (false, .bloom d)

/-- filter_surf.hpp:36-38: the count is returned as a `bool`; filter_bloom.hpp:32-35 -/
def Flt.approxCount : Flt → Key → Key → R (Bool × Flt)
  | .surf o, l, r => do
    let (n, o) ← o.approxCount l r
    return (n != 0, .surf o)
  | .bloom d, _, _ => .ok (false, .bloom d)

/-- `positives` of the workload "point", workload.cpp:127-129. -/
def pointPositives (flt : Flt) : List Key → R Nat
  | [] => .ok 0
  | t :: ts => do
    let b ← flt.lookup t
    let n ← pointPositives flt ts
    return b.toNat + n

/-- `positives` of the workload "range", workload.cpp:130-138, and the filter object left behind. -/
def rangePositives (kt : KeyType) : Flt → List Key → R (Nat × Flt)
  | flt, [] => .ok (0, flt)
  | flt, t :: ts => do
    let u ← getUpperBoundKey kt t
    let (b, flt) ← flt.lookupRange t u
    let (n, flt) ← rangePositives kt flt ts
    return (b.toNat + n, flt)

/-- `count` of the workload "count-short", workload.cpp:156-164. -/
def shortCounts (kt : KeyType) : Flt → List Key → R (Nat × Flt)
  | flt, [] => .ok (0, flt)
  | flt, t :: ts => do
    let u ← getUpperBoundKey kt t
    let (b, flt) ← flt.approxCount t u
    let (n, flt) ← shortCounts kt flt ts
    return (b.toNat + n, flt)

/-- `true_positives` of "point", workload.cpp:170-180: the queries found in the map `ht` of the inserted keys. -/
def pointTrue (ins : List Key) (ts : List Key) : Nat := (ts.filter fun t => decide (t ∈ ins)).length

/-- `ht.lower_bound(t)`, workload.cpp:183: the first key that is not less.  `ins` is sorted here (bench.hpp:98), as the map is. -/
def lowerBound (ins : List Key) (t : Key) : Option Key := ins.find? fun k => decide (t ≤ k)

/-- One round of the loop for "range", workload.cpp:183-193. -/
def rangeHit (kt : KeyType) (ins : List Key) (t : Key) : R Bool :=
  match lowerBound ins t with
  | some k => do
    let u ← getUpperBoundKey kt t
    return decide (k < u)
  | none => .ok false

/-- `true_positives` of "range", workload.cpp:181-194. -/
def rangeTrue (kt : KeyType) (ins : List Key) : List Key → R Nat
  | [] => .ok 0
  | t :: ts => do
    let b ← rangeHit kt ins t
    let n ← rangeTrue kt ins ts
    return b.toNat + n

/-- `false_positives` of "point" with its assertion, workload.cpp:215-216. -/
def runPoint (flt : Flt) (ins ts : List Key) : R Int := do
  let p ← pointPositives flt ts
  let fp : Int := p - pointTrue ins ts
  assertR (decide (fp ≥ 0))
  return fp

/-- `false_positives` of "range" with its assertion, workload.cpp:215-216. -/
def runRange (kt : KeyType) (flt : Flt) (ins ts : List Key) : R Int := do
  let (p, _) ← rangePositives kt flt ts
  let n ← rangeTrue kt ins ts
  let fp : Int := p - n
  assertR (decide (fp ≥ 0))
  return fp

end
end Surf.Bench
