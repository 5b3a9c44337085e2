import Verif.Model.Bench
import Verif.Model.Threads

/-!
# The two benchmark programs: arguments, key files, selection of keys, mixed queries, threads
(bench/bench.hpp, bench/workload.cpp, bench/workload_multi_thread.cpp)
-/

set_option autoImplicit false

namespace Surf.Bench
open Surf

/-! ## Arguments -/

/-- The eight arguments of `workload` (workload.cpp:18-25).  The three numbers are the results of `atoi`, before the conversion to
`unsigned`.  Simplification: `atoi` itself is not modelled. -/
structure Args where
  filterType : String
  suffixLen : Int
  workload : String
  percent : Int
  bytePos : Int
  keyType : String
  queryType : String
  distribution : String

/-- Conversion of an `int` to `unsigned`. -/
def toUnsigned (x : Int) : Nat := (x % (M32 : Int)).toNat

/-- The checks of workload.cpp:28-75: `false` when the program prints an error and returns -1. -/
def Args.accepted (a : Args) : Bool :=
  if a.filterType != "SuRF" && a.filterType != "SuRFHash" && a.filterType != "SuRFReal" && a.filterType != "SuRFMixed"
    && a.filterType != "Bloom" && a.filterType != "ARF" then false
  else if toUnsigned a.suffixLen == 0 || toUnsigned a.suffixLen > 64 then false
  else if a.workload != "mixed" && a.workload == "alterByte" then false
  else if toUnsigned a.percent > 100 then false
  else if a.keyType != "randint" && a.keyType != "timestamp" && a.keyType != "email" then false
  else if a.queryType != "point" && a.queryType != "range" && a.queryType != "mix" && a.queryType != "count-long"
    && a.queryType != "count-short" then false
  else if a.distribution != "uniform" && a.distribution != "zipfian" && a.distribution != "latest" then false
  else true

/-! ## Key files -/

/-- White space of the "C" locale, which `operator>>` skips: space, tab, line feed, vertical tab, form feed, carriage return. -/
def isSpace (c : UInt8) : Bool := c == 32 || (decide (9 ≤ c) && decide (c ≤ 13))

/-- A decimal digit. -/
def isDigit (c : UInt8) : Bool := decide (48 ≤ c) && decide (c ≤ 57)

/-- `std::ifstream`: the bytes that have not been read, and `good()` (neither `eofbit` nor `failbit`). -/
structure Stream where
  rest : List UInt8
  good : Bool
  deriving DecidableEq

/-- `std::ifstream infile(file_name)`, bench.hpp:56, 78; `none` when the file cannot be opened. -/
def Stream.open' : Option (List UInt8) → Stream
  | some bytes => ⟨bytes, true⟩
  | none => ⟨[], false⟩

/-- `infile >> key` for a string, bench.hpp:69: white space is skipped; if nothing follows, the stream fails and `key` keeps its value.  Otherwise
`key` becomes the next word; at the end of the file `eofbit` is set. -/
def readWord (s : Stream) (key : Key) : Key × Stream :=
  if !s.good then (key, s)
  else
    let r := s.rest.dropWhile isSpace
    if r = [] then (key, ⟨[], false⟩)
    else
      let r' := r.dropWhile fun c => !isSpace c
      (r.takeWhile fun c => !isSpace c, ⟨r', decide (r' ≠ [])⟩)

/-- The loop of bench.hpp:68-72 with at most `n` rounds (`n` = `kNumEmailRecords`); `key` is the variable of bench.hpp:57. -/
def loadTextLoop : Nat → Stream → Key → List Key
  | 0, _, _ => []
  | n + 1, s, key =>
    if s.good then
      let (k, s) := readWord s key
      k :: loadTextLoop n s k
    else []

/-- `kNumEmailRecords`, bench.hpp:23 -/
def kNumEmailRecords : Nat := 25000000
/-- `kNumIntRecords`, bench.hpp:22 -/
def kNumIntRecords : Nat := 100000000

/-- `loadKeysFromFile` for text keys, bench.hpp:54-58, 67-73. -/
def loadText (file : Option (List UInt8)) : List Key := loadTextLoop kNumEmailRecords (Stream.open' file) []

/-- The value of a numeral, as accumulated when it is read. -/
def digitsVal (ds : List UInt8) : Nat := ds.foldl (fun a c => 10 * a + (c.toNat - 48)) 0

section
variable [Env]

/-- `uint64_t int_key; infile >> int_key;` (bench.hpp:61-62, 81-82) with the rules of libstdc++: an optional sign and digits are read.  No digits: 0 and
failure; too large: 2^64 - 1 and failure.  If nothing but white space is left, nothing is stored, and the variable that the program uses next is
uninitialised: an error in strict mode, otherwise any value (it may depend on the numbers read before). -/
def readInt (s : Stream) (before : List Word) : R (Word × Stream) :=
  let r := s.rest.dropWhile isSpace
  if !s.good || r = [] then
    if Env.strict then .error .oobRead else .ok (Env.junkW before before.length, ⟨[], false⟩)
  else
    let neg := r.head? == some 45
    let r1 := if neg || r.head? == some 43 then r.tail else r
    let ds := r1.takeWhile isDigit
    let r2 := r1.dropWhile isDigit
    if ds = [] then .ok (0#64, ⟨r2, false⟩)
    else if digitsVal ds ≥ 2 ^ 64 then .ok (BitVec.allOnes 64, ⟨r2, false⟩)
    else .ok (if neg then -BitVec.ofNat 64 (digitsVal ds) else BitVec.ofNat 64 (digitsVal ds), ⟨r2, decide (r2 ≠ [])⟩)

/-- The loops of bench.hpp:60-66 and 80-85 with at most `n` rounds; `before` are the numbers read already. -/
def loadIntLoop : Nat → Stream → List Word → R (List Word)
  | 0, _, before => .ok before
  | n + 1, s, before =>
    if s.good then do
      let (x, s) ← readInt s before
      loadIntLoop n s (before ++ [x])
    else .ok before

/-- `loadKeysFromFile` for integer keys, bench.hpp:54-66. -/
def loadInts (file : Option (List UInt8)) : R (List Key) := do
  let xs ← loadIntLoop kNumIntRecords (Stream.open' file) []
  return xs.map uint64ToString

end

/-! ## Selection -/

/-- `selectKeysToInsert`, bench.hpp:89-99.  `shuffled` are the keys behind `random_shuffle`, in any order.  `std::sort` is merge sort here: equal strings are
identical, so there is only one sorted list. -/
def selectKeysToInsert (percent : Nat) (shuffled : List Key) : List Key :=
  let num := shuffled.length * percent % 2 ^ 64 / 100
  (shuffled.take num).mergeSort fun a b => decide (a ≤ b)

/-! ## Mixed queries -/

section
variable [Env]

/-- `positives` of the workload "mix", workload.cpp:139-152: point queries at even places (`even`), range queries at odd ones. -/
def mixPositives (kt : KeyType) : Bool → Flt → List Key → R (Nat × Flt)
  | _, flt, [] => .ok (0, flt)
  | even, flt, t :: ts =>
    if even then do
      let b ← flt.lookup t
      let (n, flt) ← mixPositives kt false flt ts
      return (b.toNat + n, flt)
    else do
      let u ← getUpperBoundKey kt t
      let (b, flt) ← flt.lookupRange t u
      let (n, flt) ← mixPositives kt true flt ts
      return (b.toNat + n, flt)

/-- `true_positives` of "mix", workload.cpp:195-214. -/
def mixTrue (kt : KeyType) (ins : List Key) : Bool → List Key → R Nat
  | _, [] => .ok 0
  | even, t :: ts =>
    if even then do
      let n ← mixTrue kt ins false ts
      return (decide (t ∈ ins)).toNat + n
    else do
      let b ← rangeHit kt ins t
      let n ← mixTrue kt ins true ts
      return b.toNat + n

/-- `false_positives` of "mix" with its assertion, workload.cpp:215-216. -/
def runMix (kt : KeyType) (flt : Flt) (ins ts : List Key) : R Int := do
  let (p, _) ← mixPositives kt true flt ts
  let n ← mixTrue kt ins true ts
  let fp : Int := p - n
  assertR (decide (fp ≥ 0))
  return fp

/-- The bounds of the workload "count-long", workload.cpp:105-113: neighbouring queries, the smaller one first. -/
def longBounds : List Key → List (Key × Key)
  | a :: b :: ts => (if a < b then (a, b) else (b, a)) :: longBounds (b :: ts)
  | _ => []

/-- `count` of the workload "count-long", workload.cpp:153-155. -/
def longCounts : Flt → List (Key × Key) → R (Nat × Flt)
  | flt, [] => .ok (0, flt)
  | flt, (l, r) :: ps => do
    let (b, flt) ← flt.approxCount l r
    let (n, flt) ← longCounts flt ps
    return (b.toNat + n, flt)

/-! ## Threads -/

/-- `start_pos` and `end_pos` of the threads, workload_multi_thread.cpp:157, 163-177, for `n` queries.  A negative number of threads makes `new` throw, zero threads
make the division undefined. -/
def threadArgs (threads : Int) (n : Nat) : R (List (Nat × Nat)) :=
  if threads < 0 then .error .exn
  else if threads = 0 then .error .divZero
  else .ok ((List.range threads.toNat).map fun i => (n / threads.toNat * i, n / threads.toNat * (i + 1)))

/-- The queries of one thread, workload_multi_thread.cpp:23-30; `ups` are the upper bounds of range queries (144-147). -/
def threadCalls (range : Bool) (ts ups : List Key) (a : Nat × Nat) : List Call :=
  if range then (((ts.zip ups).drop a.1).take (a.2 - a.1)).map fun p => .range p.1 true p.2 true
  else ((ts.drop a.1).take (a.2 - a.1)).map .lookup

/-- `out_positives` of a thread: the queries answered `true` (workload_multi_thread.cpp:24-29, 41). -/
def threadPositives (t : Thread) : Nat := t.out.count (.bool true)

/-- `positives`, workload_multi_thread.cpp:150-209: the threads take their steps in the order `sched`.  The sum is an `int` (206). -/
def multiPositives (range : Bool) (threads : Int) (o : SuRF) (ts ups : List Key) (sched : List Nat) : R Nat := do
  let args ← threadArgs threads ts.length
  let (_, ths) ← execThreads o ((args.map (threadCalls range ts ups)).map Thread.new) sched
  return (ths.map threadPositives).sum

/-- `true_positives` for range queries, workload_multi_thread.cpp:223-231: the first key *above* the query is compared with the upper bound. -/
def multiRangeTrue (ins ts ups : List Key) : Nat :=
  ((ts.zip ups).filter fun p => match ins.find? fun k => decide (p.1 < k) with | some k => decide (k < p.2) | none => false).length

/-- `false_positives` with its assertion, workload_multi_thread.cpp:232-233 (only compiled with `VERBOSE`). -/
def runMulti (range : Bool) (threads : Int) (o : SuRF) (ins ts ups : List Key) (sched : List Nat) : R Int := do
  let p ← multiPositives range threads o ts ups sched
  let n := if range then multiRangeTrue ins ts ups else pointTrue ins ts
  let fp : Int := p - n
  assertR (decide (fp ≥ 0))
  return fp

end
end Surf.Bench
