import Verif.Model.Basic

/-!
# bench/workload_arf.cpp

The benchmark for the filter ARF.  The library (`ARF.h`, `Database.h`) is not in the repository; it is a parameter here.
-/

namespace Surf.Bench
open Surf

/-- What workload_arf.cpp uses of the library: `db->rangeQuery(l, r)`, and `filter->handle_query(l, r, qR, training)`, which may change the filter.
`endTraining` stands for workload_arf.cpp:102-104. -/
structure ArfLib (σ : Type) where
  rangeQuery : BitVec 64 → BitVec 64 → Bool
  handleQuery : σ → BitVec 64 → BitVec 64 → Bool → Bool → Bool × σ
  endTraining : σ → σ

/-- workload_arf.cpp:8 -/
def kTxnSize : Nat := 10000000
/-- workload_arf.cpp:9 -/
def kTrainingSize : Nat := 2000000
/-- workload_arf.cpp:11 -/
def kArfRangeSize : BitVec 64 := 922336973116#64

/-- `txn_keys` and `upper_bound_keys` after workload_arf.cpp:70-81. -/
def arfBounds (range : Bool) (txn : List (BitVec 64)) : List (BitVec 64) × List (BitVec 64) :=
  if range then (txn.map (· + 1), txn.map fun t => t + 1 + kArfRangeSize) else (txn, txn)

section
variable {σ : Type} (lib : ArfLib σ) (ts us : List (BitVec 64))

/-- The loop of the training, workload_arf.cpp:96-101: `n` rounds from `i` on.  `txn_keys[i]` behind the end of the vector is an error. -/
def arfTrain : Nat → Nat → σ → R σ
  | 0, _, st => .ok st
  | n + 1, i, st => do
    let t ← getR ts i
    let u ← getR us i
    let q := lib.rangeQuery t u
    arfTrain n (i + 1) (lib.handleQuery st t u q true).2

/-- The answers of workload_arf.cpp:114-116, in their order. -/
def arfAnswers : Nat → Nat → σ → R (List Bool)
  | 0, _, _ => .ok []
  | n + 1, i, st => do
    let t ← getR ts i
    let u ← getR us i
    let (b, st) := lib.handleQuery st t u true false
    let bs ← arfAnswers n (i + 1) st
    return b :: bs

/-- The values `dR` of workload_arf.cpp:126-127, in their order. -/
def arfTruth : Nat → Nat → R (List Bool)
  | 0, _ => .ok []
  | n + 1, i => do
    let t ← getR ts i
    let u ← getR us i
    let bs ← arfTruth n (i + 1)
    return lib.rangeQuery t u :: bs

end

/-- What workload_arf.cpp:135-145 prints; no rate stands for 0/0. -/
structure ArfReport where
  positives : Nat
  tps : Nat
  tns : Nat
  fps : Int
  rate : Option Rat

/-- workload_arf.cpp:112-133 and 140-145, given the answers and the truth.  Simplification: fractions instead of `double`. -/
def arfReport (ans truth : List Bool) : ArfReport :=
  let positives := ans.count true
  let tps := truth.count true
  let tns := truth.count false
  let fps : Int := positives - tps
  ⟨positives, tps, tns, fps,
    if fps ≥ 0 then (if tns + fps = 0 then none else some ((fps : Rat) / ((tns + fps : Int) : Rat))) else some 0⟩

/-- workload_arf.cpp:70-145 on the queries `txn`, from the filter `st` on.  Simplification: without timing and output in between. -/
def runArf {σ : Type} (lib : ArfLib σ) (range : Bool) (txn : List (BitVec 64)) (st : σ) : R ArfReport := do
  let b := arfBounds range txn
  let st ← arfTrain lib b.1 b.2 kTrainingSize 0 st
  let ans ← arfAnswers lib b.1 b.2 (kTxnSize - kTrainingSize) kTrainingSize (lib.endTraining st)
  let truth ← arfTruth lib b.1 b.2 (kTxnSize - kTrainingSize) kTrainingSize
  return arfReport ans truth

end Surf.Bench
