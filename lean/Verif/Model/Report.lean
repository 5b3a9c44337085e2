import Verif.Model.Bench
import Verif.Model.Workload

/-!
# workload.cpp: the numbers printed at the end
-/

namespace Surf.Bench
open Surf

/-- What workload.cpp:223-232 prints about the answers. -/
structure Report where
  positives : Nat
  truePositives : Nat
  falsePositives : Int
  trueNegatives : Int
  fpRate : Rat

section
variable [Env]

/-- workload.cpp:215-217 and 229-231, for `n` queries.  Simplifications: `fp_rate` is an exact fraction instead of a `double`, and the numbers are
not reduced to 64 bits (`n < 2^31`, as the loops of the benchmark count in `int`). -/
def report (n p tp : Nat) : R Report := do
  let fp : Int := p - tp
  assertR (decide (fp ≥ 0))
  let tn : Int := n - p
  return ⟨p, tp, fp, tn, if fp > 0 then (fp : Rat) / ((tn + fp : Int) : Rat) else 0⟩

/-- The workload "point", workload.cpp:127-129, 170-180, 215-232. -/
def reportPoint (flt : Flt) (ins ts : List Key) : R Report := do
  let p ← pointPositives flt ts
  report ts.length p (pointTrue ins ts)

/-- The workload "range", workload.cpp:130-138, 181-194, 215-232. -/
def reportRange (kt : KeyType) (flt : Flt) (ins ts : List Key) : R Report := do
  let (p, _) ← rangePositives kt flt ts
  let tp ← rangeTrue kt ins ts
  report ts.length p tp

/-- The workload "mix", workload.cpp:139-152, 195-214, 215-232. -/
def reportMix (kt : KeyType) (flt : Flt) (ins ts : List Key) : R Report := do
  let (p, _) ← mixPositives kt true flt ts
  let tp ← mixTrue kt ins true ts
  report ts.length p tp

/-- The workloads "count-long" and "count-short": `positives` and `true_positives` keep the value 0, workload.cpp:123, 153-164, 174. -/
def reportCount (ts : List Key) : R Report := report ts.length 0 0

/-- workload_multi_thread.cpp:232-237, printed by 239-243 (only compiled with `VERBOSE`): unlike workload.cpp, `true_negatives` is the number of
queries minus `true_positives`.  Simplifications as for `report`. -/
def reportMulti (range : Bool) (threads : Int) (o : SuRF) (ins ts ups : List Key) (sched : List Nat) : R Report := do
  let p ← multiPositives range threads o ts ups sched
  let tp := if range then multiRangeTrue ins ts ups else pointTrue ins ts
  let fp : Int := p - tp
  assertR (decide (fp ≥ 0))
  let tn : Int := ts.length - tp
  return ⟨p, tp, fp, tn, if fp > 0 then (fp : Rat) / ((tn + fp : Int) : Rat) else 0⟩

end
end Surf.Bench
