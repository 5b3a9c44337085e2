import Verif.Model.Surf

/-!
# Queries from several threads on one object

`bench/workload_multi_thread.cpp:19-45, 164-195` starts several threads that call `lookup` or `lookupRange` of one
filter object (`bench/filter_surf.hpp:27-34`).  `lookupRange` and `approxCount(left, right)` work on the member iterators
`iter_` and `iter2_` of the object (surf.hpp:126-127), so the threads share them.

The model cuts every query into steps, one for each statement or call that uses the shared iterators, and lets the threads take turns in any
order.  Simplification: a step is atomic and the threads see each other's writes at once, so the model has fewer
executions than the machine (in C++ an unsynchronised write is undefined behaviour).
-/

set_option autoImplicit false

namespace Surf

/-- The queries of a `SuRF` object that return a number or a truth value. -/
inductive Call
  | lookup (key : Key)
  | range (left : Key) (leftIncl : Bool) (right : Key) (rightIncl : Bool)
  | count (left right : Key)

/-- Their answers. -/
inductive Answer
  | bool (b : Bool)
  | nat (n : Nat)
  deriving DecidableEq, Repr

/-- The point a query has reached, with its local variables.  `lookup0`: start; `lookup1`: behind the call
for the dense levels (surf.hpp:145-146).  `range0` … `range3`: in front of surf.hpp:225, 226, 227 and 240.
`count0` … `count4`: in front of surf.hpp:266, 267, 269, 270 and 273. -/
inductive Local
  | lookup0 (key : Key)
  | lookup1 (key : Key) (node : Nat)
  | range0 (left : Key) (leftIncl : Bool) (right : Key) (rightIncl : Bool)
  | range1 (left : Key) (leftIncl : Bool) (right : Key) (rightIncl : Bool)
  | range2 (left : Key) (leftIncl : Bool) (right : Key) (rightIncl : Bool)
  | range3 (right : Key) (rightIncl : Bool)
  | count0 (left right : Key)
  | count1 (left right : Key)
  | count2 (right : Key)
  | count3
  | count4

/-- The start of a query. -/
def Call.start : Call → Local
  | .lookup k => .lookup0 k
  | .range l li r ri => .range0 l li r ri
  | .count l r => .count0 l r

section
variable [Env]

/-- One step of a query: the object left behind, and the next point or the answer.  Lines of surf.hpp as in `Local`. -/
def mstep (o : SuRF) : Local → R (SuRF × (Local ⊕ Answer))
  | .lookup0 k => do
    let (b, node) ← o.filter.dense.lookupKey k
    if !b then return (o, .inr (.bool false))
    else if node ≠ 0 then return (o, .inl (.lookup1 k node))
    else return (o, .inr (.bool true))
  | .lookup1 k node => do
    let b ← o.filter.sparse.lookupKey k node
    return (o, .inr (.bool b))
  | .range0 l li r ri => return ({ o with iter := o.iter.clear }, .inl (.range1 l li r ri))
  | .range1 l li r ri => do
    let (_, d) ← o.filter.dense.moveToKeyGreaterThan l li o.iter.dense
    return ({ o with iter := { o.iter with dense := d } }, .inl (.range2 l li r ri))
  | .range2 l li r ri =>
    if !o.iter.dense.valid then return (o, .inr (.bool false))
    else if !o.iter.dense.isComplete then
      if !o.iter.dense.searchComplete then do
        let it := o.iter.passToSparse
        let (_, s) ← o.filter.sparse.moveToKeyGreaterThan l li it.sparse
        let it : Iter := { it with sparse := s }
        if !s.valid then do
          let (_, it) ← it.incrementDense o.filter
          return ({ o with iter := it }, .inl (.range3 r ri))
        else return ({ o with iter := it }, .inl (.range3 r ri))
      else if !o.iter.dense.leftComplete then do
        let it := o.iter.passToSparse
        let s ← it.sparse.moveToLeftMostKey o.filter.sparse
        return ({ o with iter := { it with sparse := s } }, .inl (.range3 r ri))
      else return (o, .inl (.range3 r ri))
    else return (o, .inl (.range3 r ri))
  | .range3 r ri =>
    if !o.iter.isValid then return (o, .inr (.bool false))
    else do
      let c ← o.iter.compare o.filter r
      if c = kCouldBePositive then return (o, .inr (.bool true))
      else if ri then return (o, .inr (.bool (decide (c ≤ 0))))
      else return (o, .inr (.bool (decide (c < 0))))
  | .count0 l r => return ({ o with iter := o.iter.clear, iter2 := o.iter2.clear }, .inl (.count1 l r))
  | .count1 l r => do
    let it ← o.filter.moveToKeyGreaterThan l true
    let o := { o with iter := it }
    if !o.iter.isValid then return (o, .inr (.nat 0))
    else return (o, .inl (.count2 r))
  | .count2 r => do
    let it2 ← o.filter.moveToKeyGreaterThan r true
    return ({ o with iter2 := it2 }, .inl .count3)
  | .count3 =>
    if !o.iter2.isValid then do
      let it2 ← o.filter.moveToLast
      return ({ o with iter2 := it2 }, .inl .count4)
    else return (o, .inl .count4)
  | .count4 => do
    let c ← o.filter.approxCountIter o.iter o.iter2
    return (o, .inr (.nat c))

/-- A thread: the query it is in, the queries it will make, and the answers so far. -/
structure Thread where
  cur : Option Local
  todo : List Call
  out : List Answer

/-- A thread that has not started. -/
def Thread.new (cs : List Call) : Thread := ⟨none, cs, []⟩

/-- One step of a thread (nothing when it has finished). -/
def tstep (o : SuRF) (t : Thread) : R (SuRF × Thread) :=
  match t.cur, t.todo with
  | none, [] => .ok (o, t)
  | none, c :: cs => .ok (o, { t with cur := some c.start, todo := cs })
  | some l, _ => do
    let (o, x) ← mstep o l
    match x with
    | .inl l => return (o, { t with cur := some l })
    | .inr a => return (o, { t with cur := none, out := t.out ++ [a] })

/-- The threads take steps in the order given (numbers that are no thread are skipped). -/
def execThreads : SuRF → List Thread → List Nat → R (SuRF × List Thread)
  | o, ts, [] => .ok (o, ts)
  | o, ts, i :: is =>
    match ts[i]? with
    | none => execThreads o ts is
    | some t => do
      let (o, t) ← tstep o t
      execThreads o (ts.set i t) is

end

end Surf
