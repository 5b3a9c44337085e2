import Verif.Model.Arf
import Verif.Proof.Lookup
import Mathlib.Tactic.Linarith
import Mathlib.Tactic.FieldSimp
import Mathlib.Algebra.Order.Field.Rat

/-!
# The benchmark of ARF (C82)
-/

set_option autoImplicit false
set_option linter.unusedSectionVars false

namespace Spec

/-- The answers of something that may change with every query. -/
def answers {σ β : Type} (h : σ → β → Bool × σ) : σ → List β → List Bool
  | _, [] => []
  | st, q :: qs => (h st q).1 :: answers h (h st q).2 qs

/-- Its state afterwards. -/
def stateAfter {σ β : Type} (h : σ → β → Bool × σ) (st : σ) (qs : List β) : σ := qs.foldl (fun s q => (h s q).2) st

/-- The queries of the ARF benchmark: an integer, or the 922336973117 integers above it. -/
def arfQueries (range : Bool) (txn : List (BitVec 64)) : List (BitVec 64 × BitVec 64) :=
  txn.map fun t => if range then (t + 1#64, t + 922336973117#64) else (t, t)

end Spec

namespace Surf.Props
open Surf Surf.Bench

variable {σ : Type} (lib : ArfLib σ)

theorem arfBounds_eq (range : Bool) (txn : List (BitVec 64)) :
    arfBounds range txn = ((Spec.arfQueries range txn).map Prod.fst, (Spec.arfQueries range txn).map Prod.snd) := by
  unfold arfBounds Spec.arfQueries
  cases range
  · simp [Function.comp_def]
  · simp only [if_true, List.map_map, Function.comp_def]
    refine Prod.ext rfl ?_
    apply List.map_congr_left
    intro t _
    rw [BitVec.add_assoc]
    rfl

theorem drop_take_succ {β : Type} {qs : List β} {i n : Nat} (h : i < qs.length) :
    (qs.drop i).take (n + 1) = qs[i] :: (qs.drop (i + 1)).take n := by
  rw [List.drop_eq_getElem_cons h, List.take_succ_cons]

theorem getR_map {α β : Type} {qs : List α} (f : α → β) {i : Nat} (h : i < qs.length) : getR (qs.map f) i = .ok (f qs[i]) := by
  unfold getR
  rw [List.getElem?_map, List.getElem?_eq_getElem h]
  rfl

theorem getR_end {α β : Type} {qs : List α} (f : α → β) {i : Nat} (h : qs.length ≤ i) : getR (qs.map f) i = .error .oobRead := by
  unfold getR
  rw [List.getElem?_map, List.getElem?_eq_none h]
  rfl

variable (qs : List (BitVec 64 × BitVec 64))

theorem arfTrain_ok (n i : Nat) (st : σ) (h : i + n ≤ qs.length) :
    arfTrain lib (qs.map Prod.fst) (qs.map Prod.snd) n i st =
      .ok (Spec.stateAfter (fun s q => lib.handleQuery s q.1 q.2 (lib.rangeQuery q.1 q.2) true) st ((qs.drop i).take n)) := by
  induction n generalizing i st with
  | zero => rw [List.take_zero]; rfl
  | succ n ih =>
    rw [arfTrain, getR_map _ (show i < qs.length by omega), getR_map _ (show i < qs.length by omega), ok_bind, ok_bind,
      drop_take_succ (by omega)]
    exact ih (i + 1) _ (by omega)

theorem arfTrain_end (n i : Nat) (st : σ) (h1 : i ≤ qs.length) (h : qs.length < i + n) :
    arfTrain lib (qs.map Prod.fst) (qs.map Prod.snd) n i st = .error .oobRead := by
  induction n generalizing i st with
  | zero => omega
  | succ n ih =>
    rw [arfTrain]
    by_cases hi : i < qs.length
    · rw [getR_map _ hi, getR_map _ hi, ok_bind, ok_bind]
      exact ih (i + 1) _ (by omega) (by omega)
    · rw [getR_end _ (by omega)]
      rfl

theorem arfAnswers_ok (n i : Nat) (st : σ) (h : i + n ≤ qs.length) :
    arfAnswers lib (qs.map Prod.fst) (qs.map Prod.snd) n i st =
      .ok (Spec.answers (fun s q => lib.handleQuery s q.1 q.2 true false) st ((qs.drop i).take n)) := by
  induction n generalizing i st with
  | zero => rw [List.take_zero]; rfl
  | succ n ih =>
    rw [arfAnswers, getR_map _ (show i < qs.length by omega), getR_map _ (show i < qs.length by omega), ok_bind, ok_bind,
      drop_take_succ (by omega)]
    dsimp only
    rw [ih (i + 1) _ (by omega), ok_bind]
    rfl

theorem arfAnswers_end (n i : Nat) (st : σ) (h1 : i ≤ qs.length) (h : qs.length < i + n) :
    arfAnswers lib (qs.map Prod.fst) (qs.map Prod.snd) n i st = .error .oobRead := by
  induction n generalizing i st with
  | zero => omega
  | succ n ih =>
    rw [arfAnswers]
    by_cases hi : i < qs.length
    · rw [getR_map _ hi, getR_map _ hi, ok_bind, ok_bind]
      dsimp only
      rw [ih (i + 1) _ (by omega) (by omega)]
      rfl
    · rw [getR_end _ (by omega)]
      rfl

theorem arfTruth_ok (n i : Nat) (h : i + n ≤ qs.length) :
    arfTruth lib (qs.map Prod.fst) (qs.map Prod.snd) n i = .ok (((qs.drop i).take n).map fun q => lib.rangeQuery q.1 q.2) := by
  induction n generalizing i with
  | zero => rw [List.take_zero]; rfl
  | succ n ih =>
    rw [arfTruth, getR_map _ (show i < qs.length by omega), getR_map _ (show i < qs.length by omega), ok_bind, ok_bind,
      drop_take_succ (by omega)]
    rw [ih (i + 1) (by omega), ok_bind]
    rfl

omit lib qs in
theorem count_pairs (ans truth : List Bool) (hl : ans.length = truth.length) (h : ∀ x ∈ ans.zip truth, x.2 = true → x.1 = true) :
    ans.count true = truth.count true + (ans.zip truth).count (true, false) ∧
    truth.count false = (ans.zip truth).count (true, false) + (ans.zip truth).count (false, false) := by
  induction ans generalizing truth with
  | nil =>
    cases truth with
    | nil => exact ⟨rfl, rfl⟩
    | cons b truth => cases hl
  | cons a ans ih =>
    cases truth with
    | nil => cases hl
    | cons b truth =>
      obtain ⟨h1, h2⟩ := ih truth (by simpa using hl) fun x hx => h x (by rw [List.zip_cons_cons]; exact List.mem_cons_of_mem _ hx)
      have h0 := h (a, b) (by rw [List.zip_cons_cons]; exact List.mem_cons_self)
      rw [List.zip_cons_cons, List.count_cons, List.count_cons, List.count_cons, List.count_cons, List.count_cons]
      cases a <;> cases b
      · simp; omega
      · exact absurd (h0 rfl) (by decide)
      · simp; omega
      · simp; omega

omit lib qs in
theorem answers_length {τ β : Type} (h : τ → β → Bool × τ) (st : τ) (l : List β) : (Spec.answers h st l).length = l.length := by
  induction l generalizing st with
  | nil => rfl
  | cons q l ih => rw [Spec.answers, List.length_cons, List.length_cons, ih]

theorem arf_sizes : kTrainingSize ≤ kTxnSize ∧ kTxnSize - kTrainingSize ≠ 0 := by unfold kTrainingSize kTxnSize; omega

attribute [local irreducible] kTxnSize kTrainingSize

/-- C82: with at least 10000000 queries the program ends without undefined behaviour, whatever the library does.  `ans` are the answers of the filter
to the queries behind the first 2000000, after training with those, and `truth` those of the database.  If the filter misses nothing, positives, true
positives and false positives are printed correctly.  What is printed as true negatives is the number of all queries that should be answered `false`,
including those answered `true`, so that the rate is printed as f / (a + f) instead of f / a (f false positives, a absent), which is right for
f = 0 only.  Missing from C82: that the true negatives and the rate are right (`C82_refuted`), and shorter lists of queries (`C82_short_refuted`). -/
theorem C82_partial (range : Bool) (txn : List (BitVec 64)) (st : σ) (h : kTxnSize ≤ txn.length) :
    let qs := Spec.arfQueries range txn
    let asked := (qs.drop kTrainingSize).take (kTxnSize - kTrainingSize)
    let trained := lib.endTraining
      (Spec.stateAfter (fun s q => lib.handleQuery s q.1 q.2 (lib.rangeQuery q.1 q.2) true) st (qs.take kTrainingSize))
    let ans := Spec.answers (fun s q => lib.handleQuery s q.1 q.2 true false) trained asked
    let truth := asked.map fun q => lib.rangeQuery q.1 q.2
    ∃ r, runArf lib range txn st = .ok r ∧ asked.length = kTxnSize - kTrainingSize ∧ r.positives = ans.count true ∧
      r.tps = truth.count true ∧ r.tns = truth.count false ∧
      ((∀ x ∈ ans.zip truth, x.2 = true → x.1 = true) →
        r.fps = ((ans.zip truth).count (true, false) : Int) ∧
        r.tns = (ans.zip truth).count (false, false) + (ans.zip truth).count (true, false) ∧
        (truth.count false = 0 → r.rate = none) ∧
        (truth.count false ≠ 0 → ∃ q, r.rate = some q ∧
          q * ((truth.count false : Rat) + ((ans.zip truth).count (true, false) : Rat)) = ((ans.zip truth).count (true, false) : Rat) ∧
          (q * (truth.count false : Rat) = ((ans.zip truth).count (true, false) : Rat) ↔ (ans.zip truth).count (true, false) = 0))) := by
  intro qs asked trained ans truth
  have hsz := arf_sizes
  have hlen : (Spec.arfQueries range txn).length = txn.length := List.length_map _
  have hask : asked.length = kTxnSize - kTrainingSize := by
    show ((qs.drop kTrainingSize).take (kTxnSize - kTrainingSize)).length = _
    rw [List.length_take, List.length_drop, show qs.length = txn.length from hlen]
    omega
  refine ⟨arfReport ans truth, ?_, hask, rfl, rfl, rfl, fun hno => ?_⟩
  · unfold runArf
    rw [arfBounds_eq]
    dsimp only
    rw [arfTrain_ok lib _ _ _ _ (by omega), ok_bind, arfAnswers_ok lib _ _ _ _ (by omega), ok_bind,
      arfTruth_ok lib _ _ _ (by omega), ok_bind, List.drop_zero]
    rfl
  · have hl : ans.length = truth.length := by rw [answers_length, List.length_map]
    obtain ⟨h1, h2⟩ := count_pairs ans truth hl hno
    clear_value ans truth
    generalize (ans.zip truth).count (true, false) = f at *
    generalize (ans.zip truth).count (false, false) = g at *
    have hfps : ((ans.count true : Int) - (truth.count true : Int)) = (f : Int) := by omega
    unfold arfReport
    dsimp only
    rw [hfps, if_pos (by omega)]
    refine ⟨rfl, by omega, fun h0 => ?_, fun h0 => ?_⟩
    · rw [if_pos (by omega)]
    · rw [if_neg (by omega)]
      have hpos : (0 : Rat) < (truth.count false : Rat) := by exact_mod_cast Nat.pos_of_ne_zero h0
      have hf : (0 : Rat) ≤ (f : Rat) := by exact_mod_cast Nat.zero_le f
      have hne : (truth.count false : Rat) + (f : Rat) ≠ 0 := by linarith
      refine ⟨_, rfl, ?_, ?_⟩
      · push_cast
        rw [div_mul_cancel₀ _ hne]
      · push_cast
        rw [div_mul_eq_mul_div, div_eq_iff hne]
        constructor
        · intro e
          have : (f : Rat) * (f : Rat) = 0 := by linarith [mul_add (f : Rat) (truth.count false : Rat) (f : Rat)]
          have := mul_self_eq_zero.1 this
          exact_mod_cast this
        · intro e
          rw [e]; simp

/-- C82: with fewer queries the program reads behind the end of a vector, whatever the library does. -/
theorem C82_short_refuted (range : Bool) (txn : List (BitVec 64)) (st : σ) (h : txn.length < kTxnSize) :
    runArf lib range txn st = .error .oobRead := by
  have hsz := arf_sizes
  have hlen : (Spec.arfQueries range txn).length = txn.length := List.length_map _
  unfold runArf
  rw [arfBounds_eq]
  dsimp only
  by_cases h1 : kTrainingSize ≤ txn.length
  · rw [arfTrain_ok lib _ _ _ _ (by omega), ok_bind, arfAnswers_end lib _ _ _ _ (by omega) (by omega)]
    rfl
  · rw [arfTrain_end lib _ _ _ _ (by omega) (by omega)]
    rfl

/-! ## The rate is wrong -/

/-- A filter that answers everything with `true` on an empty database. -/
def yesLib : ArfLib Unit := ⟨fun _ _ => false, fun _ _ _ _ _ => (true, ()), id⟩

theorem yes_answers (st : Unit) (l : List (BitVec 64 × BitVec 64)) :
    Spec.answers (fun s q => yesLib.handleQuery s q.1 q.2 true false) st l = List.replicate l.length true := by
  induction l generalizing st with
  | nil => rfl
  | cons q l ih => rw [Spec.answers, ih, List.length_cons, List.replicate_succ]; rfl

/-- C82: all queries should be answered `false`, all are answered `true`, and the rate printed is one half.  As many true negatives are printed, though there
are none.  This instance also meets the hypotheses of `C82_partial`: 10000000 queries, and nothing is missed. -/
theorem C82_refuted : ∃ r, runArf yesLib false (List.replicate kTxnSize 0#64) () = .ok r ∧ r.positives = kTxnSize - kTrainingSize ∧
    r.tps = 0 ∧ r.fps = ((kTxnSize - kTrainingSize : Nat) : Int) ∧ r.tns = kTxnSize - kTrainingSize ∧ r.rate = some (1 / 2) := by
  obtain ⟨r, e, hlen, hp, htp, htn, hq⟩ := C82_partial yesLib false (List.replicate kTxnSize 0#64) () (by rw [List.length_replicate])
  rw [yes_answers, hlen] at hp hq
  have htruth : (((Spec.arfQueries false (List.replicate kTxnSize 0#64)).drop kTrainingSize).take (kTxnSize - kTrainingSize)).map
      (fun q => yesLib.rangeQuery q.1 q.2) = List.replicate (kTxnSize - kTrainingSize) false := by
    exact (List.map_const' (b := false)).trans (congrArg (List.replicate · false) hlen)
  rw [htruth] at htp htn hq
  have hsz := arf_sizes.2
  refine ⟨r, e, ?_⟩
  clear htruth hlen e
  generalize kTxnSize - kTrainingSize = n at *
  have hz : (List.replicate n true).zip (List.replicate n false) = List.replicate n (true, false) := by simp
  rw [hz] at hq
  have hc : (List.replicate n (true, false)).count (true, false) = n := List.count_replicate_self
  have hc2 : (List.replicate n false).count false = n := List.count_replicate_self
  rw [hc, hc2] at hq
  obtain ⟨h1, -, -, h2⟩ := hq fun x hx => by rw [List.eq_of_mem_replicate hx]; simp
  obtain ⟨q, h3, h4, -⟩ := h2 hsz
  refine ⟨by rw [hp, List.count_replicate_self], by rw [htp, List.count_replicate]; simp, h1, by rw [htn, hc2], ?_⟩
  rw [h3]
  have hn : (n : Rat) ≠ 0 := by exact_mod_cast hsz
  congr 1
  field_simp
  have : (n : Rat) * (q * 2) = (n : Rat) * 1 := by linarith
  exact mul_left_cancel₀ hn this

end Surf.Props
