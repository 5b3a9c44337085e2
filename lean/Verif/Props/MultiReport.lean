import Verif.Props.Report
import Mathlib.Tactic.Linarith
import Mathlib.Algebra.Order.Field.Rat

/-!
# The false positive rate printed by the benchmark with several threads (C83)
-/

set_option autoImplicit false
set_option maxRecDepth 1000000
set_option linter.unusedSectionVars false

namespace Spec

/-- What the benchmark with several threads prints about queries `ts`: all queries that should be answered `false` are called true negatives, also
those that were answered `true`; therefore the rate is f / (a + f), where `f` is the number of false positives and `a` that of the queries that
should be answered `false`. -/
structure MultiReport {α : Type} (ts : List α) (ans yes : α → Bool) (p tp : Nat) (fp tn : Int) (rate : Rat) : Prop where
  positives : p = (ts.filter ans).length
  truePositives : tp = (ts.filter yes).length
  falsePositives : fp = (ts.filter fun t => ans t && !yes t).length
  absent : tn = (ts.filter fun t => !yes t).length
  negatives : tn = (ts.filter fun t => !ans t && !yes t).length + (ts.filter fun t => ans t && !yes t).length
  printed : rate * (((ts.filter fun t => !yes t).length + (ts.filter fun t => ans t && !yes t).length : Nat) : Rat) =
    ((ts.filter fun t => ans t && !yes t).length : Nat)
  right : rate * (((ts.filter fun t => !yes t).length : Nat) : Rat) = ((ts.filter fun t => ans t && !yes t).length : Nat) ↔
    ∀ t ∈ ts, ans t = true → yes t = true
  noneWrong : (∀ t ∈ ts, ans t = true → yes t = true) → rate = 0

end Spec

namespace Surf.Props
open Surf Surf.Bench Trie

section
variable [Env] {cfg : Config} {ins : List Key}

theorem reportMulti_eq {α : Type} {ans yes : α → Bool} {ts : List α} (h : ∀ t ∈ ts, yes t = true → ans t = true)
    {range : Bool} {threads : Int} {o : SuRF} {qs ups : List Key} {sched : List Nat} (hl : qs.length = ts.length)
    (hp : multiPositives range threads o qs ups sched = .ok (ts.filter ans).length)
    (ht : (if range then multiRangeTrue ins qs ups else pointTrue ins qs) = (ts.filter yes).length) :
    ∃ r, reportMulti range threads o ins qs ups sched = .ok r ∧
      Spec.MultiReport ts ans yes r.positives r.truePositives r.falsePositives r.trueNegatives r.fpRate := by
  obtain ⟨i1, i2, i3⟩ := filter_four ans yes ts h
  have hnil : (ts.filter fun t => ans t && !yes t).length = 0 ↔ ∀ t ∈ ts, ans t = true → yes t = true := by
    rw [List.length_eq_zero_iff, List.filter_eq_nil_iff]
    refine forall_congr' fun t => forall_congr' fun _ => ?_
    cases ans t <;> cases yes t <;> decide
  have hfp : (((ts.filter ans).length : Int) - ((ts.filter yes).length : Int)) = (ts.filter fun t => ans t && !yes t).length := by omega
  have htn : ((ts.length : Int) - ((ts.filter yes).length : Int)) = (ts.filter fun t => !yes t).length := by omega
  unfold reportMulti
  rw [hp, ok_bind, ht, hl]
  dsimp only
  rw [hfp, htn, assertR_true (by simp), ok_bind]
  refine ⟨_, rfl, rfl, rfl, rfl, rfl, by dsimp only; omega, ?_, ?_, fun hw => ?_⟩ <;> dsimp only
  on_goal 3 => rw [← hnil] at hw; rw [hw]; rfl
  all_goals
    rw [← hnil] at *
    generalize (ts.filter fun t => ans t && !yes t).length = f at *
    generalize (ts.filter fun t => !yes t).length = a at *
    generalize (ts.filter fun t => !ans t && !yes t).length = g at *
    by_cases hf : f = 0
    · subst hf
      simp
    · rw [if_pos (by omega)]
      have hpos : (0 : Rat) < (f : Rat) := by exact_mod_cast Nat.pos_of_ne_zero hf
      have ha : (0 : Rat) ≤ (a : Rat) := by exact_mod_cast Nat.zero_le a
      have hne : (a : Rat) + (f : Rat) ≠ 0 := by linarith
      push_cast
      first
      | exact div_mul_cancel₀ _ hne
      | rw [div_mul_eq_mul_div, div_eq_iff hne]
        constructor
        · intro e
          have : (f : Rat) * (f : Rat) = 0 := by linarith [mul_add (f : Rat) (a : Rat) (f : Rat)]
          exact absurd (mul_self_eq_zero.1 this) (by linarith)
        · intro e
          exact absurd e hf

/-- C83 for point queries and any interleaving of the threads, when the number of threads divides that of the queries: positives, true positives and
false positives are right; what is wrong is the number of true negatives and the rate, unless there are no false positives.
Missing from C83: that these two are right (`C83_refuted`), other numbers of threads (`C57_refuted`), single keys that start with 0xFF. -/
theorem C83_partial (h : Setting cfg ins) (hs : Env.strict = false) (hff : ¬ Spec.SingleFF ins) :
    ∃ o, SuRF.create cfg ins = .ok o ∧ ∃ ans : Key → Bool, (∀ t, o.lookupKey t = .ok (ans t)) ∧
      ∀ (n : Nat) (ts : List Key) (sched : List Nat), 0 < n → (∀ i < n, 6 * (ts.length / n) ≤ sched.count i) → n ∣ ts.length →
        ∃ r, reportMulti false n o ins ts [] sched = .ok r ∧
          Spec.MultiReport ts ans (fun t => decide (t ∈ ins)) r.positives r.truePositives r.falsePositives r.trueNegatives r.fpRate := by
  obtain ⟨o, e, ans, ha, hm⟩ := C57_partial h hs hff
  obtain ⟨f, e', hk⟩ := C01_partial h hs hff
  have ho : o.filter = f := by
    unfold SuRF.create at e
    rw [e'] at e
    cases e; rfl
  refine ⟨o, e, ans, ha, fun n ts sched hn hsch hd => ?_⟩
  have hi : ∀ k ∈ ins, ans k = true := fun k hkm => by
    have h1 := ha k
    unfold SuRF.lookupKey at h1
    rw [ho, hk k hkm] at h1
    injection h1 with h1
    exact h1.symm
  refine reportMulti_eq (fun t _ ht => hi t (of_decide_eq_true ht)) rfl ?_ rfl
  rw [(hm n ts sched hn hsch).1, Nat.mul_div_cancel' hd, List.take_length]

open Classical in
/-- C83 for range queries of one thread, where a stored key strictly between the bounds makes `true` the right answer: the same.
Missing: ranges with a stored key at a bound, which the program counts as false positives (`C57_bound_refuted`), several threads
(`C57_range_refuted`), the queries excluded in `C08_partial`. -/
theorem C83_range_partial (h : Setting cfg ins) (hs : Env.strict = false) (hff : ¬ Spec.SingleFF ins) :
    ∃ o, SuRF.create cfg ins = .ok o ∧ ∀ (ts ups : List Key) (sched : List Nat), ts.length = ups.length → 6 * ts.length ≤ sched.count 0 →
      (∀ p ∈ ts.zip ups, GoodRange cfg ins o.filter.getSparseStartLevel p.1 p.2) →
      ∃ ans : Key × Key → Bool, (∀ p ∈ ts.zip ups, ∃ o', o.lookupRange p.1 true p.2 true = .ok (ans p, o')) ∧
        ∃ r, reportMulti true 1 o ins ts ups sched = .ok r ∧
          Spec.MultiReport (ts.zip ups) ans (fun p => decide (∃ k ∈ ins, p.1 < k ∧ k < p.2))
            r.positives r.truePositives r.falsePositives r.trueNegatives r.fpRate := by
  obtain ⟨o, e, hm⟩ := multi_parts h hs hff
  refine ⟨o, e, fun ts ups sched hl hsch hg => ?_⟩
  obtain ⟨ans, h1, h2, h3, h4⟩ := hm ts ups sched hl hsch hg
  exact ⟨ans, h1, reportMulti_eq (fun p hp hc => h2 p hp (of_decide_eq_true hc)) (by rw [List.length_zip]; omega) h3 h4⟩

end

/-- C83: two point queries of two threads, of which "bc\x01" is not stored and answered `true`: one true negative is printed although there is none, and the rate
is one half instead of 1 (`C81_point_partial` holds for the program without threads).  The hypotheses of `C83_partial` are met. -/
theorem C83_refuted : Setting cfgNone rgKeys ∧ ¬ Spec.SingleFF rgKeys ∧
    [98, 99] ∈ rgKeys ∧ [98, 99, 1] ∉ rgKeys ∧
    (∀ i < 2, 6 * (([[98, 99], [98, 99, 1]] : List Key).length / 2) ≤ (List.replicate 6 0 ++ List.replicate 6 1).count i) ∧
    (@SuRF.create Env.x86dbg cfgNone rgKeys >>= fun o =>
      @reportMulti Env.x86dbg false 2 o rgKeys [[98, 99], [98, 99, 1]] [] (List.replicate 6 0 ++ List.replicate 6 1)).map
      (fun r => (r.positives, r.truePositives, r.falsePositives, r.trueNegatives, r.fpRate == 1 / 2)) = .ok (2, 1, 1, 1, true) := by
  refine ⟨rgSetting.1, rgSetting.2.2, by decide, by decide, by decide +kernel, by decide +kernel⟩

end Surf.Props
