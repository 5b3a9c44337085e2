import Verif.Model.Report
import Verif.Props.Workload

/-!
# The false positive rate printed by the benchmark (C81)
-/

set_option autoImplicit false
set_option maxRecDepth 1000000
set_option linter.unusedSectionVars false

namespace Spec

/-- The report is right about queries `ts`, if `ans` are the answers and `yes` the queries that should be answered `true`:
positives and negatives are counted correctly, and the rate is the share of the answers `true` among the queries that should be answered `false`
(0 if there are none). -/
structure RightReport {α : Type} (ts : List α) (ans yes : α → Bool) (p tp : Nat) (fp tn : Int) (rate : Rat) : Prop where
  positives : p = (ts.filter ans).length
  truePositives : tp = (ts.filter yes).length
  falsePositives : fp = (ts.filter fun t => ans t && !yes t).length
  trueNegatives : tn = (ts.filter fun t => !ans t && !yes t).length
  share : rate * ((ts.filter fun t => !yes t).length : Int) = ((ts.filter fun t => ans t && !yes t).length : Int)
  noneAbsent : (∀ t ∈ ts, yes t = true) → rate = 0

end Spec

namespace Surf.Props
open Surf Surf.Bench Trie

theorem filter_four {α : Type} (ans yes : α → Bool) (ts : List α) (h : ∀ t ∈ ts, yes t = true → ans t = true) :
    (ts.filter ans).length = (ts.filter yes).length + (ts.filter fun t => ans t && !yes t).length ∧
    ts.length = (ts.filter ans).length + (ts.filter fun t => !ans t && !yes t).length ∧
    (ts.filter fun t => !yes t).length = (ts.filter fun t => ans t && !yes t).length + (ts.filter fun t => !ans t && !yes t).length := by
  induction ts with
  | nil => exact ⟨rfl, rfl, rfl⟩
  | cons t ts ih =>
    have h1 := h t List.mem_cons_self
    obtain ⟨i1, i2, i3⟩ := ih fun x hx => h x (List.mem_cons_of_mem _ hx)
    simp only [List.filter_cons]
    cases e1 : ans t <;> cases e2 : yes t
    · simp [e1, e2]; omega
    · rw [e1, e2] at h1; exact absurd (h1 rfl) (by decide)
    · simp [e1, e2]; omega
    · simp [e1, e2]; omega

section
variable [Env] {ins : List Key}

theorem report_right {α : Type} {ans yes : α → Bool} {ts : List α} (h : ∀ t ∈ ts, yes t = true → ans t = true) :
    ∃ r, report ts.length (ts.filter ans).length (ts.filter yes).length = .ok r ∧
      Spec.RightReport ts ans yes r.positives r.truePositives r.falsePositives r.trueNegatives r.fpRate := by
  obtain ⟨i1, i2, i3⟩ := filter_four ans yes ts h
  have hfp : (((ts.filter ans).length : Int) - ((ts.filter yes).length : Int)) = (ts.filter fun t => ans t && !yes t).length := by omega
  have htn : ((ts.length : Int) - ((ts.filter ans).length : Int)) = (ts.filter fun t => !ans t && !yes t).length := by omega
  unfold report
  dsimp only
  rw [hfp, htn, assertR_true (by simp), ok_bind]
  refine ⟨_, rfl, rfl, rfl, rfl, rfl, ?_, ?_⟩
  · dsimp only
    rw [i3]
    split
    · rename_i hpos
      have hne : ((((ts.filter fun t => !ans t && !yes t).length : Int) + ((ts.filter fun t => ans t && !yes t).length : Int) : Int) : Rat) ≠ 0 := by
        have : (((ts.filter fun t => !ans t && !yes t).length : Int) + ((ts.filter fun t => ans t && !yes t).length : Int)) ≠ 0 := by omega
        exact_mod_cast this
      have e : ((((ts.filter fun t => ans t && !yes t).length + (ts.filter fun t => !ans t && !yes t).length : Nat) : Int) : Rat) =
          ((((ts.filter fun t => !ans t && !yes t).length : Int) + ((ts.filter fun t => ans t && !yes t).length : Int) : Int) : Rat) := by
        rw [Nat.add_comm]; push_cast; rfl
      rw [e]
      exact Rat.div_mul_cancel hne
    · rename_i hpos
      have : (ts.filter fun t => ans t && !yes t).length = 0 := by omega
      rw [this]; simp
  · intro hall
    dsimp only
    have : (ts.filter fun t => ans t && !yes t) = [] := by
      rw [List.filter_eq_nil_iff]
      intro t ht
      rw [hall t ht]; simp
    rw [this]
    rfl

/-- C81 for point queries: all numbers printed are right, and the rate is the share of the absent keys that are answered `true`.
For all filter types; SuRF filters of a single key that starts with 0xFF are excepted. -/
theorem C81_point_partial (ft : String) (sl : Nat) (hs : Env.strict = false)
    (h : (ft = "Bloom" ∧ ins.length < 2 ^ 31) ∨ (ft ≠ "Bloom" ∧ Setting (configOf ft sl) ins ∧ ¬ Spec.SingleFF ins)) :
    ∃ (flt : Flt) (ans : Key → Bool), mkFilter ft sl ins = .ok flt ∧ (∀ t, flt.lookup t = .ok (ans t)) ∧
      ∀ ts, ∃ r, reportPoint flt ins ts = .ok r ∧
        Spec.RightReport ts ans (fun t => decide (t ∈ ins)) r.positives r.truePositives r.falsePositives r.trueNegatives r.fpRate := by
  obtain ⟨flt, ans, e, ha, hi, -⟩ := C46 ft sl hs h
  refine ⟨flt, ans, e, ha, fun ts => ?_⟩
  unfold reportPoint
  rw [pointPositives_ok ha, ok_bind]
  exact report_right fun t _ ht => hi t (of_decide_eq_true ht)

open Classical in
/-- C81 for range queries: the same, where `Hit` says that a stored key is in the range.
Missing: ranges whose upper bound is a stored key (`C81_bound_refuted`), the queries excluded in `C08_partial`, Bloom filters. -/
theorem C81_range_partial (ft : String) (sl : Nat) (hs : Env.strict = false) (hne : ft ≠ "Bloom") (h : Setting (configOf ft sl) ins)
    (hff : ¬ Spec.SingleFF ins) :
    ∃ o, mkFilter ft sl ins = .ok (.surf o) ∧
      ∀ (kt : KeyType) (ts : List Key) (up : Key → Key), (∀ t ∈ ts, GoodTxn (configOf ft sl) ins o.filter.getSparseStartLevel kt t (up t)) →
        ∃ ans : Key → Bool, (∀ t ∈ ts, ∃ o', Flt.lookupRange (.surf o) t (up t) = .ok (ans t, o')) ∧
          ∃ r, reportRange kt (.surf o) ins ts = .ok r ∧
            Spec.RightReport ts ans (fun t => decide (Hit ins t (up t))) r.positives r.truePositives r.falsePositives r.trueNegatives r.fpRate := by
  obtain ⟨o, e, hq⟩ := range_parts ft sl hs hne h hff
  refine ⟨o, e, fun kt ts up hg => ?_⟩
  obtain ⟨ans, h1, hhit, ⟨flt, ep⟩, et, -⟩ := hq kt ts up hg
  refine ⟨ans, h1, ?_⟩
  unfold reportRange
  rw [ep, ok_bind]
  dsimp only
  rw [et, ok_bind]
  exact report_right fun t ht hc => hhit t ht (of_decide_eq_true hc)

open Classical in
/-- C81 for mixed queries: point queries at even places, range queries at odd ones.  Missing: the same as for range queries. -/
theorem C81_mix_partial (ft : String) (sl : Nat) (hs : Env.strict = false) (hne : ft ≠ "Bloom") (h : Setting (configOf ft sl) ins)
    (hff : ¬ Spec.SingleFF ins) :
    ∃ o, mkFilter ft sl ins = .ok (.surf o) ∧
      ∀ (kt : KeyType) (ts : List Key) (up : Key → Key),
        (∀ t i, ts[i]? = some t → i % 2 = 1 → GoodTxn (configOf ft sl) ins o.filter.getSparseStartLevel kt t (up t)) →
        ∃ pt rg : Key → Bool, (∀ t, Flt.lookup (.surf o) t = .ok (pt t)) ∧
          (∀ t i, ts[i]? = some t → i % 2 = 1 → ∃ o', Flt.lookupRange (.surf o) t (up t) = .ok (rg t, o')) ∧
          ∃ r, reportMix kt (.surf o) ins ts = .ok r ∧
            Spec.RightReport ts.zipIdx (fun x => if x.2 % 2 = 0 then pt x.1 else rg x.1)
              (fun x => if x.2 % 2 = 0 then decide (x.1 ∈ ins) else decide (Hit ins x.1 (up x.1)))
              r.positives r.truePositives r.falsePositives r.trueNegatives r.fpRate := by
  obtain ⟨o, e, hq⟩ := mix_parts ft sl hs hne h hff
  refine ⟨o, e, fun kt ts up hg => ?_⟩
  obtain ⟨pt, rg, h1, h2, h3, ⟨flt, ep⟩, et, -⟩ := hq kt ts up hg
  refine ⟨pt, rg, h1, h2, ?_⟩
  unfold reportMix
  rw [ep, ok_bind]
  dsimp only
  rw [et, ok_bind, ← List.length_zipIdx (l := ts) (i := 0)]
  exact report_right h3

end

/-! ## Examples -/

/-- The hypotheses hold for four integers and 8 real suffix bits (`C47_example`). -/
example : Setting (configOf "SuRFReal" 8) (exInts.map uint64ToString) ∧ ¬ Spec.SingleFF (exInts.map uint64ToString) :=
  ⟨C47_example.2.1, C47_example.2.2.1⟩

/-- One false positive of two absent keys, one of them answered `false`, and one key found: the rate is 1/2. -/
theorem report_example : (@mkFilter Env.x86 "SuRF" 0 [[97], [98]] >>= fun f => @reportPoint Env.x86 f [[97], [98]] [[97], [97, 97], [99]]).map
    (fun r => (r.positives, r.truePositives, r.falsePositives, r.trueNegatives, r.fpRate * 2 == 1)) = .ok (2, 1, 1, 1, true) := by decide +kernel

/-- C81 for ranges whose upper bound is a stored key: no query should be answered `false`, but the rate is 1 (`C47_bound_refuted`). -/
theorem C81_bound_refuted : getUpperBoundKey .int (uint64ToString 5#64) = .ok (uint64ToString 92233697316#64) ∧
    uint64ToString 92233697316#64 ∈ boundInts ∧
    (@mkFilter Env.x86dbg "SuRFReal" 8 boundInts >>= fun f => @reportRange Env.x86dbg .int f boundInts [uint64ToString 5#64]).map
      (fun r => (r.truePositives, r.falsePositives, r.fpRate == 1)) = .ok (0, 1, true) := by
  refine ⟨by decide +kernel, by decide +kernel, by decide +kernel⟩

/-- C81 for the count workloads, which have no positives: every query is printed as a true negative, also that of a stored key. -/
theorem C81_count_refuted : (@reportCount Env.x86 [[97]]).map (fun r => (r.positives, r.trueNegatives)) = .ok (0, 1) := by decide +kernel

end Surf.Props
