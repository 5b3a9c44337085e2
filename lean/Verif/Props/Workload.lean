import Verif.Model.Workload
import Verif.Props.Bench
import Verif.Props.Threads

/-!
# The benchmark programs: threads, arguments, mixed queries, long counts (C57, C60, C61, C49)
-/

set_option linter.unusedSectionVars false
set_option autoImplicit false
set_option maxRecDepth 1000000

namespace Surf.Props
open Surf Surf.Bench Trie

section
variable [Env] {cfg : Config} {ins : List Key}

/-! ## C57: the program with several threads -/

theorem exec_length (is : List Nat) {o o' : SuRF} {ts ts' : List Thread} (h : execThreads o ts is = .ok (o', ts')) : ts'.length = ts.length := by
  induction is generalizing o ts with
  | nil => cases h; rfl
  | cons i is ih =>
    unfold execThreads at h
    cases ht : ts[i]? with
    | none => rw [ht] at h; exact ih h
    | some t =>
      rw [ht] at h
      dsimp only at h
      cases e : tstep o t with
      | error x => rw [e] at h; cases h
      | ok x =>
        rw [e, ok_bind] at h
        rw [ih h, List.length_set]

omit [Env] in
/-- Equal shares, one behind the other. -/
theorem shares (p : Key → Bool) (ts : List Key) (q n : Nat) :
    ((List.range n).map fun i => (((ts.drop (q * i)).take (q * (i + 1) - q * i)).filter p).length).sum = ((ts.take (n * q)).filter p).length := by
  induction n with
  | zero => simp
  | succ n ih =>
    rw [List.range_succ, List.map_append, List.sum_append, ih, Nat.succ_mul, List.take_add, List.filter_append, List.length_append, Nat.mul_comm n q]
    simp [Nat.mul_succ]

theorem mapM_lookups {o : SuRF} {ans : Key → Bool} (h : ∀ t, o.lookupKey t = .ok (ans t)) (ts : List Key) :
    ((ts.map Call.lookup).mapM fun c => Prod.fst <$> call o c) = .ok (ts.map fun t => Answer.bool (ans t)) := by
  induction ts with
  | nil => rfl
  | cons t ts ih =>
    rw [List.map_cons, List.mapM_cons, ih, call, h]
    rfl

omit [Env] in
theorem count_answers (ans : Key → Bool) (ts : List Key) :
    (ts.map fun t => Answer.bool (ans t)).count (.bool true) = (ts.filter ans).length := by
  induction ts with
  | nil => rfl
  | cons t ts ih =>
    rw [List.map_cons, List.count_cons, ih, List.filter_cons]
    cases h : ans t
    · simp
    · simp

/-- Point queries of `n` threads on one filter: in every order of their steps in which all threads come to an end, the sum of their positives is the number of positive
answers among the first `n * (number of queries / n)` queries.  If `n` divides the number of queries it is the number the program with one
thread gets.  Missing from C57: the queries that are left over (`C57_refuted`), range queries (`C57_range_refuted`). -/
theorem C57_partial (h : Setting cfg ins) (hs : Env.strict = false) (hff : ¬ Spec.SingleFF ins) :
    ∃ o, SuRF.create cfg ins = .ok o ∧ ∃ ans : Key → Bool, (∀ t, o.lookupKey t = .ok (ans t)) ∧
      ∀ (n : Nat) (ts : List Key) (sched : List Nat), 0 < n → (∀ i < n, 6 * (ts.length / n) ≤ sched.count i) →
        multiPositives false n o ts [] sched = .ok ((ts.take (n * (ts.length / n))).filter ans).length ∧
        (n ∣ ts.length → multiPositives false n o ts [] sched = pointPositives (.surf o) ts) := by
  obtain ⟨o, e, h42⟩ := C42_partial h hs
  obtain ⟨f, e', hl⟩ := h.lookup hs hff
  have ho : o.filter = f := by
    unfold SuRF.create at e
    rw [e'] at e
    cases e; rfl
  have hans : ∀ t, ∃ r, o.lookupKey t = .ok r := fun t => by
    obtain ⟨r, e1, -⟩ := hl t
    refine ⟨r, ?_⟩
    unfold SuRF.lookupKey
    rw [ho, e1]
  choose ans ha using hans
  refine ⟨o, e, ans, ha, fun n ts sched hn hsch => ?_⟩
  have key : multiPositives false n o ts [] sched = .ok ((ts.take (n * (ts.length / n))).filter ans).length := by
    generalize hq : ts.length / n = q at *
    have hargs : threadArgs (n : Int) ts.length = .ok ((List.range n).map fun i => (q * i, q * (i + 1))) := by
      unfold threadArgs
      rw [if_neg (by omega), if_neg (by omega), Int.toNat_natCast, hq]
    unfold multiPositives
    rw [hargs, ok_bind]
    generalize hcss : ((List.range n).map fun i => (q * i, q * (i + 1))).map (threadCalls false ts []) = css
    have hget : ∀ i cs, css[i]? = some cs → i < n ∧ cs = ((ts.drop (q * i)).take (q * (i + 1) - q * i)).map .lookup := by
      intro i cs hi
      rw [← hcss, List.getElem?_map, List.getElem?_map] at hi
      by_cases hin : i < n
      · rw [List.getElem?_range hin] at hi
        cases hi
        exact ⟨hin, rfl⟩
      · rw [List.getElem?_eq_none (by simp; omega)] at hi
        cases hi
    have hlen : css.length = n := by rw [← hcss]; simp
    obtain ⟨h1, h2⟩ := h42 css n (fun i cs hi _ c hc => by
      obtain ⟨-, rfl⟩ := hget i cs hi
      rw [List.mem_map] at hc
      obtain ⟨t, -, rfl⟩ := hc
      rfl) sched
    cases hex : execThreads o (css.map Thread.new) sched with
    | error x =>
      obtain ⟨cs, hcs, hx⟩ := h1 x hex
      obtain ⟨i, hi⟩ := List.getElem?_of_mem hcs
      obtain ⟨-, rfl⟩ := hget i cs hi
      rw [mapM_lookups ha] at hx
      cases hx
    | ok x =>
      obtain ⟨o', ts'⟩ := x
      rw [ok_bind]
      dsimp only
      have hl' := exec_length sched hex
      rw [List.length_map, hlen] at hl'
      have hmap : ts'.map threadPositives = (List.range n).map fun i => (((ts.drop (q * i)).take (q * (i + 1) - q * i)).filter ans).length := by
        refine List.ext_getElem? fun i => ?_
        rw [List.getElem?_map, List.getElem?_map]
        by_cases hin : i < n
        · have hci : ∃ cs, css[i]? = some cs := ⟨css[i], List.getElem?_eq_getElem (by omega)⟩
          obtain ⟨cs, hci⟩ := hci
          obtain ⟨t, ht, ho'⟩ := h2 o' ts' hex i cs hci
          obtain ⟨-, rfl⟩ := hget i cs hci
          obtain ⟨-, hout⟩ := ho' _ (mapM_lookups ha _)
          rw [ht, List.getElem?_range hin]
          dsimp only [Option.map_some]
          unfold threadPositives
          rw [hout, count_answers]
          have := hsch i hin
          have hle : (((ts.drop (q * i)).take (q * (i + 1) - q * i)).map Call.lookup).length ≤ q := by
            rw [List.length_map, List.length_take, Nat.mul_succ]
            omega
          omega
        · rw [List.getElem?_eq_none (by omega), List.getElem?_eq_none (by simp; omega)]
          rfl
      show Except.ok _ = _
      rw [hmap, shares]
  refine ⟨key, fun hd => ?_⟩
  rw [key, pointPositives_ok (flt := .surf o) ha, Nat.mul_div_cancel' hd, List.take_length]

theorem mapM_ranges {o : SuRF} (ps : List (Key × Key)) {as : List Bool}
    (h : (ps.mapM fun p => Prod.fst <$> o.lookupRange p.1 true p.2 true) = .ok as) :
    ((ps.map fun p => Call.range p.1 true p.2 true).mapM fun c => Prod.fst <$> call o c) = .ok (as.map Answer.bool) := by
  induction ps generalizing as with
  | nil => cases h; rfl
  | cons p ps ih =>
    rw [List.mapM_cons] at h
    cases h1 : o.lookupRange p.1 true p.2 true with
    | error e => rw [h1] at h; cases h
    | ok x =>
      rw [h1] at h
      cases h2 : (ps.mapM fun p => Prod.fst <$> o.lookupRange p.1 true p.2 true) with
      | error e => rw [h2] at h; cases h
      | ok bs =>
        rw [h2] at h
        cases h
        rw [List.map_cons, List.mapM_cons, ih h2, call, h1]
        rfl

/-- Range queries of one thread: when it comes to an end, its positives are the queries that an object just built answers `true`, with both
bounds included. -/
theorem C57_one_partial (h : Setting cfg ins) (hs : Env.strict = false) :
    ∃ o, SuRF.create cfg ins = .ok o ∧ ∀ (ts ups : List Key) (sched : List Nat) (as : List Bool), ts.length = ups.length →
      6 * ts.length ≤ sched.count 0 →
      ((ts.zip ups).mapM fun p => Prod.fst <$> o.lookupRange p.1 true p.2 true) = .ok as →
      multiPositives true 1 o ts ups sched = .ok (as.count true) := by
  obtain ⟨o, e, h42⟩ := C42_partial h hs
  refine ⟨o, e, fun ts ups sched as hl hsch ha => ?_⟩
  have hargs : threadArgs (1 : Int) ts.length = .ok [(0, ts.length)] := by
    unfold threadArgs
    rw [if_neg (by omega), if_neg (by omega)]
    simp
  have hc : threadCalls true ts ups (0, ts.length) = (ts.zip ups).map fun p => Call.range p.1 true p.2 true := by
    unfold threadCalls
    rw [if_pos rfl, List.drop_zero, List.take_of_length_le (by simp)]
  have hm := mapM_ranges _ ha
  unfold multiPositives
  rw [hargs, ok_bind, List.map_cons, List.map_nil, hc]
  obtain ⟨h1, h2⟩ := h42 [(ts.zip ups).map fun p => Call.range p.1 true p.2 true] 0 (fun i cs hi h0 => by
    rw [List.getElem?_eq_none (by simp; omega)] at hi
    cases hi) sched
  cases hex : execThreads o ([(ts.zip ups).map fun p => Call.range p.1 true p.2 true].map Thread.new) sched with
  | error x =>
    obtain ⟨cs, hcs, hx⟩ := h1 x hex
    rw [List.mem_singleton] at hcs
    subst hcs
    rw [hm] at hx
    cases hx
  | ok x =>
    obtain ⟨o', ts'⟩ := x
    obtain ⟨t, ht, ho'⟩ := h2 o' ts' hex 0 _ rfl
    have hlen := exec_length sched hex
    have hout := (ho' _ hm).2 (by rw [List.length_map, List.length_zip, ← hl, Nat.min_self]; exact hsch)
    rw [ok_bind]
    match ts', hlen, ht with
    | [t'], _, ht =>
      cases ht
      have hc : ∀ l : List Bool, (l.map Answer.bool).count (.bool true) = l.count true := by
        intro l
        induction l with
        | nil => rfl
        | cons b l ih => rw [List.map_cons, List.count_cons, List.count_cons, ih]; cases b <;> rfl
      show Except.ok (threadPositives t + 0) = _
      unfold threadPositives
      rw [hout, Nat.add_zero, hc]

omit [Env] in
theorem filter_split' {α : Type} (p q : α → Bool) (ts : List α) (hpq : ∀ t ∈ ts, q t = true → p t = true) :
    (ts.filter p).length = (ts.filter q).length + (ts.filter fun t => p t && !q t).length := by
  induction ts with
  | nil => rfl
  | cons t ts ih =>
    have ih := ih fun x hx => hpq x (by simp [hx])
    rw [List.filter_cons, List.filter_cons, List.filter_cons]
    cases hq : q t
    · cases hp : p t <;> simp [ih]; omega
    · rw [hpq t (by simp) hq]; simp [ih]; omega

open Classical in
/-- Point queries, a number of threads that divides the number of queries: the program prints as false positives the number of queries answered `true` for
keys that were not inserted, and its assertion does not fail. -/
theorem C57_false_partial (h : Setting cfg ins) (hs : Env.strict = false) (hff : ¬ Spec.SingleFF ins) :
    ∃ o, SuRF.create cfg ins = .ok o ∧ ∃ ans : Key → Bool, (∀ t, o.lookupKey t = .ok (ans t)) ∧
      ∀ (n : Nat) (ts : List Key) (sched : List Nat), 0 < n → (∀ i < n, 6 * (ts.length / n) ≤ sched.count i) → n ∣ ts.length →
        runMulti false n o ins ts [] sched = .ok ((ts.filter fun t => ans t && decide (t ∉ ins)).length : Int) := by
  obtain ⟨o, e, ans, ha, hm⟩ := C57_partial h hs hff
  obtain ⟨f, e', hk⟩ := C01_partial h hs hff
  have ho : o.filter = f := by
    unfold SuRF.create at e
    rw [e'] at e
    cases e; rfl
  refine ⟨o, e, ans, ha, fun n ts sched hn hsch hd => ?_⟩
  have hi : ∀ k ∈ ins, ans k = true := fun k hkm => by
    have h1 := ha k
    unfold SuRF.lookupKey at h1
    rw [ho, hk k hkm] at h1
    injection h1 with h1
    exact h1.symm
  have h1 := runPoint_ok (flt := .surf o) ha hi ts
  unfold runPoint at h1
  unfold runMulti
  rw [(hm n ts sched hn hsch).2 hd]
  exact h1

omit [Env] in
theorem firstAbove_lt (hsort : ins.Pairwise (· ≤ ·)) (t u : Key) :
    (match ins.find? fun k => decide (t < k) with | some k => decide (k < u) | none => false) = true ↔ ∃ k ∈ ins, t < k ∧ k < u := by
  cases h : ins.find? fun k => decide (t < k) with
  | none =>
    rw [List.find?_eq_none] at h
    simp only [Bool.false_eq_true, false_iff, not_exists, not_and]
    intro k hk hle
    have := h k hk
    simp [hle] at this
  | some k =>
    dsimp only
    rw [decide_eq_true_iff]
    obtain ⟨hp, as, bs, rfl, hno⟩ := List.find?_eq_some_iff_append.1 h
    have hle : t < k := of_decide_eq_true hp
    constructor
    · intro hlt
      exact ⟨k, by simp, hle, hlt⟩
    · rintro ⟨x, hx, h1, h2⟩
      rcases List.mem_append.1 hx with hx | hx
      · have := hno x hx
        simp [h1] at this
      · rcases List.mem_cons.1 hx with rfl | hx
        · exact h2
        · have := (List.pairwise_append.1 hsort).2.1
          have := List.rel_of_pairwise_cons this hx
          rcases key_le this with h3 | rfl
          · rw [← w_lt] at h2 h3 ⊢
            exact lt_trans h3 h2
          · exact h2

omit [Env] in
theorem multiRangeTrue_eq (hsort : ins.Pairwise (· ≤ ·)) (tr : Key × Key → Bool) (htr : ∀ p, tr p = true ↔ ∃ k ∈ ins, p.1 < k ∧ k < p.2)
    (ts ups : List Key) : multiRangeTrue ins ts ups = ((ts.zip ups).filter tr).length := by
  unfold multiRangeTrue
  exact congrArg List.length (List.filter_congr fun p _ => Bool.eq_iff_iff.2 ((firstAbove_lt hsort p.1 p.2).trans (htr p).symm))

/-- A range query that works (the conditions of `C08_partial`). -/
structure GoodRange (cfg : Config) (ins : List Key) (s : Nat) (t : Key) (u : Key) : Prop where
  ne : t ≠ []
  len : u.length < 2 ^ 64
  safe : Spec.SeekSafe ins s t
  sl : Suffixes cfg ins t
  sr : Suffixes cfg ins u
  long : cfg.suffixType = .kReal ∨ cfg.suffixType = .kMixed → Spec.LongEnough ins s t

open Classical in
/-- Range queries of one thread, internally: the answers and the two numbers. -/
theorem multi_parts (h : Setting cfg ins) (hs : Env.strict = false) (hff : ¬ Spec.SingleFF ins) :
    ∃ o, SuRF.create cfg ins = .ok o ∧ ∀ (ts ups : List Key) (sched : List Nat), ts.length = ups.length → 6 * ts.length ≤ sched.count 0 →
      (∀ p ∈ ts.zip ups, GoodRange cfg ins o.filter.getSparseStartLevel p.1 p.2) →
      ∃ ans : Key × Key → Bool, (∀ p ∈ ts.zip ups, ∃ o', o.lookupRange p.1 true p.2 true = .ok (ans p, o')) ∧
        (∀ p ∈ ts.zip ups, (∃ k ∈ ins, p.1 < k ∧ k < p.2) → ans p = true) ∧
        multiPositives true 1 o ts ups sched = .ok ((ts.zip ups).filter ans).length ∧
        multiRangeTrue ins ts ups = ((ts.zip ups).filter fun p => decide (∃ k ∈ ins, p.1 < k ∧ k < p.2)).length := by
  obtain ⟨o, e, hm⟩ := C57_one_partial h hs
  obtain ⟨f, e', h8⟩ := C08_partial h hs hff
  rw [e] at e'
  cases e'
  refine ⟨_, e, fun ts ups sched hl hsch hg => ?_⟩
  have hans : ∀ p : Key × Key, ∃ r, p ∈ ts.zip ups → ∃ o', SuRF.lookupRange ⟨f, Iter.new f, Iter.new f⟩ p.1 true p.2 true = .ok (r, o') ∧
      ((∃ k ∈ ins, Spec.InRange p.1 true p.2 true k) → r = true) := by
    intro p
    by_cases hp : p ∈ ts.zip ups
    · have g := hg p hp
      obtain ⟨r, o', e1, h1⟩ := h8 p.1 true p.2 true (Or.inl g.ne) g.len g.safe g.sl g.sr g.long
      exact ⟨r, fun _ => ⟨o', e1, h1⟩⟩
    · exact ⟨false, fun hc => absurd hc hp⟩
  choose ans ha using hans
  refine ⟨ans, fun p hp => ?_, ?_⟩
  · obtain ⟨o', e1, -⟩ := ha p hp
    exact ⟨o', e1⟩
  have hmap : ∀ ps : List (Key × Key), (∀ p ∈ ps, p ∈ ts.zip ups) →
      (ps.mapM fun p => Prod.fst <$> SuRF.lookupRange ⟨f, Iter.new f, Iter.new f⟩ p.1 true p.2 true) = .ok (ps.map ans) := by
    intro ps
    induction ps with
    | nil => intro _; rfl
    | cons p ps ih =>
      intro hp
      obtain ⟨o', e1, -⟩ := ha p (hp p (by simp))
      rw [List.mapM_cons, e1, ih fun x hx => hp x (by simp [hx])]
      rfl
  have hpos := hm ts ups sched (ts.zip ups |>.map ans) hl hsch (hmap _ fun _ hp => hp)
  have hcount : ∀ ps : List (Key × Key), (ps.map ans).count true = (ps.filter ans).length := by
    intro ps
    induction ps with
    | nil => rfl
    | cons p ps ih => rw [List.map_cons, List.count_cons, ih, List.filter_cons]; cases ans p <;> simp
  rw [hcount] at hpos
  refine ⟨fun p hp => ?_, hpos, multiRangeTrue_eq h.valid.sorted _ (fun p => decide_eq_true_iff) _ _⟩
  rintro ⟨k, hk, h2, h3⟩
  obtain ⟨o', -, h1⟩ := ha p hp
  exact h1 ⟨k, hk, Or.inl h2, Or.inl h3⟩

open Classical in
/-- Range queries of one thread: the program prints as false positives the number of queries answered `true` although no stored key lies strictly between the bounds,
and its assertion does not fail.  So it prints too many exactly when a stored key is a bound of a range and no other one is inside (`C57_bound_refuted`). -/
theorem C57_one_false_partial (h : Setting cfg ins) (hs : Env.strict = false) (hff : ¬ Spec.SingleFF ins) :
    ∃ o, SuRF.create cfg ins = .ok o ∧ ∀ (ts ups : List Key) (sched : List Nat), ts.length = ups.length → 6 * ts.length ≤ sched.count 0 →
      (∀ p ∈ ts.zip ups, GoodRange cfg ins o.filter.getSparseStartLevel p.1 p.2) →
      ∃ ans : Key × Key → Bool, (∀ p ∈ ts.zip ups, ∃ o', o.lookupRange p.1 true p.2 true = .ok (ans p, o')) ∧
        runMulti true 1 o ins ts ups sched =
          .ok (((ts.zip ups).filter fun p => ans p && decide (¬ ∃ k ∈ ins, p.1 < k ∧ k < p.2)).length : Int) := by
  obtain ⟨o, e, hm⟩ := multi_parts h hs hff
  refine ⟨o, e, fun ts ups sched hl hsch hg => ?_⟩
  obtain ⟨ans, h1, hhit, hpos, htrue⟩ := hm ts ups sched hl hsch hg
  refine ⟨ans, h1, ?_⟩
  unfold runMulti
  rw [hpos, ok_bind, if_pos rfl]
  dsimp only
  rw [htrue]
  have hsplit := filter_split' ans (fun p => decide (∃ k ∈ ins, p.1 < k ∧ k < p.2)) (ts.zip ups) fun p hp hq => hhit p hp (of_decide_eq_true hq)
  have hfc : ((ts.zip ups).filter fun p => ans p && decide (¬ ∃ k ∈ ins, p.1 < k ∧ k < p.2)) =
      (ts.zip ups).filter fun p => ans p && !decide (∃ k ∈ ins, p.1 < k ∧ k < p.2) :=
    List.filter_congr fun p _ => by rw [decide_not]
  rw [hfc, hsplit, assertR_true (by simp), ok_bind]
  change Except.ok _ = _
  congr 1
  push_cast
  ring

/-! ## C61: mixed queries -/

open Classical in
/-- The mixed workload, internally: the answers, the two numbers and their difference. -/
theorem mix_parts (ft : String) (sl : Nat) (hs : Env.strict = false) (hne : ft ≠ "Bloom") (h : Setting (configOf ft sl) ins)
    (hff : ¬ Spec.SingleFF ins) :
    ∃ o, mkFilter ft sl ins = .ok (.surf o) ∧
      ∀ (kt : KeyType) (ts : List Key) (up : Key → Key),
        (∀ t i, ts[i]? = some t → i % 2 = 1 → GoodTxn (configOf ft sl) ins o.filter.getSparseStartLevel kt t (up t)) →
        ∃ pt rg : Key → Bool, (∀ t, Flt.lookup (.surf o) t = .ok (pt t)) ∧
          (∀ t i, ts[i]? = some t → i % 2 = 1 → ∃ o', Flt.lookupRange (.surf o) t (up t) = .ok (rg t, o')) ∧
          (∀ x ∈ ts.zipIdx, (if x.2 % 2 = 0 then decide (x.1 ∈ ins) else decide (Hit ins x.1 (up x.1))) = true →
            (if x.2 % 2 = 0 then pt x.1 else rg x.1) = true) ∧
          (∃ flt, mixPositives kt true (.surf o) ts = .ok ((ts.zipIdx.filter fun x => if x.2 % 2 = 0 then pt x.1 else rg x.1).length, flt)) ∧
          mixTrue kt ins true ts = .ok (ts.zipIdx.filter fun x => if x.2 % 2 = 0 then decide (x.1 ∈ ins) else decide (Hit ins x.1 (up x.1))).length ∧
          runMix kt (.surf o) ins ts = .ok ((ts.zipIdx.filter fun x =>
            if x.2 % 2 = 0 then pt x.1 && decide (x.1 ∉ ins) else rg x.1 && decide (¬ Hit ins x.1 (up x.1))).length : Int) := by
  obtain ⟨f, e, h8⟩ := C08_partial h hs hff
  obtain ⟨f', s, e', hr', hp'⟩ := h.create hs hff
  have hfe : f' = f := by
    unfold SuRF.create at e
    rw [e'] at e
    cases e; rfl
  subst hfe
  have hnav := hr'.navAll hs
  obtain ⟨f2, e2, hl⟩ := h.lookup hs hff
  obtain ⟨f3, e3, hk⟩ := C01_partial h hs hff
  rw [e'] at e2 e3
  cases e2
  cases e3
  have hpt : ∀ t, ∃ r, f'.lookupKey t = .ok r := fun t => by
    obtain ⟨r, e1, -⟩ := hl t
    exact ⟨r, e1⟩
  choose pt hpt using hpt
  have hpi : ∀ k ∈ ins, pt k = true := fun k hkm => by
    have := hpt k
    rw [hk k hkm] at this
    exact (Except.ok.inj this).symm
  refine ⟨⟨f', Iter.new f', Iter.new f'⟩, by unfold mkFilter; rw [if_neg hne, e]; rfl, fun kt ts up hg => ?_⟩
  have hrg : ∀ t, ∃ r, (∃ i, ts[i]? = some t ∧ i % 2 = 1) → ∃ o', SuRF.lookupRange ⟨f', Iter.new f', Iter.new f'⟩ t true (up t) true = .ok (r, o') ∧
      (Hit ins t (up t) → r = true) := by
    intro t
    by_cases ht : ∃ i, ts[i]? = some t ∧ i % 2 = 1
    · obtain ⟨i, hi, h2⟩ := ht
      have g := hg t i hi h2
      obtain ⟨r, o', e1, h1⟩ := h8 t true (up t) true (Or.inl g.ne) g.len g.safe g.sl g.sr g.long
      exact ⟨r, fun _ => ⟨o', e1, h1⟩⟩
    · exact ⟨false, fun hc => absurd hc ht⟩
  choose rg hrg using hrg
  let pos : Key × Nat → Bool := fun x => if x.2 % 2 = 0 then pt x.1 else rg x.1
  let tru : Key × Nat → Bool := fun x => if x.2 % 2 = 0 then decide (x.1 ∈ ins) else decide (∃ k ∈ ins, x.1 ≤ k ∧ k < up x.1)
  have hparity : ∀ k : Nat, decide ((k + 1) % 2 = 0) = !decide (k % 2 = 0) := fun k => by
    by_cases hk : k % 2 = 0
    · rw [decide_eq_true hk, decide_eq_false (by omega)]; rfl
    · rw [decide_eq_false hk, decide_eq_true (by omega)]; rfl
  -- the answers
  have hfold : ∀ (l : List Key) (k : Nat), (∀ i t, l[i]? = some t → ts[k + i]? = some t) → ∀ o : SuRF, o.filter = f' → Sized f' o.iter →
      ∃ flt, mixPositives kt (decide (k % 2 = 0)) (.surf o) l = .ok (((l.zipIdx k).filter pos).length, flt) := by
    intro l
    induction l with
    | nil => intro k _ o _ _; exact ⟨_, rfl⟩
    | cons t l ih =>
      intro k hl o hf ho
      have ht : ts[k]? = some t := hl 0 t rfl
      have hl' : ∀ i x, l[i]? = some x → ts[k + 1 + i]? = some x := fun i x hx => by
        have := hl (i + 1) x (by simpa using hx)
        rw [← this]; congr 1; omega
      rw [mixPositives, List.zipIdx_cons, List.filter_cons]
      by_cases hk2 : k % 2 = 0
      · rw [if_pos (by simpa using hk2)]
        obtain ⟨flt, e2⟩ := ih (k + 1) hl' o hf ho
        rw [hparity, decide_eq_true hk2] at e2
        refine ⟨flt, ?_⟩
        have e1 : Flt.lookup (.surf o) t = .ok (pt t) := by
          show o.lookupKey t = _
          unfold SuRF.lookupKey
          rw [hf, hpt]
        rw [e1, ok_bind]
        rw [show (false : Bool) = !true from rfl, e2, ok_bind]
        have hpos : pos (t, k) = pt t := if_pos hk2
        rw [hpos]
        cases pt t
        · change Except.ok _ = _; simp
        · change Except.ok _ = _; simp [Nat.add_comm]
      · rw [if_neg (by simpa using hk2)]
        have hodd : k % 2 = 1 := by omega
        obtain ⟨o', e1, -⟩ := hrg t ⟨k, ht, hodd⟩
        have h5 := call_fresh hnav hf ho (.range t true (up t) true)
        unfold call at h5
        dsimp only at h5
        rw [e1] at h5
        cases h6 : o.lookupRange t true (up t) true with
        | error x => rw [h6] at h5; exact h5.elim
        | ok x =>
          rw [h6] at h5
          obtain ⟨r', o2⟩ := x
          have h7 : Answer.bool r' = Answer.bool (rg t) := h5.1
          injection h7 with h7
          subst h7
          obtain ⟨flt, e2⟩ := ih (k + 1) hl' o2 h5.2.1 h5.2.2
          rw [hparity, decide_eq_false hk2] at e2
          refine ⟨flt, ?_⟩
          rw [(hg t k ht hodd).up, ok_bind]
          unfold Flt.lookupRange
          dsimp only
          rw [h6, ok_bind]
          dsimp only
          rw [pure_bind]
          dsimp only
          rw [show (true : Bool) = !false from rfl, e2, ok_bind]
          have hpos : pos (t, k) = rg t := if_neg hk2
          rw [hpos]
          cases rg t
          · change Except.ok _ = _; simp
          · change Except.ok _ = _; simp [Nat.add_comm]
  obtain ⟨flt, ep⟩ := hfold ts 0 (fun i t hi => by rw [Nat.zero_add]; exact hi) ⟨f', Iter.new f', Iter.new f'⟩ rfl (Sized.new f')
  -- the true positives
  have htrue : ∀ (l : List Key) (k : Nat), (∀ i t, l[i]? = some t → ts[k + i]? = some t) →
      mixTrue kt ins (decide (k % 2 = 0)) l = .ok ((l.zipIdx k).filter tru).length := by
    intro l
    induction l with
    | nil => intro k _; rfl
    | cons t l ih =>
      intro k hl
      have ht : ts[k]? = some t := hl 0 t rfl
      have hl' : ∀ i x, l[i]? = some x → ts[k + 1 + i]? = some x := fun i x hx => by
        have := hl (i + 1) x (by simpa using hx)
        rw [← this]; congr 1; omega
      have e2 := ih (k + 1) hl'
      rw [mixTrue, List.zipIdx_cons, List.filter_cons]
      by_cases hk2 : k % 2 = 0
      · rw [if_pos (by simpa using hk2)]
        rw [hparity, decide_eq_true hk2] at e2
        rw [show (false : Bool) = !true from rfl, e2, ok_bind]
        have hpos : tru (t, k) = decide (t ∈ ins) := if_pos hk2
        rw [hpos]
        by_cases hm : t ∈ ins
        · rw [decide_eq_true hm]; change Except.ok _ = _; simp [hm, Nat.add_comm]
        · rw [decide_eq_false hm]; change Except.ok _ = _; simp [hm]
      · rw [if_neg (by simpa using hk2)]
        rw [hparity, decide_eq_false hk2] at e2
        have h1 := (hg t k ht (by omega)).up
        have h2 := lowerBound_lt h.valid.sorted t (up t)
        have hpos : tru (t, k) = decide (∃ k ∈ ins, t ≤ k ∧ k < up t) := if_neg hk2
        have h3 : rangeHit kt ins t = .ok (tru (t, k)) := by
          rw [hpos]
          unfold rangeHit
          rw [← Bool.eq_iff_iff.2 (h2.trans decide_eq_true_iff.symm), h1]
          cases lowerBound ins t <;> rfl
        rw [h3, ok_bind, show (true : Bool) = !false from rfl, e2, ok_bind]
        cases tru (t, k)
        · change Except.ok _ = _; simp
        · change Except.ok _ = _; simp [Nat.add_comm]
  have et := htrue ts 0 (fun i t hi => by rw [Nat.zero_add]; exact hi)
  -- membership in the list of numbered queries
  have hmem : ∀ x ∈ ts.zipIdx, ts[x.2]? = some x.1 := fun x hx => by
    obtain ⟨a, b⟩ := x
    simpa using List.mk_mem_zipIdx_iff_getElem?.1 hx
  have hhit : ∀ x ∈ ts.zipIdx, x.2 % 2 = 1 → (tru x = true ↔ Hit ins x.1 (up x.1)) := by
    intro x hx h2
    have g := hg x.1 x.2 (hmem x hx) h2
    have : tru x = decide (∃ k ∈ ins, x.1 ≤ k ∧ k < up x.1) := if_neg (by omega)
    rw [this, decide_eq_true_iff]
    constructor
    · rintro ⟨k, hk, h1, h2⟩
      refine ⟨k, hk, ?_, Or.inl h2⟩
      rcases key_le h1 with h1 | h1
      · exact Or.inl h1
      · exact Or.inr ⟨rfl, h1.symm⟩
    · rintro ⟨k, hk, h1, h2⟩
      refine ⟨k, hk, ?_, ?_⟩
      · rcases h1 with h1 | ⟨-, rfl⟩
        · exact List.le_of_lt h1
        · exact List.le_refl _
      · rcases h2 with h2 | ⟨-, rfl⟩
        · exact h2
        · exact absurd hk g.out
  have hyes : ∀ x ∈ ts.zipIdx, tru x = if x.2 % 2 = 0 then decide (x.1 ∈ ins) else decide (Hit ins x.1 (up x.1)) := fun x hx => by
    by_cases h2 : x.2 % 2 = 0
    · rw [if_pos h2]; exact if_pos h2
    · rw [if_neg h2, Bool.eq_iff_iff, hhit x hx (by omega), decide_eq_true_iff]
  refine ⟨pt, rg, hpt, fun t i hi h2 => ?_, fun x hx hy => ?_, ⟨flt, ep⟩, ?_, ?_⟩
  · obtain ⟨o', e1, -⟩ := hrg t ⟨i, hi, h2⟩
    refine ⟨.surf o', ?_⟩
    unfold Flt.lookupRange
    dsimp only
    rw [e1]; rfl
  · by_cases h2 : x.2 % 2 = 0
    · rw [if_pos h2] at hy ⊢
      exact hpi _ (of_decide_eq_true hy)
    · rw [if_neg h2] at hy ⊢
      obtain ⟨-, -, h3⟩ := hrg x.1 ⟨x.2, hmem x hx, by omega⟩
      exact h3 (of_decide_eq_true hy)
  · rw [← List.filter_congr hyes]
    exact et
  · have hsplit := filter_split' pos tru ts.zipIdx (fun x hx htr => by
      by_cases h2 : x.2 % 2 = 0
      · have h3 : tru x = decide (x.1 ∈ ins) := if_pos h2
        rw [h3, decide_eq_true_iff] at htr
        rw [show pos x = pt x.1 from if_pos h2]
        exact hpi _ htr
      · rw [show pos x = rg x.1 from if_neg h2]
        obtain ⟨-, -, h3⟩ := hrg x.1 ⟨x.2, hmem x hx, by omega⟩
        exact h3 ((hhit x hx (by omega)).1 htr))
    have hfp : (ts.zipIdx.filter fun x =>
        if x.2 % 2 = 0 then pt x.1 && decide (x.1 ∉ ins) else rg x.1 && decide (¬ Hit ins x.1 (up x.1))) =
        ts.zipIdx.filter fun x => pos x && !tru x := by
      refine List.filter_congr fun x hx => ?_
      by_cases h2 : x.2 % 2 = 0
      · rw [if_pos h2, show pos x = pt x.1 from if_pos h2, show tru x = decide (x.1 ∈ ins) from if_pos h2]
        simp
      · rw [if_neg h2, show pos x = rg x.1 from if_neg h2]
        have h1 := hhit x hx (by omega)
        by_cases hc : Hit ins x.1 (up x.1)
        · rw [h1.2 hc]; simp [hc]
        · have : tru x = false := by rw [← Bool.not_eq_true, h1]; exact hc
          rw [this]; simp [hc]
    rw [hfp]
    unfold runMix
    rw [show (true : Bool) = decide (0 % 2 = 0) from rfl, ep, ok_bind]
    dsimp only
    rw [et, ok_bind, hsplit, assertR_true (by simp), ok_bind]
    change Except.ok _ = _
    congr 1
    push_cast
    ring

open Classical in
/-- The number the benchmark prints as false positives of mixed queries is the number of point queries (even places) answered `true` for keys that are not stored plus the
number of range queries (odd places) answered `true` although no stored key is in the range, and the assertion behind it does not fail.  Missing from
C61: the same as from C47. -/
theorem C61_partial (ft : String) (sl : Nat) (hs : Env.strict = false) (hne : ft ≠ "Bloom") (h : Setting (configOf ft sl) ins)
    (hff : ¬ Spec.SingleFF ins) :
    ∃ o, mkFilter ft sl ins = .ok (.surf o) ∧
      ∀ (kt : KeyType) (ts : List Key) (up : Key → Key),
        (∀ t i, ts[i]? = some t → i % 2 = 1 → GoodTxn (configOf ft sl) ins o.filter.getSparseStartLevel kt t (up t)) →
        ∃ pt rg : Key → Bool, (∀ t, Flt.lookup (.surf o) t = .ok (pt t)) ∧
          (∀ t i, ts[i]? = some t → i % 2 = 1 → ∃ o', Flt.lookupRange (.surf o) t (up t) = .ok (rg t, o')) ∧
          runMix kt (.surf o) ins ts = .ok ((ts.zipIdx.filter fun x =>
            if x.2 % 2 = 0 then pt x.1 && decide (x.1 ∉ ins) else rg x.1 && decide (¬ Hit ins x.1 (up x.1))).length : Int) := by
  obtain ⟨o, e, hq⟩ := mix_parts ft sl hs hne h hff
  refine ⟨o, e, fun kt ts up hg => ?_⟩
  obtain ⟨pt, rg, h1, h2, -, -, -, h3⟩ := hq kt ts up hg
  exact ⟨pt, rg, h1, h2, h3⟩

/-! ## C49: long counts -/

/-- What the workload "count-long" adds up for a SuRF filter: 1 for every pair of neighbouring queries whose count is not 0. -/
def longSpec : SuRF → List (Key × Key) → R Nat
  | _, [] => .ok 0
  | o, p :: ps => do
    let (n, o) ← o.approxCount p.1 p.2
    let m ← longSpec o ps
    return (if n = 0 then 0 else 1) + m

omit [Env] in
/-- The bounds of "count-long" are the pairs of neighbouring queries, smaller bound first. -/
theorem longBounds_eq : ∀ ts : List Key, (longBounds ts).length = ts.length - 1 ∧ ∀ (i : Nat) (a b : Key), ts[i]? = some a → ts[i + 1]? = some b →
    ∃ l r, (longBounds ts)[i]? = some (l, r) ∧ l ≤ r ∧ ((l, r) = (a, b) ∨ (l, r) = (b, a))
  | [] => ⟨rfl, fun i a b h => by simp at h⟩
  | [t] => ⟨rfl, fun i a b _ h => by simp at h⟩
  | t :: u :: ts => by
    obtain ⟨h1, h2⟩ := longBounds_eq (u :: ts)
    refine ⟨by rw [longBounds, List.length_cons, h1]; simp, fun i a b ha hb => ?_⟩
    cases i with
    | zero =>
      simp only [List.getElem?_cons_zero, Option.some.injEq, List.getElem?_cons_succ] at ha hb
      subst ha hb
      rw [longBounds, List.getElem?_cons_zero]
      by_cases hlt : t < u
      · rw [if_pos hlt]; exact ⟨t, u, rfl, List.le_of_lt hlt, Or.inl rfl⟩
      · rw [if_neg hlt]; exact ⟨u, t, rfl, List.not_lt.1 hlt, Or.inr rfl⟩
    | succ i =>
      rw [longBounds, List.getElem?_cons_succ]
      exact h2 i a b (by simpa using ha) (by simpa using hb)

/-- The number printed as `count` for "count-long" is the number of pairs of neighbouring queries whose approximate count is not 0, not the sum of
the counts. -/
theorem C49_long_partial : ∀ (ps : List (Key × Key)) (o : SuRF), Prod.fst <$> longCounts (.surf o) ps = longSpec o ps
  | [], _ => rfl
  | p :: ps, o => by
    rw [longCounts, longSpec]
    unfold Flt.approxCount
    dsimp only
    cases h1 : o.approxCount p.1 p.2 with
    | error e => rfl
    | ok x =>
      obtain ⟨n, o'⟩ := x
      have ih := C49_long_partial ps o'
      rw [ok_bind, ok_bind]
      dsimp only
      rw [pure_bind]
      dsimp only
      rw [← ih]
      cases h2 : longCounts (.surf o') ps with
      | error e => rfl
      | ok y =>
        obtain ⟨m, fl⟩ := y
        change Except.ok _ = Except.ok _
        congr 1
        by_cases hn : n = 0
        · subst hn; rfl
        · rw [if_neg hn]
          have : (n != 0) = true := by simpa using hn
          rw [this]; rfl

end

/-! ## C60: arguments -/

/-- What the usage message of `workload` (workload.cpp:6-14) describes. -/
structure Documented (a : Args) : Prop where
  filter : a.filterType ∈ ["SuRF", "SuRFHash", "SuRFReal", "SuRFMixed", "Bloom"]
  suffix : 0 < a.suffixLen ∧ a.suffixLen ≤ 64
  work : a.workload = "mixed" ∨ a.workload = "alterByte" ∧ a.keyType = "email"
  percent : 0 < a.percent ∧ a.percent ≤ 100
  key : a.keyType ∈ ["randint", "email"]
  query : a.queryType ∈ ["point", "range", "mix", "count-long", "count-short"]
  distr : a.distribution ∈ ["uniform", "zipfian", "latest"]

theorem toUnsigned_le {x : Int} (hx : -(2 ^ 31) ≤ x ∧ x < 2 ^ 31) {n : Nat} (hn : n < 2 ^ 31) : toUnsigned x ≤ n ↔ 0 ≤ x ∧ x ≤ n := by
  unfold toUnsigned
  rw [M32_eq]
  omega

/-- The command lines that are accepted: besides the documented ones with workload "mixed", those with any other word for the workload except
"alterByte", those with 0 per cent, with key type "timestamp" and with filter type "ARF".  No documented line with workload "alterByte" is accepted. -/
theorem C60_partial (a : Args) (h1 : -(2 ^ 31) ≤ a.suffixLen ∧ a.suffixLen < 2 ^ 31) (h2 : -(2 ^ 31) ≤ a.percent ∧ a.percent < 2 ^ 31) :
    (a.accepted = true ↔ (a.filterType ∈ ["SuRF", "SuRFHash", "SuRFReal", "SuRFMixed", "Bloom"] ∨ a.filterType = "ARF") ∧
      (0 < a.suffixLen ∧ a.suffixLen ≤ 64) ∧ a.workload ≠ "alterByte" ∧ (0 ≤ a.percent ∧ a.percent ≤ 100) ∧
      (a.keyType ∈ ["randint", "email"] ∨ a.keyType = "timestamp") ∧ a.queryType ∈ ["point", "range", "mix", "count-long", "count-short"] ∧
      a.distribution ∈ ["uniform", "zipfian", "latest"]) ∧
    (Documented a → (a.accepted = true ↔ a.workload = "mixed")) := by
  have main : a.accepted = true ↔ (a.filterType ∈ ["SuRF", "SuRFHash", "SuRFReal", "SuRFMixed", "Bloom"] ∨ a.filterType = "ARF") ∧
      (0 < a.suffixLen ∧ a.suffixLen ≤ 64) ∧ a.workload ≠ "alterByte" ∧ (0 ≤ a.percent ∧ a.percent ≤ 100) ∧
      (a.keyType ∈ ["randint", "email"] ∨ a.keyType = "timestamp") ∧ a.queryType ∈ ["point", "range", "mix", "count-long", "count-short"] ∧
      a.distribution ∈ ["uniform", "zipfian", "latest"] := by
    have hsl : (toUnsigned a.suffixLen == 0 || decide (toUnsigned a.suffixLen > 64)) = true ↔ ¬ (0 < a.suffixLen ∧ a.suffixLen ≤ 64) := by
      have e0 := toUnsigned_le h1 (n := 0) (by decide)
      have e64 := toUnsigned_le h1 (n := 64) (by decide)
      simp only [Bool.or_eq_true, beq_iff_eq, decide_eq_true_eq]
      omega
    have hpc : toUnsigned a.percent > 100 ↔ ¬ (0 ≤ a.percent ∧ a.percent ≤ 100) := by
      have e := toUnsigned_le h2 (n := 100) (by decide)
      omega
    have hw : (a.workload != "mixed" && a.workload == "alterByte") = true ↔ ¬ a.workload ≠ "alterByte" := by
      simp only [Bool.and_eq_true, bne_iff_ne, ne_eq, beq_iff_eq, not_not]
      constructor
      · exact fun h => h.2
      · intro h
        refine ⟨?_, h⟩
        rw [h]; decide
    have aux : ∀ (c : Prop) [Decidable c] (b : Bool), (if c then false else b) = true ↔ ¬ c ∧ b = true := fun c _ b => by
      split <;> simp [*]
    unfold Args.accepted
    simp only [aux]
    rw [hsl, hpc, hw]
    simp only [List.mem_cons, List.not_mem_nil, or_false, Bool.and_eq_true, bne_iff_ne, ne_eq, not_not, and_true, not_and_or, or_assoc]
    refine and_congr Iff.rfl (and_congr ?_ (and_congr Iff.rfl (and_congr ?_ (and_congr ?_ Iff.rfl))))
    · rw [← not_and_or, not_not]
    · rw [← not_and_or, not_not]
    · rw [or_comm (a := a.keyType = "timestamp")]
  refine ⟨main, fun hd => ?_⟩
  rw [main]
  constructor
  · rintro ⟨-, -, hw, -⟩
    rcases hd.work with h | h
    · exact h
    · exact absurd h.1 hw
  · intro h
    refine ⟨Or.inl hd.filter, hd.suffix, by rw [h]; decide, ⟨hd.percent.1.le, hd.percent.2⟩, Or.inl hd.key, hd.query, hd.distr⟩

/-! ## Examples and refutations -/

/-- Two threads and four queries on a filter of five keys meet the hypotheses of `C57_partial`: two queries per thread, twelve steps each. -/
theorem C57_example : Setting cfgReal8 rgKeys ∧ ¬ Spec.SingleFF rgKeys ∧
    (∀ i < 2, 6 * (([[98], [99], [97, 98, 101], [98, 99]] : List Key).length / 2) ≤ (List.replicate 12 0 ++ List.replicate 12 1).count i) ∧
    (@SuRF.create Env.x86dbg cfgReal8 rgKeys >>= fun o =>
      @multiPositives Env.x86dbg false 2 o [[98], [99], [97, 98, 101], [98, 99]] [] (List.replicate 12 0 ++ List.replicate 12 1)) = .ok 3 := by
  refine ⟨rgSetting.2.1, rgSetting.2.2, by decide +kernel, by decide +kernel⟩

/-- One query and two threads: no thread executes it.  The key is stored, so the assertion of the program fails; without assertions it
reports -1 false positives. -/
theorem C57_refuted : [98] ∈ rgKeys ∧
    (@SuRF.create Env.x86dbg cfgReal8 rgKeys >>= fun o => @multiPositives Env.x86dbg false 2 o [[98]] [] []) = .ok 0 ∧
    (@SuRF.create Env.x86dbg cfgReal8 rgKeys >>= fun o => @pointPositives Env.x86dbg (.surf o) [[98]]) = .ok 1 ∧
    (@SuRF.create Env.x86dbg cfgReal8 rgKeys >>= fun o => @runMulti Env.x86dbg false 2 o rgKeys [[98]] [] []) = .error .assertFail ∧
    (@SuRF.create Env.x86 cfgReal8 rgKeys >>= fun o => @runMulti Env.x86 false 2 o rgKeys [[98]] [] []) = .ok (-1) := by
  refine ⟨by decide, by decide +kernel, by decide +kernel, by decide +kernel, by decide +kernel⟩

/-- Two threads with one range query each, "abh" and "b": both ranges have a stored key and the program with one thread finds both.  With two threads one of them is lost when the
threads take turns in a certain order. -/
theorem C57_range_refuted :
    getUpperBoundKey .email [97, 98, 104] = .ok [97, 98, 232] ∧ getUpperBoundKey .email [98] = .ok [226] ∧
    (@SuRF.create Env.x86 cfgReal8 rgKeys >>= fun o => Prod.fst <$> @rangePositives Env.x86 .email (.surf o) [[97, 98, 104], [98]]) = .ok 2 ∧
    (@SuRF.create Env.x86 cfgReal8 rgKeys >>= fun o =>
      @multiPositives Env.x86 true 2 o [[97, 98, 104], [98]] [[97, 98, 232], [226]] [0, 0, 0, 0, 1, 1, 0, 1, 1, 1]) = .ok 1 := by
  refine ⟨by decide +kernel, by decide +kernel, by decide +kernel, by decide +kernel⟩

/-- The hypotheses of `C57_one_partial` are met by these two queries, with two positive answers. -/
example : Setting cfgReal8 rgKeys ∧ 6 * 2 ≤ (List.replicate 12 0).count 0 ∧
    (@SuRF.create Env.x86 cfgReal8 rgKeys >>= fun o => (([[97, 98, 104], [98]].zip [[97, 98, 232], [226]]).mapM fun p =>
      Prod.fst <$> @SuRF.lookupRange Env.x86 o p.1 true p.2 true)) = .ok [true, true] :=
  ⟨rgSetting.2.1, by decide, by decide +kernel⟩

/-- The range from "abh" to "ab" 0xE8 meets the condition of `C57_one_false_partial`. -/
example : GoodRange cfgReal8 rgKeys 1 [97, 98, 104] [97, 98, 232] :=
  letI := Env.x86
  ⟨by decide, by decide, rgSafe.safe, rgSafe.sfx, suffixes_of_le (by decide) _, fun _ => rgSafe.long⟩

/-- One thread, one range query, whose left bound is a stored key: the filter answers `true`, which the program with several threads counts as a false positive. -/
theorem C57_bound_refuted : [98, 99] ∈ rgKeys ∧
    (@SuRF.create Env.x86dbg cfgReal8 rgKeys >>= fun o =>
      @runMulti Env.x86dbg true 1 o rgKeys [[98, 99]] [[98, 227]] (List.replicate 6 0)) = .ok 1 ∧
    (@SuRF.create Env.x86dbg cfgReal8 rgKeys >>= fun o => @runRange Env.x86dbg .email (.surf o) rgKeys [[98, 99]]) = .ok 0 := by
  refine ⟨by decide, by decide +kernel, by decide +kernel⟩

/-- No threads: division by zero.  A negative number of threads: an exception. -/
theorem C57_zero_refuted (n : Nat) : threadArgs 0 n = .error .divZero ∧ threadArgs (-1) n = .error .exn := ⟨rfl, rfl⟩

/-- A documented command line that is rejected, and two others that are accepted: an unknown workload, and 0 per cent. -/
theorem C60_refuted :
    Documented ⟨"SuRFReal", 8, "alterByte", 50, 1, "email", "point", "uniform"⟩ ∧
    Args.accepted ⟨"SuRFReal", 8, "alterByte", 50, 1, "email", "point", "uniform"⟩ = false ∧
    ¬ Documented ⟨"SuRFReal", 8, "mxied", 50, 1, "email", "point", "uniform"⟩ ∧
    Args.accepted ⟨"SuRFReal", 8, "mxied", 50, 1, "email", "point", "uniform"⟩ = true ∧
    ¬ Documented ⟨"SuRFReal", 8, "mixed", 0, 1, "email", "point", "uniform"⟩ ∧
    Args.accepted ⟨"SuRFReal", 8, "mixed", 0, 1, "email", "point", "uniform"⟩ = true := by
  refine ⟨⟨by decide, by decide, by decide, by decide, by decide, by decide, by decide⟩, by decide, fun h => ?_, by decide, fun h => ?_, by decide⟩
  · exact absurd h.work (by decide)
  · exact absurd h.percent.1 (by decide)

/-- Five queries on a filter of five keys: three point queries, one of them a false positive, and two range queries. -/
theorem C61_example :
    (@mkFilter Env.x86dbg "SuRF" 1 rgKeys >>= fun f =>
      @runMix Env.x86dbg .email f rgKeys [[98], [97, 98, 104], [97, 98, 101, 101], [99], [99]]) = .ok 1 := by decide +kernel

/-- The refutations of C47 apply: a Bloom filter answers a range query with `false` and the assertion fails. -/
theorem C61_refuted :
    (@mkFilter Env.x86dbg "Bloom" 1 rgKeys >>= fun f => @runMix Env.x86dbg .email f rgKeys [[98], [98]]) = .error .assertFail ∧
    (@mkFilter Env.x86 "Bloom" 1 rgKeys >>= fun f => @runMix Env.x86 .email f rgKeys [[98], [98]]) = .ok (-1) := by
  refine ⟨by decide +kernel, by decide +kernel⟩

/-- "count-long" for the queries "e" and "a": the count is 3, the program prints 1. -/
theorem C49_long_refuted :
    longBounds [[101], [97]] = [([97], [101])] ∧
    (@mkFilter Env.x86dbg "SuRF" 0 [[97], [98], [99], [100], [101]] >>= fun f =>
      Prod.fst <$> @longCounts Env.x86dbg f (longBounds [[101], [97]])) = .ok 1 ∧
    (@SuRF.create Env.x86dbg {} [[97], [98], [99], [100], [101]] >>= fun o =>
      Prod.fst <$> @SuRF.approxCount Env.x86dbg o [97] [101]) = .ok 3 := by
  refine ⟨by decide +kernel, by decide +kernel, by decide +kernel⟩

end Surf.Props
