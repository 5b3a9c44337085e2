import Verif.Props.History

/-!
# Queries from several threads (C42)
-/

set_option linter.unusedSectionVars false
set_option autoImplicit false
set_option maxRecDepth 1000000

namespace Surf.Props
open Surf Trie

/-- Point queries, the only calls of this kind that do not use the member iterators. -/
def _root_.Surf.Call.isLookup : Call → Bool
  | .lookup _ => true
  | _ => false

/-- The same for a query under way. -/
def _root_.Surf.Local.isLookup : Local → Bool
  | .lookup0 _ => true
  | .lookup1 _ _ => true
  | _ => false

/-- Number of steps left at most. -/
def _root_.Surf.Local.left : Local → Nat
  | .lookup0 _ => 2
  | .lookup1 _ _ => 1
  | .range0 .. => 4
  | .range1 .. => 3
  | .range2 .. => 2
  | .range3 .. => 1
  | .count0 .. => 5
  | .count1 .. => 4
  | .count2 .. => 3
  | .count3 => 2
  | .count4 => 1

section
variable [Env] {cfg : Config} {keys : List Key}

/-- A query under way runs to its end without interruption. -/
def finish : Nat → SuRF → Local → R (Answer × SuRF)
  | 0, _, _ => .error .assertFail
  | n + 1, o, l => do
    let (o, x) ← mstep o l
    match x with
    | .inl l => finish n o l
    | .inr a => return (a, o)

/-- All results of `m` have the property. -/
def Post {α : Type} (P : α → Prop) (m : R α) : Prop := ∀ x, m = .ok x → P x

theorem Post.bind {α β : Type} {P : β → Prop} {m : R α} {g : α → R β} (h : ∀ a, Post P (g a)) : Post P (m >>= g) := by
  intro x hx
  cases m with
  | error e => cases hx
  | ok a => exact h a x hx

theorem Post.pure {α : Type} {P : α → Prop} {a : α} (h : P a) : Post P (pure a : R α) := by
  intro x hx
  cases hx
  exact h

theorem Post.ite {α : Type} {P : α → Prop} {c : Prop} [Decidable c] {m n : R α} (h1 : Post P m) (h2 : Post P n) :
    Post P (if c then m else n) := by
  split
  · exact h1
  · exact h2

/-- What a step can do. -/
def StepOk (o : SuRF) (l : Local) (x : SuRF × (Local ⊕ Answer)) : Prop :=
  x.1.filter = o.filter ∧ (l.isLookup = true → x.1 = o) ∧
    ∀ l', x.2 = .inl l' → l'.left < l.left ∧ (l.isLookup = true → l'.isLookup = true)

theorem stepOk_ans {o o' : SuRF} {l : Local} {a : Answer} (h : o'.filter = o.filter) (h2 : l.isLookup = true → o' = o) :
    StepOk o l (o', .inr a) := ⟨h, h2, fun l' hl => by cases hl⟩

theorem stepOk_next {o o' : SuRF} {l l' : Local} (h : o'.filter = o.filter) (h2 : l.isLookup = true → o' = o)
    (h3 : l'.left < l.left) (h4 : l.isLookup = true → l'.isLookup = true) :
    StepOk o l (o', .inl l') := ⟨h, h2, fun l'' hl => by cases hl; exact ⟨h3, h4⟩⟩

theorem mstep_ok (o : SuRF) (l : Local) : Post (StepOk o l) (mstep o l) := by
  have hno : ∀ {p : Prop}, (false = true) → p := fun h => by cases h
  cases l with
  | lookup0 k =>
    refine Post.bind fun ⟨b, node⟩ => Post.ite (Post.pure ?_) (Post.ite (Post.pure ?_) (Post.pure ?_))
    · exact stepOk_ans rfl fun _ => rfl
    · exact stepOk_next rfl (fun _ => rfl) (by simp [Local.left]) fun _ => rfl
    · exact stepOk_ans rfl fun _ => rfl
  | lookup1 k node => exact Post.bind fun b => Post.pure (stepOk_ans rfl fun _ => rfl)
  | range0 l li r ri => exact Post.pure (stepOk_next rfl hno (by simp [Local.left]) hno)
  | range1 l li r ri => exact Post.bind fun ⟨_, d⟩ => Post.pure (stepOk_next rfl hno (by simp [Local.left]) hno)
  | range2 l li r ri =>
    refine Post.ite (Post.pure (stepOk_ans rfl hno)) (Post.ite (Post.ite ?_ (Post.ite ?_ ?_)) ?_)
    · refine Post.bind fun ⟨_, d⟩ => Post.ite (Post.bind fun ⟨_, it⟩ => ?_) ?_
      · exact Post.pure (stepOk_next rfl hno (by simp [Local.left]) hno)
      · exact Post.pure (stepOk_next rfl hno (by simp [Local.left]) hno)
    · exact Post.bind fun _ => Post.pure (stepOk_next rfl hno (by simp [Local.left]) hno)
    · exact Post.pure (stepOk_next rfl hno (by simp [Local.left]) hno)
    · exact Post.pure (stepOk_next rfl hno (by simp [Local.left]) hno)
  | range3 r ri =>
    refine Post.ite (Post.pure (stepOk_ans rfl hno)) (Post.bind fun c => Post.ite ?_ (Post.ite ?_ ?_))
    all_goals exact Post.pure (stepOk_ans rfl hno)
  | count0 l r => exact Post.pure (stepOk_next rfl hno (by simp [Local.left]) hno)
  | count1 l r =>
    refine Post.bind fun it => Post.ite ?_ ?_
    · exact Post.pure (stepOk_ans rfl hno)
    · exact Post.pure (stepOk_next rfl hno (by simp [Local.left]) hno)
  | count2 r => exact Post.bind fun it => Post.pure (stepOk_next rfl hno (by simp [Local.left]) hno)
  | count3 =>
    refine Post.ite (Post.bind fun it => ?_) ?_
    · exact Post.pure (stepOk_next rfl hno (by simp [Local.left]) hno)
    · exact Post.pure (stepOk_next rfl hno (by simp [Local.left]) hno)
  | count4 => exact Post.bind fun c => Post.pure (stepOk_ans rfl hno)

theorem finish_more {n m : Nat} (hm : n ≤ m) (o : SuRF) (l : Local) (h : l.left ≤ n) : finish n o l = finish m o l := by
  induction n generalizing m o l with
  | zero => cases l <;> simp [Local.left] at h
  | succ n ih =>
    obtain ⟨m, rfl⟩ : ∃ m', m = m' + 1 := ⟨m - 1, by omega⟩
    unfold finish
    cases e : mstep o l with
    | error x => rfl
    | ok x =>
      obtain ⟨o', x⟩ := x
      cases x with
      | inl l' =>
        have := ((mstep_ok o l _ e).2.2 l' rfl).1
        exact ih (by omega) o' l' (by omega)
      | inr a => rfl

theorem left_le (l : Local) : l.left ≤ 5 := by cases l <;> simp [Local.left]

theorem finish_start (o : SuRF) (c : Call) : finish 5 o c.start = call o c := by
  cases c with
  | lookup k =>
    show finish 5 o (.lookup0 k) = _
    rw [finish, mstep, call, SuRF.lookupKey, Filter.lookupKey]
    simp only [bind_assoc]
    cases o.filter.dense.lookupKey k with
    | error e => rfl
    | ok x =>
      obtain ⟨b, node⟩ := x
      simp only [ok_bind]
      cases b with
      | false => rfl
      | true =>
        simp only [Bool.not_true, Bool.false_eq_true, if_false]
        by_cases hn : node ≠ 0
        · rw [if_pos hn, if_pos hn]
          show finish 4 o (.lookup1 k node) = _
          rw [finish, mstep]
          cases o.filter.sparse.lookupKey k node <;> rfl
        · rw [if_neg hn, if_neg hn]
          rfl
  | range l li r ri =>
    have hend : ∀ (o' : SuRF) (it : Iter), o'.filter = o.filter → o'.iter2 = o.iter2 → finish 2 { o' with iter := it } (.range3 r ri) = (do
        let x ← (if !it.isValid then return (false, it)
          else do
            let c ← it.compare o.filter r
            if c = kCouldBePositive then return (true, it)
            else if ri then return (decide (c ≤ 0), it)
            else return (decide (c < 0), it) : R (Bool × Iter))
        return (Answer.bool x.1, { o with iter := x.2 })) := by
      intro o' it h1 h2
      obtain ⟨f', i1, i2⟩ := o'
      dsimp only at h1 h2
      subst h1 h2
      rw [finish, mstep]
      dsimp only
      split
      · rfl
      · cases it.compare o.filter r with
        | error e => rfl
        | ok c =>
          simp only [ok_bind]
          split
          · rfl
          · split <;> rfl
    show finish 4 { o with iter := o.iter.clear } (.range1 l li r ri) = _
    rw [finish, mstep, call, SuRF.lookupRange, Filter.lookupRange, Filter.rangeSeek]
    dsimp only
    simp only [bind_assoc]
    cases o.filter.dense.moveToKeyGreaterThan l li o.iter.clear.dense with
    | error e => rfl
    | ok x =>
      obtain ⟨fp, d⟩ := x
      simp only [ok_bind, pure_bind]
      rw [finish, mstep]
      dsimp only
      cases h1 : d.valid with
      | false =>
        have : ({ o.iter.clear with dense := d } : Iter).isValid = false := by
          unfold Iter.isValid
          rw [h1]
          rfl
        simp only [Bool.not_false, if_true, pure_bind]
        rw [this]
        rfl
      | true =>
        simp only [Bool.not_true, Bool.false_eq_true, if_false]
        cases h2 : d.isComplete with
        | true =>
          simp only [Bool.not_true, Bool.false_eq_true, if_false, pure_bind]
          rw [hend o _ rfl rfl]
        | false =>
          simp only [Bool.not_false, if_true]
          cases h3 : d.searchComplete with
          | false =>
            simp only [Bool.not_false, if_true, bind_assoc]
            cases o.filter.sparse.moveToKeyGreaterThan l li (Iter.passToSparse { o.iter.clear with dense := d }).sparse with
            | error e => rfl
            | ok x =>
              obtain ⟨fp', sp⟩ := x
              simp only [ok_bind]
              cases h4 : sp.valid with
              | false =>
                simp only [Bool.not_false, if_true, bind_assoc]
                cases Iter.incrementDense o.filter { Iter.passToSparse { o.iter.clear with dense := d } with sparse := sp } with
                | error e => rfl
                | ok x =>
                  simp only [ok_bind, pure_bind]
                  rw [hend { o with iter := o.iter } _ rfl rfl]
              | true =>
                simp only [Bool.not_true, Bool.false_eq_true, if_false, pure_bind]
                rw [hend { o with iter := o.iter } _ rfl rfl]
          | true =>
            simp only [Bool.not_true, Bool.false_eq_true, if_false]
            cases h4 : d.leftComplete with
            | false =>
              simp only [Bool.not_false, if_true, bind_assoc]
              cases SIter.moveToLeftMostKey o.filter.sparse (Iter.passToSparse { o.iter.clear with dense := d }).sparse with
              | error e => rfl
              | ok x =>
                simp only [ok_bind, pure_bind]
                rw [hend { o with iter := o.iter } _ rfl rfl]
            | true =>
              simp only [Bool.not_true, Bool.false_eq_true, if_false, pure_bind]
              rw [hend o _ rfl rfl]
  | count l r =>
    show finish 4 { o with iter := o.iter.clear, iter2 := o.iter2.clear } (.count1 l r) = _
    rw [finish, mstep, call, SuRF.approxCount, Filter.approxCount]
    dsimp only
    simp only [bind_assoc]
    cases o.filter.moveToKeyGreaterThan l true with
    | error e => rfl
    | ok it =>
      simp only [ok_bind]
      cases hv : it.isValid with
      | false => rfl
      | true =>
        simp only [Bool.not_true, Bool.false_eq_true, if_false, bind_assoc, pure_bind]
        rw [finish, mstep]
        simp only [bind_assoc]
        cases o.filter.moveToKeyGreaterThan r true with
        | error e => rfl
        | ok it2 =>
          simp only [ok_bind, pure_bind]
          rw [finish, mstep]
          dsimp only
          cases hv2 : it2.isValid with
          | false =>
            simp only [Bool.not_false, if_true, bind_assoc]
            cases o.filter.moveToLast with
            | error e => rfl
            | ok it3 =>
              simp only [ok_bind, pure_bind]
              rw [finish, mstep]
              cases o.filter.approxCountIter it it3 <;> rfl
          | true =>
            simp only [Bool.not_true, Bool.false_eq_true, if_false, pure_bind]
            rw [finish, mstep]
            cases o.filter.approxCountIter it it2 <;> rfl

/-- The answers of a thread that runs from here to its end without interruption. -/
def answersT (o : SuRF) (t : Thread) : R (List Answer) :=
  match t.cur with
  | none => do
    let as ← answers o t.todo
    return t.out ++ as
  | some l => do
    let (a, o) ← finish 5 o l
    let as ← answers o t.todo
    return t.out ++ a :: as

theorem answersT_new (o : SuRF) (cs : List Call) : answersT o (Thread.new cs) = answers o cs := by
  show (do let as ← answers o cs; return [] ++ as) = _
  cases answers o cs <;> rfl

/-- A step of the thread itself. -/
theorem answersT_step (o : SuRF) (t : Thread) :
    answersT o t = (do let (o', t') ← tstep o t; answersT o' t') := by
  obtain ⟨cur, todo, out⟩ := t
  cases cur with
  | none => cases todo with
    | nil => rfl
    | cons c cs =>
      show (do let as ← answers o (c :: cs); return out ++ as) = (do
        let (a, o) ← finish 5 o c.start
        let as ← answers o cs
        return out ++ a :: as)
      rw [finish_start, answers]
      simp only [bind_assoc, pure_bind]
  | some l =>
    show (do
        let (a, o) ← finish 5 o l
        let as ← answers o todo
        return out ++ a :: as) = _
    rw [finish]
    unfold tstep
    dsimp only
    cases e : mstep o l with
    | error x => rfl
    | ok x =>
      obtain ⟨o', x⟩ := x
      simp only [ok_bind]
      cases x with
      | inl l' =>
        have h1 := ((mstep_ok o l _ e).2.2 l' rfl).1
        have h2 := left_le l
        dsimp only
        rw [finish_more (show 4 ≤ 5 by omega) o' l' (by omega)]
        rfl
      | inr a =>
        dsimp only
        show (do let as ← answers o' todo; return out ++ a :: as) = (do let as ← answers o' todo; return (out ++ [a]) ++ as)
        cases answers o' todo <;> simp [ok_bind]

/-- The thread makes point queries only. -/
def PointOnly (t : Thread) : Prop := (∀ l, t.cur = some l → l.isLookup = true) ∧ ∀ c ∈ t.todo, c.isLookup = true

theorem tstep_filter {o o' : SuRF} {t t' : Thread} (h : tstep o t = .ok (o', t')) :
    o'.filter = o.filter ∧ (PointOnly t → o' = o ∧ PointOnly t') := by
  obtain ⟨cur, todo, out⟩ := t
  cases cur with
  | none => cases todo with
    | nil => cases h; exact ⟨rfl, fun h => ⟨rfl, h⟩⟩
    | cons c cs =>
      cases h
      refine ⟨rfl, fun hp => ⟨rfl, fun l hl => ?_, fun c' hc => hp.2 c' (List.mem_cons_of_mem _ hc)⟩⟩
      cases hl
      have := hp.2 c List.mem_cons_self
      cases c <;> first | rfl | cases this
  | some l =>
    unfold tstep at h
    dsimp only at h
    cases e : mstep o l with
    | error x => rw [e] at h; cases h
    | ok x =>
      rw [e, ok_bind] at h
      obtain ⟨o2, x⟩ := x
      have hok := mstep_ok o l _ e
      cases x with
      | inl l' =>
        cases h
        refine ⟨hok.1, fun hp => ⟨hok.2.1 (hp.1 l rfl), fun l2 hl => ?_, hp.2⟩⟩
        cases hl
        exact (hok.2.2 l' rfl).2 (hp.1 l rfl)
      | inr a =>
        cases h
        exact ⟨hok.1, fun hp => ⟨hok.2.1 (hp.1 l rfl), (fun l2 hl => by cases hl), hp.2⟩⟩

theorem answers_lookup {cs : List Call} (hc : ∀ c ∈ cs, c.isLookup = true) {o o' : SuRF} (h : o'.filter = o.filter) :
    answers o' cs = answers o cs := by
  induction cs generalizing o o' with
  | nil => rfl
  | cons c cs ih =>
    have h1 := hc c List.mem_cons_self
    cases c with
    | lookup k =>
      rw [answers, answers, call, call, SuRF.lookupKey, SuRF.lookupKey, h]
      simp only [bind_assoc]
      cases o.filter.lookupKey k with
      | error e => rfl
      | ok b =>
        simp only [ok_bind, pure_bind]
        rw [ih (fun c hm => hc c (List.mem_cons_of_mem _ hm)) h]
    | range => cases h1
    | count => cases h1

theorem finish_lookup (n : Nat) {l : Local} (hl : l.isLookup = true) {o o' : SuRF} (h : o'.filter = o.filter) :
    Prod.fst <$> finish n o' l = Prod.fst <$> finish n o l ∧ Post (fun x => x.2 = o) (finish n o l) := by
  induction n generalizing l with
  | zero => exact ⟨rfl, fun x hx => by cases hx⟩
  | succ n ih =>
    have hm : mstep o' l = (do let (_, x) ← mstep o l; return (o', x)) := by
      cases l with
      | lookup0 k =>
        rw [mstep, mstep, h]
        cases o.filter.dense.lookupKey k with
        | error e => rfl
        | ok x =>
          obtain ⟨b, node⟩ := x
          cases b with
          | false => rfl
          | true =>
            simp only [ok_bind, Bool.not_true, Bool.false_eq_true, if_false]
            split <;> rfl
      | lookup1 k node =>
        rw [mstep, mstep, h]
        cases o.filter.sparse.lookupKey k node <;> rfl
      | _ => cases hl
    unfold finish
    rw [hm]
    cases e : mstep o l with
    | error x => exact ⟨rfl, fun x hx => by cases hx⟩
    | ok x =>
      obtain ⟨o2, x⟩ := x
      have hok := mstep_ok o l _ e
      have ho2 : o2 = o := hok.2.1 hl
      subst ho2
      simp only [ok_bind, pure_bind]
      cases x with
      | inl l' => exact ih ((hok.2.2 l' rfl).2 hl)
      | inr a => exact ⟨rfl, fun x hx => by cases hx; rfl⟩

/-- A step of another thread does not matter for a thread that makes point queries only. -/
theorem answersT_other {t : Thread} (hp : PointOnly t) {o o' : SuRF} (h : o'.filter = o.filter) : answersT o' t = answersT o t := by
  obtain ⟨cur, todo, out⟩ := t
  cases cur with
  | none =>
    show (do let as ← answers o' todo; return out ++ as) = (do let as ← answers o todo; return out ++ as)
    rw [answers_lookup hp.2 h]
  | some l =>
    have hl := hp.1 l rfl
    obtain ⟨h1, h2⟩ := finish_lookup 5 hl h
    have h3 := (finish_lookup 5 hl (o := o') (o' := o') rfl).2
    show (do
        let (a, o) ← finish 5 o' l
        let as ← answers o todo
        return out ++ a :: as) = (do
        let (a, o) ← finish 5 o l
        let as ← answers o todo
        return out ++ a :: as)
    cases e1 : finish 5 o l with
    | error x =>
      cases e2 : finish 5 o' l with
      | error y => rw [e1, e2] at h1; cases h1; rfl
      | ok y => rw [e1, e2] at h1; cases h1
    | ok x =>
      cases e2 : finish 5 o' l with
      | error y => rw [e1, e2] at h1; cases h1
      | ok y =>
        obtain ⟨a, p⟩ := x
        obtain ⟨a', p'⟩ := y
        have := h2 _ e1
        have := h3 _ e2
        dsimp only at *
        subst p p'
        rw [e1, e2] at h1
        cases h1
        simp only [ok_bind]
        rw [answers_lookup hp.2 h]

/-- The steps a thread still makes. -/
def stepsLeft (t : Thread) : Nat := 6 * t.todo.length + (t.cur.map Local.left).getD 0

theorem stepsLeft_step {o o' : SuRF} {t t' : Thread} (h : tstep o t = .ok (o', t')) : stepsLeft t' ≤ stepsLeft t - 1 := by
  obtain ⟨cur, todo, out⟩ := t
  cases cur with
  | none => cases todo with
    | nil => cases h; simp [stepsLeft]
    | cons c cs =>
      cases h
      have := left_le c.start
      simp only [stepsLeft, List.length_cons, Option.map_some, Option.map_none, Option.getD_some, Option.getD_none]
      omega
  | some l =>
    have hpos : 1 ≤ l.left := by cases l <;> simp [Local.left]
    unfold tstep at h
    dsimp only at h
    cases e : mstep o l with
    | error x => rw [e] at h; cases h
    | ok x =>
      rw [e, ok_bind] at h
      obtain ⟨o2, x⟩ := x
      have hok := mstep_ok o l _ e
      cases x with
      | inl l' =>
        cases h
        have := (hok.2.2 l' rfl).1
        simp only [stepsLeft, Option.map_some, Option.getD_some]
        omega
      | inr a =>
        cases h
        simp only [stepsLeft, Option.map_some, Option.getD_some, Option.map_none, Option.getD_none]
        omega

theorem answersT_done {o : SuRF} {t : Thread} (h : stepsLeft t = 0) : answersT o t = .ok t.out := by
  obtain ⟨cur, todo, out⟩ := t
  unfold stepsLeft at h
  have h1 : todo = [] := List.length_eq_zero_iff.1 (by dsimp only at h; omega)
  subst h1
  cases cur with
  | none => show (do let as ← answers o []; return out ++ as) = _; simp [answers, ok_bind]
  | some l =>
    have hpos : 1 ≤ l.left := by cases l <;> simp [Local.left]
    simp only [Option.map_some, Option.getD_some] at h
    omega

theorem answersT_out {o : SuRF} {t : Thread} {as : List Answer} (h : answersT o t = .ok as) : t.out <+: as := by
  obtain ⟨cur, todo, out⟩ := t
  cases cur with
  | none =>
    have h : (do let as ← answers o todo; return out ++ as) = Except.ok as := h
    cases e : answers o todo with
    | error x => rw [e] at h; cases h
    | ok x => rw [e] at h; cases h; exact List.prefix_append _ _
  | some l =>
    have h : (do
        let (a, o) ← finish 5 o l
        let as ← answers o todo
        return out ++ a :: as) = Except.ok as := h
    cases e : finish 5 o l with
    | error x => rw [e] at h; cases h
    | ok x =>
      rw [e, ok_bind] at h
      obtain ⟨a, o2⟩ := x
      dsimp only at h
      cases e : answers o2 todo with
      | error x => rw [e] at h; cases h
      | ok x => rw [e] at h; cases h; exact List.prefix_append _ _

/-- The interleaving, for a list of threads of which at most the one with number `m` makes other queries than point queries. -/
theorem exec_alone (m : Nat) (is : List Nat) {o : SuRF} {ts : List Thread}
    (hp : ∀ (i : Nat) (t : Thread), ts[i]? = some t → i ≠ m → PointOnly t) :
    (∀ e, execThreads o ts is = .error e → ∃ (i : Nat) (t : Thread), ts[i]? = some t ∧ answersT o t = .error e) ∧
    ∀ o' ts', execThreads o ts is = .ok (o', ts') → ∀ (i : Nat) (t : Thread), ts[i]? = some t →
      ∃ t', ts'[i]? = some t' ∧ answersT o' t' = answersT o t ∧ stepsLeft t' ≤ stepsLeft t - is.count i := by
  induction is generalizing o ts with
  | nil =>
    refine ⟨fun e h => (by cases h), fun o' ts' h i t ht => ?_⟩
    cases h
    exact ⟨t, ht, rfl, by simp⟩
  | cons i0 is ih =>
    unfold execThreads
    cases h0 : ts[i0]? with
    | none =>
      dsimp only
      refine ⟨(ih hp).1, fun o' ts' h i t ht => ?_⟩
      obtain ⟨t', h1, h2, h3⟩ := (ih hp).2 o' ts' h i t ht
      have hne : i0 ≠ i := fun hc => by rw [hc, ht] at h0; cases h0
      exact ⟨t', h1, h2, by rw [List.count_cons_of_ne hne]; exact h3⟩
    | some t0 =>
      dsimp only
      cases hst : tstep o t0 with
      | error e =>
        refine ⟨fun e' h => ?_, fun o' ts' h => (by cases h)⟩
        cases h
        refine ⟨i0, t0, h0, ?_⟩
        rw [answersT_step, hst]
        rfl
      | ok x =>
        obtain ⟨o1, t1⟩ := x
        rw [ok_bind]
        dsimp only
        obtain ⟨hfil, hpo⟩ := tstep_filter hst
        have hlt : i0 < ts.length := by
          by_contra hn
          rw [List.getElem?_eq_none (by omega)] at h0
          cases h0
        have hp' : ∀ i t, (ts.set i0 t1)[i]? = some t → i ≠ m → PointOnly t := by
          intro i t ht him
          by_cases hi : i = i0
          · subst hi
            rw [List.getElem?_set_self hlt] at ht
            cases ht
            exact (hpo (hp i t0 h0 him)).2
          · rw [List.getElem?_set_ne (Ne.symm hi)] at ht
            exact hp i t ht him
        have hsame : ∀ i t, ts[i]? = some t → i ≠ i0 → answersT o1 t = answersT o t := by
          intro i t ht hi
          by_cases him : i = m
          · have : o1 = o := (hpo (hp i0 t0 h0 (fun hc => hi (him.trans hc.symm)))).1
            rw [this]
          · exact answersT_other (hp i t ht him) hfil
        have hown : answersT o1 t1 = answersT o t0 := by
          rw [answersT_step o t0, hst, ok_bind]
        refine ⟨fun e h => ?_, fun o' ts' h i t ht => ?_⟩
        · obtain ⟨i, t, ht, he⟩ := (ih hp').1 e h
          by_cases hi : i = i0
          · subst hi
            rw [List.getElem?_set_self hlt] at ht
            cases ht
            exact ⟨i, t0, h0, hown ▸ he⟩
          · rw [List.getElem?_set_ne (Ne.symm hi)] at ht
            exact ⟨i, t, ht, hsame i t ht hi ▸ he⟩
        · by_cases hi : i = i0
          · subst hi
            rw [h0] at ht
            cases ht
            obtain ⟨t', h1, h2, h3⟩ := (ih hp').2 o' ts' h i t1 (List.getElem?_set_self hlt)
            refine ⟨t', h1, h2.trans hown, ?_⟩
            have := stepsLeft_step hst
            rw [List.count_cons_self]
            omega
          · obtain ⟨t', h1, h2, h3⟩ := (ih hp').2 o' ts' h i t (by rw [List.getElem?_set_ne (Ne.symm hi)]; exact ht)
            exact ⟨t', h1, h2.trans (hsame i t ht hi), by rw [List.count_cons_of_ne (Ne.symm hi)]; exact h3⟩

/-! ## C42 -/

/-- Several threads query one object at the same time, and at most one of them makes other queries than `lookupKey`.  In every order of their steps:
the answers of every thread are, as far as it has got, the answers its queries get one by one from an object just built; a thread that has been given 6 steps for each
query has got all of them; and nothing fails unless one of the queries fails by itself.
Missing from C42: two threads that both call `lookupRange` or `approxCount` (`C42_refuted`). -/
theorem C42_partial (h : Setting cfg keys) (hs : Env.strict = false) :
    ∃ o, SuRF.create cfg keys = .ok o ∧ ∀ (css : List (List Call)) (m : Nat),
      (∀ i cs, css[i]? = some cs → i ≠ m → ∀ c ∈ cs, c.isLookup = true) → ∀ is,
      (∀ e, execThreads o (css.map Thread.new) is = .error e →
        ∃ cs ∈ css, (cs.mapM fun c => Prod.fst <$> call o c) = .error e) ∧
      ∀ o' ts', execThreads o (css.map Thread.new) is = .ok (o', ts') → ∀ i cs, css[i]? = some cs →
        ∃ t, ts'[i]? = some t ∧ ∀ as, (cs.mapM fun c => Prod.fst <$> call o c) = .ok as →
          t.out <+: as ∧ (6 * cs.length ≤ is.count i → t.out = as) := by
  obtain ⟨o, e, h9⟩ := C09 h hs
  refine ⟨o, e, fun css m hp is => ?_⟩
  have hp' : ∀ i t, (css.map Thread.new)[i]? = some t → i ≠ m → PointOnly t := by
    intro i t ht him
    rw [List.getElem?_map] at ht
    cases hc : css[i]? with
    | none => rw [hc] at ht; cases ht
    | some cs =>
      rw [hc] at ht
      cases ht
      exact ⟨fun l hl => (by cases hl), hp i cs hc him⟩
  obtain ⟨h1, h2⟩ := exec_alone m is (o := o) hp'
  refine ⟨fun e he => ?_, fun o' ts' he i cs hc => ?_⟩
  · obtain ⟨i, t, ht, ha⟩ := h1 e he
    rw [List.getElem?_map] at ht
    cases hc : css[i]? with
    | none => rw [hc] at ht; cases ht
    | some cs =>
      rw [hc] at ht
      cases ht
      rw [answersT_new, h9] at ha
      exact ⟨cs, List.mem_of_getElem? hc, ha⟩
  · obtain ⟨t, ht, ha, hl⟩ := h2 o' ts' he i (Thread.new cs) (by rw [List.getElem?_map, hc]; rfl)
    refine ⟨t, ht, fun as has => ?_⟩
    rw [answersT_new, h9, has] at ha
    refine ⟨answersT_out ha, fun hcount => ?_⟩
    have h0 : stepsLeft t = 0 := by
      have : stepsLeft (Thread.new cs) = 6 * cs.length := by simp [stepsLeft, Thread.new]
      omega
    rw [answersT_done h0] at ha
    cases ha
    rfl

/-- The answers the threads have got after an execution. -/
def outputs (cfg : Config) (keys : List Key) (css : List (List Call)) (is : List Nat) : R (List (List Answer)) := do
  let o ← SuRF.create cfg keys
  let (_, ts) ← execThreads o (css.map Thread.new) is
  return ts.map Thread.out

end

/-! ## Example and refutation -/

/-- A thread with a range query and two with point queries meet the hypotheses of `C42_partial`. -/
def thCalls : List (List Call) := [[.lookup [97, 98, 101], .lookup [99]], [.range [97, 98, 104] true [97, 99] true], [.lookup [98]]]

example : Setting cfgReal8 rgKeys ∧ ∀ i cs, thCalls[i]? = some cs → i ≠ 1 → ∀ c ∈ cs, c.isLookup = true := by
  refine ⟨rgSetting.2.1, fun i cs h hi => ?_⟩
  match i with
  | 0 => cases h; simp [Call.isLookup]
  | 1 => exact absurd rfl hi
  | 2 => cases h; simp [Call.isLookup]
  | n + 3 => cases h

theorem threads_example : @outputs Env.x86 cfgReal8 rgKeys thCalls [0, 1, 1, 2, 0, 1, 2, 1, 0, 0, 1, 2, 0, 0, 0] =
    .ok [[.bool true, .bool false], [.bool true], [.bool true]] := by decide +kernel

/-- C42 fails for two threads that call `lookupRange`: while the first one is in front of the test of the iterator, the second one clears it.
The first thread is told that there is no key between "abh" and "ac", although "abkx" is stored. -/
theorem C42_refuted :
    @outputs Env.x86 cfgReal8 rgKeys [[.range [97, 98, 104] true [97, 99] true], [.range [98] true [98] true]]
      [0, 0, 0, 0, 1, 1, 0, 1, 1, 1] = .ok [[.bool false], [.bool true]] ∧
    @rangeQ Env.x86 cfgReal8 rgKeys [97, 98, 104] true [97, 99] true = .ok true ∧
    ∃ k ∈ rgKeys, Spec.InRange [97, 98, 104] true [97, 99] true k := by
  refine ⟨by decide +kernel, by decide +kernel, [97, 98, 107, 120], by decide, Or.inl (by decide), Or.inl (by decide)⟩

end Surf.Props
