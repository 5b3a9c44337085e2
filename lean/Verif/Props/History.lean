import Verif.Model.Threads
import Verif.Proof.History
import Verif.Props.Range
import Verif.Props.RangeWitness

/-!
# Queries on one object, one after the other
-/

set_option autoImplicit false
set_option maxRecDepth 1000000

namespace Surf.Props
open Surf Trie

section
variable [Env] {cfg : Config} {keys : List Key}

/-- One query: the answer and the object left behind. -/
def call (o : SuRF) : Call → R (Answer × SuRF)
  | .lookup k => do
    let b ← o.lookupKey k
    return (.bool b, o)
  | .range l li r ri => do
    let (b, o) ← o.lookupRange l li r ri
    return (.bool b, o)
  | .count l r => do
    let (n, o) ← o.approxCount l r
    return (.nat n, o)

/-- The answers of a sequence of queries, each made on the object the previous ones left behind. -/
def answers : SuRF → List Call → R (List Answer)
  | _, [] => .ok []
  | o, c :: cs => do
    let (a, o) ← call o c
    let as ← answers o cs
    return a :: as

/-- The object after a sequence of queries. -/
def afterCalls : SuRF → List Call → R SuRF
  | o, [] => .ok o
  | o, c :: cs => do
    let (_, o) ← call o c
    afterCalls o cs

theorem call_fresh {f : Filter} (hnav : NavAll f) {o : SuRF} (hf : o.filter = f) (ho : Sized f o.iter) (c : Call) :
    RRel (fun x y => x.1 = y.1 ∧ x.2.filter = f ∧ Sized f x.2.iter) (call o c) (call ⟨f, Iter.new f, Iter.new f⟩ c) := by
  subst hf
  cases c with
  | lookup k => exact RRel.same _ fun b _ => RRel.pure ⟨rfl, rfl, ho⟩
  | range l li r ri =>
    unfold call SuRF.lookupRange
    dsimp only
    simp only [bind_assoc]
    exact RRel.bind (hnav.range ho l li r ri) fun x y _ _ hxy => RRel.pure ⟨by rw [hxy.1], rfl, hxy.2⟩
  | count l r =>
    unfold call SuRF.approxCount Filter.approxCount
    dsimp only
    simp only [bind_assoc]
    refine RRel.same _ fun it hit => ?_
    have hsz := hnav.seek hit
    split
    · exact RRel.pure ⟨rfl, rfl, hsz⟩
    · simp only [bind_assoc]
      refine RRel.same _ fun it2 _ => ?_
      split
      · simp only [bind_assoc]
        exact RRel.same _ fun it3 _ => RRel.same _ fun n _ => RRel.pure ⟨rfl, rfl, hsz⟩
      · simp only [bind_assoc]
        exact RRel.same _ fun it3 _ => RRel.same _ fun n _ => RRel.pure ⟨rfl, rfl, hsz⟩

theorem answers_fresh {f : Filter} (hnav : NavAll f) (cs : List Call) {o : SuRF} (hf : o.filter = f) (ho : Sized f o.iter) :
    answers o cs = cs.mapM fun c => Prod.fst <$> call ⟨f, Iter.new f, Iter.new f⟩ c := by
  induction cs generalizing o with
  | nil => rfl
  | cons c cs ih =>
    rw [List.mapM_cons]
    unfold answers
    have h := call_fresh hnav hf ho c
    cases h1 : call o c with
    | error e => cases h2 : call ⟨f, Iter.new f, Iter.new f⟩ c with
      | error e' => rw [h1, h2] at h; cases h; rfl
      | ok y => rw [h1, h2] at h; exact h.elim
    | ok x => cases h2 : call ⟨f, Iter.new f, Iter.new f⟩ c with
      | error e' => rw [h1, h2] at h; exact h.elim
      | ok y =>
        rw [h1, h2] at h
        obtain ⟨a, o'⟩ := x
        obtain ⟨a', o2⟩ := y
        obtain ⟨h3, h4, h5⟩ := h
        dsimp only at h3 h4 h5
        subst h3
        rw [ok_bind]
        dsimp only
        rw [ih h4 h5]
        rfl

theorem afterCalls_sized {f : Filter} (hnav : NavAll f) (cs : List Call) {o o' : SuRF} (hf : o.filter = f) (ho : Sized f o.iter)
    (e : afterCalls o cs = .ok o') : o'.filter = f ∧ Sized f o'.iter := by
  induction cs generalizing o with
  | nil => cases e; exact ⟨hf, ho⟩
  | cons c cs ih =>
    unfold afterCalls at e
    have h := call_fresh hnav hf ho c
    cases h1 : call o c with
    | error e' => rw [h1] at e; cases e
    | ok x =>
      rw [h1, ok_bind] at e
      cases h2 : call ⟨f, Iter.new f, Iter.new f⟩ c with
      | error e' => rw [h1, h2] at h; exact h.elim
      | ok y => rw [h1, h2] at h; exact ih h.2.1 h.2.2 e

/-- The answers of a sequence of queries made on one object one after the other are those each query gets from an object that
was just built; this includes queries that fail. -/
theorem C09 (h : Setting cfg keys) (hs : Env.strict = false) :
    ∃ o, SuRF.create cfg keys = .ok o ∧ ∀ cs, answers o cs = cs.mapM fun c => Prod.fst <$> call o c := by
  have key : ∀ f, Filter.create cfg keys = .ok f → NavAll f →
      ∃ o, SuRF.create cfg keys = .ok o ∧ ∀ cs, answers o cs = cs.mapM fun c => Prod.fst <$> call o c := by
    intro f e hnav
    exact ⟨⟨f, Iter.new f, Iter.new f⟩, by unfold SuRF.create; rw [e]; rfl, fun cs => answers_fresh hnav cs rfl (Sized.new f)⟩
  by_cases hff : Spec.SingleFF keys
  · obtain ⟨f, s, sw, e, hr, hp⟩ := h.create_ff hs hff
    exact key f e (hr.navAll hs)
  · obtain ⟨f, s, e, hr, hp⟩ := h.create hs hff
    exact key f e (hr.navAll hs)

/-- `C08_partial` for an object on which any queries were made before. -/
theorem C08_history_partial (h : Setting cfg keys) (hs : Env.strict = false) (hff : ¬ Spec.SingleFF keys) :
    ∃ o, SuRF.create cfg keys = .ok o ∧ ∀ cs o1, afterCalls o cs = .ok o1 → ∀ left li right ri, (left ≠ [] ∨ Env.ndebug = true) →
      right.length < 2 ^ 64 →
      Spec.SeekSafe keys o.filter.getSparseStartLevel left → Suffixes cfg keys left → Suffixes cfg keys right →
      (cfg.suffixType = .kReal ∨ cfg.suffixType = .kMixed →
        Spec.LongEnough keys o.filter.getSparseStartLevel left) →
      ∃ r o', o1.lookupRange left li right ri = .ok (r, o') ∧
        ((∃ k ∈ keys, Spec.InRange left li right ri k) → r = true) := by
  obtain ⟨f, e, h8⟩ := C08_partial h hs hff
  refine ⟨_, e, fun cs o1 e1 left li right ri a1 a2 a3 a4 a5 a6 => ?_⟩
  obtain ⟨r, o', e2, hr⟩ := h8 left li right ri a1 a2 a3 a4 a5 a6
  obtain ⟨f', s, e', hr', hp'⟩ := h.create hs hff
  have hff' : f' = f := by
    unfold SuRF.create at e
    rw [e'] at e
    cases e; rfl
  subst hff'
  have hnav := hr'.navAll hs
  obtain ⟨h3, h4⟩ := afterCalls_sized hnav cs (o := ⟨f', Iter.new f', Iter.new f'⟩) rfl (Sized.new f') e1
  have h5 := call_fresh hnav h3 h4 (.range left li right ri)
  unfold call at h5
  dsimp only at h5
  rw [e2] at h5
  cases h6 : o1.lookupRange left li right ri with
  | error x => rw [h6] at h5; exact h5.elim
  | ok x =>
    rw [h6] at h5
    obtain ⟨r', o2⟩ := x
    have h7 : Answer.bool r' = Answer.bool r := h5.1
    injection h7 with h8
    exact ⟨r', o2, rfl, h8 ▸ hr⟩
end

/-- A sequence of queries to which the theorem applies, and the answers. -/
def demoCalls : List Call :=
  [.range [97, 98, 100] true [97, 98, 102] false, .count [97] [97], .range [97, 98, 104] true [97, 98, 105] true, .lookup [98],
   .range [98, 100] true [99] true, .range [97, 98, 100] true [97, 98, 102] false]

theorem demo_answers : (do let o ← @SuRF.create Env.x86 cfgReal8 rgKeys; @answers Env.x86 o demoCalls : R (List Answer)) =
    .ok [.bool true, .nat 0, .bool false, .bool true, .bool true, .bool true] := by decide +kernel

end Surf.Props
