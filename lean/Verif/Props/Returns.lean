import Verif.Proof.Loose
import Verif.Props.History
import Verif.Props.CountWitness

/-!
# Every call returns (C70)

Whatever the position a seek finds, right or wrong: the call comes back, and so do all steps and observations that follow.
-/

set_option linter.unusedSectionVars false
set_option autoImplicit false
set_option maxRecDepth 1000000

namespace Surf.Props
open Surf Trie

section
variable [Env] {cfg : Config} {keys : List Key}

/-- The iterators a program can hold: those of `moveToFirst`, `moveToLast` and of all seeks, and what `++` and `--` make of them. -/
inductive Held (f : Filter) : Iter → Prop
  | first {it : Iter} : f.moveToFirst = .ok it → Held f it
  | last {it : Iter} : f.moveToLast = .ok it → Held f it
  | seek {it : Iter} (q : Key) (incl : Bool) : f.moveToKeyGreaterThan q incl = .ok it → (q ≠ [] ∨ Env.ndebug = true) → Held f it
  | seekLess {it : Iter} (q : Key) (incl : Bool) : f.moveToKeyLessThan q incl = .ok it → (q ≠ [] ∨ Env.ndebug = true) → Held f it
  | move {it it' : Iter} (m : Spec.Move) (r : Bool) : Held f it → doMove f it m = .ok (r, it') → Held f it'

theorem ok_inj' {α : Type} {x : R α} {a b : α} (h : x = .ok a) (h' : x = .ok b) : a = b := by
  rw [h] at h'; cases h'; rfl

theorem seek_returns (h : Setting cfg keys) (hs : Env.strict = false) {f : Filter} {s : Nat}
    (hr : FRep cfg (leafStrs keys) (swKeys cfg keys) s f) (hpad : PadOk f (leafStrs keys) s) (q : Key) (incl : Bool)
    (hne : q ≠ [] ∨ Env.ndebug = true) : ∃ it, f.moveToKeyGreaterThan q incl = .ok it ∧ IL (leafStrs keys) s it := by
  obtain ⟨it, e, hi⟩ := hr.seekL hs hpad h.root q hne incl hr.newClean
  exact ⟨it, e, hi⟩

theorem less_returns (h : Setting cfg keys) (hs : Env.strict = false) {f : Filter} {s : Nat}
    (hr : FRep cfg (leafStrs keys) (swKeys cfg keys) s f) (hpad : PadOk f (leafStrs keys) s)
    (hlk : ∀ q, ∃ b, f.lookupKey q = .ok b) (q : Key) (incl : Bool)
    (hne : q ≠ [] ∨ Env.ndebug = true) : ∃ it, f.moveToKeyLessThan q incl = .ok it ∧ IL (leafStrs keys) s it := by
  obtain ⟨it, e, hi⟩ := seek_returns h hs hr hpad q false hne
  unfold Filter.moveToKeyLessThan
  rw [e, ok_bind]
  split
  · obtain ⟨it, t, e1, -, ha, -⟩ := hr.moveToLast h.root
    exact ⟨it, e1, ha.il⟩
  · split
    · obtain ⟨r1, it1, e1, hi1⟩ := hr.stepDec hs h.root hi
      obtain ⟨b, eb⟩ := hlk q
      rw [e1, ok_bind]
      dsimp only
      rw [eb, ok_bind]
      cases b
      · exact ⟨_, rfl, hi1⟩
      · obtain ⟨r2, it2, e2, hi2⟩ := hr.stepDec hs h.root hi1
        simp only [if_true]
        rw [e2]
        exact ⟨_, rfl, hi2⟩
    · exact ⟨_, rfl, hi⟩

theorem Held.il (h : Setting cfg keys) (hs : Env.strict = false) {f : Filter} {s : Nat}
    (hr : FRep cfg (leafStrs keys) (swKeys cfg keys) s f) (hpad : PadOk f (leafStrs keys) s)
    (hlk : ∀ q, ∃ b, f.lookupKey q = .ok b) {it : Iter} (hh : Held f it) : IL (leafStrs keys) s it := by
  induction hh with
  | first e =>
    obtain ⟨it', t, e', -, ha, -⟩ := hr.moveToFirst hs h.root
    exact ok_inj' e' e ▸ ha.il
  | last e =>
    obtain ⟨it', t, e', -, ha, -⟩ := hr.moveToLast h.root
    exact ok_inj' e' e ▸ ha.il
  | seek q incl e hne =>
    obtain ⟨it', e', hi⟩ := seek_returns h hs hr hpad q incl hne
    exact ok_inj' e' e ▸ hi
  | seekLess q incl e hne =>
    obtain ⟨it', e', hi⟩ := less_returns h hs hr hpad hlk q incl hne
    exact ok_inj' e' e ▸ hi
  | move m r _ e ih =>
    cases m with
    | next =>
      obtain ⟨r', it', e', hi⟩ := hr.stepInc hs ih
      have := ok_inj' e' e
      cases this
      exact hi
    | prev =>
      obtain ⟨r', it', e', hi⟩ := hr.stepDec hs h.root ih
      have := ok_inj' e' e
      cases this
      exact hi

/-- The queries the theorem speaks of: no counts, and the empty left bound only in builds without `assert`s. -/
def CallPlain : Call → Prop
  | .lookup _ => True
  | .range l _ r _ => (l ≠ [] ∨ Env.ndebug = true) ∧ r.length < 2 ^ 64
  | .count _ _ => False

theorem range_returns (h : Setting cfg keys) (hs : Env.strict = false) {f : Filter} {s : Nat}
    (hr : FRep cfg (leafStrs keys) (swKeys cfg keys) s f) (hpad : PadOk f (leafStrs keys) s) (left : Key) (li : Bool) (right : Key) (ri : Bool)
    (hne : left ≠ [] ∨ Env.ndebug = true) (h64 : right.length < 2 ^ 64) :
    ∃ r, f.lookupRange (Iter.new f) left li right ri = .ok r := by
  obtain ⟨r0, e1, hi⟩ := hr.seekL hs hpad h.root left hne li (clear_clean hr)
  obtain ⟨it, e2, hd, hsp⟩ := rangeSeek_of_seek (f := f) (it := Iter.new f) e1
  have hi' : IL (leafStrs keys) s it := ⟨hd ▸ hi.d, hsp ▸ hi.sp⟩
  unfold Filter.lookupRange
  rw [e2, ok_bind]
  cases hv : it.isValid
  · exact ⟨_, rfl⟩
  · simp only [Bool.not_true, Bool.false_eq_true, if_false]
    obtain ⟨c, ec⟩ := hr.compareL hs hi' hv right h64
    rw [ec, ok_bind]
    split
    · exact ⟨_, rfl⟩
    · split <;> exact ⟨_, rfl⟩

/-- Point and range queries, made one after the other on one object, all return; so do all seeks, and on every iterator a program
can come to hold, wherever it stands, `++`, `--`, `getSuffix`, `getKeyWithSuffix` and, if it is valid, `compare`.  None of them stops at an
`assert`, leaves a key or position array, or runs without end.  Missing from C70: the empty string as the bound of a seek or a range in builds with
`assert`s (`C70_refuted`), counts (`C70_count_refuted`), `SingleFF` lists (see C53). -/
theorem C70_partial (h : Setting cfg keys) (hs : Env.strict = false) (hff : ¬ Spec.SingleFF keys) :
    ∃ f, SuRF.create cfg keys = .ok ⟨f, Iter.new f, Iter.new f⟩ ∧
      (∀ cs, (∀ c ∈ cs, CallPlain c) → ∃ as, answers ⟨f, Iter.new f, Iter.new f⟩ cs = .ok as) ∧
      (∃ it, f.moveToFirst = .ok it) ∧ (∃ it, f.moveToLast = .ok it) ∧
      (∀ q incl, (q ≠ [] ∨ Env.ndebug = true) → (∃ it, f.moveToKeyGreaterThan q incl = .ok it) ∧ ∃ it, f.moveToKeyLessThan q incl = .ok it) ∧
      ∀ it, Held f it →
        (∀ ms, ∃ r, runMoves f ms it = .ok r) ∧ (∃ r, it.getSuffix f = .ok r) ∧ (∃ r, it.getKeyWithSuffix f = .ok r) ∧
        (it.isValid = true → ∀ q : Key, q.length < 2 ^ 64 → ∃ c, it.compare f q = .ok c) := by
  obtain ⟨f, s, e, hr, hpad⟩ := h.create hs hff
  have hlk := lookup_total h hs hff e
  refine ⟨f, by unfold SuRF.create; rw [e]; rfl, fun cs hcs => ?_, ?_, ?_, fun q incl hne => ⟨?_, ?_⟩, fun it hh => ?_⟩
  · rw [answers_fresh (hr.navAll hs) cs rfl (Sized.new f)]
    induction cs with
    | nil => exact ⟨_, rfl⟩
    | cons c cs ih =>
      obtain ⟨as, ea⟩ := ih fun c' hc' => hcs c' (List.mem_cons_of_mem _ hc')
      have hc := hcs c (List.mem_cons_self ..)
      have h1 : ∃ r, call ⟨f, Iter.new f, Iter.new f⟩ c = .ok r := by
        cases c with
        | lookup k =>
          obtain ⟨b, eb⟩ := hlk k
          unfold call SuRF.lookupKey
          dsimp only
          rw [eb]
          exact ⟨_, rfl⟩
        | range l li r ri =>
          obtain ⟨x, ex⟩ := range_returns h hs hr hpad l li r ri hc.1 hc.2
          unfold call SuRF.lookupRange
          dsimp only
          rw [ex]
          exact ⟨_, rfl⟩
        | count l r => exact hc.elim
      obtain ⟨r, er⟩ := h1
      rw [List.mapM_cons, er, ea]
      exact ⟨_, rfl⟩
  · obtain ⟨it, t, e', -⟩ := hr.moveToFirst hs h.root
    exact ⟨it, e'⟩
  · obtain ⟨it, t, e', -⟩ := hr.moveToLast h.root
    exact ⟨it, e'⟩
  · obtain ⟨it, e', -⟩ := seek_returns h hs hr hpad q incl hne
    exact ⟨it, e'⟩
  · obtain ⟨it, e', -⟩ := less_returns h hs hr hpad hlk q incl hne
    exact ⟨it, e'⟩
  · have hi := hh.il h hs hr hpad hlk
    obtain ⟨h1, h2⟩ := hr.suffixL hs hi
    refine ⟨fun ms => ?_, h1, h2, fun hv q hq => hr.compareL hs hi hv q hq⟩
    clear hh h1 h2
    induction ms generalizing it with
    | nil => exact ⟨_, rfl⟩
    | cons m ms ih =>
      unfold runMoves
      cases m with
      | next =>
        obtain ⟨r, it', e', hi'⟩ := hr.stepInc hs hi
        obtain ⟨r', e''⟩ := ih it' hi'
        unfold doMove
        rw [e', ok_bind]
        dsimp only
        rw [e'']
        exact ⟨_, rfl⟩
      | prev =>
        obtain ⟨r, it', e', hi'⟩ := hr.stepDec hs h.root hi
        obtain ⟨r', e''⟩ := ih it' hi'
        unfold doMove
        rw [e', ok_bind]
        dsimp only
        rw [e'']
        exact ⟨_, rfl⟩

end

/-! ## Example and refutations -/

/-- The hypotheses hold for `preKeys`, where the seek for "abh" misses a key (`C14_refuted`) and the range from it is answered wrongly (`C08_refuted`): the calls
return, as do the steps behind them. -/
theorem C70_example : Setting cfgNone preKeys ∧ ¬ Spec.SingleFF preKeys ∧
    @seekQ Env.x86 cfgNone preKeys [97, 98, 104] true [.next, .prev, .prev] = .ok ((false, false, []), [false, false, false], false, []) ∧
    @lessQ Env.x86 cfgNone preKeys [97, 98, 104] false = .ok (false, true, [97, 98, 107]) := by
  refine ⟨⟨by decide, rfl, by decide, ⟨by decide, by decide +kernel, by decide +kernel⟩, fits_of_total (by decide) (by decide +kernel)⟩, ?_,
    by decide +kernel, by decide +kernel⟩
  rintro ⟨k, h1, h2⟩
  have h3 := h1 [97, 98, 107] (by decide +kernel)
  subst h3
  simp at h2

/-- With `assert`s, a seek for the empty string stops the program. -/
theorem C70_refuted : @seekQ Env.x86dbg cfgNone [[97, 98], [97, 99], [98]] [] true [] = .error .assertFail := empty_seek_aborts

/-- A count between stored keys may run without end. -/
theorem C70_count_refuted : Setting cfgNone abKeys ∧ @countQ Env.x86 cfgNone abKeys [97, 98] [98, 97] = .error .diverge :=
  ⟨abSetting.1, C21_past_refuted.2⟩

end Surf.Props
