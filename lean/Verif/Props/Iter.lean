import Verif.Proof.IterKeys
import Verif.Props.Lookup

/-!
# Iteration (C10–C13)

The theorems hold for every machine with `Env.strict = false`, with and without `assert`s.
-/

set_option linter.unusedSectionVars false
set_option autoImplicit false

namespace Surf.Props
open Surf Trie

section
variable [Env]

/-- One `++` or `--`. -/
def doMove (f : Filter) (it : Iter) : Spec.Move → R (Bool × Iter)
  | .next => it.inc f
  | .prev => it.dec f

/-- A sequence of `++` and `--`; the values returned by the operators and the resulting iterator. -/
def runMoves (f : Filter) : List Spec.Move → Iter → R (List Bool × Iter)
  | [], it => .ok ([], it)
  | m :: ms, it => do
    let (r, it) ← doMove f it m
    let (rs, it) ← runMoves f ms it
    return (r :: rs, it)

/-- What can be observed of an iterator at position `o` of the distinct keys: `isValid` and `getKey`
(the truncated form of the key). -/
def Shows (keys : List Key) (it : Iter) : Option Nat → Prop
  | none => it.isValid = false ∧ it.getKey = []
  | some i => it.isValid = true ∧ ∃ k, keys.dedup[i]? = some k ∧ it.getKey = Spec.stored keys k

variable {cfg : Config} {keys : List Key}

/-- Position of an iterator, internally. -/
def Pos (keys : List Key) (s : Nat) (it : Iter) : Option Nat → Prop
  | none => it.isValid = false
  | some i => ∃ k, keys.dedup[i]? = some k ∧ At (leafStrs keys) s it (leafOf keys k)

theorem Pos.shows (h : Setting cfg keys) {s : Nat} {it : Iter} {o : Option Nat} (hp : Pos keys s it o) : Shows keys it o := by
  cases o with
  | none =>
    refine ⟨hp, ?_⟩
    unfold Iter.getKey
    rw [show it.isValid = false from hp]
    rfl
  | some i =>
    obtain ⟨k, hk, ha⟩ := hp
    exact ⟨ha.isValid, k, hk, by rw [ha.getKey h.wf, bytesOf_leaf]⟩

theorem Pos.next (h : Setting cfg keys) (hs : Env.strict = false) {f : Filter} {s : Nat}
    (hr : FRep cfg (leafStrs keys) (swKeys cfg keys) s f) {it : Iter} {o : Option Nat} (hp : Pos keys s it o) :
    ∃ it', it.inc f = .ok ((Spec.step keys.dedup.length .next o).isSome, it') ∧
      Pos keys s it' (Spec.step keys.dedup.length .next o) := by
  cases o with
  | none =>
    refine ⟨it, ?_, hp⟩
    unfold Iter.inc
    rw [show it.isValid = false from hp]
    rfl
  | some i =>
    obtain ⟨k, hk, ha⟩ := hp
    obtain ⟨r, it', e, h1⟩ := hr.inc hs ha
    refine ⟨it', ?_⟩
    rcases h1 with ⟨rfl, h2, h3⟩ | ⟨rfl, t, h2, h3⟩
    · have := h.noNext_get hk h3
      simp only [Spec.step]
      rw [if_neg (by omega)]
      exact ⟨e, h2⟩
    · obtain ⟨k', hk', rfl⟩ := h.next_get hk h2
      obtain ⟨hi, -⟩ := List.getElem?_eq_some_iff.1 hk'
      simp only [Spec.step]
      rw [if_pos hi]
      exact ⟨e, k', hk', h3⟩

theorem Pos.prev (h : Setting cfg keys) {f : Filter} {s : Nat}
    (hr : FRep cfg (leafStrs keys) (swKeys cfg keys) s f) {it : Iter} {o : Option Nat} (hp : Pos keys s it o) :
    ∃ r it', it.dec f = .ok (r, it') ∧
      ((r = (Spec.step keys.dedup.length .prev o).isSome ∧ Pos keys s it' (Spec.step keys.dedup.length .prev o)) ∨
       (r = false ∧ Pos keys s it' none ∧ ∃ i k, Spec.step keys.dedup.length .prev o = some i ∧ keys.dedup[i]? = some k ∧
          k.head? = some 0)) := by
  cases o with
  | none =>
    refine ⟨false, it, ?_, Or.inl ⟨rfl, hp⟩⟩
    unfold Iter.dec
    rw [show it.isValid = false from hp]
    rfl
  | some i =>
    obtain ⟨k, hk, ha⟩ := hp
    obtain ⟨r, it', e, h1⟩ := hr.dec h.root ha
    refine ⟨r, it', e, ?_⟩
    rcases h1 with ⟨rfl, h2, h3⟩ | ⟨rfl, t, h2, h3⟩
    · rcases i with _ | i
      · left
        simp only [Spec.step]
        exact ⟨rfl, h2⟩
      · right
        obtain ⟨hi, -⟩ := List.getElem?_eq_some_iff.1 hk
        obtain ⟨u, hu⟩ : ∃ u, keys.dedup[i]? = some u := ⟨_, List.getElem?_eq_getElem (by omega)⟩
        refine ⟨rfl, h2, i, u, by simp [Spec.step], hu, ?_⟩
        exact low_leaf (h.valid.nonempty u (get_mem hu)) (h3 _ (h.get_prev hk hu))
    · obtain ⟨j, k', rfl, hk', rfl⟩ := h.prev_get hk h2
      left
      simp only [Spec.step]
      rw [if_pos (by omega)]
      exact ⟨rfl, k', hk', h3⟩

/-- Any sequence of steps. -/
theorem Pos.run (h : Setting cfg keys) (hs : Env.strict = false) {f : Filter} {s : Nat}
    (hr : FRep cfg (leafStrs keys) (swKeys cfg keys) s f) (ms : List Spec.Move) {it : Iter} {o : Option Nat}
    (hp : Pos keys s it o) (hz : Spec.Move.prev ∈ ms → ∀ k ∈ keys, k.head? ≠ some 0) :
    ∃ it', runMoves f ms it = .ok ((Spec.trace keys.dedup.length ms o).map Option.isSome, it') ∧
      Pos keys s it' (Spec.after keys.dedup.length ms o) := by
  induction ms generalizing it o with
  | nil => exact ⟨it, rfl, hp⟩
  | cons m ms ih =>
    have key : ∃ it', doMove f it m =
        .ok ((Spec.step keys.dedup.length m o).isSome, it') ∧ Pos keys s it' (Spec.step keys.dedup.length m o) := by
      cases m with
      | next => exact hp.next h hs hr
      | prev =>
        obtain ⟨r, it', e, h1⟩ := hp.prev h hr
        rcases h1 with ⟨rfl, h1⟩ | ⟨-, -, i, k, -, h2, h3⟩
        · exact ⟨it', e, h1⟩
        · exact absurd h3 (hz (by simp) k (get_mem h2))
    obtain ⟨it1, e1, hp1⟩ := key
    obtain ⟨it2, e2, hp2⟩ := ih hp1 fun hm => hz (List.mem_cons_of_mem _ hm)
    refine ⟨it2, ?_, hp2⟩
    unfold runMoves
    rw [e1, ok_bind]
    dsimp only
    rw [e2]
    rfl

/-- Any sequence of steps leads to a position or to an invalid iterator. -/
theorem Pos.run_any (h : Setting cfg keys) (hs : Env.strict = false) {f : Filter} {s : Nat}
    (hr : FRep cfg (leafStrs keys) (swKeys cfg keys) s f) (ms : List Spec.Move) {it : Iter}
    (hp : ∃ o, Pos keys s it o) : ∃ rs it', runMoves f ms it = .ok (rs, it') ∧ ∃ o, Pos keys s it' o := by
  induction ms generalizing it with
  | nil => exact ⟨[], it, rfl, hp⟩
  | cons m ms ih =>
    obtain ⟨o, hp⟩ := hp
    have key : ∃ (r : Bool) (it' : Iter), doMove f it m = .ok (r, it') ∧ ∃ o, Pos keys s it' o := by
      cases m with
      | next =>
        obtain ⟨it', e, h1⟩ := hp.next h hs hr
        exact ⟨_, it', e, _, h1⟩
      | prev =>
        obtain ⟨r, it', e, h1⟩ := hp.prev h hr
        rcases h1 with ⟨-, h1⟩ | ⟨-, h1, -⟩
        · exact ⟨_, it', e, _, h1⟩
        · exact ⟨_, it', e, _, h1⟩
    obtain ⟨r, it1, e1, hp1⟩ := key
    obtain ⟨rs, it2, e2, hp2⟩ := ih hp1
    refine ⟨r :: rs, it2, ?_, hp2⟩
    unfold runMoves
    rw [e1, ok_bind]
    dsimp only
    rw [e2]
    rfl

theorem Pos.first (h : Setting cfg keys) (hs : Env.strict = false) {f : Filter} {s : Nat}
    (hr : FRep cfg (leafStrs keys) (swKeys cfg keys) s f) :
    ∃ it, f.moveToFirst = .ok it ∧ Pos keys s it (some 0) := by
  obtain ⟨it, t, e, h1, h2, -⟩ := hr.moveToFirst hs h.root
  obtain ⟨k, hk, rfl⟩ := h.first_get h1
  exact ⟨it, e, k, hk, h2⟩

theorem Pos.last (h : Setting cfg keys) {f : Filter} {s : Nat} (hr : FRep cfg (leafStrs keys) (swKeys cfg keys) s f) :
    ∃ it, f.moveToLast = .ok it ∧ Pos keys s it (some (keys.dedup.length - 1)) := by
  obtain ⟨it, t, e, h1, h2, -⟩ := hr.moveToLast h.root
  obtain ⟨k, hk, rfl⟩ := h.last_get h1
  exact ⟨it, e, k, hk, h2⟩

/-! ## C10, C11: both ends -/

/-- `moveToFirst` delivers a valid iterator at the smallest key.  Missing from C10: lists with a
single different key that starts with 0xFF (`C10_refuted`). -/
theorem C10_partial (h : Setting cfg keys) (hs : Env.strict = false) (hff : ¬ Spec.SingleFF keys) :
    ∃ f, Filter.create cfg keys = .ok f ∧ ∃ it, f.moveToFirst = .ok it ∧ it.isValid = true ∧
      ∃ k ∈ keys, (∀ k' ∈ keys, k ≤ k') ∧ it.getKey = Spec.stored keys k := by
  obtain ⟨f, s, e, hr, -⟩ := h.create hs hff
  obtain ⟨it, e1, hp⟩ := Pos.first h hs hr
  obtain ⟨hv, k, hk, hg⟩ := hp.shows h
  refine ⟨f, e, it, e1, hv, k, get_mem hk, fun k' hk' hlt => ?_, hg⟩
  obtain ⟨i, hi⟩ := mem_dedup_get hk'
  have := (h.dedup_lt hi hk).1 hlt
  omega

/-- `moveToLast` delivers a valid iterator at the largest key.  Missing from C11: lists with a
single different key that starts with 0xFF (`C11_refuted`). -/
theorem C11_partial (h : Setting cfg keys) (hs : Env.strict = false) (hff : ¬ Spec.SingleFF keys) :
    ∃ f, Filter.create cfg keys = .ok f ∧ ∃ it, f.moveToLast = .ok it ∧ it.isValid = true ∧
      ∃ k ∈ keys, (∀ k' ∈ keys, k' ≤ k) ∧ it.getKey = Spec.stored keys k := by
  obtain ⟨f, s, e, hr, -⟩ := h.create hs hff
  obtain ⟨it, e1, hp⟩ := Pos.last h hr
  obtain ⟨hv, k, hk, hg⟩ := hp.shows h
  refine ⟨f, e, it, e1, hv, k, get_mem hk, fun k' hk' hlt => ?_, hg⟩
  obtain ⟨i, hi⟩ := mem_dedup_get hk'
  have h1 := (h.dedup_lt hk hi).1 hlt
  obtain ⟨h2, -⟩ := List.getElem?_eq_some_iff.1 hi
  omega

/-! ## C12, C13: stepping -/

/-- Starting at the first or last key, every sequence of `++` and `--` shows the distinct keys exactly as
a walk along the sorted list of distinct keys does, and the operators return whether the iterator is
valid afterwards.  Missing from C13: sequences with `--` on lists with a key that starts with byte 0x00
(`C13_refuted`), and `SingleFF` lists. -/
theorem C13_partial (h : Setting cfg keys) (hs : Env.strict = false) (hff : ¬ Spec.SingleFF keys) :
    ∃ f, Filter.create cfg keys = .ok f ∧ ∀ ms : List Spec.Move,
      (Spec.Move.prev ∈ ms → ∀ k ∈ keys, k.head? ≠ some 0) →
      (∃ it it', f.moveToFirst = .ok it ∧
        runMoves f ms it = .ok ((Spec.trace keys.dedup.length ms (some 0)).map Option.isSome, it') ∧
        Shows keys it' (Spec.after keys.dedup.length ms (some 0))) ∧
      (∃ it it', f.moveToLast = .ok it ∧
        runMoves f ms it = .ok ((Spec.trace keys.dedup.length ms (some (keys.dedup.length - 1))).map Option.isSome, it') ∧
        Shows keys it' (Spec.after keys.dedup.length ms (some (keys.dedup.length - 1)))) := by
  obtain ⟨f, s, e, hr, -⟩ := h.create hs hff
  refine ⟨f, e, fun ms hz => ⟨?_, ?_⟩⟩
  · obtain ⟨it, e1, hp⟩ := Pos.first h hs hr
    obtain ⟨it', e2, hp'⟩ := hp.run h hs hr ms hz
    exact ⟨it, it', e1, e2, hp'.shows h⟩
  · obtain ⟨it, e1, hp⟩ := Pos.last h hr
    obtain ⟨it', e2, hp'⟩ := hp.run h hs hr ms hz
    exact ⟨it, it', e1, e2, hp'.shows h⟩

omit [Env] in
theorem after_next (n m i : Nat) : Spec.after n (List.replicate m .next) (some i) = if i + m < n ∨ m = 0 then some (i + m) else none := by
  have hnone : ∀ m, Spec.after n (List.replicate m .next) none = none := by
    intro m
    induction m with
    | zero => rfl
    | succ m ih => exact ih
  induction m generalizing i with
  | zero => simp [Spec.after]
  | succ m ih =>
    rw [List.replicate_succ]
    simp only [Spec.after, Spec.step]
    by_cases h1 : i + 1 < n
    · rw [if_pos h1, ih]
      by_cases h2 : i + (m + 1) < n
      · rw [if_pos (Or.inl (by omega)), if_pos (Or.inl h2)]
        congr 1; omega
      · by_cases h3 : m = 0
        · omega
        · rw [if_neg (by omega), if_neg (by omega)]
    · rw [if_neg h1, hnone, if_neg (by omega)]

omit [Env] in
theorem trace_next (n m i : Nat) :
    (Spec.trace n (List.replicate m .next) (some i)).map Option.isSome = (List.range m).map fun j => decide (i + j + 1 < n) := by
  have hnone : ∀ m, (Spec.trace n (List.replicate m .next) none).map Option.isSome = List.replicate m false := by
    intro m
    induction m with
    | zero => rfl
    | succ m ih => rw [List.replicate_succ]; simp [Spec.trace, Spec.step, ih, List.replicate_succ]
  induction m generalizing i with
  | zero => rfl
  | succ m ih =>
    rw [List.replicate_succ, List.range_succ_eq_map]
    simp only [Spec.trace, Spec.step, List.map_cons, List.map_map]
    by_cases h1 : i + 1 < n
    · rw [if_pos h1, ih]
      simp only [Option.isSome_some, Nat.add_zero, decide_eq_true h1, List.cons.injEq, true_and]
      refine List.map_congr_left fun j _ => ?_
      simp only [Function.comp]
      congr 1
      apply propext
      constructor <;> intro h <;> omega
    · rw [if_neg h1, hnone]
      simp only [Option.isSome_none, Nat.add_zero, decide_eq_false h1, List.cons.injEq, true_and]
      refine (List.eq_replicate_iff.2 ?_).symm
      refine ⟨by simp, fun b hb => ?_⟩
      obtain ⟨j, -, rfl⟩ := List.mem_map.1 hb
      simp only [Function.comp]
      exact decide_eq_false (by omega)

/-- **C12** for lists other than a single different key starting with 0xFF: after `n` applications of `++` to
`moveToFirst` the iterator shows the `n`-th distinct key, and is invalid when there is none; the `i`-th
application returned whether there was an `i`-th successor. -/
theorem C12_partial (h : Setting cfg keys) (hs : Env.strict = false) (hff : ¬ Spec.SingleFF keys) :
    ∃ f, Filter.create cfg keys = .ok f ∧ ∃ it, f.moveToFirst = .ok it ∧ ∀ n, ∃ it',
      runMoves f (List.replicate n .next) it = .ok ((List.range n).map (fun i => decide (i + 1 < keys.dedup.length)), it') ∧
      Shows keys it' (if n < keys.dedup.length then some n else none) := by
  obtain ⟨f, s, e, hr, -⟩ := h.create hs hff
  obtain ⟨it, e1, hp⟩ := Pos.first h hs hr
  refine ⟨f, e, it, e1, fun n => ?_⟩
  obtain ⟨it', e2, hp'⟩ := hp.run h hs hr (List.replicate n .next) fun hm => by
    have := (List.mem_replicate.1 hm).2
    cases this
  refine ⟨it', ?_, ?_⟩
  · rw [e2, trace_next]
    simp only [Nat.zero_add]
  · have := hp'.shows h
    rw [after_next, Nat.zero_add] at this
    have hpos : 0 < keys.dedup.length := by
      obtain ⟨k, hk, -⟩ := hp
      exact (List.getElem?_eq_some_iff.1 hk).1
    by_cases h1 : n < keys.dedup.length
    · rw [if_pos (Or.inl h1)] at this
      rwa [if_pos h1]
    · rw [if_neg (by omega)] at this
      rwa [if_neg h1]

/-- One step back, for all lists: from the position reached by any sequence of steps, `--` goes to
the previous distinct key, or to nothing at the smallest key; it may end the iteration too early, but only
before a key that starts with byte 0x00. -/
theorem C13_step_partial (h : Setting cfg keys) (hs : Env.strict = false) (hff : ¬ Spec.SingleFF keys) :
    ∃ f, Filter.create cfg keys = .ok f ∧ ∀ start, (f.moveToFirst = .ok start ∨ f.moveToLast = .ok start) →
      ∀ ms, ∃ rs it o, runMoves f ms start = .ok (rs, it) ∧ Shows keys it o ∧ ∃ r it', it.dec f = .ok (r, it') ∧
      ((r = (Spec.step keys.dedup.length .prev o).isSome ∧ Shows keys it' (Spec.step keys.dedup.length .prev o)) ∨
       (r = false ∧ Shows keys it' none ∧ ∃ i k, Spec.step keys.dedup.length .prev o = some i ∧ keys.dedup[i]? = some k ∧
          k.head? = some 0)) := by
  obtain ⟨f, s, e, hr, -⟩ := h.create hs hff
  refine ⟨f, e, fun start hst ms => ?_⟩
  have hp : ∃ o, Pos keys s start o := by
    obtain ⟨it, e1, hp⟩ := Pos.first h hs hr
    obtain ⟨it', e1', hp'⟩ := Pos.last h hr
    rcases hst with hst | hst
    · rw [e1] at hst; cases hst; exact ⟨_, hp⟩
    · rw [e1'] at hst; cases hst; exact ⟨_, hp'⟩
  obtain ⟨rs, it, e2, o, hpo⟩ := Pos.run_any h hs hr ms hp
  obtain ⟨r, it', e3, h1⟩ := hpo.prev h hr
  refine ⟨rs, it, o, e2, hpo.shows h, r, it', e3, ?_⟩
  rcases h1 with ⟨h1, h2⟩ | ⟨h1, h2, h3⟩
  · exact Or.inl ⟨h1, h2.shows h⟩
  · exact Or.inr ⟨h1, h2.shows h, h3⟩

end
end Surf.Props
