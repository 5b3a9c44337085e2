import Verif.Proof.Iter
import Verif.Proof.Built

/-!
# Iterators and stored keys

Translates positions at leaf strings into positions at stored keys.
-/

set_option autoImplicit false
set_option linter.unusedSectionVars false

namespace Surf
open Trie

variable {cfg : Config} {keys : List Key}

/-- The leaf string of a stored key. -/
def leafOf (keys : List Key) (k : Key) : Str := (w k).take (Spec.cut keys k)

theorem Setting.leaf_mem (h : Setting cfg keys) {k : Key} (hk : k ∈ keys) : (k, leafOf keys k) ∈ leaves 0 (uniq keys) :=
  mem_leaves h.wf h.sorted hk

theorem Setting.mem_ts (h : Setting cfg keys) {t : Str} : t ∈ leafStrs keys ↔ ∃ k ∈ keys, t = leafOf keys k := by
  unfold leafStrs truncs
  constructor
  · intro ht
    obtain ⟨⟨k, t'⟩, h1, rfl⟩ := List.mem_map.1 ht
    have hk : k ∈ keys := by
      rw [← mem_uniq, ← leaves_fst 0 (uniq keys)]
      exact List.mem_map.2 ⟨_, h1, rfl⟩
    exact ⟨k, hk, leaf_eq h.wf h.sorted h1⟩
  · rintro ⟨k, hk, rfl⟩
    exact List.mem_map.2 ⟨_, h.leaf_mem hk, rfl⟩

theorem Setting.leaf_lt (h : Setting cfg keys) {k k' : Key} (hk : k ∈ keys) (hk' : k' ∈ keys) :
    leafOf keys k < leafOf keys k' ↔ k < k' := by
  have key : ∀ {a b : Key}, a ∈ keys → b ∈ keys → a < b → leafOf keys a < leafOf keys b := by
    intro a b ha hb hab
    have h1 := leaves_D h.sorted 0
    have h2 : (leaves 0 (uniq keys)).Pairwise fun x y => x.1 < y.1 := by
      have := h.sorted
      rw [← leaves_fst 0 (uniq keys)] at this
      exact List.pairwise_map.1 this
    have h3 := List.pairwise_iff_getElem.1 (h1.and h2)
    obtain ⟨i, hi, ei⟩ := List.mem_iff_getElem.1 (h.leaf_mem ha)
    obtain ⟨j, hj, ej⟩ := List.mem_iff_getElem.1 (h.leaf_mem hb)
    rcases Nat.lt_trichotomy i j with hij | hij | hij
    · have := (h3 i j hi hj hij).1
      rw [ei, ej] at this
      exact this.lt
    · subst hij
      rw [ei] at ej
      have := congrArg Prod.fst ej
      simp only at this
      rw [this, ← w_lt] at hab
      exact absurd hab (lt_irrefl _)
    · have := (h3 j i hj hi hij).2
      rw [ei, ej] at this
      rw [← w_lt] at this hab
      exact absurd hab (lt_asymm this)
  constructor
  · intro hlt
    rcases lt_trichotomy (w k) (w k') with h1 | h1 | h1
    · exact w_lt.1 h1
    · rw [w_inj h1] at hlt; exact absurd hlt (lt_irrefl _)
    · exact absurd (key hk' hk (w_lt.1 h1)) (lt_asymm hlt)
  · exact key hk hk'

theorem Setting.leaf_inj (h : Setting cfg keys) {k k' : Key} (hk : k ∈ keys) (hk' : k' ∈ keys)
    (e : leafOf keys k = leafOf keys k') : k = k' := by
  rcases lt_trichotomy (w k) (w k') with h1 | h1 | h1
  · have := (h.leaf_lt hk hk').2 (w_lt.1 h1)
    rw [e] at this; exact absurd this (lt_irrefl _)
  · exact w_inj h1
  · have := (h.leaf_lt hk' hk).2 (w_lt.1 h1)
    rw [e] at this; exact absurd this (lt_irrefl _)

theorem toB_sym (a : UInt8) : toB (a.toNat + 1) = a := by
  unfold toB
  simp

theorem bytesOf_take (k : Key) (n : Nat) : bytesOf ((w k).take n) = k.take n := by
  induction k generalizing n with
  | nil => cases n <;> simp [bytesOf]
  | cons a k ih =>
    cases n with
    | zero => simp [bytesOf]
    | succ n =>
      rw [w_cons, List.take_succ_cons, List.take_succ_cons, ← ih n]
      unfold bytesOf
      rw [List.filter_cons_of_pos (by simp), List.map_cons, toB_sym]

theorem bytesOf_leaf (k : Key) : bytesOf (leafOf keys k) = Spec.stored keys k := bytesOf_take _ _

theorem leaf_root {k : Key} (hk : k ≠ []) : ¬ [0] <+: leafOf keys k := by
  intro hc
  have := hc.trans (List.take_prefix _ _)
  cases k with
  | nil => exact hk rfl
  | cons a k =>
    rw [w_cons] at this
    have := List.cons_prefix_cons.1 this
    omega

theorem Setting.root (h : Setting cfg keys) : ∀ t ∈ leafStrs keys, ¬ [0] <+: t := by
  intro t ht
  obtain ⟨k, hk, rfl⟩ := h.mem_ts.1 ht
  exact leaf_root (h.valid.nonempty k hk)

theorem low_leaf {k : Key} (hk : k ≠ []) (hl : Low (leafOf keys k)) : k.head? = some 0 := by
  obtain ⟨c, t', e, hc⟩ := hl
  have hp : leafOf keys k <+: w k := List.take_prefix _ _
  rw [e] at hp
  cases k with
  | nil => exact absurd rfl hk
  | cons a k =>
    rw [w_cons] at hp
    have := (List.cons_prefix_cons.1 hp).1
    have : a.toNat = 0 := by omega
    simp only [List.head?_cons, Option.some.injEq]
    exact UInt8.toNat_inj.1 this

theorem Setting.uniq_dedup (h : Setting cfg keys) : uniq keys = keys.dedup := by
  have h1 := h.sorted
  have h2 : (uniq keys).Nodup := h1.imp fun {a b} hab e => by
    rw [e, ← w_lt] at hab; exact lt_irrefl _ hab
  have hp : (uniq keys).Perm keys.dedup :=
    (List.perm_ext_iff_of_nodup h2 (List.nodup_dedup keys)).2 fun a => by rw [mem_uniq, List.mem_dedup]
  refine List.Perm.eq_of_pairwise (le := fun a b : Key => ¬ b < a) ?_ (h1.imp ?_) (h.valid.sorted.sublist (List.dedup_sublist keys)) hp
  · intro a b _ _ h3 h4
    rcases lt_trichotomy (w a) (w b) with g | g | g
    · exact absurd (w_lt.1 g) h4
    · exact w_inj g
    · exact absurd (w_lt.1 g) h3
  · intro a b hab hba
    rw [← w_lt] at hab hba
    exact lt_asymm hab hba

/-- The distinct keys in order. -/
theorem Setting.dedup_lt (h : Setting cfg keys) {i j : Nat} {a b : Key} (hi : keys.dedup[i]? = some a)
    (hj : keys.dedup[j]? = some b) : a < b ↔ i < j := by
  have hs := h.sorted
  rw [h.uniq_dedup] at hs
  have h3 := List.pairwise_iff_getElem.1 hs
  obtain ⟨hi', ei⟩ := List.getElem?_eq_some_iff.1 hi
  obtain ⟨hj', ej⟩ := List.getElem?_eq_some_iff.1 hj
  constructor
  · intro hab
    by_contra hc
    rcases Nat.lt_or_ge j i with hji | hji
    · have := h3 j i hj' hi' hji
      rw [ei, ej, ← w_lt] at this
      rw [← w_lt] at hab
      exact lt_asymm this hab
    · obtain rfl : i = j := by omega
      rw [ei] at ej
      rw [ej, ← w_lt] at hab
      exact lt_irrefl _ hab
  · intro hij
    have := h3 i j hi' hj' hij
    rwa [ei, ej] at this

theorem mem_dedup_get {k : Key} (hk : k ∈ keys) : ∃ i : Nat, keys.dedup[i]? = some k := by
  obtain ⟨i, hi, e⟩ := List.mem_iff_getElem.1 (List.mem_dedup.2 hk)
  exact ⟨i, List.getElem?_eq_some_iff.2 ⟨hi, e⟩⟩

theorem get_mem {i : Nat} {k : Key} (h : keys.dedup[i]? = some k) : k ∈ keys :=
  List.mem_dedup.1 (List.mem_of_getElem? h)

/-- The next leaf belongs to the next distinct key. -/
theorem Setting.next_get (h : Setting cfg keys) {i : Nat} {k : Key} (hk : keys.dedup[i]? = some k) {t : Str}
    (hn : IsNext (leafStrs keys) (leafOf keys k) t) : ∃ k', keys.dedup[i + 1]? = some k' ∧ t = leafOf keys k' := by
  obtain ⟨h1, h2, h3⟩ := (isNext_iff h.wf (h.mem_ts.2 ⟨k, get_mem hk, rfl⟩)).1 hn
  obtain ⟨k', hk', rfl⟩ := h.mem_ts.1 h1
  obtain ⟨j, hj⟩ := mem_dedup_get hk'
  have hij := (h.dedup_lt hk hj).1 ((h.leaf_lt (get_mem hk) hk').1 h2)
  refine ⟨k', ?_, rfl⟩
  rcases Nat.lt_or_ge (i + 1) j with h4 | h4
  · obtain ⟨hj', ej⟩ := List.getElem?_eq_some_iff.1 hj
    obtain ⟨u, hu⟩ : ∃ u, keys.dedup[i + 1]? = some u := ⟨_, List.getElem?_eq_getElem (by omega)⟩
    have h5 := h3 _ (h.mem_ts.2 ⟨u, get_mem hu, rfl⟩) ((h.leaf_lt (get_mem hk) (get_mem hu)).2 ((h.dedup_lt hk hu).2 (by omega)))
    have h6 := (h.leaf_lt (get_mem hu) hk').2 ((h.dedup_lt hu hj).2 h4)
    exact absurd h6 (not_lt.2 h5)
  · obtain rfl : j = i + 1 := by omega
    exact hj

theorem Setting.noNext_get (h : Setting cfg keys) {i : Nat} {k : Key} (hk : keys.dedup[i]? = some k)
    (hn : NoNext (leafStrs keys) (leafOf keys k)) : keys.dedup.length = i + 1 := by
  have hn := (noNext_iff h.wf (h.mem_ts.2 ⟨k, get_mem hk, rfl⟩)).1 hn
  obtain ⟨hi', ei⟩ := List.getElem?_eq_some_iff.1 hk
  by_contra hc
  obtain ⟨u, hu⟩ : ∃ u, keys.dedup[i + 1]? = some u := ⟨_, List.getElem?_eq_getElem (by omega)⟩
  exact hn _ (h.mem_ts.2 ⟨u, get_mem hu, rfl⟩) ((h.leaf_lt (get_mem hk) (get_mem hu)).2 ((h.dedup_lt hk hu).2 (by omega)))

theorem Setting.prev_get (h : Setting cfg keys) {i : Nat} {k : Key} (hk : keys.dedup[i]? = some k) {t : Str}
    (hn : IsPrev (leafStrs keys) (leafOf keys k) t) : ∃ (j : Nat) (k' : Key), i = j + 1 ∧ keys.dedup[j]? = some k' ∧ t = leafOf keys k' := by
  obtain ⟨h1, h2, h3⟩ := hn
  obtain ⟨k', hk', rfl⟩ := h.mem_ts.1 h1
  obtain ⟨j, hj⟩ := mem_dedup_get hk'
  have hij := (h.dedup_lt hj hk).1 ((h.leaf_lt hk' (get_mem hk)).1 h2)
  refine ⟨j, k', ?_, hj, rfl⟩
  rcases Nat.lt_or_ge (j + 1) i with h4 | h4
  · obtain ⟨hi', ei⟩ := List.getElem?_eq_some_iff.1 hk
    obtain ⟨u, hu⟩ : ∃ u, keys.dedup[j + 1]? = some u := ⟨_, List.getElem?_eq_getElem (by omega)⟩
    have h5 := h3 _ (h.mem_ts.2 ⟨u, get_mem hu, rfl⟩) ((h.leaf_lt (get_mem hu) (get_mem hk)).2 ((h.dedup_lt hu hk).2 (by omega)))
    have h6 := (h.leaf_lt hk' (get_mem hu)).2 ((h.dedup_lt hj hu).2 (by omega))
    exact absurd h6 (not_lt.2 h5)
  · omega

/-- With a smaller key there is a previous leaf. -/
theorem Setting.get_prev (h : Setting cfg keys) {j : Nat} {k k' : Key} (hk : keys.dedup[j + 1]? = some k)
    (hk' : keys.dedup[j]? = some k') : IsPrev (leafStrs keys) (leafOf keys k) (leafOf keys k') := by
  refine ⟨h.mem_ts.2 ⟨k', get_mem hk', rfl⟩, (h.leaf_lt (get_mem hk') (get_mem hk)).2 ((h.dedup_lt hk' hk).2 (by omega)), ?_⟩
  intro u hu hlt
  obtain ⟨v, hv, rfl⟩ := h.mem_ts.1 hu
  obtain ⟨i, hi⟩ := mem_dedup_get hv
  have := (h.dedup_lt hi hk).1 ((h.leaf_lt hv (get_mem hk)).1 hlt)
  refine not_lt.1 fun hc => ?_
  have := (h.dedup_lt hk' hi).1 ((h.leaf_lt (get_mem hk') hv).1 hc)
  omega

theorem Setting.first_get (h : Setting cfg keys) {t : Str} (hl : IsLeft (leafStrs keys) [] t) :
    ∃ k, keys.dedup[0]? = some k ∧ t = leafOf keys k := by
  obtain ⟨k, hk, rfl⟩ := h.mem_ts.1 hl.1
  obtain ⟨i, hi⟩ := mem_dedup_get hk
  obtain ⟨hi', ei⟩ := List.getElem?_eq_some_iff.1 hi
  obtain ⟨u, hu⟩ : ∃ u, keys.dedup[0]? = some u := ⟨_, List.getElem?_eq_getElem (by omega)⟩
  have h1 := hl.2.2 _ (h.mem_ts.2 ⟨u, get_mem hu, rfl⟩) List.nil_prefix
  rcases Nat.eq_zero_or_pos i with rfl | h2
  · exact ⟨k, hi, rfl⟩
  · exact absurd ((h.leaf_lt (get_mem hu) hk).2 ((h.dedup_lt hu hi).2 h2)) (not_lt.2 h1)

theorem Setting.last_get (h : Setting cfg keys) {t : Str} (hl : IsRight (leafStrs keys) [] t) :
    ∃ k, keys.dedup[keys.dedup.length - 1]? = some k ∧ t = leafOf keys k := by
  obtain ⟨k, hk, rfl⟩ := h.mem_ts.1 hl.1
  obtain ⟨i, hi⟩ := mem_dedup_get hk
  obtain ⟨hi', ei⟩ := List.getElem?_eq_some_iff.1 hi
  obtain ⟨u, hu⟩ : ∃ u, keys.dedup[keys.dedup.length - 1]? = some u := ⟨_, List.getElem?_eq_getElem (by omega)⟩
  have h1 := hl.2.2 _ (h.mem_ts.2 ⟨u, get_mem hu, rfl⟩) List.nil_prefix
  rcases Nat.lt_or_ge i (keys.dedup.length - 1) with h2 | h2
  · exact absurd ((h.leaf_lt hk (get_mem hu)).2 ((h.dedup_lt hi hu).2 h2)) (not_lt.2 h1)
  · obtain rfl : i = keys.dedup.length - 1 := by omega
    exact ⟨k, hi, rfl⟩

/-- The truncated forms of different keys are different. -/
theorem stored_inj {k k' : Key} (hk : k ∈ keys) (hk' : k' ∈ keys) (e : Spec.stored keys k = Spec.stored keys k') : k = k' := by
  by_contra hne
  have h1 := lt_cut hk' (Ne.symm hne)
  have h2 := lt_cut hk hne
  have p1 : Spec.stored keys k <+: k := List.take_prefix _ _
  have p2 : Spec.stored keys k <+: k' := by rw [e]; exact List.take_prefix _ _
  have h3 := common_ge p1 p2
  have h4 := common_ge p2 p1
  have h5 : (Spec.stored keys k).length = min (Spec.cut keys k) k.length := by simp [Spec.stored]
  have h6 : (Spec.stored keys k).length = min (Spec.cut keys k') k'.length := by rw [e]; simp [Spec.stored]
  have e1 : Spec.stored keys k = k := List.take_of_length_le (by omega)
  have e2 : Spec.stored keys k' = k' := List.take_of_length_le (by omega)
  rw [e1, e2] at e
  exact hne e

end Surf
