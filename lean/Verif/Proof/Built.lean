import Verif.Proof.Sem

/-! # Built filters: construction and point lookup in terms of keys -/

set_option linter.unusedSectionVars false
set_option autoImplicit false

namespace Surf
open Trie

instance (c : Config) : Decidable c.Ok := by
  unfold Config.Ok
  have : Decidable (match c.suffixType with
    | .kNone => True
    | .kHash => 1 ≤ c.hashLen
    | .kReal => 1 ≤ c.hashLen + c.realLen
    | .kMixed => 1 ≤ c.hashLen) := by cases c.suffixType <;> (dsimp only; infer_instance)
  infer_instance

/-- The arguments of the constructor are usable: a suffix configuration with at most 64 bits and at
least one bit (of hash for hashed kinds) unless there are no suffixes, dense levels enabled, a ratio
of at least 1 and less than `2^28`, a sorted non-empty list of non-empty keys that fits 32-bit positions. -/
structure Setting (cfg : Config) (keys : List Key) : Prop where
  ok : cfg.Ok
  dense : cfg.includeDense = true
  ratio : 1 ≤ cfg.ratio ∧ cfg.ratio < 2 ^ 28
  valid : Spec.Valid keys
  fits : Spec.Fits (cfg.hashLen + cfg.realLen) keys

/-- The same without the limit of `2^31` on the positions of labels (they stay below `2^32`). -/
structure Setting0 (cfg : Config) (keys : List Key) : Prop where
  ok : cfg.Ok
  dense : cfg.includeDense = true
  ratio : 1 ≤ cfg.ratio ∧ cfg.ratio < 2 ^ 28
  valid : Spec.Valid keys
  fits : Spec.Fits0 (cfg.hashLen + cfg.realLen) keys

variable {cfg : Config} {keys : List Key}

theorem Setting.weak (h : Setting cfg keys) : Setting0 cfg keys := ⟨h.ok, h.dense, h.ratio, h.valid, h.fits.toFits0⟩

theorem Setting0.half (h : Setting0 cfg keys) (hh : (Spec.sharedPrefixes keys).length + keys.length + 64 ≤ 2 ^ 31) : Setting cfg keys :=
  ⟨h.ok, h.dense, h.ratio, h.valid, ⟨h.fits, hh⟩⟩

theorem Setting0.wf (h : Setting0 cfg keys) : WF (leafStrs keys) := leafStrs_wf (keysOk h.valid h.fits.toSmall)
theorem Setting0.sorted (h : Setting0 cfg keys) : (uniq keys).Pairwise (· < ·) := uniq_sorted h.valid.sorted
theorem Setting.wf (h : Setting cfg keys) : WF (leafStrs keys) := h.weak.wf
theorem Setting.sorted (h : Setting cfg keys) : (uniq keys).Pairwise (· < ·) := h.weak.sorted

section
variable [Env]

theorem Setting.create (h : Setting cfg keys) (hs : Env.strict = false) (hff : ¬ Spec.SingleFF keys) :
    ∃ f s, Filter.create cfg keys = .ok f ∧ FRep cfg (leafStrs keys) (swKeys cfg keys) s f ∧ PadOk f (leafStrs keys) s :=
  create_ok hs h.ok h.dense h.ratio h.valid h.fits hff

theorem Setting0.create (h : Setting0 cfg keys) (hs : Env.strict = false) (hff : ¬ Spec.SingleFF keys) :
    ∃ f s, Filter.create cfg keys = .ok f ∧ FRep0 cfg (leafStrs keys) (swKeys cfg keys) s f ∧ PadOk f (leafStrs keys) s :=
  create_ok0 hs h.ok h.dense h.ratio h.valid h.fits hff

theorem Setting0.create_ff (h : Setting0 cfg keys) (hs : Env.strict = false) (hff : Spec.SingleFF keys) :
    ∃ f s sw, Filter.create cfg keys = .ok f ∧ FRep cfg [[0]] sw s f ∧ PadOk f [[0]] s :=
  Surf.create_ff hs h.ok h.dense h.ratio h.valid h.fits hff

theorem Setting.create_ff (h : Setting cfg keys) (hs : Env.strict = false) (hff : Spec.SingleFF keys) :
    ∃ f s sw, Filter.create cfg keys = .ok f ∧ FRep cfg [[0]] sw s f ∧ PadOk f [[0]] s :=
  h.weak.create_ff hs hff

/-- Point lookup of a built filter. -/
theorem Setting.lookup (h : Setting cfg keys) (hs : Env.strict = false) (hff : ¬ Spec.SingleFF keys) :
    ∃ f, Filter.create cfg keys = .ok f ∧ ∀ q, ∃ r, f.lookupKey q = .ok r ∧
      ((∃ k, Spec.Matches keys k q ∧ r = passes cfg (sfxOf cfg k (Spec.cut keys k)) q (Spec.cut keys k)) ∨
       ((∀ k, ¬ Spec.Matches keys k q) ∧
         (r = true ↔ cfg.suffixType = .kNone ∧ Spec.ZeroHit keys f.getSparseStartLevel q))) := by
  obtain ⟨f, s, e, hr, hp⟩ := h.create hs hff
  refine ⟨f, e, fun q => ?_⟩
  obtain ⟨r, e1, h1⟩ := hr.lookup hs h.ok q (Or.inl hp)
  refine ⟨r, e1, ?_⟩
  rcases h1 with ⟨t, ht, htq, rfl⟩ | ⟨hno, h2⟩
  · obtain ⟨k, hk, hl, -⟩ := mem_leafStrs ht
    refine Or.inl ⟨k, (leaf_match h.wf h.sorted hl).1 htq, ?_⟩
    rw [swKeys_leaf h.wf cfg hl, leaf_length h.wf h.sorted hl]
  · right
    refine ⟨?_, ?_⟩
    · intro k hm
      obtain ⟨t, hl, ht⟩ := leaf_of_key hm.1
      exact hno t ht ((leaf_match h.wf h.sorted hl).2 hm)
    · rw [h2, padHit_iff h.wf h.sorted hr.s1, show f.getSparseStartLevel = s from hr.sparse.start]

/-- Point lookup for a single key starting with 0xFF: only the empty query can match. -/
theorem Setting.lookup_ff (h : Setting cfg keys) (hs : Env.strict = false) (hff : Spec.SingleFF keys) :
    ∃ f, Filter.create cfg keys = .ok f ∧ ∀ q, ∃ r, f.lookupKey q = .ok r ∧ (q ≠ [] → r = false) := by
  obtain ⟨f, s, sw, e, hr, hp⟩ := h.create_ff hs hff
  refine ⟨f, e, fun q => ?_⟩
  obtain ⟨r, e1, h1⟩ := hr.lookup hs h.ok q (Or.inl hp)
  refine ⟨r, e1, fun hq => ?_⟩
  rcases h1 with ⟨t, ht, htq, -⟩ | ⟨-, h2⟩
  · exfalso
    simp at ht
    subst ht
    cases q with
    | nil => exact hq rfl
    | cons a q =>
      rw [w_cons] at htq
      have := (List.cons_prefix_cons.1 htq).1
      omega
  · cases hr2 : r with
    | false => rfl
    | true =>
      obtain ⟨-, A, x, hA, -⟩ := h2.1 hr2
      exfalso
      have hx : x ∈ snodes [[0]] s := by rw [hA]; simp
      obtain ⟨h3, -, h4⟩ := mem_nodesR.1 hx
      obtain ⟨t, ht, h5, h6⟩ := isInt_iff.1 h4
      simp at ht
      subst ht
      have h7 := (int_prefix h5 h6).length_le
      have h8 := hr.s1
      simp at h7
      subst h7
      simp at h3; omega

end

/-! ## A simple size condition -/

theorem length_flatMap_le {α β : Type} (l : List α) (f : α → List β) (g : α → Nat) (h : ∀ a ∈ l, (f a).length ≤ g a) :
    (l.flatMap f).length ≤ (l.map g).sum := by
  induction l with
  | nil => simp
  | cons a l ih =>
    simp only [List.flatMap_cons, List.length_append, List.map_cons, List.sum_cons]
    have := h a (by simp)
    have := ih fun b hb => h b (by simp [hb])
    omega

/-- Key lists of at most 8000000 bytes (counting one more per key) are small. -/
theorem small_of_total {n : Nat} (hn : n ≤ 64) (h : (keys.map fun k => k.length + 1).sum ≤ 8000000) : Spec.Small n keys := by
  have h1 : (Spec.sharedPrefixes keys).length ≤ 8000000 := by
    unfold Spec.sharedPrefixes
    refine le_trans (List.length_filter_le _ _) (le_trans (List.dedup_sublist _).length_le ?_)
    refine le_trans (length_flatMap_le _ _ (fun k => k.length + 1) ?_) h
    intro k _; simp
  have h3 : ∀ k ∈ keys, k.length + 1 ≤ (keys.map fun k => k.length + 1).sum := by
    intro k hk
    clear h h1
    induction keys with
    | nil => simp at hk
    | cons a l ih =>
      simp only [List.map_cons, List.sum_cons]
      rcases List.mem_cons.1 hk with rfl | hk
      · omega
      · have := ih hk; omega
  have h4 : keys.length ≤ (keys.map fun k => k.length + 1).sum := by
    clear h h1 h3
    induction keys with
    | nil => simp
    | cons a l ih => simp; omega
  have h5 : n * keys.length ≤ 64 * 8000000 := Nat.mul_le_mul hn (by omega)
  exact ⟨by omega, fun k hk => by have := h3 k hk; omega, by omega, by omega, by omega⟩

/-- Key lists of at most 500000 bytes (counting one more per key) fit. -/
theorem fits_of_total {n : Nat} (hn : n ≤ 64) (h : (keys.map fun k => k.length + 1).sum ≤ 500000) : Spec.Fits n keys := by
  have h2 : ∀ l, (Spec.branches keys l).length ≤ 500000 := by
    intro l
    unfold Spec.branches
    refine le_trans (List.dedup_sublist _).length_le ?_
    refine le_trans (length_flatMap_le _ _ (fun k => k.length + 1) ?_) h
    intro k _
    rw [List.length_map]
    refine le_trans (List.length_filter_le _ _) (by simp)
  have h3 : Spec.Small n keys := small_of_total hn (by omega)
  refine ⟨⟨h3, ?_⟩, ?_⟩
  · intro l _
    exact Spec.room_of_lt (by have := h2 l; omega)
  · have h5 := h3.node
    have h4 : keys.length ≤ (keys.map fun k => k.length + 1).sum := by
      clear h h3 h2 h5
      induction keys with
      | nil => simp
      | cons a l ih => simp; omega
    omega

end Surf
