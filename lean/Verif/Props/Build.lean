import Verif.Proof.Cutoff
import Verif.Props.CountWitness

/-!
# Construction: the level split and the size of the label array
-/

set_option autoImplicit false
set_option linter.unusedSectionVars false

namespace Surf.Props
open Surf Trie

section
variable [Env] {cfg : Config} {keys : List Key}

theorem built_start (hs : Env.strict = false) (h : Setting cfg keys) (h1 : (Spec.sharedPrefixes keys).length < 2 ^ 22)
    (h2 : keys.length ≤ 2 ^ 30) : ∃ f, Filter.create cfg keys = .ok f ∧
      1 ≤ f.getSparseStartLevel ∧ f.getSparseStartLevel < Spec.levels keys ∧
      (∀ c, c < f.getSparseStartLevel →
        Spec.denseCost (cfg.hashLen + cfg.realLen) keys c * cfg.ratio < Spec.sparseCost (cfg.hashLen + cfg.realLen) keys c) ∧
      Spec.sparseCost (cfg.hashLen + cfg.realLen) keys f.getSparseStartLevel ≤
        Spec.denseCost (cfg.hashLen + cfg.realLen) keys f.getSparseStartLevel * cfg.ratio := by
  have hk := keysOk h.valid h.fits.toSmall
  obtain ⟨ls, e, hr⟩ := buildSparse_ok (Or.inl hs) h.ok hk (small_level h.fits.toSmall)
  have hc := cutoff_costs h.valid h.fits.toSmall h.ratio h1 h2 hr.weak
  obtain ⟨f, hf⟩ : ∃ f, Filter.create cfg keys = .ok f := by
    by_cases hff : Spec.SingleFF keys
    · obtain ⟨f, -, -, hf, -⟩ := h.create_ff hs hff
      exact ⟨f, hf⟩
    · obtain ⟨f, -, hf, -⟩ := h.create hs hff
      exact ⟨f, hf⟩
  refine ⟨f, hf, ?_⟩
  rw [create_start h.dense e hf]
  exact hc

/-- C31, partial: every smaller choice of the start level would satisfy the documented rule "dense size < sparse size / ratio"
(with the sizes the code estimates).  Missing: the chosen level itself does not, see `C31_refuted`. -/
theorem C31_partial (hs : Env.strict = false) (h : Setting cfg keys) (h1 : (Spec.sharedPrefixes keys).length < 2 ^ 22)
    (h2 : keys.length ≤ 2 ^ 30) : ∃ f, Filter.create cfg keys = .ok f ∧
      1 ≤ f.getSparseStartLevel ∧ f.getSparseStartLevel < Spec.levels keys ∧
      ∀ c, c < f.getSparseStartLevel →
        Spec.denseCost (cfg.hashLen + cfg.realLen) keys c * cfg.ratio < Spec.sparseCost (cfg.hashLen + cfg.realLen) keys c := by
  obtain ⟨f, g1, g2, g3, g4, -⟩ := built_start hs h h1 h2
  exact ⟨f, g1, g2, g3, g4⟩

/-- C31 fails for every key list: at the start level that is chosen, the documented rule is violated. -/
theorem C31_refuted (hs : Env.strict = false) (h : Setting cfg keys) (h1 : (Spec.sharedPrefixes keys).length < 2 ^ 22)
    (h2 : keys.length ≤ 2 ^ 30) : ∃ f, Filter.create cfg keys = .ok f ∧
      ¬ Spec.denseCost (cfg.hashLen + cfg.realLen) keys f.getSparseStartLevel * cfg.ratio <
        Spec.sparseCost (cfg.hashLen + cfg.realLen) keys f.getSparseStartLevel := by
  obtain ⟨f, g1, -, -, -, g5⟩ := built_start hs h h1 h2
  exact ⟨f, g1, by omega⟩

/-- C36, partial: construction succeeds, so no write is outside its array, when the size computed for the array of labels is
sufficient (`Spec.Fits0.room`). -/
theorem C36_partial (hs : Env.strict = false) (h : Setting0 cfg keys) : ∃ f, Filter.create cfg keys = .ok f := by
  by_cases hff : Spec.SingleFF keys
  · obtain ⟨f, -, -, hf, -⟩ := h.create_ff hs hff
    exact ⟨f, hf⟩
  · obtain ⟨f, -, hf, -⟩ := h.create hs hff
    exact ⟨f, hf⟩

theorem branches_single (h : Spec.SingleFF keys) (l : Nat) : Spec.branches keys l = [] := by
  obtain ⟨k, hk, -⟩ := h
  unfold Spec.branches
  rw [List.flatMap_eq_nil_iff.2, List.dedup_nil]
  intro x _
  rw [List.map_eq_nil_iff, List.filter_eq_nil_iff]
  intro p _
  rw [decide_eq_true_iff]
  rintro ⟨-, a, ha, b, hb, hne, -⟩
  exact hne ((hk a ha).trans (hk b hb).symm)

/-- C36, exactly: with `s` the first level at which the sparse size is not above the dense size times the ratio and `n` the number of
branches from level `s` on, the constructor writes behind the end of the label array if and only if `(n+1)*((n+1)/64+1)` modulo 2^32 is smaller
than `n`; in all other cases it succeeds. -/
theorem C36_exact (hs : Env.strict = false) (hc : cfg.Ok) (hd : cfg.includeDense = true) (hratio : 1 ≤ cfg.ratio ∧ cfg.ratio < 2 ^ 28)
    (hv : Spec.Valid keys) (hf : Spec.Small (cfg.hashLen + cfg.realLen) keys) (h1 : (Spec.sharedPrefixes keys).length < 2 ^ 22)
    (h2 : keys.length ≤ 2 ^ 30) :
    ∃ s, 1 ≤ s ∧ s < Spec.levels keys ∧
      (∀ c, c < s → Spec.denseCost (cfg.hashLen + cfg.realLen) keys c * cfg.ratio < Spec.sparseCost (cfg.hashLen + cfg.realLen) keys c) ∧
      Spec.sparseCost (cfg.hashLen + cfg.realLen) keys s ≤ Spec.denseCost (cfg.hashLen + cfg.realLen) keys s * cfg.ratio ∧
      (Filter.create cfg keys = .error .oobWrite ↔
        ((Spec.branches keys s).length + 1) * (((Spec.branches keys s).length + 1) / 64 + 1) % 2 ^ 32 < (Spec.branches keys s).length) ∧
      ((∃ f, Filter.create cfg keys = .ok f) ↔
        (Spec.branches keys s).length ≤ ((Spec.branches keys s).length + 1) * (((Spec.branches keys s).length + 1) / 64 + 1) % 2 ^ 32) := by
  have hk := keysOk hv hf
  obtain ⟨ls, e, hr⟩ := buildSparse_ok (Or.inl hs) hc hk (small_level hf)
  obtain ⟨c1, c2, c3, c4⟩ := cutoff_costs hv hf hratio h1 h2 hr.weak
  refine ⟨_, c1, c2, c3, c4, ?_⟩
  by_cases hff : Spec.SingleFF keys
  · have hfit : Spec.Fits0 (cfg.hashLen + cfg.realLen) keys := ⟨hf, fun l _ => by rw [branches_single hff]; exact Or.inl (by decide)⟩
    obtain ⟨f, hcr⟩ := C36_partial hs (⟨hc, hd, hratio, hv, hfit⟩ : Setting0 cfg keys)
    rw [branches_single hff, hcr]
    exact ⟨⟨fun g => by (cases g), fun g => absurd g (by decide)⟩, ⟨fun _ => by decide, fun _ => ⟨f, rfl⟩⟩⟩
  · rcases Nat.lt_or_ge (((Spec.branches keys (Builder.determineCutoffLevel (cfg.hashLen + cfg.realLen) cfg.ratio ls)).length + 1) *
        (((Spec.branches keys (Builder.determineCutoffLevel (cfg.hashLen + cfg.realLen) cfg.ratio ls)).length + 1) / 64 + 1) % 2 ^ 32)
        (Spec.branches keys (Builder.determineCutoffLevel (cfg.hashLen + cfg.realLen) cfg.ratio ls)).length with g | g
    · have hcr := create_overflow hs hc hd hratio hv hf hff e hr.weak rfl g
      exact ⟨⟨fun _ => g, fun _ => hcr⟩, ⟨fun ⟨f, hf⟩ => (by rw [hcr] at hf; cases hf), fun h => absurd g (Nat.not_lt.2 h)⟩⟩
    · obtain ⟨f, hcr⟩ := create_room hs hc hd hratio hv hf hff e hr.weak rfl g
      exact ⟨⟨fun h => (by rw [hcr] at h; cases h), fun h => absurd h (Nat.not_lt.2 g)⟩, ⟨fun _ => g, fun _ => ⟨f, hcr⟩⟩⟩

end

/-- The hypotheses are satisfiable, and the filter's start level is 1. -/
example : Setting cfgNone abKeys ∧ (Spec.sharedPrefixes abKeys).length < 2 ^ 22 ∧ abKeys.length ≤ 2 ^ 30 :=
  ⟨abSetting.1, by decide +kernel, by decide⟩

/-- C31 with the sizes of the two parts when written out: the dense part alone is larger than the sparse part, the ratio is 16. -/
theorem C31_size_refuted : (@Filter.create Env.x86 cfgNone abKeys).toOption.map
    (fun f => (f.dense.serializedSize, f.sparse.serializedSize)) = some (144, 112) := by decide +kernel

/-! ## A label array that is too small -/

/-- Two keys of `m + 1` bytes that differ in the last one. -/
def pairKeys (m : Nat) : List Key := [List.replicate m 97 ++ [98], List.replicate m 97 ++ [99]]

theorem snoc_lt2 (p : Key) {a b : UInt8} (h : a < b) : p ++ [a] < p ++ [b] := by
  induction p with
  | nil => exact List.Lex.rel h
  | cons x p ih => simpa using ih

theorem pairKeys_valid (m : Nat) : Spec.Valid (pairKeys m) := by
  refine ⟨by simp [pairKeys], ?_, ?_⟩
  · simp only [pairKeys, List.pairwise_cons, List.mem_singleton, forall_eq, List.not_mem_nil, false_implies, implies_true, List.Pairwise.nil, and_true]
    exact List.le_of_lt (snoc_lt2 _ (by decide))
  · intro k hk
    simp only [pairKeys, List.mem_cons, List.not_mem_nil, or_false] at hk
    rcases hk with rfl | rfl <;> simp

theorem pairKeys_small {m : Nat} (hm : m ≤ 1000000) : Spec.Small 0 (pairKeys m) :=
  small_of_total (by omega) (by simp [pairKeys]; omega)

theorem pairKeys_shared {m : Nat} {p : Key} : Spec.Shared (pairKeys m) p ↔ ∃ i, i ≤ m ∧ p = List.replicate i 97 := by
  constructor
  · rintro ⟨k, hk, k', hk', hne, h1, h2⟩
    have h3 : p <+: List.replicate m 97 ++ [98] ∧ p <+: List.replicate m 97 ++ [99] := by
      simp only [pairKeys, List.mem_cons, List.not_mem_nil, or_false] at hk hk'
      rcases hk with rfl | rfl <;> rcases hk' with rfl | rfl
      · exact absurd rfl hne
      · exact ⟨h1, h2⟩
      · exact ⟨h2, h1⟩
      · exact absurd rfl hne
    obtain ⟨h3, h4⟩ := h3
    rcases List.prefix_concat_iff.1 h3 with h | h
    · rw [h] at h4
      have := h4.eq_of_length (by simp)
      simp at this
    · have := List.prefix_iff_eq_take.1 h
      rw [List.take_replicate] at this
      exact ⟨_, Nat.min_le_right _ _, this⟩
  · rintro ⟨i, hi, rfl⟩
    have : List.replicate i (97 : UInt8) <+: List.replicate m 97 := by
      refine ⟨List.replicate (m - i) 97, ?_⟩
      rw [List.replicate_append_replicate]; congr 1; omega
    exact ⟨List.replicate m 97 ++ [98], by simp [pairKeys], List.replicate m 97 ++ [99], by simp [pairKeys], by simp, this.trans (List.prefix_append _ _), this.trans (List.prefix_append _ _)⟩

theorem pairKeys_branches {m : Nat} (hm : 1 ≤ m) : (Spec.branches (pairKeys m) 1).length = m + 1 := by
  have : (Spec.branches (pairKeys m) 1).Perm ((List.range' 1 (m - 1)).map (fun i => (List.replicate i (97 : UInt8), some (97 : UInt8))) ++
      [(List.replicate m 97, some 98), (List.replicate m 97, some 99)]) := by
    unfold Spec.branches
    rw [List.perm_ext_iff_of_nodup (List.nodup_dedup _)]
    · rintro ⟨p, o⟩
      simp only [Spec.branches, List.mem_dedup, List.mem_flatMap, List.mem_map, List.mem_filter, List.mem_inits, decide_eq_true_eq,
        pairKeys_shared, Prod.mk.injEq, List.mem_append, List.mem_range'_1, List.mem_cons, List.not_mem_nil, or_false]
      constructor
      · rintro ⟨k, hk, q, ⟨hq, h1, i, hi, rfl⟩, rfl, rfl⟩
        rw [List.length_replicate] at *
        simp only [pairKeys, List.mem_cons, List.not_mem_nil, or_false] at hk
        rcases Nat.eq_or_lt_of_le hi with rfl | hlt
        · right
          rcases hk with rfl | rfl
          · left; simp
          · right; simp
        · left
          refine ⟨i, by omega, rfl, ?_⟩
          rcases hk with rfl | rfl <;> rw [List.getElem?_append_left (by simpa using hlt)] <;> simp [hlt]
      · have hp : ∀ i, i ≤ m → List.replicate i (97 : UInt8) <+: List.replicate m 97 := fun i hi => by
          refine ⟨List.replicate (m - i) 97, ?_⟩
          rw [List.replicate_append_replicate]; congr 1; omega
        rintro (⟨i, hi, rfl, rfl⟩ | ⟨rfl, rfl⟩ | ⟨rfl, rfl⟩)
        · refine ⟨List.replicate m 97 ++ [98], by simp [pairKeys], _, ⟨(hp i (by omega)).trans (List.prefix_append _ _), by simp; omega, i, by omega, rfl⟩, rfl, ?_⟩
          rw [List.length_replicate, List.getElem?_append_left (by rw [List.length_replicate]; omega), List.getElem?_replicate,
            if_pos (by omega)]
        · exact ⟨List.replicate m 97 ++ [98], by simp [pairKeys], _, ⟨List.prefix_append _ _, by simpa using hm, m, le_rfl, rfl⟩, rfl, by simp⟩
        · exact ⟨List.replicate m 97 ++ [99], by simp [pairKeys], _, ⟨List.prefix_append _ _, by simpa using hm, m, le_rfl, rfl⟩, rfl, by simp⟩
    · rw [List.nodup_append]
      refine ⟨(List.nodup_range' ..).map ?_, by simp, ?_⟩
      · intro a b h
        have := congrArg (fun x => x.1.length) h
        simpa using this
      · rintro x hx y hy rfl
        obtain ⟨i, hi, rfl⟩ := List.mem_map.1 hx
        simp at hy
  rw [this.length_eq]
  simp; omega

theorem sum_le_mul (l : List Nat) (b : Nat) (h : ∀ x ∈ l, x ≤ b) : l.sum ≤ l.length * b := by
  induction l with
  | nil => simp
  | cons a l ih =>
    have := h a (by simp)
    have := ih fun x hx => h x (by simp [hx])
    rw [List.sum_cons, List.length_cons, Nat.add_mul]
    omega

/-- A large ratio: only the first level is in the first encoding. -/
def cfgFar : Config := { cfgNone with ratio := 1048576 }

theorem pairKeys_shares {m : Nat} (hm : m ≤ 1000000) : (Spec.sharedPrefixes (pairKeys m)).length < 2 ^ 22 := by
  have h3 : (Spec.sharedPrefixes (pairKeys m)).Subperm ((List.range (m + 1)).map fun i => List.replicate i 97) := by
    refine ((List.nodup_dedup _).filter _).subperm ?_
    intro p hp
    obtain ⟨i, hi, rfl⟩ := pairKeys_shared.1 (mem_sharedPrefixes.1 hp)
    exact List.mem_map.2 ⟨i, List.mem_range.2 (by omega), rfl⟩
  have := h3.length_le
  simp at this
  omega

theorem pairKeys_cost [Env] {m : Nat} (hm : m ≤ 1000000) : Spec.sparseCost (cfgFar.hashLen + cfgFar.realLen) (pairKeys m) 1 ≤
    Spec.denseCost (cfgFar.hashLen + cfgFar.realLen) (pairKeys m) 1 * cfgFar.ratio := by
  have hk := keysOk (pairKeys_valid m) (pairKeys_small hm)
  have hwf := leafStrs_wf hk
  have hu := uniq_sorted hk.sorted
  have hv := pairKeys_valid m
  have h5 : 512 ≤ Spec.denseCost (cfgFar.hashLen + cfgFar.realLen) (pairKeys m) 1 := by
    unfold Spec.denseCost Spec.nodesAt
    simp
  have h6 : Spec.sparseCost (cfgFar.hashLen + cfgFar.realLen) (pairKeys m) 1 ≤ 3 * Spec.levels (pairKeys m) := by
    unfold Spec.sparseCost
    refine le_trans (sum_le_mul _ 3 ?_) ?_
    · intro x hx
      obtain ⟨l, -, rfl⟩ := List.mem_map.1 hx
      have := branchesAt_le hwf hu hv.nonempty l
      have h7 : (pairKeys m).length = 2 := rfl
      have h8 : cfgFar.hashLen + cfgFar.realLen = 0 := rfl
      rw [h8, Nat.mul_zero]
      omega
    · simp; omega
  have h7 : Spec.levels (pairKeys m) ≤ m + 3 := by
    rw [levels_eq hwf hu]
    have : maxLen (leafStrs (pairKeys m)) ≤ m + 2 := maxLen_leafStrs fun k hk => by
      simp only [pairKeys, List.mem_cons, List.not_mem_nil, or_false] at hk
      rcases hk with rfl | rfl <;> simp
    omega
  have h8 : 512 * 1048576 ≤ Spec.denseCost (cfgFar.hashLen + cfgFar.realLen) (pairKeys m) 1 * cfgFar.ratio := Nat.mul_le_mul h5 le_rfl
  omega

theorem pairKeys_overflow [Env] (hs : Env.strict = false) {m : Nat} (h1 : 1 ≤ m) (hm : m ≤ 1000000)
    (hover : (m + 2) * ((m + 2) / 64 + 1) % 2 ^ 32 < m + 1) : Filter.create cfgFar (pairKeys m) = .error .oobWrite := by
  have hsm := pairKeys_small hm
  have hv := pairKeys_valid m
  have hk := keysOk hv hsm
  have hwf := leafStrs_wf hk
  have hu := uniq_sorted hk.sorted
  have hc : cfgFar.Ok := by decide
  obtain ⟨ls, e, hr⟩ := buildSparse_ok (Or.inl hs) hc hk (small_level hsm)
  have hsp := pairKeys_shares hm
  obtain ⟨c1, c2, c3, -⟩ := cutoff_costs hv hsm (by decide) hsp (by simp [pairKeys]) hr.weak (cfg := cfgFar)
  have hs1 : 1 = Builder.determineCutoffLevel (cfgFar.hashLen + cfgFar.realLen) cfgFar.ratio ls := by
    by_contra hne
    have h4 := c3 1 (by omega)
    have := pairKeys_cost hm
    omega
  refine create_overflow hs hc rfl (by decide) hv hsm ?_ e hr.weak hs1 ?_
  · rintro ⟨k, h, -⟩
    have g1 := h _ (show List.replicate m 97 ++ [98] ∈ pairKeys m by simp [pairKeys])
    have g2 := h _ (show List.replicate m 97 ++ [99] ∈ pairKeys m by simp [pairKeys])
    have := g1.trans g2.symm
    simp at this
  · rw [pairKeys_branches h1]
    exact hover

/-- C36: two valid keys of 741439 bytes each; the constructor writes behind the end of its label array. -/
theorem C36_refuted [Env] (hs : Env.strict = false) : Spec.Valid (pairKeys 741438) ∧ (pairKeys 741438).length = 2 ∧
    (∀ k ∈ pairKeys 741438, k.length = 741439) ∧ Filter.create cfgFar (pairKeys 741438) = .error .oobWrite := by
  refine ⟨pairKeys_valid _, rfl, ?_, pairKeys_overflow hs (by decide) (by decide) (by decide)⟩
  generalize hm : 741438 = m
  intro k hk
  simp only [pairKeys, List.mem_cons, List.not_mem_nil, or_false] at hk
  rcases hk with rfl | rfl <;> simp <;> omega

end Surf.Props
