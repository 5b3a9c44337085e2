import Verif.Proof.Built
import Verif.Proof.Sem

/-!
# The level split: the estimated sizes in terms of the keys
-/

set_option autoImplicit false
set_option linter.unusedSectionVars false

namespace Surf
open Trie

variable {keys : List Key}

theorem cutoffLoop_spec (L ratio : Nat) (ls : List Level) (n c : Nat) :
    (∀ c', c ≤ c' → c' < Builder.cutoffLoop L ratio ls n c →
      Builder.computeDenseMem L ls c' * ratio % 18446744073709551616 < Builder.computeSparseMem L ls c') ∧
    (Builder.cutoffLoop L ratio ls n c = c + n ∨
      ¬ Builder.computeDenseMem L ls (Builder.cutoffLoop L ratio ls n c) * ratio % 18446744073709551616 <
        Builder.computeSparseMem L ls (Builder.cutoffLoop L ratio ls n c)) := by
  induction n generalizing c with
  | zero => simp only [Builder.cutoffLoop]; exact ⟨fun c' h1 h2 => by omega, Or.inl rfl⟩
  | succ n ih =>
    rw [Builder.cutoffLoop]
    split
    · rename_i hc
      obtain ⟨h1, h2⟩ := ih (c + 1)
      refine ⟨fun c' g1 g2 => ?_, ?_⟩
      · rcases Nat.eq_or_lt_of_le g1 with rfl | g
        · exact hc
        · exact h1 c' g g2
      · rcases h2 with h2 | h2
        · left; omega
        · exact Or.inr h2
    · rename_i hc
      exact ⟨fun c' h1 h2 => by omega, Or.inr hc⟩

theorem nodes_card (hwf : WF (leafStrs keys)) (hs : (uniq keys).Pairwise (· < ·)) (l : Nat) :
    (nodes (leafStrs keys) l).length = Spec.nodesAt keys l := by
  unfold Spec.nodesAt
  split
  · rename_i h; subst h; rw [hwf.nodes_zero]; rfl
  · rename_i h
    rw [← List.length_map (f := syms) (as := List.filter _ _)]
    apply List.Perm.length_eq
    rw [List.perm_ext_iff_of_nodup]
    · intro x
      rw [← nodesR_one, mem_nodesR]
      simp only [List.mem_map, List.mem_filter, mem_sharedPrefixes, decide_eq_true_eq]
      constructor
      · rintro ⟨h1, h2, h3⟩
        obtain ⟨p, rfl, hp⟩ := node_shared hwf hs h3 (by rintro rfl; simp at h1; omega)
        rw [syms_length] at h1 h2
        exact ⟨p, ⟨hp, by omega⟩, rfl⟩
      · rintro ⟨p, ⟨h1, h2⟩, rfl⟩
        rw [syms_length]
        exact ⟨by omega, by omega, shared_int hs h1⟩
    · rw [← nodesR_one]; exact nodesR_nodup hwf.sorted _ _
    · exact (((List.nodup_dedup _).filter _).filter _).map fun _ _ h => syms_inj h

theorem lev_card (hwf : WF (leafStrs keys)) (hs : (uniq keys).Pairwise (· < ·)) (hne : ∀ k ∈ keys, k ≠ []) (l : Nat) :
    (lev (leafStrs keys) (l + 1)).length = Spec.branchesAt keys l := by
  have hone : ∀ l, items (leafStrs keys) l (l + 1) = lev (leafStrs keys) (l + 1) := by
    intro l; unfold items; simp
  rw [← hone]
  unfold Spec.branchesAt
  split
  · rename_i h; subst h
    rw [← List.length_map (f := fun o => [symO o]) (as := List.dedup _)]
    apply List.Perm.length_eq
    rw [List.perm_ext_iff_of_nodup (items_nodup hwf.sorted _ _)]
    · intro x
      simp only [mem_items, List.mem_map, List.mem_dedup]
      constructor
      · rintro ⟨h1, h2, t, ht, hp⟩
        obtain ⟨k, hk, -, htw⟩ := mem_leafStrs ht
        obtain ⟨c, rfl⟩ := List.length_eq_one_iff.1 (show x.length = 1 by omega)
        have := (snoc_prefix_w (p := []) (c := c) (k := k)).1 (hp.trans htw)
        refine ⟨_, ⟨k, hk, rfl⟩, ?_⟩
        rw [this.2, List.head?_eq_getElem?]; rfl
      · rintro ⟨o, ⟨k, hk, rfl⟩, rfl⟩
        obtain ⟨t, ht, htm⟩ := leaf_of_key hk
        obtain ⟨htp, hne'⟩ := leaves_prefix ht
        refine ⟨by simp, by simp, t, htm, ?_⟩
        have h1 : [symO k.head?] <+: w k := (snoc_prefix_w (p := []) (k := k)).2 ⟨List.nil_prefix, by
          rw [List.head?_eq_getElem?]; rfl⟩
        rcases List.prefix_or_prefix_of_prefix h1 htp with h | h
        · exact h
        · rcases List.prefix_concat_iff (l₂ := []).1 h with h | h
          · rw [h]; simp
          · exact absurd (List.prefix_nil.1 h) hne'
    · refine (List.nodup_dedup _).map ?_
      intro a b h
      exact symO_inj (List.cons.inj h).1
  · rename_i h
    have hl : 1 ≤ l := by omega
    rw [← List.length_map (f := fun x : Key × Option UInt8 => syms x.1 ++ [symO x.2]) (as := List.filter _ _)]
    apply List.Perm.length_eq
    rw [List.perm_ext_iff_of_nodup (items_nodup hwf.sorted _ _)]
    · intro y
      have hm : ∀ y, y ∈ items (leafStrs keys) l (maxLen (leafStrs keys) + 1) ↔
          y ∈ (Spec.branches keys l).map fun x : Key × Option UInt8 => syms x.1 ++ [symO x.2] := fun y => (items_branches_perm hwf hs hl).mem_iff
      have h1 : y ∈ items (leafStrs keys) l (l + 1) ↔ y ∈ items (leafStrs keys) l (maxLen (leafStrs keys) + 1) ∧ y.length = l + 1 := by
        rw [mem_items, mem_items]
        constructor
        · rintro ⟨h1, h2, t, ht, hp⟩
          have := le_maxLen ht
          have := hp.length_le
          exact ⟨⟨h1, by omega, t, ht, hp⟩, by omega⟩
        · rintro ⟨⟨h1, h2, t, ht, hp⟩, h3⟩
          exact ⟨h1, by omega, t, ht, hp⟩
      rw [h1, hm]
      simp only [List.mem_map, List.mem_filter, decide_eq_true_eq]
      constructor
      · rintro ⟨⟨x, hx, rfl⟩, h⟩
        refine ⟨x, ⟨hx, ?_⟩, rfl⟩
        simpa using h
      · rintro ⟨x, ⟨hx, h⟩, rfl⟩
        refine ⟨⟨x, hx, rfl⟩, ?_⟩
        simp [h]
    · refine ((List.nodup_dedup _).filter _).map ?_
      rintro ⟨p, o⟩ ⟨q, o'⟩ h
      dsimp only at h
      have h1 := List.append_inj' h rfl
      rw [syms_inj h1.1, symO_inj (List.cons.inj h1.2).1]

theorem uniq_perm (hs : (uniq keys).Pairwise (· < ·)) : (uniq keys).Perm keys.dedup := by
  rw [List.perm_ext_iff_of_nodup]
  · intro k; rw [mem_uniq, List.mem_dedup]
  · exact hs.imp fun h e => by subst e; exact List.lt_irrefl _ h
  · exact List.nodup_dedup _

theorem ends_card [Env] (cfg : Config) (hwf : WF (leafStrs keys)) (hs : (uniq keys).Pairwise (· < ·)) (l : Nat) :
    ((sfxs cfg (leaves 0 (uniq keys))).filter fun x => x.1.length = l + 1).length = Spec.endsAt keys l := by
  unfold Spec.endsAt sfxs
  rw [← ((uniq_perm hs).filter _).length_eq, List.filter_map, List.length_map]
  conv_rhs => rw [← leaves_fst 0 (uniq keys), List.filter_map, List.length_map]
  congr 1
  apply List.filter_congr
  intro x hx
  simp only [Function.comp]
  rw [leaf_length hwf hs (show (x.1, x.2) ∈ _ from hx)]

theorem levels_eq (hwf : WF (leafStrs keys)) (hs : (uniq keys).Pairwise (· < ·)) : Spec.levels keys = maxLen (leafStrs keys) + 1 := by
  unfold Spec.levels
  congr 1
  apply Nat.le_antisymm
  · have : ∀ l : List Key, (∀ k ∈ l, k ∈ keys) → (l.map (Spec.cut keys)).foldr max 0 ≤ maxLen (leafStrs keys) := by
      intro l hl
      induction l with
      | nil => simp
      | cons k l ih =>
        simp only [List.map_cons, List.foldr_cons]
        refine max_le ?_ (ih fun k' hk' => hl k' (by simp [hk']))
        obtain ⟨t, h1, h2⟩ := leaf_of_key (hl k (by simp))
        rw [← leaf_length hwf hs h1]
        exact le_maxLen h2
    exact this keys fun _ h => h
  · apply maxLen_le
    intro t ht
    obtain ⟨k, hk, hl, -⟩ := mem_leafStrs ht
    rw [leaf_length hwf hs hl]
    have : ∀ l : List Key, k ∈ l → Spec.cut keys k ≤ (l.map (Spec.cut keys)).foldr max 0 := by
      intro l hl
      induction l with
      | nil => simp at hl
      | cons a l ih =>
        simp only [List.map_cons, List.foldr_cons]
        rcases List.mem_cons.1 hl with rfl | h
        · exact Nat.le_max_left _ _
        · exact (ih h).trans (Nat.le_max_right _ _)
    exact this keys hk

/-! ## Costs -/

section
variable [Env] {cfg : Config} {ls : List Level}

/-- Levels that represent the trie of the keys. -/
def Lv [Env] (cfg : Config) (keys : List Key) (ls : List Level) : Prop :=
  Rep0 (cfg.hashLen + cfg.realLen) (maxLen (leafStrs keys) + 1) ls (leafStrs keys) (sfxs cfg (leaves 0 (uniq keys)))

theorem Lv.node (h : Lv cfg keys ls) (hwf : WF (leafStrs keys)) (hs : (uniq keys).Pairwise (· < ·)) {l : Nat} {lv : Level}
    (e : ls[l]? = some lv) : lv.nodeCount = Spec.nodesAt keys l := by
  rw [(h.lvl l lv e).node, lev_nodeCount hwf.sorted, nodes_card hwf hs]

theorem Lv.sfxCount (h : Lv cfg keys ls) (hwf : WF (leafStrs keys)) (hs : (uniq keys).Pairwise (· < ·)) {l : Nat} {lv : Level}
    (e : ls[l]? = some lv) : lv.suffixCount = Spec.endsAt keys l := by
  rw [(h.lvl l lv e).sfxCount]
  unfold wordsAt
  rw [List.length_map, ends_card cfg hwf hs]

theorem Lv.labels (h : Lv cfg keys ls) (hwf : WF (leafStrs keys)) (hs : (uniq keys).Pairwise (· < ·)) (hne : ∀ k ∈ keys, k ≠ [])
    {l : Nat} {lv : Level} (e : ls[l]? = some lv) : lv.labels.length = Spec.branchesAt keys l := by
  rw [(h.lvl l lv e).labels, List.length_map, lev_card hwf hs hne]

omit [Env] in
theorem endsAt_le (keys : List Key) (l : Nat) : Spec.endsAt keys l ≤ keys.length :=
  (List.length_filter_le _ _).trans (List.dedup_sublist _).length_le

theorem branchesAt_le (hwf : WF (leafStrs keys)) (hs : (uniq keys).Pairwise (· < ·)) (hne : ∀ k ∈ keys, k ≠ []) (l : Nat) :
    Spec.branchesAt keys l ≤ keys.length := by
  rw [← lev_card hwf hs hne]
  exact (lev_length_le _ _).trans (leafStrs_length keys)

omit [Env] in
theorem nodesAt_le (keys : List Key) (l : Nat) : Spec.nodesAt keys l ≤ (Spec.sharedPrefixes keys).length + 1 := by
  unfold Spec.nodesAt
  split
  · omega
  · exact (List.length_filter_le _ _).trans (Nat.le_succ _)

theorem Lv.dense (h : Lv cfg keys ls) (hwf : WF (leafStrs keys)) (hs : (uniq keys).Pairwise (· < ·))
    (hf : Spec.Small (cfg.hashLen + cfg.realLen) keys) (h1 : (Spec.sharedPrefixes keys).length < 2 ^ 22) {c : Nat}
    (hc : c ≤ maxLen (leafStrs keys) + 1) :
    Builder.computeDenseMem (cfg.hashLen + cfg.realLen) ls c = Spec.denseCost (cfg.hashLen + cfg.realLen) keys c := by
  unfold Builder.computeDenseMem Spec.denseCost
  congr 1
  apply List.map_congr_left
  intro l hl
  have hl := List.mem_range.1 hl
  have hlen : ls.length = maxLen (leafStrs keys) + 1 := Rep0.len h
  have hlv := List.getElem?_eq_getElem (l := ls) (i := l) (by omega)
  have e : ls.getD l Builder.newLevel = ls[l] := by simp [List.getD, hlv]
  rw [e]
  unfold Builder.denseMemLevel
  rw [h.node hwf hs hlv, h.sfxCount hwf hs hlv]
  have b1 := nodesAt_le keys l
  have b2 : Spec.endsAt keys l * (cfg.hashLen + cfg.realLen) ≤ keys.length * (cfg.hashLen + cfg.realLen) := Nat.mul_le_mul_right _ (endsAt_le keys l)
  have b3 := hf.sfx
  rw [Nat.mul_comm] at b3
  rw [mul32_eq (by rw [M32_eq]; show 512 * _ < _; omega), mul32_eq (by rw [M32_eq]; omega)]
  show 512 * _ + _ + _ = _
  congr 2
  by_cases h0 : l = 0
  · rw [if_pos h0, if_pos h0]
  · rw [if_neg h0, if_neg h0]
    have hlv' := List.getElem?_eq_getElem (l := ls) (i := l - 1) (by omega)
    rw [hlv', Option.map_some, h.node hwf hs hlv']

theorem Lv.sparse (h : Lv cfg keys ls) (hwf : WF (leafStrs keys)) (hs : (uniq keys).Pairwise (· < ·)) (hne : ∀ k ∈ keys, k ≠ [])
    (hf : Spec.Small (cfg.hashLen + cfg.realLen) keys) (h1 : keys.length ≤ 2 ^ 30) (c : Nat) :
    Builder.computeSparseMem (cfg.hashLen + cfg.realLen) ls c = Spec.sparseCost (cfg.hashLen + cfg.realLen) keys c := by
  unfold Builder.computeSparseMem Spec.sparseCost
  congr 1
  have hlen : ls.length = maxLen (leafStrs keys) + 1 := Rep0.len h
  rw [levels_eq hwf hs, ← hlen]
  apply List.ext_getElem?
  intro i
  rw [List.getElem?_map, List.getElem?_map, List.getElem?_drop]
  by_cases hi : c + i < ls.length
  · have hlv := List.getElem?_eq_getElem (l := ls) (i := c + i) hi
    rw [hlv, List.getElem?_range' (by omega), Option.map_some, Option.map_some, Nat.one_mul]
    rw [h.labels hwf hs hne hlv, h.sfxCount hwf hs hlv]
    have b1 := branchesAt_le hwf hs hne (c + i)
    have b2 : Spec.endsAt keys (c + i) * (cfg.hashLen + cfg.realLen) ≤ keys.length * (cfg.hashLen + cfg.realLen) := Nat.mul_le_mul_right _ (endsAt_le keys (c + i))
    have b3 := hf.sfx
    rw [Nat.mul_comm] at b3
    rw [mul32_eq (a := 2) (by rw [M32_eq]; omega), mul32_eq (by rw [M32_eq]; omega), add32_eq (a := Spec.branchesAt keys (c + i)) (by rw [M32_eq]; omega),
      add32_eq (by rw [M32_eq]; omega)]
  · rw [List.getElem?_eq_none (by omega), List.getElem?_eq_none (by simp; omega)]
    rfl

/-- The start level of a filter that was built. -/
theorem create_start (hd : cfg.includeDense = true) {f : Filter} (hb : Builder.buildSparse cfg keys = .ok ls) (h : Filter.create cfg keys = .ok f) :
    f.getSparseStartLevel = Builder.determineCutoffLevel (cfg.hashLen + cfg.realLen) cfg.ratio ls := by
  unfold Filter.create at h
  obtain ⟨b, h1, h⟩ := bind_ok_iff.1 h
  obtain ⟨d, h2, h⟩ := bind_ok_iff.1 h
  obtain ⟨t, h3, h⟩ := bind_ok_iff.1 h
  have hf : f = ⟨d, t⟩ := by cases h; rfl
  subst hf
  have hbs : b.startLevel = Builder.determineCutoffLevel (cfg.hashLen + cfg.realLen) cfg.ratio ls := by
    unfold Builder.build at h1
    obtain ⟨-, -, h1⟩ := bind_ok_iff.1 h1
    rw [hb, ok_bind, if_pos hd] at h1
    dsimp only at h1
    obtain ⟨ds, -, h1⟩ := bind_ok_iff.1 h1
    cases h1; rfl
  show t.startLevel = _
  rw [← hbs]
  unfold LoudsSparse.mk' at h3
  dsimp only at h3
  split at h3
  all_goals
    repeat (obtain ⟨_, -, h3⟩ := bind_ok_iff.1 h3)
    split at h3
    all_goals
      repeat (obtain ⟨_, -, h3⟩ := bind_ok_iff.1 h3)
      cases h3; rfl

/-- The choice of the start level in terms of the costs. -/
theorem cutoff_costs (hv : Spec.Valid keys) (hf : Spec.Small (cfg.hashLen + cfg.realLen) keys) (hratio : 1 ≤ cfg.ratio ∧ cfg.ratio < 2 ^ 28)
    (h1 : (Spec.sharedPrefixes keys).length < 2 ^ 22) (h2 : keys.length ≤ 2 ^ 30) (hr : Lv cfg keys ls) :
    let s := Builder.determineCutoffLevel (cfg.hashLen + cfg.realLen) cfg.ratio ls
    1 ≤ s ∧ s < Spec.levels keys ∧
    (∀ c, c < s → Spec.denseCost (cfg.hashLen + cfg.realLen) keys c * cfg.ratio < Spec.sparseCost (cfg.hashLen + cfg.realLen) keys c) ∧
    Spec.sparseCost (cfg.hashLen + cfg.realLen) keys s ≤ Spec.denseCost (cfg.hashLen + cfg.realLen) keys s * cfg.ratio := by
  intro s
  have hk := keysOk hv hf
  have hwf := leafStrs_wf hk
  have hu := uniq_sorted hk.sorted
  have hz := sizes0_ok hv hf
  have hss := sfxs_fst cfg keys
  obtain ⟨c1, c2⟩ := cutoff_bounds hwf hss hr hratio.1 hratio.2 hz.node hz.sfx.le hz.len
  have hlen : ls.length = maxLen (leafStrs keys) + 1 := Rep0.len hr
  have key : ∀ c, c ≤ maxLen (leafStrs keys) →
      (Builder.computeDenseMem (cfg.hashLen + cfg.realLen) ls c * cfg.ratio % 18446744073709551616 < Builder.computeSparseMem (cfg.hashLen + cfg.realLen) ls c ↔
        Spec.denseCost (cfg.hashLen + cfg.realLen) keys c * cfg.ratio < Spec.sparseCost (cfg.hashLen + cfg.realLen) keys c) := by
    intro c hc
    have e6 := denseMem_lt hwf hss hr hz.node hz.sfx.le hz.len hc
    have e7 : Builder.computeDenseMem (cfg.hashLen + cfg.realLen) ls c * cfg.ratio < 2 ^ 36 * 2 ^ 28 := Nat.mul_lt_mul'' e6 hratio.2
    rw [Nat.mod_eq_of_lt (by omega), hr.dense hwf hu hf h1 (by omega), hr.sparse hwf hu hv.nonempty hf h2]
  obtain ⟨g1, g2⟩ := cutoffLoop_spec (cfg.hashLen + cfg.realLen) cfg.ratio ls ls.length 0
  refine ⟨c1, ?_, fun c hc => ?_, ?_⟩
  · rw [levels_eq hwf hu]; exact Nat.lt_succ_of_le c2
  · exact (key c (Nat.le_trans (Nat.le_of_lt hc) c2)).1 (g1 c (Nat.zero_le _) hc)
  · rcases g2 with g2 | g2
    · exfalso
      have : s = 0 + ls.length := g2
      omega
    · have := (key s c2).not.1 g2
      omega

/-! ## The array for the labels is too small -/

theorem create_overflow (hs : Env.strict = false) (hc : cfg.Ok) (hd : cfg.includeDense = true) (hratio : 1 ≤ cfg.ratio ∧ cfg.ratio < 2 ^ 28)
    (hv : Spec.Valid keys) (hf : Spec.Small (cfg.hashLen + cfg.realLen) keys) (hff : ¬ Spec.SingleFF keys)
    (hb : Builder.buildSparse cfg keys = .ok ls) (hr : Lv cfg keys ls) {s : Nat}
    (hsd : s = Builder.determineCutoffLevel (cfg.hashLen + cfg.realLen) cfg.ratio ls)
    (hover : ((Spec.branches keys s).length + 1) * (((Spec.branches keys s).length + 1) / 64 + 1) % 2 ^ 32 < (Spec.branches keys s).length) :
    Filter.create cfg keys = .error .oobWrite := by
  have hk := keysOk hv hf
  have hwf := leafStrs_wf hk
  have hu := uniq_sorted hk.sorted
  have hz := sizes0_ok hv hf
  have hss := sfxs_fst cfg keys
  have hlen : ls.length = maxLen (leafStrs keys) + 1 := Rep0.len hr
  obtain ⟨c1, c2⟩ := cutoff_bounds hwf hss hr hratio.1 hratio.2 hz.node hz.sfx.le hz.len
  rw [← hsd] at c1 c2
  have hff' : leafStrs keys ≠ [[256]] := fun h => hff ((leafStrs_ff hv.ne hv.nonempty).1 h)
  obtain ⟨ds, e, hl, hds⟩ := buildDense_ok hwf hff' hr c2 hz.node
  obtain ⟨d, ed, -⟩ := dense_mk'_ok hs hc hwf hss hr (sfxs_fits (Or.inl hs) hc) (lt_of_le_of_lt (Nat.mul_le_mul_left _ (leafWords_le hwf _ _ _)) hz.sfx) c1 c2 (nodesR_bound c2 hz.node) hl hds
  unfold Filter.create Builder.build
  have : keys.length > 0 := List.length_pos_of_ne_nil hv.ne
  rw [assertR_ok (by simpa using this), ok_bind, hb, ok_bind, if_pos hd]
  dsimp only
  rw [← hsd, e, ok_bind]
  simp only [pure_ok]
  rw [ok_bind, ed, ok_bind]
  have : LoudsSparse.mk' cfg ⟨ls, s, ds.map (·.labels), ds.map (·.child), ds.map (·.prefixkey)⟩ = .error .oobWrite := by
    unfold LoudsSparse.mk'
    dsimp only
    rw [if_neg (by omega), getR_ok (by omega), ok_bind]
    simp only [pure_ok]
    rw [ok_bind]
    have hlab : (ls.drop s).flatMap (·.labels) = (items (leafStrs keys) s (maxLen (leafStrs keys) + 1)).map lab := by
      unfold items
      rw [List.map_flatMap, drop_flatMap (fun lv => lv.labels) (fun l => (lev (leafStrs keys) (l + 1)).map lab) s _ hlen
        (fun l lv hlv => (hr.lvl l lv hlv).labels)]
    have : LabelVector.mk' ((ls.drop s).flatMap (·.labels)) = .error .oobWrite := by
      unfold LabelVector.mk'
      dsimp only
      rw [hlab, List.length_map, items_branches hwf hu c1, if_pos]
      unfold mul32
      rw [M32_eq]
      exact hover
    rw [this]
    rfl
  rw [this]
  rfl

/-- The array for the labels is large enough. -/
theorem create_room (hs : Env.strict = false) (hc : cfg.Ok) (hd : cfg.includeDense = true) (hratio : 1 ≤ cfg.ratio ∧ cfg.ratio < 2 ^ 28)
    (hv : Spec.Valid keys) (hf : Spec.Small (cfg.hashLen + cfg.realLen) keys) (hff : ¬ Spec.SingleFF keys)
    (hb : Builder.buildSparse cfg keys = .ok ls) (hr : Lv cfg keys ls) {s : Nat}
    (hsd : s = Builder.determineCutoffLevel (cfg.hashLen + cfg.realLen) cfg.ratio ls)
    (hroom : (Spec.branches keys s).length ≤ ((Spec.branches keys s).length + 1) * (((Spec.branches keys s).length + 1) / 64 + 1) % 2 ^ 32) :
    ∃ f, Filter.create cfg keys = .ok f := by
  have hk := keysOk hv hf
  have hwf := leafStrs_wf hk
  have hu := uniq_sorted hk.sorted
  have hz := sizes0_ok hv hf
  have hss := sfxs_fst cfg keys
  have hlen : ls.length = maxLen (leafStrs keys) + 1 := Rep0.len hr
  have hmem : Builder.computeDenseMem (cfg.hashLen + cfg.realLen) ls (maxLen (leafStrs keys)) * cfg.ratio < 18446744073709551616 := by
    have e6 := denseMem_lt hwf hss hr hz.node hz.sfx.le hz.len le_rfl
    have e7 : Builder.computeDenseMem (cfg.hashLen + cfg.realLen) ls (maxLen (leafStrs keys)) * cfg.ratio < 2 ^ 36 * 2 ^ 28 :=
      Nat.mul_lt_mul'' e6 hratio.2
    omega
  obtain ⟨c1, c2⟩ := cutoff_bounds hwf hss hr hratio.1 hratio.2 hz.node hz.sfx.le hz.len
  rw [← hsd] at c1 c2
  have hff' : leafStrs keys ≠ [[256]] := fun h => hff ((leafStrs_ff hv.ne hv.nonempty).1 h)
  obtain ⟨x, hx, -⟩ := sfxMade_ok hs hc hwf hss hr (sfxs_fits (Or.inl hs) hc) 0 s
    (lt_of_le_of_lt (Nat.mul_le_mul_left _ (leafWords_le hwf _ _ _)) hz.sfx) c1 (by omega)
  obtain ⟨y, hy, -⟩ := sfxMade_ok hs hc hwf hss hr (sfxs_fits (Or.inl hs) hc) s ls.length
    (lt_of_le_of_lt (Nat.mul_le_mul_left _ (leafWords_le hwf _ _ _)) hz.sfx) (by omega) le_rfl
  obtain ⟨n, hn⟩ : ∃ n, mul32 ((items (leafStrs keys) s (maxLen (leafStrs keys) + 1)).length + 1)
      (((items (leafStrs keys) s (maxLen (leafStrs keys) + 1)).length + 1) / 64 + 1) = (items (leafStrs keys) s (maxLen (leafStrs keys) + 1)).length + n := by
    rw [items_branches hwf hu c1]
    refine Nat.exists_eq_add_of_le ?_
    unfold mul32
    rw [M32_eq]
    exact hroom
  obtain ⟨f, e, -⟩ := create_any hd hratio.1 hmem hwf hff' hss hr hz.node hz.item hz.len hv.ne hb (Or.inl hs) hsd hn hx hy
  exact ⟨f, e⟩

end

end Surf
