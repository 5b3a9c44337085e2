import Verif.Props.SerialWrap

/-!
# Suffix bits beyond 32-bit positions

The number of suffix bits of a level, and of an encoding, is kept in 32 bits.
-/

set_option autoImplicit false
set_option maxRecDepth 1000000
set_option linter.unusedSectionVars false

namespace Spec

/-- Number of different keys that need at most `s` bytes to be told apart from the others. -/
def endsUpTo (keys : List Bytes) (s : Nat) : Nat := (keys.dedup.filter fun k => cut keys k ≤ s).length

end Spec

namespace Surf.Props
open Surf Trie

/-- `Setting` without a limit on the number of suffix bits; the ratio stays below 2^24. -/
structure WideSetting (cfg : Config) (keys : List Key) : Prop where
  ok : cfg.Ok
  dense : cfg.includeDense = true
  ratio : 1 ≤ cfg.ratio ∧ cfg.ratio < 2 ^ 24
  valid : Spec.Valid keys
  fits : Spec.Fits 0 keys

/-- The same configuration without suffixes. -/
def bare (cfg : Config) : Config := { cfg with suffixType := .kNone, hashLen := 0, realLen := 0 }

theorem bare_ok (cfg : Config) : (bare cfg).Ok := ⟨Nat.zero_le _, trivial⟩

theorem WideSetting.bare {cfg : Config} {keys : List Key} (h : WideSetting cfg keys) : Setting (bare cfg) keys :=
  ⟨bare_ok cfg, h.dense, ⟨h.ratio.1, by have := h.ratio.2; show cfg.ratio < _; omega⟩, h.valid, h.fits⟩

/-! ## Counting -/

section
variable [Env] {cfg : Config} {keys : List Key}

theorem ends_card (h : Setting0 cfg keys) (p : Nat → Bool) :
    ((leafStrs keys).filter fun t => p t.length).length = (keys.dedup.filter fun k => p (Spec.cut keys k)).length := by
  rw [← ((uniq_perm h.sorted).filter _).length_eq]
  unfold leafStrs truncs
  conv_rhs => rw [← leaves_fst 0 (uniq keys), List.filter_map, List.length_map]
  rw [List.filter_map, List.length_map]
  congr 1
  apply List.filter_congr
  intro x hx
  simp only [Function.comp]
  rw [leaf_length h.wf h.sorted (show (x.1, x.2) ∈ _ from hx)]

theorem dends_card (h : Setting0 cfg keys) (sw : Str → Word) (s : Nat) :
    (leafWords (leafStrs keys) sw (items (leafStrs keys) 0 s)).length = Spec.endsUpTo keys s := by
  have hnd : (leafStrs keys).Nodup := h.wf.sorted.imp fun h => ne_of_lt h
  have h1 : ((items (leafStrs keys) 0 s).filter fun p => !isInt (leafStrs keys) p).Perm ((leafStrs keys).filter fun t => t.length ≤ s) := by
    rw [List.perm_ext_iff_of_nodup ((items_nodup h.wf.sorted _ _).filter _) (hnd.filter _)]
    intro p
    simp only [List.mem_filter, mem_items, Bool.not_eq_eq_eq_not, Bool.not_true, decide_eq_true_eq]
    constructor
    · rintro ⟨⟨a, b, c⟩, d⟩; exact ⟨(h.wf.leaf_iff c).1 d, b⟩
    · rintro ⟨a, b⟩
      have h2 := h.wf.nonempty p a
      have : p.length ≠ 0 := by simpa using h2
      exact ⟨⟨by omega, b, p, a, List.prefix_refl _⟩, h.wf.isInt_leaf a⟩
  unfold leafWords Spec.endsUpTo
  rw [List.length_map, h1.length_eq]
  exact ends_card h fun n => decide (n ≤ s)

theorem level_card (h : Setting0 (bare cfg) keys) (l : Nat) :
    (wordsAt (sfxs cfg (leaves 0 (uniq keys))) l).length = Spec.endsAt keys l := by
  have h1 := ends_card h fun n => decide (n = l + 1)
  unfold Spec.endsAt
  rw [← h1, ← sfxs_fst cfg keys, List.filter_map, List.length_map]
  unfold wordsAt
  rw [List.length_map]
  rfl

end

/-! ## Lookup in a filter that has lost its suffixes -/

section
variable [Env]

/-- A suffix vector that matches nothing. -/
def Dead (x : BitvectorSuffix) : Prop := ∀ i key l, x.checkEquality i key l = .ok false

theorem dead_of_empty {x : BitvectorSuffix} (ht : x.type ≠ .kNone) (hn : x.numBits = 0) : Dead x := by
  intro i key l
  unfold BitvectorSuffix.checkEquality
  rw [if_neg ht, hn, if_pos (Nat.zero_le _)]

theorem slookup_dead {y : BitvectorSuffix} (hy : Dead y) (t : LoudsSparse) (key : Key) (rest : Key) (l pos : Nat) {r : Bool}
    (e : t.lookupLoop key rest l pos = .ok r) : LoudsSparse.lookupLoop { t with suffixes := y } key rest l pos = .ok false := by
  induction rest generalizing l pos with
  | nil =>
    rw [LoudsSparse.lookupLoop] at e ⊢
    obtain ⟨a, e1, e⟩ := bind_inv e
    dsimp only
    rw [e1, ok_bind]
    split
    · rename_i hk
      rw [if_pos hk] at e
      obtain ⟨c, e2, e⟩ := bind_inv e
      rw [e2, ok_bind]
      cases c
      · simp only [Bool.not_false, if_true] at e ⊢
        obtain ⟨sp, e3, e⟩ := bind_inv e
        change (t.getSuffixPos pos >>= fun sp => y.checkEquality sp key (l + 1)) = _
        rw [e3, ok_bind, hy]
      · rfl
    · rfl
  | cons b rest ih =>
    rw [LoudsSparse.lookupLoop] at e ⊢
    obtain ⟨sz, e1, e⟩ := bind_inv e
    obtain ⟨⟨fd, p⟩, e2, e⟩ := bind_inv e
    change (t.nodeSize pos >>= _) = _
    rw [e1, ok_bind, e2, ok_bind]
    dsimp only at e ⊢
    cases fd
    · rfl
    · simp only [Bool.not_true, Bool.false_eq_true, if_false] at e ⊢
      obtain ⟨c, e3, e⟩ := bind_inv e
      rw [e3, ok_bind]
      cases c
      · simp only [Bool.not_false, if_true] at e ⊢
        obtain ⟨sp, e4, e⟩ := bind_inv e
        change (t.getSuffixPos p >>= fun sp => y.checkEquality sp key (l + 1)) = _
        rw [e4, ok_bind, hy]
      · simp only [Bool.not_true, Bool.false_eq_true, if_false] at e ⊢
        obtain ⟨n, e4, e⟩ := bind_inv e
        obtain ⟨q, e5, e⟩ := bind_inv e
        change (t.getChildNodeNum p >>= fun n => t.getFirstLabelPos n >>= fun q => _) = _
        rw [e4, ok_bind, e5, ok_bind]
        exact ih _ _ e

variable {cfg : Config} {ts : List Str} {sw : Str → Word} {s : Nat} {f : Filter}

theorem dlookup_dead (h : FRep cfg ts sw s f) {x : BitvectorSuffix} (hd : Dead x) (key : Key) (n l : Nat)
    (hn : l + n = s) (hl : l ≤ key.length) (hx : isInt ts ((syms key).take l) = true) :
    LoudsDense.lookupLoop { f.dense with suffixes := x } key n l (num ts ((syms key).take l)) = .ok (false, 0) ∨
    (s ≤ key.length ∧ isInt ts ((syms key).take s) = true ∧
      LoudsDense.lookupLoop { f.dense with suffixes := x } key n l (num ts ((syms key).take l)) = .ok (true, num ts ((syms key).take s))) := by
  induction n generalizing l with
  | zero =>
    have : l = s := by omega
    subst this
    exact Or.inr ⟨hl, hx, rfl⟩
  | succ n ih =>
    have hxl : ((syms key).take l).length = l := by simp; omega
    have hls : ((syms key).take l).length < s := by omega
    have hp0 := (h.dpos_lt hx hls (b := 0) (by omega)).1
    rw [LoudsDense.lookupLoop]
    dsimp only
    have hm : mul32 (num ts ((syms key).take l)) kFanout = 256 * num ts ((syms key).take l) := by
      unfold kFanout; rw [mul32_eq (by omega), Nat.mul_comm]
    rw [hm]
    by_cases hge : l ≥ key.length
    · rw [if_pos hge, h.dpref hx hls, ok_bind]
      left
      cases he : ex ts ((syms key).take l ++ [0])
      · rfl
      · have ht := (leaf_of_ex h.wf he).1 (isInt_term h.wf _)
        obtain ⟨i, hi, hi2⟩ := h.dsfxPre hx hls ht
        rw [if_pos rfl]
        change (f.dense.getSuffixPos _ true >>= _) = _
        rw [hi, ok_bind, hd, ok_bind]
        rfl
    · have hb : (key.getD l 0).toNat < 256 := UInt8.toNat_lt _
      obtain ⟨e1, e2⟩ := take_succ_w (show l < key.length by omega)
      rw [if_neg hge, add32_eq (h.dpos_lt hx hls hb).1, h.dlabel hx hls hb, ok_bind]
      cases he : ex ts ((syms key).take l ++ [(key.getD l 0).toNat + 1])
      · exact Or.inl rfl
      · simp only [Bool.not_true, Bool.false_eq_true, if_false]
        rw [h.dchild hx hls hb, ok_bind]
        cases hi : isInt ts ((syms key).take l ++ [(key.getD l 0).toNat + 1])
        · have ht := (leaf_of_ex h.wf he).1 hi
          obtain ⟨i, hi, hi2⟩ := h.dsfx hx hls hb ht
          simp only [Bool.not_false, if_true]
          left
          change (f.dense.getSuffixPos _ false >>= _) = _
          rw [hi, ok_bind, hd, ok_bind]
          rfl
        · simp only [Bool.not_true, Bool.false_eq_true, if_false]
          have hcn := h.dchildNum hx hls hb hi
          change LoudsDense.getChildNodeNum { f.dense with suffixes := x } _ = _ at hcn
          rw [hcn, ok_bind, e1]
          exact ih (l + 1) (by omega) (by omega) (by rw [← e1]; exact hi)

/-- A filter that has lost its suffixes answers `false` to every query. -/
theorem lookup_dead (h : FRep cfg ts sw s f) (hs : Env.strict = false) (hc : cfg.Ok) (hp : PadOk f ts s) {x y : BitvectorSuffix} (hx : Dead x) (hy : Dead y)
    (key : Key) : (withSfx f x y).lookupKey key = .ok false := by
  have hroot : isInt ts [] = true := by
    have : [] ∈ nodes ts 0 := by rw [h.wf.nodes_zero]; simp
    exact (mem_nodes.1 this).2
  have hd := dlookup_dead h hx key s 0 (by omega) (by omega) (by simpa using hroot)
  rw [List.take_zero, num_root h.wf] at hd
  unfold Filter.lookupKey LoudsDense.lookupKey
  change (LoudsDense.lookupLoop { f.dense with suffixes := x } key f.dense.height 0 0 >>= _) = _
  rw [h.dense.height]
  rcases hd with e | ⟨h1, h2, e⟩
  · rw [e, ok_bind]; rfl
  · rw [e, ok_bind]
    dsimp only
    have hxl : ((syms key).take s).length = s := by simp; omega
    have hne : num ts ((syms key).take s) ≠ 0 := by
      intro h0
      rw [← num_root h.wf] at h0
      have := num_inj h2 h0
      rw [this] at hxl
      have := h.s1
      simp at hxl; omega
    simp only [Bool.not_true, Bool.false_eq_true, if_false, ne_eq, hne, not_false_eq_true, if_true]
    obtain ⟨A, C, hA, hn⟩ := h.snode h2 (by omega)
    unfold LoudsSparse.lookupKey
    change (f.sparse.getFirstLabelPos _ >>= fun pos => LoudsSparse.lookupLoop { f.sparse with suffixes := y } key (key.drop f.sparse.startLevel)
      f.sparse.startLevel pos) = _
    rw [h.sfirst hA hn, ok_bind, h.sparse.start]
    obtain ⟨r, e2, -⟩ := h.toFRep0.slookup (fun hA => h.low hA) hs hc key (Or.inl hp) _ s h1 rfl le_rfl h2 hA
    exact slookup_dead hy _ _ _ _ _ e2

end

/-! ## Construction -/

section
variable [Env] {cfg : Config} {keys : List Key}

theorem wideMem (h : WideSetting cfg keys) {ls : List Level} {ss : List (Str × Word)} (hss : ss.map Prod.fst = leafStrs keys)
    (hr : Rep0 (cfg.hashLen + cfg.realLen) (maxLen (leafStrs keys) + 1) ls (leafStrs keys) ss) :
    Builder.computeDenseMem (cfg.hashLen + cfg.realLen) ls (maxLen (leafStrs keys)) * cfg.ratio < 18446744073709551616 := by
  have hsz := sizes_ok h.valid h.bare.fits.toFits0
  have hwf := h.bare.wf
  have e3 := denseMem_le hwf hr (maxLen (leafStrs keys)) (by omega)
  have h1 := hsz.node
  have h2 := hsz.len
  have h3 : (nodesR (leafStrs keys) 0 (maxLen (leafStrs keys))).length ≤ (nodesR (leafStrs keys) 0 (maxLen (leafStrs keys) + 1)).length := by
    rw [nodesR_split _ (Nat.zero_le (maxLen (leafStrs keys))) (show maxLen (leafStrs keys) ≤ maxLen (leafStrs keys) + 1 by omega), List.length_append]
    omega
  have h4 : (nodesR (leafStrs keys) 0 (maxLen (leafStrs keys) - 1)).length ≤ (nodesR (leafStrs keys) 0 (maxLen (leafStrs keys))).length := by
    rw [nodesR_split _ (Nat.zero_le (maxLen (leafStrs keys) - 1)) (show maxLen (leafStrs keys) - 1 ≤ maxLen (leafStrs keys) by omega), List.length_append]
    omega
  have h5 : (ss.filter fun x => x.1.length ≤ maxLen (leafStrs keys)).length * (cfg.hashLen + cfg.realLen) ≤ 4294967296 * 64 := by
    apply Nat.mul_le_mul _ h.ok.1
    refine le_trans (List.length_filter_le _ _) ?_
    have h6 := congrArg List.length hss
    rw [List.length_map] at h6
    have h7 : (leafStrs keys).length ≤ keys.length := by
      unfold leafStrs truncs
      rw [List.length_map]
      have := congrArg List.length (leaves_fst 0 (uniq keys))
      rw [List.length_map] at this
      rw [this]
      exact uniq_length keys
    have h8 := h.fits.num
    omega
  rw [M32_eq] at *
  have h9 : Builder.computeDenseMem (cfg.hashLen + cfg.realLen) ls (maxLen (leafStrs keys)) < 2 ^ 40 := by omega
  have := Nat.mul_lt_mul'' h9 h.ratio.2
  omega

theorem sparse_start {b : Builder} {t : LoudsSparse} (e : LoudsSparse.mk' cfg b = .ok t) : t.startLevel = b.startLevel := by
  unfold LoudsSparse.mk' at e
  dsimp only at e
  split at e
  · obtain ⟨_, -, a1⟩ := bind_inv e
    clear e
    obtain ⟨_, -, a2⟩ := bind_inv a1
    clear a1
    obtain ⟨_, -, a3⟩ := bind_inv a2
    clear a2
    obtain ⟨_, -, a4⟩ := bind_inv a3
    clear a3
    obtain ⟨_, -, a5⟩ := bind_inv a4
    clear a4
    obtain ⟨_, -, a6⟩ := bind_inv a5
    clear a5
    split at a6
    · obtain ⟨_, -, b1⟩ := bind_inv a6
      clear a6
      cases b1
      rfl
    · obtain ⟨_, -, b1⟩ := bind_inv a6
      clear a6
      obtain ⟨_, -, b2⟩ := bind_inv b1
      clear b1
      cases b2
      rfl
  · obtain ⟨_, -, a1⟩ := bind_inv e
    clear e
    obtain ⟨_, -, a2⟩ := bind_inv a1
    clear a1
    obtain ⟨_, -, a3⟩ := bind_inv a2
    clear a2
    obtain ⟨_, -, a4⟩ := bind_inv a3
    clear a3
    obtain ⟨_, -, a5⟩ := bind_inv a4
    clear a4
    obtain ⟨_, -, a6⟩ := bind_inv a5
    clear a5
    obtain ⟨_, -, a7⟩ := bind_inv a6
    clear a6
    split at a7
    · obtain ⟨_, -, b1⟩ := bind_inv a7
      clear a7
      cases b1
      rfl
    · obtain ⟨_, -, b1⟩ := bind_inv a7
      clear a7
      obtain ⟨_, -, b2⟩ := bind_inv b1
      clear b1
      cases b2
      rfl

/-- Every filter built has the start level that was computed. -/
theorem start_of_create {ls : List Level} (hd : cfg.includeDense = true) (hb : Builder.buildSparse cfg keys = .ok ls) {f : Filter}
    (e : Filter.create cfg keys = .ok f) :
    f.getSparseStartLevel = Builder.determineCutoffLevel (cfg.hashLen + cfg.realLen) cfg.ratio ls := by
  unfold Filter.create Builder.build at e
  obtain ⟨b, e1, e'⟩ := bind_inv e
  obtain ⟨d, -, e''⟩ := bind_inv e'
  obtain ⟨t, e3, e4⟩ := bind_inv e''
  clear e e' e''
  obtain ⟨_, -, e5⟩ := bind_inv e1
  rw [hb, ok_bind, if_pos hd] at e5
  obtain ⟨ds, -, e6⟩ := bind_inv e5
  clear e1 e5
  cases e6
  cases e4
  show t.startLevel = _
  exact sparse_start e3

/-- **C64**, partial: the total number of suffix bits may exceed 32-bit positions as long as those of one depth, and those of either encoding, do not.
All stored keys are then found.  Missing for the full statement: more suffix bits than that (`C64_lost`, `C64_refuted`). -/
theorem C64_partial (h : WideSetting cfg keys) (hs : Env.strict = false) (hff : ¬ Spec.SingleFF keys)
    (hl : ∀ d, (cfg.hashLen + cfg.realLen) * Spec.endsAt keys d ≤ 2 ^ 32) :
    ∃ s, 1 ≤ s ∧ (∀ f, Filter.create cfg keys = .ok f → f.getSparseStartLevel = s) ∧
      ((cfg.hashLen + cfg.realLen) * Spec.endsUpTo keys s < 2 ^ 32 → (cfg.hashLen + cfg.realLen) * Spec.endsFrom keys s < 2 ^ 32 →
        ∃ f, Filter.create cfg keys = .ok f ∧ ∀ k ∈ keys, f.lookupKey k = .ok true) := by
  have hk := keysOk h.valid h.fits.toSmall
  obtain ⟨ls, e, hr⟩ := buildSparse_ok (Or.inl hs) h.ok hk (fun l => by rw [level_card h.bare.weak, M32_eq]; exact hl l)
  have hwf := h.bare.wf
  have hss := sfxs_fst cfg keys
  have hlen := hr.weak.len
  have hmem := wideMem h hss hr.weak
  obtain ⟨c1, c2⟩ := cutoff_bounds0 hwf hss hr.weak h.ratio.1 hmem
  refine ⟨_, c1, fun f ef => start_of_create h.dense e ef, fun b1 b2 => ?_⟩
  have hne : leafStrs keys ≠ [[256]] := fun hc => hff ((leafStrs_ff h.valid.ne h.valid.nonempty).1 hc)
  have hsz := sizes_ok h.valid h.bare.fits.toFits0
  obtain ⟨x, hx, hx'⟩ := sfxMade_ok hs h.ok hwf hss hr.weak (sfxs_fits (Or.inl hs) h.ok) 0
    (Builder.determineCutoffLevel (cfg.hashLen + cfg.realLen) cfg.ratio ls) (by rw [dends_card h.bare.weak, M32_eq]; exact b1) c1 (by omega)
  obtain ⟨y, hy, hy'⟩ := sfxMade_ok hs h.ok hwf hss hr.weak (sfxs_fits (Or.inl hs) h.ok)
    (Builder.determineCutoffLevel (cfg.hashLen + cfg.realLen) cfg.ratio ls) ls.length
    (by rw [hlen]; have := sends_card h.bare.weak (swOf (sfxs cfg (leaves 0 (uniq keys)))) (Builder.determineCutoffLevel (cfg.hashLen + cfg.realLen) cfg.ratio ls)
        unfold sitems at this
        rw [this, M32_eq]; exact b2) (by omega) le_rfl
  rw [hlen] at hy'
  obtain ⟨f, ef, rfl, rfl, hf, hp⟩ := create_gen hs h.dense h.ratio.1 hmem hwf hne hss hr.weak hsz.node hsz.item hsz.len hsz.room h.valid.ne e rfl hx hy
  have hF0 := hf _ _ _ _ hx' hy'
  change FRep0 cfg (leafStrs keys) (swKeys cfg keys) _ f at hF0
  have hF : FRep cfg (leafStrs keys) (swKeys cfg keys) _ f :=
    ⟨hF0, by have := items_half h.valid h.fits.toSmall; have := h.fits.half; omega⟩
  refine ⟨f, ef, fun k hk => ?_⟩
  obtain ⟨r, e1, h1⟩ := hF.lookup hs h.ok k (Or.inl hp)
  obtain ⟨t, hl, ht⟩ := leaf_of_key hk
  have htk := (leaf_match hwf h.bare.sorted hl).2 ⟨hk, Or.inl rfl⟩
  rcases h1 with ⟨t', ht', htk', rfl⟩ | ⟨hno, -⟩
  · obtain rfl : t' = t := by
      rcases List.prefix_or_prefix_of_prefix htk' htk with hh | hh
      · exact hwf.pf t' ht' t ht hh
      · exact (hwf.pf t ht t' ht' hh).symm
    rw [e1, swKeys_leaf hwf cfg hl]
    exact congrArg Except.ok (passes_self hs h.ok _ _)
  · exact absurd htk (hno t ht)

omit [Env] in
theorem mapM_ok_of {α β : Type} {g : α → R β} {xs : List α} {P : β → Prop} (hg : ∀ a ∈ xs, ∃ b, g a = .ok b ∧ P b) :
    ∃ ys, xs.mapM g = .ok ys ∧ ∀ b ∈ ys, P b := by
  induction xs with
  | nil => exact ⟨[], rfl, by simp⟩
  | cons a xs ih =>
    obtain ⟨b, e1, h1⟩ := hg a List.mem_cons_self
    obtain ⟨ys, e2, h2⟩ := ih fun a' ha => hg a' (List.mem_cons_of_mem _ ha)
    refine ⟨b :: ys, ?_, ?_⟩
    · rw [List.mapM_cons, e1, ok_bind, e2, ok_bind]; rfl
    · intro b' hb
      rcases List.mem_cons.1 hb with rfl | hb
      · exact h1
      · exact h2 _ hb

theorem concat_zero (lvs : List (List Word × Nat)) (h0 : ∀ lv ∈ lvs, lv.2 = 0) (bits : List Word) (w b : Nat) :
    concatLevels lvs bits w b = .ok bits := by
  induction lvs with
  | nil => rfl
  | cons lv lvs ih =>
    obtain ⟨ws, n⟩ := lv
    obtain rfl : n = 0 := h0 _ List.mem_cons_self
    rw [concatLevels, if_pos rfl]
    exact ih fun l hl => h0 l (List.mem_cons_of_mem _ hl)

theorem mk'_zero (lvs : List (List Word × Nat)) (h0 : ∀ lv ∈ lvs, lv.2 = 0) : Bitvector.mk' lvs = .ok ⟨0, []⟩ := by
  have h1 : (lvs.map (·.2)).sum = 0 := by
    rw [List.sum_eq_zero_iff]
    intro x hx
    obtain ⟨lv, hlv, rfl⟩ := List.mem_map.1 hx
    exact h0 lv hlv
  unfold Bitvector.mk' totalNumBits
  rw [h1]
  change (concatLevels lvs [] 0 0 >>= _) = _
  rw [concat_zero lvs h0]
  rfl

/-- When the suffix bits of every level are a multiple of 2^32, the suffix vector is empty. -/
theorem sfxMade_zero (hc : cfg.Ok) (hn : cfg.suffixType ≠ .kNone) {ls : List Level} {a b : Nat} (hb0 : 1 ≤ b) (hb : b ≤ ls.length)
    (h0 : ∀ (l : Nat) (lv : Level), ls[l]? = some lv → mul32 lv.suffixCount (cfg.hashLen + cfg.realLen) = 0) :
    ∃ x, SfxMade cfg ls a b x ∧ Dead x := by
  obtain ⟨lvs, e1, h1⟩ := mapM_ok_of (xs := List.range' a (b - a)) (P := fun lv : List Word × Nat => lv.2 = 0)
    (g := fun l => do
      let n ← getR (sfxNums cfg ls b) l
      let ws ← getR (ls.map (·.suffixes)) l
      return (ws, n)) (by
    intro l hl
    rw [List.mem_range'_1] at hl
    have hlt : l < ls.length := by omega
    have g1 : (sfxNums cfg ls b)[l]? = some 0 := by
      have hlv := List.getElem?_eq_getElem hlt
      unfold sfxNums
      rw [List.getElem?_map, List.getElem?_range (by omega)]
      simp only [Option.map_some, List.getD, hlv, Option.getD_some]
      rw [h0 l _ hlv]
    have g2 : (ls.map (·.suffixes))[l]? = some ls[l].suffixes := by
      rw [List.getElem?_map, List.getElem?_eq_getElem hlt]; rfl
    refine ⟨(ls[l].suffixes, 0), ?_, rfl⟩
    unfold getR
    rw [g1, g2]
    rfl)
  refine ⟨⟨⟨0, []⟩, cfg.suffixType, cfg.hashLen, cfg.realLen⟩, ⟨fun h => absurd h hn, fun _ => ?_⟩, dead_of_empty hn rfl⟩
  have e2 : levelRange (ls.map (·.suffixes)) (sfxNums cfg ls b) a b = .ok lvs := by
    unfold levelRange
    dsimp only
    rw [if_neg (by omega)]
    exact e1
  rw [e2, ok_bind]
  unfold BitvectorSuffix.mk'
  rw [mk'_zero lvs h1, ok_bind, assertR_ok (by simpa using hc.1), ok_bind]
  rfl

/-- If the number of suffix bits of every depth is 2^32 or none at all, the filter is built, and answers `false` to every query: all stored keys are lost. -/
theorem C64_lost (h : WideSetting cfg keys) (hs : Env.strict = false) (hff : ¬ Spec.SingleFF keys) (hn : cfg.suffixType ≠ .kNone)
    (hl : ∀ d, Spec.endsAt keys d = 0 ∨ (cfg.hashLen + cfg.realLen) * Spec.endsAt keys d = 2 ^ 32) :
    ∃ f, Filter.create cfg keys = .ok f ∧ ∀ q, f.lookupKey q = .ok false := by
  have hk := keysOk h.valid h.fits.toSmall
  obtain ⟨ls, e, hr⟩ := buildSparse_ok (Or.inl hs) h.ok hk (fun l => by
    rw [level_card h.bare.weak, M32_eq]
    rcases hl l with h1 | h1
    · rw [h1, Nat.mul_zero]; exact Nat.zero_le _
    · rw [h1]; exact le_refl _)
  have hwf := h.bare.wf
  have hss := sfxs_fst cfg keys
  have hlen := hr.weak.len
  have hmem := wideMem h hss hr.weak
  obtain ⟨c1, c2⟩ := cutoff_bounds0 hwf hss hr.weak h.ratio.1 hmem
  have hne : leafStrs keys ≠ [[256]] := fun hc => hff ((leafStrs_ff h.valid.ne h.valid.nonempty).1 hc)
  have hsz := sizes_ok h.valid h.bare.fits.toFits0
  have h0 : ∀ (l : Nat) (lv : Level), ls[l]? = some lv → mul32 lv.suffixCount (cfg.hashLen + cfg.realLen) = 0 := by
    intro l lv hlv
    rw [(hr.weak.lvl l lv hlv).sfxCount, level_card h.bare.weak]
    unfold mul32
    rw [M32_eq, Nat.mul_comm]
    rcases hl l with h1 | h1
    · rw [h1, Nat.mul_zero]
    · rw [h1]; exact Nat.mod_self _
  obtain ⟨x, hx, hx'⟩ := sfxMade_zero (a := 0) h.ok hn c1 (by omega) h0
  obtain ⟨y, hy, hy'⟩ := sfxMade_zero (a := Builder.determineCutoffLevel (cfg.hashLen + cfg.realLen) cfg.ratio ls) h.ok hn (by omega) (le_refl ls.length) h0
  obtain ⟨f, ef, rfl, rfl, hf, hp⟩ := create_gen hs h.dense h.ratio.1 hmem hwf hne hss hr.weak hsz.node hsz.item hsz.len hsz.room h.valid.ne e rfl hx hy
  have hF := hf (bare cfg) (fun _ => 0) .empty .empty ⟨rfl, fun _ => rfl, fun hc => absurd rfl hc⟩ ⟨rfl, fun _ => rfl, fun hc => absurd rfl hc⟩
  have hF' : FRep (bare cfg) (leafStrs keys) (fun _ => 0) _ _ :=
    ⟨hF, by have := items_half h.valid h.fits.toSmall; have := h.fits.half; omega⟩
  exact ⟨f, ef, fun q => lookup_dead hF' hs (bare_ok cfg) hp hx' hy' q⟩

end

/-! ## Witnesses -/

theorem numKeys_cut {M : Nat} (h0 : 1 ≤ M) (hM : M ≤ 65000) {k : Key} (hk : k ∈ numKeys (65536 * M)) : Spec.cut (numKeys (65536 * M)) k = 4 := by
  obtain ⟨n, hn, rfl⟩ := mem_numKeys.1 hk
  have p4 : (256 : Nat) ^ 4 = 4294967296 := rfl
  apply Nat.le_antisymm
  · apply cut_le (n := 3)
    intro k' hk' hne
    obtain ⟨m, hm, rfl⟩ := mem_numKeys.1 hk'
    by_contra hc
    have h1 := common_le (be 4 n) (be 4 m)
    rw [be_length] at h1
    have h2 := common_take (be 4 n) (be 4 m)
    rw [show Spec.common (be 4 n) (be 4 m) = 4 by omega, List.take_of_length_le (by rw [be_length])] at h2
    exact hne (h2.eq_of_length (by rw [be_length, be_length])).symm
  · -- the neighbour that differs in the last bit
    obtain ⟨m, hm, hne, hd⟩ : ∃ m, m < 65536 * M ∧ m ≠ n ∧ m / 256 = n / 256 := by
      by_cases h : n % 2 = 0
      · exact ⟨n + 1, by omega, by omega, by omega⟩
      · exact ⟨n - 1, by omega, by omega, by omega⟩
    have h1 := lt_cut (mem_numKeys.2 ⟨m, hm, rfl⟩ : be 4 m ∈ numKeys (65536 * M)) (k := be 4 n)
      (fun hc => hne (be_inj (by omega) (by omega) hc))
    have h2 : be 3 (n / 256) <+: be 4 n := by rw [be_succ 3 n]; exact List.prefix_append _ _
    have h3 : be 3 (n / 256) <+: be 4 m := by rw [be_succ 3 m, hd]; exact List.prefix_append _ _
    have h4 := common_ge h2 h3
    rw [be_length] at h4
    omega

theorem numKeys_nodup {m : Nat} (hm : m ≤ 4294967296) : (numKeys m).Nodup := by
  unfold numKeys
  rw [List.nodup_map_iff_inj_on List.nodup_range]
  intro a ha b hb h
  rw [List.mem_range] at ha hb
  have p4 : (256 : Nat) ^ 4 = 4294967296 := rfl
  exact be_inj (by omega) (by omega) h

theorem numKeys_ends {M : Nat} (h0 : 1 ≤ M) (hM : M ≤ 65000) (d : Nat) :
    Spec.endsAt (numKeys (65536 * M)) d = if d = 3 then 65536 * M else 0 := by
  unfold Spec.endsAt
  rw [(numKeys_nodup (by omega)).dedup]
  split
  · rename_i hd
    rw [List.filter_eq_self.2]
    · simp [numKeys]
    · intro k hk
      rw [numKeys_cut h0 hM hk, hd]; rfl
  · rename_i hd
    rw [List.filter_eq_nil_iff.2, List.length_nil]
    intro k hk
    rw [numKeys_cut h0 hM hk, decide_eq_true_eq]
    omega

/-- Hashes of 8 bits, the usual ratio. -/
def cfgH8 : Config := { cfgNone with suffixType := .kHash, hashLen := 8 }

theorem num_lost [Env] (hs : Env.strict = false) {M : Nat} (hM : M = 8192) : WideSetting cfgH8 (numKeys (65536 * M)) ∧
    ∃ f, Filter.create cfgH8 (numKeys (65536 * M)) = .ok f ∧ ∀ q, f.lookupKey q = .ok false := by
  have r1 : Spec.Room (65793 * M + 1) := by rw [hM]; exact Or.inr (by decide)
  have r2 : Spec.Room (65792 * M + 1) := by rw [hM]; exact Or.inr (by decide)
  have r3 : Spec.Room (65536 * M + 1) := by rw [hM]; exact Or.inr (by decide)
  have h : WideSetting cfgH8 (numKeys (65536 * M)) :=
    ⟨by decide, rfl, by decide, numKeys_valid (by omega) (by omega), ⟨numKeys_fits (by omega) (by omega) r1 r2 r3, by
      have := numKeys_shares (M := M) (by omega)
      have hl : (numKeys (65536 * M)).length = 65536 * M := by simp [numKeys]
      omega⟩⟩
  have hne : ¬ Spec.SingleFF (numKeys (65536 * M)) := by
    rintro ⟨k, g, -⟩
    have g1 := (g (be 4 0) (mem_numKeys.2 ⟨0, by omega, rfl⟩)).trans (g (be 4 1) (mem_numKeys.2 ⟨1, by omega, rfl⟩)).symm
    exact absurd g1 (by decide)
  refine ⟨h, C64_lost h hs hne (by decide) fun d => ?_⟩
  rw [numKeys_ends (by omega) (by omega)]
  split
  · right
    show 8 * (65536 * M) = 2 ^ 32
    omega
  · left; rfl

/-- C64 fails: a filter of the 2^29 numbers below 2^29, written with 4 bytes each, with hashes of 8 bits, is built and contains none of its keys. -/
theorem C64_refuted [Env] (hs : Env.strict = false) : WideSetting cfgH8 (numKeys (65536 * 8192)) ∧
    ∃ f, Filter.create cfgH8 (numKeys (65536 * 8192)) = .ok f ∧ ∀ k ∈ numKeys (65536 * 8192), f.lookupKey k = .ok false := by
  obtain ⟨h, f, e, hl⟩ := num_lost hs rfl
  exact ⟨h, f, e, fun k _ => hl k⟩

/-- The hypotheses of `C64_partial` are met by three keys with hashes of 8 bits, whatever the start level. -/
example : WideSetting cfgH8 [[97], [97, 98], [98]] ∧ ¬ Spec.SingleFF [[97], [97, 98], [98]] ∧
    (∀ d, 8 * Spec.endsAt [[97], [97, 98], [98]] d ≤ 2 ^ 32) ∧
    ∀ s, 8 * Spec.endsUpTo [[97], [97, 98], [98]] s < 2 ^ 32 ∧ 8 * Spec.endsFrom [[97], [97, 98], [98]] s < 2 ^ 32 := by
  have hle : ∀ p : Spec.Bytes → Bool, (([[97], [97, 98], [98]] : List Spec.Bytes).dedup.filter p).length ≤ 3 := fun p =>
    (List.length_filter_le _ _).trans (by decide)
  refine ⟨⟨by decide, rfl, by decide, by constructor <;> decide +kernel, fits_of_total (by decide) (by decide +kernel)⟩, ?_, ?_, ?_⟩
  · rintro ⟨k, g, -⟩
    have := (g [97] (by simp)).trans (g [98] (by simp)).symm
    exact absurd this (by decide)
  · intro d
    have := hle fun k => decide (Spec.cut [[97], [97, 98], [98]] k = d + 1)
    unfold Spec.endsAt
    omega
  · intro s
    have h1 := hle fun k => decide (Spec.cut [[97], [97, 98], [98]] k ≤ s)
    have h2 := hle fun k => decide (s < Spec.cut [[97], [97, 98], [98]] k)
    unfold Spec.endsUpTo Spec.endsFrom
    omega

end Surf.Props
