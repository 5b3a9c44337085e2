import Verif.Props.SingleCopy
import Verif.Props.HashSuffix
import Verif.Props.Iter

/-!
# What a filter keeps of its keys (C76)
-/

set_option autoImplicit false
set_option maxRecDepth 1000000
set_option linter.unusedSectionVars false

namespace Spec

/-- The stored forms of the different keys. -/
def storedForms (keys : List Bytes) : List Bytes := keys.dedup.map (stored keys)

/-- What is kept of the bits behind the stored forms: `n` real bits. -/
def realKept (n : Nat) (keys : List Bytes) : List (List Bool) := keys.dedup.map fun k => realSuffix0 n k (cut keys k)

end Spec

namespace Surf.Props
open Surf Trie

/-! ## Stored forms determine the trie -/

/-- A key is a prefix of another key exactly if its stored form is a prefix of another one. -/
theorem cut_stored {keys : List Key} {k : Key} (hk : k ∈ keys) (h0 : k ≠ []) :
    ((∃ x ∈ Spec.storedForms keys, x ≠ Spec.stored keys k ∧ Spec.stored keys k <+: x) → Spec.cut keys k = (Spec.stored keys k).length + 1) ∧
    ((¬ ∃ x ∈ Spec.storedForms keys, x ≠ Spec.stored keys k ∧ Spec.stored keys k <+: x) → Spec.cut keys k = (Spec.stored keys k).length) := by
  have hlen : (Spec.stored keys k).length = min (Spec.cut keys k) k.length := by unfold Spec.stored; rw [List.length_take]
  have hle : Spec.cut keys k ≤ k.length + 1 := cut_le fun k' _ _ => common_le k k'
  constructor
  · rintro ⟨x, hx, hne, hp⟩
    by_contra hc
    obtain ⟨k', hk', rfl⟩ := List.mem_map.1 hx
    have hne' : k' ≠ k := by rintro rfl; exact hne rfl
    have h1 := lt_cut (List.mem_dedup.1 hk') hne'
    have h2 := common_ge (p := Spec.stored keys k) (List.take_prefix _ _) (hp.trans (List.take_prefix _ _))
    omega
  · intro hc
    by_contra hd
    apply hc
    have hcut : Spec.cut keys k = k.length + 1 := by omega
    obtain ⟨k', hk', hne', he⟩ : ∃ k' ∈ keys, k' ≠ k ∧ k.length ≤ Spec.common k k' := by
      by_contra hx
      push_neg at hx
      have hpos := List.length_pos_iff.2 h0
      have := cut_le (n := k.length - 1) fun k' a b => by have := hx k' a b; omega
      omega
    have hs : Spec.stored keys k = k := by unfold Spec.stored; rw [List.take_of_length_le (by omega)]
    have hp : k <+: k' := by
      have := common_take k k'
      rwa [List.take_of_length_le he] at this
    have hlt : k.length < k'.length := by
      rcases Nat.lt_or_ge k.length k'.length with h | h
      · exact h
      · exact absurd (hp.eq_of_length_le h).symm hne'
    have hcom : k.length ≤ Spec.common k' k := common_ge (p := k) hp (List.prefix_refl _)
    have hc' := lt_cut (keys := keys) hk (Ne.symm hne')
    refine ⟨Spec.stored keys k', List.mem_map_of_mem (List.mem_dedup.2 hk'), ?_, ?_⟩
    · intro e
      have := congrArg List.length e
      rw [hs] at this
      unfold Spec.stored at this
      rw [List.length_take] at this
      omega
    · rw [hs]
      exact List.prefix_take_iff.2 ⟨hp, by omega⟩

theorem cuts_congr {keys keys' : List Key} (hv : Spec.Valid keys) (hv' : Spec.Valid keys') (h : Spec.storedForms keys = Spec.storedForms keys') :
    keys.dedup.map (Spec.cut keys) = keys'.dedup.map (Spec.cut keys') := by
  have hl := congrArg List.length h
  unfold Spec.storedForms at hl
  rw [List.length_map, List.length_map] at hl
  apply List.ext_getElem (by rw [List.length_map, List.length_map, hl])
  intro i h1 h2
  rw [List.getElem_map, List.getElem_map]
  rw [List.length_map] at h1 h2
  have e : Spec.stored keys keys.dedup[i] = Spec.stored keys' keys'.dedup[i] := by
    have := List.getElem_of_eq h (i := i) (by unfold Spec.storedForms; rw [List.length_map]; exact h1)
    unfold Spec.storedForms at this
    rwa [List.getElem_map, List.getElem_map] at this
  obtain ⟨a1, a2⟩ := cut_stored (keys := keys) (List.mem_dedup.1 (List.getElem_mem h1)) (hv.nonempty _ (List.mem_dedup.1 (List.getElem_mem h1)))
  obtain ⟨b1, b2⟩ := cut_stored (keys := keys') (List.mem_dedup.1 (List.getElem_mem h2)) (hv'.nonempty _ (List.mem_dedup.1 (List.getElem_mem h2)))
  rw [e, h] at a1 a2
  by_cases hc : ∃ x ∈ Spec.storedForms keys', x ≠ Spec.stored keys' keys'.dedup[i] ∧ Spec.stored keys' keys'.dedup[i] <+: x
  · rw [a1 hc, b1 hc]
  · rw [a2 hc, b2 hc]

theorem leaf_stored (k : Key) (c : Nat) : (w (k.take c)).take c = (w k).take c := by
  rw [w_eq, w_eq, syms_take]
  by_cases h : c ≤ k.length
  · rw [List.take_append_of_le_length (by rw [List.length_take, syms_length]; omega), List.take_append_of_le_length (by rw [syms_length]; exact h),
      List.take_take, Nat.min_self]
  · rw [List.take_of_length_le (l := syms k) (by rw [syms_length]; omega)]

theorem uniq_valid {keys : List Key} (h : Spec.Valid keys) : uniq keys = keys.dedup := by
  have h1 := uniq_sorted h.sorted
  have h2 : (uniq keys).Nodup := h1.imp fun {a b} hab e => by
    rw [e, ← w_lt] at hab; exact lt_irrefl _ hab
  have hp : (uniq keys).Perm keys.dedup :=
    (List.perm_ext_iff_of_nodup h2 (List.nodup_dedup keys)).2 fun a => by rw [mem_uniq, List.mem_dedup]
  refine List.Perm.eq_of_pairwise (le := fun a b : Key => ¬ b < a) ?_ (h1.imp ?_) (h.sorted.sublist (List.dedup_sublist keys)) hp
  · intro a b _ _ h3 h4
    rcases lt_trichotomy (w a) (w b) with g | g | g
    · exact absurd (w_lt.1 g) h4
    · exact w_inj g
    · exact absurd (w_lt.1 g) h3
  · intro a b hab hba
    rw [← w_lt] at hab hba
    exact lt_asymm hab hba

section
variable [Env] {cfg : Config} {keys keys' : List Key}

theorem leaves_eq (h : Setting0 cfg keys) : leaves 0 (uniq keys) = keys.dedup.map fun k => (k, (w k).take (Spec.cut keys k)) := by
  rw [← uniq_valid h.valid]
  conv_rhs => rw [← leaves_fst 0 (uniq keys), List.map_map]
  conv_lhs => rw [← List.map_id (leaves 0 (uniq keys))]
  apply List.map_congr_left
  rintro ⟨k, t⟩ hx
  have h1 := leaf_length h.wf h.sorted hx
  have h2 := List.prefix_iff_eq_take.1 (leaves_prefix hx).1
  rw [h1] at h2
  simp only [id, Function.comp]
  rw [← h2]

/-! ## The levels of the builder are determined -/

theorem words_ext {a b : List Word} (hl : a.length = b.length) (h : ∀ i, bitAt a i = bitAt b i) : a = b := by
  apply List.ext_getElem hl
  intro i h1 h2
  apply BitVec.eq_of_getMsbD_eq
  intro j hj
  have := h (64 * i + j)
  rw [bitAt_word _ _ hj, bitAt_word _ _ hj] at this
  simpa [List.getD, h1, h2] using this

theorem LRep_det {L : Nat} {lv lv' : Level} {ps : List Str} {int : Str → Bool} {ws : List Word} (h : LRep L lv ps int ws)
    (h' : LRep L lv' ps int ws) : lv = lv' := by
  obtain ⟨a1, a2, a3, a4, a5, a6, a7, a8, a9, a10⟩ := h
  obtain ⟨b1, b2, b3, b4, b5, b6, b7, b8, b9, b10⟩ := h'
  have hs : lv.suffixes.length = lv'.suffixes.length := by
    by_cases h0 : L = 0
    · rw [a9.2 h0, b9.2 h0]
    · have := a9.1 (by omega)
      have := b9.1 (by omega)
      have := a8.room
      have := b8.room
      dsimp only at *
      omega
  have c1 := words_ext (a3.trans b3.symm) fun i => (a2.bit i).trans (b2.bit i).symm
  have c2 := words_ext (a5.trans b5.symm) fun i => (a4.bit i).trans (b4.bit i).symm
  have c3 := words_ext hs fun i => (a8.bit i).trans (b8.bit i).symm
  cases lv; cases lv'
  simp only at *
  subst a1 b1 a6 b6 a7 b7 a10 b10 c1 c2 c3
  rfl

theorem Rep_det {L H : Nat} {ls ls' : List Level} {ts : List Str} {ss : List (Str × Word)} (h : Rep L H ls ts ss) (h' : Rep L H ls' ts ss) :
    ls = ls' := by
  apply List.ext_getElem (h.len.trans h'.len.symm)
  intro i h1 h2
  exact LRep_det (h.lvl i _ (List.getElem?_eq_getElem h1)) (h'.lvl i _ (List.getElem?_eq_getElem h2))

theorem create_congr (h : Setting0 cfg keys) (h' : Setting0 cfg keys') (hs : Env.strict = false) (h1 : leafStrs keys = leafStrs keys')
    (h2 : sfxs cfg (leaves 0 (uniq keys)) = sfxs cfg (leaves 0 (uniq keys'))) : Filter.create cfg keys = Filter.create cfg keys' := by
  obtain ⟨ls, e, hr⟩ := buildSparse_ok (Or.inl hs) h.ok (keysOk h.valid h.fits.toSmall) (small_level h.fits.toSmall)
  obtain ⟨ls', e', hr'⟩ := buildSparse_ok (Or.inl hs) h'.ok (keysOk h'.valid h'.fits.toSmall) (small_level h'.fits.toSmall)
  rw [h1, h2] at hr
  obtain rfl := Rep_det hr hr'
  unfold Filter.create Builder.build
  rw [e, e']
  have p1 : decide (keys.length > 0) = true := by simpa using List.length_pos_iff.2 h.valid.ne
  have p2 : decide (keys'.length > 0) = true := by simpa using List.length_pos_iff.2 h'.valid.ne
  rw [p1, p2]

/-- Suffix words are equal if the kept bits are. -/
theorem sfxOf_congr (hs : Env.strict = false) (hc : cfg.Ok) {a b : Key} {l l' : Nat}
    (hr : cfg.suffixType = .kReal ∨ cfg.suffixType = .kMixed → Spec.realSuffix0 cfg.realLen a l = Spec.realSuffix0 cfg.realLen b l')
    (hh : cfg.suffixType = .kHash ∨ cfg.suffixType = .kMixed →
      cfg.hashLen ≤ 57 ∧ Spec.hash a / 2 ^ 7 % 2 ^ cfg.hashLen = Spec.hash b / 2 ^ 7 % 2 ^ cfg.hashLen) : sfxOf cfg a l = sfxOf cfg b l' := by
  cases ht : cfg.suffixType with
  | kNone => unfold sfxOf BitvectorSuffix.constructSuffix; rw [ht]
  | kReal =>
    unfold sfxOf BitvectorSuffix.constructSuffix
    rw [ht]
    dsimp only
    rw [(real_inj (by have := hc.1; omega)).2 (hr (Or.inl ht))]
  | kHash =>
    have h1 : 1 ≤ cfg.hashLen := by have := hc.2; rw [ht] at this; exact this
    obtain ⟨h57, he⟩ := hh (Or.inl ht)
    rw [← suffixHash_spec, ← suffixHash_spec] at he
    unfold sfxOf BitvectorSuffix.constructSuffix
    rw [ht]
    dsimp only
    rw [hash_val a h1 h57, hash_val b h1 h57, he]
  | kMixed =>
    obtain ⟨h57, he⟩ := hh (Or.inr ht)
    rw [← suffixHash_spec, ← suffixHash_spec] at he
    exact (mixed_eq hs hc ht h57).2 ⟨he, hr (Or.inr ht)⟩

/-- **C76.** A filter is determined by the stored forms of its keys and the bits of their suffixes: nothing else of the keys is kept. -/
theorem C76 (h : Setting0 cfg keys) (h' : Setting0 cfg keys') (hs : Env.strict = false) (hst : Spec.storedForms keys = Spec.storedForms keys')
    (hr : cfg.suffixType = .kReal ∨ cfg.suffixType = .kMixed → Spec.realKept cfg.realLen keys = Spec.realKept cfg.realLen keys')
    (hh : cfg.suffixType = .kHash ∨ cfg.suffixType = .kMixed → cfg.hashLen ≤ 57 ∧
      keys.dedup.map (fun k => Spec.hash k / 2 ^ 7 % 2 ^ cfg.hashLen) = keys'.dedup.map (fun k => Spec.hash k / 2 ^ 7 % 2 ^ cfg.hashLen)) :
    SuRF.create cfg keys = SuRF.create cfg keys' := by
  have hcut := cuts_congr h.valid h'.valid hst
  have hl : keys.dedup.length = keys'.dedup.length := by
    have := congrArg List.length hcut
    rwa [List.length_map, List.length_map] at this
  have hleaf : ∀ i (h1 : i < keys.dedup.length) (h2 : i < keys'.dedup.length),
      (w keys.dedup[i]).take (Spec.cut keys keys.dedup[i]) = (w keys'.dedup[i]).take (Spec.cut keys' keys'.dedup[i]) := by
    intro i h1 h2
    have e1 : Spec.cut keys keys.dedup[i] = Spec.cut keys' keys'.dedup[i] := by
      have := List.getElem_of_eq hcut (i := i) (by rw [List.length_map]; exact h1)
      rwa [List.getElem_map, List.getElem_map] at this
    have e2 : Spec.stored keys keys.dedup[i] = Spec.stored keys' keys'.dedup[i] := by
      have := List.getElem_of_eq hst (i := i) (by unfold Spec.storedForms; rw [List.length_map]; exact h1)
      unfold Spec.storedForms at this
      rwa [List.getElem_map, List.getElem_map] at this
    unfold Spec.stored at e2
    rw [← leaf_stored, ← leaf_stored (keys'.dedup[i]), e2, e1]
  have e1 : leafStrs keys = leafStrs keys' := by
    unfold leafStrs truncs
    rw [leaves_eq h, leaves_eq h', List.map_map, List.map_map]
    apply List.ext_getElem (by rw [List.length_map, List.length_map, hl])
    intro i h1 h2
    rw [List.length_map] at h1 h2
    rw [List.getElem_map, List.getElem_map]
    exact hleaf i h1 h2
  have e2 : sfxs cfg (leaves 0 (uniq keys)) = sfxs cfg (leaves 0 (uniq keys')) := by
    unfold sfxs
    rw [leaves_eq h, leaves_eq h', List.map_map, List.map_map]
    apply List.ext_getElem (by rw [List.length_map, List.length_map, hl])
    intro i h1 h2
    rw [List.length_map] at h1 h2
    rw [List.getElem_map, List.getElem_map]
    have m1 := List.getElem_mem h1
    have m2 := List.getElem_mem h2
    have c1 : ((w keys.dedup[i]).take (Spec.cut keys keys.dedup[i])).length = Spec.cut keys keys.dedup[i] :=
      leaf_length h.wf h.sorted (by rw [leaves_eq h]; exact List.mem_map.2 ⟨_, m1, rfl⟩)
    have c2 : ((w keys'.dedup[i]).take (Spec.cut keys' keys'.dedup[i])).length = Spec.cut keys' keys'.dedup[i] :=
      leaf_length h'.wf h'.sorted (by rw [leaves_eq h']; exact List.mem_map.2 ⟨_, m2, rfl⟩)
    simp only [Function.comp]
    rw [c1, c2]
    refine Prod.ext (hleaf i h1 h2) (sfxOf_congr hs h.ok (fun ht => ?_) (fun ht => ⟨(hh ht).1, ?_⟩))
    · have := List.getElem_of_eq (hr ht) (i := i) (by unfold Spec.realKept; rw [List.length_map]; exact h1)
      unfold Spec.realKept at this
      rwa [List.getElem_map, List.getElem_map] at this
    · have := List.getElem_of_eq (hh ht).2 (i := i) (by rw [List.length_map]; exact h1)
      rwa [List.getElem_map, List.getElem_map] at this
  unfold SuRF.create
  rw [create_congr h h' hs e1 e2]

theorem single_stored (hv : Spec.Valid keys) (hff : Spec.SingleFF keys) : Spec.storedForms keys = [[255]] := by
  obtain ⟨k, hk, h255⟩ := hff
  have hd : keys.dedup = [k] := by
    have h4 : keys.dedup ⊆ [k] := fun x hx => by simpa using hk x (List.mem_dedup.1 hx)
    have h5 := ((List.nodup_dedup keys).subperm h4).length_le
    have h6 : keys.dedup ≠ [] := by rw [Ne, List.dedup_eq_nil]; exact hv.ne
    match hx : keys.dedup, h6 with
    | [a], _ =>
      rw [hx] at h4
      simpa using h4
    | a :: b :: l, _ => rw [hx] at h5; simp at h5
  have hmem : k ∈ keys := List.mem_dedup.1 (by rw [hd]; simp)
  have hc : Spec.cut keys k = 1 := by
    have h1 := cut_pos keys k
    have h2 : Spec.cut keys k ≤ 0 + 1 := cut_le fun k' hk' hne => absurd (hk k' hk') hne
    omega
  unfold Spec.storedForms Spec.stored
  rw [hd, List.map_singleton, hc]
  cases k with
  | nil => simp at h255
  | cons a k => simp at h255; simp [h255]

/-- Conversely the stored forms can be read off the filter, whatever the suffixes. -/
theorem C76_stored (h : Setting cfg keys) (h' : Setting cfg keys') (hs : Env.strict = false)
    (he : SuRF.create cfg keys = SuRF.create cfg keys') : Spec.storedForms keys = Spec.storedForms keys' := by
  have hf : ∀ {f f'}, Filter.create cfg keys = .ok f → Filter.create cfg keys' = .ok f' → f = f' := by
    intro f f' e e'
    unfold SuRF.create at he
    rw [e, e', ok_bind, ok_bind] at he
    have := Except.ok.inj he
    exact congrArg SuRF.filter this
  have mixed : ∀ {a b : List Key}, Setting cfg a → Setting cfg b → (∀ {f f'}, Filter.create cfg a = .ok f → Filter.create cfg b = .ok f' → f = f') →
      Spec.SingleFF a → ¬ Spec.SingleFF b → False := by
    intro a b ha hb hfe h1 h2
    obtain ⟨f, e, -, hl⟩ := C35 ha hs
    obtain ⟨f', e', hl', -⟩ := C35 hb hs
    obtain rfl := hfe e e'
    obtain ⟨k, hk⟩ := List.exists_mem_of_ne_nil _ hb.valid.ne
    have g1 := hl'.2 h2 k hk
    have g2 := hl h1 k (hb.valid.nonempty k hk)
    rw [g1] at g2
    cases g2
  by_cases hff : Spec.SingleFF keys
  · by_cases hff' : Spec.SingleFF keys'
    · rw [single_stored h.valid hff, single_stored h'.valid hff']
    · exact (mixed h h' hf hff hff').elim
  by_cases hff' : Spec.SingleFF keys'
  · exact (mixed h' h (fun e e' => (hf e' e).symm) hff' hff).elim
  obtain ⟨f, e, it, e1, hn⟩ := C12_partial h hs hff
  obtain ⟨f', e', it', e1', hn'⟩ := C12_partial h' hs hff'
  obtain rfl := hf e e'
  rw [e1] at e1'
  obtain rfl := Except.ok.inj e1'
  have key : ∀ n, ∃ x : Iter, Shows keys x (if n < keys.dedup.length then some n else none) ∧
      Shows keys' x (if n < keys'.dedup.length then some n else none) := by
    intro n
    obtain ⟨x, a, b⟩ := hn n
    obtain ⟨x', a', b'⟩ := hn' n
    rw [a] at a'
    have := congrArg Prod.snd (Except.ok.inj a')
    dsimp only at this
    subst this
    exact ⟨x, b, b'⟩
  have hlen : keys.dedup.length = keys'.dedup.length := by
    have hlt : ∀ n, n < keys.dedup.length ↔ n < keys'.dedup.length := by
      intro n
      obtain ⟨x, b, b'⟩ := key n
      by_cases c : n < keys.dedup.length <;> by_cases c' : n < keys'.dedup.length
      · simp [c, c']
      · rw [if_pos c] at b; rw [if_neg c'] at b'
        exact absurd (b.1.symm.trans b'.1) (by simp)
      · rw [if_neg c] at b; rw [if_pos c'] at b'
        exact absurd (b.1.symm.trans b'.1) (by simp)
      · simp [c, c']
    have := hlt keys.dedup.length
    have := hlt keys'.dedup.length
    omega
  unfold Spec.storedForms
  apply List.ext_getElem (by rw [List.length_map, List.length_map, hlen])
  intro i h1 h2
  rw [List.length_map] at h1 h2
  obtain ⟨x, b, b'⟩ := key i
  rw [if_pos h1] at b
  rw [if_pos h2] at b'
  obtain ⟨-, k, hk, hb⟩ := b
  obtain ⟨-, k', hk', hb'⟩ := b'
  rw [List.getElem?_eq_getElem h1, Option.some.injEq] at hk
  rw [List.getElem?_eq_getElem h2, Option.some.injEq] at hk'
  rw [List.getElem_map, List.getElem_map, hk, hk', ← hb, ← hb']

/-- Without suffixes two lists give the same filter exactly if their keys have the same stored forms. -/
theorem C76_none (h : Setting cfg keys) (h' : Setting cfg keys') (hs : Env.strict = false) (hn : cfg.suffixType = .kNone) :
    SuRF.create cfg keys = SuRF.create cfg keys' ↔ Spec.storedForms keys = Spec.storedForms keys' :=
  ⟨C76_stored h h' hs, fun he => C76 h.weak h'.weak hs he (by simp [hn]) (by simp [hn])⟩

end

/-- Different keys with the same stored forms. -/
example : Spec.storedForms [[97, 97], [97, 98], [98, 97], [98, 98]] = Spec.storedForms ([[97, 97, 1], [97, 98], [98, 97, 7, 9], [98, 98, 98]] : List Key) := by
  decide +kernel

/-- The same suffixes, too: eight real bits, the rest differs. -/
example : let a : List Key := [[97, 1, 2], [98, 7, 9]]
    let b : List Key := [[97, 1], [98, 7, 1, 1]]
    Spec.storedForms a = Spec.storedForms b ∧ Spec.realKept 8 a = Spec.realKept 8 b ∧ a ≠ b := by
  decide +kernel

end Surf.Props
