import Verif.Proof.Cutoff

/-! # Construction in strict C++, with real suffixes

The only accesses outside an array are those of the concatenation of the levels. -/

set_option linter.unusedSectionVars false
set_option autoImplicit false

namespace Surf
open Trie

section
variable [Env]

/-- In strict C++ a bit vector that was made was concatenated inside its array. -/
theorem Bitvector.mk'_inside (hs : Env.strict = true) {lvs : List (List Word × Nat)} (hroom : ∀ lv ∈ lvs, lv.2 ≤ 64 * lv.1.length)
    (h32 : (lvs.map (·.2)).sum < M32) {b : Bitvector} (h : Bitvector.mk' lvs = .ok b) : InsideN (lvs.map (·.2)) := by
  intro h1
  by_contra h2
  have hov := levelOps_over lvs hroom 0 0 (by omega)
  simp only [Nat.mul_zero, Nat.zero_add] at hov
  obtain ⟨o, ho, hle⟩ := hov.2 ⟨h1, h2⟩
  have htot : totalNumBits (lvs.map (·.2)) = (lvs.map (·.2)).sum := by
    unfold totalNumBits
    rw [u32, Nat.mod_eq_of_lt h32]
  unfold Bitvector.mk' at h
  dsimp only at h
  rw [htot, concatLevels_ops _ hroom _ _ _ (by omega), orAll_strict hs] at h
  · cases h
  · exact ⟨o, ho, by rw [List.length_replicate, if_pos h1]; omega⟩

variable {cfg : Config} {keys : List Key} {ls : List Level}

/-- The numbers of bits of the levels of the bit vectors of a filter that starts its sparse part at level `s`. -/
structure InsideAt (cfg : Config) (keys : List Key) (s : Nat) : Prop where
  nodes : InsideN ((List.range' 0 (s - 0)).map fun l => (nodes (leafStrs keys) l).length)
  items : InsideN ((List.range' s (maxLen (leafStrs keys) + 1 - s)).map fun l => (lev (leafStrs keys) (l + 1)).length)
  dense : InsideN ((List.range' 0 (s - 0)).map fun l => (cfg.hashLen + cfg.realLen) * (wordsAt (sfxs cfg (leaves 0 (uniq keys))) l).length)
  sparse : InsideN ((List.range' s (maxLen (leafStrs keys) + 1 - s)).map fun l =>
    (cfg.hashLen + cfg.realLen) * (wordsAt (sfxs cfg (leaves 0 (uniq keys))) l).length)

theorem create_in (hre : cfg.suffixType = .kReal) (hc : cfg.Ok) (hd : cfg.includeDense = true) (hratio : 1 ≤ cfg.ratio ∧ cfg.ratio < 2 ^ 28)
    (hv : Spec.Valid keys) (hf : Spec.Fits0 (cfg.hashLen + cfg.realLen) keys) (hff : ¬ Spec.SingleFF keys)
    (hb : Builder.buildSparse cfg keys = .ok ls) (hr : Lv cfg keys ls) {s : Nat}
    (hsd : s = Builder.determineCutoffLevel (cfg.hashLen + cfg.realLen) cfg.ratio ls) (hin : InsideAt cfg keys s) :
    ∃ f, Filter.create cfg keys = .ok f := by
  have hk := keysOk hv hf.toSmall
  have hwf := leafStrs_wf hk
  have hz := sizes_ok hv hf
  have hss := sfxs_fst cfg keys
  have hlen : ls.length = maxLen (leafStrs keys) + 1 := Rep0.len hr
  have hmem : Builder.computeDenseMem (cfg.hashLen + cfg.realLen) ls (maxLen (leafStrs keys)) * cfg.ratio < 18446744073709551616 := by
    have e6 := denseMem_lt hwf hss hr hz.node hz.sfx.le hz.len le_rfl
    have e7 : Builder.computeDenseMem (cfg.hashLen + cfg.realLen) ls (maxLen (leafStrs keys)) * cfg.ratio < 2 ^ 36 * 2 ^ 28 :=
      Nat.mul_lt_mul'' e6 hratio.2
    omega
  obtain ⟨c1, c2⟩ := cutoff_bounds hwf hss hr hratio.1 hratio.2 hz.node hz.sfx.le hz.len
  rw [← hsd] at c1 c2
  have hff' : leafStrs keys ≠ [[256]] := fun h => hff ((leafStrs_ff hv.ne hv.nonempty).1 h)
  obtain ⟨x, hx, -⟩ := sfxMade_in hc hwf hss hr (sfxs_fits (Or.inr hre) hc) 0 s (Or.inr hin.dense)
    (lt_of_le_of_lt (Nat.mul_le_mul_left _ (leafWords_le hwf _ _ _)) hz.sfx) c1 (by omega)
  obtain ⟨y, hy, -⟩ := sfxMade_in hc hwf hss hr (sfxs_fits (Or.inr hre) hc) s ls.length (Or.inr (by rw [hlen]; exact hin.sparse))
    (lt_of_le_of_lt (Nat.mul_le_mul_left _ (leafWords_le hwf _ _ _)) hz.sfx) (by omega) le_rfl
  obtain ⟨n, hn, -⟩ := room_left (hz.room s c1)
  obtain ⟨f, e, -⟩ := create_any hd hratio.1 hmem hwf hff' hss hr hz.node hz.item hz.len hv.ne hb (Or.inr ⟨hin.nodes, hin.items⟩) hsd hn hx hy
  exact ⟨f, e⟩

theorem create_out (hs : Env.strict = true) (hre : cfg.suffixType = .kReal) (hd : cfg.includeDense = true)
    (hratio : 1 ≤ cfg.ratio ∧ cfg.ratio < 2 ^ 28)
    (hv : Spec.Valid keys) (hf : Spec.Fits0 (cfg.hashLen + cfg.realLen) keys) (hff : ¬ Spec.SingleFF keys)
    (hb : Builder.buildSparse cfg keys = .ok ls) (hr : Lv cfg keys ls) {s : Nat}
    (hsd : s = Builder.determineCutoffLevel (cfg.hashLen + cfg.realLen) cfg.ratio ls) {f : Filter} (h : Filter.create cfg keys = .ok f) :
    InsideAt cfg keys s := by
  have hk := keysOk hv hf.toSmall
  have hwf := leafStrs_wf hk
  have hz := sizes_ok hv hf
  have hss := sfxs_fst cfg keys
  have hlen : ls.length = maxLen (leafStrs keys) + 1 := Rep0.len hr
  obtain ⟨c1, c2⟩ := cutoff_bounds hwf hss hr hratio.1 hratio.2 hz.node hz.sfx.le hz.len
  rw [← hsd] at c1 c2
  have hff' : leafStrs keys ≠ [[256]] := fun h => hff ((leafStrs_ff hv.ne hv.nonempty).1 h)
  have hnone : ¬ cfg.suffixType = .kNone := by rw [hre]; simp
  obtain ⟨ds, e, hl, hds⟩ := buildDense_ok hwf hff' hr c2 hz.node
  unfold Filter.create Builder.build at h
  have : keys.length > 0 := List.length_pos_of_ne_nil hv.ne
  rw [assertR_ok (by simpa using this), ok_bind, hb, ok_bind, if_pos hd] at h
  dsimp only at h
  rw [← hsd, e, ok_bind] at h
  simp only [pure_ok] at h
  rw [ok_bind] at h
  obtain ⟨d, h2, h⟩ := bind_ok_iff.1 h
  obtain ⟨t, h3, -⟩ := bind_ok_iff.1 h
  -- the suffix vectors
  have hsfx : ∀ a b, 1 ≤ b → b ≤ ls.length → ∀ snums : List Nat, b ≤ snums.length →
      (∀ l lv, a ≤ l → l < b → ls[l]? = some lv → snums.getD l 0 = mul32 lv.suffixCount (cfg.hashLen + cfg.realLen)) → ∀ x,
      (levelRange (ls.map (·.suffixes)) snums a b >>= fun lv => BitvectorSuffix.mk' cfg.suffixType cfg.hashLen cfg.realLen lv) = .ok x →
      InsideN ((List.range' a (b - a)).map fun l => (cfg.hashLen + cfg.realLen) * (wordsAt (sfxs cfg (leaves 0 (uniq keys))) l).length) := by
    intro a b h1 hbl snums hsn hnums x hx
    have hw : leafWords (leafStrs keys) (swOf (sfxs cfg (leaves 0 (uniq keys)))) (items (leafStrs keys) a b) =
        ((List.range' a (b - a)).map (wordsAt (sfxs cfg (leaves 0 (uniq keys))))).flatten := by
      unfold items
      rw [List.map_congr_left (g := fun l => leafWords (leafStrs keys) (swOf (sfxs cfg (leaves 0 (uniq keys)))) (lev (leafStrs keys) (l + 1)))
        (fun l _ => wordsAt_eq hwf hss l)]
      generalize List.range' a (b - a) = r
      induction r with
      | nil => rfl
      | cons q r ih => rw [List.flatMap_cons, leafWords_append, ih]; rfl
    have h32 : (cfg.hashLen + cfg.realLen) * ((List.range' a (b - a)).map (wordsAt (sfxs cfg (leaves 0 (uniq keys))))).flatten.length < M32 := by
      rw [← hw]
      exact lt_of_le_of_lt (Nat.mul_le_mul_left _ (leafWords_le hwf _ _ _)) hz.sfx
    have hnum : ∀ l ∈ List.range' a (b - a), snums.getD l 0 = (cfg.hashLen + cfg.realLen) * (wordsAt (sfxs cfg (leaves 0 (uniq keys))) l).length := by
      intro l hl
      have hl' := List.mem_range'_1.1 hl
      have hlv := List.getElem?_eq_getElem (l := ls) (i := l) (by omega)
      have h1 : (cfg.hashLen + cfg.realLen) * (wordsAt (sfxs cfg (leaves 0 (uniq keys))) l).length < M32 := by
        refine lt_of_le_of_lt (Nat.mul_le_mul_left _ ?_) h32
        exact (List.sublist_flatten_of_mem (List.mem_map_of_mem hl)).length_le
      rw [hnums l _ (by omega) (by omega) hlv, (hr.lvl l _ hlv).sfxCount, mul32, Nat.mul_comm, Nat.mod_eq_of_lt h1]
    rw [levelRange_ok h1 (by simpa using hbl) hsn, ok_bind] at hx
    unfold BitvectorSuffix.mk' at hx
    obtain ⟨bv, hbv, -⟩ := bind_ok_iff.1 hx
    have hmap : (((List.range' a (b - a)).map fun l => ((ls.map (·.suffixes)).getD l [], snums.getD l 0)).map (·.2)) =
        (List.range' a (b - a)).map fun l => (cfg.hashLen + cfg.realLen) * (wordsAt (sfxs cfg (leaves 0 (uniq keys))) l).length := by
      rw [List.map_map]
      exact List.map_congr_left hnum
    have := Bitvector.mk'_inside hs (by
      intro lv hlv
      obtain ⟨l, hl, rfl⟩ := List.mem_map.1 hlv
      dsimp only
      rw [hnum l hl]
      have hl' := List.mem_range'_1.1 hl
      have hlv := List.getElem?_eq_getElem (l := ls) (i := l) (by omega)
      have h5 := (hr.lvl l _ hlv).sfx.room
      rw [packBits_length] at h5
      simpa [List.getD, hlv] using h5) (by
      rw [hmap]
      have : ((List.range' a (b - a)).map fun l => (cfg.hashLen + cfg.realLen) * (wordsAt (sfxs cfg (leaves 0 (uniq keys))) l).length).sum =
          (cfg.hashLen + cfg.realLen) * ((List.range' a (b - a)).map (wordsAt (sfxs cfg (leaves 0 (uniq keys))))).flatten.length := by
        generalize List.range' a (b - a) = r
        induction r with
        | nil => simp
        | cons q r ih => rw [List.map_cons, List.sum_cons, ih, List.map_cons, List.flatten_cons, List.length_append, Nat.mul_add]
      rw [this]
      exact h32) hbv
    rwa [hmap] at this
  -- the dense part
  unfold LoudsDense.mk' at h2
  dsimp only at h2
  obtain ⟨nums, -, h2⟩ := bind_ok_iff.1 h2
  obtain ⟨lv1, -, h2⟩ := bind_ok_iff.1 h2
  obtain ⟨labels, -, h2⟩ := bind_ok_iff.1 h2
  obtain ⟨lv2, -, h2⟩ := bind_ok_iff.1 h2
  obtain ⟨child, -, h2⟩ := bind_ok_iff.1 h2
  obtain ⟨lv3, d3, h2⟩ := bind_ok_iff.1 h2
  obtain ⟨pre, d4, h2⟩ := bind_ok_iff.1 h2
  rw [if_neg hnone] at h2
  obtain ⟨snums, d6, h2⟩ := bind_ok_iff.1 h2
  rw [← bind_assoc] at h2
  obtain ⟨sfx, d5, -⟩ := bind_ok_iff.1 h2
  rw [levelRange_ok c1 (by simp [hl]) (by simp; omega)] at d3
  have d3 := (Except.ok.inj d3).symm
  subst d3
  have e2 : ((List.range s).mapM fun l => (do
      let lv ← getR ls l
      return mul32 lv.suffixCount (cfg.hashLen + cfg.realLen) : R Nat)) = .ok (sfxNums cfg ls s) := by
    apply mapM_ok
    intro l hl
    rw [List.mem_range] at hl
    rw [getR_ok (by omega), ok_bind]
    simp [List.getD, List.getElem?_eq_getElem (show l < ls.length by omega)]
  rw [e2] at d6
  have d6 := (Except.ok.inj d6).symm
  subst d6
  -- the sparse part
  unfold LoudsSparse.mk' at h3
  dsimp only at h3
  rw [if_neg (by omega)] at h3
  obtain ⟨_, -, h3⟩ := bind_ok_iff.1 h3
  obtain ⟨_, -, h3⟩ := bind_ok_iff.1 h3
  obtain ⟨slab, -, h3⟩ := bind_ok_iff.1 h3
  obtain ⟨lv4, t4, h3⟩ := bind_ok_iff.1 h3
  obtain ⟨schild, t5, h3⟩ := bind_ok_iff.1 h3
  obtain ⟨lv5, -, h3⟩ := bind_ok_iff.1 h3
  obtain ⟨louds, -, h3⟩ := bind_ok_iff.1 h3
  rw [if_neg hnone, ← bind_assoc] at h3
  obtain ⟨ssfx, t6, -⟩ := bind_ok_iff.1 h3
  rw [levelRange_ok (by omega) (by simp) (by simp)] at t4
  have t4 := (Except.ok.inj t4).symm
  subst t4
  refine ⟨?_, ?_, ?_, ?_⟩
  · unfold BitvectorRank.mk' at d4
    obtain ⟨bv, hbv, -⟩ := bind_ok_iff.1 d4
    have hnum : ∀ l ∈ List.range' 0 (s - 0), (ls.map (·.nodeCount)).getD l 0 = (nodes (leafStrs keys) l).length := by
      intro l hl
      rw [List.mem_range'_1] at hl
      have hlv := List.getElem?_eq_getElem (l := ls) (i := l) (by omega)
      simp only [List.getD, List.getElem?_map, hlv, Option.map_some, Option.getD_some]
      exact (hr.lvl l _ hlv).node.trans (lev_nodeCount hwf.sorted l)
    have hmap : (((List.range' 0 (s - 0)).map fun l => ((ds.map (·.prefixkey)).getD l [], (ls.map (·.nodeCount)).getD l 0)).map (·.2)) =
        (List.range' 0 (s - 0)).map fun l => (nodes (leafStrs keys) l).length := by
      rw [List.map_map]
      exact List.map_congr_left hnum
    have := Bitvector.mk'_inside hs (by
      intro lv hlv
      obtain ⟨l, hl', rfl⟩ := List.mem_map.1 hlv
      dsimp only
      rw [hnum l hl']
      have hl'' := List.mem_range'_1.1 hl'
      have hlv := List.getElem?_eq_getElem (l := ds) (i := l) (by omega)
      have h5 := (hds l _ hlv).pre.room
      unfold prefBits at h5
      rw [List.length_map] at h5
      simpa [List.getD, hlv] using h5) (by
      rw [hmap]
      have h6 : ((List.range' 0 (s - 0)).map fun l => (nodes (leafStrs keys) l).length).sum = (nodesR (leafStrs keys) 0 s).length := by
        unfold nodesR
        rw [List.length_flatMap]
      rw [h6]
      have := nodesR_bound c2 hz.node
      omega) hbv
    rwa [hmap] at this
  · unfold BitvectorRank.mk' at t5
    obtain ⟨bv, hbv, -⟩ := bind_ok_iff.1 t5
    have hi := hz.item
    have hlevN : ∀ l, l < maxLen (leafStrs keys) + 1 → (lev (leafStrs keys) (l + 1)).length < M32 := by
      intro l hl
      refine lt_of_le_of_lt ?_ (show (items (leafStrs keys) 0 (maxLen (leafStrs keys) + 1)).length < M32 by omega)
      unfold items
      rw [List.flatMap_def]
      have hm : lev (leafStrs keys) (l + 1) ∈ (List.range' 0 (maxLen (leafStrs keys) + 1 - 0)).map fun l => lev (leafStrs keys) (l + 1) :=
        List.mem_map.2 ⟨l, List.mem_range'_1.2 ⟨Nat.zero_le _, by omega⟩, rfl⟩
      exact (List.sublist_flatten_of_mem hm).length_le
    have hnum : ∀ l ∈ List.range' s (ls.length - s), (ls.map (u32 ·.labels.length)).getD l 0 = (lev (leafStrs keys) (l + 1)).length := by
      intro l hl
      rw [List.mem_range'_1] at hl
      have hlv := List.getElem?_eq_getElem (l := ls) (i := l) (by omega)
      have := (hr.lvl l _ hlv).labels
      simp only [List.getD, List.getElem?_map, hlv, Option.map_some, Option.getD_some]
      rw [this, List.length_map, u32, Nat.mod_eq_of_lt (hlevN l (by omega))]
    have hmap : (((List.range' s (ls.length - s)).map fun l => ((ls.map (·.child)).getD l [], (ls.map (u32 ·.labels.length)).getD l 0)).map (·.2)) =
        (List.range' s (maxLen (leafStrs keys) + 1 - s)).map fun l => (lev (leafStrs keys) (l + 1)).length := by
      rw [List.map_map, ← hlen]
      exact List.map_congr_left hnum
    have := Bitvector.mk'_inside hs (by
      intro lv hlv
      obtain ⟨l, hl', rfl⟩ := List.mem_map.1 hlv
      dsimp only
      rw [hnum l hl']
      have hl'' := List.mem_range'_1.1 hl'
      have hlv := List.getElem?_eq_getElem (l := ls) (i := l) (by omega)
      have h5 := (hr.lvl l _ hlv).child.room
      rw [List.length_map] at h5
      simpa [List.getD, hlv] using h5) (by
      rw [hmap]
      have h6 : ((List.range' s (maxLen (leafStrs keys) + 1 - s)).map fun l => (lev (leafStrs keys) (l + 1)).length).sum =
          (items (leafStrs keys) s (maxLen (leafStrs keys) + 1)).length := by
        unfold items
        rw [List.length_flatMap]
      rw [h6]
      have h7 := congrArg List.length (items_split (leafStrs keys) (Nat.zero_le s) (show s ≤ maxLen (leafStrs keys) + 1 by omega))
      rw [List.length_append] at h7
      omega) hbv
    rwa [hmap] at this
  · exact hsfx 0 s c1 (by omega) (sfxNums cfg ls s) (by simp [sfxNums]) (by
      intro l lv _ hl hlv
      simp [sfxNums, List.getD, hl, hlv]) _ d5
  · have := hsfx s ls.length (by omega) le_rfl _ (by simp) (by
      intro l lv _ hl hlv
      simp [List.getD, hlv]) _ t6
    rwa [hlen] at this

end

end Surf
