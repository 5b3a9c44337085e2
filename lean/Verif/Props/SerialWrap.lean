import Verif.Proof.SerialSize
import Verif.Props.Serialize
import Verif.Props.Build
import Verif.Proof.NumKeys

/-!
# The exact size of a written filter, and filters that cannot be written
-/

set_option autoImplicit false
set_option maxRecDepth 1000000
set_option linter.unusedSectionVars false

namespace Spec

/-- The next multiple of 8. -/
def pad8 (n : Nat) : Nat := (n + 7) / 8 * 8

/-- Bytes that `n` bits take in 64-bit words. -/
def bitBytes (n : Nat) : Nat := 8 * ((n + 63) / 64)

/-- Bytes that the second encoding takes in the written form behind its header, for `n` branches, `m` nodes and `b` suffix bits:
the labels (one more than branches), the bits that mark inner nodes with a count every 512 bits, the bits that mark the first branch of every node with
a position every 64 nodes, the suffixes. -/
def sparseBytes (n m b : Nat) : Nat :=
  pad8 (4 + (n + 1)) + pad8 (8 + bitBytes n + 4 * (n / 512 + 1)) + pad8 (12 + bitBytes n + 4 * (m / 64 + 1)) + pad8 (16 + bitBytes b)

/-- Number of nodes at depth `s` or deeper. -/
def nodesFrom (keys : List Bytes) (s : Nat) : Nat := ((sharedPrefixes keys).filter fun p => s ≤ p.length).length

/-- Number of different keys that need more than `s` bytes to be told apart from the others. -/
def endsFrom (keys : List Bytes) (s : Nat) : Nat := (keys.dedup.filter fun k => s < cut keys k).length

end Spec

namespace Surf.Props
open Surf Trie

section
variable [Env] {cfg : Config} {keys : List Key}

theorem sitems_card (h : Setting0 cfg keys) {s : Nat} (hs : 1 ≤ s) : (sitems (leafStrs keys) s).length = (Spec.branches keys s).length := by
  have := (items_branches_perm h.wf h.sorted hs).length_eq
  rw [List.length_map] at this
  exact this

theorem snodes_card (h : Setting0 cfg keys) {s : Nat} (hs : 1 ≤ s) : (snodes (leafStrs keys) s).length = Spec.nodesFrom keys s := by
  unfold Spec.nodesFrom
  rw [← List.length_map (f := syms) (as := List.filter _ _)]
  apply List.Perm.length_eq
  rw [List.perm_ext_iff_of_nodup]
  · intro x
    show x ∈ nodesR (leafStrs keys) s (maxLen (leafStrs keys) + 1) ↔ _
    rw [mem_nodesR]
    simp only [List.mem_map, List.mem_filter, mem_sharedPrefixes, decide_eq_true_eq]
    constructor
    · rintro ⟨h1, h2, h3⟩
      obtain ⟨p, rfl, hp⟩ := node_shared h.wf h.sorted h3 (by rintro rfl; simp at h1; omega)
      rw [syms_length] at h1
      exact ⟨p, ⟨hp, h1⟩, rfl⟩
    · rintro ⟨p, ⟨h1, h2⟩, rfl⟩
      have h3 := shared_int h.sorted h1
      obtain ⟨t, ht, hp, -⟩ := isInt_iff.1 h3
      have := le_maxLen ht
      have := hp.length_le
      rw [syms_length] at *
      exact ⟨by omega, by omega, h3⟩
  · exact nodesR_nodup h.wf.sorted _ _
  · exact (((List.nodup_dedup _).filter _).filter _).map fun _ _ h => syms_inj h

theorem sends_card (h : Setting0 cfg keys) (sw : Str → Word) (s : Nat) :
    (leafWords (leafStrs keys) sw (sitems (leafStrs keys) s)).length = Spec.endsFrom keys s := by
  have hnd : (leafStrs keys).Nodup := h.wf.sorted.imp fun h => ne_of_lt h
  have h1 : ((sitems (leafStrs keys) s).filter fun p => !isInt (leafStrs keys) p).Perm ((leafStrs keys).filter fun t => s < t.length) := by
    rw [List.perm_ext_iff_of_nodup ((items_nodup h.wf.sorted _ _).filter _) (hnd.filter _)]
    intro p
    simp only [List.mem_filter, sitems, mem_items, Bool.not_eq_eq_eq_not, Bool.not_true, decide_eq_true_eq]
    constructor
    · rintro ⟨⟨a, b, c⟩, d⟩; exact ⟨(h.wf.leaf_iff c).1 d, a⟩
    · rintro ⟨a, b⟩
      have := le_maxLen a
      exact ⟨⟨b, by omega, p, a, List.prefix_refl _⟩, h.wf.isInt_leaf a⟩
  unfold leafWords Spec.endsFrom
  rw [List.length_map, h1.length_eq, ← ((uniq_perm h.sorted).filter _).length_eq]
  unfold leafStrs truncs
  conv_rhs => rw [← leaves_fst 0 (uniq keys), List.filter_map, List.length_map]
  rw [List.filter_map, List.length_map]
  congr 1
  apply List.filter_congr
  intro x hx
  simp only [Function.comp]
  rw [leaf_length h.wf h.sorted (show (x.1, x.2) ∈ _ from hx)]

/-- Bits of suffixes per stored key. -/
def sfxBits (cfg : Config) : Nat := if cfg.suffixType = .kNone then 0 else cfg.hashLen + cfg.realLen

theorem single_small (h : Setting0 cfg keys) (hff : Spec.SingleFF keys) (s : Nat) :
    Spec.sparseBytes (Spec.branches keys s).length (Spec.nodesFrom keys s) (Spec.endsFrom keys s * sfxBits cfg) < 2 ^ 32 := by
  obtain ⟨k, hk, -⟩ := hff
  have hsh : ∀ p, ¬ Spec.Shared keys p := fun p ⟨a, ha, b, hb, hne, _⟩ => hne ((hk a ha).trans (hk b hb).symm)
  have h1 : Spec.branches keys s = [] := by
    unfold Spec.branches
    simp [hsh]
  have h2 : Spec.nodesFrom keys s = 0 := by
    unfold Spec.nodesFrom Spec.sharedPrefixes
    simp [hsh]
  have h3 : Spec.endsFrom keys s ≤ 1 := by
    unfold Spec.endsFrom
    refine (List.length_filter_le _ _).trans ?_
    have h4 : keys.dedup ⊆ [k] := fun x hx => by simpa using hk x (List.mem_dedup.1 hx)
    exact ((List.nodup_dedup keys).subperm h4).length_le
  have h4 : sfxBits cfg ≤ 64 := by
    unfold sfxBits
    have := h.ok.1
    split <;> omega
  have h5 : Spec.endsFrom keys s * sfxBits cfg ≤ 1 * 64 := Nat.mul_le_mul h3 h4
  rw [h1, h2]
  unfold Spec.sparseBytes Spec.pad8 Spec.bitBytes
  simp only [List.length_nil]
  omega

/-- C19, exact: `serialize` fills its buffer exactly if the second encoding takes less than 4 GiB, and it always writes behind the end of its buffer
otherwise, because the computed size wraps around. -/
theorem C19_exact (h : Setting0 cfg keys) (hs : Env.strict = false) :
    ∃ f, Filter.create cfg keys = .ok f ∧
      let s := f.getSparseStartLevel
      let n := Spec.sparseBytes (Spec.branches keys s).length (Spec.nodesFrom keys s) (Spec.endsFrom keys s * sfxBits cfg)
      ∀ base fresh, base % 8 = 0 →
        (n < 2 ^ 32 → ∃ data, f.serialize base fresh = .ok data ∧ data.length = f.serializedSize) ∧
        (2 ^ 32 ≤ n → f.serialize base fresh = .error .oobWrite) := by
  by_cases hff : Spec.SingleFF keys
  · obtain ⟨f, s, sw, e, hr, hp⟩ := h.create_ff hs hff
    refine ⟨f, e, ?_⟩
    intro s' n base fresh hb
    have hn : n < 2 ^ 32 := single_small h hff s'
    obtain ⟨data, e1, h1, -, -⟩ := Filter.roundtrip (hr.filterWf h.ok (by decide)) hb fresh
    exact ⟨fun _ => ⟨data, e1, h1⟩, fun hc => absurd hn (by omega)⟩
  obtain ⟨f, s, e, hr, hp⟩ := h.create hs hff
  have hst : f.getSparseStartLevel = s := hr.sparse.start
  refine ⟨f, e, ?_⟩
  rw [hst]
  intro s' n base fresh hb
  have hbits : f.sparse.suffixes.numBits = Spec.endsFrom keys s * sfxBits cfg := by
    unfold sfxBits
    split
    · rename_i hn; rw [hr.sparse.sfx.none hn]; rfl
    · rename_i hn
      obtain ⟨h1, h2, h3⟩ := hr.sparse.sfx.some hn
      rw [h3.numBits, BitvectorSuffix.suffixLen, h1, h2, Nat.mul_comm]
      congr 1
      exact sends_card h _ s
  have ht : f.sparse.total = n := by
    rw [hr.total_eq h.ok hbits, sitems_card h hr.s1, snodes_card h hr.s1]
    show _ = Spec.sparseBytes (Spec.branches keys s).length (Spec.nodesFrom keys s) (Spec.endsFrom keys s * sfxBits cfg)
    unfold Spec.sparseBytes Spec.pad8 Spec.bitBytes
    congr 4
    omega
  constructor
  · intro hlt
    obtain ⟨data, e1, h1, -⟩ := Filter.roundtrip ⟨hr.denseWf h.ok, (hr.parts h.ok).wf (by rw [ht, M32_eq]; exact hlt)⟩ hb fresh
    exact ⟨data, e1, h1⟩
  · intro hge
    exact hr.serialize_over h.ok (by rw [ht, M32_eq]; exact hge) hb fresh

/-- Whatever was written was written by a filter without wrap-around. -/
theorem written_wf (h : Setting0 cfg keys) (hs : Env.strict = false) {f : Filter} (e : Filter.create cfg keys = .ok f) {base : Nat} {fresh : Nat → UInt8}
    {data : List UInt8} (hb : base % 8 = 0) (hd : f.serialize base fresh = .ok data) : f.Wf := by
  by_cases hff : Spec.SingleFF keys
  · obtain ⟨f', s, sw, e', hr, hp⟩ := h.create_ff hs hff
    obtain rfl : f = f' := Except.ok.inj (e.symm.trans e')
    exact hr.filterWf h.ok (by decide)
  · obtain ⟨f', s, e', hr, hp⟩ := h.create hs hff
    obtain rfl : f = f' := Except.ok.inj (e.symm.trans e')
    refine ⟨hr.denseWf h.ok, (hr.parts h.ok).wf ?_⟩
    by_contra hc
    rw [hr.serialize_over h.ok (by omega) hb fresh] at hd
    cases hd

/-- C18 without a limit on the number of keys: whenever `serialize` succeeds (`C19_exact` says when), the copy answers as the original.
Missing from C18: the queries that are not covered (they run past the last label, where the copy has no padding, `C18_refuted`), and `SingleFF` lists. -/
theorem C18_any_partial (h : Setting cfg keys) (hs : Env.strict = false) (hff : ¬ Spec.SingleFF keys) :
    ∃ o, SuRF.create cfg keys = .ok o ∧ ∀ base fresh data, base % 8 = 0 → o.filter.serialize base fresh = .ok data →
      ∀ base' post it2, base' % 8 = 0 → ∃ o', SuRF.deSerialize base' (data ++ post) it2 = .ok o' ∧
        (∀ k ∈ keys, o'.lookupKey k = .ok true) ∧
        (∀ cs, (∀ c ∈ cs, CallAligned keys o.filter.getSparseStartLevel c) → answers o' cs = answers o cs) ∧
        (∀ st ms, StartAligned keys o.filter.getSparseStartLevel st →
          (st.get o'.filter >>= runMoves o'.filter ms) = (st.get o.filter >>= runMoves o.filter ms)) ∧
        (∀ it : Iter, it.getSuffix o'.filter = it.getSuffix o.filter ∧
          it.getKeyWithSuffix o'.filter = it.getKeyWithSuffix o.filter ∧ ∀ q, it.compare o'.filter q = it.compare o.filter q) := by
  obtain ⟨o, e, hx⟩ := copy_answers h hs hff
  refine ⟨o, e, fun base fresh data hb hd => hx base fresh data hb ?_ hd⟩
  refine written_wf h.weak hs ?_ hb hd
  unfold SuRF.create at e
  obtain ⟨f, e1, e2⟩ := bind_ok_iff.1 e
  cases e2
  exact e1

/-- C39 and C40 without a limit on the number of keys: whenever `serialize` succeeds, reading the bytes back at any aligned address gives one and the same filter,
which has the same size and writes the same bytes into a buffer with the same content.
Missing from C39 and C40: buffers with another content (`C40_refuted`). -/
theorem C39_any_partial (h : Setting0 cfg keys) (hs : Env.strict = false) :
    ∃ f, Filter.create cfg keys = .ok f ∧ ∃ f', f'.serializedSize = f.serializedSize ∧ ∀ base fresh data, base % 8 = 0 → f.serialize base fresh = .ok data →
      data.length = f.serializedSize ∧ f'.serialize base fresh = .ok data ∧
      ∀ base' post, base' % 8 = 0 → Filter.deSerialize base' (data ++ post) = .ok f' := by
  obtain ⟨f, e, -⟩ := C19_exact h hs
  refine ⟨f, e, f.trim, rfl, fun base fresh data hb hd => ?_⟩
  have hw := written_wf h hs e hb hd
  obtain ⟨data', e1, e2, -, h2⟩ := Filter.roundtrip hw hb fresh
  obtain rfl : data' = data := Except.ok.inj (e1.symm.trans hd)
  exact ⟨e2, (serialize_trim hw base fresh).trans e1, h2⟩

/-- With a large ratio and few levels the second encoding starts at level 1. -/
theorem start_one (h : Setting0 cfg keys) (hs : Env.strict = false) (hr : 2 ^ 33 * (maxLen (leafStrs keys)) ≤ 512 * cfg.ratio) {f : Filter}
    (e : Filter.create cfg keys = .ok f) : f.getSparseStartLevel ≤ 1 := by
  have hk := keysOk h.valid h.fits.toSmall
  obtain ⟨ls, hb, hrep⟩ := buildSparse_ok (Or.inl hs) h.ok hk (small_level h.fits.toSmall)
  have hz := sizes0_ok h.valid h.fits.toSmall
  have hss := sfxs_fst cfg keys
  have hlv : Lv cfg keys ls := hrep.weak
  have hlen : ls.length = maxLen (leafStrs keys) + 1 := Rep0.len hlv
  rw [create_start h.dense hb e]
  by_contra hc
  obtain ⟨g1, -⟩ := cutoffLoop_spec (cfg.hashLen + cfg.realLen) cfg.ratio ls ls.length 0
  have hm : 1 ≤ maxLen (leafStrs keys) := by
    obtain ⟨c1, c2⟩ := cutoff_bounds h.wf hss hlv h.ratio.1 h.ratio.2 hz.node hz.sfx.le hz.len
    omega
  have h1 := g1 1 (by omega) (by unfold Builder.determineCutoffLevel at hc; omega)
  have e6 := denseMem_lt h.wf hss hlv hz.node hz.sfx.le hz.len (c := 1) hm
  have e7 : Builder.computeDenseMem (cfg.hashLen + cfg.realLen) ls 1 * cfg.ratio < 2 ^ 36 * 2 ^ 28 := Nat.mul_lt_mul'' e6 h.ratio.2
  have e8 : 512 ≤ Builder.computeDenseMem (cfg.hashLen + cfg.realLen) ls 1 := by
    have h0 := List.getElem?_eq_getElem (l := ls) (i := 0) (by omega)
    have hd : ls.getD 0 Builder.newLevel = ls[0] := by simp [List.getD, h0]
    have hn := hlv.node h.wf h.sorted h0
    unfold Builder.computeDenseMem
    simp only [List.range_one, List.map_cons, List.map_nil, List.sum_cons, List.sum_nil]
    rw [hd]
    unfold Builder.denseMemLevel
    rw [hn]
    have : mul32 (2 * kFanout) (Spec.nodesAt keys 0) = 512 := rfl
    rw [this]
    omega
  have e9 : Builder.computeSparseMem (cfg.hashLen + cfg.realLen) ls 1 ≤ maxLen (leafStrs keys) * 2 ^ 33 := by
    unfold Builder.computeSparseMem
    refine le_trans (sum_le_mul _ (2 ^ 33) ?_) ?_
    · intro x hx
      obtain ⟨lv, -, rfl⟩ := List.mem_map.1 hx
      have a1 : add32 (add32 lv.labels.length (mul32 2 lv.labels.length / 8)) 1 < 2 ^ 32 := Nat.mod_lt _ (by decide)
      have a2 : mul32 lv.suffixCount (cfg.hashLen + cfg.realLen) < 2 ^ 32 := Nat.mod_lt _ (by decide)
      omega
    · rw [List.length_map, List.length_drop, hlen]
      exact Nat.le_refl _
  rw [Nat.mod_eq_of_lt (by omega)] at h1
  have e10 : 512 * cfg.ratio ≤ Builder.computeDenseMem (cfg.hashLen + cfg.realLen) ls 1 * cfg.ratio := Nat.mul_le_mul_right _ e8
  omega

end

/-- The hypotheses of `C19_exact` are satisfiable; this filter can be written. -/
example : Setting cfgNone abKeys ∧ Spec.sparseBytes (Spec.branches abKeys 1).length (Spec.nodesFrom abKeys 1) (Spec.endsFrom abKeys 1 * sfxBits cfgNone) < 2 ^ 32 :=
  ⟨abSetting.1, by decide +kernel⟩

/-- Writes a filter into fresh memory filled with `a`, reads it back and writes the copy into fresh memory filled with `b`. -/
def twice [Env] (cfg : Config) (keys : List Key) (a b : UInt8) : R (List UInt8 × List UInt8) := do
  let f ← Filter.create cfg keys
  let x ← f.serialize 0 fun _ => a
  let g ← Filter.deSerialize 0 x
  let y ← g.serialize 0 fun _ => b
  return (x, y)

/-- C39 fails when the memory of the second buffer held something else. -/
theorem C39_refuted : ∃ x y, @twice Env.x86 cfgNone [[97]] 0 1 = .ok (x, y) ∧ x ≠ y ∧ x.length = y.length := by
  have h : (@twice Env.x86 cfgNone [[97]] 0 1).map (fun p => (p.1 == p.2, p.1.length == p.2.length)) = .ok (false, true) := by decide +kernel
  cases e : @twice Env.x86 cfgNone [[97]] 0 1 with
  | error u => rw [e] at h; cases h
  | ok p =>
    rw [e] at h
    have h1 := Except.ok.inj h
    simp only [Prod.mk.injEq, beq_eq_false_iff_ne, beq_iff_eq] at h1
    exact ⟨p.1, p.2, rfl, h1.1, h1.2⟩

/-- No suffixes, and all levels but the first in the second encoding. -/
def cfgTop : Config := { cfgNone with ratio := 134217728 }

theorem num_setting {M : Nat} (h0 : 1 ≤ M) (hM : M ≤ 65000) (r1 : Spec.Room (65793 * M + 1)) (r2 : Spec.Room (65792 * M + 1))
    (r3 : Spec.Room (65536 * M + 1)) : Setting0 cfgTop (numKeys (65536 * M)) :=
  ⟨by decide, rfl, by decide, numKeys_valid (by omega) (by omega), numKeys_fits h0 hM r1 r2 r3⟩

theorem num_over [Env] (hs : Env.strict = false) {M : Nat} (hM : M = 57464) : Setting0 cfgTop (numKeys (65536 * M)) ∧
    ∃ f, Filter.create cfgTop (numKeys (65536 * M)) = .ok f ∧ ∀ base fresh, base % 8 = 0 → f.serialize base fresh = .error .oobWrite := by
  have r1 : Spec.Room (65793 * M + 1) := by rw [hM]; exact Or.inr (by decide)
  have r2 : Spec.Room (65792 * M + 1) := by rw [hM]; exact Or.inr (by decide)
  have r3 : Spec.Room (65536 * M + 1) := by rw [hM]; exact Or.inr (by decide)
  have h := num_setting (by omega) (by omega) r1 r2 r3
  obtain ⟨f, e, hx⟩ := C19_exact h hs
  have hlen : maxLen (leafStrs (numKeys (65536 * M))) ≤ 5 := maxLen_leafStrs fun k hk => by
    obtain ⟨n, -, rfl⟩ := mem_numKeys.1 hk
    rw [be_length]
  have hst : f.getSparseStartLevel ≤ 1 := start_one h hs (by
    have : 512 * cfgTop.ratio = 68719476736 := rfl
    omega) e
  have hne : ¬ Spec.SingleFF (numKeys (65536 * M)) := by
    rintro ⟨k, g, -⟩
    have g1 := (g (be 4 0) (mem_numKeys.2 ⟨0, by omega, rfl⟩)).trans (g (be 4 1) (mem_numKeys.2 ⟨1, by omega, rfl⟩)).symm
    exact absurd g1 (by decide)
  have hs1 : f.getSparseStartLevel = 1 := by
    obtain ⟨f', s, e', hr, -⟩ := h.create hs hne
    rw [e] at e'
    cases e'
    have := hr.s1
    have : f.getSparseStartLevel = s := hr.sparse.start
    omega
  refine ⟨h, f, e, fun base fresh hb => ?_⟩
  have := (hx base fresh hb).2
  apply this
  rw [hs1, (numKeys_branches (by omega) (Nat.le_refl 1)).length_eq, numBranches_length]
  have e2 : ((List.range' 1 (4 - 1)).map fun j => 65536 * M / 256 ^ (3 - j)).sum =
    65536 * M / 65536 + (65536 * M / 256 + (65536 * M / 1 + 0)) := rfl
  rw [e2]
  unfold Spec.sparseBytes Spec.pad8 Spec.bitBytes
  omega

/-- C19 fails: for the 3765960704 numbers below `57464 * 65536`, written with 4 bytes each, a filter is built, and `serialize` always writes behind the end
of the buffer it allocated. -/
theorem C19_refuted [Env] (hs : Env.strict = false) : Setting0 cfgTop (numKeys (65536 * 57464)) ∧
    ∃ f, Filter.create cfgTop (numKeys (65536 * 57464)) = .ok f ∧ ∀ base fresh, base % 8 = 0 → f.serialize base fresh = .error .oobWrite :=
  num_over hs rfl

end Surf.Props
