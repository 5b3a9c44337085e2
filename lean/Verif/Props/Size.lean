import Verif.Props.SuffixWrap

/-!
# The size of a filter (C75)
-/

set_option autoImplicit false
set_option maxRecDepth 1000000
set_option linter.unusedSectionVars false

namespace Spec

/-- Number of nodes less deep than `s`: the empty prefix and the shared ones of less than `s` bytes. -/
def nodesBelow (keys : List Bytes) (s : Nat) : Nat := ((sharedPrefixes keys).filter fun p => p ≠ [] ∧ p.length < s).length + 1

/-- Bytes that a vector of `n` bits with a count every 512 bits takes. -/
def rankBytes (n : Nat) : Nat := pad8 (8 + bitBytes n + 4 * (n / 512 + 1))

/-- Bytes that the first encoding takes behind its header, for `d` nodes and `b` suffix bits: two bits for each of the 256 possible branches of a node, one bit for each node, and the suffixes. -/
def denseBytes (d b : Nat) : Nat := rankBytes (256 * d) + rankBytes (256 * d) + rankBytes d + pad8 (16 + bitBytes b)

/-- Bytes of a written filter of height `h` in which the second encoding starts at level `s`, with `r` suffix bits for each key. -/
def size (keys : List Bytes) (r h s : Nat) : Nat :=
  pad8 (4 + 4 * s) + denseBytes (nodesBelow keys s) (endsUpTo keys s * r) +
    (pad8 (16 + 4 * h) + sparseBytes (branches keys s).length (nodesFrom keys s) (endsFrom keys s * r))

end Spec

namespace Surf.Props
open Surf Trie

section
variable [Env] {cfg : Config} {keys : List Key}

theorem dnodes_card (h : Setting0 cfg keys) {s : Nat} (hs : 1 ≤ s) : (nodesR (leafStrs keys) 0 s).length = Spec.nodesBelow keys s := by
  unfold Spec.nodesBelow
  rw [← List.length_map (f := syms) (as := List.filter _ _), ← List.length_cons (a := ([] : Str))]
  apply List.Perm.length_eq
  rw [List.perm_ext_iff_of_nodup]
  · intro x
    rw [mem_nodesR]
    simp only [List.mem_cons, List.mem_map, List.mem_filter, mem_sharedPrefixes, decide_eq_true_eq]
    constructor
    · rintro ⟨h1, h2, h3⟩
      by_cases hx : x = []
      · exact Or.inl hx
      obtain ⟨p, rfl, hp⟩ := node_shared h.wf h.sorted h3 hx
      rw [syms_length] at h2
      exact Or.inr ⟨p, ⟨hp, by rintro rfl; exact hx rfl, h2⟩, rfl⟩
    · rintro (rfl | ⟨p, ⟨h1, h2, h3⟩, rfl⟩)
      · refine ⟨by simp, by simp only [List.length_nil]; omega, ?_⟩
        obtain ⟨k, hk⟩ := List.exists_mem_of_ne_nil _ h.valid.ne
        obtain ⟨t, hl, ht⟩ := leaf_of_key hk
        exact isInt_iff.2 ⟨t, ht, List.nil_prefix, fun he => h.wf.nonempty t ht he.symm⟩
      · have h4 := shared_int h.sorted h1
        rw [syms_length]
        exact ⟨by omega, h3, h4⟩
  · exact nodesR_nodup h.wf.sorted _ _
  · refine List.nodup_cons.2 ⟨?_, (((List.nodup_dedup _).filter _).filter _).map fun _ _ h => syms_inj h⟩
    simp only [List.mem_map, List.mem_filter, decide_eq_true_eq, not_exists, not_and]
    rintro p ⟨-, hp, -⟩ he
    apply hp
    have := congrArg List.length he
    rw [syms_length] at this
    exact List.length_eq_zero_iff.1 this

theorem SfxRep.bits {v : BitvectorSuffix} {ws : List Word} (h : SfxRep cfg v ws) : v.numBits = ws.length * sfxBits cfg := by
  unfold sfxBits
  split
  · rename_i hn; rw [h.none hn]; rfl
  · rename_i hn
    obtain ⟨h1, h2, h3⟩ := h.some hn
    rw [h3.numBits, BitvectorSuffix.suffixLen, h1, h2, Nat.mul_comm]

/-- The size of a filter in terms of its trie. -/
theorem FRep0.size_eq {ts : List Str} {sw : Str → Word} {s : Nat} {f : Filter} (h : FRep0 cfg ts sw s f) (hc : cfg.Ok) {bd bs : Nat}
    (hd : f.dense.suffixes.numBits = bd) (hb : f.sparse.suffixes.numBits = bs)
    (ht : Spec.sparseBytes (sitems ts s).length (snodes ts s).length bs < 2 ^ 32) :
    f.serializedSize = Spec.pad8 (4 + 4 * s) + Spec.denseBytes (nodesR ts 0 s).length bd +
      (Spec.pad8 (16 + 4 * f.getHeight) + Spec.sparseBytes (sitems ts s).length (snodes ts s).length bs) := by
  have w := h.denseWf hc
  have e1 : f.dense.labelBitmaps.numBits = 256 * (nodesR ts 0 s).length := by rw [h.dense.lab.base.num, labelBits_length]
  have e2 : f.dense.childBitmaps.numBits = 256 * (nodesR ts 0 s).length := by rw [h.dense.chl.base.num, childBits_eq, bitsOf_length]
  have e3 : f.dense.prefixBits.numBits = (nodesR ts 0 s).length := by rw [h.dense.pre.base.num]; simp [prefBits]
  have hsum := w.sum
  have htot : f.sparse.total = Spec.sparseBytes (sitems ts s).length (snodes ts s).length bs := by
    rw [h.total_eq hc hb]
    unfold Spec.sparseBytes Spec.pad8 Spec.bitBytes
    congr 4
    omega
  unfold LoudsSparse.total at htot
  unfold Filter.serializedSize LoudsDense.serializedSize LoudsSparse.serializedSize Filter.getHeight
  rw [htot]
  rw [w.lb.size_eq, w.cb.size_eq, w.pb.size_eq, w.sf.size_eq, h.dense.blkL, h.dense.blkC, h.dense.blkP, e1, e2, e3, hd, M32_eq] at hsum
  rw [w.lb.size_eq, w.cb.size_eq, w.pb.size_eq, w.sf.size_eq, h.dense.blkL, h.dense.blkC, h.dense.blkP, e1, e2, e3, hd, h.dense.height]
  unfold Spec.denseBytes Spec.rankBytes
  have hmod : Spec.sparseBytes (sitems ts s).length (snodes ts s).length bs % 8 = 0 := by
    unfold Spec.sparseBytes Spec.pad8; omega
  generalize Spec.sparseBytes (sitems ts s).length (snodes ts s).length bs = x at *
  unfold Spec.pad8 Spec.bitBytes sizeAlign64 u32
  rw [M32_eq]
  omega

theorem snodes_le_sitems {ts : List Str} {sw : Str → Word} {s : Nat} {f : Filter} (h : FRep0 cfg ts sw s f) :
    (snodes ts s).length ≤ (sitems ts s).length := by
  rw [← h.ones, h.sparse.louds.ones, ← louds_total h.wf]
  exact List.count_le_length

theorem ends_sum (keys : List Key) (s : Nat) : Spec.endsUpTo keys s + Spec.endsFrom keys s = keys.dedup.length := by
  unfold Spec.endsUpTo Spec.endsFrom
  generalize keys.dedup = l
  induction l with
  | nil => rfl
  | cons a l ih =>
    simp only [List.filter_cons, decide_eq_true_eq]
    by_cases hc : Spec.cut keys a ≤ s
    · rw [if_pos hc, if_neg (by omega)]; simp only [List.length_cons]; omega
    · rw [if_neg hc, if_pos (by omega)]; simp only [List.length_cons]; omega

theorem single_cut {k : Key} (hk : ∀ x ∈ keys, x = k) {x : Key} (hx : x ∈ keys) : Spec.cut keys x = 1 := by
  have h1 := cut_pos keys x
  have h2 : Spec.cut keys x ≤ 0 + 1 := cut_le fun k' hk' hne => absurd ((hk k' hk').trans (hk x hx).symm) hne
  omega

/-- The filter of a `SingleFF` list has one node and one suffix, like that of any other single key. -/
theorem single_counts (h : Setting0 cfg keys) (hff : Spec.SingleFF keys) :
    Spec.nodesBelow keys 1 = 1 ∧ Spec.endsUpTo keys 1 = 1 ∧ Spec.endsFrom keys 1 = 0 ∧ (Spec.branches keys 1).length = 0 ∧ Spec.nodesFrom keys 1 = 0 := by
  obtain ⟨k, hk, -⟩ := hff
  have hsh : ∀ p, ¬ Spec.Shared keys p := fun p ⟨a, ha, b, hb, hne, _⟩ => hne ((hk a ha).trans (hk b hb).symm)
  have hd : keys.dedup.length = 1 := by
    have h4 : keys.dedup ⊆ [k] := fun x hx => by simpa using hk x (List.mem_dedup.1 hx)
    have h5 := ((List.nodup_dedup keys).subperm h4).length_le
    have h6 : keys.dedup ≠ [] := by rw [Ne, List.dedup_eq_nil]; exact h.valid.ne
    have h7 := List.length_pos_iff.2 h6
    simp only [List.length_singleton] at h5
    omega
  have he : Spec.endsFrom keys 1 = 0 := by
    unfold Spec.endsFrom
    rw [List.length_eq_zero_iff, List.filter_eq_nil_iff]
    intro x hx
    rw [single_cut hk (List.mem_dedup.1 hx)]
    decide
  have := ends_sum keys 1
  refine ⟨?_, by omega, he, ?_, ?_⟩
  · unfold Spec.nodesBelow Spec.sharedPrefixes; simp [hsh]
  · unfold Spec.branches; simp [hsh]
  · unfold Spec.nodesFrom Spec.sharedPrefixes; simp [hsh]

/-- C75: the size of a filter. -/
theorem C75 (h : Setting0 cfg keys) (hs : Env.strict = false) :
    ∃ f, Filter.create cfg keys = .ok f ∧
      let s := f.getSparseStartLevel
      let B := (Spec.branches keys s).length
      let D := Spec.nodesBelow keys s
      let K := keys.dedup.length * sfxBits cfg
      Spec.sparseBytes B (Spec.nodesFrom keys s) (Spec.endsFrom keys s * sfxBits cfg) < 2 ^ 32 →
        f.serializedSize = Spec.size keys (sfxBits cfg) f.getHeight s ∧
        10 * B + 513 * D + K ≤ 8 * f.serializedSize ∧
        8 * f.serializedSize ≤ 11 * B + 546 * D + K + 32 * (s + f.getHeight) + 8 * 240 := by
  have key : ∃ f, Filter.create cfg keys = .ok f ∧
      let s := f.getSparseStartLevel
      Spec.nodesFrom keys s ≤ (Spec.branches keys s).length ∧
      (Spec.sparseBytes (Spec.branches keys s).length (Spec.nodesFrom keys s) (Spec.endsFrom keys s * sfxBits cfg) < 2 ^ 32 →
        f.serializedSize = Spec.size keys (sfxBits cfg) f.getHeight s) := by
    by_cases hff : Spec.SingleFF keys
    · obtain ⟨f, s, sw, e, hr, hp⟩ := h.create_ff hs hff
      have hst : f.getSparseStartLevel = s := hr.sparse.start
      refine ⟨f, e, ?_⟩
      rw [hst]
      have hm : maxLen ([[0]] : List Str) = 1 := by decide
      have h1 := hr.sH
      have h2 := hr.s1
      rw [hm] at h1
      obtain rfl : s = 1 := by omega
      obtain ⟨c1, c2, c3, c4, c5⟩ := single_counts h hff
      have d1 : (sitems ([[0]] : List Str) 1).length = 0 := by decide
      have d2 : (snodes ([[0]] : List Str) 1).length = 0 := by decide
      have d3 : (nodesR ([[0]] : List Str) 0 1).length = 1 := by decide
      have hl : ∀ xs : List Str, (leafWords [[0]] sw xs).length = (xs.filter fun p => !isInt [[0]] p).length := fun xs => by
        unfold leafWords; rw [List.length_map]
      have b1 : f.dense.suffixes.numBits = 1 * sfxBits cfg := by
        rw [SfxRep.bits hr.dense.sfx, hl]; congr 1
      have b2 : f.sparse.suffixes.numBits = 0 * sfxBits cfg := by
        rw [SfxRep.bits hr.sparse.sfx, hl]; congr 1
      dsimp only
      refine ⟨by rw [c4, c5], fun hlt => ?_⟩
      unfold Spec.size
      rw [c1, c2, c3, c4, c5]
      rw [c3, c4, c5] at hlt
      have := FRep0.size_eq hr.toFRep0 h.ok b1 b2 (by rw [d1, d2]; exact hlt)
      rw [d1, d2, d3] at this
      exact this
    · obtain ⟨f, s, e, hr, hp⟩ := h.create hs hff
      have hst : f.getSparseStartLevel = s := hr.sparse.start
      refine ⟨f, e, ?_⟩
      rw [hst]
      have hle := snodes_le_sitems hr
      rw [sitems_card h hr.s1, snodes_card h hr.s1] at hle
      refine ⟨hle, fun hlt => ?_⟩
      have b1 : f.dense.suffixes.numBits = Spec.endsUpTo keys s * sfxBits cfg := by
        rw [SfxRep.bits hr.dense.sfx, dends_card h]
      have b2 : f.sparse.suffixes.numBits = Spec.endsFrom keys s * sfxBits cfg := by
        rw [SfxRep.bits hr.sparse.sfx]
        congr 1
        exact sends_card h _ s
      have := FRep0.size_eq hr h.ok b1 b2 (by rw [sitems_card h hr.s1, snodes_card h hr.s1]; exact hlt)
      rw [sitems_card h hr.s1, snodes_card h hr.s1, dnodes_card h hr.s1] at this
      exact this
  obtain ⟨f, e, hle, hk⟩ := key
  refine ⟨f, e, ?_⟩
  intro s B D K hlt
  have hsz := hk hlt
  refine ⟨hsz, ?_⟩
  have hK : K = Spec.endsUpTo keys s * sfxBits cfg + Spec.endsFrom keys s * sfxBits cfg := by
    rw [← Nat.add_mul, ends_sum]
  rw [hsz, hK]
  change Spec.nodesFrom keys s ≤ B at hle
  unfold Spec.size
  change 10 * B + 513 * D + _ ≤ 8 * (_ + Spec.denseBytes D _ + (_ + Spec.sparseBytes B _ _)) ∧
    8 * (_ + Spec.denseBytes D _ + (_ + Spec.sparseBytes B _ _)) ≤ _
  generalize Spec.nodesFrom keys s = N at *
  generalize Spec.endsUpTo keys s * sfxBits cfg = x at *
  generalize Spec.endsFrom keys s * sfxBits cfg = y at *
  generalize f.getHeight = H at *
  clear hlt hsz hK hk
  have e0 : f.getSparseStartLevel = s := rfl
  clear_value B D K s
  unfold Spec.denseBytes Spec.sparseBytes Spec.rankBytes Spec.pad8 Spec.bitBytes
  omega

end

/-- The hypotheses of C75 are met, and the size is not a trivial one. -/
example : Setting0 cfgNone abKeys ∧ Spec.sparseBytes (Spec.branches abKeys 1).length (Spec.nodesFrom abKeys 1) (Spec.endsFrom abKeys 1 * sfxBits cfgNone) < 2 ^ 32 ∧
    (@Filter.create .x86 cfgNone abKeys).map (fun f => (f.serializedSize, f.getHeight, f.getSparseStartLevel)) = .ok (256, 3, 1) ∧
    Spec.size abKeys (sfxBits cfgNone) 3 1 = 256 :=
  ⟨abSetting.1.weak, by decide +kernel, by decide +kernel, by decide +kernel⟩
end Surf.Props
