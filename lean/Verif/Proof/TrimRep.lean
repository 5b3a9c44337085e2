import Verif.Proof.Serialize
import Verif.Proof.History

/-!
# A built filter can be written out, and what is read back represents the same trie
-/

set_option linter.unusedSectionVars false
set_option autoImplicit false

namespace Surf
open Trie

variable [Env]

omit [Env] in
theorem sub32_lt (a b : Nat) : sub32 a b < M32 := by
  unfold sub32
  exact Nat.mod_lt _ (by decide)

omit [Env] in
theorem levelCutsFrom_length (acc : Nat) (l : List Nat) : (levelCutsFrom acc l).length = l.length := by
  induction l generalizing acc with
  | nil => rfl
  | cons a l ih => rw [levelCutsFrom, List.length_cons, ih, List.length_cons]

omit [Env] in
theorem levelCutsFrom_lt (acc : Nat) (l : List Nat) : ∀ p ∈ levelCutsFrom acc l, p < M32 := by
  induction l generalizing acc with
  | nil => simp [levelCutsFrom]
  | cons a l ih =>
    intro p hp
    rw [levelCutsFrom] at hp
    rcases List.mem_cons.1 hp with hp | hp
    · rw [hp]; exact sub32_lt _ _
    · exact ih _ p hp

omit [Env] in
theorem BitvectorRank.Rep.wf {b : BitvectorRank} {xs : List Bool} (h : b.Rep xs) (hx : xs.length < M32) : b.Wf := by
  have hn := h.base.num
  refine ⟨h.base.len, by rw [hn]; exact hx, ?_, by rw [hn]; exact h.lutLen, ?_⟩
  · rcases h.bbs with e | e <;> rw [e] <;> decide
  · intro p hp
    obtain ⟨i, hi, rfl⟩ := List.getElem_of_mem hp
    have h1 := h.lut i (by rw [h.lutLen] at hi; omega)
    rw [List.getD_eq_getElem _ _ hi] at h1
    rw [h1]
    have h2 : (xs.take (b.basicBlockSize * i)).count true ≤ (xs.take (b.basicBlockSize * i)).length := List.count_le_length
    rw [List.length_take] at h2
    omega

omit [Env] in
theorem BitvectorSelect.Rep.wf {b : BitvectorSelect} {xs : List Bool} (h : b.Rep xs) (hx : xs.length < M32)
    (hsi : b.sampleInterval = 64) : b.Wf := by
  have hn := h.base.num
  have h1 : b.numOnes ≤ xs.length := by rw [h.ones]; exact List.count_le_length
  refine ⟨h.base.len, by rw [hn]; exact hx, by omega, by rw [hsi]; decide, h.lutLen, ?_⟩
  intro p hp
  obtain ⟨i, hi, rfl⟩ := List.getElem_of_mem hp
  rcases Nat.eq_zero_or_pos i with rfl | h0
  · have := h.lut0
    rw [List.getD_eq_getElem _ _ hi] at this
    rw [this]; decide
  · have h2 := h.lut i h0 (by rw [h.lutLen] at hi; omega)
    rw [List.getD_eq_getElem _ _ hi] at h2
    have h3 := h2.1
    rw [h.base.bit] at h3
    by_contra hc
    rw [List.getD_eq_default _ _ (by omega)] at h3
    cases h3

theorem SfxRep.wf {cfg : Config} {b : BitvectorSuffix} {ws : List Word} (h : SfxRep cfg b ws) (hc : cfg.Ok) : b.Wf := by
  by_cases hn : cfg.suffixType = .kNone
  · rw [h.none hn]
    exact ⟨rfl, by decide, fun _ => rfl, by decide, by decide⟩
  · obtain ⟨h1, h2, h3⟩ := h.some hn
    have h4 := hc.1
    refine ⟨h3.base.len, by rw [h3.numBits]; exact h3.b32, fun e => absurd e h3.type, ?_, ?_⟩ <;>
      (rw [M32_eq]; omega)

section
variable {cfg : Config} {ts : List Str} {sw : Str → Word} {s : Nat} {f : Filter}

theorem FRep0.filterWf (h : FRep0 cfg ts sw s f) (hc : cfg.Ok)
    (hn : (items ts 0 (maxLen ts + 1)).length ≤ 2 ^ 31 + 2 ^ 25) : f.Wf := by
  have hd := h.d32
  have hi := h.i32
  have hh := h.h32
  have hsH := h.sH
  have hsi := h.sitems_le
  obtain ⟨rest, hrest⟩ := h.sparse.labels
  have hn1 : (nodesR ts 1 (s + 1)).length < M32 := by
    have h1 : (nodesR ts 1 (s + 1)).length = (items ts 0 s).countP (isInt ts) := (dense_int_count ts s).symm
    have h2 := List.countP_le_length (p := isInt ts) (l := items ts 0 s)
    have h3 := congrArg List.length (items_split ts (Nat.zero_le s) h.nodes_s)
    rw [List.length_append] at h3
    omega
  have w1 := h.dense.lab.wf (by rw [labelBits_length]; exact hd)
  have w2 := h.dense.chl.wf (by rw [childBits_eq, bitsOf_length]; exact hd)
  have w3 := h.dense.pre.wf (by simp [prefBits]; omega)
  have w4 := h.dense.sfx.wf hc
  have w5 : f.sparse.labels.Wf := by
    refine ⟨?_, ?_⟩
    · rw [h.sparse.labN, hrest]; simp
    · rw [h.sparse.labN]; change (sitems ts s).length + 1 + 16 < M32; omega
  have w6 := h.sparse.chl.wf (by rw [List.length_map]; change (sitems ts s).length < M32; omega)
  have w7 := h.sparse.louds.wf (by rw [louds_total h.wf]; omega) h.sparse.si
  have w8 := h.sparse.sfx.wf hc
  refine ⟨⟨?_, ?_, w1, w2, w3, w4, ?_⟩, ⟨?_, ?_, ?_, ?_, ?_, w5, w6, w7, w8, ?_⟩⟩
  · rw [h.dense.height]; omega
  · rw [h.dense.cuts, h.dense.height]
    exact ⟨by rw [levelCutsFrom_length]; simp, levelCutsFrom_lt _ _⟩
  · have := w1.size_le; have := w2.size_le; have := w3.size_le; have := w4.size_le
    have := w1.num; have := w2.num; have := w4.num
    have : f.dense.prefixBits.numBits ≤ 2 ^ 24 := by
      rw [h.dense.pre.base.num]
      simp only [prefBits, List.length_map]
      rw [M32_eq] at hd
      omega
    rw [h.dense.blkL] at *
    rw [h.dense.blkC] at *
    rw [h.dense.blkP] at *
    rw [M32_eq] at *
    omega
  · rw [h.sparse.height]; omega
  · rw [h.sparse.start]; omega
  · rw [h.sparse.ncd]; omega
  · rw [h.sparse.ccd]; exact hn1
  · rw [h.sparse.cuts, h.sparse.height]
    refine ⟨by rw [List.length_append, levelCutsFrom_length]; simp; omega, ?_⟩
    intro p hp
    rcases List.mem_append.1 hp with hp | hp
    · rw [List.eq_of_mem_replicate hp]; decide
    · exact levelCutsFrom_lt _ _ p hp
  · have a5 := w5.size_le
    have a6 := w6.size_le
    have a7 := w7.size_le
    have a8 := w8.size_le
    have a9 := w8.num
    have e5 : f.sparse.labels.numBytes = (sitems ts s).length + 1 := h.sparse.labN
    have e6 : f.sparse.childBits.numBits = (sitems ts s).length := by
      rw [h.sparse.chl.base.num, List.length_map]
    have e7 : f.sparse.loudsBits.numBits = (sitems ts s).length := by
      rw [h.sparse.louds.base.num, louds_total h.wf]
    have e8 : f.sparse.loudsBits.numOnes ≤ (sitems ts s).length := by
      rw [← e7, h.sparse.louds.base.num, h.sparse.louds.ones]; exact List.count_le_length
    have e9 : (sitems ts s).length ≤ (items ts 0 (maxLen ts + 1)).length := by
      have := congrArg List.length (items_split ts (Nat.zero_le s) (show s ≤ maxLen ts + 1 by omega))
      rw [List.length_append] at this
      exact this ▸ Nat.le_add_left _ _
    rw [h.sparse.blkC, e6] at a6
    rw [h.sparse.si, e7] at a7
    rw [e5] at a5
    rw [M32_eq] at a9 ⊢
    omega

/-- Without the padding the filter still represents the trie. -/
theorem FRep0.trim (h : FRep0 cfg ts sw s f) : FRep0 cfg ts sw s f.trim := by
  obtain ⟨rest, hrest⟩ := h.sparse.labels
  refine ⟨h.wf, h.s1, h.sH, h.d32, h.i32, h.h32, h.dense, ⟨h.sparse.height, h.sparse.start, h.sparse.ncd, h.sparse.ccd,
    ⟨[], ?_⟩, h.sparse.labN, h.sparse.chl, h.sparse.louds, h.sparse.sfx, h.sparse.cuts, h.sparse.blkC, h.sparse.si⟩⟩
  show f.sparse.labels.labels.take f.sparse.labels.numBytes = _
  rw [h.sparse.labN, hrest]
  rw [List.take_append]
  simp

theorem FRep.trim (h : FRep cfg ts sw s f) : FRep cfg ts sw s f.trim := ⟨h.toFRep0.trim, h.half⟩

/-- Up to the byte behind the last label nothing has changed. -/
theorem FRep0.trim_lab (h : FRep0 cfg ts sw s f) {i : Nat} (hi : i ≤ (sitems ts s).length) :
    labAt f.trim.sparse.labels.labels i = labAt f.sparse.labels.labels i := by
  obtain ⟨rest, hrest⟩ := h.sparse.labels
  have hl : i < f.sparse.labels.numBytes := by rw [h.sparse.labN]; change i < (sitems ts s).length + 1; omega
  have h2 : f.sparse.labels.numBytes ≤ f.sparse.labels.labels.length := by rw [h.sparse.labN, hrest]; simp
  show labAt (f.sparse.labels.labels.take f.sparse.labels.numBytes) i = _
  unfold labAt
  rw [List.getElem?_take_of_lt hl, List.getElem?_eq_getElem (by omega)]

end

end Surf
