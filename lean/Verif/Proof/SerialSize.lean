import Verif.Proof.TrimRep
import Verif.Proof.Cutoff
import Verif.Proof.CountSparse

/-!
# The size of the written form, without the wraparound, and what happens when it wraps
-/

set_option linter.unusedSectionVars false
set_option autoImplicit false

namespace Surf
open Trie

variable [Env]

omit [Env] in
theorem Bitvector.numWords_eq (b : Bitvector) : b.numWords = (b.numBits + 63) / 64 := by
  have := Bitvector.numWords_bounds b
  omega

omit [Env] in
theorem LabelVector.Wf.size_eq {l : LabelVector} (h : l.Wf) : l.serializedSize = (4 + l.numBytes + 7) / 8 * 8 := by
  have := h.num
  rw [M32_eq] at this
  rw [LabelVector.serializedSize, sizeAlign32, u32, add32, M32_eq]
  omega

theorem BitvectorRank.Wf.size_eq {b : BitvectorRank} (h : b.Wf) :
    b.serializedSize = (8 + 8 * ((b.numBits + 63) / 64) + 4 * (b.numBits / b.basicBlockSize + 1) + 7) / 8 * 8 := by
  have h1 := h.num
  have hw := Bitvector.numWords_eq b.toBitvector
  have hl := rankLutLen_eq h1 h.blk.1
  have hle : b.numBits / b.basicBlockSize ≤ b.numBits / 64 := Nat.div_le_div_left h.blk.1 (by omega)
  rw [M32_eq] at h1
  rw [BitvectorRank.serializedSize, hl, sizeAlign32, u32, add32, M32_eq, Bitvector.bitsSize]
  generalize b.numBits / b.basicBlockSize = q at *
  omega

theorem BitvectorSelect.Wf.size_eq {b : BitvectorSelect} (h : b.Wf) :
    b.serializedSize = (12 + 8 * ((b.numBits + 63) / 64) + 4 * (b.numOnes / b.sampleInterval + 1) + 7) / 8 * 8 := by
  have h1 := h.num
  have h2 := h.ones
  have hw := Bitvector.numWords_eq b.toBitvector
  have hl := rankLutLen_eq h2 h.si.1
  have hle : b.numOnes / b.sampleInterval ≤ b.numOnes / 64 := Nat.div_le_div_left h.si.1 (by omega)
  rw [M32_eq] at h1 h2
  rw [BitvectorSelect.serializedSize, hl, sizeAlign32, u32, add32, M32_eq, Bitvector.bitsSize]
  generalize b.numOnes / b.sampleInterval = q at *
  omega

theorem BitvectorSuffix.Wf.size_eq {b : BitvectorSuffix} (h : b.Wf) :
    b.serializedSize = (16 + 8 * ((b.numBits + 63) / 64) + 7) / 8 * 8 := by
  have h1 := h.num
  have hw := Bitvector.numWords_eq b.toBitvector
  rw [M32_eq] at h1
  rw [BitvectorSuffix.serializedSize, sizeAlign32, u32, add32, M32_eq, Bitvector.bitsSize]
  omega

/-! ## Labels that do not fit -/

theorem LabelVector.over {l : LabelVector} (h : l.Wf) {B : OutBuf} {out : List UInt8}
    (hl : B.init.length < out.length + l.numBytes) : l.serialize B out = .error .oobWrite := by
  have hb : (putLabels l.labels l.numBytes) B (out ++ leBytes 4 l.numBytes) = .error .oobWrite := by
    unfold putLabels
    rw [mapM_ok_aux (rdB l.labels) (fun i => l.labels.getD i 0) _ (fun i hi => ?_)]
    · dsimp only
      unfold putBytes
      rw [if_neg (by simp; omega)]
    · have hi := List.mem_range.1 hi
      have := h.len
      unfold rdB
      rw [List.getElem?_eq_getElem (by omega)]
      simp [List.getElem?_eq_getElem (show i < l.labels.length by omega)]
  unfold LabelVector.serialize
  show (put4 l.numBytes B out >>= fun r => (putLabels l.labels l.numBytes >>= fun _ => putAlign) B r.2) = _
  unfold put4 putBytes
  split
  · show ((putLabels l.labels l.numBytes) B (out ++ leBytes 4 l.numBytes) >>= fun r => putAlign B r.2) = _
    rw [hb]; rfl
  · rfl

/-- The part of a sparse trie before its labels. -/
def sparseHead (t : LoudsSparse) : Put Unit := do
  put4 t.height
  put4 t.startLevel
  put4 t.nodeCountDense
  put4 t.childCountDense
  putPoss t.levelCuts t.height
  putAlign

/-- A sparse trie whose parts can be written out one by one. -/
structure LoudsSparse.Parts (t : LoudsSparse) : Prop where
  height : t.height < M32
  start : t.startLevel < M32
  ncd : t.nodeCountDense < M32
  ccd : t.childCountDense < M32
  cuts : t.levelCuts.length = t.height ∧ ∀ p ∈ t.levelCuts, p < M32
  labels : t.labels.Wf
  cb : t.childBits.Wf
  lb : t.loudsBits.Wf
  sf : t.suffixes.Wf

theorem LoudsSparse.Parts.head {t : LoudsSparse} (h : t.Parts) {B : OutBuf} {out : List UInt8} (hb : B.base % 8 = 0)
    (ho : out.length % 8 = 0) (hl : out.length + sizeAlign64 (16 + 4 * t.height) ≤ B.init.length) :
    ∃ bytes, bytes.length = sizeAlign64 (16 + 4 * t.height) ∧ sparseHead t B out = .ok ((), out ++ bytes) := by
  have e : Enc 0 (sparseHead t) (get4 >>= fun _ => get4 >>= fun _ => get4 >>= fun _ => get4 >>= fun _ => getPoss t.height >>= fun _ =>
      getAlign >>= fun _ => pure ()) () (sizeAlign64 (16 + 4 * t.height)) := by
    unfold sparseHead
    refine Enc.congr ((Enc.four 0 h.height).bind ((Enc.four _ h.start).bind ((Enc.four _ h.ncd).bind ((Enc.four _ h.ccd).bind
      ((Enc.poss _ h.cuts.1 h.cuts.2).bind ((Enc.align _).map _)))))) ?_
    rw [sizeAlign64]
    omega
  obtain ⟨bs, h1, h2, -⟩ := e B out hb (by omega) hl
  exact ⟨bs, h1, h2⟩

theorem LoudsSparse.Parts.over {t : LoudsSparse} (h : t.Parts) {B : OutBuf} {out : List UInt8} (hb : B.base % 8 = 0)
    (ho : out.length % 8 = 0) (hl : out.length + sizeAlign64 (16 + 4 * t.height) ≤ B.init.length)
    (hl2 : B.init.length < out.length + sizeAlign64 (16 + 4 * t.height) + t.labels.numBytes) :
    t.serialize B out = .error .oobWrite := by
  obtain ⟨bs, h1, h2⟩ := h.head hb ho hl
  have e : t.serialize = (sparseHead t >>= fun _ => t.labels.serialize >>= fun _ => t.childBits.serialize >>= fun _ =>
      t.loudsBits.serialize >>= fun _ => t.suffixes.serialize >>= fun _ => putAlign) := by
    unfold LoudsSparse.serialize sparseHead
    simp only [bind_assoc]
  rw [e]
  show (sparseHead t B out >>= fun r => (t.labels.serialize >>= fun _ => t.childBits.serialize >>= fun _ =>
      t.loudsBits.serialize >>= fun _ => t.suffixes.serialize >>= fun _ => putAlign) B r.2) = _
  rw [h2, ok_bind]
  show (t.labels.serialize B (out ++ bs) >>= fun r => (t.childBits.serialize >>= fun _ =>
      t.loudsBits.serialize >>= fun _ => t.suffixes.serialize >>= fun _ => putAlign) B r.2) = _
  rw [LabelVector.over h.labels (by rw [List.length_append, h1]; omega)]
  rfl

/-- Bytes which the four vectors of a sparse trie take. -/
def LoudsSparse.total (t : LoudsSparse) : Nat :=
  t.labels.serializedSize + t.childBits.serializedSize + t.loudsBits.serializedSize + t.suffixes.serializedSize

theorem LoudsSparse.Parts.wf {t : LoudsSparse} (h : t.Parts) (hs : t.total < M32) : t.Wf :=
  ⟨h.height, h.start, h.ncd, h.ccd, h.cuts, h.labels, h.cb, h.lb, h.sf, hs⟩

section
variable {cfg : Config} {ts : List Str} {sw : Str → Word} {s : Nat} {f : Filter}

theorem FRep0.denseWf (h : FRep0 cfg ts sw s f) (hc : cfg.Ok) : f.dense.Wf := by
  have hd := h.d32
  have hh := h.h32
  have hsH := h.sH
  have w1 := h.dense.lab.wf (by rw [labelBits_length]; exact hd)
  have w2 := h.dense.chl.wf (by rw [childBits_eq, bitsOf_length]; exact hd)
  have w3 := h.dense.pre.wf (by simp [prefBits]; omega)
  have w4 := h.dense.sfx.wf hc
  have hsum : f.dense.labelBitmaps.serializedSize + f.dense.childBitmaps.serializedSize + f.dense.prefixBits.serializedSize
      + f.dense.suffixes.serializedSize ≤ 1879048000 := by
    have := w1.size_le; have := w2.size_le; have := w3.size_le; have := w4.size_le
    have := w1.num; have := w2.num; have := w4.num
    have : f.dense.prefixBits.numBits ≤ 2 ^ 24 := by
      rw [h.dense.pre.base.num]
      simp only [prefBits, List.length_map]
      rw [M32_eq] at hd
      omega
    rw [h.dense.blkL] at *
    rw [h.dense.blkC] at *
    rw [h.dense.blkP] at *
    rw [M32_eq] at *
    omega
  refine ⟨?_, ?_, w1, w2, w3, w4, by rw [M32_eq]; omega⟩
  · rw [h.dense.height]; omega
  · rw [h.dense.cuts, h.dense.height]
    exact ⟨by rw [levelCutsFrom_length]; simp, levelCutsFrom_lt _ _⟩

theorem FRep0.parts (h : FRep0 cfg ts sw s f) (hc : cfg.Ok) : f.sparse.Parts := by
  have hi := h.i32
  have hh := h.h32
  have hd := h.d32
  have hsH := h.sH
  have hsi := h.sitems_le
  obtain ⟨rest, hrest⟩ := h.sparse.labels
  have hn1 : (nodesR ts 1 (s + 1)).length < M32 := by
    have h1 : (nodesR ts 1 (s + 1)).length = (items ts 0 s).countP (isInt ts) := (dense_int_count ts s).symm
    have h2 := List.countP_le_length (p := isInt ts) (l := items ts 0 s)
    have h3 := congrArg List.length (items_split ts (Nat.zero_le s) h.nodes_s)
    rw [List.length_append] at h3
    omega
  refine ⟨?_, ?_, ?_, ?_, ?_, ⟨?_, ?_⟩, ?_, ?_, h.sparse.sfx.wf hc⟩
  · rw [h.sparse.height]; omega
  · rw [h.sparse.start]; omega
  · rw [h.sparse.ncd]; omega
  · rw [h.sparse.ccd]; exact hn1
  · rw [h.sparse.cuts, h.sparse.height]
    refine ⟨by rw [List.length_append, levelCutsFrom_length]; simp; omega, ?_⟩
    intro p hp
    rcases List.mem_append.1 hp with hp | hp
    · rw [List.eq_of_mem_replicate hp]; decide
    · exact levelCutsFrom_lt _ _ p hp
  · rw [h.sparse.labN, hrest]; simp
  · rw [h.sparse.labN]; change (sitems ts s).length + 1 + 16 < M32; omega
  · exact h.sparse.chl.wf (by rw [List.length_map]; change (sitems ts s).length < M32; omega)
  · exact h.sparse.louds.wf (by rw [louds_total h.wf]; omega) h.sparse.si

/-- The size of the four vectors in terms of the numbers of branches, nodes and suffixes. -/
theorem FRep0.total_eq (h : FRep0 cfg ts sw s f) (hc : cfg.Ok) {b : Nat} (hb : f.sparse.suffixes.numBits = b) :
    f.sparse.total = ((sitems ts s).length + 12) / 8 * 8 +
      (8 + 8 * (((sitems ts s).length + 63) / 64) + 4 * ((sitems ts s).length / 512 + 1) + 7) / 8 * 8 +
      (12 + 8 * (((sitems ts s).length + 63) / 64) + 4 * ((snodes ts s).length / 64 + 1) + 7) / 8 * 8 +
      (16 + 8 * ((b + 63) / 64) + 7) / 8 * 8 := by
  have hp := h.parts hc
  have e5 : f.sparse.labels.numBytes = (sitems ts s).length + 1 := h.sparse.labN
  have e6 : f.sparse.childBits.numBits = (sitems ts s).length := by
    rw [h.sparse.chl.base.num, List.length_map]
  have e7 : f.sparse.loudsBits.numBits = (sitems ts s).length := by
    rw [h.sparse.louds.base.num, louds_total h.wf]
  unfold LoudsSparse.total
  rw [hp.labels.size_eq, hp.cb.size_eq, hp.lb.size_eq, hp.sf.size_eq, e5, e6, e7, h.ones, h.sparse.blkC, h.sparse.si, hb]
  congr 4
  omega

/-- The written form is too large for a 32-bit size: the labels do not fit into the buffer. -/
theorem FRep0.serialize_over (h : FRep0 cfg ts sw s f) (hc : cfg.Ok) (ht : M32 ≤ f.sparse.total) {base : Nat} (hb : base % 8 = 0)
    (fresh : Nat → UInt8) : f.serialize base fresh = .error .oobWrite := by
  have hd := h.denseWf hc
  have hp := h.parts hc
  have hn := h.sitems_le
  have hi := h.i32
  have hsf := hp.sf.num
  have e5 : f.sparse.labels.numBytes = (sitems ts s).length + 1 := h.sparse.labN
  have e6 : f.sparse.childBits.numBits = (sitems ts s).length := by
    rw [h.sparse.chl.base.num, List.length_map]
  have e7 : f.sparse.loudsBits.numBits = (sitems ts s).length := by
    rw [h.sparse.louds.base.num, louds_total h.wf]
  have e8 : f.sparse.loudsBits.numOnes ≤ (sitems ts s).length := by
    rw [← e7, h.sparse.louds.base.num, h.sparse.louds.ones]; exact List.count_le_length
  have a5 := hp.labels.size_le
  have a6 := hp.cb.size_le
  have a7 := hp.lb.size_le
  have a8 := hp.sf.size_le
  rw [h.sparse.blkC, e6] at a6
  rw [h.sparse.si, e7] at a7
  rw [e5] at a5
  have hsH := h.sH
  have hT : f.sparse.total ≤ (sitems ts s).length + 12 + ((sitems ts s).length / 8 + 4 * ((sitems ts s).length / 512) + 27) +
      ((sitems ts s).length / 8 + 4 * ((sitems ts s).length / 64) + 31) + (f.sparse.suffixes.numBits / 8 + 31) := by
    unfold LoudsSparse.total
    omega
  have e1 : f.dense.serializedSize % 8 = 0 := by rw [LoudsDense.serializedSize, sizeAlign64]; omega
  have hsz : f.sparse.serializedSize = sizeAlign64 (sizeAlign64 (16 + 4 * f.sparse.height) + f.sparse.total % M32) := by
    unfold LoudsSparse.serializedSize LoudsSparse.total u32
    rfl
  have hhs := h.sparse.height
  have hl : ((List.range f.serializedSize).map fresh).length = f.dense.serializedSize + f.sparse.serializedSize := by
    rw [List.length_map, List.length_range]; rfl
  obtain ⟨b1, n1, s1, -⟩ := LoudsDense.enc hd 0 rfl ⟨base, (List.range f.serializedSize).map fresh⟩ [] hb rfl
    (by rw [hl]; simp)
  rw [M32_eq] at *
  unfold Filter.serialize
  dsimp only
  rw [s1, ok_bind]
  dsimp only
  rw [List.nil_append, hp.over hb (by rw [n1]; exact e1)]
  · rfl
  · show b1.length + _ ≤ ((List.range f.serializedSize).map fresh).length
    rw [hl, n1, hsz, sizeAlign64, sizeAlign64]
    omega
  · show ((List.range f.serializedSize).map fresh).length < b1.length + _ + _
    rw [hl, n1, hsz, sizeAlign64, sizeAlign64, e5]
    omega

end

end Surf
