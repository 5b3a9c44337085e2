import Verif.Model.Serialize
import Verif.Props.Vectors
import Verif.Proof.FilterRep

/-!
# Serialization: what is written is what is read
-/

set_option linter.unusedSectionVars false
set_option autoImplicit false

namespace Surf
open Trie

variable [Env]

/-- From a cursor whose offset is `a` modulo 8, `s` writes `n` bytes, and `d`, started at the address of these
bytes, reads exactly these bytes and returns `x`. -/
def Enc {α : Type} (a : Nat) (s : Put Unit) (d : Get α) (x : α) (n : Nat) : Prop :=
  ∀ (B : OutBuf) (out : List UInt8), B.base % 8 = 0 → out.length % 8 = a % 8 → out.length + n ≤ B.init.length →
    ∃ bytes, bytes.length = n ∧ s B out = .ok ((), out ++ bytes) ∧
      ∀ (I : InBuf) (pre post : List UInt8), I.base % 8 = 0 → pre.length % 8 = a % 8 → I.data = pre ++ (bytes ++ post) →
        d I (I.base + pre.length) = .ok (x, I.base + pre.length + n)

theorem Enc.bind {α β : Type} {a n m : Nat} {s s' : Put Unit} {d : Get α} {d' : α → Get β} {x : α} {y : β}
    (h : Enc a s d x n) (h' : Enc (a + n) s' (d' x) y m) : Enc a (s >>= fun _ => s') (d >>= d') y (n + m) := by
  intro B out hb ha hl
  obtain ⟨bs, hn, hs, hd⟩ := h B out hb ha (by omega)
  obtain ⟨bs', hn', hs', hd'⟩ := h' B (out ++ bs) hb (by rw [List.length_append]; omega) (by rw [List.length_append]; omega)
  refine ⟨bs ++ bs', by simp [hn, hn'], ?_, ?_⟩
  · show (s B out >>= fun r => s' B r.2) = _
    rw [hs]
    show s' B (out ++ bs) = _
    rw [hs', List.append_assoc]
  · intro I pre post hi hp hdat
    show (d I (I.base + pre.length) >>= fun r => d' r.1 I r.2) = _
    rw [hd I pre (bs' ++ post) hi hp (by rw [hdat]; simp)]
    show d' x I (I.base + pre.length + n) = _
    have := hd' I (pre ++ bs) post hi (by rw [List.length_append]; omega) (by rw [hdat]; simp)
    rw [List.length_append, hn, ← Nat.add_assoc] at this
    rw [this, Nat.add_assoc (I.base + pre.length)]

theorem Enc.pure {α : Type} (a : Nat) (x : α) : Enc a (Pure.pure ()) (Pure.pure x) x 0 := by
  intro B out _ _ _
  exact ⟨[], rfl, by rw [List.append_nil]; rfl, fun I pre post _ _ _ => rfl⟩

/-- The last action of the reader is a `pure` without counterpart in the writer. -/
theorem Enc.map {α β : Type} {a n : Nat} {s : Put Unit} {d : Get α} {x : α} (g : α → β)
    (h : Enc a s d x n) : Enc a s (d >>= fun y => Pure.pure (g y)) (g x) n := by
  intro B out hb ha hl
  obtain ⟨bs, hn, hs, hd⟩ := h B out hb ha hl
  refine ⟨bs, hn, hs, fun I pre post hi hp hdat => ?_⟩
  show (d I (I.base + pre.length) >>= fun r => Except.ok (g r.1, r.2)) = _
  rw [hd I pre post hi hp hdat]; rfl

theorem mapM_ok_aux {α β : Type} (f : α → R β) (g : α → β) (l : List α) (h : ∀ x ∈ l, f x = .ok (g x)) :
    l.mapM f = .ok (l.map g) := by
  induction l with
  | nil => rfl
  | cons x l ih =>
    rw [List.mapM_cons, h x (by simp), ok_bind, ih fun y hy => h y (by simp [hy]), ok_bind]
    rfl

theorem rdB_range (pre bs post : List UInt8) :
    (List.range bs.length).mapM (fun i => rdB (pre ++ (bs ++ post)) (pre.length + i)) = .ok bs := by
  rw [mapM_ok_aux _ (fun i => bs.getD i 0)]
  · congr 1
    apply List.ext_getElem
    · simp
    · intro i h1 h2
      simp [h2]
  · intro i hi
    rw [List.mem_range] at hi
    have : (pre ++ (bs ++ post))[pre.length + i]? = some (bs.getD i 0) := by
      rw [List.getElem?_append_right (by omega), show pre.length + i - pre.length = i by omega,
        List.getElem?_append_left hi, List.getElem?_eq_getElem hi]
      simp [hi]
    rw [rdB, this]

theorem Enc.bytes (a : Nat) (bs : List UInt8) : Enc a (putBytes bs) (getBytes bs.length) bs bs.length := by
  intro B out _ _ hl
  refine ⟨bs, rfl, by rw [putBytes, if_pos hl], fun I pre post _ _ hdat => ?_⟩
  rw [getBytes, hdat, show I.base + pre.length - I.base = pre.length by omega, rdB_range]

theorem Enc.four (a : Nat) {v : Nat} (hv : v < M32) : Enc a (put4 v) get4 v 4 := by
  have h := Enc.bytes a (leBytes 4 v)
  rw [Props.leBytes_length] at h
  have h2 := h.map leNat
  rw [Props.leNat_leBytes, Nat.mod_eq_of_lt (by rw [M32_eq] at hv; norm_num; omega)] at h2
  exact h2

theorem Enc.align (a : Nat) : Enc a putAlign getAlign () ((8 - a % 8) % 8) := by
  intro B out hb ha hl
  refine ⟨(B.init.drop out.length ++ List.replicate 8 0).take (alignUp (B.base + out.length) - (B.base + out.length)),
    ?_, rfl, ?_⟩
  · rw [List.length_take, List.length_append, List.length_drop, List.length_replicate, alignUp]
    omega
  · intro I pre post hi hp _
    show Except.ok ((), alignUp (I.base + pre.length)) = _
    rw [alignUp]
    congr 2
    omega

theorem Enc.labels (a : Nat) {ls : List UInt8} {n : Nat} (h : n ≤ ls.length) :
    Enc a (putLabels ls n) (getBytes n) (ls.take n) n := by
  have e : (List.range n).mapM (rdB ls) = .ok (ls.take n) := by
    rw [mapM_ok_aux _ (fun i => ls.getD i 0)]
    · congr 1
      apply List.ext_getElem
      · simp [h]
      · intro i h1 h2
        have h3 : i < ls.length := by simp at h1; omega
        simp [h3]
    · intro i hi
      rw [List.mem_range] at hi
      rw [rdB, List.getElem?_eq_getElem (by omega)]
      simp [show i < ls.length by omega]
  have h1 := Enc.bytes a (ls.take n)
  rw [List.length_take, Nat.min_eq_left h] at h1
  intro B out hb ha hl
  obtain ⟨bs, q⟩ := h1 B out hb ha hl
  refine ⟨bs, q.1, ?_, q.2.2⟩
  rw [putLabels, e]; exact q.2.1

theorem getWords_enc (a : Nat) (ws : List Word) :
    Enc a (putBytes (ws.flatMap fun w => leBytes 8 w.toNat)) (getWords ws.length) ws (8 * ws.length) := by
  induction ws generalizing a with
  | nil =>
    have h := Enc.bytes a []
    intro B out hb ha hl
    refine ⟨[], rfl, ?_, fun I pre post _ _ _ => rfl⟩
    rw [putBytes]; simp at hl ⊢; omega
  | cons w ws ih =>
    intro B out hb ha hl
    rw [List.length_cons] at hl
    obtain ⟨b1, n1, s1, d1⟩ := Enc.bytes a (leBytes 8 w.toNat) B out hb ha (by rw [Props.leBytes_length]; omega)
    obtain ⟨b2, n2, s2, d2⟩ := ih (a + 8) B (out ++ b1) hb (by rw [List.length_append, n1, Props.leBytes_length]; omega)
      (by rw [List.length_append, n1, Props.leBytes_length]; omega)
    rw [Props.leBytes_length] at n1 d1
    refine ⟨b1 ++ b2, by simp only [List.length_append, List.length_cons]; omega, ?_, ?_⟩
    · have e1 : b1 = leBytes 8 w.toNat := by
        rw [putBytes] at s1
        split at s1
        · have := (Except.ok.inj s1); simp at this; exact this.symm
        · cases s1
      have e2 : b2 = ws.flatMap fun w => leBytes 8 w.toNat := by
        rw [putBytes] at s2
        split at s2
        · have := (Except.ok.inj s2); simp at this; exact this.symm
        · cases s2
      rw [putBytes, List.flatMap_cons, ← e1, ← e2, if_pos (by simp only [List.length_append]; omega)]
    · intro I pre post hi hp hdat
      show (getBytes 8 I (I.base + pre.length) >>= fun r => (getWords ws.length I r.2 >>= fun r' =>
        Except.ok (BitVec.ofNat 64 (leNat r.1) :: r'.1, r'.2))) = _
      rw [d1 I pre (b2 ++ post) hi hp (by rw [hdat]; simp), ok_bind]
      dsimp only
      have := d2 I (pre ++ b1) post hi (by rw [List.length_append]; omega) (by rw [hdat]; simp)
      rw [List.length_append, n1, ← Nat.add_assoc] at this
      rw [this, ok_bind]
      dsimp only
      congr 2
      · rw [Props.leNat_leBytes, Nat.mod_eq_of_lt (by have := w.isLt; norm_num; omega)]
        simp
      · rw [List.length_cons]; omega

theorem Enc.words (a : Nat) {ws : List Word} {n : Nat} (h : ws.length = n) :
    Enc a (putWords ws n) (getWords n) ws (8 * n) := by
  subst h
  have e : (List.range ws.length).mapM (rdW ws) = .ok ws := by
    rw [mapM_ok_aux _ (fun i => ws.getD i 0)]
    · congr 1
      apply List.ext_getElem
      · simp
      · intro i h1 h2
        simp [h2]
    · intro i hi
      rw [List.mem_range] at hi
      rw [rdW, List.getElem?_eq_getElem hi]
      simp [hi]
  intro B out hb ha hl
  obtain ⟨bs, q⟩ := getWords_enc a ws B out hb ha hl
  refine ⟨bs, q.1, ?_, q.2.2⟩
  rw [putWords, e]; exact q.2.1

theorem getPoss_enc (a : Nat) (ps : List Nat) (hp : ∀ p ∈ ps, p < M32) :
    Enc a (putBytes (ps.flatMap fun p => leBytes 4 p)) (getPoss ps.length) ps (4 * ps.length) := by
  induction ps generalizing a with
  | nil =>
    have h := Enc.bytes a []
    intro B out hb ha hl
    refine ⟨[], rfl, ?_, fun I pre post _ _ _ => rfl⟩
    rw [putBytes]; simp at hl ⊢; omega
  | cons w ws ih =>
    intro B out hb ha hl
    rw [List.length_cons] at hl
    obtain ⟨b1, n1, s1, d1⟩ := Enc.four a (hp w (by simp)) B out hb ha (by omega)
    obtain ⟨b2, n2, s2, d2⟩ := ih (a + 4) (fun p h => hp p (by simp [h])) B (out ++ b1) hb
      (by rw [List.length_append, n1]; omega) (by rw [List.length_append, n1]; omega)
    refine ⟨b1 ++ b2, by simp only [List.length_append, List.length_cons]; omega, ?_, ?_⟩
    · have e1 : b1 = leBytes 4 w := by
        rw [put4, putBytes] at s1
        split at s1
        · have := (Except.ok.inj s1); simp at this; exact this.symm
        · cases s1
      have e2 : b2 = ws.flatMap fun w => leBytes 4 w := by
        rw [putBytes] at s2
        split at s2
        · have := (Except.ok.inj s2); simp at this; exact this.symm
        · cases s2
      rw [putBytes, List.flatMap_cons, ← e1, ← e2, if_pos (by simp only [List.length_append]; omega)]
    · intro I pre post hi hp hdat
      show (get4 I (I.base + pre.length) >>= fun r => (getPoss ws.length I r.2 >>= fun r' =>
        Except.ok (r.1 :: r'.1, r'.2))) = _
      rw [d1 I pre (b2 ++ post) hi hp (by rw [hdat]; simp), ok_bind]
      dsimp only
      have := d2 I (pre ++ b1) post hi (by rw [List.length_append]; omega) (by rw [hdat]; simp)
      rw [List.length_append, n1, ← Nat.add_assoc] at this
      rw [this, ok_bind]
      dsimp only
      congr 2
      rw [List.length_cons]; omega

theorem Enc.poss (a : Nat) {ps : List Nat} {n : Nat} (h : ps.length = n) (hp : ∀ p ∈ ps, p < M32) :
    Enc a (putPoss ps n) (getPoss n) ps (4 * n) := by
  subst h
  have e : (List.range ps.length).mapM (rdP ps) = .ok ps := by
    rw [mapM_ok_aux _ (fun i => ps.getD i 0)]
    · congr 1
      apply List.ext_getElem
      · simp
      · intro i h1 h2
        simp [h2]
    · intro i hi
      rw [List.mem_range] at hi
      rw [rdP, List.getElem?_eq_getElem hi]
      simp [hi]
  intro B out hb ha hl
  obtain ⟨bs, q⟩ := getPoss_enc a ps hp B out hb ha hl
  refine ⟨bs, q.1, ?_, q.2.2⟩
  rw [putPoss, e]; exact q.2.1

/-! ## The parts of a filter -/

/-- A label vector that can be written out. -/
structure LabelVector.Wf (l : LabelVector) : Prop where
  len : l.numBytes ≤ l.labels.length
  num : l.numBytes + 16 < M32

/-- The label vector without the padding behind its labels. -/
def LabelVector.trim (l : LabelVector) : LabelVector := { l with labels := l.labels.take l.numBytes }

theorem Enc.congr {α : Type} {a n n' : Nat} {s : Put Unit} {d : Get α} {x : α} (h : Enc a s d x n) (e : n = n') :
    Enc a s d x n' := e ▸ h

theorem LabelVector.enc {l : LabelVector} (h : l.Wf) (a : Nat) (ha : a % 8 = 0) :
    Enc a l.serialize LabelVector.deSerialize l.trim l.serializedSize := by
  have h1 := h.len; have h2 := h.num
  unfold LabelVector.serialize LabelVector.deSerialize
  refine Enc.congr ((Enc.four a (by omega)).bind ((Enc.labels _ h.len).bind ((Enc.align _).map _))) ?_
  rw [LabelVector.serializedSize, sizeAlign32, u32, add32]
  rw [M32_eq] at *
  omega

/-- A rank vector that can be written out. -/
structure BitvectorRank.Wf (b : BitvectorRank) : Prop where
  bits : b.bits.length = b.numWords
  num : b.numBits < M32
  blk : 64 ≤ b.basicBlockSize ∧ b.basicBlockSize < M32
  lutLen : b.rankLut.length = b.numBits / b.basicBlockSize + 1
  lut : ∀ p ∈ b.rankLut, p < M32

theorem rankLutLen_eq {n d : Nat} (hn : n < M32) (hd : 64 ≤ d) : BitvectorRank.rankLutLen n d = n / d + 1 := by
  have h : n / d ≤ n / 64 := Nat.div_le_div_left hd (by omega)
  rw [M32_eq] at hn
  rw [BitvectorRank.rankLutLen, u32, add32, M32_eq]
  generalize n / d = q at *
  omega

theorem Enc.lutLen {β : Type} {a m n k : Nat} {s : Put Unit} {d' : Nat → Get β} {y : β} (hd : 64 ≤ n)
    (h : Enc a s (d' (BitvectorRank.rankLutLen m n)) y k) : Enc a s (BitvectorRank.getLutLen m n >>= d') y k := by
  rw [BitvectorRank.getLutLen, if_neg (by omega)]
  exact h

theorem BitvectorRank.enc {b : BitvectorRank} (h : b.Wf) (a : Nat) (ha : a % 8 = 0) :
    Enc a b.serialize BitvectorRank.deSerialize b b.serializedSize := by
  have h2 := h.num
  have hw := Bitvector.numWords_bounds b.toBitvector
  have hl := rankLutLen_eq h2 h.blk.1
  have hle : b.numBits / b.basicBlockSize ≤ b.numBits / 64 := Nat.div_le_div_left h.blk.1 (by omega)
  unfold BitvectorRank.serialize BitvectorRank.deSerialize
  refine Enc.congr ((Enc.four a h2).bind ((Enc.four _ h.blk.2).bind ((Enc.words _ h.bits).bind
    (Enc.lutLen h.blk.1 ((Enc.poss _ (by rw [hl]; exact h.lutLen) h.lut).bind ((Enc.align _).map _)))))) ?_
  · rw [BitvectorRank.serializedSize, sizeAlign32, u32, add32, Bitvector.bitsSize, hl]
    rw [M32_eq] at *
    omega

/-- A select vector that can be written out. -/
structure BitvectorSelect.Wf (b : BitvectorSelect) : Prop where
  bits : b.bits.length = b.numWords
  num : b.numBits < M32
  ones : b.numOnes < M32
  si : 64 ≤ b.sampleInterval ∧ b.sampleInterval < M32
  lutLen : b.selectLut.length = b.numOnes / b.sampleInterval + 1
  lut : ∀ p ∈ b.selectLut, p < M32

theorem BitvectorSelect.enc {b : BitvectorSelect} (h : b.Wf) (a : Nat) (ha : a % 8 = 0) :
    Enc a b.serialize BitvectorSelect.deSerialize b b.serializedSize := by
  have h2 := h.num
  have h3 := h.ones
  have hw := Bitvector.numWords_bounds b.toBitvector
  have hl := rankLutLen_eq h.ones h.si.1
  have hle : b.numOnes / b.sampleInterval ≤ b.numOnes / 64 := Nat.div_le_div_left h.si.1 (by omega)
  unfold BitvectorSelect.serialize BitvectorSelect.deSerialize
  refine Enc.congr ((Enc.four a h2).bind ((Enc.four _ h.si.2).bind ((Enc.four _ h3).bind ((Enc.words _ h.bits).bind
    (Enc.lutLen h.si.1 ((Enc.poss _ (by rw [hl]; exact h.lutLen) h.lut).bind ((Enc.align _).map _))))))) ?_
  · rw [BitvectorSelect.serializedSize, sizeAlign32, u32, add32, Bitvector.bitsSize, hl]
    rw [M32_eq] at *
    omega

/-- Suffixes that can be written out. -/
structure BitvectorSuffix.Wf (b : BitvectorSuffix) : Prop where
  bits : b.bits.length = b.numWords
  num : b.numBits < M32
  none : b.type = .kNone → b.numBits = 0
  hash : b.hashLen < M32
  real : b.realLen < M32

theorem Enc.type (a : Nat) (t : SuffixType) : Enc a (put4 t.toNat) getType t 4 := by
  have h := Enc.four a (v := t.toNat) (by cases t <;> decide)
  intro B out hb ha hl
  obtain ⟨bs, h1, h2, h3⟩ := h B out hb ha hl
  refine ⟨bs, h1, h2, fun I pre post hi hp hdat => ?_⟩
  have := h3 I pre post hi hp hdat
  unfold getType
  show (get4 I (I.base + pre.length) >>= fun r => _) = _
  rw [this, ok_bind]
  cases t <;> rfl

theorem BitvectorSuffix.encBits {b : BitvectorSuffix} (h : b.Wf) (a : Nat) :
    Enc a b.putBits (BitvectorSuffix.getBits b.type b.numBits) b.bits (8 * b.numWords) := by
  unfold BitvectorSuffix.putBits BitvectorSuffix.getBits
  by_cases hn : b.type = .kNone
  · rw [if_pos hn, if_pos hn]
    have hw : b.numWords = 0 := by rw [Bitvector.numWords, h.none hn]; rfl
    have hb : b.bits = [] := List.eq_nil_of_length_eq_zero (by rw [h.bits, hw])
    rw [hw, hb]
    exact Enc.pure a []
  · rw [if_neg hn, if_neg hn]
    exact Enc.words a h.bits

theorem BitvectorSuffix.enc {b : BitvectorSuffix} (h : b.Wf) (a : Nat) (ha : a % 8 = 0) :
    Enc a b.serialize BitvectorSuffix.deSerialize b b.serializedSize := by
  have h2 := h.num
  have hw := Bitvector.numWords_bounds b.toBitvector
  unfold BitvectorSuffix.serialize BitvectorSuffix.deSerialize
  refine Enc.congr ((Enc.four a h2).bind ((Enc.type _ b.type).bind ((Enc.four _ h.hash).bind ((Enc.four _ h.real).bind
    ((BitvectorSuffix.encBits h _).bind ((Enc.align _).map _)))))) ?_
  rw [BitvectorSuffix.serializedSize, sizeAlign32, u32, add32, Bitvector.bitsSize]
  rw [M32_eq] at *
  omega

/-- A dense trie that can be written out. -/
structure LoudsDense.Wf (d : LoudsDense) : Prop where
  height : d.height < M32
  cuts : d.levelCuts.length = d.height ∧ ∀ p ∈ d.levelCuts, p < M32
  lb : d.labelBitmaps.Wf
  cb : d.childBitmaps.Wf
  pb : d.prefixBits.Wf
  sf : d.suffixes.Wf
  sum : d.labelBitmaps.serializedSize + d.childBitmaps.serializedSize + d.prefixBits.serializedSize
    + d.suffixes.serializedSize < M32

theorem sizeAlign32_mod (n : Nat) : sizeAlign32 n % 8 = 0 := by rw [sizeAlign32]; omega

theorem LoudsDense.enc {d : LoudsDense} (h : d.Wf) (a : Nat) (ha : a % 8 = 0) :
    Enc a d.serialize LoudsDense.deSerialize d d.serializedSize := by
  have e1 : d.labelBitmaps.serializedSize % 8 = 0 := sizeAlign32_mod _
  have e2 : d.childBitmaps.serializedSize % 8 = 0 := sizeAlign32_mod _
  have e3 : d.prefixBits.serializedSize % 8 = 0 := sizeAlign32_mod _
  have e4 : d.suffixes.serializedSize % 8 = 0 := sizeAlign32_mod _
  unfold LoudsDense.serialize LoudsDense.deSerialize
  refine Enc.congr ((Enc.four a h.height).bind ((Enc.poss _ h.cuts.1 h.cuts.2).bind ((Enc.align _).bind
    ((BitvectorRank.enc h.lb _ ?_).bind ((BitvectorRank.enc h.cb _ ?_).bind ((BitvectorRank.enc h.pb _ ?_).bind
    ((BitvectorSuffix.enc h.sf _ ?_).bind ((Enc.align _).map _)))))))) ?_
  all_goals try omega
  rw [LoudsDense.serializedSize, u32, Nat.mod_eq_of_lt h.sum, sizeAlign64, sizeAlign64]
  omega

theorem LabelVector.Wf.size_le {l : LabelVector} (h : l.Wf) : l.serializedSize ≤ l.numBytes + 11 := by
  have := h.num
  rw [M32_eq] at this
  rw [LabelVector.serializedSize, sizeAlign32, u32, add32, M32_eq]
  omega

theorem BitvectorRank.Wf.size_le {b : BitvectorRank} (h : b.Wf) : b.serializedSize ≤ b.numBits / 8 + 4 * (b.numBits / b.basicBlockSize) + 27 := by
  have h1 := h.num
  have hw := Bitvector.numWords_bounds b.toBitvector
  have hl := rankLutLen_eq h1 h.blk.1
  have hle : b.numBits / b.basicBlockSize ≤ b.numBits / 64 := Nat.div_le_div_left h.blk.1 (by omega)
  rw [M32_eq] at h1
  rw [BitvectorRank.serializedSize, hl, sizeAlign32, u32, add32, M32_eq, Bitvector.bitsSize]
  generalize b.numBits / b.basicBlockSize = q at *
  omega

theorem BitvectorSelect.Wf.size_le {b : BitvectorSelect} (h : b.Wf) :
    b.serializedSize ≤ b.numBits / 8 + 4 * (b.numOnes / b.sampleInterval) + 31 := by
  have h1 := h.num
  have h2 := h.ones
  have hw := Bitvector.numWords_bounds b.toBitvector
  have hl := rankLutLen_eq h2 h.si.1
  have hle : b.numOnes / b.sampleInterval ≤ b.numOnes / 64 := Nat.div_le_div_left h.si.1 (by omega)
  rw [M32_eq] at h1 h2
  rw [BitvectorSelect.serializedSize, hl, sizeAlign32, u32, add32, M32_eq, Bitvector.bitsSize]
  generalize b.numOnes / b.sampleInterval = q at *
  omega

theorem BitvectorSuffix.Wf.size_le {b : BitvectorSuffix} (h : b.Wf) : b.serializedSize ≤ b.numBits / 8 + 31 := by
  have h1 := h.num
  have hw := Bitvector.numWords_bounds b.toBitvector
  rw [M32_eq] at h1
  rw [BitvectorSuffix.serializedSize, sizeAlign32, u32, add32, M32_eq, Bitvector.bitsSize]
  omega

/-- A sparse trie that can be written out. -/
structure LoudsSparse.Wf (t : LoudsSparse) : Prop where
  height : t.height < M32
  start : t.startLevel < M32
  ncd : t.nodeCountDense < M32
  ccd : t.childCountDense < M32
  cuts : t.levelCuts.length = t.height ∧ ∀ p ∈ t.levelCuts, p < M32
  labels : t.labels.Wf
  cb : t.childBits.Wf
  lb : t.loudsBits.Wf
  sf : t.suffixes.Wf
  sum : t.labels.serializedSize + t.childBits.serializedSize + t.loudsBits.serializedSize
    + t.suffixes.serializedSize < M32

/-- The sparse trie without the padding behind its labels. -/
def LoudsSparse.trim (t : LoudsSparse) : LoudsSparse := { t with labels := t.labels.trim }

theorem LoudsSparse.enc {t : LoudsSparse} (h : t.Wf) (a : Nat) (ha : a % 8 = 0) :
    Enc a t.serialize LoudsSparse.deSerialize t.trim t.serializedSize := by
  have e1 : t.labels.serializedSize % 8 = 0 := sizeAlign32_mod _
  have e2 : t.childBits.serializedSize % 8 = 0 := sizeAlign32_mod _
  have e3 : t.loudsBits.serializedSize % 8 = 0 := sizeAlign32_mod _
  have e4 : t.suffixes.serializedSize % 8 = 0 := sizeAlign32_mod _
  unfold LoudsSparse.serialize LoudsSparse.deSerialize
  refine Enc.congr ((Enc.four a h.height).bind ((Enc.four _ h.start).bind ((Enc.four _ h.ncd).bind ((Enc.four _ h.ccd).bind
    ((Enc.poss _ h.cuts.1 h.cuts.2).bind ((Enc.align _).bind
    ((LabelVector.enc h.labels _ ?_).bind ((BitvectorRank.enc h.cb _ ?_).bind ((BitvectorSelect.enc h.lb _ ?_).bind
    ((BitvectorSuffix.enc h.sf _ ?_).bind ((Enc.align _).map _))))))))))) ?_
  all_goals try omega
  rw [LoudsSparse.serializedSize, u32, Nat.mod_eq_of_lt h.sum, sizeAlign64, sizeAlign64]
  omega

/-- A filter that can be written out. -/
structure Filter.Wf (f : Filter) : Prop where
  dense : f.dense.Wf
  sparse : f.sparse.Wf

/-- The filter without the padding behind its labels. -/
def Filter.trim (f : Filter) : Filter := { f with sparse := f.sparse.trim }

/-- Serializing into fresh memory fills it exactly, and reading it back gives the filter without padding. -/
theorem Filter.roundtrip {f : Filter} (h : f.Wf) {base : Nat} (hb : base % 8 = 0) (fresh : Nat → UInt8) :
    ∃ data, f.serialize base fresh = .ok data ∧ data.length = f.serializedSize ∧ f.serializedSize % 8 = 0 ∧
      ∀ base' post, base' % 8 = 0 → Filter.deSerialize base' (data ++ post) = .ok f.trim := by
  have e1 : f.dense.serializedSize % 8 = 0 := by rw [LoudsDense.serializedSize, sizeAlign64]; omega
  have e2 : f.sparse.serializedSize % 8 = 0 := by rw [LoudsSparse.serializedSize, sizeAlign64]; omega
  have hl : ((List.range f.serializedSize).map fresh).length = f.serializedSize := by simp
  obtain ⟨b1, n1, s1, d1⟩ := LoudsDense.enc h.dense 0 rfl ⟨base, (List.range f.serializedSize).map fresh⟩ [] hb rfl
    (by rw [hl, Filter.serializedSize]; simp)
  obtain ⟨b2, n2, s2, d2⟩ := LoudsSparse.enc h.sparse f.dense.serializedSize e1
    ⟨base, (List.range f.serializedSize).map fresh⟩ b1 hb (by rw [n1])
    (by rw [hl, Filter.serializedSize]; omega)
  have hn : (b1 ++ b2).length = f.serializedSize := by rw [List.length_append, n1, n2]; rfl
  refine ⟨b1 ++ b2, ?_, hn, by rw [Filter.serializedSize]; omega, fun base' post hb' => ?_⟩
  · unfold Filter.serialize
    dsimp only
    rw [s1, ok_bind]
    dsimp only
    rw [List.nil_append, s2, ok_bind]
    dsimp only
    rw [hn, assertR_ok (by simp), ok_bind]
    simp only [pure_ok]
    rw [List.drop_of_length_le (by simp), List.append_nil, List.take_of_length_le (by omega)]
  · unfold Filter.deSerialize
    have q1 := d1 ⟨base', b1 ++ b2 ++ post⟩ [] (b2 ++ post) hb' rfl (by simp)
    have q2 := d2 ⟨base', b1 ++ b2 ++ post⟩ b1 post hb' (by rw [n1]) (by simp)
    dsimp only [List.length_nil, Nat.add_zero] at q1 q2
    rw [q1, ok_bind]
    dsimp only
    rw [← n1, q2, ok_bind]
    rfl

end Surf
