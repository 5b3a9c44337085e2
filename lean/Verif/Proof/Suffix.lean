import Verif.Proof.Label
import Verif.Model.Builder
import Verif.Spec

/-! # Packed suffixes: storing (surf_builder.hpp:296-317) and reading (suffix.hpp:187-202) -/

set_option linter.unusedSectionVars false

namespace Surf

/-- The low `L` bits of `w`, most significant first. -/
def valBits (L : Nat) (w : Word) : List Bool := (List.range L).map fun i => w.getMsbD (64 - L + i)

@[simp] theorem valBits_length (L : Nat) (w : Word) : (valBits L w).length = L := by simp [valBits]

theorem valBits_getD {L : Nat} {w : Word} {i : Nat} (h : i < L) :
    (valBits L w).getD i false = w.getMsbD (64 - L + i) := by
  simp [valBits, List.getD, h]

/-- `w` has at most `L` significant bits. -/
def Fits (L : Nat) (w : Word) : Prop := ∀ i, i < 64 - L → w.getMsbD i = false

/-- All suffix values of a level, packed. -/
def packBits (L : Nat) (ws : List Word) : List Bool := (ws.map (valBits L)).flatten

theorem packBits_length (L : Nat) (ws : List Word) : (packBits L ws).length = L * ws.length := by
  induction ws with
  | nil => simp [packBits]
  | cons w ws ih =>
    simp only [packBits, List.map_cons, List.flatten_cons, List.length_append, valBits_length,
      List.length_cons] at *
    rw [ih]; ring

theorem packBits_append (L : Nat) (a b : List Word) : packBits L (a ++ b) = packBits L a ++ packBits L b := by
  simp [packBits]

theorem packBits_flatten (L : Nat) (wss : List (List Word)) :
    (wss.map (packBits L)).flatten = packBits L wss.flatten := by
  induction wss with
  | nil => simp [packBits]
  | cons a t ih => simp [packBits_append, ih]

theorem packBits_getD {L : Nat} {ws : List Word} {idx j : Nat} (hj : j < L) (hi : idx < ws.length) :
    (packBits L ws).getD (idx * L + j) false = (ws.getD idx 0).getMsbD (64 - L + j) := by
  induction ws generalizing idx with
  | nil => simp at hi
  | cons w ws ih =>
    have hp : packBits L (w :: ws) = valBits L w ++ packBits L ws := by simp [packBits]
    rw [hp]
    cases idx with
    | zero =>
      rw [Nat.zero_mul, Nat.zero_add, getD_append_lt (by simpa using hj), valBits_getD hj]; rfl
    | succ idx =>
      have e : (idx + 1) * L + j = L + (idx * L + j) := by ring
      rw [e, getD_append_ge (by simp), valBits_length, Nat.add_sub_cancel_left,
        ih (by simpa using hi)]
      simp

theorem add_eq_or_disjoint {a b : Word} (h : ∀ i, i < 64 → (a.getMsbD i && b.getMsbD i) = false) :
    a + b = a ||| b := by
  apply BitVec.add_eq_or_of_and_eq_zero
  apply eq_zero_of_msb
  intro i hi
  rw [BitVec.getMsbD_and]; exact h i hi

variable [Env]

omit [Env] in
theorem addAt_ok {a : List Word} {k : Nat} {x : Word} (hk : k < a.length)
    (hd : ∀ i, i < 64 → ((a.getD k 0).getMsbD i && x.getMsbD i) = false) :
    ∃ a', addAt a k x = .ok a' ∧ a'.length = a.length ∧
      ∀ i, bitAt a' i = (bitAt a i || (decide (i / 64 = k) && x.getMsbD (i % 64))) := by
  have hg : a.getD k 0 = a[k] := by simp [List.getD, hk]
  refine ⟨a.set k (a[k] + x), ?_, by simp, ?_⟩
  · simp [addAt, hk]
  · intro i
    rw [← hg, add_eq_or_disjoint hd]
    unfold bitAt
    by_cases h : i / 64 = k
    · subst h; simp [List.getD, hk]
    · simp [List.getD, h, List.getElem?_set_ne (Ne.symm h)]

omit [Env] in
theorem bitAt_append_zero (ws : List Word) (i : Nat) : bitAt (ws ++ [0]) i = bitAt ws i := by
  unfold bitAt
  by_cases h : i / 64 < ws.length
  · rw [getD_append_lt h]
  · rw [getD_append_ge (by omega), getD_ge (l := ws) (by omega)]
    by_cases h2 : i / 64 - ws.length = 0
    · simp [h2]
    · rw [getD_ge (by simp; omega)]

/-- Storing a suffix of `L` bits appends these bits. -/
theorem storeSuffix_ok {lv : Level} {L : Nat} {w : Word} {xs : List Bool}
    (hL1 : 1 ≤ L) (hL : L ≤ 64) (hw : Fits L w)
    (hx : LevelBits (lv.suffixes, L * lv.suffixCount) xs)
    (htight : 64 * lv.suffixes.length < xs.length + 64) (h32 : L * lv.suffixCount < M32) :
    ∃ s, Builder.storeSuffix lv L w = .ok { lv with suffixes := s, suffixCount := lv.suffixCount + 1 } ∧
      LevelBits (s, L * (lv.suffixCount + 1)) (xs ++ valBits L w) ∧
      64 * s.length < (xs ++ valBits L w).length + 64 := by
  obtain ⟨hn, hr, hb⟩ := hx
  dsimp only at hn hr hb
  have hpos : mul32 lv.suffixCount L = xs.length := by rw [mul32, Nat.mul_comm, Nat.mod_eq_of_lt h32]; exact hn
  have hmul : L * (lv.suffixCount + 1) = xs.length + L := by rw [Nat.mul_add, hn, Nat.mul_one]
  unfold Builder.storeSuffix
  rw [hpos]
  dsimp only
  rw [assertR_ok (by simp; omega), ok_bind]
  -- the vector after a possible push_back
  obtain ⟨s0, hs0, l0, g0⟩ : ∃ s0, (if xs.length = lv.suffixes.length * 64 then lv.suffixes ++ [0] else lv.suffixes) = s0
      ∧ 64 * s0.length = 64 * (xs.length / 64 + 1) ∧ ∀ i, bitAt s0 i = xs.getD i false := by
    by_cases h : xs.length = lv.suffixes.length * 64
    · refine ⟨lv.suffixes ++ [0], if_pos h, by simp; omega, ?_⟩
      intro i; rw [bitAt_append_zero, hb]
    · exact ⟨lv.suffixes, if_neg h, by omega, hb⟩
  rw [hs0]
  have hword : ∀ j, j < 64 → (s0.getD (xs.length / 64) 0).getMsbD j = xs.getD (64 * (xs.length / 64) + j) false := by
    intro j hj; rw [← g0, bitAt_word _ _ hj]
  by_cases hfit : L ≤ 64 - xs.length % 64
  · rw [if_pos hfit, shlW, if_pos (by omega), ok_bind]
    obtain ⟨s1, e1, l1, g1⟩ := addAt_ok (a := s0) (k := xs.length / 64) (x := w <<< (64 - xs.length % 64 - L))
      (by omega) (by
        intro j hj
        rw [hword j hj, BitVec.getMsbD_shiftLeft]
        by_cases hlt : j < xs.length % 64
        · rw [hw _ (by omega)]; simp
        · rw [getD_ge (by omega)]; simp)
    rw [e1, ok_bind]
    refine ⟨s1, rfl, ⟨by simp [hmul], by simp; omega, ?_⟩, by simp; omega⟩
    intro i
    dsimp only
    rw [g1, g0, getD_append_bool]
    congr 1
    rw [BitVec.getMsbD_shiftLeft]
    by_cases hge : xs.length ≤ i
    · by_cases hlt : i - xs.length < L
      · rw [valBits_getD hlt]
        simp only [hge, show i / 64 = xs.length / 64 by omega]
        simp
        congr 1; omega
      · rw [getD_ge (l := valBits L w) (by simp; omega)]
        by_cases hd : i / 64 = xs.length / 64
        · rw [BitVec.getMsbD_of_ge w (i % 64 + (64 - xs.length % 64 - L)) (by omega)]; simp
        · simp [hd]
    · by_cases hd : i / 64 = xs.length / 64
      · rw [hw _ (by omega)]; simp [hge]
      · simp [hge, hd]
  · rw [if_neg hfit, shrW, if_pos (by omega), ok_bind]
    obtain ⟨s1, e1, l1, g1⟩ := addAt_ok (a := s0) (k := xs.length / 64) (x := w >>> (L - (64 - xs.length % 64)))
      (by omega) (by
        intro j hj
        rw [hword j hj, BitVec.getMsbD_ushiftRight]
        by_cases hlt : j < xs.length % 64
        · by_cases hl2 : j < L - (64 - xs.length % 64)
          · simp [hl2]
          · rw [hw _ (by omega)]; simp
        · rw [getD_ge (by omega)]; simp)
    rw [e1, ok_bind]
    rw [shlW, if_pos (by omega), ok_bind]
    have g1b : ∀ i, 64 * (xs.length / 64 + 1) ≤ i → bitAt (s1 ++ [0]) i = false := by
      intro i hi; rw [bitAt_append_zero, bitAt_ge _ (by omega)]
    obtain ⟨s2, e2, l2, g2⟩ := addAt_ok (a := s1 ++ [0]) (k := xs.length / 64 + 1)
      (x := w <<< (64 - (L - (64 - xs.length % 64))))
      (by simp; omega) (by
        intro j hj
        rw [← bitAt_word _ _ hj, g1b _ (by omega)]; simp)
    rw [e2, ok_bind]
    refine ⟨s2, rfl, ⟨by simp [hmul], by simp at l2; simp; omega, ?_⟩, by simp at l2; simp; omega⟩
    intro i
    dsimp only
    rw [g2, bitAt_append_zero, g1, g0, getD_append_bool, Bool.or_assoc]
    congr 1
    rw [BitVec.getMsbD_shiftLeft, BitVec.getMsbD_ushiftRight]
    by_cases hge : xs.length ≤ i
    · by_cases hlt : i - xs.length < L
      · rw [valBits_getD hlt]
        by_cases hd : i / 64 = xs.length / 64
        · simp [hge, hd, show i % 64 < 64 by omega, show ¬ i % 64 < L - (64 - xs.length % 64) by omega]
          congr 1; omega
        · simp [hge, hd, show i / 64 = xs.length / 64 + 1 by omega]
          congr 1; omega
      · rw [getD_ge (l := valBits L w) (by simp; omega)]
        by_cases hd : i / 64 = xs.length / 64 + 1
        · rw [BitVec.getMsbD_of_ge w (i % 64 + (64 - (L - (64 - xs.length % 64)))) (by omega)]; simp [hd]
        · simp [hd]; intros; omega
    · by_cases hd : i / 64 = xs.length / 64
      · by_cases hl2 : i % 64 < L - (64 - xs.length % 64)
        · simp [hge, hd, hl2]
        · rw [hw (i % 64 - _) (by omega)]; simp [hge, hd]
      · have hd2 : ¬ i / 64 = xs.length / 64 + 1 := by omega
        simp [hge, hd, hd2]

/-- With suffix length 0 (`kNone`) nothing is stored. -/
theorem storeSuffix_zero (hs : Env.strict = false) {lv : Level}
    (hx : ∀ i, bitAt lv.suffixes i = false) :
    ∃ s, Builder.storeSuffix lv 0 0 = .ok { lv with suffixes := s, suffixCount := lv.suffixCount + 1 } ∧
      s.length = max 1 lv.suffixes.length ∧ ∀ i, bitAt s i = false := by
  unfold Builder.storeSuffix
  rw [mul32, Nat.mul_zero, Nat.zero_mod]
  dsimp only
  rw [assertR_ok (by simp), ok_bind, if_pos (by omega)]
  obtain ⟨s0, hs0, l0, g0⟩ : ∃ s0, (if 0 = lv.suffixes.length * 64 then lv.suffixes ++ [0] else lv.suffixes) = s0
      ∧ s0.length = max 1 lv.suffixes.length ∧ ∀ i, bitAt s0 i = false := by
    by_cases h : 0 = lv.suffixes.length * 64
    · refine ⟨_, if_pos h, by rw [List.length_append, List.length_singleton]; omega, ?_⟩
      intro i; rw [bitAt_append_zero, hx]
    · exact ⟨_, if_neg h, by omega, hx⟩
  rw [hs0]
  have hsh : shlW (0 : Word) (64 - 0 % 64 - 0) = .ok 0 := by
    simp [shlW, hs]
  rw [hsh, ok_bind]
  obtain ⟨s1, e1, l1, g1⟩ := addAt_ok (a := s0) (k := 0 / 64) (x := 0) (by omega) (by simp)
  rw [e1, ok_bind]
  refine ⟨s1, rfl, by rw [l1, l0], ?_⟩
  intro i; rw [g1, g0]; simp

/-! ### Reading -/

namespace BitvectorSuffix

/-- The suffix vector holds the values `ws` (of width `hashLen + realLen`). -/
structure Rep (b : BitvectorSuffix) (ws : List Word) : Prop where
  base : b.toBitvector.Rep (packBits b.suffixLen ws)
  pos : 1 ≤ b.suffixLen
  le : b.suffixLen ≤ 64
  fits : ∀ w, w ∈ ws → Fits b.suffixLen w
  b32 : b.suffixLen * ws.length < M32
  type : b.type ≠ .kNone

theorem Rep.numBits {b : BitvectorSuffix} {ws : List Word} (h : b.Rep ws) :
    b.numBits = b.suffixLen * ws.length := by
  rw [h.base.num, packBits_length]

theorem Rep.mul32 {b : BitvectorSuffix} {ws : List Word} (h : b.Rep ws) {idx : Nat} (hi : idx < ws.length) :
    Surf.mul32 idx b.suffixLen = idx * b.suffixLen ∧ idx * b.suffixLen + b.suffixLen ≤ b.numBits := by
  have h1 : (idx + 1) * b.suffixLen ≤ ws.length * b.suffixLen := Nat.mul_le_mul_right _ hi
  have h2 := h.b32
  have h3 := h.numBits
  rw [Nat.mul_comm ws.length] at h1
  have h4 : (idx + 1) * b.suffixLen = idx * b.suffixLen + b.suffixLen := by ring
  exact ⟨mul32_eq (by omega), by omega⟩

/-- `read(idx)` delivers the `idx`-th stored suffix. -/
theorem read_ok (hs : Env.strict = false) {b : BitvectorSuffix} {ws : List Word} (h : b.Rep ws) {idx : Nat} (hi : idx < ws.length) :
    b.read idx = .ok (ws.getD idx 0) := by
  obtain ⟨hm, hle⟩ := h.mul32 hi
  have hl := h.base.len_bounds
  have hnum := h.base.num
  have hp := h.pos
  have hle64 := h.le
  have hfit : Fits b.suffixLen (ws.getD idx 0) := h.fits _ (by
    rw [List.getD_eq_getElem?_getD, List.getElem?_eq_getElem hi]; simp)
  unfold read
  rw [if_neg h.type, hm, if_neg (by omega)]
  dsimp only
  rw [← hnum] at hl
  set L := b.suffixLen with hLdef
  set P := idx * L with hP
  have hbits : ∀ j, j < L → bitAt b.bits (P + j) = (ws.getD idx 0).getMsbD (64 - L + j) := by
    intro j hj
    rw [h.base.bit, ← hLdef, packBits_getD hj hi]
  rw [rdW_ok (by omega), ok_bind]
  have hsub : sub32 64 L = 64 - L := sub32_eq hle64 (by decide)
  rw [hsub, shrW, if_pos (by omega), ok_bind]
  have hlow : ∀ i, i < 64 → ((b.bits.getD (P / 64) 0 <<< (P % 64)) >>> (64 - L)).getMsbD i =
      (decide (64 - L ≤ i) && decide (P % 64 + (i - (64 - L)) < 64) && (ws.getD idx 0).getMsbD i) := by
    intro i hi'
    rw [BitVec.getMsbD_ushiftRight, BitVec.getMsbD_shiftLeft]
    by_cases h1 : i < 64 - L
    · simp [h1, show ¬ 64 - L ≤ i by omega]
    · by_cases h2 : P % 64 + (i - (64 - L)) < 64
      · have h3 := hbits (i - (64 - L)) (by omega)
        have h4 := bitAt_word b.bits (P / 64) h2
        rw [show 64 * (P / 64) + (P % 64 + (i - (64 - L))) = P + (i - (64 - L)) by omega, h3,
          show 64 - L + (i - (64 - L)) = i by omega] at h4
        rw [show i - (64 - L) + P % 64 = P % 64 + (i - (64 - L)) by omega, ← h4]
        simp [h1, h2, hi', show 64 - L ≤ i by omega]
      · rw [BitVec.getMsbD_of_ge _ (i - (64 - L) + P % 64) (by omega)]
        simp [h2]
  by_cases hcross : P % 64 + L > 64
  · rw [if_pos hcross, rdW_ok (by omega), ok_bind]
    have hsh : sub32 (sub32 64 (P % 64)) L = M32 - (P % 64 + L - 64) := by
      have : sub32 64 (P % 64) = 64 - P % 64 := sub32_eq (by omega) (by decide)
      rw [this]
      simp only [sub32, M32_eq]; omega
    have hmod : (M32 - (P % 64 + L - 64)) % 64 = 128 - P % 64 - L := by
      rw [M32_eq]; omega
    rw [hsh, shrW, if_neg (by rw [M32_eq]; omega), hs, hmod]
    simp only [Bool.false_eq_true, if_false, ok_bind]
    refine ok_congr ?_
    have hhigh : ∀ i, i < 64 → (b.bits.getD (P / 64 + 1) 0 >>> (128 - P % 64 - L)).getMsbD i =
        (decide (64 ≤ P % 64 + (i - (64 - L))) && (ws.getD idx 0).getMsbD i) := by
      intro i hi'
      rw [BitVec.getMsbD_ushiftRight]
      by_cases h1 : i < 128 - P % 64 - L
      · simp [h1, show ¬ 64 ≤ P % 64 + (i - (64 - L)) by omega]
      · have h3 := hbits (i - (64 - L)) (by omega)
        have h4 := bitAt_word b.bits (P / 64 + 1) (j := i - (128 - P % 64 - L)) (by omega)
        rw [show 64 * (P / 64 + 1) + (i - (128 - P % 64 - L)) = P + (i - (64 - L)) by omega, h3,
          show 64 - L + (i - (64 - L)) = i by omega] at h4
        rw [← h4]
        simp [h1, hi', show 64 ≤ P % 64 + (i - (64 - L)) by omega]
    rw [add_eq_or_disjoint]
    · apply BitVec.eq_of_getMsbD_eq
      intro i hi'
      rw [BitVec.getMsbD_or, hlow i hi', hhigh i hi']
      by_cases h1 : 64 - L ≤ i
      · by_cases h2 : P % 64 + (i - (64 - L)) < 64
        · simp [h1, h2]
        · simp [h2, show 64 ≤ P % 64 + (i - (64 - L)) by omega]
      · rw [hfit i (by omega)]; simp
    · intro i hi'
      rw [hlow i hi', hhigh i hi']
      by_cases h2 : P % 64 + (i - (64 - L)) < 64
      · simp [h2, show ¬ 64 ≤ P % 64 + (i - (64 - L)) by omega]
      · simp [h2]
  · rw [if_neg hcross]
    refine ok_congr ?_
    apply BitVec.eq_of_getMsbD_eq
    intro i hi'
    rw [hlow i hi']
    by_cases h1 : 64 - L ≤ i
    · simp [h1, show P % 64 + (i - (64 - L)) < 64 by omega]
    · rw [hfit i (by omega)]; simp

end BitvectorSuffix

/-! ### What the constructed suffixes are -/

section
omit [Env]

theorem Fits.shl_add {L m : Nat} {w x : Word} (hLm : L + m ≤ 64) (hw : Fits L w) (hx : Fits m x) :
    (w <<< m) + x = (w <<< m) ||| x ∧ Fits (L + m) ((w <<< m) + x) ∧
      valBits (L + m) ((w <<< m) + x) = valBits L w ++ valBits m x := by
  have hor : (w <<< m) + x = (w <<< m) ||| x := by
    apply add_eq_or_disjoint
    intro i hi
    rw [BitVec.getMsbD_shiftLeft]
    by_cases h : i < 64 - m
    · rw [hx i h]; simp
    · rw [BitVec.getMsbD_of_ge w (i + m) (by omega)]; simp
  refine ⟨hor, ?_, ?_⟩
  · intro i hi
    rw [hor, BitVec.getMsbD_or, BitVec.getMsbD_shiftLeft, hw _ (by omega), hx _ (by omega)]; rfl
  · apply List.ext_getElem?
    intro i
    simp only [valBits, List.getElem?_append, List.getElem?_map, List.length_map, List.length_range]
    by_cases h1 : i < L
    · rw [if_pos h1, List.getElem?_range h1, List.getElem?_range (by omega)]
      simp only [Option.map_some, Option.some.injEq]
      rw [hor, BitVec.getMsbD_or, BitVec.getMsbD_shiftLeft, hx _ (by omega), Bool.or_false]
      congr 1; omega
    · rw [if_neg h1]
      by_cases h2 : i < L + m
      · rw [List.getElem?_range h2, List.getElem?_range (by omega)]
        simp only [Option.map_some, Option.some.injEq]
        rw [hor, BitVec.getMsbD_or, BitVec.getMsbD_shiftLeft,
          BitVec.getMsbD_of_ge w (64 - (L + m) + i + m) (by omega), Bool.false_or]
        congr 1; omega
      · simp [List.getElem?_eq_none (l := List.range (L + m)) (i := i) (by simp; omega),
          List.getElem?_eq_none (l := List.range m) (i := i - L) (by simp; omega)]

theorem take_append_ge {α : Type} {a b : List α} {n : Nat} (h : a.length ≤ n) :
    (a ++ b).take n = a ++ b.take (n - a.length) := by
  rw [List.take_append, List.take_of_length_le h]

theorem Fits.mono {L M : Nat} {w : Word} (h : Fits L w) (hLM : L ≤ M) : Fits M w :=
  fun i hi => h i (by omega)

theorem byte_msb (b : UInt8) (i : Nat) (hi : i < 64) :
    (BitVec.ofNat 64 b.toNat).getMsbD i = (decide (56 ≤ i) && b.toNat.testBit (63 - i)) := by
  rw [BitVec.getMsbD_eq_getLsbD, BitVec.getLsbD_ofNat]
  by_cases h : 56 ≤ i
  · simp [h, hi]; intros; omega
  · have hb : b.toNat < 2 ^ 8 := UInt8.toNat_lt _
    have : b.toNat.testBit (64 - 1 - i) = false :=
      Nat.testBit_lt_two_pow (Nat.lt_of_lt_of_le hb (Nat.pow_le_pow_right (by omega) (by omega)))
    rw [this]; simp [h]

theorem byte_fits (b : UInt8) : Fits 8 (BitVec.ofNat 64 b.toNat) := by
  intro i hi
  rw [byte_msb _ _ (by omega)]; simp; omega

theorem byte_valBits (b : UInt8) : valBits 8 (BitVec.ofNat 64 b.toNat) = Spec.byteBits b := by
  apply List.map_congr_left
  intro i hi
  rw [List.mem_range] at hi
  rw [byte_msb _ _ (by omega)]
  simp
  congr 1; omega

theorem byte_shr (b : UInt8) {m : Nat} (hm : m ≤ 8) :
    Fits m (BitVec.ofNat 64 b.toNat >>> (8 - m)) ∧
    valBits m (BitVec.ofNat 64 b.toNat >>> (8 - m)) = (Spec.byteBits b).take m := by
  have hbit : ∀ i, i < 64 → (BitVec.ofNat 64 b.toNat >>> (8 - m)).getMsbD i =
      (decide (64 - m ≤ i) && b.toNat.testBit (63 - (i - (8 - m)))) := by
    intro i hi
    rw [BitVec.getMsbD_ushiftRight]
    by_cases h : i < 8 - m
    · simp [h, show ¬ 64 - m ≤ i by omega]
    · rw [byte_msb _ _ (by omega)]
      simp [h, hi]
      by_cases h2 : 64 - m ≤ i
      · simp [show 56 ≤ i - (8 - m) by omega]; intros; omega
      · simp [show ¬ 56 ≤ i - (8 - m) by omega]; intros; omega
  constructor
  · intro i hi
    rw [hbit i (by omega)]; simp; omega
  · unfold valBits Spec.byteBits
    rw [← List.map_take, List.take_range, Nat.min_eq_left hm]
    apply List.map_congr_left
    intro i hi
    rw [List.mem_range] at hi
    rw [hbit _ (by omega)]
    simp
    congr 1; omega

open BitvectorSuffix

theorem realBytes_spec (key : Key) (level n : Nat) (hn : n ≤ 8) (hk : level + n ≤ key.length) :
    Fits (8 * n) (realBytes key level n) ∧
    valBits (8 * n) (realBytes key level n) = Spec.bits ((key.drop level).take n) := by
  induction n with
  | zero => exact ⟨fun i _ => by simp [realBytes], by simp [valBits, Spec.bits]⟩
  | succ n ih =>
    obtain ⟨h1, h2⟩ := ih (by omega) (by omega)
    obtain ⟨_, h4, h5⟩ := h1.shl_add (m := 8) (by omega) (byte_fits (key.getD (level + n) 0))
    rw [realBytes]
    refine ⟨by rwa [show 8 * (n + 1) = 8 * n + 8 by omega], ?_⟩
    rw [show 8 * (n + 1) = 8 * n + 8 by omega, h5, h2, byte_valBits]
    have : (key.drop level).take (n + 1) = (key.drop level).take n ++ [key.getD (level + n) 0] := by
      rw [List.take_add_one, List.getElem?_drop]
      simp [List.getD, show level + n < key.length by omega]
    rw [this]; simp [Spec.bits]

theorem bits_length (k : Key) : (Spec.bits k).length = 8 * k.length := by
  induction k with
  | nil => rfl
  | cons b k ih =>
    have : Spec.bits (b :: k) = Spec.byteBits b ++ Spec.bits k := by simp [Spec.bits]
    rw [this, List.length_append, ih]; simp [Spec.byteBits]; omega

theorem bits_append (a b : Key) : Spec.bits (a ++ b) = Spec.bits a ++ Spec.bits b := by simp [Spec.bits]

/-- `constructRealSuffix` delivers the `len` bits of the key starting at byte `level`, or zero when the
key is too short. -/
theorem constructRealSuffix_spec (key : Key) (level len : Nat) (hlen : len ≤ 64) :
    Fits len (constructRealSuffix key level len) ∧
    (level ≤ key.length → len ≤ 8 * (key.length - level) →
      valBits len (constructRealSuffix key level len) = (Spec.bits (key.drop level)).take len) := by
  unfold constructRealSuffix
  by_cases hsh : key.length < level ∨ (key.length - level) * 8 < len
  · rw [if_pos hsh]
    exact ⟨fun i _ => by simp, fun h1 h2 => by omega⟩
  · rw [if_neg hsh]
    dsimp only
    obtain ⟨h1, h2⟩ := realBytes_spec key level (len / 8) (by omega) (by omega)
    by_cases ho : len % 8 > 0
    · rw [if_pos ho]
      obtain ⟨h3, h4⟩ := byte_shr (key.getD (level + len / 8) 0) (m := len % 8) (by omega)
      obtain ⟨_, h5, h6⟩ := h1.shl_add (by omega) h3
      have e : 8 * (len / 8) + len % 8 = len := by omega
      rw [e] at h5 h6
      refine ⟨h5, fun _ _ => ?_⟩
      rw [h6, h2, h4]
      have hd : (key.drop level) = (key.drop level).take (len / 8) ++
          key.getD (level + len / 8) 0 :: (key.drop level).drop (len / 8 + 1) := by
        conv_lhs => rw [← List.take_append_drop (len / 8) (key.drop level)]
        congr 1
        rw [List.drop_drop, List.drop_drop, List.drop_eq_getElem_cons (by omega)]
        simp [List.getD, show level + len / 8 < key.length by omega, Nat.add_assoc]
      conv_rhs => rw [hd]
      rw [bits_append]
      have hl : (Spec.bits ((key.drop level).take (len / 8))).length = 8 * (len / 8) := by
        rw [bits_length, List.length_take, List.length_drop]; omega
      rw [take_append_ge (by omega), hl, show len - 8 * (len / 8) = len % 8 by omega]
      congr 1
      have hc : ∀ (b : UInt8) t, Spec.bits (b :: t) = Spec.byteBits b ++ Spec.bits t := by
        intro b t; simp [Spec.bits]
      rw [hc, List.take_append, show (Spec.byteBits (key.getD (level + len / 8) 0)).length = 8 by simp [Spec.byteBits]]
      simp [show len % 8 - 8 = 0 by omega]
    · rw [if_neg ho]
      have e : 8 * (len / 8) = len := by omega
      rw [e] at h1 h2
      refine ⟨h1, fun _ _ => ?_⟩
      rw [h2]
      conv_rhs => rw [← List.take_append_drop (len / 8) (key.drop level), bits_append]
      have hl : (Spec.bits ((key.drop level).take (len / 8))).length = len := by
        rw [bits_length, List.length_take, List.length_drop]; omega
      rw [take_append_ge (by omega), hl]; simp

theorem constructRealSuffix_short (key : Key) (level len : Nat)
    (h : key.length < level ∨ (key.length - level) * 8 < len) :
    constructRealSuffix key level len = 0 := by
  unfold constructRealSuffix; rw [if_pos h]

/-- Values of equal width with equal bits are equal. -/
theorem Fits.ext {L : Nat} {a b : Word} (ha : Fits L a) (hb : Fits L b) (hL : L ≤ 64)
    (h : valBits L a = valBits L b) : a = b := by
  apply BitVec.eq_of_getMsbD_eq
  intro i hi
  by_cases h1 : i < 64 - L
  · rw [ha i h1, hb i h1]
  · have h2 := valBits_getD (L := L) (w := a) (i := i - (64 - L)) (by omega)
    have h3 := valBits_getD (L := L) (w := b) (i := i - (64 - L)) (by omega)
    rw [h, h3] at h2
    rw [show 64 - L + (i - (64 - L)) = i by omega] at h2
    exact h2.symm

end

/-- The hash suffix fits and depends on the key only. -/
theorem constructHashSuffix_ok (hs : Env.strict = false) (key : Key) {len : Nat} (h1 : 1 ≤ len) (h2 : len ≤ 64) :
    ∃ w, BitvectorSuffix.constructHashSuffix key len = .ok w ∧ Fits len w := by
  unfold BitvectorSuffix.constructHashSuffix
  have hsub : sub32 64 len = 64 - len := sub32_eq h2 (by decide)
  obtain ⟨x, hx⟩ : ∃ x, shlW ((suffixHash key).setWidth 64) (sub32 (sub32 64 len) kHashShift) = .ok x := by
    unfold shlW
    split
    · exact ⟨_, rfl⟩
    · simp [hs]
  dsimp only
  rw [hx, ok_bind, hsub, shrW, if_pos (by omega)]
  refine ⟨_, rfl, ?_⟩
  intro i hi
  rw [BitVec.getMsbD_ushiftRight]; simp [hi]

/-- A configuration whose suffixes are usable: total length at most 64 bits and, unless there are no
suffixes at all, at least one bit (of hash, for hashed kinds). -/
def Config.Ok (c : Config) : Prop :=
  c.hashLen + c.realLen ≤ 64 ∧
  match c.suffixType with
  | .kNone => True
  | .kHash => 1 ≤ c.hashLen
  | .kReal => 1 ≤ c.hashLen + c.realLen
  | .kMixed => 1 ≤ c.hashLen

theorem constructSuffix_ok {c : Config} (hs : Env.strict = false ∨ c.suffixType = .kReal) (hc : c.Ok) (key : Key) (level : Nat) :
    ∃ w, BitvectorSuffix.constructSuffix c.suffixType key c.hashLen level c.realLen = .ok w ∧
      Fits (c.hashLen + c.realLen) w := by
  obtain ⟨h64, hc⟩ := hc
  unfold BitvectorSuffix.constructSuffix
  cases ht : c.suffixType with
  | kNone => exact ⟨0, rfl, fun i _ => by simp⟩
  | kHash =>
    rw [ht] at hc
    obtain ⟨w, h1, h2⟩ := constructHashSuffix_ok (hs.resolve_right (by rw [ht]; simp)) key hc (by omega)
    exact ⟨w, h1, h2.mono (by omega)⟩
  | kReal =>
    rw [ht] at hc
    refine ⟨_, rfl, ?_⟩
    exact (constructRealSuffix_spec key level c.realLen (by omega)).1.mono (by omega)
  | kMixed =>
    rw [ht] at hc
    obtain ⟨w, h1, h2⟩ := constructHashSuffix_ok (hs.resolve_right (by rw [ht]; simp)) key hc (by omega)
    dsimp only [BitvectorSuffix.constructMixedSuffix]
    rw [h1, ok_bind, shlW, if_pos (by omega), ok_bind]
    obtain ⟨h3, h4, _⟩ := h2.shl_add h64 (constructRealSuffix_spec key level c.realLen (by omega)).1
    refine ⟨_, rfl, ?_⟩
    rw [← h3]; exact h4

end Surf
