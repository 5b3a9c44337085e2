import Verif.Proof.Compare
import Mathlib.Data.Nat.Bitwise

/-!
# Seeking in terms of keys
-/

set_option autoImplicit false
set_option linter.unusedSectionVars false

namespace Surf
open Trie

/-! ## Order of suffixes -/

theorem exists_bit_of_lt {n m : Nat} (h : n < m) :
    ∃ i, n.testBit i = false ∧ m.testBit i = true ∧ ∀ j, i < j → n.testBit j = m.testBit j := by
  have hne : n ^^^ m ≠ 0 := fun hc => by
    rw [Nat.xor_eq_zero_iff] at hc
    omega
  obtain ⟨i, h1, h2⟩ := Nat.exists_most_significant_bit hne
  rw [Nat.testBit_xor] at h1
  have h3 : ∀ j, i < j → n.testBit j = m.testBit j := by
    intro j hj
    have := h2 j hj
    rw [Nat.testBit_xor] at this
    simpa using this
  cases hn : n.testBit i
  · rw [hn] at h1
    exact ⟨i, hn, by simpa using h1, h3⟩
  · rw [hn] at h1
    have hm : m.testBit i = false := by simpa using h1
    have := Nat.lt_of_testBit i hm hn fun j hj => (h3 j hj).symm
    omega

/-- The first bit in which two bit strings differ decides. -/
def BitLT (a b : List Bool) : Prop := ∃ i, i < a.length ∧ i < b.length ∧ a.getD i false = false ∧ b.getD i false = true ∧
  ∀ j, j < i → a.getD j false = b.getD j false

theorem valBits_lt {L : Nat} (hL : L ≤ 64) {v u : Word} (hu : Fits L u) (h : v < u) :
    BitLT (valBits L v) (valBits L u) := by
  obtain ⟨i, h1, h2, h3⟩ := exists_bit_of_lt (BitVec.lt_def.1 h)
  have hi64 : i < 64 := by
    by_contra hc
    have : u.toNat.testBit i = false := Nat.testBit_lt_two_pow (lt_of_lt_of_le u.isLt (Nat.pow_le_pow_right (by omega) (by omega)))
    rw [this] at h2; cases h2
  have hg : ∀ (w : Word) j, j < 64 → w.getMsbD (63 - j) = w.toNat.testBit j := by
    intro w j hj
    rw [BitVec.getMsbD_eq_getLsbD, decide_eq_true (by omega), Bool.true_and, BitVec.getLsbD]
    congr 1; omega
  have hiL : i < L := by
    by_contra hc
    have := hu (63 - i) (by omega)
    rw [hg u i hi64, h2] at this; cases this
  refine ⟨L - 1 - i, by simp; omega, by simp; omega, ?_, ?_, fun j hj => ?_⟩
  · rw [valBits_getD (by omega), show 64 - L + (L - 1 - i) = 63 - i by omega, hg _ _ hi64, h1]
  · rw [valBits_getD (by omega), show 64 - L + (L - 1 - i) = 63 - i by omega, hg _ _ hi64, h2]
  · rw [valBits_getD (by omega), valBits_getD (by omega), show 64 - L + j = 63 - (L - 1 - j) by omega, hg _ _ (by omega),
      hg _ _ (by omega)]
    exact h3 _ (by omega)

theorem bits_lt (a b : Key) (h : BitLT (Spec.bits a) (Spec.bits b)) : a < b := by
  have hlen : ∀ x : UInt8, (Spec.byteBits x).length = 8 := fun x => by simp [Spec.byteBits]
  have hget : ∀ (x : UInt8) i, i < 8 → (Spec.byteBits x).getD i false = x.toNat.testBit (7 - i) := by
    intro x i hi
    simp [Spec.byteBits, List.getD, hi]
  induction a generalizing b with
  | nil => obtain ⟨i, h1, -⟩ := h; simp [Spec.bits] at h1
  | cons x a ih =>
    cases b with
    | nil => obtain ⟨i, -, h1, -⟩ := h; simp [Spec.bits] at h1
    | cons y b =>
      obtain ⟨i, h1, h2, h3, h4, h5⟩ := h
      have e1 : ∀ (z : UInt8) (c : Key), Spec.bits (z :: c) = Spec.byteBits z ++ Spec.bits c := fun z c => by simp [Spec.bits]
      rw [e1] at h1 h3 h5
      rw [e1] at h2 h4
      rw [e1] at h5
      have hl : ∀ (z : UInt8) (c : List Bool) j, j < 8 → (Spec.byteBits z ++ c).getD j false = z.toNat.testBit (7 - j) := by
        intro z c j hj
        rw [List.getD, List.getElem?_append_left (by rw [hlen]; exact hj), ← hget z j hj]
        rfl
      have hr : ∀ (z : UInt8) (c : List Bool) j, (Spec.byteBits z ++ c).getD (8 + j) false = c.getD j false := by
        intro z c j
        rw [List.getD, List.getElem?_append_right (by rw [hlen]; omega), hlen]
        rw [show 8 + j - 8 = j by omega]
        rfl
      rw [List.cons_lt_cons_iff]
      by_cases hi : i < 8
      · left
        rw [hl _ _ _ hi] at h3 h4
        rw [UInt8.lt_iff_toNat_lt]
        refine Nat.lt_of_testBit (7 - i) h3 h4 fun j hj => ?_
        by_cases hj8 : j < 8
        · have := h5 (7 - j) (by omega)
          rw [hl _ _ _ (by omega), hl _ _ _ (by omega), show 7 - (7 - j) = j by omega] at this
          exact this
        · rw [Nat.testBit_lt_two_pow (lt_of_lt_of_le x.toNat_lt (Nat.pow_le_pow_right (n := 2) (by omega) (show 8 ≤ j by omega))),
            Nat.testBit_lt_two_pow (lt_of_lt_of_le y.toNat_lt (Nat.pow_le_pow_right (n := 2) (by omega) (show 8 ≤ j by omega)))]
      · right
        have hxy : x = y := by
          apply UInt8.toNat_inj.1
          apply Nat.eq_of_testBit_eq
          intro j
          by_cases hj8 : j < 8
          · have := h5 (7 - j) (by omega)
            rw [hl _ _ _ (by omega), hl _ _ _ (by omega), show 7 - (7 - j) = j by omega] at this
            exact this
          · rw [Nat.testBit_lt_two_pow (lt_of_lt_of_le x.toNat_lt (Nat.pow_le_pow_right (n := 2) (by omega) (show 8 ≤ j by omega))),
              Nat.testBit_lt_two_pow (lt_of_lt_of_le y.toNat_lt (Nat.pow_le_pow_right (n := 2) (by omega) (show 8 ≤ j by omega)))]
        refine ⟨hxy, ih b ⟨i - 8, ?_, ?_, ?_, ?_, fun j hj => ?_⟩⟩
        · rw [List.length_append, hlen] at h1; omega
        · rw [List.length_append, hlen] at h2; omega
        · rw [show i = 8 + (i - 8) by omega, hr] at h3; exact h3
        · rw [show i = 8 + (i - 8) by omega, hr] at h4; exact h4
        · have := h5 (8 + j) (by omega)
          rw [hr, hr] at this; exact this

theorem BitLT.of_take {a b : List Bool} {n : Nat} (h : BitLT (a.take n) (b.take n)) : BitLT a b := by
  obtain ⟨i, h1, h2, h3, h4, h5⟩ := h
  rw [List.length_take] at h1 h2
  have hg : ∀ (c : List Bool) j, j < n → (c.take n).getD j false = c.getD j false := by
    intro c j hj
    rw [List.getD, List.getElem?_take_of_lt hj]; rfl
  refine ⟨i, by omega, by omega, ?_, ?_, fun j hj => ?_⟩
  · rw [hg _ _ (by omega)] at h3; exact h3
  · rw [hg _ _ (by omega)] at h4; exact h4
  · have := h5 j hj
    rw [hg _ _ (by omega), hg _ _ (by omega)] at this; exact this

/-- Real suffixes that are present are ordered like the rest of the keys. -/
theorem real_lt {n : Nat} (hn : n ≤ 64) {a b : Key} {l : Nat} (ha : l ≤ a.length ∧ n ≤ 8 * (a.length - l))
    (hb : l ≤ b.length ∧ n ≤ 8 * (b.length - l))
    (h : BitvectorSuffix.constructRealSuffix a l n < BitvectorSuffix.constructRealSuffix b l n) : a.drop l < b.drop l := by
  obtain ⟨-, ea⟩ := constructRealSuffix_spec a l n hn
  obtain ⟨fb, eb⟩ := constructRealSuffix_spec b l n hn
  have := valBits_lt hn fb h
  rw [ea (by omega) (by omega), eb (by omega) (by omega)] at this
  exact bits_lt _ _ this.of_take

variable [Env] {cfg : Config} {keys : List Key}

/-- A query that passes the check of a stored suffix and is still greater in the comparison: the
suffix is a real one of zeros only. -/
theorem passes_neg (hs : Env.strict = false) (hok : cfg.Ok) (k q : Key) (l : Nat)
    (hp : passes cfg (sfxOf cfg k l) q l = true) (hneg : cmpW cfg (sfxOf cfg k l) q l = -1) :
    cfg.suffixType = .kReal ∧ Spec.realSuffix0 cfg.realLen k l = List.replicate cfg.realLen false := by
  have hinj : ∀ {a b : Int}, (Except.ok a : R Int) = .ok b → b = a := fun h => by cases h; rfl
  have h64 : cfg.realLen ≤ 64 := by have := hok.1; omega
  have hc := cmpR_ok (cfg := cfg) hs (sfxOf cfg k l) q l
  rw [hneg] at hc
  unfold cmpR at hc
  by_cases e0 : cfg.suffixType = .kNone ∨ cfg.suffixType = .kHash
  · rw [if_pos e0] at hc
    have := hinj hc
    exact absurd this (by decide)
  rw [if_neg e0] at hc
  dsimp only at hc
  by_cases hn : cfg.suffixType = .kReal
  · refine ⟨hn, ?_⟩
    have e1 : ¬ cfg.suffixType = .kMixed := by simp [hn]
    have e2 : sfxOf cfg k l = BitvectorSuffix.constructRealSuffix k l cfg.realLen := by
      unfold sfxOf BitvectorSuffix.constructSuffix
      rw [hn]; rfl
    rcases (passes_real hok hn k q l).1 hp with h1 | ⟨b, h1, h2⟩
    · exact h1
    · exfalso
      have h3 : BitvectorSuffix.constructRealSuffix k l cfg.realLen = BitvectorSuffix.constructRealSuffix q l cfg.realLen := by
        rw [real_inj h64]
        unfold Spec.realSuffix0
        rw [h1, h2]
      rw [if_neg e1, e2, h3] at hc
      change (if _ then _ else _) = _ at hc
      split at hc
      · have := hinj hc; exact absurd this (by decide)
      · rename_i h4
        rw [if_neg (by
          rintro (h5 | h5)
          · exact h4 ⟨h5, h5⟩
          · exact absurd h5 (by rw [BitVec.lt_def]; omega)), if_pos rfl] at hc
        have := hinj hc; exact absurd this (by decide)
  · exfalso
    have hm : cfg.suffixType = .kMixed := by cases ht : cfg.suffixType <;> simp_all
    have h1 := hok.2
    have h2 := hok.1
    rw [hm] at h1
    rw [passes_eq hs hok (by simp [hm]) hn, beq_iff_eq] at hp
    rw [if_pos hm, hp, sfxOf_real hs hok (Or.inr hm) (by dsimp only at h1; omega) q l, ok_bind] at hc
    change (if _ then _ else _) = _ at hc
    split at hc
    · have := hinj hc; exact absurd this (by decide)
    · rename_i h4
      rw [if_neg (by
        rintro (h5 | h5)
        · exact h4 ⟨h5, h5⟩
        · exact absurd h5 (by rw [BitVec.lt_def]; omega)), if_pos rfl] at hc
      have := hinj hc; exact absurd this (by decide)

/-- What comparing suffixes says about the keys. -/
theorem Setting.cmp (h : Setting cfg keys) (hs : Env.strict = false) {k q : Key} (hm : Spec.Matches keys k q)
    (hq : cfg.suffixType = .kReal ∨ cfg.suffixType = .kMixed → Spec.SuffixFair cfg.realLen keys q) :
    (cmpW cfg (sfxOf cfg k (Spec.cut keys k)) q (Spec.cut keys k) = -1 → k < q) ∧
    (cmpW cfg (sfxOf cfg k (Spec.cut keys k)) q (Spec.cut keys k) = 1 → q < k) := by
  have hl := h.leaf_mem hm.1
  have hpw := (leaf_match h.wf h.sorted hl).2 hm
  have hlen := leaf_length h.wf h.sorted hl
  have hcp := Spec.cut keys k
  have hself : Spec.Matches keys k k := ⟨hm.1, Or.inl rfl⟩
  set l := Spec.cut keys k with hldef
  have hleaf : leafOf keys k = (w k).take l := rfl
  by_cases hn : cfg.suffixType = .kReal ∨ cfg.suffixType = .kMixed
  swap
  · have : cmpW cfg (sfxOf cfg k l) q l = kCouldBePositive := by
      have h1 : cfg.suffixType = .kNone ∨ cfg.suffixType = .kHash := by
        cases hc : cfg.suffixType <;> simp_all
      unfold cmpW cmpR
      rw [if_pos h1]
    rw [this]
    exact ⟨fun hc => absurd hc (by decide), fun hc => absurd hc (by decide)⟩
  have h64 : cfg.realLen ≤ 64 := by have := h.ok.1; omega
  obtain ⟨hwk, hwq⟩ := hq hn k hm
  rw [← hldef] at hwk hwq
  -- the value compared
  have hval : (if cfg.suffixType = .kMixed then BitvectorSuffix.extractRealSuffix (sfxOf cfg k l) cfg.realLen
      else (pure (sfxOf cfg k l) : R Word)) = .ok (BitvectorSuffix.constructRealSuffix k l cfg.realLen) := by
    rcases hn with hn | hn
    · rw [if_neg (by simp [hn])]
      unfold sfxOf BitvectorSuffix.constructSuffix
      rw [hn]
      rfl
    · rw [if_pos hn]
      have h1 := h.ok.2
      have h2 := h.ok.1
      rw [hn] at h1
      exact sfxOf_real hs h.ok (Or.inr hn) (by dsimp only at h1; omega) k l
  have hc := cmpR_ok (cfg := cfg) hs (sfxOf cfg k l) q l
  have hc : (if BitvectorSuffix.constructRealSuffix k l cfg.realLen = 0 ∧ BitvectorSuffix.constructRealSuffix q l cfg.realLen = 0 then
        (.ok kCouldBePositive : R Int)
      else if BitvectorSuffix.constructRealSuffix k l cfg.realLen = 0 ∨
        BitvectorSuffix.constructRealSuffix k l cfg.realLen < BitvectorSuffix.constructRealSuffix q l cfg.realLen then .ok (-1)
      else if BitvectorSuffix.constructRealSuffix k l cfg.realLen = BitvectorSuffix.constructRealSuffix q l cfg.realLen then
        .ok kCouldBePositive
      else .ok 1) = .ok (cmpW cfg (sfxOf cfg k l) q l) := by
    rw [← hc]
    symm
    unfold cmpR
    have e0 : ¬ (cfg.suffixType = .kNone ∨ cfg.suffixType = .kHash) := by rcases hn with hn | hn <;> simp [hn]
    rw [if_neg e0]
    dsimp only
    rcases hn with hn | hn
    · have e1 : ¬ cfg.suffixType = .kMixed := by simp [hn]
      rw [if_neg e1] at hval
      rw [if_neg e1, hval, ok_bind]
      rfl
    · rw [if_pos hn] at hval
      rw [if_pos hn, hval, ok_bind]
      rfl
  have hinj : ∀ {a b : Int}, (Except.ok a : R Int) = .ok b → b = a := fun h => by cases h; rfl
  have hshort := fun (x : Key) => constructRealSuffix_short x l cfg.realLen
  -- both keys share the first l bytes when k has them
  have hpre : l ≤ k.length → k.take l <+: q := by
    intro hle
    have : leafOf keys k = syms (k.take l) := by
      rw [hleaf, w_eq, List.take_append_of_le_length (by simpa using hle), syms_take]
    rw [this] at hpw
    exact syms_prefix_w.1 hpw
  have hsplit : l ≤ k.length → l ≤ q.length ∧ q = k.take l ++ q.drop l ∧ k = k.take l ++ k.drop l := by
    intro hle
    have h1 := hpre hle
    have h2 := h1.length_le
    rw [List.length_take, Nat.min_eq_left hle] at h2
    refine ⟨h2, ?_, (List.take_append_drop _ _).symm⟩
    obtain ⟨r, hr⟩ := h1
    rw [← hr, List.drop_append_of_le_length (by simp [hle]), List.drop_of_length_le (by simp)]
    simp
  constructor
  · intro hneg
    rw [hneg] at hc
    have hlt : BitvectorSuffix.constructRealSuffix k l cfg.realLen < BitvectorSuffix.constructRealSuffix q l cfg.realLen := by
      split at hc
      · have := hinj hc; exact absurd this (by decide)
      · rename_i h1
        split at hc
        · rename_i h2
          rcases h2 with h2 | h2
          · rw [h2] at h1 ⊢
            have h3 : BitvectorSuffix.constructRealSuffix q l cfg.realLen ≠ 0 := fun hc => h1 ⟨rfl, hc⟩
            rw [BitVec.lt_def]
            have h4 : (BitvectorSuffix.constructRealSuffix q l cfg.realLen).toNat ≠ 0 := fun hc => h3 (BitVec.eq_of_toNat_eq hc)
            change 0 < _
            omega
          · exact h2
        · split at hc
          · have := hinj hc; exact absurd this (by decide)
          · have := hinj hc; exact absurd this (by decide)
    have hq0 : ¬ (q.length < l ∨ (q.length - l) * 8 < cfg.realLen) := fun hc => by
      rw [hshort q hc, BitVec.lt_def] at hlt
      exact absurd hlt (Nat.not_lt_zero _)
    by_cases hk0 : k.length < l ∨ (k.length - l) * 8 < cfg.realLen
    · by_cases hkl : k.length ≤ l
      swap
      · rcases hwk (by omega) (by omega) with hc | hc
        · exact absurd hc hkl
        · exact hc
      have hr0 : cfg.realLen ≠ 0 := by
        intro h0
        rw [h0] at hlt
        unfold BitvectorSuffix.constructRealSuffix at hlt
        rw [BitVec.lt_def] at hlt
        rw [if_neg (show ¬ (q.length < l ∨ (q.length - l) * 8 < 0) by omega)] at hlt
        simp [BitvectorSuffix.realBytes] at hlt
      have hlk : l ≤ k.length := by
        by_contra hlt'
        have hle : leafOf keys k = w k := by
          rw [hleaf, List.take_of_length_le (by simp [w_eq]; omega)]
        rw [hle] at hpw
        have := leaf_zero (k := q) hpw (by simp [w_eq])
        have := w_inj this
        subst this
        omega
      obtain ⟨h1, h2, h3⟩ := hsplit hlk
      have hke : k.drop l = [] := List.drop_of_length_le (by omega)
      rw [h2]
      conv_lhs => rw [h3]
      apply List.append_left_lt
      rw [hke]
      cases hd : q.drop l with
      | nil =>
        have := congrArg List.length hd
        rw [List.length_drop] at this
        simp at this; omega
      | cons a b => simp
    · obtain ⟨h1, h2, h3⟩ := hsplit (by omega)
      rw [h2]
      conv_lhs => rw [h3]
      exact List.append_left_lt (real_lt h64 (by omega) (by omega) hlt)
  · intro hpos
    rw [hpos] at hc
    have hlt : BitvectorSuffix.constructRealSuffix q l cfg.realLen < BitvectorSuffix.constructRealSuffix k l cfg.realLen := by
      split at hc
      · have := hinj hc; exact absurd this (by decide)
      · split at hc
        · have := hinj hc; exact absurd this (by decide)
        · rename_i h2
          split at hc
          · have := hinj hc; exact absurd this (by decide)
          · rename_i h3
            rw [BitVec.lt_def]
            have h4 : ¬ (BitvectorSuffix.constructRealSuffix k l cfg.realLen).toNat <
              (BitvectorSuffix.constructRealSuffix q l cfg.realLen).toNat := fun hc => h2 (Or.inr (BitVec.lt_def.2 hc))
            have h5 : (BitvectorSuffix.constructRealSuffix k l cfg.realLen).toNat ≠
              (BitvectorSuffix.constructRealSuffix q l cfg.realLen).toNat := fun hc => h3 (BitVec.eq_of_toNat_eq hc)
            omega
    have hk0 : ¬ (k.length < l ∨ (k.length - l) * 8 < cfg.realLen) := fun hc => by
      rw [hshort k hc, BitVec.lt_def] at hlt
      exact absurd hlt (Nat.not_lt_zero _)
    obtain ⟨h1, h2, h3⟩ := hsplit (by omega)
    by_cases hqp : (q.length - l) * 8 < cfg.realLen ∧ l < q.length
    · rcases hwq (by omega) (by omega) with hc | hc
      · omega
      · exact hc
    rw [h2]
    conv_rhs => rw [h3]
    apply List.append_left_lt
    by_cases hq0 : (q.length - l) * 8 < cfg.realLen
    · have hqe : q.drop l = [] := List.drop_of_length_le (by omega)
      rw [hqe]
      cases hd : k.drop l with
      | nil =>
        have := congrArg List.length hd
        rw [List.length_drop] at this
        simp at this; omega
      | cons a b => simp
    · exact real_lt h64 (by omega) (by omega) hlt

/-! ## Where a seek ends, in terms of keys -/

omit [Env] in
theorem Setting.leaf_pre (_ : Setting cfg keys) {k : Key} (_ : k ∈ keys) : leafOf keys k <+: w k := List.take_prefix _ _

omit [Env] in
/-- A leaf smaller than a string it is no prefix of belongs to a key below all extensions. -/
theorem Setting.key_lt (h : Setting cfg keys) {k q : Key} {p : Str} (hk : k ∈ keys) (hp : p <+: w q) (hlt : leafOf keys k < p)
    (hn : ¬ leafOf keys k <+: p) : k < q := by
  obtain ⟨r, hr⟩ := h.leaf_pre hk
  obtain ⟨r', hr'⟩ := hp
  have := append_lt hlt hn r
  rw [hr] at this
  rw [← w_lt, ← hr']
  exact lt_of_lt_of_le this (le_append _ _)

omit [Env] in
/-- A leaf behind the leaves below `p` belongs to a greater key. -/
theorem Setting.lt_key (h : Setting cfg keys) {k q : Key} {p : Str} (hk : k ∈ keys) (hp : p <+: w q) (hlt : p < leafOf keys k)
    (hn : ¬ p <+: leafOf keys k) : q < k := by
  obtain ⟨r, hr⟩ := hp
  obtain ⟨r', hr'⟩ := h.leaf_pre hk
  have := append_lt hlt hn r
  rw [hr] at this
  rw [← w_lt, ← hr']
  exact lt_of_lt_of_le this (le_append _ _)

omit [Env] in
theorem Setting.leaf_whole (h : Setting cfg keys) {k q : Key} (hk : k ∈ keys) (e : leafOf keys k = w q) : k = q :=
  (w_pf (e ▸ h.leaf_pre hk)).symm

omit [Env] in
theorem above_irrefl {q k : Key} {incl : Bool} (h : Spec.Above q incl k) : ¬ k < q := by
  rcases h with h | ⟨-, rfl⟩
  · intro hc
    rw [← w_lt] at h hc
    exact lt_asymm h hc
  · intro hc
    rw [← w_lt] at hc
    exact lt_irrefl _ hc

/-- Suffixes do not mislead comparisons with `q`. -/
def Whole (cfg : Config) (keys : List Key) (q : Key) : Prop :=
  cfg.suffixType = .kReal ∨ cfg.suffixType = .kMixed → Spec.SuffixFair cfg.realLen keys q

omit [Env] in
/-- A missing branch below the last node, in terms of the keys. -/
theorem Setting.leavesLast (h : Setting cfg keys) {s : Nat} (hs1 : 1 ≤ s) {q : Key} {x : Str} {b : Nat} {A : List Str}
    (hA : snodes (leafStrs keys) s = A ++ [x]) (hp : x ++ [b + 1] <+: w q) (he : ex (leafStrs keys) (x ++ [b + 1]) = false) :
    ∃ p c, x = syms p ∧ Spec.LeavesAt keys q p c ∧ s ≤ p.length ∧ Spec.LastShared keys p := by
  have hx : isInt (leafStrs keys) x = true := x_int hA
  have hsx : s ≤ x.length := (mem_nodesR.1 (show x ∈ snodes (leafStrs keys) s by rw [hA]; simp)).1
  have hxs : x ++ [b + 1] <+: syms q := by
    rw [w_eq] at hp
    refine List.prefix_of_prefix_length_le hp (List.prefix_append _ _) ?_
    by_contra hc
    have h1 : (x ++ [b + 1]).length = (syms q ++ [0]).length := by
      have := hp.length_le
      simp only [List.length_append, List.length_singleton] at this hc ⊢
      omega
    have h2 := hp.eq_of_length h1
    have := congrArg List.getLast? h2
    simp at this
  obtain ⟨p, rfl, hsh⟩ := node_shared h.wf h.sorted hx (fun hc => by rw [hc, List.length_nil] at hsx; omega)
  have hpl : p.length < q.length := by
    have := hxs.length_le
    simp [syms_length] at this
    omega
  have hpq : p = q.take p.length := by
    have := (List.prefix_append _ _).trans hxs
    have e := List.prefix_iff_eq_take.1 this
    rw [syms_length, ← syms_take] at e
    exact syms_inj e
  have hsnoc : q.take (p.length + 1) = p ++ [q.getD p.length 0] := by
    rw [List.take_succ_eq_append_getElem hpl, ← hpq]
    simp [List.getD, hpl]
  have hb : b + 1 = (q.getD p.length 0).toNat + 1 := by
    have e := List.prefix_iff_eq_take.1 hxs
    rw [List.length_append, List.length_singleton, syms_length, ← syms_take, hsnoc] at e
    have e2 : syms (p ++ [q.getD p.length 0]) = syms p ++ [(q.getD p.length 0).toNat + 1] := by simp [syms]
    rw [e2] at e
    simpa using e
  have hlast : Spec.LastShared keys p := by
    refine ⟨hsh, fun p' hp' => ?_⟩
    have := last_node h.wf hA (shared_int h.sorted hp')
    rw [syms_length, syms_length] at this
    rcases this with h4 | ⟨h4, h5⟩
    · exact Or.inl h4
    · right
      refine ⟨h4, fun hlt => ?_⟩
      have : syms p < syms p' := by
        have := w_lt.2 hlt
        rw [w_eq, w_eq] at this
        rcases lt_trichotomy (syms p) (syms p') with h6 | h6 | h6
        · exact h6
        · rw [h6] at this; exact absurd this (lt_irrefl _)
        · exact absurd (lt_append_of_lt (a := [0]) (b := [0]) (by rw [syms_length, syms_length]; exact h4) h6) (lt_asymm this)
      exact absurd h5 (not_le.2 this)
  refine ⟨p, q.getD p.length 0, rfl, ⟨hsh, hsnoc ▸ List.take_prefix _ _, ?_⟩, by rw [syms_length] at hsx; exact hsx, hlast⟩
  intro k hk hpk
  have h1 : syms p ++ [b + 1] <+: w k := by
    rw [hb]
    have := syms_prefix_w.2 hpk
    simpa [syms] using this
  exact no_leaf h.wf hx h1 he _ (h.mem_ts.2 ⟨k, hk, rfl⟩) (h.leaf_pre hk)

omit [Env] in
theorem Setting.overrun_iff (h : Setting cfg keys) {s : Nat} (hs1 : 1 ≤ s) {p : Key} (hp : isInt (leafStrs keys) (syms p) = true) :
    Overrun (leafStrs keys) s (syms p) ↔ Spec.Overrun keys s p := by
  unfold Overrun
  rw [show (sitems (leafStrs keys) s).length = (Spec.branches keys s).length from items_branches h.wf h.sorted hs1,
    kidItems_degree h.wf hp]
  rfl

omit [Env] in
theorem Setting.seekSafe (h : Setting cfg keys) {s : Nat} (hs1 : 1 ≤ s) {q : Key} (hsafe : Spec.SeekSafe keys s q) :
    ∀ l, s ≤ l → l < q.length → isInt (leafStrs keys) ((syms q).take l) = true →
      ex (leafStrs keys) ((syms q).take (l + 1)) = false → NextOk (leafStrs keys) s ((syms q).take l) (q.getD l 0).toNat := by
  intro l hsl hl hx he
  have hpl : (q.take l).length = l := by simp; omega
  have e1 : (syms q).take l = syms (q.take l) := (syms_take _ _).symm
  have hsnoc : q.take (l + 1) = q.take l ++ [q.getD l 0] := by
    rw [List.take_succ_eq_append_getElem hl]
    simp [List.getD, hl]
  have e2 : (syms q).take (l + 1) = syms (q.take l) ++ [(q.getD l 0).toNat + 1] := by
    rw [← syms_take, hsnoc]
    simp [syms]
  rw [e1] at hx ⊢
  rw [e2] at he
  obtain ⟨p, hp, hsh⟩ := node_shared h.wf h.sorted hx (fun hc => by
    have := congrArg List.length hc
    rw [syms_length, hpl, List.length_nil] at this
    omega)
  have := syms_inj hp
  subst this
  have hpq : q.take l ++ [q.getD l 0] <+: q := hsnoc ▸ List.take_prefix _ _
  have hnok : ∀ k ∈ keys, ¬ q.take l ++ [q.getD l 0] <+: k := by
    intro k hk hpk
    have h1 : syms (q.take l) ++ [(q.getD l 0).toNat + 1] <+: w k := by
      have := syms_prefix_w.2 hpk
      simpa [syms] using this
    exact no_leaf h.wf hx h1 he _ (h.mem_ts.2 ⟨k, hk, rfl⟩) (h.leaf_pre hk)
  have hex : ∀ {c}, ex (leafStrs keys) (syms (q.take l) ++ [c]) = true ↔ ∃ k ∈ keys, syms (q.take l) ++ [c] <+: w k := ex_branch h.wf hx
  have hgo : ∀ {c : UInt8}, Spec.Goes keys (q.take l) c → ex (leafStrs keys) (syms (q.take l) ++ [c.toNat + 1]) = true := by
    rintro c ⟨k, hk, hp⟩
    refine hex.2 ⟨k, hk, ?_⟩
    have := syms_prefix_w.2 hp
    simpa [syms] using this
  have hin : ¬ (Spec.LastShared keys (q.take l) ∧ Spec.Overrun keys s (q.take l)) → InNode (leafStrs keys) s (syms (q.take l)) := by
    intro hno
    by_cases hl : Spec.LastShared keys (q.take l)
    · right
      exact fun ho => hno ⟨hl, (h.overrun_iff hs1 hx).1 ho⟩
    · left
      intro A hA
      obtain ⟨p, hp, hl', -⟩ := last_shared h.wf h.sorted hs1 hA
      exact hl (syms_inj hp ▸ hl')
  rcases hsafe (q.take l) (q.getD l 0) ⟨hsh, hpq, hnok⟩ (by omega) with ⟨h1, h2⟩ | ⟨h1, h2, h3⟩
  · left
    refine ⟨?_, ?_⟩
    · by_contra hc
      obtain ⟨k, hk, hpk⟩ := hex.1 (by simpa using hc)
      have := w_pf (k := q.take l) hpk
      exact h1 (this ▸ hk)
    · rcases h2 with h2 | ⟨h2, h3⟩
      · exact Or.inl (hin h2)
      · right
        refine ⟨fun hc => h2 (UInt8.toNat_inj.1 (by rw [hc]; rfl)), fun c hc => ?_⟩
        by_contra hex'
        obtain ⟨k, hk, hpk⟩ := hex.1 (by simpa using hex')
        have hlt : q < k := by
          rw [← w_lt]
          refine snoc_lt_of_prefix (x := syms (q.take l)) ?_ hpk hc
          have := syms_prefix_w.2 hpq
          simpa [syms] using this
        exact above_irrefl (incl := false) (Or.inl hlt) (h3 k hk (snoc_prefix_w.1 hpk).1)
  · right
    refine ⟨?_, hin h2, ?_⟩
    · exact hex.2 ⟨_, h1, by rw [w_eq]⟩
    · rcases h3 with ⟨c, d, g1, g2, g3, g4⟩ | ⟨g1, ⟨c, g2, g3⟩, d, g4, g5⟩
      · left
        rw [UInt8.lt_iff_toNat_lt] at g1 g2
        exact ⟨_, _, by omega, by omega, hgo g3, hgo g4⟩
      · right
        rw [UInt8.lt_iff_toNat_lt] at g2
        refine ⟨by rw [kidItems_degree h.wf hx]; exact g1, ⟨_, by omega, hgo g3⟩, d.toNat + 1, by omega, ?_, hgo g5⟩
        have h4 := UInt8.toNat_lt d
        have h5 : d.toNat ≠ 255 := fun hc => g4 (UInt8.toNat_inj.1 (by rw [hc]; rfl))
        omega

/-- Where a seek ends, in terms of keys. -/
def SeekKey (cfg : Config) (keys : List Key) (s : Nat) (q : Key) (incl : Bool) (it : Iter) : Prop :=
  (it.couldBeFp = false ∧ it.isValid = false ∧ (∀ k ∈ keys, ¬ Spec.Above q incl k) ∧ q ∉ keys) ∨
  ∃ k ∈ keys, (∀ k' ∈ keys, Spec.Above q incl k' → k ≤ k') ∧
    ((At (leafStrs keys) s it (leafOf keys k) ∧
        ((it.couldBeFp = false ∧ Spec.Above q incl k ∧ ∀ k0, Spec.Matches keys k0 q → k0 = q ∨
            cmpW cfg (sfxOf cfg k0 (Spec.cut keys k0)) q (Spec.cut keys k0) = -1) ∨
         (it.couldBeFp = true ∧ Spec.Matches keys k q) ∨
         (it.couldBeFp = true ∧ q.length < s ∧ q <+: k ∧ q < k))) ∨
     (it.couldBeFp = true ∧ q.length < s ∧ s < Spec.cut keys k ∧ q <+: k ∧ q < k ∧
        DStuck (leafStrs keys) s it.dense (leafOf keys k)))

theorem Setting.seekKeys (h : Setting cfg keys) (hs : Env.strict = false) {s : Nat} {q : Key} {incl : Bool} {it : Iter}
    (hq : Whole cfg keys q)
    (ho : SeekOut cfg (leafStrs keys) (swKeys cfg keys) s q incl it) : SeekKey cfg keys s q incl it := by
  rcases ho with ⟨hfp, p, ⟨hpw, hp0, hpast⟩, hout⟩ | ⟨p, hp, hpw, hat, hfp⟩ | ⟨hx, hwq, t, hl, hout⟩
  · -- beyond p
    have hab : ∀ k' ∈ keys, Spec.Above q incl k' → p < leafOf keys k' ∧ ¬ p <+: leafOf keys k' := by
      intro k' hk' ha
      have hm' := h.mem_ts.2 ⟨k', hk', rfl⟩
      rcases hpast with ⟨he, hno⟩ | ⟨hp, hc⟩ | ⟨hp, hpe, hi⟩
      · have h1 : ¬ p <+: leafOf keys k' := fun hc => by
          rw [ex_iff.2 ⟨_, hm', hc⟩] at he; cases he
        refine ⟨?_, h1⟩
        rcases lt_trichotomy p (leafOf keys k') with h2 | h2 | h2
        · exact h2
        · exact absurd (h2 ▸ List.prefix_refl _) h1
        · exact absurd (h.key_lt hk' hpw h2 (hno _ hm')) (above_irrefl ha)
      · obtain ⟨k0, hk0, rfl⟩ := h.mem_ts.1 hp
        have hm : Spec.Matches keys k0 q := (leaf_match h.wf h.sorted (h.leaf_mem hk0)).1 hpw
        rw [swKeys_leaf h.wf cfg (h.leaf_mem hk0), leaf_length h.wf h.sorted (h.leaf_mem hk0)] at hc
        have hlt := (h.cmp hs hm hq).1 hc
        have hlt' : k0 < k' := by
          rw [← w_lt] at hlt ⊢
          rcases ha with ha | ⟨-, rfl⟩
          · exact lt_trans hlt (w_lt.2 ha)
          · exact hlt
        have h2 := (h.leaf_lt hk0 hk').2 hlt'
        refine ⟨h2, fun hc => ?_⟩
        rw [h.wf.pf _ hp _ hm' hc] at h2
        exact lt_irrefl _ h2
      · obtain ⟨k0, hk0, rfl⟩ := h.mem_ts.1 hp
        have := h.leaf_whole hk0 hpe
        subst this
        rcases ha with ha | ⟨ha, -⟩
        · have h2 := (h.leaf_lt hk0 hk').2 ha
          refine ⟨h2, fun hc => ?_⟩
          rw [h.wf.pf _ hp _ hm' hc] at h2
          exact lt_irrefl _ h2
        · rw [hi] at ha; cases ha
    have hmt : ∀ k0, Spec.Matches keys k0 q → k0 = q ∨
        cmpW cfg (sfxOf cfg k0 (Spec.cut keys k0)) q (Spec.cut keys k0) = -1 := by
      intro k0 hm0
      have hl0 := h.leaf_mem hm0.1
      have hp0 := (leaf_match h.wf h.sorted hl0).2 hm0
      have hts0 := h.mem_ts.2 ⟨k0, hm0.1, rfl⟩
      rcases hpast with ⟨he, hno⟩ | ⟨hp, hc⟩ | ⟨hp, hpe, hi⟩
      · rcases List.prefix_or_prefix_of_prefix hp0 hpw with h1 | h1
        · exact absurd h1 (hno _ hts0)
        · rw [ex_iff.2 ⟨_, hts0, h1⟩] at he; cases he
      · right
        have : p = leafOf keys k0 := by
          rcases List.prefix_or_prefix_of_prefix hp0 hpw with h1 | h1
          · exact (h.wf.pf _ hts0 _ hp h1).symm
          · exact h.wf.pf _ hp _ hts0 h1
        subst this
        rw [swKeys_leaf h.wf cfg hl0, leaf_length h.wf h.sorted hl0] at hc
        exact hc
      · left
        have : p = leafOf keys k0 := by
          rcases List.prefix_or_prefix_of_prefix hp0 hpw with h1 | h1
          · exact (h.wf.pf _ hts0 _ hp h1).symm
          · exact h.wf.pf _ hp _ hts0 h1
        exact h.leaf_whole hm0.1 (this ▸ hpe)
    rcases hout with ⟨hnn, hv⟩ | ⟨t, hnx, hat⟩
    · left
      have hall : ∀ k ∈ keys, ¬ Spec.Above q incl k := fun k' hk' ha => by
        obtain ⟨h1, h2⟩ := hab k' hk' ha
        exact h2 (hnn _ (h.mem_ts.2 ⟨k', hk', rfl⟩) h1)
      refine ⟨hfp, hv, hall, fun hqk => ?_⟩
      have hlq := h.leaf_pre hqk
      have htq := h.mem_ts.2 ⟨q, hqk, rfl⟩
      rcases hpast with ⟨he, hno⟩ | ⟨hp, hc⟩ | ⟨hp, hpe, hi⟩
      · rcases List.prefix_or_prefix_of_prefix hlq hpw with h1 | h1
        · exact hno _ htq h1
        · rw [ex_iff.2 ⟨_, htq, h1⟩] at he; cases he
      · have : p = leafOf keys q := by
          rcases List.prefix_or_prefix_of_prefix hlq hpw with h1 | h1
          · exact (h.wf.pf _ htq _ hp h1).symm
          · exact h.wf.pf _ hp _ htq h1
        subst this
        rw [swKeys_leaf h.wf cfg (h.leaf_mem hqk), leaf_length h.wf h.sorted (h.leaf_mem hqk)] at hc
        have := (h.cmp hs ⟨hqk, Or.inl rfl⟩ hq).1 hc
        exact above_irrefl (incl := false) (Or.inl this) this
      · have : p = leafOf keys q := h.wf.pf _ hp _ htq (hpe ▸ hpe ▸ hlq |> fun hx => by
          rcases List.prefix_or_prefix_of_prefix hlq hpw with h1 | h1
          · rw [h.wf.pf _ htq _ hp h1]
          · exact h1)
        have h2 : 2 ≤ (leafOf keys q).length := by
          rw [← this, hpe, w_length]
          have := List.length_pos_iff.2 (h.valid.nonempty q hqk)
          omega
        obtain ⟨p', k', h3, h4, h5, h6, h7⟩ := leaf_dropLast h.wf (h.leaf_mem hqk) h2
        rw [← this, hpe, w_eq, List.dropLast_concat] at h3
        have := syms_inj h3
        subst this
        refine hall k' h5 (Or.inl ?_)
        obtain ⟨r, rfl⟩ := h7
        conv_lhs => rw [← List.append_nil q]
        apply List.append_left_lt
        cases r with
        | nil => simp at h6
        | cons a r => simp
    · right
      obtain ⟨k, hkm, rfl⟩ := h.mem_ts.1 hnx.1
      refine ⟨k, hkm, fun k' hk' ha hlt => ?_, Or.inl ⟨hat, Or.inl ⟨hfp, Or.inl (h.lt_key hkm hpw hnx.2.1 hnx.2.2.1), hmt⟩⟩⟩
      obtain ⟨h1, h2⟩ := hab k' hk' ha
      have := hnx.2.2.2 _ (h.mem_ts.2 ⟨k', hk', rfl⟩) h1 h2
      exact absurd ((h.leaf_lt hk' hkm).2 hlt) (not_lt.2 this)
  · right
    obtain ⟨k, hkm, rfl⟩ := h.mem_ts.1 hp
    refine ⟨k, hkm, fun k' hk' ha hlt => ?_, Or.inl ⟨hat, ?_⟩⟩
    · have h2 := (h.leaf_lt hk' hkm).2 hlt
      refine above_irrefl ha (h.key_lt hk' hpw h2 fun hc => ?_)
      rw [h.wf.pf _ (h.mem_ts.2 ⟨k', hk', rfl⟩) _ hp hc] at h2
      exact lt_irrefl _ h2
    · rcases hfp with ⟨hfp, -⟩ | ⟨hfp, hi, hpe⟩
      · exact Or.inr (Or.inl ⟨hfp, (leaf_match h.wf h.sorted (h.leaf_mem hkm)).1 hpw⟩)
      · refine Or.inl ⟨hfp, Or.inr ⟨hi, h.leaf_whole hkm hpe⟩, fun k0 hm0 => Or.inl ?_⟩
        have hp0 := (leaf_match h.wf h.sorted (h.leaf_mem hm0.1)).2 hm0
        have := h.wf.pf _ (h.mem_ts.2 ⟨k0, hm0.1, rfl⟩) _ hp (hpe ▸ hp0)
        exact h.leaf_whole hm0.1 (this.trans hpe)
  · right
    obtain ⟨k, hkm, rfl⟩ := h.mem_ts.1 hl.1
    have hqk : q <+: k := syms_prefix_w.1 (hl.2.1.trans (h.leaf_pre hkm))
    have hne : k ≠ q := by
      rintro rfl
      have h1 : leafOf keys k <+: syms k ++ [0] := h.leaf_pre hkm
      rcases List.prefix_concat_iff.1 h1 with h2 | h2
      · exact hwq (by rw [w_eq, ← h2]; exact hl.1)
      · exact no_leaf_above h.wf hx hl.1 h2
    have hlt : q < k := by
      obtain ⟨r, rfl⟩ := hqk
      conv_lhs => rw [← List.append_nil q]
      apply List.append_left_lt
      cases r with
      | nil => simp at hne
      | cons a r => simp
    refine ⟨k, hkm, fun k' hk' ha hlt' => ?_, ?_⟩
    · have h2 := (h.leaf_lt hk' hkm).2 hlt'
      have hm' := h.mem_ts.2 ⟨k', hk', rfl⟩
      by_cases h3 : syms q <+: leafOf keys k'
      · exact absurd h2 (not_lt.2 (hl.2.2 _ hm' h3))
      · obtain ⟨r, hr⟩ := hl.2.1
        have h4 : leafOf keys k' < syms q := by
          rw [← hr] at h2
          exact lt_of_lt_append h3 h2
        exact above_irrefl ha (h.key_lt hk' (by rw [w_eq]; exact List.prefix_append _ _) h4 (no_leaf_above h.wf hx hm'))
    · rcases hout with ⟨hat, hfp⟩ | ⟨hfp, h1, h2, h3⟩
      · left
        refine ⟨hat, ?_⟩
        by_cases hc : q.length < s
        · rw [decide_eq_true hc] at hfp
          exact Or.inr (Or.inr ⟨hfp, hc, hqk, hlt⟩)
        · rw [decide_eq_false hc] at hfp
          refine Or.inl ⟨hfp, Or.inl hlt, fun k0 hm0 => ?_⟩
          have hp0 := (leaf_match h.wf h.sorted (h.leaf_mem hm0.1)).2 hm0
          have hts0 := h.mem_ts.2 ⟨k0, hm0.1, rfl⟩
          rcases List.prefix_concat_iff.1 hp0 with h2 | h2
          · exact Or.inl (h.leaf_whole hm0.1 h2)
          · exact absurd h2 (no_leaf_above h.wf hx hts0)
      · right
        rw [leaf_length h.wf h.sorted (h.leaf_mem hkm)] at h2
        exact ⟨hfp, h1, h2, hqk, hlt, h3⟩

end Surf
