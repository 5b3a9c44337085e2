import Verif.Props.Range
import Verif.Props.Vectors

/-!
# Keys with suffix bits (C41)

The theorems hold for every machine with `Env.strict = false`, with and without `assert`s.
-/

set_option linter.unusedSectionVars false
set_option autoImplicit false
set_option maxRecDepth 1000000

namespace Surf.Props
open Surf Trie

theorem bits_leBytes (k n : Nat) :
    Spec.bits (leBytes k n).reverse = (List.range (8 * k)).map fun i => n.testBit (8 * k - 1 - i) := by
  induction k generalizing n with
  | zero => simp [leBytes, Spec.bits]
  | succ k ih =>
    rw [leBytes, List.reverse_cons, bits_append, ih, show 8 * (k + 1) = 8 * k + 8 by omega, List.range_add, List.map_append]
    congr 1
    · refine List.map_congr_left fun i hi => ?_
      have := List.mem_range.1 hi
      rw [show (256 : Nat) = 2 ^ 8 by rfl, Nat.testBit_div_two_pow]
      congr 1; omega
    · rw [List.map_map]
      unfold Spec.bits Spec.byteBits
      simp only [List.flatMap_cons, List.flatMap_nil, List.append_nil]
      refine List.map_congr_left fun i hi => ?_
      have := List.mem_range.1 hi
      have e : (UInt8.ofNat (n % 256)).toNat = n % 2 ^ 8 := by
        rw [UInt8.toNat_ofNat']; simp
      rw [e, Nat.testBit_mod_two_pow, decide_eq_true (by omega), Bool.true_and, Function.comp]
      congr 1; omega

/-- The bytes of a left-aligned word. -/
theorem bits_suffixBytes (w : Word) {r : Nat} (hr : r ≤ 64) :
    Spec.bits (suffixBytes w r) = (List.range (8 * ((r + 7) / 8))).map w.getMsbD ∧ (suffixBytes w r).length = (r + 7) / 8 := by
  have hb := bits_leBytes 8 w.toNat
  have hl : (suffixBytes w r).length = (r + 7) / 8 := by
    unfold suffixBytes
    rw [List.length_take, List.length_reverse, leBytes_length]
    omega
  refine ⟨?_, hl⟩
  have h1 : Spec.bits (suffixBytes w r) <+: Spec.bits (leBytes 8 w.toNat).reverse := by
    conv_rhs => rw [← List.take_append_drop ((r + 7) / 8) (leBytes 8 w.toNat).reverse, bits_append]
    exact List.prefix_append _ _
  rw [List.prefix_iff_eq_take, bits_length, hl, hb, ← List.map_take, List.take_range] at h1
  rw [h1, Nat.min_eq_left (by omega)]
  refine List.map_congr_left fun i hi => ?_
  have := List.mem_range.1 hi
  rw [BitVec.getMsbD_eq_getLsbD, decide_eq_true (by omega), Bool.true_and, BitVec.testBit_toNat]

section
variable [Env] {cfg : Config} {keys : List Key}

/-- `getKeyWithSuffix` is `getKey` followed by what `getSuffix` returns. -/
theorem getKeyWithSuffix_eq (f : Filter) (it : Iter) (hv : it.isValid = true) :
    it.getKeyWithSuffix f = (do
      let (l, v) ← it.getSuffix f
      if v != 0 then do
        let sw ← shlW v (sub32 64 l)
        return (it.getKey ++ suffixBytes sw l, l % 8)
      else return (it.getKey, 0)) := by
  have hd : ∀ b, it.dense.isComplete = true → it.dense.getKeyWithSuffix f.dense b = (do
      let (l, v) ← it.dense.getSuffix f.dense
      if v != 0 then do
        let sw ← shlW v (sub32 64 l)
        return (it.dense.getKey ++ suffixBytes sw l, l % 8)
      else return (it.dense.getKey, b)) := by
    intro b hc
    unfold DIter.getKeyWithSuffix DIter.getSuffix
    split
    · cases rdP it.dense.pos (sub32 it.dense.keyLen 1) with
      | error e => rfl
      | ok p =>
        simp only [ok_bind]
        cases f.dense.getSuffixPos p it.dense.atPrefix with
        | error e => rfl
        | ok sp =>
          simp only [ok_bind]
          cases f.dense.suffixes.readReal sp with
          | error e => rfl
          | ok w => rfl
    · rfl
  have hsp : ∀ b, it.sparse.getKeyWithSuffix f.sparse b = (do
      let (l, v) ← it.sparse.getSuffix f.sparse
      if v != 0 then do
        let sw ← shlW v (sub32 64 l)
        return (it.sparse.getKey ++ suffixBytes sw l, l % 8)
      else return (it.sparse.getKey, b)) := by
    intro b
    unfold SIter.getKeyWithSuffix SIter.getSuffix
    split
    · cases rdP it.sparse.pos (sub32 it.sparse.keyLen 1) with
      | error e => rfl
      | ok p =>
        simp only [ok_bind]
        cases f.sparse.getSuffixPos p with
        | error e => rfl
        | ok sp =>
          simp only [ok_bind]
          cases f.sparse.suffixes.readReal sp with
          | error e => rfl
          | ok w => rfl
    · rfl
  unfold Iter.getKeyWithSuffix Iter.getSuffix Iter.getKey
  rw [hv]
  simp only [Bool.not_true, Bool.false_eq_true, if_false]
  cases hc : it.dense.isComplete with
  | true =>
    simp only [if_true]
    exact hd 0 hc
  | false =>
    have e : it.dense.getKeyWithSuffix f.dense 0 = .ok (it.dense.getKey, 0) := by
      unfold DIter.getKeyWithSuffix
      rw [hc]
      rfl
    simp only [Bool.false_eq_true, if_false]
    rw [e, ok_bind, hsp 0]
    cases it.sparse.getSuffix f.sparse with
    | error e => rfl
    | ok lv =>
      obtain ⟨l, v⟩ := lv
      simp only [ok_bind]
      split
      · cases shlW v (sub32 64 l) with
        | error e => rfl
        | ok sw => simp only [ok_bind, List.append_assoc]; rfl
      · rfl

/-- The significant bits of what `getKeyWithSuffix` returns: the last byte has `bitlen` bits, or 8 if `bitlen` is 0. -/
def keyBits (r : Key × Nat) : List Bool := (Spec.bits r.1).take (8 * r.1.length - (8 - r.2) % 8)

/-- The suffix words of the iterator. -/
theorem getSuffix_all (h : Setting cfg keys) (hs : Env.strict = false) {f : Filter} {s : Nat}
    (hr : FRep cfg (leafStrs keys) (swKeys cfg keys) s f) {it : Iter} {k : Key} (hk : k ∈ keys)
    (ha : At (leafStrs keys) s it (leafOf keys k)) :
    (cfg.realLen < 64 ∧ (cfg.suffixType = .kReal ∨ cfg.suffixType = .kMixed) ∧
      it.getSuffix f = .ok (cfg.realLen, BitvectorSuffix.constructRealSuffix k (Spec.cut keys k) cfg.realLen)) ∨
    ((cfg.realLen < 64 → ¬ (cfg.suffixType = .kReal ∨ cfg.suffixType = .kMixed)) ∧ ∃ l, it.getSuffix f = .ok (l, 0)) := by
  have hg := hr.getSuffix hs ha
  have hm := h.leaf_mem hk
  have h64 := h.ok.1
  by_cases hc : cfg.suffixType = .kReal ∨ cfg.suffixType = .kMixed
  · rw [if_pos hc, swKeys_leaf h.wf cfg hm, leaf_length h.wf h.sorted hm] at hg
    by_cases hl : cfg.realLen < 64
    · rw [sfxOf_real hs h.ok hc hl, ok_bind] at hg
      exact Or.inl ⟨hl, hc, hg⟩
    · refine Or.inr ⟨fun hn => absurd hn hl, cfg.realLen, ?_⟩
      rw [hg, show cfg.realLen = 64 by omega]
      unfold BitvectorSuffix.extractRealSuffix shlW
      rw [if_neg (by omega), hs]
      simp only [Bool.false_eq_true, if_false, ok_bind, pure_ok]
      refine congrArg Except.ok (congrArg _ ?_)
      simp
  · rw [if_neg hc] at hg
    exact Or.inr ⟨fun _ => hc, 0, hg⟩

/-- Appending the first `r` bits of a left-aligned suffix. -/
theorem keyBits_suffix {r : Nat} (hr1 : 1 ≤ r) (hr : r < 64) (a : Key) {v : Word} (hf : Fits r v) :
    keyBits (a ++ suffixBytes (v <<< (64 - r)) r, r % 8) = Spec.bits a ++ valBits r v ∧
    Spec.bits (a ++ suffixBytes (v <<< (64 - r)) r) =
      Spec.bits a ++ valBits r v ++ List.replicate ((8 - r % 8) % 8) false := by
  obtain ⟨hb, hl⟩ := bits_suffixBytes (v <<< (64 - r)) (r := r) (by omega)
  have e : Spec.bits (suffixBytes (v <<< (64 - r)) r) = valBits r v ++ List.replicate ((8 - r % 8) % 8) false := by
    rw [hb]
    apply List.ext_getElem
    · simp; omega
    · intro i h1 h2
      simp only [List.length_map, List.length_range] at h1
      simp only [List.getElem_map, List.getElem_range]
      rw [BitVec.getMsbD_shiftLeft]
      by_cases hi : i < r
      · rw [List.getElem_append_left (by simpa using hi)]
        simp only [valBits, List.getElem_map, List.getElem_range]
        congr 1; omega
      · rw [List.getElem_append_right (by simpa using hi), List.getElem_replicate, BitVec.getMsbD_of_ge _ _ (by omega)]
  refine ⟨?_, by rw [bits_append, e, List.append_assoc]⟩
  unfold keyBits
  dsimp only
  rw [bits_append, e, ← List.append_assoc, List.length_append, hl]
  rw [List.take_append_of_le_length (by simp [bits_length]; omega), List.take_of_length_le (by simp [bits_length]; omega)]

/-! ## C41 -/

/-- For a valid iterator at the stored key `k`, `getKeyWithSuffix` returns the truncated form of `k`, followed by the next bits of `k` in as many bytes as needed when
real suffixes of `k` were stored and are not all zero; `bitlen` is the number of bits in the last of these bytes (0 for 8).
In any case the significant bits are a prefix of the bits of `k`, and the bits that remain in the last byte are 0. -/
theorem C41 (h : Setting cfg keys) (hs : Env.strict = false) (hff : ¬ Spec.SingleFF keys) :
    ∃ f, Filter.create cfg keys = .ok f ∧ ∀ it, Reached cfg keys f it → it.isValid = true →
      ∃ k ∈ keys, it.getKey = Spec.stored keys k ∧ ∃ k' bl, it.getKeyWithSuffix f = .ok (k', bl) ∧
        bl < 8 ∧ Spec.stored keys k <+: k' ∧ keyBits (k', bl) <+: Spec.bits k ∧
        Spec.bits k' = keyBits (k', bl) ++ List.replicate ((8 - bl) % 8) false ∧
        (cfg.realLen < 64 → (cfg.suffixType = .kReal ∨ cfg.suffixType = .kMixed) →
          ∀ b, Spec.realSuffix cfg.realLen k (Spec.cut keys k) = some b → true ∈ b →
          keyBits (k', bl) = Spec.bits (Spec.stored keys k) ++ b ∧ bl = cfg.realLen % 8) ∧
        (¬ (cfg.suffixType = .kReal ∨ cfg.suffixType = .kMixed) ∨ true ∉ Spec.realSuffix0 cfg.realLen k (Spec.cut keys k) →
          k' = Spec.stored keys k ∧ bl = 0) := by
  obtain ⟨f, s, e, hr, hpad⟩ := h.create hs hff
  refine ⟨f, e, fun it hre hv => ?_⟩
  obtain ⟨o, hpo⟩ := hre.pos h hs hr hpad (lookup_total h hs hff e)
  cases o with
  | none => rw [show it.isValid = false from hpo] at hv; cases hv
  | some i =>
    obtain ⟨k, hk, ha⟩ := hpo
    have hk' := get_mem hk
    have hgk : it.getKey = Spec.stored keys k := by rw [ha.getKey h.wf, bytesOf_leaf]
    refine ⟨k, hk', hgk, ?_⟩
    have hst : Spec.stored keys k <+: k := List.take_prefix _ _
    have hpre : Spec.bits (Spec.stored keys k) <+: Spec.bits k := by
      obtain ⟨t, ht⟩ := hst
      rw [← ht, bits_append]
      simp [ht]
    have hplain : keyBits (Spec.stored keys k, 0) = Spec.bits (Spec.stored keys k) := by
      unfold keyBits
      dsimp only
      rw [List.take_of_length_le (by rw [bits_length]; omega)]
    have hzero : ∀ {w : Word} {r : Nat}, r ≤ 64 → Fits r w → w ≠ 0 → true ∈ valBits r w := by
      intro w r hr hf hw
      by_contra hn
      apply hw
      refine BitVec.eq_of_getMsbD_eq fun j hj => ?_
      rcases Nat.lt_or_ge j (64 - r) with h1 | h1
      · rw [hf j h1]; simp
      · have : w.getMsbD j ≠ true := fun hc => hn (List.mem_map.2 ⟨j - (64 - r), List.mem_range.2 (by omega), by rw [← hc]; congr 1; omega⟩)
        simpa using this
    rw [getKeyWithSuffix_eq f it hv, hgk]
    rcases getSuffix_all h hs hr hk' ha with ⟨h64, hc, hg⟩ | ⟨hc, l, hg⟩
    · rw [hg, ok_bind]
      dsimp only
      set v := BitvectorSuffix.constructRealSuffix k (Spec.cut keys k) cfg.realLen with hvdef
      have hrb := real_bits (n := cfg.realLen) (by omega) k (Spec.cut keys k)
      rw [← hvdef] at hrb
      have hfit : Fits cfg.realLen v := (constructRealSuffix_spec k (Spec.cut keys k) cfg.realLen (by omega)).1
      by_cases hz : v = 0
      · rw [if_neg (by simp [hz])]
        have hno : true ∉ Spec.realSuffix0 cfg.realLen k (Spec.cut keys k) := by
          rw [← hrb, hz]
          intro hm
          obtain ⟨j, -, hj⟩ := List.mem_map.1 hm
          simp at hj
        refine ⟨_, _, rfl, by omega, List.prefix_refl _, by rw [hplain]; exact hpre, by rw [hplain]; simp, ?_, fun _ => ⟨rfl, rfl⟩⟩
        intro _ _ b hb ht
        refine absurd ?_ hno
        unfold Spec.realSuffix0
        rw [hb]
        exact ht
      · rw [if_pos (by simpa using hz)]
        have hmem := hzero (by omega) hfit hz
        rw [hrb] at hmem
        have hr1 : 1 ≤ cfg.realLen := by
          by_contra hn
          have h0 : cfg.realLen = 0 := by omega
          have : valBits cfg.realLen v = [] := List.length_eq_zero_iff.1 (by rw [valBits_length, h0])
          rw [← hrb, this] at hmem
          cases hmem
        rw [sub32_eq (by omega) (by decide), shlW, if_pos (by omega), ok_bind]
        obtain ⟨e1, e2⟩ := keyBits_suffix hr1 h64 (Spec.stored keys k) hfit
        refine ⟨_, _, rfl, by omega, List.prefix_append _ _, ?_, by rw [e1, e2], ?_, ?_⟩
        · rw [e1, hrb]
          unfold Spec.realSuffix0 Spec.realSuffix at hmem ⊢
          split at hmem
          · rename_i hle
            rw [if_pos hle]
            dsimp only [Option.getD]
            have : Spec.bits k = Spec.bits (Spec.stored keys k) ++ Spec.bits (k.drop (Spec.cut keys k)) := by
              rw [← bits_append]
              unfold Spec.stored
              rw [List.take_append_drop]
            rw [this]
            exact List.prefix_append_right_inj _ |>.2 (List.take_prefix _ _)
          · exact absurd (List.eq_of_mem_replicate hmem) (by simp)
        · intro _ _ b hb _
          rw [e1, hrb]
          unfold Spec.realSuffix0
          rw [hb]
          exact ⟨rfl, rfl⟩
        · rintro (hn | hn)
          · exact absurd hc hn
          · exact absurd hmem hn
    · rw [hg, ok_bind]
      dsimp only
      rw [if_neg (by simp)]
      exact ⟨_, _, rfl, by omega, List.prefix_refl _, by rw [hplain]; exact hpre, by rw [hplain]; simp,
        fun h1 h2 => absurd h2 (hc h1), fun _ => ⟨rfl, rfl⟩⟩

/-- `getKeyWithSuffix` at the first key. -/
def firstKeyWithSuffix (cfg : Config) (keys : List Key) : R (Key × Nat) := do
  let f ← Filter.create cfg keys
  let it ← f.moveToFirst
  it.getKeyWithSuffix f

end

/-! ## Example -/

/-- Real suffixes of 12 bits. -/
def cfgReal12 : Config := { suffixType := .kReal, realLen := 12 }

/-- "abcdef", "abe", "b". -/
def ksKeys : List Key := [[97, 98, 99, 100, 101, 102], [97, 98, 101], [98]]

theorem ksSetting : Setting cfgReal12 ksKeys ∧ ¬ Spec.SingleFF ksKeys := by
  refine ⟨⟨by decide, rfl, by decide, ⟨by decide, by decide, by decide⟩, fits_of_total (by decide) (by decide)⟩, ?_⟩
  rintro ⟨k, h1, h2⟩
  have := h1 [98] (by decide)
  subst this
  simp at h2

/-- The hypotheses of `C41` hold and the case of a suffix that is not zero occurs: behind "abc" 12 bits of "abcdef" are stored. -/
example : Setting cfgReal12 ksKeys ∧ ¬ Spec.SingleFF ksKeys ∧
    ∃ b, Spec.realSuffix 12 [97, 98, 99, 100, 101, 102] (Spec.cut ksKeys [97, 98, 99, 100, 101, 102]) = some b ∧ true ∈ b :=
  ⟨ksSetting.1, ksSetting.2, _, rfl, by decide⟩

/-- The model on this example: "abcd" and the first 4 bits of "e". -/
theorem keyWithSuffix_example : @firstKeyWithSuffix Env.x86 cfgReal12 ksKeys = .ok ([97, 98, 99, 100, 96], 4) := by decide +kernel

end Surf.Props
