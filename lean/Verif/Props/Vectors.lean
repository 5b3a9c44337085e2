import Verif.Proof.ConcatStrict
import Verif.Proof.FilterRep

/-!
# Bit vectors, labels, suffixes, integer keys (C22, C25–C30)
-/

set_option linter.unusedSectionVars false
set_option autoImplicit false

/-- The last level that has bits is not made of whole words (given the numbers of bits of the levels). -/
def Spec.EndsPartial (ns : List Nat) : Prop :=
  ∃ pre n post, ns = pre ++ n :: post ∧ n % 64 ≠ 0 ∧ ∀ m ∈ post, m = 0

/-- The bits end inside a word, or the last level is made of whole words. -/
def Spec.Inside (ns : List Nat) : Prop := ns.sum % 64 = 0 → ¬ Spec.EndsPartial ns

namespace Surf.Props
open Surf

/-! ## C22: integer keys -/

theorem leBytes_length (k n : Nat) : (leBytes k n).length = k := by
  induction k generalizing n with
  | zero => rfl
  | succ k ih => simp [leBytes, ih]

theorem leNat_leBytes (k n : Nat) : leNat (leBytes k n) = n % 256 ^ k := by
  induction k generalizing n with
  | zero => simp [leBytes, leNat, Nat.mod_one]
  | succ k ih =>
    simp only [leBytes, leNat, ih]
    rw [pow_succ, Nat.mul_comm (256 ^ k), Nat.mod_mul]
    simp

theorem leBytes_leNat (bs : List UInt8) : leBytes bs.length (leNat bs) = bs := by
  induction bs with
  | nil => rfl
  | cons b bs ih =>
    have hb := b.toNat_lt
    simp only [List.length_cons, leBytes, leNat]
    rw [show (b.toNat + 256 * leNat bs) / 256 = leNat bs by omega, ih,
      show (b.toNat + 256 * leNat bs) % 256 = b.toNat by omega]
    simp

theorem leNat_lt (bs : List UInt8) : leNat bs < 256 ^ bs.length := by
  induction bs with
  | nil => simp [leNat]
  | cons b bs ih =>
    have hb := b.toNat_lt
    simp only [List.length_cons, leNat, pow_succ]
    omega

/-- The big-endian bytes. -/
theorem uint64ToString_eq (x : BitVec 64) : uint64ToString x = (leBytes 8 x.toNat).reverse := by
  unfold uint64ToString bswap64
  have h := leBytes_leNat (leBytes 8 x.toNat).reverse
  rwa [List.length_reverse, leBytes_length] at h

theorem snoc_lt {a b : List UInt8} (hl : a.length = b.length) (x y : UInt8) :
    a ++ [x] < b ++ [y] ↔ a < b ∨ (a = b ∧ x < y) := by
  induction a generalizing b with
  | nil =>
    cases b with
    | nil => simp [List.cons_lt_cons_iff]
    | cons _ _ => simp at hl
  | cons c a ih =>
    cases b with
    | nil => simp at hl
    | cons d b =>
      simp only [List.cons_append, List.cons_lt_cons_iff, ih (by simpa using hl), List.cons.injEq]
      constructor
      · rintro (h | ⟨rfl, h | ⟨rfl, h⟩⟩)
        · exact Or.inl (Or.inl h)
        · exact Or.inl (Or.inr ⟨rfl, h⟩)
        · exact Or.inr ⟨⟨rfl, rfl⟩, h⟩
      · rintro ((h | ⟨rfl, h⟩) | ⟨⟨rfl, rfl⟩, h⟩)
        · exact Or.inl h
        · exact Or.inr ⟨rfl, Or.inl h⟩
        · exact Or.inr ⟨rfl, Or.inr ⟨rfl, h⟩⟩

theorem leBytes_rev_inj (k : Nat) {m n : Nat} (hm : m < 256 ^ k) (hn : n < 256 ^ k)
    (h : leBytes k m = leBytes k n) : m = n := by
  have := congrArg leNat h
  rwa [leNat_leBytes, leNat_leBytes, Nat.mod_eq_of_lt hm, Nat.mod_eq_of_lt hn] at this

theorem leBytes_rev_lt (k : Nat) {m n : Nat} (hm : m < 256 ^ k) (hn : n < 256 ^ k) :
    (leBytes k m).reverse < (leBytes k n).reverse ↔ m < n := by
  induction k generalizing m n with
  | zero => simp [leBytes]; omega
  | succ k ih =>
    simp only [leBytes, List.reverse_cons]
    rw [pow_succ] at hm hn
    have h1 : m / 256 < 256 ^ k := by omega
    have h2 : n / 256 < 256 ^ k := by omega
    rw [snoc_lt (by simp [leBytes_length]), ih h1 h2, List.reverse_inj]
    have hu : UInt8.ofNat (m % 256) < UInt8.ofNat (n % 256) ↔ m % 256 < n % 256 := by
      rw [UInt8.lt_iff_toNat_lt]; simp
    rw [hu]
    constructor
    · rintro (h | ⟨h, h'⟩)
      · omega
      · have := leBytes_rev_inj k h1 h2 h; omega
    · intro h
      by_cases h3 : m / 256 < n / 256
      · exact Or.inl h3
      · have h4 : m / 256 = n / 256 := by omega
        exact Or.inr ⟨by rw [h4], by omega⟩

/-- **C22.** The string of an integer has 8 bytes, gives the integer back, and the order of the
strings is the order of the integers. -/
theorem C22 (x y : BitVec 64) :
    (uint64ToString x).length = 8 ∧ stringToUint64 (uint64ToString x) = x ∧
    (uint64ToString x < uint64ToString y ↔ x.toNat < y.toNat) := by
  refine ⟨leBytes_length _ _, ?_, ?_⟩
  · unfold stringToUint64
    rw [List.take_of_length_le (by rw [uint64ToString, leBytes_length]), uint64ToString_eq]
    unfold bswap64
    have h := leBytes_leNat (leBytes 8 x.toNat).reverse
    rw [List.length_reverse, leBytes_length] at h
    rw [h, List.reverse_reverse, leNat_leBytes, Nat.mod_eq_of_lt (by have := x.isLt; omega)]
    simp
  · rw [uint64ToString_eq, uint64ToString_eq]
    exact leBytes_rev_lt 8 (by have := x.isLt; omega) (by have := y.isLt; omega)

example : uint64ToString 0x1234#64 = [0, 0, 0, 0, 0, 0, 0x12, 0x34] := by decide

/-! ## C29: concatenation -/

section
variable [Env] {lvs : List (List Word × Nat)}

omit [Env] in
theorem levelBits_of_padded (h : ∀ lv ∈ lvs, Spec.Padded lv) :
    List.Forall₂ LevelBits lvs (lvs.map fun lv => (List.range lv.2).map (Spec.wordBit lv.1)) := by
  induction lvs with
  | nil => exact .nil
  | cons lv lvs ih =>
    refine .cons ?_ (ih fun l hl => h l (List.mem_cons_of_mem _ hl))
    obtain ⟨h1, h2⟩ := h lv List.mem_cons_self
    refine ⟨by simp, by simpa using h1, fun i => ?_⟩
    by_cases hi : i < lv.2
    · simp [List.getD, hi, Spec.wordBit, bitAt]
    · rw [getD_ge (by simp; omega)]
      exact h2 i (by omega)

omit [Env] in
theorem lastRest_iff {ns : List Nat} : lastRest ns ≠ 0 ↔ Spec.EndsPartial ns := by
  have hzero : ∀ ns : List Nat, ns.sum = 0 ↔ ∀ m ∈ ns, m = 0 := by
    intro ns
    induction ns with
    | nil => simp
    | cons n ns ih => simp only [List.sum_cons, Nat.add_eq_zero_iff, List.forall_mem_cons, ih]
  induction ns with
  | nil =>
    refine ⟨fun h => absurd rfl h, ?_⟩
    rintro ⟨pre, n, post, h, -⟩
    simp at h
  | cons n ns ih =>
    rw [lastRest]
    by_cases hz : ns.sum = 0
    · rw [if_pos hz]
      have hall := (hzero ns).1 hz
      constructor
      · intro h
        exact ⟨[], n, ns, rfl, h, hall⟩
      · rintro ⟨pre, l, post, h, h1, h2⟩
        cases pre with
        | nil =>
          rw [List.nil_append, List.cons.injEq] at h
          rw [h.1]; exact h1
        | cons q pre =>
          rw [List.cons_append, List.cons.injEq] at h
          have := hall l (by rw [h.2]; simp)
          rw [this] at h1
          exact absurd rfl h1
    · rw [if_neg hz]
      refine ih.trans ?_
      constructor
      · rintro ⟨pre, l, post, h, h1, h2⟩
        exact ⟨n :: pre, l, post, by rw [h]; rfl, h1, h2⟩
      · rintro ⟨pre, l, post, h, h1, h2⟩
        cases pre with
        | nil =>
          rw [List.nil_append, List.cons.injEq] at h
          rw [h.2] at hz
          exact absurd ((hzero post).2 h2) hz
        | cons q pre =>
          rw [List.cons_append, List.cons.injEq] at h
          exact ⟨pre, l, post, h.2, h1, h2⟩

omit [Env] in
theorem insideN_iff {ns : List Nat} : InsideN ns ↔ Spec.Inside ns := by
  unfold InsideN Spec.Inside
  rw [← lastRest_iff]
  simp only [ne_eq, not_not]

/-- The bit vector of the levels.  Either the machine ignores a zero or-operation behind an array, or there is none. -/
theorem bitvector_ok (hs : Env.strict = false ∨ Spec.Inside (lvs.map (·.2))) (h : ∀ lv ∈ lvs, Spec.Padded lv)
    (h32 : (Spec.allBits lvs).length < 2 ^ 32) : ∃ b, Bitvector.mk' lvs = .ok b ∧ b.Rep (Spec.allBits lvs) := by
  have hf : (lvs.map fun lv => (List.range lv.2).map (Spec.wordBit lv.1)).flatten = Spec.allBits lvs := by
    rw [Spec.allBits, List.flatMap_def]
  obtain ⟨b, e, hr⟩ := Bitvector.mk'_in (hs.imp_right insideN_iff.2) (levelBits_of_padded h) (by rw [hf, M32_eq]; exact h32)
  exact ⟨b, e, by rwa [hf] at hr⟩

/-- **C29**, below 2^32 bits: the bit vector made from the levels has exactly their bits, in order, and zeros behind.
Missing for the full statement: 2^32 bits and more, where it fails (`C29_exact`, `C29_refuted`). -/
theorem C29_partial (hs : Env.strict = false ∨ Spec.Inside (lvs.map (·.2))) (h : ∀ lv ∈ lvs, Spec.Padded lv) (h32 : (Spec.allBits lvs).length < 2 ^ 32) :
    ∃ b, Bitvector.mk' lvs = .ok b ∧ b.numBits = (Spec.allBits lvs).length ∧
      (∀ i, i < (Spec.allBits lvs).length → b.readBit i = .ok ((Spec.allBits lvs).getD i false)) ∧
      ∀ i, (Spec.allBits lvs).length ≤ i → Spec.wordBit b.bits i = false := by
  obtain ⟨b, e, hr⟩ := bitvector_ok hs h h32
  exact ⟨b, e, hr.num, fun i hi => Bitvector.readBit_ok hr hi, fun i hi => (hr.bit i).trans (getD_ge hi)⟩

/-- C29, exactly, for any number of bits: the vector reports the number of bits modulo 2^32 and has an array for that many; it is made
if no one lies behind the end of that array, and otherwise the construction writes there. -/
theorem C29_exact (hs : Env.strict = false) (h : ∀ lv ∈ lvs, Spec.Padded lv) :
    ((∀ i, ((Spec.allBits lvs).length % 2 ^ 32 + 63) / 64 * 64 ≤ i → (Spec.allBits lvs).getD i false = false) →
      ∃ b, Bitvector.mk' lvs = .ok b ∧ b.numBits = (Spec.allBits lvs).length % 2 ^ 32 ∧
        ∀ i, Spec.wordBit b.bits i = (Spec.allBits lvs).getD i false) ∧
    ((∃ i, ((Spec.allBits lvs).length % 2 ^ 32 + 63) / 64 * 64 ≤ i ∧ (Spec.allBits lvs).getD i false = true) →
      Bitvector.mk' lvs = .error .oobWrite) := by
  have h1 := Bitvector.mk'_any hs (levelBits_of_padded h) rfl
  rw [← List.flatMap_def] at h1
  change ((∀ i, ((Spec.allBits lvs).length % M32 + 63) / 64 * 64 ≤ i → (Spec.allBits lvs).getD i false = false) → _) ∧
    ((∃ i, ((Spec.allBits lvs).length % M32 + 63) / 64 * 64 ≤ i ∧ (Spec.allBits lvs).getD i false = true) → _) at h1
  have h2 : ∀ m : Nat, m % M32 = m % 2 ^ 32 := fun m => rfl
  rw [h2] at h1
  refine ⟨fun hz => ?_, h1.2⟩
  obtain ⟨b, e, g1, -, g2⟩ := h1.1 hz
  exact ⟨b, e, g1, g2⟩

/-! ## C25: rank -/

/-- **C25.** `rank(p)` counts the one bits at positions `0 … p`, for both block sizes in use.  (A bit vector has less than 2^32 bits:
its length is a 32-bit number.) -/
theorem C25 (hs : Env.strict = false ∨ Spec.Inside (lvs.map (·.2))) (h : ∀ lv ∈ lvs, Spec.Padded lv) (h32 : (Spec.allBits lvs).length < 2 ^ 32) {bbs : Nat} (hb : bbs = 512 ∨ bbs = 64) :
    ∃ r, BitvectorRank.mk' bbs lvs = .ok r ∧
      ∀ p, p < (Spec.allBits lvs).length → r.rank p = .ok (((Spec.allBits lvs).take (p + 1)).count true) := by
  obtain ⟨b, e, hr⟩ := bitvector_ok hs h h32
  obtain ⟨r, e1, -, h1, -⟩ := BitvectorRank.mk'_ok hb e hr
  exact ⟨r, e1, fun p hp => BitvectorRank.rank_ok h1 (Or.inl hp)⟩

/-! ## C26: select -/

/-- `select(r)` is the position of the `r`-th one bit, and `rank(select(r)) = r` (for a rank
vector of the same bits), provided the first bit is a one (which LOUDS guarantees).  Missing from C26: vectors with so many ones that
the first multiple of the sampling distance behind their number does not fit 32 bits (for distance 64, at least 2^32 - 64 ones);
making such a vector does not return (`C26_refuted`). -/
theorem C26_partial (hs : Env.strict = false ∨ Spec.Inside (lvs.map (·.2))) (h : ∀ lv ∈ lvs, Spec.Padded lv) (h32 : (Spec.allBits lvs).length < 2 ^ 32) {si : Nat} (h1 : 1 ≤ si)
    (h2 : si * ((Spec.allBits lvs).count true / si + 1) < 2 ^ 32)
    (hf : Spec.allBits lvs ≠ [] → (Spec.allBits lvs).getD 0 false = true) :
    ∃ v r, BitvectorSelect.mk' si lvs = .ok v ∧ BitvectorRank.mk' 512 lvs = .ok r ∧
      v.numOnes = (Spec.allBits lvs).count true ∧
      ∀ k, 1 ≤ k → k ≤ (Spec.allBits lvs).count true → ∃ p, v.select k = .ok p ∧
        (Spec.allBits lvs)[p]? = some true ∧ ((Spec.allBits lvs).take p).count true = k - 1 ∧ r.rank p = .ok k := by
  obtain ⟨b, e, hr⟩ := bitvector_ok hs h h32
  obtain ⟨v, e1, -, hv, -⟩ := BitvectorSelect.mk'_ok h1 h2 e hr hf
  obtain ⟨r, e2, -, h3, -⟩ := BitvectorRank.mk'_ok (Or.inl rfl) e hr
  refine ⟨v, r, e1, e2, hv.ones, fun k hk1 hk2 => ?_⟩
  obtain ⟨p, e3, hp, hp'⟩ := BitvectorSelect.select_ok hv hk1 hk2
  have hlt : p < (Spec.allBits lvs).length := by
    by_contra hc
    dsimp only at hp
    rw [getD_ge (by omega)] at hp
    simp at hp
  have hget : (Spec.allBits lvs)[p]? = some true := by
    simp [List.getD, hlt] at hp
    rw [List.getElem?_eq_getElem hlt, hp]
  have hc : ((Spec.allBits lvs).take p).count true + 1 = k := by rwa [rk_list] at hp'
  refine ⟨p, e3, hget, by omega, ?_⟩
  rw [BitvectorRank.rank_ok h3 (Or.inl hlt), List.take_add_one, hget, Option.toList_some, List.count_append]
  simp only [List.count_singleton_self]
  rw [hc]

omit [Env] in
/-- All multiples of the sampling distance are passed: the loop does not end. -/
theorem sampleLoop_runs {si : Nat} (hd : si ∣ 2 ^ 32) (h1 : 1 ≤ si) (w : Word) (i cumu ones : Nat) (hc : 2 ^ 32 - si ≤ cumu + ones)
    (fuel sampling : Nat) (hs1 : si ∣ sampling) (hs2 : sampling < 2 ^ 32) :
    BitvectorSelect.sampleLoop w i si cumu ones fuel sampling = .error .diverge := by
  induction fuel generalizing sampling with
  | zero => rfl
  | succ fuel ih =>
    have hle : sampling ≤ 2 ^ 32 - si := by
      obtain ⟨a, rfl⟩ := hs1
      obtain ⟨b, hb⟩ := hd
      rw [hb] at hs2 ⊢
      have : a < b := Nat.lt_of_mul_lt_mul_left hs2
      calc si * a ≤ si * (b - 1) := Nat.mul_le_mul_left _ (by omega)
        _ = si * b - si := by rw [Nat.mul_sub, Nat.mul_one]
    rw [BitvectorSelect.sampleLoop, if_pos (le_trans hle hc)]
    have h2 : add32 sampling si < 2 ^ 32 := by rw [add32, M32_eq]; exact Nat.mod_lt _ (by decide)
    have h3 : si ∣ add32 sampling si := by
      rw [add32, M32_eq]
      exact (Nat.dvd_mod_iff hd).2 (Nat.dvd_add hs1 (Nat.dvd_refl si))
    rw [ih _ h3 h2]
    rfl

omit [Env] in
/-- A loop that ends leaves a multiple of the sampling distance. -/
theorem sampleLoop_ends {si : Nat} (hd : si ∣ 2 ^ 32) (w : Word) (i cumu ones fuel sampling : Nat) (hs1 : si ∣ sampling) (hs2 : sampling < 2 ^ 32) :
    BitvectorSelect.sampleLoop w i si cumu ones fuel sampling = .error .diverge ∨
      ∃ l s, BitvectorSelect.sampleLoop w i si cumu ones fuel sampling = .ok (l, s) ∧ si ∣ s ∧ s < 2 ^ 32 := by
  induction fuel generalizing sampling with
  | zero => exact Or.inl rfl
  | succ fuel ih =>
    rw [BitvectorSelect.sampleLoop]
    split
    · have h2 : add32 sampling si < 2 ^ 32 := by rw [add32, M32_eq]; exact Nat.mod_lt _ (by decide)
      have h3 : si ∣ add32 sampling si := by
        rw [add32, M32_eq]
        exact (Nat.dvd_mod_iff hd).2 (Nat.dvd_add hs1 (Nat.dvd_refl si))
      rcases ih _ h3 h2 with h | ⟨l, s, h, g⟩
      · rw [h]; exact Or.inl rfl
      · rw [h]; exact Or.inr ⟨_, s, rfl, g⟩
    · exact Or.inr ⟨[], sampling, rfl, hs1, hs2⟩

theorem lutLoop_runs {si : Nat} (hd : si ∣ 2 ^ 32) (h1 : 1 ≤ si) (ws : List Word) (i sampling cumu : Nat) (hne : ws ≠ [])
    (hc : 2 ^ 32 - si ≤ cumu + (ws.map popcount).sum) (hs1 : si ∣ sampling) (hs2 : sampling < 2 ^ 32) :
    BitvectorSelect.lutLoop si ws i sampling cumu = .error .diverge := by
  induction ws generalizing i sampling cumu with
  | nil => exact absurd rfl hne
  | cons w ws ih =>
    rw [BitvectorSelect.lutLoop]
    dsimp only
    by_cases h : 2 ^ 32 - si ≤ cumu + popcount w
    · rw [sampleLoop_runs hd h1 w i cumu _ h _ _ hs1 hs2]
      rfl
    · rcases sampleLoop_ends hd w i cumu (popcount w) 4294967297 sampling hs1 hs2 with e | ⟨l, s, e, g1, g2⟩
      · rw [e]; rfl
      · rw [e, ok_bind]
        dsimp only
        rw [List.map_cons, List.sum_cons] at hc
        rw [ih (i + 1) s (cumu + popcount w) (by rintro rfl; simp at hc; omega) (by omega) g1 g2]
        rfl

omit [Env] in
theorem popcount_sum (ws : List Word) (pre : List Word) :
    rk (bitAt (pre ++ ws)) (64 * (pre ++ ws).length) = rk (bitAt (pre ++ ws)) (64 * pre.length) + (ws.map popcount).sum := by
  induction ws generalizing pre with
  | nil => simp
  | cons w ws ih =>
    have h := ih (pre ++ [w])
    rw [List.append_assoc, List.singleton_append] at h
    rw [h]
    have h2 := rk_full_word (pre ++ w :: ws) pre.length
    rw [show (pre ++ w :: ws).getD pre.length 0 = w by simp] at h2
    rw [List.length_append, List.length_singleton, h2, List.map_cons, List.sum_cons, Nat.add_assoc]

/-- C26, exactly, for a sampling distance that divides 2^32 (64 in the filter): a vector with at least 2^32 minus that distance ones
cannot be made (the loop that fills the table of samples never ends), all others can. -/
theorem C26_exact (hs : Env.strict = false ∨ Spec.Inside (lvs.map (·.2))) (h : ∀ lv ∈ lvs, Spec.Padded lv) (h32 : (Spec.allBits lvs).length < 2 ^ 32) {si : Nat} (h1 : 1 ≤ si)
    (hd : si ∣ 2 ^ 32) (h2 : si < 2 ^ 32) (hf : Spec.allBits lvs ≠ [] → (Spec.allBits lvs).getD 0 false = true) :
    (2 ^ 32 - si ≤ (Spec.allBits lvs).count true → BitvectorSelect.mk' si lvs = .error .diverge) ∧
    ((Spec.allBits lvs).count true < 2 ^ 32 - si → ∃ v, BitvectorSelect.mk' si lvs = .ok v ∧
      ∀ k, 1 ≤ k → k ≤ (Spec.allBits lvs).count true → ∃ p, v.select k = .ok p ∧
        (Spec.allBits lvs)[p]? = some true ∧ ((Spec.allBits lvs).take p).count true = k - 1) := by
  refine ⟨fun hc => ?_, fun hc => ?_⟩
  · obtain ⟨b, e, hr⟩ := bitvector_ok hs h h32
    have hl := hr.len_bounds
    have hones : rk (bitAt b.bits) (64 * b.bits.length) = (Spec.allBits lvs).count true := by
      rw [hr.rk_eq, rk_list, List.take_of_length_le hl.1]
    have hp := popcount_sum b.bits []
    simp only [List.nil_append, List.length_nil, Nat.mul_zero, rk_zero, Nat.zero_add] at hp
    unfold BitvectorSelect.mk'
    rw [e, ok_bind, lutLoop_runs hd h1 b.bits 0 si 0 ?_ ?_ (dvd_refl si) h2]
    · rfl
    · intro h0
      rw [h0] at hp
      simp only [List.map_nil, List.sum_nil] at hp
      rw [h0] at hones
      omega
    · omega
  · obtain ⟨v, r, e, -, -, hv⟩ := C26_partial hs h h32 h1 (by
      obtain ⟨b, hb⟩ := hd
      have hb1 : (Spec.allBits lvs).count true / si + 1 < b := by
        have : (Spec.allBits lvs).count true < si * (b - 1) := by rw [Nat.mul_sub, Nat.mul_one, ← hb]; exact hc
        have h5 : (Spec.allBits lvs).count true / si < b - 1 := Nat.div_lt_of_lt_mul this
        revert h5
        generalize (Spec.allBits lvs).count true / si = x
        intro h5
        omega
      rw [hb]
      exact Nat.mul_lt_mul_of_pos_left hb1 (by omega)) hf
    refine ⟨v, e, fun k hk1 hk2 => ?_⟩
    obtain ⟨p, g1, g2, g3, -⟩ := hv k hk1 hk2
    exact ⟨p, g1, g2, g3⟩

/-- C26 fails for the vector of `2^32 - 64` ones: it cannot be made. -/
theorem C26_refuted (hs : Env.strict = false) :
    (Spec.allBits [(List.replicate (2 ^ 26 - 1) (BitVec.allOnes 64), 2 ^ 32 - 64)]).length = 2 ^ 32 - 64 ∧
    (∀ b ∈ Spec.allBits [(List.replicate (2 ^ 26 - 1) (BitVec.allOnes 64), 2 ^ 32 - 64)], b = true) ∧
    BitvectorSelect.mk' 64 [(List.replicate (2 ^ 26 - 1) (BitVec.allOnes 64), 2 ^ 32 - 64)] = .error .diverge := by
  have key : ∀ n : Nat, n = 2 ^ 26 - 1 → (Spec.allBits [(List.replicate n (BitVec.allOnes 64), 64 * n)]).length = 64 * n ∧
      (∀ b ∈ Spec.allBits [(List.replicate n (BitVec.allOnes 64), 64 * n)], b = true) ∧
      BitvectorSelect.mk' 64 [(List.replicate n (BitVec.allOnes 64), 64 * n)] = .error .diverge := by
    intro n hn
    have hlen : (Spec.allBits [(List.replicate n (BitVec.allOnes 64), 64 * n)]).length = 64 * n := by simp [Spec.allBits]
    have hall : ∀ b ∈ Spec.allBits [(List.replicate n (BitVec.allOnes 64), 64 * n)], b = true := by
      intro b hb
      simp only [Spec.allBits, List.flatMap_cons, List.flatMap_nil, List.append_nil, List.mem_map, List.mem_range] at hb
      obtain ⟨i, hi, rfl⟩ := hb
      unfold Spec.wordBit
      rw [List.getD, List.getElem?_replicate, if_pos (by omega), Option.getD_some, BitVec.getMsbD_allOnes]
      exact decide_eq_true (Nat.mod_lt _ (by decide))
    refine ⟨hlen, hall, (C26_exact (Or.inl hs) ?_ (by rw [hlen]; omega) (by decide) (by decide) (by decide) ?_).1 ?_⟩
    · intro lv hlv
      rw [List.mem_singleton] at hlv
      subst hlv
      refine ⟨by simp, fun i hi => ?_⟩
      dsimp only at hi
      unfold Spec.wordBit
      rw [List.getD, List.getElem?_replicate, if_neg (by omega), Option.getD_none]
      simp
    · intro hne
      cases hc : Spec.allBits [(List.replicate n (BitVec.allOnes 64), 64 * n)] with
      | nil => exact absurd hc hne
      | cons a l => exact hall a (by rw [hc]; simp)
    · rw [List.count_eq_length.2 (fun b hb => (hall b hb).symm), hlen]
      omega
  exact key (2 ^ 26 - 1) rfl

/-! ## C27: next and previous one bit -/

/-- The distances are exact whenever there is a next / previous one bit.  Missing from C27: the
distance delivered when there is no next one bit, which is wrong across words (`C27_refuted`,
`C27_none`). -/
theorem C27_partial (hs : Env.strict = false ∨ Spec.Inside (lvs.map (·.2))) (h : ∀ lv ∈ lvs, Spec.Padded lv) (h32 : (Spec.allBits lvs).length < 2 ^ 32) :
    ∃ b, Bitvector.mk' lvs = .ok b ∧
      (∀ p q, p < q → (Spec.allBits lvs)[q]? = some true →
        (∀ j, p < j → j < q → (Spec.allBits lvs)[j]? = some false) → b.distanceToNextSetBit p = .ok (q - p)) ∧
      (∀ p q, q < p → p ≤ (Spec.allBits lvs).length → (Spec.allBits lvs)[q]? = some true →
        (∀ j, q < j → j < p → (Spec.allBits lvs)[j]? = some false) → b.distanceToPrevSetBit p = .ok (p - q)) ∧
      (∀ p, 0 < p → p ≤ (Spec.allBits lvs).length → (∀ j, j < p → (Spec.allBits lvs)[j]? = some false) →
        b.distanceToPrevSetBit p = .ok (p + 1)) := by
  obtain ⟨b, e, hr⟩ := bitvector_ok hs h h32
  clear hs
  generalize Spec.allBits lvs = xs at *
  have hd : ∀ {j v}, xs[j]? = some v → xs.getD j false = v := fun h => by simp [List.getD, h]
  have hprev : ∀ p q, q < p → p ≤ xs.length → xs[q]? = some true →
        (∀ j, q < j → j < p → xs[j]? = some false) → b.distanceToPrevSetBit p = .ok (p - q) :=
    fun p q hqp hp hq hz => Bitvector.distPrev_some hr hp (hd hq) hqp fun j h1 h2 => hd (hz j h1 h2)
  refine ⟨b, e, fun p q hpq hq hz => ?_, hprev, fun p h0 hp hz => ?_⟩
  · have hq' := (List.getElem?_eq_some_iff.1 hq).1
    have ha : add32 p 1 = p + 1 := add32_eq (by rw [M32_eq]; omega)
    rw [Bitvector.distNext_some hr (by rw [M32_eq]; omega) (Or.inl (by omega)) (hd hq) (by omega) ?_]
    · rw [ha]; exact ok_congr (by omega)
    · intro j h1 h2; exact hd (hz j (by omega) h2)
  · exact Bitvector.distPrev_none hr hp h0 fun j hj => hd (hz j hj)

/-- What `distanceToNextSetBit` delivers when no one bit follows: the distance to the end of the
vector if the next position lies in the last word, the distance to the end of the last word otherwise. -/
theorem C27_none (hs : Env.strict = false ∨ Spec.Inside (lvs.map (·.2))) (h : ∀ lv ∈ lvs, Spec.Padded lv) (h32 : (Spec.allBits lvs).length < 2 ^ 32) :
    ∃ b, Bitvector.mk' lvs = .ok b ∧
      ∀ p, p + 1 < (Spec.allBits lvs).length → (∀ j, p < j → (Spec.allBits lvs)[j]? ≠ some true) →
        b.distanceToNextSetBit p = .ok (if (p + 1) / 64 = ((Spec.allBits lvs).length - 1) / 64
          then (Spec.allBits lvs).length - p else ((Spec.allBits lvs).length + 63) / 64 * 64 - p) := by
  obtain ⟨b, e, hr⟩ := bitvector_ok hs h h32
  clear hs
  generalize Spec.allBits lvs = xs at *
  refine ⟨b, e, fun p hp hz => ?_⟩
  obtain ⟨w1, w2⟩ := Bitvector.Rep.len_bounds hr
  rw [Bitvector.distNext_none hr (by rw [M32_eq]; omega) (by omega) (by omega) ?_]
  · apply ok_congr
    by_cases hc : (p + 1) / 64 + 1 = b.bits.length
    · rw [if_pos hc, if_pos (by omega)]
    · rw [if_neg hc, if_neg (by omega)]
      omega
  · intro j hj
    have := hz j (by omega)
    rw [List.getD]
    cases h1 : xs[j]? with
    | none => rfl
    | some v =>
      cases v with
      | false => rfl
      | true => exact absurd h1 this

/-! ## C28: label search -/

omit [Env] in
theorem getD_get {α : Type} {l : List α} {i : Nat} {d : α} (h : i < l.length) : l.getD i d = l[i] := by
  simp [List.getD, h]

/-- The labels `pre`, then those of a node (after a terminator if `term`), then `post`. -/
def nodeLabels (pre body post : List UInt8) (term : Bool) : List UInt8 :=
  pre ++ (if term then kTerminator :: body else body) ++ post

omit [Env] in
theorem nodeLabels_get {pre body post : List UInt8} {term : Bool} {lv : LabelVector}
    (h : LabelVector.mk' (nodeLabels pre body post term) = .ok lv) [Env] :
    (∀ i, i < body.length → labAt lv.labels (pre.length + term.toNat + i) = body.getD i 0) ∧
    (term = true → labAt lv.labels pre.length = kTerminator) := by
  have hl : ∃ z, lv.labels = nodeLabels pre body post term ++ z := by
    unfold LabelVector.mk' at h
    dsimp only at h
    split at h
    · cases h
    · exact ⟨_, by rw [← Except.ok.inj h]⟩
  obtain ⟨z, hz⟩ := hl
  cases term with
  | true =>
    have e : lv.labels = pre ++ (kTerminator :: (body ++ (post ++ z))) := by simp [hz, nodeLabels]
    refine ⟨fun i hi => ?_, fun _ => ?_⟩
    · rw [labAt_lt (by rw [e]; simp; omega), e, getD_append_ge (by omega)]
      rw [show pre.length + true.toNat + i - pre.length = i + 1 by simp; omega, List.getD_cons_succ, getD_append_lt hi]
    · rw [labAt_lt (by rw [e]; simp), e, getD_append_ge (by omega)]
      simp
  | false =>
    have e : lv.labels = pre ++ (body ++ (post ++ z)) := by simp [hz, nodeLabels]
    refine ⟨fun i hi => ?_, fun h => by cases h⟩
    rw [labAt_lt (by rw [e]; simp; omega), e, getD_append_ge (by omega)]
    rw [show pre.length + false.toNat + i - pre.length = i by simp, getD_append_lt hi]

omit [Env] in
theorem body_skipped [Env] {pre body post : List UInt8} {term : Bool} {lv : LabelVector} (hb : body ≠ [])
    (hsort : body.Pairwise (· < ·)) (h : LabelVector.mk' (nodeLabels pre body post term) = .ok lv) :
    LabelVector.skipped (labAt lv.labels) pre.length (body.length + term.toNat) = (pre.length + term.toNat, body.length) := by
  obtain ⟨g1, g2⟩ := nodeLabels_get h
  have hb0 : 0 < body.length := List.length_pos_of_ne_nil hb
  unfold LabelVector.skipped
  cases term with
  | true => rw [if_pos ⟨by simp; omega, g2 rfl⟩]; simp
  | false =>
    rw [if_neg]
    · simp
    · rintro ⟨h1, h2⟩
      simp only [Bool.toNat_false, Nat.add_zero] at h1 g1
      have h3 := g1 0 (by omega)
      rw [Nat.add_zero, h2] at h3
      have h4 : body[0] < body[1] := List.pairwise_iff_getElem.1 hsort 0 1 (by omega) (by omega) (by omega)
      have h5 : body[0] = 255 := by
        rw [getD_get (by omega)] at h3; exact h3.symm
      rw [h5, UInt8.lt_iff_toNat_lt] at h4
      have := body[1].toNat_lt
      simp at h4
      omega

omit [Env] in
theorem body_sorted [Env] {pre body post : List UInt8} {term : Bool} {lv : LabelVector}
    (hsort : body.Pairwise (· < ·)) (h : LabelVector.mk' (nodeLabels pre body post term) = .ok lv) :
    SortedOn (labAt lv.labels) (pre.length + term.toNat) body.length := by
  obtain ⟨g1, -⟩ := nodeLabels_get h
  intro i j hij hj
  rw [g1 i (by omega), g1 j hj, getD_get (by omega), getD_get hj]
  exact List.pairwise_iff_getElem.1 hsort i j _ _ hij

/-- Searching the labels of a node, at any offset and of any size, with or without a leading
terminator: `search` finds a byte exactly if the node has it and reports its place, and
`searchGreaterThan` reports the first greater label, if any.  Missing from C28: nodes that end behind position `2^31`
(`C28_refuted`). -/
theorem C28_partial (hs : Env.strict = false) {pre body post : List UInt8} {term : Bool} {lv : LabelVector} (hb : body ≠ [])
    (hsort : body.Pairwise (· < ·)) (hhalf : pre.length + term.toNat + body.length ≤ 2 ^ 31)
    (h : LabelVector.mk' (nodeLabels pre body post term) = .ok lv) (c : UInt8) :
    (∃ p, lv.search c pre.length (body.length + term.toNat) = .ok (decide (c ∈ body), p) ∧
      (c ∈ body → p = pre.length + term.toNat + body.idxOf c)) ∧
    (∃ p, lv.searchGreaterThan c pre.length (body.length + term.toNat) = .ok (decide (∃ x ∈ body, c < x), p) ∧
      ((∃ x ∈ body, c < x) → p = pre.length + term.toNat + body.findIdx (fun x => decide (c < x)))) := by
  obtain ⟨g1, -⟩ := nodeLabels_get h
  have hk := body_skipped hb hsort h
  have hso := body_sorted hsort h
  constructor
  · obtain ⟨res, e, hr⟩ := LabelVector.search_ok hs lv c pre.length (body.length + term.toNat) (by rw [hk]; exact Or.inl ⟨hso, hhalf⟩)
    rw [hk] at hr
    rcases hr with ⟨i, hi, h1, h2, rfl⟩ | ⟨h1, rfl⟩
    · dsimp only at hi h1 h2
      rw [g1 i hi, getD_get hi] at h1
      have hm : c ∈ body := by rw [← h1]; exact List.getElem_mem _
      refine ⟨_, by rw [e, decide_eq_true hm], fun _ => ?_⟩
      have : body.idxOf c = i := by
        rw [← h1]
        have hnd : body.Nodup := hsort.imp fun h => by rintro rfl; exact absurd h (UInt8.lt_irrefl _)
        exact hnd.idxOf_getElem i hi
      rw [this]
    · dsimp only at h1
      have hm : c ∉ body := by
        intro hc
        obtain ⟨i, hi, he⟩ := List.getElem_of_mem hc
        apply h1 i hi
        rw [g1 i hi, getD_get hi, he]
      exact ⟨_, by rw [e, decide_eq_false hm], fun hc => absurd hc hm⟩
  · obtain ⟨res, e, hr⟩ := LabelVector.searchGT_ok hs lv c pre.length (body.length + term.toNat) (by rw [hk]; exact hso) (by rw [hk]; exact hhalf)
    rw [hk] at hr
    rcases hr with ⟨i, hi, h1, h2, rfl⟩ | ⟨h1, rfl⟩
    · dsimp only at hi h1 h2
      rw [g1 i hi, getD_get hi] at h1
      have hm : ∃ x ∈ body, c < x := ⟨_, List.getElem_mem hi, h1⟩
      refine ⟨_, by rw [e, decide_eq_true hm], fun _ => ?_⟩
      have : body.findIdx (fun x => decide (c < x)) = i := by
        rw [List.findIdx_eq hi]
        refine ⟨by simpa using h1, fun j hj => ?_⟩
        have h3 := h2 j hj
        rw [g1 j (by omega), getD_get (by omega)] at h3
        simpa using UInt8.not_lt.2 h3
      rw [this]
    · dsimp only at h1
      have hm : ¬ ∃ x ∈ body, c < x := by
        rintro ⟨x, hx, hc⟩
        obtain ⟨i, hi, he⟩ := List.getElem_of_mem hx
        have h3 := h1 i hi
        rw [g1 i hi, getD_get hi, he] at h3
        exact absurd hc (UInt8.not_lt.2 h3)
      exact ⟨_, by rw [e, decide_eq_false hm], fun hc => absurd hc hm⟩

/-- C28 fails behind position `2^31`: the sum of the two ends of the search does not fit 32 bits, so that the search looks at a label
of another node, and label 2 of the node `[1, 2, 3]` is not found. -/
theorem C28_refuted (hs : Env.strict = false) : ∃ lv, LabelVector.mk' (nodeLabels (List.replicate (2 ^ 31) 255) [1, 2, 3] [] false) = .ok lv ∧
    lv.search 2 (2 ^ 31) 3 = .ok (false, 2 ^ 31) := by
  obtain ⟨N, hN⟩ : ∃ N, N = 2147483648 := ⟨_, rfl⟩
  rw [show (2 : Nat) ^ 31 = N from hN.symm]
  have hl : (nodeLabels (List.replicate N 255) [1, 2, 3] [] false).length = N + 3 := by simp [nodeLabels]
  have hroom : ¬ mul32 (N + 3 + 1) ((N + 3 + 1) / 64 + 1) < N + 3 := by rw [hN]; decide
  obtain ⟨lv, e⟩ : ∃ lv, LabelVector.mk' (nodeLabels (List.replicate N 255) [1, 2, 3] [] false) = .ok lv := by
    refine ⟨_, by rw [LabelVector.mk', hl, if_neg hroom]⟩
  refine ⟨lv, e, ?_⟩
  have hz : ∃ z, lv.labels = List.replicate N 255 ++ ([1, 2, 3] ++ z) := by
    rw [LabelVector.mk', hl, if_neg hroom] at e
    refine ⟨List.replicate (mul32 (N + 3 + 1) ((N + 3 + 1) / 64 + 1) - (N + 3)) 0, ?_⟩
    rw [← Except.ok.inj e]; simp [nodeLabels]
  obtain ⟨z, hz⟩ := hz
  have g0 : labAt lv.labels N = 1 := by
    rw [labAt_lt (by rw [hz]; simp), hz, getD_append_ge (by simp)]
    simp
  have g1 : labAt lv.labels 1 = 255 := by
    have : 1 < (List.replicate N (255 : UInt8)).length := by rw [List.length_replicate]; omega
    rw [labAt_lt (by rw [hz, List.length_append]; omega), hz, getD_append_lt this]
    rw [List.getD, List.getElem?_replicate, if_pos (by omega)]
    rfl
  have hk : LabelVector.skipped (labAt lv.labels) N 3 = (N, 3) := by
    unfold LabelVector.skipped
    rw [g0, if_neg (by decide)]
  unfold LabelVector.search
  rw [LabelVector.skipTerm_ok hs, hk, ok_bind]
  dsimp only
  rw [if_neg (by decide), if_pos (by decide)]
  unfold LabelVector.binarySearch
  rw [LabelVector.binFuel_eq, LabelVector.binLoop, if_pos (by omega)]
  dsimp only
  rw [add32, M32_eq, show (N + (N + 3)) % 4294967296 / 2 = 1 by omega, rdB_labAt hs, g1, ok_bind, if_pos (by decide),
    show 18446744073709551616 = 18446744073709551615 + 1 by omega, LabelVector.binLoop, if_neg (by omega)]

/-- The hypotheses of C28 are met, e.g. by the node `[255, 3, 7, 9, 255]` behind two other labels. -/
example : ([3, 7, 9, 255] : List UInt8).Pairwise (· < ·) ∧
    (LabelVector.mk' (nodeLabels [1, 2] [3, 7, 9, 255] [4] true)).isOk = true := by decide

/-! ## C30: packed suffixes -/

/-- Store the values `ws` of width `L` into a fresh level of the builder. -/
def storeAll (L : Nat) (ws : List Word) : R Level :=
  ws.foldlM (fun lv w => Builder.storeSuffix lv L w) Builder.newLevel

omit [Env] in
theorem fits_of_lt {L : Nat} {w : Word} (h : w.toNat < 2 ^ L) : Fits L w := by
  intro i hi
  rw [BitVec.getMsbD_eq_getLsbD, BitVec.getLsbD]
  rw [Nat.testBit_lt_two_pow (lt_of_lt_of_le h (Nat.pow_le_pow_right (by omega) (by omega)))]
  simp

theorem storeFold {L : Nat} (h1 : 1 ≤ L) (h2 : L ≤ 64) (ws : List Word) (hw : ∀ x ∈ ws, x.toNat < 2 ^ L) (lv : Level)
    (h32 : L * (lv.suffixCount + ws.length) < M32)
    (xs : List Bool) (hx : LevelBits (lv.suffixes, L * lv.suffixCount) xs) (ht : 64 * lv.suffixes.length < xs.length + 64) :
    ∃ lv', ws.foldlM (fun lv w => Builder.storeSuffix lv L w) lv = .ok lv' ∧
      LevelBits (lv'.suffixes, L * lv'.suffixCount) (xs ++ packBits L ws) ∧ lv'.suffixCount = lv.suffixCount + ws.length := by
  induction ws generalizing lv xs with
  | nil => exact ⟨lv, rfl, by simpa [packBits] using hx, rfl⟩
  | cons w ws ih =>
    obtain ⟨s, e, h3, h4⟩ := storeSuffix_ok h1 h2 (fits_of_lt (hw w List.mem_cons_self)) hx ht
      (lt_of_le_of_lt (Nat.mul_le_mul_left _ (Nat.le_add_right _ _)) h32)
    have h32' : L * (lv.suffixCount + 1 + ws.length) < M32 := by
      rw [show lv.suffixCount + 1 + ws.length = lv.suffixCount + (w :: ws).length by simp only [List.length_cons]; omega]; exact h32
    obtain ⟨lv', e', h5, h6⟩ := ih (fun x hx => hw x (List.mem_cons_of_mem _ hx)) { lv with suffixes := s, suffixCount := lv.suffixCount + 1 } h32' _ h3 h4
    refine ⟨lv', ?_, ?_, ?_⟩
    · rw [List.foldlM_cons, e]; exact e'
    · simpa [packBits] using h5
    · rw [h6]; dsimp only; simp only [List.length_cons]; omega

/-- **C30.** Values of `L = cfg.hashLen + cfg.realLen` bits stored level by level are read back. -/
theorem C30 (hs : Env.strict = false) {cfg : Config} (hc : cfg.Ok) (hn : cfg.suffixType ≠ .kNone) (wss : List (List Word))
    (hw : ∀ ws ∈ wss, ∀ x ∈ ws, x.toNat < 2 ^ (cfg.hashLen + cfg.realLen))
    (h32 : (cfg.hashLen + cfg.realLen) * wss.flatten.length < 2 ^ 32) :
    ∃ lvs b, wss.mapM (storeAll (cfg.hashLen + cfg.realLen)) = .ok lvs ∧
      BitvectorSuffix.mk' cfg.suffixType cfg.hashLen cfg.realLen
        (lvs.map fun lv => (lv.suffixes, mul32 lv.suffixCount (cfg.hashLen + cfg.realLen))) = .ok b ∧
      ∀ i x, wss.flatten[i]? = some x → b.read i = .ok x := by
  have h64 := hc.1
  have hpos : 1 ≤ cfg.hashLen + cfg.realLen := by
    have := hc.2
    cases ht : cfg.suffixType <;> rw [ht] at this hn
    · exact absurd rfl hn
    all_goals simp at this; omega
  have hst : ∀ (vss : List (List Word)), (∀ ws ∈ vss, ∀ x ∈ ws, x.toNat < 2 ^ (cfg.hashLen + cfg.realLen)) →
      (∀ ws ∈ vss, (cfg.hashLen + cfg.realLen) * ws.length < M32) →
      ∃ lvs, vss.mapM (storeAll (cfg.hashLen + cfg.realLen)) = .ok lvs ∧
      List.Forall₂ LevelBits (lvs.map fun lv => (lv.suffixes, mul32 lv.suffixCount (cfg.hashLen + cfg.realLen)))
        (vss.map (packBits (cfg.hashLen + cfg.realLen))) := by
    intro vss
    induction vss with
    | nil => intro _ _; exact ⟨[], rfl, .nil⟩
    | cons ws wss ih =>
      intro hw hl32
      obtain ⟨lvs, e, h1⟩ := ih (fun l hl => hw l (List.mem_cons_of_mem _ hl)) (fun l hl => hl32 l (List.mem_cons_of_mem _ hl))
      have h3 := hl32 ws List.mem_cons_self
      have h0 : Builder.newLevel.suffixCount = 0 := rfl
      obtain ⟨lv, e', h2, h4⟩ := storeFold hpos h64 ws (hw ws List.mem_cons_self) Builder.newLevel (by rw [h0, Nat.zero_add]; exact h3) []
        ⟨by simp [Builder.newLevel], by simp, fun i => by simp [Builder.newLevel, bitAt]⟩ (by simp [Builder.newLevel])
      refine ⟨lv :: lvs, ?_, .cons ?_ h1⟩
      · rw [List.mapM_cons, storeAll, e', ok_bind, e, ok_bind]; rfl
      · rw [h0, Nat.zero_add] at h4
        rw [List.nil_append] at h2
        dsimp only
        rw [mul32, Nat.mul_comm, h4, Nat.mod_eq_of_lt h3, ← h4]
        exact h2
  obtain ⟨lvs, e, h1⟩ := hst wss hw fun ws hws => by
    refine lt_of_le_of_lt (Nat.mul_le_mul_left _ (List.sublist_flatten_of_mem hws).length_le) ?_
    rw [M32_eq]; omega
  obtain ⟨b, e1, hb⟩ := suffix_mk'_ok hc hn (Or.inl hs) h1 (by
    intro x hx
    obtain ⟨ws, h3, h4⟩ := List.mem_flatten.1 hx
    exact fits_of_lt (hw ws h3 x h4)) (by rw [M32_eq]; omega)
  refine ⟨lvs, b, e, e1, fun i x hi => ?_⟩
  obtain ⟨hi', rfl⟩ := List.getElem?_eq_some_iff.1 hi
  rw [BitvectorSuffix.read_ok hs (hb.some hn).2.2 hi', getD_get hi']

/-- The hypotheses of C30 are met by two levels of 7-bit values. -/
example : (∀ ws ∈ [[1#64, 127#64], [], [64#64]], ∀ x ∈ ws, x.toNat < 2 ^ (3 + 4)) ∧
    Config.Ok { suffixType := .kMixed, hashLen := 3, realLen := 4 } := by
  refine ⟨?_, by decide, by decide⟩
  intro ws hws x hx
  simp at hws
  rcases hws with rfl | rfl | rfl <;> simp at hx <;> (try rcases hx with rfl | rfl) <;> decide

end

/-- Two levels of 2^31 ones each. -/
def onesLevels (n : Nat) : List (List Word × Nat) := [(List.replicate n (BitVec.allOnes 64), 64 * n), (List.replicate n (BitVec.allOnes 64), 64 * n)]

theorem onesLevels_padded (n : Nat) : ∀ lv ∈ onesLevels n, Spec.Padded lv := by
  intro lv hlv
  have hl : lv = (List.replicate n (BitVec.allOnes 64), 64 * n) := by
    simp only [onesLevels, List.mem_cons, List.not_mem_nil, or_false, or_self] at hlv
    exact hlv
  rw [hl]
  refine ⟨by dsimp only; rw [List.length_replicate], fun i hi => ?_⟩
  dsimp only at hi ⊢
  unfold Spec.wordBit
  rw [getD_ge (by rw [List.length_replicate]; omega)]
  simp

theorem onesLevels_bits (n : Nat) : Spec.allBits (onesLevels n) = List.replicate (64 * n + 64 * n) true := by
  have h1 : (List.range (64 * n)).map (Spec.wordBit (List.replicate n (BitVec.allOnes 64))) = List.replicate (64 * n) true := by
    rw [List.eq_replicate_iff]
    refine ⟨by simp, fun b hb => ?_⟩
    obtain ⟨i, hi, rfl⟩ := List.mem_map.1 hb
    rw [List.mem_range] at hi
    unfold Spec.wordBit
    have h2 : i / 64 < n := by omega
    have h3 : i % 64 < 64 := by omega
    have h4 : (List.replicate n (BitVec.allOnes 64)).getD (i / 64) 0 = BitVec.allOnes 64 := by
      rw [List.getD, List.getElem?_replicate, if_pos h2]; rfl
    rw [h4, BitVec.getMsbD_allOnes]
    exact decide_eq_true h3
  unfold Spec.allBits onesLevels
  rw [List.flatMap_cons, List.flatMap_cons, List.flatMap_nil, List.append_nil, h1, List.replicate_append_replicate]

theorem onesLevels_over [Env] (hs : Env.strict = false) {n : Nat} (hn : n = 33554432) : Bitvector.mk' (onesLevels n) = .error .oobWrite := by
  refine (C29_exact hs (onesLevels_padded n)).2 ⟨0, ?_, ?_⟩
  · rw [onesLevels_bits, List.length_replicate]
    have : (64 * n + 64 * n) % 2 ^ 32 = 0 := by omega
    rw [this]
  · rw [onesLevels_bits, List.getD, List.getElem?_replicate, if_pos (by omega)]
    rfl

/-- C29 fails: two levels of 2^31 ones each make 2^32 bits, the number of bits is taken to be 0, and the construction writes outside the array. -/
theorem C29_refuted [Env] (hs : Env.strict = false) : (∀ lv ∈ onesLevels 33554432, Spec.Padded lv ∧ lv.2 < 2 ^ 32) ∧
    Bitvector.mk' (onesLevels 33554432) = .error .oobWrite := by
  refine ⟨fun lv hlv => ⟨onesLevels_padded _ lv hlv, ?_⟩, onesLevels_over hs rfl⟩
  simp only [onesLevels, List.mem_cons, List.not_mem_nil, or_false, or_self] at hlv
  rw [hlv]
  dsimp only
  omega

/-- C27 fails: in a vector of 70 bits of which only the first is a one, the distance from there to
the end is reported as 128. -/
theorem C27_refuted : (@Bitvector.mk' Env.x86 [([0x8000000000000000#64, 0#64], 70)] >>= fun b =>
    @Bitvector.distanceToNextSetBit Env.x86 b 0) = .ok 128 := by decide +kernel

/-- The hypotheses of C25–C27, C29 are met by two levels of 3 and 66 bits. -/
example : (∀ lv ∈ [([0xA000000000000000#64], 3), ([0x8000000000000001#64, 0x4000000000000000#64], 66)], Spec.Padded lv) ∧
    (Spec.allBits [([0xA000000000000000#64], 3), ([0x8000000000000001#64, 0x4000000000000000#64], 66)]).count true = 5 := by
  have aux : ∀ (ws : List Word) (n : Nat), n ≤ 64 * ws.length → (∀ i ∈ List.range (64 * ws.length), n ≤ i → Spec.wordBit ws i = false) →
      Spec.Padded (ws, n) := by
    intro ws n h1 h2
    refine ⟨h1, fun i hi => ?_⟩
    by_cases h : i < 64 * ws.length
    · exact h2 i (by simpa using h) hi
    · exact bitAt_ge ws (by omega)
  refine ⟨?_, by decide +kernel⟩
  intro lv hlv
  rcases List.mem_cons.1 hlv with rfl | hlv
  · exact aux _ _ (by decide) (by decide +kernel)
  rcases List.mem_cons.1 hlv with rfl | hlv
  · exact aux _ _ (by decide) (by decide +kernel)
  · cases hlv

end Surf.Props
