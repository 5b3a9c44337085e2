import Verif.Model.Bloom
import Mathlib.Data.Nat.Bitwise

/-!
# The Bloom filter of the benchmark (C45)
-/

set_option autoImplicit false

namespace Surf.Props
open Surf Surf.Bench

/-! ## Specification -/

/-- Bit `p` of an array of bytes, counted from the least significant bit of the first byte. -/
def byteBit (a : List UInt8) (p : Nat) : Bool := (a.getD (p / 8) 0).toNat.testBit (p % 8)

/-- Probe `j` of a key with hash values `h` in an array of `bits` bits. -/
def probe (bits : Nat) (h : BitVec 32 × BitVec 32) (j : Nat) : Nat := (h.1.toNat + j * h.2.toNat) % 2 ^ 32 % bits

/-! ## Lemmas -/

theorem toNat_two_pow {m : Nat} (h : m < 8) : (UInt8.ofNat (2 ^ m)).toNat = 2 ^ m := by
  rw [UInt8.toNat_ofNat']
  exact Nat.mod_eq_of_lt (Nat.pow_lt_pow_right (by decide) h)

theorem setBit_ok {a : List UInt8} {p : Nat} (h : p < a.length * 8) :
    ∃ a', setBit a p = .ok a' ∧ a'.length = a.length ∧ ∀ i, byteBit a' i = (byteBit a i || decide (i = p)) := by
  have h1 : p / 8 < a.length := by omega
  have h2 : a[p / 8]? = some a[p / 8] := List.getElem?_eq_getElem h1
  refine ⟨a.set (p / 8) (a[p / 8] ||| UInt8.ofNat (2 ^ (p % 8))), by unfold setBit; rw [h2], by simp, fun i => ?_⟩
  unfold byteBit
  rw [List.getD_eq_getElem?_getD, List.getD_eq_getElem?_getD, List.getElem?_set]
  by_cases hi : p / 8 = i / 8
  · rw [if_pos hi, if_pos h1, ← hi, h2]
    simp only [Option.getD_some, UInt8.toNat_or, Nat.testBit_or, toNat_two_pow (Nat.mod_lt p (by decide : 0 < 8)), Nat.testBit_two_pow]
    congr 1
    rw [decide_eq_decide]
    omega
  · rw [if_neg hi]
    have : i ≠ p := fun hc => hi (by rw [hc])
    simp [this]

theorem testBit_ok {a : List UInt8} {p : Nat} (h : p < a.length * 8) : testBit a p = .ok (byteBit a p) := by
  have h1 : p / 8 < a.length := by omega
  have h2 : a[p / 8]? = some a[p / 8] := List.getElem?_eq_getElem h1
  unfold testBit byteBit
  rw [List.getD_eq_getElem?_getD, h2]
  simp only [Option.getD_some]
  congr 1
  have hm : p % 8 < 8 := Nat.mod_lt p (by decide)
  have h3 : (a[p / 8] &&& UInt8.ofNat (2 ^ (p % 8))).toNat = (a[p / 8].toNat.testBit (p % 8)).toNat * 2 ^ (p % 8) := by
    rw [UInt8.toNat_and, toNat_two_pow hm, Nat.and_two_pow]
  cases hb : a[p / 8].toNat.testBit (p % 8)
  · rw [hb] at h3
    have : a[p / 8] &&& UInt8.ofNat (2 ^ (p % 8)) = 0 := by
      apply UInt8.toNat_inj.1
      rw [h3]; simp
    rw [this]; rfl
  · rw [hb] at h3
    have : a[p / 8] &&& UInt8.ofNat (2 ^ (p % 8)) ≠ 0 := by
      intro hc
      rw [hc] at h3
      simp at h3
      exact absurd h3.symm (Nat.pos_iff_ne_zero.1 (Nat.two_pow_pos _))
    simpa using this

theorem probe_zero (bits : Nat) (h : BitVec 32 × BitVec 32) : probe bits h 0 = h.1.toNat % bits := by
  unfold probe
  rw [Nat.zero_mul, Nat.add_zero, Nat.mod_eq_of_lt h.1.isLt]

theorem probe_succ (bits : Nat) (h δ : BitVec 32) (j : Nat) : probe bits (h + δ, δ) j = probe bits (h, δ) (j + 1) := by
  unfold probe
  dsimp only
  rw [BitVec.toNat_add, Nat.succ_mul]
  congr 1
  rw [Nat.mod_add_mod]
  congr 1
  omega

theorem setProbes_ok {bits : Nat} : ∀ (k : Nat) (h δ : BitVec 32) {a : List UInt8}, bits = a.length * 8 → 0 < bits →
    ∃ a', setProbes bits k h δ a = .ok a' ∧ a'.length = a.length ∧
      ∀ i, byteBit a' i = true ↔ byteBit a i = true ∨ ∃ j < k, i = probe bits (h, δ) j
  | 0, h, δ, a, _, _ => ⟨a, rfl, rfl, fun i => by simp⟩
  | k + 1, h, δ, a, hb, h0 => by
    obtain ⟨a1, e1, l1, b1⟩ := setBit_ok (a := a) (p := h.toNat % bits) (hb ▸ Nat.mod_lt _ h0)
    obtain ⟨a2, e2, l2, b2⟩ := setProbes_ok k (h + δ) δ (a := a1) (by rw [l1]; exact hb) h0
    refine ⟨a2, ?_, l2.trans l1, fun i => ?_⟩
    · rw [setProbes, e1]; exact e2
    rw [b2, b1, Bool.or_eq_true, decide_eq_true_eq]
    constructor
    · rintro ((g | g) | ⟨j, hj, g⟩)
      · exact Or.inl g
      · exact Or.inr ⟨0, by omega, by rw [probe_zero]; exact g⟩
      · exact Or.inr ⟨j + 1, by omega, by rw [g, probe_succ]⟩
    · rintro (g | ⟨j, hj, g⟩)
      · exact Or.inl (Or.inl g)
      · cases j with
        | zero => rw [probe_zero] at g; exact Or.inl (Or.inr g)
        | succ j => exact Or.inr ⟨j, by omega, by rw [g, probe_succ]⟩

theorem testProbes_ok {bits : Nat} : ∀ (k : Nat) (h δ : BitVec 32) {a : List UInt8}, bits ≤ a.length * 8 → 0 < bits →
    testProbes bits k h δ a = .ok (decide (∀ j < k, byteBit a (probe bits (h, δ) j) = true))
  | 0, h, δ, a, _, _ => by simp [testProbes]
  | k + 1, h, δ, a, hb, h0 => by
    rw [testProbes, testBit_ok (lt_of_lt_of_le (Nat.mod_lt _ h0) hb)]
    change (if (!byteBit a (h.toNat % bits)) = true then (.ok false : R Bool) else testProbes bits k (h + δ) δ a) = _
    rw [testProbes_ok k (h + δ) δ hb h0]
    cases hc : byteBit a (h.toNat % bits)
    · rw [if_pos (by rfl)]
      congr 1
      symm
      rw [decide_eq_false_iff_not]
      intro hall
      have := hall 0 (by omega)
      rw [probe_zero, hc] at this
      cases this
    · rw [if_neg (by simp)]
      congr 1
      rw [decide_eq_decide]
      constructor
      · intro hall j hj
        cases j with
        | zero => rw [probe_zero]; exact hc
        | succ j => rw [← probe_succ]; exact hall j (by omega)
      · intro hall j hj
        rw [probe_succ]
        exact hall (j + 1) (by omega)

theorem addKeys_ok {α : Type} {hash : α → BitVec 32 × BitVec 32} {k bits : Nat} {keys : List α} :
    ∀ (n i : Nat) {a : List UInt8}, i + n ≤ keys.length → bits = a.length * 8 → 0 < bits →
    ∃ a', addKeys hash k bits keys i n a = .ok a' ∧ a'.length = a.length ∧
      ∀ p, byteBit a' p = true ↔ byteBit a p = true ∨ ∃ x ∈ (keys.drop i).take n, ∃ j < k, p = probe bits (hash x) j
  | 0, i, a, _, _, _ => ⟨a, rfl, rfl, fun p => by simp⟩
  | n + 1, i, a, hn, hb, h0 => by
    have hi : i < keys.length := by omega
    have hg : getR keys i = .ok keys[i] := by unfold getR; rw [List.getElem?_eq_getElem hi]
    obtain ⟨a1, e1, l1, b1⟩ := setProbes_ok k (hash keys[i]).1 (hash keys[i]).2 hb h0
    obtain ⟨a2, e2, l2, b2⟩ := addKeys_ok (hash := hash) (k := k) (keys := keys) n (i + 1) (a := a1) (by omega) (by rw [l1]; exact hb) h0
    refine ⟨a2, ?_, l2.trans l1, fun p => ?_⟩
    · rw [addKeys, hg]
      change (setProbes bits k (hash keys[i]).1 (hash keys[i]).2 a >>= _) = _
      rw [e1]; exact e2
    rw [b2, b1, List.drop_eq_getElem_cons hi, List.take_succ_cons]
    simp only [List.mem_cons, Prod.mk.eta, exists_eq_or_imp, or_assoc]

theorem bloomBytes_pos (b n : Nat) : 8 ≤ bloomBytes b n := by
  unfold bloomBytes
  dsimp only
  split <;> omega

theorem numProbes_le (b : Nat) : 1 ≤ numProbes b ∧ numProbes b ≤ 30 := by unfold numProbes; omega

/-- What `CreateFilter` and `KeyMayMatch` compute, for every hash function. -/
theorem bloom_exact {α : Type} (hash : α → BitVec 32 × BitVec 32) (b : Nat) (keys : List α) {n : Nat} (hn : n ≤ keys.length) :
    ∃ filt, filt.length = bloomBytes b n + 1 ∧ (∀ dst, createFilter hash b keys n dst = .ok (dst ++ filt)) ∧
      ∀ q, keyMayMatch hash q filt = .ok (decide (∀ j < numProbes b, ∃ x ∈ keys.take n, ∃ i < numProbes b,
        probe (bloomBytes b n * 8) (hash q) j = probe (bloomBytes b n * 8) (hash x) i)) := by
  have hp := bloomBytes_pos b n
  obtain ⟨hk1, hk2⟩ := numProbes_le b
  obtain ⟨a, e, l, hb⟩ := addKeys_ok (hash := hash) (k := numProbes b) (bits := bloomBytes b n * 8) (keys := keys) n 0
    (a := List.replicate (bloomBytes b n) 0) (by omega) (by simp) (by omega)
  rw [List.length_replicate] at l
  have hz : ∀ p, byteBit (List.replicate (bloomBytes b n) 0) p = false := by
    intro p
    unfold byteBit
    rw [List.getD_eq_getElem?_getD, List.getElem?_replicate]
    split <;> simp
  refine ⟨a ++ [UInt8.ofNat (numProbes b)], by simp [l], fun dst => ?_, fun q => ?_⟩
  · unfold createFilter
    dsimp only
    rw [e]
    change Except.ok _ = _
    rw [List.append_assoc]
  have hlen : (a ++ [UInt8.ofNat (numProbes b)]).length = bloomBytes b n + 1 := by simp [l]
  have hg : getR (a ++ [UInt8.ofNat (numProbes b)]) (bloomBytes b n + 1 - 1) = .ok (UInt8.ofNat (numProbes b)) := by
    unfold getR
    rw [Nat.add_sub_cancel, ← l, List.getElem?_concat_length]
  have hkn : (UInt8.ofNat (numProbes b)).toNat = numProbes b := by
    rw [UInt8.toNat_ofNat']; exact Nat.mod_eq_of_lt (by omega)
  unfold keyMayMatch
  dsimp only
  rw [hlen, if_neg (by omega), hg]
  change (if _ then _ else _) = _
  rw [hkn, if_neg (by omega), Nat.add_sub_cancel,
    testProbes_ok (numProbes b) (hash q).1 (hash q).2 (by rw [hlen]; omega) (by omega)]
  congr 1
  rw [decide_eq_decide]
  refine forall_congr' fun j => forall_congr' fun _ => ?_
  have hlt : probe (bloomBytes b n * 8) ((hash q).1, (hash q).2) j < bloomBytes b n * 8 := Nat.mod_lt _ (by omega)
  have : byteBit (a ++ [UInt8.ofNat (numProbes b)]) (probe (bloomBytes b n * 8) ((hash q).1, (hash q).2) j) =
      byteBit a (probe (bloomBytes b n * 8) ((hash q).1, (hash q).2) j) := by
    unfold byteBit
    rw [List.getD_append _ _ _ _ (by omega)]
  rw [this, hb, hz, List.drop_zero]
  simp

/-! ## C45 -/

/-- The Bloom filter made from `n` keys never misses one of them, and answers `true` exactly when all probes of the query
hit probes of stored keys; this holds for string keys and for integer keys, whatever the buffer contained before.  The filter has
`max 64 (n * b)` bits, rounded up to bytes, and one more byte. -/
theorem C45 (b n : Nat) (hb : b < 2 ^ 31) (hn : n < 2 ^ 31) :
    (∀ keys : List Key, keys.length = n → ∃ filt, filt.length = (max 64 (n * b) + 7) / 8 + 1 ∧
      (∀ dst, createFilter bloomHash b keys n dst = .ok (dst ++ filt)) ∧ (∀ k ∈ keys, keyMayMatch bloomHash k filt = .ok true) ∧
      ∀ q, ∃ r, keyMayMatch bloomHash q filt = .ok r ∧ (r = true ↔ ∀ j < numProbes b, ∃ x ∈ keys, ∃ i < numProbes b,
        probe ((filt.length - 1) * 8) (bloomHash q) j = probe ((filt.length - 1) * 8) (bloomHash x) i)) ∧
    (∀ keys : List (BitVec 64), keys.length = n → ∃ filt, filt.length = (max 64 (n * b) + 7) / 8 + 1 ∧
      (∀ dst, createFilter bloomHashInt b keys n dst = .ok (dst ++ filt)) ∧ (∀ k ∈ keys, keyMayMatch bloomHashInt k filt = .ok true) ∧
      ∀ q, ∃ r, keyMayMatch bloomHashInt q filt = .ok r ∧ (r = true ↔ ∀ j < numProbes b, ∃ x ∈ keys, ∃ i < numProbes b,
        probe ((filt.length - 1) * 8) (bloomHashInt q) j = probe ((filt.length - 1) * 8) (bloomHashInt x) i)) := by
  have hbytes : bloomBytes b n = (max 64 (n * b) + 7) / 8 := by
    unfold bloomBytes
    have : n * b < 18446744073709551616 := by
      calc n * b ≤ 2 ^ 31 * 2 ^ 31 := Nat.mul_le_mul hn.le hb.le
        _ < _ := by decide
    rw [Nat.mod_eq_of_lt this]
    dsimp only
    split <;> congr 2 <;> omega
  have key : ∀ {α : Type} (hash : α → BitVec 32 × BitVec 32) (keys : List α), keys.length = n →
      ∃ filt, filt.length = (max 64 (n * b) + 7) / 8 + 1 ∧
      (∀ dst, createFilter hash b keys n dst = .ok (dst ++ filt)) ∧ (∀ k ∈ keys, keyMayMatch hash k filt = .ok true) ∧
      ∀ q, ∃ r, keyMayMatch hash q filt = .ok r ∧ (r = true ↔ ∀ j < numProbes b, ∃ x ∈ keys, ∃ i < numProbes b,
        probe ((filt.length - 1) * 8) (hash q) j = probe ((filt.length - 1) * 8) (hash x) i) := by
    intro α hash keys hk
    obtain ⟨filt, hl, hc, hq⟩ := bloom_exact hash b keys hk.ge
    rw [List.take_of_length_le hk.le] at hq
    refine ⟨filt, hl.trans (by rw [hbytes]), hc, fun k hkm => ?_, fun q => ⟨_, hq q, ?_⟩⟩
    · rw [hq, decide_eq_true]
      exact fun j hj => ⟨k, hkm, j, hj, rfl⟩
    · rw [decide_eq_true_iff, hl, Nat.add_sub_cancel]
  exact ⟨key bloomHash, key bloomHashInt⟩

/-- An example: the filter of three strings with 10 bits for each key; a stored key, and a query it excludes. -/
theorem bloom_example : (do
    let f ← createFilter bloomHash 10 [[97], [98, 99], [100]] 3 []
    return (f.length, ← keyMayMatch bloomHash [98, 99] f, ← keyMayMatch bloomHash [101] f) : R (Nat × Bool × Bool)) =
    .ok (9, true, false) := by
  decide +kernel

end Surf.Props
