import Verif.Proof.Built
import Verif.Props.Vectors

/-!
# The keys that are the numbers below a multiple of 65536, written with 4 bytes
-/

set_option linter.unusedSectionVars false
set_option autoImplicit false

namespace Surf
open Trie Props

/-- `n` written with `k` bytes, most significant byte first. -/
def be (k n : Nat) : Key := (leBytes k n).reverse

/-- The byte of lowest value. -/
def lowByte (n : Nat) : UInt8 := UInt8.ofNat (n % 256)

/-- All numbers below `m`. -/
def numKeys (m : Nat) : List Key := (List.range m).map (be 4)

theorem be_succ (k n : Nat) : be (k + 1) n = be k (n / 256) ++ [lowByte n] := by simp [be, leBytes, lowByte]

theorem be_length (k n : Nat) : (be k n).length = k := by simp [be, leBytes_length]

theorem be_inj {k m n : Nat} (hm : m < 256 ^ k) (hn : n < 256 ^ k) (h : be k m = be k n) : m = n :=
  leBytes_rev_inj k hm hn (List.reverse_inj.1 h)

theorem be_take (k i n : Nat) : (be (k + i) n).take k = be k (n / 256 ^ i) := by
  induction i generalizing n with
  | zero => simp [List.take_of_length_le, be_length]
  | succ i ih =>
    rw [← Nat.add_assoc, be_succ, List.take_append_of_le_length (by rw [be_length]; omega), ih, Nat.div_div_eq_div_mul, Nat.pow_succ',]

theorem be_get (k i n : Nat) : (be (k + i + 1) n)[k]? = some (lowByte (n / 256 ^ i)) := by
  induction i generalizing n with
  | zero => rw [Nat.add_zero, be_succ, List.getElem?_append_right (by rw [be_length])]; simp [be_length]
  | succ i ih =>
    rw [be_succ, List.getElem?_append_left (by rw [be_length]; omega), ← Nat.add_assoc, ih, Nat.div_div_eq_div_mul, Nat.pow_succ']

theorem mem_numKeys {m : Nat} {k : Key} : k ∈ numKeys m ↔ ∃ n, n < m ∧ k = be 4 n := by
  simp only [numKeys, List.mem_map, List.mem_range]
  exact ⟨fun ⟨n, h, e⟩ => ⟨n, h, e.symm⟩, fun ⟨n, h, e⟩ => ⟨n, h, e.symm⟩⟩

theorem numKeys_valid {m : Nat} (h0 : 0 < m) (hm : m ≤ 2 ^ 32) : Spec.Valid (numKeys m) := by
  refine ⟨?_, ?_, ?_⟩
  · intro h
    have := congrArg List.length h
    simp [numKeys] at this
    omega
  · unfold numKeys
    rw [List.pairwise_map]
    refine List.Pairwise.imp_of_mem ?_ List.pairwise_lt_range
    intro a b ha hb hab
    have ha := List.mem_range.1 ha
    have hb := List.mem_range.1 hb
    exact List.le_of_lt ((leBytes_rev_lt 4 (by omega) (by omega)).2 hab)
  · intro k hk
    obtain ⟨n, -, rfl⟩ := mem_numKeys.1 hk
    intro h
    have := congrArg List.length h
    rw [be_length] at this
    simp at this

/-- A prefix of a key is a shorter number. -/
theorem be_prefix {p : Key} {n : Nat} (h : p <+: be 4 n) : p.length ≤ 4 ∧ p = be p.length (n / 256 ^ (4 - p.length)) := by
  have h1 := h.length_le
  rw [be_length] at h1
  refine ⟨h1, ?_⟩
  have h2 := List.prefix_iff_eq_take.1 h
  rw [← be_take, show p.length + (4 - p.length) = 4 by omega]
  exact h2

theorem prefix_be {j n : Nat} (hj : j ≤ 4) : be j (n / 256 ^ (4 - j)) <+: be 4 n := by
  rw [← be_take, show j + (4 - j) = 4 by omega]
  exact List.take_prefix _ _

theorem numKeys_shared {c : Nat} (hm : 256 * c ≤ 2 ^ 32) {p : Key} :
    Spec.Shared (numKeys (256 * c)) p ↔ ∃ j n, j ≤ 3 ∧ n < 256 * c ∧ p = be j (n / 256 ^ (4 - j)) := by
  constructor
  · rintro ⟨k, hk, k', hk', hne, h1, h2⟩
    obtain ⟨n, hn, rfl⟩ := mem_numKeys.1 hk
    obtain ⟨n', hn', rfl⟩ := mem_numKeys.1 hk'
    obtain ⟨g1, g2⟩ := be_prefix h1
    rcases Nat.eq_or_lt_of_le g1 with e | e
    · have a := h1.eq_of_length (by rw [be_length, e])
      have b := h2.eq_of_length (by rw [be_length, e])
      exact absurd (a.symm.trans b) hne
    · exact ⟨p.length, n, by omega, hn, g2⟩
  · rintro ⟨j, n, hj, hn, rfl⟩
    refine ⟨be 4 (256 * (n / 256)), mem_numKeys.2 ⟨_, by omega, rfl⟩, be 4 (256 * (n / 256) + 1), mem_numKeys.2 ⟨_, by omega, rfl⟩, ?_, ?_, ?_⟩
    · intro h
      have := be_inj (by omega) (by omega) h
      omega
    · have e : n / 256 ^ (4 - j) = 256 * (n / 256) / 256 ^ (4 - j) := by
        rw [show 4 - j = (3 - j) + 1 by omega, Nat.pow_succ', ← Nat.div_div_eq_div_mul, ← Nat.div_div_eq_div_mul, Nat.mul_div_cancel_left _ (by decide)]
      rw [e]
      exact prefix_be (by omega)
    · have e : n / 256 ^ (4 - j) = (256 * (n / 256) + 1) / 256 ^ (4 - j) := by
        rw [show 4 - j = (3 - j) + 1 by omega, Nat.pow_succ', ← Nat.div_div_eq_div_mul, ← Nat.div_div_eq_div_mul]
        congr 1
        omega
      rw [e]
      exact prefix_be (by omega)

/-- The branches of these keys. -/
def numBranches (M l : Nat) : List (Key × Option UInt8) :=
  (List.range' l (4 - l)).flatMap fun j => (List.range (65536 * M / 256 ^ (3 - j))).map fun r => (be j (r / 256), some (lowByte r))

theorem numKeys_branches {M l : Nat} (hM : M ≤ 65536) (hl : 1 ≤ l) : (Spec.branches (numKeys (65536 * M)) l).Perm (numBranches M l) := by
  have hc : 65536 * M = 256 * (256 * M) := by omega
  have hsh : ∀ p, Spec.Shared (numKeys (65536 * M)) p ↔ ∃ j n, j ≤ 3 ∧ n < 65536 * M ∧ p = be j (n / 256 ^ (4 - j)) := by
    intro p
    rw [hc]
    exact numKeys_shared (by omega)
  have hdvd : ∀ j r, 1 ≤ j → j ≤ 3 → (r < 65536 * M / 256 ^ (3 - j) ↔ r * 256 ^ (3 - j) < 65536 * M) := by
    intro j r h1 h3
    have : j = 1 ∨ j = 2 ∨ j = 3 := by omega
    rcases this with rfl | rfl | rfl
    · show r < 65536 * M / 65536 ↔ r * 65536 < _; omega
    · show r < 65536 * M / 256 ↔ r * 256 < _; omega
    · show r < 65536 * M / 1 ↔ r * 1 < _; omega
  unfold Spec.branches
  rw [List.perm_ext_iff_of_nodup (List.nodup_dedup _)]
  · rintro ⟨p, o⟩
    simp only [numBranches, List.mem_dedup, List.mem_flatMap, List.mem_map, List.mem_filter, List.mem_inits, decide_eq_true_eq,
      hsh, Prod.mk.injEq, List.mem_range'_1, List.mem_range]
    constructor
    · rintro ⟨k, hk, q, ⟨hq, h1, j, n', hj, hn', e⟩, rfl, rfl⟩
      obtain ⟨n, hn, rfl⟩ := mem_numKeys.1 hk
      obtain ⟨g1, g2⟩ := be_prefix hq
      have hj' : q.length ≤ 3 := by rw [e, be_length]; exact hj
      refine ⟨q.length, ⟨h1, by omega⟩, n / 256 ^ (3 - q.length), ?_, ?_, ?_⟩
      · rw [hdvd _ _ (by omega) hj']
        have := Nat.div_mul_le_self n (256 ^ (3 - q.length))
        omega
      · rw [Nat.div_div_eq_div_mul, ← Nat.pow_succ, show (3 - q.length).succ = 4 - q.length by omega]
        exact g2.symm
      · have := be_get q.length (3 - q.length) n
        rw [show q.length + (3 - q.length) + 1 = 4 by omega] at this
        exact this.symm
    · rintro ⟨j, ⟨h1, h2⟩, r, hr, rfl, rfl⟩
      rw [hdvd _ _ (by omega) (by omega)] at hr
      have e1 : r * 256 ^ (3 - j) / 256 ^ (3 - j) = r := Nat.mul_div_cancel _ (Nat.pow_pos (by decide))
      have e2 : r * 256 ^ (3 - j) / 256 ^ (4 - j) = r / 256 := by
        rw [show 4 - j = (3 - j).succ by omega, Nat.pow_succ, ← Nat.div_div_eq_div_mul, e1]
      refine ⟨be 4 (r * 256 ^ (3 - j)), mem_numKeys.2 ⟨_, hr, rfl⟩, be j (r / 256), ⟨?_, by rw [be_length]; exact h1, j, r * 256 ^ (3 - j), by omega, hr, by rw [e2]⟩,
        rfl, ?_⟩
      · rw [← e2]; exact prefix_be (by omega)
      · have := be_get j (3 - j) (r * 256 ^ (3 - j))
        rw [show j + (3 - j) + 1 = 4 by omega, e1] at this
        rw [be_length]
        exact this
  · unfold numBranches
    rw [List.nodup_flatMap]
    constructor
    · intro j hj
      have hj := List.mem_range'_1.1 hj
      refine List.Nodup.map_on ?_ List.nodup_range
      intro a ha b hb h
      have ha := List.mem_range.1 ha
      have hb := List.mem_range.1 hb
      rw [hdvd _ _ (by omega) (by omega)] at ha hb
      have h4 : be (j + 1) a = be (j + 1) b := by
        rw [be_succ, be_succ, (Prod.mk.inj h).1, Option.some.inj (Prod.mk.inj h).2]
      have hp : 256 ^ (j + 1) * 256 ^ (3 - j) = 256 ^ 4 := by
        rw [← Nat.pow_add]; congr 1; omega
      have hb4 : 65536 * M ≤ 256 ^ (j + 1) * 256 ^ (3 - j) := by rw [hp]; omega
      exact be_inj (Nat.lt_of_mul_lt_mul_right (lt_of_lt_of_le ha hb4)) (Nat.lt_of_mul_lt_mul_right (lt_of_lt_of_le hb hb4)) h4
    · refine List.Pairwise.imp ?_ (List.nodup_range' (s := l) (n := 4 - l))
      intro a b hab x hx hy
      simp only [List.mem_map] at hx hy
      obtain ⟨r, -, rfl⟩ := hx
      obtain ⟨r', -, e⟩ := hy
      have := congrArg (fun x => x.1.length) e
      simp only [be_length] at this
      exact hab this.symm

theorem numBranches_length (M l : Nat) : (numBranches M l).length = ((List.range' l (4 - l)).map fun j => 65536 * M / 256 ^ (3 - j)).sum := by
  unfold numBranches
  rw [List.length_flatMap]
  simp

theorem numKeys_shares {M : Nat} (hM : M ≤ 65536) : (Spec.sharedPrefixes (numKeys (65536 * M))).length ≤ 257 * M + 261 := by
  have hc : 65536 * M = 256 * (256 * M) := by omega
  have h3 : (Spec.sharedPrefixes (numKeys (65536 * M))).Subperm
      ((List.range 4).flatMap fun j => (List.range (65536 * M / 256 ^ (4 - j) + 1)).map (be j)) := by
    refine ((List.nodup_dedup _).filter _).subperm ?_
    intro p hp
    have hp := mem_sharedPrefixes.1 hp
    rw [hc] at hp ⊢
    obtain ⟨j, n, hj, hn, rfl⟩ := (numKeys_shared (by omega)).1 hp
    refine List.mem_flatMap.2 ⟨j, List.mem_range.2 (by omega), List.mem_map.2 ⟨_, List.mem_range.2 ?_, rfl⟩⟩
    exact Nat.lt_succ_of_le (Nat.div_le_div_right (by omega))
  have h4 := h3.length_le
  rw [List.length_flatMap] at h4
  simp only [List.length_map, List.length_range] at h4
  have e : ((List.range 4).map fun j => 65536 * M / 256 ^ (4 - j) + 1).sum =
      65536 * M / 4294967296 + 1 + (65536 * M / 16777216 + 1 + (65536 * M / 65536 + 1 + (65536 * M / 256 + 1 + 0))) := rfl
  rw [e] at h4
  omega

/-- The numbers below `65536 * M` can be stored if the array for the labels is large enough. -/
theorem numKeys_fits {M : Nat} (h0 : 1 ≤ M) (hM : M ≤ 65000) (r1 : Spec.Room (65793 * M + 1)) (r2 : Spec.Room (65792 * M + 1))
    (r3 : Spec.Room (65536 * M + 1)) : Spec.Fits0 0 (numKeys (65536 * M)) := by
  have hn := numKeys_shares (M := M) (by omega)
  have hl : (numKeys (65536 * M)).length = 65536 * M := by simp [numKeys]
  refine ⟨⟨by omega, ?_, by omega, by omega, by omega⟩, ?_⟩
  · intro k hk
    obtain ⟨n, -, rfl⟩ := mem_numKeys.1 hk
    rw [be_length]; omega
  · intro l h1
    rw [(numKeys_branches (by omega) h1).length_eq, numBranches_length]
    by_cases h4 : 4 ≤ l
    · rw [show 4 - l = 0 by omega]
      exact Or.inl (show 0 + 1 < 64 by decide)
    · have : l = 1 ∨ l = 2 ∨ l = 3 := by omega
      rcases this with rfl | rfl | rfl
      · have e : ((List.range' 1 (4 - 1)).map fun j => 65536 * M / 256 ^ (3 - j)).sum =
          65536 * M / 65536 + (65536 * M / 256 + (65536 * M / 1 + 0)) := rfl
        rw [e, show 65536 * M / 65536 + (65536 * M / 256 + (65536 * M / 1 + 0)) = 65793 * M by omega]
        exact r1
      · have e : ((List.range' 2 (4 - 2)).map fun j => 65536 * M / 256 ^ (3 - j)).sum =
          65536 * M / 256 + (65536 * M / 1 + 0) := rfl
        rw [e, show 65536 * M / 256 + (65536 * M / 1 + 0) = 65792 * M by omega]
        exact r2
      · have e : ((List.range' 3 (4 - 3)).map fun j => 65536 * M / 256 ^ (3 - j)).sum = 65536 * M / 1 + 0 := rfl
        rw [e, show 65536 * M / 1 + 0 = 65536 * M by omega]
        exact r3

end Surf
