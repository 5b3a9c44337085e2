import Verif.Proof.Built

/-!
# Point queries (C01–C07, C23, C24, C33, C34, C35, C36)

All positive theorems hold for every machine with `Env.strict = false` (x86-64, whatever lies behind
the arrays), with and without `assert`s.
-/

set_option linter.unusedSectionVars false
set_option autoImplicit false

namespace Surf.Props
open Surf

/-! ## Key lists and configurations used in the examples -/

/-- "ab", "abc", "abe", "b", "b" -/
def exKeys : List Key := [[97, 98], [97, 98, 99], [97, 98, 101], [98], [98]]
/-- The default configuration. -/
def cfgNone : Config := {}
/-- 8 real suffix bits -/
def cfgReal : Config := { suffixType := .kReal, realLen := 8 }
/-- 8 hash suffix bits -/
def cfgHash : Config := { suffixType := .kHash, hashLen := 8 }
/-- 4 hash and 12 real suffix bits -/
def cfgMixed : Config := { suffixType := .kMixed, hashLen := 4, realLen := 12 }

/-- The hypotheses of the theorems below are satisfiable, for every suffix type. -/
theorem exSetting : Setting cfgNone exKeys ∧ Setting cfgReal exKeys ∧ Setting cfgHash exKeys ∧ Setting cfgMixed exKeys ∧
    ¬ Spec.SingleFF exKeys := by
  have hv : Spec.Valid exKeys := ⟨by decide, by decide, by decide⟩
  have hf : ∀ n, n ≤ 64 → Spec.Fits n exKeys := fun n hn => fits_of_total hn (by decide)
  refine ⟨⟨by decide, rfl, by decide, hv, hf _ (by decide)⟩, ⟨by decide, rfl, by decide, hv, hf _ (by decide)⟩,
    ⟨by decide, rfl, by decide, hv, hf _ (by decide)⟩, ⟨by decide, rfl, by decide, hv, hf _ (by decide)⟩, ?_⟩
  rintro ⟨k, h1, h2⟩
  have := h1 [98] (by decide)
  subst this
  simp at h2

section
variable [Env] {cfg : Config} {keys : List Key}

/-! ## C01, C35: no false negatives -/

/-- Every stored key is found.  Missing from C01: the case of a single different key starting with
0xFF, for which the claim is false (`C01_refuted`). -/
theorem C01_partial (h : Setting cfg keys) (hs : Env.strict = false) (hff : ¬ Spec.SingleFF keys) :
    ∃ f, Filter.create cfg keys = .ok f ∧ ∀ k ∈ keys, f.lookupKey k = .ok true := by
  obtain ⟨f, e, hl⟩ := h.lookup hs hff
  refine ⟨f, e, fun k hk => ?_⟩
  obtain ⟨r, e1, h1⟩ := hl k
  have hm : Spec.Matches keys k k := ⟨hk, Or.inl rfl⟩
  rcases h1 with ⟨k', hm', rfl⟩ | ⟨hno, -⟩
  · have : k' = k := by
      rcases hm'.2 with h1 | ⟨p, -, -, h3, h4⟩
      · exact h1.symm
      · exact (h4 k hk h3).symm
    subst this
    rw [e1, passes_self hs h.ok]
  · exact absurd hm (hno k)

/-- **C35.** Exactly when are all stored keys found: unless there is a single different key and it
starts with 0xFF.  In that case every non-empty query is answered `false`. -/
theorem C35 (h : Setting cfg keys) (hs : Env.strict = false) :
    ∃ f, Filter.create cfg keys = .ok f ∧
      ((∀ k ∈ keys, f.lookupKey k = .ok true) ↔ ¬ Spec.SingleFF keys) ∧
      (Spec.SingleFF keys → ∀ q, q ≠ [] → f.lookupKey q = .ok false) := by
  by_cases hff : Spec.SingleFF keys
  · obtain ⟨f, e, hl⟩ := h.lookup_ff hs hff
    have hall : ∀ q, q ≠ [] → f.lookupKey q = .ok false := by
      intro q hq
      obtain ⟨r, e1, h1⟩ := hl q
      rw [e1, h1 hq]
    refine ⟨f, e, ⟨fun hk => ?_, fun hc => absurd hff hc⟩, fun _ => hall⟩
    obtain ⟨k, hk'⟩ := List.exists_mem_of_ne_nil _ h.valid.ne
    have := hk k hk'
    rw [hall k (h.valid.nonempty k hk')] at this
    simp at this
  · obtain ⟨f, e, hl⟩ := C01_partial h hs hff
    exact ⟨f, e, ⟨fun _ => hff, fun _ => hl⟩, fun hc => absurd hc hff⟩

/-! ## C02: exact answers without suffixes -/

/-- Without suffixes the answer is `true` exactly for the queries that match a stored key and for those of `ZeroHit`.
Missing from C02: the latter, for which the answer is `true` without a reason (`C02_refuted`), and `SingleFF` lists (C35). -/
theorem C02_partial (h : Setting cfg keys) (hs : Env.strict = false) (hff : ¬ Spec.SingleFF keys)
    (hn : cfg.suffixType = .kNone) :
    ∃ f, Filter.create cfg keys = .ok f ∧ ∀ q, ∃ r, f.lookupKey q = .ok r ∧
      (r = true ↔ (∃ k, Spec.Matches keys k q) ∨ Spec.ZeroHit keys f.getSparseStartLevel q) := by
  obtain ⟨f, e, hl⟩ := h.lookup hs hff
  refine ⟨f, e, fun q => ?_⟩
  obtain ⟨r, e1, h1⟩ := hl q
  refine ⟨r, e1, ?_⟩
  rcases h1 with ⟨k, hm, rfl⟩ | ⟨hno, h2⟩
  · rw [passes_none hn]
    exact ⟨fun _ => Or.inl ⟨k, hm⟩, fun _ => rfl⟩
  · rw [h2]
    exact ⟨fun hr => Or.inr hr.2, fun hr => ⟨hn, hr.resolve_left fun ⟨k, hk⟩ => hno k hk⟩⟩

/-- In particular the answers to all queries without a zero byte are exact. -/
theorem C02_noZero (h : Setting cfg keys) (hs : Env.strict = false) (hff : ¬ Spec.SingleFF keys)
    (hn : cfg.suffixType = .kNone) :
    ∃ f, Filter.create cfg keys = .ok f ∧ ∀ q, 0 ∉ q → ∃ r, f.lookupKey q = .ok r ∧ (r = true ↔ ∃ k, Spec.Matches keys k q) := by
  obtain ⟨f, e, hl⟩ := C02_partial h hs hff hn
  refine ⟨f, e, fun q hq => ?_⟩
  obtain ⟨r, e1, h1⟩ := hl q
  refine ⟨r, e1, ?_⟩
  rw [h1]
  refine ⟨fun hr => hr.resolve_right ?_, Or.inl⟩
  rintro ⟨p, -, -, h2, -⟩
  exact hq (h2.subset (by simp))

/-! ## C03–C05: suffixes -/

/-- All suffix kinds: a positive answer means that a stored key matches and passes the check. -/
theorem lookup_sfx (h : Setting cfg keys) (hs : Env.strict = false) (hff : ¬ Spec.SingleFF keys)
    (hn : cfg.suffixType ≠ .kNone) :
    ∃ f, Filter.create cfg keys = .ok f ∧ ∀ q, ∃ r, f.lookupKey q = .ok r ∧
      (r = true ↔ ∃ k, Spec.Matches keys k q ∧ passes cfg (sfxOf cfg k (Spec.cut keys k)) q (Spec.cut keys k) = true) := by
  obtain ⟨f, e, hl⟩ := h.lookup hs hff
  refine ⟨f, e, fun q => ?_⟩
  obtain ⟨r, e1, h1⟩ := hl q
  refine ⟨r, e1, ?_⟩
  rcases h1 with ⟨k, hm, rfl⟩ | ⟨hno, h2⟩
  · constructor
    · intro hr; exact ⟨k, hm, hr⟩
    · rintro ⟨k', hm', hr⟩
      have : k' = k := by
        have ht := (leaf_match h.wf h.sorted (mem_leaves h.wf h.sorted hm.1)).2 hm
        have ht' := (leaf_match h.wf h.sorted (mem_leaves h.wf h.sorted hm'.1)).2 hm'
        rcases List.prefix_or_prefix_of_prefix ht ht' with h3 | h3
        · exact Trie.leaf_unique h.sorted (mem_leaves h.wf h.sorted hm.1) (mem_uniq.2 hm'.1) (h3.trans (List.take_prefix _ _))
        · exact (Trie.leaf_unique h.sorted (mem_leaves h.wf h.sorted hm'.1) (mem_uniq.2 hm.1) (h3.trans (List.take_prefix _ _))).symm
      subst this
      exact hr
  · constructor
    · intro hr
      exact absurd (h2.1 hr).1 hn
    · rintro ⟨k, hk, -⟩; exact absurd hk (hno k)

/-- **C03.** Real suffixes (`n = cfg.realLen` bits): a positive answer needs a stored key that matches
and whose next `n` bits are missing or zero, or are the next `n` bits of the query.
(For `SingleFF` lists see C35.) -/
theorem C03 (h : Setting cfg keys) (hs : Env.strict = false) (hff : ¬ Spec.SingleFF keys)
    (hn : cfg.suffixType = .kReal) :
    ∃ f, Filter.create cfg keys = .ok f ∧ ∀ q, ∃ r, f.lookupKey q = .ok r ∧
      (r = true ↔ ∃ k, Spec.Matches keys k q ∧
        (Spec.realSuffix0 cfg.realLen k (Spec.cut keys k) = List.replicate cfg.realLen false ∨
          ∃ b, Spec.realSuffix cfg.realLen k (Spec.cut keys k) = some b ∧
            Spec.realSuffix cfg.realLen q (Spec.cut keys k) = some b)) := by
  obtain ⟨f, e, hl⟩ := lookup_sfx h hs hff (by simp [hn])
  refine ⟨f, e, fun q => ?_⟩
  obtain ⟨r, e1, h1⟩ := hl q
  refine ⟨r, e1, h1.trans ?_⟩
  simp only [passes_real h.ok hn]

/-- **C04.** Hash suffixes (`n = cfg.hashLen ≤ 57` bits): a positive answer needs a stored key that
matches and has the same `n` hash bits (bits 7 … 7+n-1 of the 32-bit hash). -/
theorem C04 (h : Setting cfg keys) (hs : Env.strict = false) (hff : ¬ Spec.SingleFF keys)
    (hn : cfg.suffixType = .kHash) (h57 : cfg.hashLen ≤ 57) :
    ∃ f, Filter.create cfg keys = .ok f ∧ ∀ q, ∃ r, f.lookupKey q = .ok r ∧
      (r = true ↔ ∃ k, Spec.Matches keys k q ∧
        (suffixHash k).toNat / 2 ^ 7 % 2 ^ cfg.hashLen = (suffixHash q).toNat / 2 ^ 7 % 2 ^ cfg.hashLen) := by
  obtain ⟨f, e, hl⟩ := lookup_sfx h hs hff (by simp [hn])
  refine ⟨f, e, fun q => ?_⟩
  obtain ⟨r, e1, h1⟩ := hl q
  refine ⟨r, e1, h1.trans ?_⟩
  have h1 : 1 ≤ cfg.hashLen := by have := h.ok.2; rw [hn] at this; exact this
  have hv : ∀ k l, sfxOf cfg k l = BitVec.ofNat 64 ((suffixHash k).toNat / 2 ^ 7 % 2 ^ cfg.hashLen) := by
    intro k l
    unfold sfxOf BitvectorSuffix.constructSuffix
    rw [hn]
    dsimp only
    rw [hash_val k h1 h57]
    rfl
  have hlt : ∀ k : Key, (suffixHash k).toNat / 2 ^ 7 % 2 ^ cfg.hashLen < 2 ^ 64 := by
    intro k
    have h2 := Nat.mod_le ((suffixHash k).toNat / 2 ^ 7) (2 ^ cfg.hashLen)
    have h3 := (suffixHash k).isLt
    have h4 := Nat.div_le_self (suffixHash k).toNat (2 ^ 7)
    omega
  simp only [passes_eq hs h.ok (show cfg.suffixType ≠ .kNone by simp [hn]) (show cfg.suffixType ≠ .kReal by simp [hn]), hv,
    beq_iff_eq]
  constructor
  · rintro ⟨k, hm, he⟩
    refine ⟨k, hm, ?_⟩
    have := congrArg BitVec.toNat he
    rwa [BitVec.toNat_ofNat, BitVec.toNat_ofNat, Nat.mod_eq_of_lt (hlt k), Nat.mod_eq_of_lt (hlt q)] at this
  · rintro ⟨k, hm, he⟩
    exact ⟨k, hm, by rw [he]⟩

/-- **C05.** Mixed suffixes (`h = cfg.hashLen ≤ 57` hash bits, `r = cfg.realLen` real bits): a positive
answer needs a stored key that matches and has the same hash bits and the same real bits as the query;
the real bits of a key that is too short count as zeros. -/
theorem C05 (h : Setting cfg keys) (hs : Env.strict = false) (hff : ¬ Spec.SingleFF keys)
    (hn : cfg.suffixType = .kMixed) (h57 : cfg.hashLen ≤ 57) :
    ∃ f, Filter.create cfg keys = .ok f ∧ ∀ q, ∃ r, f.lookupKey q = .ok r ∧
      (r = true ↔ ∃ k, Spec.Matches keys k q ∧
        (suffixHash k).toNat / 2 ^ 7 % 2 ^ cfg.hashLen = (suffixHash q).toNat / 2 ^ 7 % 2 ^ cfg.hashLen ∧
        Spec.realSuffix0 cfg.realLen k (Spec.cut keys k) = Spec.realSuffix0 cfg.realLen q (Spec.cut keys k)) := by
  obtain ⟨f, e, hl⟩ := lookup_sfx h hs hff (by simp [hn])
  refine ⟨f, e, fun q => ?_⟩
  obtain ⟨r, e1, h1⟩ := hl q
  refine ⟨r, e1, h1.trans ?_⟩
  have h1 : 1 ≤ cfg.hashLen := by have := h.ok.2; rw [hn] at this; exact this
  simp only [passes_eq hs h.ok (show cfg.suffixType ≠ .kNone by simp [hn]) (show cfg.suffixType ≠ .kReal by simp [hn]),
    beq_iff_eq, mixed_eq hs h.ok hn h57]

/-! ## C06: duplicates -/

omit [Env] in
theorem uniq_congr {keys keys' : List Key} (h1 : keys.Pairwise (· ≤ ·)) (h2 : keys'.Pairwise (· ≤ ·))
    (h : ∀ k, k ∈ keys ↔ k ∈ keys') : uniq keys = uniq keys' := by
  have e : (uniq keys).map Trie.w = (uniq keys').map Trie.w := by
    refine Trie.sorted_ext ?_ ?_ ?_
    · rw [List.pairwise_map]
      exact (uniq_sorted h1).imp fun h => Trie.w_lt.2 h
    · rw [List.pairwise_map]
      exact (uniq_sorted h2).imp fun h => Trie.w_lt.2 h
    · intro x
      simp only [List.mem_map, mem_uniq, h]
  exact List.map_injective_iff.2 (fun a b => Trie.w_inj) e

/-- **C06.** Two sorted lists with the same keys, whatever the multiplicities, give the same filter (or
the same failure).  No condition on the machine or the configuration. -/
theorem C06 {keys keys' : List Key} (h1 : keys.Pairwise (· ≤ ·)) (h2 : keys'.Pairwise (· ≤ ·))
    (h : ∀ k, k ∈ keys ↔ k ∈ keys') : Filter.create cfg keys = Filter.create cfg keys' := by
  have e : Builder.buildSparse cfg keys = Builder.buildSparse cfg keys' := by
    unfold Builder.buildSparse
    rw [buildSparseLoop_eq cfg _ _ _ le_rfl, buildSparseLoop_eq cfg _ _ _ le_rfl, uniq_congr h1 h2 h]
  have e2 : decide (keys.length > 0) = decide (keys'.length > 0) := by
    congr 1
    rw [gt_iff_lt, gt_iff_lt, List.length_pos_iff_exists_mem, List.length_pos_iff_exists_mem]
    simp only [h]
  unfold Filter.create Builder.build
  rw [e, e2]

/-! ## C07: the split -/

/-- Exactly when do the answers of filters built with two ratios agree: always, unless there are no suffixes, no
stored key matches the query, and it is a `ZeroHit` for the level at which the second encoding starts in one of the
filters and not in the other.  Missing from C07: these queries (`C07_refuted`) and `SingleFF` lists. -/
theorem C07_partial (h : Setting cfg keys) (hs : Env.strict = false) (hff : ¬ Spec.SingleFF keys) {ratio : Nat}
    (hr : 1 ≤ ratio ∧ ratio < 2 ^ 28) :
    ∃ f f', Filter.create cfg keys = .ok f ∧ Filter.create { cfg with ratio := ratio } keys = .ok f' ∧
      ∀ q, f.lookupKey q = f'.lookupKey q ↔ (cfg.suffixType ≠ .kNone ∨ (∃ k, Spec.Matches keys k q) ∨
        (Spec.ZeroHit keys f.getSparseStartLevel q ↔ Spec.ZeroHit keys f'.getSparseStartLevel q)) := by
  have h' : Setting { cfg with ratio := ratio } keys := ⟨h.ok, h.dense, hr, h.valid, h.fits⟩
  by_cases hn : cfg.suffixType = .kNone
  · obtain ⟨f, e, hl⟩ := C02_partial h hs hff hn
    obtain ⟨f', e', hl'⟩ := C02_partial h' hs hff hn
    refine ⟨f, f', e, e', fun q => ?_⟩
    obtain ⟨r, e1, h1⟩ := hl q
    obtain ⟨r', e1', h1'⟩ := hl' q
    rw [e1, e1', Except.ok.injEq, Bool.eq_iff_iff, h1, h1']
    simp only [hn, ne_eq, not_true_eq_false, false_or]
    tauto
  · obtain ⟨f, e, hl⟩ := lookup_sfx h hs hff hn
    obtain ⟨f', e', hl'⟩ := lookup_sfx h' hs hff hn
    refine ⟨f, f', e, e', fun q => ⟨fun _ => Or.inl hn, fun _ => ?_⟩⟩
    obtain ⟨r, e1, h1⟩ := hl q
    obtain ⟨r', e1', h1'⟩ := hl' q
    rw [e1, e1']
    congr 1
    rw [Bool.eq_iff_iff, h1, h1']
    rfl

/-! ## C23, C24: construction and point queries are well-defined -/

/-- Construction succeeds on x86-64.  Missing from C23: in the strict reading of ISO C++ the code
has undefined behaviour (`C23_refuted`). -/
theorem C23_partial (h : Setting cfg keys) (hs : Env.strict = false) : ∃ f, Filter.create cfg keys = .ok f := by
  by_cases hff : Spec.SingleFF keys
  · obtain ⟨f, e, -⟩ := h.lookup_ff hs hff; exact ⟨f, e⟩
  · obtain ⟨f, e, -⟩ := h.lookup hs hff; exact ⟨f, e⟩

/-- Every point query terminates with an answer on x86-64, with `assert`s enabled or not.  Missing
from C24: in the strict reading label search reads behind the label array (`C24_refuted`). -/
theorem C24_partial (h : Setting cfg keys) (hs : Env.strict = false) :
    ∃ f, Filter.create cfg keys = .ok f ∧ ∀ q, ∃ r, f.lookupKey q = .ok r := by
  by_cases hff : Spec.SingleFF keys
  · obtain ⟨f, e, hl⟩ := h.lookup_ff hs hff
    exact ⟨f, e, fun q => let ⟨r, e1, _⟩ := hl q; ⟨r, e1⟩⟩
  · obtain ⟨f, e, hl⟩ := h.lookup hs hff
    exact ⟨f, e, fun q => let ⟨r, e1, _⟩ := hl q; ⟨r, e1⟩⟩

/-! ## C33: height and split level -/

omit [Env] in
/-- The longest leaf string has the length of the longest stored key. -/
theorem maxLen_stored (h : Setting cfg keys) :
    (∀ k ∈ keys, (Spec.stored keys k).length ≤ Trie.maxLen (leafStrs keys)) ∧
    ∃ k ∈ keys, (Spec.stored keys k).length = Trie.maxLen (leafStrs keys) := by
  have hle : ∀ k ∈ keys, Spec.cut keys k ≤ Trie.maxLen (leafStrs keys) := by
    intro k hk
    obtain ⟨t, hl, ht⟩ := leaf_of_key hk
    rw [← leaf_length h.wf h.sorted hl]
    exact Trie.le_maxLen ht
  refine ⟨fun k hk => ?_, ?_⟩
  · have := hle k hk
    simp [Spec.stored]; omega
  · obtain ⟨t, ht, e⟩ := Trie.exists_maxLen h.wf.ne
    obtain ⟨k, hk, hl, -⟩ := mem_leafStrs ht
    have h1 := leaf_length h.wf h.sorted hl
    by_cases hc : Spec.cut keys k ≤ k.length
    · exact ⟨k, hk, by simp [Spec.stored]; omega⟩
    · -- the key is a prefix of another key
      have h2 := (Trie.leaves_prefix hl).1.length_le
      rw [Trie.w_length] at h2
      have hk0 : 1 ≤ k.length := List.length_pos_of_ne_nil (h.valid.nonempty k hk)
      obtain ⟨p, k', e1, hp1, hk', hne, hp2⟩ := leaf_dropLast h.wf hl (by omega)
      have h3 := congrArg List.length e1
      rw [List.length_dropLast, syms_length] at h3
      have hpk : p = k := hp1.eq_of_length (by omega)
      subst hpk
      have h4 := lt_cut hk hne.symm
      have h5 := common_ge hp2 hp2
      have h6 := common_ge hp2 (List.prefix_refl p)
      have h7 := hle k' hk'
      have h8 : p.length < k'.length := by
        rcases Nat.lt_or_ge p.length k'.length with h | h
        · exact h
        · exact absurd (hp2.eq_of_length_le h).symm hne
      exact ⟨k', hk', by simp [Spec.stored]; omega⟩

/-- **C33.** The height is one more than the length of the longest stored (truncated) key, and the
first sparse level lies strictly between 0 and the height. -/
theorem C33 (h : Setting cfg keys) (hs : Env.strict = false) :
    ∃ f n, Filter.create cfg keys = .ok f ∧ (∀ k ∈ keys, (Spec.stored keys k).length ≤ n) ∧
      (∃ k ∈ keys, (Spec.stored keys k).length = n) ∧
      f.getHeight = n + 1 ∧ 1 ≤ f.getSparseStartLevel ∧ f.getSparseStartLevel < f.getHeight := by
  obtain ⟨g1, g2⟩ := maxLen_stored h
  by_cases hff : Spec.SingleFF keys
  · obtain ⟨f, s, sw, e, hr, -⟩ := h.create_ff hs hff
    have h1 : Trie.maxLen (leafStrs keys) = 1 := by
      rw [(leafStrs_ff h.valid.ne h.valid.nonempty).2 hff]; rfl
    rw [h1] at g1 g2
    have hH := hr.sH
    have hs1 := hr.s1
    refine ⟨f, 1, e, g1, g2, hr.sparse.height, ?_, ?_⟩
    · unfold Filter.getSparseStartLevel; rw [hr.sparse.start]; exact hs1
    · unfold Filter.getSparseStartLevel Filter.getHeight; rw [hr.sparse.start, hr.sparse.height]; omega
  · obtain ⟨f, s, e, hr, -⟩ := h.create hs hff
    have hH := hr.sH
    have hs1 := hr.s1
    refine ⟨f, _, e, g1, g2, hr.sparse.height, ?_, ?_⟩
    · unfold Filter.getSparseStartLevel; rw [hr.sparse.start]; exact hs1
    · unfold Filter.getSparseStartLevel Filter.getHeight; rw [hr.sparse.start, hr.sparse.height]; omega

/-! ## C34: no dense levels -/

omit [Env] in
theorem bind_inv {α β : Type} {x : R α} {g : α → R β} {y : β} (h : x >>= g = .ok y) : ∃ a, x = .ok a ∧ g a = .ok y := by
  cases x with
  | error e => cases h
  | ok a => exact ⟨a, rfl, h⟩

/-- With `include_dense = false` every point query is answered `true`, whatever the keys. -/
theorem C34_refuted (hd : cfg.includeDense = false) {f : Filter} (h : Filter.create cfg keys = .ok f) (q : Key) :
    f.lookupKey q = .ok true := by
  have hh : f.dense.height = 0 := by
    obtain ⟨b, h1, h2⟩ := bind_inv h
    obtain ⟨d, h3, h4⟩ := bind_inv h2
    obtain ⟨sp, h5, h6⟩ := bind_inv h4
    have hb : b.startLevel = 0 := by
      obtain ⟨_, -, h7⟩ := bind_inv h1
      obtain ⟨ls, -, h8⟩ := bind_inv h7
      rw [if_neg (by simp [hd])] at h8
      rw [← Except.ok.inj h8]
    have hdd : d.height = b.startLevel := by
      obtain ⟨_, -, h3⟩ := bind_inv h3
      obtain ⟨_, -, h3⟩ := bind_inv h3
      obtain ⟨_, -, h3⟩ := bind_inv h3
      obtain ⟨_, -, h3⟩ := bind_inv h3
      obtain ⟨_, -, h3⟩ := bind_inv h3
      obtain ⟨_, -, h3⟩ := bind_inv h3
      obtain ⟨_, -, h3⟩ := bind_inv h3
      dsimp only at h3
      split at h3
      · obtain ⟨_, -, h3⟩ := bind_inv h3
        rw [← Except.ok.inj h3]
      · obtain ⟨_, -, h3⟩ := bind_inv h3
        obtain ⟨_, -, h3⟩ := bind_inv h3
        obtain ⟨_, -, h3⟩ := bind_inv h3
        rw [← Except.ok.inj h3]
    rw [← Except.ok.inj h6]
    exact hdd.trans hb
  unfold Filter.lookupKey LoudsDense.lookupKey
  rw [hh]
  rfl

end
end Surf.Props
