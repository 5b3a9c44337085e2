import Verif.Props.RangeExact

/-!
# Ranges of one key and point queries (C77), wider ranges (C78), empty ranges (C80)
-/

set_option autoImplicit false
set_option maxRecDepth 1000000
set_option linter.unusedSectionVars false

namespace Surf.Props
open Surf Trie

/-! ## Strings between two strings with a common beginning -/

theorem key_le_iff {a b : Key} : a ≤ b ↔ ¬ b < a := Iff.rfl

theorem prefix_between {p a b k : Key} (ha : p <+: a) (hk : p <+: k) (h1 : a ≤ b) (h2 : b ≤ k) : p <+: b := by
  induction p generalizing a b k with
  | nil => exact List.nil_prefix
  | cons x p ih =>
    obtain ⟨a', rfl⟩ := ha
    obtain ⟨k', rfl⟩ := hk
    cases b with
    | nil => exact absurd h1 (by simp)
    | cons y b =>
      simp only [List.cons_append, List.cons_le_cons_iff] at h1 h2
      have hxy : x = y := by
        rcases h1 with h1 | h1
        · rcases h2 with h2 | h2
          · exact absurd (UInt8.lt_trans h1 h2) (UInt8.lt_irrefl _)
          · exact h2.1.symm
        · exact h1.1
      subst hxy
      have g1 := h1.resolve_left (UInt8.lt_irrefl _)
      have g2 := h2.resolve_left (UInt8.lt_irrefl _)
      exact List.cons_prefix_cons.2 ⟨rfl, ih (List.prefix_append _ _) (List.prefix_append _ _) g1.2 g2.2⟩

theorem drop_le {p a b : Key} (ha : p <+: a) (hb : p <+: b) (h : a ≤ b) : a.drop p.length ≤ b.drop p.length := by
  induction p generalizing a b with
  | nil => exact h
  | cons x p ih =>
    obtain ⟨a', rfl⟩ := ha
    obtain ⟨b', rfl⟩ := hb
    simp only [List.cons_append, List.cons_le_cons_iff] at h
    have g := h.resolve_left (UInt8.lt_irrefl _)
    exact ih (List.prefix_append _ _) (List.prefix_append _ _) g.2

/-- The first byte, 0 if there is none. -/
def firstByte (k : Key) : Nat := (k.head?.getD 0).toNat

theorem firstByte_mono {a b : Key} (h : a ≤ b) : firstByte a ≤ firstByte b := by
  unfold firstByte
  cases a with
  | nil => simp
  | cons x a =>
    cases b with
    | nil => exact absurd h (by simp)
    | cons y b =>
      simp only [List.cons_le_cons_iff] at h
      simp only [List.head?_cons, Option.getD_some]
      rcases h with h | h
      · exact Nat.le_of_lt (UInt8.lt_iff_toNat_lt.1 h)
      · rw [h.1]

theorem real_first {n : Nat} (hn : n ≤ 8) (k : Key) (c : Nat) :
    Spec.realSuffix0 n k c = (List.range n).map fun i => (firstByte (k.drop c)).testBit (7 - i) := by
  unfold Spec.realSuffix0 Spec.realSuffix firstByte
  cases hd : k.drop c with
  | nil =>
    have hl : k.length ≤ c := by simpa using hd
    have hz : (List.range n).map (fun i => Nat.testBit ((([] : Key).head?.getD 0).toNat) (7 - i)) = List.replicate n false := by
      apply List.ext_getElem (by simp)
      intro i h1 h2
      simp
    rw [hz]
    split
    · rename_i h
      have : n = 0 := by omega
      subst this
      rfl
    · rfl
  | cons x r =>
    have hl : c < k.length := by
      by_contra hc
      rw [List.drop_of_length_le (by omega)] at hd
      cases hd
    rw [if_pos (by omega)]
    simp only [Option.getD_some, List.head?_cons]
    have hb : Spec.bits (x :: r) = Spec.byteBits x ++ Spec.bits r := by unfold Spec.bits; rw [List.flatMap_cons]
    have hx : Spec.byteBits x = (List.range 8).map fun i => x.toNat.testBit (7 - i) := rfl
    rw [hb, hx, List.take_append_of_le_length (by simpa using hn), ← List.map_take, List.take_range, Nat.min_eq_left hn]

theorem real_between {n : Nat} (hn : n ≤ 8) {a b k : Key} {c : Nat} (h1 : firstByte (a.drop c) ≤ firstByte (b.drop c))
    (h2 : firstByte (b.drop c) ≤ firstByte (k.drop c)) (h : Spec.realSuffix0 n k c = Spec.realSuffix0 n a c) :
    Spec.realSuffix0 n k c = Spec.realSuffix0 n b c := by
  rw [real_first hn, real_first hn] at *
  generalize firstByte (a.drop c) = x at *
  generalize hz : firstByte (k.drop c) = z at *
  generalize firstByte (b.drop c) = y at *
  have hz256 : z < 256 := by rw [← hz]; exact UInt8.toNat_lt _
  have hbits : ∀ i < n, z.testBit (7 - i) = x.testBit (7 - i) := by
    intro i hi
    have := List.getElem_of_eq h (i := i) (by simpa using hi)
    simpa using this
  have hdiv : z / 2 ^ (8 - n) = x / 2 ^ (8 - n) := by
    apply Nat.eq_of_testBit_eq
    intro j
    rw [Nat.testBit_div_two_pow, Nat.testBit_div_two_pow]
    by_cases hj : j < n
    · have := hbits (n - 1 - j) (by omega)
      have e : 7 - (n - 1 - j) = j + (8 - n) := by omega
      rwa [e] at this
    · have hlt : ∀ v, v < 256 → v.testBit (j + (8 - n)) = false := fun v hv =>
        Nat.testBit_lt_two_pow (lt_of_lt_of_le hv (show 2 ^ 8 ≤ _ from Nat.pow_le_pow_right (by omega) (by omega)))
      rw [hlt z hz256, hlt x (by omega)]
  have h3 : x / 2 ^ (8 - n) ≤ y / 2 ^ (8 - n) := Nat.div_le_div_right h1
  have h4 : y / 2 ^ (8 - n) ≤ z / 2 ^ (8 - n) := Nat.div_le_div_right h2
  have hy : z / 2 ^ (8 - n) = y / 2 ^ (8 - n) := by omega
  apply List.map_congr_left
  intro i hi
  have hi := List.mem_range.1 hi
  have e : 7 - i = (n - 1 - i) + (8 - n) := by omega
  rw [e, ← Nat.testBit_div_two_pow, ← Nat.testBit_div_two_pow, hy]

theorem cut_le_unique {keys : List Key} {k p : Key} (hp : p ≠ []) (hpk : p <+: k) (hu : ∀ k' ∈ keys, p <+: k' → k' = k) : Spec.cut keys k ≤ p.length := by
  have hpos := List.length_pos_iff.2 hp
  have := cut_le (keys := keys) (k := k) (n := p.length - 1) fun k' hk' hne => by
    by_contra hc
    apply hne
    apply hu k' hk'
    have h1 := common_take k k'
    have h2 : p = k.take p.length := List.prefix_iff_eq_take.1 hpk
    rw [h2]
    exact (List.take_prefix_take_left (by omega)).trans h1
  omega

/-- What lies between a stored key and a string that is close to it is close to it, too. -/
theorem close_between {n : Nat} (hn : n ≤ 8) {keys : List Key} {k a b : Key} (h : Spec.Close n keys k a)
    (hb : (a ≤ b ∧ b ≤ k) ∨ (k ≤ b ∧ b ≤ a)) : Spec.Close n keys k b := by
  obtain ⟨⟨hk, h1 | ⟨p, hp, hpk, hpa, hu⟩⟩, h2⟩ := h
  · subst h1
    have : b = a := by rcases hb with ⟨g1, g2⟩ | ⟨g1, g2⟩ <;> exact List.le_antisymm (by assumption) (by assumption)
    subst this
    exact ⟨⟨hk, Or.inl rfl⟩, rfl⟩
  · have hpb : p <+: b := by
      rcases hb with ⟨g1, g2⟩ | ⟨g1, g2⟩
      · exact prefix_between hpa hpk g1 g2
      · exact prefix_between hpk hpa g1 g2
    refine ⟨⟨hk, Or.inr ⟨p, hp, hpk, hpb, hu⟩⟩, ?_⟩
    have hc := cut_le_unique hp hpk hu
    have hlen : (p.take (Spec.cut keys k)).length = Spec.cut keys k := by rw [List.length_take]; omega
    have hq : p.take (Spec.cut keys k) <+: p := List.take_prefix _ _
    have key : ∀ {x y : Key}, p <+: x → p <+: y → x ≤ y → firstByte (x.drop (Spec.cut keys k)) ≤ firstByte (y.drop (Spec.cut keys k)) := by
      intro x y hx hy hxy
      have := drop_le (hq.trans hx) (hq.trans hy) hxy
      rw [hlen] at this
      exact firstByte_mono this
    rcases hb with ⟨g1, g2⟩ | ⟨g1, g2⟩
    · exact real_between hn (key hpa hpb g1) (key hpb hpk g2) h2
    · exact h2.trans (real_between hn (key hpk hpb g1) (key hpb hpa g2) h2.symm)

section
variable [Env] {cfg : Config} {keys : List Key}

/-! ## C78: wider ranges -/

/-- Without prefixes among the keys and with at most 8 real suffix bits: a range query that answers `true` still does so
when its left bound is lowered and its right bound raised, whatever bounds are included.
Missing: key lists with prefixes (`C78_refuted`), more than 8 real bits (`C78_left_refuted`), left bounds outside `SafeSeek`. -/
theorem C78_partial (h : Setting cfg keys) (hs : Env.strict = false) (hff : ¬ Spec.SingleFF keys) (hpf : Spec.PrefixFree keys)
    (h8 : realBits cfg ≤ 8) :
    ∃ f, SuRF.create cfg keys = .ok ⟨f, Iter.new f, Iter.new f⟩ ∧ ∀ l l' r r' li li' ri ri', l' ≤ l → r ≤ r' →
      SafeSeek cfg keys f.getSparseStartLevel l → SafeSeek cfg keys f.getSparseStartLevel l' → r.length < 2 ^ 64 → r'.length < 2 ^ 64 →
      (∀ k ∈ keys, r <+: k → (Spec.stored keys k).length < r.length + 2018) →
      (∀ k ∈ keys, r' <+: k → (Spec.stored keys k).length < r'.length + 2018) →
      ∃ b b' o o', SuRF.lookupRange ⟨f, Iter.new f, Iter.new f⟩ l li r ri = .ok (b, o) ∧
        SuRF.lookupRange ⟨f, Iter.new f, Iter.new f⟩ l' li' r' ri' = .ok (b', o') ∧ (b = true → b' = true) := by
  obtain ⟨f, e, hf⟩ := C55_free_partial h hs hff hpf
  have hsx : ∀ q, Suffixes cfg keys q := suffixes_of_le fun hc => by unfold realBits at h8; rwa [if_pos hc] at h8
  refine ⟨f, e, fun l l' r r' li li' ri ri' hl hr q1 q2 n1 n2 far1 far2 => ?_⟩
  obtain ⟨b, o, e1, g1⟩ := hf l li r ri q1 n1 (hsx _) far1
  obtain ⟨b', o', e2, g2⟩ := hf l' li' r' ri' q2 n2 (hsx _) far2
  refine ⟨b, b', o, o', e1, e2, fun hb => g2.2 ?_⟩
  obtain ⟨k, hk, c1, c2⟩ := g1.1 hb
  refine ⟨k, hk, ?_, ?_⟩
  · by_cases hlt : l' < k
    · exact Or.inl hlt
    right
    rcases c1 with c1 | c1
    · exact absurd (w_lt.1 (lt_of_le_of_lt (w_le.2 hl) (w_lt.2 c1))) hlt
    · exact close_between h8 c1 (Or.inr ⟨hlt, hl⟩)
  · by_cases hlt : k < r'
    · exact Or.inl hlt
    right
    rcases c2 with c2 | c2
    · exact absurd (w_lt.1 (lt_of_lt_of_le (w_lt.2 c2) (w_le.2 hr))) hlt
    · exact close_between h8 c2 (Or.inl ⟨hr, hlt⟩)

/-- Any key list, also with prefixes: lowering the left bound alone keeps a positive answer, if the left bound is included and the
narrower range is not empty.  Missing: more than 8 real bits (`C78_left_refuted`), excluded left bounds, left bounds outside `SafeSeek`. -/
theorem C78_left_partial (h : Setting cfg keys) (hs : Env.strict = false) (hff : ¬ Spec.SingleFF keys) (h8 : realBits cfg ≤ 8) :
    ∃ f, SuRF.create cfg keys = .ok ⟨f, Iter.new f, Iter.new f⟩ ∧ ∀ l l' r ri, l' ≤ l → l ≤ r →
      SafeSeek cfg keys f.getSparseStartLevel l → SafeSeek cfg keys f.getSparseStartLevel l' → r.length < 2 ^ 64 →
      ∃ b b' o o', SuRF.lookupRange ⟨f, Iter.new f, Iter.new f⟩ l true r ri = .ok (b, o) ∧
        SuRF.lookupRange ⟨f, Iter.new f, Iter.new f⟩ l' true r ri = .ok (b', o') ∧ (b = true → b' = true) := by
  obtain ⟨f, s, e, hr, hpad⟩ := h.create hs hff
  have hsx : ∀ q, Suffixes cfg keys q := suffixes_of_le fun hc => by unfold realBits at h8; rwa [if_pos hc] at h8
  have hst : f.getSparseStartLevel = s := hr.sparse.start
  refine ⟨f, by unfold SuRF.create; rw [e]; rfl, fun l l' r ri hl hlr q1 q2 n1 => ?_⟩
  rw [hst] at q1 q2
  obtain ⟨b, o, e1, -, g1⟩ := range_land h hs hr hpad true ri q1 n1 (hsx _)
  obtain ⟨b', o', e2, -, g2⟩ := range_land h hs hr hpad true ri q2 n1 (hsx _)
  obtain ⟨g1, -⟩ := g1 (Or.inl rfl)
  obtain ⟨g2, g3⟩ := g2 (Or.inl rfl)
  refine ⟨b, b', o, o', e1, e2, fun hb => g2.2 ?_⟩
  obtain ⟨k, hf, hend⟩ := g1.1 hb
  have hk : l' < k ∨ Spec.Close (realBits cfg) keys k l' := by
    by_cases hlt : l' < k
    · exact Or.inl hlt
    right
    rcases hf.2.1 with c1 | c1
    · exact absurd (w_lt.1 (lt_of_le_of_lt (w_le.2 hl) (w_lt.2 c1))) hlt
    · exact close_between h8 c1 (Or.inr ⟨hlt, hl⟩)
  obtain ⟨k', hf'⟩ := g3 ⟨k, hf.1, hk⟩
  refine ⟨k', hf', ?_⟩
  by_cases hc : l < k' ∨ Spec.Close (realBits cfg) keys k' l
  · have : k' = k := List.le_antisymm (hf'.2.2 k hf.1 hk) (hf.2.2 k' hf'.1 hc)
    rw [this]
    exact hend
  · left
    have h1 : k' ≤ l := fun g => hc (Or.inl g)
    have h2 : k' ≠ l := fun g => hc (Or.inr (g ▸ close_self hf'.1))
    exact w_lt.1 (lt_of_lt_of_le (lt_of_le_of_ne (w_le.2 h1) fun g => h2 (w_inj g)) (w_le.2 hlr))

/-! ## C80: empty ranges -/

/-- Without prefixes among the keys and with at most 8 real suffix bits: a range whose right bound is not above its left bound answers `true`
exactly if one stored key is close to both bounds, that is, if the filter cannot tell any of the three apart.
Missing: that it answers `false` (`C80_refuted`, `C80_excluded_refuted`), key lists with prefixes (`C80_prefix_refuted`), more real bits,
left bounds outside `SafeSeek`. -/
theorem C80_partial (h : Setting cfg keys) (hs : Env.strict = false) (hff : ¬ Spec.SingleFF keys) (hpf : Spec.PrefixFree keys)
    (h8 : realBits cfg ≤ 8) :
    ∃ f, SuRF.create cfg keys = .ok ⟨f, Iter.new f, Iter.new f⟩ ∧ ∀ l li r ri, r ≤ l →
      SafeSeek cfg keys f.getSparseStartLevel l → r.length < 2 ^ 64 →
      (∀ k ∈ keys, r <+: k → (Spec.stored keys k).length < r.length + 2018) →
      ∃ b o, SuRF.lookupRange ⟨f, Iter.new f, Iter.new f⟩ l li r ri = .ok (b, o) ∧
        (b = true ↔ ∃ k, Spec.Close (realBits cfg) keys k l ∧ Spec.Close (realBits cfg) keys k r) := by
  obtain ⟨f, e, hf⟩ := C55_free_partial h hs hff hpf
  have hsx : ∀ q, Suffixes cfg keys q := suffixes_of_le fun hc => by unfold realBits at h8; rwa [if_pos hc] at h8
  refine ⟨f, e, fun l li r ri hrl q1 n1 far => ?_⟩
  obtain ⟨b, o, e1, g⟩ := hf l li r ri q1 n1 (hsx _) far
  refine ⟨b, o, e1, g.trans ⟨?_, fun ⟨k, c1, c2⟩ => ⟨k, c1.1.1, Or.inr c1, Or.inr c2⟩⟩⟩
  rintro ⟨k, -, c1, c2⟩
  have hrl' := w_le.2 hrl
  rcases c1 with c1 | c1
  · have c1' := w_lt.2 c1
    rcases c2 with c2 | c2
    · exact absurd ((w_lt.2 c2).trans_le hrl') (lt_asymm c1')
    · exact ⟨k, close_between h8 c2 (Or.inl ⟨hrl, w_le.1 c1'.le⟩), c2⟩
  · rcases c2 with c2 | c2
    · exact ⟨k, c1, close_between h8 c1 (Or.inr ⟨w_le.1 (w_lt.2 c2).le, hrl⟩)⟩
    · exact ⟨k, c1, c2⟩

/-! ## C77: ranges of one key -/

omit [Env] in
theorem real_zero (k : Key) (c : Nat) : Spec.realSuffix0 0 k c = [] := by
  unfold Spec.realSuffix0 Spec.realSuffix
  split <;> rfl

/-- The range from a key to itself, both included, answers `true` whenever the point query does, for filters without
suffixes, with hash suffixes and with mixed ones (up to 57 hash bits).
Missing: real suffixes (`C77_real_refuted`), and queries outside `SafeSeek`. -/
theorem C77_partial (h : Setting cfg keys) (hs : Env.strict = false) (hff : ¬ Spec.SingleFF keys)
    (hreal : cfg.suffixType ≠ .kReal) (h57 : cfg.suffixType = .kMixed → cfg.hashLen ≤ 57) :
    ∃ f, SuRF.create cfg keys = .ok ⟨f, Iter.new f, Iter.new f⟩ ∧ ∀ q ri, SafeSeek cfg keys f.getSparseStartLevel q →
      q.length < 2 ^ 64 →
      ∃ p r o', f.lookupKey q = .ok p ∧ SuRF.lookupRange ⟨f, Iter.new f, Iter.new f⟩ q true q ri = .ok (r, o') ∧
        (p = true → r = true) := by
  have hlook : ∃ f, Filter.create cfg keys = .ok f ∧ ∀ q, (cfg.suffixType = .kNone → ¬ Spec.ZeroHit keys f.getSparseStartLevel q) →
      ∃ p, f.lookupKey q = .ok p ∧ (p = true → ∃ k, Spec.Close (realBits cfg) keys k q) := by
    by_cases hn : cfg.suffixType = .kNone
    · obtain ⟨f, e, hl⟩ := C02_partial h hs hff hn
      refine ⟨f, e, fun q hz => ?_⟩
      obtain ⟨p, e1, h1⟩ := hl q
      refine ⟨p, e1, fun hp => ?_⟩
      obtain ⟨k, hm⟩ := (h1.1 hp).resolve_right (hz hn)
      refine ⟨k, hm, ?_⟩
      have : realBits cfg = 0 := by unfold realBits; rw [hn]; rfl
      rw [this, real_zero, real_zero]
    · obtain ⟨f, e, hl⟩ := lookup_sfx h hs hff hn
      refine ⟨f, e, fun q _ => ?_⟩
      obtain ⟨p, e1, h1⟩ := hl q
      refine ⟨p, e1, fun hp => ?_⟩
      obtain ⟨k, hm, hpass⟩ := h1.1 hp
      refine ⟨k, hm, ?_⟩
      rw [passes_eq hs h.ok hn hreal, beq_iff_eq] at hpass
      by_cases hm : cfg.suffixType = .kMixed
      · have : realBits cfg = cfg.realLen := by unfold realBits; rw [if_pos (Or.inr hm)]
        rw [this]
        exact ((mixed_eq hs h.ok hm (h57 hm)).1 hpass).2
      · have : realBits cfg = 0 := by unfold realBits; rw [if_neg (by simp [hm, hreal])]
        rw [this, real_zero, real_zero]
  obtain ⟨f, s, e, hr, hpad⟩ := h.create hs hff
  obtain ⟨f', e', hl⟩ := hlook
  have : f' = f := by rw [e] at e'; cases e'; rfl
  subst this
  refine ⟨f', by unfold SuRF.create; rw [e]; rfl, fun q ri hq h64 => ?_⟩
  obtain ⟨p, e1, h1⟩ := hl q fun _ => hq.safe.not_zeroHit
  have hst : f'.getSparseStartLevel = s := hr.sparse.start
  rw [hst] at hq
  obtain ⟨r, o', e2, -, h2⟩ := range_land h hs hr hpad true ri hq h64 hq.sfx
  obtain ⟨h2, h3⟩ := h2 (Or.inl rfl)
  refine ⟨p, r, o', e1, e2, fun hp => h2.2 ?_⟩
  obtain ⟨k0, h5⟩ := h1 hp
  have hk0 := h5.1.1
  obtain ⟨k, hf⟩ := h3 ⟨k0, hk0, Or.inr h5⟩
  refine ⟨k, hf, ?_⟩
  rcases lt_or_eq_of_le (w_le.2 (hf.2.2 k0 hk0 (Or.inr h5))) with hlt | heq
  · left
    refine h.key_lt hf.1 ((leaf_match h.wf h.sorted (h.leaf_mem hk0)).2 h5.1) ((h.leaf_lt hf.1 hk0).2 (w_lt.1 hlt)) fun hc => ?_
    have := leaf_unique h.sorted (h.leaf_mem hf.1) (mem_uniq.2 hk0) (hc.trans (h.leaf_pre hk0))
    subst this
    exact lt_irrefl _ hlt
  · have := w_inj heq
    subst this
    exact Or.inr (Or.inl h5)

/-- Conversely, without prefixes among the keys and with no suffixes or real ones, the point query answers `true` whenever the
range does.  Missing: key lists with prefixes (`C77_refuted`), hash bits, which a range query does not look at (`C77_hash_refuted`). -/
theorem C77_back_partial (h : Setting cfg keys) (hs : Env.strict = false) (hff : ¬ Spec.SingleFF keys) (hpf : Spec.PrefixFree keys)
    (ht : cfg.suffixType = .kNone ∨ cfg.suffixType = .kReal) :
    ∃ f, SuRF.create cfg keys = .ok ⟨f, Iter.new f, Iter.new f⟩ ∧ ∀ q li ri, SafeSeek cfg keys f.getSparseStartLevel q →
      q.length < 2 ^ 64 → (∀ k ∈ keys, q <+: k → (Spec.stored keys k).length < q.length + 2018) →
      ∃ p r o', f.lookupKey q = .ok p ∧ SuRF.lookupRange ⟨f, Iter.new f, Iter.new f⟩ q li q ri = .ok (r, o') ∧
        (r = true → p = true) := by
  have hlook : ∃ f, Filter.create cfg keys = .ok f ∧ ∀ q, ∃ p, f.lookupKey q = .ok p ∧
      ((∃ k, Spec.Close (realBits cfg) keys k q) → p = true) := by
    rcases ht with hn | hn
    · obtain ⟨f, e, hl⟩ := C02_partial h hs hff hn
      refine ⟨f, e, fun q => ?_⟩
      obtain ⟨p, e1, h1⟩ := hl q
      exact ⟨p, e1, fun ⟨k, hk⟩ => h1.2 (Or.inl ⟨k, hk.1⟩)⟩
    · obtain ⟨f, e, hl⟩ := lookup_sfx h hs hff (by rw [hn]; decide)
      refine ⟨f, e, fun q => ?_⟩
      obtain ⟨p, e1, h1⟩ := hl q
      refine ⟨p, e1, fun ⟨k, hk, hc⟩ => h1.2 ⟨k, hk, ?_⟩⟩
      have : realBits cfg = cfg.realLen := by unfold realBits; rw [if_pos (Or.inl hn)]
      rw [this] at hc
      rw [passes_real h.ok hn]
      cases ek : Spec.realSuffix cfg.realLen k (Spec.cut keys k) with
      | none => left; unfold Spec.realSuffix0; rw [ek]; rfl
      | some b =>
        cases eq : Spec.realSuffix cfg.realLen q (Spec.cut keys k) with
        | none => left; rw [hc]; unfold Spec.realSuffix0; rw [eq]; rfl
        | some b' =>
          right
          unfold Spec.realSuffix0 at hc
          rw [ek, eq] at hc
          exact ⟨b, rfl, by rw [show b = b' from hc]⟩
  obtain ⟨f, e, hf⟩ := C55_free_partial h hs hff hpf
  obtain ⟨f', e', hl⟩ := hlook
  have : f' = f := by unfold SuRF.create at e; rw [e'] at e; cases e; rfl
  subst this
  refine ⟨f', e, fun q li ri hq h64 hfar => ?_⟩
  obtain ⟨p, e1, h1⟩ := hl q
  obtain ⟨r, o', e2, h2⟩ := hf q li q ri hq h64 hq.sfx hfar
  refine ⟨p, r, o', e1, e2, fun hr => h1 ?_⟩
  obtain ⟨k, -, c1, c2⟩ := h2.1 hr
  rcases c1 with c1 | c1
  · rcases c2 with c2 | c2
    · exact absurd ((w_lt.2 c1).trans (w_lt.2 c2)) (lt_irrefl _)
    · exact ⟨k, c2⟩
  · exact ⟨k, c1⟩

/-- One point query on a new filter. -/
def pointQ (cfg : Config) (keys : List Key) (q : Key) : R Bool := do
  let f ← Filter.create cfg keys
  f.lookupKey q

end

/-! ## Examples -/

/-- The keys "ab0", "abc", "b" and the bounds "abb" and "ab" meet the hypotheses of all three theorems. -/
example : ∃ f, @SuRF.create Env.x86 cfgNone pfKeys = .ok ⟨f, Iter.new f, Iter.new f⟩ ∧
    Spec.PrefixFree pfKeys ∧ realBits cfgNone ≤ 8 ∧ ([97, 98] : Key) ≤ [97, 98, 98] ∧
    @SafeSeek Env.x86 cfgNone pfKeys f.getSparseStartLevel [97, 98, 98] ∧ @SafeSeek Env.x86 cfgNone pfKeys f.getSparseStartLevel [97, 98] ∧
    ∀ q : Key, ∀ k ∈ pfKeys, q <+: k → (Spec.stored pfKeys k).length < q.length + 2018 := by
  letI := Env.x86
  obtain ⟨f, e, -⟩ := C55_partial pfSetting.1 rfl pfSetting.2.1
  have hl : (@Filter.create Env.x86 cfgNone pfKeys).map Filter.getSparseStartLevel = .ok 1 := by decide +kernel
  have e' := e
  unfold SuRF.create at e'
  cases hf : Filter.create cfgNone pfKeys with
  | error x => rw [hf] at e'; cases e'
  | ok g =>
    rw [hf] at e' hl
    cases e'
    have hinj : ∀ {a b : Nat}, (Except.ok a : R Nat) = .ok b → a = b := fun h => by cases h; rfl
    have h1 : f.getSparseStartLevel = 1 := hinj hl
    have hsafe : ∀ q : Key, q ≠ [] → 1 < q.length → @SafeSeek Env.x86 cfgNone pfKeys 1 q := fun q h0 h2 =>
      ⟨Or.inl h0, pfSetting.2.2.seekSafe (fun p _ => Spec.not_overrun (Or.inl (by decide +kernel))) _,
        suffixes_of_le (by decide) _, Or.inl (by omega)⟩
    refine ⟨f, e, by decide, by decide, by decide, by rw [h1]; exact hsafe _ (by decide) (by decide),
      by rw [h1]; exact hsafe _ (by decide) (by decide), ?_⟩
    intro q k hk _
    have : ∀ k ∈ pfKeys, (Spec.stored pfKeys k).length < 2018 := by decide
    have := this k hk
    omega

/-- The model on these keys. -/
theorem agree_example : @pointQ Env.x86 cfgNone pfKeys [97, 98, 99, 1] = .ok true ∧
    @rangeQ Env.x86 cfgNone pfKeys [97, 98, 99, 1] true [97, 98, 99, 1] true = .ok true ∧
    @rangeQ Env.x86 cfgNone pfKeys [97, 98, 98] true [97, 98, 99, 1] true = .ok true ∧
    @pointQ Env.x86 cfgNone pfKeys [97, 98, 98] = .ok false ∧
    @rangeQ Env.x86 cfgNone pfKeys [97, 98, 98] true [97, 98, 98] true = .ok false := by decide +kernel

/-- Keys with prefixes: "ab", "abc", "abe", "abg", "abk", the left bounds "a" and "abd" meet the hypotheses of `C78_left_partial`. -/
example : ¬ Spec.PrefixFree preKeys ∧ realBits cfgReal8 ≤ 8 ∧ ([97] : Key) ≤ [97, 98, 100] ∧
    (@Filter.create Env.x86 cfgReal8 preKeys).map Filter.getSparseStartLevel = .ok 1 ∧
    @SafeSeek Env.x86 cfgReal8 preKeys 1 [97, 98, 100] ∧ @SafeSeek Env.x86 cfgReal8 preKeys 1 [97] ∧
    @rangeQ Env.x86 cfgReal8 preKeys [97, 98, 100] true [97, 98, 102] true = .ok true ∧
    @rangeQ Env.x86 cfgReal8 preKeys [97] true [97, 98, 102] true = .ok true := by
  letI := Env.x86
  refine ⟨by decide, by decide, by decide, by decide +kernel, preSafe,
    ⟨Or.inl (by decide), fun p b hl h1 => ?_, suffixes_of_le (by decide) _, Or.inl (by decide)⟩, by decide +kernel, by decide +kernel⟩
  have := hl.2.1.length_le
  simp only [List.length_append, List.length_cons, List.length_nil] at this
  omega

/-! ## The claims without exceptions fail -/

/-- C77: stored "ab" and "aba"; "aaa" is refused by the point query, but the range from "aaa" to "aaa" answers `true`. -/
theorem C77_refuted : @pointQ Env.x86 cfgNone [[97, 98], [97, 98, 97]] [97, 97, 97] = .ok false ∧
    @rangeQ Env.x86 cfgNone [[97, 98], [97, 98, 97]] [97, 97, 97] true [97, 97, 97] true = .ok true := by decide +kernel

/-- C77, real suffixes: stored "a" and "b"; "a\x05" passes the point query, but the range of this one key answers `false`. -/
theorem C77_real_refuted : @pointQ Env.x86 cfgReal [[97], [98]] [97, 5] = .ok true ∧
    @rangeQ Env.x86 cfgReal [[97], [98]] [97, 5] true [97, 5] true = .ok false := by decide +kernel

/-- C77, hash suffixes: stored "a" and "b"; "a\\x05" is refused by the point query, but the range of this one key answers `true`. -/
theorem C77_hash_refuted : @pointQ Env.x86 cfgHash [[97], [98]] [97, 5] = .ok false ∧
    @rangeQ Env.x86 cfgHash [[97], [98]] [97, 5] true [97, 5] true = .ok true := by decide +kernel

/-- C78: stored "abb" and "abba"; the range from "aa" to "aaaa" answers `true`, the wider one to "ab" answers `false`. -/
theorem C78_refuted : @rangeQ Env.x86 cfgNone [[97, 98, 98], [97, 98, 98, 97]] [97, 97] true [97, 97, 97, 97] true = .ok true ∧
    @rangeQ Env.x86 cfgNone [[97, 98, 98], [97, 98, 98, 97]] [97, 97] true [97, 98] true = .ok false ∧
    ([97, 97, 97, 97] : Key) ≤ [97, 98] := by decide +kernel

/-- C78, 16 real bits: stored "a" and "b"; the range from "a\x01" to "a\x01" answers `true`, the wider one from "a\x00\x05" answers `false`. -/
theorem C78_left_refuted :
    @rangeQ Env.x86 { suffixType := .kReal, realLen := 16 } [[97], [98]] [97, 1] true [97, 1] true = .ok true ∧
    @rangeQ Env.x86 { suffixType := .kReal, realLen := 16 } [[97], [98]] [97, 0, 5] true [97, 1] true = .ok false ∧
    ([97, 0, 5] : Key) ≤ [97, 1] := by decide +kernel

/-- C80: stored "a" and "b"; the range from "az" down to "aa" is empty, but the filter cannot tell the bounds from "a". -/
theorem C80_refuted : @rangeQ Env.x86 cfgNone [[97], [98]] [97, 122] true [97, 97] true = .ok true ∧
    (∀ k : Key, ¬ Spec.InRange [97, 122] true [97, 97] true k) := by
  refine ⟨by decide +kernel, fun k hk => ?_⟩
  have h1 : w [97, 122] ≤ w k := by
    rcases hk.1 with h | ⟨-, h⟩
    · exact (w_lt.2 h).le
    · exact h ▸ le_rfl
  have h2 : w k ≤ w [97, 97] := by
    rcases hk.2 with h | ⟨-, h⟩
    · exact (w_lt.2 h).le
    · exact h ▸ le_rfl
  exact absurd (w_le.1 (h1.trans h2)) (by decide)

/-- C80: both bounds excluded, the range from the stored key "a" to itself answers `true`. -/
theorem C80_excluded_refuted : @rangeQ Env.x86 cfgNone [[97], [98]] [97] false [97] false = .ok true := by decide +kernel

/-- C80, keys with prefixes: stored "ab" and "aba"; the range from "ab" down to "aaaa" answers `true`, though "aaaa" is close to no key. -/
theorem C80_prefix_refuted : @rangeQ Env.x86 cfgNone [[97, 98], [97, 98, 97]] [97, 98] true [97, 97, 97, 97] true = .ok true ∧
    @pointQ Env.x86 cfgNone [[97, 98], [97, 98, 97]] [97, 97, 97, 97] = .ok false := by decide +kernel

/-- Distinguishable bounds: the range from "abb" down to "ab" answers `false`, as `C80_partial` says. -/
theorem empty_example : @rangeQ Env.x86 cfgNone pfKeys [97, 98, 98] true [97, 98] true = .ok false := by decide +kernel

end Surf.Props
