import Verif.Props.LookupWitness

/-!
# What suffixes gain (C65, C66)

Filters of the same keys with different suffixes, and how many queries a suffix turns away.
-/

set_option linter.unusedSectionVars false
set_option autoImplicit false
set_option maxRecDepth 1000000

/-! ## Specification -/

namespace Spec

/-- All strings of `j` bytes. -/
def strings : Nat → List Bytes
  | 0 => [[]]
  | j + 1 => ((List.range 256).map UInt8.ofNat).flatMap fun b => (strings j).map (b :: ·)

/-- These are all of them, and each occurs once. -/
theorem mem_strings {j : Nat} {x : Bytes} : x ∈ strings j ↔ x.length = j := by
  induction j generalizing x with
  | zero => simp [strings, List.length_eq_zero_iff]
  | succ j ih =>
    simp only [strings, List.mem_flatMap, List.mem_map]
    constructor
    · rintro ⟨b, -, y, hy, rfl⟩
      simp [ih.1 hy]
    · intro h
      cases x with
      | nil => simp at h
      | cons b y =>
        refine ⟨b, ⟨b.toNat, List.mem_range.2 (by have := b.toNat_lt; omega), by simp⟩, y, ih.2 (by simpa using h), rfl⟩

theorem strings_nodup (j : Nat) : (strings j).Nodup := by
  induction j with
  | zero => simp [strings]
  | succ j ih =>
    unfold strings
    have hb : ((List.range 256).map UInt8.ofNat).Nodup := by decide +kernel
    generalize (List.range 256).map UInt8.ofNat = bs at hb
    induction bs with
    | nil => simp
    | cons b bs ihb =>
      obtain ⟨h1, h2⟩ := List.nodup_cons.1 hb
      rw [List.flatMap_cons, List.nodup_append]
      refine ⟨ih.map fun a c hac => by simpa using hac, ihb h2, ?_⟩
      rintro x hx y hy rfl
      obtain ⟨u, -, rfl⟩ := List.mem_map.1 hx
      obtain ⟨c, hc, hy⟩ := List.mem_flatMap.1 hy
      obtain ⟨v, -, hv⟩ := List.mem_map.1 hy
      have := (List.cons.inj hv).1
      subst this
      exact h1 hc

end Spec

namespace Surf.Props
open Surf

/-! ## Counting strings with given first bits -/

/-- The byte with the given bits. -/
def byteOf (l : List Bool) : UInt8 := UInt8.ofNat (l.foldl (fun a b => 2 * a + b.toNat) 0)

theorem byteOf_bits (b : UInt8) : byteOf (Spec.byteBits b) = b := by
  have h : ∀ n < 256, byteOf (Spec.byteBits (UInt8.ofNat n)) = UInt8.ofNat n := by decide +kernel
  have := h b.toNat b.toNat_lt
  simpa using this

theorem bits_byteOf {l : List Bool} (h : l.length = 8) : Spec.byteBits (byteOf l) = l := by
  have g : ∀ a b c d e f g h : Bool, Spec.byteBits (byteOf [a, b, c, d, e, f, g, h]) = [a, b, c, d, e, f, g, h] := by decide +kernel
  match l, h with
  | [a, b, c, d, e, f, g', h'], _ => exact g a b c d e f g' h'

theorem byteBits_length (b : UInt8) : (Spec.byteBits b).length = 8 := by simp [Spec.byteBits]

theorem bits_cons (b : UInt8) (x : Key) : Spec.bits (b :: x) = Spec.byteBits b ++ Spec.bits x := by simp [Spec.bits]

theorem bits_length (x : Key) : (Spec.bits x).length = 8 * x.length := by
  induction x with
  | nil => rfl
  | cons b x ih => rw [bits_cons, List.length_append, byteBits_length, ih, List.length_cons]; omega

theorem bits_inj {x y : Key} (h : Spec.bits x = Spec.bits y) : x = y := by
  induction x generalizing y with
  | nil =>
    have := congrArg List.length h
    rw [bits_length, bits_length, List.length_nil] at this
    exact (List.length_eq_zero_iff.1 (by omega)).symm
  | cons a x ih =>
    cases y with
    | nil =>
      have := congrArg List.length h
      rw [bits_length, bits_length] at this
      simp at this
    | cons b y =>
      rw [bits_cons, bits_cons] at h
      obtain ⟨h1, h2⟩ := List.append_inj h (by rw [byteBits_length, byteBits_length])
      rw [ih h2, ← byteOf_bits a, h1, byteOf_bits]

theorem bits_surj (j : Nat) {l : List Bool} (h : l.length = 8 * j) : ∃ x : Key, x.length = j ∧ Spec.bits x = l := by
  induction j generalizing l with
  | zero => exact ⟨[], rfl, (List.length_eq_zero_iff.1 (by omega)).symm⟩
  | succ j ih =>
    obtain ⟨x, h1, h2⟩ := ih (l := l.drop 8) (by simp; omega)
    refine ⟨byteOf (l.take 8) :: x, by simp [h1], ?_⟩
    rw [bits_cons, bits_byteOf (by simp; omega), h2, List.take_append_drop]

theorem filter_one {α : Type} [DecidableEq α] {l : List α} (hn : l.Nodup) {a : α} (ha : a ∈ l) (p : α → Bool) (hp : ∀ x ∈ l, p x = true ↔ x = a) :
    (l.filter p).length = 1 := by
  have : l.filter p = l.filter (· == a) := List.filter_congr fun x hx => by
    rw [Bool.eq_iff_iff, hp x hx]; simp
  rw [this, List.filter_beq, List.length_replicate, List.count_eq_one_of_mem hn ha]

theorem sfx_filter_split {α : Type} (l : List α) (p q r : α → Bool) (h : ∀ x ∈ l, p x = (q x || r x)) (h' : ∀ x ∈ l, ¬ (q x = true ∧ r x = true)) :
    (l.filter p).length = (l.filter q).length + (l.filter r).length := by
  induction l with
  | nil => rfl
  | cons a l ih =>
    have := ih (fun x hx => h x (by simp [hx])) (fun x hx => h' x (by simp [hx]))
    have g := h a (by simp)
    have g' := h' a (by simp)
    simp only [List.filter_cons, g]
    cases hq : q a <;> cases hr : r a <;> simp_all <;> omega

/-- Of the `256^j` strings of `j` bytes, `2^(8j-n)` start with given `n` bits. -/
theorem prefix_count (j : Nat) (m : Nat) (b : List Bool) (h : b.length + m = 8 * j) :
    ((Spec.strings j).filter fun x => (Spec.bits x).take b.length = b).length = 2 ^ m := by
  induction m generalizing b with
  | zero =>
    obtain ⟨x, h1, h2⟩ := bits_surj j (l := b) (by omega)
    rw [pow_zero]
    refine filter_one (Spec.strings_nodup j) (Spec.mem_strings.2 h1) _ fun y hy => ?_
    have hy' := Spec.mem_strings.1 hy
    rw [decide_eq_true_iff, List.take_of_length_le (by rw [bits_length]; omega), ← h2]
    exact ⟨bits_inj, fun e => by rw [e]⟩
  | succ m ih =>
    have h1 := ih (b ++ [false]) (by simp; omega)
    have h2 := ih (b ++ [true]) (by simp; omega)
    rw [pow_succ, Nat.mul_two]
    conv_rhs => rw [← h1]
    rw [h1]
    conv_rhs => enter [1]; rw [← h2]
    conv_rhs => enter [2]; rw [← h1]
    clear h1 h2
    apply sfx_filter_split
    · intro x hx
      have hx' := Spec.mem_strings.1 hx
      have hl : b.length < (Spec.bits x).length := by rw [bits_length]; omega
      rw [Bool.eq_iff_iff]
      simp only [decide_eq_true_eq, Bool.or_eq_true, List.length_append, List.length_singleton]
      rw [List.take_succ_eq_append_getElem hl]
      constructor
      · intro e
        rw [e]
        cases (Spec.bits x)[b.length] <;> simp
      · rintro (e | e) <;> exact (List.append_inj' e rfl).1
    · rintro x hx ⟨g1, g2⟩
      simp only [decide_eq_true_eq, List.length_append, List.length_singleton] at g1 g2
      rw [g1] at g2
      have := (List.append_inj' g2 rfl).2
      simp at this

theorem strings_length (j : Nat) : (Spec.strings j).length = 2 ^ (8 * j) := by
  have := prefix_count j (8 * j) [] (by simp)
  simpa using this

section
variable {cfg cfg' : Config} {keys : List Key}

theorem matches_unique (h : Setting cfg keys) {k k' q : Key} (hm : Spec.Matches keys k q) (hm' : Spec.Matches keys k' q) : k' = k := by
  have ht := (leaf_match h.wf h.sorted (mem_leaves h.wf h.sorted hm.1)).2 hm
  have ht' := (leaf_match h.wf h.sorted (mem_leaves h.wf h.sorted hm'.1)).2 hm'
  rcases List.prefix_or_prefix_of_prefix ht ht' with h3 | h3
  · exact Trie.leaf_unique h.sorted (mem_leaves h.wf h.sorted hm.1) (mem_uniq.2 hm'.1) (h3.trans (List.take_prefix _ _))
  · exact (Trie.leaf_unique h.sorted (mem_leaves h.wf h.sorted hm'.1) (mem_uniq.2 hm.1) (h3.trans (List.take_prefix _ _))).symm

/-- Every continuation of what is kept of a key matches the key, if it is not the beginning of another one. -/
theorem matches_stored (h : Setting cfg keys) {k : Key} (hk : k ∈ keys) (hc : Spec.cut keys k ≤ k.length) (x : Key) :
    Spec.Matches keys k (Spec.stored keys k ++ x) := by
  have hp := cut_pos keys k
  have hl : (Spec.stored keys k).length = Spec.cut keys k := by unfold Spec.stored; simp; omega
  refine ⟨hk, Or.inr ⟨Spec.stored keys k, ?_, List.take_prefix _ _, List.prefix_append _ _, ?_⟩⟩
  · intro e
    rw [e] at hl
    simp at hl
    omega
  · intro k' hk' hpre
    by_contra hne
    have h1 := lt_cut hk' hne
    have h2 := common_ge (List.take_prefix (Spec.cut keys k) k) hpre
    rw [show (List.take (Spec.cut keys k) k).length = Spec.cut keys k from hl] at h2
    omega

/-- Bits behind the stored bytes of a continuation. -/
theorem realSuffix_append {k : Key} (hc : Spec.cut keys k ≤ k.length) (x : Key) (n : Nat) :
    Spec.realSuffix n (Spec.stored keys k ++ x) (Spec.cut keys k) = if n ≤ 8 * x.length then some ((Spec.bits x).take n) else none := by
  have hl : (Spec.stored keys k).length = Spec.cut keys k := by unfold Spec.stored; simp; omega
  unfold Spec.realSuffix
  rw [List.length_append, hl, show Spec.cut keys k + x.length - Spec.cut keys k = x.length by omega]
  rw [List.drop_append_of_le_length (by omega), List.drop_of_length_le (by omega), List.nil_append]
  by_cases hn : n ≤ 8 * x.length
  · rw [if_pos ⟨by omega, hn⟩, if_pos hn]
  · rw [if_neg (by simp [hn]), if_neg hn]

/-- A suffix of more bits starts with the suffix of fewer bits. -/
theorem realSuffix_mono {n m : Nat} (hnm : n ≤ m) {k : Key} {c : Nat} {b : List Bool} (h : Spec.realSuffix m k c = some b) :
    Spec.realSuffix n k c = some (b.take n) := by
  unfold Spec.realSuffix at h ⊢
  split at h
  · rename_i hm
    cases h
    rw [if_pos ⟨hm.1, by omega⟩, List.take_take, min_eq_left hnm]
  · cases h

end

section
variable [Env] {cfg cfg' : Config} {keys : List Key}

/-! ## C65: more suffix bits -/

/-- **C65**, exactly when it holds: a filter with `m` real suffix bits accepts no query that a filter with `n ≤ m` of them turns away if and only if
every stored key that has `n` bits, not all zero, behind the bytes that tell it apart also has `m` bits there.
Missing from C65: the other key lists, for which it is false (`C65_refuted`). -/
theorem C65_exact_partial (h : Setting cfg keys) (h' : Setting cfg' keys) (hs : Env.strict = false) (hff : ¬ Spec.SingleFF keys)
    (hn : cfg.suffixType = .kReal) (hn' : cfg'.suffixType = .kReal) (hnm : cfg.realLen ≤ cfg'.realLen) :
    ∃ f f', Filter.create cfg keys = .ok f ∧ Filter.create cfg' keys = .ok f' ∧
      ((∀ q, f'.lookupKey q = .ok true → f.lookupKey q = .ok true) ↔
        ∀ k ∈ keys, ∀ b, Spec.realSuffix cfg.realLen k (Spec.cut keys k) = some b → true ∈ b →
          cfg'.realLen ≤ 8 * (k.length - Spec.cut keys k)) := by
  obtain ⟨f, e, hl⟩ := C03 h hs hff hn
  obtain ⟨f', e', hl'⟩ := C03 h' hs hff hn'
  refine ⟨f, f', e, e', ?_, ?_⟩
  · intro hall k hk b hb ht
    by_contra hlt
    have hc : Spec.cut keys k ≤ k.length := by
      unfold Spec.realSuffix at hb
      split at hb
      · rename_i g; exact g.1
      · cases hb
    have hm := matches_stored h hk hc []
    obtain ⟨r', e1', g'⟩ := hl' (Spec.stored keys k ++ [])
    have hr' : r' = true := by
      refine g'.2 ⟨k, hm, Or.inl ?_⟩
      unfold Spec.realSuffix0
      rw [show Spec.realSuffix cfg'.realLen k (Spec.cut keys k) = none by
        unfold Spec.realSuffix; rw [if_neg (by omega)]]
      rfl
    obtain ⟨r, e1, g⟩ := hl (Spec.stored keys k ++ [])
    have hr := hall _ (by rw [e1', hr'])
    rw [e1] at hr
    cases hr
    obtain ⟨k', hm', g1⟩ := g.1 rfl
    have := matches_unique h hm hm'
    subst this
    have hblen : b.length = cfg.realLen := by
      unfold Spec.realSuffix at hb
      split at hb
      · rename_i g
        cases hb
        rw [List.length_take, bits_length, List.length_drop]
        omega
      · cases hb
    rcases g1 with g1 | ⟨b', g1, g2⟩
    · unfold Spec.realSuffix0 at g1
      rw [hb] at g1
      change b = _ at g1
      rw [g1] at ht
      have := List.eq_of_mem_replicate ht
      cases this
    · rw [realSuffix_append hc] at g2
      split at g2
      · rename_i g3
        simp at g3
        rw [g3] at hblen
        rw [List.length_eq_zero_iff.1 hblen] at ht
        cases ht
      · cases g2
  · intro hk q hq
    obtain ⟨r', e1', g'⟩ := hl' q
    obtain ⟨r, e1, g⟩ := hl q
    rw [e1'] at hq
    cases hq
    obtain ⟨k, hm, g1⟩ := g'.1 rfl
    rw [e1, g.2]
    refine ⟨k, hm, ?_⟩
    rcases g1 with g1 | ⟨b, g1, g2⟩
    · cases hb : Spec.realSuffix cfg.realLen k (Spec.cut keys k) with
      | none =>
        left
        unfold Spec.realSuffix0
        rw [hb]; rfl
      | some b =>
        left
        by_cases ht : true ∈ b
        · have h1 := hk k hm.1 b hb ht
          cases hb' : Spec.realSuffix cfg'.realLen k (Spec.cut keys k) with
          | none =>
            exfalso
            unfold Spec.realSuffix at hb hb'
            split at hb
            · rename_i g
              rw [if_pos ⟨g.1, h1⟩] at hb'
              cases hb'
            · cases hb
          | some b' =>
            have h2 := realSuffix_mono hnm hb'
            rw [hb] at h2
            cases h2
            unfold Spec.realSuffix0 at g1
            rw [hb'] at g1
            change b' = _ at g1
            have := List.mem_of_mem_take ht
            rw [g1] at this
            cases List.eq_of_mem_replicate this
        · unfold Spec.realSuffix0
          rw [hb]
          change b = _
          rw [List.eq_replicate_iff]
          refine ⟨?_, fun x hx => ?_⟩
          · unfold Spec.realSuffix at hb
            split at hb
            · rename_i g
              cases hb
              rw [List.length_take, bits_length, List.length_drop]
              omega
            · cases hb
          · cases x
            · rfl
            · exact absurd hx ht
    · exact Or.inr ⟨b.take cfg.realLen, realSuffix_mono hnm g1, realSuffix_mono hnm g2⟩

/-- Suffixes of any kind accept no query that a filter without suffixes turns away. -/
theorem C65_none (h : Setting cfg keys) (h' : Setting cfg' keys) (hs : Env.strict = false) (hff : ¬ Spec.SingleFF keys)
    (hn : cfg.suffixType = .kNone) (hn' : cfg'.suffixType ≠ .kNone) :
    ∃ f f', Filter.create cfg keys = .ok f ∧ Filter.create cfg' keys = .ok f' ∧
      ∀ q, f'.lookupKey q = .ok true → f.lookupKey q = .ok true := by
  obtain ⟨f, e, hl⟩ := C02_partial h hs hff hn
  obtain ⟨f', e', hl'⟩ := lookup_sfx h' hs hff hn'
  refine ⟨f, f', e, e', fun q hq => ?_⟩
  obtain ⟨r', e1', g'⟩ := hl' q
  obtain ⟨r, e1, g⟩ := hl q
  rw [e1'] at hq
  cases hq
  obtain ⟨k, hm, -⟩ := g'.1 rfl
  rw [e1, g.2 (Or.inl ⟨k, hm⟩)]

/-- Mixed suffixes accept no query that a filter with one of the two parts alone turns away. -/
theorem C65_mixed {cfgH cfgR : Config} (h : Setting cfg keys) (hH : Setting cfgH keys) (hR : Setting cfgR keys) (hs : Env.strict = false)
    (hff : ¬ Spec.SingleFF keys) (hn : cfg.suffixType = .kMixed) (hnH : cfgH.suffixType = .kHash) (hnR : cfgR.suffixType = .kReal)
    (eH : cfgH.hashLen = cfg.hashLen) (eR : cfgR.realLen = cfg.realLen) (h57 : cfg.hashLen ≤ 57) :
    ∃ f fH fR, Filter.create cfg keys = .ok f ∧ Filter.create cfgH keys = .ok fH ∧ Filter.create cfgR keys = .ok fR ∧
      ∀ q, f.lookupKey q = .ok true → fH.lookupKey q = .ok true ∧ fR.lookupKey q = .ok true := by
  obtain ⟨f, e, hl⟩ := C05 h hs hff hn h57
  obtain ⟨fH, e', hl'⟩ := C04 hH hs hff hnH (by omega)
  obtain ⟨fR, e'', hl''⟩ := C03 hR hs hff hnR
  rw [eH] at hl'
  rw [eR] at hl''
  refine ⟨f, fH, fR, e, e', e'', fun q hq => ?_⟩
  obtain ⟨r, e1, g⟩ := hl q
  obtain ⟨r', e1', g'⟩ := hl' q
  obtain ⟨r'', e1'', g''⟩ := hl'' q
  rw [e1] at hq
  cases hq
  obtain ⟨k, hm, g1, g2⟩ := g.1 rfl
  rw [e1', e1'', g'.2 ⟨k, hm, g1⟩]
  refine ⟨rfl, congrArg _ (g''.2 ⟨k, hm, ?_⟩)⟩
  cases hb : Spec.realSuffix cfg.realLen q (Spec.cut keys k) with
  | none =>
    left
    rw [g2]
    unfold Spec.realSuffix0
    rw [hb]; rfl
  | some b =>
    cases hb' : Spec.realSuffix cfg.realLen k (Spec.cut keys k) with
    | none =>
      left
      unfold Spec.realSuffix0
      rw [hb']; rfl
    | some b' =>
      right
      unfold Spec.realSuffix0 at g2
      rw [hb, hb'] at g2
      exact ⟨b', rfl, by rw [show b' = b from g2]⟩

/-! ## C66: how many queries a suffix turns away -/

/-- **C66**, exactly: of the `2^(8j)` strings that continue the stored bytes of a key by `j` more bytes, a filter with `n ≤ 8j` real suffix bits accepts
`2^(8j-n)`, unless the suffix of the key is zero or missing: then it accepts all of them.
Missing from C66: keys with such a suffix, for which it is false (`C66_refuted`). -/
theorem C66_partial (h : Setting cfg keys) (hs : Env.strict = false) (hff : ¬ Spec.SingleFF keys) (hn : cfg.suffixType = .kReal) :
    ∃ f, Filter.create cfg keys = .ok f ∧ ∀ k ∈ keys, Spec.cut keys k ≤ k.length → ∀ j, cfg.realLen ≤ 8 * j →
      ((Spec.strings j).filter fun x => decide (f.lookupKey (Spec.stored keys k ++ x) = .ok true)).length =
        if Spec.realSuffix0 cfg.realLen k (Spec.cut keys k) = List.replicate cfg.realLen false then 2 ^ (8 * j)
        else 2 ^ (8 * j - cfg.realLen) := by
  obtain ⟨f, e, hl⟩ := C03 h hs hff hn
  refine ⟨f, e, fun k hk hc j hj => ?_⟩
  have key : ∀ x ∈ Spec.strings j, (f.lookupKey (Spec.stored keys k ++ x) = .ok true ↔
      (Spec.realSuffix0 cfg.realLen k (Spec.cut keys k) = List.replicate cfg.realLen false ∨
        Spec.realSuffix cfg.realLen k (Spec.cut keys k) = some ((Spec.bits x).take cfg.realLen))) := by
    intro x hx
    have hx' := Spec.mem_strings.1 hx
    obtain ⟨r, e1, g⟩ := hl (Spec.stored keys k ++ x)
    have hm := matches_stored h hk hc x
    rw [e1, Except.ok.injEq, g]
    constructor
    · rintro ⟨k', hm', g1⟩
      have := matches_unique h hm hm'
      subst this
      rcases g1 with g1 | ⟨b, g1, g2⟩
      · exact Or.inl g1
      · rw [realSuffix_append hc, if_pos (by omega)] at g2
        cases g2
        exact Or.inr g1
    · rintro (g1 | g1)
      · exact ⟨k, hm, Or.inl g1⟩
      · exact ⟨k, hm, Or.inr ⟨_, g1, by rw [realSuffix_append hc, if_pos (by omega)]⟩⟩
  split
  · rename_i h0
    rw [List.filter_eq_self.2 fun x hx => by simpa using (key x hx).2 (Or.inl h0), strings_length]
  · rename_i h0
    cases hb : Spec.realSuffix cfg.realLen k (Spec.cut keys k) with
    | none =>
      exfalso
      apply h0
      unfold Spec.realSuffix0
      rw [hb]; rfl
    | some b =>
      have hblen : b.length = cfg.realLen := by
        unfold Spec.realSuffix at hb
        split at hb
        · rename_i g
          cases hb
          rw [List.length_take, bits_length, List.length_drop]
          omega
        · cases hb
      rw [← prefix_count j (8 * j - cfg.realLen) b (by omega), hblen]
      congr 1
      apply List.filter_congr
      intro x hx
      rw [decide_eq_decide, key x hx]
      constructor
      · rintro (g | g)
        · exact absurd g h0
        · rw [hb] at g
          exact (Option.some.inj g).symm
      · intro g
        right
        rw [hb, g]

end

/-! ## Examples and counterexamples -/

/-- "ax", "bxy" -/
def axKeys : List Key := [[97, 120], [98, 120, 121]]

/-- `r` real suffix bits. -/
def cfgR (r : Nat) : Config := { suffixType := .kReal, realLen := r }

theorem axSetting : Setting (cfgR 8) axKeys ∧ Setting (cfgR 16) axKeys ∧ ¬ Spec.SingleFF axKeys := by
  have hv : Spec.Valid axKeys := ⟨by decide, by decide, by decide⟩
  refine ⟨⟨by decide, rfl, by decide, hv, fits_of_total (by decide) (by decide)⟩, ⟨by decide, rfl, by decide, hv, fits_of_total (by decide) (by decide)⟩, ?_⟩
  rintro ⟨k, h1, h2⟩
  have := h1 [97, 120] (by decide)
  subst this
  simp at h2

/-- C65 fails: with 8 real suffix bits the query "ay" is turned away, with 16 it is accepted. -/
theorem C65_refuted : @run Env.x86 (cfgR 8) axKeys [97, 121] = .ok false ∧ @run Env.x86 (cfgR 16) axKeys [97, 121] = .ok true := by
  decide +kernel

/-- The condition of `C65_exact_partial` is satisfied by 4 and 8 bits for these keys, which have a whole byte behind the first, and not by 8 and 16. -/
theorem C65_example : (∀ k ∈ axKeys, 8 ≤ 8 * (k.length - Spec.cut axKeys k)) ∧ ¬ (∀ k ∈ axKeys, 16 ≤ 8 * (k.length - Spec.cut axKeys k)) := by
  decide +kernel

/-- "a\x00", "bx" -/
def zeroSfxKeys : List Key := [[97, 0], [98, 120]]

/-- C66 fails: behind "a" all bytes are accepted, one of 256 behind "b". -/
theorem C66_refuted :
    ((Spec.strings 1).filter fun x => decide (@run Env.x86 (cfgR 8) zeroSfxKeys ([97] ++ x) = .ok true)).length = 256 ∧
    ((Spec.strings 1).filter fun x => decide (@run Env.x86 (cfgR 8) zeroSfxKeys ([98] ++ x) = .ok true)).length = 1 := by decide +kernel

theorem zeroSfxSetting : Setting (cfgR 8) zeroSfxKeys ∧ ¬ Spec.SingleFF zeroSfxKeys ∧ (∀ k ∈ zeroSfxKeys, Spec.cut zeroSfxKeys k ≤ k.length) := by
  refine ⟨⟨by decide, rfl, by decide, ⟨by decide, by decide, by decide⟩, fits_of_total (by decide) (by decide)⟩, ?_, by decide⟩
  rintro ⟨k, h1, h2⟩
  have := h1 [97, 0] (by decide)
  subst this
  simp at h2

end Surf.Props
