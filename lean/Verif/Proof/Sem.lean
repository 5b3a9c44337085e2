import Verif.Proof.Lookup

/-! # Leaf strings, suffix words and level order in terms of keys -/

set_option linter.unusedSectionVars false
set_option autoImplicit false

namespace Surf
open Trie

/-! ## Common prefixes -/

theorem common_ge {p a b : Key} (ha : p <+: a) (hb : p <+: b) : p.length ≤ Spec.common a b := by
  induction p generalizing a b with
  | nil => simp
  | cons x p ih =>
    obtain ⟨a', rfl⟩ := ha
    obtain ⟨b', rfl⟩ := hb
    simp only [List.cons_append, Spec.common, if_true, List.length_cons]
    have := ih (List.prefix_append p a') (List.prefix_append p b')
    omega

theorem common_take (a b : Key) : a.take (Spec.common a b) <+: b := by
  induction a generalizing b with
  | nil => simp
  | cons x a ih =>
    cases b with
    | nil => simp [Spec.common]
    | cons y b =>
      unfold Spec.common
      split
      · rename_i h; subst h
        rw [List.take_succ_cons]
        exact List.cons_prefix_cons.2 ⟨rfl, ih b⟩
      · simp

theorem common_le (a b : Key) : Spec.common a b ≤ a.length := by
  induction a generalizing b with
  | nil => simp [Spec.common]
  | cons x a ih =>
    cases b with
    | nil => simp [Spec.common]
    | cons y b =>
      unfold Spec.common
      split
      · have := ih b; simp; omega
      · simp

theorem foldr_max_le {l : List Nat} {n : Nat} (h : ∀ x ∈ l, x ≤ n) : l.foldr max 0 ≤ n := by
  induction l with
  | nil => simp
  | cons a l ih =>
    simp only [List.foldr_cons]
    have := h a (by simp)
    have := ih fun x hx => h x (by simp [hx])
    omega

theorem le_foldr_max {l : List Nat} {x : Nat} (h : x ∈ l) : x ≤ l.foldr max 0 := by
  induction l with
  | nil => simp at h
  | cons a l ih =>
    simp only [List.foldr_cons]
    rcases List.mem_cons.1 h with rfl | h
    · omega
    · have := ih h; omega

theorem cut_le {keys : List Key} {k : Key} {n : Nat} (h : ∀ k' ∈ keys, k' ≠ k → Spec.common k k' ≤ n) :
    Spec.cut keys k ≤ n + 1 := by
  unfold Spec.cut
  apply Nat.add_le_add_right
  apply foldr_max_le
  intro x hx
  obtain ⟨k', hk', rfl⟩ := List.mem_map.1 hx
  simp only [ne_eq, List.mem_filter, decide_not, Bool.not_eq_eq_eq_not, Bool.not_true, decide_eq_false_iff_not] at hk'
  exact h k' hk'.1 hk'.2

theorem lt_cut {keys : List Key} {k k' : Key} (h : k' ∈ keys) (hne : k' ≠ k) : Spec.common k k' < Spec.cut keys k := by
  unfold Spec.cut
  apply Nat.lt_succ_of_le
  apply le_foldr_max
  exact List.mem_map_of_mem (by simp [h, hne])

theorem cut_pos (keys : List Key) (k : Key) : 1 ≤ Spec.cut keys k := by unfold Spec.cut; omega

section
variable {keys : List Key}

/-- A leaf string that contains the terminator is the whole key. -/
theorem leaf_zero {k : Key} {t : Str} (h : t <+: w k) (h0 : 0 ∈ t) : t = w k := by
  rw [w_eq] at h
  rcases List.prefix_concat_iff.1 h with h | h
  · exact h
  · have := h.subset h0
    simp [syms] at this

/-- Different shared prefix below the leaf. -/
theorem leaf_dropLast (hwf : WF (leafStrs keys)) {k : Key} {t : Str} (h : (k, t) ∈ leaves 0 (uniq keys))
    (h2 : 2 ≤ t.length) : ∃ p k', t.dropLast = syms p ∧ p <+: k ∧ k' ∈ keys ∧ k' ≠ k ∧ p <+: k' := by
  have ht : t ∈ leafStrs keys := List.mem_map.2 ⟨_, h, rfl⟩
  have htw := (leaves_prefix h).1
  obtain ⟨t', ht', hne, hp⟩ := hwf.sib t ht h2
  obtain ⟨k', hk', hl', htw'⟩ := mem_leafStrs ht'
  obtain ⟨p, e, hpk⟩ := prefix_w ((List.dropLast_prefix t).trans htw) (hwf.term t ht)
  refine ⟨p, k', e, hpk, hk', ?_, ?_⟩
  · rintro rfl
    rcases List.prefix_or_prefix_of_prefix htw htw' with h | h
    · exact hne (hwf.pf t ht t' ht' h).symm
    · exact hne (hwf.pf t' ht' t ht h)
  · rw [e] at hp
    exact syms_prefix_w.1 (hp.trans htw')

/-- A leaf string is a prefix of a query iff the query matches its key. -/
theorem leaf_match (hwf : WF (leafStrs keys)) (hs : (uniq keys).Pairwise (· < ·)) {k q : Key} {t : Str}
    (h : (k, t) ∈ leaves 0 (uniq keys)) : t <+: w q ↔ Spec.Matches keys k q := by
  have ht : t ∈ leafStrs keys := List.mem_map.2 ⟨_, h, rfl⟩
  obtain ⟨htw, hne⟩ := leaves_prefix h
  have hk : k ∈ keys := by
    have : k ∈ uniq keys := by
      rw [← leaves_fst 0 (uniq keys)]
      exact List.mem_map.2 ⟨_, h, rfl⟩
    exact mem_uniq.1 this
  constructor
  · intro hq
    refine ⟨hk, ?_⟩
    by_cases h0 : 0 ∈ t
    · left
      have := leaf_zero htw h0
      rw [this] at hq
      exact (w_pf hq).symm
    · right
      obtain ⟨p, rfl, hp⟩ := prefix_w htw h0
      refine ⟨p, by rintro rfl; simp at hne, hp, syms_prefix_w.1 hq, ?_⟩
      intro k' hk' hp'
      exact leaf_unique hs h (mem_uniq.2 hk') (syms_prefix_w.2 hp')
  · rintro ⟨-, rfl | ⟨p, hp0, hpk, hpq, huniq⟩⟩
    · exact htw
    · rcases List.prefix_or_prefix_of_prefix htw (syms_prefix_w.2 hpk) with h1 | h1
      · exact h1.trans (syms_prefix_w.2 hpq)
      · by_cases he : syms p = t
        · rw [← he]; exact syms_prefix_w.2 hpq
        · exfalso
          have h3 := int_prefix h1 he
          have h4 := h3.length_le
          have h5 : p.length ≠ 0 := fun hc => hp0 (List.length_eq_zero_iff.1 hc)
          rw [List.length_dropLast, syms_length] at h4
          obtain ⟨p', k', e, -, hk', hne', hp'⟩ := leaf_dropLast hwf h (by omega)
          rw [e] at h3
          exact hne' (huniq k' hk' ((syms_prefix.1 h3).trans hp'))

/-- Length of a leaf string. -/
theorem leaf_length (hwf : WF (leafStrs keys)) (hs : (uniq keys).Pairwise (· < ·)) {k : Key} {t : Str}
    (h : (k, t) ∈ leaves 0 (uniq keys)) : t.length = Spec.cut keys k := by
  obtain ⟨htw, hne⟩ := leaves_prefix h
  have h1 : 1 ≤ t.length := List.length_pos_of_ne_nil hne
  have hle : Spec.cut keys k ≤ (t.length - 1) + 1 := by
    apply cut_le
    intro k' hk' hne'
    by_contra hc
    apply hne'
    refine leaf_unique hs h (mem_uniq.2 hk') ?_
    have h2 := common_le k k'
    have h3 : t = syms (k.take t.length) := by
      rw [syms_take]
      have := List.prefix_iff_eq_take.1 htw
      rw [w_eq, List.take_append_of_le_length (by simp; omega)] at this
      exact this
    rw [h3]
    apply syms_prefix_w.2
    refine List.IsPrefix.trans ?_ (common_take k k')
    exact List.take_prefix_take_left (by omega)
  have h0 := cut_pos keys k
  by_cases h2 : 2 ≤ t.length
  · obtain ⟨p, k', e, hpk, hk', hne', hp'⟩ := leaf_dropLast hwf h h2
    have h4 := lt_cut hk' hne'
    have h5 := common_ge hpk hp'
    have h6 := congrArg List.length e
    rw [List.length_dropLast, syms_length] at h6
    omega
  · omega

/-- A leaf string as a function of its key. -/
theorem leaf_eq (hwf : WF (leafStrs keys)) (hs : (uniq keys).Pairwise (· < ·)) {k : Key} {t : Str}
    (h : (k, t) ∈ leaves 0 (uniq keys)) : t = (w k).take (Spec.cut keys k) := by
  rw [← leaf_length hwf hs h]
  exact List.prefix_iff_eq_take.1 (leaves_prefix h).1

theorem mem_leaves (hwf : WF (leafStrs keys)) (hs : (uniq keys).Pairwise (· < ·)) {k : Key} (hk : k ∈ keys) :
    (k, (w k).take (Spec.cut keys k)) ∈ leaves 0 (uniq keys) := by
  obtain ⟨t, h, -⟩ := leaf_of_key hk
  rwa [← leaf_eq hwf hs h]

/-- The suffix word of a leaf string. -/
theorem swKeys_leaf [Env] (hwf : WF (leafStrs keys)) (cfg : Config) {k : Key} {t : Str}
    (h : (k, t) ∈ leaves 0 (uniq keys)) : swKeys cfg keys t = sfxOf cfg k t.length := by
  unfold swKeys swOf
  rw [lookup_of_mem (x := sfxOf cfg k t.length)]
  · rfl
  · rw [sfxs_fst]
    exact hwf.sorted.imp fun h => ne_of_lt h
  · exact List.mem_map.2 ⟨_, h, rfl⟩

end

/-! ## Suffix checks -/

section
variable [Env] {cfg : Config}

/-- Value of `constructSuffix`. -/
theorem sfxOf_ok (hs : Env.strict = false) (hc : cfg.Ok) (k : Key) (l : Nat) :
    BitvectorSuffix.constructSuffix cfg.suffixType k cfg.hashLen l cfg.realLen = .ok (sfxOf cfg k l) := by
  obtain ⟨w, e, -⟩ := constructSuffix_ok (Or.inl hs) hc k l
  unfold sfxOf
  rw [e]; rfl

theorem passes_none (h : cfg.suffixType = .kNone) (v : Word) (q : Key) (l : Nat) : passes cfg v q l = true := by
  unfold passes chk
  rw [if_pos h]; rfl

theorem passes_eq (hs : Env.strict = false) (hc : cfg.Ok) (h1 : cfg.suffixType ≠ .kNone) (h2 : cfg.suffixType ≠ .kReal)
    (v : Word) (q : Key) (l : Nat) : passes cfg v q l = (v == sfxOf cfg q l) := by
  unfold passes chk
  rw [if_neg h1, if_neg (by simp [h2]), if_neg (by simp [h2]), sfxOf_ok hs hc]
  rfl

theorem real_short_iff (k : Key) (l n : Nat) : (k.length < l ∨ (k.length - l) * 8 < n) ↔ Spec.realSuffix n k l = none := by
  unfold Spec.realSuffix
  split <;> simp <;> omega

/-- The bits of a real suffix. -/
theorem real_bits {n : Nat} (hn : n ≤ 64) (k : Key) (l : Nat) :
    valBits n (BitvectorSuffix.constructRealSuffix k l n) = Spec.realSuffix0 n k l := by
  unfold Spec.realSuffix0
  by_cases h : k.length < l ∨ (k.length - l) * 8 < n
  · rw [(real_short_iff k l n).1 h, constructRealSuffix_short k l n h]
    apply List.ext_getElem
    · simp [valBits]
    · intro i h1 h2
      simp [valBits]
  · rw [(constructRealSuffix_spec k l n hn).2 (by omega) (by omega)]
    unfold Spec.realSuffix
    rw [if_pos (by omega)]
    rfl

theorem real_inj {n : Nat} (hn : n ≤ 64) {a b : Key} {l l' : Nat} :
    BitvectorSuffix.constructRealSuffix a l n = BitvectorSuffix.constructRealSuffix b l' n ↔
      Spec.realSuffix0 n a l = Spec.realSuffix0 n b l' := by
  rw [← real_bits hn, ← real_bits hn]
  constructor
  · intro h; rw [h]
  · exact (constructRealSuffix_spec a l n hn).1.ext (constructRealSuffix_spec b l' n hn).1 hn

theorem real_zero {n : Nat} (hn : n ≤ 64) {a : Key} {l : Nat} :
    BitvectorSuffix.constructRealSuffix a l n = 0 ↔ Spec.realSuffix0 n a l = List.replicate n false := by
  rw [← real_bits hn]
  have hz : Fits n (0 : Word) := fun i _ => by simp
  have e : valBits n (0 : Word) = List.replicate n false := by
    apply List.ext_getElem
    · simp [valBits]
    · intro i h1 h2
      simp [valBits]
  rw [← e]
  constructor
  · intro h; rw [h]
  · exact (constructRealSuffix_spec a l n hn).1.ext hz hn

theorem passes_real (hc : cfg.Ok) (h : cfg.suffixType = .kReal) (k q : Key) (l : Nat) :
    passes cfg (sfxOf cfg k l) q l = true ↔
      Spec.realSuffix0 cfg.realLen k l = List.replicate cfg.realLen false ∨
      ∃ b, Spec.realSuffix cfg.realLen k l = some b ∧ Spec.realSuffix cfg.realLen q l = some b := by
  have hr : cfg.realLen ≤ 64 := by have := hc.1; omega
  have e : ∀ k, BitvectorSuffix.constructSuffix cfg.suffixType k cfg.hashLen l cfg.realLen =
      .ok (BitvectorSuffix.constructRealSuffix k l cfg.realLen) := by
    intro k; rw [h]; rfl
  have e' : sfxOf cfg k l = BitvectorSuffix.constructRealSuffix k l cfg.realLen := by
    unfold sfxOf; rw [e]; rfl
  rw [← real_zero hr, e']
  unfold passes chk
  rw [if_neg (by simp [h])]
  by_cases h0 : BitvectorSuffix.constructRealSuffix k l cfg.realLen = 0
  · rw [if_pos ⟨h, h0⟩]; simp [h0, Except.toOption]
  · rw [if_neg (fun hc => h0 hc.2)]
    have hk : ¬ (k.length < l ∨ (k.length - l) * 8 < cfg.realLen) := fun hc =>
      h0 (constructRealSuffix_short _ _ _ hc)
    have hk' : Spec.realSuffix cfg.realLen k l = some ((Spec.bits (k.drop l)).take cfg.realLen) := by
      unfold Spec.realSuffix
      rw [if_pos (by omega)]
    by_cases hq : q.length < l ∨ (q.length - l) * 8 < cfg.realLen
    · rw [if_pos ⟨h, hq⟩, (real_short_iff q l _).1 hq]
      simp only [h0, false_or, reduceCtorEq, and_false, exists_false, iff_false]
      simp [Except.toOption]
    · have hq' : Spec.realSuffix cfg.realLen q l = some ((Spec.bits (q.drop l)).take cfg.realLen) := by
        unfold Spec.realSuffix
        rw [if_pos (by omega)]
      rw [if_neg (by simp [hq]), e, ok_bind, hk', hq']
      have h3 := real_inj hr (a := k) (b := q) (l := l) (l' := l)
      unfold Spec.realSuffix0 at h3
      rw [hk', hq'] at h3
      simp only [Option.getD_some] at h3
      simp only [h0, false_or, Option.some.injEq, exists_eq_left']
      change ((BitvectorSuffix.constructRealSuffix k l cfg.realLen == BitvectorSuffix.constructRealSuffix q l cfg.realLen) = true) ↔ _
      rw [beq_iff_eq, h3]
      exact eq_comm

/-- A key passes the check of its own suffix. -/
theorem passes_self (hs : Env.strict = false) (hc : cfg.Ok) (k : Key) (l : Nat) : passes cfg (sfxOf cfg k l) k l = true := by
  by_cases h1 : cfg.suffixType = .kNone
  · exact passes_none h1 _ _ _
  by_cases h2 : cfg.suffixType = .kReal
  · rw [passes_real hc h2]
    cases h : Spec.realSuffix cfg.realLen k l with
    | none => left; unfold Spec.realSuffix0; rw [h]; rfl
    | some b => right; exact ⟨b, rfl, rfl⟩
  · rw [passes_eq hs hc h1 h2]; simp

/-- Value of the hash suffix, for lengths for which the shift of the code is defined. -/
theorem hash_val (k : Key) {n : Nat} (h1 : 1 ≤ n) (h2 : n ≤ 57) :
    BitvectorSuffix.constructHashSuffix k n = .ok (BitVec.ofNat 64 ((suffixHash k).toNat / 2 ^ 7 % 2 ^ n)) := by
  unfold BitvectorSuffix.constructHashSuffix
  have e1 : sub32 64 n = 64 - n := sub32_eq (by omega) (by decide)
  have e2 : sub32 (64 - n) kHashShift = 64 - n - 7 := sub32_eq (by unfold kHashShift; omega) (by rw [M32_eq]; omega)
  dsimp only
  rw [e1, e2, shlW, if_pos (by omega), ok_bind, shrW, if_pos (by omega)]
  apply congrArg
  apply BitVec.eq_of_toNat_eq
  have hlt := (suffixHash k).isLt
  rw [BitVec.toNat_ushiftRight, BitVec.toNat_shiftLeft, BitVec.toNat_setWidth, BitVec.toNat_ofNat, Nat.shiftLeft_eq, Nat.shiftRight_eq_div_pow]
  revert hlt
  generalize (suffixHash k).toNat = h
  intro hlt
  rw [Nat.mod_eq_of_lt (show h < 2 ^ 64 by omega)]
  have e3 : 2 ^ 64 = 2 ^ (64 - n) * 2 ^ n := by rw [← pow_add, Nat.sub_add_cancel (by omega)]
  have e4 : 2 ^ (64 - n) = 2 ^ (64 - n - 7) * 2 ^ 7 := by rw [← pow_add, Nat.sub_add_cancel (by omega)]
  have hn : (2 : Nat) ^ n ∣ 2 ^ 64 := ⟨2 ^ (64 - n), by rw [e3, Nat.mul_comm]⟩
  rw [Nat.mod_eq_of_lt (show h / 2 ^ 7 % 2 ^ n < 2 ^ 64 from by
    have := Nat.mod_le (h / 2 ^ 7) (2 ^ n); omega)]
  rw [e3, Nat.mod_mul_right_div_self, e4, Nat.mul_comm h, Nat.mul_div_mul_left _ _ (Nat.two_pow_pos _)]

theorem hash_lt (k : Key) (n : Nat) : (suffixHash k).toNat / 2 ^ 7 % 2 ^ n < 2 ^ 64 := by
  have h2 := Nat.mod_le ((suffixHash k).toNat / 2 ^ 7) (2 ^ n)
  have h3 := (suffixHash k).isLt
  have h4 := Nat.div_le_self (suffixHash k).toNat (2 ^ 7)
  omega

theorem hash_inj {a b : Key} {n : Nat} :
    BitVec.ofNat 64 ((suffixHash a).toNat / 2 ^ 7 % 2 ^ n) = BitVec.ofNat 64 ((suffixHash b).toNat / 2 ^ 7 % 2 ^ n) ↔
      (suffixHash a).toNat / 2 ^ 7 % 2 ^ n = (suffixHash b).toNat / 2 ^ 7 % 2 ^ n := by
  constructor
  · intro he
    have := congrArg BitVec.toNat he
    rwa [BitVec.toNat_ofNat, BitVec.toNat_ofNat, Nat.mod_eq_of_lt (hash_lt a n), Nat.mod_eq_of_lt (hash_lt b n)] at this
  · intro h; rw [h]

/-- Mixed suffixes are equal iff both parts are. -/
theorem mixed_eq (hs : Env.strict = false) (hc : cfg.Ok) (hn : cfg.suffixType = .kMixed) (h57 : cfg.hashLen ≤ 57)
    {a b : Key} {l l' : Nat} : sfxOf cfg a l = sfxOf cfg b l' ↔
      (suffixHash a).toNat / 2 ^ 7 % 2 ^ cfg.hashLen = (suffixHash b).toNat / 2 ^ 7 % 2 ^ cfg.hashLen ∧
      Spec.realSuffix0 cfg.realLen a l = Spec.realSuffix0 cfg.realLen b l' := by
  have h64 := hc.1
  have h1 : 1 ≤ cfg.hashLen := by have := hc.2; rw [hn] at this; exact this
  have key : ∀ a l, ∃ h, BitVec.ofNat 64 ((suffixHash a).toNat / 2 ^ 7 % 2 ^ cfg.hashLen) = h ∧ Fits cfg.hashLen h ∧
      Fits (cfg.hashLen + cfg.realLen) (sfxOf cfg a l) ∧
      valBits (cfg.hashLen + cfg.realLen) (sfxOf cfg a l) =
        valBits cfg.hashLen h ++ valBits cfg.realLen (BitvectorSuffix.constructRealSuffix a l cfg.realLen) := by
    intro a l
    obtain ⟨w, e1, e2⟩ := constructHashSuffix_ok hs a h1 (by omega)
    have e3 := e1
    rw [hash_val a h1 h57] at e3
    refine ⟨w, Except.ok.inj e3, e2, ?_⟩
    have e4 : sfxOf cfg a l = (w <<< cfg.realLen) ||| BitvectorSuffix.constructRealSuffix a l cfg.realLen := by
      unfold sfxOf BitvectorSuffix.constructSuffix
      rw [hn]
      dsimp only [BitvectorSuffix.constructMixedSuffix]
      rw [e1, ok_bind, shlW, if_pos (by omega), ok_bind]
      rfl
    obtain ⟨h3, h4, h5⟩ := e2.shl_add h64 (constructRealSuffix_spec a l cfg.realLen (by omega)).1
    rw [e4, ← h3]
    exact ⟨h4, h5⟩
  obtain ⟨ha, ea, fa, ga, va⟩ := key a l
  obtain ⟨hb, eb, fb, gb, vb⟩ := key b l'
  rw [← hash_inj, ea, eb, ← real_bits (by omega), ← real_bits (by omega)]
  constructor
  · intro h
    rw [h, vb] at va
    have := List.append_inj va (by simp [valBits])
    exact ⟨(fb.ext fa (by omega) this.1).symm, this.2.symm⟩
  · rintro ⟨h1, h2⟩
    exact ga.ext gb h64 (by rw [va, vb, h1, h2])

end

/-! ## The last node in level order -/

section
variable {ts : List Str}

theorem nodesR_order (h : WF ts) (a b : Nat) :
    (nodesR ts a b).Pairwise fun x y => x.length < y.length ∨ (x.length = y.length ∧ x < y) := by
  unfold nodesR
  rw [List.pairwise_flatMap]
  constructor
  · intro l _
    refine (nodes_sorted h.sorted l).imp_of_mem ?_
    intro x y hx hy hxy
    right
    exact ⟨by rw [(mem_nodes.1 hx).1, (mem_nodes.1 hy).1], hxy⟩
  · refine (List.pairwise_lt_range' (s := a) (n := b - a)).imp ?_
    intro i j hij x hx y hy
    left
    rw [(mem_nodes.1 hx).1, (mem_nodes.1 hy).1]
    exact hij

/-- Every node comes before the last one. -/
theorem last_node (h : WF ts) {s : Nat} {A : List Str} {x y : Str} (hA : snodes ts s = A ++ [x]) (hy : isInt ts y = true) :
    y.length < x.length ∨ (y.length = x.length ∧ y ≤ x) := by
  have hx : x ∈ snodes ts s := by rw [hA]; simp
  have hxs := (mem_nodesR.1 hx).1
  by_cases hys : s ≤ y.length
  · have hym : y ∈ snodes ts s := by
      obtain ⟨t, ht, hp, hne⟩ := isInt_iff.1 hy
      have h1 := le_maxLen ht
      have h2 := hp.length_le
      exact mem_nodesR.2 ⟨hys, by omega, hy⟩
    have ho := nodesR_order h s (maxLen ts + 1)
    change (snodes ts s).Pairwise _ at ho
    rw [hA, List.pairwise_append] at ho
    rw [hA] at hym
    rcases List.mem_append.1 hym with hym | hym
    · rcases ho.2.2 y hym x (by simp) with h1 | h1
      · exact Or.inl h1
      · exact Or.inr ⟨h1.1, le_of_lt h1.2⟩
    · simp at hym
      subst hym
      exact Or.inr ⟨rfl, le_rfl⟩
  · left; omega

end

theorem syms_lt {a b : Key} (hl : a.length = b.length) (h : syms a < syms b) : a < b := by
  apply w_lt.1
  rw [w_eq, w_eq]
  exact lt_append_of_lt (by simpa using hl) h

/-- The last node of the level order. -/
theorem last_shared {keys : List Key} (hwf : WF (leafStrs keys)) (hs : (uniq keys).Pairwise (· < ·)) {s : Nat} (hs1 : 1 ≤ s)
    {A : List Str} {x : Str} (hA : snodes (leafStrs keys) s = A ++ [x]) : ∃ p, x = syms p ∧ Spec.LastShared keys p ∧ s ≤ p.length := by
  have hx : x ∈ snodes (leafStrs keys) s := by rw [hA]; simp
  have hx' := mem_nodesR.1 hx
  obtain ⟨p, rfl, hsh⟩ := node_shared hwf hs hx'.2.2 (by rintro rfl; have := hx'.1; simp at this; omega)
  refine ⟨p, rfl, ⟨hsh, ?_⟩, by simpa using hx'.1⟩
  intro p' hp'
  rcases last_node hwf hA (shared_int hs hp') with h1 | ⟨h1, h2⟩
  · left; simpa using h1
  · right
    have hl : p'.length = p.length := by simpa using h1
    refine ⟨hl, ?_⟩
    rcases h2.lt_or_eq with h2 | h2
    · intro hc
      exact lt_irrefl _ ((w_lt.2 hc).trans (w_lt.2 (syms_lt hl h2)))
    · rw [syms_inj h2]
      intro hc
      exact lt_irrefl _ (w_lt.2 hc)

theorem lastShared_unique {keys : List Key} {p p' : Key} (h : Spec.LastShared keys p) (h' : Spec.LastShared keys p') : p = p' := by
  rcases h.2 p' h'.1 with h1 | ⟨h1, h2⟩
  · rcases h'.2 p h.1 with h3 | ⟨h3, -⟩ <;> omega
  · rcases h'.2 p h.1 with h3 | ⟨-, h3⟩
    · omega
    · apply w_inj
      have g1 : ¬ w p < w p' := fun hc => h2 (w_lt.1 hc)
      have g2 : ¬ w p' < w p := fun hc => h3 (w_lt.1 hc)
      exact le_antisymm (not_lt.1 g2) (not_lt.1 g1)

/-- An item behind a shared prefix. -/
theorem ex_branch {keys : List Key} (hwf : WF (leafStrs keys)) {p : Key} (hp : isInt (leafStrs keys) (syms p) = true) {c : Nat} :
    ex (leafStrs keys) (syms p ++ [c]) = true ↔ ∃ k ∈ keys, syms p ++ [c] <+: w k := by
  constructor
  · intro he
    obtain ⟨t, ht, h⟩ := ex_iff.1 he
    obtain ⟨k, hk, -, htw⟩ := mem_leafStrs ht
    exact ⟨k, hk, h.trans htw⟩
  · rintro ⟨k, hk, h1⟩
    obtain ⟨t, ht, htm⟩ := leaf_of_key hk
    rcases List.prefix_or_prefix_of_prefix (leaves_prefix ht).1 h1 with h2 | h2
    · rcases List.prefix_concat_iff.1 h2 with h3 | h3
      · rw [← h3]; exact ex_mem htm
      · exact absurd h3 (no_leaf_above hwf hp htm)
    · exact ex_iff.2 ⟨t, htm, h2⟩

theorem kidItems_degree {keys : List Key} (hwf : WF (leafStrs keys)) {p : Key} (hp : isInt (leafStrs keys) (syms p) = true) :
    (kidItems (leafStrs keys) (syms p)).length = Spec.degree keys p := by
  have : (kidItems (leafStrs keys) (syms p)).Perm
      ((((keys.filter fun k => p <+: k).map fun k => k[p.length]?).dedup).map fun o => syms p ++ [symO o]) := by
    rw [List.perm_ext_iff_of_nodup ((kidItems_sorted hwf.sorted _).imp fun hlt he => by rw [he] at hlt; exact lt_irrefl _ hlt)]
    · intro y
      simp only [mem_kidItems, List.mem_map, List.mem_dedup, List.mem_filter, decide_eq_true_eq]
      constructor
      · rintro ⟨⟨c, rfl⟩, he⟩
        obtain ⟨k, hk, hw⟩ := (ex_branch hwf hp).1 (ex_iff.2 he)
        obtain ⟨h1, h2⟩ := snoc_prefix_w.1 hw
        exact ⟨_, ⟨k, ⟨hk, h1⟩, rfl⟩, by rw [h2]⟩
      · rintro ⟨o, ⟨k, ⟨hk, h1⟩, rfl⟩, rfl⟩
        exact ⟨⟨_, rfl⟩, ex_iff.1 ((ex_branch hwf hp).2 ⟨k, hk, snoc_prefix_w.2 ⟨h1, rfl⟩⟩)⟩
    · refine (List.nodup_dedup _).map ?_
      intro o o' h
      exact symO_inj (List.cons.inj (List.append_inj' h rfl).2).1
  rw [this.length_eq, List.length_map]
  rfl

/-- A query that hits the padding. -/
theorem padHit_iff {keys : List Key} (hwf : WF (leafStrs keys)) (hs : (uniq keys).Pairwise (· < ·)) {s : Nat} (hs1 : 1 ≤ s) {q : Key} :
    PadHit (leafStrs keys) s q ↔ Spec.ZeroHit keys s q := by
  have hlen : (sitems (leafStrs keys) s).length = (Spec.branches keys s).length := items_branches hwf hs hs1
  have hz : ∀ {p k : Key}, syms p ++ [1] <+: w k ↔ p ++ [0] <+: k := by
    intro p k
    rw [← syms_prefix_w]
    simp
  constructor
  · rintro ⟨A, x, hA, h1, h2, h3, h4⟩
    obtain ⟨p, rfl, hl, hsp⟩ := last_shared hwf hs hs1 hA
    have hi := shared_int hs hl.1
    rw [hlen] at h3 h4
    rw [kidItems_degree hwf hi] at h4
    refine ⟨p, hl, hsp, hz.1 h1, fun k hk hc => ?_, h3, h4⟩
    rw [(ex_branch hwf hi).2 ⟨k, hk, hz.2 hc⟩] at h2
    simp at h2
  · rintro ⟨p, hl, hsp, h1, h2, h3, h4⟩
    have hi := shared_int hs hl.1
    have hm : syms p ∈ snodes (leafStrs keys) s :=
      mem_nodesR.2 ⟨by simpa using hsp, by have := int_length_lt hi; omega, hi⟩
    rcases List.eq_nil_or_concat (snodes (leafStrs keys) s) with h0 | ⟨A, x, hA⟩
    · rw [h0] at hm; simp at hm
    · rw [List.concat_eq_append] at hA
      obtain ⟨p', rfl, hl', -⟩ := last_shared hwf hs hs1 hA
      obtain rfl := lastShared_unique hl hl'
      refine ⟨A, _, hA, hz.2 h1, ?_, by rw [hlen]; exact h3, by rw [hlen, kidItems_degree hwf hi]; exact h4⟩
      by_contra hc
      obtain ⟨k, hk, hw⟩ := (ex_branch hwf hi).1 (by simpa using hc)
      exact h2 k hk (hz.1 hw)

end Surf
