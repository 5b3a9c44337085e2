import Verif.Proof.BuilderRep

/-! # Inserting keys (surf_builder.hpp:185-253) -/

set_option linter.unusedSectionVars false

namespace Surf
open Trie
variable [Env]

/-- The symbols of a byte string. -/
def syms (k : Key) : Str := k.map fun b => b.toNat + 1

omit [Env] in
@[simp] theorem syms_length (k : Key) : (syms k).length = k.length := by simp [syms]
omit [Env] in
@[simp] theorem syms_nil : syms [] = [] := rfl
omit [Env] in
@[simp] theorem syms_cons (a : UInt8) (k : Key) : syms (a :: k) = (a.toNat + 1) :: syms k := rfl
omit [Env] in
@[simp] theorem syms_append (a b : Key) : syms (a ++ b) = syms a ++ syms b := by simp [syms]
omit [Env] in
theorem w_eq (k : Key) : w k = syms k ++ [0] := rfl
omit [Env] in
theorem w_append (a b : Key) : w (a ++ b) = syms a ++ w b := by simp [w_eq]

omit [Env] in
theorem lab_sym (x : Str) (c : Nat) : lab (x ++ [c]) = if c = 0 then 255 else UInt8.ofNat (c - 1) := by
  unfold lab
  cases c <;> simp

theorem isCharCommonPrefix_ok {L H : Nat} {ls : List Level} {ts : List Str} {ss : List (Str × Word)}
    {tl : Str} (h : Rep L H ls (ts ++ [tl]) ss) {y z : Str} {x : Nat} (htl : tl = y ++ x :: z) (hx : x ≤ 256)
    (b : UInt8) : Builder.isCharCommonPrefix ls b y.length = .ok (decide (x = b.toNat + 1)) := by
  have hlt : y.length < ls.length := by
    have := h.bound tl (by simp)
    rw [htl] at this
    rw [h.len]
    simp at this; omega
  obtain ⟨lv, hlv⟩ : ∃ lv, ls[y.length]? = some lv := ⟨_, List.getElem?_eq_getElem hlt⟩
  have hr := h.lvl _ _ hlv
  obtain ⟨qs, hq⟩ := lev_last ts tl (l := y.length + 1) (by rw [htl]; simp)
  have htake : tl.take (y.length + 1) = y ++ [x] := by
    rw [htl, List.take_append, List.take_of_length_le (by omega)]; simp
  rw [htake] at hq
  unfold Builder.isCharCommonPrefix
  rw [hlv]
  dsimp only
  have hterm : lv.isLastTerm = decide (x = 0) := by rw [hr.term, hq]; simp
  have hlabs : lv.labels.getLast? = some (lab (y ++ [x])) := by
    rw [hr.labels, hq]; simp
  rw [hterm, hlabs]
  by_cases h0 : x = 0
  · subst h0; simp
  · simp only [h0, decide_false, Bool.false_eq_true, if_false]
    apply ok_congr
    rw [lab_sym, if_neg h0]
    rw [Bool.eq_iff_iff, beq_iff_eq, decide_eq_true_iff, ← UInt8.toNat_inj, UInt8.toNat_ofNat']
    have := b.toNat_lt
    omega

/-- `skipCommonPrefix` stops at the first position where the key differs from its predecessor. -/
theorem skip_ok {L H : Nat} {ls : List Level} {ts : List Str} {ss : List (Str × Word)}
    {tl z : Str} {x : Nat} {b : UInt8} {kr : Key} (k1 k2 : Key) (h : Rep L H ls (ts ++ [tl]) ss)
    (hn : ts.length + 1 < M32)
    (htl : tl = syms (k1 ++ k2) ++ x :: z) (hx : x ≤ 256) (hxb : x ≠ b.toNat + 1) :
    ∃ ls', Builder.skipCommonPrefix (k2 ++ b :: kr) ls k1.length = .ok (ls', k1.length + k2.length) ∧
      Rep L H ls' (ts ++ [tl]) ss := by
  induction k2 generalizing k1 ls with
  | nil =>
    refine ⟨ls, ?_, h⟩
    rw [List.nil_append, Builder.skipCommonPrefix]
    have := isCharCommonPrefix_ok h (y := syms k1) (by simpa using htl) hx b
    rw [syms_length] at this
    rw [this, ok_bind]
    simp [hxb]
  | cons a k2 ih =>
    rw [List.cons_append, Builder.skipCommonPrefix]
    have htl' : tl = syms k1 ++ (a.toNat + 1) :: (syms k2 ++ x :: z) := by simpa using htl
    have h1 := isCharCommonPrefix_ok h htl' (by have := a.toNat_lt; omega) a
    rw [syms_length] at h1
    rw [h1, ok_bind]
    simp only [decide_true, if_true]
    have hlt : k1.length < ls.length := by
      have := h.bound tl (by simp)
      rw [htl'] at this
      rw [h.len]
      simp at this; omega
    obtain ⟨lv, hlv⟩ : ∃ lv, ls[k1.length]? = some lv := ⟨_, List.getElem?_eq_getElem hlt⟩
    have hr := h.lvl _ _ hlv
    obtain ⟨qs, hq⟩ := lev_last ts tl (l := k1.length + 1) (by rw [htl']; simp)
    have hlenq := lev_length_le (ts ++ [tl]) (k1.length + 1)
    rw [hq] at hlenq hr
    simp only [List.length_append, List.length_cons, List.length_nil] at hlenq
    obtain ⟨lv', em, hr'⟩ := markChild_ok (int' := isInt (ts ++ [tl])) hr (by omega) (fun _ _ => rfl)
      (by
        refine isInt_iff.2 ⟨tl, by simp, List.take_prefix _ _, ?_⟩
        intro he
        have := congrArg List.length he
        rw [htl'] at this
        simp at this)
    rw [modLevel_ok hlv em, ok_bind]
    have hrep : Rep L H (ls.set k1.length lv') (ts ++ [tl]) ss := by
      refine ⟨by simp [h.len], h.bound, h.sbound, ?_⟩
      intro l lv2 hl
      by_cases hl' : l = k1.length
      · subst hl'
        rw [List.getElem?_set_self (by omega)] at hl
        simp only [Option.some.injEq] at hl
        subst hl
        rw [hq]; exact hr'
      · rw [List.getElem?_set_ne (by omega)] at hl
        exact h.lvl l lv2 hl
    obtain ⟨ls', e, hrep'⟩ := ih (k1 ++ [a]) hrep (by simpa using htl)
    rw [List.length_append] at e
    refine ⟨ls', ?_, hrep'⟩
    rw [show k1.length + [a].length = k1.length + 1 from rfl] at e
    rw [e]
    simp only [List.length_cons]
    congr 2
    omega

omit [Env] in
/-- Sortedness of the partially inserted state. -/
theorem sorted_extend {ts : List Str} {u : Str} {v : Str} (hs : (ts ++ [u]).Pairwise (· < ·))
    (hnew : ∀ t ∈ ts, ¬ u <+: t) : (ts ++ [u ++ v]).Pairwise (· < ·) ∧ ∀ t ∈ ts, ¬ u ++ v <+: t := by
  rw [List.pairwise_append] at hs ⊢
  refine ⟨⟨hs.1, by simp, ?_⟩, fun t ht h => hnew t ht ((List.prefix_append _ _).trans h)⟩
  intro a ha b hb
  simp only [List.mem_singleton] at hb
  subst hb
  have := hs.2.2 a ha u (by simp)
  refine lt_of_lt_of_le this ?_
  rcases eq_or_ne u (u ++ v) with h | h
  · rw [← h]
  · exact le_of_lt (lt_of_prefix (List.prefix_append _ _) h)

/-- The remaining bytes up to the first one that differs from the next key. -/
theorem insertRest_ok {L : Nat} {ts : List Str} {ss : List (Str × Word)} (hn : ts.length + 1 < M32)
    (kr nr : Key) : ∀ {H : Nat} {ls : List Level} {u : Str},
    Rep L H ls (ts ++ [u]) ss → (ts ++ [u]).Pairwise (· < ·) → (∀ t ∈ ts, ¬ u <+: t) →
    ∃ ls', Builder.insertRest kr nr ls u.length = .ok (ls', u.length + lcp kr nr + 1) ∧
      Rep L (max H (u.length + lcp kr nr + 1)) ls' (ts ++ [u ++ (w kr).take (lcp kr nr + 1)]) ss := by
  induction kr generalizing nr with
  | nil =>
    intro H ls u h hs hnew
    obtain ⟨ls', e, r⟩ := insertNext_ok (c := 0) h hn hs hnew
    refine ⟨ls', ?_, ?_⟩
    · rw [Builder.insertRest]
      · rw [lab_term] at e
        simp only [decide_true] at e
        rw [e, ok_bind]
        simp [lcp]
    · simpa [lcp] using r
  | cons k ks ih =>
    intro H ls u h hs hnew
    obtain ⟨ls1, e, r⟩ := insertNext_ok (c := k.toNat + 1) h hn hs hnew
    rw [lab_byte] at e
    simp only [Nat.add_one_ne_zero, decide_false] at e
    obtain ⟨s1, s2⟩ := sorted_extend (v := [k.toNat + 1]) hs hnew
    cases nr with
    | nil =>
      refine ⟨ls1, ?_, ?_⟩
      · rw [Builder.insertRest]
        rw [e, ok_bind]
        simp [lcp]
      · simpa [lcp] using r
    | cons n ns =>
      rw [Builder.insertRest]
      by_cases hkn : k = n
      · subst hkn
        rw [if_pos rfl, e, ok_bind]
        obtain ⟨ls', e', r'⟩ := ih ns r s1 s2
        rw [List.length_append] at e' r'
        refine ⟨ls', ?_, ?_⟩
        · rw [show u.length + [k.toNat + 1].length = u.length + 1 from rfl] at e'
          rw [e']
          simp only [lcp, if_true]
          congr 2
          omega
        · simp only [lcp, if_true]
          have e1 : max (max H (u.length + 1)) (u.length + [k.toNat + 1].length + lcp ks ns + 1) =
              max H (u.length + (lcp ks ns + 1) + 1) := by simp; omega
          rw [e1] at r'
          simpa using r'
      · rw [if_neg hkn, e, ok_bind]
        refine ⟨ls1, ?_, ?_⟩
        · simp [lcp, hkn]
        · simpa [lcp, hkn] using r

omit [Env] in
theorem lcp_le_iff {k n : Key} {c : Nat} (hc : c < k.length) :
    (c + 1 > n.length ∨ k.take (c + 1) ≠ n.take (c + 1)) ↔ lcp k n ≤ c := by
  induction k generalizing n c with
  | nil => simp at hc
  | cons a k ih =>
    cases n with
    | nil => simp [lcp]
    | cons b n =>
      simp only [lcp, List.length_cons, List.take_succ_cons, ne_eq, List.cons.injEq]
      by_cases hab : a = b
      · subst hab
        simp only [true_and, if_true]
        cases c with
        | zero => simp
        | succ c =>
          have := ih (n := n) (c := c) (by simpa using hc)
          rw [Nat.add_le_add_iff_right, ← this]
          simp
      · simp [hab]

omit [Env] in
theorem lcp_drop {k n : Key} {m : Nat} (h : m ≤ lcp k n) : lcp k n = m + lcp (k.drop m) (n.drop m) := by
  induction m generalizing k n with
  | zero => simp
  | succ m ih =>
    cases k with
    | nil => simp [lcp] at h
    | cons a k =>
      cases n with
      | nil => simp [lcp] at h
      | cons b n =>
        simp only [lcp] at h ⊢
        split at h
        · rename_i hab
          subst hab
          simp only [if_true, List.drop_succ_cons]
          rw [ih (by omega)]
          omega
        · omega

/-- `insertSuffix` appends the suffix word of the new leaf. -/
theorem insertSuffix_ok {cfg : Config} (hs : Env.strict = false ∨ cfg.suffixType = .kReal) (hc : cfg.Ok) {H : Nat} {ls : List Level} {ts : List Str}
    {ss : List (Str × Word)} (h : Rep (cfg.hashLen + cfg.realLen) H ls ts ss) {t : Str} (ht : t ≠ [])
    (htH : t.length ≤ H) (ht32 : t.length < M32)
    (h32 : (cfg.hashLen + cfg.realLen) * (wordsAt ss (t.length - 1)).length < M32) (k : Key) :
    ∃ ls' wd, Builder.insertSuffix cfg ls k t.length = .ok ls' ∧
      BitvectorSuffix.constructSuffix cfg.suffixType k cfg.hashLen t.length cfg.realLen = .ok wd ∧
      Fits (cfg.hashLen + cfg.realLen) wd ∧
      Rep (cfg.hashLen + cfg.realLen) (max H (t.length + 1)) ls' ts (ss ++ [(t, wd)]) := by
  have hpos := List.length_pos_of_ne_nil ht
  have hg := h.grow htH
  unfold Builder.insertSuffix
  dsimp only
  set ls1 := (if t.length ≥ ls.length then ls ++ [Builder.newLevel] else ls) with hls1
  obtain ⟨g1, g2, g3, g4⟩ := hg
  rw [sub32_eq (by omega) ht32]
  have hlt : t.length - 1 < ls1.length := by omega
  rw [assertR_ok (by simpa using hlt), ok_bind]
  obtain ⟨wd, ew, hf⟩ := constructSuffix_ok hs hc k t.length
  rw [ew, ok_bind]
  obtain ⟨lv, hlv⟩ : ∃ lv, ls1[t.length - 1]? = some lv := ⟨_, List.getElem?_eq_getElem hlt⟩
  obtain ⟨a1, a2, a3, a4, a5, a6, a7, a8, a9, a10⟩ := g4 _ _ hlv
  set L := cfg.hashLen + cfg.realLen with hL
  have hwords : ∀ l, wordsAt (ss ++ [(t, wd)]) l =
      wordsAt ss l ++ (if l = t.length - 1 then [wd] else []) := by
    intro l
    unfold wordsAt
    rw [List.filter_append, List.map_append]
    congr 1
    by_cases hl : l = t.length - 1
    · rw [if_pos hl, List.filter_cons_of_pos (by simp; omega)]; simp
    · rw [if_neg hl, List.filter_cons_of_neg (by simp; omega)]; simp
  obtain ⟨s, es, hsx, hst⟩ : ∃ s, Builder.storeSuffix lv L wd =
      .ok { lv with suffixes := s, suffixCount := lv.suffixCount + 1 } ∧
      LevelBits (s, L * (wordsAt ss (t.length - 1) ++ [wd]).length) (packBits L (wordsAt ss (t.length - 1) ++ [wd])) ∧
      ((1 ≤ L → 64 * s.length < (packBits L (wordsAt ss (t.length - 1) ++ [wd])).length + 64) ∧
        (L = 0 → s.length = min 1 (wordsAt ss (t.length - 1) ++ [wd]).length)) := by
    have hpk : packBits L (wordsAt ss (t.length - 1) ++ [wd]) =
        packBits L (wordsAt ss (t.length - 1)) ++ valBits L wd := by simp [packBits]
    rw [hpk]
    by_cases h0 : L = 0
    · rw [h0] at hf a8 ⊢
      have hw0 : wd = 0 := by
        apply BitVec.eq_of_getMsbD_eq
        intro i hi
        rw [hf i (by omega)]; simp
      obtain ⟨s, e, gl, g⟩ := storeSuffix_zero (hs.resolve_right (by
        intro hre
        have := hc.2
        rw [hre] at this
        dsimp only at this
        omega)) (lv := lv) (by
        intro i; rw [a8.bit]
        rw [getD_ge]; rw [packBits_length]; simp)
      rw [hw0]
      refine ⟨s, e, ⟨by simp [packBits_length], by simp [packBits_length], ?_⟩, by omega, fun _ => by rw [gl, a9.2 h0, List.length_append, List.length_singleton]; omega⟩
      intro i
      rw [g, getD_ge (by simp [packBits_length])]
    · obtain ⟨s, e, g, tt⟩ := storeSuffix_ok (lv := lv) (L := L) (w := wd) (by omega) hc.1 hf
        (by rw [a10]; exact a8) (a9.1 (by omega)) (by rw [a10]; exact h32)
      refine ⟨s, e, ?_, fun _ => tt, fun h => absurd h h0⟩
      rw [a10] at g
      simpa using g
  rw [modLevel_ok hlv es]
  refine ⟨_, wd, rfl, rfl, hf, by simp [g1], g2, ?_, ?_⟩
  · intro s hs
    rw [List.mem_append, List.mem_singleton] at hs
    rcases hs with hs | rfl
    · exact g3 s hs
    · dsimp only; omega
  · intro l lv2 hl
    rw [hwords]
    by_cases hl' : l = t.length - 1
    · rw [hl'] at hl ⊢
      rw [List.getElem?_set_self hlt] at hl
      simp only [Option.some.injEq] at hl
      subst hl
      rw [if_pos rfl]
      exact ⟨a1, a2, a3, a4, a5, a6, a7, hsx, hst, by dsimp only; rw [a10]; simp⟩
    · rw [List.getElem?_set_ne (by omega)] at hl
      rw [if_neg hl', List.append_nil]
      exact g4 l lv2 hl

theorem insertTrie_ok {L H : Nat} {ls : List Level} {ts : List Str} {ss : List (Str × Word)}
    (h : Rep L H ls ts ss) (hn : ts.length + 1 < M32) (hs : ts.Pairwise (· < ·))
    {kc : Key} {b : UInt8} {kr next : Key}
    (hcase : (ts = [] ∧ kc = []) ∨ (∃ ts0 tl, ts = ts0 ++ [tl] ∧ syms kc <+: tl ∧ syms kc ≠ tl))
    (hlt : ∀ t ∈ ts, t < syms kc ++ [b.toNat + 1]) (hnp : ∀ t ∈ ts, ¬ syms kc ++ [b.toNat + 1] <+: t) :
    ∃ ls', Builder.insertKeyBytesToTrieUntilUnique ls (kc ++ b :: kr) next kc.length =
        .ok (ls', max kc.length (lcp (kc ++ b :: kr) next) + 1) ∧
      Rep L (max H (max kc.length (lcp (kc ++ b :: kr) next) + 1)) ls'
        (ts ++ [(w (kc ++ b :: kr)).take (max kc.length (lcp (kc ++ b :: kr) next) + 1)]) ss := by
  set k := kc ++ b :: kr with hk
  have hkl : kc.length < k.length := by rw [hk]; simp
  have hge : k.getD kc.length 0 = b := by rw [hk]; simp [List.getD]
  have htk : k.take (kc.length + 1) = kc ++ [b] := by
    rw [hk, List.take_append, List.take_of_length_le (by omega)]; simp
  have hdr : k.drop (kc.length + 1) = kr := by
    rw [hk, List.drop_append, List.drop_of_length_le (by omega)]; simp
  have hwk : w k = syms kc ++ (b.toNat + 1) :: w kr := by rw [hk, w_append, w_cons]
  have hvH : kc.length ≤ H := by
    rcases hcase with ⟨-, rfl⟩ | ⟨ts0, tl, rfl, h1, -⟩
    · simp
    · have := h1.length_le
      rw [syms_length] at this
      exact le_trans this (h.bound tl (by simp))
  have hempty : (ts = [] ∧ syms kc = [] ∧ Builder.isLevelEmpty ls kc.length = true) ∨
      (∃ ts0 tl, ts = ts0 ++ [tl] ∧ syms kc <+: tl ∧ syms kc ≠ tl ∧ Builder.isLevelEmpty ls kc.length = false) := by
    rcases hcase with ⟨rfl, rfl⟩ | ⟨ts0, tl, rfl, h1, h2⟩
    · left
      refine ⟨rfl, rfl, ?_⟩
      unfold Builder.isLevelEmpty
      cases hl : ls[([] : Key).length]? with
      | none => rfl
      | some lv =>
        have := (h.lvl _ _ hl).labels
        rw [lev_nil] at this
        simp [this]
    · right
      refine ⟨ts0, tl, rfl, h1, h2, ?_⟩
      have hl1 : kc.length < tl.length := by
        rcases Nat.lt_or_ge (syms kc).length tl.length with hh | hh
        · simpa using hh
        · exact absurd (h1.eq_of_length (le_antisymm h1.length_le hh)) h2
      have hl2 := h.bound tl (by simp)
      obtain ⟨lv, hlv⟩ : ∃ lv, ls[kc.length]? = some lv :=
        ⟨_, List.getElem?_eq_getElem (by rw [h.len]; omega)⟩
      unfold Builder.isLevelEmpty
      rw [hlv]
      have := (h.lvl _ _ hlv).labels
      obtain ⟨qs, hq⟩ := lev_last ts0 tl (l := kc.length + 1) (by omega)
      rw [hq] at this
      simp [this]
  obtain ⟨ls1, e1, r1⟩ := insertFirst_ok (u := syms kc) (c := b.toNat + 1)
    (isStart := Builder.isLevelEmpty ls kc.length) h (by omega) hs (by simpa using hvH) (by omega) hempty hnp
  rw [lab_byte, syms_length] at e1
  have s1 : (ts ++ [syms kc ++ [b.toNat + 1]]).Pairwise (· < ·) := by
    rw [List.pairwise_append]
    refine ⟨hs, by simp, ?_⟩
    intro a ha c hc
    simp only [List.mem_singleton] at hc
    subst hc
    exact hlt a ha
  unfold Builder.insertKeyBytesToTrieUntilUnique
  rw [assertR_ok (by simpa using hkl), ok_bind]
  dsimp only
  rw [hge, e1, ok_bind]
  by_cases hc : lcp k next ≤ kc.length
  · rw [if_pos ((lcp_le_iff hkl).2 hc), Nat.max_eq_left hc]
    refine ⟨ls1, rfl, ?_⟩
    have : (w k).take (kc.length + 1) = syms kc ++ [b.toNat + 1] := by
      rw [hwk, List.take_append, List.take_of_length_le (by simp)]; simp
    rw [this]
    simpa using r1
  · rw [if_neg (fun hh => hc ((lcp_le_iff hkl).1 hh)), Nat.max_eq_right (by omega)]
    obtain ⟨ls', e, r⟩ := insertRest_ok hn kr (next.drop (kc.length + 1)) r1 s1 hnp
    have hd := lcp_drop (k := k) (n := next) (m := kc.length + 1) (by omega)
    rw [hdr] at hd ⊢
    simp only [List.length_append, syms_length, List.length_cons, List.length_nil, Nat.zero_add] at e r
    refine ⟨ls', ?_, ?_⟩
    · rw [e, hd]
    · have e3 : max (max H (kc.length + 1)) (kc.length + 1 + lcp kr (List.drop (kc.length + 1) next) + 1)
          = max H (lcp k next + 1) := by rw [hd]; omega
      have e4 : (w k).take (lcp k next + 1) = syms kc ++ [b.toNat + 1] ++
          (w kr).take (lcp kr (List.drop (kc.length + 1) next) + 1) := by
        rw [hwk, hd, List.take_append, List.take_of_length_le (by simp; omega)]
        rw [List.append_assoc]
        congr 1
        rw [syms_length]
        have : kc.length + 1 + lcp kr (List.drop (kc.length + 1) next) + 1 - kc.length =
          (lcp kr (List.drop (kc.length + 1) next) + 1) + 1 := by omega
        rw [this, List.take_succ_cons]
        rfl
      rw [e3] at r
      rw [e4]
      exact r

/-! ## The loop over all keys -/

/-- The key list without repetitions of adjacent keys. -/
def uniq : List Key → List Key
  | [] => []
  | k :: ks => k :: uniq (Builder.dropSame k ks)
termination_by ks => ks.length
decreasing_by simpa using Nat.lt_succ_of_le (Builder.dropSame_length k ks)

/-- The loop of `buildSparse` on a list without repetitions. -/
def insertAll (cfg : Config) : List Key → List Level → R (List Level)
  | [], ls => .ok ls
  | k :: rest, ls => do
    let ls ← Builder.insertKey cfg ls k (rest.head?.getD [])
    insertAll cfg rest ls

omit [Env] in
theorem uniq_head (ks : List Key) : (uniq ks).head? = ks.head? := by
  cases ks with
  | nil => simp [uniq]
  | cons k ks => rw [uniq]; rfl

theorem buildSparseLoop_eq (cfg : Config) (fuel : Nat) (ks : List Key) (ls : List Level)
    (h : ks.length ≤ fuel) : Builder.buildSparseLoop cfg fuel ks ls = insertAll cfg (uniq ks) ls := by
  induction fuel generalizing ks ls with
  | zero =>
    have : ks = [] := by simpa using h
    subst this
    simp [Builder.buildSparseLoop, uniq, insertAll]
  | succ fuel ih =>
    cases ks with
    | nil => simp [Builder.buildSparseLoop, uniq, insertAll]
    | cons k ks =>
      rw [Builder.buildSparseLoop, uniq, insertAll, uniq_head]
      congr 1
      funext ls'
      refine ih _ _ ?_
      have := Builder.dropSame_length k ks
      simp at h; omega

omit [Env] in
omit [Env] in
theorem dropSame_mem {k : Key} {ks : List Key} {x : Key} :
    (x = k ∨ x ∈ Builder.dropSame k ks) ↔ (x = k ∨ x ∈ ks) := by
  induction ks with
  | nil => simp [Builder.dropSame]
  | cons a ks ih =>
    rw [Builder.dropSame]
    split
    · rename_i h; subst h
      rw [ih]; simp
    · rfl

omit [Env] in
theorem mem_uniq {ks : List Key} {x : Key} : x ∈ uniq ks ↔ x ∈ ks := by
  induction hn : ks.length using Nat.strong_induction_on generalizing ks with
  | _ n ih =>
    cases ks with
    | nil => simp [uniq]
    | cons k ks =>
      rw [uniq, List.mem_cons, List.mem_cons]
      rw [ih _ (by rw [← hn]; simpa using Nat.lt_succ_of_le (Builder.dropSame_length k ks)) rfl]
      exact dropSame_mem

omit [Env] in
omit [Env] in
theorem dropSame_sublist (k : Key) (ks : List Key) : (Builder.dropSame k ks).Sublist ks := by
  induction ks with
  | nil => simp [Builder.dropSame]
  | cons a ks ih =>
    rw [Builder.dropSame]
    split
    · exact ih.cons _
    · exact List.Sublist.refl _

omit [Env] in
omit [Env] in
theorem dropSame_head {k : Key} {ks : List Key} {x : Key} {r : List Key}
    (h : Builder.dropSame k ks = x :: r) : k ≠ x := by
  induction ks with
  | nil => simp [Builder.dropSame] at h
  | cons a ks ih =>
    rw [Builder.dropSame] at h
    split at h
    · exact ih h
    · rename_i hne
      simp only [List.cons.injEq] at h
      rw [← h.1]; exact hne

omit [Env] in
omit [Env] in
theorem key_le {a b : Key} : a ≤ b ↔ w a ≤ w b := by
  rw [← List.not_lt, ← w_lt, not_lt]

omit [Env] in
omit [Env] in
theorem key_lt_of_le_ne {a b : Key} (h : a ≤ b) (hne : a ≠ b) : a < b := by
  rw [key_le] at h
  rw [← w_lt]
  exact lt_of_le_of_ne h (fun e => hne (w_inj e))

omit [Env] in
omit [Env] in
theorem key_lt_of_lt_of_le {a b c : Key} (h : a < b) (h' : b ≤ c) : a < c := by
  rw [key_le] at h'
  rw [← w_lt] at h ⊢
  exact lt_of_lt_of_le h h'

omit [Env] in
theorem uniq_sorted {ks : List Key} (h : ks.Pairwise (· ≤ ·)) : (uniq ks).Pairwise (· < ·) := by
  induction hn : ks.length using Nat.strong_induction_on generalizing ks with
  | _ n ih =>
    cases ks with
    | nil => simp [uniq]
    | cons k ks =>
      rw [uniq, List.pairwise_cons]
      rw [List.pairwise_cons] at h
      have hsub := dropSame_sublist k ks
      have hsort := h.2.sublist hsub
      refine ⟨?_, ih _ (by rw [← hn]; simpa using Nat.lt_succ_of_le (Builder.dropSame_length k ks)) hsort rfl⟩
      intro x hx
      rw [mem_uniq] at hx
      cases hd : Builder.dropSame k ks with
      | nil => rw [hd] at hx; simp at hx
      | cons y r =>
        rw [hd] at hx hsort hsub
        have hy : k < y := key_lt_of_le_ne (h.1 y (hsub.subset (by simp))) (dropSame_head hd)
        rcases List.mem_cons.1 hx with rfl | hx
        · exact hy
        · exact key_lt_of_lt_of_le hy ((List.pairwise_cons.1 hsort).1 x hx)

omit [Env] in
theorem uniq_of_sorted {ks : List Key} (h : ks.Pairwise (· < ·)) : uniq ks = ks := by
  induction ks with
  | nil => simp [uniq]
  | cons k ks ih =>
    rw [List.pairwise_cons] at h
    rw [uniq]
    have : Builder.dropSame k ks = ks := by
      cases ks with
      | nil => rfl
      | cons y r =>
        rw [Builder.dropSame, if_neg]
        rintro rfl
        have := h.1 k (by simp)
        rw [← w_lt] at this
        exact lt_irrefl _ this
    rw [this, ih h.2]

/-- The suffix word stored for key `k` whose leaf string has length `l`. -/
def sfxOf (cfg : Config) (k : Key) (l : Nat) : Word :=
  (BitvectorSuffix.constructSuffix cfg.suffixType k cfg.hashLen l cfg.realLen).toOption.getD 0

/-- The stored suffixes of a list of leaves. -/
def sfxs (cfg : Config) (lvs : List (Key × Str)) : List (Str × Word) :=
  lvs.map fun x => (x.2, sfxOf cfg x.1 x.2.length)

omit [Env] in
theorem syms_take (k : Key) (n : Nat) : syms (k.take n) = (syms k).take n := by simp [syms]

/-- One iteration of the loop. -/
theorem insertKey_ok {cfg : Config} (hs : Env.strict = false ∨ cfg.suffixType = .kReal) (hc : cfg.Ok) {H : Nat} {ls : List Level}
    {ts : List Str} {ss : List (Str × Word)} (h : Rep (cfg.hashLen + cfg.realLen) H ls ts ss)
    (hn : ts.length + 1 < M32) (hsorted : ts.Pairwise (· < ·)) (hsym : ∀ t ∈ ts, ∀ c ∈ t, c ≤ 256)
    {k next : Key} {c : Nat} (hk : k ≠ []) (hk32 : k.length + 1 < M32)
    (h32 : (cfg.hashLen + cfg.realLen) * (wordsAt ss (max c (lcp k next))).length < M32)
    (hcase : (ts = [] ∧ c = 0 ∧ H = 0) ∨
      (∃ ts0 tl kp, ts = ts0 ++ [tl] ∧ tl <+: w kp ∧ kp < k ∧ c = lcp kp k ∧ c < tl.length)) :
    ∃ ls', Builder.insertKey cfg ls k next = .ok ls' ∧
      Rep (cfg.hashLen + cfg.realLen) (max H (max c (lcp k next) + 2)) ls'
        (ts ++ [(w k).take (max c (lcp k next) + 1)])
        (ss ++ [((w k).take (max c (lcp k next) + 1),
          sfxOf cfg k ((w k).take (max c (lcp k next) + 1)).length)]) := by
  have hck : c < k.length := by
    rcases hcase with ⟨-, rfl, -⟩ | ⟨ts0, tl, kp, -, -, h1, rfl, -⟩
    · exact List.length_pos_of_ne_nil hk
    · exact (lcp_spec h1).1
  obtain ⟨kc, b, kr, hkk, hkc⟩ : ∃ kc b kr, k = kc ++ b :: kr ∧ kc.length = c := by
    refine ⟨k.take c, k[c], k.drop (c + 1), ?_, by simp; omega⟩
    rw [List.getElem_cons_drop, List.take_append_drop]
  -- the previous leaf
  have hprev : (ts = [] ∧ kc = [] ∧ H = 0) ∨ (∃ ts0 tl x z, ts = ts0 ++ [tl] ∧ tl = syms kc ++ x :: z ∧ x < b.toNat + 1) := by
    rcases hcase with ⟨rfl, rfl, hH⟩ | ⟨ts0, tl, kp, rfl, h1, h2, h3, h4⟩
    · left; exact ⟨rfl, List.length_eq_zero_iff.1 hkc, hH⟩
    · right
      obtain ⟨-, -, g1, g2⟩ := lcp_spec h2
      rw [← h3] at g1 g2
      have hwk : w k = syms kc ++ (b.toNat + 1) :: w kr := by rw [hkk, w_append, w_cons]
      have e1 : (w k).take c = syms kc := by
        rw [hwk, List.take_append_of_le_length (by simp; omega), List.take_of_length_le (by simp; omega)]
      have e2 : (w k).take (c + 1) = syms kc ++ [b.toNat + 1] := by
        rw [hwk, List.take_append, List.take_of_length_le (by simp; omega)]
        simp [hkc]
      have e3 : tl.take c = syms kc := by
        obtain ⟨v, hv⟩ := h1
        rw [← hv, List.take_append_of_le_length (by omega), e1] at g1
        exact g1
      have e4 : tl.take (c + 1) < syms kc ++ [b.toNat + 1] := by
        obtain ⟨v, hv⟩ := h1
        rw [← hv, List.take_append_of_le_length (by omega), e2] at g2
        exact g2
      have e5 : tl = syms kc ++ tl[c] :: tl.drop (c + 1) := by
        rw [← e3, List.getElem_cons_drop, List.take_append_drop]
      refine ⟨ts0, tl, tl[c], tl.drop (c + 1), rfl, e5, ?_⟩
      rw [List.take_succ_eq_append_getElem h4, e3, lt_append] at e4
      simpa [List.cons_lt_cons_iff] using e4
  have hlt : ∀ t ∈ ts, t < syms kc ++ [b.toNat + 1] ∧ ¬ syms kc ++ [b.toNat + 1] <+: t := by
    rcases hprev with ⟨rfl, -⟩ | ⟨ts0, tl, x, z, rfl, htl, hx⟩
    · simp
    · have hcmp : tl.take (kc.length + 1) < syms kc ++ [b.toNat + 1] := by
        rw [htl, List.take_append, List.take_of_length_le (by simp), lt_append]
        simp [List.cons_lt_cons_iff, hx]
      have hP : (syms kc ++ [b.toNat + 1]).take (kc.length + 1) = syms kc ++ [b.toNat + 1] :=
        List.take_of_length_le (by simp)
      have htlP : tl < syms kc ++ [b.toNat + 1] :=
        take_lt_of_take_lt (l := kc.length + 1) (by rw [hP]; exact hcmp)
      intro t ht
      have htle : t ≤ tl := by
        rw [List.pairwise_append] at hsorted
        rcases List.mem_append.1 ht with ht | ht
        · exact le_of_lt (hsorted.2.2 t ht tl (by simp))
        · simp only [List.mem_singleton] at ht; exact le_of_eq ht
      refine ⟨lt_of_le_of_lt htle htlP, ?_⟩
      intro hp
      have : t.take (kc.length + 1) = syms kc ++ [b.toNat + 1] := by
        have := List.prefix_iff_eq_take.1 hp
        simpa using this.symm
      have h3 : t.take (kc.length + 1) ≤ tl.take (kc.length + 1) := by
        rcases htle.lt_or_eq with h4 | h4
        · exact take_le_of_lt h4 _
        · rw [h4]
      rw [this] at h3
      exact absurd hcmp (not_lt.2 h3)
  unfold Builder.insertKey
  obtain ⟨ls1, e1, r1⟩ : ∃ ls1, Builder.skipCommonPrefix k ls 0 = .ok (ls1, kc.length) ∧
      Rep (cfg.hashLen + cfg.realLen) H ls1 ts ss := by
    rcases hprev with ⟨rfl, rfl, hH⟩ | ⟨ts0, tl, x, z, rfl, htl, hx⟩
    · refine ⟨ls, ?_, h⟩
      rw [hkk, List.nil_append, Builder.skipCommonPrefix]
      have : ls = [] := by rw [← List.length_eq_zero_iff, h.len, hH]
      subst this
      simp [Builder.isCharCommonPrefix]
    · have hxs : x ≤ 256 := hsym tl (by simp) x (by rw [htl]; simp)
      obtain ⟨ls1, e, r⟩ := skip_ok (b := b) (kr := kr) [] kc h (by simp at hn; omega) (by simpa using htl) hxs (by omega)
      refine ⟨ls1, ?_, r⟩
      rw [hkk]
      simpa using e
  rw [e1, ok_bind]
  dsimp only
  obtain ⟨ls2, e2, r2⟩ := insertTrie_ok (kc := kc) (b := b) (kr := kr) (next := next) r1 hn hsorted
    (by
      rcases hprev with h1 | ⟨ts0, tl, x, z, rfl, htl, hx⟩
      · exact Or.inl ⟨h1.1, h1.2.1⟩
      · refine Or.inr ⟨ts0, tl, rfl, ⟨_, htl.symm⟩, ?_⟩
        intro he
        have := congrArg List.length he
        rw [htl] at this
        simp at this) (fun t ht => (hlt t ht).1) (fun t ht => (hlt t ht).2)
  rw [← hkk, hkc] at e2 r2
  rw [← hkc] at e2 ⊢
  rw [hkc] at e2 ⊢
  rw [e2, ok_bind]
  dsimp only
  set m := max c (lcp k next) + 1 with hm
  have hml : m ≤ k.length + 1 := by have := lcp_le_left k next; omega
  have htlen : ((w k).take m).length = m := by simp; omega
  have hb := r2.bound ((w k).take m) (by simp)
  rw [htlen] at hb
  obtain ⟨ls3, wd, e3, ew, -, r3⟩ := insertSuffix_ok hs hc r2 (t := (w k).take m)
    (by intro h0; rw [h0] at htlen; simp at htlen) (by rw [htlen]; exact hb) (by rw [htlen]; omega)
    (by rw [htlen, hm, Nat.add_sub_cancel]; exact h32) k
  rw [htlen] at e3 ew r3
  refine ⟨ls3, e3, ?_⟩
  have hwd : sfxOf cfg k m = wd := by unfold sfxOf; rw [ew]; rfl
  rw [htlen, hwd]
  have e4 : max (max H m) (m + 1) = max H (max c (lcp k next) + 2) := by omega
  rw [e4] at r3
  exact r3

omit [Env] in
omit [Env] in
theorem nextLcp_eq (k : Key) (rest : List Key) : nextLcp k rest = lcp k (rest.head?.getD []) := by
  cases rest with
  | nil => cases k <;> rfl
  | cons a r => rfl

omit [Env] in
theorem wordsAt_append (a b : List (Str × Word)) (l : Nat) : wordsAt (a ++ b) l = wordsAt a l ++ wordsAt b l := by
  simp [wordsAt]

omit [Env] in
theorem wordsAt_cons (x : Str × Word) (b : List (Str × Word)) (l : Nat) :
    wordsAt (x :: b) l = (if x.1.length = l + 1 then [x.2] else []) ++ wordsAt b l := by
  unfold wordsAt
  by_cases h : x.1.length = l + 1
  · rw [if_pos h, List.filter_cons_of_pos (by simpa using h)]; simp
  · rw [if_neg h, List.filter_cons_of_neg (by simpa using h)]; simp

theorem insertAll_ok {cfg : Config} (hs : Env.strict = false ∨ cfg.suffixType = .kReal) (hc : cfg.Ok) (rest : List Key) :
    ∀ {H : Nat} {ls : List Level} {ts : List Str} {ss : List (Str × Word)} {c : Nat},
    Rep (cfg.hashLen + cfg.realLen) H ls ts ss → ts.length + rest.length < M32 →
    (∀ l, (cfg.hashLen + cfg.realLen) * (wordsAt (ss ++ sfxs cfg (leaves c rest)) l).length ≤ M32) →
    (ts ++ (leaves c rest).map Prod.snd).Pairwise (· < ·) → (∀ t ∈ ts, ∀ c ∈ t, c ≤ 256) →
    rest.Pairwise (· < ·) → (∀ k ∈ rest, k ≠ [] ∧ k.length + 1 < M32) →
    (rest ≠ [] → (ts = [] ∧ c = 0 ∧ H = 0) ∨
      (∃ ts0 tl kp, ts = ts0 ++ [tl] ∧ tl <+: w kp ∧ (∀ k ∈ rest.head?, kp < k ∧ c = lcp kp k) ∧ c < tl.length)) →
    ∃ ls' H', insertAll cfg rest ls = .ok ls' ∧
      Rep (cfg.hashLen + cfg.realLen) H' ls' (ts ++ (leaves c rest).map Prod.snd) (ss ++ sfxs cfg (leaves c rest)) ∧
      H ≤ H' ∧ (∀ t ∈ (leaves c rest).map Prod.snd, t.length + 1 ≤ H') ∧
      (H' = H ∨ ∃ t ∈ (leaves c rest).map Prod.snd, H' = t.length + 1) := by
  induction rest with
  | nil =>
    intro H ls ts ss c h _ _ _ _ _ _ _
    exact ⟨ls, H, rfl, by simpa [leaves, sfxs] using h, le_rfl, by simp [leaves], Or.inl rfl⟩
  | cons k rest ih =>
    intro H ls ts ss c h hn h32 hD hsym hsort hks hcase
    have hk := hks k (by simp)
    rw [List.pairwise_cons] at hsort
    simp only [List.length_cons] at hn
    have hsts : ts.Pairwise (· < ·) := (List.pairwise_append.1 hD).1
    set t := (w k).take (max c (nextLcp k rest) + 1) with ht
    have hcl : c ≤ k.length := by
      rcases hcase (by simp) with ⟨-, rfl, -⟩ | ⟨ts0, tl, kp, -, h2, h3, h4⟩
      · omega
      · obtain ⟨h5, h6⟩ := h3 k (by simp)
        rw [h6]; exact le_of_lt (lcp_spec h5).1
    have htl : t.length = max c (nextLcp k rest) + 1 := by
      have := nextLcp_le k rest
      rw [ht]; simp; omega
    have hlv : leaves c (k :: rest) = (k, t) :: leaves (nextLcp k rest) rest := rfl
    obtain ⟨ls1, e1, r1⟩ := insertKey_ok hs hc (k := k) (next := rest.head?.getD []) (c := c) h (by omega) hsts hsym hk.1 hk.2
      (by
        rw [← nextLcp_eq]
        rcases Nat.eq_zero_or_pos (cfg.hashLen + cfg.realLen) with h0 | h0
        · rw [h0, Nat.zero_mul, M32_eq]; decide
        · refine lt_of_lt_of_le (Nat.mul_lt_mul_of_pos_left ?_ h0) (h32 (max c (nextLcp k rest)))
          rw [hlv, sfxs, List.map_cons, wordsAt_append, wordsAt_cons, List.length_append, List.length_append, if_pos htl]
          simp only [List.length_cons]; omega)
      (by
        rcases hcase (by simp) with h1 | ⟨ts0, tl, kp, h1, h2, h3, h4⟩
        · exact Or.inl h1
        · obtain ⟨h5, h6⟩ := h3 k (by simp)
          exact Or.inr ⟨ts0, tl, kp, h1, h2, h5, h6, h4⟩)
    rw [← nextLcp_eq, ← ht] at r1
    rw [hlv] at hD ⊢
    obtain ⟨ls', H', e2, r2, g1, g2, g3⟩ := ih (c := nextLcp k rest) r1 (by simp; omega)
      (by
        intro l
        have := h32 l
        rw [hlv] at this
        simpa [sfxs] using this)
      (by simpa using hD)
      (by
        intro t' ht' c' hc'
        rw [List.mem_append, List.mem_singleton] at ht'
        rcases ht' with ht' | rfl
        · exact hsym t' ht' c' hc'
        · exact w_sym k c' ((List.take_prefix _ _).subset hc'))
      hsort.2 (fun k' hk' => hks k' (by simp [hk']))
      (by
        intro hne
        right
        refine ⟨ts, t, k, rfl, List.take_prefix _ _, ?_, by rw [htl]; omega⟩
        intro k' hk'
        cases rest with
        | nil => simp at hk'
        | cons k2 rest =>
          simp only [List.head?_cons, Option.mem_def, Option.some.injEq] at hk'
          subst hk'
          exact ⟨hsort.1 k2 (by simp), rfl⟩)
    refine ⟨ls', H', ?_, ?_, by omega, ?_, ?_⟩
    · rw [insertAll, e1, ok_bind, e2]
    · simpa [sfxs] using r2
    · intro t' ht'
      rw [List.map_cons, List.mem_cons] at ht'
      rcases ht' with rfl | ht'
      · dsimp only; omega
      · exact g2 t' ht'
    · rcases g3 with g3 | ⟨t', ht', g3⟩
      · rcases Nat.le_total H (max c (nextLcp k rest) + 2) with h1 | h1
        · right
          exact ⟨t, by simp, by omega⟩
        · left; omega
      · right
        exact ⟨t', by rw [List.map_cons, List.mem_cons]; exact Or.inr ht', g3⟩

/-- Key lists the construction is specified for: non-empty, sorted, no empty key, sizes in range. -/
structure KeysOk (keys : List Key) : Prop where
  ne : keys ≠ []
  sorted : keys.Pairwise (· ≤ ·)
  nonempty : ∀ k ∈ keys, k ≠ []
  num : keys.length < M32
  len : ∀ k ∈ keys, k.length + 1 < M32

omit [Env] in
theorem uniq_length (ks : List Key) : (uniq ks).length ≤ ks.length := by
  induction hn : ks.length using Nat.strong_induction_on generalizing ks with
  | _ n ih =>
    cases ks with
    | nil => simp [uniq]
    | cons k ks =>
      have h1 := Builder.dropSame_length k ks
      have := ih (Builder.dropSame k ks).length (by rw [← hn]; simp; omega) _ rfl
      rw [uniq]
      simp only [List.length_cons] at hn ⊢
      omega

/-- The leaf strings of a key list. -/
def leafStrs (keys : List Key) : List Str := truncs (uniq keys)

omit [Env] in
theorem leafStrs_wf {keys : List Key} (hk : KeysOk keys) : WF (leafStrs keys) := by
  refine truncs_wf ?_ (uniq_sorted hk.sorted)
  intro h0
  cases hkeys : keys with
  | nil => exact hk.ne hkeys
  | cons k ks => rw [hkeys, uniq] at h0; simp at h0

/-- `buildSparse` produces the levels of the trie of the truncated keys. -/
theorem buildSparse_ok {cfg : Config} (hs : Env.strict = false ∨ cfg.suffixType = .kReal) (hc : cfg.Ok) {keys : List Key} (hk : KeysOk keys)
    (h32 : ∀ l, (cfg.hashLen + cfg.realLen) * (wordsAt (sfxs cfg (leaves 0 (uniq keys))) l).length ≤ M32) :
    ∃ ls, Builder.buildSparse cfg keys = .ok ls ∧
      Rep (cfg.hashLen + cfg.realLen) (maxLen (leafStrs keys) + 1) ls (leafStrs keys)
        (sfxs cfg (leaves 0 (uniq keys))) := by
  have hu := uniq_sorted hk.sorted
  have hwf := leafStrs_wf hk
  obtain ⟨ls, H, e, r, g1, g2, g3⟩ := insertAll_ok hs hc (uniq keys) (H := 0) (ls := []) (ts := []) (ss := []) (c := 0)
    ⟨rfl, by simp, by simp, by simp⟩ (by have := uniq_length keys; have := hk.num; simp; omega)
    (by rw [List.nil_append]; exact h32)
    (by rw [List.nil_append]; exact hwf.sorted) (by simp) hu
    (fun k h => ⟨hk.nonempty k (mem_uniq.1 h), hk.len k (mem_uniq.1 h)⟩)
    (fun _ => Or.inl ⟨rfl, rfl, rfl⟩)
  refine ⟨ls, ?_, ?_⟩
  · unfold Builder.buildSparse
    rw [buildSparseLoop_eq _ _ _ _ le_rfl, e]
  · have hH : H = maxLen (leafStrs keys) + 1 := by
      obtain ⟨t, ht, htm⟩ := exists_maxLen hwf.ne
      have h1 := g2 t ht
      rcases g3 with g3 | ⟨t', ht', g3⟩
      · omega
      · have h2 := le_maxLen (ts := leafStrs keys) ht'
        omega
    rw [← hH]
    rw [List.nil_append, List.nil_append] at r
    exact r

end Surf
