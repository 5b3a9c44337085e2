import Verif.Proof.Seek
import Verif.Proof.IterKeys

/-!
# Comparing an iterator with a key
-/

set_option autoImplicit false
set_option linter.unusedSectionVars false

namespace Surf
open Trie

/-! ## Order of keys and prefixes -/

theorem lt_of_lt_prefix {q a k : Key} (h : q < a) (hp : a <+: k) : q < k := by
  obtain ⟨r, rfl⟩ := hp
  apply w_lt.1
  have h1 := w_lt.2 h
  by_cases hq : a <+: q
  · obtain ⟨r', rfl⟩ := hq
    rw [w_append, w_eq] at h1
    exfalso
    cases r' with
    | nil => simp [w_eq] at h1
    | cons x r' =>
      refine absurd h1 (not_lt.2 (le_of_lt ?_))
      refine snoc_lt_of_prefix (List.prefix_refl _) (d := x.toNat + 1) ?_ (Nat.succ_pos _)
      exact ⟨w r', by simp [w_eq]; rfl⟩
  · rw [w_append]
    rw [w_eq a] at h1
    exact lt_of_lt_of_le (lt_of_lt_append (fun hc => hq (syms_prefix_w.1 hc)) h1) (le_append _ _)

theorem lt_of_prefix_lt {q a k : Key} (h : a < q) (hn : ¬ a <+: q) (hp : a <+: k) : k < q := by
  obtain ⟨r, rfl⟩ := hp
  apply w_lt.1
  have h1 := w_lt.2 h
  rw [w_append]
  refine append_lt (lt_of_le_of_lt ?_ h1) (fun hc => hn (syms_prefix_w.1 hc)) _
  rw [w_eq]
  exact le_append _ _

theorem strCompareAux_spec (a q : Key) (la lb : Nat) (h : la + min a.length q.length = lb + a.length) :
    (strCompareAux la lb a (q.take a.length) = 0 ∧ a <+: q) ∨
    (strCompareAux la lb a (q.take a.length) < 0 ∧ a < q ∧ ¬ a <+: q) ∨
    (strCompareAux la lb a (q.take a.length) > 0 ∧ q < a ∧
      (q <+: a → strCompareAux la lb a (q.take a.length) = min 2147483647 ((a.length : Int) - q.length)) ∧
      (¬ q <+: a → strCompareAux la lb a (q.take a.length) = 1)) := by
  induction a generalizing q with
  | nil =>
    left
    simp at h
    subst h
    simp [strCompareAux]
  | cons x a ih =>
    cases q with
    | nil =>
      right; right
      simp at h
      refine ⟨?_, by simp, fun _ => ?_, fun hn => absurd (List.nil_prefix) hn⟩
      · simp only [List.take_nil, strCompareAux]
        omega
      · simp only [List.take_nil, strCompareAux, List.length_cons, List.length_nil]
        omega
    | cons y q =>
      simp only [List.length_cons, List.take_succ_cons, strCompareAux]
      by_cases h1 : x < y
      · right; left
        rw [if_pos h1]
        refine ⟨by decide, List.cons_lt_cons_iff.2 (Or.inl h1), fun hc => ?_⟩
        have := (List.cons_prefix_cons.1 hc).1
        subst this
        exact absurd h1 (UInt8.lt_irrefl _)
      · rw [if_neg h1]
        by_cases h2 : y < x
        · right; right
          rw [if_pos h2]
          refine ⟨by decide, List.cons_lt_cons_iff.2 (Or.inl h2), fun hc => ?_, fun _ => rfl⟩
          have := (List.cons_prefix_cons.1 hc).1
          subst this
          exact absurd h2 (UInt8.lt_irrefl _)
        · rw [if_neg h2]
          have hxy : x = y := UInt8.le_antisymm (UInt8.not_lt.1 h2) (UInt8.not_lt.1 h1)
          subst hxy
          have := ih q (by simp at h; omega)
          simp only [List.cons_prefix_cons, List.cons_lt_cons_iff, true_and, UInt8.lt_irrefl, false_or]
          rw [show ((a.length + 1 : Nat) : Int) - ((q.length + 1 : Nat) : Int) = (a.length : Int) - q.length by omega]
          exact this

/-- Comparing a key with a query of at most its length. -/
theorem strCompare_spec (a q : Key) :
    (strCompare a (q.take a.length) = 0 ∧ a <+: q) ∨
    (strCompare a (q.take a.length) < 0 ∧ a < q ∧ ¬ a <+: q) ∨
    (strCompare a (q.take a.length) > 0 ∧ q < a ∧
      (q <+: a → strCompare a (q.take a.length) = min 2147483647 ((a.length : Int) - q.length)) ∧
      (¬ q <+: a → strCompare a (q.take a.length) = 1)) := by
  unfold strCompare
  apply strCompareAux_spec
  simp [Nat.add_comm]

variable [Env] {cfg : Config} {ts : List Str} {sw : Str → Word} {s : Nat} {f : Filter}

/-- The three outcomes of comparing suffixes. -/
theorem cmpW_cases (stored : Word) (key : Key) (level : Nat) (hs : Env.strict = false) :
    cmpW cfg stored key level = kCouldBePositive ∨ cmpW cfg stored key level = -1 ∨ cmpW cfg stored key level = 1 := by
  have h := cmpR_ok (cfg := cfg) hs stored key level
  unfold cmpR at h
  split at h
  · left
    have hinj : ∀ {a b : Int}, (Except.ok a : R Int) = .ok b → b = a := fun h => by cases h; rfl
    exact hinj h
  · have h4 : ∀ v : Word, (if v = 0 ∧ BitvectorSuffix.constructRealSuffix key level cfg.realLen = 0 then
            (return kCouldBePositive : R Int)
          else if v = 0 ∨ v < BitvectorSuffix.constructRealSuffix key level cfg.realLen then return (-1)
          else if v = BitvectorSuffix.constructRealSuffix key level cfg.realLen then return kCouldBePositive
          else return 1) = .ok (cmpW cfg stored key level) →
        cmpW cfg stored key level = kCouldBePositive ∨ cmpW cfg stored key level = -1 ∨ cmpW cfg stored key level = 1 := by
      intro v hv
      have hinj : ∀ {a b : Int}, (Except.ok a : R Int) = .ok b → b = a := fun h => by cases h; rfl
      split at hv
      · exact Or.inl (hinj hv)
      · split at hv
        · exact Or.inr (Or.inl (hinj hv))
        · split at hv
          · exact Or.inl (hinj hv)
          · exact Or.inr (Or.inr (hinj hv))
    by_cases h3 : cfg.suffixType = .kMixed
    · rw [if_pos h3] at h
      cases he : BitvectorSuffix.extractRealSuffix stored cfg.realLen with
      | error e => rw [he] at h; cases h
      | ok v => rw [he, ok_bind] at h; exact h4 v h
    · rw [if_neg h3] at h
      exact h4 stored h

/-- The positive result of comparing an iterator at the leaf `t` with `q`, when the strings decide. -/
def CmpPos (s : Nat) (t : Str) (q : Key) (c : Int) : Prop :=
  (q <+: bytesOf t → c = min 2147483647
    (((if q.length < s then min s (bytesOf t).length else (bytesOf t).length : Nat) : Int) - q.length)) ∧
  (¬ q <+: bytesOf t → c = 1)

/-- The leaf `t` is the end of a key that other keys continue, the query is longer than this key, and the part of the leaf in the first encoding
does not decide the comparison. -/
def Undecided (s : Nat) (t : Str) (q : Key) : Prop :=
  0 ∈ t ∧ t.length - 1 < q.length ∧ (t.length ≤ s ∨ bytesOf (t.take s) <+: q)

/-- Result of comparing an iterator at the leaf `t` with `q`, with all conditions. -/
def CmpVal (cfg : Config) (sw : Str → Word) (s : Nat) (t : Str) (q : Key) (c : Int) : Prop :=
  (c = -1 ∧ Undecided s t q) ∨
  (c < 0 ∧ bytesOf t < q ∧ ¬ bytesOf t <+: q) ∨
  (c > 0 ∧ q < bytesOf t ∧ CmpPos s t q c ∧ ¬ Undecided s t q) ∨
  (bytesOf t <+: q ∧ ¬ (0 ∈ t ∧ t.length - 1 < q.length) ∧ c = cmpW cfg (sw t) q t.length)

/-- Result of comparing an iterator at the leaf `t` with `q`. -/
def CmpOut (cfg : Config) (sw : Str → Word) (t : Str) (q : Key) (c : Int) : Prop :=
  (c = -1 ∧ 0 ∈ t ∧ t.length - 1 < q.length) ∨
  (c < 0 ∧ bytesOf t < q ∧ ¬ bytesOf t <+: q) ∨
  (c > 0 ∧ q < bytesOf t) ∨
  (bytesOf t <+: q ∧ ¬ (0 ∈ t ∧ t.length - 1 < q.length) ∧ c = cmpW cfg (sw t) q t.length)

theorem constructReal_drop (q : Key) (l r m : Nat) (h : m ≤ l) (hq : m ≤ q.length) :
    BitvectorSuffix.constructRealSuffix (q.drop m) (l - m) r = BitvectorSuffix.constructRealSuffix q l r := by
  have hg : ∀ n, (q.drop m).getD (l - m + n) 0 = q.getD (l + n) 0 := by
    intro n
    rw [List.getD, List.getElem?_drop, List.getD]
    congr 2; omega
  have hb : ∀ n, BitvectorSuffix.realBytes (q.drop m) (l - m) n = BitvectorSuffix.realBytes q l n := by
    intro n
    induction n with
    | zero => rfl
    | succ n ih => rw [BitvectorSuffix.realBytes, BitvectorSuffix.realBytes, ih, hg]
  unfold BitvectorSuffix.constructRealSuffix
  dsimp only
  rw [List.length_drop, hg, hb]
  by_cases hc : q.length < l ∨ (q.length - l) * 8 < r
  · rw [if_pos hc, if_pos (by omega)]
  · rw [if_neg hc, if_neg (by omega)]

theorem cmpW_drop (stored : Word) (q : Key) (l m : Nat) (h : m ≤ l) (hq : m ≤ q.length) :
    cmpW cfg stored (q.drop m) (l - m) = cmpW cfg stored q l := by
  unfold cmpW cmpR
  rw [constructReal_drop q l _ m h hq]

theorem At.denseKeyC (hwf : WF ts) {it : Iter} {t : Str} (h : At ts s it t) (hs : t.length ≤ s) :
    it.dense.getKey = bytesOf t := by
  rw [← h.getKey hwf]
  unfold Iter.getKey
  rw [h.isValid, h.d.complete, decide_eq_true hs]
  rfl

theorem At.sparseKey (hwf : WF ts) {it : Iter} {t : Str} (h : At ts s it t) (hs : s < t.length) :
    it.sparse.getKey = bytesOf (t.drop s) := by
  have h1 := h.getKey hwf
  unfold Iter.getKey at h1
  rw [h.isValid, h.d.complete, decide_eq_false (by omega), h.denseKey hs (not_zero_take hwf h.mem hs)] at h1
  simp only [Bool.not_true, Bool.false_eq_true, if_false] at h1
  rw [show bytesOf t = bytesOf (t.take s) ++ bytesOf (t.drop s) by rw [← bytesOf_append, List.take_append_drop]] at h1
  exact List.append_cancel_left h1

theorem At.denseLen {it : Iter} {t : Str} (hwf : WF ts) (h : At ts s it t) (hs : t.length ≤ s) : it.dense.keyLen = t.length := by
  obtain ⟨x, c, rfl⟩ : ∃ x c, t = x ++ [c] := by
    rcases List.eq_nil_or_concat t with rfl | ⟨x, c, rfl⟩
    · exact absurd rfl (hwf.nonempty _ h.mem)
    · exact ⟨x, c, by simp⟩
  rcases c with _ | b
  · obtain ⟨b, hb, hmin, hon⟩ := h.d.onP x rfl hs
    simpa using hon.len
  · exact (h.d.on x b rfl hs).len

theorem FRep.compareVal (h : FRep cfg ts sw s f) (hs : Env.strict = false) {it : Iter} {t : Str} (ha : At ts s it t) (q : Key)
    (hq : q.length < 2 ^ 64) : ∃ c, it.compare f q = .ok c ∧ c ≠ 0 ∧ CmpVal cfg sw s t q c := by
  have h32 := h.h32
  have hsH := h.sH
  have hM : M32 = 4294967296 := M32_eq
  have hne : t ≠ [] := h.wf.nonempty _ ha.mem
  have hpos : 0 < t.length := List.length_pos_iff.2 hne
  have hle := ex_len (ex_mem ha.mem)
  have hcz : ∀ (w0 : Word) l, cmpW cfg w0 q l ≠ 0 := by
    intro w0 l
    rcases cmpW_cases (cfg := cfg) w0 q l hs with hc | hc | hc <;> rw [hc] <;> decide
  have hnlt' : ∀ {a b : Key}, a <+: b → ¬ b < a := by
    rintro a b ⟨r, rfl⟩ hlt
    have h1 := w_lt.2 hlt
    rw [w_append, w_eq a] at h1
    cases r with
    | nil => simp [w_eq] at h1
    | cons x r =>
      refine absurd h1 (not_lt.2 (le_of_lt ?_))
      refine snoc_lt_of_prefix (List.prefix_refl _) (d := x.toNat + 1) ?_ (Nat.succ_pos _)
      exact ⟨w r, by simp [w_eq]⟩
  unfold Iter.compare DIter.compare
  rw [ha.isValid, assertR_ok rfl, ok_bind, ha.d.complete, ha.d.pre]
  rcases Nat.lt_or_ge s t.length with hts | hts
  · -- the leaf is in the sparse part
    rw [decide_eq_false (show ¬ t.length ≤ s by omega), decide_eq_false (show ¬ (t.length ≤ s ∧ 0 ∈ t) by omega)]
    have hz := not_zero_take h.wf ha.mem hts
    simp only [Bool.false_and, Bool.false_eq_true, if_false, Bool.false_or]
    rw [ha.denseKey hts hz]
    have hbt : bytesOf t = bytesOf (t.take s) ++ bytesOf (t.drop s) := by rw [← bytesOf_append, List.take_append_drop]
    rcases strCompare_spec (bytesOf (t.take s)) q with ⟨e, hp⟩ | ⟨e, h1, h2⟩ | ⟨e, h1, h3, h4⟩
    · rw [if_neg (by simp [e]), e]
      simp only [pure_ok]
      rw [ok_bind]
      simp only [bne_self_eq_false, Bool.false_eq_true, if_false]
      have hql : s ≤ q.length := by
        have := hp.length_le
        rw [bytesOf_nz hz] at this
        simp at this; omega
      have hqd : q = bytesOf (t.take s) ++ q.drop s := by
        obtain ⟨r, rfl⟩ := hp
        have hl : (bytesOf (t.take s)).length = s := by rw [bytesOf_nz hz]; simp; omega
        rw [List.drop_append_of_le_length (by omega), List.drop_of_length_le (by omega)]
        simp
      have hsp := ha.sp hts
      unfold SIter.compare
      rw [hsp.term, hsp.on.len, h.sparse.start, sub32_eq (by omega) (by omega)]
      have h64 : sub64 q.length s = q.length - s := by
        unfold sub64; omega
      rw [h64]
      by_cases hterm : 0 ∈ t ∧ t.length - 1 < q.length
      · rw [if_pos (by simp [hterm.1]; omega)]
        exact ⟨_, rfl, by decide, Or.inl ⟨rfl, hterm.1, hterm.2, Or.inr hp⟩⟩
      · rw [if_neg (by
          simp only [Bool.and_eq_true, decide_eq_true_eq]
          rintro ⟨g1, g2⟩
          exact hterm ⟨g1, by omega⟩)]
        unfold substrFrom
        rw [if_pos hql, ok_bind, ha.sparseKey h.wf hts]
        rcases strCompare_spec (bytesOf (t.drop s)) (q.drop s) with ⟨e', hp'⟩ | ⟨e', h1, h2⟩ | ⟨e', h1, h3, h4⟩
        · rw [if_neg (by simp [e'])]
          obtain ⟨p, i, g1, g2, g3⟩ := h.sfxAtS ha hts
          rw [hsp.on.len] at g1
          rw [sub32_eq (by omega) (by omega)] at g1
          rw [g1, ok_bind, g2, ok_bind, compare_ok hs h.sparse.sfx g3, cmpW_drop _ _ _ _ (by omega) hql]
          have hpq : bytesOf t <+: q := by
            rw [hbt, hqd]
            exact (List.prefix_append_right_inj _).2 hp'
          exact ⟨_, rfl, hcz _ _, Or.inr (Or.inr (Or.inr ⟨hpq, hterm, rfl⟩))⟩
        · rw [if_pos (by omega)]
          refine ⟨_, rfl, by omega, Or.inr (Or.inl ⟨e', ?_, ?_⟩)⟩
          · rw [hbt, hqd]
            exact List.append_left_lt h1
          · rw [hbt, hqd]
            exact fun hc => h2 ((List.prefix_append_right_inj _).1 hc)
        · rw [if_pos (by omega)]
          refine ⟨_, rfl, by omega, Or.inr (Or.inr (Or.inl ⟨e', ?_, ?_, fun hc => hterm ⟨hc.1, hc.2.1⟩⟩))⟩
          · rw [hbt, hqd]
            exact List.append_left_lt h1
          · have hiff : q <+: bytesOf t ↔ q.drop s <+: bytesOf (t.drop s) := by
              rw [hbt]
              conv_lhs => rw [hqd]
              exact List.prefix_append_right_inj _
            unfold CmpPos
            rw [hiff, if_neg (by omega)]
            refine ⟨fun hc => ?_, h4⟩
            rw [h3 hc, hbt, List.length_append, List.length_drop, bytesOf_nz hz, List.length_map, List.length_take]
            congr 1
            omega
    · rw [if_pos (by omega)]
      simp only [pure_ok]
      rw [ok_bind, if_pos (by simp; omega)]
      refine ⟨_, rfl, by omega, Or.inr (Or.inl ⟨e, ?_, ?_⟩)⟩
      · rw [hbt]
        exact lt_of_prefix_lt h1 h2 (List.prefix_append _ _)
      · rw [hbt]
        exact fun hc => h2 ((List.prefix_append _ _).trans hc)
    · rw [if_pos (by omega)]
      simp only [pure_ok]
      rw [ok_bind, if_pos (by simp; omega)]
      refine ⟨_, rfl, by omega, Or.inr (Or.inr (Or.inl ⟨e, ?_, ?_, ?_⟩))⟩
      · rw [hbt]
        exact lt_of_lt_prefix h1 (List.prefix_append _ _)
      · have hlen : (bytesOf (t.take s)).length = s := by rw [bytesOf_nz hz]; simp; omega
        have hpl : q <+: bytesOf t → q <+: bytesOf (t.take s) := by
          intro hc
          rw [hbt] at hc
          rcases List.prefix_or_prefix_of_prefix hc (List.prefix_append _ _) with g | g
          · exact g
          · exact absurd h1 (hnlt' g)
        refine ⟨fun hc => ?_, fun hc => h4 fun g => hc (by rw [hbt]; exact g.trans (List.prefix_append _ _))⟩
        have hqs : q.length < s := by
          have := (hpl hc).length_le
          rcases Nat.lt_or_ge q.length s with g | g
          · exact g
          · have h5 := (hpl hc).eq_of_length_le (by omega)
            rw [h5] at h1
            exact absurd (w_lt.2 h1) (lt_irrefl _)
        have hbl : s ≤ (bytesOf t).length := by rw [hbt, List.length_append]; omega
        rw [h3 (hpl hc), if_pos hqs, hlen, Nat.min_eq_left hbl]
      · rintro ⟨-, -, hc | hc⟩
        · omega
        · exact absurd h1 (hnlt' hc)
  · -- in the dense part
    rw [ha.denseLen h.wf hts, ha.denseKeyC h.wf hts, decide_eq_true (show t.length ≤ s from hts)]
    simp only [hts, true_and, Bool.true_or, if_true]
    rw [sub32_eq (by omega) (by omega)]
    by_cases hterm : 0 ∈ t ∧ t.length - 1 < q.length
    · rw [if_pos (by simp [hterm.1]; omega), ok_bind]
      exact ⟨_, rfl, by decide, Or.inl ⟨rfl, hterm.1, hterm.2, Or.inl hts⟩⟩
    · rw [if_neg (by
          simp only [Bool.and_eq_true, decide_eq_true_eq]
          rintro ⟨g1, g2⟩
          exact hterm ⟨g1, by omega⟩)]
      rcases strCompare_spec (bytesOf t) q with ⟨e, hp⟩ | ⟨e, h1, h2⟩ | ⟨e, h1, h3, h4⟩
      · rw [if_neg (by simp [e])]
        obtain ⟨p, i, g1, g2, g3⟩ := h.sfxAt ha hts
        rw [ha.denseLen h.wf hts] at g1
        rw [sub32_eq (by omega) (by omega)] at g1
        have hpre := ha.d.pre
        simp only [hts, true_and] at hpre
        rw [hpre] at g2
        rw [g1, ok_bind, g2, ok_bind, compare_ok hs h.dense.sfx g3, ok_bind]
        exact ⟨_, rfl, hcz _ _, Or.inr (Or.inr (Or.inr ⟨hp, hterm, rfl⟩))⟩
      · rw [if_pos (by omega)]
        simp only [pure_ok]
        rw [ok_bind]
        exact ⟨_, rfl, by omega, Or.inr (Or.inl ⟨e, h1, h2⟩)⟩
      · rw [if_pos (by omega)]
        simp only [pure_ok]
        rw [ok_bind]
        refine ⟨_, rfl, by omega, Or.inr (Or.inr (Or.inl ⟨e, h1, ⟨fun hc => ?_, h4⟩, fun hc => hterm ⟨hc.1, hc.2.1⟩⟩))⟩
        have hbl : (bytesOf t).length ≤ s := by
          have : (bytesOf t).length ≤ t.length := by
            unfold bytesOf
            rw [List.length_map]
            exact List.length_filter_le _ _
          omega
        rw [h3 hc, Nat.min_eq_right hbl, ite_self]

theorem FRep.compare (h : FRep cfg ts sw s f) (hs : Env.strict = false) {it : Iter} {t : Str} (ha : At ts s it t) (q : Key)
    (hq : q.length < 2 ^ 64) : ∃ c, it.compare f q = .ok c ∧ c ≠ 0 ∧ CmpOut cfg sw t q c := by
  obtain ⟨c, h1, h2, h3⟩ := h.compareVal hs ha q hq
  refine ⟨c, h1, h2, ?_⟩
  rcases h3 with ⟨g1, g2, g3, -⟩ | g | ⟨g1, g2, -⟩ | g
  · exact Or.inl ⟨g1, g2, g3⟩
  · exact Or.inr (Or.inl g)
  · exact Or.inr (Or.inr (Or.inl ⟨g1, g2⟩))
  · exact Or.inr (Or.inr (Or.inr g))

/-! ## A stuck iterator -/

omit [Env] in
theorem DStuck.isValid {it : Iter} {t : Str} (hst : DStuck ts s it.dense t) : it.isValid = true := by
  unfold Iter.isValid
  rw [hst.valid, hst.complete]
  rfl

omit [Env] in
theorem DStuck.getKey (hwf : WF ts) {it : Iter} {t : Str} (ht : t ∈ ts) (hs : s < t.length) (hst : DStuck ts s it.dense t) :
    it.getKey = bytesOf (t.take s) ∧ it.dense.getKey = bytesOf (t.take s) := by
  have : it.dense.getKey = bytesOf (t.take s) := by
    unfold DIter.getKey
    rw [hst.valid, hst.pre]
    simp only [Bool.not_true, Bool.false_eq_true, if_false]
    rw [hst.on.len, hst.on.key, bytesOf_nz (not_zero_take hwf ht hs)]
  refine ⟨?_, this⟩
  unfold Iter.getKey
  rw [hst.isValid, hst.complete]
  exact this

/-- Comparison without real suffixes. -/
theorem FRep.stuckCompare (h : FRep cfg ts sw s f) {it : Iter} {t : Str} (ht : t ∈ ts) (hts : s < t.length)
    (hst : DStuck ts s it.dense t) (hn : cfg.suffixType = .kNone ∨ cfg.suffixType = .kHash) (q : Key) :
    ∃ c, it.compare f q = .ok c ∧
      ((c < 0 ∧ bytesOf (t.take s) < q) ∨ (c > 0 ∧ q < bytesOf (t.take s)) ∨ (c = kCouldBePositive ∧ bytesOf (t.take s) <+: q)) := by
  have h1 := h.s1
  have h32 := h.h32
  have hsH := h.sH
  have hM : M32 = 4294967296 := M32_eq
  unfold Iter.compare DIter.compare
  rw [hst.isValid, assertR_ok rfl, ok_bind, hst.complete, hst.pre, (hst.getKey h.wf ht hts).2]
  simp only [Bool.false_and, Bool.false_eq_true, if_false, Bool.true_or, if_true]
  rcases strCompare_spec (bytesOf (t.take s)) q with ⟨e, hp⟩ | ⟨e, g1, g2⟩ | ⟨e, g1⟩
  · rw [if_neg (by simp [e])]
    obtain ⟨x, c, hx⟩ : ∃ x c, t.take s = x ++ [c] := by
      rcases List.eq_nil_or_concat (t.take s) with hc | ⟨x, c, hc⟩
      · have := congrArg List.length hc
        rw [List.length_take, List.length_nil] at this
        omega
      · exact ⟨x, c, by simpa using hc⟩
    have hl : x.length + 1 = s := by
      have := congrArg List.length hx
      simp at this; omega
    have hz := not_zero_take h.wf ht hts
    rw [hx] at hz
    obtain ⟨b, rfl⟩ : ∃ b, c = b + 1 := Nat.exists_eq_succ_of_ne_zero fun hc => hz (by simp [hc])
    have hex : ex ts (x ++ [b + 1]) = true := ex_iff.2 ⟨t, ht, hx ▸ List.take_prefix _ _⟩
    have hb := sym_le h.wf hex
    have hon := hst.on
    rw [hx] at hon
    have hlen := hon.len
    simp only [List.length_append, List.length_singleton] at hlen
    have hsub : sub32 (x.length + 1) 1 = x.length := by rw [sub32_eq (by omega) (by omega)]; omega
    obtain ⟨A, C, e1, e2⟩ := h.dnode (int_of_ex_snoc hex) (by omega)
    have hsp : ∃ i, f.dense.getSuffixPos (256 * num ts x + b) false = .ok i := by
      have hk : (256 * A.length + b) / kFanout = A.length := by unfold kFanout; omega
      unfold LoudsDense.getSuffixPos
      dsimp only
      rw [← e2, h.drankL e1 (by omega), ok_bind, h.drankC e1 (by omega), ok_bind, hk, h.drankP e1 (b + 1), ok_bind]
      exact ⟨_, rfl⟩
    obtain ⟨i, hi⟩ := hsp
    rw [hlen, hsub, hon.rd (List.prefix_refl _), ok_bind, hi, ok_bind]
    unfold BitvectorSuffix.compare
    rw [h.dense.sfx.type, if_pos (Or.inr hn), ok_bind]
    exact ⟨_, rfl, Or.inr (Or.inr ⟨rfl, hp⟩)⟩
  · rw [if_pos (by omega)]
    simp only [pure_ok]
    rw [ok_bind]
    exact ⟨_, rfl, Or.inl ⟨e, g1⟩⟩
  · rw [if_pos (by omega)]
    simp only [pure_ok]
    rw [ok_bind]
    exact ⟨_, rfl, Or.inr (Or.inl ⟨e, g1.1⟩)⟩

end Surf
