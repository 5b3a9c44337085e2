import Verif.Proof.Iter

/-!
# Seeking

`moveToKeyGreaterThan` of both parts and of the whole filter.
-/

set_option autoImplicit false
set_option linter.unusedSectionVars false

namespace Surf
open Trie

variable [Env] {cfg : Config} {ts : List Str} {sw : Str → Word} {s : Nat} {f : Filter}

/-! ## Comparing suffixes -/

/-- `BitvectorSuffix.compare` on a stored suffix word. -/
def cmpR (cfg : Config) (stored : Word) (key : Key) (level : Nat) : R Int :=
  if cfg.suffixType = .kNone ∨ cfg.suffixType = .kHash then .ok kCouldBePositive
  else do
    let stored ← if cfg.suffixType = .kMixed then BitvectorSuffix.extractRealSuffix stored cfg.realLen else pure stored
    if stored = 0 ∧ BitvectorSuffix.constructRealSuffix key level cfg.realLen = 0 then return kCouldBePositive
    else if stored = 0 ∨ stored < BitvectorSuffix.constructRealSuffix key level cfg.realLen then return (-1)
    else if stored = BitvectorSuffix.constructRealSuffix key level cfg.realLen then return kCouldBePositive
    else return 1

/-- Its result. -/
def cmpW (cfg : Config) (stored : Word) (key : Key) (level : Nat) : Int :=
  match cmpR cfg stored key level with
  | .ok c => c
  | .error _ => 0

theorem cmpR_ok (hs : Env.strict = false) (stored : Word) (key : Key) (level : Nat) :
    cmpR cfg stored key level = .ok (cmpW cfg stored key level) := by
  have : ∃ c, cmpR cfg stored key level = .ok c := by
    unfold cmpR
    by_cases h1 : cfg.suffixType = .kNone ∨ cfg.suffixType = .kHash
    · rw [if_pos h1]; exact ⟨_, rfl⟩
    · rw [if_neg h1]
      have h2 : ∃ v, BitvectorSuffix.extractRealSuffix stored cfg.realLen = .ok v := by
        unfold BitvectorSuffix.extractRealSuffix shlW
        by_cases h3 : cfg.realLen < 64
        · rw [if_pos h3]; exact ⟨_, rfl⟩
        · rw [if_neg h3, hs]; exact ⟨_, rfl⟩
      obtain ⟨v, h2⟩ := h2
      have h4 : ∀ v : Word, ∃ c, (if v = 0 ∧ BitvectorSuffix.constructRealSuffix key level cfg.realLen = 0 then
            (return kCouldBePositive : R Int)
          else if v = 0 ∨ v < BitvectorSuffix.constructRealSuffix key level cfg.realLen then return (-1)
          else if v = BitvectorSuffix.constructRealSuffix key level cfg.realLen then return kCouldBePositive
          else return 1) = .ok c := by
        intro v
        split
        · exact ⟨_, rfl⟩
        · split
          · exact ⟨_, rfl⟩
          · split <;> exact ⟨_, rfl⟩
      by_cases h3 : cfg.suffixType = .kMixed
      · rw [if_pos h3, h2, ok_bind]; exact h4 v
      · rw [if_neg h3]; exact h4 stored
  obtain ⟨c, e⟩ := this
  unfold cmpW
  rw [e]

theorem compare_ok (hs : Env.strict = false) {b : BitvectorSuffix} {ws : List Word}
    (hb : SfxRep cfg b ws) {i : Nat} {w0 : Word} (hi : ws[i]? = some w0) (key : Key) (level : Nat) :
    b.compare i key level = .ok (cmpW cfg w0 key level) := by
  rw [← cmpR_ok hs]
  unfold BitvectorSuffix.compare cmpR
  rw [hb.type]
  by_cases hn : cfg.suffixType = .kNone ∨ cfg.suffixType = .kHash
  · rw [if_pos (Or.inr hn), if_pos hn]
  · obtain ⟨h1, h2, h3⟩ := hb.some fun hc => hn (Or.inl hc)
    have hlt : i < ws.length := by
      by_contra hc
      rw [List.getElem?_eq_none (by omega)] at hi; simp at hi
    have h4 := h3.mul32 hlt
    have hpos := h3.pos
    have : ws.getD i 0 = w0 := by rw [List.getD, hi]; rfl
    rw [if_neg hn, if_neg, BitvectorSuffix.read_ok hs h3 hlt, ok_bind, this, h2]
    rintro (hc | hc)
    · rw [h4.1] at hc; omega
    · exact hn hc

/-! ## Dense part -/

/-- The dense part claims to be complete at an internal node. -/
structure DStuck (ts : List Str) (s : Nat) (it : DIter) (t : Str) : Prop where
  valid : it.valid = true
  complete : it.isComplete = true
  pre : it.atPrefix = false
  on : DOn ts s it (t.take s)

/-- The seek went past `p`: nothing is stored below `p`, or `p` is a leaf whose suffix is smaller, or the leaf
of the key itself, which is not wanted. -/
def Past (cfg : Config) (ts : List Str) (sw : Str → Word) (key : Key) (incl : Bool) (p : Str) : Prop :=
  p <+: w key ∧ p ≠ [] ∧ ((ex ts p = false ∧ ∀ t ∈ ts, ¬ t <+: p) ∨ (p ∈ ts ∧ cmpW cfg (sw p) key p.length = -1) ∨
    (p ∈ ts ∧ p = w key ∧ incl = false))

theorem cmpW_neg (stored : Word) (key : Key) (level : Nat) :
    (cmpW cfg stored key level ≠ kCouldBePositive ∧ cmpW cfg stored key level < 0) →
      cmpW cfg stored key level = -1 := by
  unfold cmpW
  cases hr : cmpR cfg stored key level with
  | error e => simp
  | ok c =>
    unfold cmpR at hr
    intro ⟨h1, h2⟩
    simp only at h1 h2 ⊢
    by_cases h3 : cfg.suffixType = .kNone ∨ cfg.suffixType = .kHash
    · rw [if_pos h3] at hr; cases hr; exact absurd rfl h1
    · rw [if_neg h3] at hr
      have key4 : ∀ v : Word, (if v = 0 ∧ BitvectorSuffix.constructRealSuffix key level cfg.realLen = 0 then
            (return kCouldBePositive : R Int)
          else if v = 0 ∨ v < BitvectorSuffix.constructRealSuffix key level cfg.realLen then return (-1)
          else if v = BitvectorSuffix.constructRealSuffix key level cfg.realLen then return kCouldBePositive
          else return 1) = .ok c → c = -1 := by
        intro v hv
        split at hv
        · cases hv; exact absurd rfl h1
        · split at hv
          · cases hv; rfl
          · split at hv
            · cases hv; exact absurd rfl h1
            · cases hv; omega
      by_cases h5 : cfg.suffixType = .kMixed
      · rw [if_pos h5] at hr
        cases he : BitvectorSuffix.extractRealSuffix stored cfg.realLen with
        | error e => rw [he] at hr; cases hr
        | ok v => rw [he, ok_bind] at hr; exact key4 v hr
      · rw [if_neg h5] at hr
        exact key4 stored hr

theorem dAt_flags {it : DIter} {t : Str} (h : DAt ts s it t) (ht : t.length ≤ s) : DAt ts s (it.setFlags true true true true) t := by
  refine ⟨rfl, ?_, h.pre, fun x b e hle => (h.on x b e hle).congr rfl rfl rfl, fun x e hle => ?_, fun hc => absurd hc (by omega)⟩
  · rw [decide_eq_true ht]; rfl
  · obtain ⟨b, h1, h2, h3⟩ := h.onP x e hle
    exact ⟨b, h1, h2, h3.congr rfl rfl rfl⟩

/-- The dense part of a seek. -/
theorem FRep.dseek (h : FRep cfg ts sw s f) (hs : Env.strict = false) (hroot : ∀ t ∈ ts, ¬ [0] <+: t)
    (key : Key) (hne : key ≠ [] ∨ Env.ndebug = true) (incl : Bool) (n l : Nat) (hn : l + n = s)
    (hl : l ≤ key.length) (hx : isInt ts ((syms key).take l) = true) {it : DIter}
    (hon : DOn ts s it ((syms key).take l)) (hpath : DPath ts s ((syms key).take l)) (hpre : it.atPrefix = false) :
    ∃ fp it', f.dense.seekLoop key incl n l (num ts ((syms key).take l)) it = .ok (fp, it') ∧
      ((fp = false ∧ ∃ p, Past cfg ts sw key incl p ∧ p.length ≤ s ∧
          ((NoNext ts p ∧ it'.valid = false) ∨ ∃ t, IsNext ts p t ∧ DLeft ts s it' t)) ∨
       (fp = true ∧ ∃ p ∈ ts, p <+: w key ∧ p.length ≤ s ∧ (p = w key ∨ cmpW cfg (sw p) key p.length ≠ -1) ∧ DAt ts s it' p) ∨
       (fp = true ∧ key.length < s ∧ isInt ts (syms key) = true ∧ w key ∉ ts ∧ ∃ t, IsLeft ts (syms key) t ∧
          (t.length ≤ s → DAt ts s it' t) ∧ (s < t.length → DStuck ts s it' t)) ∨
       (fp = true ∧ s ≤ key.length ∧ isInt ts ((syms key).take s) = true ∧ DOn ts s it' ((syms key).take s) ∧
          DPath ts s ((syms key).take s) ∧ it'.atPrefix = false ∧ it'.valid = true ∧ it'.searchComplete = false ∧
          it'.sendOut = num ts ((syms key).take s))) := by
  induction n generalizing l it with
  | zero =>
    have : l = s := by omega
    subst this
    refine ⟨true, _, rfl, Or.inr (Or.inr (Or.inr ⟨rfl, hl, hx, hon.congr rfl rfl rfl, hpath, hpre, rfl, rfl, rfl⟩))⟩
  | succ n ih =>
    have hxl : ((syms key).take l).length = l := by simp; omega
    have hls : ((syms key).take l).length < s := by omega
    have hp0 := (h.dpos_lt hx hls (b := 0) (by omega)).1
    rw [LoudsDense.seekLoop]
    dsimp only
    have hm : mul32 (num ts ((syms key).take l)) kFanout = 256 * num ts ((syms key).take l) := by
      unfold kFanout; rw [mul32_eq (by omega), Nat.mul_comm]
    by_cases hge : l ≥ key.length
    · have hlk : l = key.length := by omega
      have hsy : (syms key).take l = syms key := List.take_of_length_le (by simp; omega)
      have hw : syms key ++ [0] = w key := by rw [w_eq]
      rw [if_pos hge]
      rw [hsy] at hx hon hpath hls ⊢
      obtain ⟨b, hb, hmin⟩ : ∃ b, ex ts (syms key ++ [b + 1]) = true ∧ ∀ d, d < b → ex ts (syms key ++ [d + 1]) = false := by
        by_cases h0 : syms key = []
        · rw [h0] at hx ⊢
          obtain ⟨c, h1, h2⟩ := exists_first h.wf hx
          rcases c with _ | c
          · obtain ⟨t, ht, hp⟩ := ex_iff.1 h1
            exact absurd hp (hroot t ht)
          · exact ⟨c, h1, fun d hd => h2 _ (by omega)⟩
        · exact exists_byte h.wf hx h0
      have hb' := sym_le h.wf hb
      rw [h.dfirst hx hls (by
        rcases hne with h1 | h1
        · left; intro hc; apply h1; simpa [syms] using hc
        · exact Or.inr h1) hb hmin, ok_bind]
      obtain ⟨it1, e1, hon1, hsame⟩ := hon.append hls (b := b) (by omega)
      have hpre1 : it1.atPrefix = false := by rw [← hpre]; exact hsame.2.2.2.2.2
      rw [e1, ok_bind, h.dpref hx hls, ok_bind]
      have hpath1 := hpath.snoc hx hls (b := b) (by omega)
      cases he : ex ts (syms key ++ [0])
      · simp only [Bool.false_eq_true, if_false]
        obtain ⟨it2, t, e2, hleft, hd⟩ := h.dleft hon1 hpath1 hpre1 hb
        rw [e2, ok_bind]
        refine ⟨true, _, rfl, Or.inr (Or.inr (Or.inl ⟨rfl, by omega, hx, fun hc => ?_, t, ?_, ?_, ?_⟩))⟩
        · rw [← hw] at hc; rw [ex_mem hc] at he; cases he
        · refine IsLeft.up h.wf hleft fun d hd => ?_
          rcases d with _ | d
          · exact he
          · exact hmin d (by omega)
        · intro ht
          exact dAt_flags hd.toDAt ht
        · intro ht
          refine ⟨rfl, rfl, ?_, (hd.onS ht).congr rfl rfl rfl⟩
          show it2.atPrefix = false
          rw [hd.pre, decide_eq_false]; omega
      · simp only [if_true]
        have ht := (leaf_of_ex h.wf he).1 (isInt_term h.wf _)
        refine ⟨true, _, rfl, Or.inr (Or.inl ⟨rfl, syms key ++ [0], ht, by rw [hw], ?_, Or.inl hw, ?_⟩)⟩
        · simp; omega
        · exact dAt_pre hon1 hb hmin
    · have hb : (key.getD l 0).toNat < 256 := UInt8.toNat_lt _
      obtain ⟨e1, e2⟩ := take_succ_w (show l < key.length by omega)
      rw [if_neg hge, hm, add32_eq (h.dpos_lt hx hls hb).1]
      obtain ⟨it1, e3, hon1, hsame⟩ := hon.append hls hb
      have hpre1 : it1.atPrefix = false := by rw [← hpre]; exact hsame.2.2.2.2.2
      have hpath1 := hpath.snoc hx hls hb
      rw [e3, ok_bind, h.dlabel hx hls hb, ok_bind]
      have hlen : ((syms key).take l ++ [(key.getD l 0).toNat + 1]).length ≤ s := by
        rw [List.length_append, hxl]; simp; omega
      cases he : ex ts ((syms key).take l ++ [(key.getD l 0).toNat + 1])
      · simp only [Bool.not_false, if_true]
        obtain ⟨it2, e4, hr⟩ := h.dinc hs (by simp) hon1 hpath1 hpre1
        rw [e4, ok_bind]
        refine ⟨false, _, rfl, Or.inl ⟨rfl, _, ⟨e2, by simp, Or.inl ⟨he, no_leaf h.wf hx (List.prefix_refl _) he⟩⟩, hlen, ?_⟩⟩
        rcases hr with ⟨h1, h2, -⟩ | h1
        · exact Or.inl ⟨h1, h2⟩
        · exact Or.inr h1
      · simp only [Bool.not_true, Bool.false_eq_true, if_false]
        rw [h.dchild hx hls hb, ok_bind]
        cases hi : isInt ts ((syms key).take l ++ [(key.getD l 0).toNat + 1])
        · have ht := (leaf_of_ex h.wf he).1 hi
          obtain ⟨i, hi, hi2⟩ := h.dsfx hx hls hb ht
          simp only [Bool.not_false, if_true]
          unfold LoudsDense.compareSuffixGreaterThan
          rw [hi, ok_bind, compare_ok hs h.dense.sfx hi2, ok_bind]
          have hlv : ((syms key).take l ++ [(key.getD l 0).toNat + 1]).length = l + 1 := by
            rw [List.length_append, hxl]; rfl
          by_cases hc : cmpW cfg (sw ((syms key).take l ++ [(key.getD l 0).toNat + 1])) key (l + 1) ≠ kCouldBePositive ∧
              cmpW cfg (sw ((syms key).take l ++ [(key.getD l 0).toNat + 1])) key (l + 1) < 0
          · rw [if_pos hc]
            obtain ⟨it2, e4, hr⟩ := h.dinc hs (by simp) hon1 hpath1 hpre1
            rw [e4, ok_bind]
            refine ⟨false, _, rfl, Or.inl ⟨rfl, _, ⟨e2, by simp, Or.inr (Or.inl ⟨ht, ?_⟩)⟩, hlen, ?_⟩⟩
            · rw [hlv]; exact cmpW_neg _ _ _ hc
            rcases hr with ⟨h1, h2, -⟩ | h1
            · exact Or.inl ⟨h1, h2⟩
            · exact Or.inr h1
          · rw [if_neg hc]
            refine ⟨true, _, rfl, Or.inr (Or.inl ⟨rfl, _, ht, e2, hlen, Or.inr fun hc' => hc ?_, dAt_leaf hon1 hpath1 hpre1⟩)⟩
            rw [hlv] at hc'
            rw [hc']
            exact ⟨by unfold kCouldBePositive; decide, by decide⟩
        · simp only [Bool.not_true, Bool.false_eq_true, if_false]
          rw [h.dchildNum hx hls hb hi, ok_bind]
          rw [e1] at hi hon1 hpath1 ⊢
          exact ih (l + 1) (by omega) (by omega) hi hon1 hpath1 hpre1

/-! ## Searching the next label in a sparse node -/

theorem LabelVector.binGT_none (hs : Env.strict = false) (lv : LabelVector) (t : UInt8) (pos len : Nat)
    (hhalf : pos + len ≤ 2147483648) (hlt : ∀ j, j < len → labAt lv.labels (pos + j) < t) (fuel a : Nat) (ha : a ≤ len) (hf : len - a < fuel) :
    LabelVector.binGTLoop lv t pos len fuel (pos + a) (pos + len) = .ok (false, pos) := by
  induction fuel generalizing a with
  | zero => omega
  | succ fuel ih =>
    rw [LabelVector.binGTLoop]
    by_cases h1 : a < len
    · rw [if_pos (by omega)]
      obtain ⟨m, hm, hma, hmb⟩ : ∃ m, (pos + a + (pos + len)) / 2 = pos + m ∧ a ≤ m ∧ m < len :=
        ⟨(pos + a + (pos + len)) / 2 - pos, by omega, by omega, by omega⟩
      dsimp only
      rw [add32, M32_eq, Nat.mod_eq_of_lt (by omega : pos + a + (pos + len) < 4294967296), hm, rdB_labAt hs, ok_bind]
      have h2 := hlt m hmb
      rw [if_neg (UInt8.not_lt.2 (UInt8.le_of_lt h2)), if_neg (fun hc => by rw [← hc] at h2; exact UInt8.lt_irrefl _ h2),
        show pos + m + 1 = pos + (m + 1) by omega]
      exact ih (m + 1) (by omega) (by omega)
    · rw [if_neg (by omega), if_neg (by omega)]
      rfl

theorem LabelVector.binGT_gap (hs : Env.strict = false) (lv : LabelVector) (t : UInt8) (pos len i : Nat) (hhalf : pos + len ≤ 2147483648)
    (hlo : ∀ j, j < i → labAt lv.labels (pos + j) < t) (hhi : ∀ j, i ≤ j → j + 1 < len → t < labAt lv.labels (pos + j))
    (hi : i + 1 < len) (fuel a b : Nat) (ha : a ≤ i) (hb : i ≤ b) (hbl : b ≤ len) (hX : i + 2 < len ∨ b < len) (hf : b - a < fuel) :
    LabelVector.binGTLoop lv t pos len fuel (pos + a) (pos + b) = .ok (true, pos + i) := by
  induction fuel generalizing a b with
  | zero => omega
  | succ fuel ih =>
    rw [LabelVector.binGTLoop]
    by_cases h1 : a < b
    · rw [if_pos (by omega)]
      obtain ⟨m, hm, hma, hmb, hml⟩ : ∃ m, (pos + a + (pos + b)) / 2 = pos + m ∧ a ≤ m ∧ m < b ∧ m + 1 < len :=
        ⟨(pos + a + (pos + b)) / 2 - pos, by omega, by omega, by omega, by omega⟩
      dsimp only
      rw [add32, M32_eq, Nat.mod_eq_of_lt (by omega : pos + a + (pos + b) < 4294967296), hm, rdB_labAt hs, ok_bind]
      by_cases hmi : m < i
      · have h2 := hlo m hmi
        rw [if_neg (UInt8.not_lt.2 (UInt8.le_of_lt h2)), if_neg (fun hc => by rw [← hc] at h2; exact UInt8.lt_irrefl _ h2),
          show pos + m + 1 = pos + (m + 1) by omega]
        exact ih (m + 1) b (by omega) hb hbl hX (by omega)
      · rw [if_pos (hhi m (by omega) hml)]
        exact ih a m ha (by omega) (by omega) (Or.inr (by omega)) (by omega)
    · rw [if_neg (by omega), if_pos (by omega)]
      rw [show a = i by omega]
      rfl

/-- The search in the node `x` does not run on into the padding. -/
def InNode (ts : List Str) (s : Nat) (x : Str) : Prop := (∀ A, snodes ts s ≠ A ++ [x]) ∨ ¬ Overrun ts s x

/-- The search for the next label in the node `x` behind byte `b`, which is not a label, works; `x` has no terminator. -/
def NextPlain (ts : List Str) (s : Nat) (x : Str) (b : Nat) : Prop :=
  ex ts (x ++ [0]) = false ∧ (InNode ts s x ∨ (b ≠ 0 ∧ ∀ c, b + 1 < c → ex ts (x ++ [c]) = false))

/-- The same for a node with a terminator. -/
def NextTerm (ts : List Str) (s : Nat) (x : Str) (b : Nat) : Prop :=
  ex ts (x ++ [0]) = true ∧ InNode ts s x ∧
    ((∃ c d, b + 1 < c ∧ c < d ∧ ex ts (x ++ [c]) = true ∧ ex ts (x ++ [d]) = true) ∨
     ((kidItems ts x).length ≤ 4 ∧ (∃ c, b + 1 < c ∧ ex ts (x ++ [c]) = true) ∧ ∃ c, 1 ≤ c ∧ c < 256 ∧ ex ts (x ++ [c]) = true))

/-- The search for the next label in the node `x` behind byte `b`, which is not a label, works. -/
def NextOk (ts : List Str) (s : Nat) (x : Str) (b : Nat) : Prop := NextPlain ts s x b ∨ NextTerm ts s x b

/-- The search in a node with a terminator starts one place too far to the right and takes in the first label of the next node.
It works if there are two labels to choose from, or one and the node is small. -/
theorem FRep.sgapT (h : FRep cfg ts sw s f) (hs : Env.strict = false) {A C : List Str} {x : Str}
    (hA : snodes ts s = A ++ x :: C) (b : UInt8) (he : ex ts (x ++ [b.toNat + 1]) = false) (hok : NextTerm ts s x b.toNat) :
    ∃ n, f.sparse.nodeSize (before ts A x 0).length = .ok n ∧
      f.sparse.labels.search b (before ts A x 0).length n = .ok (false, (before ts A x 1).length) ∧
      ∃ c', b.toNat + 1 < c' ∧ ex ts (x ++ [c']) = true ∧ (∀ d, b.toNat + 1 < d → d < c' → ex ts (x ++ [d]) = false) ∧
        f.sparse.labels.searchGreaterThan b (before ts A x 1).length n = .ok (true, ipos ts s (x ++ [c'])) := by
  obtain ⟨h0, hin, hgt⟩ := hok
  obtain ⟨n, en, hn⟩ := h.snodeSize_exact hA
  have hn : n = (kidItems ts x).length := by
    rcases hn with hn | ⟨⟨rfl, hn⟩, -⟩
    · exact hn.1
    · rcases hin with h1 | h1
      · exact absurd hA (h1 A)
      · exact absurd hn h1
  have hsk := h.sskip hA (Or.inl hn)
  have htop := before_top (A := A) (x := x) h.wf
  have e1 := before_len_succ (A := A) h0
  rw [Nat.zero_add] at e1
  rw [e1, Nat.add_sub_cancel_left] at hsk
  rw [e1]
  set P0 := (before ts A x 0).length with hP0
  have hreal : ∀ i, i + 1 < n →
      ∃ c, 1 ≤ c ∧ c < 257 ∧ ex ts (x ++ [c]) = true ∧ (before ts A x c).length = P0 + 1 + i ∧
        labAt f.sparse.labels.labels (P0 + 1 + i) = UInt8.ofNat (c - 1) := by
    intro i hi
    obtain ⟨c, c1, c2, c3, c4⟩ := kid_at (ts := ts) (A := A) (x := x) (a := 1) (b := P0 + 1 + i) (by rw [e1]; omega) 257 (by omega)
    refine ⟨c, c1, c2, c3, c4, ?_⟩
    rw [← c4, h.klabel hA c3]
    obtain ⟨c, rfl⟩ := Nat.exists_eq_succ_of_ne_zero (show c ≠ 0 by omega)
    rw [lab_succ]; rfl
  have hlabel : ∀ c, 1 ≤ c → ex ts (x ++ [c]) = true → ∃ i, i + 1 < n ∧ (before ts A x c).length = P0 + 1 + i ∧
      ipos ts s (x ++ [c]) = P0 + 1 + i := by
    intro c hc hce
    have g1 := before_mono (ts := ts) (A := A) (x := x) hc
    have g2 := before_len_succ (A := A) hce
    have g3 := before_mono (ts := ts) (A := A) (x := x) (show c + 1 ≤ 257 by have := sym_le h.wf hce; omega)
    refine ⟨(before ts A x c).length - (P0 + 1), by omega, by omega, ?_⟩
    rw [ipos_eq h.wf hA hce]; omega
  have hmono : ∀ {c d i j : Nat}, ex ts (x ++ [c]) = true → ex ts (x ++ [d]) = true → (before ts A x c).length = P0 + 1 + i →
      (before ts A x d).length = P0 + 1 + j → (i < j ↔ c < d) := by
    intro c d i j hc hd h1 h2
    constructor
    · intro h3
      by_contra h4
      have := before_mono (ts := ts) (A := A) (x := x) (show d ≤ c by omega)
      omega
    · intro h3
      have g1 := before_len_succ (A := A) hc
      have := before_mono (ts := ts) (A := A) (x := x) (show c + 1 ≤ d by omega)
      omega
  have hsort : SortedOn (labAt f.sparse.labels.labels) (P0 + 1) (n - 1) := by
    intro i j hij hj
    obtain ⟨c, c1, c2, c3, c4, c5⟩ := hreal i (by omega)
    obtain ⟨d, d1, d2, d3, d4, d5⟩ := hreal j (by omega)
    have := (hmono c3 d3 c4 d4).1 hij
    rw [c5, d5, UInt8.lt_iff_toNat_lt, UInt8.toNat_ofNat', UInt8.toNat_ofNat']
    omega
  -- the first label above b
  obtain ⟨c', hc1, hc2, hc3⟩ : ∃ c', b.toNat + 1 < c' ∧ ex ts (x ++ [c']) = true ∧
      ∀ d, b.toNat + 1 < d → d < c' → ex ts (x ++ [d]) = false := by
    have hex : ∃ c, b.toNat + 1 < c ∧ ex ts (x ++ [c]) = true := by
      rcases hgt with ⟨c, d, g1, -, g2, -⟩ | ⟨-, g, -⟩
      · exact ⟨c, g1, g2⟩
      · exact g
    refine ⟨Nat.find hex, (Nat.find_spec hex).1, (Nat.find_spec hex).2, fun d h1 h2 => ?_⟩
    have := Nat.find_min hex h2
    simp only [not_and, Bool.not_eq_true] at this
    exact this h1
  obtain ⟨i, hi1, hi2, hi3⟩ := hlabel c' (by omega) hc2
  have hlo : ∀ j, j < i → labAt f.sparse.labels.labels (P0 + 1 + j) < b := by
    intro j hj
    obtain ⟨c, c1, c2, c3, c4, c5⟩ := hreal j (by omega)
    have h1 := (hmono c3 hc2 c4 hi2).1 hj
    have h2 : ¬ b.toNat + 1 < c := fun hc => by rw [hc3 c hc h1] at c3; cases c3
    have h3 : c ≠ b.toNat + 1 := fun hc => by rw [hc, he] at c3; cases c3
    rw [c5, UInt8.lt_iff_toNat_lt, UInt8.toNat_ofNat']
    omega
  have hhi : ∀ j, i ≤ j → j + 1 < n → b < labAt f.sparse.labels.labels (P0 + 1 + j) := by
    intro j hj hjn
    obtain ⟨c, c1, c2, c3, c4, c5⟩ := hreal j hjn
    have h1 : ¬ c < c' := fun hc => by
      have := (hmono c3 hc2 c4 hi2).2 hc
      omega
    rw [c5, UInt8.lt_iff_toNat_lt, UInt8.toNat_ofNat']
    omega
  have hhalf : P0 + 1 + n ≤ 2147483648 := by
    have := h.sitems_half
    have := h.louds_words
    have htot := congrArg List.length (sitems_eq hA h.wf)
    rw [List.length_append, List.length_append] at htot
    omega
  refine ⟨n, en, ?_, c', hc1, hc2, hc3, ?_⟩
  · obtain ⟨res, e, hspec⟩ := LabelVector.search_ok hs f.sparse.labels b P0 n (by rw [hsk]; exact Or.inl ⟨hsort, by dsimp only; omega⟩)
    rw [hsk] at hspec
    rw [e]
    rcases hspec with ⟨j, j1, j2, -⟩ | ⟨-, j2⟩
    · exfalso
      dsimp only at j1 j2
      by_cases hji : j < i
      · have := hlo j hji
        rw [j2] at this
        exact UInt8.lt_irrefl _ this
      · have := hhi j (by omega) (by omega)
        rw [j2] at this
        exact UInt8.lt_irrefl _ this
    · rw [j2]
  · rw [hi3]
    unfold LabelVector.searchGreaterThan
    have hsk2 : LabelVector.skipped (labAt f.sparse.labels.labels) (P0 + 1) n = (P0 + 1, n) := by
      unfold LabelVector.skipped
      rw [if_neg]
      rintro ⟨-, hl⟩
      obtain ⟨c, c1, c2, c3, c4, c5⟩ := hreal 0 (by omega)
      rw [Nat.add_zero] at c4 c5
      obtain ⟨d, d1, d2, d3⟩ : ∃ d, 1 ≤ d ∧ d < 256 ∧ ex ts (x ++ [d]) = true := by
        rcases hgt with ⟨d, d', g1, g2, g3, g4⟩ | ⟨-, -, g⟩
        · exact ⟨d, by omega, by have := sym_le h.wf g4; omega, g3⟩
        · exact g
      obtain ⟨j, j1, j2, -⟩ := hlabel d d1 d3
      have hcd : c ≤ d := by
        by_contra hc
        have := (hmono (j := 0) d3 c3 j2 c4).2 (by omega)
        omega
      rw [c5] at hl
      have := congrArg UInt8.toNat hl
      rw [UInt8.toNat_ofNat'] at this
      change (c - 1) % 256 = 255 at this
      omega
    rw [LabelVector.skipTerm_ok hs, hsk2, ok_bind]
    dsimp only
    by_cases h3 : n < 3
    · rw [if_pos h3]
      obtain ⟨res, e, hspec⟩ := LabelVector.linearGT_ok hs f.sparse.labels b (P0 + 1) n
      rw [e]
      have hi0 : i = 0 := by omega
      rcases hspec with ⟨j, j1, j2, j3, j4⟩ | ⟨j1, j2⟩
      · have : j = 0 := by
          by_contra hj
          have h4 := j3 0 (by omega)
          exact absurd (hhi 0 (by omega) (by omega)) (UInt8.not_lt.2 h4)
        rw [j4, this, hi0]
      · exact absurd (hhi 0 (by omega) (by omega)) (UInt8.not_lt.2 (j1 0 (by omega)))
    · rw [if_neg h3]
      unfold LabelVector.binarySearchGreaterThan
      by_cases hX : i + 2 < n
      · exact LabelVector.binGT_gap hs _ _ _ _ i hhalf hlo hhi hi1 _ 0 n (by omega) (by omega) le_rfl (Or.inl hX) (by rw [LabelVector.binFuel_eq]; omega)
      · have h4 : n ≤ 4 := by
          rcases hgt with ⟨d, d', g1, g2, g3, g4⟩ | ⟨g, -⟩
          · exfalso
            obtain ⟨j, j1, j2, -⟩ := hlabel d (by omega) g3
            obtain ⟨j', j1', j2', -⟩ := hlabel d' (by omega) g4
            have := (hmono g3 g4 j2 j2').2 g2
            have : ¬ j < i := fun hj => by
              have := (hmono g3 hc2 j2 hi2).1 hj
              rw [hc3 d g1 this] at g3
              cases g3
            omega
          · omega
        rw [LabelVector.binFuel_eq, LabelVector.binGTLoop, if_pos (by omega)]
        dsimp only
        rw [add32, M32_eq, Nat.mod_eq_of_lt (by omega : P0 + 1 + (P0 + 1 + n) < 4294967296), show (P0 + 1 + (P0 + 1 + n)) / 2 = P0 + 1 + i by omega, rdB_labAt hs, ok_bind, if_pos (hhi i le_rfl hi1)]
        exact LabelVector.binGT_gap hs _ _ _ _ i hhalf hlo hhi hi1 _ 0 i (by omega) le_rfl (by omega) (Or.inr (by omega)) (by omega)

theorem FRep.sgap (h : FRep cfg ts sw s f) (hs : Env.strict = false) (hpad : PadOk f ts s) {A C : List Str} {x : Str}
    (hA : snodes ts s = A ++ x :: C) (b : UInt8) (he : ex ts (x ++ [b.toNat + 1]) = false) (hok : NextPlain ts s x b.toNat) :
    ∃ n, f.sparse.nodeSize (before ts A x 0).length = .ok n ∧
      f.sparse.labels.search b (before ts A x 0).length n = .ok (false, (before ts A x 0).length) ∧
      ((∃ c', b.toNat + 1 < c' ∧ ex ts (x ++ [c']) = true ∧ (∀ d, b.toNat + 1 < d → d < c' → ex ts (x ++ [d]) = false) ∧
          f.sparse.labels.searchGreaterThan b (before ts A x 0).length n = .ok (true, ipos ts s (x ++ [c']))) ∨
       ((∀ c, b.toNat + 1 < c → ex ts (x ++ [c]) = false) ∧
          f.sparse.labels.searchGreaterThan b (before ts A x 0).length n = .ok (false, (before ts A x 0).length) ∧
          ((∃ c, ex ts (x ++ [c]) = true ∧ (∀ d, c < d → ex ts (x ++ [d]) = false) ∧
              (before ts A x 0).length + n - 1 = ipos ts s (x ++ [c])) ∨
            ((sitems ts s).length ≤ (before ts A x 0).length + n - 1 ∧
              (before ts A x 0).length + n < (sitems ts s).length + 64)))) := by
  obtain ⟨n, en, hn⟩ := h.snodeSize_exact hA
  have hn' : n = (kidItems ts x).length ∨ (C = [] ∧ (kidItems ts x).length < n) := by
    rcases hn with hn | hn
    · exact Or.inl hn.1
    · exact Or.inr ⟨hn.1.1, hn.2.2.1⟩
  have hsk := h.sskip hA hn'
  have htop := before_top (A := A) (x := x) h.wf
  have htot := congrArg List.length (sitems_eq hA h.wf)
  rw [List.length_append, List.length_append] at htot
  have e1 : before ts A x 1 = before ts A x 0 := by
    rw [before_succ, if_neg (by rw [hok.1]; simp), List.append_nil]
  rw [e1, Nat.sub_self, Nat.sub_zero] at hsk
  set P0 := (before ts A x 0).length with hP0
  have hp : 0 < (kidItems ts x).length := List.length_pos_of_ne_nil (kidItems_ne_nil (x_int hA))
  have hreal : ∀ i, i < (kidItems ts x).length →
      ∃ c, 1 ≤ c ∧ c < 257 ∧ ex ts (x ++ [c]) = true ∧ (before ts A x c).length = P0 + i ∧
        labAt f.sparse.labels.labels (P0 + i) = UInt8.ofNat (c - 1) := by
    intro i hi
    obtain ⟨c, c1, c2, c3, c4⟩ := kid_at (ts := ts) (A := A) (x := x) (a := 1) (b := P0 + i) (by rw [e1]; omega) 257 (by omega)
    refine ⟨c, c1, c2, c3, c4, ?_⟩
    rw [← c4, h.klabel hA c3]
    obtain ⟨c, rfl⟩ := Nat.exists_eq_succ_of_ne_zero (show c ≠ 0 by omega)
    rw [lab_succ]; rfl
  have hlabel : ∀ c, 1 ≤ c → ex ts (x ++ [c]) = true → ∃ i, i < (kidItems ts x).length ∧ (before ts A x c).length = P0 + i ∧
      ipos ts s (x ++ [c]) = P0 + i := by
    intro c hc hce
    have g1 := before_mono (ts := ts) (A := A) (x := x) (show 0 ≤ c by omega)
    have g2 := before_len_succ (A := A) hce
    have g3 := before_mono (ts := ts) (A := A) (x := x) (show c + 1 ≤ 257 by have := sym_le h.wf hce; omega)
    refine ⟨(before ts A x c).length - P0, by omega, by omega, ?_⟩
    rw [ipos_eq h.wf hA hce]; omega
  have hhalf0 := h.sitems_half
  refine ⟨n, en, ?_⟩
  -- no real label equals b
  have hneq : ∀ i, i < (kidItems ts x).length → labAt f.sparse.labels.labels (P0 + i) ≠ b := by
    intro i hi hc
    obtain ⟨c, c1, c2, c3, c4, c5⟩ := hreal i hi
    rw [c5] at hc
    have := congrArg UInt8.toNat hc
    rw [UInt8.toNat_ofNat'] at this
    rw [show c = b.toNat + 1 by omega] at c3
    rw [c3] at he; cases he
  rcases hn with hn | ⟨⟨hC, hov⟩, h64, hlt, hge, hend⟩
  · obtain ⟨rfl, -⟩ := hn
    have hsort : SortedOn (labAt f.sparse.labels.labels) P0 (kidItems ts x).length := by
      intro i j hij hj
      obtain ⟨c, c1, c2, c3, c4, c5⟩ := hreal i (by omega)
      obtain ⟨d, d1, d2, d3, d4, d5⟩ := hreal j (by omega)
      rw [c5, d5]
      have hcd : c < d := by
        by_contra hc
        have := before_mono (ts := ts) (A := A) (x := x) (show d ≤ c by omega)
        omega
      rw [UInt8.lt_iff_toNat_lt, UInt8.toNat_ofNat', UInt8.toNat_ofNat']
      omega
    obtain ⟨res, e, hspec⟩ := LabelVector.search_ok hs f.sparse.labels b P0 _ (by rw [hsk]; exact Or.inl ⟨hsort, by dsimp only; omega⟩)
    rw [hsk] at hspec
    obtain ⟨res', e', hspec'⟩ := LabelVector.searchGT_ok hs f.sparse.labels b P0 _ (by rw [hsk]; exact hsort) (by rw [hsk]; dsimp only; omega)
    rw [hsk] at hspec'
    dsimp only at hspec hspec'
    constructor
    · rw [e]
      rcases hspec with ⟨i, i1, i2, -⟩ | ⟨-, i2⟩
      · exact absurd i2 (hneq i i1)
      · rw [i2]
    · rw [e']
      rcases hspec' with ⟨i, i1, i2, i3, i4⟩ | ⟨i1, i2⟩
      · left
        obtain ⟨c, c1, c2, c3, c4, c5⟩ := hreal i i1
        rw [c5, UInt8.lt_iff_toNat_lt, UInt8.toNat_ofNat'] at i2
        refine ⟨c, by omega, c3, fun d d1 d2 => ?_, ?_⟩
        · by_contra hd
          have hd : ex ts (x ++ [d]) = true := by simpa using hd
          obtain ⟨j, j1, j2, j3⟩ := hlabel d (by omega) hd
          have g2 := before_len_succ (A := A) hd
          have g3 := before_mono (ts := ts) (A := A) (x := x) (show d + 1 ≤ c by omega)
          have := i3 j (by omega)
          obtain ⟨d', k1, k2, k3, k4, k5⟩ := hreal j j1
          have hdd : d' = d := by
            rcases Nat.lt_trichotomy d' d with hh | hh | hh
            · have g4 := before_len_succ (A := A) k3
              have g5 := before_mono (ts := ts) (A := A) (x := x) (show d' + 1 ≤ d by omega)
              omega
            · exact hh
            · have g5 := before_mono (ts := ts) (A := A) (x := x) (show d + 1 ≤ d' by omega)
              omega
          subst hdd
          rw [k5, UInt8.le_iff_toNat_le, UInt8.toNat_ofNat'] at this
          omega
        · rw [i4, ipos_eq h.wf hA c3, c4]
      · right
        have hno : ∀ c, b.toNat + 1 < c → ex ts (x ++ [c]) = false := by
          intro d d1
          by_contra hd
          have hd : ex ts (x ++ [d]) = true := by simpa using hd
          obtain ⟨j, j1, j2, j3⟩ := hlabel d (by omega) hd
          have := i1 j j1
          obtain ⟨d', k1, k2, k3, k4, k5⟩ := hreal j j1
          have hdd : d' = d := by
            rcases Nat.lt_trichotomy d' d with hh | hh | hh
            · have g4 := before_len_succ (A := A) k3
              have g5 := before_mono (ts := ts) (A := A) (x := x) (show d' + 1 ≤ d by omega)
              omega
            · exact hh
            · have g2 := before_len_succ (A := A) hd
              have g5 := before_mono (ts := ts) (A := A) (x := x) (show d + 1 ≤ d' by omega)
              omega
          subst hdd
          rw [k5, UInt8.le_iff_toNat_le, UInt8.toNat_ofNat'] at this
          omega
        refine ⟨hno, by rw [i2], Or.inl ?_⟩
        obtain ⟨c, c1, c2⟩ := exists_last h.wf (x_int hA)
        refine ⟨c, c1, c2, ?_⟩
        have := before_last h.wf A x c1 c2
        rw [ipos_eq h.wf hA c1]
        omega
  · subst hC
    obtain ⟨hb0, hno⟩ : b.toNat ≠ 0 ∧ ∀ c, b.toNat + 1 < c → ex ts (x ++ [c]) = false := by
      rcases hok.2 with (h1 | h1) | h1
      · exact absurd hA (h1 A)
      · exact absurd hov h1
      · exact h1
    have hw := h.louds_words
    have hall : ∀ j, j < n → labAt f.sparse.labels.labels (P0 + j) < b := by
      intro j hj
      by_cases hjk : j < (kidItems ts x).length
      · obtain ⟨c, c1, c2, c3, c4, c5⟩ := hreal j hjk
        have h1 : ¬ b.toNat + 1 < c := fun hc => by rw [hno c hc] at c3; cases c3
        have h2 : c ≠ b.toNat + 1 := fun hc => by rw [hc, he] at c3; cases c3
        rw [c5, UInt8.lt_iff_toNat_lt, UInt8.toNat_ofNat']
        omega
      · simp only [List.flatMap_nil, List.length_nil, Nat.add_zero] at htot
        rw [hpad.zero (by omega) (by omega) hge, UInt8.lt_iff_toNat_lt]
        show 0 < b.toNat
        omega
    constructor
    · obtain ⟨res, e, hspec⟩ := LabelVector.search_ok hs f.sparse.labels b P0 n (by rw [hsk]; right; dsimp only; omega)
      rw [hsk] at hspec
      rw [e]
      rcases hspec with ⟨i, i1, i2, -⟩ | ⟨-, i2⟩
      · have := hall i i1
        dsimp only at i2
        rw [i2] at this
        exact absurd this (UInt8.lt_irrefl _)
      · rw [i2]
    · right
      refine ⟨hno, ?_, Or.inr ?_⟩
      · unfold LabelVector.searchGreaterThan
        rw [LabelVector.skipTerm_ok hs, hsk, ok_bind]
        dsimp only
        rw [if_neg (by omega)]
        unfold LabelVector.binarySearchGreaterThan
        exact LabelVector.binGT_none hs _ _ _ _ (by simp only [List.flatMap_nil, List.length_nil, Nat.add_zero] at htot; omega) hall _ 0 (by omega) (by
          simp only [List.flatMap_nil, List.length_nil, Nat.add_zero] at htot
          rw [LabelVector.binFuel_eq]
          omega)
      · simp only [List.flatMap_nil, List.length_nil, Nat.add_zero] at htot
        omega


/-! ## The sparse part of a seek -/

omit [Env] in
theorem nextShift (h : WF ts) {x : Str} {c d : Nat} (hx : isInt ts x = true) (hc : ∀ e, c < e → ex ts (x ++ [e]) = false)
    (hd : ∀ e, d < e → ex ts (x ++ [e]) = false) :
    (∀ t, IsNext ts (x ++ [c]) t → IsNext ts (x ++ [d]) t) ∧ (NoNext ts (x ++ [c]) → NoNext ts (x ++ [d])) := by
  rcases next_or h x with hn | ⟨u, hu⟩
  · exact ⟨fun t ht => absurd (hn.up h hx hc t ht.1 ht.2.1) ht.2.2.1, fun _ => hn.up h hx hd⟩
  · refine ⟨fun t ht => ?_, fun hn => ?_⟩
    · rw [ht.unique (hu.up h hx hc)]
      exact hu.up h hx hd
    · have h1 := hu.up h hx hc
      exact absurd (hn u h1.1 h1.2.1) h1.2.2.1

/-- Result of moving behind `p` in the sparse part. -/
def SNext (ts : List Str) (s : Nat) (p : Str) (it' : SIter) : Prop :=
  (SOff ts s it' ∧ (∀ t, IsNext ts (p.take s) t → IsNext ts p t) ∧ (NoNext ts (p.take s) → NoNext ts p)) ∨
    ∃ t, IsNext ts p t ∧ p.take s <+: t ∧ SAt ts s it' t

theorem FRep.snextSub (h : FRep cfg ts sw s f) (hs : Env.strict = false) {P0 n : Nat} {x : Str} {b : UInt8} {it : SIter}
    (hx : isInt ts x = true) (hsx : s ≤ x.length) (hon : SOn ts s it x) (h0 : it.atTerm = false)
    (hg : (∃ c', b.toNat + 1 < c' ∧ ex ts (x ++ [c']) = true ∧ (∀ d, b.toNat + 1 < d → d < c' → ex ts (x ++ [d]) = false) ∧
          f.sparse.labels.searchGreaterThan b P0 n = .ok (true, ipos ts s (x ++ [c']))) ∨
       ((∀ c, b.toNat + 1 < c → ex ts (x ++ [c]) = false) ∧
          f.sparse.labels.searchGreaterThan b P0 n = .ok (false, P0) ∧
          ((∃ c, ex ts (x ++ [c]) = true ∧ (∀ d, c < d → ex ts (x ++ [d]) = false) ∧
              P0 + n - 1 = ipos ts s (x ++ [c])) ∨
            ((sitems ts s).length ≤ P0 + n - 1 ∧ P0 + n < (sitems ts s).length + 64)))) :
    ∃ it', f.sparse.moveToLeftInNextSubtrie P0 n b it = .ok it' ∧ SNext ts s (x ++ [b.toNat + 1]) it' := by
  have htk : ∀ c, (x ++ [c]).take s = x.take s := fun c => by
    rw [List.take_append_of_le_length hsx]
  unfold LoudsSparse.moveToLeftInNextSubtrie
  rcases hg with ⟨c', h1, h2, h3, e⟩ | ⟨h1, e, h2⟩
  · rw [e, ok_bind]
    dsimp only
    simp only [Bool.not_true, Bool.false_eq_true, if_false]
    obtain ⟨it1, e1, hon1, hsame⟩ := h.sappend hon hsx h2
    rw [e1, ok_bind]
    obtain ⟨it2, t, e2, hl, ha, -⟩ := h.sleft hon1 hsx (by rw [hsame.2.2]; exact h0) h2
    refine ⟨it2, e2, Or.inr ⟨t, hl.next h.wf h1 h3, ?_, ha⟩⟩
    rw [htk]
    exact (List.take_prefix _ _).trans ((List.prefix_append _ _).trans hl.2.1)
  · rw [e, ok_bind]
    dsimp only
    simp only [Bool.not_false, if_true]
    rcases h2 with ⟨c, c1, c2, c3⟩ | ⟨g1, g2⟩
    · obtain ⟨it1, e1, hon1, hsame⟩ := h.sappend hon hsx c1
      rw [c3, e1, ok_bind]
      obtain ⟨it2, e2, hr⟩ := h.sinc (p := x ++ [c]) (by simp; omega) hon1 c1
      obtain ⟨n1, n2⟩ := nextShift h.wf hx c2 h1
      refine ⟨it2, e2, ?_⟩
      unfold SNext
      rw [htk] at hr ⊢
      rcases hr with ⟨r1, r2, r3⟩ | ⟨t, r1, r2, r3⟩
      · exact Or.inl ⟨r1, fun t ht => n1 t (r2 t ht), fun hh => n2 (r3 hh)⟩
      · exact Or.inr ⟨t, n1 t r1, r2, r3⟩
    · obtain ⟨c, hc, -⟩ := exists_first h.wf hx
      have hle := ex_len hc
      simp only [List.length_append, List.length_singleton] at hle
      have hl := hon.len
      have hkl := hon.kl
      have hpl := hon.pl
      have hsl := h.sitems_le
      have hnb := h.louds_len
      unfold SIter.append
      rw [assertR_ok (by simp [hkl]; omega), ok_bind]
      unfold LabelVector.read
      rw [rdB_labAt hs, ok_bind, wr_ok (by omega), ok_bind, wr_ok (by omega), ok_bind]
      dsimp only [pure, Except.pure]
      rw [ok_bind]
      unfold SIter.inc
      rw [assertR_ok (by simp), ok_bind]
      dsimp only
      rw [SIter.incLoop]
      dsimp only
      rw [show rdP (it.pos.set it.keyLen (P0 + n - 1)) it.keyLen = .ok (P0 + n - 1) by
        unfold rdP; rw [List.getElem?_set_self (by omega)], ok_bind]
      rw [add32_eq (by omega), if_pos (by omega)]
      dsimp only [pure, Except.pure]
      rw [ok_bind, if_pos rfl]
      by_cases hx0 : it.keyLen = 0
      · rw [if_pos hx0]
        refine ⟨_, rfl, Or.inl ⟨⟨rfl, rfl, rfl, by simpa using hkl, by simpa using hpl⟩, ?_⟩⟩
        have hxs : x.take s = x := List.take_of_length_le (by omega)
        rw [htk, hxs]
        exact ⟨fun t ht => ht.up h.wf hx h1, fun hh => hh.up h.wf hx h1⟩
      · rw [if_neg hx0]
        obtain ⟨m, hm⟩ : ∃ m, it.keyLen = m + 1 := ⟨it.keyLen - 1, by omega⟩
        have hkey := hon.key
        have hpos := hon.pos
        obtain ⟨it2, e2, hr⟩ := h.sincLoop m (p := x)
          (it := { it with key := it.key.set it.keyLen (labAt f.sparse.labels.labels (P0 + n - 1)),
                           pos := it.pos.set it.keyLen (P0 + n - 1), keyLen := it.keyLen + 1, atTerm := false })
          (by omega) ⟨rfl, by simpa using hkl, by simpa using hpl, by
            dsimp only
            rw [← hl, List.take_set_of_le (le_refl _), hl]; exact hkey, by
            intro y d hy hys
            dsimp only
            have h3 := hy.length_le
            rw [List.length_append, List.length_singleton] at h3
            rw [List.getElem?_set_ne (by omega)]
            exact hpos y d hy hys⟩ rfl (ex_of_int hx)
        rw [← hm] at e2
        refine ⟨it2, e2, ?_⟩
        unfold SNext
        rw [htk]
        rcases hr with ⟨r1, r2, r3⟩ | ⟨t, r1, r2, r3⟩
        · exact Or.inl ⟨r1, fun t ht => (r2 t ht).up h.wf hx h1, fun hh => (r3 hh).up h.wf hx h1⟩
        · exact Or.inr ⟨t, r1.up h.wf hx h1, r2, r3⟩


/-- The terminator is not the end of its node. -/
theorem FRep.stermEnd (h : FRep cfg ts sw s f) {x : Str} (hsx : s ≤ x.length) (ht : x ++ [0] ∈ ts) :
    f.sparse.isEndofNode (ipos ts s (x ++ [0])) = .ok false := by
  have he := ex_mem ht
  have hx0 : x ≠ [] := by
    rintro rfl
    have := h.s1
    simp at hsx
    omega
  have hil := ipos_lt (mem_sitems.2 ⟨show s < (x ++ [0]).length by simp; omega, he⟩)
  have hsl := h.sitems_le
  have hnb := h.louds_len
  unfold LoudsSparse.isEndofNode
  rw [sub32_eq (by omega) (by omega), add32_eq (by omega)]
  rcases h.snext hsx he with ⟨c', h1, h2, h3, h4, h5, h6⟩ | ⟨h1, h2⟩
  · rw [if_neg (by omega), h6]
  · obtain ⟨c', hc', he'⟩ := two_kids h.wf hx0 ht
    rw [h1 c' (by omega)] at he'; cases he'

/-- Behind a terminator there is a leaf in the same node. -/
theorem term_next (h : WF ts) {x t : Str} (hx0 : x ≠ []) (ht : x ++ [0] ∈ ts)
    (h1 : IsNext ts (x.take s) t) (h2 : IsNext ts (x ++ [0]) t) : False := by
  obtain ⟨c', hc', he'⟩ := two_kids h hx0 ht
  obtain ⟨t', ht', hp'⟩ := ex_iff.1 he'
  have h3 : x ++ [0] < t' := snoc_lt_of_prefix (List.prefix_refl _) hp' (by omega)
  have h4 : ¬ x ++ [0] <+: t' := fun hc => by
    have := h.pf _ ht _ ht' hc
    rw [← this] at hp'
    have := hp'.eq_of_length (by simp)
    have := (List.append_inj' this rfl).2
    simp at this; omega
  have h5 := h2.2.2.2 t' ht' h3 h4
  have h6 : x.take s <+: t' := (List.take_prefix _ _).trans ((List.prefix_append _ _).trans hp')
  obtain ⟨r, rfl⟩ := h6
  exact absurd (append_lt h1.2.1 h1.2.2.1 r) (not_lt.2 h5)

/-- The sparse part of a seek. -/
theorem FRep.sseek (h : FRep cfg ts sw s f) (hs : Env.strict = false) (hpad : PadOk f ts s) (key : Key) (incl : Bool)
    (hok : ∀ l, s ≤ l → l < key.length → isInt ts ((syms key).take l) = true → ex ts ((syms key).take (l + 1)) = false →
      NextOk ts s ((syms key).take l) (key.getD l 0).toNat)
    (rest : Key) (l : Nat) (hl : l ≤ key.length) (hrest : rest = key.drop l) (hsl : s ≤ l)
    (hx : isInt ts ((syms key).take l) = true) {A C : List Str} (hA : snodes ts s = A ++ (syms key).take l :: C)
    {it : SIter} (hon : SOn ts s it ((syms key).take l)) (h0 : it.atTerm = false)
    (hst : it.startNode = num ts ((syms key).take s)) :
    ∃ fp it', f.sparse.seekLoop key incl rest l (before ts A ((syms key).take l) 0).length it = .ok (fp, it') ∧
      ((fp = false ∧ ∃ p, Past cfg ts sw key incl p ∧ s < p.length ∧ SNext ts s p it') ∨
       (∃ p ∈ ts, p <+: w key ∧ s < p.length ∧ SAt ts s it' p ∧
          ((fp = true ∧ cmpW cfg (sw p) key p.length ≠ -1) ∨ (fp = false ∧ incl = true ∧ p = w key))) ∨
       (fp = false ∧ isInt ts (syms key) = true ∧ w key ∉ ts ∧ ∃ t, IsLeft ts (syms key) t ∧ SAt ts s it' t)) := by
  induction rest generalizing l A C it with
  | nil =>
    have hlk : l = key.length := by
      have := congrArg List.length hrest
      simp at this; omega
    have hxl : ((syms key).take l).length = l := by simp; omega
    have hxe : (syms key).take l = syms key := List.take_of_length_le (by simp; omega)
    have hw : (syms key).take l ++ [0] = w key := by rw [w_eq, hxe]
    have htk : ((syms key).take l).take s = (syms key).take s := by
      rw [List.take_take, Nat.min_eq_left hsl]
    set x := (syms key).take l with hxdef
    have hx0 : x ≠ [] := by
      intro h0
      rw [h0] at hxl
      have := h.s1
      simp at hxl; omega
    have hp : 0 < (kidItems ts x).length := List.length_pos_of_ne_nil (kidItems_ne_nil hx)
    have htop := before_top (A := A) (x := x) h.wf
    -- the first item
    obtain ⟨c, c1, c2, c3, c4⟩ := kid_at (ts := ts) (A := A) (x := x) (a := 0) (b := (before ts A x 0).length) le_rfl 257
      (by omega)
    have hmem := mem_sitems_kid hA c3
    have hip := ipos_eq h.wf hA c3
    have hterm : c ≠ 0 → ex ts (x ++ [0]) = false := by
      intro hc0
      by_contra he
      have he : ex ts (x ++ [0]) = true := by simpa using he
      have h1 := before_len_succ (A := A) he
      have h2 := before_mono (ts := ts) (A := A) (x := x) (show 0 + 1 ≤ c by omega)
      omega
    have hleaf : lab (x ++ [c]) = kTerminator → isInt ts (x ++ [c]) = false → c = 0 := by
      intro hlab hi
      have ht := (leaf_of_ex h.wf c3).1 hi
      by_contra hc0
      obtain ⟨c', hc', he'⟩ := two_kids h.wf hx0 ht
      obtain ⟨c, rfl⟩ := Nat.exists_eq_succ_of_ne_zero hc0
      rw [lab_succ] at hlab
      have := congrArg UInt8.toNat hlab
      rw [UInt8.toNat_ofNat'] at this
      change c % 256 = 255 at this
      have h1 := before_len_succ (A := A) he'
      have h2 := before_mono (ts := ts) (A := A) (x := x) (show c' + 1 ≤ c + 1 by have := sym_le h.wf he'; omega)
      change (before ts A x (c + 1)).length = _ at c4
      have h3 := before_mono (ts := ts) (A := A) (x := x) (Nat.zero_le c')
      omega
    -- not the key itself
    have hbelow : c ≠ 0 → ∃ fp it', (do
          let it ← it.moveToLeftMostKey f.sparse
          return (false, it) : R (Bool × SIter)) = .ok (fp, it') ∧
        (fp = false ∧ isInt ts (syms key) = true ∧ w key ∉ ts ∧ ∃ t, IsLeft ts (syms key) t ∧ SAt ts s it' t) := by
      intro hc0
      have hno : w key ∉ ts := fun hc => by
        rw [← hw] at hc
        rw [ex_mem hc] at hterm
        cases hterm hc0
      rw [← hxe]
      by_cases hls : x.length = s
      · obtain ⟨it', t, e, hl', ha⟩ := h.sleft0 (it := it) hx hls (by rw [hon.len]; omega) hon.kl hon.pl
          (by rw [hst, ← htk, List.take_of_length_le (by omega)]) h0
        exact ⟨_, _, by rw [e]; rfl, rfl, hx, hno, t, hl', ha⟩
      · obtain ⟨y, d, hyd⟩ : ∃ y d, x = y ++ [d] := by
          rcases List.eq_nil_or_concat x with h1 | ⟨y, d, h1⟩
          · exact absurd h1 hx0
          · exact ⟨y, d, by simpa using h1⟩
        have hyl : x.length = y.length + 1 := by rw [hyd]; simp
        rw [hyd] at hon hx ⊢
        obtain ⟨it', t, e, hl', ha, -⟩ := h.sleft hon (by omega) h0 (ex_of_int hx)
        exact ⟨_, _, by rw [e]; rfl, rfl, hx, hno, t, hl', ha⟩
    rw [LoudsSparse.seekLoop, ← c4, ← hip, (h.slabel hmem).2, ok_bind]
    by_cases hlab : lab (x ++ [c]) = kTerminator
    · rw [if_pos hlab, h.schild hmem, ok_bind]
      cases hi : isInt ts (x ++ [c])
      · have hc0 := hleaf hlab hi
        subst hc0
        have ht := (leaf_of_ex h.wf c3).1 hi
        simp only [Bool.not_false, if_true]
        rw [h.stermEnd (by omega) ht, ok_bind]
        simp only [Bool.not_false]
        dsimp only [pure, Except.pure]
        rw [ok_bind]
        simp only [if_true]
        obtain ⟨it1, e1, hon1, hsame⟩ := hon.appendL (by omega) c3
        have e1' : it.appendL kTerminator (ipos ts s (x ++ [0])) = .ok it1 := e1
        rw [e1', ok_bind]
        cases incl
        · simp only [Bool.not_false, if_true]
          have hon2 : SOn ts s { it1 with atTerm := true } (x ++ [0]) := hon1.congr rfl rfl rfl
          obtain ⟨it2, e2, hr⟩ := h.sinc (p := x ++ [0]) (by simp; omega) hon2 c3
          rw [e2, ok_bind]
          refine ⟨_, _, rfl, Or.inl ⟨rfl, _, ⟨by rw [hw], by simp, Or.inr (Or.inr ⟨ht, hw, rfl⟩)⟩, by simp; omega, ?_⟩⟩
          unfold SNext
          rw [List.take_append_of_le_length (by omega)] at hr ⊢
          rcases hr with ⟨r1, r2, r3⟩ | ⟨t, r1, r2, r3⟩
          · exfalso
            rcases next_or h.wf (x.take s) with hn | ⟨u, hu⟩
            · obtain ⟨c', hc', he'⟩ := two_kids h.wf hx0 ht
              obtain ⟨t', ht', hp'⟩ := ex_iff.1 he'
              have h3 : x ++ [0] < t' := snoc_lt_of_prefix (List.prefix_refl _) hp' (by omega)
              have h4 := h.wf.pf _ ht _ ht' (r3 hn t' ht' h3)
              rw [h4] at h3; exact lt_irrefl _ h3
            · exact term_next h.wf hx0 ht hu (r2 u hu)
          · refine Or.inr ⟨t, r1, r2, ⟨rfl, r3.term, r3.on.congr rfl rfl rfl, r3.lt⟩⟩
        · simp only [Bool.not_true, Bool.false_eq_true, if_false]
          refine ⟨_, _, rfl, Or.inr (Or.inl ⟨_, ht, by rw [hw], by simp; omega, ⟨rfl, ?_, hon1.congr rfl rfl rfl, by simp; omega⟩,
            Or.inr ⟨rfl, trivial, hw⟩⟩)⟩
          simp
      · have hc0 : c ≠ 0 := by
          rintro rfl
          rw [isInt_term h.wf] at hi; simp at hi
        obtain ⟨fp, it', e, hr⟩ := hbelow hc0
        exact ⟨fp, it', e, Or.inr (Or.inr hr)⟩
    · rw [if_neg hlab]
      have hc0 : c ≠ 0 := by
        rintro rfl
        exact hlab (lab_term x)
      obtain ⟨fp, it', e, hr⟩ := hbelow hc0
      exact ⟨fp, it', e, Or.inr (Or.inr hr)⟩
  | cons b rest ih =>
    have hlt : l < key.length := by
      have := congrArg List.length hrest
      simp at this; omega
    have hb : key.getD l 0 = b := by
      have := congrArg (fun r => r[0]?) hrest
      simp only [List.getElem?_cons_zero, List.getElem?_drop, Nat.add_zero] at this
      rw [List.getD, ← this]; rfl
    have hrest' : rest = key.drop (l + 1) := by
      have := congrArg List.tail hrest
      simpa using this
    obtain ⟨e1, e2⟩ := take_succ_w hlt
    rw [hb] at e1 e2
    have hxl : ((syms key).take l).length = l := by simp; omega
    have hok' := hok l hsl hlt hx
    rw [hb, ← e1] at hok'
    cases he : ex ts ((syms key).take l ++ [b.toNat + 1])
    · obtain ⟨n, P, en, ese, hg⟩ : ∃ n P, f.sparse.nodeSize (before ts A ((syms key).take l) 0).length = .ok n ∧
          f.sparse.labels.search b (before ts A ((syms key).take l) 0).length n = .ok (false, P) ∧
          ((∃ c', b.toNat + 1 < c' ∧ ex ts ((syms key).take l ++ [c']) = true ∧
              (∀ d, b.toNat + 1 < d → d < c' → ex ts ((syms key).take l ++ [d]) = false) ∧
              f.sparse.labels.searchGreaterThan b P n = .ok (true, ipos ts s ((syms key).take l ++ [c']))) ∨
           ((∀ c, b.toNat + 1 < c → ex ts ((syms key).take l ++ [c]) = false) ∧
              f.sparse.labels.searchGreaterThan b P n = .ok (false, P) ∧
              ((∃ c, ex ts ((syms key).take l ++ [c]) = true ∧ (∀ d, c < d → ex ts ((syms key).take l ++ [d]) = false) ∧
                  P + n - 1 = ipos ts s ((syms key).take l ++ [c])) ∨
                ((sitems ts s).length ≤ P + n - 1 ∧ P + n < (sitems ts s).length + 64)))) := by
        rcases hok' he with hok' | hok'
        · obtain ⟨n, en, ese, hg⟩ := h.sgap hs hpad hA b he hok'
          exact ⟨n, _, en, ese, hg⟩
        · obtain ⟨n, en, ese, hg⟩ := h.sgapT hs hA b he hok'
          exact ⟨n, _, en, ese, Or.inl hg⟩
      rw [LoudsSparse.seekLoop, en, ok_bind, ese, ok_bind]
      dsimp only
      simp only [Bool.not_false, if_true]
      obtain ⟨it', e, hr⟩ := h.snextSub hs hx (by omega) hon h0 hg
      rw [e, ok_bind]
      exact ⟨_, _, rfl, Or.inl ⟨rfl, _, ⟨e2, by simp, Or.inl ⟨he, no_leaf h.wf hx (List.prefix_refl _) he⟩⟩, by simp; omega, hr⟩⟩
    · obtain ⟨n, found, pos, en, ese, hfound, hnot⟩ := h.ssearch hs hA b
      rw [LoudsSparse.seekLoop, en, ok_bind, ese, ok_bind]
      dsimp only
      obtain ⟨rfl, rfl⟩ := hfound he
      have hmem := mem_sitems_kid hA he
      simp only [Bool.not_true, Bool.false_eq_true, if_false]
      obtain ⟨it1, ea, hon1, hsame⟩ := hon.appendL (by omega) he
      have ea' : it.appendL b (ipos ts s ((syms key).take l ++ [b.toNat + 1])) = .ok it1 := by
        rw [← ea]
        congr 1
        show b = UInt8.ofNat b.toNat
        simp
      rw [ea', ok_bind, h.schild hmem, ok_bind]
      cases hi : isInt ts ((syms key).take l ++ [b.toNat + 1])
      · have ht := (leaf_of_ex h.wf he).1 hi
        obtain ⟨i, hi, hi2⟩ := h.ssfx hmem ht
        simp only [Bool.not_false, if_true]
        unfold LoudsSparse.compareSuffixGreaterThan
        rw [hi, ok_bind, compare_ok hs h.sparse.sfx hi2, ok_bind]
        have hlv : ((syms key).take l ++ [b.toNat + 1]).length = l + 1 := by
          rw [List.length_append, hxl]; rfl
        by_cases hc : cmpW cfg (sw ((syms key).take l ++ [b.toNat + 1])) key (l + 1) ≠ kCouldBePositive ∧
            cmpW cfg (sw ((syms key).take l ++ [b.toNat + 1])) key (l + 1) < 0
        · rw [if_pos hc]
          obtain ⟨it2, e4, hr⟩ := h.sinc (by omega) hon1 he
          rw [e4, ok_bind]
          refine ⟨_, _, rfl, Or.inl ⟨rfl, _, ⟨e2, by simp, Or.inr (Or.inl ⟨ht, ?_⟩)⟩, by omega, hr⟩⟩
          rw [hlv]; exact cmpW_neg _ _ _ hc
        · rw [if_neg hc]
          refine ⟨_, _, rfl, Or.inr (Or.inl ⟨_, ht, e2, by omega, ⟨rfl, ?_, hon1.congr rfl rfl rfl, by omega⟩,
            Or.inl ⟨rfl, fun hc' => hc ?_⟩⟩)⟩
          · show it1.atTerm = _
            rw [hsame.2.2, h0]
            have := leaf_zero_iff h.wf ht
            simp [this]
          · rw [hlv] at hc'
            rw [hc']
            exact ⟨by unfold kCouldBePositive; decide, by decide⟩
      · simp only [Bool.not_true, Bool.false_eq_true, if_false]
        rw [h.schildNum hmem hi, ok_bind]
        have hi' : isInt ts ((syms key).take (l + 1)) = true := by rw [← e1]; exact hi
        obtain ⟨A', C', hA', hn'⟩ := h.snode hi' (by simp; omega)
        rw [e1, h.sfirst hA' hn', ok_bind]
        rw [e1] at hon1
        exact ih (l + 1) (by omega) hrest' (by omega) hi' hA' hon1 (by rw [hsame.2.2]; exact h0) (by rw [hsame.2.1]; exact hst)


/-! ## SuRF::moveToKeyGreaterThan -/

/-- The body of `moveToKeyGreaterThan` from the iterator `it`. -/
def seekFrom (f : Filter) (it : Iter) (key : Key) (inclusive : Bool) : R Iter := do
  let (fp, d) ← f.dense.moveToKeyGreaterThan key inclusive it.dense
  let it : Iter := { it with dense := d, couldBeFp := fp }
  if !d.valid then return it
  else if d.isComplete then return it
  else if !d.searchComplete then do
    let it := it.passToSparse
    let (fp, s) ← f.sparse.moveToKeyGreaterThan key inclusive it.sparse
    let it : Iter := { it with sparse := s, couldBeFp := fp }
    if !s.valid then do
      let (_, it) ← it.incrementDense f
      return it
    else return it
  else if !d.leftComplete then do
    let it := it.passToSparse
    let s ← it.sparse.moveToLeftMostKey f.sparse
    return { it with sparse := s }
  else do
    assertR false
    return it

theorem moveToKeyGreaterThan_eq (f : Filter) (key : Key) (incl : Bool) :
    f.moveToKeyGreaterThan key incl = seekFrom f (Iter.new f) key incl := rfl

/-- An iterator that holds nothing. -/
structure Clean (ts : List Str) (s : Nat) (it : Iter) : Prop where
  d : DOn ts s it.dense []
  pre : it.dense.atPrefix = false
  sp : SOff ts s it.sparse

theorem FRep.newClean (h : FRep cfg ts sw s f) : Clean ts s (Iter.new f) := by
  have h1 := h.newIdle []
  exact ⟨h.newOn, rfl, ⟨rfl, rfl, rfl, h1.kl, h1.pl⟩⟩

/-- Where a seek ends. -/
def SeekOut (cfg : Config) (ts : List Str) (sw : Str → Word) (s : Nat) (key : Key) (incl : Bool) (it : Iter) : Prop :=
  (it.couldBeFp = false ∧ ∃ p, Past cfg ts sw key incl p ∧
      ((NoNext ts p ∧ it.isValid = false) ∨ ∃ t, IsNext ts p t ∧ At ts s it t)) ∨
  (∃ p ∈ ts, p <+: w key ∧ At ts s it p ∧
      ((it.couldBeFp = true ∧ (p = w key ∨ cmpW cfg (sw p) key p.length ≠ -1)) ∨
        (it.couldBeFp = false ∧ incl = true ∧ p = w key))) ∨
  (isInt ts (syms key) = true ∧ w key ∉ ts ∧ ∃ t, IsLeft ts (syms key) t ∧
      ((At ts s it t ∧ it.couldBeFp = decide (key.length < s)) ∨
        (it.couldBeFp = true ∧ key.length < s ∧ s < t.length ∧ DStuck ts s it.dense t)))

omit [Env] in
theorem At.congr {it it' : Iter} {t : Str} (h : At ts s it t) (h1 : it'.dense = it.dense) (h2 : it'.sparse = it.sparse) :
    At ts s it' t :=
  ⟨h.mem, by rw [h1]; exact h.d, by rw [h2]; exact h.sp, by rw [h2]; exact h.sx⟩

theorem incDense_fp {f : Filter} {it it' : Iter} {r : Bool} (h : it.incrementDense f = .ok (r, it')) :
    it'.couldBeFp = it.couldBeFp := by
  unfold Iter.incrementDense at h
  split at h
  · cases h; rfl
  · cases hd : it.dense.inc f.dense with
    | error e => rw [hd] at h; cases h
    | ok d =>
      rw [hd, ok_bind] at h
      dsimp only at h
      split at h
      · cases h; rfl
      · split at h
        · cases h; rfl
        · cases hm : (SIter.moveToLeftMostKey f.sparse ({ it with dense := d } : Iter).passToSparse.sparse) with
          | error e => rw [hm] at h; cases h
          | ok d' =>
            rw [hm, ok_bind] at h
            cases h; rfl

theorem FRep.seek (h : FRep cfg ts sw s f) (hs : Env.strict = false) (hpad : PadOk f ts s) (hroot : ∀ t ∈ ts, ¬ [0] <+: t)
    (key : Key) (hne : key ≠ [] ∨ Env.ndebug = true) (incl : Bool)
    (hok : ∀ l, s ≤ l → l < key.length → isInt ts ((syms key).take l) = true → ex ts ((syms key).take (l + 1)) = false →
      NextOk ts s ((syms key).take l) (key.getD l 0).toNat)
    {it : Iter} (hcl : Clean ts s it) :
    ∃ it', seekFrom f it key incl = .ok it' ∧ SeekOut cfg ts sw s key incl it' := by
  obtain ⟨fp, d, ed, hd⟩ := h.dseek hs hroot key hne incl s 0 (by omega) (by omega) (by simpa using root_int h.wf)
    (it := it.dense) (by simpa using hcl.d) (by simp [DPath]) hcl.pre
  rw [List.take_zero, num_root h.wf] at ed
  have hidle := fun t => hcl.sp.idle t
  unfold seekFrom LoudsDense.moveToKeyGreaterThan
  rw [h.dense.height, ed, ok_bind]
  dsimp only
  rcases hd with ⟨rfl, p, hpast, hpl, hr⟩ | ⟨rfl, p, hp, hpw, hpl, hpc, ha⟩ | ⟨rfl, hks, hi, hno, t, hl, h1, h2⟩ |
    ⟨rfl, hks, hi, hon, hpath, hpre, hv, hsc, hsend⟩
  · rcases hr with ⟨h1, h2⟩ | ⟨t, h1, h2⟩
    · rw [h2]
      exact ⟨_, rfl, Or.inl ⟨rfl, p, hpast, Or.inl ⟨h1, by simp [Iter.isValid, h2]⟩⟩⟩
    · rw [h2.valid, h2.complete, h2.srch, h2.left]
      simp only [Bool.not_true, Bool.false_eq_true, if_false]
      rcases Nat.lt_or_ge s t.length with h3 | h3
      · rw [decide_eq_false (by omega)]
        simp only [Bool.false_eq_true, if_false, Bool.not_false, if_true]
        obtain ⟨it', e', ha⟩ := h.enterLeft (hidle p) (Or.inr hcl.sp.len) hpl h1 h3
        unfold Iter.passToSparse
        dsimp only
        rw [h2.send h3, e', ok_bind]
        exact ⟨_, rfl, Or.inl ⟨rfl, p, hpast, Or.inr ⟨t, h1, ⟨h1.1, h2.toDAt, fun _ => ha, fun h4 => absurd h4 (by omega)⟩⟩⟩⟩
      · rw [decide_eq_true h3]
        simp only [if_true]
        exact ⟨_, rfl, Or.inl ⟨rfl, p, hpast, Or.inr ⟨t, h1, ⟨h1.1, h2.toDAt, fun h4 => absurd h4 (by omega), fun _ => hidle t⟩⟩⟩⟩
  · rw [ha.valid, ha.complete, decide_eq_true hpl]
    simp only [Bool.not_true, Bool.false_eq_true, if_false, if_true]
    exact ⟨_, rfl, Or.inr (Or.inl ⟨p, hp, hpw, ⟨hp, ha, fun h4 => absurd h4 (by omega), fun _ => hidle p⟩, Or.inl ⟨rfl, hpc⟩⟩)⟩
  · rcases Nat.lt_or_ge s t.length with h3 | h3
    · have hst := h2 h3
      rw [hst.valid, hst.complete]
      simp only [Bool.not_true, Bool.false_eq_true, if_false, if_true]
      exact ⟨_, rfl, Or.inr (Or.inr ⟨hi, hno, t, hl, Or.inr ⟨rfl, hks, h3, hst⟩⟩)⟩
    · have ha := h1 h3
      rw [ha.valid, ha.complete, decide_eq_true h3]
      simp only [Bool.not_true, Bool.false_eq_true, if_false, if_true]
      exact ⟨_, rfl, Or.inr (Or.inr ⟨hi, hno, t, hl, Or.inl ⟨⟨hl.1, ha, fun h4 => absurd h4 (by omega), fun _ => hidle t⟩,
        (decide_eq_true hks).symm⟩⟩)⟩
  · have hxl : ((syms key).take s).length = s := by simp; omega
    have hcomp : d.isComplete = false := by unfold DIter.isComplete; rw [hsc]; rfl
    rw [hv, hcomp, hsc]
    simp only [Bool.not_true, Bool.false_eq_true, if_false, Bool.not_false, if_true]
    obtain ⟨A, C, hA, hn⟩ := h.snode hi (by omega)
    obtain ⟨fp, it', e, hr⟩ := h.sseek hs hpad key incl hok _ s hks rfl le_rfl hi hA
      (it := { it.sparse with startNode := num ts ((syms key).take s) })
      (SOn.start hcl.sp.len hcl.sp.kl hcl.sp.pl hxl) hcl.sp.term rfl
    unfold Iter.passToSparse LoudsSparse.moveToKeyGreaterThan
    dsimp only
    rw [hsend, h.sfirst hA hn, ok_bind, h.sparse.start, e, ok_bind]
    dsimp only
    have hdat : ∀ {t : Str} (ht : t ∈ ts), (syms key).take s <+: t → s < t.length → DAt ts s d t := by
      intro t ht hp hlt
      have htk : t.take s = (syms key).take s := by
        obtain ⟨r, rfl⟩ := hp
        rw [List.take_append_of_le_length (by omega), List.take_of_length_le (by omega)]
      exact ⟨hv, by rw [hcomp, decide_eq_false (by omega)], by rw [hpre, decide_eq_false (by omega)],
        fun _ _ _ h4 => absurd h4 (by omega), fun _ _ h4 => absurd h4 (by omega), fun _ => by rw [htk]; exact hon⟩
    have hpt : ∀ {p : Str}, p <+: w key → s < p.length → p.take s = (syms key).take s := by
      intro p hp hlt
      have : p.take s = (w key).take s := by
        obtain ⟨r, hr⟩ := hp
        rw [← hr, List.take_append_of_le_length (by omega)]
      rw [this, w_eq, List.take_append_of_le_length (by simp; omega)]
    rcases hr with ⟨rfl, p, hpast, hlt, hr⟩ | ⟨p, hp, hpw, hlt, ha, hfp⟩ | ⟨rfl, h1, h2, t, h3, h4⟩
    · rcases hr with ⟨r1, r2, r3⟩ | ⟨t, r1, r2, r3⟩
      · rw [hpt hpast.1 hlt] at r2 r3
        rw [r1.valid]
        simp only [Bool.not_false, if_true]
        have hpe : (syms key).take s ≠ [] := by
          intro h0; rw [h0] at hxl; have := h.s1; simp at hxl; omega
        obtain ⟨r, it2, e2, hr2⟩ := h.incDense (it := { it with dense := d, sparse := it', couldBeFp := false })
          (p := (syms key).take s) hv (r1.idle _) (Or.inr r1.len) (by omega) (h.dinc hs hpe hon hpath hpre)
        have hfp := incDense_fp e2
        rw [e2, ok_bind]
        refine ⟨_, rfl, Or.inl ⟨hfp, p, hpast, ?_⟩⟩
        rcases hr2 with ⟨-, g1, g2⟩ | ⟨-, t, g1, g2⟩
        · exact Or.inl ⟨r3 g2, g1⟩
        · exact Or.inr ⟨t, r2 t g1, g2⟩
      · rw [r3.valid]
        simp only [Bool.not_true, Bool.false_eq_true, if_false]
        rw [hpt hpast.1 hlt] at r2
        exact ⟨_, rfl, Or.inl ⟨rfl, p, hpast, Or.inr ⟨t, r1, ⟨r1.1, hdat r1.1 r2 r3.lt, fun _ => r3, fun h4 => absurd h4 (by have := r3.lt; omega)⟩⟩⟩⟩
    · rw [ha.valid]
      simp only [Bool.not_true, Bool.false_eq_true, if_false]
      have hpre' : (syms key).take s <+: p := by rw [← hpt hpw hlt]; exact List.take_prefix _ _
      refine ⟨_, rfl, Or.inr (Or.inl ⟨p, hp, hpw, ⟨hp, hdat hp hpre' hlt, fun _ => ha, fun h4 => absurd h4 (by omega)⟩, ?_⟩)⟩
      rcases hfp with ⟨rfl, g⟩ | ⟨rfl, g⟩
      · exact Or.inl ⟨rfl, Or.inr g⟩
      · exact Or.inr ⟨rfl, g⟩
    · rw [h4.valid]
      simp only [Bool.not_true, Bool.false_eq_true, if_false]
      exact ⟨_, rfl, Or.inr (Or.inr ⟨h1, h2, t, h3, Or.inl ⟨⟨h3.1, hdat h3.1 ((List.take_prefix _ _).trans h3.2.1) h4.lt, fun _ => h4,
        fun h5 => absurd h5 (by have := h4.lt; omega)⟩, (decide_eq_false (by omega)).symm⟩⟩)⟩

/-- The positioning part of `lookupRange` does the same as `moveToKeyGreaterThan` on the cleared member iterator. -/
theorem rangeSeek_of_seek {f : Filter} {it r : Iter} {key : Key} {incl : Bool} (h : seekFrom f it.clear key incl = .ok r) :
    ∃ it', f.rangeSeek it key incl = .ok it' ∧ it'.dense = r.dense ∧ it'.sparse = r.sparse := by
  unfold seekFrom at h
  unfold Filter.rangeSeek
  cases hd : f.dense.moveToKeyGreaterThan key incl it.clear.dense with
  | error e => rw [hd] at h; cases h
  | ok fd =>
    obtain ⟨fp, d⟩ := fd
    rw [hd, ok_bind] at h
    dsimp only at h
    simp only
    rw [hd, ok_bind]
    dsimp only
    cases hv : d.valid
    · rw [hv] at h
      cases h; exact ⟨_, rfl, rfl, rfl⟩
    · rw [hv] at h
      cases hc : d.isComplete
      · rw [hc] at h
        simp only [Bool.not_true, Bool.false_eq_true, if_false, Bool.not_false, if_true] at h ⊢
        cases hsc : d.searchComplete
        · rw [hsc] at h
          simp only [Bool.not_false, if_true] at h ⊢
          cases hm : f.sparse.moveToKeyGreaterThan key incl ({ it.clear with dense := d } : Iter).passToSparse.sparse with
          | error e =>
            have hm' : f.sparse.moveToKeyGreaterThan key incl ({ it.clear with dense := d, couldBeFp := fp } : Iter).passToSparse.sparse
              = .error e := hm
            rw [hm'] at h; cases h
          | ok fs =>
            obtain ⟨fp', sp⟩ := fs
            have hm' : f.sparse.moveToKeyGreaterThan key incl ({ it.clear with dense := d, couldBeFp := fp } : Iter).passToSparse.sparse
              = .ok (fp', sp) := hm
            rw [hm', ok_bind] at h
            rw [ok_bind]
            dsimp only at h ⊢
            cases hsv : sp.valid
            · rw [hsv] at h
              simp only [Bool.not_false, if_true] at h ⊢
              unfold Iter.incrementDense Iter.passToSparse at h ⊢
              dsimp only at h ⊢
              rw [hv] at h ⊢
              simp only [Bool.not_true, Bool.false_eq_true, if_false] at h ⊢
              cases hi : d.inc f.dense with
              | error e => rw [hi] at h; cases h
              | ok d2 =>
                rw [hi, ok_bind] at h
                rw [ok_bind]
                cases hv2 : d2.valid
                · rw [hv2] at h
                  cases h; exact ⟨_, rfl, rfl, rfl⟩
                · rw [hv2] at h
                  simp only [Bool.not_true, Bool.false_eq_true, if_false] at h ⊢
                  cases hlc : d2.leftComplete
                  · rw [hlc] at h
                    simp only [Bool.false_eq_true, if_false] at h ⊢
                    cases hl : SIter.moveToLeftMostKey f.sparse { sp with startNode := d2.sendOut } with
                    | error e => rw [hl] at h; cases h
                    | ok s2 =>
                      rw [hl] at h
                      cases h; exact ⟨_, rfl, rfl, rfl⟩
                  · rw [hlc] at h
                    cases h; exact ⟨_, rfl, rfl, rfl⟩
            · rw [hsv] at h
              cases h; exact ⟨_, rfl, rfl, rfl⟩
        · rw [hsc] at h
          simp only [Bool.not_true, Bool.false_eq_true, if_false] at h ⊢
          cases hlc : d.leftComplete
          · rw [hlc] at h
            simp only [Bool.not_false, if_true] at h ⊢
            unfold Iter.passToSparse at h ⊢
            dsimp only at h ⊢
            cases hl : SIter.moveToLeftMostKey f.sparse { it.clear.sparse with startNode := d.sendOut } with
            | error e => rw [hl] at h; cases h
            | ok s2 =>
              rw [hl] at h
              cases h; exact ⟨_, rfl, rfl, rfl⟩
          · rw [hlc] at h
            simp only [Bool.not_true, Bool.false_eq_true, if_false] at h ⊢
            cases ha : (assertR false : R Unit) with
            | error e => rw [ha] at h; cases h
            | ok u =>
              rw [ha] at h
              cases h; exact ⟨_, rfl, rfl, rfl⟩
      · rw [hc] at h
        cases h; exact ⟨_, rfl, rfl, rfl⟩

end Surf
