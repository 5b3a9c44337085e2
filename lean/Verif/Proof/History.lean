import Verif.Proof.SeekKeys

/-!
# Queries do not depend on what was left in the member iterator

`lookupRange` clears the member iterator, which leaves the old bytes and positions in its arrays and the old
flags in place.  Two iterators that agree on everything but such leftovers behave alike.
-/

set_option linter.unusedSectionVars false
set_option autoImplicit false

namespace Surf
open Trie

variable [Env]

/-- Two runs that end alike: with the same failure or with related results. -/
def RRel {α : Type} (P : α → α → Prop) (x y : R α) : Prop :=
  match x, y with
  | .ok a, .ok b => P a b
  | .error e, .error e' => e = e'
  | _, _ => False

omit [Env] in
theorem RRel.refl {α : Type} (x : R α) : RRel (· = ·) x x := by cases x <;> simp [RRel]

omit [Env] in
theorem RRel.bind {α β : Type} {P : α → α → Prop} {Q : β → β → Prop} {x y : R α} {f g : α → R β}
    (h : RRel P x y) (hk : ∀ a b, x = .ok a → y = .ok b → P a b → RRel Q (f a) (g b)) : RRel Q (x >>= f) (y >>= g) := by
  cases x with
  | error e => cases y with
    | error e' => exact h
    | ok b => exact h.elim
  | ok a => cases y with
    | error e' => exact h.elim
    | ok b => exact hk a b rfl rfl h

omit [Env] in
/-- The same step in both runs. -/
theorem RRel.same {α β : Type} {Q : β → β → Prop} (x : R α) {f g : α → R β}
    (hk : ∀ a, x = .ok a → RRel Q (f a) (g a)) : RRel Q (x >>= f) (x >>= g) :=
  RRel.bind (RRel.refl x) fun a b ha _ hab => hab ▸ hk a ha

omit [Env] in
theorem RRel.mono {α : Type} {P Q : α → α → Prop} {x y : R α} (h : RRel P x y) (hpq : ∀ a b, P a b → Q a b) : RRel Q x y := by
  cases x <;> cases y <;> simp_all [RRel]

omit [Env] in
theorem RRel.ok {α : Type} {P : α → α → Prop} {a b : α} (h : P a b) : RRel P (.ok a) (.ok b) := h

omit [Env] in
theorem RRel.pure {α : Type} {P : α → α → Prop} {a b : α} (h : P a b) : RRel P (Pure.pure a : R α) (Pure.pure b) := h

/-! ## Arrays -/

omit [Env] in
theorem take_get {α : Type} {a b : List α} {m i : Nat} (h : a.take m = b.take m) (hi : i < m) : a[i]? = b[i]? := by
  have := congrArg (·[i]?) h
  simpa [List.getElem?_take_of_lt hi] using this

omit [Env] in
theorem take_mono {α : Type} {a b : List α} {m i : Nat} (h : a.take m = b.take m) (hi : i ≤ m) : a.take i = b.take i := by
  have := congrArg (List.take i) h
  simpa [List.take_take, Nat.min_eq_left hi] using this

/-- A check of the same condition. -/
theorem assert_rel {c c' : Bool} (h : c = c') : RRel (fun _ _ => True) (assertR c) (assertR c') := by
  subst h
  cases assertR c <;> simp [RRel]

theorem rdP_rel {a b : List Nat} {m i : Nat} (ha : m ≤ a.length) (h : a.take m = b.take m) (hi : i < m) : rdP a i = rdP b i := by
  have h1 := take_get h hi
  unfold rdP
  rw [← h1, List.getElem?_eq_getElem (by omega)]

omit [Env] in
theorem set_take_succ {α : Type} {a b : List α} {m : Nat} (x : α) (h : a.take m = b.take m) (hl : a.length = b.length) :
    (a.set m x).take (m + 1) = (b.set m x).take (m + 1) := by
  apply List.ext_getElem?
  intro i
  rcases Nat.lt_or_ge i (m + 1) with h1 | h1
  · rw [List.getElem?_take_of_lt h1, List.getElem?_take_of_lt h1, List.getElem?_set, List.getElem?_set, hl]
    split
    · rfl
    · exact take_get h (by omega)
  · rw [List.getElem?_take_eq_none h1, List.getElem?_take_eq_none h1]

omit [Env] in
theorem set_take {α : Type} {a b : List α} {m i : Nat} (x : α) (h : a.take m = b.take m) :
    (a.set i x).take m = (b.set i x).take m := by
  rw [List.take_set, List.take_set, h]

/-- Writing the same value into two arrays that agree up to `m`, at index `i ≤ m`. -/
theorem wr_rel {α : Type} {a b : List α} (n i : Nat) (x : α) (ha : a.length = n) (hb : b.length = n) :
    RRel (fun a' b' => a' = a.set i x ∧ b' = b.set i x ∧ i < n) (wr a i x) (wr b i x) := by
  unfold wr
  rw [ha, hb]
  split
  · exact ⟨rfl, rfl, by assumption⟩
  · rfl

/-! ## The dense iterator -/

/-- Two dense iterators that agree on what matters. -/
structure DRel (n : Nat) (a b : DIter) : Prop where
  valid : a.valid = b.valid
  keyLen : a.keyLen = b.keyLen
  atPrefix : a.atPrefix = b.atPrefix
  le : a.keyLen ≤ n
  akl : a.key.length = n
  bkl : b.key.length = n
  apl : a.pos.length = n
  bpl : b.pos.length = n
  key : a.key.take a.keyLen = b.key.take a.keyLen
  pos : a.pos.take a.keyLen = b.pos.take a.keyLen
  sc : a.valid = true → a.searchComplete = b.searchComplete
  lc : a.valid = true → a.leftComplete = b.leftComplete
  rc : a.valid = true → a.rightComplete = b.rightComplete
  send : a.valid = true → a.isComplete = false → a.sendOut = b.sendOut
  one : a.valid = true → a.isComplete = true → 1 ≤ a.keyLen
  pre : a.atPrefix = true → 1 ≤ a.keyLen

namespace DRel
variable {n : Nat} {a b : DIter} {d : LoudsDense}

omit [Env] in
theorem flags (h : DRel n a b) (v s l r : Bool) (hs : (s && (l && r)) = false → a.sendOut = b.sendOut) (h1 : 1 ≤ a.keyLen ∨ (s && (l && r)) = false) :
    DRel n (a.setFlags v s l r) (b.setFlags v s l r) :=
  ⟨rfl, h.keyLen, h.atPrefix, h.le, h.akl, h.bkl, h.apl, h.bpl, h.key, h.pos, fun _ => rfl, fun _ => rfl, fun _ => rfl,
    fun _ hc => hs hc, fun _ hc => by
      rcases h1 with h1 | h1
      · exact h1
      · rw [show (a.setFlags v s l r).isComplete = (s && (l && r)) from rfl, h1] at hc; (cases hc), h.pre⟩

omit [Env] in
theorem prefixTrue (h : DRel n a b) (h1 : 1 ≤ a.keyLen) : DRel n { a with atPrefix := true } { b with atPrefix := true } :=
  ⟨h.valid, h.keyLen, rfl, h.le, h.akl, h.bkl, h.apl, h.bpl, h.key, h.pos, h.sc, h.lc, h.rc, h.send, h.one, fun _ => h1⟩

omit [Env] in
theorem prefixFalse (h : DRel n a b) : DRel n { a with atPrefix := false } { b with atPrefix := false } :=
  ⟨h.valid, h.keyLen, rfl, h.le, h.akl, h.bkl, h.apl, h.bpl, h.key, h.pos, h.sc, h.lc, h.rc, h.send, h.one, fun hc => (by cases hc)⟩

omit [Env] in
/-- Setting the node to go on with and all flags. -/
theorem sendFlags (h : DRel n a b) (c : Nat) (v s l r : Bool) (h1 : 1 ≤ a.keyLen ∨ (s && (l && r)) = false) :
    DRel n (({ a with sendOut := c } : DIter).setFlags v s l r) (({ b with sendOut := c } : DIter).setFlags v s l r) :=
  ⟨rfl, h.keyLen, h.atPrefix, h.le, h.akl, h.bkl, h.apl, h.bpl, h.key, h.pos, fun _ => rfl, fun _ => rfl, fun _ => rfl,
    fun _ _ => rfl, fun _ hc => by
      rcases h1 with h1 | h1
      · exact h1
      · rw [show (({ a with sendOut := c } : DIter).setFlags v s l r).isComplete = (s && (l && r)) from rfl, h1] at hc; (cases hc), h.pre⟩

/-- Related iterators with a non-empty path. -/
def P (n : Nat) (a b : DIter) : Prop := DRel n a b ∧ 1 ≤ a.keyLen

theorem append (h : DRel n a b) (p : Nat) : RRel (P n) (a.append p) (b.append p) := by
  unfold DIter.append
  rw [h.akl, h.bkl, ← h.keyLen]
  refine RRel.same _ fun _ _ => ?_
  refine RRel.bind (wr_rel n _ _ h.akl h.bkl) fun k k' _ _ ⟨hk, hk', hlt⟩ => ?_
  refine RRel.bind (wr_rel n _ _ h.apl h.bpl) fun q q' _ _ ⟨hq, hq', _⟩ => ?_
  subst hk hk' hq hq'
  refine RRel.pure ⟨⟨h.valid, rfl, h.atPrefix, hlt, ?_, ?_, ?_, ?_, ?_, ?_, h.sc, h.lc, h.rc, h.send, fun _ _ => by simp, fun _ => by simp⟩, by simp⟩
  · simp [h.akl]
  · simp [h.bkl]
  · simp [h.apl]
  · simp [h.bpl]
  · exact set_take_succ _ h.key (h.akl.trans h.bkl.symm)
  · exact set_take_succ _ h.pos (h.apl.trans h.bpl.symm)

theorem set (h : DRel n a b) (level p : Nat) : RRel (DRel n) (a.set level p) (b.set level p) := by
  unfold DIter.set
  rw [h.akl, h.bkl]
  refine RRel.same _ fun _ _ => ?_
  refine RRel.bind (wr_rel n _ _ h.akl h.bkl) fun k k' _ _ ⟨hk, hk', hlt⟩ => ?_
  refine RRel.bind (wr_rel n _ _ h.apl h.bpl) fun q q' _ _ ⟨hq, hq', _⟩ => ?_
  subst hk hk' hq hq'
  refine RRel.pure ⟨h.valid, h.keyLen, h.atPrefix, h.le, ?_, ?_, ?_, ?_, ?_, ?_, h.sc, h.lc, h.rc, h.send, h.one, h.pre⟩
  · simp [h.akl]
  · simp [h.bkl]
  · simp [h.apl]
  · simp [h.bpl]
  · exact set_take _ h.key
  · exact set_take _ h.pos

omit [Env] in
/-- Shortening the path. -/
theorem shorten (h : DRel n a b) {k : Nat} (hk : k + 1 ≤ a.keyLen) :
    DRel n { a with keyLen := k + 1 } { b with keyLen := k + 1 } :=
  ⟨h.valid, rfl, h.atPrefix, by have := h.le; simp only; omega, h.akl, h.bkl, h.apl, h.bpl, take_mono h.key hk, take_mono h.pos hk, h.sc, h.lc, h.rc, h.send,
    fun _ _ => by simp, fun _ => by simp⟩

omit [Env] in
theorem stop (h : DRel n a b) (hp : a.atPrefix = false) : DRel n { a with keyLen := 0, valid := false } { b with keyLen := 0, valid := false } :=
  ⟨rfl, rfl, h.atPrefix, Nat.zero_le _, h.akl, h.bkl, h.apl, h.bpl, by simp, by simp, fun hc => (by cases hc), fun hc => (by cases hc), fun hc => (by cases hc),
    fun hc => (by cases hc), fun hc => (by cases hc), fun hc => by rw [show a.atPrefix = true from hc] at hp; cases hp⟩

omit [Env] in
theorem sub_lt {k : Nat} (h : 1 ≤ k) : sub32 k 1 < k := by
  unfold sub32 M32
  omega

theorem rd (h : DRel n a b) {i : Nat} (hi : i < a.keyLen) : rdP a.pos i = rdP b.pos i :=
  rdP_rel (by rw [h.apl]; exact h.le) h.pos hi

theorem leftLoop (h : P n a b) (m pos : Nat) : RRel (P n) (DIter.leftLoop d m pos a) (DIter.leftLoop d m pos b) := by
  induction m generalizing pos a b with
  | zero =>
    unfold DIter.leftLoop
    refine RRel.same _ fun c _ => RRel.pure ⟨h.1.sendFlags c true true false true (Or.inr rfl), h.2⟩
  | succ m ih =>
    unfold DIter.leftLoop
    refine RRel.same _ fun nn _ => RRel.same _ fun pk _ => ?_
    cases pk
    · simp only [Bool.false_eq_true, if_false]
      refine RRel.same _ fun p _ => RRel.bind (h.1.append p) fun a' b' _ _ h' => RRel.same _ fun c _ => ?_
      cases c
      · exact RRel.pure ⟨h'.1.flags _ _ _ _ (fun hc => (by cases hc)) (Or.inl h'.2), h'.2⟩
      · exact ih h' p
    · simp only [if_true]
      refine RRel.same _ fun p _ => RRel.bind (h.1.append p) fun a' b' _ _ h' => RRel.pure ?_
      exact ⟨(h'.1.prefixTrue h'.2).flags _ _ _ _ (fun hc => (by cases hc)) (Or.inl h'.2), h'.2⟩

theorem moveToLeftMostKey (h : P n a b) : RRel (P n) (DIter.moveToLeftMostKey d a) (DIter.moveToLeftMostKey d b) := by
  unfold DIter.moveToLeftMostKey
  dsimp only
  rw [← h.1.keyLen, h.1.rd (sub_lt h.2)]
  refine RRel.same _ fun _ _ => RRel.same _ fun p _ => RRel.same _ fun c _ => ?_
  cases c
  · exact RRel.pure ⟨h.1.flags _ _ _ _ (fun hc => (by cases hc)) (Or.inl h.2), h.2⟩
  · simp only [Bool.not_true, Bool.false_eq_true, if_false]
    generalize d.height - 1 - sub32 a.keyLen 1 = m
    exact leftLoop h m p

theorem incLoop (h : DRel n a b) (hp : a.atPrefix = false) {k : Nat} (hk : k ≤ a.keyLen) :
    RRel (DRel n) (DIter.incLoop d a k) (DIter.incLoop d b k) := by
  induction k with
  | zero => exact rfl
  | succ k ih =>
    unfold DIter.incLoop
    rw [h.rd (show k < a.keyLen by omega)]
    refine RRel.same _ fun pos _ => RRel.same _ fun next _ => ?_
    split
    · split
      · exact RRel.pure (h.stop hp)
      · exact ih (by omega)
    · refine RRel.bind ((h.shorten hk).set k next) fun a' b' e1 _ h' => ?_
      have h1 : 1 ≤ a'.keyLen := by
        unfold DIter.set at e1
        revert e1
        rcases hx : assertR (decide (k < ({ a with keyLen := k + 1 } : DIter).key.length)) with e | u
        · intro e1; cases e1
        · rw [ok_bind]
          rcases hy : wr ({ a with keyLen := k + 1 } : DIter).key k (UInt8.ofNat (next % kFanout)) with e | u
          · intro e1; cases e1
          · rw [ok_bind]
            rcases hz : wr ({ a with keyLen := k + 1 } : DIter).pos k next with e | u
            · intro e1; cases e1
            · rw [ok_bind]
              intro e1; cases e1; simp
      exact (moveToLeftMostKey (d := d) ⟨h', h1⟩).mono fun _ _ hx => hx.1

theorem inc (h : DRel n a b) : RRel (DRel n) (DIter.inc d a) (DIter.inc d b) := by
  unfold DIter.inc
  refine RRel.bind (assert_rel (by rw [h.keyLen])) fun _ _ _ _ _ => ?_
  rw [← h.atPrefix]
  cases hp : a.atPrefix
  · simp only [Bool.false_eq_true, if_false]
    rw [show DIter.incLoop d b b.keyLen = DIter.incLoop d b a.keyLen by rw [h.keyLen]]
    exact h.incLoop hp (Nat.le_refl _)
  · simp only [if_true]
    exact (moveToLeftMostKey (d := d) ⟨h.prefixFalse, h.pre hp⟩).mono fun _ _ hx => hx.1

theorem compareSuffix (h : P n a b) (pos : Nat) (key : Key) (level : Nat) (incl : Bool) :
    RRel (fun x y => x.1 = y.1 ∧ DRel n x.2 y.2) (d.compareSuffixGreaterThan pos key level incl a)
      (d.compareSuffixGreaterThan pos key level incl b) := by
  unfold LoudsDense.compareSuffixGreaterThan
  refine RRel.same _ fun sp _ => RRel.same _ fun c _ => ?_
  split
  · exact RRel.bind h.1.inc fun a' b' _ _ h' => RRel.pure ⟨rfl, h'⟩
  · exact RRel.pure ⟨rfl, h.1.flags _ _ _ _ (fun hc => (by cases hc)) (Or.inl h.2)⟩

theorem seekLoop (h : DRel n a b) (key : Key) (incl : Bool) (m level node : Nat) :
    RRel (fun x y => x.1 = y.1 ∧ DRel n x.2 y.2) (d.seekLoop key incl m level node a) (d.seekLoop key incl m level node b) := by
  induction m generalizing level node a b with
  | zero => exact RRel.pure ⟨rfl, h.sendFlags _ _ _ _ _ (Or.inr rfl)⟩
  | succ m ih =>
    unfold LoudsDense.seekLoop
    dsimp only
    split
    · refine RRel.same _ fun p _ => RRel.bind (h.append p) fun a' b' _ _ h' => RRel.same _ fun pk _ => ?_
      cases pk
      · simp only [Bool.false_eq_true, if_false]
        refine RRel.bind (moveToLeftMostKey h') fun a2 b2 _ _ h2 => RRel.pure ⟨rfl, ?_⟩
        exact h2.1.flags _ _ _ _ (fun hc => (by cases hc)) (Or.inl h2.2)
      · exact RRel.pure ⟨rfl, (h'.1.prefixTrue h'.2).flags _ _ _ _ (fun hc => (by cases hc)) (Or.inl h'.2)⟩
    · refine RRel.bind (h.append _) fun a' b' _ _ h' => RRel.same _ fun l _ => ?_
      cases l
      · exact RRel.bind h'.1.inc fun a2 b2 _ _ h2 => RRel.pure ⟨rfl, h2⟩
      · simp only [Bool.not_true, Bool.false_eq_true, if_false]
        refine RRel.same _ fun c _ => ?_
        cases c
        · exact compareSuffix h' _ key (level + 1) incl
        · simp only [Bool.not_true, Bool.false_eq_true, if_false]
          exact RRel.same _ fun nn _ => ih h'.1 _ _

end DRel

/-! ## The sparse iterator -/

/-- Two sparse iterators that agree on what matters. -/
structure SRel (n : Nat) (a b : SIter) : Prop where
  valid : a.valid = b.valid
  keyLen : a.keyLen = b.keyLen
  atTerm : a.atTerm = b.atTerm
  le : a.keyLen ≤ n
  akl : a.key.length = n
  bkl : b.key.length = n
  apl : a.pos.length = n
  bpl : b.pos.length = n
  key : a.key.take a.keyLen = b.key.take a.keyLen
  pos : a.pos.take a.keyLen = b.pos.take a.keyLen
  one : a.valid = true → 1 ≤ a.keyLen

namespace SRel
variable {n : Nat} {a b : SIter} {t : LoudsSparse}

/-- The iterators start in the same node. -/
def Q (n : Nat) (a b : SIter) : Prop := SRel n a b ∧ a.startNode = b.startNode

/-- Related iterators with a non-empty path. -/
def P (n : Nat) (a b : SIter) : Prop := Q n a b ∧ 1 ≤ a.keyLen

theorem appendL (h : Q n a b) (l : UInt8) (p : Nat) : RRel (P n) (a.appendL l p) (b.appendL l p) := by
  obtain ⟨h, hst⟩ := h
  unfold SIter.appendL
  rw [h.akl, h.bkl, ← h.keyLen]
  refine RRel.same _ fun _ _ => ?_
  refine RRel.bind (wr_rel n _ _ h.akl h.bkl) fun k k' _ _ ⟨hk, hk', hlt⟩ => ?_
  refine RRel.bind (wr_rel n _ _ h.apl h.bpl) fun q q' _ _ ⟨hq, hq', _⟩ => ?_
  subst hk hk' hq hq'
  refine RRel.pure ⟨⟨⟨h.valid, rfl, h.atTerm, hlt, ?_, ?_, ?_, ?_, ?_, ?_, fun _ => by simp⟩, hst⟩, by simp⟩
  · simp [h.akl]
  · simp [h.bkl]
  · simp [h.apl]
  · simp [h.bpl]
  · exact set_take_succ _ h.key (h.akl.trans h.bkl.symm)
  · exact set_take_succ _ h.pos (h.apl.trans h.bpl.symm)

theorem append_eq (a : SIter) (p : Nat) : a.append t p = (do
    assertR (decide (a.keyLen < a.key.length))
    let l ← t.labels.read p
    let k ← wr a.key a.keyLen l
    let ps ← wr a.pos a.keyLen p
    return { a with key := k, pos := ps, keyLen := a.keyLen + 1 }) := rfl

theorem append (h : Q n a b) (p : Nat) : RRel (P n) (a.append t p) (b.append t p) := by
  obtain ⟨h, hst⟩ := h
  unfold SIter.append
  rw [h.akl, h.bkl, ← h.keyLen]
  refine RRel.same _ fun _ _ => RRel.same _ fun l _ => ?_
  refine RRel.bind (wr_rel n _ _ h.akl h.bkl) fun k k' _ _ ⟨hk, hk', hlt⟩ => ?_
  refine RRel.bind (wr_rel n _ _ h.apl h.bpl) fun q q' _ _ ⟨hq, hq', _⟩ => ?_
  subst hk hk' hq hq'
  refine RRel.pure ⟨⟨⟨h.valid, rfl, h.atTerm, hlt, ?_, ?_, ?_, ?_, ?_, ?_, fun _ => by simp⟩, hst⟩, by simp⟩
  · simp [h.akl]
  · simp [h.bkl]
  · simp [h.apl]
  · simp [h.bpl]
  · exact set_take_succ _ h.key (h.akl.trans h.bkl.symm)
  · exact set_take_succ _ h.pos (h.apl.trans h.bpl.symm)

theorem set (h : P n a b) (level p : Nat) : RRel (P n) (a.set t level p) (b.set t level p) := by
  obtain ⟨⟨h, hst⟩, h1⟩ := h
  unfold SIter.set
  rw [h.akl, h.bkl]
  refine RRel.same _ fun _ _ => RRel.same _ fun l _ => ?_
  refine RRel.bind (wr_rel n _ _ h.akl h.bkl) fun k k' _ _ ⟨hk, hk', hlt⟩ => ?_
  refine RRel.bind (wr_rel n _ _ h.apl h.bpl) fun q q' _ _ ⟨hq, hq', _⟩ => ?_
  subst hk hk' hq hq'
  refine RRel.pure ⟨⟨⟨h.valid, h.keyLen, h.atTerm, h.le, ?_, ?_, ?_, ?_, ?_, ?_, h.one⟩, hst⟩, h1⟩
  · simp [h.akl]
  · simp [h.bkl]
  · simp [h.apl]
  · simp [h.bpl]
  · exact set_take _ h.key
  · exact set_take _ h.pos

omit [Env] in
theorem shorten (h : Q n a b) {k : Nat} (hk : k + 1 ≤ a.keyLen) :
    P n { a with keyLen := k + 1 } { b with keyLen := k + 1 } :=
  ⟨⟨⟨h.1.valid, rfl, h.1.atTerm, by have := h.1.le; simp only; omega, h.1.akl, h.1.bkl, h.1.apl, h.1.bpl, take_mono h.1.key hk,
    take_mono h.1.pos hk, fun _ => by simp⟩, h.2⟩, by simp⟩

omit [Env] in
theorem stop (h : Q n a b) : Q n { a with keyLen := 0, valid := false } { b with keyLen := 0, valid := false } :=
  ⟨⟨rfl, rfl, h.1.atTerm, Nat.zero_le _, h.1.akl, h.1.bkl, h.1.apl, h.1.bpl, by simp, by simp, fun hc => (by cases hc)⟩, h.2⟩

omit [Env] in
theorem term (h : Q n a b) (v : Bool) : Q n { a with atTerm := v } { b with atTerm := v } :=
  ⟨⟨h.1.valid, h.1.keyLen, rfl, h.1.le, h.1.akl, h.1.bkl, h.1.apl, h.1.bpl, h.1.key, h.1.pos, h.1.one⟩, h.2⟩

omit [Env] in
theorem validTrue (h : P n a b) : P n { a with valid := true } { b with valid := true } :=
  ⟨⟨⟨rfl, h.1.1.keyLen, h.1.1.atTerm, h.1.1.le, h.1.1.akl, h.1.1.bkl, h.1.1.apl, h.1.1.bpl, h.1.1.key, h.1.1.pos, fun _ => h.2⟩, h.1.2⟩, h.2⟩

theorem rd (h : SRel n a b) {i : Nat} (hi : i < a.keyLen) : rdP a.pos i = rdP b.pos i :=
  rdP_rel (by rw [h.apl]; exact h.le) h.pos hi

theorem finishLeaf (h : P n a b) (l : UInt8) (p : Nat) : RRel (P n) (SIter.finishLeaf t a l p) (SIter.finishLeaf t b l p) := by
  unfold SIter.finishLeaf
  split
  · refine RRel.same _ fun e _ => ?_
    have := validTrue ⟨term h.1 (if e then a.atTerm else true), h.2⟩
    refine RRel.pure ?_
    rw [show (if e then b.atTerm else true) = (if e then a.atTerm else true) by rw [h.1.1.atTerm]]
    exact this
  · exact RRel.pure (validTrue h)

theorem leftLoop (h : P n a b) (m pos : Nat) : RRel (P n) (SIter.leftLoop t m pos a) (SIter.leftLoop t m pos b) := by
  induction m generalizing pos a b with
  | zero =>
    unfold SIter.leftLoop
    exact RRel.same _ fun _ _ => RRel.pure h
  | succ m ih =>
    unfold SIter.leftLoop
    refine RRel.same _ fun nn _ => RRel.same _ fun pos _ => RRel.same _ fun l _ => RRel.same _ fun c _ => ?_
    refine RRel.bind (appendL h.1 l pos) fun a' b' _ _ h' => ?_
    cases c
    · exact finishLeaf h' l pos
    · exact ih h' pos

theorem moveToLeftMostKey (h : Q n a b) : RRel (P n) (SIter.moveToLeftMostKey t a) (SIter.moveToLeftMostKey t b) := by
  have rest : ∀ {a b : SIter}, P n a b → RRel (P n)
      (do let pos ← rdP a.pos (a.keyLen - 1)
          let label ← t.labels.read pos
          let c ← t.childBits.readBit pos
          if !c then SIter.finishLeaf t a label pos else SIter.leftLoop t (t.height - (a.keyLen - 1)) pos a)
      (do let pos ← rdP b.pos (b.keyLen - 1)
          let label ← t.labels.read pos
          let c ← t.childBits.readBit pos
          if !c then SIter.finishLeaf t b label pos else SIter.leftLoop t (t.height - (b.keyLen - 1)) pos b) := by
    intro a b h
    have h2 := h.2
    rw [← h.1.1.keyLen, h.1.1.rd (show a.keyLen - 1 < a.keyLen by omega)]
    refine RRel.same _ fun pos _ => RRel.same _ fun l _ => RRel.same _ fun c _ => ?_
    cases c
    · exact finishLeaf h l pos
    · exact leftLoop h _ pos
  unfold SIter.moveToLeftMostKey
  rw [← h.1.keyLen, ← h.2]
  dsimp only
  by_cases h0 : a.keyLen = 0
  · rw [if_pos h0, if_pos h0]
    refine RRel.same _ fun pos _ => RRel.same _ fun l _ => ?_
    exact RRel.bind (appendL h l pos) fun a' b' _ _ h' => rest h'
  · rw [if_neg h0, if_neg h0]
    exact rest ⟨h, by omega⟩

theorem incLoop (h : Q n a b) {k : Nat} (hk : k ≤ a.keyLen) :
    RRel (Q n) (SIter.incLoop t a k) (SIter.incLoop t b k) := by
  induction k with
  | zero => exact rfl
  | succ k ih =>
    unfold SIter.incLoop
    rw [h.1.rd (show k < a.keyLen by omega)]
    refine RRel.same _ fun pos _ => ?_
    dsimp only
    have rest : ∀ st : Bool, RRel (Q n)
        (if st = true then if k = 0 then pure { a with keyLen := 0, valid := false } else SIter.incLoop t a k
          else do
            let it ← SIter.set t { a with keyLen := k + 1 } k (add32 pos 1)
            SIter.moveToLeftMostKey t it)
        (if st = true then if k = 0 then pure { b with keyLen := 0, valid := false } else SIter.incLoop t b k
          else do
            let it ← SIter.set t { b with keyLen := k + 1 } k (add32 pos 1)
            SIter.moveToLeftMostKey t it) := by
      intro st
      cases st
      · simp only [Bool.false_eq_true, if_false]
        refine RRel.bind (set (shorten h hk) k _) fun a' b' e1 _ h' => ?_
        exact (moveToLeftMostKey (t := t) h'.1).mono fun _ _ hx => hx.1
      · simp only [if_true]
        split
        · exact RRel.pure (stop h)
        · exact ih (by omega)
    split
    · exact rest true
    · exact RRel.same _ fun st _ => rest st

theorem inc (h : Q n a b) : RRel (Q n) (SIter.inc t a) (SIter.inc t b) := by
  unfold SIter.inc
  refine RRel.bind (assert_rel (by rw [h.1.keyLen])) fun _ _ _ _ _ => ?_
  rw [show SIter.incLoop t { b with atTerm := false } b.keyLen = SIter.incLoop t { b with atTerm := false } a.keyLen by rw [h.1.keyLen]]
  exact incLoop (term h false) (Nat.le_refl _)

theorem appendL_last {a a' : SIter} {l : UInt8} {p : Nat} (e : a.appendL l p = .ok a') (hl : a.pos.length = a.key.length) :
    rdP a'.pos (a'.keyLen - 1) = .ok p := by
  unfold SIter.appendL at e
  revert e
  cases assertR (decide (a.keyLen < a.key.length)) with
  | error x => intro e; cases e
  | ok u =>
    rw [ok_bind]
    unfold wr
    by_cases h1 : a.keyLen < a.key.length
    · rw [if_pos h1, ok_bind, if_pos (by omega), ok_bind]
      intro e
      cases e
      simp only [Nat.add_sub_cancel]
      unfold rdP
      rw [List.getElem?_set_self (by omega)]
    · rw [if_neg h1]; intro e; cases e

theorem incLoopHere (h : P n a b) {p k : Nat} (hk : a.keyLen = k + 1) (hp : rdP a.pos k = .ok p)
    (hlt : p + 1 < t.loudsBits.numBits) (h32 : t.loudsBits.numBits < M32) (hb : t.loudsBits.readBit (p + 1) = .ok false) :
    RRel (P n) (SIter.incLoop t a (k + 1)) (SIter.incLoop t b (k + 1)) := by
  have hp' := hp
  rw [h.1.1.rd (show k < a.keyLen by omega)] at hp'
  unfold SIter.incLoop
  rw [hp, hp', ok_bind, ok_bind]
  dsimp only
  rw [add32_eq (by omega)]
  simp only [if_neg (show ¬ p + 1 ≥ t.loudsBits.numBits by omega), hb, ok_bind, Bool.false_eq_true, if_false]
  exact RRel.bind (set (shorten h.1 (k := k) (by omega)) k _) fun a' b' e1 _ h' => moveToLeftMostKey h'.1

/-- Stepping to the next label of the same node. -/
theorem incHere (h : P n a b) {p : Nat} (hp : rdP a.pos (a.keyLen - 1) = .ok p) (hlt : p + 1 < t.loudsBits.numBits)
    (h32 : t.loudsBits.numBits < M32) (hb : t.loudsBits.readBit (p + 1) = .ok false) :
    RRel (P n) (SIter.inc t a) (SIter.inc t b) := by
  have h2 := h.2
  obtain ⟨k, hk⟩ : ∃ k, a.keyLen = k + 1 := ⟨a.keyLen - 1, by omega⟩
  have hkb : b.keyLen = k + 1 := by rw [← h.1.1.keyLen, hk]
  have hq : P n { a with atTerm := false } { b with atTerm := false } := ⟨term h.1 false, h2⟩
  unfold SIter.inc
  refine RRel.bind (assert_rel (by rw [h.1.1.keyLen])) fun _ _ _ _ _ => ?_
  rw [show SIter.incLoop t { a with atTerm := false } a.keyLen = SIter.incLoop t { a with atTerm := false } (k + 1) from
    congrArg _ hk, show SIter.incLoop t { b with atTerm := false } b.keyLen = SIter.incLoop t { b with atTerm := false } (k + 1) from
    congrArg _ hkb]
  rw [hk, Nat.add_sub_cancel] at hp
  exact incLoopHere hq hk hp hlt h32 hb

theorem nextSubtrie (h : Q n a b) (pos sz : Nat) (l : UInt8) :
    RRel (Q n) (t.moveToLeftInNextSubtrie pos sz l a) (t.moveToLeftInNextSubtrie pos sz l b) := by
  unfold LoudsSparse.moveToLeftInNextSubtrie
  refine RRel.same _ fun x _ => ?_
  obtain ⟨found, pos⟩ := x
  dsimp only
  cases found
  · exact RRel.bind (append h _) fun a' b' _ _ h' => inc h'.1
  · exact RRel.bind (append h _) fun a' b' _ _ h' => (moveToLeftMostKey (t := t) h'.1).mono fun _ _ hx => hx.1

theorem compareSuffix (h : P n a b) (pos : Nat) (key : Key) (level : Nat) (incl : Bool) :
    RRel (fun x y => x.1 = y.1 ∧ Q n x.2 y.2) (t.compareSuffixGreaterThan pos key level incl a)
      (t.compareSuffixGreaterThan pos key level incl b) := by
  unfold LoudsSparse.compareSuffixGreaterThan
  refine RRel.same _ fun sp _ => RRel.same _ fun c _ => ?_
  split
  · exact RRel.bind (inc h.1) fun a' b' _ _ h' => RRel.pure ⟨rfl, h'⟩
  · exact RRel.pure ⟨rfl, (validTrue h).1⟩

end SRel

/-- The positions at which a sparse search runs out of bytes are inside the trie. -/
def NavOk (t : LoudsSparse) : Key → Nat → Prop
  | [], pos => pos < t.loudsBits.numBits ∧ t.loudsBits.numBits < M32
  | c :: rest, pos => ∀ sz pos' nn p2, t.nodeSize pos = .ok sz → t.labels.search c pos sz = .ok (true, pos') →
      t.childBits.readBit pos' = .ok true → t.getChildNodeNum pos' = .ok nn → t.getFirstLabelPos nn = .ok p2 → NavOk t rest p2

namespace SRel
variable {n : Nat} {a b : SIter} {t : LoudsSparse}

theorem seekLoop (h : Q n a b) (key : Key) (incl : Bool) (rest : Key) (level pos : Nat) (hnav : NavOk t rest pos) :
    RRel (fun x y => x.1 = y.1 ∧ Q n x.2 y.2) (t.seekLoop key incl rest level pos a) (t.seekLoop key incl rest level pos b) := by
  induction rest generalizing level pos a b with
  | nil =>
    obtain ⟨hn1, hn2⟩ := hnav
    unfold LoudsSparse.seekLoop
    refine RRel.same _ fun l _ => ?_
    have hF : RRel (fun x y => x.1 = y.1 ∧ Q n x.2 y.2)
        (do let it ← a.moveToLeftMostKey t; return (false, it) : R (Bool × SIter))
        (do let it ← b.moveToLeftMostKey t; return (false, it)) :=
      RRel.bind (moveToLeftMostKey h) fun a' b' _ _ h' => RRel.pure ⟨rfl, h'.1⟩
    have hT : t.isEndofNode pos = .ok false → RRel (fun x y => x.1 = y.1 ∧ Q n x.2 y.2)
        (do let it ← a.appendL kTerminator pos
            let it := { it with atTerm := true }
            let it ← if !incl then it.inc t else pure it
            return (false, { it with valid := true }) : R (Bool × SIter))
        (do let it ← b.appendL kTerminator pos
            let it := { it with atTerm := true }
            let it ← if !incl then it.inc t else pure it
            return (false, { it with valid := true })) := by
      intro hend
      refine RRel.bind (appendL h kTerminator pos) fun a' b' ea _ h' => ?_
      have hlast := appendL_last ea (by rw [h.1.apl, h.1.akl])
      have h2 : P n { a' with atTerm := true } { b' with atTerm := true } := ⟨term h'.1 true, h'.2⟩
      dsimp only
      unfold LoudsSparse.isEndofNode at hend
      cases incl
      · simp only [Bool.not_false, if_true]
        split at hend
        · cases hend
        · rename_i hne
          rw [sub32_eq (by omega) (by omega)] at hne
          rw [add32_eq (by omega)] at hend
          refine RRel.bind (incHere h2 (p := pos) hlast (by omega) hn2 hend) fun a3 b3 _ _ h3 => ?_
          exact RRel.pure ⟨rfl, (validTrue h3).1⟩
      · exact RRel.pure ⟨rfl, (validTrue h2).1⟩
    dsimp only
    split
    · refine RRel.same _ fun c _ => ?_
      cases c
      · simp only [Bool.not_false, if_true]
        refine RRel.same _ fun e he => ?_
        cases e
        · exact hT he
        · exact hF
      · exact hF
    · exact hF
  | cons c rest ih =>
    unfold LoudsSparse.seekLoop
    refine RRel.same _ fun sz hsz => RRel.same _ fun x hx => ?_
    obtain ⟨found, pos'⟩ := x
    dsimp only
    cases found
    · exact RRel.bind (nextSubtrie h _ _ _) fun a' b' _ _ h' => RRel.pure ⟨rfl, h'⟩
    · simp only [Bool.not_true, Bool.false_eq_true, if_false]
      refine RRel.bind (appendL h c pos') fun a' b' _ _ h' => RRel.same _ fun ch hch => ?_
      cases ch
      · exact compareSuffix h' _ key (level + 1) incl
      · simp only [Bool.not_true, Bool.false_eq_true, if_false]
        refine RRel.same _ fun nn hnn => RRel.same _ fun p2 hp2 => ?_
        exact ih h'.1 _ _ (hnav sz pos' nn p2 hsz hx hch hnn hp2)

end SRel

/-! ## Where a search in a built filter goes -/

omit [Env] in
theorem hinjR {α : Type} {x : R α} {a b : α} (h : x = .ok a) (h' : x = .ok b) : a = b := by
  rw [h] at h'; cases h'; rfl

section
variable {cfg : Config} {ts : List Str} {sw : Str → Word} {s : Nat} {f : Filter}

/-- A bit behind the last one is not set. -/
theorem readBit_past {b : Bitvector} {xs : List Bool} (h : b.Rep xs) {pos : Nat} (h1 : xs.length ≤ pos)
    (h2 : pos < 64 * b.bits.length) : b.readBit pos ≠ .ok true := by
  unfold Bitvector.readBit
  cases assertR (decide (pos ≤ b.numBits)) with
  | error e => intro hc; cases hc
  | ok u =>
    rw [ok_bind, rdW_ok (by omega), ok_bind, testMsb_eq _ (by omega)]
    have := h.bit pos
    simp [bitAt, h1] at this
    simp [this]

theorem FRep.navOk (h : FRep cfg ts sw s f) (hs : Env.strict = false) (key : Key) (rest : Key) (l : Nat)
    (hl : l ≤ key.length) (hrest : rest = key.drop l) (hsl : s ≤ l) (hx : isInt ts ((syms key).take l) = true)
    {A C : List Str} (hA : snodes ts s = A ++ (syms key).take l :: C) :
    NavOk f.sparse rest (before ts A ((syms key).take l) 0).length := by
  induction rest generalizing l A C with
  | nil =>
    have hp : 0 < (kidItems ts ((syms key).take l)).length := List.length_pos_of_ne_nil (kidItems_ne_nil hx)
    have htop := before_top (A := A) (x := (syms key).take l) h.wf
    obtain ⟨c, c1, c2, c3, c4⟩ := kid_at (ts := ts) (A := A) (x := (syms key).take l) (a := 0)
      (b := (before ts A ((syms key).take l) 0).length) le_rfl 257 (by omega)
    have hmem := mem_sitems_kid hA c3
    have hip := ipos_eq h.wf hA c3
    have hil := ipos_lt hmem
    have := h.sitems_le
    have hnb := h.louds_len
    unfold NavOk
    rw [← c4, ← hip, hnb]
    omega
  | cons b rest ih =>
    have hlt : l < key.length := by
      have := congrArg List.length hrest
      simp at this; omega
    have hb : key.getD l 0 = b := by
      have := congrArg (fun r => r[0]?) hrest
      simp only [List.getElem?_cons_zero, List.getElem?_drop, Nat.add_zero] at this
      rw [List.getD, ← this]; rfl
    have hrest' : rest = key.drop (l + 1) := by
      have := congrArg List.tail hrest
      simpa using this
    obtain ⟨e1, e2⟩ := take_succ_w hlt
    rw [hb] at e1 e2
    obtain ⟨n, found, pos, en, ese, hfound, hnot⟩ := h.ssearch hs hA b
    intro sz pos' nn p2 h1 h2 h3 h4 h5
    cases hinjR en h1
    have he' := hinjR ese h2
    cases he'
    cases he : ex ts ((syms key).take l ++ [b.toNat + 1])
    · rcases hnot he with hc | ⟨-, rfl, g1, g6, g2, g3, g7, g4, g5⟩
      · cases hc
      · exfalso
        have hcl := h.sparse.chl
        change f.sparse.childBits.Rep ((sitems ts s).map (isInt ts)) at hcl
        have hll : ((sitems ts s).map (isInt ts)).length = (sitems ts s).length := List.length_map _
        have hb1 := hcl.base.len_bounds
        have hb2 := h.louds_words
        exact readBit_past hcl.base (by rw [hll]; exact g2) (by omega) h3
    · obtain ⟨-, rfl⟩ := hfound he
      have hmem := mem_sitems_kid hA he
      have hi := hinjR (h.schild hmem) h3
      cases hinjR (h.schildNum hmem hi) h4
      have hi' : isInt ts ((syms key).take (l + 1)) = true := by rw [← e1]; exact hi
      obtain ⟨A', C', hA', hn'⟩ := h.snode hi' (by simp; omega)
      rw [e1] at h5
      cases hinjR (h.sfirst hA' hn') h5
      exact ih (l + 1) (by omega) hrest' (by omega) hi' hA'

/-- A dense iterator that reached a leaf or a node below it does not ask for a search. -/
def Srched (it : DIter) : Prop := it.valid = true → it.searchComplete = true

theorem leftLoop_srched {d : LoudsDense} (m pos : Nat) {it it' : DIter} (e : DIter.leftLoop d m pos it = .ok it') : Srched it' := by
  induction m generalizing pos it with
  | zero =>
    unfold DIter.leftLoop at e
    cases hc : d.getChildNodeNum pos with
    | error x => rw [hc] at e; cases e
    | ok c => rw [hc] at e; cases e; exact fun _ => rfl
  | succ m ih =>
    unfold DIter.leftLoop at e
    cases h1 : d.getChildNodeNum pos with
    | error x => rw [h1] at e; cases e
    | ok nn =>
      rw [h1, ok_bind] at e
      cases h2 : d.prefixBits.readBit nn with
      | error x => rw [h2] at e; cases e
      | ok pk =>
        rw [h2, ok_bind] at e
        cases pk
        · simp only [Bool.false_eq_true, if_false] at e
          cases h3 : d.getNextPos (sub32 (mul32 nn kFanout) 1) with
          | error x => rw [h3] at e; cases e
          | ok p =>
            rw [h3, ok_bind] at e
            cases h4 : it.append p with
            | error x => rw [h4] at e; cases e
            | ok it2 =>
              rw [h4, ok_bind] at e
              cases h5 : d.childBitmaps.readBit p with
              | error x => rw [h5] at e; cases e
              | ok c =>
                rw [h5, ok_bind] at e
                cases c
                · cases e; exact fun _ => rfl
                · exact ih _ e
        · simp only [if_true] at e
          cases h3 : d.getNextPos (sub32 (mul32 nn kFanout) 1) with
          | error x => rw [h3] at e; cases e
          | ok p =>
            rw [h3, ok_bind] at e
            cases h4 : it.append p with
            | error x => rw [h4] at e; cases e
            | ok it2 => rw [h4, ok_bind] at e; cases e; exact fun _ => rfl

theorem leftMost_srched {d : LoudsDense} {it it' : DIter} (e : DIter.moveToLeftMostKey d it = .ok it') : Srched it' := by
  unfold DIter.moveToLeftMostKey at e
  cases h1 : assertR (decide (it.keyLen > 0)) with
  | error x => rw [h1] at e; cases e
  | ok u =>
    rw [h1, ok_bind] at e
    dsimp only at e
    cases h2 : rdP it.pos (sub32 it.keyLen 1) with
    | error x => rw [h2] at e; cases e
    | ok p =>
      rw [h2, ok_bind] at e
      cases h3 : d.childBitmaps.readBit p with
      | error x => rw [h3] at e; cases e
      | ok c =>
        rw [h3, ok_bind] at e
        cases c
        · cases e; exact fun _ => rfl
        · simp only [Bool.not_true, Bool.false_eq_true, if_false] at e
          generalize d.height - 1 - sub32 it.keyLen 1 = m at e
          exact leftLoop_srched m p e

theorem incLoop_srched {d : LoudsDense} {it it' : DIter} (k : Nat) (e : DIter.incLoop d it k = .ok it') : Srched it' := by
  induction k with
  | zero => cases e
  | succ k ih =>
    unfold DIter.incLoop at e
    cases h1 : rdP it.pos k with
    | error x => rw [h1] at e; cases e
    | ok p =>
      rw [h1, ok_bind] at e
      cases h2 : d.getNextPos p with
      | error x => rw [h2] at e; cases e
      | ok nx =>
        rw [h2, ok_bind] at e
        split at e
        · split at e
          · cases e; intro hc; cases hc
          · exact ih e
        · cases h3 : ({ it with keyLen := k + 1 } : DIter).set k nx with
          | error x => rw [h3] at e; cases e
          | ok it2 => rw [h3, ok_bind] at e; exact leftMost_srched e

theorem inc_srched {d : LoudsDense} {it it' : DIter} (e : DIter.inc d it = .ok it') : Srched it' := by
  unfold DIter.inc at e
  cases h1 : assertR (decide (it.keyLen > 0)) with
  | error x => rw [h1] at e; cases e
  | ok u =>
    rw [h1, ok_bind] at e
    split at e
    · exact leftMost_srched e
    · exact incLoop_srched _ e

/-- A dense search that is to go on in the sparse part hands over the node of the first `s` bytes. -/
theorem FRep.dseekOut (h : FRep cfg ts sw s f) (key : Key) (incl : Bool) (n l : Nat) (hn : l + n = s)
    (hl : l ≤ key.length) (hx : isInt ts ((syms key).take l) = true) {it it' : DIter} {fp : Bool}
    (e : f.dense.seekLoop key incl n l (num ts ((syms key).take l)) it = .ok (fp, it')) (hv : it'.valid = true)
    (hc : it'.searchComplete = false) :
    s ≤ key.length ∧ isInt ts ((syms key).take s) = true ∧ it'.sendOut = num ts ((syms key).take s) := by
  induction n generalizing l it with
  | zero =>
    have : l = s := by omega
    subst this
    cases e
    exact ⟨hl, hx, rfl⟩
  | succ n ih =>
    have hxl : ((syms key).take l).length = l := by simp; omega
    have hls : ((syms key).take l).length < s := by omega
    have hp0 := (h.dpos_lt hx hls (b := 0) (by omega)).1
    have hm : mul32 (num ts ((syms key).take l)) kFanout = 256 * num ts ((syms key).take l) := by
      unfold kFanout; rw [mul32_eq (by omega), Nat.mul_comm]
    rw [LoudsDense.seekLoop] at e
    dsimp only at e
    have bad : Srched it' → False := fun hs => by rw [hs hv] at hc; cases hc
    by_cases hge : l ≥ key.length
    · rw [if_pos hge] at e
      cases h1 : f.dense.getNextPos (sub32 (mul32 (num ts ((syms key).take l)) kFanout) 1) with
      | error x => rw [h1] at e; cases e
      | ok p =>
        rw [h1, ok_bind] at e
        cases h2 : it.append p with
        | error x => rw [h2] at e; cases e
        | ok it2 =>
          rw [h2, ok_bind] at e
          cases h3 : f.dense.prefixBits.readBit (num ts ((syms key).take l)) with
          | error x => rw [h3] at e; cases e
          | ok pk =>
            rw [h3, ok_bind] at e
            cases pk
            · simp only [Bool.false_eq_true, if_false] at e
              cases h4 : it2.moveToLeftMostKey f.dense with
              | error x => rw [h4] at e; cases e
              | ok it3 => rw [h4, ok_bind] at e; cases e; cases hc
            · cases e; cases hc
    · have hb : (key.getD l 0).toNat < 256 := UInt8.toNat_lt _
      obtain ⟨e1, e2⟩ := take_succ_w (show l < key.length by omega)
      rw [if_neg hge, hm, add32_eq (h.dpos_lt hx hls hb).1] at e
      cases h1 : it.append (256 * num ts ((syms key).take l) + (key.getD l 0).toNat) with
      | error x => rw [h1] at e; cases e
      | ok it2 =>
        rw [h1, ok_bind, h.dlabel hx hls hb, ok_bind] at e
        cases he : ex ts ((syms key).take l ++ [(key.getD l 0).toNat + 1])
        · rw [he] at e
          simp only [Bool.not_false, if_true] at e
          cases h2 : it2.inc f.dense with
          | error x => rw [h2] at e; cases e
          | ok it3 =>
            rw [h2, ok_bind] at e; cases e
            exact (bad (inc_srched h2)).elim
        · rw [he] at e
          simp only [Bool.not_true, Bool.false_eq_true, if_false] at e
          rw [h.dchild hx hls hb, ok_bind] at e
          cases hi : isInt ts ((syms key).take l ++ [(key.getD l 0).toNat + 1])
          · rw [hi] at e
            simp only [Bool.not_false, if_true] at e
            unfold LoudsDense.compareSuffixGreaterThan at e
            cases h2 : f.dense.getSuffixPos (256 * num ts ((syms key).take l) + (key.getD l 0).toNat) false with
            | error x => rw [h2] at e; cases e
            | ok sp =>
              rw [h2, ok_bind] at e
              cases h3 : f.dense.suffixes.compare sp key (l + 1) with
              | error x => rw [h3] at e; cases e
              | ok c =>
                rw [h3, ok_bind] at e
                split at e
                · cases h4 : it2.inc f.dense with
                  | error x => rw [h4] at e; cases e
                  | ok it3 =>
                    rw [h4, ok_bind] at e; cases e
                    exact (bad (inc_srched h4)).elim
                · cases e; cases hc
          · rw [hi] at e
            simp only [Bool.not_true, Bool.false_eq_true, if_false] at e
            rw [h.dchildNum hx hls hb hi, ok_bind, e1] at e
            rw [e1] at hi
            exact ih (l + 1) (by omega) (by omega) hi e
end

/-! ## Iterators of the filter -/

/-- Two iterators that agree on what matters. -/
def IRel (f : Filter) (a b : Iter) : Prop :=
  DRel f.dense.height a.dense b.dense ∧ SRel (f.sparse.height - f.sparse.startLevel) a.sparse b.sparse

namespace IRel
variable {f : Filter} {a b : Iter}

omit [Env] in
theorem isValid (h : IRel f a b) : a.isValid = b.isValid := by
  unfold Iter.isValid
  rw [← h.1.valid]
  cases hv : a.dense.valid
  · rfl
  · unfold DIter.isComplete
    rw [← h.1.sc hv, ← h.1.lc hv, ← h.1.rc hv, ← h.2.valid]

omit [Env] in
theorem complete (h : IRel f a b) (hv : a.dense.valid = true) : a.dense.isComplete = b.dense.isComplete := by
  unfold DIter.isComplete
  rw [← h.1.sc hv, ← h.1.lc hv, ← h.1.rc hv]

omit [Env] in
theorem dkey (h : IRel f a b) : a.dense.getKey = b.dense.getKey := by
  unfold DIter.getKey
  rw [← h.1.valid, ← h.1.atPrefix, ← h.1.keyLen]
  cases a.dense.valid
  · rfl
  · simp only [Bool.not_true, Bool.false_eq_true, if_false]
    split
    · exact take_mono h.1.key (by omega)
    · exact h.1.key

omit [Env] in
theorem skey (h : IRel f a b) : a.sparse.getKey = b.sparse.getKey := by
  unfold SIter.getKey
  rw [← h.2.valid, ← h.2.atTerm, ← h.2.keyLen]
  cases a.sparse.valid
  · rfl
  · simp only [Bool.not_true, Bool.false_eq_true, if_false]
    split
    · exact take_mono h.2.key (by omega)
    · exact h.2.key

theorem dcompare (h : IRel f a b) (hv : a.dense.valid = true) (key : Key) : a.dense.compare f.dense key = b.dense.compare f.dense key := by
  have hc := h.complete hv
  unfold DIter.compare
  dsimp only
  rw [← h.1.atPrefix, ← h.1.keyLen, ← h.dkey, ← hc]
  cases hcc : a.dense.isComplete
  · rfl
  · rw [h.1.rd (DRel.sub_lt (h.1.one hv hcc))]

theorem scompare (h : IRel f a b) (hv : a.sparse.valid = true) (key : Key) : a.sparse.compare f.sparse key = b.sparse.compare f.sparse key := by
  unfold SIter.compare
  dsimp only
  rw [← h.2.atTerm, ← h.2.keyLen, ← h.skey, h.2.rd (DRel.sub_lt (h.2.one hv))]

theorem compare (h : IRel f a b) (hv : a.isValid = true) (key : Key) : a.compare f key = b.compare f key := by
  unfold Iter.compare
  unfold Iter.isValid at hv
  simp only [Bool.and_eq_true, Bool.or_eq_true] at hv
  rw [← h.isValid, ← h.dcompare hv.1, ← h.complete hv.1]
  cases hc : a.dense.isComplete
  · rw [h.scompare (by rcases hv.2 with h1 | h1; · rw [hc] at h1; cases h1
                       · exact h1)]
  · simp only [Bool.true_or, if_true]

/-- Passing the node to the sparse part. -/
theorem pass (h : IRel f a b) (hv : a.dense.valid = true) (hc : a.dense.isComplete = false) :
    SRel.Q (f.sparse.height - f.sparse.startLevel) a.passToSparse.sparse b.passToSparse.sparse :=
  ⟨⟨h.2.valid, h.2.keyLen, h.2.atTerm, h.2.le, h.2.akl, h.2.bkl, h.2.apl, h.2.bpl, h.2.key, h.2.pos, h.2.one⟩, h.1.send hv hc⟩

omit [Env] in
theorem not_complete {d : DIter} (h : d.leftComplete = false) : d.isComplete = false := by
  unfold DIter.isComplete
  rw [h]; simp

theorem incrementDense (h : IRel f a b) : RRel (fun x y => x.1 = y.1 ∧ IRel f x.2 y.2) (a.incrementDense f) (b.incrementDense f) := by
  unfold Iter.incrementDense
  rw [← h.1.valid]
  cases hv : a.dense.valid
  · exact RRel.ok ⟨rfl, h⟩
  · simp only [Bool.not_true, Bool.false_eq_true, if_false]
    refine RRel.bind h.1.inc fun d d' _ _ hd => ?_
    rw [← hd.valid]
    cases hv' : d.valid
    · exact RRel.pure ⟨rfl, hd, h.2⟩
    · simp only [Bool.not_true, Bool.false_eq_true, if_false]
      rw [← hd.lc hv']
      cases hl : d.leftComplete
      · simp only [Bool.false_eq_true, if_false]
        have hp := pass (a := { a with dense := d }) (b := { b with dense := d' }) ⟨hd, h.2⟩ hv' (not_complete hl)
        exact RRel.bind (SRel.moveToLeftMostKey hp) fun s s' _ _ hs => RRel.pure ⟨rfl, hd, hs.1.1⟩
      · exact RRel.pure ⟨rfl, hd, h.2⟩

end IRel

/-- The sparse searches that follow a dense search stay inside the trie. -/
def NavAll (f : Filter) : Prop :=
  ∀ key incl it fp d pos, f.dense.moveToKeyGreaterThan key incl it = .ok (fp, d) → d.valid = true → d.searchComplete = false →
    f.sparse.getFirstLabelPos d.sendOut = .ok pos → NavOk f.sparse (key.drop f.sparse.startLevel) pos

theorem FRep.navAll {cfg : Config} {ts : List Str} {sw : Str → Word} {s : Nat} {f : Filter} (h : FRep cfg ts sw s f)
    (hs : Env.strict = false) : NavAll f := by
  intro key incl it fp d pos e hv hc hp
  have hroot : isInt ts [] = true := by
    have : [] ∈ nodes ts 0 := by rw [h.wf.nodes_zero]; simp
    exact (mem_nodes.1 this).2
  unfold LoudsDense.moveToKeyGreaterThan at e
  rw [h.dense.height] at e
  obtain ⟨h1, h2, h3⟩ := h.dseekOut key incl s 0 (by omega) (by omega) (by simpa using hroot)
    (by rw [List.take_zero, num_root h.wf]; exact e) hv hc
  obtain ⟨A, C, hA, hn⟩ := h.snode h2 (by simp; omega)
  rw [h3] at hp
  cases hinjR (h.sfirst hA hn) hp
  rw [h.sparse.start]
  exact h.navOk hs key _ s h1 rfl le_rfl h2 hA

namespace IRel
variable {f : Filter} {a b : Iter}

omit [Env] in
theorem clear (h : IRel f a b) : IRel f a.clear b.clear :=
  ⟨⟨rfl, rfl, rfl, Nat.zero_le _, h.1.akl, h.1.bkl, h.1.apl, h.1.bpl, by simp [Iter.clear, DIter.clear], by simp [Iter.clear, DIter.clear],
      fun hc => (by cases hc), fun hc => (by cases hc), fun hc => (by cases hc), fun hc => (by cases hc), fun hc => (by cases hc), fun hc => (by cases hc)⟩,
    ⟨rfl, rfl, rfl, Nat.zero_le _, h.2.akl, h.2.bkl, h.2.apl, h.2.bpl, by simp [Iter.clear, SIter.clear], by simp [Iter.clear, SIter.clear],
      fun hc => (by cases hc)⟩⟩

theorem rangeSeek (hnav : NavAll f) (h : IRel f a.clear b.clear) (key : Key) (incl : Bool) :
    RRel (IRel f) (f.rangeSeek a key incl) (f.rangeSeek b key incl) := by
  unfold Filter.rangeSeek
  dsimp only
  refine RRel.bind (h.1.seekLoop key incl _ 0 0) fun x y ex _ hxy => ?_
  obtain ⟨fp, d⟩ := x
  obtain ⟨fp', d'⟩ := y
  obtain ⟨-, hd⟩ := hxy
  dsimp only at hd ex ⊢
  have h' : IRel f { a.clear with dense := d } { b.clear with dense := d' } := ⟨hd, h.2⟩
  rw [← hd.valid]
  cases hv : d.valid
  · exact RRel.pure h'
  · simp only [Bool.not_true, Bool.false_eq_true, if_false]
    have hcm := h'.complete hv
    dsimp only at hcm
    rw [← hcm, ← hd.sc hv, ← hd.lc hv]
    cases hcc : d.isComplete
    · simp only [Bool.not_false, if_true]
      have hp := h'.pass hv hcc
      cases hsc : d.searchComplete
      · simp only [Bool.not_false, if_true]
        unfold LoudsSparse.moveToKeyGreaterThan
        simp only [bind_assoc]
        have hst : ({ b.clear with dense := d' } : Iter).passToSparse.sparse.startNode =
          ({ a.clear with dense := d } : Iter).passToSparse.sparse.startNode := hp.2.symm
        rw [hst]
        refine RRel.same _ fun pos hpos => ?_
        refine RRel.bind (SRel.seekLoop hp key incl _ _ _ (hnav key incl _ _ _ pos ex hv hsc hpos)) fun x y _ _ hxy => ?_
        obtain ⟨fp, s⟩ := x
        obtain ⟨fp', s'⟩ := y
        obtain ⟨-, hss⟩ := hxy
        dsimp only at hss ⊢
        rw [← hss.1.valid]
        have h2 : IRel f { ({ a.clear with dense := d } : Iter).passToSparse with sparse := s }
          { ({ b.clear with dense := d' } : Iter).passToSparse with sparse := s' } := ⟨hd, hss.1⟩
        cases s.valid
        · exact RRel.bind h2.incrementDense fun x y _ _ hxy => RRel.pure hxy.2
        · exact RRel.pure h2
      · simp only [Bool.not_true, Bool.false_eq_true, if_false]
        cases hlc : d.leftComplete
        · exact RRel.bind (SRel.moveToLeftMostKey hp) fun s s' _ _ hs => RRel.pure ⟨hd, hs.1.1⟩
        · exact RRel.pure h'
    · exact RRel.pure h'

theorem lookupRange (hnav : NavAll f) (h : IRel f a.clear b.clear) (l : Key) (li : Bool) (r : Key) (ri : Bool) :
    RRel (fun x y => x.1 = y.1 ∧ IRel f x.2 y.2) (f.lookupRange a l li r ri) (f.lookupRange b l li r ri) := by
  unfold Filter.lookupRange
  refine RRel.bind (rangeSeek hnav h l li) fun x y _ _ hxy => ?_
  rw [← hxy.isValid]
  cases hv : x.isValid
  · exact RRel.pure ⟨rfl, hxy⟩
  · simp only [Bool.not_true, Bool.false_eq_true, if_false]
    rw [← hxy.compare hv]
    refine RRel.same _ fun c _ => ?_
    split
    · exact RRel.pure ⟨rfl, hxy⟩
    · split
      · exact RRel.pure ⟨rfl, hxy⟩
      · exact RRel.pure ⟨rfl, hxy⟩

end IRel

/-- The arrays of an iterator have the sizes a fresh one has. -/
structure Sized (f : Filter) (it : Iter) : Prop where
  dkey : it.dense.key.length = f.dense.height
  dpos : it.dense.pos.length = f.dense.height
  skey : it.sparse.key.length = f.sparse.height - f.sparse.startLevel
  spos : it.sparse.pos.length = f.sparse.height - f.sparse.startLevel

omit [Env] in
theorem Sized.new (f : Filter) : Sized f (Iter.new f) := by
  constructor <;> simp [Iter.new, DIter.new, SIter.new]

omit [Env] in
theorem Sized.rel {f : Filter} {a b : Iter} (ha : Sized f a) (hb : Sized f b) : IRel f a.clear b.clear :=
  ⟨⟨rfl, rfl, rfl, Nat.zero_le _, ha.dkey, hb.dkey, ha.dpos, hb.dpos, by simp [Iter.clear, DIter.clear], by simp [Iter.clear, DIter.clear],
      fun hc => (by cases hc), fun hc => (by cases hc), fun hc => (by cases hc), fun hc => (by cases hc), fun hc => (by cases hc), fun hc => (by cases hc)⟩,
    ⟨rfl, rfl, rfl, Nat.zero_le _, ha.skey, hb.skey, ha.spos, hb.spos, by simp [Iter.clear, SIter.clear], by simp [Iter.clear, SIter.clear],
      fun hc => (by cases hc)⟩⟩

omit [Env] in
theorem IRel.sized {f : Filter} {a b : Iter} (h : IRel f a b) : Sized f a := ⟨h.1.akl, h.1.apl, h.2.akl, h.2.apl⟩

/-- A range query on any iterator answers as on a fresh one and leaves the arrays in size. -/
theorem NavAll.range {f : Filter} (hnav : NavAll f) {it : Iter} (h : Sized f it) (l : Key) (li : Bool) (r : Key) (ri : Bool) :
    RRel (fun x y => x.1 = y.1 ∧ Sized f x.2) (f.lookupRange it l li r ri) (f.lookupRange (Iter.new f) l li r ri) :=
  (IRel.lookupRange hnav (h.rel (Sized.new f)) l li r ri).mono fun _ _ hx => ⟨hx.1, hx.2.sized⟩

/-- So does a seek. -/
theorem NavAll.seek {f : Filter} (hnav : NavAll f) {key : Key} {incl : Bool} {it : Iter}
    (h : f.moveToKeyGreaterThan key incl = .ok it) : Sized f it := by
  have h1 : seekFrom f (Iter.new f).clear key incl = .ok it := h
  obtain ⟨it', e, h2, h3⟩ := rangeSeek_of_seek h1
  have h4 := IRel.rangeSeek hnav ((Sized.new f).rel (Sized.new f)) key incl
  rw [e] at h4
  have h5 : IRel f it' it' := h4
  have h6 := h5.sized
  exact ⟨h2 ▸ h6.dkey, h2 ▸ h6.dpos, h3 ▸ h6.skey, h3 ▸ h6.spos⟩

end Surf
