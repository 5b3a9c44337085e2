import Verif.Proof.TrimRep

/-!
# Label arrays that agree where there are labels

A filter read back from its serialized form has no padding behind its labels.  As long as a run reads no label behind the
byte that follows the last one, it does the same on both filters.
-/

set_option linter.unusedSectionVars false
set_option autoImplicit false

namespace Surf
open Trie

variable [Env]

/-- `l` has the same bytes as the labels of `t`, up to the one behind the last label. -/
structure Agree (n : Nat) (t : LoudsSparse) (l : LabelVector) : Prop where
  strict : Env.strict = false
  lab : ∀ i, i ≤ n → labAt l.labels i = labAt t.labels.labels i
  num : t.loudsBits.numBits = n
  n32 : n < M32
  bit0 : 0 < n → t.loudsBits.readBit 0 ≠ .ok false
  first : ∀ p c q, p < n → t.childBits.readBit p = .ok true → t.getChildNodeNum p = .ok c → t.getFirstLabelPos c = .ok q → q < n
  last : ∀ p c q, p < n → t.childBits.readBit p = .ok true → t.getChildNodeNum p = .ok c → t.getLastLabelPos c = .ok q → q < n

/-- The trie with other labels. -/
abbrev LoudsSparse.lab (t : LoudsSparse) (l : LabelVector) : LoudsSparse := { t with labels := l }

namespace Agree
variable {n : Nat} {t : LoudsSparse} {l : LabelVector}

theorem rd (h : Agree n t l) {i : Nat} (hi : i ≤ n) : rdB l.labels i = rdB t.labels.labels i := by
  rw [rdB_labAt h.strict, rdB_labAt h.strict, h.lab i hi]

theorem read (h : Agree n t l) {i : Nat} (hi : i ≤ n) : l.read i = t.labels.read i := h.rd hi

theorem linear (h : Agree n t l) (c : UInt8) (pos left i : Nat) (hl : pos + i + left ≤ n + 1) :
    LabelVector.linearSearchFrom l c pos left i = LabelVector.linearSearchFrom t.labels c pos left i := by
  induction left generalizing i with
  | zero => rfl
  | succ left ih =>
    rw [LabelVector.linearSearchFrom, LabelVector.linearSearchFrom, h.rd (by omega), ih (i + 1) (by omega)]

theorem linearGT (h : Agree n t l) (c : UInt8) (pos left i : Nat) (hl : pos + i + left ≤ n + 1) :
    LabelVector.linearGTFrom l c pos left i = LabelVector.linearGTFrom t.labels c pos left i := by
  induction left generalizing i with
  | zero => rfl
  | succ left ih =>
    rw [LabelVector.linearGTFrom, LabelVector.linearGTFrom, h.rd (by omega), ih (i + 1) (by omega)]

theorem bin (h : Agree n t l) (c : UInt8) (pos fuel a b : Nat) (hl : b ≤ n + 1) :
    LabelVector.binLoop l c pos fuel a b = LabelVector.binLoop t.labels c pos fuel a b := by
  induction fuel generalizing a b with
  | zero => rfl
  | succ fuel ih =>
    rw [LabelVector.binLoop, LabelVector.binLoop]
    split
    · dsimp only
      have hm : add32 a b ≤ a + b := Nat.mod_le _ _
      rw [h.rd (by omega), ih a (add32 a b / 2) (by omega), ih (add32 a b / 2 + 1) b hl]
    · rfl

theorem binGT (h : Agree n t l) (c : UInt8) (pos len fuel a b : Nat) (hl : b ≤ n + 1) :
    LabelVector.binGTLoop l c pos len fuel a b = LabelVector.binGTLoop t.labels c pos len fuel a b := by
  induction fuel generalizing a b with
  | zero => rfl
  | succ fuel ih =>
    rw [LabelVector.binGTLoop, LabelVector.binGTLoop]
    split
    · dsimp only
      have hm : add32 a b ≤ a + b := Nat.mod_le _ _
      rw [h.rd (by omega), ih a (add32 a b / 2) (by omega), ih (add32 a b / 2 + 1) b hl]
    · rfl

theorem window (h : Agree n t l) (p k : Nat) (hk : k ≤ 16) (hl : p + k ≤ n + 1) :
    ((List.range 16).map fun j => labAt l.labels (p + j)).take k =
      ((List.range 16).map fun j => labAt t.labels.labels (p + j)).take k := by
  apply List.ext_getElem?
  intro i
  rcases Nat.lt_or_ge i k with h1 | h1
  · rw [List.getElem?_take_of_lt h1, List.getElem?_take_of_lt h1]
    simp only [List.getElem?_map, List.getElem?_range (show i < 16 by omega), Option.map_some]
    rw [h.lab _ (by omega)]
  · rw [List.getElem?_take_eq_none h1, List.getElem?_take_eq_none h1]

theorem simd (h : Agree n t l) (c : UInt8) (pos fuel s left : Nat) (hl : pos + s + left ≤ n + 1) :
    LabelVector.simdLoop l c pos fuel s left = LabelVector.simdLoop t.labels c pos fuel s left := by
  induction fuel generalizing s left with
  | zero => rfl
  | succ fuel ih =>
    rw [LabelVector.simdLoop, LabelVector.simdLoop]
    rw [LabelVector.load16_ok h.strict, LabelVector.load16_ok h.strict]
    simp only [ok_bind]
    split
    · have := h.window (pos + s) 16 (Nat.le_refl _) (by omega)
      rw [List.take_of_length_le (by simp), List.take_of_length_le (by simp)] at this
      rw [this, ih (s + 16) (left - 16) (by omega)]
    · split
      · rw [h.window (pos + s) left (by omega) (by omega)]
      · rfl

theorem skip (h : Agree n t l) (pos len : Nat) (hl : pos + len ≤ n + 1) : l.skipTerm pos len = t.labels.skipTerm pos len := by
  unfold LabelVector.skipTerm
  split
  · rw [h.rd (by omega)]
  · rfl

theorem skip_le {lv : LabelVector} {pos len : Nat} {x : Nat × Nat} (e : lv.skipTerm pos len = .ok x) :
    x.1 + x.2 = pos + len := by
  unfold LabelVector.skipTerm at e
  split at e
  · cases hr : rdB lv.labels pos with
    | error x => rw [hr] at e; cases e
    | ok c =>
      rw [hr, ok_bind] at e
      split at e <;> cases e
      · dsimp only; omega
      · rfl
  · cases e; rfl

omit [Env] in
theorem bind_congr' {α β : Type} {x : R α} {f g : α → R β} (h : ∀ a, x = .ok a → f a = g a) : (x >>= f) = (x >>= g) := by
  cases x with
  | error e => rfl
  | ok a => exact h a rfl

theorem search (h : Agree n t l) (c : UInt8) (pos len : Nat) (hl : pos + len ≤ n + 1) :
    l.search c pos len = t.labels.search c pos len := by
  unfold LabelVector.search
  rw [h.skip pos len hl]
  refine bind_congr' fun x e => ?_
  have := skip_le e
  obtain ⟨pos, len⟩ := x
  dsimp only at this ⊢
  split
  · exact h.linear c pos len 0 (by omega)
  · split
    · exact h.bin c pos LabelVector.binFuel pos (pos + len) (by omega)
    · exact h.simd c pos (len + 1) 0 len (by omega)

theorem searchGT (h : Agree n t l) (c : UInt8) (pos len : Nat) (hl : pos + len ≤ n + 1) :
    l.searchGreaterThan c pos len = t.labels.searchGreaterThan c pos len := by
  unfold LabelVector.searchGreaterThan
  rw [h.skip pos len hl]
  refine bind_congr' fun x e => ?_
  have := skip_le e
  obtain ⟨pos, len⟩ := x
  dsimp only at this ⊢
  split
  · exact h.linearGT c pos len 0 (by omega)
  · exact h.binGT c pos len LabelVector.binFuel pos (pos + len) (by omega)

/-! ## Iterators -/

/-- The first `k` positions of the iterator are those of labels. -/
def InR (n k : Nat) (it : SIter) : Prop := k ≤ it.pos.length ∧ ∀ i p, i < k → it.pos[i]? = some p → p < n

/-- The same iterator, with all its positions in range. -/
def EqR (n : Nat) (a b : SIter) : Prop := a = b ∧ InR n a.keyLen a

omit [Env] in
theorem InR.mono {k k' : Nat} {it : SIter} (h : InR n k it) (hk : k' ≤ k) : InR n k' it :=
  ⟨le_trans hk h.1, fun i p hi => h.2 i p (by omega)⟩

omit [Env] in
theorem InR.congr {k : Nat} {a b : SIter} (h : InR n k a) (e : b.pos = a.pos) : InR n k b := by
  unfold InR; rw [e]; exact h

theorem InR.rd {k i p : Nat} {it : SIter} (h : InR n k it) (hi : i < k) (e : rdP it.pos i = .ok p) : p < n := by
  have h1 := h.1
  unfold rdP at e
  rw [List.getElem?_eq_getElem (by omega)] at e
  exact h.2 i p hi (by rw [List.getElem?_eq_getElem (by omega)]; cases e; rfl)

omit [Env] in
theorem InR.set {k j p : Nat} {it a : SIter} (h : InR n k it) (e : a.pos = it.pos.set j p) (hp : p < n) : InR n k a := by
  refine ⟨by rw [e]; simpa using h.1, fun i q hi hq => ?_⟩
  rw [e, List.getElem?_set] at hq
  split at hq
  · split at hq
    · cases hq; exact hp
    · cases hq
  · exact h.2 i q hi hq

theorem wr_inv {α : Type} {a a' : List α} {i : Nat} {x : α} (e : wr a i x = .ok a') : a' = a.set i x ∧ i < a.length := by
  unfold wr at e
  split at e
  · cases e; exact ⟨rfl, by assumption⟩
  · cases e

theorem appendL_inv {a a' : SIter} {c : UInt8} {p : Nat} (e : a.appendL c p = .ok a') :
    a'.keyLen = a.keyLen + 1 ∧ a'.pos = a.pos.set a.keyLen p ∧ a.keyLen < a.pos.length := by
  unfold SIter.appendL at e
  cases h1 : assertR (decide (a.keyLen < a.key.length)) with
  | error x => rw [h1] at e; cases e
  | ok u =>
    rw [h1, ok_bind] at e
    cases h2 : wr a.key a.keyLen c with
    | error x => rw [h2] at e; cases e
    | ok k =>
      rw [h2, ok_bind] at e
      cases h3 : wr a.pos a.keyLen p with
      | error x => rw [h3] at e; cases e
      | ok ps =>
        rw [h3, ok_bind] at e
        have := wr_inv h3
        cases e
        exact ⟨rfl, this.1, this.2⟩

omit [Env] in
theorem InR.push {it a : SIter} {p : Nat} (h : InR n it.keyLen it) (e : a.keyLen = it.keyLen + 1)
    (e2 : a.pos = it.pos.set it.keyLen p) (hl : it.keyLen < it.pos.length) (hp : p < n) : InR n a.keyLen a := by
  refine ⟨by rw [e, e2]; simp; omega, fun i q hi hq => ?_⟩
  rw [e2, List.getElem?_set] at hq
  split at hq
  · cases (by simpa [hl] using hq : p = q); exact hp
  · exact h.2 i q (by omega) hq

/-- Appending a label whose byte is known. -/
theorem appendL_rel {a : SIter} (h : InR n a.keyLen a) (c : UInt8) {p : Nat} (hp : p < n) :
    RRel (fun a b => a = b ∧ InR n a.keyLen a ∧ 1 ≤ a.keyLen) (a.appendL c p) (a.appendL c p) := by
  cases e : a.appendL c p with
  | error x => exact rfl
  | ok a' =>
    obtain ⟨h1, h2, h3⟩ := appendL_inv e
    exact ⟨rfl, h.push h1 h2 h3 hp, by omega⟩

theorem append_eq (h : Agree n t l) (a : SIter) {p : Nat} (hp : p ≤ n) : a.append (t.lab l) p = a.append t p := by
  unfold SIter.append
  dsimp only
  rw [h.read hp]

theorem append_inv {a a' : SIter} {p : Nat} (e : a.append t p = .ok a') :
    a'.keyLen = a.keyLen + 1 ∧ a'.pos = a.pos.set a.keyLen p ∧ a.keyLen < a.pos.length := by
  unfold SIter.append at e
  cases h1 : assertR (decide (a.keyLen < a.key.length)) with
  | error x => rw [h1] at e; cases e
  | ok u =>
    rw [h1, ok_bind] at e
    cases h0 : t.labels.read p with
    | error x => rw [h0] at e; cases e
    | ok c =>
      rw [h0, ok_bind] at e
      cases h2 : wr a.key a.keyLen c with
      | error x => rw [h2] at e; cases e
      | ok k =>
        rw [h2, ok_bind] at e
        cases h3 : wr a.pos a.keyLen p with
        | error x => rw [h3] at e; cases e
        | ok ps =>
          rw [h3, ok_bind] at e
          have := wr_inv h3
          cases e
          exact ⟨rfl, this.1, this.2⟩

theorem set_eq (h : Agree n t l) (a : SIter) (k : Nat) {p : Nat} (hp : p ≤ n) : a.set (t.lab l) k p = a.set t k p := by
  unfold SIter.set
  dsimp only
  rw [h.read hp]

theorem set_inv {a a' : SIter} {k p : Nat} (e : a.set t k p = .ok a') :
    a'.keyLen = a.keyLen ∧ a'.pos = a.pos.set k p := by
  unfold SIter.set at e
  cases h1 : assertR (decide (k < a.key.length)) with
  | error x => rw [h1] at e; cases e
  | ok u =>
    rw [h1, ok_bind] at e
    cases h0 : t.labels.read p with
    | error x => rw [h0] at e; cases e
    | ok c =>
      rw [h0, ok_bind] at e
      cases h2 : wr a.key k c with
      | error x => rw [h2] at e; cases e
      | ok q =>
        rw [h2, ok_bind] at e
        cases h3 : wr a.pos k p with
        | error x => rw [h3] at e; cases e
        | ok ps =>
          rw [h3, ok_bind] at e
          have := wr_inv h3
          cases e
          exact ⟨rfl, this.1⟩

theorem finishLeaf {a : SIter} (h : InR n a.keyLen a) (c : UInt8) (pos : Nat) :
    RRel (EqR n) (SIter.finishLeaf (t.lab l) a c pos) (SIter.finishLeaf t a c pos) := by
  unfold SIter.finishLeaf
  split
  · refine RRel.bind (RRel.refl (t.isEndofNode pos)) fun e e' _ _ he => ?_
    subst he
    exact RRel.pure ⟨rfl, h⟩
  · exact RRel.pure ⟨rfl, h⟩

theorem leftLoop (h : Agree n t l) (m pos : Nat) (hp : pos < n) (hc : t.childBits.readBit pos = .ok true) {a : SIter}
    (ha : InR n a.keyLen a) : RRel (EqR n) (SIter.leftLoop (t.lab l) m pos a) (SIter.leftLoop t m pos a) := by
  induction m generalizing pos a with
  | zero =>
    unfold SIter.leftLoop
    exact RRel.same _ fun _ _ => RRel.pure ⟨rfl, ha⟩
  | succ m ih =>
    unfold SIter.leftLoop
    refine RRel.bind (RRel.refl (t.getChildNodeNum pos)) fun c c' e1 _ hcc => ?_
    subst hcc
    refine RRel.bind (RRel.refl (t.getFirstLabelPos c)) fun q q' e2 _ hq => ?_
    subst hq
    have hlt := h.first pos c q hp hc e1 e2
    rw [h.read (by omega)]
    refine RRel.same _ fun lb _ => ?_
    refine RRel.bind (RRel.refl (t.childBits.readBit q)) fun b b' e3 _ hb => ?_
    subst hb
    refine RRel.bind (appendL_rel ha lb hlt) fun x y _ _ hxy => ?_
    obtain ⟨rfl, hx, -⟩ := hxy
    cases b
    · exact finishLeaf hx lb q
    · exact ih q hlt e3 hx

theorem rightLoop (h : Agree n t l) (m pos : Nat) (hp : pos < n) (hc : t.childBits.readBit pos = .ok true) {a : SIter}
    (ha : InR n a.keyLen a) : RRel (EqR n) (SIter.rightLoop (t.lab l) m pos a) (SIter.rightLoop t m pos a) := by
  induction m generalizing pos a with
  | zero =>
    unfold SIter.rightLoop
    exact RRel.same _ fun _ _ => RRel.pure ⟨rfl, ha⟩
  | succ m ih =>
    unfold SIter.rightLoop
    refine RRel.bind (RRel.refl (t.getChildNodeNum pos)) fun c c' e1 _ hcc => ?_
    subst hcc
    refine RRel.bind (RRel.refl (t.getLastLabelPos c)) fun q q' e2 _ hq => ?_
    subst hq
    have hlt := h.last pos c q hp hc e1 e2
    rw [h.read (by omega)]
    refine RRel.same _ fun lb _ => ?_
    refine RRel.bind (RRel.refl (t.childBits.readBit q)) fun b b' e3 _ hb => ?_
    subst hb
    refine RRel.bind (appendL_rel ha lb hlt) fun x y _ _ hxy => ?_
    obtain ⟨rfl, hx, -⟩ := hxy
    cases b
    · exact finishLeaf hx lb q
    · exact ih q hlt e3 hx

theorem moveToLeftMostKey (h : Agree n t l) {a : SIter} (ha : InR n a.keyLen a)
    (h0 : a.keyLen = 0 → ∀ q, t.getFirstLabelPos a.startNode = .ok q → q < n) :
    RRel (EqR n) (a.moveToLeftMostKey (t.lab l)) (a.moveToLeftMostKey t) := by
  have rest : ∀ {a : SIter}, InR n a.keyLen a → 1 ≤ a.keyLen → RRel (EqR n)
      (do let pos ← rdP a.pos (a.keyLen - 1)
          let label ← l.read pos
          let c ← t.childBits.readBit pos
          if !c then SIter.finishLeaf (t.lab l) a label pos else SIter.leftLoop (t.lab l) (t.height - (a.keyLen - 1)) pos a)
      (do let pos ← rdP a.pos (a.keyLen - 1)
          let label ← t.labels.read pos
          let c ← t.childBits.readBit pos
          if !c then SIter.finishLeaf t a label pos else SIter.leftLoop t (t.height - (a.keyLen - 1)) pos a) := by
    intro a ha h1
    refine RRel.same _ fun pos e => ?_
    have hp := ha.rd (by omega) e
    rw [h.read (by omega)]
    refine RRel.same _ fun lb _ => ?_
    refine RRel.same _ fun c hc => ?_
    cases c
    · exact finishLeaf ha lb pos
    · exact h.leftLoop _ pos hp hc ha
  unfold SIter.moveToLeftMostKey
  dsimp only
  by_cases hk : a.keyLen = 0
  · rw [if_pos hk, if_pos hk]
    refine RRel.bind (RRel.refl (t.getFirstLabelPos a.startNode)) fun q q' e2 _ hq => ?_
    subst hq
    have hlt := h0 hk q e2
    rw [h.read (by omega)]
    refine RRel.same _ fun lb _ => ?_
    refine RRel.bind (appendL_rel ha lb hlt) fun x y _ _ hxy => ?_
    obtain ⟨rfl, hx, h1⟩ := hxy
    exact rest hx h1
  · rw [if_neg hk, if_neg hk]
    exact rest ha (by omega)

theorem moveToRightMostKey (h : Agree n t l) {a : SIter} (ha : InR n a.keyLen a)
    (h0 : a.keyLen = 0 → ∀ q, t.getLastLabelPos a.startNode = .ok q → q < n) :
    RRel (EqR n) (a.moveToRightMostKey (t.lab l)) (a.moveToRightMostKey t) := by
  have rest : ∀ {a : SIter}, InR n a.keyLen a → 1 ≤ a.keyLen → RRel (EqR n)
      (do let pos ← rdP a.pos (a.keyLen - 1)
          let label ← l.read pos
          let c ← t.childBits.readBit pos
          if !c then SIter.finishLeaf (t.lab l) a label pos else SIter.rightLoop (t.lab l) (t.height - (a.keyLen - 1)) pos a)
      (do let pos ← rdP a.pos (a.keyLen - 1)
          let label ← t.labels.read pos
          let c ← t.childBits.readBit pos
          if !c then SIter.finishLeaf t a label pos else SIter.rightLoop t (t.height - (a.keyLen - 1)) pos a) := by
    intro a ha h1
    refine RRel.same _ fun pos e => ?_
    have hp := ha.rd (by omega) e
    rw [h.read (by omega)]
    refine RRel.same _ fun lb _ => ?_
    refine RRel.same _ fun c hc => ?_
    cases c
    · exact finishLeaf ha lb pos
    · exact h.rightLoop _ pos hp hc ha
  unfold SIter.moveToRightMostKey
  dsimp only
  by_cases hk : a.keyLen = 0
  · rw [if_pos hk, if_pos hk]
    refine RRel.bind (RRel.refl (t.getFirstLabelPos a.startNode)) fun _ _ _ _ _ => ?_
    refine RRel.bind (RRel.refl (t.getLastLabelPos a.startNode)) fun q q' e2 _ hq => ?_
    subst hq
    have hlt := h0 hk q e2
    rw [h.read (by omega)]
    refine RRel.same _ fun lb _ => ?_
    refine RRel.bind (appendL_rel ha lb hlt) fun x y _ _ hxy => ?_
    obtain ⟨rfl, hx, h1⟩ := hxy
    exact rest hx h1
  · rw [if_neg hk, if_neg hk]
    exact rest ha (by omega)

theorem incLoop (h : Agree n t l) {a : SIter} (k : Nat) (hk : k ≤ a.pos.length) (ha : InR n (k - 1) a) :
    RRel (EqR n) (SIter.incLoop (t.lab l) a k) (SIter.incLoop t a k) := by
  induction k with
  | zero => exact rfl
  | succ k ih =>
    unfold SIter.incLoop
    refine RRel.same _ fun pos _ => ?_
    dsimp only
    have rest : ∀ st : Bool, (st = false → add32 pos 1 < n) → RRel (EqR n)
        (if st = true then if k = 0 then pure { a with keyLen := 0, valid := false } else SIter.incLoop (t.lab l) a k
          else do
            let it ← SIter.set (t.lab l) { a with keyLen := k + 1 } k (add32 pos 1)
            SIter.moveToLeftMostKey (t.lab l) it)
        (if st = true then if k = 0 then pure { a with keyLen := 0, valid := false } else SIter.incLoop t a k
          else do
            let it ← SIter.set t { a with keyLen := k + 1 } k (add32 pos 1)
            SIter.moveToLeftMostKey t it) := by
      intro st hst
      cases st
      · have hlt := hst rfl
        simp only [Bool.false_eq_true, if_false]
        rw [h.set_eq _ _ (by omega)]
        refine RRel.same _ fun a' e => ?_
        obtain ⟨e1, e2⟩ := set_inv e
        refine h.moveToLeftMostKey (a := a') ?_ fun hc => by rw [e1] at hc; cases hc
        rw [e1]
        refine ⟨by rw [e2]; simpa using hk, fun i p hi hp => ?_⟩
        rw [e2, List.getElem?_set] at hp
        split at hp
        · split at hp
          · cases hp; exact hlt
          · cases hp
        · exact ha.2 i p (by change i < k + 1 at hi; omega) hp
      · simp only [if_true]
        split
        · exact RRel.pure ⟨rfl, by simp, fun i p hi => by cases hi⟩
        · exact ih (by omega) (ha.mono (by omega))
    split
    · exact rest true fun hc => by cases hc
    · rename_i hge
      rw [h.num] at hge
      exact RRel.same _ fun st _ => rest st fun _ => by omega

theorem inc (h : Agree n t l) {a : SIter} (hk : a.keyLen ≤ a.pos.length) (ha : InR n (a.keyLen - 1) a) :
    RRel (EqR n) (a.inc (t.lab l)) (a.inc t) := by
  unfold SIter.inc
  exact RRel.same _ fun _ _ => h.incLoop (a := { a with atTerm := false }) a.keyLen hk ha

theorem decLoop (h : Agree n t l) {a : SIter} (k : Nat) (ha : InR n k a) :
    RRel (EqR n) (SIter.decLoop (t.lab l) a k) (SIter.decLoop t a k) := by
  induction k with
  | zero => exact rfl
  | succ k ih =>
    unfold SIter.decLoop
    refine RRel.same _ fun pos e0 => ?_
    have hpn := ha.rd (by omega) e0
    dsimp only
    refine RRel.same _ fun st hst => ?_
    cases st
    · simp only [Bool.false_eq_true, if_false]
      by_cases h0 : pos = 0
      · rw [h0] at hst
        exact absurd hst (h.bit0 (by omega))
      · have hs : sub32 pos 1 = pos - 1 := by
          have := h.n32
          rw [sub32_eq (by omega) (by omega)]
        rw [hs, h.set_eq _ _ (by omega)]
        refine RRel.same _ fun a' e => ?_
        obtain ⟨e1, e2⟩ := set_inv e
        refine h.moveToRightMostKey (a := a') ?_ fun hc => by rw [e1] at hc; cases hc
        rw [e1]
        exact InR.set (it := a) ha e2 (by omega)
    · simp only [if_true]
      split
      · exact RRel.pure ⟨rfl, by simp, fun i p hi => by cases hi⟩
      · exact ih (ha.mono (by omega))

theorem dec (h : Agree n t l) {a : SIter} (ha : InR n a.keyLen a) : RRel (EqR n) (a.dec (t.lab l)) (a.dec t) := by
  unfold SIter.dec
  refine RRel.same _ fun _ _ => RRel.same _ fun pos _ => ?_
  split
  · exact RRel.pure ⟨rfl, ha⟩
  · exact h.decLoop (a := { a with atTerm := false }) a.keyLen ha

theorem linear_false {lv : LabelVector} {c : UInt8} {pos left i q : Nat}
    (e : LabelVector.linearSearchFrom lv c pos left i = .ok (false, q)) : q = pos := by
  induction left generalizing i with
  | zero => cases e; rfl
  | succ left ih =>
    rw [LabelVector.linearSearchFrom] at e
    cases h1 : rdB lv.labels (pos + i) with
    | error x => rw [h1] at e; cases e
    | ok b =>
      rw [h1, ok_bind] at e
      split at e
      · cases e
      · exact ih e

theorem bin_false {lv : LabelVector} {c : UInt8} {pos fuel a b q : Nat}
    (e : LabelVector.binLoop lv c pos fuel a b = .ok (false, q)) : q = pos := by
  induction fuel generalizing a b with
  | zero => cases e
  | succ fuel ih =>
    rw [LabelVector.binLoop] at e
    split at e
    · dsimp only at e
      cases h1 : rdB lv.labels (add32 a b / 2) with
      | error x => rw [h1] at e; cases e
      | ok x =>
        rw [h1, ok_bind] at e
        split at e
        · exact ih e
        · split at e
          · cases e
          · exact ih e
    · cases e; rfl

theorem simd_false {lv : LabelVector} {c : UInt8} {pos fuel s left q : Nat}
    (e : LabelVector.simdLoop lv c pos fuel s left = .ok (false, q)) : q = pos := by
  induction fuel generalizing s left with
  | zero => cases e
  | succ fuel ih =>
    rw [LabelVector.simdLoop] at e
    split at e
    · cases h1 : lv.load16 (pos + s) with
      | error x => rw [h1] at e; cases e
      | ok x =>
        rw [h1, ok_bind] at e
        split at e
        · cases e
        · exact ih e
    · split at e
      · cases h1 : lv.load16 (pos + s) with
        | error x => rw [h1] at e; cases e
        | ok x =>
          rw [h1, ok_bind] at e
          dsimp only at e
          split at e
          · cases e
          · cases e; rfl
      · cases e; rfl

/-- Where a failed search leaves the position. -/
theorem search_false {lv : LabelVector} {c : UInt8} {pos len q : Nat} (e : lv.search c pos len = .ok (false, q)) :
    q = pos ∨ (q = pos + 1 ∧ 1 < len ∧ lv.read pos = .ok kTerminator) := by
  unfold LabelVector.search at e
  cases h1 : lv.skipTerm pos len with
  | error x => rw [h1] at e; cases e
  | ok x =>
    rw [h1, ok_bind] at e
    obtain ⟨p, k⟩ := x
    dsimp only at e
    have hq : q = p := by
      split at e
      · exact linear_false e
      · split at e
        · exact bin_false e
        · exact simd_false e
    subst hq
    unfold LabelVector.skipTerm at h1
    split at h1
    · cases h2 : rdB lv.labels pos with
      | error x => rw [h2] at h1; cases h1
      | ok b =>
        rw [h2, ok_bind] at h1
        split at h1
        · rename_i hb
          cases h1
          exact Or.inr ⟨rfl, by omega, by rw [LabelVector.read, h2, hb]⟩
        · cases h1; exact Or.inl rfl
    · cases h1; exact Or.inl rfl

theorem linearGT_le {lv : LabelVector} {c : UInt8} {pos left i : Nat} {x : Bool × Nat}
    (e : LabelVector.linearGTFrom lv c pos left i = .ok x) : (x.1 = true → x.2 < pos + i + left) ∧ (x.1 = false → x.2 = pos) := by
  induction left generalizing i with
  | zero => cases e; exact ⟨fun hc => (by cases hc), fun _ => rfl⟩
  | succ left ih =>
    rw [LabelVector.linearGTFrom] at e
    cases h1 : rdB lv.labels (pos + i) with
    | error x => rw [h1] at e; cases e
    | ok b =>
      rw [h1, ok_bind] at e
      split at e
      · cases e; exact ⟨fun _ => (by dsimp only; omega), fun hc => (by cases hc)⟩
      · have := ih e
        exact ⟨fun hc => by have := this.1 hc; omega, this.2⟩

theorem binGT_le {lv : LabelVector} {c : UInt8} {pos len fuel a b : Nat} {x : Bool × Nat}
    (e : LabelVector.binGTLoop lv c pos len fuel a b = .ok x) : (x.1 = true → x.2 < pos + len) ∧ (x.1 = false → x.2 = pos) := by
  induction fuel generalizing a b with
  | zero => cases e
  | succ fuel ih =>
    rw [LabelVector.binGTLoop] at e
    split at e
    · dsimp only at e
      cases h1 : rdB lv.labels (add32 a b / 2) with
      | error x => rw [h1] at e; cases e
      | ok x =>
        rw [h1, ok_bind] at e
        split at e
        · exact ih e
        · split at e
          · split at e
            · cases e; exact ⟨fun _ => (by dsimp only; omega), fun hc => (by cases hc)⟩
            · cases e; exact ⟨fun hc => (by cases hc), fun _ => rfl⟩
          · exact ih e
    · split at e
      · cases e; exact ⟨fun _ => (by assumption), fun hc => (by cases hc)⟩
      · cases e; exact ⟨fun hc => (by cases hc), fun _ => rfl⟩

theorem searchGT_le {lv : LabelVector} {c : UInt8} {pos len : Nat} {x : Bool × Nat}
    (e : lv.searchGreaterThan c pos len = .ok x) : (x.1 = true → x.2 < pos + len) ∧ (x.1 = false → x.2 ≤ pos + 1) := by
  unfold LabelVector.searchGreaterThan at e
  cases h1 : lv.skipTerm pos len with
  | error x => rw [h1] at e; cases e
  | ok y =>
    rw [h1, ok_bind] at e
    have h2 := skip_le h1
    have h3 : y.1 ≤ pos + 1 := by
      unfold LabelVector.skipTerm at h1
      split at h1
      · cases h2 : rdB lv.labels pos with
        | error x => rw [h2] at h1; cases h1
        | ok b =>
          rw [h2, ok_bind] at h1
          split at h1 <;> cases h1 <;> dsimp only <;> omega
      · cases h1; dsimp only; omega
    obtain ⟨p, k⟩ := y
    dsimp only at e h2 h3
    have : (x.1 = true → x.2 < p + k) ∧ (x.1 = false → x.2 = p) := by
      split at e
      · have := linearGT_le e
        exact ⟨fun hc => by have := this.1 hc; omega, this.2⟩
      · exact binGT_le e
    exact ⟨fun hc => by have := this.1 hc; omega, fun hc => by have := this.2 hc; omega⟩

theorem nextSubtrie (h : Agree n t l) {a : SIter} (ha : InR n a.keyLen a) (pos sz : Nat) (c : UInt8) (hl : pos + sz ≤ n) :
    RRel (EqR n) ((t.lab l).moveToLeftInNextSubtrie pos sz c a) (t.moveToLeftInNextSubtrie pos sz c a) := by
  unfold LoudsSparse.moveToLeftInNextSubtrie
  dsimp only
  rw [h.searchGT c pos sz (by omega)]
  refine RRel.same _ fun x e => ?_
  have hx := searchGT_le e
  obtain ⟨found, q⟩ := x
  dsimp only at hx ⊢
  cases found
  · have hq := hx.2 rfl
    simp only [Bool.not_false, if_true]
    rw [h.append_eq a (by omega)]
    refine RRel.same _ fun a' e => ?_
    obtain ⟨e1, e2, e3⟩ := append_inv e
    refine h.inc (by rw [e1, e2]; simp; omega) ?_
    rw [e1, Nat.add_sub_cancel]
    refine ⟨by rw [e2]; simpa using ha.1, fun i p hi hp => ?_⟩
    rw [e2, List.getElem?_set_ne (by omega)] at hp
    exact ha.2 i p hi hp
  · have hq := hx.1 rfl
    simp only [Bool.not_true, Bool.false_eq_true, if_false]
    rw [h.append_eq a (by omega)]
    refine RRel.same _ fun a' e => ?_
    obtain ⟨e1, e2, e3⟩ := append_inv e
    exact h.moveToLeftMostKey (ha.push e1 e2 e3 (by omega)) fun hc => by omega

theorem compareSuffix (h : Agree n t l) {a : SIter} (ha : InR n a.keyLen a) (pos : Nat) (key : Key) (level : Nat) (incl : Bool) :
    RRel (fun x y => x = y ∧ InR n x.2.keyLen x.2) ((t.lab l).compareSuffixGreaterThan pos key level incl a)
      (t.compareSuffixGreaterThan pos key level incl a) := by
  unfold LoudsSparse.compareSuffixGreaterThan
  refine RRel.bind (RRel.refl (t.getSuffixPos pos)) fun sp sp' _ _ hsp => ?_
  subst hsp
  refine RRel.same _ fun c _ => ?_
  split
  · refine RRel.bind (h.inc ha.1 (ha.mono (by omega))) fun x y _ _ hxy => ?_
    obtain ⟨rfl, hx⟩ := hxy
    exact RRel.pure ⟨rfl, hx⟩
  · exact RRel.pure ⟨rfl, ha⟩

/-- What a sparse search must meet on its way: the node sizes are exact where the byte is missing, and where it is found
both label arrays have it in the same place.  A seek (`T`) needs more: a node that starts with a terminator is not the last
one, because the search goes on with its full size behind the terminator. -/
def Way (T : Prop) (n : Nat) (t : LoudsSparse) (l : LabelVector) : Key → Nat → Prop
  | [], pos => pos < n
  | c :: rest, pos => ∀ sz, t.nodeSize pos = .ok sz →
      (pos + sz + 1 ≤ n ∨ (pos + sz ≤ n ∧ (T → t.labels.read pos ≠ .ok kTerminator)) ∨
        ∃ p, t.labels.search c pos sz = .ok (true, p) ∧ l.search c pos sz = .ok (true, p)) ∧
      ∀ p, t.labels.search c pos sz = .ok (true, p) → p < n ∧
        ∀ nn p2, t.childBits.readBit p = .ok true → t.getChildNodeNum p = .ok nn → t.getFirstLabelPos nn = .ok p2 → Way T n t l rest p2

theorem bind_congr2 {α β : Type} {x y : R α} {f g : α → R β} (hx : x = y) (h : ∀ a, y = .ok a → f a = g a) :
    (x >>= f) = (y >>= g) := by
  subst hx
  exact bind_congr' h

theorem lookupLoop (h : Agree n t l) {T : Prop} (key rest : Key) (level pos : Nat) (hw : Way T n t l rest pos) :
    (t.lab l).lookupLoop key rest level pos = t.lookupLoop key rest level pos := by
  induction rest generalizing level pos with
  | nil =>
    have hp : pos < n := hw
    unfold LoudsSparse.lookupLoop
    dsimp only
    rw [h.read (by omega)]
    rfl
  | cons c rest ih =>
    unfold LoudsSparse.lookupLoop
    refine bind_congr2 (x := (t.lab l).nodeSize pos) (y := t.nodeSize pos) rfl fun sz esz => ?_
    obtain ⟨hw1, hw2⟩ := hw sz esz
    have hse : l.search c pos sz = t.labels.search c pos sz := by
      rcases hw1 with h1 | h1 | ⟨p, h1, h2⟩
      · exact h.search c pos sz (by omega)
      · exact h.search c pos sz (by omega)
      · rw [h1, h2]
    refine bind_congr2 hse fun x e => ?_
    obtain ⟨found, q⟩ := x
    cases found
    · rfl
    · simp only [Bool.not_true, Bool.false_eq_true, if_false]
      refine bind_congr2 rfl fun ch hch => ?_
      cases ch
      · rfl
      · simp only [Bool.not_true, Bool.false_eq_true, if_false]
        refine bind_congr2 rfl fun nn e1 => ?_
        refine bind_congr2 rfl fun p2 e2 => ?_
        exact ih (level + 1) p2 ((hw2 q e).2 nn p2 hch e1 e2)

theorem seekLoop (h : Agree n t l) (key : Key) (incl : Bool) (rest : Key) (level pos : Nat) (hw : Way True n t l rest pos) {a : SIter}
    (ha : InR n a.keyLen a) (h0 : a.keyLen = 0 → ∀ q, t.getFirstLabelPos a.startNode = .ok q → q < n) :
    RRel (fun x y => x = y ∧ InR n x.2.keyLen x.2) ((t.lab l).seekLoop key incl rest level pos a)
      (t.seekLoop key incl rest level pos a) := by
  induction rest generalizing level pos a with
  | nil =>
    have hp : pos < n := hw
    unfold LoudsSparse.seekLoop
    dsimp only
    rw [h.read (by omega)]
    refine RRel.same _ fun lb _ => ?_
    have hF : RRel (fun x y => x = y ∧ InR n x.2.keyLen x.2)
        (do let it ← a.moveToLeftMostKey (t.lab l); return (false, it) : R (Bool × SIter))
        (do let it ← a.moveToLeftMostKey t; return (false, it)) := by
      refine RRel.bind (h.moveToLeftMostKey ha h0) fun x y _ _ hxy => ?_
      obtain ⟨rfl, hx⟩ := hxy
      exact RRel.pure ⟨rfl, hx⟩
    have hT : RRel (fun x y => x = y ∧ InR n x.2.keyLen x.2)
        (do let it ← a.appendL kTerminator pos
            let it := { it with atTerm := true }
            let it ← if !incl then it.inc (t.lab l) else pure it
            return (false, { it with valid := true }) : R (Bool × SIter))
        (do let it ← a.appendL kTerminator pos
            let it := { it with atTerm := true }
            let it ← if !incl then it.inc t else pure it
            return (false, { it with valid := true })) := by
      refine RRel.bind (appendL_rel ha kTerminator hp) fun x y _ _ hxy => ?_
      obtain ⟨rfl, hx, -⟩ := hxy
      dsimp only
      cases incl
      · simp only [Bool.not_false, if_true]
        refine RRel.bind (h.inc (a := { x with atTerm := true }) hx.1 (hx.mono (k' := x.keyLen - 1) (by omega))) fun x' y' _ _ hxy => ?_
        obtain ⟨rfl, hx'⟩ := hxy
        exact RRel.pure ⟨rfl, hx'⟩
      · exact RRel.pure ⟨rfl, hx⟩
    split
    · refine RRel.same _ fun c _ => ?_
      cases c
      · simp only [Bool.not_false, if_true]
        refine RRel.bind (RRel.refl (t.isEndofNode pos)) fun e e' _ _ he => ?_
        subst he
        cases e
        · exact hT
        · exact hF
      · exact hF
    · exact hF
  | cons c rest ih =>
    unfold LoudsSparse.seekLoop
    dsimp only
    refine RRel.bind (RRel.refl (t.nodeSize pos)) fun sz sz' esz _ hsz => ?_
    subst hsz
    obtain ⟨hw1, hw2⟩ := hw sz esz
    have hse : l.search c pos sz = t.labels.search c pos sz := by
      rcases hw1 with h1 | h1 | ⟨p, h1, h2⟩
      · exact h.search c pos sz (by omega)
      · exact h.search c pos sz (by omega)
      · rw [h1, h2]
    rw [hse]
    refine RRel.same _ fun x e => ?_
    obtain ⟨found, q⟩ := x
    dsimp only
    cases found
    · simp only [Bool.not_false, if_true]
      have hq : q + sz ≤ n := by
        rcases hw1 with h1 | h1 | ⟨p, h1, h2⟩
        · rcases search_false e with h2 | ⟨h2, -⟩ <;> omega
        · rcases search_false e with h2 | ⟨-, -, h2⟩
          · omega
          · exact absurd h2 (h1.2 trivial)
        · rw [h1] at e; cases e
      refine RRel.bind (h.nextSubtrie ha q sz c hq) fun x y _ _ hxy => ?_
      obtain ⟨rfl, hx⟩ := hxy
      exact RRel.pure ⟨rfl, hx⟩
    · obtain ⟨hlt, hnx⟩ := hw2 q e
      simp only [Bool.not_true, Bool.false_eq_true, if_false]
      refine RRel.bind (appendL_rel ha c hlt) fun x y _ _ hxy => ?_
      obtain ⟨rfl, hx, hx1⟩ := hxy
      refine RRel.same _ fun ch hch => ?_
      cases ch
      · exact h.compareSuffix hx q key (level + 1) incl
      · simp only [Bool.not_true, Bool.false_eq_true, if_false]
        refine RRel.bind (RRel.refl (t.getChildNodeNum q)) fun nn nn' e1 _ hn => ?_
        subst hn
        refine RRel.bind (RRel.refl (t.getFirstLabelPos nn)) fun p2 p2' e2 _ hp2 => ?_
        subst hp2
        exact ih (level + 1) p2 (hnx nn p2 hch e1 e2) hx (fun hc => by omega)

end Agree

end Surf
