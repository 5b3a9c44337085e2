import Verif.Proof.Concat
import Verif.Model.Labels

/-! # label_vector.hpp: the searches -/

set_option linter.unusedSectionVars false

namespace Surf
variable [Env]

/-- The byte a read of `a[i]` delivers in a lenient environment. -/
def labAt (a : List UInt8) (i : Nat) : UInt8 :=
  match a[i]? with
  | some b => b
  | none => Env.junkB a i

theorem rdB_labAt (hs : Env.strict = false) (a : List UInt8) (i : Nat) : rdB a i = .ok (labAt a i) := by
  unfold rdB labAt
  cases a[i]? <;> simp [hs]

theorem labAt_lt {a : List UInt8} {i : Nat} (h : i < a.length) : labAt a i = a.getD i 0 := by
  simp [labAt, List.getD, h]

/-- What a search for `target` in `[pos, pos + len)` must deliver: the first match, or `false` with
`pos` unchanged. -/
def SearchSpec (lab : Nat → UInt8) (target : UInt8) (pos len : Nat) (res : Bool × Nat) : Prop :=
  (∃ i, i < len ∧ lab (pos + i) = target ∧ (∀ j, j < i → lab (pos + j) ≠ target) ∧ res = (true, pos + i)) ∨
  ((∀ i, i < len → lab (pos + i) ≠ target) ∧ res = (false, pos))

/-- The same for "first label greater than `target`". -/
def SearchGTSpec (lab : Nat → UInt8) (target : UInt8) (pos len : Nat) (res : Bool × Nat) : Prop :=
  (∃ i, i < len ∧ target < lab (pos + i) ∧ (∀ j, j < i → lab (pos + j) ≤ target) ∧ res = (true, pos + i)) ∨
  ((∀ i, i < len → lab (pos + i) ≤ target) ∧ res = (false, pos))

def SortedOn (lab : Nat → UInt8) (pos len : Nat) : Prop :=
  ∀ i j, i < j → j < len → lab (pos + i) < lab (pos + j)

namespace LabelVector

theorem linearFrom_ok (hs : Env.strict = false) (lv : LabelVector) (t : UInt8) (pos left i : Nat)
    (hb : ∀ j, j < i → labAt lv.labels (pos + j) ≠ t) :
    ∃ res, linearSearchFrom lv t pos left i = .ok res ∧ SearchSpec (labAt lv.labels) t pos (i + left) res := by
  induction left generalizing i with
  | zero => exact ⟨_, rfl, Or.inr ⟨by simpa using hb, rfl⟩⟩
  | succ left ih =>
    rw [linearSearchFrom, rdB_labAt hs, ok_bind]
    by_cases h : t = labAt lv.labels (pos + i)
    · rw [if_pos h]
      exact ⟨_, rfl, Or.inl ⟨i, by omega, h.symm, hb, rfl⟩⟩
    · rw [if_neg h]
      obtain ⟨res, h1, h2⟩ := ih (i + 1) (by
        intro j hj
        by_cases hji : j = i
        · subst hji; exact Ne.symm h
        · exact hb j (by omega))
      exact ⟨res, h1, by rwa [show i + (left + 1) = i + 1 + left by omega]⟩

theorem linearSearch_ok (hs : Env.strict = false) (lv : LabelVector) (t : UInt8) (pos len : Nat) :
    ∃ res, lv.linearSearch t pos len = .ok res ∧ SearchSpec (labAt lv.labels) t pos len res := by
  have := linearFrom_ok hs lv t pos len 0 (by intro j hj; omega)
  simp only [Nat.zero_add, Nat.add_zero] at this; exact this

theorem linearGTFrom_ok (hs : Env.strict = false) (lv : LabelVector) (t : UInt8) (pos left i : Nat)
    (hb : ∀ j, j < i → labAt lv.labels (pos + j) ≤ t) :
    ∃ res, linearGTFrom lv t pos left i = .ok res ∧ SearchGTSpec (labAt lv.labels) t pos (i + left) res := by
  induction left generalizing i with
  | zero => exact ⟨_, rfl, Or.inr ⟨by simpa using hb, rfl⟩⟩
  | succ left ih =>
    rw [linearGTFrom, rdB_labAt hs, ok_bind]
    by_cases h : labAt lv.labels (pos + i) > t
    · rw [if_pos h]
      exact ⟨_, rfl, Or.inl ⟨i, by omega, h, hb, rfl⟩⟩
    · rw [if_neg h]
      obtain ⟨res, h1, h2⟩ := ih (i + 1) (by
        intro j hj
        by_cases hji : j = i
        · subst hji; exact UInt8.not_lt.mp h
        · exact hb j (by omega))
      exact ⟨res, h1, by rwa [show i + (left + 1) = i + 1 + left by omega]⟩

theorem linearGT_ok (hs : Env.strict = false) (lv : LabelVector) (t : UInt8) (pos len : Nat) :
    ∃ res, lv.linearSearchGreaterThan t pos len = .ok res ∧ SearchGTSpec (labAt lv.labels) t pos len res := by
  have := linearGTFrom_ok hs lv t pos len 0 (by intro j hj; omega)
  simp only [Nat.zero_add, Nat.add_zero] at this; exact this

omit [Env] in
theorem binFuel_eq : binFuel = 18446744073709551616 + 1 := rfl

theorem binLoop_ok (hs : Env.strict = false) (lv : LabelVector) (t : UInt8) (pos len : Nat)
    (hsort : SortedOn (labAt lv.labels) pos len) (hhalf : pos + len ≤ 2147483648) (fuel a b : Nat) (hab : a ≤ b) (hb : b ≤ len)
    (hf : b - a < fuel)
    (hlo : ∀ j, j < a → labAt lv.labels (pos + j) < t) (hhi : ∀ j, b ≤ j → j < len → t < labAt lv.labels (pos + j)) :
    ∃ res, binLoop lv t pos fuel (pos + a) (pos + b) = .ok res ∧ SearchSpec (labAt lv.labels) t pos len res := by
  induction fuel generalizing a b with
  | zero => omega
  | succ fuel ih =>
    rw [binLoop]
    by_cases hlt : a < b
    · rw [if_pos (by omega)]
      obtain ⟨m, hm, hma, hmb⟩ : ∃ m, (pos + a + (pos + b)) / 2 = pos + m ∧ a ≤ m ∧ m < b :=
        ⟨(pos + a + (pos + b)) / 2 - pos, by omega, by omega, by omega⟩
      dsimp only
      rw [add32, M32_eq, Nat.mod_eq_of_lt (by omega : pos + a + (pos + b) < 4294967296), hm, rdB_labAt hs, ok_bind]
      by_cases h1 : t < labAt lv.labels (pos + m)
      · rw [if_pos h1]
        refine ih a m hma (by omega) (by omega) hlo ?_
        intro j hj hjl
        by_cases hjm : j = m
        · subst hjm; exact h1
        · exact UInt8.lt_trans h1 (hsort m j (by omega) hjl)
      · rw [if_neg h1]
        by_cases h2 : t = labAt lv.labels (pos + m)
        · rw [if_pos h2]
          refine ⟨_, rfl, Or.inl ⟨m, by omega, h2.symm, ?_, rfl⟩⟩
          intro j hj he
          have := hsort j m hj (by omega)
          rw [he, ← h2] at this
          exact UInt8.lt_irrefl _ this
        · rw [if_neg h2, show pos + m + 1 = pos + (m + 1) by omega]
          have h3 : labAt lv.labels (pos + m) < t := UInt8.lt_of_le_of_ne (UInt8.not_lt.mp h1) (Ne.symm h2)
          refine ih (m + 1) b (by omega) hb (by omega) ?_ hhi
          intro j hj
          by_cases hjm : j = m
          · subst hjm; exact h3
          · exact UInt8.lt_trans (hsort j m (by omega) (by omega)) h3
    · rw [if_neg (by omega)]
      refine ⟨_, rfl, Or.inr ⟨?_, rfl⟩⟩
      intro i hi he
      by_cases hia : i < a
      · have := hlo i hia; rw [he] at this; exact UInt8.lt_irrefl _ this
      · have := hhi i (by omega) hi; rw [he] at this; exact UInt8.lt_irrefl _ this

theorem binarySearch_ok (hs : Env.strict = false) (lv : LabelVector) (t : UInt8) (pos len : Nat)
    (hsort : SortedOn (labAt lv.labels) pos len) (hhalf : pos + len ≤ 2147483648) :
    ∃ res, lv.binarySearch t pos len = .ok res ∧ SearchSpec (labAt lv.labels) t pos len res := by
  have := binLoop_ok hs lv t pos len hsort hhalf binFuel 0 len (by omega) (by omega) (by unfold binFuel; omega)
    (by intro j hj; omega) (by intro j h1 h2; omega)
  simp only [Nat.zero_add, Nat.add_zero] at this; exact this

theorem binGTLoop_ok (hs : Env.strict = false) (lv : LabelVector) (t : UInt8) (pos len : Nat)
    (hsort : SortedOn (labAt lv.labels) pos len) (hhalf : pos + len ≤ 2147483648) (fuel a b : Nat) (hab : a ≤ b) (hb : b ≤ len)
    (hf : b - a < fuel)
    (hlo : ∀ j, j < a → labAt lv.labels (pos + j) < t) (hhi : ∀ j, b ≤ j → j < len → t < labAt lv.labels (pos + j)) :
    ∃ res, binGTLoop lv t pos len fuel (pos + a) (pos + b) = .ok res ∧ SearchGTSpec (labAt lv.labels) t pos len res := by
  induction fuel generalizing a b with
  | zero => omega
  | succ fuel ih =>
    rw [binGTLoop]
    by_cases hlt : a < b
    · rw [if_pos (by omega)]
      obtain ⟨m, hm, hma, hmb⟩ : ∃ m, (pos + a + (pos + b)) / 2 = pos + m ∧ a ≤ m ∧ m < b :=
        ⟨(pos + a + (pos + b)) / 2 - pos, by omega, by omega, by omega⟩
      dsimp only
      rw [add32, M32_eq, Nat.mod_eq_of_lt (by omega : pos + a + (pos + b) < 4294967296), hm, rdB_labAt hs, ok_bind]
      by_cases h1 : t < labAt lv.labels (pos + m)
      · rw [if_pos h1]
        refine ih a m hma (by omega) (by omega) hlo ?_
        intro j hj hjl
        by_cases hjm : j = m
        · subst hjm; exact h1
        · exact UInt8.lt_trans h1 (hsort m j (by omega) hjl)
      · rw [if_neg h1]
        by_cases h2 : t = labAt lv.labels (pos + m)
        · rw [if_pos h2]
          have hle : ∀ j, j < m + 1 → labAt lv.labels (pos + j) ≤ t := by
            intro j hj
            by_cases hjm : j = m
            · subst hjm; rw [h2]; exact UInt8.le_refl _
            · have := hsort j m (by omega) (by omega)
              rw [← h2] at this; exact UInt8.le_of_lt this
          by_cases h3 : pos + m < pos + len - 1
          · rw [if_pos h3]
            refine ⟨_, rfl, Or.inl ⟨m + 1, by omega, ?_, hle, by rw [Nat.add_assoc]⟩⟩
            rw [h2]; exact hsort m (m + 1) (by omega) (by omega)
          · rw [if_neg h3]
            refine ⟨_, rfl, Or.inr ⟨?_, rfl⟩⟩
            intro i hi; exact hle i (by omega)
        · rw [if_neg h2, show pos + m + 1 = pos + (m + 1) by omega]
          have h3 : labAt lv.labels (pos + m) < t := UInt8.lt_of_le_of_ne (UInt8.not_lt.mp h1) (Ne.symm h2)
          refine ih (m + 1) b (by omega) hb (by omega) ?_ hhi
          intro j hj
          by_cases hjm : j = m
          · subst hjm; exact h3
          · exact UInt8.lt_trans (hsort j m (by omega) (by omega)) h3
    · rw [if_neg (by omega)]
      by_cases h3 : a < len
      · rw [if_pos (by omega)]
        exact ⟨_, rfl, Or.inl ⟨a, h3, hhi a (by omega) h3, fun j hj => UInt8.le_of_lt (hlo j hj), rfl⟩⟩
      · rw [if_neg (by omega)]
        exact ⟨_, rfl, Or.inr ⟨fun i hi => UInt8.le_of_lt (hlo i (by omega)), rfl⟩⟩

theorem binaryGT_ok (hs : Env.strict = false) (lv : LabelVector) (t : UInt8) (pos len : Nat)
    (hsort : SortedOn (labAt lv.labels) pos len) (hhalf : pos + len ≤ 2147483648) :
    ∃ res, lv.binarySearchGreaterThan t pos len = .ok res ∧ SearchGTSpec (labAt lv.labels) t pos len res := by
  have := binGTLoop_ok hs lv t pos len hsort hhalf binFuel 0 len (by omega) (by omega) (by unfold binFuel; omega)
    (by intro j hj; omega) (by intro j h1 h2; omega)
  simp only [Nat.zero_add, Nat.add_zero] at this; exact this

theorem mapM_rdB (hs : Env.strict = false) (a : List UInt8) (p : Nat) (js : List Nat) :
    (js.mapM fun j => rdB a (p + j)) = .ok (js.map fun j => labAt a (p + j)) := by
  induction js with
  | nil => rfl
  | cons j js ih => rw [List.mapM_cons, ih, rdB_labAt hs]; rfl

theorem load16_ok (hs : Env.strict = false) (lv : LabelVector) (p : Nat) :
    lv.load16 p = .ok ((List.range 16).map fun j => labAt lv.labels (p + j)) := mapM_rdB hs _ _ _

/-- `any`/`findIdx` over a window of `n` labels finds the first match. -/
theorem window_find (lab : Nat → UInt8) (t : UInt8) (p n : Nat) :
    let bs := (List.range n).map fun j => lab (p + j)
    (bs.any (· == t) = true → ∃ i, bs.findIdx (· == t) = i ∧ i < n ∧ lab (p + i) = t ∧
        ∀ j, j < i → lab (p + j) ≠ t) ∧
    (bs.any (· == t) = false → ∀ i, i < n → lab (p + i) ≠ t) := by
  intro bs
  have hlen : bs.length = n := by simp [bs]
  have hget : ∀ i (h : i < bs.length), bs[i] = lab (p + i) := by intro i h; simp [bs]
  constructor
  · intro hany
    have hex : ∃ x ∈ bs, (x == t) = true := by simpa [List.any_eq_true] using hany
    have hlt := List.findIdx_lt_length.mpr hex
    refine ⟨_, rfl, by omega, ?_, ?_⟩
    · have := List.findIdx_getElem (w := hlt)
      rw [hget] at this; simpa using this
    · intro j hj he
      have := List.not_of_lt_findIdx hj
      rw [hget] at this; simp [he] at this
  · intro hany i hi he
    have : ∃ x ∈ bs, (x == t) = true := ⟨lab (p + i), by simp only [bs, List.mem_map, List.mem_range]; exact ⟨i, hi, rfl⟩, by simp [he]⟩
    rw [← List.any_eq_true] at this
    rw [hany] at this; cases this

theorem simdLoop_ok (hs : Env.strict = false) (lv : LabelVector) (t : UInt8) (pos fuel s left : Nat)
    (hf : left < fuel) (hb : ∀ j, j < s → labAt lv.labels (pos + j) ≠ t) :
    ∃ res, simdLoop lv t pos fuel s left = .ok res ∧ SearchSpec (labAt lv.labels) t pos (s + left) res := by
  induction fuel generalizing s left with
  | zero => omega
  | succ fuel ih =>
    rw [simdLoop]
    by_cases h16 : left / 16 > 0
    · rw [if_pos h16, load16_ok hs, ok_bind]
      obtain ⟨w1, w2⟩ := window_find (labAt lv.labels) t (pos + s) 16
      generalize ((List.range 16).map fun j => labAt lv.labels (pos + s + j)) = bs at *
      by_cases hany : bs.any (· == t) = true
      · rw [if_pos hany]
        obtain ⟨i, e1, e2, e3, e4⟩ := w1 hany
        rw [e1]
        refine ⟨_, rfl, Or.inl ⟨s + i, by omega, by rw [← Nat.add_assoc]; exact e3, ?_, rfl⟩⟩
        intro j hj
        by_cases hjs : j < s
        · exact hb j hjs
        · have := e4 (j - s) (by omega)
          rwa [show pos + s + (j - s) = pos + j by omega] at this
      · rw [if_neg hany]
        have w2' := w2 (Bool.eq_false_iff.mpr hany)
        obtain ⟨res, r1, r2⟩ := ih (s + 16) (left - 16) (by omega) (by
          intro j hj
          by_cases hjs : j < s
          · exact hb j hjs
          · have := w2' (j - s) (by omega)
            rwa [show pos + s + (j - s) = pos + j by omega] at this)
        exact ⟨res, r1, by rwa [show s + left = s + 16 + (left - 16) by omega]⟩
    · rw [if_neg h16]
      by_cases h0 : left > 0
      · rw [if_pos h0, load16_ok hs, ok_bind]
        dsimp only
        have ht : ((List.range 16).map fun j => labAt lv.labels (pos + s + j)).take left
            = (List.range left).map fun j => labAt lv.labels (pos + s + j) := by
          rw [← List.map_take, List.take_range, Nat.min_eq_left (by omega)]
        rw [ht]
        obtain ⟨w1, w2⟩ := window_find (labAt lv.labels) t (pos + s) left
        generalize ((List.range left).map fun j => labAt lv.labels (pos + s + j)) = bs at *
        by_cases hany : bs.any (· == t) = true
        · rw [if_pos hany]
          obtain ⟨i, e1, e2, e3, e4⟩ := w1 hany
          rw [e1]
          refine ⟨_, rfl, Or.inl ⟨s + i, by omega, by rw [← Nat.add_assoc]; exact e3, ?_, rfl⟩⟩
          intro j hj
          by_cases hjs : j < s
          · exact hb j hjs
          · have := e4 (j - s) (by omega)
            rwa [show pos + s + (j - s) = pos + j by omega] at this
        · rw [if_neg hany]
          have w2' := w2 (Bool.eq_false_iff.mpr hany)
          refine ⟨_, rfl, Or.inr ⟨?_, rfl⟩⟩
          intro j hj
          by_cases hjs : j < s
          · exact hb j hjs
          · have := w2' (j - s) (by omega)
            rwa [show pos + s + (j - s) = pos + j by omega] at this
      · rw [if_neg h0]
        exact ⟨_, rfl, Or.inr ⟨by intro i hi; exact hb i (by omega), rfl⟩⟩

theorem simdSearch_ok (hs : Env.strict = false) (lv : LabelVector) (t : UInt8) (pos len : Nat) :
    ∃ res, lv.simdSearch t pos len = .ok res ∧ SearchSpec (labAt lv.labels) t pos len res := by
  have := simdLoop_ok hs lv t pos (len + 1) 0 len (by omega) (by intro j hj; omega)
  simp only [Nat.zero_add, Nat.add_zero] at this; exact this

/-- Position and length after the terminator skip. -/
def skipped (lab : Nat → UInt8) (pos len : Nat) : Nat × Nat :=
  if len > 1 ∧ lab pos = kTerminator then (pos + 1, len - 1) else (pos, len)

theorem skipTerm_ok (hs : Env.strict = false) (lv : LabelVector) (pos len : Nat) :
    lv.skipTerm pos len = .ok (skipped (labAt lv.labels) pos len) := by
  unfold skipTerm skipped
  by_cases h1 : len > 1
  · rw [if_pos h1, rdB_labAt hs, ok_bind]
    by_cases h2 : labAt lv.labels pos = kTerminator
    · rw [if_pos h2, if_pos ⟨h1, h2⟩]; rfl
    · rw [if_neg h2, if_neg (fun h => h2 h.2)]; rfl
  · rw [if_neg h1, if_neg (fun h => h1 h.1)]; rfl

theorem search_ok (hs : Env.strict = false) (lv : LabelVector) (t : UInt8) (pos len : Nat)
    (hsort : (SortedOn (labAt lv.labels) (skipped (labAt lv.labels) pos len).1
        (skipped (labAt lv.labels) pos len).2 ∧
        (skipped (labAt lv.labels) pos len).1 + (skipped (labAt lv.labels) pos len).2 ≤ 2147483648) ∨
      12 ≤ (skipped (labAt lv.labels) pos len).2 ∨ (skipped (labAt lv.labels) pos len).2 < 3) :
    ∃ res, lv.search t pos len = .ok res ∧
      SearchSpec (labAt lv.labels) t (skipped (labAt lv.labels) pos len).1
        (skipped (labAt lv.labels) pos len).2 res := by
  unfold search
  rw [skipTerm_ok hs, ok_bind]
  generalize skipped (labAt lv.labels) pos len = pl at *
  obtain ⟨p, l⟩ := pl
  dsimp only at *
  by_cases h3 : l < 3
  · rw [if_pos h3]; exact linearSearch_ok hs lv t p l
  · rw [if_neg h3]
    by_cases h12 : l < 12
    · rw [if_pos h12]
      have h := hsort.resolve_right (by omega)
      exact binarySearch_ok hs lv t p l h.1 h.2
    · rw [if_neg h12]; exact simdSearch_ok hs lv t p l

theorem searchGT_ok (hs : Env.strict = false) (lv : LabelVector) (t : UInt8) (pos len : Nat)
    (hsort : SortedOn (labAt lv.labels) (skipped (labAt lv.labels) pos len).1
        (skipped (labAt lv.labels) pos len).2)
    (hhalf : (skipped (labAt lv.labels) pos len).1 + (skipped (labAt lv.labels) pos len).2 ≤ 2147483648) :
    ∃ res, lv.searchGreaterThan t pos len = .ok res ∧
      SearchGTSpec (labAt lv.labels) t (skipped (labAt lv.labels) pos len).1
        (skipped (labAt lv.labels) pos len).2 res := by
  unfold searchGreaterThan
  rw [skipTerm_ok hs, ok_bind]
  generalize skipped (labAt lv.labels) pos len = pl at *
  obtain ⟨p, l⟩ := pl
  dsimp only at *
  by_cases h3 : l < 3
  · rw [if_pos h3]; exact linearGT_ok hs lv t p l
  · rw [if_neg h3]
    exact binaryGT_ok hs lv t p l hsort hhalf

end LabelVector
end Surf
