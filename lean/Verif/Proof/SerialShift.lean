import Verif.Model.Serialize
import Verif.Proof.History

/-!
# Reading the same bytes at addresses that differ by a multiple of 8
-/

set_option autoImplicit false
set_option linter.unusedSectionVars false

namespace Surf

section
variable [Env]

/-- The reader gives the same result, and moves by the same distance, at addresses that differ by a multiple of 8. -/
def Shifts {α : Type} (g : Get α) : Prop :=
  ∀ data b b' o, b % 8 = b' % 8 → RRel (fun x y => x.1 = y.1 ∧ ∃ o', x.2 = b + o' ∧ y.2 = b' + o') (g ⟨b, data⟩ (b + o)) (g ⟨b', data⟩ (b' + o))

theorem Shifts.pure {α : Type} (a : α) : Shifts (pure a : Get α) := fun _ _ _ o _ => RRel.pure ⟨rfl, o, rfl, rfl⟩

theorem Shifts.bind {α β : Type} {g : Get α} {k : α → Get β} (h : Shifts g) (hk : ∀ a, Shifts (k a)) : Shifts (g >>= k) := by
  intro data b b' o hb
  refine RRel.bind (h data b b' o hb) fun x y _ _ hxy => ?_
  obtain ⟨e, o', e1, e2⟩ := hxy
  obtain ⟨a, c⟩ := x
  obtain ⟨a', c'⟩ := y
  dsimp only at e e1 e2
  subst e e1 e2
  exact hk a data b b' o' hb

theorem Shifts.bytes (n : Nat) : Shifts (getBytes n) := by
  intro data b b' o hb
  unfold getBytes
  dsimp only
  rw [Nat.add_sub_cancel_left, Nat.add_sub_cancel_left]
  split
  · exact ⟨rfl, o + n, by omega, by omega⟩
  · rfl

theorem Shifts.align : Shifts getAlign := by
  intro data b b' o hb
  refine ⟨rfl, (b + o + 7) / 8 * 8 - b, ?_, ?_⟩ <;> simp only [alignUp] <;> omega

theorem Shifts.fail {α : Type} (e : UB) : Shifts (getFail e : Get α) := fun _ _ _ _ _ => rfl

theorem Shifts.four : Shifts get4 := (Shifts.bytes 4).bind fun _ => Shifts.pure _

theorem Shifts.words (n : Nat) : Shifts (getWords n) := by
  induction n with
  | zero => exact Shifts.pure _
  | succ n ih => exact (Shifts.bytes 8).bind fun _ => ih.bind fun _ => Shifts.pure _

theorem Shifts.poss (n : Nat) : Shifts (getPoss n) := by
  induction n with
  | zero => exact Shifts.pure _
  | succ n ih => exact Shifts.four.bind fun _ => ih.bind fun _ => Shifts.pure _

theorem Shifts.labels : Shifts LabelVector.deSerialize := by
  unfold LabelVector.deSerialize
  exact Shifts.four.bind fun _ => (Shifts.bytes _).bind fun _ => Shifts.align.bind fun _ => Shifts.pure _

theorem Shifts.lutLen (n d : Nat) : Shifts (BitvectorRank.getLutLen n d) := by
  unfold BitvectorRank.getLutLen
  split
  · exact Shifts.fail _
  · exact Shifts.pure _

theorem Shifts.rank : Shifts BitvectorRank.deSerialize := by
  unfold BitvectorRank.deSerialize
  exact Shifts.four.bind fun _ => Shifts.four.bind fun _ => (Shifts.words _).bind fun _ => (Shifts.lutLen _ _).bind fun _ =>
    (Shifts.poss _).bind fun _ => Shifts.align.bind fun _ => Shifts.pure _

theorem Shifts.select : Shifts BitvectorSelect.deSerialize := by
  unfold BitvectorSelect.deSerialize
  exact Shifts.four.bind fun _ => Shifts.four.bind fun _ => Shifts.four.bind fun _ => (Shifts.words _).bind fun _ =>
    (Shifts.lutLen _ _).bind fun _ => (Shifts.poss _).bind fun _ => Shifts.align.bind fun _ => Shifts.pure _

theorem Shifts.type : Shifts getType := by
  unfold getType
  refine Shifts.four.bind fun t => ?_
  split <;> first | exact Shifts.pure _ | exact Shifts.fail _

theorem Shifts.suffix : Shifts BitvectorSuffix.deSerialize := by
  unfold BitvectorSuffix.deSerialize BitvectorSuffix.getBits
  refine Shifts.four.bind fun _ => Shifts.type.bind fun _ => Shifts.four.bind fun _ => Shifts.four.bind fun _ => ?_
  refine Shifts.bind ?_ fun _ => Shifts.align.bind fun _ => Shifts.pure _
  split
  · first | exact Shifts.words _ | exact Shifts.pure _
  · first | exact Shifts.words _ | exact Shifts.pure _

theorem Shifts.dense : Shifts LoudsDense.deSerialize := by
  unfold LoudsDense.deSerialize
  exact Shifts.four.bind fun _ => (Shifts.poss _).bind fun _ => Shifts.align.bind fun _ => Shifts.rank.bind fun _ =>
    Shifts.rank.bind fun _ => Shifts.rank.bind fun _ => Shifts.suffix.bind fun _ => Shifts.align.bind fun _ => Shifts.pure _

theorem Shifts.sparse : Shifts LoudsSparse.deSerialize := by
  unfold LoudsSparse.deSerialize
  exact Shifts.four.bind fun _ => Shifts.four.bind fun _ => Shifts.four.bind fun _ => Shifts.four.bind fun _ =>
    (Shifts.poss _).bind fun _ => Shifts.align.bind fun _ => Shifts.labels.bind fun _ => Shifts.rank.bind fun _ =>
    Shifts.select.bind fun _ => Shifts.suffix.bind fun _ => Shifts.align.bind fun _ => Shifts.pure _

theorem deSerialize_shift (data : List UInt8) {b b' : Nat} (h : b % 8 = b' % 8) :
    Filter.deSerialize b data = Filter.deSerialize b' data := by
  have key : RRel (· = ·) (Filter.deSerialize b data) (Filter.deSerialize b' data) := by
    unfold Filter.deSerialize
    refine RRel.bind (Shifts.dense data b b' 0 h) fun x y _ _ hxy => ?_
    obtain ⟨e, o, e1, e2⟩ := hxy
    rw [e1, e2]
    refine RRel.bind (Shifts.sparse data b b' o h) fun x' y' _ _ hxy' => ?_
    exact RRel.pure (by rw [e, hxy'.1])
  cases h1 : Filter.deSerialize b data <;> cases h2 : Filter.deSerialize b' data <;> rw [h1, h2] at key <;> cases key <;> rfl

end
end Surf
