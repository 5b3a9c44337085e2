import Verif.Proof.DenseNav
import Verif.Proof.Order

/-! # The iterator of LoudsDense -/

set_option linter.unusedSectionVars false
set_option autoImplicit false

namespace Surf
open Trie
variable [Env] {cfg : Config} {ts : List Str} {sw : Str → Word} {s : Nat} {f : Filter}

theorem wr_ok {α : Type} {a : List α} {i : Nat} {x : α} (h : i < a.length) : wr a i x = .ok (a.set i x) := by
  simp [wr, h]

/-! ## Neighbouring labels -/

omit [Env] in
theorem FRep0.lbit (h : FRep0 cfg ts sw s f) {x : Str} (hx : isInt ts x = true) (hs : x.length < s) {b : Nat}
    (hb : b < 256) : (labelBits ts (nodesR ts 0 s)).getD (256 * num ts x + b) false = ex ts (x ++ [b + 1]) := by
  obtain ⟨A, C, e, e2⟩ := h.dnode hx hs
  rw [labelBits_eq, e, ← e2, bitsOf_getD _ hb]

omit [Env] in
theorem labelBits_length (X : List Str) : (labelBits ts X).length = 256 * X.length := by
  rw [labelBits_eq, bitsOf_length]

omit [Env] in
theorem ex_big (h : WF ts) (x : Str) {d : Nat} (hd : 256 ≤ d) : ex ts (x ++ [d + 1]) = false := by
  by_contra hc
  have := sym_le h (by simpa using hc : ex ts (x ++ [d + 1]) = true)
  omega

/-- `getNextPos`: the next label of the node, or a position behind the node. -/
theorem FRep0.dnext (h : FRep0 cfg ts sw s f) (hstr : Env.strict = false) {x : Str} (hx : isInt ts x = true)
    (hs : x.length < s) {b : Nat} (hb : b < 256) :
    ∃ n, f.dense.getNextPos (256 * num ts x + b) = .ok n ∧
      ((∃ b', b < b' ∧ b' < 256 ∧ ex ts (x ++ [b' + 1]) = true ∧
          (∀ d, b < d → d < b' → ex ts (x ++ [d + 1]) = false) ∧ n = 256 * num ts x + b') ∨
        ((∀ d, b < d → ex ts (x ++ [d + 1]) = false) ∧ num ts x < n / 256)) := by
  have hl := h.dense.lab
  have hp := h.dpos_lt hx hs hb
  have hN := num_lt h.wf hx hs h.nodes_s
  have h32 := h.d32
  rw [M32_eq] at h32 hp
  have hlen : (labelBits ts (nodesR ts 0 s)).length = 256 * (nodesR ts 0 s).length := labelBits_length _
  have hbit := fun {j : Nat} (hj : j < 256) => h.lbit hx hs hj
  have ha : add32 (256 * num ts x + b) 1 = 256 * num ts x + b + 1 := add32_eq (by rw [M32_eq]; omega)
  unfold LoudsDense.getNextPos
  rcases next_kid ts x (b + 2) with h1 | ⟨c, h1, h2, h3⟩
  · have h1' : ∀ d, b < d → ex ts (x ++ [d + 1]) = false := fun d hd => h1 (d + 1) (by omega)
    by_cases hq : ∃ q, 256 * num ts x + b + 1 ≤ q ∧ (labelBits ts (nodesR ts 0 s)).getD q false = true
    · classical
      have hq1 := Nat.find_spec hq
      have hq2 : ∀ {j}, j < Nat.find hq → ¬ (256 * num ts x + b + 1 ≤ j ∧
        (labelBits ts (nodesR ts 0 s)).getD j false = true) := fun hj => Nat.find_min hq hj
      generalize Nat.find hq = q at hq1 hq2
      have hqlen : q < 256 * (nodesR ts 0 s).length := by
        by_contra hc
        rw [getD_ge (by omega)] at hq1
        simp at hq1
      have hqn : 256 * (num ts x + 1) ≤ q := by
        by_contra hc
        have h5 := hbit (j := q - 256 * num ts x) (by omega)
        rw [show 256 * num ts x + (q - 256 * num ts x) = q by omega, hq1.2, h1' _ (by omega)] at h5
        cases h5
      rw [Bitvector.distNext_some hl.base (by rw [M32_eq]; omega) (Or.inl (by omega)) hq1.2 (by rw [ha]; omega)
        (fun j hj1 hj2 => by
          rw [ha] at hj1
          have := hq2 hj2
          simpa [hj1] using this), ok_bind]
      refine ⟨_, rfl, Or.inr ⟨h1', ?_⟩⟩
      rw [ha, add32_eq (by rw [M32_eq]; omega)]
      omega
    · have hz : ∀ j, 256 * num ts x + b + 1 ≤ j → (labelBits ts (nodesR ts 0 s)).getD j false = false := by
        intro j hj
        by_contra hc
        exact hq ⟨j, hj, by simpa using hc⟩
      have hlb := hl.base.len_bounds
      rw [hlen] at hlb
      rcases Nat.lt_or_ge (256 * num ts x + b + 1) (64 * f.dense.labelBitmaps.bits.length) with h5 | h5
      · rw [Bitvector.distNext_none hl.base (by rw [M32_eq]; omega) h5 (by omega) hz, ok_bind]
        refine ⟨_, rfl, Or.inr ⟨h1', ?_⟩⟩
        have e64 : 64 * f.dense.labelBitmaps.bits.length = 256 * (nodesR ts 0 s).length := by omega
        rw [hlen, e64, ite_self, add32_eq (by rw [M32_eq]; omega)]
        omega
      · obtain ⟨d, e, hd1, hd2⟩ := Bitvector.distNext_end hstr hl.base (by rw [M32_eq]; omega)
          (pos := 256 * num ts x + b) (by omega) (by omega)
        rw [e, ok_bind]
        refine ⟨_, rfl, Or.inr ⟨h1', ?_⟩⟩
        rw [add32_eq (by rw [M32_eq]; omega)]
        omega
  · obtain ⟨b', rfl⟩ : ∃ e, c = e + 1 := ⟨c - 1, by omega⟩
    have hb' : b' < 256 := by have := sym_le h.wf h2; omega
    have hp' := h.dpos_lt hx hs hb'
    rw [Bitvector.distNext_some hl.base (by rw [M32_eq]; omega) (Or.inl (by omega)) (q := 256 * num ts x + b')
      (by rw [hbit hb']; exact h2) (by rw [ha]; omega)
      (fun j hj1 hj2 => by
          rw [ha] at hj1
          have := hbit (j := j - 256 * num ts x) (by omega)
          rw [show 256 * num ts x + (j - 256 * num ts x) = j by omega] at this
          rw [this]
          exact h3 _ (by omega) (by omega)), ok_bind]
    refine ⟨_, rfl, Or.inl ⟨b', by omega, hb', h2, fun d h5 h6 => h3 (d + 1) (by omega) (by omega), ?_⟩⟩
    rw [ha, add32_eq (by rw [M32_eq]; omega)]
    omega

omit [Env] in
theorem num_pos {x : Str} (h : WF ts) (hx : isInt ts x = true) (hx0 : x ≠ []) : 1 ≤ num ts x := by
  rcases Nat.eq_zero_or_pos (num ts x) with h0 | h0
  · rw [← num_root h] at h0
    exact absurd (num_inj hx h0) hx0
  · exact h0

/-- The first label of a node below the root. -/
theorem FRep0.dfirst (h : FRep0 cfg ts sw s f) {x : Str} (hx : isInt ts x = true) (hs : x.length < s)
    (hroot : x ≠ [] ∨ Env.ndebug = true) {b : Nat} (hb : ex ts (x ++ [b + 1]) = true)
    (hmin : ∀ d, d < b → ex ts (x ++ [d + 1]) = false) :
    f.dense.getNextPos (sub32 (mul32 (num ts x) kFanout) 1) = .ok (256 * num ts x + b) := by
  have hl := h.dense.lab
  have hb' : b < 256 := by have := sym_le h.wf hb; omega
  have hp := h.dpos_lt hx hs hb'
  have hN := num_lt h.wf hx hs h.nodes_s
  have h32 := h.d32
  rw [M32_eq] at h32 hp
  have hlen : (labelBits ts (nodesR ts 0 s)).length = 256 * (nodesR ts 0 s).length := labelBits_length _
  have hbit := fun {j : Nat} (hj : j < 256) => h.lbit hx hs hj
  have e1 : mul32 (num ts x) kFanout = 256 * num ts x := by
    unfold kFanout
    rw [mul32_eq (by rw [M32_eq]; omega), Nat.mul_comm]
  rw [e1]
  have ha : add32 (sub32 (256 * num ts x) 1) 1 = 256 * num ts x := by
    simp only [add32, sub32, M32_eq]; omega
  unfold LoudsDense.getNextPos
  rw [Bitvector.distNext_some hl.base (by rw [M32_eq]; omega) (q := 256 * num ts x + b) ?_
      (by rw [hbit hb']; exact hb) (by rw [ha]; omega)
      (fun j hj1 hj2 => by
          rw [ha] at hj1
          have := hbit (j := j - 256 * num ts x) (by omega)
          rw [show 256 * num ts x + (j - 256 * num ts x) = j by omega] at this
          rw [this]
          exact hmin _ (by omega)), ok_bind]
  · refine ok_congr ?_
    rw [ha]
    simp only [add32, sub32, M32_eq]; omega
  · rcases hroot with h0 | h0
    · have := num_pos h.wf hx h0
      left
      rw [sub32_eq (by omega) (by rw [M32_eq]; omega)]
      omega
    · exact Or.inr h0

omit [Env] in
theorem last_true (l : List Bool) (p : Nat) : (∀ j, j < p → l.getD j false = false) ∨
    ∃ q, q < p ∧ l.getD q false = true ∧ ∀ j, q < j → j < p → l.getD j false = false := by
  induction p with
  | zero => exact Or.inl fun j hj => by omega
  | succ p ih =>
    by_cases hp : l.getD p false = true
    · exact Or.inr ⟨p, by omega, hp, fun j h1 h2 => by omega⟩
    · have hp' : l.getD p false = false := by simpa using hp
      rcases ih with h | ⟨q, h1, h2, h3⟩
      · refine Or.inl fun j hj => ?_
        rcases Nat.lt_succ_iff_lt_or_eq.1 hj with h1 | rfl
        · exact h j h1
        · exact hp'
      · refine Or.inr ⟨q, by omega, h2, fun j h4 h5 => ?_⟩
        rcases Nat.lt_succ_iff_lt_or_eq.1 h5 with h6 | rfl
        · exact h3 j h4 h6
        · exact hp'

/-- `getPrevPos`: the previous label of the node; otherwise a position before the node or failure.
A label at position 0 (byte 0x00 in the root) is not found. -/
theorem FRep0.dprev (h : FRep0 cfg ts sw s f) {x : Str} (hx : isInt ts x = true) (hs : x.length < s) {b : Nat}
    (hb : b ≤ 256) (hx0 : 0 ∉ x) :
    ∃ n, f.dense.getPrevPos (256 * num ts x + b) = .ok n ∧
      ((∃ b', b' < b ∧ ex ts (x ++ [b' + 1]) = true ∧ (∀ d, b' < d → d < b → ex ts (x ++ [d + 1]) = false) ∧
          (n = some (256 * num ts x + b') ∨ n = none ∧ x = [] ∧ b' = 0)) ∨
        ((∀ d, d < b → ex ts (x ++ [d + 1]) = false) ∧
          (n = none ∧ (x = [] ∨ ∃ x', x = 1 :: x') ∨ ∃ q, n = some q ∧ q / 256 < num ts x))) := by
  have hl := h.dense.lab
  have hN := num_lt h.wf hx hs h.nodes_s
  have h32 := h.d32
  rw [M32_eq] at h32
  have hlen : (labelBits ts (nodesR ts 0 s)).length = 256 * (nodesR ts 0 s).length := labelBits_length _
  have hbit := fun {j : Nat} (hj : j < 256) => h.lbit hx hs hj
  have hr0 : isInt ts [] = true := by
    rcases List.eq_nil_or_concat x with rfl | ⟨y, c, rfl⟩
    · exact hx
    · cases y with
      | nil => exact int_of_ex_snoc (c := c) (by simpa using ex_of_int hx)
      | cons a y => exact int_of_ex_snoc (c := a) (ex_prefix (ex_of_int hx) ⟨y ++ [c], by simp⟩)
  unfold LoudsDense.getPrevPos
  by_cases hp0 : 256 * num ts x + b = 0
  · have hb0 : b = 0 := by omega
    subst hb0
    refine ⟨none, ?_, Or.inr ⟨fun d hd => by omega, Or.inl ⟨rfl, Or.inl ?_⟩⟩⟩
    · rw [hp0]
      unfold Bitvector.distanceToPrevSetBit
      rw [assertR_ok (by simp), ok_bind]
      rfl
    · exact num_inj hx (by rw [num_root h.wf]; omega)
  rcases last_true (labelBits ts (nodesR ts 0 s)) (256 * num ts x + b) with h1 | ⟨q, h1, h2, h3⟩
  · rw [Bitvector.distPrev_none hl.base (by omega) (by omega) h1, ok_bind, if_pos (by omega)]
    refine ⟨none, rfl, Or.inr ⟨fun d hd => ?_, Or.inl ⟨rfl, ?_⟩⟩⟩
    · rw [← hbit (by omega)]; exact h1 _ (by omega)
    · cases x with
      | nil => exact Or.inl rfl
      | cons c x =>
        exfalso
        have hc : ex ts ([] ++ [c]) = true := ex_prefix (ex_of_int hx) ⟨x, rfl⟩
        obtain ⟨e, rfl⟩ : ∃ e, c = e + 1 := ⟨c - 1, by
          have : c ≠ 0 := by rintro rfl; simp at hx0
          omega⟩
        have he := sym_le h.wf hc
        have := h.lbit hr0 (by simp; have := h.s1; omega) (b := e) (by omega)
        have hn := num_pos h.wf hx (by simp)
        rw [hc, num_root h.wf, h1 _ (by omega)] at this
        cases this
  · rw [Bitvector.distPrev_some hl.base (by omega) h2 h1 h3, ok_bind]
    rcases Nat.lt_or_ge q (256 * num ts x) with h4 | h4
    · have hno : ∀ d, d < b → ex ts (x ++ [d + 1]) = false := fun d hd => by
        rw [← hbit (by omega)]; exact h3 _ (by omega) (by omega)
      by_cases hq0 : q = 0
      · subst hq0
        rw [if_pos (by omega)]
        refine ⟨none, rfl, Or.inr ⟨hno, Or.inl ⟨rfl, ?_⟩⟩⟩
        cases x with
        | nil => exact Or.inl rfl
        | cons c x =>
          right
          have hc : ex ts ([] ++ [c]) = true := ex_prefix (ex_of_int hx) ⟨x, rfl⟩
          obtain ⟨e, rfl⟩ : ∃ e, c = e + 1 := ⟨c - 1, by
            have : c ≠ 0 := by rintro rfl; simp at hx0
            omega⟩
          have he := sym_le h.wf hc
          have := h.lbit hr0 (by simp; have := h.s1; omega) (b := e) (by omega)
          rw [hc, num_root h.wf] at this
          by_cases he0 : e = 0
          · subst he0; exact ⟨x, rfl⟩
          · rw [h3 _ (by omega) (by omega)] at this
            cases this
      · rw [if_neg (by omega)]
        exact ⟨_, rfl, Or.inr ⟨hno, Or.inr ⟨_, rfl, by omega⟩⟩⟩
    · have hb1 := hbit (j := q - 256 * num ts x) (by omega)
      rw [show 256 * num ts x + (q - 256 * num ts x) = q by omega, h2] at hb1
      have hno : ∀ d, q - 256 * num ts x < d → d < b → ex ts (x ++ [d + 1]) = false := fun d hd1 hd2 => by
        rw [← hbit (by omega)]; exact h3 _ (by omega) (by omega)
      by_cases hq0 : q = 0
      · subst hq0
        rw [if_pos (by omega)]
        exact ⟨none, rfl, Or.inl ⟨_, by omega, hb1.symm, hno, Or.inr ⟨rfl,
          num_inj hx (by rw [num_root h.wf]; omega), by omega⟩⟩⟩
      · rw [if_neg (by omega)]
        refine ⟨_, rfl, Or.inl ⟨_, by omega, hb1.symm, hno, Or.inl ?_⟩⟩
        congr 1
        omega

/-! ## Paths -/

/-- A sequence of bytes that can be on the path of the dense iterator: everything but the last symbol
leads to an internal node. -/
def DPath (ts : List Str) (s : Nat) (p : Str) : Prop :=
  ∀ x c, x ++ [c] <+: p → isInt ts x = true ∧ x.length < s ∧ 1 ≤ c ∧ c ≤ 256

omit [Env] in
theorem DPath.take {p q : Str} (h : DPath ts s p) (hq : q <+: p) : DPath ts s q :=
  fun x c hx => h x c (hx.trans hq)

omit [Env] in
theorem prefix_snoc {x y : Str} {b c : Nat} (h : y ++ [c] <+: x ++ [b]) : y ++ [c] <+: x ∨ (y = x ∧ c = b) := by
  rcases List.prefix_concat_iff.1 (by simpa using h) with h1 | h1
  · right
    have := List.append_inj' h1 rfl
    exact ⟨this.1, by simpa using this.2⟩
  · exact Or.inl h1

omit [Env] in
theorem DPath.snoc {x : Str} {b : Nat} (h : DPath ts s x) (hx : isInt ts x = true) (hs : x.length < s) (hb : b < 256) :
    DPath ts s (x ++ [b + 1]) := by
  intro y c hy
  rcases prefix_snoc hy with h1 | ⟨rfl, rfl⟩
  · exact h y c h1
  · exact ⟨hx, hs, by omega, by omega⟩

omit [Env] in
theorem DPath.nz {p : Str} (h : DPath ts s p) : 0 ∉ p := by
  intro h0
  obtain ⟨a, b, rfl⟩ := List.append_of_mem h0
  have := (h a 0 ⟨b, by simp⟩).2.2.1
  omega

omit [Env] in
theorem DPath.nil : DPath ts s [] := by
  intro x c h
  simp at h

/-- The byte of a symbol. -/
def toB (c : Nat) : UInt8 := UInt8.ofNat (c - 1)

/-- The iterator holds the path `p`. -/
structure DOn (ts : List Str) (s : Nat) (it : DIter) (p : Str) : Prop where
  len : it.keyLen = p.length
  kl : it.key.length = s
  pl : it.pos.length = s
  le : p.length ≤ s
  key : it.key.take p.length = p.map toB
  pos : ∀ x b, x ++ [b + 1] <+: p → it.pos[x.length]? = some (256 * num ts x + b)

omit [Env] in
theorem DOn.take {it : DIter} {p q : Str} (h : DOn ts s it p) (hq : q <+: p) :
    DOn ts s { it with keyLen := q.length } q := by
  refine ⟨rfl, h.kl, h.pl, le_trans hq.length_le h.le, ?_, fun x b hx => h.pos x b (hx.trans hq)⟩
  obtain ⟨r, rfl⟩ := hq
  have := congrArg (List.take q.length) h.key
  rw [List.take_take, Nat.min_eq_left (by simp)] at this
  simpa using this

/-- Fields other than the path. -/
def SameD (a b : DIter) : Prop :=
  a.valid = b.valid ∧ a.searchComplete = b.searchComplete ∧ a.leftComplete = b.leftComplete ∧
  a.rightComplete = b.rightComplete ∧ a.sendOut = b.sendOut ∧ a.atPrefix = b.atPrefix

omit [Env] in
theorem toB_mod (n b : Nat) (hb : b < 256) : UInt8.ofNat ((256 * n + b) % kFanout) = toB (b + 1) := by
  unfold kFanout toB
  congr 1
  omega

omit [Env] in
theorem take_set {α : Type} (l : List α) (n : Nat) (v : α) (h : n < l.length) : (l.set n v).take (n + 1) = l.take n ++ [v] := by
  rw [List.take_add_one, List.getElem?_set_self h, List.take_set_of_le (by omega)]
  rfl

theorem DOn.set {it : DIter} {x : Str} {c b : Nat} (h : DOn ts s it (x ++ [c])) (hb : b < 256) :
    ∃ it', it.set x.length (256 * num ts x + b) = .ok it' ∧ DOn ts s it' (x ++ [b + 1]) ∧ SameD it' it := by
  have h1 := h.le
  rw [List.length_append, List.length_singleton] at h1
  unfold DIter.set
  rw [assertR_ok (by simp [h.kl]; omega), ok_bind, wr_ok (by rw [h.kl]; omega), ok_bind, wr_ok (by rw [h.pl]; omega), ok_bind]
  refine ⟨_, rfl, ⟨by simpa using h.len, by simpa using h.kl, by simpa using h.pl, by simpa using h.le, ?_, ?_⟩,
    ⟨rfl, rfl, rfl, rfl, rfl, rfl⟩⟩
  · rw [List.length_append, List.length_singleton]
    dsimp only
    rw [take_set _ _ _ (by rw [h.kl]; omega), toB_mod _ _ hb, List.map_append]
    have := congrArg (List.take x.length) h.key
    rw [List.take_take, Nat.min_eq_left (by simp)] at this
    rw [this]
    simp
  · intro y d hy
    dsimp only
    rcases prefix_snoc hy with h2 | ⟨rfl, h2⟩
    · have h3 := h2.length_le
      rw [List.length_append, List.length_singleton] at h3
      rw [List.getElem?_set_ne (by omega)]
      exact h.pos y d (h2.trans (List.prefix_append _ _))
    · obtain rfl : d = b := by omega
      rw [List.getElem?_set_self (by rw [h.pl]; omega)]

theorem DOn.append {it : DIter} {x : Str} {b : Nat} (h : DOn ts s it x) (hs : x.length < s) (hb : b < 256) :
    ∃ it', it.append (256 * num ts x + b) = .ok it' ∧ DOn ts s it' (x ++ [b + 1]) ∧ SameD it' it := by
  have h1 := h.len
  unfold DIter.append
  rw [h1, assertR_ok (by simp [h.kl]; omega), ok_bind, wr_ok (by rw [h.kl]; omega), ok_bind, wr_ok (by rw [h.pl]; omega), ok_bind]
  refine ⟨_, rfl, ⟨by simp, by simpa using h.kl, by simpa using h.pl, by simp; omega, ?_, ?_⟩,
    ⟨rfl, rfl, rfl, rfl, rfl, rfl⟩⟩
  · rw [List.length_append, List.length_singleton]
    dsimp only
    rw [take_set _ _ _ (by rw [h.kl]; omega), toB_mod _ _ hb, List.map_append, h.key]
    simp
  · intro y d hy
    dsimp only
    rcases prefix_snoc hy with h2 | ⟨rfl, h2⟩
    · have h3 := h2.length_le
      rw [List.length_append, List.length_singleton] at h3
      rw [List.getElem?_set_ne (by omega)]
      exact h.pos y d h2
    · obtain rfl : d = b := by omega
      rw [List.getElem?_set_self (by rw [h.pl]; omega)]

theorem DOn.rd {it : DIter} {p x : Str} {b : Nat} (h : DOn ts s it p) (hx : x ++ [b + 1] <+: p) :
    rdP it.pos x.length = .ok (256 * num ts x + b) := by
  have := h.pos x b hx
  unfold rdP
  rw [this]

omit [Env] in
theorem DOn.nil {it : DIter} (hk : it.keyLen = 0) (h1 : it.key.length = s) (h2 : it.pos.length = s) : DOn ts s it [] :=
  ⟨by simpa using hk, h1, h2, by simp, by simp, fun x b hx => by simp at hx⟩

/-! ## First and last leaf below a node -/

/-- The dense part of an iterator at the leaf `t`. -/
structure DAt (ts : List Str) (s : Nat) (it : DIter) (t : Str) : Prop where
  valid : it.valid = true
  complete : it.isComplete = decide (t.length ≤ s)
  pre : it.atPrefix = decide (t.length ≤ s ∧ 0 ∈ t)
  on : ∀ x b, t = x ++ [b + 1] → t.length ≤ s → DOn ts s it t
  onP : ∀ x, t = x ++ [0] → t.length ≤ s → ∃ b, ex ts (x ++ [b + 1]) = true ∧
    (∀ d, d < b → ex ts (x ++ [d + 1]) = false) ∧ DOn ts s it (x ++ [b + 1])
  onS : s < t.length → DOn ts s it (t.take s)


/-- What `moveToLeftMostKey` delivers. -/
structure DLeft (ts : List Str) (s : Nat) (it : DIter) (t : Str) : Prop extends DAt ts s it t where
  left : it.leftComplete = decide (t.length ≤ s)
  send : s < t.length → it.sendOut = num ts (t.take s)
  srch : it.searchComplete = true

structure DRight (ts : List Str) (s : Nat) (it : DIter) (t : Str) : Prop extends DAt ts s it t where
  right : it.rightComplete = decide (t.length ≤ s)
  send : s < t.length → it.sendOut = num ts (t.take s)
  srch : it.searchComplete = true

omit [Env] in
theorem DOn.congr {a b : DIter} {p : Str} (h : DOn ts s a p) (h1 : b.keyLen = a.keyLen) (h2 : b.key = a.key)
    (h3 : b.pos = a.pos) : DOn ts s b p :=
  ⟨by rw [h1]; exact h.len, by rw [h2]; exact h.kl, by rw [h3]; exact h.pl, h.le, by rw [h2]; exact h.key,
    by rw [h3]; exact h.pos⟩

omit [Env] in
theorem dAt_leaf {it : DIter} {p : Str} (h : DOn ts s it p) (hp : DPath ts s p) (hpre : it.atPrefix = false) :
    DAt ts s (it.setFlags true true true true) p := by
  refine ⟨rfl, ?_, ?_, fun x b _ _ => h.congr rfl rfl rfl, fun x hx _ => ?_, fun hlt => ?_⟩
  · simp [DIter.setFlags, DIter.isComplete, h.le]
  · simp [DIter.setFlags, hpre, hp.nz]
  · exact absurd (by rw [hx]; simp : 0 ∈ p) hp.nz
  · have := h.le; omega

omit [Env] in
theorem dAt_pre {it : DIter} {x : Str} {b : Nat} (h : DOn ts s it (x ++ [b + 1])) (hb : ex ts (x ++ [b + 1]) = true)
    (hmin : ∀ d, d < b → ex ts (x ++ [d + 1]) = false) :
    DAt ts s (({ it with atPrefix := true } : DIter).setFlags true true true true) (x ++ [0]) := by
  have hle := h.le
  simp only [List.length_append, List.length_singleton] at hle
  refine ⟨rfl, ?_, ?_, fun y d hy _ => ?_, fun y hy _ => ?_, fun hlt => ?_⟩
  · simp [DIter.setFlags, DIter.isComplete, hle]
  · simp [DIter.setFlags, hle]
  · have := List.append_inj' hy rfl
    simp at this
  · have := (List.append_inj' hy rfl).1
    subst this
    exact ⟨b, hb, hmin, h.congr rfl rfl rfl⟩
  · simp at hlt; omega

omit [Env] in
theorem dAt_sparse {it : DIter} {p t : Str} (h : DOn ts s it p) (hl : p.length = s) (hpt : p <+: t) (hlt : s < t.length)
    (hpre : it.atPrefix = false) (hv : it.valid = true) (hc : it.isComplete = false) : DAt ts s it t := by
  refine ⟨hv, ?_, ?_, fun _ _ _ hh => by omega, fun _ _ hh => by omega, fun _ => ?_⟩
  · rw [hc]; symm; simp; omega
  · rw [hpre]; symm; simp; omega
  · have : p = t.take s := by rw [← hl]; exact List.prefix_iff_eq_take.1 hpt
    rw [← this]; exact h

omit [Env] in
theorem left_length (h : WF ts) {p t : Str} (hp : isInt ts p = true) (ht : t ∈ ts) (hpt : p <+: t) : p.length < t.length := by
  rcases Nat.lt_or_ge p.length t.length with h1 | h1
  · exact h1
  · have := hpt.eq_of_length_le h1
    subst this
    rw [(leaf_of_ex h (ex_mem ht)).2 ht] at hp; cases hp

theorem FRep0.dleftLoop (h : FRep0 cfg ts sw s f) (n : Nat) {x : Str} {b : Nat} {it : DIter}
    (hon : DOn ts s it (x ++ [b + 1])) (hpath : DPath ts s (x ++ [b + 1])) (hpre : it.atPrefix = false)
    (hi : isInt ts (x ++ [b + 1]) = true) (hn : (x ++ [b + 1]).length + n = s) :
    ∃ it' t, it.leftLoop f.dense n (256 * num ts x + b) = .ok it' ∧ IsLeft ts (x ++ [b + 1]) t ∧ DLeft ts s it' t := by
  induction n generalizing x b it with
  | zero =>
    have hx := hpath x (b + 1) (List.prefix_refl _)
    unfold DIter.leftLoop
    rw [h.dchildNum hx.1 hx.2.1 (by omega) hi, ok_bind]
    obtain ⟨t, ht⟩ := exists_left h.wf (ex_of_int hi)
    have hlt := left_length h.wf hi ht.1 ht.2.1
    refine ⟨_, t, rfl, ht, ⟨dAt_sparse (hon.congr rfl rfl rfl) (by omega) ht.2.1 (by omega) hpre rfl rfl, ?_, fun _ => ?_, rfl⟩⟩
    · symm; simp [DIter.setFlags]; simp at hn hlt; omega
    · have : x ++ [b + 1] = t.take s := by
        rw [← (show (x ++ [b + 1]).length = s by omega)]; exact List.prefix_iff_eq_take.1 ht.2.1
      rw [← this]; rfl
  | succ n ih =>
    have hx := hpath x (b + 1) (List.prefix_refl _)
    unfold DIter.leftLoop
    rw [h.dchildNum hx.1 hx.2.1 (by omega) hi, ok_bind, h.dpref hi (by omega), ok_bind]
    obtain ⟨c, hc, hmin⟩ := exists_byte h.wf hi (by simp)
    have hc256 : c < 256 := by have := sym_le h.wf hc; omega
    rw [h.dfirst hi (by omega) (Or.inl (by simp)) hc hmin]
    obtain ⟨it', e, hon', hsame⟩ := hon.append (b := c) (by omega) hc256
    have hpath' := hpath.snoc hi (by omega) hc256
    have hpre' : it'.atPrefix = false := by rw [hsame.2.2.2.2.2]; exact hpre
    by_cases h0 : ex ts (x ++ [b + 1] ++ [0]) = true
    · rw [if_pos h0, ok_bind, e, ok_bind]
      have hleaf : x ++ [b + 1] ++ [0] ∈ ts := (leaf_of_ex h.wf h0).1 (isInt_term h.wf _)
      refine ⟨_, _, rfl, (isLeft_leaf h.wf hleaf).up h.wf (fun d hd => by omega), ⟨dAt_pre hon' hc hmin, ?_, fun hh => ?_, rfl⟩⟩
      · symm; simp [DIter.setFlags]; simp at hn; omega
      · simp at hh hn; omega
    · rw [if_neg h0, ok_bind, e, ok_bind, h.dchild hi (by omega) hc256, ok_bind]
      have hup : ∀ t, IsLeft ts (x ++ [b + 1] ++ [c + 1]) t → IsLeft ts (x ++ [b + 1]) t := by
        intro t ht
        refine ht.up h.wf fun d hd => ?_
        cases d with
        | zero => simpa using h0
        | succ d => exact hmin d (by omega)
      by_cases hic : isInt ts (x ++ [b + 1] ++ [c + 1]) = true
      · rw [hic]
        obtain ⟨it2, t, e2, hl, hd⟩ := ih hon' hpath' hpre' hic (by simp at hn ⊢; omega)
        simp only [Bool.not_true, Bool.false_eq_true, if_false]
        exact ⟨it2, t, e2, hup t hl, hd⟩
      · have hicf : isInt ts (x ++ [b + 1] ++ [c + 1]) = false := by simpa using hic
        rw [hicf]
        have hleaf : x ++ [b + 1] ++ [c + 1] ∈ ts := (leaf_of_ex h.wf hc).1 hicf
        refine ⟨_, _, rfl, hup _ (isLeft_leaf h.wf hleaf), ⟨dAt_leaf hon' hpath' hpre', ?_, fun hh => ?_, rfl⟩⟩
        · symm; simp [DIter.setFlags]; simp at hn; omega
        · have := hon'.le; omega

theorem FRep0.dleft (h : FRep0 cfg ts sw s f) {x : Str} {b : Nat} {it : DIter}
    (hon : DOn ts s it (x ++ [b + 1])) (hpath : DPath ts s (x ++ [b + 1])) (hpre : it.atPrefix = false)
    (hex : ex ts (x ++ [b + 1]) = true) :
    ∃ it' t, it.moveToLeftMostKey f.dense = .ok it' ∧ IsLeft ts (x ++ [b + 1]) t ∧ DLeft ts s it' t := by
  have hx := hpath x (b + 1) (List.prefix_refl _)
  have hlen := hon.len
  simp only [List.length_append, List.length_singleton] at hlen
  have hle := hon.le
  simp only [List.length_append, List.length_singleton] at hle
  have hs32 : s < M32 := by have := h.h32; have := h.sH; omega
  unfold DIter.moveToLeftMostKey
  rw [assertR_ok (by simp; omega), ok_bind]
  have e1 : sub32 it.keyLen 1 = x.length := by
    rw [hlen, sub32_eq (by omega) (by rw [M32_eq] at *; omega)]; omega
  rw [e1]
  dsimp only
  rw [hon.rd (List.prefix_refl _), ok_bind, h.dchild hx.1 hx.2.1 (by omega), ok_bind]
  by_cases hic : isInt ts (x ++ [b + 1]) = true
  · rw [hic]
    obtain ⟨it2, t, e2, hl, hd⟩ := h.dleftLoop (f.dense.height - 1 - x.length) hon hpath hpre hic (by
      rw [h.dense.height]; simp; omega)
    simp only [Bool.not_true, Bool.false_eq_true, if_false]
    exact ⟨it2, t, e2, hl, hd⟩
  · have hicf : isInt ts (x ++ [b + 1]) = false := by simpa using hic
    rw [hicf]
    have hleaf : x ++ [b + 1] ∈ ts := (leaf_of_ex h.wf hex).1 hicf
    refine ⟨_, _, rfl, isLeft_leaf h.wf hleaf, ⟨dAt_leaf hon hpath hpre, ?_, fun hh => ?_, rfl⟩⟩
    · symm; simp [DIter.setFlags]; omega
    · have := hon.le; omega

theorem FRep0.drightLoop (h : FRep0 cfg ts sw s f) (n : Nat) {x : Str} {b : Nat} {it : DIter}
    (hon : DOn ts s it (x ++ [b + 1])) (hpath : DPath ts s (x ++ [b + 1])) (hpre : it.atPrefix = false)
    (hi : isInt ts (x ++ [b + 1]) = true) (hn : (x ++ [b + 1]).length + n = s) :
    ∃ it' t, it.rightLoop f.dense n (256 * num ts x + b) = .ok it' ∧ IsRight ts (x ++ [b + 1]) t ∧ DRight ts s it' t := by
  induction n generalizing x b it with
  | zero =>
    have hx := hpath x (b + 1) (List.prefix_refl _)
    unfold DIter.rightLoop
    rw [h.dchildNum hx.1 hx.2.1 (by omega) hi, ok_bind]
    obtain ⟨t, ht⟩ := exists_right h.wf (ex_of_int hi)
    have hlt := left_length h.wf hi ht.1 ht.2.1
    refine ⟨_, t, rfl, ht, ⟨dAt_sparse (hon.congr rfl rfl rfl) (by omega) ht.2.1 (by omega) hpre rfl rfl, ?_, fun _ => ?_, rfl⟩⟩
    · symm; simp [DIter.setFlags]; simp at hn hlt; omega
    · have : x ++ [b + 1] = t.take s := by
        rw [← (show (x ++ [b + 1]).length = s by omega)]; exact List.prefix_iff_eq_take.1 ht.2.1
      rw [← this]; rfl
  | succ n ih =>
    have hx := hpath x (b + 1) (List.prefix_refl _)
    unfold DIter.rightLoop
    rw [h.dchildNum hx.1 hx.2.1 (by omega) hi, ok_bind]
    have e1 : mul32 (add32 (num ts (x ++ [b + 1])) 1) kFanout = 256 * num ts (x ++ [b + 1]) + 256 := by
      have := num_lt h.wf hi (by omega) h.nodes_s
      have := h.d32
      unfold kFanout
      rw [add32_eq (by omega), mul32_eq (by omega)]
      omega
    rw [e1]
    obtain ⟨q, e2, hq⟩ := h.dprev hi (by omega) (le_refl 256) hpath.nz
    rw [e2, ok_bind]
    obtain ⟨c0, hc0, -⟩ := exists_byte h.wf hi (by simp)
    have hc0256 : c0 < 256 := by have := sym_le h.wf hc0; omega
    rcases hq with ⟨c, hc256, hc, hmax, hq⟩ | ⟨hno, -⟩
    swap
    · rw [hno c0 hc0256] at hc0; cases hc0
    rcases hq with rfl | ⟨-, hnil, -⟩
    swap
    · simp at hnil
    dsimp only
    obtain ⟨it', e, hon', hsame⟩ := hon.append (b := c) (by omega) hc256
    have hpath' := hpath.snoc hi (by omega) hc256
    have hpre' : it'.atPrefix = false := by rw [hsame.2.2.2.2.2]; exact hpre
    rw [e, ok_bind, h.dchild hi (by omega) hc256, ok_bind]
    have hup : ∀ t, IsRight ts (x ++ [b + 1] ++ [c + 1]) t → IsRight ts (x ++ [b + 1]) t := by
      intro t ht
      refine ht.up h.wf fun d hd => ?_
      obtain ⟨d, rfl⟩ : ∃ e, d = e + 1 := ⟨d - 1, by omega⟩
      rcases Nat.lt_or_ge d 256 with h5 | h5
      · exact hmax d (by omega) h5
      · exact ex_big h.wf _ h5
    by_cases hic : isInt ts (x ++ [b + 1] ++ [c + 1]) = true
    · rw [hic]
      obtain ⟨it2, t, e2, hl, hd⟩ := ih hon' hpath' hpre' hic (by simp at hn ⊢; omega)
      simp only [Bool.not_true, Bool.false_eq_true, if_false]
      exact ⟨it2, t, e2, hup t hl, hd⟩
    · have hicf : isInt ts (x ++ [b + 1] ++ [c + 1]) = false := by simpa using hic
      rw [hicf]
      have hleaf : x ++ [b + 1] ++ [c + 1] ∈ ts := (leaf_of_ex h.wf hc).1 hicf
      refine ⟨_, _, rfl, hup _ (isRight_leaf h.wf hleaf), ⟨dAt_leaf hon' hpath' hpre', ?_, fun hh => ?_, rfl⟩⟩
      · symm; simp [DIter.setFlags]; simp at hn; omega
      · have := hon'.le; omega

theorem FRep0.dright (h : FRep0 cfg ts sw s f) {x : Str} {b : Nat} {it : DIter}
    (hon : DOn ts s it (x ++ [b + 1])) (hpath : DPath ts s (x ++ [b + 1])) (hpre : it.atPrefix = false)
    (hex : ex ts (x ++ [b + 1]) = true) :
    ∃ it' t, it.moveToRightMostKey f.dense = .ok it' ∧ IsRight ts (x ++ [b + 1]) t ∧ DRight ts s it' t := by
  have hx := hpath x (b + 1) (List.prefix_refl _)
  have hlen := hon.len
  simp only [List.length_append, List.length_singleton] at hlen
  have hle := hon.le
  simp only [List.length_append, List.length_singleton] at hle
  have hs32 : s < M32 := by have := h.h32; have := h.sH; omega
  unfold DIter.moveToRightMostKey
  rw [assertR_ok (by simp; omega), ok_bind]
  have e1 : sub32 it.keyLen 1 = x.length := by
    rw [hlen, sub32_eq (by omega) (by rw [M32_eq] at *; omega)]; omega
  rw [e1]
  dsimp only
  rw [hon.rd (List.prefix_refl _), ok_bind, h.dchild hx.1 hx.2.1 (by omega), ok_bind]
  by_cases hic : isInt ts (x ++ [b + 1]) = true
  · rw [hic]
    obtain ⟨it2, t, e2, hl, hd⟩ := h.drightLoop (f.dense.height - 1 - x.length) hon hpath hpre hic (by
      rw [h.dense.height]; simp; omega)
    simp only [Bool.not_true, Bool.false_eq_true, if_false]
    exact ⟨it2, t, e2, hl, hd⟩
  · have hicf : isInt ts (x ++ [b + 1]) = false := by simpa using hic
    rw [hicf]
    have hleaf : x ++ [b + 1] ∈ ts := (leaf_of_ex h.wf hex).1 hicf
    refine ⟨_, _, rfl, isRight_leaf h.wf hleaf, ⟨dAt_leaf hon hpath hpre, ?_, fun hh => ?_, rfl⟩⟩
    · symm; simp [DIter.setFlags]; omega
    · have := hon.le; omega

/-! ## Increment -/

theorem FRep0.dincLoop (h : FRep0 cfg ts sw s f) (hstr : Env.strict = false) (n : Nat) {p : Str} {it : DIter}
    (hn : p.length = n + 1) (hon : DOn ts s { it with keyLen := p.length } p) (hpath : DPath ts s p) (hpre : it.atPrefix = false) :
    ∃ it', it.incLoop f.dense (n + 1) = .ok it' ∧
      ((NoNext ts p ∧ it'.valid = false ∧ it'.keyLen = 0) ∨ ∃ t, IsNext ts p t ∧ DLeft ts s it' t) := by
  induction n generalizing p with
  | zero =>
    obtain ⟨c, rfl⟩ := List.length_eq_one_iff.1 hn
    have hx := hpath [] c (List.prefix_refl _)
    obtain ⟨b, rfl⟩ : ∃ e, c = e + 1 := ⟨c - 1, by omega⟩
    have hb : b < 256 := by omega
    obtain ⟨q, e, hq⟩ := h.dnext hstr hx.1 hx.2.1 hb
    have hrd := hon.rd (x := []) (List.prefix_refl _)
    simp only [List.length_nil] at hrd
    unfold DIter.incLoop
    rw [hrd, ok_bind, e, ok_bind]
    have hk : (256 * num ts [] + b) / kFanout = num ts [] := by unfold kFanout; omega
    rcases hq with ⟨b', hbb, hb', hex', hmin, rfl⟩ | ⟨hno, hq⟩
    · have hk' : (256 * num ts [] + b') / kFanout = num ts [] := by unfold kFanout; omega
      rw [hk, hk', if_neg (by omega)]
      obtain ⟨it1, e1, hon1, hsame⟩ := DOn.set (x := []) (c := b + 1) (b := b') hon hb'
      simp only [List.length_nil] at e1
      have e1' : DIter.set { it with keyLen := 0 + 1 } 0 (256 * num ts [] + b') = .ok it1 := e1
      rw [e1', ok_bind]
      have hpath' : DPath ts s ([] ++ [b' + 1]) := DPath.nil.snoc hx.1 hx.2.1 hb'
      obtain ⟨it2, t, e2, hl, hd⟩ := h.dleft hon1 hpath' (by rw [hsame.2.2.2.2.2]; exact hpre) hex'
      refine ⟨it2, e2, Or.inr ⟨t, ?_, hd⟩⟩
      refine hl.next h.wf (c := b + 1) (by omega) fun d h1 h2 => ?_
      obtain ⟨d, rfl⟩ : ∃ e, d = e + 1 := ⟨d - 1, by omega⟩
      exact hmin d (by omega) (by omega)
    · rw [hk, if_pos (by unfold kFanout; omega), if_pos rfl]
      refine ⟨_, rfl, Or.inl ⟨?_, rfl, rfl⟩⟩
      refine NoNext.up (x := []) h.wf hx.1 (fun d hd => ?_) noNext_root
      obtain ⟨d, rfl⟩ : ∃ e, d = e + 1 := ⟨d - 1, by omega⟩
      exact hno d (by omega)
  | succ n ih =>
    obtain ⟨x, c, rfl⟩ : ∃ x c, p = x ++ [c] := by
      rcases List.eq_nil_or_concat p with rfl | ⟨x, c, rfl⟩
      · simp at hn
      · exact ⟨x, c, by simp⟩
    have hx := hpath x c (List.prefix_refl _)
    obtain ⟨b, rfl⟩ : ∃ e, c = e + 1 := ⟨c - 1, by omega⟩
    have hb : b < 256 := by omega
    have hxl : x.length = n + 1 := by simpa using hn
    obtain ⟨q, e, hq⟩ := h.dnext hstr hx.1 hx.2.1 hb
    have hrd := hon.rd (x := x) (List.prefix_refl _)
    dsimp only at hrd
    rw [hxl] at hrd
    unfold DIter.incLoop
    rw [hrd, ok_bind, e, ok_bind]
    have hk : (256 * num ts x + b) / kFanout = num ts x := by unfold kFanout; omega
    rcases hq with ⟨b', hbb, hb', hex', hmin, rfl⟩ | ⟨hno, hq⟩
    · have hk' : (256 * num ts x + b') / kFanout = num ts x := by unfold kFanout; omega
      rw [hk, hk', if_neg (by omega)]
      obtain ⟨it1, e1, hon1, hsame⟩ := DOn.set (x := x) (c := b + 1) (b := b') hon hb'
      simp only [List.length_append, List.length_singleton] at e1
      rw [hxl] at e1
      rw [e1, ok_bind]
      have hpath' : DPath ts s (x ++ [b' + 1]) := (hpath.take (List.prefix_append _ _)).snoc hx.1 hx.2.1 hb'
      obtain ⟨it2, t, e2, hl, hd⟩ := h.dleft hon1 hpath' (by rw [hsame.2.2.2.2.2]; exact hpre) hex'
      refine ⟨it2, e2, Or.inr ⟨t, ?_, hd⟩⟩
      refine hl.next h.wf (c := b + 1) (by omega) fun d h1 h2 => ?_
      obtain ⟨d, rfl⟩ : ∃ e, d = e + 1 := ⟨d - 1, by omega⟩
      exact hmin d (by omega) (by omega)
    · rw [hk, if_pos (by unfold kFanout; omega), if_neg (by omega)]
      obtain ⟨it', e', hr⟩ := ih hxl (hon.take (List.prefix_append _ _)) (hpath.take (List.prefix_append _ _))
      have hno' : ∀ d, b + 1 < d → ex ts (x ++ [d]) = false := fun d hd => by
        obtain ⟨d, rfl⟩ : ∃ e, d = e + 1 := ⟨d - 1, by omega⟩
        exact hno d (by omega)
      refine ⟨it', e', ?_⟩
      rcases hr with ⟨h1, h2⟩ | ⟨t, h1, h2⟩
      · exact Or.inl ⟨h1.up h.wf hx.1 hno', h2⟩
      · exact Or.inr ⟨t, h1.up h.wf hx.1 hno', h2⟩

/-- `++` on a path. -/
theorem FRep0.dinc (h : FRep0 cfg ts sw s f) (hstr : Env.strict = false) {p : Str} {it : DIter}
    (hp : p ≠ []) (hon : DOn ts s it p) (hpath : DPath ts s p) (hpre : it.atPrefix = false) :
    ∃ it', it.inc f.dense = .ok it' ∧
      ((NoNext ts p ∧ it'.valid = false ∧ it'.keyLen = 0) ∨ ∃ t, IsNext ts p t ∧ DLeft ts s it' t) := by
  have hlen := hon.len
  have hpos : 0 < p.length := List.length_pos_iff.2 hp
  obtain ⟨n, hn⟩ : ∃ n, p.length = n + 1 := ⟨p.length - 1, by omega⟩
  unfold DIter.inc
  rw [assertR_ok (by simp; omega), ok_bind, if_neg (by simp [hpre]), hlen, hn]
  have : ({ it with keyLen := p.length } : DIter) = it := by rw [← hlen]
  exact h.dincLoop hstr n hn (by rw [this]; exact hon) hpath hpre

/-- `++` at a prefix key. -/
theorem FRep0.dincPre (h : FRep0 cfg ts sw s f) {x : Str} {b : Nat} {it : DIter}
    (hon : DOn ts s it (x ++ [b + 1])) (hpath : DPath ts s (x ++ [b + 1])) (hpre : it.atPrefix = true)
    (hex : ex ts (x ++ [b + 1]) = true) (hmin : ∀ d, d < b → ex ts (x ++ [d + 1]) = false) :
    ∃ it' t, it.inc f.dense = .ok it' ∧ IsNext ts (x ++ [0]) t ∧ DLeft ts s it' t := by
  have hlen := hon.len
  simp only [List.length_append, List.length_singleton] at hlen
  unfold DIter.inc
  rw [assertR_ok (by simp; omega), ok_bind, if_pos hpre]
  obtain ⟨it2, t, e2, hl, hd⟩ := h.dleft (it := { it with atPrefix := false }) (hon.congr rfl rfl rfl) hpath rfl hex
  refine ⟨it2, t, e2, hl.next h.wf (by omega) fun d h1 h2 => ?_, hd⟩
  obtain ⟨d, rfl⟩ : ∃ e, d = e + 1 := ⟨d - 1, by omega⟩
  exact hmin d (by omega)

/-! ## Decrement -/

/-- The leaf starts with the terminator or byte 0x00. -/
def Low (t : Str) : Prop := ∃ c t', t = c :: t' ∧ c ≤ 1

omit [Env] in
theorem low_of_lt {t : Str} {x : Str} (h : t < 1 :: x) (ht : t ≠ []) : Low t := by
  cases t with
  | nil => exact absurd rfl ht
  | cons c t =>
    rw [List.cons_lt_cons_iff] at h
    exact ⟨c, t, rfl, by omega⟩

omit [Env] in
theorem low_root (h : WF ts) {b : Nat} (hno : ∀ d, d < b → ex ts ([] ++ [d + 1]) = false) {t : Str}
    (hp : IsPrev ts [b + 1] t) : Low t := by
  cases t with
  | nil => exact absurd rfl (h.nonempty _ hp.1)
  | cons c t =>
    have h1 := hp.2.1
    rw [List.cons_lt_cons_iff] at h1
    have hc : c < b + 1 := by
      rcases h1 with h1 | ⟨-, h1⟩
      · exact h1
      · simp at h1
    refine ⟨c, t, rfl, ?_⟩
    rcases Nat.eq_zero_or_pos c with h0 | h0
    · omega
    · have := hno (c - 1) (by omega)
      rw [show c - 1 + 1 = c by omega, ex_prefix (ex_mem hp.1) ⟨t, rfl⟩] at this
      cases this

theorem FRep0.ddecLoop (h : FRep0 cfg ts sw s f) (n : Nat) {p : Str} {it : DIter}
    (hn : p.length = n + 1) (hon : DOn ts s { it with keyLen := p.length } p) (hpath : DPath ts s p) (hpre : it.atPrefix = false)
    (hex : ex ts p = true) :
    ∃ it', it.decLoop f.dense (n + 1) = .ok it' ∧
      ((it'.valid = false ∧ ∀ t, IsPrev ts p t → Low t) ∨ ∃ t, IsPrev ts p t ∧ DRight ts s it' t) := by
  induction n generalizing p with
  | zero =>
    obtain ⟨c, rfl⟩ := List.length_eq_one_iff.1 hn
    have hx := hpath [] c (List.prefix_refl _)
    obtain ⟨b, rfl⟩ : ∃ e, c = e + 1 := ⟨c - 1, by omega⟩
    have hb : b < 256 := by omega
    obtain ⟨q, e, hq⟩ := h.dprev hx.1 hx.2.1 (le_of_lt hb) (by simp)
    have hrd := hon.rd (x := []) (List.prefix_refl _)
    simp only [List.length_nil] at hrd
    unfold DIter.decLoop
    rw [hrd, ok_bind, e, ok_bind]
    have hk : (256 * num ts [] + b) / kFanout = num ts [] := by unfold kFanout; omega
    rcases hq with ⟨b', hbb, hex', hmax, hq⟩ | ⟨hno, hq⟩
    · have hprev : ∀ t, IsRight ts ([] ++ [b' + 1]) t → IsPrev ts ([] ++ [b + 1]) t := fun t ht =>
        ht.prev h.wf (by omega) fun d h1 h2 => by
          obtain ⟨d, rfl⟩ : ∃ e, d = e + 1 := ⟨d - 1, by omega⟩
          exact hmax d (by omega) (by omega)
      rcases hq with rfl | ⟨rfl, -, rfl⟩
      · have hk' : (256 * num ts [] + b') / kFanout = num ts [] := by unfold kFanout; omega
        dsimp only
        rw [hk, hk', if_neg (by omega)]
        obtain ⟨it1, e1, hon1, hsame⟩ := DOn.set (x := []) (c := b + 1) (b := b') hon (by omega)
        simp only [List.length_nil] at e1
        have e1' : DIter.set { it with keyLen := 0 + 1 } 0 (256 * num ts [] + b') = .ok it1 := e1
        rw [e1', ok_bind]
        have hpath' : DPath ts s ([] ++ [b' + 1]) := DPath.nil.snoc hx.1 hx.2.1 (by omega)
        obtain ⟨it2, t, e2, hl, hd⟩ := h.dright hon1 hpath' (by rw [hsame.2.2.2.2.2]; exact hpre) hex'
        exact ⟨it2, e2, Or.inr ⟨t, hprev t hl, hd⟩⟩
      · refine ⟨_, rfl, Or.inl ⟨rfl, fun t ht => ?_⟩⟩
        obtain ⟨t', ht'⟩ := exists_right h.wf hex'
        have := (hprev t' ht').unique ht
        subst this
        obtain ⟨r, rfl⟩ := ht'.2.1
        exact ⟨1, r, rfl, le_refl _⟩
    · rcases hq with ⟨rfl, -⟩ | ⟨q, -, hq⟩
      · exact ⟨_, rfl, Or.inl ⟨rfl, fun t ht => low_root h.wf hno ht⟩⟩
      · rw [num_root h.wf] at hq; omega
  | succ n ih =>
    obtain ⟨x, c, rfl⟩ : ∃ x c, p = x ++ [c] := by
      rcases List.eq_nil_or_concat p with rfl | ⟨x, c, rfl⟩
      · simp at hn
      · exact ⟨x, c, by simp⟩
    have hx := hpath x c (List.prefix_refl _)
    obtain ⟨b, rfl⟩ : ∃ e, c = e + 1 := ⟨c - 1, by omega⟩
    have hb : b < 256 := by omega
    have hxl : x.length = n + 1 := by simpa using hn
    have hpx := hpath.take (List.prefix_append x [b + 1])
    obtain ⟨q, e, hq⟩ := h.dprev hx.1 hx.2.1 (le_of_lt hb) hpx.nz
    have hrd := hon.rd (x := x) (List.prefix_refl _)
    dsimp only at hrd
    rw [hxl] at hrd
    unfold DIter.decLoop
    rw [hrd, ok_bind, e, ok_bind]
    have hk : (256 * num ts x + b) / kFanout = num ts x := by unfold kFanout; omega
    have hx0 : x ≠ [] := by rintro rfl; simp at hxl
    rcases hq with ⟨b', hbb, hex', hmax, hq⟩ | ⟨hno, hq⟩
    · have hprev : ∀ t, IsRight ts (x ++ [b' + 1]) t → IsPrev ts (x ++ [b + 1]) t := fun t ht =>
        ht.prev h.wf (by omega) fun d h1 h2 => by
          obtain ⟨d, rfl⟩ : ∃ e, d = e + 1 := ⟨d - 1, by omega⟩
          exact hmax d (by omega) (by omega)
      rcases hq with rfl | ⟨-, h0, -⟩
      swap
      · exact absurd h0 hx0
      have hk' : (256 * num ts x + b') / kFanout = num ts x := by unfold kFanout; omega
      dsimp only
      rw [hk, hk', if_neg (by omega)]
      obtain ⟨it1, e1, hon1, hsame⟩ := DOn.set (x := x) (c := b + 1) (b := b') hon (by omega)
      simp only [List.length_append, List.length_singleton] at e1
      rw [hxl] at e1
      rw [e1, ok_bind]
      have hpath' : DPath ts s (x ++ [b' + 1]) := hpx.snoc hx.1 hx.2.1 (by omega)
      obtain ⟨it2, t, e2, hl, hd⟩ := h.dright hon1 hpath' (by rw [hsame.2.2.2.2.2]; exact hpre) hex'
      exact ⟨it2, e2, Or.inr ⟨t, hprev t hl, hd⟩⟩
    · rcases hq with ⟨rfl, hq⟩ | ⟨q, rfl, hq⟩
      · obtain ⟨x', rfl⟩ : ∃ x', x = 1 :: x' := by
          rcases hq with h0 | h0
          · exact absurd h0 hx0
          · exact h0
        exact ⟨_, rfl, Or.inl ⟨rfl, fun t ht => low_of_lt (x := x' ++ [b + 1]) ht.2.1 (h.wf.nonempty _ ht.1)⟩⟩
      · dsimp only
        rw [hk, if_pos (by unfold kFanout; omega), h.dpref hx.1 hx.2.1, ok_bind]
        by_cases h0 : ex ts (x ++ [0]) = true
        · rw [if_pos h0]
          have hleaf : x ++ [0] ∈ ts := (leaf_of_ex h.wf h0).1 (isInt_term h.wf _)
          have hp1 : IsPrev ts (x ++ [b + 1]) (x ++ [0]) :=
            (isRight_leaf h.wf hleaf).prev h.wf (by omega) fun d h1 h2 => by
              obtain ⟨d, rfl⟩ : ∃ e, d = e + 1 := ⟨d - 1, by omega⟩
              exact hno d (by omega)
          have hon' : DOn ts s { it with keyLen := n + 1 + 1 } (x ++ [b + 1]) := by
            refine hon.congr ?_ rfl rfl
            simpa using hxl.symm
          refine ⟨_, rfl, Or.inr ⟨_, hp1, ⟨dAt_pre hon' hex hno, ?_, fun hh => ?_, rfl⟩⟩⟩
          · symm; simp [DIter.setFlags]; have := hx.2.1; omega
          · simp at hh; have := hx.2.1; omega
        · rw [if_neg h0, if_neg (by omega)]
          obtain ⟨it', e', hr⟩ := ih hxl (hon.take (List.prefix_append _ _)) hpx (ex_of_int hx.1)
          have hno' : ∀ d, d < b + 1 → ex ts (x ++ [d]) = false := fun d hd => by
            cases d with
            | zero => simpa using h0
            | succ d => exact hno d (by omega)
          refine ⟨it', e', ?_⟩
          rcases hr with ⟨h1, h2⟩ | ⟨t, h1, h2⟩
          · refine Or.inl ⟨h1, fun t ht => h2 t ⟨ht.1, lt_parent h.wf hx.1 hno' ht.1 ht.2.1, fun t' ht' hlt =>
              ht.2.2 t' ht' (lt_of_lt_of_le hlt (le_append _ _))⟩⟩
          · exact Or.inr ⟨t, h1.up h.wf hx.1 hno', h2⟩

/-- `--` on a path. -/
theorem FRep0.ddec (h : FRep0 cfg ts sw s f) {p : Str} {it : DIter}
    (hp : p ≠ []) (hon : DOn ts s it p) (hpath : DPath ts s p) (hpre : it.atPrefix = false) (hex : ex ts p = true) :
    ∃ it', it.dec f.dense = .ok it' ∧
      ((it'.valid = false ∧ ∀ t, IsPrev ts p t → Low t) ∨ ∃ t, IsPrev ts p t ∧ DRight ts s it' t) := by
  have hlen := hon.len
  have hpos : 0 < p.length := List.length_pos_iff.2 hp
  obtain ⟨n, hn⟩ : ∃ n, p.length = n + 1 := ⟨p.length - 1, by omega⟩
  unfold DIter.dec
  rw [assertR_ok (by simp; omega), ok_bind, if_neg (by simp [hpre]), hlen, hn]
  have : ({ it with keyLen := p.length } : DIter) = it := by rw [← hlen]
  exact h.ddecLoop n hn (by rw [this]; exact hon) hpath hpre hex

/-- `--` at a prefix key. -/
theorem FRep0.ddecPre (h : FRep0 cfg ts sw s f) {x : Str} {b : Nat} {it : DIter} (hx0 : x ≠ [])
    (hon : DOn ts s it (x ++ [b + 1])) (hpath : DPath ts s (x ++ [b + 1])) (hpre : it.atPrefix = true) :
    ∃ it', it.dec f.dense = .ok it' ∧
      ((it'.valid = false ∧ ∀ t, IsPrev ts (x ++ [0]) t → Low t) ∨ ∃ t, IsPrev ts (x ++ [0]) t ∧ DRight ts s it' t) := by
  have hx := hpath x (b + 1) (List.prefix_refl _)
  have hlen := hon.len
  simp only [List.length_append, List.length_singleton] at hlen
  have hpos : 0 < x.length := List.length_pos_iff.2 hx0
  obtain ⟨n, hn⟩ : ∃ n, x.length = n + 1 := ⟨x.length - 1, by omega⟩
  unfold DIter.dec
  rw [assertR_ok (by simp; omega), ok_bind, if_pos hpre, hlen, Nat.add_sub_cancel, hn]
  have hon' := hon.take (List.prefix_append x [b + 1])
  obtain ⟨it', e, hr⟩ := h.ddecLoop (it := { it with atPrefix := false }) n hn (hon'.congr rfl rfl rfl)
    (hpath.take (List.prefix_append x [b + 1])) rfl (ex_of_int hx.1)
  refine ⟨it', by rw [hlen, hn] at e; exact e, ?_⟩
  have hno' : ∀ d, d < 0 → ex ts (x ++ [d]) = false := fun d hd => by omega
  rcases hr with ⟨h1, h2⟩ | ⟨t, h1, h2⟩
  · refine Or.inl ⟨h1, fun t ht => h2 t ⟨ht.1, lt_parent h.wf hx.1 hno' ht.1 ht.2.1, fun t' ht' hlt =>
      ht.2.2 t' ht' (lt_of_lt_of_le hlt (le_append _ _))⟩⟩
  · exact Or.inr ⟨t, h1.up h.wf hx.1 hno', h2⟩

end Surf
