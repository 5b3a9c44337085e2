import Verif.Proof.BuilderKeys

/-! # Dense levels (surf_builder.hpp:353-397) -/

set_option linter.unusedSectionVars false

namespace Surf
open Trie

theorem snoc_lt {x : Str} {a b : Nat} : x ++ [a] < x ++ [b] ↔ a < b := by
  rw [lt_append]
  constructor
  · intro h
    rcases List.cons_lt_cons_iff.1 h with h | ⟨-, h⟩
    · exact h
    · exact absurd h (lt_irrefl _)
  · intro h; exact List.cons_lt_cons_iff.2 (Or.inl h)

/-! ## LOUDS bits of node blocks -/

theorem startsFrom_block {x : Str} {b : List Str} (hb : ∀ p ∈ b, p.dropLast = x) (r : List Str) :
    startsFrom (some x) (b ++ r) = List.replicate b.length false ++ startsFrom (some x) r := by
  induction b with
  | nil => simp
  | cons p b ih =>
    have hp := hb p (by simp)
    simp only [List.cons_append, startsFrom, hp, bne_self_eq_false, List.length_cons, List.replicate_succ,
      List.cons.injEq, true_and]
    exact ih fun q hq => hb q (by simp [hq])

/-- LOUDS bits of one node with `n` items. -/
def blk (n : Nat) : List Bool := true :: List.replicate (n - 1) false

theorem startsFrom_flatMap {f : Str → List Str} (xs : List Str) (hne : ∀ x ∈ xs, f x ≠ [])
    (hf : ∀ x ∈ xs, ∀ p ∈ f x, p.dropLast = x) (hnd : xs.Nodup) (pr : Option Str)
    (hpr : ∀ x ∈ xs.head?, pr ≠ some x) :
    startsFrom pr (xs.flatMap f) = xs.flatMap fun x => blk (f x).length := by
  induction xs generalizing pr with
  | nil => rfl
  | cons x xs ih =>
    rw [List.nodup_cons] at hnd
    have hfx := hf x (by simp)
    obtain ⟨p, b, hpb⟩ := List.exists_cons_of_ne_nil (hne x (by simp))
    rw [List.flatMap_cons, List.flatMap_cons, hpb]
    rw [hpb] at hfx
    have hp := hfx p (by simp)
    rw [List.cons_append, startsFrom, hp, startsFrom_block (fun q hq => hfx q (by simp [hq])),
      ih (fun y hy => hne y (by simp [hy])) (fun y hy => hf y (by simp [hy])) hnd.2]
    · have := hpr x (by simp)
      simp [blk, this]
    · intro y hy he
      simp only [Option.some.injEq] at he
      subst he
      exact hnd.1 (List.mem_of_head? hy)

theorem starts_flatMap {f : Str → List Str} {xs : List Str} (hne : ∀ x ∈ xs, f x ≠ [])
    (hf : ∀ x ∈ xs, ∀ p ∈ f x, p.dropLast = x) (hnd : xs.Nodup) :
    starts (xs.flatMap f) = xs.flatMap fun x => blk (f x).length :=
  startsFrom_flatMap xs hne hf hnd none (by simp)

theorem count_blk {n : Nat} : (blk n).count true = 1 := by
  simp [blk, List.count_eq_zero]

theorem blk_length {n : Nat} (h : 0 < n) : (blk n).length = n := by simp [blk]; omega

theorem count_blks (f : Str → List Str) (xs : List Str) :
    (xs.flatMap fun x => blk (f x).length).count true = xs.length := by
  induction xs with
  | nil => rfl
  | cons x xs ih => rw [List.flatMap_cons, List.count_append, ih, count_blk]; simp; omega

theorem length_blks {f : Str → List Str} {xs : List Str} (hne : ∀ x ∈ xs, f x ≠ []) :
    (xs.flatMap fun x => blk (f x).length).length = (xs.flatMap f).length := by
  induction xs with
  | nil => rfl
  | cons x xs ih =>
    rw [List.flatMap_cons, List.flatMap_cons, List.length_append, List.length_append,
      ih (fun y hy => hne y (by simp [hy])), blk_length (List.length_pos_of_ne_nil (hne x (by simp)))]

/-- Within the block of `x` the number of node starts seen is the number of nodes up to `x`. -/
theorem count_take_blks {f : Str → List Str} {A C : List Str} {x : Str} (hne : ∀ y ∈ A ++ x :: C, f y ≠ [])
    {i : Nat} (hi : i < (f x).length) :
    (((A ++ x :: C).flatMap fun y => blk (f y).length).take ((A.flatMap f).length + i + 1)).count true
      = A.length + 1 := by
  have hA := length_blks (f := f) (xs := A) (fun y hy => hne y (by simp [hy]))
  rw [List.flatMap_append, List.take_append, List.take_of_length_le (by omega), List.count_append,
    count_blks, hA, List.flatMap_cons]
  have hb := blk_length (n := (f x).length) (by omega)
  rw [List.take_append_of_le_length (by omega)]
  have : (A.flatMap f).length + i + 1 - (A.flatMap f).length = i + 1 := by omega
  rw [this, blk, List.take_succ_cons, List.count_cons_self]
  congr 1
  have : List.count true (List.take i (List.replicate ((f x).length - 1) false)) = 0 := by
    rw [List.count_eq_zero]
    intro h
    have := List.mem_of_mem_take h
    simp at this
  omega

theorem idxOf_append_cons {A C : List Str} {x : Str} (h : x ∉ A) : (A ++ x :: C).idxOf x = A.length := by
  rw [List.idxOf_append_of_notMem h, List.idxOf_cons_self]; rfl

/-- The node index of an item from the LOUDS bits. -/
theorem starts_ix {f : Str → List Str} {xs : List Str} (hne : ∀ x ∈ xs, f x ≠ [])
    (hf : ∀ x ∈ xs, ∀ p ∈ f x, p.dropLast = x) (hnd : xs.Nodup) {m : Nat} {p : Str}
    (hp : (xs.flatMap f)[m]? = some p) :
    ((starts (xs.flatMap f)).take (m + 1)).count true = xs.idxOf p.dropLast + 1 ∧ p.dropLast ∈ xs := by
  rw [starts_flatMap hne hf hnd]
  -- locate the block
  obtain ⟨A, x, C, i, rfl, hi, hm, hpx⟩ : ∃ A x C i, xs = A ++ x :: C ∧ i < (f x).length ∧
      m = (A.flatMap f).length + i ∧ p ∈ f x := by
    clear hne hf hnd
    induction xs generalizing m with
    | nil => simp at hp
    | cons y ys ih =>
      rw [List.flatMap_cons] at hp
      by_cases h : m < (f y).length
      · rw [List.getElem?_append_left h] at hp
        exact ⟨[], y, ys, m, rfl, h, by simp, List.mem_of_getElem? hp⟩
      · rw [List.getElem?_append_right (by omega)] at hp
        obtain ⟨A, x, C, i, rfl, hi, hm, hpx⟩ := ih hp
        exact ⟨y :: A, x, C, i, rfl, hi, by rw [List.flatMap_cons, List.length_append]; omega, hpx⟩
  subst hm
  have hx : p.dropLast = x := hf x (by simp) p hpx
  rw [hx]
  refine ⟨?_, by simp⟩
  rw [count_take_blks hne hi, idxOf_append_cons]
  rw [List.nodup_append] at hnd
  intro h
  exact hnd.2.2 x h x (by simp) rfl

/-! ## Level facts -/

theorem lev_blocks {ts : List Str} (hs : ts.Pairwise (· < ·)) (l : Nat) :
    lev ts (l + 1) = (nodes ts l).flatMap (kidItems ts) ∧
    (∀ x ∈ nodes ts l, kidItems ts x ≠ []) ∧ (∀ x ∈ nodes ts l, ∀ p ∈ kidItems ts x, p.dropLast = x) ∧
    (nodes ts l).Nodup := by
  refine ⟨lev_succ hs l, fun x hx => kidItems_ne_nil (mem_nodes.1 hx).2, ?_,
    (nodes_sorted hs l).imp (fun h => ne_of_lt h)⟩
  intro x _ p hp
  obtain ⟨⟨c, rfl⟩, -⟩ := mem_kidItems.1 hp
  simp

theorem lev_nodeCount {ts : List Str} (hs : ts.Pairwise (· < ·)) (l : Nat) :
    (starts (lev ts (l + 1))).count true = (nodes ts l).length := by
  obtain ⟨h1, h2, h3, h4⟩ := lev_blocks hs l
  rw [h1, starts_flatMap h2 h3 h4, count_blks]

/-- The label bitmap: 256 bits per node. -/
def labelBits (ts : List Str) (xs : List Str) : List Bool :=
  xs.flatMap fun x => (List.range 256).map fun b => ts.any fun t => decide (x ++ [b + 1] <+: t)

/-- The child bitmap. -/
def childBits (ts : List Str) (xs : List Str) : List Bool :=
  xs.flatMap fun x => (List.range 256).map fun b => isInt ts (x ++ [b + 1])

/-- The prefix-key bits. -/
def prefBits (ts : List Str) (xs : List Str) : List Bool :=
  xs.map fun x => ts.any fun t => decide (x ++ [0] <+: t)

theorem getD_map256 {g : Str → Nat → Bool} (xs : List Str) (i : Nat) :
    (xs.flatMap fun x => (List.range 256).map (g x)).getD i false =
      (decide (i / 256 < xs.length) && g (xs.getD (i / 256) []) (i % 256)) := by
  induction xs generalizing i with
  | nil => simp
  | cons x xs ih =>
    rw [List.flatMap_cons]
    by_cases h : i < 256
    · rw [getD_append_lt (by simpa using h)]
      have h0 : i / 256 = 0 := by omega
      have h1 : i % 256 = i := by omega
      simp [List.getD, h0, h1, h]
    · rw [getD_append_ge (by simp; omega), ih]
      simp only [List.length_map, List.length_range, List.length_cons]
      have h0 : i / 256 = (i - 256) / 256 + 1 := by omega
      have h1 : i % 256 = (i - 256) % 256 := by omega
      rw [h0, h1]
      simp

theorem length_map256 {g : Str → Nat → Bool} (xs : List Str) :
    (xs.flatMap fun x => (List.range 256).map (g x)).length = 256 * xs.length := by
  induction xs with
  | nil => rfl
  | cons x xs ih => rw [List.flatMap_cons, List.length_append, ih]; simp; omega

theorem any_prefix_iff {ts : List Str} {p : Str} :
    (ts.any fun t => decide (p <+: t)) = true ↔ ∃ t ∈ ts, p <+: t := by simp

/-- The first item of a node with label 0xFF that is a leaf is the terminator. -/
theorem first_ff {ts : List Str} (h : WF ts) (hff : ts ≠ [[256]]) {x : Str}
    (hp : x ++ [256] ∈ ts) : ∃ c, c < 256 ∧ x ++ [c] ∈ kidItems ts x := by
  by_cases hx : x = []
  · subst hx
    simp only [List.nil_append] at hp
    -- another leaf exists
    obtain ⟨t, ht, hne⟩ : ∃ t ∈ ts, t ≠ [256] := by
      by_contra hcon
      push Not at hcon
      apply hff
      apply sorted_ext h.sorted (by simp)
      intro t
      simp only [List.mem_singleton]
      exact ⟨hcon t, fun e => e ▸ hp⟩
    obtain ⟨c, r, rfl⟩ := List.exists_cons_of_ne_nil (h.nonempty t ht)
    have hc : c ≠ 256 := by
      rintro rfl
      exact hne (h.pf _ hp _ ht (by simp)).symm
    have := h.sym _ ht c (by simp)
    exact ⟨c, by omega, mem_kidItems.2 ⟨⟨c, rfl⟩, _, ht, by simp⟩⟩
  · obtain ⟨t', ht', hne, hpre⟩ := h.sib _ hp (by
      have := List.length_pos_of_ne_nil hx
      simp; omega)
    simp only [List.dropLast_concat] at hpre
    obtain ⟨r, rfl⟩ := hpre
    cases r with
    | nil =>
      exfalso
      have := h.pf _ ht' _ hp (by simp)
      simp at this
    | cons c r =>
      have hc : c ≠ 256 := by
        rintro rfl
        exact hne (h.pf _ hp _ ht' (by simp)).symm
      have := h.sym _ ht' c (by simp)
      exact ⟨c, by omega, mem_kidItems.2 ⟨⟨c, rfl⟩, _, ht', by simp⟩⟩

variable [Env]

theorem builder_readBit_ok {ws : List Word} {n : Nat} {xs : List Bool} (h : LevelBits (ws, n) xs) {i : Nat}
    (hi : i < xs.length) : Builder.readBit ws i = .ok (xs.getD i false) := by
  obtain ⟨-, h2, h3⟩ := h
  dsimp only at h2 h3
  unfold Builder.readBit
  rw [assertR_ok (by simp; omega), ok_bind, rdW_ok (by omega), ok_bind, testMsb_eq _ (by omega)]
  apply ok_congr
  rw [← h3]
  rfl

omit [Env] in
theorem starts_getD_zero {ps : List Str} (h : ps ≠ []) : (starts ps).getD 0 false = true := by
  cases ps with
  | nil => exact absurd rfl h
  | cons p ps => simp [starts, startsFrom]

omit [Env] in
theorem startsFrom_getD_succ {pr : Option Str} {ps : List Str} {m : Nat} {p q : Str} (hp : ps[m]? = some p)
    (hq : ps[m + 1]? = some q) : (startsFrom pr ps).getD (m + 1) false = decide (p.dropLast ≠ q.dropLast) := by
  induction ps generalizing pr m with
  | nil => simp at hp
  | cons a ps ih =>
    cases m with
    | zero =>
      simp only [List.getElem?_cons_zero, Option.some.injEq] at hp
      subst hp
      cases ps with
      | nil => simp at hq
      | cons b ps =>
        simp only [List.getElem?_cons_succ, List.getElem?_cons_zero, Option.some.injEq] at hq
        subst hq
        have hb : (a.dropLast == b.dropLast) = decide (a.dropLast = b.dropLast) := by
          by_cases h : a.dropLast = b.dropLast <;> simp [h]
        simp [startsFrom, bne, hb]
    | succ m =>
      simp only [List.getElem?_cons_succ] at hp hq
      simpa [startsFrom] using ih hp hq

section
variable {ts : List Str} {l : Nat}

omit [Env] in
/-- The terminator starts its node. -/
theorem term_starts (h : WF ts) {m : Nat} {x : Str} (hp : (lev ts (l + 1))[m]? = some (x ++ [0])) :
    (starts (lev ts (l + 1))).getD m false = true := by
  cases m with
  | zero => exact starts_getD_zero (fun e => by simp [e] at hp)
  | succ m =>
    have hlt : m + 1 < (lev ts (l + 1)).length := by
      by_contra hc
      rw [List.getElem?_eq_none (by omega)] at hp
      simp at hp
    obtain ⟨y, hy⟩ : ∃ y, (lev ts (l + 1))[m]? = some y := ⟨_, List.getElem?_eq_getElem (by omega)⟩
    rw [starts, startsFrom_getD_succ hy hp, List.dropLast_concat, decide_eq_true_iff]
    intro he
    have hsrt := lev_sorted h.sorted (l + 1)
    rw [List.pairwise_iff_getElem] at hsrt
    have := hsrt m (m + 1) (by omega) hlt (by omega)
    rw [List.getElem?_eq_getElem (by omega), Option.some.injEq] at hy hp
    rw [hy, hp] at this
    have hl : y.length = l + 1 := (mem_lev.1 (hy ▸ List.getElem_mem (by omega))).1
    have hy' : y = x ++ [y.getLast (by rintro rfl; simp at hl)] := by
      conv_lhs => rw [← List.dropLast_concat_getLast (l := y) (by rintro rfl; simp at hl), he]
    rw [hy', snoc_lt] at this
    omega

omit [Env] in
/-- The first item of a node is never a leaf with byte 0xFF (except for a single key of one symbol). -/
theorem ff_not_starts (h : WF ts) (hff : ts ≠ [[256]]) {m : Nat} {x : Str}
    (hp : (lev ts (l + 1))[m]? = some (x ++ [256])) (hi : isInt ts (x ++ [256]) = false) :
    (starts (lev ts (l + 1))).getD m false = false := by
  have hmem := List.mem_of_getElem? hp
  obtain ⟨hlen, hex⟩ := mem_lev.1 hmem
  have hleaf := (h.leaf_iff hex).1 hi
  obtain ⟨c, hc, hk⟩ := first_ff h hff hleaf
  obtain ⟨-, hk'⟩ := mem_kidItems.1 hk
  have hxl : x.length = l := by simpa using hlen
  have hk2 : x ++ [c] ∈ lev ts (l + 1) := mem_lev.2 ⟨by simp [hxl], hk'⟩
  have hlt : m < (lev ts (l + 1)).length := by
    by_contra hc
    rw [List.getElem?_eq_none (by omega)] at hp
    simp at hp
  have hsrt := lev_sorted h.sorted (l + 1)
  rw [List.pairwise_iff_getElem] at hsrt
  obtain ⟨j, hj, hje⟩ := List.getElem_of_mem hk2
  have hp' := hp
  rw [List.getElem?_eq_getElem hlt, Option.some.injEq] at hp'
  have hcl : x ++ [c] < x ++ [256] := snoc_lt.2 hc
  have hjm : j < m := by
    rcases lt_trichotomy j m with g | g | g
    · exact g
    · subst g; rw [hje] at hp'; simp at hp'; omega
    · have := hsrt m j hlt hj g
      rw [hje, hp'] at this
      exact absurd this (lt_asymm hcl)
  obtain ⟨m, rfl⟩ : ∃ m', m = m' + 1 := ⟨m - 1, by omega⟩
  have hm := List.getElem?_eq_getElem (l := lev ts (l + 1)) (i := m) (by omega)
  rw [starts, startsFrom_getD_succ hm hp, List.dropLast_concat, decide_eq_false_iff_not, not_not]
  set y := (lev ts (l + 1))[m] with hy
  have hyl : y.length = l + 1 := (mem_lev.1 (List.getElem_mem (by omega))).1
  have h1 : x ++ [c] ≤ y := by
    rcases Nat.lt_or_ge j m with g | g
    · have := hsrt j m hj (by omega) g
      rw [hje] at this
      exact this.le
    · have : j = m := by omega
      subst this
      rw [← hje]
  have h2 : y < x ++ [256] := by
    have := hsrt m (m + 1) (by omega) hlt (by omega)
    rwa [hp'] at this
  have h3 := take_le_of_lt h2 l
  have h4 : (x ++ [c]).take l ≤ y.take l := by
    rcases h1.lt_or_eq with g | g
    · exact take_le_of_lt g l
    · rw [g]
  have hxt : ∀ c, (x ++ [c]).take l = x := fun c => by rw [← hxl]; simp
  rw [hxt] at h3 h4
  rw [List.dropLast_eq_take, hyl]
  exact le_antisymm h3 h4

/-- `isTerminator` on an item that starts its node. -/
theorem isTerminator_ok {L : Nat} (h : WF ts) (hff : ts ≠ [[256]]) {lv : Level} {ws : List Word}
    (hr : LRep0 L lv (lev ts (l + 1)) (isInt ts) ws) {m : Nat} {x : Str} {c : Nat}
    (hp : (lev ts (l + 1))[m]? = some (x ++ [c])) (hst : (starts (lev ts (l + 1))).getD m false = true) :
    Builder.isTerminator lv m = .ok (decide (c = 0)) := by
  have hlt : m < (lev ts (l + 1)).length := by
    by_contra hc
    rw [List.getElem?_eq_none (by omega)] at hp
    simp at hp
  have hmem := List.mem_of_getElem? hp
  obtain ⟨hlen, t, ht, hpre⟩ := mem_lev.1 hmem
  have hc256 : c ≤ 256 := h.sym t ht c (hpre.subset (by simp))
  unfold Builder.isTerminator
  have hlab : lv.labels.getD m 0 = lab (x ++ [c]) := by rw [hr.labels]; simp [List.getD, hp]
  have hch : ((lev ts (l + 1)).map (isInt ts)).getD m false = isInt ts (x ++ [c]) := by simp [List.getD, hp]
  rw [rdB_ok (by rw [hr.labels]; simpa using hlt), ok_bind, builder_readBit_ok hr.child (by simpa using hlt), ok_bind,
    hlab, hch, lab_sym]
  apply ok_congr
  by_cases hc : c = 0
  · subst hc
    have : isInt ts (x ++ [0]) = false := by
      rw [Bool.eq_false_iff]
      intro hi
      obtain ⟨t', ht', hpre', hne⟩ := isInt_iff.1 hi
      obtain ⟨r, rfl⟩ := hpre'
      have hr : r ≠ [] := by rintro rfl; simp at hne
      apply h.term _ ht'
      rw [List.dropLast_append_of_ne_nil hr]
      simp
    simp [this, kTerminator]
  · rw [if_neg hc]
    simp only [hc, decide_false, Bool.and_eq_false_imp, beq_iff_eq, Bool.not_eq_eq_eq_not, Bool.not_false]
    intro he
    have : c = 256 := by
      have := congrArg UInt8.toNat he
      simp [kTerminator] at this
      omega
    subst this
    by_contra hi
    rw [ff_not_starts h hff hp (by simpa using hi)] at hst
    simp at hst

/-- The node index of an item of level `l`. -/
def ixOf (ts : List Str) (l : Nat) (p : Str) : Nat := (nodes ts l).idxOf p.dropLast

omit [Env] in
theorem ixOf_lt (h : WF ts) {p : Str} (hp : p ∈ lev ts (l + 1)) : ixOf ts l p < (nodes ts l).length := by
  obtain ⟨h1, h2, h3, h4⟩ := lev_blocks h.sorted l
  obtain ⟨m, hm, rfl⟩ := List.getElem_of_mem hp
  have := (starts_ix (m := m) (p := (lev ts (l + 1))[m]) h2 h3 h4 (by rw [← h1]; simp)).2
  exact List.idxOf_lt_length_of_mem this

/-- State of the dense vectors after the first `m` items of the level. -/
structure DInv (ts : List Str) (l m : Nat) (d : Builder.DenseLevel) : Prop where
  lenL : d.labels.length = 4 * (nodes ts l).length
  lenC : d.child.length = 4 * (nodes ts l).length
  lenP : d.prefixkey.length = ((nodes ts l).length + 63) / 64
  lab : ∀ i, bitAt d.labels i = true ↔
    ∃ x c, x ++ [c + 1] ∈ (lev ts (l + 1)).take m ∧ i = 256 * ixOf ts l (x ++ [c + 1]) + c
  chl : ∀ i, bitAt d.child i = true ↔
    ∃ x c, x ++ [c + 1] ∈ (lev ts (l + 1)).take m ∧ isInt ts (x ++ [c + 1]) = true ∧
      i = 256 * ixOf ts l (x ++ [c + 1]) + c
  pre : ∀ i, bitAt d.prefixkey i = true ↔
    ∃ x, x ++ [0] ∈ (lev ts (l + 1)).take m ∧ i = ixOf ts l (x ++ [0])

omit [Env] in
theorem mem_take_succ {ps : List Str} {m : Nat} {p q : Str} (hp : ps[m]? = some p) :
    q ∈ ps.take (m + 1) ↔ q ∈ ps.take m ∨ q = p := by
  rw [List.take_add_one, hp]
  simp

theorem DInv.prefixStep (h : WF ts) {m : Nat} {d : Builder.DenseLevel} (hd : DInv ts l m d) {x : Str}
    (hp : (lev ts (l + 1))[m]? = some (x ++ [0])) :
    ∃ b, Builder.setBit d.prefixkey (ixOf ts l (x ++ [0])) = .ok b ∧ DInv ts l (m + 1) { d with prefixkey := b } := by
  have hix := ixOf_lt h (List.mem_of_getElem? hp)
  obtain ⟨b, e, hl, hb⟩ := setBit_ok (bits := d.prefixkey) (pos := ixOf ts l (x ++ [0])) (by rw [hd.lenP]; omega)
  refine ⟨b, e, hd.lenL, hd.lenC, hl.trans hd.lenP, ?_, ?_, ?_⟩
  · intro i; rw [hd.lab]
    refine exists_congr fun y => exists_congr fun c => and_congr_left' ?_
    rw [mem_take_succ hp]
    simp
  · intro i; rw [hd.chl]
    refine exists_congr fun y => exists_congr fun c => and_congr_left' ?_
    rw [mem_take_succ hp]
    simp
  · intro i
    rw [hb, Bool.or_eq_true, hd.pre, decide_eq_true_iff]
    constructor
    · rintro (⟨y, hy, rfl⟩ | rfl)
      · exact ⟨y, (mem_take_succ hp).2 (Or.inl hy), rfl⟩
      · exact ⟨x, (mem_take_succ hp).2 (Or.inr rfl), rfl⟩
    · rintro ⟨y, hy, rfl⟩
      rcases (mem_take_succ hp).1 hy with g | g
      · exact Or.inl ⟨y, g, rfl⟩
      · rw [g]; exact Or.inr rfl

theorem DInv.labelStep {L : Nat} (h : WF ts) {lv : Level} {ws : List Word}
    (hr : LRep0 L lv (lev ts (l + 1)) (isInt ts) ws) {m : Nat} {d : Builder.DenseLevel} (hd : DInv ts l m d)
    {x : Str} {c : Nat} (hp : (lev ts (l + 1))[m]? = some (x ++ [c + 1])) (hN : 256 * (nodes ts l).length < M32) :
    ∃ d', Builder.setLabelAndChild lv d (ixOf ts l (x ++ [c + 1])) m = .ok d' ∧ DInv ts l (m + 1) d' := by
  have hlt : m < (lev ts (l + 1)).length := by
    by_contra hc
    rw [List.getElem?_eq_none (by omega)] at hp
    simp at hp
  have hmem := List.mem_of_getElem? hp
  obtain ⟨hlen, t, ht, hpre⟩ := mem_lev.1 hmem
  have hc256 : c + 1 ≤ 256 := h.sym t ht _ (hpre.subset (by simp))
  have hix := ixOf_lt h hmem
  have hlab : lv.labels.getD m 0 = UInt8.ofNat c := by
    rw [hr.labels]; simp [List.getD, hp, lab_sym]
  have hch : ((lev ts (l + 1)).map (isInt ts)).getD m false = isInt ts (x ++ [c + 1]) := by simp [List.getD, hp]
  have hcn : (UInt8.ofNat c).toNat = c := by simp; omega
  set ix := ixOf ts l (x ++ [c + 1]) with hixd
  obtain ⟨b, e, hl, hb⟩ := setBit_ok (bits := d.labels) (pos := ix * kFanout + c) (by
    rw [hd.lenL]; unfold kFanout; omega)
  obtain ⟨b2, e2, hl2, hb2⟩ := setBit_ok (bits := d.child) (pos := ix * kFanout + c) (by
    rw [hd.lenC]; unfold kFanout; omega)
  have hpos : add32 (mul32 ix kFanout) c = ix * kFanout + c := by
    have hk : ix * kFanout + c < M32 := by
      unfold kFanout
      rw [M32_eq] at *
      omega
    rw [mul32_eq (by omega), add32_eq hk]
  unfold Builder.setLabelAndChild
  rw [rdB_ok (by rw [hr.labels]; simpa using hlt), ok_bind, hlab, hcn, hpos, e, ok_bind,
    builder_readBit_ok hr.child (by simpa using hlt), ok_bind, hch]
  have hlabI : ∀ i, bitAt b i = true ↔
      ∃ x c, x ++ [c + 1] ∈ (lev ts (l + 1)).take (m + 1) ∧ i = 256 * ixOf ts l (x ++ [c + 1]) + c := by
    intro i
    rw [hb, Bool.or_eq_true, hd.lab, decide_eq_true_iff]
    constructor
    · rintro (⟨y, c', hy, rfl⟩ | rfl)
      · exact ⟨y, c', (mem_take_succ hp).2 (Or.inl hy), rfl⟩
      · exact ⟨x, c, (mem_take_succ hp).2 (Or.inr rfl), by rw [← hixd]; unfold kFanout; omega⟩
    · rintro ⟨y, c', hy, rfl⟩
      rcases (mem_take_succ hp).1 hy with g | g
      · exact Or.inl ⟨y, c', g, rfl⟩
      · have : c' = c := by
          have := congrArg List.getLast? g
          simpa using this
        subst this
        rw [g]; exact Or.inr (by rw [← hixd]; unfold kFanout; omega)
  have hpreI : ∀ i, bitAt d.prefixkey i = true ↔
      ∃ x, x ++ [0] ∈ (lev ts (l + 1)).take (m + 1) ∧ i = ixOf ts l (x ++ [0]) := by
    intro i; rw [hd.pre]
    refine exists_congr fun y => and_congr_left' ?_
    rw [mem_take_succ hp]
    simp
  cases hi : isInt ts (x ++ [c + 1]) with
  | true =>
    rw [if_pos rfl, e2, ok_bind]
    refine ⟨_, rfl, hl.trans hd.lenL, hl2.trans hd.lenC, hd.lenP, hlabI, ?_, hpreI⟩
    intro i
    dsimp only
    rw [hb2, Bool.or_eq_true, hd.chl, decide_eq_true_iff]
    constructor
    · rintro (⟨y, c', hy, hy2, rfl⟩ | rfl)
      · exact ⟨y, c', (mem_take_succ hp).2 (Or.inl hy), hy2, rfl⟩
      · exact ⟨x, c, (mem_take_succ hp).2 (Or.inr rfl), hi, by rw [← hixd]; unfold kFanout; omega⟩
    · rintro ⟨y, c', hy, hy2, rfl⟩
      rcases (mem_take_succ hp).1 hy with g | g
      · exact Or.inl ⟨y, c', g, hy2, rfl⟩
      · have : c' = c := by
          have := congrArg List.getLast? g
          simpa using this
        subst this
        rw [g]; exact Or.inr (by rw [← hixd]; unfold kFanout; omega)
  | false =>
    rw [if_neg (by simp)]
    refine ⟨_, rfl, hl.trans hd.lenL, hd.lenC, hd.lenP, hlabI, ?_, hpreI⟩
    intro i
    rw [hd.chl]
    refine exists_congr fun y => exists_congr fun c' => ?_
    rw [mem_take_succ hp]
    constructor
    · rintro ⟨a, b⟩; exact ⟨Or.inl a, b⟩
    · rintro ⟨a | a, b⟩
      · exact ⟨a, b⟩
      · rw [a, hi] at b; simp at b

omit [Env] in
theorem ixOf_step (h : WF ts) {m : Nat} {p q : Str} (hp : (lev ts (l + 1))[m]? = some p)
    (hq : (lev ts (l + 1))[m + 1]? = some q) :
    ixOf ts l q = ixOf ts l p + if (starts (lev ts (l + 1))).getD (m + 1) false then 1 else 0 := by
  obtain ⟨h1, h2, h3, h4⟩ := lev_blocks h.sorted l
  have a := (starts_ix (m := m) (p := p) h2 h3 h4 (by rw [← h1]; exact hp)).1
  have b := (starts_ix (m := m + 1) (p := q) h2 h3 h4 (by rw [← h1]; exact hq)).1
  rw [← h1] at a b
  have hlt : m + 1 < (starts (lev ts (l + 1))).length := by
    rw [starts_length]
    by_contra hc
    rw [List.getElem?_eq_none (by omega)] at hq
    simp at hq
  rw [List.take_succ_eq_append_getElem hlt, List.count_append, a] at b
  unfold ixOf
  have : (starts (lev ts (l + 1))).getD (m + 1) false = (starts (lev ts (l + 1)))[m + 1] := by
    rw [List.getD, List.getElem?_eq_getElem hlt]; rfl
  rw [this]
  cases hb : (starts (lev ts (l + 1)))[m + 1] <;> rw [hb] at b <;> simp at b ⊢ <;> omega

theorem denseLoop_ok {L : Nat} (h : WF ts) (hff : ts ≠ [[256]]) {lv : Level} {ws : List Word}
    (hr : LRep0 L lv (lev ts (l + 1)) (isInt ts) ws) (n m : Nat) (hn : m + 1 + n = (lev ts (l + 1)).length)
    {d : Builder.DenseLevel} (hd : DInv ts l (m + 1) d) {p : Str} (hp : (lev ts (l + 1))[m]? = some p)
    (hN : 256 * (nodes ts l).length < M32) :
    ∃ d', Builder.denseLoop lv n (m + 1) (ixOf ts l p) d = .ok d' ∧
      DInv ts l (lev ts (l + 1)).length d' := by
  induction n generalizing m d p with
  | zero => exact ⟨d, rfl, by rw [← hn]; exact hd⟩
  | succ n ih =>
    obtain ⟨q, hq⟩ : ∃ q, (lev ts (l + 1))[m + 1]? = some q := ⟨_, List.getElem?_eq_getElem (by omega)⟩
    have hql := (mem_lev.1 (List.mem_of_getElem? hq)).1
    obtain ⟨x, c, rfl⟩ : ∃ x c, q = x ++ [c] := by
      refine ⟨q.dropLast, q.getLast (by rintro rfl; simp at hql), ?_⟩
      rw [List.dropLast_concat_getLast]
    have hstep := ixOf_step h hp hq
    unfold Builder.denseLoop
    rw [builder_readBit_ok hr.louds (by rw [starts_length]; omega), ok_bind]
    set st := (starts (lev ts (l + 1))).getD (m + 1) false with hst
    have hnn : (if st = true then ixOf ts l p + 1 else ixOf ts l p) = ixOf ts l (x ++ [c]) := by
      rw [hstep]; cases st <;> simp
    have e' : ∀ {β : Type} (k : Bool → R β), (if st = true then Builder.isTerminator lv (m + 1) >>= k else pure false >>= k)
        = k (st && decide (c = 0)) := by
      intro β k
      cases hs : st with
      | true => rw [if_pos rfl, isTerminator_ok h hff hr hq (hst.symm.trans hs), ok_bind]; simp
      | false => rw [if_neg (by simp)]; simp
    dsimp only
    rw [hnn, e']
    cases c with
    | zero =>
      have : st = true := term_starts h hq
      obtain ⟨b, eb, hb⟩ := hd.prefixStep h hq
      rw [this]
      simp only [decide_true, Bool.and_self, if_true]
      rw [eb, ok_bind]
      exact ih (m + 1) (by omega) hb hq
    | succ c =>
      obtain ⟨d', ed, hd'⟩ := hd.labelStep h hr hq hN
      simp only [Nat.succ_ne_zero, decide_false, Bool.and_false, Bool.false_eq_true, if_false]
      rw [ed, ok_bind]
      exact ih (m + 1) (by omega) hd' hq

/-- What a dense level holds. -/
structure DenseRep (ts : List Str) (l : Nat) (d : Builder.DenseLevel) : Prop where
  lenL : d.labels.length = 4 * (nodes ts l).length
  lenC : d.child.length = 4 * (nodes ts l).length
  lab : LevelBits (d.labels, 256 * (nodes ts l).length) (labelBits ts (nodes ts l))
  chl : LevelBits (d.child, 256 * (nodes ts l).length) (childBits ts (nodes ts l))
  pre : LevelBits (d.prefixkey, (nodes ts l).length) (prefBits ts (nodes ts l))

omit [Env] in
theorem getD_idxOf {xs : List Str} {x : Str} (h : x ∈ xs) : xs.getD (xs.idxOf x) [] = x := by
  rw [List.getD, List.getElem?_eq_getElem (List.idxOf_lt_length_of_mem h)]
  simp

omit [Env] in
theorem node_of_lev (h : WF ts) {p : Str} (hp : p ∈ lev ts (l + 1)) : p.dropLast ∈ nodes ts l := by
  obtain ⟨h1, h2, h3, h4⟩ := lev_blocks h.sorted l
  rw [h1, List.mem_flatMap] at hp
  obtain ⟨x, hx, hp⟩ := hp
  rw [h3 x hx p hp]; exact hx

omit [Env] in
theorem idx_bits (h : WF ts) {i : Nat} {P : Str → Prop} :
    (∃ x c, x ++ [c + 1] ∈ lev ts (l + 1) ∧ P (x ++ [c + 1]) ∧ i = 256 * ixOf ts l (x ++ [c + 1]) + c) ↔
    i / 256 < (nodes ts l).length ∧ (∃ t ∈ ts, (nodes ts l).getD (i / 256) [] ++ [i % 256 + 1] <+: t) ∧
      P ((nodes ts l).getD (i / 256) [] ++ [i % 256 + 1]) := by
  constructor
  · rintro ⟨x, c, hx, hP, rfl⟩
    have hlt := ixOf_lt h hx
    have hn := node_of_lev h hx
    obtain ⟨-, t, ht, hpre⟩ := mem_lev.1 hx
    have hc : c + 1 ≤ 256 := h.sym t ht _ (hpre.subset (by simp))
    have e1 : (256 * ixOf ts l (x ++ [c + 1]) + c) / 256 = ixOf ts l (x ++ [c + 1]) := by omega
    have e2 : (256 * ixOf ts l (x ++ [c + 1]) + c) % 256 = c := by omega
    rw [e1, e2]
    have e3 : (nodes ts l).getD (ixOf ts l (x ++ [c + 1])) [] = x := by
      unfold ixOf
      rw [List.dropLast_concat] at hn ⊢
      exact getD_idxOf hn
    rw [e3]
    exact ⟨hlt, ⟨t, ht, hpre⟩, hP⟩
  · rintro ⟨h1, h2, h3⟩
    have hm : (nodes ts l).getD (i / 256) [] ∈ nodes ts l := by
      rw [List.getD, List.getElem?_eq_getElem h1]; exact List.getElem_mem h1
    refine ⟨_, i % 256, mem_lev.2 ⟨?_, h2⟩, h3, ?_⟩
    · rw [List.length_append, (mem_nodes.1 hm).1]; rfl
    · unfold ixOf
      rw [List.dropLast_concat, List.getD, List.getElem?_eq_getElem h1]
      have : (nodes ts l).idxOf ((some (nodes ts l)[i / 256]).getD []) = i / 256 :=
        List.Nodup.idxOf_getElem ((nodes_sorted h.sorted l).imp (fun h => ne_of_lt h)) _ h1
      rw [this]; omega

omit [Env] in
theorem DInv.toRep (h : WF ts) {d : Builder.DenseLevel} (hd : DInv ts l (lev ts (l + 1)).length d) :
    DenseRep ts l d := by
  refine ⟨hd.lenL, hd.lenC, ⟨?_, ?_, ?_⟩, ⟨?_, ?_, ?_⟩, ⟨?_, ?_, ?_⟩⟩
  · exact (length_map256 _).symm
  · rw [labelBits, length_map256]; dsimp only; rw [hd.lenL]; omega
  · intro i
    rw [Bool.eq_iff_iff, labelBits, getD_map256]
    dsimp only
    rw [hd.lab, List.take_of_length_le (le_refl _), Bool.and_eq_true, decide_eq_true_iff, any_prefix_iff]
    have := idx_bits (l := l) h (i := i) (P := fun _ => True)
    simpa using this
  · exact (length_map256 _).symm
  · rw [childBits, length_map256]; dsimp only; rw [hd.lenC]; omega
  · intro i
    rw [Bool.eq_iff_iff, childBits, getD_map256]
    dsimp only
    rw [hd.chl, List.take_of_length_le (le_refl _), Bool.and_eq_true, decide_eq_true_iff]
    rw [idx_bits (l := l) h (i := i) (P := fun p => isInt ts p = true)]
    constructor
    · rintro ⟨a, -, c⟩; exact ⟨a, c⟩
    · rintro ⟨a, c⟩
      obtain ⟨t, ht, hp, -⟩ := isInt_iff.1 c
      exact ⟨a, ⟨t, ht, hp⟩, c⟩
  · simp [prefBits]
  · simp only [prefBits, List.length_map]; rw [hd.lenP]; omega
  · intro i
    rw [Bool.eq_iff_iff]
    dsimp only
    rw [hd.pre, List.take_of_length_le (le_refl _)]
    have hnd : (nodes ts l).Nodup := (nodes_sorted h.sorted l).imp (fun h => ne_of_lt h)
    constructor
    · rintro ⟨x, hx, rfl⟩
      have hn := node_of_lev h hx
      have hlt := ixOf_lt h hx
      obtain ⟨-, hex⟩ := mem_lev.1 hx
      rw [prefBits, List.getD, List.getElem?_map, List.getElem?_eq_getElem hlt]
      unfold ixOf
      simp only [List.dropLast_concat] at hn ⊢
      simp only [List.getElem_idxOf, Option.map_some, Option.getD_some]
      simpa using hex
    · intro hb
      by_cases hlt : i < (nodes ts l).length
      · rw [prefBits, List.getD, List.getElem?_map, List.getElem?_eq_getElem hlt] at hb
        simp only [Option.map_some, Option.getD_some] at hb
        refine ⟨(nodes ts l)[i], mem_lev.2 ⟨?_, by simpa using hb⟩, ?_⟩
        · simp [(mem_nodes.1 (List.getElem_mem hlt)).1]
        · unfold ixOf
          rw [List.dropLast_concat, hnd.idxOf_getElem]
      · rw [getD_ge (by simp [prefBits]; omega)] at hb
        simp at hb

theorem buildDenseLevel_ok {L : Nat} (h : WF ts) (hff : ts ≠ [[256]]) {lv : Level} {ws : List Word}
    (hr : LRep0 L lv (lev ts (l + 1)) (isInt ts) ws) (hN : 256 * (nodes ts l).length < M32) :
    ∃ d, Builder.buildDenseLevel lv = .ok d ∧ DenseRep ts l d := by
  have hnc : lv.nodeCount = (nodes ts l).length := hr.node.trans (lev_nodeCount h.sorted l)
  have hlen : lv.labels.length = (lev ts (l + 1)).length := by rw [hr.labels, List.length_map]
  have hz : ∀ n i, bitAt (List.replicate n 0#64) i = false := by
    intro n i
    unfold bitAt
    rw [List.getD, List.getElem?_replicate]
    split <;> simp
  have h0 : DInv ts l 0 (Builder.initDenseVectors (nodes ts l).length) := by
    refine ⟨by simp [Builder.initDenseVectors], by simp [Builder.initDenseVectors],
      by simp [Builder.initDenseVectors], ?_, ?_, ?_⟩ <;> intro i <;>
      simp [Builder.initDenseVectors, hz]
  unfold Builder.buildDenseLevel
  rw [hnc]
  dsimp only
  by_cases he : lv.labels.length = 0
  · rw [if_pos he]
    refine ⟨_, rfl, DInv.toRep h ?_⟩
    rw [← hlen, he]; exact h0
  · rw [if_neg he]
    obtain ⟨q, hq⟩ : ∃ q, (lev ts (l + 1))[0]? = some q := ⟨_, List.getElem?_eq_getElem (by omega)⟩
    have hql := (mem_lev.1 (List.mem_of_getElem? hq)).1
    obtain ⟨x, c, rfl⟩ : ∃ x c, q = x ++ [c] := by
      refine ⟨q.dropLast, q.getLast (by rintro rfl; simp at hql), ?_⟩
      rw [List.dropLast_concat_getLast]
    have hne : lev ts (l + 1) ≠ [] := fun e => by rw [e] at hq; simp at hq
    rw [isTerminator_ok h hff hr hq (starts_getD_zero hne), ok_bind]
    obtain ⟨h1, h2, h3, h4⟩ := lev_blocks h.sorted l
    have hix : ixOf ts l (x ++ [c]) = 0 := by
      have := (starts_ix (m := 0) (p := x ++ [c]) h2 h3 h4 (by rw [← h1]; exact hq)).1
      rw [← h1] at this
      have hle : ((starts (lev ts (l + 1))).take (0 + 1)).count true ≤ 1 := by
        refine (List.count_le_length).trans ?_
        simp
      unfold ixOf; omega
    cases c with
    | zero =>
      obtain ⟨b, eb, hb⟩ := h0.prefixStep h hq
      rw [hix] at eb
      simp only [decide_true, if_true]
      rw [eb, ok_bind]
      obtain ⟨d', e', hd'⟩ := denseLoop_ok h hff hr (lv.labels.length - 1) 0 (by omega) hb hq hN
      rw [hix] at e'
      exact ⟨d', e', hd'.toRep h⟩
    | succ c =>
      obtain ⟨d, ed, hd⟩ := h0.labelStep h hr hq hN
      rw [hix] at ed
      simp only [Nat.succ_ne_zero, decide_false, Bool.false_eq_true, if_false]
      rw [ed, ok_bind]
      obtain ⟨d', e', hd'⟩ := denseLoop_ok h hff hr (lv.labels.length - 1) 0 (by omega) hd hq hN
      rw [hix] at e'
      exact ⟨d', e', hd'.toRep h⟩

end

end Surf
