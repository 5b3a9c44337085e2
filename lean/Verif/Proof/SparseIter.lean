import Verif.Proof.DenseIter
import Verif.Proof.Sem

/-! # The iterator of LoudsSparse -/

set_option linter.unusedSectionVars false
set_option autoImplicit false

namespace Surf
open Trie
variable [Env] {cfg : Config} {ts : List Str} {sw : Str → Word} {s : Nat} {f : Filter}

/-! ## Neighbouring positions -/

omit [Env] in
theorem before_skip (A : List Str) (x : Str) {c c' : Nat} (hc : c ≤ c')
    (hno : ∀ d, c ≤ d → d < c' → ex ts (x ++ [d]) = false) : before ts A x c' = before ts A x c := by
  induction c', hc using Nat.le_induction with
  | base => rfl
  | succ c' hcc ih =>
    rw [before_succ, hno c' hcc (by omega), ih fun d h1 h2 => hno d h1 (by omega)]
    simp

omit [Env] in
theorem before_len (A : List Str) (x : Str) (c : Nat) :
    (before ts A x c).length = (before ts A x 0).length + (kidsLT ts x c).length := by
  simp [before, kidsLT_zero]

omit [Env] in
theorem before_last (h : WF ts) (A : List Str) (x : Str) {c : Nat} (he : ex ts (x ++ [c]) = true)
    (hno : ∀ d, c < d → ex ts (x ++ [d]) = false) :
    (before ts A x c).length + 1 = (before ts A x 0).length + (kidItems ts x).length := by
  have hc := sym_le h he
  have h1 : before ts A x 257 = before ts A x (c + 1) := before_skip A x (by omega) fun d h1 h2 => hno d (by omega)
  have h2 := before_succ (ts := ts) A x c
  rw [he, if_pos rfl] at h2
  rw [kidItems_eq h, ← before_len, h1, h2]
  simp

omit [Env] in
theorem before_kid_lt (h : WF ts) (A : List Str) (x : Str) {c c' : Nat} (hc : c < c') (he : ex ts (x ++ [c]) = true)
    (he' : ex ts (x ++ [c']) = true) :
    (before ts A x c).length + 1 < (before ts A x 0).length + (kidItems ts x).length := by
  have hc' := sym_le h he'
  have h2 := before_succ (ts := ts) A x c
  rw [he, if_pos rfl] at h2
  have h3 := before_succ (ts := ts) A x c'
  rw [he', if_pos rfl] at h3
  have h4 := (kidsLT_prefix (ts := ts) x (show c + 1 ≤ c' by omega)).length_le
  have h5 := (kidsLT_prefix (ts := ts) x (show c' + 1 ≤ 257 by omega)).length_le
  have l2 := congrArg List.length h2
  have l3 := congrArg List.length h3
  rw [before_len, List.length_append, List.length_singleton, before_len (c := c)] at l2
  rw [before_len, List.length_append, List.length_singleton, before_len (c := c')] at l3
  rw [kidItems_eq h, before_len]
  omega

omit [Env] in
theorem mem_sitems {p : Str} : p ∈ sitems ts s ↔ s < p.length ∧ ex ts p = true := by
  rw [mem_items_ex]
  constructor
  · exact fun h => ⟨h.1, h.2.2⟩
  · rintro ⟨h1, h2⟩
    obtain ⟨t, ht, hp⟩ := ex_iff.1 h2
    have := hp.length_le
    have := le_maxLen ht
    exact ⟨h1, by omega, h2⟩

omit [Env] in
theorem FRep0.louds_len (h : FRep0 cfg ts sw s f) : f.sparse.loudsBits.numBits = (sitems ts s).length := by
  have := h.sparse.louds.base.num
  rw [louds_total h.wf] at this
  exact this

theorem FRep0.louds_read (h : FRep0 cfg ts sw s f) {i : Nat} (hi : i < (sitems ts s).length) :
    f.sparse.loudsBits.readBit i = .ok ((loudsOf ts (snodes ts s)).getD i false) :=
  Bitvector.readBit_ok h.sparse.louds.base (by rw [louds_total h.wf]; exact hi)

/-- The position after a sparse item. -/
theorem FRep0.snext (h : FRep0 cfg ts sw s f) {x : Str} {c : Nat} (hs : s ≤ x.length) (he : ex ts (x ++ [c]) = true) :
    (∃ c', c < c' ∧ ex ts (x ++ [c']) = true ∧ (∀ d, c < d → d < c' → ex ts (x ++ [d]) = false) ∧
      ipos ts s (x ++ [c']) = ipos ts s (x ++ [c]) + 1 ∧ ipos ts s (x ++ [c]) + 1 < f.sparse.loudsBits.numBits ∧
      f.sparse.loudsBits.readBit (ipos ts s (x ++ [c]) + 1) = .ok false) ∨
    ((∀ d, c < d → ex ts (x ++ [d]) = false) ∧
      (ipos ts s (x ++ [c]) + 1 = f.sparse.loudsBits.numBits ∨ ipos ts s (x ++ [c]) + 1 < f.sparse.loudsBits.numBits ∧
        f.sparse.loudsBits.readBit (ipos ts s (x ++ [c]) + 1) = .ok true)) := by
  have hx := int_of_ex_snoc he
  obtain ⟨A, C, hA, -⟩ := h.snode hx hs
  have hp := ipos_eq h.wf hA he
  have hlen := congrArg List.length (sitems_eq hA h.wf)
  simp only [List.length_append] at hlen
  rcases next_kid ts x (c + 1) with h1 | ⟨c', h1, h2, h3⟩
  · right
    refine ⟨fun d hd => h1 d (by omega), ?_⟩
    have hl := before_last h.wf A x he (fun d hd => h1 d (by omega))
    rw [h.louds_len]
    rcases eq_or_ne C [] with rfl | hC
    · left
      simp at hlen
      omega
    · right
      have hn := louds_next hA hC
      have hk : 0 < (C.flatMap (kidItems ts)).length := by
        obtain ⟨y, C', rfl⟩ := List.exists_cons_of_ne_nil hC
        have := kids_ne snodes_int y (by rw [hA]; simp)
        have := List.length_pos_iff.2 this
        simp only [List.flatMap_cons, List.length_append]
        omega
      refine ⟨by omega, ?_⟩
      rw [h.louds_read (by omega), hp, hl, hn]
  · left
    have hlt := before_kid_lt h.wf A x (show c < c' by omega) he h2
    have e2 : (before ts A x c').length = (before ts A x c).length + 1 := by
      rw [before_skip A x h1 h3, before_succ, he, if_pos rfl]
      simp
    rw [h.louds_len]
    refine ⟨c', by omega, h2, fun d h4 h5 => h3 d (by omega) h5, by rw [ipos_eq h.wf hA h2, hp, e2], by omega, ?_⟩
    rw [h.louds_read (by omega), hp]
    have hle := before_len (ts := ts) A x c
    have := louds_getD hA (i := (before ts A x c).length + 1 - (before ts A x 0).length) (by omega)
    rw [show (before ts A x 0).length + ((before ts A x c).length + 1 - (before ts A x 0).length) =
      (before ts A x c).length + 1 by omega] at this
    rw [this]
    congr 1
    simp
    omega

/-- The position before a sparse item. -/
theorem FRep0.sprev (h : FRep0 cfg ts sw s f) {x : Str} {c : Nat} (hs : s ≤ x.length) (he : ex ts (x ++ [c]) = true) :
    (∃ c', c' < c ∧ ex ts (x ++ [c']) = true ∧ (∀ d, c' < d → d < c → ex ts (x ++ [d]) = false) ∧
      ipos ts s (x ++ [c]) = ipos ts s (x ++ [c']) + 1 ∧
      f.sparse.loudsBits.readBit (ipos ts s (x ++ [c])) = .ok false) ∨
    ((∀ d, d < c → ex ts (x ++ [d]) = false) ∧ f.sparse.loudsBits.readBit (ipos ts s (x ++ [c])) = .ok true) := by
  have hx := int_of_ex_snoc he
  obtain ⟨A, C, hA, -⟩ := h.snode hx hs
  have hp := ipos_eq h.wf hA he
  have hmem : x ++ [c] ∈ sitems ts s := mem_sitems.2 ⟨by simp; omega, he⟩
  have hlt := ipos_lt hmem
  have hle := before_len (ts := ts) A x c
  have hc := sym_le h.wf he
  have hki : (kidsLT ts x c).length < (kidItems ts x).length := by
    obtain ⟨R, hR⟩ := kidItems_split h.wf he
    rw [hR]; simp
  have hb := louds_getD hA hki
  rw [← hle, ← hp] at hb
  rw [h.louds_read hlt, hb]
  rcases prev_kid ts x c with h1 | ⟨c', h1, h2, h3⟩
  · right
    refine ⟨h1, ?_⟩
    have : before ts A x c = before ts A x 0 := before_skip A x (Nat.zero_le _) fun d _ hd => h1 d hd
    have := congrArg List.length this
    congr 1
    simp only [decide_eq_true_eq]
    omega
  · left
    have e2 : (before ts A x c).length = (before ts A x c').length + 1 := by
      rw [before_skip A x (show c' + 1 ≤ c by omega) (fun d h4 h5 => h3 d (by omega) h5), before_succ, h2, if_pos rfl]
      simp
    have hle' := before_len (ts := ts) A x c'
    refine ⟨c', h1, h2, h3, by rw [hp, ipos_eq h.wf hA h2, e2], ?_⟩
    congr 1
    simp only [decide_eq_false_iff_not]
    omega

/-- The first position of a sparse node. -/
theorem FRep0.sfirst' (h : FRep0 cfg ts sw s f) {x : Str} {c : Nat} (hs : s ≤ x.length) (he : ex ts (x ++ [c]) = true)
    (hmin : ∀ d, d < c → ex ts (x ++ [d]) = false) :
    f.sparse.getFirstLabelPos (num ts x) = .ok (ipos ts s (x ++ [c])) := by
  obtain ⟨A, C, hA, hn⟩ := h.snode (int_of_ex_snoc he) hs
  rw [h.sfirst hA hn, ipos_eq h.wf hA he, before_skip A x (Nat.zero_le c) fun d _ hd => hmin d hd]

/-- The last position of a sparse node. -/
theorem FRep0.slast (h : FRep0 cfg ts sw s f) {x : Str} {c : Nat} (hs : s ≤ x.length) (he : ex ts (x ++ [c]) = true)
    (hmax : ∀ d, c < d → ex ts (x ++ [d]) = false) :
    f.sparse.getLastLabelPos (num ts x) = .ok (ipos ts s (x ++ [c])) := by
  obtain ⟨A, C, hA, hn⟩ := h.snode (int_of_ex_snoc he) hs
  have h32 := h.i32
  have hlt : num ts x < (items ts 0 (maxLen ts + 1)).length + 1 := by
    have := num_lt h.wf (x_int hA) (s := maxLen ts + 1) (by have := int_length_lt (x_int hA); omega) le_rfl
    rw [h.wf.nodesR_eq (by omega), List.length_cons] at this
    have := List.length_filter_le (isInt ts) (items ts 0 (maxLen ts + 1))
    omega
  have hones : f.sparse.loudsBits.numOnes = (snodes ts s).length := by
    have := h.sparse.louds.ones
    rw [this]
    exact loudsOf_count _
  have hl := before_last h.wf A x he hmax
  have hp := ipos_eq h.wf hA he
  have hlen := congrArg List.length (sitems_eq hA h.wf)
  simp only [List.length_append] at hlen
  have hsl := h.sitems_le
  unfold LoudsSparse.getLastLabelPos
  rw [h.sparse.ncd, add32_eq (by omega), sub32_eq (by omega) (by omega), hones]
  dsimp only
  cases C with
  | nil =>
    rw [if_pos (by rw [hA]; simp; omega), h.louds_len]
    simp at hlen
    rw [sub32_eq (by omega) (by omega)]
    exact ok_congr (by omega)
  | cons y C =>
    rw [if_neg (by rw [hA]; simp; omega)]
    have hA' : snodes ts s = (A ++ [x]) ++ y :: C := by rw [hA]; simp
    have hsel := h.sselect hA'
    have e1 : num ts x + 2 - (nodesR ts 0 s).length = (A ++ [x]).length + 1 := by simp; omega
    rw [e1, hsel, ok_bind]
    have e2 : (before ts (A ++ [x]) y 0).length = (before ts A x 0).length + (kidItems ts x).length := by
      simp [before, kidsLT_zero]
    rw [e2, sub32_eq (by omega) (by omega)]
    exact ok_congr (by omega)

/-! ## Paths -/

/-- The label byte of a symbol. -/
def labB : Nat → UInt8
  | 0 => 255
  | c + 1 => UInt8.ofNat c

omit [Env] in
theorem lab_snoc (x : Str) (c : Nat) : lab (x ++ [c]) = labB c := by
  cases c <;> simp [lab, labB]

/-- The sparse part of an iterator holds the path `p` (from level `s` on). -/
structure SOn (ts : List Str) (s : Nat) (it : SIter) (p : Str) : Prop where
  len : it.keyLen = p.length - s
  kl : it.key.length = maxLen ts + 1 - s
  pl : it.pos.length = maxLen ts + 1 - s
  key : it.key.take (p.length - s) = (p.drop s).map labB
  pos : ∀ x c, x ++ [c] <+: p → s ≤ x.length → it.pos[x.length - s]? = some (ipos ts s (x ++ [c]))

omit [Env] in
theorem ex_len {p : Str} (h : ex ts p = true) : p.length ≤ maxLen ts := by
  obtain ⟨t, ht, hp⟩ := ex_iff.1 h
  exact le_trans hp.length_le (le_maxLen ht)

omit [Env] in
theorem SOn.congr {a b : SIter} {p : Str} (h : SOn ts s a p) (h1 : b.keyLen = a.keyLen) (h2 : b.key = a.key)
    (h3 : b.pos = a.pos) : SOn ts s b p :=
  ⟨by rw [h1]; exact h.len, by rw [h2]; exact h.kl, by rw [h3]; exact h.pl, by rw [h2]; exact h.key,
    by rw [h3]; exact h.pos⟩

omit [Env] in
theorem SOn.take {it : SIter} {p q : Str} (h : SOn ts s it p) (hq : q <+: p) :
    SOn ts s { it with keyLen := q.length - s } q := by
  refine ⟨rfl, h.kl, h.pl, ?_, fun x b hx => h.pos x b (hx.trans hq)⟩
  obtain ⟨r, rfl⟩ := hq
  have := congrArg (List.take (q.length - s)) h.key
  rw [List.take_take, Nat.min_eq_left (by simp; omega)] at this
  dsimp only
  rw [this, ← List.map_take]
  congr 1
  rcases Nat.le_total s q.length with h1 | h1
  · rw [List.drop_append_of_le_length h1, List.take_left' (by simp)]
  · rw [Nat.sub_eq_zero_of_le h1, List.drop_eq_nil_of_le h1]; simp

omit [Env] in
theorem SOn.start {it : SIter} {p : Str} (hk : it.keyLen = 0) (h1 : it.key.length = maxLen ts + 1 - s)
    (h2 : it.pos.length = maxLen ts + 1 - s) (hp : p.length = s) : SOn ts s it p :=
  ⟨by omega, h1, h2, by rw [hp]; simp [List.drop_eq_nil_of_le (le_of_eq hp)], fun x b hx hs => by
    have := hx.length_le; simp at this; omega⟩

/-- Fields other than the path. -/
def SameS (a b : SIter) : Prop := a.valid = b.valid ∧ a.startNode = b.startNode ∧ a.atTerm = b.atTerm

omit [Env] in
theorem SOn.upd {it : SIter} {x : Str} {c : Nat} (hs : s ≤ x.length) (hle : x.length ≤ maxLen ts)
    (h : SOn ts s { it with keyLen := x.length - s } x) :
    SOn ts s { it with key := it.key.set (x.length - s) (labB c), pos := it.pos.set (x.length - s) (ipos ts s (x ++ [c])),
                       keyLen := x.length - s + 1 } (x ++ [c]) := by
  have hkl := h.kl
  have hpl := h.pl
  dsimp only at hkl hpl
  refine ⟨by simp; omega, by simpa using hkl, by simpa using hpl, ?_, ?_⟩
  · dsimp only
    rw [show (x ++ [c]).length - s = x.length - s + 1 by simp; omega, take_set _ _ _ (by omega)]
    have := h.key
    dsimp only at this
    rw [this, List.drop_append_of_le_length hs]
    simp
  · intro y d hy hys
    dsimp only
    rcases prefix_snoc hy with h2 | ⟨rfl, rfl⟩
    · have h3 := h2.length_le
      rw [List.length_append, List.length_singleton] at h3
      rw [List.getElem?_set_ne (by omega)]
      exact h.pos y d h2 hys
    · rw [List.getElem?_set_self (by omega)]

theorem SOn.appendL {it : SIter} {x : Str} {c : Nat} (h : SOn ts s it x) (hs : s ≤ x.length) (he : ex ts (x ++ [c]) = true) :
    ∃ it', it.appendL (labB c) (ipos ts s (x ++ [c])) = .ok it' ∧ SOn ts s it' (x ++ [c]) ∧ SameS it' it := by
  have hl := h.len
  have hle := ex_len he
  simp only [List.length_append, List.length_singleton] at hle
  unfold SIter.appendL
  rw [hl, assertR_ok (by simp [h.kl]; omega), ok_bind, wr_ok (by rw [h.kl]; omega), ok_bind, wr_ok (by rw [h.pl]; omega), ok_bind]
  have e : ({ it with keyLen := x.length - s } : SIter) = it := by rw [← hl]
  exact ⟨_, rfl, SOn.upd hs (by omega) (by rw [e]; exact h), rfl, rfl, rfl⟩

theorem FRep0.sread (h : FRep0 cfg ts sw s f) {x : Str} {c : Nat} (hs : s ≤ x.length) (he : ex ts (x ++ [c]) = true) :
    f.sparse.labels.read (ipos ts s (x ++ [c])) = .ok (labB c) := by
  rw [(h.slabel (mem_sitems.2 ⟨by simp; omega, he⟩)).2, lab_snoc]

theorem FRep0.schild' (h : FRep0 cfg ts sw s f) {x : Str} {c : Nat} (hs : s ≤ x.length) (he : ex ts (x ++ [c]) = true) :
    f.sparse.childBits.readBit (ipos ts s (x ++ [c])) = .ok (isInt ts (x ++ [c])) :=
  h.schild (mem_sitems.2 ⟨by simp; omega, he⟩)

theorem FRep0.sappend (h : FRep0 cfg ts sw s f) {it : SIter} {x : Str} {c : Nat} (hon : SOn ts s it x) (hs : s ≤ x.length)
    (he : ex ts (x ++ [c]) = true) :
    ∃ it', it.append f.sparse (ipos ts s (x ++ [c])) = .ok it' ∧ SOn ts s it' (x ++ [c]) ∧ SameS it' it := by
  obtain ⟨it', e, h1, h2⟩ := hon.appendL hs he
  refine ⟨it', ?_, h1, h2⟩
  rw [← e]
  have hl := hon.len
  have hle := ex_len he
  simp only [List.length_append, List.length_singleton] at hle
  unfold SIter.append SIter.appendL
  rw [assertR_ok (by simp [hon.kl]; omega), ok_bind, h.sread hs he, ok_bind, ok_bind]

theorem FRep0.sset (h : FRep0 cfg ts sw s f) {it : SIter} {x : Str} {c c' : Nat}
    (hon : SOn ts s { it with keyLen := x.length - s + 1 } (x ++ [c])) (hs : s ≤ x.length)
    (he : ex ts (x ++ [c']) = true) :
    ∃ it', ({ it with keyLen := x.length - s + 1 } : SIter).set f.sparse (x.length - s) (ipos ts s (x ++ [c'])) = .ok it' ∧
      SOn ts s it' (x ++ [c']) ∧ SameS it' it := by
  have hle := ex_len he
  simp only [List.length_append, List.length_singleton] at hle
  have h1 := hon.take (List.prefix_append x [c])
  have h2 := SOn.upd (c := c') hs (by omega) h1
  have hkl := hon.kl
  have hpl := hon.pl
  dsimp only at hkl hpl
  unfold SIter.set
  dsimp only
  rw [assertR_ok (by simp [hkl]; omega), ok_bind, h.sread hs he, ok_bind, wr_ok (by omega), ok_bind, wr_ok (by omega), ok_bind]
  exact ⟨_, rfl, h2, rfl, rfl, rfl⟩

theorem SOn.rd {it : SIter} {p x : Str} {c : Nat} (h : SOn ts s it p) (hx : x ++ [c] <+: p) (hs : s ≤ x.length) :
    rdP it.pos (x.length - s) = .ok (ipos ts s (x ++ [c])) := by
  have := h.pos x c hx hs
  unfold rdP
  rw [this]

/-! ## First and last leaf below a node -/

/-- The sparse part of an iterator at the leaf `t`. -/
structure SAt (ts : List Str) (s : Nat) (it : SIter) (t : Str) : Prop where
  valid : it.valid = true
  term : it.atTerm = decide (0 ∈ t)
  on : SOn ts s it t
  lt : s < t.length

omit [Env] in
theorem leaf_zero_iff (h : WF ts) {x : Str} {c : Nat} (ht : x ++ [c] ∈ ts) : 0 ∈ x ++ [c] ↔ c = 0 := by
  have := h.term _ ht
  rw [List.dropLast_concat] at this
  simp [this, eq_comm]

theorem FRep0.sfinish (h : FRep0 cfg ts sw s f) {it : SIter} {x : Str} {c : Nat} (hon : SOn ts s it (x ++ [c]))
    (hs : s ≤ x.length) (ht : x ++ [c] ∈ ts) (h0 : it.atTerm = false) :
    ∃ it', it.finishLeaf f.sparse (labB c) (ipos ts s (x ++ [c])) = .ok it' ∧ SAt ts s it' (x ++ [c]) ∧
      it'.startNode = it.startNode := by
  have he := ex_mem ht
  have hx0 : x ≠ [] := by
    rintro rfl
    have := h.s1
    simp at hs
    omega
  have hlt : s < (x ++ [c]).length := by simp; omega
  have hz := leaf_zero_iff h.wf ht
  unfold SIter.finishLeaf
  by_cases hl : labB c = kTerminator
  · rw [if_pos hl]
    have hsl := h.sitems_le
    have hmem : x ++ [c] ∈ sitems ts s := mem_sitems.2 ⟨hlt, he⟩
    have hil := ipos_lt hmem
    have hend : ∃ e, f.sparse.isEndofNode (ipos ts s (x ++ [c])) = .ok e ∧ e = decide (c ≠ 0) := by
      unfold LoudsSparse.isEndofNode
      have hnb := h.louds_len
      have hc : c = 0 ∨ c = 256 := by
        cases c with
        | zero => exact Or.inl rfl
        | succ c =>
          right
          have hc' := sym_le h.wf he
          have : (UInt8.ofNat c).toNat = 255 := by
            have hl' : UInt8.ofNat c = kTerminator := hl
            rw [hl']; rfl
          rw [UInt8.toNat_ofNat', Nat.mod_eq_of_lt (by omega)] at this
          omega
      rw [sub32_eq (by omega) (by omega), add32_eq (by omega)]
      rcases hc with rfl | rfl
      · obtain ⟨c', hne, he'⟩ := two_kids h.wf hx0 ht
        rcases h.snext hs he with ⟨c'', h1, h2, h3, h4, h5, h6⟩ | ⟨h1, -⟩
        · rw [if_neg (by omega), h6]
          exact ⟨_, rfl, by simp⟩
        · rw [h1 c' (by omega)] at he'; cases he'
      · rcases h.snext hs he with ⟨c'', h1, h2, -⟩ | ⟨-, h1 | ⟨h1, h2⟩⟩
        · have := sym_le h.wf h2; omega
        · rw [if_pos (by omega)]; exact ⟨_, rfl, by simp⟩
        · rw [if_neg (by omega), h2]; exact ⟨_, rfl, by simp⟩
    obtain ⟨e, e1, e2⟩ := hend
    rw [e1, ok_bind, e2]
    refine ⟨_, rfl, ⟨rfl, ?_, hon.congr rfl rfl rfl, hlt⟩, rfl⟩
    dsimp only
    by_cases hc : c = 0
    · subst hc; simp
    · simp only [hc, ne_eq, not_false_eq_true, decide_true, if_true, h0]
      symm; simpa [hz] using hc
  · rw [if_neg hl]
    refine ⟨_, rfl, ⟨rfl, ?_, hon.congr rfl rfl rfl, hlt⟩, rfl⟩
    dsimp only
    rw [h0]
    symm
    have : c ≠ 0 := by rintro rfl; exact hl rfl
    simpa [hz] using this

theorem FRep0.schildNum' (h : FRep0 cfg ts sw s f) {x : Str} {c : Nat} (hs : s ≤ x.length) (hi : isInt ts (x ++ [c]) = true) :
    f.sparse.getChildNodeNum (ipos ts s (x ++ [c])) = .ok (num ts (x ++ [c])) :=
  h.schildNum (mem_sitems.2 ⟨by simp; omega, ex_of_int hi⟩) hi

/-- The last child of an internal node. -/
theorem exists_last (h : WF ts) {x : Str} (hx : isInt ts x = true) :
    ∃ c, ex ts (x ++ [c]) = true ∧ ∀ d, c < d → ex ts (x ++ [d]) = false := by
  rcases prev_kid ts x 257 with h1 | ⟨c, h1, h2, h3⟩
  · obtain ⟨c, hc, -⟩ := exists_first h hx
    have := sym_le h hc
    rw [h1 c (by omega)] at hc; cases hc
  · refine ⟨c, h2, fun d hd => ?_⟩
    rcases Nat.lt_or_ge d 257 with h4 | h4
    · exact h3 d hd h4
    · by_contra hc
      have := sym_le h (by simpa using hc : ex ts (x ++ [d]) = true)
      omega

theorem FRep0.sleftLoop (h : FRep0 cfg ts sw s f) (n : Nat) {x : Str} {c : Nat} {it : SIter}
    (hon : SOn ts s it (x ++ [c])) (hs : s ≤ x.length) (h0 : it.atTerm = false)
    (hi : isInt ts (x ++ [c]) = true) (hn : maxLen ts < x.length + 1 + n) :
    ∃ it' t, it.leftLoop f.sparse n (ipos ts s (x ++ [c])) = .ok it' ∧ IsLeft ts (x ++ [c]) t ∧ SAt ts s it' t ∧
      it'.startNode = it.startNode := by
  induction n generalizing x c it with
  | zero =>
    have := int_length_lt hi
    simp at this; omega
  | succ n ih =>
    unfold SIter.leftLoop
    rw [h.schildNum' hs hi, ok_bind]
    obtain ⟨d, hd, hmin⟩ := exists_first h.wf hi
    have hs' : s ≤ (x ++ [c]).length := by simp; omega
    rw [h.sfirst' hs' hd hmin, ok_bind, h.sread hs' hd, ok_bind, h.schild' hs' hd, ok_bind]
    obtain ⟨it1, e1, hon1, hsame⟩ := hon.appendL hs' hd
    rw [e1, ok_bind]
    by_cases hic : isInt ts (x ++ [c] ++ [d]) = true
    · rw [hic]
      simp only [Bool.not_true, Bool.false_eq_true, if_false]
      obtain ⟨it2, t, e2, hl, ha, hst⟩ := ih hon1 hs' (by rw [hsame.2.2]; exact h0) hic (by simp; omega)
      exact ⟨it2, t, e2, hl.up h.wf hmin, ha, by rw [hst, hsame.2.1]⟩
    · have hicf : isInt ts (x ++ [c] ++ [d]) = false := by simpa using hic
      rw [hicf]
      simp only [Bool.not_false, if_true]
      have hleaf := (leaf_of_ex h.wf hd).1 hicf
      obtain ⟨it2, e2, ha, hst⟩ := h.sfinish hon1 hs' hleaf (by rw [hsame.2.2]; exact h0)
      exact ⟨it2, _, e2, (isLeft_leaf h.wf hleaf).up h.wf hmin, ha, by rw [hst, hsame.2.1]⟩

/-- The body of `moveToLeftMostKey` on a non-empty path. -/
theorem FRep0.sleft (h : FRep0 cfg ts sw s f) {x : Str} {c : Nat} {it : SIter}
    (hon : SOn ts s it (x ++ [c])) (hs : s ≤ x.length) (h0 : it.atTerm = false) (he : ex ts (x ++ [c]) = true) :
    ∃ it' t, it.moveToLeftMostKey f.sparse = .ok it' ∧ IsLeft ts (x ++ [c]) t ∧ SAt ts s it' t ∧
      it'.startNode = it.startNode := by
  have hl := hon.len
  simp only [List.length_append, List.length_singleton] at hl
  unfold SIter.moveToLeftMostKey
  rw [if_neg (by omega)]
  simp only [pure_bind]
  have e1 : it.keyLen - 1 = x.length - s := by omega
  rw [e1, hon.rd (List.prefix_refl _) hs, ok_bind, h.sread hs he, ok_bind, h.schild' hs he, ok_bind]
  by_cases hic : isInt ts (x ++ [c]) = true
  · rw [hic]
    simp only [Bool.not_true, Bool.false_eq_true, if_false]
    refine h.sleftLoop _ hon hs h0 hic ?_
    rw [h.sparse.height]; omega
  · have hicf : isInt ts (x ++ [c]) = false := by simpa using hic
    rw [hicf]
    simp only [Bool.not_false, if_true]
    have hleaf := (leaf_of_ex h.wf he).1 hicf
    obtain ⟨it2, e2, ha, hst⟩ := h.sfinish hon hs hleaf h0
    exact ⟨it2, _, e2, isLeft_leaf h.wf hleaf, ha, hst⟩

/-- `moveToLeftMostKey` from the start node. -/
theorem FRep0.sleft0 (h : FRep0 cfg ts sw s f) {x : Str} {it : SIter} (hx : isInt ts x = true) (hxs : x.length = s)
    (hk : it.keyLen = 0) (h1 : it.key.length = maxLen ts + 1 - s) (h2 : it.pos.length = maxLen ts + 1 - s)
    (hst : it.startNode = num ts x) (h0 : it.atTerm = false) :
    ∃ it' t, it.moveToLeftMostKey f.sparse = .ok it' ∧ IsLeft ts x t ∧ SAt ts s it' t := by
  obtain ⟨c, hc, hmin⟩ := exists_first h.wf hx
  have hon : SOn ts s it x := SOn.start hk h1 h2 hxs
  obtain ⟨it1, e1, hon1, hsame⟩ := hon.appendL (le_of_eq hxs.symm) hc
  obtain ⟨it2, t, e2, hl, ha, -⟩ := h.sleft hon1 (le_of_eq hxs.symm) (by rw [hsame.2.2]; exact h0) hc
  refine ⟨it2, t, ?_, hl.up h.wf hmin, ha⟩
  rw [← e2]
  have hl1 := hon1.len
  simp only [List.length_append, List.length_singleton] at hl1
  unfold SIter.moveToLeftMostKey
  rw [if_pos hk, if_neg (by omega), hst, h.sfirst' (le_of_eq hxs.symm) hc hmin, ok_bind,
    h.sread (le_of_eq hxs.symm) hc, ok_bind, e1]
  rfl

theorem FRep0.srightLoop (h : FRep0 cfg ts sw s f) (n : Nat) {x : Str} {c : Nat} {it : SIter}
    (hon : SOn ts s it (x ++ [c])) (hs : s ≤ x.length) (h0 : it.atTerm = false)
    (hi : isInt ts (x ++ [c]) = true) (hn : maxLen ts < x.length + 1 + n) :
    ∃ it' t, it.rightLoop f.sparse n (ipos ts s (x ++ [c])) = .ok it' ∧ IsRight ts (x ++ [c]) t ∧ SAt ts s it' t ∧
      it'.startNode = it.startNode := by
  induction n generalizing x c it with
  | zero =>
    have := int_length_lt hi
    simp at this; omega
  | succ n ih =>
    unfold SIter.rightLoop
    rw [h.schildNum' hs hi, ok_bind]
    obtain ⟨d, hd, hmax⟩ := exists_last h.wf hi
    have hs' : s ≤ (x ++ [c]).length := by simp; omega
    rw [h.slast hs' hd hmax, ok_bind, h.sread hs' hd, ok_bind, h.schild' hs' hd, ok_bind]
    obtain ⟨it1, e1, hon1, hsame⟩ := hon.appendL hs' hd
    rw [e1, ok_bind]
    by_cases hic : isInt ts (x ++ [c] ++ [d]) = true
    · rw [hic]
      simp only [Bool.not_true, Bool.false_eq_true, if_false]
      obtain ⟨it2, t, e2, hl, ha, hst⟩ := ih hon1 hs' (by rw [hsame.2.2]; exact h0) hic (by simp; omega)
      exact ⟨it2, t, e2, hl.up h.wf hmax, ha, by rw [hst, hsame.2.1]⟩
    · have hicf : isInt ts (x ++ [c] ++ [d]) = false := by simpa using hic
      rw [hicf]
      simp only [Bool.not_false, if_true]
      have hleaf := (leaf_of_ex h.wf hd).1 hicf
      obtain ⟨it2, e2, ha, hst⟩ := h.sfinish hon1 hs' hleaf (by rw [hsame.2.2]; exact h0)
      exact ⟨it2, _, e2, (isRight_leaf h.wf hleaf).up h.wf hmax, ha, by rw [hst, hsame.2.1]⟩

theorem FRep0.sright (h : FRep0 cfg ts sw s f) {x : Str} {c : Nat} {it : SIter}
    (hon : SOn ts s it (x ++ [c])) (hs : s ≤ x.length) (h0 : it.atTerm = false) (he : ex ts (x ++ [c]) = true) :
    ∃ it' t, it.moveToRightMostKey f.sparse = .ok it' ∧ IsRight ts (x ++ [c]) t ∧ SAt ts s it' t ∧
      it'.startNode = it.startNode := by
  have hl := hon.len
  simp only [List.length_append, List.length_singleton] at hl
  unfold SIter.moveToRightMostKey
  rw [if_neg (by omega)]
  simp only [pure_bind]
  have e1 : it.keyLen - 1 = x.length - s := by omega
  rw [e1, hon.rd (List.prefix_refl _) hs, ok_bind, h.sread hs he, ok_bind, h.schild' hs he, ok_bind]
  by_cases hic : isInt ts (x ++ [c]) = true
  · rw [hic]
    simp only [Bool.not_true, Bool.false_eq_true, if_false]
    refine h.srightLoop _ hon hs h0 hic ?_
    rw [h.sparse.height]; omega
  · have hicf : isInt ts (x ++ [c]) = false := by simpa using hic
    rw [hicf]
    simp only [Bool.not_false, if_true]
    have hleaf := (leaf_of_ex h.wf he).1 hicf
    obtain ⟨it2, e2, ha, hst⟩ := h.sfinish hon hs hleaf h0
    exact ⟨it2, _, e2, isRight_leaf h.wf hleaf, ha, hst⟩

/-- `moveToRightMostKey` from the start node. -/
theorem FRep0.sright0 (h : FRep0 cfg ts sw s f) {x : Str} {it : SIter} (hx : isInt ts x = true) (hxs : x.length = s)
    (hk : it.keyLen = 0) (h1 : it.key.length = maxLen ts + 1 - s) (h2 : it.pos.length = maxLen ts + 1 - s)
    (hst : it.startNode = num ts x) (h0 : it.atTerm = false) :
    ∃ it' t, it.moveToRightMostKey f.sparse = .ok it' ∧ IsRight ts x t ∧ SAt ts s it' t := by
  obtain ⟨c0, hc0, hmin⟩ := exists_first h.wf hx
  obtain ⟨c, hc, hmax⟩ := exists_last h.wf hx
  have hon : SOn ts s it x := SOn.start hk h1 h2 hxs
  obtain ⟨it1, e1, hon1, hsame⟩ := hon.appendL (le_of_eq hxs.symm) hc
  obtain ⟨it2, t, e2, hl, ha, -⟩ := h.sright hon1 (le_of_eq hxs.symm) (by rw [hsame.2.2]; exact h0) hc
  refine ⟨it2, t, ?_, hl.up h.wf hmax, ha⟩
  rw [← e2]
  have hl1 := hon1.len
  simp only [List.length_append, List.length_singleton] at hl1
  unfold SIter.moveToRightMostKey
  rw [if_pos hk, if_neg (by omega), hst, h.sfirst' (le_of_eq hxs.symm) hc0 hmin, ok_bind,
    h.slast (le_of_eq hxs.symm) hc hmax, ok_bind, h.sread (le_of_eq hxs.symm) hc, ok_bind, e1]
  rfl

/-! ## Increment -/

/-- The sparse part is exhausted: not valid, empty path. -/
structure SOff (ts : List Str) (s : Nat) (it : SIter) : Prop where
  valid : it.valid = false
  len : it.keyLen = 0
  term : it.atTerm = false
  kl : it.key.length = maxLen ts + 1 - s
  pl : it.pos.length = maxLen ts + 1 - s

/-- `++`: the next leaf below the start node, or the whole subtrie is exhausted. -/
theorem FRep0.sincLoop (h : FRep0 cfg ts sw s f) (n : Nat) {p : Str} {it : SIter}
    (hn : p.length = s + n + 1) (hon : SOn ts s { it with keyLen := p.length - s } p) (h0 : it.atTerm = false)
    (he : ex ts p = true) :
    ∃ it', it.incLoop f.sparse (n + 1) = .ok it' ∧
      ((SOff ts s it' ∧ (∀ t, IsNext ts (p.take s) t → IsNext ts p t) ∧ (NoNext ts (p.take s) → NoNext ts p)) ∨
        ∃ t, IsNext ts p t ∧ p.take s <+: t ∧ SAt ts s it' t) := by
  induction n generalizing p with
  | zero =>
    obtain ⟨x, c, rfl⟩ : ∃ x c, p = x ++ [c] := by
      rcases List.eq_nil_or_concat p with rfl | ⟨x, c, rfl⟩
      · simp at hn
      · exact ⟨x, c, by simp⟩
    have hxl : x.length = s := by simpa using hn
    have hs : s ≤ x.length := by omega
    have hx := int_of_ex_snoc he
    have hrd := hon.rd (x := x) (List.prefix_refl _) hs
    dsimp only at hrd
    rw [hxl, Nat.sub_self] at hrd
    have htk : (x ++ [c]).take s = x := by rw [← hxl]; simp
    rw [htk]
    have hsl := h.sitems_le
    have hil := ipos_lt (mem_sitems.2 ⟨show s < (x ++ [c]).length by simp; omega, he⟩)
    have hnb := h.louds_len
    unfold SIter.incLoop
    rw [hrd, ok_bind]
    dsimp only
    rw [add32_eq (by omega)]
    rcases h.snext hs he with ⟨c', h1, h2, h3, h4, h5, h6⟩ | ⟨h1, h2⟩
    · rw [if_neg (by omega), h6, ok_bind]
      simp only [Bool.false_eq_true, if_false]
      have hon' : SOn ts s { it with keyLen := x.length - s + 1 } (x ++ [c]) := hon.congr (by simp; omega) rfl rfl
      obtain ⟨it1, e1, hon1, hsame⟩ := h.sset hon' hs h2
      rw [hxl, Nat.sub_self, h4] at e1
      rw [e1, ok_bind]
      obtain ⟨it2, t, e2, hl, ha, -⟩ := h.sleft hon1 hs (by rw [hsame.2.2]; exact h0) h2
      exact ⟨it2, e2, Or.inr ⟨t, hl.next h.wf h1 h3, (List.prefix_append _ _).trans hl.2.1, ha⟩⟩
    · have hstop : (if ipos ts s (x ++ [c]) + 1 ≥ f.sparse.loudsBits.numBits then (pure true : R Bool)
          else f.sparse.loudsBits.readBit (ipos ts s (x ++ [c]) + 1)) = .ok true := by
        rcases h2 with h2 | ⟨h2, h3⟩
        · rw [if_pos (by omega)]; rfl
        · rw [if_neg (by omega), h3]
      refine ⟨{ it with keyLen := 0, valid := false }, ?_, Or.inl ⟨⟨rfl, rfl, h0, hon.kl, hon.pl⟩, fun t ht => ht.up h.wf hx h1,
        fun hh => hh.up h.wf hx h1⟩⟩
      split at hstop
      · rename_i hge
        rw [if_pos hge]
        rfl
      · rename_i hge
        rw [if_neg hge, hstop]
        rfl
  | succ n ih =>
    obtain ⟨x, c, rfl⟩ : ∃ x c, p = x ++ [c] := by
      rcases List.eq_nil_or_concat p with rfl | ⟨x, c, rfl⟩
      · simp at hn
      · exact ⟨x, c, by simp⟩
    have hxl : x.length = s + n + 1 := by simp at hn; omega
    have hxs : x.length - s = n + 1 := by omega
    have hs : s ≤ x.length := by omega
    have hx := int_of_ex_snoc he
    have hrd := hon.rd (x := x) (List.prefix_refl _) hs
    dsimp only at hrd
    rw [hxs] at hrd
    have htk : (x ++ [c]).take s = x.take s := by rw [List.take_append_of_le_length hs]
    rw [htk]
    have hsl := h.sitems_le
    have hil := ipos_lt (mem_sitems.2 ⟨show s < (x ++ [c]).length by simp; omega, he⟩)
    have hnb := h.louds_len
    unfold SIter.incLoop
    rw [hrd, ok_bind]
    dsimp only
    rw [add32_eq (by omega)]
    rcases h.snext hs he with ⟨c', h1, h2, h3, h4, h5, h6⟩ | ⟨h1, h2⟩
    · rw [if_neg (by omega), h6, ok_bind]
      simp only [Bool.false_eq_true, if_false]
      have hon' : SOn ts s { it with keyLen := x.length - s + 1 } (x ++ [c]) := hon.congr (by simp; omega) rfl rfl
      obtain ⟨it1, e1, hon1, hsame⟩ := h.sset hon' hs h2
      rw [hxs, h4] at e1
      rw [e1, ok_bind]
      obtain ⟨it2, t, e2, hl, ha, -⟩ := h.sleft hon1 hs (by rw [hsame.2.2]; exact h0) h2
      exact ⟨it2, e2, Or.inr ⟨t, hl.next h.wf h1 h3, ((List.take_prefix _ _).trans (List.prefix_append _ _)).trans hl.2.1, ha⟩⟩
    · have hstop : (if ipos ts s (x ++ [c]) + 1 ≥ f.sparse.loudsBits.numBits then (pure true : R Bool)
          else f.sparse.loudsBits.readBit (ipos ts s (x ++ [c]) + 1)) = .ok true := by
        rcases h2 with h2 | ⟨h2, h3⟩
        · rw [if_pos (by omega)]; rfl
        · rw [if_neg (by omega), h3]
      obtain ⟨it', e', hr⟩ := ih hxl (hon.take (List.prefix_append _ _)) (ex_of_int hx)
      refine ⟨it', ?_, ?_⟩
      · rw [← e']
        split at hstop
        · rename_i hge
          rw [if_pos hge]
          rfl
        · rename_i hge
          rw [if_neg hge, hstop]
          rfl
      · rcases hr with ⟨g1, g2, g3⟩ | ⟨t, g1, g2, g3⟩
        · exact Or.inl ⟨g1, fun t ht => (g2 t ht).up h.wf hx h1, fun hh => (g3 hh).up h.wf hx h1⟩
        · exact Or.inr ⟨t, g1.up h.wf hx h1, g2, g3⟩

theorem FRep0.sinc (h : FRep0 cfg ts sw s f) {p : Str} {it : SIter}
    (hs : s < p.length) (hon : SOn ts s it p) (he : ex ts p = true) :
    ∃ it', it.inc f.sparse = .ok it' ∧
      ((SOff ts s it' ∧ (∀ t, IsNext ts (p.take s) t → IsNext ts p t) ∧ (NoNext ts (p.take s) → NoNext ts p)) ∨
        ∃ t, IsNext ts p t ∧ p.take s <+: t ∧ SAt ts s it' t) := by
  have hlen := hon.len
  obtain ⟨n, hn⟩ : ∃ n, p.length = s + n + 1 := ⟨p.length - s - 1, by omega⟩
  unfold SIter.inc
  rw [assertR_ok (by simp; omega), ok_bind]
  have e : it.keyLen = n + 1 := by omega
  rw [e]
  exact h.sincLoop (it := { it with atTerm := false, keyLen := n + 1 }) n hn (hon.congr (by simp; omega) rfl rfl) rfl he

/-! ## Decrement -/

theorem FRep0.sdecLoop (h : FRep0 cfg ts sw s f) (n : Nat) {p : Str} {it : SIter}
    (hn : p.length = s + n + 1) (hon : SOn ts s { it with keyLen := p.length - s } p) (h0 : it.atTerm = false)
    (he : ex ts p = true) :
    ∃ it', it.decLoop f.sparse (n + 1) = .ok it' ∧
      ((SOff ts s it' ∧ (∀ t, IsPrev ts (p.take s) t → IsPrev ts p t) ∧ (∀ t ∈ ts, t < p → t < p.take s)) ∨
        ∃ t, IsPrev ts p t ∧ p.take s <+: t ∧ SAt ts s it' t) := by
  induction n generalizing p with
  | zero =>
    obtain ⟨x, c, rfl⟩ : ∃ x c, p = x ++ [c] := by
      rcases List.eq_nil_or_concat p with rfl | ⟨x, c, rfl⟩
      · simp at hn
      · exact ⟨x, c, by simp⟩
    have hxl : x.length = s := by simpa using hn
    have hs : s ≤ x.length := by omega
    have hx := int_of_ex_snoc he
    have hrd := hon.rd (x := x) (List.prefix_refl _) hs
    dsimp only at hrd
    rw [hxl, Nat.sub_self] at hrd
    have htk : (x ++ [c]).take s = x := by rw [← hxl]; simp
    rw [htk]
    have hsl := h.sitems_le
    have hil := ipos_lt (mem_sitems.2 ⟨show s < (x ++ [c]).length by simp; omega, he⟩)
    unfold SIter.decLoop
    rw [hrd, ok_bind]
    rcases h.sprev hs he with ⟨c', h1, h2, h3, h4, h6⟩ | ⟨h1, h2⟩
    · rw [h6, ok_bind]
      simp only [Bool.false_eq_true, if_false]
      have hon' : SOn ts s { it with keyLen := x.length - s + 1 } (x ++ [c]) := hon.congr (by simp; omega) rfl rfl
      obtain ⟨it1, e1, hon1, hsame⟩ := h.sset hon' hs h2
      rw [hxl, Nat.sub_self] at e1
      rw [sub32_eq (by omega) (by omega), h4, Nat.add_sub_cancel, e1, ok_bind]
      obtain ⟨it2, t, e2, hl, ha, -⟩ := h.sright hon1 hs (by rw [hsame.2.2]; exact h0) h2
      exact ⟨it2, e2, Or.inr ⟨t, hl.prev h.wf h1 h3, (List.prefix_append _ _).trans hl.2.1, ha⟩⟩
    · rw [h2, ok_bind]
      exact ⟨{ it with keyLen := 0, valid := false }, rfl, Or.inl ⟨⟨rfl, rfl, h0, hon.kl, hon.pl⟩,
        fun t ht => ht.up h.wf hx h1, fun t ht hlt => lt_parent h.wf hx h1 ht hlt⟩⟩
  | succ n ih =>
    obtain ⟨x, c, rfl⟩ : ∃ x c, p = x ++ [c] := by
      rcases List.eq_nil_or_concat p with rfl | ⟨x, c, rfl⟩
      · simp at hn
      · exact ⟨x, c, by simp⟩
    have hxl : x.length = s + n + 1 := by simp at hn; omega
    have hxs : x.length - s = n + 1 := by omega
    have hs : s ≤ x.length := by omega
    have hx := int_of_ex_snoc he
    have hrd := hon.rd (x := x) (List.prefix_refl _) hs
    dsimp only at hrd
    rw [hxs] at hrd
    have htk : (x ++ [c]).take s = x.take s := by rw [List.take_append_of_le_length hs]
    rw [htk]
    have hsl := h.sitems_le
    have hil := ipos_lt (mem_sitems.2 ⟨show s < (x ++ [c]).length by simp; omega, he⟩)
    unfold SIter.decLoop
    rw [hrd, ok_bind]
    rcases h.sprev hs he with ⟨c', h1, h2, h3, h4, h6⟩ | ⟨h1, h2⟩
    · rw [h6, ok_bind]
      simp only [Bool.false_eq_true, if_false]
      have hon' : SOn ts s { it with keyLen := x.length - s + 1 } (x ++ [c]) := hon.congr (by simp; omega) rfl rfl
      obtain ⟨it1, e1, hon1, hsame⟩ := h.sset hon' hs h2
      rw [hxs] at e1
      rw [sub32_eq (by omega) (by omega), h4, Nat.add_sub_cancel, e1, ok_bind]
      obtain ⟨it2, t, e2, hl, ha, -⟩ := h.sright hon1 hs (by rw [hsame.2.2]; exact h0) h2
      exact ⟨it2, e2, Or.inr ⟨t, hl.prev h.wf h1 h3, ((List.take_prefix _ _).trans (List.prefix_append _ _)).trans hl.2.1, ha⟩⟩
    · rw [h2, ok_bind]
      obtain ⟨it', e', hr⟩ := ih hxl (hon.take (List.prefix_append _ _)) (ex_of_int hx)
      refine ⟨it', e', ?_⟩
      rcases hr with ⟨g1, g2, g3⟩ | ⟨t, g1, g2, g3⟩
      · exact Or.inl ⟨g1, fun t ht => (g2 t ht).up h.wf hx h1, fun t ht hlt => g3 t ht (lt_parent h.wf hx h1 ht hlt)⟩
      · exact Or.inr ⟨t, g1.up h.wf hx h1, g2, g3⟩

/-- Position 0 is the first item of the first sparse node. -/
theorem FRep0.ipos_zero (h : FRep0 cfg ts sw s f) {x : Str} {c : Nat} (hs : s ≤ x.length) (he : ex ts (x ++ [c]) = true)
    (h0 : ipos ts s (x ++ [c]) = 0) :
    x.length = s ∧ (∀ d, d < c → ex ts (x ++ [d]) = false) ∧ (∀ y, isInt ts y = true → y.length = s → x ≤ y) := by
  obtain ⟨A, C, hA, -⟩ := h.snode (int_of_ex_snoc he) hs
  have hp := ipos_eq h.wf hA he
  have hno : before ts A x c = [] := List.length_eq_zero_iff.1 (by omega)
  have hA0 : A = [] := by
    cases A with
    | nil => rfl
    | cons y A =>
      have := kids_ne snodes_int y (by rw [hA]; simp)
      simp [before, this] at hno
  subst hA0
  have hall : ∀ y, isInt ts y = true → s ≤ y.length → x.length < y.length ∨ (x.length = y.length ∧ x ≤ y) := by
    intro y hy hys
    have hym : y ∈ snodes ts s := mem_nodesR.2 ⟨hys, by have := int_length_lt hy; omega, hy⟩
    have hord := nodesR_order h.wf s (maxLen ts + 1)
    change (snodes ts s).Pairwise _ at hord
    rw [hA] at hord hym
    rcases List.mem_cons.1 hym with rfl | hm
    · exact Or.inr ⟨rfl, le_refl _⟩
    · rcases (List.pairwise_cons.1 hord).1 y hm with h1 | ⟨h1, h2⟩
      · exact Or.inl h1
      · exact Or.inr ⟨h1, le_of_lt h2⟩
  have hxi := int_of_ex_snoc he
  have hpre : isInt ts (x.take s) = true := by
    rcases Nat.lt_or_ge s x.length with h1 | h1
    · have hx' : x.take s ++ [x[s]] <+: x := by
        rw [List.take_append_getElem]; exact List.take_prefix _ _
      exact int_of_ex_snoc (ex_prefix (ex_of_int hxi) hx')
    · rw [List.take_of_length_le h1]; exact hxi
  have hl : (x.take s).length = s := by simp; omega
  refine ⟨?_, fun d hd => ?_, fun y hy hys => ?_⟩
  · rcases hall _ hpre (by omega) with h1 | ⟨h1, -⟩ <;> omega
  · by_contra hc
    have : x ++ [d] ∈ kidsLT ts x c := mem_kidsLT.2 ⟨d, hd, rfl, by simpa using hc⟩
    simp [before] at hno
    rw [hno] at this
    simp at this
  · have hx0 : x.length = s := by rcases hall _ hpre (by omega) with h1 | ⟨h1, -⟩ <;> omega
    rcases hall y hy (by omega) with h1 | ⟨-, h1⟩
    · omega
    · exact h1


/-- The sparse part is not in use while the iterator is at the leaf `t`.  It is either empty or stuck on
the very first sparse item, which `--` does not reset. -/
structure SIdle (ts : List Str) (s : Nat) (it : SIter) (t : Str) : Prop where
  valid : it.valid = false
  term : it.atTerm = false
  kl : it.key.length = maxLen ts + 1 - s
  pl : it.pos.length = maxLen ts + 1 - s
  st : it.keyLen = 0 ∨ ∃ x c, x.length = s ∧ x ++ [c] ∈ ts ∧ SOn ts s it (x ++ [c]) ∧ t < x ++ [c] ∧
    (∀ d, d < c → ex ts (x ++ [d]) = false) ∧ ∀ y, isInt ts y = true → y.length = s → x ≤ y

omit [Env] in
theorem SOff.idle {it : SIter} (h : SOff ts s it) (t : Str) : SIdle ts s it t :=
  ⟨h.valid, h.term, h.kl, h.pl, Or.inl h.len⟩

theorem FRep0.sdec (h : FRep0 cfg ts sw s f) {p : Str} {it : SIter}
    (hs : s < p.length) (hon : SOn ts s it p) (hp : p ∈ ts) :
    ∃ it', it.dec f.sparse = .ok it' ∧
      ((it'.valid = false ∧ (∀ t, IsPrev ts (p.take s) t → IsPrev ts p t) ∧ (∀ t ∈ ts, t < p → t < p.take s) ∧
          ∀ t ∈ ts, t < p → SIdle ts s it' t) ∨
        ∃ t, IsPrev ts p t ∧ p.take s <+: t ∧ SAt ts s it' t) := by
  have he : ex ts p = true := ex_iff.2 ⟨p, hp, List.prefix_refl _⟩
  have hlen := hon.len
  obtain ⟨n, hn⟩ : ∃ n, p.length = s + n + 1 := ⟨p.length - s - 1, by omega⟩
  obtain ⟨x, c, rfl⟩ : ∃ x c, p = x ++ [c] := by
    rcases List.eq_nil_or_concat p with rfl | ⟨x, c, rfl⟩
    · simp at hn
    · exact ⟨x, c, by simp⟩
  have hxs : s ≤ x.length := by simp at hs; omega
  have hxi := int_of_ex_snoc he
  unfold SIter.dec
  rw [assertR_ok (by simp; omega), ok_bind]
  dsimp only
  have e1 : it.keyLen - 1 = x.length - s := by simp at hlen; omega
  rw [e1, hon.rd (List.prefix_refl _) hxs, ok_bind]
  by_cases h0 : ipos ts s (x ++ [c]) = 0
  · rw [if_pos h0]
    obtain ⟨g1, g2, g3⟩ := h.ipos_zero hxs he h0
    have htk : (x ++ [c]).take s = x := by rw [← g1]; simp
    rw [htk]
    refine ⟨_, rfl, Or.inl ⟨rfl, fun t ht => ht.up h.wf hxi g2, fun t ht hlt => lt_parent h.wf hxi g2 ht hlt,
      fun t ht hlt => ⟨rfl, rfl, hon.kl, hon.pl, Or.inr ⟨x, c, g1, hp, hon.congr rfl rfl rfl, hlt, g2, g3⟩⟩⟩⟩
  · rw [if_neg h0]
    have e : it.keyLen = n + 1 := by omega
    rw [e]
    obtain ⟨it', e2, hr⟩ := h.sdecLoop (it := { it with atTerm := false, keyLen := n + 1 }) n hn
      (hon.congr (by simp; omega) rfl rfl) rfl he
    refine ⟨it', e2, ?_⟩
    rcases hr with ⟨r1, r2, r3⟩ | hr
    · exact Or.inl ⟨r1.valid, r2, r3, fun t _ _ => r1.idle t⟩
    · exact Or.inr hr

end Surf
