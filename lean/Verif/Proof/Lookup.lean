import Verif.Proof.SparseNav

/-! # Point lookup -/

set_option linter.unusedSectionVars false
set_option autoImplicit false

namespace Surf
open Trie
variable [Env] {cfg : Config} {ts : List Str} {sw : Str → Word} {s : Nat} {f : Filter}

/-! ## Suffix check -/

/-- `checkEquality` on a stored suffix word. -/
def chk (cfg : Config) (stored : Word) (key : Key) (level : Nat) : R Bool :=
  if cfg.suffixType = .kNone then .ok true
  else if cfg.suffixType = .kReal ∧ stored = 0 then .ok true
  else if cfg.suffixType = .kReal ∧ (key.length < level ∨ (key.length - level) * 8 < cfg.realLen) then .ok false
  else do
    let q ← BitvectorSuffix.constructSuffix cfg.suffixType key cfg.hashLen level cfg.realLen
    return stored == q

/-- Its result. -/
def passes (cfg : Config) (stored : Word) (key : Key) (level : Nat) : Bool := (chk cfg stored key level).toOption.getD false

theorem chk_ok (hs : Env.strict = false) (hc : cfg.Ok) (stored : Word) (key : Key) (level : Nat) :
    chk cfg stored key level = .ok (passes cfg stored key level) := by
  unfold passes
  have : ∃ r, chk cfg stored key level = .ok r := by
    unfold chk
    split
    · exact ⟨_, rfl⟩
    split
    · exact ⟨_, rfl⟩
    split
    · exact ⟨_, rfl⟩
    obtain ⟨w, e, -⟩ := constructSuffix_ok (Or.inl hs) hc key level
    rw [e, ok_bind]
    exact ⟨_, rfl⟩
  obtain ⟨r, e⟩ := this
  rw [e]; rfl

theorem checkEquality_ok (hs : Env.strict = false) (hc : cfg.Ok) {b : BitvectorSuffix} {ws : List Word}
    (hb : SfxRep cfg b ws) {i : Nat} {w0 : Word} (hi : ws[i]? = some w0) (key : Key) (level : Nat) :
    b.checkEquality i key level = .ok (passes cfg w0 key level) := by
  rw [← chk_ok hs hc]
  unfold BitvectorSuffix.checkEquality chk
  rw [hb.type]
  by_cases hn : cfg.suffixType = .kNone
  · rw [if_pos hn, if_pos hn]
  · obtain ⟨h1, h2, h3⟩ := hb.some hn
    have hlt : i < ws.length := by
      by_contra hc
      rw [List.getElem?_eq_none (by omega)] at hi; simp at hi
    have h4 := h3.mul32 hlt
    have hpos := h3.pos
    rw [if_neg hn, if_neg hn, if_neg (by rw [h4.1]; omega), BitvectorSuffix.read_ok hs h3 hlt, ok_bind]
    have : ws.getD i 0 = w0 := by rw [List.getD, hi]; rfl
    rw [this, h1, h2]
    rfl

/-- Beyond the last stored suffix. -/
theorem checkEquality_end {b : BitvectorSuffix} {ws : List Word} (hb : SfxRep cfg b ws) (key : Key) (level : Nat) :
    b.checkEquality ws.length key level = .ok (decide (cfg.suffixType = .kNone)) := by
  unfold BitvectorSuffix.checkEquality
  rw [hb.type]
  by_cases hn : cfg.suffixType = .kNone
  · rw [if_pos hn]; simp [hn]
  · obtain ⟨h1, h2, h3⟩ := hb.some hn
    have hb32 := h3.b32
    rw [if_neg hn, if_pos]
    · simp [hn]
    · rw [h3.numBits, mul32_eq (by rw [Nat.mul_comm]; exact hb32), Nat.mul_comm]

/-! ## Trie facts -/

omit [Env] in
/-- No leaf string is a prefix of an internal node. -/
theorem no_leaf_above (h : WF ts) {x t : Str} (hx : isInt ts x = true) (ht : t ∈ ts) : ¬ t <+: x := by
  intro hp
  obtain ⟨t', ht', hp', hne⟩ := isInt_iff.1 hx
  have := h.pf t ht t' ht' (hp.trans hp')
  subst this
  exact hne (hp'.eq_of_length_le hp.length_le)

omit [Env] in
/-- When the next item does not exist, no leaf string is a prefix. -/
theorem no_leaf (h : WF ts) {x q : Str} {c : Nat} (hx : isInt ts x = true) (hq : x ++ [c] <+: q)
    (he : ex ts (x ++ [c]) = false) : ∀ t ∈ ts, ¬ t <+: q := by
  intro t ht hp
  rcases List.prefix_or_prefix_of_prefix hp hq with h1 | h1
  · rcases List.prefix_concat_iff.1 h1 with h2 | h2
    · subst h2; rw [ex_mem ht] at he; simp at he
    · exact no_leaf_above h hx ht h2
  · rw [ex_iff.2 ⟨t, ht, h1⟩] at he; simp at he

omit [Env] in
theorem take_succ_w {key : Key} {l : Nat} (hl : l < key.length) :
    (syms key).take l ++ [(key.getD l 0).toNat + 1] = (syms key).take (l + 1) ∧
    (syms key).take l ++ [(key.getD l 0).toNat + 1] <+: w key := by
  have h1 : (syms key).take l ++ [(key.getD l 0).toNat + 1] = (syms key).take (l + 1) := by
    rw [List.take_succ_eq_append_getElem (by simpa using hl)]
    simp [syms, List.getD, hl]
  refine ⟨h1, ?_⟩
  rw [h1, w_eq]
  exact (List.take_prefix _ _).trans (List.prefix_append _ _)

/-- The key leaves the trie in the last node of the level order. -/
def LeavesLast (ts : List Str) (s : Nat) (key : Key) : Prop :=
  ∃ A x b, snodes ts s = A ++ [x] ∧ x ++ [b + 1] <+: w key ∧ ex ts (x ++ [b + 1]) = false

/-- … with a zero byte, and the search runs on into the padding. -/
def PadHit (ts : List Str) (s : Nat) (key : Key) : Prop :=
  ∃ A x, snodes ts s = A ++ [x] ∧ x ++ [1] <+: w key ∧ ex ts (x ++ [1]) = false ∧ Overrun ts s x

omit [Env] in
/-- A key leaves the trie in one place. -/
theorem leaves_unique {x y q : Str} {c d : Nat} (hx : isInt ts x = true) (hy : isInt ts y = true) (h1 : x ++ [c] <+: q) (h2 : y ++ [d] <+: q)
    (e1 : ex ts (x ++ [c]) = false) (e2 : ex ts (y ++ [d]) = false) : x = y ∧ c = d := by
  have key : ∀ {x y : Str} {c d : Nat}, isInt ts y = true → x ++ [c] <+: y ++ [d] → ex ts (x ++ [c]) = false → x = y ∧ c = d := by
    intro x y c d hy h e
    rcases List.prefix_concat_iff.1 h with h | h
    · have := List.append_inj' h rfl
      exact ⟨this.1, by simpa using this.2⟩
    · obtain ⟨t, ht, hp, -⟩ := isInt_iff.1 hy
      rw [ex_iff.2 ⟨t, ht, h.trans hp⟩] at e
      simp at e
  rcases List.prefix_or_prefix_of_prefix h1 h2 with h | h
  · exact key hy h e1
  · have := key hx h e2
    exact ⟨this.1.symm, this.2.symm⟩

omit [Env] in
theorem PadHit.at {key : Key} (h : PadHit ts s key) {y : Str} {d : Nat} (hy : isInt ts y = true) (hp : y ++ [d] <+: w key)
    (he : ex ts (y ++ [d]) = false) : d = 1 ∧ s ≤ y.length ∧ (∃ A, snodes ts s = A ++ [y]) ∧ Overrun ts s y := by
  obtain ⟨A, x, hA, h1, h2, h3⟩ := h
  have hx := mem_nodesR.1 (show x ∈ snodes ts s by rw [hA]; simp)
  obtain ⟨rfl, rfl⟩ := leaves_unique hx.2.2 hy h1 hp h2 he
  exact ⟨rfl, hx.1, ⟨A, hA⟩, h3⟩

/-! ## LoudsDense::lookupKey -/

theorem FRep0.dlookup (h : FRep0 cfg ts sw s f) (hs : Env.strict = false) (hc : cfg.Ok) (key : Key) (n l : Nat)
    (hn : l + n = s) (hl : l ≤ key.length) (hx : isInt ts ((syms key).take l) = true) :
    ∃ r, f.dense.lookupLoop key n l (num ts ((syms key).take l)) = .ok r ∧
      ((∃ t ∈ ts, t <+: w key ∧ r = (passes cfg (sw t) key t.length, 0)) ∨
       (s ≤ key.length ∧ isInt ts ((syms key).take s) = true ∧ r = (true, num ts ((syms key).take s))) ∨
       ((∀ t ∈ ts, ¬ t <+: w key) ∧ ¬ PadHit ts s key ∧ r = (false, 0))) := by
  induction n generalizing l with
  | zero =>
    refine ⟨_, rfl, Or.inr (Or.inl ?_)⟩
    have : l = s := by omega
    subst this
    exact ⟨hl, hx, rfl⟩
  | succ n ih =>
    have hxl : ((syms key).take l).length = l := by simp; omega
    have hls : ((syms key).take l).length < s := by omega
    have hp0 := (h.dpos_lt hx hls (b := 0) (by omega)).1
    rw [LoudsDense.lookupLoop]
    dsimp only
    have hm : mul32 (num ts ((syms key).take l)) kFanout = 256 * num ts ((syms key).take l) := by
      unfold kFanout; rw [mul32_eq (by omega), Nat.mul_comm]
    rw [hm]
    by_cases hge : l ≥ key.length
    · have hlk : l = key.length := by omega
      have hw : (syms key).take l ++ [0] = w key := by
        rw [w_eq, List.take_of_length_le (by simp; omega)]
      rw [if_pos hge, h.dpref hx hls, ok_bind]
      cases he : ex ts ((syms key).take l ++ [0])
      · exact ⟨_, rfl, Or.inr (Or.inr ⟨no_leaf h.wf hx (by rw [hw]) he, fun hp => by have := (hp.at hx (by rw [hw]) he).1; omega, rfl⟩)⟩
      · have ht := (leaf_of_ex h.wf he).1 (isInt_term h.wf _)
        obtain ⟨i, hi, hi2⟩ := h.dsfxPre hx hls ht
        rw [if_pos rfl, hi, ok_bind, checkEquality_ok hs hc h.dense.sfx hi2, ok_bind]
        refine ⟨_, rfl, Or.inl ⟨_, ht, by rw [hw], ?_⟩⟩
        rw [List.length_append, hxl]; rfl
    · have hb : (key.getD l 0).toNat < 256 := UInt8.toNat_lt _
      obtain ⟨e1, e2⟩ := take_succ_w (show l < key.length by omega)
      rw [if_neg hge, add32_eq (h.dpos_lt hx hls hb).1, h.dlabel hx hls hb, ok_bind]
      cases he : ex ts ((syms key).take l ++ [(key.getD l 0).toNat + 1])
      · exact ⟨_, rfl, Or.inr (Or.inr ⟨no_leaf h.wf hx e2 he, fun hp => by have := (hp.at hx e2 he).2.1; omega, rfl⟩)⟩
      · simp only [Bool.not_true, Bool.false_eq_true, if_false]
        rw [h.dchild hx hls hb, ok_bind]
        cases hi : isInt ts ((syms key).take l ++ [(key.getD l 0).toNat + 1])
        · have ht := (leaf_of_ex h.wf he).1 hi
          obtain ⟨i, hi, hi2⟩ := h.dsfx hx hls hb ht
          simp only [Bool.not_false, if_true]
          rw [hi, ok_bind, checkEquality_ok hs hc h.dense.sfx hi2, ok_bind]
          refine ⟨_, rfl, Or.inl ⟨_, ht, e2, ?_⟩⟩
          rw [List.length_append, hxl]; rfl
        · simp only [Bool.not_true, Bool.false_eq_true, if_false]
          rw [h.dchildNum hx hls hb hi, ok_bind, e1]
          exact ih (l + 1) (by omega) (by omega) (by rw [← e1]; exact hi)

/-! ## Search inside a sparse node -/

section at_node
variable {A C : List Str} {x : Str}

omit [Env] in
theorem before_mono {c d : Nat} (hcd : c ≤ d) : (before ts A x c).length ≤ (before ts A x d).length := by
  unfold before
  rw [List.length_append, List.length_append]
  have := (kidsLT_prefix (ts := ts) x hcd).length_le
  omega

omit [Env] in
theorem before_len_succ {c : Nat} (he : ex ts (x ++ [c]) = true) :
    (before ts A x (c + 1)).length = (before ts A x c).length + 1 := by
  rw [before_succ, if_pos he, List.length_append]; rfl

omit [Env] in
theorem before_top (h : WF ts) : (before ts A x 257).length = (before ts A x 0).length + (kidItems ts x).length := by
  unfold before
  rw [kidItems_eq h, kidsLT_zero]
  simp

omit [Env] in
/-- The item at a place of a node. -/
theorem kid_at {a b : Nat} (h1 : (before ts A x a).length ≤ b) (n : Nat) (h2 : b < (before ts A x n).length) :
    ∃ c, a ≤ c ∧ c < n ∧ ex ts (x ++ [c]) = true ∧ (before ts A x c).length = b := by
  induction n with
  | zero =>
    have := before_mono (ts := ts) (A := A) (x := x) (Nat.zero_le a)
    omega
  | succ n ih =>
    by_cases h3 : b < (before ts A x n).length
    · obtain ⟨c, g1, g2, g3⟩ := ih h3
      exact ⟨c, g1, by omega, g3⟩
    · rw [before_succ, List.length_append] at h2
      by_cases he : ex ts (x ++ [n]) = true
      · rw [if_pos he] at h2
        simp at h2
        refine ⟨n, ?_, by omega, he, by omega⟩
        by_contra hc
        have := before_mono (ts := ts) (A := A) (x := x) (show n + 1 ≤ a by omega)
        rw [before_len_succ he] at this
        omega
      · rw [if_neg he] at h2
        simp at h2; omega

omit [Env] in
theorem lab_succ (x : Str) (c : Nat) : lab (x ++ [c + 1]) = UInt8.ofNat c := by simp [lab]

omit [Env] in
theorem mem_sitems_kid (hA : snodes ts s = A ++ x :: C) {c : Nat} (he : ex ts (x ++ [c]) = true) : x ++ [c] ∈ sitems ts s := by
  have hx : x ∈ snodes ts s := by rw [hA]; simp
  have := (mem_nodesR.1 hx).1
  obtain ⟨t, ht, hp⟩ := ex_iff.1 he
  have h1 := hp.length_le
  have h2 := le_maxLen ht
  exact mem_items_ex.2 ⟨by simp; omega, by omega, he⟩

/-- The labels of a node. -/
theorem FRep0.klabel (h : FRep0 cfg ts sw s f) (hA : snodes ts s = A ++ x :: C) {c : Nat} (he : ex ts (x ++ [c]) = true) :
    labAt f.sparse.labels.labels (before ts A x c).length = lab (x ++ [c]) := by
  rw [← ipos_eq h.wf hA he]
  exact (h.slabel (mem_sitems_kid hA he)).1

/-- The terminator skip. -/
theorem FRep0.sskip (h : FRep0 cfg ts sw s f) (hA : snodes ts s = A ++ x :: C) {n : Nat}
    (hn : n = (kidItems ts x).length ∨ (C = [] ∧ (kidItems ts x).length < n)) :
    LabelVector.skipped (labAt f.sparse.labels.labels) (before ts A x 0).length n =
      ((before ts A x 1).length, n - ((before ts A x 1).length - (before ts A x 0).length)) := by
  have hxs : s ≤ x.length := (mem_nodesR.1 (show x ∈ snodes ts s by rw [hA]; simp)).1
  have hx0 : x ≠ [] := by rintro rfl; have := h.s1; simp at hxs; omega
  have hp : 0 < (kidItems ts x).length := List.length_pos_of_ne_nil (kidItems_ne_nil (x_int hA))
  have htop := before_top (A := A) (x := x) h.wf
  unfold LabelVector.skipped
  by_cases h0 : ex ts (x ++ [0]) = true
  · have h2 : 2 ≤ (kidItems ts x).length := by
      obtain ⟨c', hc', he'⟩ := two_kids h.wf hx0 ((leaf_of_ex h.wf h0).1 (isInt_term h.wf _))
      have h1 := before_len_succ (A := A) h0
      have h3 := before_len_succ (A := A) he'
      have h4 := before_mono (ts := ts) (A := A) (x := x) (show 0 + 1 ≤ c' by omega)
      have h5 := before_mono (ts := ts) (A := A) (x := x) (show c' + 1 ≤ 257 by have := sym_le h.wf he'; omega)
      omega
    have hl := h.klabel hA h0
    rw [lab_term] at hl
    rw [if_pos ⟨by rcases hn with hn | hn <;> omega, hl⟩, before_len_succ h0]
    simp
  · have e1 : before ts A x 1 = before ts A x 0 := by rw [before_succ, if_neg h0, List.append_nil]
    rw [e1, Nat.sub_self, Nat.sub_zero, if_neg]
    rintro ⟨hn1, hl⟩
    have h2 : 2 ≤ (kidItems ts x).length := by
      rcases hn with hn | ⟨rfl, _⟩
      · omega
      · exact last_kids h.wf h.s1 hA
    -- the first two items
    obtain ⟨c, c1, c2, c3, c4⟩ := kid_at (ts := ts) (A := A) (x := x) (a := 0) (b := (before ts A x 0).length) le_rfl 257
      (by omega)
    obtain ⟨d, d1, d2, d3, d4⟩ := kid_at (ts := ts) (A := A) (x := x) (a := c + 1) (b := (before ts A x 0).length + 1)
      (by rw [before_len_succ c3]; omega) 257 (by omega)
    have hc0 : c ≠ 0 := by rintro rfl; exact h0 c3
    obtain ⟨c, rfl⟩ := Nat.exists_eq_succ_of_ne_zero hc0
    rw [← c4, h.klabel hA c3, lab_succ] at hl
    have := congrArg UInt8.toNat hl
    rw [UInt8.toNat_ofNat'] at this
    change c % 256 = 255 at this
    omega

/-- The node is not searched by bisection, or it ends below position `2^31`. -/
def LowNode (ts : List Str) (A : List Str) (x : Str) : Prop :=
  (before ts A x 0).length + (kidItems ts x).length ≤ 2147483648 ∨ (kidItems ts x).length - (if ex ts (x ++ [0]) then 1 else 0) < 3 ∨
    12 ≤ (kidItems ts x).length - (if ex ts (x ++ [0]) then 1 else 0)

theorem FRep.low (h : FRep cfg ts sw s f) (hA : snodes ts s = A ++ x :: C) : LowNode ts A x := by
  have htop := before_top (A := A) (x := x) h.wf
  have htot := congrArg List.length (sitems_eq hA h.wf)
  rw [List.length_append, List.length_append] at htot
  have := h.sitems_half
  exact Or.inl (by omega)

/-- Searching a byte in a sparse node. -/
theorem FRep0.ssearch_exact (h : FRep0 cfg ts sw s f) (hs : Env.strict = false) (hA : snodes ts s = A ++ x :: C) (hlow : LowNode ts A x) (b : UInt8) :
    ∃ n found pos, f.sparse.nodeSize (before ts A x 0).length = .ok n ∧
      f.sparse.labels.search b (before ts A x 0).length n = .ok (found, pos) ∧
      (ex ts (x ++ [b.toNat + 1]) = true → found = true ∧ pos = ipos ts s (x ++ [b.toNat + 1])) ∧
      (ex ts (x ++ [b.toNat + 1]) = false →
        (found = false ∧ (C = [] → Overrun ts s x → ∀ j, (sitems ts s).length ≤ j → j < 64 * f.sparse.loudsBits.bits.length →
          labAt f.sparse.labels.labels j ≠ b)) ∨
        (found = true ∧ C = [] ∧ Overrun ts s x ∧ 64 ≤ (sitems ts s).length ∧
          (sitems ts s).length ≤ pos ∧ pos < (sitems ts s).length + 64 ∧ pos < 64 * f.sparse.loudsBits.bits.length ∧
          labAt f.sparse.labels.labels pos = b ∧
          ∀ j, (sitems ts s).length ≤ j → j < pos → labAt f.sparse.labels.labels j ≠ b)) := by
  obtain ⟨n, en, hne⟩ := h.snodeSize_exact hA
  have hn : n = (kidItems ts x).length ∨
      (C = [] ∧ 64 ≤ n ∧ Overrun ts s x ∧ (kidItems ts x).length < n ∧ 64 ≤ (sitems ts s).length ∧
        (before ts A x 0).length + n = 64 * f.sparse.loudsBits.bits.length) := by
    rcases hne with hne | ⟨⟨h1, h2⟩, h3, h4, h5, h6⟩
    · exact Or.inl hne.1
    · exact Or.inr ⟨h1, h3, h2, h4, h5, h6⟩
  have hn' : n = (kidItems ts x).length ∨ (C = [] ∧ (kidItems ts x).length < n) := by
    rcases hn with hn | hn
    · exact Or.inl hn
    · exact Or.inr ⟨hn.1, hn.2.2.2.1⟩
  have hsk := h.sskip hA hn'
  have htop := before_top (A := A) (x := x) h.wf
  have htot := congrArg List.length (sitems_eq hA h.wf)
  rw [List.length_append, List.length_append] at htot
  have hm1 := before_mono (ts := ts) (A := A) (x := x) (show 0 ≤ 1 by omega)
  have hm257 := before_mono (ts := ts) (A := A) (x := x) (show 1 ≤ 257 by omega)
  set P0 := (before ts A x 0).length with hP0
  set P1 := (before ts A x 1).length with hP1
  have hP1' : P1 ≤ P0 + 1 := by
    rw [hP1, before_succ, List.length_append, hP0]; split <;> simp
  -- labels in the real part
  have hreal : ∀ i, P1 + i < P0 + (kidItems ts x).length →
      ∃ c, 1 ≤ c ∧ c < 257 ∧ ex ts (x ++ [c]) = true ∧ (before ts A x c).length = P1 + i ∧
        labAt f.sparse.labels.labels (P1 + i) = UInt8.ofNat (c - 1) := by
    intro i hi
    obtain ⟨c, c1, c2, c3, c4⟩ := kid_at (ts := ts) (A := A) (x := x) (a := 1) (b := P1 + i) (by omega) 257 (by omega)
    refine ⟨c, c1, c2, c3, c4, ?_⟩
    rw [← c4, h.klabel hA c3]
    obtain ⟨c, rfl⟩ := Nat.exists_eq_succ_of_ne_zero (show c ≠ 0 by omega)
    rw [lab_succ]; rfl
  have hP1e : P1 - P0 = if ex ts (x ++ [0]) then 1 else 0 := by
    rw [hP1, before_succ, List.length_append, hP0]; split <;> simp
  have hsort : (SortedOn (labAt f.sparse.labels.labels) P1 (n - (P1 - P0)) ∧ P1 + (n - (P1 - P0)) ≤ 2147483648) ∨
      12 ≤ n - (P1 - P0) ∨ n - (P1 - P0) < 3 := by
    rcases hn with hn | hn
    · unfold LowNode at hlow
      rw [← hP1e, ← hP0] at hlow
      refine (show P1 + (n - (P1 - P0)) ≤ 2147483648 ∨ 12 ≤ n - (P1 - P0) ∨ n - (P1 - P0) < 3 by omega).imp_left fun hle => ⟨?_, hle⟩
      intro i j hij hj
      obtain ⟨c, c1, c2, c3, c4, c5⟩ := hreal i (by omega)
      obtain ⟨d, d1, d2, d3, d4, d5⟩ := hreal j (by omega)
      rw [c5, d5]
      have hcd : c < d := by
        by_contra hc
        have := before_mono (ts := ts) (A := A) (x := x) (show d ≤ c by omega)
        omega
      rw [UInt8.lt_iff_toNat_lt, UInt8.toNat_ofNat', UInt8.toNat_ofNat']
      omega
    · right; omega
  obtain ⟨⟨found, pos⟩, e, hspec⟩ := LabelVector.search_ok hs f.sparse.labels b P0 n (by rw [hsk]; exact hsort)
  rw [hsk] at hspec
  refine ⟨n, found, pos, en, e, ?_, ?_⟩
  · intro he
    have hip := ipos_eq h.wf hA he
    have hk := h.klabel hA he
    rw [lab_byte] at hk
    have g1 := before_mono (ts := ts) (A := A) (x := x) (show 1 ≤ b.toNat + 1 by omega)
    have g2 := before_len_succ (A := A) he
    have g3 := before_mono (ts := ts) (A := A) (x := x) (show b.toNat + 1 + 1 ≤ 257 by have := UInt8.toNat_lt b; omega)
    have g4 : (kidItems ts x).length ≤ n := by rcases hn' with hn' | hn' <;> omega
    rcases hspec with ⟨i, i1, i2, i3, i4⟩ | ⟨i1, i2⟩
    · simp only [Prod.mk.injEq] at i4
      refine ⟨i4.1, ?_⟩
      have hle : ¬ (before ts A x (b.toNat + 1)).length - P1 < i := by
        intro hc
        apply i3 _ hc
        rw [show P1 + ((before ts A x (b.toNat + 1)).length - P1) = (before ts A x (b.toNat + 1)).length by omega]
        exact hk
      obtain ⟨c, c1, c2, c3, c4, c5⟩ := hreal i (by omega)
      dsimp only at i2
      rw [c5] at i2
      have := congrArg UInt8.toNat i2
      rw [UInt8.toNat_ofNat'] at this
      have hcb : c = b.toNat + 1 := by omega
      subst hcb
      rw [i4.2, hip, c4]
    · exfalso
      apply i1 ((before ts A x (b.toNat + 1)).length - P1) (by omega)
      dsimp only
      rw [show P1 + ((before ts A x (b.toNat + 1)).length - P1) = (before ts A x (b.toNat + 1)).length by omega]
      exact hk
  · intro he
    rcases hspec with ⟨i, i1, i2, i3, i4⟩ | ⟨i1, i2⟩
    · simp only [Prod.mk.injEq] at i4
      have hge : P0 + (kidItems ts x).length ≤ P1 + i := by
        by_contra hc
        obtain ⟨c, c1, c2, c3, c4, c5⟩ := hreal i (by omega)
        dsimp only at i2
        rw [c5] at i2
        have := congrArg UInt8.toNat i2
        rw [UInt8.toNat_ofNat'] at this
        have hcb : c = b.toNat + 1 := by omega
        subst hcb
        rw [he] at c3; simp at c3
      dsimp only at i1 i2 i3 i4
      rcases hn with hn | ⟨rfl, q1, q2, q3, q5, q4⟩
      · omega
      · right
        simp only [List.flatMap_nil, List.length_nil, Nat.add_zero] at htot
        have := h.louds_words.2
        refine ⟨i4.1, rfl, q2, q5, by omega, by omega, by omega, by rw [i4.2]; exact i2, ?_⟩
        intro j j1 j2
        have := i3 (j - P1) (by omega)
        rwa [show P1 + (j - P1) = j by omega] at this
    · left
      simp only [Prod.mk.injEq] at i2
      refine ⟨i2.1, ?_⟩
      rintro rfl hov j j1 j2
      simp only [List.flatMap_nil, List.length_nil, Nat.add_zero] at htot
      have q4 : P0 + n = 64 * f.sparse.loudsBits.bits.length := by
        rcases hne with hne | hne
        · exact absurd ⟨rfl, hov⟩ hne.2
        · exact hne.2.2.2.2
      have hpk : P1 ≤ j := by omega
      have := i1 (j - P1) (by dsimp only; omega)
      dsimp only at this
      rwa [show P1 + (j - P1) = j by omega] at this

theorem FRep.ssearch_exact (h : FRep cfg ts sw s f) (hs : Env.strict = false) (hA : snodes ts s = A ++ x :: C) (b : UInt8) :
    ∃ n found pos, f.sparse.nodeSize (before ts A x 0).length = .ok n ∧
      f.sparse.labels.search b (before ts A x 0).length n = .ok (found, pos) ∧
      (ex ts (x ++ [b.toNat + 1]) = true → found = true ∧ pos = ipos ts s (x ++ [b.toNat + 1])) ∧
      (ex ts (x ++ [b.toNat + 1]) = false →
        (found = false ∧ (C = [] → Overrun ts s x → ∀ j, (sitems ts s).length ≤ j → j < 64 * f.sparse.loudsBits.bits.length →
          labAt f.sparse.labels.labels j ≠ b)) ∨
        (found = true ∧ C = [] ∧ Overrun ts s x ∧ 64 ≤ (sitems ts s).length ∧
          (sitems ts s).length ≤ pos ∧ pos < (sitems ts s).length + 64 ∧ pos < 64 * f.sparse.loudsBits.bits.length ∧
          labAt f.sparse.labels.labels pos = b ∧
          ∀ j, (sitems ts s).length ≤ j → j < pos → labAt f.sparse.labels.labels j ≠ b)) :=
  h.toFRep0.ssearch_exact hs hA (h.low hA) b

theorem FRep.ssearch (h : FRep cfg ts sw s f) (hs : Env.strict = false) (hA : snodes ts s = A ++ x :: C) (b : UInt8) :
    ∃ n found pos, f.sparse.nodeSize (before ts A x 0).length = .ok n ∧
      f.sparse.labels.search b (before ts A x 0).length n = .ok (found, pos) ∧
      (ex ts (x ++ [b.toNat + 1]) = true → found = true ∧ pos = ipos ts s (x ++ [b.toNat + 1])) ∧
      (ex ts (x ++ [b.toNat + 1]) = false → found = false ∨
        (found = true ∧ C = [] ∧ (sitems ts s).length % 64 ≠ 0 ∧ 64 ≤ (sitems ts s).length ∧
          (sitems ts s).length ≤ pos ∧ pos < (sitems ts s).length + 64 ∧ pos < 64 * f.sparse.loudsBits.bits.length ∧
          labAt f.sparse.labels.labels pos = b ∧
          ∀ j, (sitems ts s).length ≤ j → j < pos → labAt f.sparse.labels.labels j ≠ b)) := by
  obtain ⟨n, found, pos, e1, e2, h1, h2⟩ := h.ssearch_exact hs hA b
  refine ⟨n, found, pos, e1, e2, h1, fun he => ?_⟩
  rcases h2 he with h2 | ⟨g1, g2, g3, g4⟩
  · exact Or.inl h2.1
  · exact Or.inr ⟨g1, g2, g3.1, g4⟩

end at_node

/-! ## LoudsSparse::lookupKey -/

theorem PadOk.zero (h : PadOk f ts s) {j : Nat} (h1 : (sitems ts s).length ≤ j) (h2 : j < (sitems ts s).length + 64)
    (h3 : 64 ≤ (sitems ts s).length) : labAt f.sparse.labels.labels j = 0 := by
  obtain ⟨n, e, hn⟩ := h
  have := hn h3
  unfold labAt
  rw [e, List.getElem?_append_right (by simpa using h1), List.getElem?_replicate, if_pos (by rw [List.length_map]; change j - (sitems ts s).length < n; omega)]

theorem FRep0.slookup (h : FRep0 cfg ts sw s f) (hlow : ∀ {A x C}, snodes ts s = A ++ x :: C → LowNode ts A x) (hs : Env.strict = false) (hc : cfg.Ok) (key : Key)
    (hpad : PadOk f ts s ∨ ¬ LeavesLast ts s key) (rest : Key) (l : Nat)
    (hl : l ≤ key.length) (hrest : rest = key.drop l) (hsl : s ≤ l) (hx : isInt ts ((syms key).take l) = true)
    {A C : List Str} (hA : snodes ts s = A ++ (syms key).take l :: C) :
    ∃ r, f.sparse.lookupLoop key rest l (before ts A ((syms key).take l) 0).length = .ok r ∧
      ((∃ t ∈ ts, t <+: w key ∧ r = passes cfg (sw t) key t.length) ∨
       ((∀ t ∈ ts, ¬ t <+: w key) ∧ (r = true ↔ cfg.suffixType = .kNone ∧ PadHit ts s key))) := by
  induction rest generalizing l A C with
  | nil =>
    have hlk : l = key.length := by
      have := congrArg List.length hrest
      simp at this; omega
    have hxl : ((syms key).take l).length = l := by simp; omega
    have hw : (syms key).take l ++ [0] = w key := by
      rw [w_eq, List.take_of_length_le (by simp; omega)]
    set x := (syms key).take l with hxdef
    have hx0 : x ≠ [] := by
      intro h0
      rw [h0] at hxl
      have := h.s1
      simp at hxl; omega
    have hp : 0 < (kidItems ts x).length := List.length_pos_of_ne_nil (kidItems_ne_nil hx)
    have htop := before_top (A := A) (x := x) h.wf
    -- the first item
    obtain ⟨c, c1, c2, c3, c4⟩ := kid_at (ts := ts) (A := A) (x := x) (a := 0) (b := (before ts A x 0).length) le_rfl 257
      (by omega)
    have hmem := mem_sitems_kid hA c3
    have hip := ipos_eq h.wf hA c3
    rw [LoudsSparse.lookupLoop, ← c4, ← hip, (h.slabel hmem).2, ok_bind]
    have hterm : c ≠ 0 → ex ts (x ++ [0]) = false := by
      intro hc0
      by_contra he
      have he : ex ts (x ++ [0]) = true := by simpa using he
      have h1 := before_len_succ (A := A) he
      have h2 := before_mono (ts := ts) (A := A) (x := x) (show 0 + 1 ≤ c by omega)
      omega
    by_cases hlab : lab (x ++ [c]) = kTerminator
    · rw [if_pos hlab, h.schild hmem, ok_bind]
      cases hi : isInt ts (x ++ [c])
      · have ht := (leaf_of_ex h.wf c3).1 hi
        have hc0 : c = 0 := by
          by_contra hc0
          obtain ⟨c', hc', he'⟩ := two_kids h.wf hx0 ht
          obtain ⟨c, rfl⟩ := Nat.exists_eq_succ_of_ne_zero hc0
          rw [lab_succ] at hlab
          have := congrArg UInt8.toNat hlab
          rw [UInt8.toNat_ofNat'] at this
          change c % 256 = 255 at this
          have h1 := before_len_succ (A := A) he'
          have h2 := before_mono (ts := ts) (A := A) (x := x) (show c' + 1 ≤ c + 1 by have := sym_le h.wf he'; omega)
          change (before ts A x (c + 1)).length = _ at c4
          have h3 := before_mono (ts := ts) (A := A) (x := x) (Nat.zero_le c')
          omega
        subst hc0
        obtain ⟨i, hi, hi2⟩ := h.ssfx hmem ht
        simp only [Bool.not_false, if_true]
        rw [hi, ok_bind, checkEquality_ok hs hc h.sparse.sfx hi2]
        refine ⟨_, rfl, Or.inl ⟨_, ht, by rw [hw], ?_⟩⟩
        rw [List.length_append, hxl]; rfl
      · have hc0 : c ≠ 0 := by
          rintro rfl
          rw [isInt_term h.wf] at hi; simp at hi
        exact ⟨_, rfl, Or.inr ⟨no_leaf h.wf hx (by rw [hw]) (hterm hc0), by simp, fun hp => absurd (hp.2.at hx (by rw [hw]) (hterm hc0)).1 (by omega)⟩⟩
    · rw [if_neg hlab]
      have hc0 : c ≠ 0 := by
        rintro rfl
        exact hlab (lab_term x)
      exact ⟨_, rfl, Or.inr ⟨no_leaf h.wf hx (by rw [hw]) (hterm hc0), by simp, fun hp => absurd (hp.2.at hx (by rw [hw]) (hterm hc0)).1 (by omega)⟩⟩
  | cons b rest ih =>
    have hlt : l < key.length := by
      have := congrArg List.length hrest
      simp at this; omega
    have hb : key.getD l 0 = b := by
      have := congrArg (fun r => r[0]?) hrest
      simp only [List.getElem?_cons_zero, List.getElem?_drop, Nat.add_zero] at this
      rw [List.getD, ← this]; rfl
    have hrest' : rest = key.drop (l + 1) := by
      have := congrArg List.tail hrest
      simpa using this
    obtain ⟨e1, e2⟩ := take_succ_w hlt
    rw [hb] at e1 e2
    have hxl : ((syms key).take l).length = l := by simp; omega
    obtain ⟨n, found, pos, en, ese, hfound, hnot⟩ := h.ssearch_exact hs hA (hlow hA) b
    rw [LoudsSparse.lookupLoop, en, ok_bind, ese, ok_bind]
    dsimp only
    cases he : ex ts ((syms key).take l ++ [b.toNat + 1])
    · have hno := no_leaf h.wf hx e2 he
      rcases hnot he with ⟨rfl, hn2⟩ | ⟨rfl, rfl, hov, g6, g2, g3, -, g4, g5⟩
      · refine ⟨_, rfl, Or.inr ⟨hno, by simp, fun ⟨_, hp⟩ => ?_⟩⟩
        exfalso
        obtain ⟨d1, -, ⟨A', hA'⟩, hov⟩ := hp.at hx e2 he
        rcases hpad with hpad | hpad
        · have hC : C = [] := by
            have hnd := nodesR_nodup h.wf.sorted s (maxLen ts + 1)
            change (snodes ts s).Nodup at hnd
            have h1 := congrArg List.getLast? hA
            rw [hA', List.getLast?_concat, List.getLast?_append, List.getLast?_cons] at h1
            rw [hA] at hnd
            rcases C with _ | ⟨c, C⟩
            · rfl
            · exfalso
              have hm : (syms key).take l ∈ c :: C := by
                have h2 : (c :: C).getLast? = some ((syms key).take l) := by
                  simp only [List.getLast?_cons] at h1 ⊢
                  simpa using h1.symm
                exact List.mem_of_getLast? h2
              have := (List.nodup_append.1 hnd).2.1
              exact (List.nodup_cons.1 this).1 hm
          have hb0 : b = 0 := by
            rw [← UInt8.toNat_inj]
            change b.toNat = 0
            omega
          have hw1 := h.louds_words
          have h64 : 64 ≤ (sitems ts s).length := by have := hov.2; omega
          refine hn2 hC hov (sitems ts s).length le_rfl ?_ ?_
          · have := hov.1; omega
          · rw [hb0]; exact hpad.zero le_rfl (by omega) h64
        · exact hpad ⟨A', _, b.toNat, hA', e2, he⟩
      · rcases hpad with hpad | hpad
        · -- the byte is zero and found right behind the last item
          have g1 := hov.1
          have hb0 : b = 0 := by rw [← g4]; exact hpad.zero g2 g3 g6
          have hpos : pos = (sitems ts s).length := by
            by_contra hne
            exact g5 _ le_rfl (by omega) (by rw [hb0]; exact hpad.zero le_rfl (by omega) g6)
          have hcl := h.sparse.chl
          change f.sparse.childBits.Rep ((sitems ts s).map (isInt ts)) at hcl
          have hll : ((sitems ts s).map (isInt ts)).length = (sitems ts s).length := List.length_map _
          simp only [Bool.not_true, Bool.false_eq_true, if_false]
          have hrb := Bitvector.readBit_end hcl.base (by rw [hll]; exact g1)
          rw [hll] at hrb
          have hrk := BitvectorRank.rank_ok hcl (pos := (sitems ts s).length) (Or.inr ⟨hll.symm, by rw [hll]; exact g1⟩)
          rw [List.take_of_length_le (by rw [hll]; omega), count_true_map] at hrk
          rw [hpos, hrb, ok_bind]
          simp only [Bool.not_false, if_true]
          unfold LoudsSparse.getSuffixPos
          rw [hrk, ok_bind]
          have h3 := h.sitems_le
          have h4 := List.countP_le_length (p := isInt ts) (l := sitems ts s)
          have h5 : (leafWords ts sw (sitems ts s)).length = (sitems ts s).length - (sitems ts s).countP (isInt ts) := by
            unfold leafWords
            rw [List.length_map, ← List.countP_eq_length_filter]
            have h2 := List.length_eq_countP_add_countP (p := isInt ts) (l := sitems ts s)
            have h4 : (sitems ts s).countP (fun q => !isInt ts q) = (sitems ts s).countP (fun a => decide ¬isInt ts a = true) := by
              congr 1; funext a; simp
            omega
          rw [sub32_eq h4 (by omega), pure_ok, ok_bind, ← h5, checkEquality_end h.sparse.sfx]
          refine ⟨_, rfl, Or.inr ⟨hno, ?_⟩⟩
          subst hb0
          have hph : PadHit ts s key := ⟨A, _, hA, e2, he, hov⟩
          simp [hph]
        · exact absurd ⟨A, _, b.toNat, hA, e2, he⟩ hpad
    · obtain ⟨rfl, rfl⟩ := hfound he
      have hmem := mem_sitems_kid hA he
      simp only [Bool.not_true, Bool.false_eq_true, if_false]
      rw [h.schild hmem, ok_bind]
      cases hi : isInt ts ((syms key).take l ++ [b.toNat + 1])
      · have ht := (leaf_of_ex h.wf he).1 hi
        obtain ⟨i, hi, hi2⟩ := h.ssfx hmem ht
        simp only [Bool.not_false, if_true]
        rw [hi, ok_bind, checkEquality_ok hs hc h.sparse.sfx hi2]
        refine ⟨_, rfl, Or.inl ⟨_, ht, e2, ?_⟩⟩
        rw [List.length_append, hxl]; rfl
      · simp only [Bool.not_true, Bool.false_eq_true, if_false]
        rw [h.schildNum hmem hi, ok_bind]
        have hi' : isInt ts ((syms key).take (l + 1)) = true := by rw [← e1]; exact hi
        obtain ⟨A', C', hA', hn'⟩ := h.snode hi' (by simp; omega)
        rw [e1, h.sfirst hA' hn', ok_bind]
        exact ih (l + 1) (by omega) hrest' (by omega) hi' hA'

/-! ## SuRF::lookupKey -/

/-- Point lookup finds the leaf string that is a prefix of the key and checks its suffix. -/
theorem FRep0.lookup (h : FRep0 cfg ts sw s f) (hlow : ∀ {A x C}, snodes ts s = A ++ x :: C → LowNode ts A x) (hs : Env.strict = false) (hc : cfg.Ok) (key : Key)
    (hpad : PadOk f ts s ∨ ¬ LeavesLast ts s key) :
    ∃ r, f.lookupKey key = .ok r ∧
      ((∃ t ∈ ts, t <+: w key ∧ r = passes cfg (sw t) key t.length) ∨
       ((∀ t ∈ ts, ¬ t <+: w key) ∧ (r = true ↔ cfg.suffixType = .kNone ∧ PadHit ts s key))) := by
  have hroot : isInt ts [] = true := by
    have : [] ∈ nodes ts 0 := by rw [h.wf.nodes_zero]; simp
    exact (mem_nodes.1 this).2
  obtain ⟨r, e, hr⟩ := h.dlookup hs hc key s 0 (by omega) (by omega) (by simpa using hroot)
  rw [List.take_zero, num_root h.wf] at e
  unfold Filter.lookupKey LoudsDense.lookupKey
  rw [h.dense.height, e, ok_bind]
  rcases hr with ⟨t, ht, hp, rfl⟩ | ⟨h1, h2, rfl⟩ | ⟨h1, h2, rfl⟩
  · dsimp only
    cases hq : passes cfg (sw t) key t.length
    · exact ⟨_, rfl, Or.inl ⟨t, ht, hp, hq.symm⟩⟩
    · exact ⟨_, rfl, Or.inl ⟨t, ht, hp, hq.symm⟩⟩
  · dsimp only
    have hxl : ((syms key).take s).length = s := by simp; omega
    have hne : num ts ((syms key).take s) ≠ 0 := by
      intro h0
      rw [← num_root h.wf] at h0
      have := num_inj h2 h0
      rw [this] at hxl
      have := h.s1
      simp at hxl; omega
    simp only [Bool.not_true, Bool.false_eq_true, if_false, ne_eq, hne, not_false_eq_true, if_true]
    unfold LoudsSparse.lookupKey
    obtain ⟨A, C, hA, hn⟩ := h.snode h2 (by omega)
    rw [h.sfirst hA hn, ok_bind, h.sparse.start]
    exact h.slookup hlow hs hc key hpad _ s h1 rfl le_rfl h2 hA
  · exact ⟨_, rfl, Or.inr ⟨h1, by simp, fun hp => absurd hp.2 h2⟩⟩

theorem FRep.lookup (h : FRep cfg ts sw s f) (hs : Env.strict = false) (hc : cfg.Ok) (key : Key)
    (hpad : PadOk f ts s ∨ ¬ LeavesLast ts s key) :
    ∃ r, f.lookupKey key = .ok r ∧
      ((∃ t ∈ ts, t <+: w key ∧ r = passes cfg (sw t) key t.length) ∨
       ((∀ t ∈ ts, ¬ t <+: w key) ∧ (r = true ↔ cfg.suffixType = .kNone ∧ PadHit ts s key))) :=
  h.toFRep0.lookup (fun hA => h.low hA) hs hc key hpad

end Surf
