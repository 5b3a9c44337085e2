import Verif.Proof.CountDense

/-!
# Approximate count: the dense levels

What one pass of the counting loop adds is the number of leaves of the level that lie strictly between the two leaves
(`louds_dense.hpp:298-363`), when no dense node has a label for byte 0 and the last dense node neither ends a key nor has
a label for byte 255.
-/

set_option linter.unusedSectionVars false
set_option autoImplicit false

namespace Surf

open Trie

/-! ## Arithmetic -/

theorem ite_add_cast (c : Prop) [Decidable c] (a : Nat) :
    (((if c then add32 a 1 else a : Nat)) : ZMod 4294967296) = a + (if c then 1 else 0 : Nat) := by
  split
  · rw [add32_cast]
  · rw [Nat.cast_zero, add_zero]

theorem ite_sub_cast (c : Prop) [Decidable c] (a : Nat) :
    (((if c then sub32 a 1 else a : Nat)) : ZMod 4294967296) = a - (if c then 1 else 0 : Nat) := by
  split
  · rw [sub32_cast]
  · rw [Nat.cast_zero, sub_zero]

theorem ite_add_lt (c : Prop) [Decidable c] {a : Nat} (h : a < 4294967296) : (if c then add32 a 1 else a) < 4294967296 := by
  split
  · exact add32_lt _ _
  · exact h

theorem ite_sub_lt (c : Prop) [Decidable c] {a : Nat} (h : a < 4294967296) : (if c then sub32 a 1 else a) < 4294967296 := by
  split
  · exact sub32_bd _ _
  · exact h

theorem level_arith (rll rrl rli rri rlp rrp T k m : Nat) (last cr cl pr pl sc : Prop) [Decidable last] [Decidable cr]
    [Decidable cl] [Decidable pr] [Decidable pl] [Decidable sc]
    (hl : rll + rlp + (if cl then 1 else 0) + (if sc then 1 else 0) = rli + T + (if pl then 1 else 0))
    (hr : rrl + rrp + (if last then 1 else 0) + (if cr then 1 else 0) + 4294967296 * m = rri + T + k + (if pr then 1 else 0))
    (hk : k < 4294967296) :
    (let leafs := add32 (sub32 (sub32 (if last then add32 rrl 1 else rrl) rll) (sub32 rri rli)) (sub32 rrp rlp)
     let leafs := if cr then add32 leafs 1 else leafs
     let leafs := if cl then sub32 leafs 1 else leafs
     let leafs := if pr then sub32 leafs 1 else leafs
     let leafs := if pl then add32 leafs 1 else leafs
     if sc then sub32 leafs 1 else leafs) = k := by
  dsimp only
  apply cast_inj _ hk
  · have hl' := congrArg (Nat.cast : Nat → ZMod 4294967296) hl
    have hr' := congrArg (Nat.cast : Nat → ZMod 4294967296) hr
    simp only [Nat.cast_add] at hl' hr'
    rw [Nat.cast_mul, show ((4294967296 : Nat) : ZMod 4294967296) = 0 from ZMod.natCast_self _, zero_mul, add_zero] at hr'
    rw [ite_sub_cast, ite_add_cast, ite_sub_cast, ite_sub_cast, ite_add_cast, add32_cast, sub32_cast, sub32_cast,
      sub32_cast, sub32_cast, ite_add_cast]
    linear_combination hr' - hl'
  · exact ite_sub_lt _ (ite_add_lt _ (ite_sub_lt _ (ite_sub_lt _ (ite_add_lt _ (add32_lt _ _)))))

/-! ## One level -/

section
variable [Env] {cfg : Config} {ts : List Str} {sw : Str → Word} {s : Nat} {f : Filter}

/-- The three ranks at a position. -/
theorem FRep0.drank3 (h : FRep0 cfg ts sw s f) {x : Str} (hx : isInt ts x = true) (hs : x.length < s) {b : Nat}
    (hb : b < 256) :
    ∃ rl ri rp, f.dense.labelBitmaps.rank (256 * num ts x + b) = .ok rl ∧
      f.dense.childBitmaps.rank (256 * num ts x + b) = .ok ri ∧
      f.dense.prefixBits.rank (num ts x) = .ok rp ∧ rl + rp = lIdx ts (x.length + 1) (x ++ [b + 2]) + ri := by
  obtain ⟨A, C, e, e2⟩ := h.dnode hx hs
  rw [← e2]
  refine ⟨_, _, _, h.drankL e hb, h.drankC e hb, h.drankP e (b + 1), ?_⟩
  rw [show b + 1 + 1 = b + 2 from rfl]
  have h1 := (count_sum h.wf (before ts A x (b + 2)) before_ex).1
  have h2 := before_leaf h.wf e (show b + 2 ≤ 257 by omega)
  have h3 : (ts.filter fun t => decide (t.length ≤ 0)).length = 0 := by
    rw [List.length_eq_zero_iff, List.filter_eq_nil_iff]
    intro t ht
    have := h.wf.nonempty t ht
    simpa using this
  omega

theorem FRep0.dcountLevel (h : FRep0 cfg ts sw s f) {it : DIter} {i ol or' last lp0 rp0 : Nat} {xl xr : Str} {bl br : Nat}
    (hxl : isInt ts xl = true) (hsl : xl.length < s) (hbl : bl < 256)
    (hxr : isInt ts xr = true) (hsr : xr.length < s) (hbr : br < 256)
    (hl : if i ≥ ol then f.dense.getNextPos lp0 = .ok (256 * num ts xl + bl) else lp0 = 256 * num ts xl + bl)
    (hr : if (decide (i ≥ or') && rp0 != last) = true then f.dense.getNextPos rp0 = .ok (256 * num ts xr + br)
      else rp0 = 256 * num ts xr + br) (T k m : Nat) (hk : k < 4294967296)
    (eql : lIdx ts (xl.length + 1) (xl ++ [bl + 2]) + (if isInt ts (xl ++ [bl + 1]) then 1 else 0) +
      (if (it.searchComplete && i == sub32 ol 1) = true then 1 else 0) =
        T + (if (decide (i ≥ ol) && ex ts (xl ++ [0])) = true then 1 else 0))
    (eqr : lIdx ts (xr.length + 1) (xr ++ [br + 2]) + (if 256 * num ts xr + br = last then 1 else 0) +
      (if isInt ts (xr ++ [br + 1]) then 1 else 0) + 4294967296 * m =
        T + k + (if (decide (i ≥ or') && ex ts (xr ++ [0])) = true then 1 else 0)) :
    f.dense.countLevel it i ol or' last lp0 rp0 = .ok k := by
  obtain ⟨rll, rli, rlp, e1, e2, e3, e4⟩ := h.drank3 hxl hsl hbl
  obtain ⟨rrl, rri, rrp, e5, e6, e7, e8⟩ := h.drank3 hxr hsr hbr
  have d1 : (256 * num ts xl + bl) / kFanout = num ts xl := by unfold kFanout; omega
  have d2 : (256 * num ts xr + br) / kFanout = num ts xr := by unfold kFanout; omega
  have key := level_arith rll rrl rli rri rlp rrp T k m (256 * num ts xr + br = last) (isInt ts (xr ++ [br + 1]) = true)
    (isInt ts (xl ++ [bl + 1]) = true) ((decide (i ≥ or') && ex ts (xr ++ [0])) = true)
    ((decide (i ≥ ol) && ex ts (xl ++ [0])) = true) ((it.searchComplete && i == sub32 ol 1) = true)
    (by omega) (by omega) hk
  dsimp only at key
  unfold LoudsDense.countLevel
  by_cases c1 : i ≥ ol <;> by_cases c2 : (decide (i ≥ or') && rp0 != last) = true
  all_goals
    first | rw [if_pos c1] at hl | rw [if_neg c1] at hl
    first | rw [if_pos c2] at hr | rw [if_neg c2] at hr
    first | rw [if_pos c1] | rw [if_neg c1]
    first | rw [hl] | skip
    simp only [pure_ok]
    rw [ok_bind]
    first | rw [if_pos c2] | rw [if_neg c2]
    first | rw [hr] | skip
    try simp only [pure_ok]
    rw [ok_bind, d1, d2, h.dpref hxl hsl, ok_bind, h.dpref hxr hsr, ok_bind, e1, ok_bind, e5, ok_bind, e2, ok_bind, e6, ok_bind,
      e3, ok_bind, e7, ok_bind, h.dchild hxr hsr hbr, ok_bind, h.dchild hxl hsl hbl, ok_bind]
    rw [key]

/-! ## Positions -/

/-- No label for byte 0 in a dense node other than the root; the last dense node does not end a key and has no label for
byte 255. -/
structure DGood (ts : List Str) (s : Nat) : Prop where
  root : ex ts [0] = false
  nz0 : ∀ x, x ≠ [] → isInt ts x = true → x.length < s → ex ts (x ++ [1]) = false
  last : ∀ z, isInt ts z = true → z.length = s - 1 → (∀ y, isInt ts y = true → y.length = s - 1 → y ≤ z) →
    ex ts (z ++ [0]) = false ∧ ex ts (z ++ [256]) = false

/-- The position a level is counted from. -/
structure Adj (ts : List Str) (t : Str) (i v : Nat) (x : Str) (b : Nat) : Prop where
  len : x.length = i
  int : isInt ts x = true
  lt : b < 256
  val : v = 256 * num ts x + b
  kind : (x ++ [b + 1] <+: t) ∨ (t = x ++ [0] ∧ b = 0) ∨
    (t.length ≤ i ∧ t < x ∧ (∀ y, isInt ts y = true → y.length = i → y < x → y < t) ∧ b = 0)

omit [Env] in
theorem dadj (h : WF ts) {t : Str} (ht : t ∈ ts) {it : DIter} (ha : DAt ts s it t) {i v ori : Nat} (hi : i < s)
    (h32 : s < 4294967296) (ho : ori = min t.length s) (hm : DPathM ts t i v ∨ DExtM ts t i v) :
    ∃ x b, Adj ts t i (if (i == sub32 ori 1 && it.atPrefix) = true then v / kFanout * kFanout else v) x b := by
  have hne := h.nonempty t ht
  have ht1 : 1 ≤ t.length := by
    cases t with
    | nil => exact absurd rfl hne
    | cons _ _ => simp
  rw [ha.pre, sub32_eq (by omega) (by rw [M32_eq]; omega)]
  rcases hm with ⟨x, b, rfl, hx, hb, rfl, he, hp⟩ | ⟨hl, x, rfl, hx, hlt, hmin, rfl⟩
  · rcases hp with hp | ⟨rfl, hmin⟩
    · refine ⟨x, b, rfl, hx, hb, ?_, Or.inl hp⟩
      rw [if_neg]
      intro hc
      simp only [Bool.and_eq_true, beq_iff_eq, decide_eq_true_eq] at hc
      obtain ⟨hc1, hc2, hc3⟩ := hc
      have hl := hp.length_le
      simp only [List.length_append, List.length_singleton] at hl
      have := hp.eq_of_length_le (by simp; omega)
      have h0 := h.term _ ht
      rw [← this] at h0 hc3
      simp at h0 hc3
      exact h0 hc3
    · refine ⟨x, 0, rfl, hx, by omega, ?_, Or.inr (Or.inl ⟨rfl, rfl⟩)⟩
      rw [if_pos]
      · unfold kFanout; omega
      · simp only [List.length_append, List.length_singleton] at ho ⊢
        simp
        omega
  · refine ⟨x, 0, rfl, hx, by omega, ?_, Or.inr (Or.inr ⟨hl, hlt, hmin, rfl⟩)⟩
    rw [if_neg]
    · rfl
    · intro hc
      simp only [Bool.and_eq_true, beq_iff_eq, decide_eq_true_eq] at hc
      omega

omit [Env] in
theorem lIdx_prefix (h : WF ts) {t : Str} (ht : t ∈ ts) {x : Str} {c : Nat} (hp : x ++ [c] <+: t) :
    lIdx ts (x.length + 1) (x ++ [c]) = lIdx ts (x.length + 1) t := by
  apply lIdx_congr
  intro u hu hul
  have := leaf_take_lt h ht hu
  rw [hul] at this
  have e := List.prefix_iff_eq_take.1 hp
  simp only [List.length_append, List.length_singleton] at e
  rw [e]
  exact this

omit [Env] in
theorem lIdx_ext (h : WF ts) {t : Str} (ht : t ∈ ts) {x : Str} (hl : t.length ≤ x.length) (hlt : t < x)
    (hmin : ∀ y, isInt ts y = true → y.length = x.length → y < x → y < t) :
    lIdx ts (x.length + 1) (x ++ [0]) = lIdx ts (x.length + 1) t := by
  apply lIdx_congr
  intro u hu hul
  have hu0 := h.nonempty u hu
  obtain ⟨z, d, rfl⟩ : ∃ z d, u = z ++ [d] := ⟨u.dropLast, u.getLast hu0, (List.dropLast_append_getLast hu0).symm⟩
  have hzl : z.length = x.length := by simpa using hul
  have hz := int_of_ex_snoc (ex_mem hu)
  rw [snoc_lt_leaf (by omega) (not_prefix_int h ht hz)]
  constructor
  · intro h1
    rcases lt_trichotomy z x with h2 | rfl | h2
    · exact hmin z hz hzl h2
    · exfalso
      rw [lt_append] at h1
      simp [List.cons_lt_cons_iff] at h1
    · exact absurd h1 (lt_asymm (lt_append_of_lt hzl.symm h2))
  · intro h1
    exact lt_append_of_lt hzl (h1.trans hlt)

omit [Env] in
theorem lIdx_first (h : WF ts) {x : Str} {b : Nat} (hb : ex ts (x ++ [b + 1]) = true)
    (hmin : ∀ d, d < b → ex ts (x ++ [d + 1]) = false) :
    lIdx ts (x.length + 1) (x ++ [b + 2]) + (if isInt ts (x ++ [b + 1]) then 1 else 0) =
      lIdx ts (x.length + 1) (x ++ [0]) + 1 + (if ex ts (x ++ [0]) then 1 else 0) := by
  rw [lIdx_item h hb, lIdx_skip h (show 1 ≤ b + 1 by omega) (by
    intro d h1 h2
    have := hmin (d - 1) (by omega)
    rwa [show d - 1 + 1 = d by omega] at this), lIdx_snoc h]
  have : x ++ [0] ∈ ts ↔ ex ts (x ++ [0]) = true := by
    constructor
    · exact ex_mem
    · intro he
      exact (leaf_of_ex h he).1 (isInt_term h x)
  by_cases hm : x ++ [0] ∈ ts
  · rw [if_pos hm, if_pos (this.1 hm)]
  · rw [if_neg hm, if_neg (fun e => hm (this.2 e))]

/-- After the move to the first label the position stands for the place of the leaf. -/
theorem FRep0.dmoved (h : FRep0 cfg ts sw s f) (hstr : Env.strict = false) (hg : DGood ts s) {t : Str} (ht : t ∈ ts) {i v ori : Nat}
    {x : Str} {b : Nat} (hi : i < s) (ho : ori = min t.length s) (ha : Adj ts t i v x b) :
    ∃ b', b' < 256 ∧ (if i ≥ ori then f.dense.getNextPos v = .ok (256 * num ts x + b') else v = 256 * num ts x + b') ∧
      (b' = 0 ∨ ex ts (x ++ [b' + 1]) = true) ∧ (i ≥ ori → b = 0) ∧
      lIdx ts (x.length + 1) (x ++ [b' + 2]) + (if isInt ts (x ++ [b' + 1]) then 1 else 0) =
        lIdx ts (i + 1) t + 1 + (if (decide (i ≥ ori) && ex ts (x ++ [0])) = true then 1 else 0) := by
  obtain ⟨rfl, hx, hb, rfl, hk⟩ := ha
  rcases hk with hp | ⟨rfl, rfl⟩ | ⟨hl, hlt, hmin, rfl⟩
  · have hpl := hp.length_le
    simp only [List.length_append, List.length_singleton] at hpl
    have he := ex_prefix (ex_mem ht) hp
    refine ⟨b, hb, ?_, Or.inr he, by omega, ?_⟩
    · rw [if_neg (by omega)]
    · rw [lIdx_item h.wf he, lIdx_prefix h.wf ht hp, if_neg]
      simp
      omega
  · simp only [List.length_append, List.length_singleton] at ho
    refine ⟨0, by omega, ?_, Or.inl rfl, by omega, ?_⟩
    · rw [if_neg (by omega)]
    · have h1 := hg.nz0 x (by
        rintro rfl
        have := hg.root
        rw [ex_mem (by simpa using ht)] at this
        cases this) hx hi
      have h2 : isInt ts (x ++ [0 + 1]) = false := by
        by_contra hc
        rw [ex_of_int (by simpa using hc)] at h1
        cases h1
      rw [h2, if_neg (by simp), lIdx_snoc h.wf, if_neg, lIdx_snoc h.wf, if_pos ht, if_neg]
      · simp; omega
      · intro hm
        rw [ex_mem hm] at h1
        cases h1
  · have hx0 : x ≠ [] := by
      rintro rfl
      simp at hlt
    have h1 := hg.nz0 x hx0 hx hi
    obtain ⟨n, e1, e2⟩ := h.dnext hstr hx hi (show 0 < 256 by omega)
    obtain ⟨c, hc, hcm⟩ := exists_byte h.wf hx hx0
    have hc0 : c ≠ 0 := by
      rintro rfl
      rw [h1] at hc
      cases hc
    rcases e2 with ⟨b', hb1, hb2, hb3, hb4, rfl⟩ | ⟨hno, -⟩
    · refine ⟨b', hb2, ?_, Or.inr hb3, fun _ => rfl, ?_⟩
      · rw [if_pos (by omega)]
        exact e1
      · have hmin' : ∀ d, d < b' → ex ts (x ++ [d + 1]) = false := by
          intro d hd
          by_cases hd0 : d = 0
          · subst hd0; exact h1
          · exact hb4 d (by omega) hd
        rw [lIdx_first h.wf hb3 hmin', lIdx_ext h.wf ht hl hlt hmin]
        have : decide (x.length ≥ ori) = true := by simp; omega
        rw [this, Bool.true_and]
    · rw [hno c (by omega)] at hc
      cases hc

omit [Env] in
theorem lIdx_none (h : WF ts) {t : Str} (ht : t ∈ ts) {i : Nat} (hn : NoneM ts t i) {m : Nat} {q : Str}
    (hm : (m = i + 1 ∧ ∀ u ∈ ts, u.length = i + 1 → u < q) ∨ (m = i + 2 ∧ ∀ u ∈ ts, u.length = i + 2 → ¬ u < q)) :
    lIdx ts m q = lIdx ts (i + 1) t := by
  unfold lIdx
  congr 1
  apply List.filter_congr
  intro u hu
  have h1 : u.length = i + 1 → u < t := by
    intro hul
    have hu0 := h.nonempty u hu
    obtain ⟨z, d, rfl⟩ : ∃ z d, u = z ++ [d] := ⟨u.dropLast, u.getLast hu0, (List.dropLast_append_getLast hu0).symm⟩
    have hzl : z.length = i := by simpa using hul
    have hz := int_of_ex_snoc (ex_mem hu)
    rw [snoc_lt_leaf (by have := hn.1; omega) (not_prefix_int h ht hz)]
    exact hn.2 z hz hzl
  rw [Bool.eq_iff_iff, bef_iff, bef_iff]
  rcases hm with ⟨rfl, hq⟩ | ⟨rfl, hq⟩
  · have h2 := hq u hu
    tauto
  · have h2 := hq u hu
    constructor
    · rintro (h3 | ⟨h3, h4⟩)
      · by_cases h5 : u.length = i + 1
        · exact Or.inr ⟨h5, h1 h5⟩
        · exact Or.inl (by omega)
      · exact absurd h4 (h2 h3)
    · rintro (h3 | ⟨h3, -⟩) <;> exact Or.inl (by omega)

/-- The right end when there is no node behind the leaf. -/
theorem FRep0.dnone (h : FRep0 cfg ts sw s f) (hstr : Env.strict = false) (hg : DGood ts s) {t : Str} (ht : t ∈ ts) {i ori : Nat}
    (hi : i < s) (ho : ori = min t.length s) (hn : NoneM ts t i) :
    ∃ x b, isInt ts x = true ∧ x.length < s ∧ b < 256 ∧
      (if (decide (i ≥ ori) && (256 * (nodesR ts 0 (i + 1)).length - 1) != (256 * (nodesR ts 0 s).length - 1)) = true then
        f.dense.getNextPos (256 * (nodesR ts 0 (i + 1)).length - 1) = .ok (256 * num ts x + b)
        else (256 * (nodesR ts 0 (i + 1)).length - 1) = 256 * num ts x + b) ∧
      lIdx ts (x.length + 1) (x ++ [b + 2]) + (if 256 * num ts x + b = 256 * (nodesR ts 0 s).length - 1 then 1 else 0) +
        (if isInt ts (x ++ [b + 1]) then 1 else 0) =
        lIdx ts (i + 1) t + 1 + (if (decide (i ≥ ori) && ex ts (x ++ [0])) = true then 1 else 0) := by
  have hsH := h.sH
  have h32 := h.d32
  have hle := h.dlen (show i + 1 ≤ s by omega)
  rw [M32_eq] at h32
  have hgo : decide (i ≥ ori) = true := by
    have := hn.1
    simp; omega
  rw [hgo]
  simp only [Bool.true_and]
  by_cases hs : i + 1 = s
  · subst hs
    obtain ⟨z, hz, hzl, hmax, hnum⟩ := lastNode h.wf (show i < maxLen ts by omega)
    obtain ⟨g1, g2⟩ := hg.last z hz (by simpa using hzl) (by simpa using hmax)
    refine ⟨z, 255, hz, by omega, by omega, by rw [if_neg (by simp)]; omega, ?_⟩
    rw [if_pos (by omega), g1]
    have h2 : isInt ts (z ++ [255 + 1]) = false := by
      by_contra hc
      rw [ex_of_int (by simpa using hc)] at g2
      cases g2
    have hall : ∀ u ∈ ts, u.length = i + 1 → u < z ++ [255 + 2] := by
      intro u hu hul
      have hu0 := h.wf.nonempty u hu
      obtain ⟨y, d, rfl⟩ : ∃ z d, u = z ++ [d] := ⟨u.dropLast, u.getLast hu0, (List.dropLast_append_getLast hu0).symm⟩
      have hyl : y.length = i := by simpa using hul
      have hd := sym_le h.wf (ex_mem hu)
      rcases (hmax y (int_of_ex_snoc (ex_mem hu)) hyl).lt_or_eq with h3 | rfl
      · exact lt_append_of_lt (by omega) h3
      · rw [lt_append]
        simp [List.cons_lt_cons_iff]
        omega
    rw [h2, hzl, lIdx_none h.wf ht hn (Or.inl ⟨rfl, hall⟩)]
  · obtain ⟨x, hx, hxl, hmin, hnum⟩ := firstNode h.wf (show i + 1 < maxLen ts by omega)
    obtain ⟨b, hb, hbm⟩ := exists_byte h.wf hx (by rintro rfl; simp at hxl)
    have hb' : b < 256 := by have := sym_le h.wf hb; omega
    have hfirst := h.dfirst hx (by omega) (Or.inl (by rintro rfl; simp at hxl)) hb hbm
    have h2 : 1 ≤ (nodesR ts 0 (i + 1)).length := by
      rw [nodesR_split ts (Nat.zero_le 1) (show 1 ≤ i + 1 by omega), nodesR_one, h.wf.nodes_zero]
      simp
    rw [mul32_eq (by rw [M32_eq]; unfold kFanout; omega), hnum, sub32_eq (by unfold kFanout; omega) (by rw [M32_eq]; unfold kFanout; omega)] at hfirst
    have hlt : num ts x < (nodesR ts 0 s).length := num_lt h.wf hx (by omega) (by omega)
    refine ⟨x, b, hx, by omega, hb', ?_, ?_⟩
    · rw [if_pos (by simp; omega), hnum]
      rw [show 256 * (nodesR ts 0 (i + 1)).length - 1 = (nodesR ts 0 (i + 1)).length * kFanout - 1 by unfold kFanout; omega]
      exact hfirst
    · rw [if_neg]
      · rw [Nat.add_zero, lIdx_first h.wf hb hbm, lIdx_none h.wf ht hn (Or.inr ⟨by omega, ?_⟩)]
        intro u hu hul
        have hu0 := h.wf.nonempty u hu
        obtain ⟨y, d, rfl⟩ : ∃ z d, u = z ++ [d] := ⟨u.dropLast, u.getLast hu0, (List.dropLast_append_getLast hu0).symm⟩
        have hyl : y.length = i + 1 := by simpa using hul
        rcases (hmin y (int_of_ex_snoc (ex_mem hu)) hyl).lt_or_eq with h3 | rfl
        · exact lt_asymm (lt_append_of_lt (by omega) h3)
        · rw [lt_append]
          simp [List.cons_lt_cons_iff]
      · intro hc
        have hb255 : b = 255 := by omega
        have hs2 : x.length = s - 1 := by
          by_contra hne
          have := num_lt h.wf hx (show x.length < s - 1 by omega) (by omega)
          have h3 := h.dlen (show s - 1 ≤ s by omega)
          obtain ⟨z, hz, hzl, hmax, hzn⟩ := lastNode h.wf (show s - 1 < maxLen ts by omega)
          rw [show s - 1 + 1 = s by omega] at hzn
          have := num_lt_of_bef h.wf hx hz (bef_iff.2 (Or.inl (by omega)))
          omega
        obtain ⟨z, hz, hzl, hmax, hzn⟩ := lastNode h.wf (show s - 1 < maxLen ts by omega)
        rw [show s - 1 + 1 = s by omega] at hzn
        have hxz : x = z := by
          rcases (hmax x hx hs2).lt_or_eq with h3 | h3
          · have := num_lt_of_lt h.wf hx hz (by omega) h3
            omega
          · exact h3
        subst hxz
        have := (hg.last x hx hs2 hmax).2
        rw [hb255] at hb
        rw [this] at hb
        cases hb

/-- A position is not the last one of the dense part. -/
theorem FRep0.dnotLast (h : FRep0 cfg ts sw s f) (hg : DGood ts s) {x : Str} (hx : isInt ts x = true) (hs : x.length < s) {b : Nat}
    (hb : b < 256) (hb' : b = 0 ∨ ex ts (x ++ [b + 1]) = true) : 256 * num ts x + b ≠ 256 * (nodesR ts 0 s).length - 1 := by
  intro hc
  have hsH := h.sH
  have hlt : num ts x < (nodesR ts 0 s).length := num_lt h.wf hx (by omega) (by omega)
  have hb255 : b = 255 := by omega
  obtain ⟨z, hz, hzl, hmax, hzn⟩ := lastNode h.wf (show s - 1 < maxLen ts by omega)
  rw [show s - 1 + 1 = s by omega] at hzn
  have hs2 : x.length = s - 1 := by
    by_contra hne
    have := num_lt_of_bef h.wf hx hz (bef_iff.2 (Or.inl (by omega)))
    omega
  have hxz : x = z := by
    rcases (hmax x hx hs2).lt_or_eq with h3 | h3
    · have := num_lt_of_lt h.wf hx hz (by omega) h3
      omega
    · exact h3
  subst hxz
  have h1 := (hg.last x hx hs2 hmax).2
  rw [hb255] at hb'
  rcases hb' with hb' | hb'
  · omega
  · rw [h1] at hb'
    cases hb'

omit [Env] in
/-- A leaf of the level behind the left leaf is behind the left position. -/
theorem adj_left (h : WF ts) (hg : DGood ts s) {t u : Str} (ht : t ∈ ts) {i v : Nat} (hi : i < s) {x y : Str} {b d : Nat}
    (ha : Adj ts t i v x b) (hu : u = y ++ [d]) (hum : u ∈ ts) (hl : y.length = i) (hlt : t < u) :
    v < 256 * num ts y + (d - 1) ∨ v ≤ 256 * num ts y := by
  subst hu
  have hy := int_of_ex_snoc (ex_mem hum)
  obtain ⟨rfl, hx, hb, rfl, hk⟩ := ha
  have hcase : ∀ c, x ++ [c] < y ++ [d] → x < y ∨ (x = y ∧ c < d) := by
    intro c h1
    rcases lt_trichotomy x y with h2 | rfl | h2
    · exact Or.inl h2
    · rw [lt_append] at h1
      simp [List.cons_lt_cons_iff] at h1
      exact Or.inr ⟨rfl, h1⟩
    · exact absurd h1 (lt_asymm (lt_append_of_lt hl h2))
  rcases hk with hp | ⟨rfl, rfl⟩ | ⟨htl, hlt', hmin, rfl⟩
  · have h1 : x ++ [b + 1] < y ++ [d] := by
      have h2 := take_le_of_lt hlt (x.length + 1)
      rw [List.take_of_length_le (l := y ++ [d]) (by simp; omega)] at h2
      have e := List.prefix_iff_eq_take.1 hp
      simp only [List.length_append, List.length_singleton] at e
      rw [← e] at h2
      rcases h2.lt_or_eq with h3 | h3
      · exact h3
      · exfalso
        rw [h3] at hp
        have h4 := h.pf _ hum _ ht hp
        rw [h4] at hlt
        exact lt_irrefl _ hlt
    rcases hcase _ h1 with h2 | ⟨rfl, h2⟩
    · have := num_lt_of_lt h hx hy hl.symm h2
      right; omega
    · left; omega
  · rcases hcase _ hlt with h2 | ⟨rfl, h2⟩
    · have := num_lt_of_lt h hx hy hl.symm h2
      right; omega
    · right; omega
  · have h1 : ¬ y < x := by
      intro h2
      exact lt_asymm hlt ((snoc_lt_leaf (by omega) (not_prefix_int h ht hy)).2 (hmin y hy hl h2))
    have := num_le_of_le h hx hy hl.symm (not_lt.1 h1)
    right; omega

omit [Env] in
theorem adj_right (h : WF ts) (hg : DGood ts s) {t u : Str} (ht : t ∈ ts) {i v : Nat} (hi : i < s) {x y : Str} {b d : Nat}
    (ha : Adj ts t i v x b) (hu : u = y ++ [d]) (hum : u ∈ ts) (hl : y.length = i) (hlt : u < t) :
    256 * num ts y + (d - 1) ≤ v ∧ 256 * num ts y < v := by
  subst hu
  have hy := int_of_ex_snoc (ex_mem hum)
  have hd := sym_le h (ex_mem hum)
  obtain ⟨rfl, hx, hb, rfl, hk⟩ := ha
  have hcase : ∀ c, y ++ [d] < x ++ [c] → y < x ∨ (y = x ∧ d < c) := by
    intro c h1
    rcases lt_trichotomy y x with h2 | rfl | h2
    · exact Or.inl h2
    · rw [lt_append] at h1
      simp [List.cons_lt_cons_iff] at h1
      exact Or.inr ⟨rfl, h1⟩
    · exact absurd h1 (lt_asymm (lt_append_of_lt hl.symm h2))
  rcases hk with hp | ⟨rfl, rfl⟩ | ⟨htl, hlt', hmin, rfl⟩
  · have h1 : y ++ [d] < x ++ [b + 1] := by
      have h2 := leaf_take_lt h ht hum
      have e := List.prefix_iff_eq_take.1 hp
      simp only [List.length_append, List.length_singleton] at e h2
      rw [hl, ← e] at h2
      exact h2.2 hlt
    rcases hcase _ h1 with h2 | ⟨rfl, h2⟩
    · have := num_lt_of_lt h hy hx hl h2
      omega
    · have hb0 : b ≠ 0 := by
        rintro rfl
        have hd0 : d = 0 := by omega
        have := hg.nz0 y (by
          rintro rfl
          have := hg.root
          rw [ex_mem (by simpa [hd0] using hum)] at this
          cases this) hx hi
        rw [ex_prefix (ex_mem ht) hp] at this
        cases this
      omega
  · rcases hcase _ hlt with h2 | ⟨rfl, h2⟩
    · have := num_lt_of_lt h hy hx hl h2
      omega
    · omega
  · have h1 : y < x := ((snoc_lt_leaf (by omega) (not_prefix_int h ht hy)).1 hlt).trans hlt'
    have := num_lt_of_lt h hy hx hl h1
    omega

/-! ## All dense levels -/

omit [Env] in
theorem btw_le (ts : List Str) (m : Nat) (tl tr : Str) : btw ts m tl tr ≤ ts.length := List.length_filter_le _ _

omit [Env] in
theorem FRep0.ts_lt (h : FRep0 cfg ts sw s f) : ts.length < 4294967296 := by
  have h1 : ts.length ≤ (items ts 0 (maxLen ts + 1)).length := by
    have hnd : ts.Nodup := h.wf.sorted.imp (fun h => ne_of_lt h)
    apply (List.subperm_of_subset hnd ?_).length_le
    intro t ht
    exact mem_items.2 ⟨by
      have := h.wf.nonempty t ht
      cases t with
      | nil => exact absurd rfl this
      | cons _ _ => simp, by have := le_maxLen ht; omega, t, ht, List.prefix_refl t⟩
  have := h.i32
  rw [M32_eq] at this
  omega

omit [Env] in
/-- Two positions on one level, the left one on the way to a deeper leaf. -/
theorem adj_over (h : WF ts) {tl tr : Str} (hlt : tl < tr) {i vl vr : Nat} {xl xr : Str} {bl br : Nat} (hi : i + 1 < tl.length)
    (hl : Adj ts tl i vl xl bl) (hr : Adj ts tr i vr xr br) : vl < vr ↔ tl.take (i + 1) ≠ tr.take (i + 1) := by
  obtain ⟨hxl, hl1, hl2, rfl, hkl⟩ := hl
  obtain ⟨hxr, hr1, hr2, rfl, hkr⟩ := hr
  have hp : xl ++ [bl + 1] <+: tl := by
    rcases hkl with hp | ⟨hp, -⟩ | ⟨hp, -⟩
    · exact hp
    · rw [hp] at hi; simp at hi; omega
    · omega
  have el : tl.take (i + 1) = xl ++ [bl + 1] := by
    have := List.prefix_iff_eq_take.1 hp
    simp only [List.length_append, List.length_singleton, hxl] at this
    exact this.symm
  have hnum : ∀ {c d : Nat}, xl ++ [c] < xr ++ [d] → num ts xl < num ts xr ∨ (xl = xr ∧ c < d) := by
    intro c d h1
    rcases lt_trichotomy xl xr with h2 | h2 | h2
    · exact Or.inl (num_lt_of_lt h hl1 hr1 (by omega) h2)
    · rw [h2, lt_append] at h1
      simp [List.cons_lt_cons_iff] at h1
      exact Or.inr ⟨h2, h1⟩
    · exact absurd h1 (lt_asymm (lt_append_of_lt (by omega) h2))
  have hlow : tl.take (i + 1) ≤ tl := by
    have := le_append (tl.take (i + 1)) (tl.drop (i + 1))
    rwa [List.take_append_drop] at this
  rw [el] at hlow ⊢
  rcases hkr with hq | ⟨rfl, rfl⟩ | ⟨h1, h2, -, rfl⟩
  · have er : tr.take (i + 1) = xr ++ [br + 1] := by
      have := List.prefix_iff_eq_take.1 hq
      simp only [List.length_append, List.length_singleton, hxr] at this
      exact this.symm
    have hle := take_le_of_lt hlt (i + 1)
    rw [el, er] at hle
    rw [er]
    constructor
    · intro hv hc
      obtain ⟨rfl, hb⟩ := List.append_inj' hc rfl
      simp at hb
      omega
    · intro hne
      rcases hnum (lt_of_le_of_ne hle hne) with h3 | ⟨rfl, h3⟩ <;> omega
  · have h3 : num ts xl < num ts xr := by
      rcases hnum (lt_of_le_of_lt hlow hlt) with h3 | ⟨-, h3⟩
      · exact h3
      · omega
    refine ⟨fun _ hc => ?_, fun _ => by omega⟩
    rw [List.take_of_length_le (by simp; omega)] at hc
    obtain ⟨-, hb⟩ := List.append_inj' hc rfl
    simp at hb
  · have h3 : xl < xr := lt_of_le_of_lt ((le_append xl [bl + 1]).trans hlow) (hlt.trans h2)
    have := num_lt_of_lt h hl1 hr1 (by omega) h3
    refine ⟨fun _ hc => ?_, fun _ => by omega⟩
    have := congrArg List.length hc
    simp at this
    omega

/-- The number of leaves that one pass of the counting loop adds: those of the level strictly between the two leaves, and one less (modulo 2^32) at
the last dense level when the left leaf is not dense and the iterator has the flag `sc` all the same. -/
def dcnt (ts : List Str) (s : Nat) (sc : Bool) (tl tr : Str) (i : Nat) : Nat :=
  if sc = true ∧ s < tl.length ∧ tl.take s ≠ tr.take s ∧ i + 1 = s then sub32 (btw ts (i + 1) tl tr) 1 else btw ts (i + 1) tl tr

/-- One pass of the counting loop. -/
theorem FRep0.dlevel (h : FRep0 cfg ts sw s f) (hstr : Env.strict = false) (hg : DGood ts s) {tl tr : Str} (htl : tl ∈ ts)
    (htr : tr ∈ ts) (hlt : tl < tr) {itl itr : DIter} (hal : DAt ts s itl tl) (har : DAt ts s itr tr)
    (hsc : tl.length ≤ s → itl.searchComplete = true) {i vl vr : Nat} (hi : i < s)
    (hml : DPathM ts tl i vl ∨ DExtM ts tl i vl) (hmr : DMark ts tr i vr) :
    (let cut := 256 * (nodesR ts 0 (i + 1)).length - 1
     let ol := min tl.length s
     let or' := min tr.length s
     let lp := if (i == sub32 ol 1 && itl.atPrefix) = true then vl / kFanout * kFanout else vl
     let rp := if vr = kMaxPos then cut else vr
     let rp := if (i == sub32 or' 1 && itr.atPrefix) = true then rp / kFanout * kFanout else rp
     (lp < rp → f.dense.countLevel itl i ol or' (256 * (nodesR ts 0 s).length - 1) lp rp = .ok (dcnt ts s itl.searchComplete tl tr i)) ∧
     (¬ lp < rp → dcnt ts s itl.searchComplete tl tr i = 0)) := by
  have h32 := h.h32
  have hsH := h.sH
  rw [M32_eq] at h32
  have hk : btw ts (i + 1) tl tr < 4294967296 := lt_of_le_of_lt (btw_le _ _ _ _) h.ts_lt
  have hbt := lIdx_btw h.wf htl hlt (i + 1)
  have hl1 : 1 ≤ tl.length := by
    have := h.wf.nonempty tl htl
    cases tl with
    | nil => exact absurd rfl this
    | cons _ _ => simp
  have hr1 : 1 ≤ tr.length := by
    have := h.wf.nonempty tr htr
    cases tr with
    | nil => exact absurd rfl this
    | cons _ _ => simp
  obtain ⟨xl, bl, hAl⟩ := dadj h.wf htl hal hi (by omega) rfl hml
  obtain ⟨bl', hbl', hml', -, -, eql⟩ := h.dmoved hstr hg htl hi rfl hAl
  have eql' : lIdx ts (xl.length + 1) (xl ++ [bl' + 2]) + (if isInt ts (xl ++ [bl' + 1]) then 1 else 0) +
      (if (itl.searchComplete && i == sub32 (min tl.length s) 1) = true then 1 else 0) =
        (lIdx ts (i + 1) tl + 1 + (if tl.length = i + 1 then 1 else 0) + (if itl.searchComplete = true ∧ s < tl.length ∧ i + 1 = s then 1 else 0)) +
          (if (decide (i ≥ min tl.length s) && ex ts (xl ++ [0])) = true then 1 else 0) := by
    rw [eql, sub32_eq (by omega) (by rw [M32_eq]; omega)]
    rcases Nat.lt_or_ge s tl.length with hd | hd
    · have : ((itl.searchComplete && i == min tl.length s - 1) = true) ↔ (itl.searchComplete = true ∧ s < tl.length ∧ i + 1 = s) := by
        simp
        omega
      rw [if_congr this rfl rfl, if_neg (show ¬ tl.length = i + 1 by omega)]
      omega
    · rw [hsc hd]
      have : ((true && i == min tl.length s - 1) = true) ↔ tl.length = i + 1 := by
        simp
        omega
      rw [if_congr this rfl rfl, if_neg (show ¬ (true = true ∧ s < tl.length ∧ i + 1 = s) by omega)]
      omega
  have hcnt : (itl.searchComplete = true ∧ s < tl.length ∧ i + 1 = s → tl.take s ≠ tr.take s) →
      dcnt ts s itl.searchComplete tl tr i < 4294967296 ∧ ∃ m, btw ts (i + 1) tl tr + 4294967296 * m =
        dcnt ts s itl.searchComplete tl tr i + (if itl.searchComplete = true ∧ s < tl.length ∧ i + 1 = s then 1 else 0) := by
    intro hne
    unfold dcnt
    by_cases hP : itl.searchComplete = true ∧ s < tl.length ∧ i + 1 = s
    · rw [if_pos ⟨hP.1, hP.2.1, hne hP, hP.2.2⟩, if_pos hP]
      refine ⟨sub32_bd _ _, ?_⟩
      by_cases h0 : btw ts (i + 1) tl tr = 0
      · exact ⟨1, by rw [h0]; decide⟩
      · exact ⟨0, by rw [sub32_eq (by omega) (by rw [M32_eq]; omega)]; omega⟩
    · rw [if_neg fun hc => hP ⟨hc.1, hc.2.1, hc.2.2.2⟩, if_neg hP]
      exact ⟨hk, 0, by omega⟩
  have hzero : ¬ (itl.searchComplete = true ∧ s < tl.length ∧ tl.take s ≠ tr.take s ∧ i + 1 = s) → btw ts (i + 1) tl tr = 0 →
      dcnt ts s itl.searchComplete tl tr i = 0 := by
    intro hP h0
    unfold dcnt
    rw [if_neg hP, h0]
  dsimp only
  have hxl := hAl.int
  have hxls : xl.length < s := by have := hAl.len; omega
  rcases hmr with hmr | ⟨rfl, hn⟩
  · have hvr : vr ≠ kMaxPos := by
      rcases hmr with ⟨x, b, hxl, hx, hb, rfl, -⟩ | ⟨-, x, hxl, hx, -, -, rfl⟩
      · exact (h.dpos_ne hx (by omega) hb).1
      · exact (h.dpos_ne hx (by omega) (show 0 < 256 by omega)).1
    rw [if_neg hvr]
    obtain ⟨xr, br, hAr⟩ := dadj h.wf htr har hi (by omega) rfl hmr
    obtain ⟨br', hbr', hmr', hbx, hb0, eqr⟩ := h.dmoved hstr hg htr hi rfl hAr
    have hxr := hAr.int
    have hxrs : xr.length < s := by have := hAr.len; omega
    have hover := fun hd : i + 1 < tl.length => adj_over h.wf hlt hd hAl hAr
    constructor
    · intro hv
      obtain ⟨hk', m, hm⟩ := hcnt fun hP => by
        have := (hover (by omega)).1 hv
        rwa [hP.2.2] at this
      refine h.dcountLevel hxl hxls hbl' hxr hxrs hbr' hml' ?_ _ _ m hk' eql' ?_
      · by_cases hc : i ≥ min tr.length s
        · rw [if_pos hc] at hmr'
          rw [if_pos]
          · exact hmr'
          · have h0 := hb0 hc
            have := h.dnotLast hg hxr hxrs hAr.lt (Or.inl h0)
            rw [← hAr.val] at this
            simpa [hc] using this
        · rw [if_neg hc] at hmr'
          rw [if_neg (by simp [hc])]
          exact hmr'
      · rw [if_neg (h.dnotLast hg hxr hxrs hbr' hbx), Nat.add_zero, eqr, hbt]
        omega
    · intro hno
      refine hzero (fun hP => hno ?_) ?_
      · refine (hover (by omega)).2 ?_
        rw [hP.2.2.2]
        exact hP.2.2.1
      by_contra hne
      obtain ⟨u, hu, hul, h1, h2⟩ := btw_pos.1 (Nat.pos_of_ne_zero hne)
      have hu0 := h.wf.nonempty u hu
      obtain ⟨y, d, hyd⟩ : ∃ z d, u = z ++ [d] := ⟨u.dropLast, u.getLast hu0, (List.dropLast_append_getLast hu0).symm⟩
      have hyl : y.length = i := by rw [hyd] at hul; simpa using hul
      have h3 := adj_left h.wf hg htl hi hAl hyd hu hyl h1
      have h4 := adj_right h.wf hg htr hi hAr hyd hu hyl h2
      omega
  · rw [if_pos rfl]
    have hc : ¬ ((i == sub32 (min tr.length s) 1 && itr.atPrefix) = true) := by
      rw [sub32_eq (by omega) (by rw [M32_eq]; omega)]
      have := hn.1
      simp
      omega
    rw [if_neg hc]
    constructor
    · intro _
      obtain ⟨xr, br, hxr, hxrs, hbr, hmr', eqr⟩ := h.dnone hstr hg htr hi rfl hn
      obtain ⟨hk', m, hm⟩ := hcnt fun hP hc => by
        have h5 := congrArg List.length hc
        have := hn.1
        simp at h5
        omega
      refine h.dcountLevel hxl hxls hbl' hxr hxrs hbr hml' hmr' _ _ m hk' eql' ?_
      rw [eqr, hbt]
      omega
    · intro hno
      refine hzero (fun hP => hno ?_) ?_
      · have hp : xl ++ [bl + 1] <+: tl := by
          rcases hAl.kind with hp | ⟨hp, -⟩ | ⟨hp, -⟩
          · exact hp
          · have h5 := hP.2.1; rw [hp] at h5; have := hAl.len; simp at h5; omega
          · omega
        have h5 := h.dnotLast hg hxl hxls hAl.lt (Or.inr (ex_prefix (ex_mem htl) hp))
        have h6 : num ts xl < (nodesR ts 0 (i + 1)).length := num_lt h.wf hxl (by have := hAl.len; omega) (by omega)
        have h7 := hAl.val
        have h8 := hAl.lt
        rw [hP.2.2.2] at h6 ⊢
        rw [h7]
        omega
      by_contra hne
      obtain ⟨u, hu, hul, h1, h2⟩ := btw_pos.1 (Nat.pos_of_ne_zero hne)
      have hu0 := h.wf.nonempty u hu
      obtain ⟨y, d, hyd⟩ : ∃ z d, u = z ++ [d] := ⟨u.dropLast, u.getLast hu0, (List.dropLast_append_getLast hu0).symm⟩
      have hyl : y.length = i := by rw [hyd] at hul; simpa using hul
      have h3 := adj_left h.wf hg htl hi hAl hyd hu hyl h1
      have hue : ex ts (y ++ [d]) = true := by rw [← hyd]; exact ex_mem hu
      have hy := int_of_ex_snoc hue
      have hd := sym_le h.wf hue
      have h4 : num ts y < (nodesR ts 0 (i + 1)).length := num_lt h.wf hy (by omega) (by omega)
      omega

theorem FRep0.dcountLoop (h : FRep0 cfg ts sw s f) (hstr : Env.strict = false) (hg : DGood ts s) {tl tr : Str} (htl : tl ∈ ts)
    (htr : tr ∈ ts) (hlt : tl < tr) {itl itr : DIter} (hal : DAt ts s itl tl) (har : DAt ts s itr tr)
    (hsc : tl.length ≤ s → itl.searchComplete = true) {ll rl : List Nat} (hll : ll.length = s) (hrl : rl.length = s)
    (hml : ∀ j, j < s → DMark ts tl j (ll.getD j 0)) (hmr : ∀ j, j < s → DMark ts tr j (rl.getD j 0)) (n i count : Nat)
    (hn : i + n = s)
    (hlt64 : count + ((List.range' i n).map fun j => dcnt ts s itl.searchComplete tl tr j).sum < 18446744073709551616) :
    f.dense.countLoop itl itr (min tl.length s) (min tr.length s) ll rl n i count =
      .ok (count + ((List.range' i n).map fun j => dcnt ts s itl.searchComplete tl tr j).sum) := by
  induction n generalizing i count with
  | zero => rfl
  | succ n ih =>
    have hs1 := h.s1
    unfold LoudsDense.countLoop
    rw [rdP_ok (by omega), ok_bind]
    rw [List.range'_succ, List.map_cons, List.sum_cons] at hlt64 ⊢
    rcases hml i (by omega) with hm | ⟨hm, hnone⟩
    · have hne : ll.getD i 0 ≠ kMaxPos := by
        rcases hm with ⟨x, b, hxl, hx, hb, e, -⟩ | ⟨-, x, hxl, hx, -, -, e⟩
        · rw [e]; exact (h.dpos_ne hx (by omega) hb).1
        · rw [e]; exact (h.dpos_ne hx (by omega) (show 0 < 256 by omega)).1
      rw [if_neg hne, rdP_ok (by omega), ok_bind, h.dcut (by omega), ok_bind, h.dense.height, h.dcut (by omega), ok_bind,
        show s - 1 + 1 = s by omega]
      obtain ⟨h1, h2⟩ := h.dlevel hstr hg htl htr hlt hal har hsc (show i < s by omega) hm (hmr i (by omega))
      by_cases hc : (if (i == sub32 (min tl.length s) 1 && itl.atPrefix) = true then ll.getD i 0 / kFanout * kFanout
          else ll.getD i 0) < (if (i == sub32 (min tr.length s) 1 && itr.atPrefix) = true then
            (if rl.getD i 0 = kMaxPos then 256 * (nodesR ts 0 (i + 1)).length - 1 else rl.getD i 0) / kFanout * kFanout
            else (if rl.getD i 0 = kMaxPos then 256 * (nodesR ts 0 (i + 1)).length - 1 else rl.getD i 0))
      · dsimp only
        rw [if_pos hc, h1 hc, ok_bind, Nat.mod_eq_of_lt (by omega), ih (i + 1) _ (by omega) (by omega), Nat.add_assoc]
      · dsimp only
        have h3 := h2 hc
        rw [if_neg hc, ih (i + 1) _ (by omega) (by omega), h3, Nat.zero_add]
    · rw [if_pos hm]
      have h0 : ((List.range' (i + 1) n).map fun j => dcnt ts s itl.searchComplete tl tr j).sum = 0 := by
        rw [List.sum_eq_zero]
        intro a ha
        obtain ⟨j, hj, rfl⟩ := List.mem_map.1 ha
        rw [List.mem_range'_1] at hj
        have hl := hnone.1
        unfold dcnt
        rw [if_neg (by omega)]
        exact hnone.btw h.wf htl (by omega)
      have hl := hnone.1
      rw [h0]
      unfold dcnt
      rw [if_neg (by omega), hnone.btw h.wf htl (le_refl _)]
      rfl

/-- What becomes of a count of `n` leaves: one less, modulo 2^32 at the last dense level, if the left iterator claims a complete search at
a leaf below the dense levels. -/
def adjust (ts : List Str) (s : Nat) (sc : Bool) (tl tr : Str) (n : Nat) : Nat :=
  if sc = true ∧ s < tl.length ∧ tl.take s ≠ tr.take s then (if btw ts s tl tr = 0 then n + 4294967295 else n - 1) else n

omit [Env] in
theorem dcnt_sum (ts : List Str) {s : Nat} (hs : 1 ≤ s) (sc : Bool) (tl tr : Str) (hts : ts.length < 4294967296) :
    ((List.range s).map fun i => dcnt ts s sc tl tr i).sum =
      adjust ts s sc tl tr (ts.filter fun t => decide (1 ≤ t.length ∧ t.length ≤ s ∧ tl < t ∧ t < tr)).length ∧
      (btw ts s tl tr ≤ (ts.filter fun t => decide (1 ≤ t.length ∧ t.length ≤ s ∧ tl < t ∧ t < tr)).length) := by
  obtain ⟨m, rfl⟩ : ∃ m, s = m + 1 := ⟨s - 1, by omega⟩
  have hsum := btw_sum ts tl tr (m + 1)
  rw [List.range_succ, List.map_append, List.sum_append, List.map_singleton, List.sum_singleton] at hsum ⊢
  have hlow : ((List.range m).map fun i => dcnt ts (m + 1) sc tl tr i).sum = ((List.range m).map fun i => btw ts (i + 1) tl tr).sum := by
    congr 1
    refine List.map_congr_left fun i hi => ?_
    rw [List.mem_range] at hi
    unfold dcnt
    rw [if_neg (by omega)]
  refine ⟨?_, by omega⟩
  rw [hlow]
  unfold dcnt adjust
  by_cases hP : sc = true ∧ m + 1 < tl.length ∧ tl.take (m + 1) ≠ tr.take (m + 1)
  · rw [if_pos ⟨hP.1, hP.2.1, hP.2.2, rfl⟩, if_pos hP]
    by_cases h0 : btw ts (m + 1) tl tr = 0
    · rw [if_pos h0, h0, show sub32 0 1 = 4294967295 from by decide]
      omega
    · have := btw_le ts (m + 1) tl tr
      rw [if_neg h0, sub32_eq (by omega) (by rw [M32_eq]; omega)]
      omega
  · rw [if_neg fun hc => hP ⟨hc.1, hc.2.1, hc.2.2.1⟩, if_neg hP]
    exact hsum

omit [Env] in
theorem adjust_lt {sc : Bool} {tl tr : Str} {n m : Nat} (h : n ≤ m) (hm : m < 4294967296) :
    adjust ts s sc tl tr n < 18446744073709551616 := by
  unfold adjust
  split
  · split <;> omega
  · omega

omit [Env] in
theorem adjust_add {sc : Bool} {tl tr : Str} {n c : Nat} (h : btw ts s tl tr ≤ n) :
    adjust ts s sc tl tr n + c = adjust ts s sc tl tr (n + c) := by
  unfold adjust
  split
  · split <;> omega
  · rfl

/-- The dense part of the count. -/
theorem FRep0.dapprox (h : FRep0 cfg ts sw s f) (hstr : Env.strict = false) (hg : DGood ts s) {tl tr : Str} (htl : tl ∈ ts)
    (htr : tr ∈ ts) (hlt : tl < tr) {itl itr : DIter} (hal : DAt ts s itl tl) (har : DAt ts s itr tr)
    (hsc : tl.length ≤ s → itl.searchComplete = true) :
    ∃ outL outR, f.dense.approxCount itl itr =
      .ok (adjust ts s itl.searchComplete tl tr
        (ts.filter fun t => decide (1 ≤ t.length ∧ t.length ≤ s ∧ tl < t ∧ t < tr)).length, outL, outR) ∧
      ((outL = kMaxPos ∧ NoneM ts tl (s - 1)) ∨ (outL ≠ kMaxPos ∧ outL = nIdx ts s (tl.take s))) ∧
      ((outR = kMaxPos ∧ NoneM ts tr (s - 1)) ∨ (outR ≠ kMaxPos ∧ outR = nIdx ts s (tr.take s))) := by
  obtain ⟨ll, outL, e1, hll, hml, hol⟩ := h.dextendPosList htl hal
  obtain ⟨rl, outR, e2, hrl, hmr, hor⟩ := h.dextendPosList htr har
  refine ⟨outL, outR, ?_, hol, hor⟩
  obtain ⟨hsum, -⟩ := dcnt_sum ts h.s1 itl.searchComplete tl tr h.ts_lt
  have hle : (ts.filter fun t => decide (1 ≤ t.length ∧ t.length ≤ s ∧ tl < t ∧ t < tr)).length ≤ ts.length :=
    List.length_filter_le _ _
  have hts := h.ts_lt
  unfold LoudsDense.approxCount
  dsimp only
  rw [e1, ok_bind]
  dsimp only
  rw [e2, ok_bind]
  dsimp only
  rw [(h.dstart htl hal).1, (h.dstart htr har).1, h.dense.height]
  rw [h.dcountLoop hstr hg htl htr hlt hal har hsc hll hrl hml hmr s 0 0 (by omega)
    (by rw [← List.range_eq_range', hsum, Nat.zero_add]; exact adjust_lt hle hts), ok_bind, ← List.range_eq_range', hsum, Nat.zero_add]
  rfl

end

end Surf
