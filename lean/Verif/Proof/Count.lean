import Verif.Proof.CountSparse
import Verif.Proof.IterKeys

/-!
# Counting between two leaves

Puts the dense and the sparse part of the count together.
-/

set_option linter.unusedSectionVars false
set_option autoImplicit false

namespace Surf

open Trie

section
variable [Env] {cfg : Config} {ts : List Str} {sw : Str → Word} {s : Nat} {f : Filter}

omit [Env] in
/-- The positions of a sparse iterator at a leaf. -/
theorem SAt.slist {it : SIter} {t : Str} (h : SAt ts s it t) (ht : t ∈ ts) : SList ts s t (it.pos.take it.keyLen) ∧
    (it.pos.take it.keyLen).length = t.length - s := by
  have hlt := h.lt
  have hmax := le_maxLen ht
  have hlen : (it.pos.take it.keyLen).length = t.length - s := by
    rw [List.length_take, h.on.pl, h.on.len]
    omega
  refine ⟨⟨by omega, ?_⟩, hlen⟩
  intro j hj
  rw [hlen] at hj
  have hj' : s + j < t.length := by omega
  refine ⟨t.take (s + j), t[s + j], by simp; omega, ?_, ?_, Or.inl ?_⟩
  · rw [List.take_concat_get']
    exact ex_iff.2 ⟨t, ht, List.take_prefix _ _⟩
  · have := h.on.pos (t.take (s + j)) (t[s + j]) (by rw [List.take_concat_get']; exact List.take_prefix _ _) (by simp; omega)
    rw [List.length_take, Nat.min_eq_left (by omega), Nat.add_sub_cancel_left] at this
    rw [List.getD, List.getElem?_take_of_lt (by rw [h.on.len]; omega), this]
    rfl
  · rw [List.take_concat_get']
    exact List.take_prefix _ _

omit [Env] in
/-- The positions of a sparse iterator while the leaf is dense. -/
theorem SIdle.slist (hwf : WF ts) {it : SIter} {t : Str} (h : SIdle ts s it t) (ht : t ∈ ts) (htl : t.length ≤ s) :
    SList ts s t (it.pos.take it.keyLen) := by
  refine ⟨by omega, ?_⟩
  intro j hj
  rcases h.st with h0 | ⟨x, c, hxl, hxc, hon, hlt, hmin, hfirst⟩
  · rw [h0] at hj
    simp at hj
  · have hk : it.keyLen = 1 := by
      rw [hon.len]; simp; omega
    rw [hk] at hj ⊢
    obtain rfl : j = 0 := by
      rw [List.length_take] at hj; omega
    refine ⟨x, c, hxl, ex_iff.2 ⟨_, hxc, List.prefix_refl _⟩, ?_, Or.inr ⟨by omega, ?_, ?_, hmin⟩⟩
    · have := hon.pos x c (List.prefix_refl _) (by omega)
      rw [hxl, Nat.sub_self] at this
      rw [List.getD, List.getElem?_take_of_lt (by omega), this]
      rfl
    · rcases lt_trichotomy t x with h1 | h1 | h1
      · exact h1
      · have := hwf.pf t ht _ hxc (by rw [h1]; exact List.prefix_append _ _)
        rw [this] at h1
        have := congrArg List.length h1
        simp at this
      · refine absurd (append_lt h1 ?_ [c]) (lt_asymm hlt)
        intro hp
        have := hp.length_le
        have := hp.eq_of_length (by omega)
        rw [this] at h1
        exact lt_irrefl _ h1
    · intro y hy hyl hyx
      exact absurd hyx (not_lt.2 (hfirst y hy hyl))

omit [Env] in
/-- The leaves between two leaves, by levels. -/
theorem btw_split (h : WF ts) (s : Nat) (tl tr : Str) {n : Nat} (hz : ∀ j, n ≤ j → btw ts (s + j + 1) tl tr = 0) :
    (ts.filter fun t => decide (1 ≤ t.length ∧ t.length ≤ s ∧ tl < t ∧ t < tr)).length +
      ((List.range' 0 n).map fun j => btw ts (s + j + 1) tl tr).sum = (ts.filter fun t => decide (tl < t ∧ t < tr)).length := by
  have key : ∀ m, (ts.filter fun t => decide (1 ≤ t.length ∧ t.length ≤ s ∧ tl < t ∧ t < tr)).length +
      ((List.range' 0 m).map fun j => btw ts (s + j + 1) tl tr).sum =
      (ts.filter fun t => decide (1 ≤ t.length ∧ t.length ≤ s + m ∧ tl < t ∧ t < tr)).length := by
    intro m
    induction m with
    | zero => simp
    | succ m ih =>
      rw [List.range'_concat, List.map_append, List.sum_append, ← Nat.add_assoc, ih]
      have := btw_succ ts tl tr (s + m)
      simp only [List.map_cons, List.map_nil, List.sum_cons, List.sum_nil, Nat.add_zero, Nat.one_mul, Nat.zero_add]
      rw [this]
      rfl
  have e1 := key (max n (maxLen ts))
  have e2 : ((List.range' 0 (max n (maxLen ts))).map fun j => btw ts (s + j + 1) tl tr).sum =
      ((List.range' 0 n).map fun j => btw ts (s + j + 1) tl tr).sum := by
    obtain ⟨k, hk⟩ : ∃ k, max n (maxLen ts) = n + k := ⟨max n (maxLen ts) - n, by omega⟩
    rw [hk, ← List.range'_append_1, List.map_append, List.sum_append]
    have : ((List.range' (0 + n) k).map fun j => btw ts (s + j + 1) tl tr).sum = 0 := by
      rw [List.sum_eq_zero]
      intro a ha
      obtain ⟨j, hj, rfl⟩ := List.mem_map.1 ha
      rw [List.mem_range'_1] at hj
      exact hz j (by omega)
    rw [this, Nat.add_zero]
  rw [e2] at e1
  rw [e1]
  congr 1
  apply List.filter_congr
  intro t ht
  have h1 := le_maxLen ht
  have h2 : 1 ≤ t.length := List.length_pos_of_ne_nil (h.nonempty t ht)
  have h3 : t.length ≤ s + max n (maxLen ts) := by omega
  simp only [h2, h3, true_and]

/-- The sparse part of the count. -/
theorem FRep0.sapprox (h : FRep0 cfg ts sw s f) (hstr : Env.strict = false) (hpast : PastOk f) (hsm : s < maxLen ts) {tl tr : Str}
    (htl : tl ∈ ts) (htr : tr ∈ ts) (hlt : tl < tr) {itl itr : SIter} (hL : SList ts s tl (itl.pos.take itl.keyLen))
    (hLlen : (itl.pos.take itl.keyLen).length = tl.length - s) (hR : SList ts s tr (itr.pos.take itr.keyLen))
    {inL inR : Nat}
    (hil : (inL = kMaxPos ∧ NoneM ts tl (s - 1)) ∨ (inL ≠ kMaxPos ∧ inL = nIdx ts s (tl.take s)))
    (hir : (inR = kMaxPos ∧ NoneM ts tr (s - 1)) ∨ (inR ≠ kMaxPos ∧ inR = nIdx ts s (tr.take s))) :
    ∃ c, f.sparse.approxCount itl itr inL inR = .ok c ∧
      (ts.filter fun t => decide (1 ≤ t.length ∧ t.length ≤ s ∧ tl < t ∧ t < tr)).length + c =
        (ts.filter fun t => decide (tl < t ∧ t < tr)).length := by
  unfold LoudsSparse.approxCount
  rcases hil with ⟨rfl, hn⟩ | ⟨hne, rfl⟩
  · rw [if_pos rfl]
    refine ⟨0, rfl, ?_⟩
    rw [← btw_split h.wf s tl tr (n := 0) (fun j _ => hn.btw h.wf htl (by omega))]
    rfl
  · rw [if_neg hne]
    dsimp only
    obtain ⟨ll, rl, e, hml, hmr, hz⟩ := h.sextendPosList hpast hsm htl htr hL
      (rl := if inR = kMaxPos then List.replicate (maxLen ts + 1 - s) kMaxPos else itr.pos.take itr.keyLen) (inR := inR)
      (by
        rcases hir with ⟨rfl, hn⟩ | ⟨hne', rfl⟩
        · exact Or.inl ⟨if_pos rfl, hn⟩
        · exact Or.inr ⟨rfl, by rw [if_neg hne']; exact hR⟩)
    have hs := btw_split h.wf s tl tr hz
    have hle : (ts.filter fun t => decide (tl < t ∧ t < tr)).length ≤ ts.length := List.length_filter_le _ _
    have hts := h.ts_lt
    refine ⟨_, ?_, hs⟩
    rw [h.sparse.height, h.sparse.start, e, ok_bind]
    dsimp only
    rw [hLlen, h.scountLoop hstr hsm htl htr hlt hml hmr _ 0 0 (by omega) (by omega), Nat.zero_add]

/-- The sparse part of the count when there is nothing in it. -/
theorem FRep0.sapprox0 (h : FRep0 cfg ts sw s f) (hsm : s = maxLen ts) {tl tr : Str}
    (htl : tl ∈ ts) (htr : tr ∈ ts) {itl itr : SIter} (hL : SList ts s tl (itl.pos.take itl.keyLen))
    (hR : SList ts s tr (itr.pos.take itr.keyLen)) {inL inR : Nat}
    (hil : (inL = kMaxPos ∧ NoneM ts tl (s - 1)) ∨ (inL ≠ kMaxPos ∧ inL = nIdx ts s (tl.take s)))
    (hir : (inR = kMaxPos ∧ NoneM ts tr (s - 1)) ∨ (inR ≠ kMaxPos ∧ inR = nIdx ts s (tr.take s))) :
    ∃ c, f.sparse.approxCount itl itr inL inR = .ok c ∧
      (ts.filter fun t => decide (1 ≤ t.length ∧ t.length ≤ s ∧ tl < t ∧ t < tr)).length + c =
        (ts.filter fun t => decide (tl < t ∧ t < tr)).length := by
  have hempty : ∀ {t : Str} {l : List Nat}, SList ts s t l → l = [] := by
    intro t l hl
    rw [← List.length_eq_zero_iff]
    by_contra h0
    obtain ⟨x, c, hxl, hex, -⟩ := hl.mark 0 (by omega)
    have := ex_len hex
    simp at this
    omega
  rw [← btw_split h.wf s tl tr (n := 0) (by
    intro j _
    by_contra hne
    obtain ⟨u, hu, hul, -⟩ := btw_pos.1 (Nat.pos_of_ne_zero hne)
    have := le_maxLen hu
    omega)]
  refine ⟨0, ?_, rfl⟩
  have hitems : (sitems ts s).length = 0 := by
    rw [List.length_eq_zero_iff, List.eq_nil_iff_forall_not_mem]
    intro p hp
    obtain ⟨h1, h2⟩ := mem_sitems.1 hp
    have := ex_len h2
    omega
  have hnodes : snodes ts s = [] := by
    rw [List.eq_nil_iff_forall_not_mem]
    intro y hy
    obtain ⟨h4, -, h5⟩ := mem_nodesR.1 hy
    have := int_length_lt h5
    omega
  have hcut : rdP f.sparse.levelCuts (f.sparse.startLevel + 0) = .ok 4294967295 := by
    rw [h.scut (by omega)]
    have : (items ts s (s + 0 + 1)).length = 0 := by
      rw [show s + 0 + 1 = maxLen ts + 1 by omega]
      exact hitems
    rw [this]
    rfl
  have hsel : f.sparse.loudsBits.select 1 = .ok 0 := by
    have hones : f.sparse.loudsBits.numOnes = 0 := by rw [h.ones, hnodes]; rfl
    have hlen := h.sparse.louds.lutLen
    unfold BitvectorSelect.select
    rw [assertR_ok (by simp), ok_bind, assertR_ok (by simp), ok_bind]
    dsimp only
    rw [h.sparse.si, rdP_ok (by rw [hlen]; simp), ok_bind, show (1 : Nat) / 64 = 0 from rfl, h.sparse.louds.lut0]
    rfl
  have hN : (nodesR ts 0 s).length + 64 ≤ 4294967296 := by
    have h4 := h.d32
    rw [M32_eq] at h4
    have h5 : 0 < (nodesR ts 0 s).length := by
      rw [h.wf.nodesR_eq (by omega)]
      simp
    omega
  have hfst : ∀ {t : Str}, t ∈ ts → f.sparse.getFirstLabelPos (nIdx ts s (t.take s)) = .ok 0 := by
    intro t ht
    have hl := le_maxLen ht
    rw [List.take_of_length_le (by omega)]
    rcases nIdx_next_leaf h.wf ht (show s ≤ maxLen ts by omega) (by omega) with ⟨x, hxl, hx, -⟩ | ⟨-, e⟩
    · have := int_length_lt hx
      omega
    · have e2 : nodesR ts 0 (s + 1) = nodesR ts 0 s := by
        rw [nodesR_split ts (Nat.zero_le s) (Nat.le_succ s), hsm]
        rw [hsm] at hnodes
        exact (congrArg _ hnodes).trans (List.append_nil _)
      unfold LoudsSparse.getFirstLabelPos
      rw [e, e2, h.sparse.ncd, add32_eq (by rw [M32_eq]; omega), sub32_eq (by omega) (by rw [M32_eq]; omega),
        Nat.add_sub_cancel_left]
      exact hsel
  have happ : ∀ {t : Str}, t ∈ ts → ∀ b, f.sparse.appendToPosList [] (nIdx ts s (t.take s)) 0 b false = .ok ([0], 0, false) := by
    intro t ht b
    unfold LoudsSparse.appendToPosList
    rw [hfst ht, ok_bind, hcut, ok_bind]
    rfl
  unfold LoudsSparse.approxCount
  rcases hil with ⟨rfl, hn⟩ | ⟨hne, rfl⟩
  · rw [if_pos rfl]
    rfl
  · rw [if_neg hne]
    dsimp only
    rw [hempty hL, hempty hR, h.sparse.height, h.sparse.start, ← hsm, Nat.add_sub_cancel_left]
    unfold LoudsSparse.extendPosList
    rcases hir with ⟨rfl, hn⟩ | ⟨hne', rfl⟩
    · rw [if_pos rfl]
      dsimp only
      rw [if_pos (by simp), if_pos List.length_nil, happ htl, ok_bind]
      dsimp only
      simp only [pure_ok]
      rw [ok_bind]
      dsimp only
      rw [if_neg (by simp), ok_bind]
      dsimp only
      rw [ok_bind]
      dsimp only
      rw [h.sparse.height, h.sparse.start, ← hsm, Nat.add_sub_cancel_left]
      change (f.sparse.countLoop 0 [0] [kMaxPos] 1 0 0) = _
      unfold LoudsSparse.countLoop
      rw [show rdP [0] 0 = .ok 0 from rfl, ok_bind, if_neg (by decide), show rdP [kMaxPos] 0 = .ok kMaxPos from rfl, ok_bind]
      dsimp only
      rw [if_pos rfl, hcut]
      rfl
    · rw [if_neg hne']
      dsimp only
      rw [if_pos (by simp), if_pos List.length_nil, happ htl, ok_bind]
      dsimp only
      simp only [pure_ok]
      rw [ok_bind]
      dsimp only
      rw [if_pos List.length_nil, happ htr, ok_bind]
      dsimp only
      rw [ok_bind, ok_bind]
      dsimp only
      rw [h.sparse.height, h.sparse.start, ← hsm, Nat.add_sub_cancel_left]
      rfl

/-- Counting from a leaf to a greater leaf, whatever the left iterator claims about its search. -/
theorem FRep0.approxAny (h : FRep0 cfg ts sw s f) (hstr : Env.strict = false) (hpast : s < maxLen ts → PastOk f) (hg : DGood ts s)
    {tl tr : Str} {it it2 : Iter} (hal : At ts s it tl) (har : At ts s it2 tr) (hlt : tl < tr)
    (hsc : tl.length ≤ s → it.dense.searchComplete = true) (hk : tl.length ≤ s → it.sparse.keyLen = 0) :
    f.approxCountIter it it2 =
      .ok (adjust ts s it.dense.searchComplete tl tr (ts.filter fun t => decide (tl < t ∧ t < tr)).length) := by
  obtain ⟨outL, outR, e, hol, hor⟩ := h.dapprox hstr hg hal.mem har.mem hlt hal.d har.d hsc
  have hts := h.ts_lt
  have hle : (ts.filter fun t => decide (tl < t ∧ t < tr)).length ≤ ts.length := List.length_filter_le _ _
  have hL : SList ts s tl (it.sparse.pos.take it.sparse.keyLen) ∧
      (it.sparse.pos.take it.sparse.keyLen).length = tl.length - s := by
    rcases Nat.lt_or_ge s tl.length with h1 | h1
    · exact (hal.sp h1).slist hal.mem
    · refine ⟨(hal.sx h1).slist h.wf hal.mem h1, ?_⟩
      rw [hk h1]
      simp
      omega
  have hR : SList ts s tr (it2.sparse.pos.take it2.sparse.keyLen) := by
    rcases Nat.lt_or_ge s tr.length with h1 | h1
    · exact ((har.sp h1).slist har.mem).1
    · exact (har.sx h1).slist h.wf har.mem h1
  obtain ⟨c, e1, hc⟩ : ∃ c, f.sparse.approxCount it.sparse it2.sparse outL outR = .ok c ∧
      (ts.filter fun t => decide (1 ≤ t.length ∧ t.length ≤ s ∧ tl < t ∧ t < tr)).length + c =
        (ts.filter fun t => decide (tl < t ∧ t < tr)).length := by
    rcases Nat.lt_or_ge s (maxLen ts) with h1 | h1
    · exact h.sapprox hstr (hpast h1) h1 hal.mem har.mem hlt hL.1 hL.2 hR hol hor
    · exact h.sapprox0 (le_antisymm h.sH h1) hal.mem har.mem hL.1 hR hol hor
  unfold Filter.approxCountIter
  rw [hal.isValid, har.isValid]
  simp only [Bool.not_true, Bool.or_self, Bool.false_eq_true, if_false]
  rw [e, ok_bind]
  dsimp only
  rw [e1, ok_bind, adjust_add (dcnt_sum ts h.s1 false tl tr hts).2, hc, Nat.mod_eq_of_lt (adjust_lt hle hts)]
  rfl

/-- Counting from a leaf to a greater leaf. -/
theorem FRep0.approx (h : FRep0 cfg ts sw s f) (hstr : Env.strict = false) (hpast : s < maxLen ts → PastOk f) (hg : DGood ts s)
    {tl tr : Str} {it it2 : Iter} (hal : At ts s it tl) (har : At ts s it2 tr) (hlt : tl < tr)
    (hsc : it.dense.searchComplete = decide (tl.length ≤ s)) (hk : tl.length ≤ s → it.sparse.keyLen = 0) :
    f.approxCountIter it it2 = .ok (ts.filter fun t => decide (tl < t ∧ t < tr)).length := by
  rw [h.approxAny hstr hpast hg hal har hlt (fun h1 => by rw [hsc, decide_eq_true h1]) hk]
  unfold adjust
  rw [if_neg]
  rintro ⟨h1, h2, -⟩
  rw [hsc, decide_eq_true_eq] at h1
  omega

omit [Env] in
theorem dpath_unique (h : WF ts) {t : Str} (ht : t ∈ ts) {i v v' : Nat} (h1 : DPathM ts t i v) (h2 : DPathM ts t i v') : v = v' := by
  obtain ⟨x, b, hx, -, -, rfl, he, hk⟩ := h1
  obtain ⟨x', b', hx', -, -, rfl, he', hk'⟩ := h2
  have hxt : x <+: t := by
    rcases hk with hk | ⟨hk, -⟩
    · exact (List.prefix_append _ _).trans hk
    · rw [hk]; exact List.prefix_append _ _
  have hxt' : x' <+: t := by
    rcases hk' with hk' | ⟨hk', -⟩
    · exact (List.prefix_append _ _).trans hk'
    · rw [hk']; exact List.prefix_append _ _
  have hxx : x = x' := by
    rcases List.prefix_or_prefix_of_prefix hxt hxt' with h3 | h3
    · exact h3.eq_of_length (by omega)
    · exact (h3.eq_of_length (by omega)).symm
  subst hxx
  have hmix : ∀ {b : Nat}, x ++ [b + 1] <+: t → t ≠ x ++ [0] := by
    intro b hp e
    rw [e] at hp
    have := hp.eq_of_length (by simp)
    have := List.append_cancel_left this
    simp at this
  have hb : b = b' := by
    rcases hk with hk | ⟨hk, hm⟩
    · rcases hk' with hk' | ⟨hk', -⟩
      · rcases List.prefix_or_prefix_of_prefix hk hk' with h3 | h3
        · have := List.append_cancel_left (h3.eq_of_length (by simp))
          simpa using this
        · have := List.append_cancel_left (h3.eq_of_length (by simp))
          simpa using this.symm
      · exact absurd hk' (hmix hk)
    · rcases hk' with hk' | ⟨hk', hm'⟩
      · exact absurd hk (hmix hk')
      · rcases Nat.lt_trichotomy b b' with h3 | h3 | h3
        · rw [hm' b h3] at he; cases he
        · exact h3
        · rw [hm b' h3] at he'; cases he'
  rw [hb]

/-- The dense part of the count from a leaf to itself. -/
theorem FRep0.dsame (h : FRep0 cfg ts sw s f) {t : Str} (ht : t ∈ ts) {itl itr : DIter} (hal : DAt ts s itl t) (har : DAt ts s itr t) :
    ∃ out, f.dense.approxCount itl itr = .ok (0, out, out) ∧
      ((out = kMaxPos ∧ NoneM ts t (s - 1)) ∨ (out ≠ kMaxPos ∧ out = nIdx ts s (t.take s))) := by
  obtain ⟨l, out, e, hl, -, ho⟩ := h.dextendPosList ht hal
  obtain ⟨l1, m1⟩ := h.dstart ht hal
  obtain ⟨l2, m2⟩ := h.dstart ht har
  have hs1 := h.s1
  have heq : itr.pos.take itr.keyLen = itl.pos.take itl.keyLen := by
    apply List.ext_getElem (by rw [l1, l2])
    intro j h3 h4
    have h5 := dpath_unique h.wf ht (m2 j (by omega)) (m1 j (by omega))
    rw [List.getD_eq_getElem?_getD, List.getD_eq_getElem?_getD, List.getElem?_eq_getElem h3, List.getElem?_eq_getElem h4] at h5
    exact h5
  refine ⟨out, ?_, ho⟩
  have key : ∀ n i, i + n = s → f.dense.countLoop itl itr (min t.length s) (min t.length s) l l n i 0 = .ok 0 := by
    intro n
    induction n with
    | zero => intro i _; rfl
    | succ n ih =>
      intro i hi
      unfold LoudsDense.countLoop
      rw [rdP_ok (by omega), ok_bind]
      by_cases hk : l.getD i 0 = kMaxPos
      · rw [if_pos hk]; rfl
      · rw [if_neg hk, ok_bind, h.dcut (by omega), ok_bind, h.dense.height, h.dcut (by omega), ok_bind]
        dsimp only
        rw [if_neg hk, hal.pre, har.pre, if_neg (by omega)]
        exact ih (i + 1) (by omega)
  unfold LoudsDense.approxCount
  dsimp only
  rw [e, ok_bind]
  dsimp only
  rw [heq, e, ok_bind]
  dsimp only
  rw [l1, h.dense.height, key s 0 (by omega), ok_bind]
  rfl

/-- Counting from a leaf to itself. -/
theorem FRep0.approxSame (h : FRep0 cfg ts sw s f) (hpast : s < maxLen ts → PastOk f) {t : Str} {it it2 : Iter}
    (hal : At ts s it t) (har : At ts s it2 t) : f.approxCountIter it it2 = .ok 0 := by
  obtain ⟨out, e, ho⟩ := h.dsame hal.mem hal.d har.d
  have hSL : ∀ {it : Iter}, At ts s it t → SList ts s t (it.sparse.pos.take it.sparse.keyLen) := by
    intro it ha
    rcases Nat.lt_or_ge s t.length with h1 | h1
    · exact ((ha.sp h1).slist ha.mem).1
    · exact (ha.sx h1).slist h.wf ha.mem h1
  have e1 : f.sparse.approxCount it.sparse it2.sparse out out = .ok 0 := by
    rcases Nat.lt_or_ge s (maxLen ts) with h1 | h1
    · unfold LoudsSparse.approxCount
      rcases ho with ⟨rfl, hn⟩ | ⟨hne, rfl⟩
      · rw [if_pos rfl]; rfl
      · rw [if_neg hne]
        dsimp only
        obtain ⟨ll, rl, e2, hml, hmr, -⟩ := h.sextendPosList (hpast h1) h1 hal.mem hal.mem (hSL hal)
          (rl := it2.sparse.pos.take it2.sparse.keyLen) (inR := nIdx ts s (t.take s)) (Or.inr ⟨rfl, hSL har⟩)
        rw [if_neg hne, e2, ok_bind]
        dsimp only
        exact scountSame _ _ _ _ (by omega) fun j hj => smark_unique h.wf (hml j (by omega)) (hmr j (by omega))
    · obtain ⟨c, e2, hc⟩ := h.sapprox0 (le_antisymm h.sH h1) hal.mem har.mem (hSL hal) (hSL har) ho ho
      rw [e2]
      have : (ts.filter fun u => decide (t < u ∧ u < t)).length = 0 := by
        rw [List.length_eq_zero_iff, List.filter_eq_nil_iff]
        intro u _ hu
        simp only [decide_eq_true_eq] at hu
        exact lt_asymm hu.1 hu.2
      rw [show c = 0 by omega]
  unfold Filter.approxCountIter
  rw [hal.isValid, har.isValid]
  simp only [Bool.not_true, Bool.or_self, Bool.false_eq_true, if_false]
  rw [e, ok_bind]
  dsimp only
  rw [e1, ok_bind]
  rfl

theorem rdW_junk (hstr : Env.strict = false) {a : List Word} {i : Nat} (h : a.length ≤ i) : rdW a i = .ok (Env.junkW a i) := by
  unfold rdW
  rw [List.getElem?_eq_none h]
  simp [hstr]

theorem rdP_junk (hstr : Env.strict = false) {a : List Nat} {i : Nat} (h : a.length ≤ i) : rdP a i = .ok (Env.junkP a i) := by
  unfold rdP
  rw [List.getElem?_eq_none h]
  simp [hstr]

omit [Env] in
theorem popcount_pos {w : Word} (h : w ≠ 0) : 1 ≤ popcount w := by
  rw [popcount_eq]
  by_contra hc
  apply h
  apply BitVec.eq_of_getMsbD_eq
  intro i hi
  cases hb : w.getMsbD i with
  | false => simp
  | true =>
    have h1 := rk_mono w.getMsbD (show i + 1 ≤ 64 by omega)
    rw [rk_succ, hb] at h1
    simp at h1
    omega

/-- The search for the one bit behind the last one reads the word behind the array. -/
theorem selLoop_past {b : BitvectorSelect} (hstr : Env.strict = false) (hW : Env.junkW b.bits b.bits.length ≠ 0) {r : Nat}
    (fuel wid off : Nat) (word : Word) (rl : Nat) (hoff : off ≤ 64)
    (hm : ∀ i, i < 64 → word.getMsbD i = (decide (off ≤ i) && (b.bits.getD wid 0).getMsbD i))
    (hr : rk (bitAt b.bits) (64 * wid + off) + rl = r) (hones : r = rk (bitAt b.bits) (64 * b.bits.length) + 1)
    (hf : b.bits.length < fuel + wid) (hwid : wid < b.bits.length) :
    BitvectorSelect.selLoop b fuel wid word rl = .ok (b.bits.length, Env.junkW b.bits b.bits.length, 1) := by
  induction fuel generalizing wid off word rl with
  | zero => omega
  | succ fuel ih =>
    rw [BitvectorSelect.selLoop]
    have hmk := BitvectorSelect.masked_rk hm hoff (le_refl _)
    have hfull := rk_full_word b.bits wid
    have hpart := rk_word b.bits wid hoff
    have hmono := rk_mono (bitAt b.bits) (show 64 * (wid + 1) ≤ 64 * b.bits.length by omega)
    have hpe := popcount_eq word
    have hpe2 := popcount_eq (b.bits.getD wid 0)
    rw [if_pos (by omega)]
    have hpc : rk (bitAt b.bits) (64 * (wid + 1)) + (rl - popcount word) = r := by omega
    dsimp only
    by_cases hlt : wid + 1 < b.bits.length
    · rw [rdW_ok hlt, ok_bind]
      exact ih (wid + 1) 0 _ (rl - popcount word) (by omega) (by intro i hi; simp) (by simpa using hpc) (by omega) hlt
    · have hwe : wid + 1 = b.bits.length := by omega
      rw [hwe] at hpc ⊢
      rw [rdW_junk hstr (le_refl _), ok_bind, show rl - popcount word = 1 by omega]
      obtain ⟨fuel, rfl⟩ : ∃ n, fuel = n + 1 := ⟨fuel - 1, by omega⟩
      rw [BitvectorSelect.selLoop, if_neg (by have := popcount_pos hW; omega)]

/-- The select query for the one bit behind the last one. -/
theorem select_past {b : BitvectorSelect} {xs : List Bool} (h : b.Rep xs) (hstr : Env.strict = false) (hx : xs ≠ [])
    (hW : (xs.count true + 1) % b.sampleInterval ≠ 0 → Env.junkW b.bits b.bits.length ≠ 0)
    (hP : (xs.count true + 1) % b.sampleInterval = 0 → b.numBits ≤ Env.junkP b.selectLut b.selectLut.length) :
    ∃ p, b.select (b.numOnes + 1) = .ok p ∧ b.numBits ≤ p := by
  have hl := h.base.len_bounds
  have hones : rk (bitAt b.bits) (64 * b.bits.length) = xs.count true := by
    rw [h.base.rk_eq, rk_list, List.take_of_length_le hl.1]
  have ho := h.ones
  have hsi := h.si
  have hnum := h.base.num
  have h1 : 1 ≤ xs.count true := by
    rw [Nat.one_le_iff_ne_zero, ← Nat.pos_iff_ne_zero, List.count_pos_iff]
    have := h.first hx
    rw [List.getD_eq_getElem?_getD, List.getElem?_eq_getElem (List.length_pos_of_ne_nil hx), Option.getD_some] at this
    rw [← this]
    exact List.getElem_mem _
  rw [ho]
  set r := xs.count true + 1 with hr
  have hdm := Nat.div_add_mod r b.sampleInterval
  have hmod := Nat.mod_lt r (show 0 < b.sampleInterval by omega)
  unfold BitvectorSelect.select
  rw [assertR_ok (by simp; omega), ok_bind, assertR_ok (by simp; omega), ok_bind]
  dsimp only
  by_cases hz : r % b.sampleInterval = 0
  · have hlut : r / b.sampleInterval = b.selectLut.length := by
      rw [h.lutLen, ho, hr]
      exact Nat.succ_div_of_mod_eq_zero hz
    rw [hlut, rdP_junk hstr (le_refl _), ok_bind, if_neg (show ¬ b.selectLut.length = 0 by rw [h.lutLen]; exact Nat.succ_ne_zero _), if_pos hz]
    exact ⟨_, rfl, hP hz⟩
  · have hlut : r / b.sampleInterval = xs.count true / b.sampleInterval := Nat.succ_div_of_mod_ne_zero hz
    rw [rdP_ok (by rw [h.lutLen, ho, hlut]; omega), ok_bind]
    obtain ⟨r0, hs0, hrl, hr0⟩ : ∃ r0, IsSel (bitAt b.bits) r0 (b.selectLut.getD (r / b.sampleInterval) 0) ∧
        (if r / b.sampleInterval = 0 then sub32 (r % b.sampleInterval) 1 else r % b.sampleInterval) + r0 = r ∧
        r0 ≤ xs.count true := by
      by_cases h0 : r / b.sampleInterval = 0
      · refine ⟨1, ?_, ?_, h1⟩
        · rw [h0, h.lut0]
          exact ⟨by rw [h.base.bit]; exact h.first hx, by simp [rk_zero]⟩
        · rw [h0] at hdm
          rw [if_pos h0, sub32_eq (by omega) (by have := h.si32; omega)]; omega
      · refine ⟨_, h.lut _ (Nat.pos_of_ne_zero h0) (by rw [hlut, ho]), ?_, ?_⟩
        · rw [if_neg h0]; omega
        · omega
    generalize (if r / b.sampleInterval = 0 then sub32 (r % b.sampleInterval) 1 else r % b.sampleInterval) = rl at *
    generalize b.selectLut.getD (r / b.sampleInterval) 0 = pos at *
    rw [if_neg (by omega)]
    have hstart : (if pos % 64 = 63 then (pos / 64 + 1, 0) else (pos / 64, pos % 64 + 1))
        = ((pos + 1) / 64, (pos + 1) % 64) := by
      split <;> simp only [Prod.mk.injEq] <;> omega
    rw [hstart]
    dsimp only
    have hrk : rk (bitAt b.bits) (pos + 1) = r0 := by
      rw [rk_succ, hs0.1]; have := hs0.2; simpa using this
    have hpl : pos < 64 * b.bits.length := by
      by_contra hge
      have := rk_mono (bitAt b.bits) (show 64 * b.bits.length ≤ pos by omega)
      have := hs0.2
      omega
    obtain ⟨q, hq1, hq2, -⟩ := select64_spec (le_refl 1) (popcount_pos (hW hz))
    by_cases hlt : (pos + 1) / 64 < b.bits.length
    · rw [rdW_ok hlt, ok_bind]
      rw [selLoop_past hstr (hW hz) (r := r) (b.bits.length + 1) ((pos + 1) / 64)
        ((pos + 1) % 64) ((b.bits.getD ((pos + 1) / 64) 0 <<< ((pos + 1) % 64)) >>> ((pos + 1) % 64)) rl
        (by omega)
        (by
          intro i hi
          rw [BitVec.getMsbD_ushiftRight, BitVec.getMsbD_shiftLeft]
          by_cases hio : (pos + 1) % 64 ≤ i
          · simp [hio, hi, Nat.not_lt.mpr hio]
          · simp [hio, Nat.lt_of_not_le hio])
        (by rw [Nat.div_add_mod]; omega) (by omega) (by omega) hlt, ok_bind]
      refine ⟨_, rfl, ?_⟩
      rw [hq1]
      omega
    · have hpe : pos + 1 = 64 * b.bits.length := by omega
      rw [hpe, hones] at hrk
      rw [show (pos + 1) / 64 = b.bits.length by omega, show (pos + 1) % 64 = 0 by omega, rdW_junk hstr (le_refl _), ok_bind,
        show rl = 1 by omega, BitVec.shiftLeft_zero, BitVec.ushiftRight_zero, BitvectorSelect.selLoop,
        if_neg (by have := popcount_pos (hW hz); omega), ok_bind]
      refine ⟨_, rfl, ?_⟩
      rw [hq1]
      omega

end

end Surf
