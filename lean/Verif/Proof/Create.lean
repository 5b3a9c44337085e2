import Verif.Spec
import Verif.Proof.FilterRep

/-! # Construction of a whole filter -/

set_option linter.unusedSectionVars false
set_option autoImplicit false

namespace Surf
open Trie

/-! ## The cutoff level -/

section
variable {cfg : Config} {ts : List Str} {ss : List (Str × Word)} {s L : Nat} {ls : List Level}

theorem cutoffLoop_le {ratio m : Nat} (hstop : ¬ Builder.computeDenseMem L ls m * ratio % 18446744073709551616 < Builder.computeSparseMem L ls m)
    (n c : Nat) (hc : c ≤ m) : Builder.cutoffLoop L ratio ls n c ≤ m := by
  induction n generalizing c with
  | zero => exact hc
  | succ n ih =>
    rw [Builder.cutoffLoop]
    split
    · rename_i h
      have : c ≠ m := by rintro rfl; exact hstop h
      exact ih (c + 1) (by omega)
    · exact hc

theorem cutoffLoop_ge {ratio : Nat} (n c : Nat) : c ≤ Builder.cutoffLoop L ratio ls n c := by
  induction n generalizing c with
  | zero => exact le_rfl
  | succ n ih =>
    rw [Builder.cutoffLoop]
    split
    · have := ih (c + 1); omega
    · exact le_rfl

theorem lev_top {H : Nat} (hH : maxLen ts < H) : lev ts H = [] := by
  rw [List.eq_nil_iff_forall_not_mem]
  intro p hp
  obtain ⟨h1, t, ht, hpt⟩ := mem_lev.1 hp
  have := le_maxLen ht
  have := hpt.length_le
  omega

theorem wordsAt_top {l : Nat} (hss : ss.map Prod.fst = ts) (hl : maxLen ts ≤ l) : wordsAt ss l = [] := by
  unfold wordsAt
  rw [List.map_eq_nil_iff, List.filter_eq_nil_iff]
  intro x hx
  have : x.1 ∈ ts := by rw [← hss]; exact List.mem_map_of_mem hx
  have := le_maxLen this
  simp; omega

theorem mem_le_sum {l : List Nat} {x : Nat} (h : x ∈ l) : x ≤ l.sum := by
  induction l with
  | nil => cases h
  | cons a l ih =>
    rw [List.sum_cons]
    rcases List.mem_cons.1 h with rfl | h
    · omega
    · have := ih h; omega

theorem denseMemLevel_le (L : Nat) (prev : Option Nat) (lv : Level) :
    Builder.denseMemLevel L prev lv ≤ 512 * lv.nodeCount + (prev.getD 0 + 1) + lv.suffixCount * L := by
  unfold Builder.denseMemLevel mul32
  have m3 : 2 * kFanout * lv.nodeCount = 512 * lv.nodeCount := rfl
  rw [m3]
  have m1 := Nat.mod_le (512 * lv.nodeCount) M32
  have m2 := Nat.mod_le (lv.suffixCount * L) M32
  generalize lv.suffixCount * L = x at *
  cases prev with
  | none => simp only [Option.getD_none]; omega
  | some p => simp only [Option.getD_some]; omega

/-- An upper bound for the size of the dense levels. -/
theorem denseMem_le (h : WF ts) (hr : Rep0 L (maxLen ts + 1) ls ts ss) (c : Nat) (hc : c ≤ maxLen ts + 1) :
    Builder.computeDenseMem L ls c ≤ 512 * (nodesR ts 0 c).length + (nodesR ts 0 (c - 1)).length + c + (ss.filter fun x => x.1.length ≤ c).length * L := by
  induction c with
  | zero => simp [Builder.computeDenseMem]
  | succ c ih =>
    have ih := ih (by omega)
    have hlen := hr.len
    have hlv := List.getElem?_eq_getElem (l := ls) (i := c) (by omega)
    have hl := hr.lvl _ _ hlv
    have hd : ls.getD c Builder.newLevel = ls[c] := by simp [List.getD, hlv]
    have hn : ls[c].nodeCount = (nodes ts c).length := by rw [hl.node, lev_nodeCount h.sorted]
    have hsc : ls[c].suffixCount = (ss.filter fun x => x.1.length = c + 1).length := by
      rw [hl.sfxCount]; unfold wordsAt; rw [List.length_map]
    have e0 : Builder.computeDenseMem L ls (c + 1) = Builder.computeDenseMem L ls c +
        Builder.denseMemLevel L (if c = 0 then none else ((ls[c - 1]?).map (·.nodeCount))) (ls.getD c Builder.newLevel) := by
      unfold Builder.computeDenseMem
      rw [List.range_succ, List.map_append, List.sum_append]
      simp
    have e1 : (ss.filter fun x => x.1.length ≤ c + 1).length = (ss.filter fun x => x.1.length ≤ c).length +
        (ss.filter fun x => x.1.length = c + 1).length := by
      have : ∀ l : List (Str × Word), (l.filter fun x => x.1.length ≤ c + 1).length = (l.filter fun x => x.1.length ≤ c).length +
          (l.filter fun x => x.1.length = c + 1).length := by
        intro l
        induction l with
        | nil => rfl
        | cons a l ih =>
          rcases Nat.lt_trichotomy a.1.length (c + 1) with h1 | h1 | h1
          · have a1 : a.1.length ≤ c := by omega
            have a2 : a.1.length ≤ c + 1 := by omega
            have a3 : ¬ a.1.length = c + 1 := by omega
            simp only [List.filter_cons, a1, a2, a3, decide_true, decide_false, if_true, Bool.false_eq_true, if_false, List.length_cons, ih]
            omega
          · have a1 : ¬ a.1.length ≤ c := by omega
            have a2 : a.1.length ≤ c + 1 := by omega
            simp only [List.filter_cons, a1, a2, decide_true, decide_false, if_true, Bool.false_eq_true, if_false, List.length_cons, ih]
            rw [if_pos (by simpa using h1), List.length_cons]
            omega
          · have a1 : ¬ a.1.length ≤ c := by omega
            have a2 : ¬ a.1.length ≤ c + 1 := by omega
            have a3 : ¬ a.1.length = c + 1 := by omega
            simp only [List.filter_cons, a1, a2, a3, decide_false, Bool.false_eq_true, if_false, ih]
      exact this ss
    have e2 : (nodesR ts 0 (c + 1)).length = (nodesR ts 0 c).length + (nodes ts c).length := by
      rw [nodesR_split ts (Nat.zero_le c) (Nat.le_succ c), List.length_append, nodesR_one]
    rw [e0, hd, e1, e2, Nat.add_mul]
    have m1 := denseMemLevel_le L (if c = 0 then none else ((ls[c - 1]?).map (·.nodeCount))) ls[c]
    rw [hn, hsc] at m1
    have m4 : (if c = 0 then none else ((ls[c - 1]?).map (·.nodeCount)) : Option Nat).getD 0 + (nodesR ts 0 (c - 1)).length ≤ (nodesR ts 0 c).length := by
      by_cases h0 : c = 0
      · rw [if_pos h0, h0]; simp
      · rw [if_neg h0]
        have hlv' := List.getElem?_eq_getElem (l := ls) (i := c - 1) (by omega)
        have hn' : ls[c - 1].nodeCount = (nodes ts (c - 1)).length := by rw [(hr.lvl _ _ hlv').node, lev_nodeCount h.sorted]
        have e9 : nodesR ts (c - 1) c = nodes ts (c - 1) := by
          conv_lhs => rw [show c = c - 1 + 1 by omega, Nat.add_sub_cancel]
          rw [nodesR_one]
        rw [hlv', Option.map_some, hn', Option.getD_some, nodesR_split ts (Nat.zero_le (c - 1)) (show c - 1 ≤ c by omega), List.length_append, e9]
        omega
    generalize (ss.filter fun x => x.1.length = c + 1).length * L = sl at *
    generalize (ss.filter fun x => x.1.length ≤ c).length * L = sl' at *
    rw [Nat.add_sub_cancel]
    omega

theorem denseMem_lt (h : WF ts) (hss : ss.map Prod.fst = ts) (hr : Rep0 L (maxLen ts + 1) ls ts ss)
    (hnode : 256 * (nodesR ts 0 (maxLen ts + 1)).length < M32)
    (hsfx : L * ts.length ≤ M32) (hH : maxLen ts + 1 < M32) {c : Nat} (hc : c ≤ maxLen ts) :
    Builder.computeDenseMem L ls c < 2 ^ 36 := by
  have e3 := denseMem_le h hr c (by omega)
  have e4 : (nodesR ts 0 c).length ≤ (nodesR ts 0 (maxLen ts + 1)).length := by
    rw [nodesR_split ts (Nat.zero_le c) (show c ≤ maxLen ts + 1 by omega), List.length_append]
    omega
  have e5 : (ss.filter fun x => x.1.length ≤ c).length * L ≤ L * ts.length := by
    rw [Nat.mul_comm, ← hss, List.length_map]
    exact Nat.mul_le_mul_left _ (List.length_filter_le _ _)
  have e8 : (nodesR ts 0 (c - 1)).length ≤ (nodesR ts 0 c).length := by
    rw [nodesR_split ts (Nat.zero_le (c - 1)) (show c - 1 ≤ c by omega), List.length_append]; omega
  rw [M32_eq] at *
  omega

theorem cutoff_bounds0 (h : WF ts) (hss : ss.map Prod.fst = ts) (hr : Rep0 L (maxLen ts + 1) ls ts ss) {ratio : Nat}
    (hratio : 1 ≤ ratio) (hmem : Builder.computeDenseMem L ls (maxLen ts) * ratio < 18446744073709551616) :
    1 ≤ Builder.determineCutoffLevel L ratio ls ∧ Builder.determineCutoffLevel L ratio ls ≤ maxLen ts := by
  have hlen := hr.len
  have h1 : 1 ≤ maxLen ts := by
    obtain ⟨t, ht, e⟩ := exists_maxLen h.ne
    have := h.nonempty t ht
    have : t.length ≠ 0 := by simpa using this
    omega
  unfold Builder.determineCutoffLevel
  constructor
  · rw [hlen, Builder.cutoffLoop, if_pos]
    · exact cutoffLoop_ge _ _
    · have : Builder.computeDenseMem L ls 0 = 0 := rfl
      rw [this, Nat.zero_mul]
      unfold Builder.computeSparseMem
      rw [Nat.zero_mod, List.drop_zero]
      have hlv := List.getElem?_eq_getElem (l := ls) (i := maxLen ts) (by omega)
      have hl := hr.lvl _ _ hlv
      have a1 : ls[maxLen ts].labels.length = 0 := by
        rw [hl.labels, List.length_map, lev_top (by omega)]; rfl
      refine lt_of_lt_of_le ?_ (mem_le_sum (List.mem_map_of_mem (List.getElem_mem (l := ls) (n := maxLen ts) (by omega))))
      rw [a1]
      exact Nat.lt_of_lt_of_le (by decide : 0 < add32 (add32 0 (mul32 2 0 / 8)) 1) (Nat.le_add_right _ _)
  · refine cutoffLoop_le ?_ _ _ (Nat.zero_le _)
    have e1 : Builder.computeSparseMem L ls (maxLen ts) = 1 := by
      unfold Builder.computeSparseMem
      have hlv := List.getElem?_eq_getElem (l := ls) (i := maxLen ts) (by omega)
      have hl := hr.lvl _ _ hlv
      rw [List.drop_eq_getElem_cons (by omega), List.drop_of_length_le (by omega)]
      have a1 : ls[maxLen ts].labels.length = 0 := by
        rw [hl.labels, List.length_map, lev_top (by omega)]; rfl
      have a2 : ls[maxLen ts].suffixCount = 0 := by
        rw [hl.sfxCount, wordsAt_top hss le_rfl]; rfl
      simp [a1, a2, mul32, add32, M32_eq]
    have e2 : 512 ≤ Builder.computeDenseMem L ls (maxLen ts) := by
      unfold Builder.computeDenseMem
      obtain ⟨m, hm⟩ : ∃ m, maxLen ts = m + 1 := ⟨_, (Nat.sub_add_cancel h1).symm⟩
      rw [hm, List.range_succ_eq_map, List.map_cons, List.sum_cons]
      have hlv := List.getElem?_eq_getElem (l := ls) (i := 0) (by omega)
      have hn : ls[0].nodeCount = 1 := by
        rw [(hr.lvl _ _ hlv).node, lev_nodeCount h.sorted, h.nodes_zero]; rfl
      have : ls.getD 0 Builder.newLevel = ls[0] := by simp [List.getD, hlv]
      rw [if_pos rfl, this]
      unfold Builder.denseMemLevel
      rw [hn]
      have : mul32 (2 * kFanout) 1 = 512 := rfl
      rw [this]
      omega
    rw [Nat.mod_eq_of_lt hmem]
    rw [e1]
    have : 512 * 1 ≤ Builder.computeDenseMem L ls (maxLen ts) * ratio := Nat.mul_le_mul e2 hratio
    omega

theorem cutoff_bounds (h : WF ts) (hss : ss.map Prod.fst = ts) (hr : Rep0 L (maxLen ts + 1) ls ts ss) {ratio : Nat}
    (hratio : 1 ≤ ratio) (hratio2 : ratio < 2 ^ 28) (hnode : 256 * (nodesR ts 0 (maxLen ts + 1)).length < M32)
    (hsfx : L * ts.length ≤ M32) (hH : maxLen ts + 1 < M32) :
    1 ≤ Builder.determineCutoffLevel L ratio ls ∧ Builder.determineCutoffLevel L ratio ls ≤ maxLen ts := by
  refine cutoff_bounds0 h hss hr hratio ?_
  have e6 := denseMem_lt h hss hr hnode hsfx hH le_rfl
  have e7 : Builder.computeDenseMem L ls (maxLen ts) * ratio < 2 ^ 36 * 2 ^ 28 := Nat.mul_lt_mul'' e6 hratio2
  omega

variable [Env]

/-! ## Dense levels -/

omit [Env] in
theorem nodesR_bound (hs : s ≤ maxLen ts) (hN : 256 * (nodesR ts 0 (maxLen ts + 1)).length < M32) :
    256 * (nodesR ts 0 s).length < M32 := by
  refine lt_of_le_of_lt (Nat.mul_le_mul_left _ ?_) hN
  rw [nodesR_split ts (Nat.zero_le s) (show s ≤ maxLen ts + 1 by omega), List.length_append]
  omega

theorem buildDense_ok (h : WF ts) (hff : ts ≠ [[256]]) (hr : Rep0 L (maxLen ts + 1) ls ts ss) (hsH : s ≤ maxLen ts)
    (hN : 256 * (nodesR ts 0 (maxLen ts + 1)).length < M32) :
    ∃ ds, Builder.buildDense ls s = .ok ds ∧ ds.length = s ∧ ∀ l d, ds[l]? = some d → DenseRep ts l d := by
  have hlen := hr.len
  unfold Builder.buildDense
  induction s with
  | zero => exact ⟨[], rfl, rfl, by simp⟩
  | succ s ih =>
    obtain ⟨ds, e, hl, hd⟩ := ih (by omega)
    have hlv := List.getElem?_eq_getElem (l := ls) (i := s) (by omega)
    obtain ⟨d, e', hd'⟩ := buildDenseLevel_ok h hff (hr.lvl _ _ hlv) (by
      refine lt_of_le_of_lt (Nat.mul_le_mul_left _ ?_) hN
      rw [nodesR_split ts (Nat.zero_le s) (show s ≤ maxLen ts + 1 by omega), nodesR_split ts (Nat.le_succ s) (show s + 1 ≤ maxLen ts + 1 by omega),
        nodesR_one]
      simp only [List.length_append]
      omega)
    refine ⟨ds ++ [d], ?_, by simp [hl], ?_⟩
    · rw [List.take_succ_eq_append_getElem (by omega), List.mapM_append, e, ok_bind, List.mapM_cons, e', ok_bind]
      rfl
    · intro l x hx
      rcases Nat.lt_trichotomy l s with h' | rfl | h'
      · rw [List.getElem?_append_left (by omega)] at hx; exact hd l x hx
      · rw [List.getElem?_append_right (by omega), hl] at hx
        simp at hx
        subst hx; exact hd'
      · rw [List.getElem?_eq_none (by simp; omega)] at hx; simp at hx

/-- Size conditions under which no 32-bit position overflows. -/
structure Sizes0 (cfg : Config) (ts : List Str) : Prop where
  node : 256 * (nodesR ts 0 (maxLen ts + 1)).length < M32
  item : (items ts 0 (maxLen ts + 1)).length + 64 < M32
  sfx : (cfg.hashLen + cfg.realLen) * ts.length < M32
  len : maxLen ts + 1 < M32

/-- The same with room for the labels. -/
structure Sizes (cfg : Config) (ts : List Str) : Prop extends Sizes0 cfg ts where
  room : ∀ s, 1 ≤ s → Spec.Room ((items ts s (maxLen ts + 1)).length + 1)

/-- The label bytes behind the last item are zero. -/
def PadOk (f : Filter) (ts : List Str) (s : Nat) : Prop :=
  ∃ n, f.sparse.labels.labels = (items ts s (maxLen ts + 1)).map lab ++ List.replicate n 0 ∧
    (64 ≤ (items ts s (maxLen ts + 1)).length → 64 ≤ n)

/-- The same filter with other suffixes. -/
def withSfx (f : Filter) (x y : BitvectorSuffix) : Filter :=
  ⟨{ f.dense with suffixes := x }, { f.sparse with suffixes := y }⟩

/-- Construction, whatever becomes of the suffixes, when the array for the labels holds them, with `n` bytes left over. -/
theorem create_any (hd : cfg.includeDense = true) (hratio : 1 ≤ cfg.ratio)
    (hmem : Builder.computeDenseMem (cfg.hashLen + cfg.realLen) ls (maxLen ts) * cfg.ratio < 18446744073709551616)
    (h : WF ts) (hff : ts ≠ [[256]])
    (hss : ss.map Prod.fst = ts) (hr : Rep0 (cfg.hashLen + cfg.realLen) (maxLen ts + 1) ls ts ss)
    (hnode : 256 * (nodesR ts 0 (maxLen ts + 1)).length < M32) (hitem : (items ts 0 (maxLen ts + 1)).length + 64 < M32)
    (hH : maxLen ts + 1 < M32)
    {keys : List Key} (hk : keys ≠ []) (hb : Builder.buildSparse cfg keys = .ok ls) {s : Nat}
    (hs : Env.strict = false ∨ (InsideN ((List.range' 0 (s - 0)).map fun l => (nodes ts l).length) ∧
      InsideN ((List.range' s (maxLen ts + 1 - s)).map fun l => (lev ts (l + 1)).length)))
    (hsdef : s = Builder.determineCutoffLevel (cfg.hashLen + cfg.realLen) cfg.ratio ls) {n : Nat}
    (hroom : mul32 ((items ts s (maxLen ts + 1)).length + 1) (((items ts s (maxLen ts + 1)).length + 1) / 64 + 1) =
      (items ts s (maxLen ts + 1)).length + n)
    {x y : BitvectorSuffix} (hx : SfxMade cfg ls 0 s x) (hy : SfxMade cfg ls s ls.length y) :
    ∃ f, Filter.create cfg keys = .ok f ∧ f.dense.suffixes = x ∧ f.sparse.suffixes = y ∧
      (1 ≤ n → ∀ cfg' sw x' y', SfxRep cfg' x' (leafWords ts sw (items ts 0 s)) → SfxRep cfg' y' (leafWords ts sw (items ts s (maxLen ts + 1))) →
        FRep0 cfg' ts sw s (withSfx f x' y')) ∧
      f.sparse.labels.labels = (items ts s (maxLen ts + 1)).map lab ++ List.replicate n 0 := by
  have hlen := hr.len
  obtain ⟨c1, c2⟩ := cutoff_bounds0 h hss hr hratio hmem
  rw [← hsdef] at c1 c2
  obtain ⟨ds, e, hl, hds⟩ := buildDense_ok h hff hr c2 hnode
  obtain ⟨d, ed, hdx, hdr⟩ := dense_mk'_gen (hs.imp_right And.left) h hr c1 c2 (nodesR_bound c2 hnode) hl hds hx
  obtain ⟨t, et, hty, htr, hpad⟩ := sparse_mk'_any (hs.imp_right And.right) h hr (by omega) c2 (b1 := ds.map (·.labels))
    (b2 := ds.map (·.child)) (b3 := ds.map (·.prefixkey)) c1 hroom hy
  refine ⟨⟨d, t⟩, ?_, hdx, hty, ?_, hpad⟩
  · unfold Filter.create Builder.build
    have : keys.length > 0 := List.length_pos_of_ne_nil hk
    rw [assertR_ok (by simpa using this), ok_bind, hb, ok_bind, if_pos hd]
    dsimp only
    rw [← hsdef, e, ok_bind]
    rw [pure_bind, ed, ok_bind, et, ok_bind]
    rfl
  · intro hn1 cfg' sw x' y' hx' hy'
    exact ⟨h, c1, c2, nodesR_bound c2 hnode, hitem, hH, hdr _ _ _ hx', htr hn1 _ _ _ hy'⟩

/-- The same when the array has room. -/
theorem create_gen (hs : Env.strict = false) (hd : cfg.includeDense = true) (hratio : 1 ≤ cfg.ratio)
    (hmem : Builder.computeDenseMem (cfg.hashLen + cfg.realLen) ls (maxLen ts) * cfg.ratio < 18446744073709551616)
    (h : WF ts) (hff : ts ≠ [[256]])
    (hss : ss.map Prod.fst = ts) (hr : Rep0 (cfg.hashLen + cfg.realLen) (maxLen ts + 1) ls ts ss)
    (hnode : 256 * (nodesR ts 0 (maxLen ts + 1)).length < M32) (hitem : (items ts 0 (maxLen ts + 1)).length + 64 < M32)
    (hH : maxLen ts + 1 < M32) (hroom : ∀ s, 1 ≤ s → Spec.Room ((items ts s (maxLen ts + 1)).length + 1))
    {keys : List Key} (hk : keys ≠ []) (hb : Builder.buildSparse cfg keys = .ok ls) {s : Nat}
    (hsdef : s = Builder.determineCutoffLevel (cfg.hashLen + cfg.realLen) cfg.ratio ls)
    {x y : BitvectorSuffix} (hx : SfxMade cfg ls 0 s x) (hy : SfxMade cfg ls s ls.length y) :
    ∃ f, Filter.create cfg keys = .ok f ∧ f.dense.suffixes = x ∧ f.sparse.suffixes = y ∧
      (∀ cfg' sw x' y', SfxRep cfg' x' (leafWords ts sw (items ts 0 s)) → SfxRep cfg' y' (leafWords ts sw (items ts s (maxLen ts + 1))) →
        FRep0 cfg' ts sw s (withSfx f x' y')) ∧ PadOk f ts s := by
  obtain ⟨c1, c2⟩ := cutoff_bounds0 h hss hr hratio hmem
  rw [← hsdef] at c1 c2
  obtain ⟨n, hn, hn1, hn64⟩ := room_left (hroom s c1)
  obtain ⟨f, e, e1, e2, hrep, hl⟩ := create_any hd hratio hmem h hff hss hr hnode hitem hH hk hb (Or.inl hs) hsdef hn hx hy
  exact ⟨f, e, e1, e2, hrep hn1, n, hl, hn64⟩

theorem create_of_rep (hs : Env.strict = false) (hc : cfg.Ok) (hd : cfg.includeDense = true) (hratio : 1 ≤ cfg.ratio ∧ cfg.ratio < 2 ^ 28)
    (h : WF ts) (hff : ts ≠ [[256]])
    (hss : ss.map Prod.fst = ts) (hr : Rep0 (cfg.hashLen + cfg.realLen) (maxLen ts + 1) ls ts ss)
    (hfit : ∀ x ∈ ss, Fits (cfg.hashLen + cfg.realLen) x.2) (hsz : Sizes cfg ts)
    {keys : List Key} (hk : keys ≠ []) (hb : Builder.buildSparse cfg keys = .ok ls) :
    ∃ f s, Filter.create cfg keys = .ok f ∧ FRep0 cfg ts (swOf ss) s f ∧ PadOk f ts s := by
  have hlen := hr.len
  obtain ⟨c1, c2⟩ := cutoff_bounds h hss hr hratio.1 hratio.2 hsz.node hsz.sfx.le hsz.len
  obtain ⟨x, hx, hx'⟩ := sfxMade_ok hs hc h hss hr hfit 0 (Builder.determineCutoffLevel (cfg.hashLen + cfg.realLen) cfg.ratio ls)
    (lt_of_le_of_lt (Nat.mul_le_mul_left _ (leafWords_le h _ _ _)) hsz.sfx) c1 (by omega)
  obtain ⟨y, hy, hy'⟩ := sfxMade_ok hs hc h hss hr hfit (Builder.determineCutoffLevel (cfg.hashLen + cfg.realLen) cfg.ratio ls) ls.length
    (lt_of_le_of_lt (Nat.mul_le_mul_left _ (leafWords_le h _ _ _)) hsz.sfx) (by omega) le_rfl
  rw [hlen] at hy'
  obtain ⟨f, e, rfl, rfl, hf, hp⟩ := create_gen hs hd hratio.1
    (by
      have e6 := denseMem_lt h hss hr hsz.node hsz.sfx.le hsz.len le_rfl
      have e7 : Builder.computeDenseMem (cfg.hashLen + cfg.realLen) ls (maxLen ts) * cfg.ratio < 2 ^ 36 * 2 ^ 28 := Nat.mul_lt_mul'' e6 hratio.2
      omega) h hff hss hr hsz.node hsz.item hsz.len hsz.room hk hb rfl hx hy
  exact ⟨f, _, e, hf _ _ _ _ hx' hy', hp⟩

end

/-! ## Key lists -/

theorem mem_leafStrs {keys : List Key} {t : Str} (h : t ∈ leafStrs keys) :
    ∃ k ∈ keys, (k, t) ∈ leaves 0 (uniq keys) ∧ t <+: w k := by
  obtain ⟨⟨k, t'⟩, h1, rfl⟩ := List.mem_map.1 h
  have : k ∈ uniq keys := by
    rw [← leaves_fst 0 (uniq keys)]
    exact List.mem_map.2 ⟨_, h1, rfl⟩
  exact ⟨k, mem_uniq.1 this, h1, (leaves_prefix h1).1⟩

theorem leaf_of_key {keys : List Key} {k : Key} (h : k ∈ keys) : ∃ t, (k, t) ∈ leaves 0 (uniq keys) ∧ t ∈ leafStrs keys := by
  have : k ∈ uniq keys := mem_uniq.2 h
  rw [← leaves_fst 0 (uniq keys)] at this
  obtain ⟨⟨a, t⟩, h1, rfl⟩ := List.mem_map.1 this
  exact ⟨t, h1, List.mem_map.2 ⟨_, h1, rfl⟩⟩

theorem syms_inj {a b : Key} (h : syms a = syms b) : a = b := by
  apply w_inj
  rw [w_eq, w_eq, h]

theorem syms_prefix {a b : Key} : syms a <+: syms b ↔ a <+: b := by
  constructor
  · intro h
    have h1 : syms a = (syms b).take a.length := by
      have := List.prefix_iff_eq_take.1 h
      rwa [syms_length] at this
    rw [← syms_take] at h1
    rw [syms_inj h1]
    exact List.take_prefix _ _
  · rintro ⟨c, rfl⟩
    rw [syms_append]
    exact List.prefix_append _ _

/-- A prefix of `w k` without terminator is a prefix of `k`. -/
theorem prefix_w {x : Str} {k : Key} (h : x <+: w k) (h0 : 0 ∉ x) : ∃ p, x = syms p ∧ p <+: k := by
  rw [w_eq] at h
  rcases List.prefix_concat_iff.1 h with h | h
  · exact absurd (by rw [h]; simp) h0
  · have h1 := List.prefix_iff_eq_take.1 h
    rw [← syms_take] at h1
    exact ⟨_, h1, List.take_prefix _ _⟩

theorem syms_prefix_w {p k : Key} : syms p <+: w k ↔ p <+: k := by
  constructor
  · intro h
    obtain ⟨q, e, hq⟩ := prefix_w h (by simp [syms])
    rwa [syms_inj e]
  · intro h
    rw [w_eq]
    exact (syms_prefix.2 h).trans (List.prefix_append _ _)

theorem int_prefix {x t : Str} (hp : x <+: t) (hne : x ≠ t) : x <+: t.dropLast := by
  obtain ⟨c, rfl⟩ := hp
  have : c ≠ [] := by rintro rfl; simp at hne
  rw [List.dropLast_append_of_ne_nil this]
  exact List.prefix_append _ _

/-- Internal nodes are shared prefixes. -/
theorem node_shared {keys : List Key} (hwf : WF (leafStrs keys)) (hs : (uniq keys).Pairwise (· < ·)) {x : Str}
    (h : isInt (leafStrs keys) x = true) (hx : x ≠ []) : ∃ p, x = syms p ∧ Spec.Shared keys p := by
  obtain ⟨t, ht, hp, hne⟩ := isInt_iff.1 h
  have hpd := int_prefix hp hne
  obtain ⟨k, hk, hl, htw⟩ := mem_leafStrs ht
  have h0 : 0 ∉ x := fun h => hwf.term t ht (hpd.subset h)
  obtain ⟨p, rfl, hpk⟩ := prefix_w (hp.trans htw) h0
  refine ⟨p, rfl, ?_⟩
  have h2 : 2 ≤ t.length := by
    have := hpd.length_le
    have : (syms p).length ≠ 0 := fun h => hx (List.length_eq_zero_iff.1 h)
    rw [List.length_dropLast] at *
    omega
  obtain ⟨t', ht', hne', hp'⟩ := hwf.sib t ht h2
  obtain ⟨k', hk', hl', htw'⟩ := mem_leafStrs ht'
  refine ⟨k, hk, k', hk', ?_, hpk, syms_prefix_w.1 ((hpd.trans hp').trans htw')⟩
  rintro rfl
  rcases List.prefix_or_prefix_of_prefix htw htw' with h | h
  · exact hne' (hwf.pf t ht t' ht' h).symm
  · exact hne' (hwf.pf t' ht' t ht h)

theorem mem_sharedPrefixes {keys : List Key} {p : Key} : p ∈ Spec.sharedPrefixes keys ↔ Spec.Shared keys p := by
  unfold Spec.sharedPrefixes
  rw [List.mem_filter]
  simp only [List.mem_dedup, List.mem_flatMap, List.mem_inits, decide_eq_true_eq, and_iff_right_iff_imp]
  rintro ⟨k, hk, -, -, -, h, -⟩
  exact ⟨k, hk, h⟩

/-- Shared prefixes are internal nodes. -/
theorem shared_int {keys : List Key} (hs : (uniq keys).Pairwise (· < ·)) {p : Key} (h : Spec.Shared keys p) :
    isInt (leafStrs keys) (syms p) = true := by
  obtain ⟨k, hk, k', hk', hne, hp, hp'⟩ := h
  obtain ⟨t, ht, htm⟩ := leaf_of_key hk
  have htp := (leaves_prefix ht).1
  have : ¬ t <+: syms p := fun hc =>
    hne (leaf_unique hs ht (mem_uniq.2 hk') (hc.trans (syms_prefix_w.2 hp'))).symm
  rcases List.prefix_or_prefix_of_prefix htp (syms_prefix_w.2 hp) with h | h
  · exact absurd h this
  · exact isInt_iff.2 ⟨t, htm, h, fun hc => this (by rw [hc])⟩

/-- Symbol of a branch. -/
def symO : Option UInt8 → Nat
  | none => 0
  | some b => b.toNat + 1

theorem symO_inj {a b : Option UInt8} (h : symO a = symO b) : a = b := by
  cases a <;> cases b <;> simp [symO] at h
  · rfl
  · rw [UInt8.toNat_inj.1 h]

theorem snoc_prefix_w {p k : Key} {c : Nat} : syms p ++ [c] <+: w k ↔ p <+: k ∧ c = symO k[p.length]? := by
  constructor
  · intro h
    have h1 := syms_prefix_w.1 ((List.prefix_append _ _).trans h)
    refine ⟨h1, ?_⟩
    obtain ⟨r, rfl⟩ := h1
    rw [w_append, List.prefix_append_right_inj] at h
    cases r with
    | nil => simpa [symO] using h
    | cons a r =>
      rw [w_cons] at h
      have := (List.cons_prefix_cons.1 h).1
      simp [symO, this]
  · rintro ⟨⟨r, rfl⟩, rfl⟩
    rw [w_append, List.prefix_append_right_inj]
    cases r with
    | nil => simp [symO]
    | cons a r => simp [symO]

/-- The items of the levels from `l ≥ 1` on correspond to the branches. -/
theorem items_branches_perm {keys : List Key} (hwf : WF (leafStrs keys)) (hs : (uniq keys).Pairwise (· < ·)) {l : Nat} (hl : 1 ≤ l) :
    (items (leafStrs keys) l (maxLen (leafStrs keys) + 1)).Perm
      ((Spec.branches keys l).map fun x : Key × Option UInt8 => syms x.1 ++ [symO x.2]) := by
  rw [List.perm_ext_iff_of_nodup (items_nodup hwf.sorted _ _)]
  · intro y
    simp only [mem_items, List.mem_map, Spec.branches, List.mem_dedup, List.mem_flatMap, List.mem_filter, List.mem_inits,
      decide_eq_true_eq]
    constructor
    · rintro ⟨h1, h2, t, ht, hp⟩
      have hy : y ≠ [] := by rintro rfl; simp at h1
      have hint : isInt (leafStrs keys) y.dropLast = true := by
        refine isInt_iff.2 ⟨t, ht, (List.dropLast_prefix y).trans hp, ?_⟩
        intro hc
        have := hp.length_le
        rw [← hc, List.length_dropLast] at this
        have := List.length_pos_of_ne_nil hy
        omega
      obtain ⟨p, hp1, hp2⟩ := node_shared hwf hs hint (by
        intro hc
        have := congrArg List.length hc
        simp at this; omega)
      have hyp := List.dropLast_append_getLast hy
      rw [hp1] at hyp
      obtain ⟨k, hk, -, htw⟩ := mem_leafStrs ht
      rw [← hyp] at hp
      obtain ⟨q1, q2⟩ := snoc_prefix_w.1 (hp.trans htw)
      refine ⟨(p, k[p.length]?), ⟨k, hk, p, ⟨q1, ?_, hp2⟩, rfl⟩, ?_⟩
      · rw [← hyp] at h1
        simp at h1; omega
      · dsimp only
        rw [← q2, hyp]
    · rintro ⟨⟨p, o⟩, ⟨k, hk, q, ⟨h1, h2, h3⟩, e⟩, rfl⟩
      simp only [Prod.mk.injEq] at e
      obtain ⟨rfl, rfl⟩ := e
      dsimp only
      have hint := shared_int hs h3
      obtain ⟨t, ht, htm⟩ := leaf_of_key hk
      have htp := (leaves_prefix ht).1
      have hpre : syms q ++ [symO k[q.length]?] <+: t := by
        rcases List.prefix_or_prefix_of_prefix htp (snoc_prefix_w.2 ⟨h1, rfl⟩) with h | h
        · rcases List.prefix_concat_iff.1 h with h | h
          · rw [h]
          · exfalso
            obtain ⟨t', ht', hp', hne'⟩ := isInt_iff.1 hint
            have := hwf.pf t htm t' ht' (h.trans hp')
            subst this
            exact hne' (hp'.eq_of_length_le h.length_le)
        · exact h
      have := hpre.length_le
      have := le_maxLen htm
      refine ⟨?_, by omega, t, htm, hpre⟩
      simp; omega
  · refine (List.nodup_dedup _).map ?_
    rintro ⟨p, o⟩ ⟨q, o'⟩ h
    dsimp only at h
    have h1 := List.append_inj' h rfl
    rw [syms_inj h1.1, symO_inj (List.cons.inj h1.2).1]

theorem items_branches {keys : List Key} (hwf : WF (leafStrs keys)) (hs : (uniq keys).Pairwise (· < ·)) {l : Nat} (hl : 1 ≤ l) :
    (items (leafStrs keys) l (maxLen (leafStrs keys) + 1)).length = (Spec.branches keys l).length := by
  rw [(items_branches_perm hwf hs hl).length_eq, List.length_map]

theorem maxLen_leafStrs {keys : List Key} {n : Nat} (h : ∀ k ∈ keys, k.length + 1 ≤ n) : maxLen (leafStrs keys) ≤ n := by
  apply maxLen_le
  intro t ht
  obtain ⟨k, hk, -, hp⟩ := mem_leafStrs ht
  have := hp.length_le
  rw [w_length] at this
  have := h k hk
  omega

theorem leafStrs_length (keys : List Key) : (leafStrs keys).length ≤ keys.length := by
  have h1 : (leafStrs keys).length = (uniq keys).length := by
    have := congrArg List.length (leaves_fst 0 (uniq keys))
    simpa [leafStrs, truncs] using this
  have := uniq_length keys
  omega

theorem nodes_le {keys : List Key} (hwf : WF (leafStrs keys)) (hs : (uniq keys).Pairwise (· < ·)) (a b : Nat) :
    (nodesR (leafStrs keys) a b).length ≤ (Spec.sharedPrefixes keys).length + 1 := by
  have h1 : (nodesR (leafStrs keys) a b).length ≤ ([] :: (Spec.sharedPrefixes keys).map syms).length := by
    apply ((nodesR_nodup hwf.sorted a b).subperm ?_).length_le
    intro x hx
    by_cases h0 : x = []
    · simp [h0]
    · obtain ⟨p, rfl, hp⟩ := node_shared hwf hs (mem_nodesR.1 hx).2.2 h0
      exact List.mem_cons_of_mem _ (List.mem_map_of_mem (mem_sharedPrefixes.2 hp))
  simpa using h1

theorem items_le {ts : List Str} (hwf : WF ts) (a b : Nat) :
    (items ts a b).length ≤ (nodesR ts (a + 1) (b + 1)).length + ts.length := by
  rw [← filter_items]
  have h1 := List.length_eq_length_filter_add (l := items ts a b) (isInt ts)
  have h2 : ((items ts a b).filter fun p => !isInt ts p).length ≤ ts.length := by
    apply (((items_nodup hwf.sorted a b).filter _).subperm ?_).length_le
    intro p hp
    simp only [List.mem_filter, mem_items, Bool.not_eq_eq_eq_not, Bool.not_true] at hp
    exact (hwf.leaf_iff hp.1.2.2).1 hp.2
  omega

theorem keysOk {keys : List Key} (hv : Spec.Valid keys) {n : Nat} (hf : Spec.Small n keys) : KeysOk keys :=
  ⟨hv.ne, hv.sorted, hv.nonempty, hf.num, fun k hk => by have := hf.len k hk; rw [M32_eq]; omega⟩

theorem sizes0_ok {cfg : Config} {keys : List Key} (hv : Spec.Valid keys)
    (hf : Spec.Small (cfg.hashLen + cfg.realLen) keys) : Sizes0 cfg (leafStrs keys) := by
  have hk := keysOk hv hf
  have hwf := leafStrs_wf hk
  have hu := uniq_sorted hk.sorted
  have hl := leafStrs_length keys
  refine ⟨?_, ?_, ?_, ?_⟩
  · have := nodes_le hwf hu 0 (maxLen (leafStrs keys) + 1)
    have := hf.node
    rw [M32_eq]; omega
  · have h1 := items_le hwf 0 (maxLen (leafStrs keys) + 1)
    have h2 := nodes_le hwf hu 0 (maxLen (leafStrs keys) + 1 + 1)
    rw [nodesR_split _ (Nat.zero_le 1) (by omega), List.length_append, nodesR_one, hwf.nodes_zero] at h2
    have := hf.item
    simp only [List.length_cons, List.length_nil] at h2
    rw [Nat.zero_add] at h1
    rw [M32_eq]; omega
  · have := hf.sfx
    rw [M32_eq]
    exact lt_of_le_of_lt (Nat.mul_le_mul_left _ hl) (by simpa using this)
  · have : maxLen (leafStrs keys) ≤ 2 ^ 32 - 2 := maxLen_leafStrs fun k hk => by have := hf.len k hk; omega
    rw [M32_eq]; omega

theorem items_half {n : Nat} {keys : List Key} (hv : Spec.Valid keys) (hf : Spec.Small n keys) :
    (items (leafStrs keys) 0 (maxLen (leafStrs keys) + 1)).length ≤ (Spec.sharedPrefixes keys).length + keys.length := by
  have hk := keysOk hv hf
  have hwf := leafStrs_wf hk
  have hu := uniq_sorted hk.sorted
  have hl := leafStrs_length keys
  have h1 := items_le hwf 0 (maxLen (leafStrs keys) + 1)
  have h2 := nodes_le hwf hu 0 (maxLen (leafStrs keys) + 1 + 1)
  rw [nodesR_split _ (Nat.zero_le 1) (by omega), List.length_append, nodesR_one, hwf.nodes_zero] at h2
  simp only [List.length_cons, List.length_nil] at h2
  rw [Nat.zero_add] at h1
  omega

theorem sizes_ok {cfg : Config} {keys : List Key} (hv : Spec.Valid keys)
    (hf : Spec.Fits0 (cfg.hashLen + cfg.realLen) keys) : Sizes cfg (leafStrs keys) := by
  have hk := keysOk hv hf.toSmall
  exact ⟨sizes0_ok hv hf.toSmall, fun s hs => by
    rw [items_branches (leafStrs_wf hk) (uniq_sorted hk.sorted) hs]; exact hf.room s hs⟩

theorem sfxs_fst [Env] (cfg : Config) (keys : List Key) : (sfxs cfg (leaves 0 (uniq keys))).map Prod.fst = leafStrs keys := by
  simp [sfxs, leafStrs, truncs]

theorem sfxs_fits [Env] {cfg : Config} (hs : Env.strict = false ∨ cfg.suffixType = .kReal) (hc : cfg.Ok) {lvs : List (Key × Str)} :
    ∀ x ∈ sfxs cfg lvs, Fits (cfg.hashLen + cfg.realLen) x.2 := by
  intro x hx
  obtain ⟨y, -, rfl⟩ := List.mem_map.1 hx
  obtain ⟨w, e, h⟩ := constructSuffix_ok hs hc y.1 y.2.length
  show Fits _ (sfxOf cfg y.1 y.2.length)
  unfold sfxOf
  rw [e]
  exact h

/-- The word stored with a leaf string. -/
def swKeys [Env] (cfg : Config) (keys : List Key) : Str → Word := swOf (sfxs cfg (leaves 0 (uniq keys)))


/-! ## The one-key list starting with 0xFF

Its only leaf string `[256]` has the label byte of the terminator; the code treats it as the terminator, so
the filter that is built represents the leaf string `[0]`. -/

theorem lev_one (c l : Nat) : lev [[c]] (l + 1) = if l = 0 then [[c]] else [] := by
  unfold lev
  simp only [List.foldl_cons, List.foldl_nil, List.length_cons, List.length_nil]
  by_cases h : l = 0
  · subst h; simp [pushNew]
  · rw [if_neg (by omega), if_neg h]

theorem isInt_one (c : Nat) : isInt [[c]] [c] = false := by simp [isInt]

theorem wf_term : WF [[0]] := by
  refine ⟨by simp, by simp, by simp, ?_, by simp, by simp, ?_⟩
  · intro t ht t' ht' _
    simp at ht ht'
    rw [ht, ht']
  · intro t ht h; simp at ht; subst ht; simp at h

theorem rep_ff {L : Nat} {ls : List Level} {x : Word} (hr : Rep0 L 2 ls [[256]] [([256], x)]) :
    Rep0 L 2 ls [[0]] [([0], x)] := by
  refine ⟨hr.len, fun l lv hl => ?_⟩
  have h := hr.lvl l lv hl
  have hw : wordsAt [([256], x)] l = wordsAt [([0], x)] l := by simp [wordsAt, List.filter_cons]; split <;> rfl
  rw [lev_one, hw] at h
  rw [lev_one]
  by_cases h0 : l = 0
  · rw [if_pos h0] at h ⊢
    refine ⟨h.labels.trans (by decide), ?_, h.childLen, ?_, h.loudsLen, h.node.trans (by decide), h.sfx, h.sfxCount⟩
    · have := h.child; rwa [List.map_cons, isInt_one, List.map_nil] at this ⊢
    · have := h.louds; exact this
  · rw [if_neg h0] at h ⊢
    exact ⟨h.labels, h.child, h.childLen, h.louds, h.loudsLen, h.node, h.sfx, h.sfxCount⟩

theorem leafStrs_ff {keys : List Key} (hne : keys ≠ []) (hne' : ∀ k ∈ keys, k ≠ []) :
    leafStrs keys = [[256]] ↔ Spec.SingleFF keys := by
  constructor
  · intro h
    have hl := congrArg List.length h
    have h1 := congrArg List.length (leaves_fst 0 (uniq keys))
    simp only [leafStrs, truncs, List.length_map, List.length_cons, List.length_nil] at hl h1
    rw [hl] at h1
    obtain ⟨k, hk⟩ := List.length_eq_one_iff.1 h1.symm
    refine ⟨k, fun x hx => ?_, ?_⟩
    · have := mem_uniq.2 hx; rw [hk] at this; simpa using this
    · unfold leafStrs truncs at h
      rw [hk] at h
      cases k with
      | nil => exact absurd rfl (hne' [] (mem_uniq.1 (by rw [hk]; simp)))
      | cons a k =>
        simp [leaves, nextLcp] at h
        have : a.toNat = 255 := by simpa [w] using h
        simp only [List.head?_cons, Option.some.injEq]
        exact UInt8.toNat_inj.1 this
  · rintro ⟨k, h1, h2⟩
    have hk : k ∈ keys := by
      cases hks : keys with
      | nil => exact absurd hks hne
      | cons a r => rw [h1 a (by simp [hks])]; simp
    have : uniq keys = [k] := by
      cases hks : keys with
      | nil => exact absurd hks hne
      | cons a r =>
        rw [uniq]
        have ha := h1 a (by simp [hks])
        subst ha
        have : Builder.dropSame a r = [] := by
          have hr : ∀ x ∈ r, x = a := fun x hx => h1 x (by simp [hks, hx])
          clear hks
          induction r with
          | nil => rfl
          | cons b r ih =>
            have := hr b (by simp)
            subst this
            unfold Builder.dropSame
            simp only [if_pos]
            exact ih fun x hx => hr x (by simp [hx])
        rw [this, uniq]
    unfold leafStrs truncs
    rw [this]
    cases k with
    | nil => simp at h2
    | cons a k =>
      simp only [List.head?_cons, Option.some.injEq] at h2
      subst h2
      simp [leaves, nextLcp, w]

/-! ## Construction succeeds -/

theorem sfxs_level [Env] (cfg : Config) (keys : List Key) (l : Nat) :
    (wordsAt (sfxs cfg (leaves 0 (uniq keys))) l).length ≤ keys.length := by
  unfold wordsAt
  rw [List.length_map]
  refine le_trans (List.length_filter_le _ _) ?_
  unfold sfxs
  rw [List.length_map]
  have := congrArg List.length (leaves_fst 0 (uniq keys))
  rw [List.length_map] at this
  rw [this]
  exact uniq_length keys

theorem small_level [Env] {cfg : Config} {keys : List Key} (hf : Spec.Small (cfg.hashLen + cfg.realLen) keys) (l : Nat) :
    (cfg.hashLen + cfg.realLen) * (wordsAt (sfxs cfg (leaves 0 (uniq keys))) l).length ≤ M32 := by
  have h1 := Nat.mul_le_mul_left (cfg.hashLen + cfg.realLen) (sfxs_level cfg keys l)
  have := hf.sfx
  rw [M32_eq]
  omega

section
variable [Env]

/-- Construction succeeds and yields a filter that represents the trie of the keys. -/
theorem create_ok0 (hs : Env.strict = false) {cfg : Config} (hc : cfg.Ok) (hd : cfg.includeDense = true)
    (hratio : 1 ≤ cfg.ratio ∧ cfg.ratio < 2 ^ 28) {keys : List Key} (hv : Spec.Valid keys)
    (hf : Spec.Fits0 (cfg.hashLen + cfg.realLen) keys) (hff : ¬ Spec.SingleFF keys) :
    ∃ f s, Filter.create cfg keys = .ok f ∧ FRep0 cfg (leafStrs keys) (swKeys cfg keys) s f ∧
      PadOk f (leafStrs keys) s := by
  have hk := keysOk hv hf.toSmall
  obtain ⟨ls, e, hr⟩ := buildSparse_ok (Or.inl hs) hc hk (small_level hf.toSmall)
  exact create_of_rep hs hc hd hratio (leafStrs_wf hk) (fun h => hff ((leafStrs_ff hv.ne hv.nonempty).1 h))
    (sfxs_fst cfg keys) hr.weak (sfxs_fits (Or.inl hs) hc) (sizes_ok hv hf) hv.ne e

/-- The same with label positions below `2^31`. -/
theorem create_ok (hs : Env.strict = false) {cfg : Config} (hc : cfg.Ok) (hd : cfg.includeDense = true)
    (hratio : 1 ≤ cfg.ratio ∧ cfg.ratio < 2 ^ 28) {keys : List Key} (hv : Spec.Valid keys)
    (hf : Spec.Fits (cfg.hashLen + cfg.realLen) keys) (hff : ¬ Spec.SingleFF keys) :
    ∃ f s, Filter.create cfg keys = .ok f ∧ FRep cfg (leafStrs keys) (swKeys cfg keys) s f ∧
      PadOk f (leafStrs keys) s := by
  obtain ⟨f, s, e, hr, hp⟩ := create_ok0 hs hc hd hratio hv hf.toFits0 hff
  exact ⟨f, s, e, ⟨hr, by have := items_half hv hf.toSmall; have := hf.half; omega⟩, hp⟩

/-- For a single key starting with 0xFF the filter represents the trie of the terminator alone. -/
theorem create_ff (hs : Env.strict = false) {cfg : Config} (hc : cfg.Ok) (hd : cfg.includeDense = true)
    (hratio : 1 ≤ cfg.ratio ∧ cfg.ratio < 2 ^ 28) {keys : List Key} (hv : Spec.Valid keys)
    (hf : Spec.Fits0 (cfg.hashLen + cfg.realLen) keys) (hff : Spec.SingleFF keys) :
    ∃ f s sw, Filter.create cfg keys = .ok f ∧ FRep cfg [[0]] sw s f ∧ PadOk f [[0]] s := by
  have hk := keysOk hv hf.toSmall
  obtain ⟨ls, e, hr⟩ := buildSparse_ok (Or.inl hs) hc hk (small_level hf.toSmall)
  have h256 := (leafStrs_ff hv.ne hv.nonempty).2 hff
  have hss := sfxs_fst cfg keys
  have hfit := sfxs_fits (Or.inl hs) hc (lvs := leaves 0 (uniq keys))
  have hsz := sizes_ok hv hf
  obtain ⟨x, hx⟩ : ∃ x, sfxs cfg (leaves 0 (uniq keys)) = [([256], x)] := by
    rw [h256] at hss
    cases hq : sfxs cfg (leaves 0 (uniq keys)) with
    | nil => rw [hq] at hss; simp at hss
    | cons a r =>
      rw [hq] at hss
      obtain ⟨a1, a2⟩ := a
      cases r with
      | nil => simp at hss; subst hss; exact ⟨a2, rfl⟩
      | cons b r => simp at hss
  have hr' := hr.weak
  rw [h256, hx] at hr'
  rw [hx] at hfit
  rw [h256] at hsz
  have e1 : items [[256]] 0 (maxLen [[256]] + 1) = [[256]] := by decide
  have e2 : items [[0]] 0 (maxLen [[0]] + 1) = [[0]] := by decide
  have hroom : ∀ s, 1 ≤ s → Spec.Room ((items [[0]] s (maxLen [[0]] + 1)).length + 1) := by
    intro s hs
    have : items [[0]] s (maxLen [[0]] + 1) = [] := by
      rw [List.eq_nil_iff_forall_not_mem]
      intro p hp
      obtain ⟨g1, -, t, ht, g3⟩ := mem_items.1 hp
      have := g3.length_le
      simp at ht
      subst ht
      simp at this; omega
    rw [this]
    exact Or.inl (by simp)
  obtain ⟨f, s, h1, h2⟩ := create_of_rep hs hc hd hratio wf_term (by decide) (ss := [([0], x)]) rfl (rep_ff hr')
    (fun y hy => hfit ([256], x) (by simp) |> fun h => by simp at hy; subst hy; exact h)
    ⟨⟨by decide, by decide, hsz.sfx, by decide⟩, hroom⟩ hv.ne e
  exact ⟨f, s, _, h1, ⟨h2.1, by decide⟩, h2.2⟩

end

end Surf
