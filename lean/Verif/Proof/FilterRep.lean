import Verif.Spec
import Verif.Model.Surf
import Verif.Proof.DenseBuild
import Verif.Proof.ConcatStrict

/-! # The built filter represents the trie -/

set_option linter.unusedSectionVars false
set_option autoImplicit false

namespace Surf
open Trie

/-- Suffix word of every leaf. -/
def swOf (ss : List (Str × Word)) (t : Str) : Word := (ss.lookup t).getD 0

/-- The suffix words of the leaves among the items `ps`, in order. -/
def leafWords (ts : List Str) (sw : Str → Word) (ps : List Str) : List Word :=
  (ps.filter fun p => !isInt ts p).map sw

/-- LOUDS bits of a list of nodes. -/
def loudsOf (ts : List Str) (xs : List Str) : List Bool := xs.flatMap fun x => blk (kidItems ts x).length

/-- A suffix vector that holds `ws`. -/
structure SfxRep (cfg : Config) (b : BitvectorSuffix) (ws : List Word) : Prop where
  type : b.type = cfg.suffixType
  none : cfg.suffixType = .kNone → b = BitvectorSuffix.empty
  some : cfg.suffixType ≠ .kNone → b.hashLen = cfg.hashLen ∧ b.realLen = cfg.realLen ∧ b.Rep ws

/-- LoudsDense represents the levels `0 .. s-1` of the trie. -/
structure DRep (cfg : Config) (ts : List Str) (sw : Str → Word) (s : Nat) (d : LoudsDense) : Prop where
  height : d.height = s
  lab : d.labelBitmaps.Rep (labelBits ts (nodesR ts 0 s))
  chl : d.childBitmaps.Rep (childBits ts (nodesR ts 0 s))
  pre : d.prefixBits.Rep (prefBits ts (nodesR ts 0 s))
  sfx : SfxRep cfg d.suffixes (leafWords ts sw (items ts 0 s))
  cuts : d.levelCuts = levelCutsFrom 0 ((List.range s).map fun l => 256 * (nodes ts l).length)
  blkL : d.labelBitmaps.basicBlockSize = 512
  blkC : d.childBitmaps.basicBlockSize = 512
  blkP : d.prefixBits.basicBlockSize = 512

/-- LoudsSparse represents the levels `s .. H-1` of the trie. -/
structure SRep (cfg : Config) (ts : List Str) (sw : Str → Word) (s H : Nat) (t : LoudsSparse) : Prop where
  height : t.height = H
  start : t.startLevel = s
  ncd : t.nodeCountDense = (nodesR ts 0 s).length
  ccd : t.childCountDense = (nodesR ts 1 (s + 1)).length
  labels : ∃ rest, t.labels.labels = (items ts s H).map lab ++ 0 :: rest
  labN : t.labels.numBytes = (items ts s H).length + 1
  chl : t.childBits.Rep ((items ts s H).map (isInt ts))
  louds : t.loudsBits.Rep (loudsOf ts (nodesR ts s H))
  sfx : SfxRep cfg t.suffixes (leafWords ts sw (items ts s H))
  cuts : t.levelCuts = List.replicate s 0 ++
    levelCutsFrom 0 ((List.range' s (H - s)).map fun l => (lev ts (l + 1)).length)
  blkC : t.childBits.basicBlockSize = 512
  si : t.loudsBits.sampleInterval = 64

/-- A whole filter. -/
structure FRep0 (cfg : Config) (ts : List Str) (sw : Str → Word) (s : Nat) (f : Filter) : Prop where
  wf : WF ts
  s1 : 1 ≤ s
  sH : s ≤ maxLen ts
  d32 : 256 * (nodesR ts 0 s).length < M32
  i32 : (items ts 0 (maxLen ts + 1)).length + 64 < M32
  h32 : maxLen ts + 1 < M32
  dense : DRep cfg ts sw s f.dense
  sparse : SRep cfg ts sw s (maxLen ts + 1) f.sparse

/-- The same for a filter whose labels can be searched: the sum of two label positions fits 32 bits. -/
structure FRep (cfg : Config) (ts : List Str) (sw : Str → Word) (s : Nat) (f : Filter) : Prop extends FRep0 cfg ts sw s f where
  half : (items ts 0 (maxLen ts + 1)).length + 64 ≤ 2147483648

/-! ## Suffix words per level -/

theorem labelBits_len (ts : List Str) (X : List Str) : (labelBits ts X).length = 256 * X.length := by
  induction X with
  | nil => rfl
  | cons x X ih => simp only [labelBits, List.flatMap_cons, List.length_append, List.length_map, List.length_range, List.length_cons] at *; omega

theorem childBits_len (ts : List Str) (X : List Str) : (childBits ts X).length = 256 * X.length := by
  induction X with
  | nil => rfl
  | cons x X ih => simp only [childBits, List.flatMap_cons, List.length_append, List.length_map, List.length_range, List.length_cons] at *; omega

theorem leafWords_append (ts : List Str) (sw : Str → Word) (a b : List Str) :
    leafWords ts sw (a ++ b) = leafWords ts sw a ++ leafWords ts sw b := by
  simp [leafWords]

theorem lookup_of_mem {ss : List (Str × Word)} (hnd : (ss.map Prod.fst).Nodup) {t : Str} {x : Word} (h : (t, x) ∈ ss) :
    ss.lookup t = some x := by
  induction ss with
  | nil => simp at h
  | cons a ss ih =>
    obtain ⟨t', x'⟩ := a
    simp only [List.map_cons, List.nodup_cons] at hnd
    rw [List.lookup_cons]
    rcases List.mem_cons.1 h with h' | h'
    · simp only [Prod.mk.injEq] at h'
      obtain ⟨rfl, rfl⟩ := h'
      simp
    · have : t ≠ t' := by
        rintro rfl
        exact hnd.1 (List.mem_map.2 ⟨(t, x), h', rfl⟩)
      have h2 : (t == t') = false := by simpa using this
      rw [h2]
      exact ih hnd.2 h'

theorem wordsAt_eq {ts : List Str} (h : WF ts) {ss : List (Str × Word)} (hss : ss.map Prod.fst = ts) (l : Nat) :
    wordsAt ss l = leafWords ts (swOf ss) (lev ts (l + 1)) := by
  have hnd : (ss.map Prod.fst).Nodup := by rw [hss]; exact h.sorted.imp (fun h => ne_of_lt h)
  have h1 : ((lev ts (l + 1)).filter fun p => !isInt ts p) = ts.filter fun t => t.length = l + 1 := by
    apply sorted_ext ((lev_sorted h.sorted _).filter _) (h.sorted.filter _)
    intro p
    simp only [List.mem_filter, mem_lev, Bool.not_eq_eq_eq_not, Bool.not_true, decide_eq_true_eq]
    constructor
    · rintro ⟨⟨a, b⟩, c⟩; exact ⟨(h.leaf_iff b).1 c, a⟩
    · rintro ⟨a, b⟩; exact ⟨⟨b, p, a, List.prefix_refl _⟩, h.isInt_leaf a⟩
  unfold wordsAt leafWords
  rw [h1, ← hss, List.filter_map, List.map_map]
  apply List.map_congr_left
  rintro ⟨t, x⟩ hx
  have := lookup_of_mem hnd (List.mem_filter.1 hx).1
  simp [swOf, this]

/-! ## Generic monad lemmas -/

theorem mapM_ok {α β : Type} {f : α → R β} {g : α → β} {l : List α} (h : ∀ x ∈ l, f x = .ok (g x)) :
    l.mapM f = .ok (l.map g) := by
  induction l with
  | nil => rfl
  | cons a l ih =>
    rw [List.mapM_cons, h a (by simp), ok_bind, ih fun x hx => h x (by simp [hx]), ok_bind]
    rfl

theorem getR_ok {α : Type} {l : List α} {i : Nat} (h : i < l.length) : getR l i = .ok l[i] := by
  simp [getR, h]

theorem levelRange_ok {bv : List (List Word)} {nums : List Nat} {a b : Nat} (hb : 1 ≤ b) (h1 : b ≤ bv.length)
    (h2 : b ≤ nums.length) :
    levelRange bv nums a b = .ok ((List.range' a (b - a)).map fun l => (bv.getD l [], nums.getD l 0)) := by
  unfold levelRange
  rw [if_neg (by omega)]
  apply mapM_ok
  intro l hl
  rw [List.mem_range'_1] at hl
  rw [getR_ok (by omega), ok_bind, getR_ok (by omega), ok_bind]
  simp [List.getD, List.getElem?_eq_getElem (show l < bv.length by omega),
    List.getElem?_eq_getElem (show l < nums.length by omega)]

theorem forall₂_range {n : List Nat} {f : Nat → List Word × Nat} {g : Nat → List Bool}
    (h : ∀ l ∈ n, LevelBits (f l) (g l)) : List.Forall₂ LevelBits (n.map f) (n.map g) := by
  induction n with
  | nil => exact .nil
  | cons a n ih => exact .cons (h a (by simp)) (ih fun l hl => h l (by simp [hl]))

theorem flatten_map_flatMap {α β : Type} (n : List Nat) (f : Nat → List α) (g : α → List β) :
    (n.map fun l => (f l).flatMap g).flatten = (n.flatMap f).flatMap g := by
  induction n with
  | nil => rfl
  | cons a n ih => simp [ih]

variable [Env]

/-! ## The suffix vectors -/

theorem suffix_mk'_ok {cfg : Config} (hc : cfg.Ok) (hn : cfg.suffixType ≠ .kNone)
    {lvs : List (List Word × Nat)} (hs : Env.strict = false ∨ InsideN (lvs.map (·.2))) {wss : List (List Word)}
    (h : List.Forall₂ LevelBits lvs (wss.map (packBits (cfg.hashLen + cfg.realLen))))
    (hfit : ∀ w ∈ wss.flatten, Fits (cfg.hashLen + cfg.realLen) w)
    (h32 : (cfg.hashLen + cfg.realLen) * wss.flatten.length < M32) :
    ∃ b, BitvectorSuffix.mk' cfg.suffixType cfg.hashLen cfg.realLen lvs = .ok b ∧ SfxRep cfg b wss.flatten := by
  obtain ⟨b, e, hr⟩ := Bitvector.mk'_in hs h (by rw [packBits_flatten, packBits_length]; exact h32)
  rw [packBits_flatten] at hr
  unfold BitvectorSuffix.mk'
  have h64 := hc.1
  rw [e, ok_bind, assertR_ok (by simpa using h64), ok_bind]
  have hpos : 1 ≤ cfg.hashLen + cfg.realLen := by
    have := hc.2
    cases ht : cfg.suffixType with
    | kNone => exact absurd ht hn
    | kHash => rw [ht] at this; dsimp only at this; omega
    | kReal => rw [ht] at this; dsimp only at this; omega
    | kMixed => rw [ht] at this; dsimp only at this; omega
  refine ⟨_, rfl, rfl, fun h => absurd h hn, fun _ => ⟨rfl, rfl, ?_⟩⟩
  exact ⟨hr, hpos, h64, hfit, h32, hn⟩

section
variable {cfg : Config} {ts : List Str} {ss : List (Str × Word)} {s : Nat} {ls : List Level}

/-- The suffix vector of the levels `a .. b-1`. -/
theorem sfx_ok (hc : cfg.Ok) (h : WF ts) (hss : ss.map Prod.fst = ts)
    (hr : Rep0 (cfg.hashLen + cfg.realLen) (maxLen ts + 1) ls ts ss)
    (hfit : ∀ x ∈ ss, Fits (cfg.hashLen + cfg.realLen) x.2)
    (snums : List Nat) (a b : Nat)
    (hs : Env.strict = false ∨ InsideN ((List.range' a (b - a)).map fun l => (cfg.hashLen + cfg.realLen) * (wordsAt ss l).length)) (h32 : (cfg.hashLen + cfg.realLen) * (leafWords ts (swOf ss) (items ts a b)).length < M32) (hab : 1 ≤ b) (hb : b ≤ ls.length)
    (hsn : b ≤ snums.length)
    (hsnums : ∀ l lv, a ≤ l → l < b → ls[l]? = some lv → snums.getD l 0 = mul32 lv.suffixCount (cfg.hashLen + cfg.realLen))
    (hn : cfg.suffixType ≠ .kNone) :
    ∃ x, (levelRange (ls.map (·.suffixes)) snums a b >>= fun lv =>
        BitvectorSuffix.mk' cfg.suffixType cfg.hashLen cfg.realLen lv) = .ok x ∧
      SfxRep cfg x (leafWords ts (swOf ss) (items ts a b)) := by
  rw [levelRange_ok hab (by simpa using hb) hsn, ok_bind]
  have hw : leafWords ts (swOf ss) (items ts a b) = ((List.range' a (b - a)).map (wordsAt ss)).flatten := by
    unfold items
    rw [List.map_congr_left (g := fun l => leafWords ts (swOf ss) (lev ts (l + 1)))
      (fun l _ => wordsAt_eq h hss l)]
    generalize List.range' a (b - a) = r
    induction r with
    | nil => rfl
    | cons q r ih => rw [List.flatMap_cons, leafWords_append, ih]; rfl
  rw [hw] at h32
  rw [hw]
  have hnum : ∀ l ∈ List.range' a (b - a), snums.getD l 0 = (cfg.hashLen + cfg.realLen) * (wordsAt ss l).length := by
    intro l hl
    have hl' := List.mem_range'_1.1 hl
    have hlv := List.getElem?_eq_getElem (l := ls) (i := l) (by omega)
    have h1 : (cfg.hashLen + cfg.realLen) * (wordsAt ss l).length < M32 := by
      refine lt_of_le_of_lt (Nat.mul_le_mul_left _ ?_) h32
      exact (List.sublist_flatten_of_mem (List.mem_map_of_mem hl)).length_le
    rw [hsnums l _ (by omega) (by omega) hlv, (hr.lvl l _ hlv).sfxCount, mul32, Nat.mul_comm, Nat.mod_eq_of_lt h1]
  apply suffix_mk'_ok hc hn
  · refine hs.imp_right fun hs => ?_
    rw [List.map_map, List.map_congr_left (g := fun l => (cfg.hashLen + cfg.realLen) * (wordsAt ss l).length)]
    · exact hs
    · exact hnum
  · rw [List.map_map]
    apply forall₂_range
    intro l hl
    rw [hnum l hl]
    rw [List.mem_range'_1] at hl
    have hlv := List.getElem?_eq_getElem (l := ls) (i := l) (by omega)
    have hl := hr.lvl l _ hlv
    have e1 : (ls.map (·.suffixes)).getD l [] = ls[l].suffixes := by
      simp [List.getD, hlv]
    rw [e1]
    exact hl.sfx
  · intro x hx
    simp only [List.mem_flatten, List.mem_map] at hx
    obtain ⟨y, ⟨l, -, rfl⟩, hy⟩ := hx
    unfold wordsAt at hy
    obtain ⟨z, hz, rfl⟩ := List.mem_map.1 hy
    exact hfit z (List.mem_filter.1 hz).1
  · exact h32

omit [Env] in
theorem leafWords_le (h : WF ts) (sw : Str → Word) (a b : Nat) : (leafWords ts sw (items ts a b)).length ≤ ts.length := by
  unfold leafWords
  rw [List.length_map]
  have hnd := (items_nodup h.sorted a b).filter (fun p => !isInt ts p)
  apply (List.Nodup.subperm hnd ?_).length_le
  intro p hp
  simp only [List.mem_filter, mem_items, Bool.not_eq_eq_eq_not, Bool.not_true] at hp
  exact (h.leaf_iff hp.1.2.2).1 hp.2

/-- Numbers of suffix bits of the levels, as both encodings compute them. -/
def sfxNums (cfg : Config) (ls : List Level) (n : Nat) : List Nat :=
  (List.range n).map fun l => mul32 (ls.getD l Builder.newLevel).suffixCount (cfg.hashLen + cfg.realLen)

/-- The suffix vector of the levels `a .. b-1`, whatever it holds. -/
def SfxMade (cfg : Config) (ls : List Level) (a b : Nat) (x : BitvectorSuffix) : Prop :=
  (cfg.suffixType = .kNone → x = BitvectorSuffix.empty) ∧
  (cfg.suffixType ≠ .kNone → (levelRange (ls.map (·.suffixes)) (sfxNums cfg ls b) a b >>= fun lv =>
    BitvectorSuffix.mk' cfg.suffixType cfg.hashLen cfg.realLen lv) = .ok x)

theorem sfxMade_in (hc : cfg.Ok) (h : WF ts) (hss : ss.map Prod.fst = ts)
    (hr : Rep0 (cfg.hashLen + cfg.realLen) (maxLen ts + 1) ls ts ss)
    (hfit : ∀ x ∈ ss, Fits (cfg.hashLen + cfg.realLen) x.2)
    (a b : Nat)
    (hs : Env.strict = false ∨ InsideN ((List.range' a (b - a)).map fun l => (cfg.hashLen + cfg.realLen) * (wordsAt ss l).length)) (h32 : (cfg.hashLen + cfg.realLen) * (leafWords ts (swOf ss) (items ts a b)).length < M32) (hab : 1 ≤ b) (hb : b ≤ ls.length) :
    ∃ x, SfxMade cfg ls a b x ∧ SfxRep cfg x (leafWords ts (swOf ss) (items ts a b)) := by
  by_cases hn : cfg.suffixType = .kNone
  · exact ⟨_, ⟨fun _ => rfl, fun h => absurd hn h⟩, ⟨hn.symm, fun _ => rfl, fun h => absurd hn h⟩⟩
  · obtain ⟨x, ex, hx⟩ := sfx_ok hc h hss hr hfit (sfxNums cfg ls b) a b hs h32 hab hb (by simp [sfxNums]) (by
      intro l lv _ hl hlv
      simp [sfxNums, List.getD, hl, hlv]) hn
    exact ⟨x, ⟨fun h => absurd h hn, fun _ => ex⟩, hx⟩

theorem sfxMade_ok (hs : Env.strict = false) (hc : cfg.Ok) (h : WF ts) (hss : ss.map Prod.fst = ts)
    (hr : Rep0 (cfg.hashLen + cfg.realLen) (maxLen ts + 1) ls ts ss)
    (hfit : ∀ x ∈ ss, Fits (cfg.hashLen + cfg.realLen) x.2)
    (a b : Nat) (h32 : (cfg.hashLen + cfg.realLen) * (leafWords ts (swOf ss) (items ts a b)).length < M32) (hab : 1 ≤ b) (hb : b ≤ ls.length) :
    ∃ x, SfxMade cfg ls a b x ∧ SfxRep cfg x (leafWords ts (swOf ss) (items ts a b)) :=
  sfxMade_in hc h hss hr hfit a b (Or.inl hs) h32 hab hb

theorem dense_mk'_gen (hs : Env.strict = false ∨ InsideN ((List.range' 0 (s - 0)).map fun l => (nodes ts l).length)) (h : WF ts) {L : Nat}
    (hr : Rep0 L (maxLen ts + 1) ls ts ss) (hs1 : 1 ≤ s) (hsH : s ≤ maxLen ts)
    (hN : 256 * (nodesR ts 0 s).length < M32)
    {ds : List Builder.DenseLevel} (hdl : ds.length = s) (hds : ∀ l d, ds[l]? = some d → DenseRep ts l d)
    {x : BitvectorSuffix} (hx : SfxMade cfg ls 0 s x) :
    ∃ d, LoudsDense.mk' cfg ⟨ls, s, ds.map (·.labels), ds.map (·.child), ds.map (·.prefixkey)⟩ = .ok d ∧
      d.suffixes = x ∧ ∀ cfg' sw y, SfxRep cfg' y (leafWords ts sw (items ts 0 s)) →
        DRep cfg' ts sw s { d with suffixes := y } := by
  have hlen := hr.len
  have hNl : ∀ l, l < s → 256 * (nodes ts l).length < M32 := by
    intro l hl
    refine lt_of_le_of_lt (Nat.mul_le_mul_left _ ?_) hN
    rw [nodesR_split ts (Nat.zero_le l) (show l ≤ s by omega), nodesR_split ts (Nat.le_succ l) (show l + 1 ≤ s by omega),
      nodesR_one]
    simp only [List.length_append]
    omega
  unfold LoudsDense.mk'
  dsimp only
  have hget : ∀ l, l < s → ∃ d, ds[l]? = some d ∧ DenseRep ts l d := fun l hl =>
    ⟨_, List.getElem?_eq_getElem (by omega), hds l _ (List.getElem?_eq_getElem (by omega))⟩
  have e1 : ((List.range s).mapM fun l => (do
      let ws ← getR (ds.map fun x => x.labels) l
      return u32 (ws.length * 64) : R Nat)) = .ok ((List.range s).map fun l => 256 * (nodes ts l).length) := by
    apply mapM_ok
    intro l hl
    rw [List.mem_range] at hl
    obtain ⟨d, hd, hrep⟩ := hget l hl
    rw [getR, List.getElem?_map, hd]
    simp only [Option.map_some]
    rw [ok_bind, hrep.lenL]
    refine ok_congr ?_
    have := hNl l hl
    rw [u32, Nat.mod_eq_of_lt (by omega)]
    omega
  rw [e1, ok_bind]
  set nums := (List.range s).map fun l => 256 * (nodes ts l).length with hnums
  have hnl : nums.length = s := by simp [hnums]
  have hnget : ∀ l, l < s → nums.getD l 0 = 256 * (nodes ts l).length := by
    intro l hl
    simp [hnums, List.getD, hl]
  rw [levelRange_ok hs1 (by simp [hdl]) (by omega), ok_bind]
  have a1 : ((List.range' 0 (s - 0)).map fun l => labelBits ts (nodes ts l)).flatten = labelBits ts (nodesR ts 0 s) :=
    flatten_map_flatMap _ _ _
  have a2 : ((List.range' 0 (s - 0)).map fun l => childBits ts (nodes ts l)).flatten = childBits ts (nodesR ts 0 s) :=
    flatten_map_flatMap _ _ _
  have a3 : ((List.range' 0 (s - 0)).map fun l => prefBits ts (nodes ts l)).flatten = prefBits ts (nodesR ts 0 s) := by
    unfold prefBits nodesR
    rw [List.map_flatMap, List.flatMap_def]
  have hwhole : ∀ ws : Nat → List Word, Env.strict = false ∨
      InsideN (((List.range' 0 (s - 0)).map fun l => (ws l, nums.getD l 0)).map (·.2)) := by
    intro ws
    refine Or.inr (InsideN.whole ?_)
    intro n hn
    rw [List.map_map, List.mem_map] at hn
    obtain ⟨l, hl, rfl⟩ := hn
    rw [List.mem_range'_1] at hl
    dsimp only [Function.comp]
    rw [hnget l (by omega)]
    omega
  have hpre : InsideN ((List.range' 0 (s - 0)).map fun l => (nodes ts l).length) →
      InsideN (((List.range' 0 (s - 0)).map fun l => ((ds.map (·.prefixkey)).getD l [], (ls.map (·.nodeCount)).getD l 0)).map (·.2)) := by
    intro hi
    rw [List.map_map, List.map_congr_left (g := fun l => (nodes ts l).length)]
    · exact hi
    · intro l hl
      rw [List.mem_range'_1] at hl
      have hlv := List.getElem?_eq_getElem (l := ls) (i := l) (by omega)
      simp only [Function.comp, List.getD, List.getElem?_map, hlv, Option.map_some, Option.getD_some]
      exact (hr.lvl l _ hlv).node.trans (lev_nodeCount h.sorted l)
  -- label bitmaps
  obtain ⟨b1, f1, r1⟩ := Bitvector.mk'_in (hwhole _) (forall₂_range (n := List.range' 0 (s - 0))
    (f := fun l => ((ds.map (·.labels)).getD l [], nums.getD l 0)) (g := fun l => labelBits ts (nodes ts l)) (by
      intro l hl
      rw [List.mem_range'_1] at hl
      obtain ⟨d, hd, hrep⟩ := hget l (by omega)
      rw [hnget l (by omega)]
      simp only [List.getD, List.getElem?_map, hd, Option.map_some, Option.getD_some]
      exact hrep.lab)) (by rw [a1, labelBits_len]; exact hN)
  obtain ⟨c1, g1, -, q1, bb1⟩ := BitvectorRank.mk'_ok (bbs := LoudsDense.rankBlock) (Or.inl rfl) f1 r1
  rw [g1, ok_bind, levelRange_ok hs1 (by simp [hdl]) (by omega), ok_bind]
  obtain ⟨b2, f2, r2⟩ := Bitvector.mk'_in (hwhole _) (forall₂_range (n := List.range' 0 (s - 0))
    (f := fun l => ((ds.map (·.child)).getD l [], nums.getD l 0)) (g := fun l => childBits ts (nodes ts l)) (by
      intro l hl
      rw [List.mem_range'_1] at hl
      obtain ⟨d, hd, hrep⟩ := hget l (by omega)
      rw [hnget l (by omega)]
      simp only [List.getD, List.getElem?_map, hd, Option.map_some, Option.getD_some]
      exact hrep.chl)) (by rw [a2, childBits_len]; exact hN)
  obtain ⟨c2, g2, -, q2, bb2⟩ := BitvectorRank.mk'_ok (bbs := LoudsDense.rankBlock) (Or.inl rfl) f2 r2
  rw [g2, ok_bind, levelRange_ok hs1 (by simp [hdl]) (by simp; omega), ok_bind]
  obtain ⟨b3, f3, r3⟩ := Bitvector.mk'_in (hs.imp_right hpre) (forall₂_range (n := List.range' 0 (s - 0))
    (f := fun l => ((ds.map (·.prefixkey)).getD l [], (ls.map (·.nodeCount)).getD l 0))
    (g := fun l => prefBits ts (nodes ts l)) (by
      intro l hl
      rw [List.mem_range'_1] at hl
      obtain ⟨d, hd, hrep⟩ := hget l (by omega)
      have hlv := List.getElem?_eq_getElem (l := ls) (i := l) (by omega)
      have hl := hr.lvl l _ hlv
      have : (ls.map (·.nodeCount)).getD l 0 = (nodes ts l).length := by
        simp only [List.getD, List.getElem?_map, hlv, Option.map_some, Option.getD_some]
        exact hl.node.trans (lev_nodeCount h.sorted l)
      rw [this]
      simp only [List.getD, List.getElem?_map, hd, Option.map_some, Option.getD_some]
      exact hrep.pre)) (by rw [a3, prefBits, List.length_map]; omega)
  obtain ⟨c3, g3, -, q3, bb3⟩ := BitvectorRank.mk'_ok (bbs := LoudsDense.rankBlock) (Or.inl rfl) f3 r3
  rw [g3, ok_bind]
  rw [a1] at q1
  rw [a2] at q2
  rw [a3] at q3
  -- suffixes
  by_cases hn : cfg.suffixType = .kNone
  · rw [if_pos hn]
    rw [hx.1 hn]
    exact ⟨_, rfl, rfl, fun cfg' sw y hy => ⟨rfl, q1, q2, q3, hy, rfl, bb1, bb2, bb3⟩⟩
  · rw [if_neg hn]
    have e2 : ((List.range s).mapM fun l => (do
        let lv ← getR ls l
        return mul32 lv.suffixCount (cfg.hashLen + cfg.realLen) : R Nat)) = .ok (sfxNums cfg ls s) := by
      apply mapM_ok
      intro l hl
      rw [List.mem_range] at hl
      rw [getR_ok (by omega), ok_bind]
      simp [List.getD, List.getElem?_eq_getElem (show l < ls.length by omega)]
    rw [e2, ok_bind]
    rw [← bind_assoc, hx.2 hn, ok_bind]
    exact ⟨_, rfl, rfl, fun cfg' sw y hy => ⟨rfl, q1, q2, q3, hy, rfl, bb1, bb2, bb3⟩⟩

theorem dense_mk'_ok (hs : Env.strict = false) (hc : cfg.Ok) (h : WF ts) (hss : ss.map Prod.fst = ts)
    (hr : Rep0 (cfg.hashLen + cfg.realLen) (maxLen ts + 1) ls ts ss)
    (hfit : ∀ x ∈ ss, Fits (cfg.hashLen + cfg.realLen) x.2)
    (h32 : (cfg.hashLen + cfg.realLen) * (leafWords ts (swOf ss) (items ts 0 s)).length < M32) (hs1 : 1 ≤ s) (hsH : s ≤ maxLen ts)
    (hN : 256 * (nodesR ts 0 s).length < M32)
    {ds : List Builder.DenseLevel} (hdl : ds.length = s) (hds : ∀ l d, ds[l]? = some d → DenseRep ts l d) :
    ∃ d, LoudsDense.mk' cfg ⟨ls, s, ds.map (·.labels), ds.map (·.child), ds.map (·.prefixkey)⟩ = .ok d ∧
      DRep cfg ts (swOf ss) s d := by
  have hlen := hr.len
  obtain ⟨x, hx, hx'⟩ := sfxMade_ok hs hc h hss hr hfit 0 s h32 hs1 (by omega)
  obtain ⟨d, e, rfl, hd⟩ := dense_mk'_gen (Or.inl hs) h hr hs1 hsH hN hdl hds hx
  exact ⟨d, e, hd _ _ _ hx'⟩

omit [Env] in
theorem nodeCount_take (h : WF ts) {L H : Nat} (hr : Rep0 L H ls ts ss) (n : Nat) (hn : n ≤ ls.length) :
    ((ls.take n).map (·.nodeCount)).sum = (nodesR ts 0 n).length := by
  induction n with
  | zero => simp [nodesR]
  | succ n ih =>
    rw [List.take_succ_eq_append_getElem (by omega), List.map_append, List.sum_append, ih (by omega),
      nodesR_split ts (Nat.zero_le n) (Nat.le_succ n), List.length_append, nodesR_one]
    have := (hr.lvl n _ (List.getElem?_eq_getElem (by omega))).node.trans (lev_nodeCount h.sorted n)
    simp [this]

omit [Env] in
theorem drop_flatMap {α : Type} (f : Level → List α) (g : Nat → List α) (a H : Nat) (hH : ls.length = H)
    (h : ∀ l lv, ls[l]? = some lv → f lv = g l) :
    (ls.drop a).flatMap f = (List.range' a (H - a)).flatMap g := by
  subst hH
  induction hn : ls.length - a generalizing a with
  | zero => rw [List.drop_of_length_le (by omega)]; rfl
  | succ n ih =>
    rw [List.drop_eq_getElem_cons (by omega), List.flatMap_cons, List.range'_succ, List.flatMap_cons,
      ih (a + 1) (by omega), h a _ (List.getElem?_eq_getElem (by omega))]

/-- The sparse part when the array for the labels holds them, with `n` bytes left over. -/
theorem sparse_mk'_any (hs : Env.strict = false ∨ InsideN ((List.range' s (maxLen ts + 1 - s)).map fun l => (lev ts (l + 1)).length)) (h : WF ts) {L : Nat}
    (hr : Rep0 L (maxLen ts + 1) ls ts ss)
    (hn32 : (items ts 0 (maxLen ts + 1)).length + 64 < M32) (hsH : s ≤ maxLen ts)
    {b1 b2 b3 : List (List Word)} (hs1 : 1 ≤ s) {n : Nat}
    (hroom : mul32 ((items ts s (maxLen ts + 1)).length + 1) (((items ts s (maxLen ts + 1)).length + 1) / 64 + 1) =
      (items ts s (maxLen ts + 1)).length + n)
    {x : BitvectorSuffix} (hx : SfxMade cfg ls s ls.length x) :
    ∃ t, LoudsSparse.mk' cfg ⟨ls, s, b1, b2, b3⟩ = .ok t ∧ t.suffixes = x ∧
      (1 ≤ n → ∀ cfg' sw y, SfxRep cfg' y (leafWords ts sw (items ts s (maxLen ts + 1))) →
        SRep cfg' ts sw s (maxLen ts + 1) { t with suffixes := y }) ∧
      t.labels.labels = (items ts s (maxLen ts + 1)).map lab ++ List.replicate n 0 := by
  have hlen := hr.len
  unfold LoudsSparse.mk'
  dsimp only
  rw [if_neg (by omega), getR_ok (by omega), ok_bind]
  have hncd := nodeCount_take h hr s (by omega)
  have hnc : ls[s].nodeCount = (nodes ts s).length :=
    (hr.lvl s _ (List.getElem?_eq_getElem (by omega))).node.trans (lev_nodeCount h.sorted s)
  have hN := h.nodesR_eq (H := maxLen ts + 1) (by omega)
  -- number of nodes below the root up to level s
  have hcc : (nodesR ts 0 s).length + (nodes ts s).length = (nodesR ts 1 (s + 1)).length + 1 := by
    have e1 : nodesR ts 0 (s + 1) = nodesR ts 0 1 ++ nodesR ts 1 (s + 1) := nodesR_split ts (by omega) (by omega)
    have e2 : nodesR ts 0 (s + 1) = nodesR ts 0 s ++ nodesR ts s (s + 1) := nodesR_split ts (by omega) (by omega)
    rw [nodesR_one] at e1 e2
    rw [h.nodes_zero] at e1
    have := congrArg List.length (e1.symm.trans e2)
    simp only [List.length_append, List.length_cons, List.length_nil] at this
    omega
  have hle : (nodesR ts 1 (s + 1)).length ≤ (items ts 0 (maxLen ts + 1)).length := by
    rw [← filter_items ts 0 s, items_split ts (Nat.zero_le s) (show s ≤ maxLen ts + 1 by omega), List.length_append]
    have := List.length_filter_le (isInt ts) (items ts 0 s)
    omega
  have hccd : sub32 (((ls.take s).map (·.nodeCount)).sum + ls[s].nodeCount) 1 = (nodesR ts 1 (s + 1)).length := by
    rw [hncd, hnc, hcc]
    rw [sub32_eq (by omega) (by omega)]; omega
  have hlevN : ∀ l, l < maxLen ts + 1 → (lev ts (l + 1)).length < M32 := by
    intro l hl
    refine lt_of_le_of_lt ?_ (show (items ts 0 (maxLen ts + 1)).length + 1 < M32 by omega)
    refine le_trans ?_ (Nat.le_succ _)
    unfold items
    rw [List.flatMap_def]
    have hm : lev ts (l + 1) ∈ (List.range' 0 (maxLen ts + 1 - 0)).map fun l => lev ts (l + 1) :=
      List.mem_map.2 ⟨l, List.mem_range'_1.2 ⟨Nat.zero_le _, by omega⟩, rfl⟩
    exact (List.sublist_flatten_of_mem hm).length_le
  have hi32 : (items ts s (maxLen ts + 1)).length < M32 := by
    refine lt_of_le_of_lt ?_ (show (items ts 0 (maxLen ts + 1)).length + 1 < M32 by omega)
    rw [items_split ts (Nat.zero_le s) (show s ≤ maxLen ts + 1 by omega), List.length_append]
    omega
  have a1 : ((List.range' s (ls.length - s)).map fun l => (lev ts (l + 1)).map (isInt ts)).flatten =
      (items ts s (maxLen ts + 1)).map (isInt ts) := by
    unfold items
    rw [List.map_flatMap, List.flatMap_def, hlen]
  have a0 : ((List.range' s (ls.length - s)).map fun l => starts (lev ts (l + 1))).flatten.length =
      (items ts s (maxLen ts + 1)).length := by
    unfold items
    rw [hlen, List.flatMap_def, List.length_flatten, List.length_flatten, List.map_map, List.map_map]
    rw [List.map_congr_left (f := List.length ∘ fun l => starts (lev ts (l + 1)))
      (g := List.length ∘ fun l => lev ts (l + 1)) (fun l _ => starts_length (lev ts (l + 1)))]
  -- child bits
  have hnums : ∀ l, l < maxLen ts + 1 → (ls.map (u32 ·.labels.length)).getD l 0 = (lev ts (l + 1)).length := by
    intro l hl
    have hlv := List.getElem?_eq_getElem (l := ls) (i := l) (by omega)
    have := (hr.lvl l _ hlv).labels
    simp only [List.getD, List.getElem?_map, hlv, Option.map_some, Option.getD_some]
    rw [this, List.length_map, u32, Nat.mod_eq_of_lt (hlevN l hl)]
  have hin : ∀ ws : Nat → List Word, Env.strict = false ∨
      InsideN (((List.range' s (ls.length - s)).map fun l => (ws l, (ls.map (u32 ·.labels.length)).getD l 0)).map (·.2)) := by
    intro ws
    refine hs.imp_right fun hi => ?_
    rw [List.map_map, hlen, List.map_congr_left (g := fun l => (lev ts (l + 1)).length)]
    · exact hi
    · intro l hl
      rw [List.mem_range'_1] at hl
      exact hnums l (by omega)
  obtain ⟨lv, hlv, hlN, hlL⟩ : ∃ lv, LabelVector.mk' ((ls.drop s).flatMap (·.labels)) = .ok lv ∧
      lv.numBytes = (items ts s (maxLen ts + 1)).length + 1 ∧
      lv.labels = (items ts s (maxLen ts + 1)).map lab ++ List.replicate n 0 := by
    have : (ls.drop s).flatMap (·.labels) = (items ts s (maxLen ts + 1)).map lab := by
      unfold items
      rw [List.map_flatMap, drop_flatMap (fun lv => lv.labels) (fun l => (lev ts (l + 1)).map lab) s _ hlen
        (fun l lv hlv => (hr.lvl l lv hlv).labels)]
    unfold LabelVector.mk'
    rw [this]
    simp only [List.length_map]
    rw [if_neg (by omega)]
    exact ⟨_, rfl, rfl, by rw [hroom, Nat.add_sub_cancel_left]⟩
  have hrest : 1 ≤ n → ∃ rest, lv.labels = (items ts s (maxLen ts + 1)).map lab ++ 0 :: rest := by
    intro hn1
    obtain ⟨n', rfl⟩ := Nat.exists_eq_add_of_le' hn1
    rw [hlL, List.replicate_succ]
    exact ⟨_, rfl⟩
  rw [pure_bind, hlv, ok_bind, levelRange_ok (by omega) (by simp) (by simp), ok_bind]
  obtain ⟨c1, f1, r1⟩ := Bitvector.mk'_in (hin _) (forall₂_range (n := List.range' s (ls.length - s))
    (f := fun l => ((ls.map (·.child)).getD l [], (ls.map (u32 ·.labels.length)).getD l 0))
    (g := fun l => (lev ts (l + 1)).map (isInt ts)) (by
      intro l hl
      rw [List.mem_range'_1] at hl
      have hlv := List.getElem?_eq_getElem (l := ls) (i := l) (by omega)
      rw [hnums l (by omega)]
      simp only [List.getD, List.getElem?_map, hlv, Option.map_some, Option.getD_some]
      exact (hr.lvl l _ hlv).child)) (by rw [a1, List.length_map]; exact hi32)
  obtain ⟨c, g1, -, q1, bb1⟩ := BitvectorRank.mk'_ok (bbs := 512) (Or.inl rfl) f1 r1
  rw [g1, ok_bind, levelRange_ok (by omega) (by simp) (by simp), ok_bind]
  obtain ⟨c2, f2, r2⟩ := Bitvector.mk'_in (hin _) (forall₂_range (n := List.range' s (ls.length - s))
    (f := fun l => ((ls.map (·.louds)).getD l [], (ls.map (u32 ·.labels.length)).getD l 0))
    (g := fun l => starts (lev ts (l + 1))) (by
      intro l hl
      rw [List.mem_range'_1] at hl
      have hlv := List.getElem?_eq_getElem (l := ls) (i := l) (by omega)
      rw [hnums l (by omega)]
      simp only [List.getD, List.getElem?_map, hlv, Option.map_some, Option.getD_some]
      exact (hr.lvl l _ hlv).louds)) (by rw [a0]; exact hi32)
  have a2 : ((List.range' s (ls.length - s)).map fun l => starts (lev ts (l + 1))).flatten =
      loudsOf ts (nodesR ts s (maxLen ts + 1)) := by
    rw [List.map_congr_left (g := fun l => (nodes ts l).flatMap fun x => blk (kidItems ts x).length)]
    · rw [flatten_map_flatMap, hlen]; rfl
    · intro l _
      obtain ⟨h1, h2, h3, h4⟩ := lev_blocks h.sorted l
      rw [h1, starts_flatMap h2 h3 h4]
  rw [a1] at q1
  rw [a2] at r2 a0
  have hcnt := List.count_le_length (a := true) (l := loudsOf ts (nodesR ts s (maxLen ts + 1)))
  have hii : (items ts s (maxLen ts + 1)).length ≤ (items ts 0 (maxLen ts + 1)).length := by
    rw [items_split ts (Nat.zero_le s) (show s ≤ maxLen ts + 1 by omega), List.length_append]
    omega
  obtain ⟨c', g2, -, q2, bb2⟩ := BitvectorSelect.mk'_ok (si := 64) (by omega) (by omega) f2 r2 (by
    intro hne
    unfold loudsOf at hne ⊢
    cases hx : nodesR ts s (maxLen ts + 1) with
    | nil => rw [hx] at hne; simp at hne
    | cons x xs => rw [List.flatMap_cons]; rfl)
  rw [g2, ok_bind]
  have hcuts : List.replicate s 0 ++ levelCutsFrom 0 ((ls.map (u32 ·.labels.length)).drop s) =
      List.replicate s 0 ++
        levelCutsFrom 0 ((List.range' s (maxLen ts + 1 - s)).map fun l => (lev ts (l + 1)).length) := by
    suffices hd : (ls.map (u32 ·.labels.length)).drop s =
        (List.range' s (maxLen ts + 1 - s)).map fun l => (lev ts (l + 1)).length by rw [hd]
    apply List.ext_getElem
    · simp [hlen]
    · intro i h1 h2
      simp only [List.length_drop, List.length_map] at h1
      have hlv := List.getElem?_eq_getElem (l := ls) (i := s + i) (by omega)
      simp only [List.getElem_drop, List.getElem_map, List.getElem_range', Nat.one_mul]
      rw [(hr.lvl _ _ hlv).labels, List.length_map, u32, Nat.mod_eq_of_lt (hlevN _ (by omega))]
  by_cases hn : cfg.suffixType = .kNone
  · rw [if_pos hn]
    rw [hx.1 hn]
    exact ⟨_, rfl, rfl, fun hn1 cfg' sw y hy => ⟨hlen, rfl, hncd, hccd, hrest hn1, hlN, q1, q2, hy, hcuts, bb1, bb2⟩, hlL⟩
  · rw [if_neg hn]
    have hsn : ls.map (mul32 ·.suffixCount (cfg.hashLen + cfg.realLen)) = sfxNums cfg ls ls.length := by
      apply List.ext_getElem
      · simp [sfxNums]
      · intro i h1 h2
        simp only [List.length_map] at h1
        simp [sfxNums, List.getD, h1]
    rw [hsn, ← bind_assoc, hx.2 hn, ok_bind]
    exact ⟨_, rfl, rfl, fun hn1 cfg' sw y hy => ⟨hlen, rfl, hncd, hccd, hrest hn1, hlN, q1, q2, hy, hcuts, bb1, bb2⟩, hlL⟩

omit [Env] in
theorem room_left {m : Nat} (hroom : Spec.Room (m + 1)) :
    ∃ n, mul32 (m + 1) ((m + 1) / 64 + 1) = m + n ∧ 1 ≤ n ∧ (64 ≤ m → 64 ≤ n) := by
  have hm : m + 1 ≤ mul32 (m + 1) ((m + 1) / 64 + 1) ∧
      (64 ≤ m → m + 64 ≤ mul32 (m + 1) ((m + 1) / 64 + 1)) := by
    rcases hroom with h1 | h1
    · rw [Nat.div_eq_of_lt h1, mul32_eq (by rw [M32_eq]; omega)]
      constructor <;> intros <;> omega
    · have : mul32 (m + 1) ((m + 1) / 64 + 1) = (m + 1) * ((m + 1) / 64 + 1) % 2 ^ 32 := rfl
      rw [this]
      constructor <;> intros <;> omega
  refine ⟨mul32 (m + 1) ((m + 1) / 64 + 1) - m, by omega, by omega, fun h => ?_⟩
  have := hm.2 h
  omega

theorem sparse_mk'_gen (hs : Env.strict = false) (h : WF ts) {L : Nat}
    (hr : Rep0 L (maxLen ts + 1) ls ts ss)
    (hn32 : (items ts 0 (maxLen ts + 1)).length + 64 < M32) (hsH : s ≤ maxLen ts)
    {b1 b2 b3 : List (List Word)} (hs1 : 1 ≤ s) (hroom : Spec.Room ((items ts s (maxLen ts + 1)).length + 1))
    {x : BitvectorSuffix} (hx : SfxMade cfg ls s ls.length x) :
    ∃ t, LoudsSparse.mk' cfg ⟨ls, s, b1, b2, b3⟩ = .ok t ∧ t.suffixes = x ∧
      (∀ cfg' sw y, SfxRep cfg' y (leafWords ts sw (items ts s (maxLen ts + 1))) →
        SRep cfg' ts sw s (maxLen ts + 1) { t with suffixes := y }) ∧
      ∃ n, t.labels.labels = (items ts s (maxLen ts + 1)).map lab ++ List.replicate n 0 ∧
        (64 ≤ (items ts s (maxLen ts + 1)).length → 64 ≤ n) := by
  obtain ⟨n, hn, hn1, hn64⟩ := room_left hroom
  obtain ⟨t, e, ht, hrep, hl⟩ := sparse_mk'_any (b1 := b1) (b2 := b2) (b3 := b3) (Or.inl hs) h hr hn32 hsH hs1 hn hx
  exact ⟨t, e, ht, hrep hn1, n, hl, hn64⟩

theorem sparse_mk'_ok (hs : Env.strict = false) (hc : cfg.Ok) (h : WF ts) (hss : ss.map Prod.fst = ts)
    (hr : Rep0 (cfg.hashLen + cfg.realLen) (maxLen ts + 1) ls ts ss)
    (hfit : ∀ x ∈ ss, Fits (cfg.hashLen + cfg.realLen) x.2)
    (h32 : (cfg.hashLen + cfg.realLen) * (leafWords ts (swOf ss) (items ts s (maxLen ts + 1))).length < M32)
    (hn32 : (items ts 0 (maxLen ts + 1)).length + 64 < M32) (hsH : s ≤ maxLen ts)
    {b1 b2 b3 : List (List Word)} (hs1 : 1 ≤ s) (hroom : Spec.Room ((items ts s (maxLen ts + 1)).length + 1)) :
    ∃ t, LoudsSparse.mk' cfg ⟨ls, s, b1, b2, b3⟩ = .ok t ∧ SRep cfg ts (swOf ss) s (maxLen ts + 1) t ∧
      ∃ n, t.labels.labels = (items ts s (maxLen ts + 1)).map lab ++ List.replicate n 0 ∧
        (64 ≤ (items ts s (maxLen ts + 1)).length → 64 ≤ n) := by
  have hlen := hr.len
  obtain ⟨x, hx, hx'⟩ := sfxMade_ok hs hc h hss hr hfit s ls.length (by rw [hlen]; exact h32) (by omega) (le_refl _)
  obtain ⟨t, e, rfl, ht, hp⟩ := sparse_mk'_gen (b1 := b1) (b2 := b2) (b3 := b3) hs h hr hn32 hsH hs1 hroom hx
  rw [hlen] at hx'
  exact ⟨t, e, ht _ _ _ hx', hp⟩

end

end Surf
