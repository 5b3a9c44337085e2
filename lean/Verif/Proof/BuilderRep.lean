import Verif.Proof.Suffix
import Verif.Proof.Concat
import Verif.Proof.Keys

/-! # Builder levels represent trie levels (surf_builder.hpp:185-293) -/

set_option linter.unusedSectionVars false

namespace Surf
open Trie

/-! ## First-sibling flags and labels -/

/-- For every item whether its parent differs from the parent `pr` of the item before. -/
def startsFrom : Option Str → List Str → List Bool
  | _, [] => []
  | pr, p :: ps => (pr != some p.dropLast) :: startsFrom (some p.dropLast) ps

/-- The LOUDS bits of a level. -/
def starts (ps : List Str) : List Bool := startsFrom none ps

@[simp] theorem startsFrom_length (pr : Option Str) (ps : List Str) : (startsFrom pr ps).length = ps.length := by
  induction ps generalizing pr with
  | nil => rfl
  | cons p ps ih => simp [startsFrom, ih]

@[simp] theorem starts_length (ps : List Str) : (starts ps).length = ps.length := startsFrom_length _ _

theorem startsFrom_append (pr : Option Str) (ps : List Str) (p : Str) :
    startsFrom pr (ps ++ [p]) =
      startsFrom pr ps ++ [((ps.getLast?.map List.dropLast).or pr) != some p.dropLast] := by
  induction ps generalizing pr with
  | nil => simp [startsFrom]
  | cons q ps ih =>
    simp only [List.cons_append, startsFrom, ih, List.cons.injEq, true_and]
    cases ps with
    | nil => simp
    | cons r ps =>
      rw [List.getLast?_cons_cons]
      simp [List.getLast?_cons]

theorem starts_append (ps : List Str) (p : Str) :
    starts (ps ++ [p]) = starts ps ++ [ps.getLast?.map List.dropLast != some p.dropLast] := by
  simp [starts, startsFrom_append]

/-- The label byte of an item: 0xFF for the terminator. -/
def lab (p : Str) : UInt8 :=
  match p.getLast? with
  | some (c + 1) => UInt8.ofNat c
  | _ => 255

theorem lab_byte (x : Str) (b : UInt8) : lab (x ++ [b.toNat + 1]) = b := by
  simp [lab]

theorem lab_term (x : Str) : lab (x ++ [0]) = kTerminator := by
  simp [lab, kTerminator]

variable [Env]

/-! ## One level -/

/-- `lv` represents the items `ps` (with internal items given by `int`) and suffix words `ws` of
width `L`. -/
structure LRep (L : Nat) (lv : Level) (ps : List Str) (int : Str → Bool) (ws : List Word) : Prop where
  labels : lv.labels = ps.map lab
  child : LevelBits (lv.child, ps.length) (ps.map int)
  childLen : lv.child.length = ps.length / 64 + 1
  louds : LevelBits (lv.louds, ps.length) (starts ps)
  loudsLen : lv.louds.length = ps.length / 64 + 1
  node : lv.nodeCount = (starts ps).count true
  term : lv.isLastTerm = decide (ps.getLast?.bind List.getLast? = some 0)
  sfx : LevelBits (lv.suffixes, L * ws.length) (packBits L ws)
  sfxTight : (1 ≤ L → 64 * lv.suffixes.length < (packBits L ws).length + 64) ∧ (L = 0 → lv.suffixes.length = min 1 ws.length)
  sfxCount : lv.suffixCount = ws.length

/-- `LRep` without the flag that only matters during construction. -/
structure LRep0 (L : Nat) (lv : Level) (ps : List Str) (int : Str → Bool) (ws : List Word) : Prop where
  labels : lv.labels = ps.map lab
  child : LevelBits (lv.child, ps.length) (ps.map int)
  childLen : lv.child.length = ps.length / 64 + 1
  louds : LevelBits (lv.louds, ps.length) (starts ps)
  loudsLen : lv.louds.length = ps.length / 64 + 1
  node : lv.nodeCount = (starts ps).count true
  sfx : LevelBits (lv.suffixes, L * ws.length) (packBits L ws)
  sfxCount : lv.suffixCount = ws.length

theorem LRep.weak {L : Nat} {lv : Level} {ps : List Str} {int : Str → Bool} {ws : List Word}
    (h : LRep L lv ps int ws) : LRep0 L lv ps int ws :=
  ⟨h.labels, h.child, h.childLen, h.louds, h.loudsLen, h.node, h.sfx, h.sfxCount⟩

theorem msb_mask {i j : Nat} (hi : i < 64) (hj : j < 64) : (kMsbMask >>> i).getMsbD j = decide (j = i) := by
  rw [BitVec.getMsbD_ushiftRight]
  have : ∀ n, n < 64 → kMsbMask.getMsbD n = decide (n = 0) := by decide
  by_cases h : j < i
  · simp [h]; omega
  · rw [this _ (by omega)]
    simp only [hj, h, decide_true, decide_false, Bool.not_false, Bool.true_and]
    congr 1
    apply propext
    omega

theorem setBit_ok {bits : List Word} {pos : Nat} (h : pos < 64 * bits.length) :
    ∃ bits', Builder.setBit bits pos = .ok bits' ∧ bits'.length = bits.length ∧
      ∀ i, bitAt bits' i = (bitAt bits i || decide (i = pos)) := by
  obtain ⟨a, e, l, g⟩ := orAt_ok (a := bits) (k := pos / 64) (x := kMsbMask >>> (pos % 64)) (by omega)
  refine ⟨a, ?_, l, ?_⟩
  · unfold Builder.setBit
    rw [assertR_ok (by simp; omega), ok_bind, e]
  · intro i
    rw [g, msb_mask (by omega) (by omega)]
    congr 1
    rw [← Bool.decide_and]
    congr 1
    apply propext
    omega

theorem LRep.new (L : Nat) (int : Str → Bool) : LRep L Builder.newLevel [] int [] := by
  have hz : ∀ i, bitAt [0] i = false := by
    intro i
    unfold bitAt
    by_cases h : i / 64 = 0
    · simp [h]
    · rw [getD_ge (by simp; omega)]; simp
  refine ⟨rfl, ⟨rfl, by simp, ?_⟩, rfl, ⟨rfl, by simp [starts, startsFrom], ?_⟩, rfl, rfl, rfl,
    ⟨by simp [packBits], by simp [packBits], ?_⟩, by simp [Builder.newLevel, packBits], rfl⟩
  · intro i; exact hz i
  · intro i; exact hz i
  · intro i; simp [Builder.newLevel, bitAt, packBits]

theorem markChild_ok {L : Nat} {lv : Level} {qs : List Str} {p : Str} {int int' : Str → Bool} {ws : List Word}
    (h : LRep L lv (qs ++ [p]) int ws) (hn : qs.length + 1 < M32)
    (hq : ∀ q ∈ qs, int' q = int q) (hp : int' p = true) :
    ∃ lv', Builder.markChild lv = .ok lv' ∧ LRep L lv' (qs ++ [p]) int' ws := by
  obtain ⟨h1, ⟨h2a, h2b, h2c⟩, h3, h4, h5, h6, h7, h8, h9, h10⟩ := h
  dsimp only at h2a h2b h2c
  have hlen : lv.labels.length = qs.length + 1 := by rw [h1]; simp
  unfold Builder.markChild
  rw [hlen, sub32_eq (by omega) (by omega), Nat.add_sub_cancel]
  obtain ⟨c, e, l, g⟩ := setBit_ok (bits := lv.child) (pos := qs.length) (by rw [h3]; simp; omega)
  rw [e, ok_bind]
  refine ⟨_, rfl, h1, ⟨by simp, ?_, ?_⟩, ?_, h4, h5, h6, h7, h8, h9, h10⟩
  · dsimp only; rw [l]; simpa using h2b
  · intro i
    dsimp only
    rw [g, h2c]
    have hmap : qs.map int' = qs.map int := List.map_congr_left hq
    simp only [List.map_append, List.map_cons, List.map_nil, hmap, hp]
    rcases lt_trichotomy i qs.length with h | h | h
    · rw [getD_append_lt (by simpa using h), getD_append_lt (by simpa using h)]
      simp; omega
    · subst h
      rw [getD_append_ge (by simp), getD_append_ge (by simp)]
      simp
    · rw [getD_ge (by simp; omega), getD_ge (by simp; omega)]
      simp; omega
  · dsimp only; rw [l]; exact h3

theorem levelBits_push {ws : List Word} {xs : List Bool} {b : Bool} (hb : LevelBits (ws, xs.length) xs)
    (hl : ws.length = xs.length / 64 + 1) :
    ∃ ws', (if b then Builder.setBit ws xs.length else pure ws) = .ok ws' ∧ ws'.length = ws.length ∧
      ∀ i, bitAt ws' i = (xs ++ [b]).getD i false := by
  obtain ⟨h1, h2, h3⟩ := hb
  dsimp only at h1 h2 h3
  cases b with
  | false =>
    refine ⟨ws, rfl, rfl, ?_⟩
    intro i
    rw [h3]
    by_cases h : i < xs.length
    · rw [getD_append_lt h]
    · rw [getD_append_ge (by omega), getD_ge (by omega)]
      cases i - xs.length <;> simp
  | true =>
    obtain ⟨c, e, l, g⟩ := setBit_ok (bits := ws) (pos := xs.length) (by omega)
    refine ⟨c, e, l, ?_⟩
    intro i
    rw [g, h3]
    rcases lt_trichotomy i xs.length with h | h | h
    · rw [getD_append_lt h]; simp; omega
    · subst h; rw [getD_append_ge (by omega)]; simp
    · rw [getD_ge (by omega), getD_ge (by simp; omega)]; simp; omega

theorem bitAt_ite_zero (b : Bool) (ws : List Word) (i : Nat) :
    bitAt (if b then ws ++ [0] else ws) i = bitAt ws i := by
  cases b
  · rfl
  · exact bitAt_append_zero ws i

theorem pushItem_ok {L : Nat} {lv : Level} {ps : List Str} {p : Str} {int int' : Str → Bool} {ws : List Word}
    {isStart isTerm : Bool}
    (h : LRep L lv ps int ws) (hq : ∀ q ∈ ps, int' q = int q) (hp : int' p = false)
    (hst : isStart = (ps.getLast?.map List.dropLast != some p.dropLast))
    (htm : isTerm = decide (p.getLast? = some 0)) :
    ∃ lv', Builder.pushItem lv (lab p) isStart isTerm = .ok lv' ∧ LRep L lv' (ps ++ [p]) int' ws := by
  obtain ⟨h1, h2, h3, h4, h5, h6, h7, h8, h9, h10⟩ := h
  have hlen : lv.labels.length = ps.length := by rw [h1]; simp
  unfold Builder.pushItem
  dsimp only
  simp only [List.length_append, List.length_cons, List.length_nil, hlen, Nat.zero_add, Nat.add_sub_cancel]
  obtain ⟨lo, e, l, g⟩ := levelBits_push (b := isStart) (xs := starts ps) (by simpa using h4) (by simpa using h5)
  rw [starts_length] at e
  have e' : ∀ (k : List Word → R Level), (if isStart then Builder.setBit lv.louds ps.length >>= k
      else pure lv.louds >>= k) = k lo := by
    intro k
    cases isStart
    · simp only [Bool.false_eq_true, if_false] at e ⊢
      rw [e, ok_bind]
    · simp only [if_true] at e ⊢
      rw [e, ok_bind]
  have hmap : ps.map int' = ps.map int := List.map_congr_left hq
  have hcl : ∀ ws' : List Word, ws'.length = ps.length / 64 + 1 →
      (if ((ps.length + 1) % 64 == 0) = true then ws' ++ [0] else ws').length = (ps.length + 1) / 64 + 1 := by
    intro ws' hw
    by_cases hc : (ps.length + 1) % 64 = 0
    · rw [if_pos (by simp [hc])]; simp [hw]; omega
    · rw [if_neg (by simp [hc])]; rw [hw]; omega
  rw [e', pure_ok]
  refine ⟨_, rfl, ?_, ⟨by simp, ?_, ?_⟩, ?_, ⟨by simp, ?_, ?_⟩, ?_, ?_, ?_, h8, h9, h10⟩
  · simp [h1]
  · dsimp only; rw [hcl _ h3]; simp; omega
  · intro i
    dsimp only
    rw [bitAt_ite_zero, h2.bit]
    simp only [List.map_append, List.map_cons, List.map_nil, hmap, hp]
    by_cases h : i < ps.length
    · rw [getD_append_lt (by simpa using h)]
    · rw [getD_append_ge (by simp; omega), getD_ge (by simp; omega)]
      cases i - (ps.map int).length <;> simp
  · dsimp only; rw [hcl _ h3]; simp
  · dsimp only; rw [hcl _ (by rw [l]; exact h5)]; simp; omega
  · intro i
    dsimp only
    rw [bitAt_ite_zero, g, starts_append, hst]
  · dsimp only; rw [hcl _ (by rw [l]; exact h5)]; simp
  · dsimp only
    rw [starts_append, List.count_append, ← hst, h6]
    cases isStart <;> simp
  · dsimp only
    rw [htm]
    simp

/-! ## All levels -/

/-- The suffix words of level `l`. -/
def wordsAt (ss : List (Str × Word)) (l : Nat) : List Word :=
  (ss.filter fun s => s.1.length = l + 1).map Prod.snd

/-- `ls` represents the trie with leaves `ts`; `ss` are the suffixes stored so far. -/
structure Rep (L H : Nat) (ls : List Level) (ts : List Str) (ss : List (Str × Word)) : Prop where
  len : ls.length = H
  bound : ∀ t ∈ ts, t.length ≤ H
  sbound : ∀ s ∈ ss, s.1.length ≤ H
  lvl : ∀ l lv, ls[l]? = some lv → LRep L lv (lev ts (l + 1)) (isInt ts) (wordsAt ss l)

/-- `ls` represents the finished trie with leaves `ts` and suffixes `ss`. -/
structure Rep0 (L H : Nat) (ls : List Level) (ts : List Str) (ss : List (Str × Word)) : Prop where
  len : ls.length = H
  lvl : ∀ l lv, ls[l]? = some lv → LRep0 L lv (lev ts (l + 1)) (isInt ts) (wordsAt ss l)

theorem Rep.weak {L H : Nat} {ls : List Level} {ts : List Str} {ss : List (Str × Word)} (h : Rep L H ls ts ss) :
    Rep0 L H ls ts ss := ⟨h.len, fun l lv e => (h.lvl l lv e).weak⟩

theorem lev_length_le (ts : List Str) (l : Nat) : (lev ts l).length ≤ ts.length := by
  induction ts using List.reverseRecOn with
  | nil => simp [lev_nil]
  | append_singleton ts t ih =>
    rw [lev_append, List.length_append]
    split
    · unfold pushNew; split <;> simp <;> omega
    · simp; omega

theorem lev_last (ts : List Str) (t : Str) {l : Nat} (h : l ≤ t.length) :
    ∃ qs, lev (ts ++ [t]) l = qs ++ [t.take l] := by
  rw [lev_append, if_pos h]
  unfold pushNew
  split
  · rename_i h1
    obtain ⟨ys, hy⟩ := List.getLast?_eq_some_iff.1 h1
    exact ⟨ys, hy⟩
  · exact ⟨_, rfl⟩

theorem lev_eq_nil {ts : List Str} {l : Nat} (h : ∀ t ∈ ts, t.length < l) : lev ts l = [] := by
  rw [List.eq_nil_iff_forall_not_mem]
  intro p hp
  obtain ⟨h1, t, ht, h2⟩ := mem_lev.1 hp
  have := h t ht
  have := h2.length_le
  omega

theorem wordsAt_eq_nil {ss : List (Str × Word)} {l : Nat} (h : ∀ s ∈ ss, s.1.length ≤ l) : wordsAt ss l = [] := by
  unfold wordsAt
  rw [List.map_eq_nil_iff, List.filter_eq_nil_iff]
  intro s hs
  have := h s hs
  simp; omega

theorem modLevel_ok {ls : List Level} {l : Nat} {lv lv' : Level} {f : Level → R Level}
    (h : ls[l]? = some lv) (hf : f lv = .ok lv') : Builder.modLevel ls l f = .ok (ls.set l lv') := by
  simp [Builder.modLevel, getR, h, hf]

/-- Growing the level vector by empty levels. -/
theorem Rep.grow {L H : Nat} {ls : List Level} {ts : List Str} {ss : List (Str × Word)}
    (h : Rep L H ls ts ss) {v : Nat} (hv : v ≤ H) :
    Rep L (max H (v + 1)) (if v ≥ ls.length then ls ++ [Builder.newLevel] else ls) ts ss := by
  obtain ⟨h1, h2, h3, h4⟩ := h
  by_cases hc : v ≥ ls.length
  · have hvH : v = H := by omega
    subst hvH
    rw [if_pos hc]
    refine ⟨by simp; omega, fun t ht => le_trans (h2 t ht) (by omega),
      fun s hs => le_trans (h3 s hs) (by omega), ?_⟩
    intro l lv hl
    rw [List.getElem?_append] at hl
    split at hl
    · exact h4 l lv hl
    · rename_i hge
      have hl0 : l = v := by
        by_contra hne
        rw [List.getElem?_eq_none (by simp; omega)] at hl
        simp at hl
      subst hl0
      simp only [h1, Nat.sub_self, List.getElem?_cons_zero, Option.some.injEq] at hl
      subst hl
      rw [lev_eq_nil (fun t ht => by have := h2 t ht; omega), wordsAt_eq_nil h3]
      exact LRep.new L _
  · rw [if_neg hc]
    refine ⟨by omega, fun t ht => le_trans (h2 t ht) (by omega),
      fun s hs => le_trans (h3 s hs) (by omega), h4⟩

/-- One `insertKeyByte`: item `u ++ [c]` is appended to level `|u|` and `u` becomes internal. -/
theorem insertKeyByte_ok {L H : Nat} {ls : List Level} {ts ts' : List Str} {ss : List (Str × Word)}
    {u : Str} {c : Nat} {isStart isTerm : Bool} (h : Rep L H ls ts ss) (hn : ts.length < M32)
    (hv : u.length ≤ H)
    (hother : ∀ l, l ≠ u.length → lev ts' (l + 1) = lev ts (l + 1))
    (hnew : lev ts' (u.length + 1) = lev ts (u.length + 1) ++ [u ++ [c]])
    (hlast : u ≠ [] → ∃ qs, lev ts u.length = qs ++ [u] ∧ u ∉ qs)
    (hint : ∀ q, q ≠ u → (∃ l, q ∈ lev ts (l + 1)) → isInt ts' q = isInt ts q)
    (hu : isInt ts' u = true) (hp : isInt ts' (u ++ [c]) = false)
    (hb : ∀ t ∈ ts', t.length ≤ max H (u.length + 1))
    (hst : isStart = ((lev ts (u.length + 1)).getLast?.map List.dropLast != some u))
    (htm : isTerm = decide (c = 0)) :
    ∃ ls', Builder.insertKeyByte ls (lab (u ++ [c])) u.length isStart isTerm = .ok ls' ∧
      Rep L (max H (u.length + 1)) ls' ts' ss := by
  have hg := h.grow hv
  unfold Builder.insertKeyByte
  dsimp only
  set ls1 := (if u.length ≥ ls.length then ls ++ [Builder.newLevel] else ls) with hls1
  obtain ⟨g1, g2, g3, g4⟩ := hg
  have hlt : u.length < ls1.length := by rw [g1]; omega
  rw [assertR_ok (by simpa using hlt), ok_bind]
  -- marking the parent
  obtain ⟨ls2, e2, l2, k2⟩ : ∃ ls2, (if u.length > 0 then Builder.modLevel ls1 (u.length - 1) Builder.markChild
      else pure ls1) = .ok ls2 ∧ ls2.length = ls1.length ∧
      ∀ l lv, ls2[l]? = some lv →
        LRep L lv (lev ts (l + 1)) (if l = u.length then isInt ts else isInt ts') (wordsAt ss l) := by
    have hsame : ∀ l lv, u.length ≠ l + 1 → ls1[l]? = some lv →
        LRep L lv (lev ts (l + 1)) (if l = u.length then isInt ts else isInt ts') (wordsAt ss l) := by
      intro l lv hne hl
      have := g4 l lv hl
      split
      · exact this
      · obtain ⟨a1, a2, a3, a4, a5, a6, a7, a8, a9, a10⟩ := this
        have hmap : (lev ts (l + 1)).map (isInt ts') = (lev ts (l + 1)).map (isInt ts) := by
          apply List.map_congr_left
          intro q hq
          refine hint q ?_ ⟨l, hq⟩
          rintro rfl
          exact hne (mem_lev.1 hq).1
        exact ⟨a1, by rw [hmap]; exact a2, a3, a4, a5, a6, a7, a8, a9, a10⟩
    by_cases h0 : u.length > 0
    · rw [if_pos h0]
      have hune : u ≠ [] := List.ne_nil_of_length_pos h0
      obtain ⟨qs, hqs, hnq⟩ := hlast hune
      obtain ⟨lv, hlv⟩ : ∃ lv, ls1[u.length - 1]? = some lv :=
        ⟨_, List.getElem?_eq_getElem (by omega)⟩
      have hr := g4 _ _ hlv
      have e1 : u.length - 1 + 1 = u.length := by omega
      rw [e1, hqs] at hr
      have hlenq := lev_length_le ts u.length
      rw [hqs] at hlenq
      simp only [List.length_append, List.length_cons, List.length_nil] at hlenq
      obtain ⟨lv', em, hr'⟩ := markChild_ok (int' := isInt ts') hr (by omega)
        (by
          intro q hq
          refine hint q (fun h => hnq (h ▸ hq)) ⟨u.length - 1, ?_⟩
          rw [e1, hqs]; simp [hq]) hu
      refine ⟨_, modLevel_ok hlv em, by simp, ?_⟩
      intro l lv2 hl
      by_cases hl' : l = u.length - 1
      · subst hl'
        rw [List.getElem?_set_self (by omega)] at hl
        simp only [Option.some.injEq] at hl
        subst hl
        rw [if_neg (by omega), e1, hqs]
        exact hr'
      · rw [List.getElem?_set_ne (by omega)] at hl
        exact hsame l lv2 (by omega) hl
    · rw [if_neg h0]
      exact ⟨ls1, rfl, rfl, fun l lv hl => hsame l lv (by omega) hl⟩
  have e2' : ∀ (k : List Level → R (List Level)), (if u.length > 0 then
      Builder.modLevel ls1 (u.length - 1) Builder.markChild >>= k else pure ls1 >>= k) = k ls2 := by
    intro k
    by_cases h0 : u.length > 0
    · rw [if_pos h0] at e2 ⊢; rw [e2, ok_bind]
    · rw [if_neg h0] at e2 ⊢; rw [e2, ok_bind]
  rw [e2']
  obtain ⟨lv, hlv⟩ : ∃ lv, ls2[u.length]? = some lv := ⟨_, List.getElem?_eq_getElem (by omega)⟩
  have hr := k2 _ _ hlv
  rw [if_pos rfl] at hr
  obtain ⟨lv', ep, hr'⟩ := pushItem_ok (int' := isInt ts') (p := u ++ [c]) (isStart := isStart) (isTerm := isTerm) hr
    (by
      intro q hq
      refine hint q ?_ ⟨_, hq⟩
      rintro rfl
      have := (mem_lev.1 hq).1
      omega) hp (by simpa using hst) (by simp [htm])
  refine ⟨_, modLevel_ok hlv ep, by simp; omega, hb, g3, ?_⟩
  intro l lv2 hl
  by_cases hl' : l = u.length
  · subst hl'
    rw [List.getElem?_set_self (by omega)] at hl
    simp only [Option.some.injEq] at hl
    subst hl
    rw [hnew]
    exact hr'
  · rw [List.getElem?_set_ne (by omega)] at hl
    have := k2 l lv2 hl
    rw [if_neg hl'] at this
    rw [hother l hl']
    exact this

theorem isInt_append (ts : List Str) (t q : Str) :
    isInt (ts ++ [t]) q = (isInt ts q || (decide (q <+: t) && decide (q ≠ t))) := by
  simp [isInt]

theorem prefix_concat {q u : Str} {c : Nat} : q <+: u ++ [c] ∧ q ≠ u ++ [c] ↔ q <+: u := by
  constructor
  · rintro ⟨h1, h2⟩
    rcases List.prefix_concat_iff.1 h1 with h | h
    · exact absurd h h2
    · exact h
  · intro h
    refine ⟨h.trans (List.prefix_append _ _), ?_⟩
    rintro rfl
    have := h.length_le
    simp only [List.length_append, List.length_cons, List.length_nil] at this
    omega

theorem isInt_concat (ts : List Str) (u q : Str) (c : Nat) :
    isInt (ts ++ [u ++ [c]]) q = (isInt ts q || decide (q <+: u)) := by
  rw [isInt_append, ← Bool.decide_and]
  congr 2
  exact propext prefix_concat

/-- The first byte of a key that is not shared with the previous key. -/
theorem insertFirst_ok {L H : Nat} {ls : List Level} {ts : List Str} {ss : List (Str × Word)}
    {u : Str} {c : Nat} {isStart : Bool} (h : Rep L H ls ts ss) (hn : ts.length < M32)
    (hs : ts.Pairwise (· < ·)) (hv : u.length ≤ H) (hc : c ≠ 0)
    (hcase : (ts = [] ∧ u = [] ∧ isStart = true) ∨
      (∃ ts0 tl, ts = ts0 ++ [tl] ∧ u <+: tl ∧ u ≠ tl ∧ isStart = false))
    (hnew : ∀ t ∈ ts, ¬ u ++ [c] <+: t) :
    ∃ ls', Builder.insertKeyByte ls (lab (u ++ [c])) u.length isStart false = .ok ls' ∧
      Rep L (max H (u.length + 1)) ls' (ts ++ [u ++ [c]]) ss := by
  have hlevu : ∀ l, l ≤ u.length → 0 < l → lev (ts ++ [u ++ [c]]) l = lev ts l := by
    intro l hl hl0
    rw [lev_append, if_pos (by simp; omega)]
    rcases hcase with ⟨-, rfl, -⟩ | ⟨ts0, tl, rfl, h1, h2, -⟩
    · simp at hl; omega
    · have e1 : (u ++ [c]).take l = tl.take l := by
        rw [List.take_append_of_le_length hl]
        obtain ⟨z, rfl⟩ := h1
        rw [List.take_append_of_le_length hl]
      rw [e1]
      obtain ⟨qs, hq⟩ := lev_last ts0 tl (l := l) (le_trans hl h1.length_le)
      unfold pushNew
      rw [if_pos]
      rw [hq]; simp
  refine insertKeyByte_ok (u := u) (c := c) h hn hv ?_ ?_ ?_ ?_ ?_ ?_ ?_ ?_ (by simp [hc])
  · intro l hl
    by_cases h1 : l + 1 ≤ u.length
    · exact hlevu _ h1 (by omega)
    · rw [lev_append, if_neg (by simp; omega)]
  · rw [lev_append, if_pos (by simp)]
    unfold pushNew
    have hfull : (u ++ [c]).take (u.length + 1) = u ++ [c] := List.take_of_length_le (by simp)
    rw [hfull, if_neg]
    intro h1
    have := List.mem_of_getLast? h1
    obtain ⟨-, t, ht, h2⟩ := mem_lev.1 this
    exact hnew t ht h2
  · intro hune
    rcases hcase with ⟨-, rfl, -⟩ | ⟨ts0, tl, rfl, h1, h2, -⟩
    · exact absurd rfl hune
    · obtain ⟨qs, hq⟩ := lev_last ts0 tl (l := u.length) h1.length_le
      rw [← List.prefix_iff_eq_take.1 h1] at hq
      refine ⟨qs, hq, ?_⟩
      have := lev_sorted hs u.length
      rw [hq, List.pairwise_append] at this
      intro hmem
      exact lt_irrefl _ (this.2.2 u hmem u (by simp))
  · intro q hq ⟨l, hl⟩
    rw [isInt_concat]
    by_cases hqu : q <+: u
    · rcases hcase with ⟨rfl, -, -⟩ | ⟨ts0, tl, rfl, h1, h2, -⟩
      · simp [lev_nil] at hl
      · have : isInt (ts0 ++ [tl]) q = true := by
          refine isInt_iff.2 ⟨tl, by simp, hqu.trans h1, ?_⟩
          rintro rfl
          have e1 := hqu.length_le
          exact h2 (h1.eq_of_length (le_antisymm h1.length_le e1))
        simp [this]
    · simp [hqu]
  · rw [isInt_concat]; simp
  · rw [isInt_concat]
    have h1 : ¬ (u ++ [c] <+: u) := by
      intro hh; have := hh.length_le; simp only [List.length_append, List.length_cons, List.length_nil] at this; omega
    simp only [h1, decide_false, Bool.or_false]
    rw [Bool.eq_false_iff]
    intro hh
    obtain ⟨t, ht, h2, -⟩ := isInt_iff.1 hh
    exact hnew t ht h2
  · intro t ht
    rw [List.mem_append, List.mem_singleton] at ht
    rcases ht with ht | rfl
    · exact le_trans (h.bound t ht) (by omega)
    · simp
  · rcases hcase with ⟨rfl, rfl, rfl⟩ | ⟨ts0, tl, rfl, h1, h2, rfl⟩
    · simp [lev_nil]
    · have hlt : u.length < tl.length := by
        rcases Nat.lt_or_ge u.length tl.length with hh | hh
        · exact hh
        · exact absurd (h1.eq_of_length (le_antisymm h1.length_le hh)) h2
      obtain ⟨qs, hq⟩ := lev_last ts0 tl (l := u.length + 1) (by omega)
      rw [hq]
      have : (tl.take (u.length + 1)).dropLast = u := by
        obtain ⟨z, rfl⟩ := h1
        cases z with
        | nil => simp at hlt
        | cons a z =>
          rw [List.take_append, List.take_of_length_le (by omega)]
          simp
      simp [this]

/-- A further symbol of the key being inserted. -/
theorem insertNext_ok {L H : Nat} {ls : List Level} {ts : List Str} {ss : List (Str × Word)}
    {u : Str} {c : Nat} (h : Rep L H ls (ts ++ [u]) ss) (hn : ts.length + 1 < M32)
    (hs : (ts ++ [u]).Pairwise (· < ·))
    (hnew : ∀ t ∈ ts, ¬ u <+: t) :
    ∃ ls', Builder.insertKeyByte ls (lab (u ++ [c])) u.length true (decide (c = 0)) = .ok ls' ∧
      Rep L (max H (u.length + 1)) ls' (ts ++ [u ++ [c]]) ss := by
  have hv : u.length ≤ H := h.bound u (by simp)
  have hlev0 : ∀ l, u.length < l → lev (ts ++ [u]) l = lev ts l := by
    intro l hl; rw [lev_append, if_neg (by omega)]
  refine insertKeyByte_ok (u := u) (c := c) h (by simpa using hn) hv ?_ ?_ ?_ ?_ ?_ ?_ ?_ ?_ rfl
  · intro l hl
    by_cases h1 : l + 1 ≤ u.length
    · rw [lev_append, lev_append, if_pos h1, if_pos (by simp; omega), List.take_append_of_le_length h1]
    · rw [lev_append, if_neg (by simp; omega), hlev0 _ (by omega)]
  · rw [lev_append, if_pos (by simp), hlev0 _ (by omega)]
    unfold pushNew
    have hfull : (u ++ [c]).take (u.length + 1) = u ++ [c] := List.take_of_length_le (by simp)
    rw [hfull, if_neg]
    intro h1
    have := List.mem_of_getLast? h1
    obtain ⟨-, t, ht, h2⟩ := mem_lev.1 this
    exact hnew t ht ((List.prefix_append _ _).trans h2)
  · intro hune
    obtain ⟨qs, hq⟩ := lev_last ts u (l := u.length) le_rfl
    rw [List.take_length] at hq
    refine ⟨qs, hq, ?_⟩
    have := lev_sorted hs u.length
    rw [hq, List.pairwise_append] at this
    intro hmem
    exact lt_irrefl _ (this.2.2 u hmem u (by simp))
  · intro q hq ⟨l, hl⟩
    rw [isInt_concat, isInt_append]
    simp [hq]
  · rw [isInt_concat]; simp
  · rw [isInt_concat]
    have h1 : ¬ (u ++ [c] <+: u) := by
      intro hh; have := hh.length_le; simp only [List.length_append, List.length_cons, List.length_nil] at this; omega
    simp only [h1, decide_false, Bool.or_false]
    rw [Bool.eq_false_iff]
    intro hh
    obtain ⟨t, ht, h2, -⟩ := isInt_iff.1 hh
    exact hnew t ht ((List.prefix_append _ _).trans h2)
  · intro t ht
    rw [List.mem_append, List.mem_singleton] at ht
    rcases ht with ht | rfl
    · exact le_trans (h.bound t (by simp [ht])) (by omega)
    · simp
  · rw [hlev0 _ (by omega)]
    symm
    rw [bne_iff_ne]
    intro hh
    rw [Option.map_eq_some_iff] at hh
    obtain ⟨q, hq, hqu⟩ := hh
    obtain ⟨-, t, ht, h2⟩ := mem_lev.1 (List.mem_of_getLast? hq)
    exact hnew t ht (hqu ▸ (List.dropLast_prefix q).trans h2)

end Surf
