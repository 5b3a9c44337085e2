import Verif.Props.RangeWitness

/-!
# Lists with one different key that starts with 0xFF (C53)

The theorems hold for every machine with `Env.strict = false`, with and without `assert`s.
-/

set_option linter.unusedSectionVars false
set_option autoImplicit false

namespace Surf.Props
open Surf Trie

section
variable [Env] {cfg : Config} {keys : List Key}

/-- The bitmaps of the root are empty. -/
structure EmptyRoot (d : LoudsDense) : Prop where
  height : d.height = 1
  lab : d.labelBitmaps.toBitvector.Rep (List.replicate 256 false)
  chl : d.childBitmaps.toBitvector.Rep (List.replicate 256 false)

theorem emptyRoot {sw : Str → Word} {s : Nat} {f : Filter} (hr : FRep cfg [[0]] sw s f) : EmptyRoot f.dense := by
  have hs : s = 1 := by
    have h1 := hr.s1
    have h2 := hr.sH
    have h3 : maxLen [[0]] = 1 := rfl
    omega
  subst hs
  have hn : nodesR [[0]] 0 1 = [[]] := by decide
  have hl : labelBits [[0]] [[]] = List.replicate 256 false := by decide +kernel
  have hc : childBits [[0]] [[]] = List.replicate 256 false := by decide +kernel
  refine ⟨hr.dense.height, ?_, ?_⟩
  · have := hr.dense.lab.base
    rwa [hn, hl] at this
  · have := hr.dense.chl.base
    rwa [hn, hc] at this

theorem zeros_getD (n j : Nat) : (List.replicate n false).getD j false = false := by
  rw [List.getD_eq_getElem?_getD, List.getElem?_replicate]
  split <;> rfl

/-- The search for the next label leaves the root. -/
theorem EmptyRoot.next {d : LoudsDense} (h : EmptyRoot d) (hs : Env.strict = false) {p : Nat} (hp : p < 256) :
    ∃ n, d.getNextPos p = .ok n ∧ 256 ≤ n ∧ (p < 255 → n = 256) := by
  have hl := h.lab.len_bounds
  have hn := h.lab.num
  have hlen := h.lab.len
  simp only [List.length_replicate] at hl hn
  have hb : d.labelBitmaps.bits.length = 4 := by omega
  unfold LoudsDense.getNextPos
  by_cases h5 : p = 255
  · subst h5
    have e : ∃ n, d.labelBitmaps.distanceToNextSetBit 255 = .ok n ∧ 1 ≤ n ∧ n ≤ 65 := by
      unfold Bitvector.distanceToNextSetBit
      rw [assertR_ok (by simp; omega), ok_bind]
      dsimp only
      rw [show add32 255 1 = 256 from rfl]
      obtain ⟨w, hw⟩ := rdW_lenient hs d.labelBitmaps.bits (256 / 64)
      rw [hw, ok_bind]
      by_cases hz : (w <<< (256 % 64) != 0) = true
      · rw [if_pos hz]
        refine ⟨_, rfl, by omega, ?_⟩
        have : clz (w <<< (256 % 64)) ≤ 64 := by
          unfold clz
          have := List.findIdx_le_length (p := fun i => (w <<< (256 % 64)).getMsbD i) (xs := List.range 64)
          simpa using this
        omega
      · rw [if_neg hz, ← hlen, hb, if_neg (by decide)]
        rw [Bitvector.nextLoop, ← hlen, hb, if_neg (by decide)]
        exact ⟨_, rfl, by decide, by decide⟩
    obtain ⟨n, e, h1, h2⟩ := e
    rw [e, ok_bind]
    refine ⟨_, rfl, ?_, by omega⟩
    rw [add32_eq (by rw [M32_eq]; omega)]
    omega
  · rw [Bitvector.distNext_none h.lab (by rw [List.length_replicate]; decide) (by omega) (by rw [List.length_replicate]; omega)
      fun j _ => zeros_getD _ _, ok_bind, List.length_replicate]
    refine ⟨256, ?_, by omega, fun _ => rfl⟩
    have : (if (p + 1) / 64 + 1 = d.labelBitmaps.bits.length then 256 - p else 64 * d.labelBitmaps.bits.length - p) = 256 - p := by
      rw [hb]
      split <;> omega
    rw [this, add32_eq (by rw [M32_eq]; omega)]
    exact ok_congr (by omega)

/-- There is no label to go back to. -/
theorem EmptyRoot.prev {d : LoudsDense} (h : EmptyRoot d) : d.getPrevPos 256 = .ok none := by
  unfold LoudsDense.getPrevPos
  rw [Bitvector.distPrev_none h.lab (by rw [List.length_replicate]) (by decide) fun j _ => zeros_getD _ _, ok_bind, if_pos (by decide)]
  rfl

/-- Every seek for a non-empty key ends behind the last key. -/
theorem EmptyRoot.seek {d : LoudsDense} (h : EmptyRoot d) (hs : Env.strict = false) {q : Key} (hq : q ≠ []) (incl : Bool) {it : DIter}
    (hk : it.key.length = 1) (hp : it.pos.length = 1) (h0 : it.keyLen = 0) (ha : it.atPrefix = false) :
    ∃ it', d.moveToKeyGreaterThan q incl it = .ok (false, it') ∧ it'.valid = false ∧ it'.key.length = 1 ∧ it'.pos.length = 1 := by
  obtain ⟨b, q', rfl⟩ := List.exists_cons_of_ne_nil hq
  have hb : b.toNat < 256 := b.toNat_lt
  unfold LoudsDense.moveToKeyGreaterThan
  rw [h.height, LoudsDense.seekLoop]
  dsimp only
  rw [if_neg (by simp), show mul32 0 kFanout = 0 from rfl, show (b :: q').getD 0 0 = b from rfl,
    add32_eq (by rw [M32_eq]; omega), Nat.zero_add]
  have happ : it.append b.toNat = .ok { it with key := it.key.set 0 (UInt8.ofNat (b.toNat % kFanout)), pos := it.pos.set 0 b.toNat, keyLen := 1 } := by
    unfold DIter.append
    rw [h0, assertR_ok (by simp [hk]), ok_bind, wr_ok (by omega), ok_bind, wr_ok (by omega), ok_bind]
    rfl
  rw [happ, ok_bind, Bitvector.readBit_ok h.lab (by rw [List.length_replicate]; omega), ok_bind, zeros_getD, if_pos (by decide)]
  obtain ⟨n, e, h1, -⟩ := h.next hs hb
  unfold DIter.inc
  dsimp only
  rw [assertR_ok (by simp), ok_bind, ha, if_neg (by simp), DIter.incLoop]
  dsimp only
  rw [rdP_ok (by simp [hp])]
  have hg : (it.pos.set 0 b.toNat).getD 0 0 = b.toNat := by
    rw [List.getD_eq_getElem?_getD, List.getElem?_set_self (by omega)]
    rfl
  rw [hg, ok_bind, e, ok_bind, if_pos (by
    unfold kFanout
    have := Nat.div_eq_of_lt hb
    omega), if_pos rfl, pure_bind]
  exact ⟨_, rfl, rfl, by simp [hk], by simp [hp]⟩

/-- `moveToLast` points at the byte 0x00, which no stored key starts with. -/
theorem EmptyRoot.last {f : Filter} (h : EmptyRoot f.dense) : ∃ it, f.moveToLast = .ok it ∧ it.isValid = true ∧ it.getKey = [0] := by
  unfold Filter.moveToLast
  dsimp only
  rw [if_pos (by rw [h.height]; decide)]
  unfold DIter.setToLastLabelInRoot
  rw [show kFanout = 256 from rfl, h.prev]
  simp only [ok_bind, Option.getD_none]
  rw [wr_ok (by simp [Iter.new, DIter.new, h.height]), ok_bind, wr_ok (by simp [Iter.new, DIter.new, h.height]), ok_bind]
  unfold DIter.moveToRightMostKey
  simp only [Iter.new, DIter.new, h.height, pure_bind]
  rw [assertR_ok (by simp), ok_bind, show sub32 (0 + 1) 1 = 0 from rfl, rdP_ok (by simp), ok_bind]
  rw [show ((List.replicate 1 0).set 0 0).getD 0 0 = 0 from rfl, Bitvector.readBit_ok h.chl (by rw [List.length_replicate]; decide), ok_bind, zeros_getD,
    if_pos (by decide), pure_bind]
  exact ⟨_, rfl, rfl, rfl⟩

/-- Where `moveToFirst` points, if it delivers an iterator. -/
theorem EmptyRoot.first {f : Filter} (h : EmptyRoot f.dense) (hs : Env.strict = false) {it : Iter} (e : f.moveToFirst = .ok it)
    (hv : it.isValid = true) : it.getKey.head? = some 0 := by
  obtain ⟨n, en, -, hn⟩ := h.next hs (p := 0) (by decide)
  obtain rfl := hn (by decide)
  unfold Filter.moveToFirst at e
  dsimp only at e
  rw [if_pos (by rw [h.height]; decide)] at e
  unfold DIter.setToFirstLabelInRoot at e
  rw [Bitvector.readBit_ok h.lab (by rw [List.length_replicate]; decide), ok_bind, zeros_getD, if_neg (by simp), en, ok_bind] at e
  dsimp only at e
  rw [wr_ok (by simp [Iter.new, DIter.new, h.height]), ok_bind, wr_ok (by simp [Iter.new, DIter.new, h.height]), ok_bind] at e
  unfold DIter.moveToLeftMostKey at e
  simp only [Iter.new, DIter.new, h.height, pure_bind] at e
  rw [assertR_ok (by simp), ok_bind, show sub32 (0 + 1) 1 = 0 from rfl, rdP_ok (by simp), ok_bind] at e
  simp only [bind_ok_iff] at e
  obtain ⟨d, ⟨c, -, ed⟩, e⟩ := e
  have hd : d.key = [0] ∧ d.keyLen = 1 ∧ d.atPrefix = false ∧ d.valid = true := by
    cases c
    · simp at ed
      subst ed
      exact ⟨rfl, rfl, rfl, rfl⟩
    · rw [if_neg (by decide), show 1 - 1 - 0 = 0 from rfl, DIter.leftLoop, bind_ok_iff] at ed
      obtain ⟨c, -, ed⟩ := ed
      cases ed
      exact ⟨rfl, rfl, rfl, rfl⟩
  obtain ⟨h1, h2, h3, h4⟩ := hd
  have hg : d.getKey = [0] := by
    unfold DIter.getKey
    rw [h1, h2, h3, h4]
    rfl
  have hit : it.dense = d := by
    split at e
    · cases e; rfl
    · simp only [bind_ok_iff] at e
      obtain ⟨s, -, e⟩ := e
      cases e; rfl
  unfold Iter.getKey
  rw [hv, hit, hg, if_neg (by decide)]
  split <;> rfl

omit [Env] in
theorem singleFF_stored {k : Key} (hff : Spec.SingleFF keys) (hk : k ∈ keys) : (Spec.stored keys k).head? ≠ some 0 := by
  obtain ⟨k0, h1, h2⟩ := hff
  rw [h1 k hk]
  unfold Spec.stored
  cases k0 with
  | nil => simp at h2
  | cons a k0 =>
    simp at h2
    subst h2
    cases Spec.cut keys (255 :: k0) <;> simp

/-- **C53.** `moveToFirst` and `moveToLast` point at the smallest and the largest key exactly when there are two different keys or the only one does not start
with 0xFF.  Otherwise the filter behaves as if it were empty: no range query with a non-empty left bound is answered `true`, every count is 0 and every seek
ends behind the last key. -/
theorem C53 (h : Setting cfg keys) (hs : Env.strict = false) :
    ∃ f, SuRF.create cfg keys = .ok ⟨f, Iter.new f, Iter.new f⟩ ∧
      ((∃ it, f.moveToFirst = .ok it ∧ it.isValid = true ∧ ∃ k ∈ keys, (∀ k' ∈ keys, k ≤ k') ∧ it.getKey = Spec.stored keys k) ↔
        ¬ Spec.SingleFF keys) ∧
      ((∃ it, f.moveToLast = .ok it ∧ it.isValid = true ∧ ∃ k ∈ keys, (∀ k' ∈ keys, k' ≤ k) ∧ it.getKey = Spec.stored keys k) ↔
        ¬ Spec.SingleFF keys) ∧
      (Spec.SingleFF keys → ∀ q, q ≠ [] →
        (∀ incl, ∃ it, f.moveToKeyGreaterThan q incl = .ok it ∧ it.isValid = false) ∧
        (∀ incl right ri, ∃ o, SuRF.lookupRange ⟨f, Iter.new f, Iter.new f⟩ q incl right ri = .ok (false, o)) ∧
        ∀ right, ∃ o, SuRF.approxCount ⟨f, Iter.new f, Iter.new f⟩ q right = .ok (0, o)) := by
  by_cases hff : Spec.SingleFF keys
  · obtain ⟨f, s, sw, e, hr, -⟩ := h.create_ff hs hff
    have hd := emptyRoot hr
    refine ⟨f, by unfold SuRF.create; rw [e]; rfl, ⟨?_, fun hc => absurd hff hc⟩, ⟨?_, fun hc => absurd hff hc⟩, fun _ q hq => ?_⟩
    · rintro ⟨it, e1, hv, k, hk, -, hg⟩ -
      have := hd.first hs e1 hv
      rw [hg] at this
      exact singleFF_stored hff hk this
    · rintro ⟨it, e1, hv, k, hk, -, hg⟩ -
      obtain ⟨it', e2, -, hg'⟩ := hd.last
      rw [e2] at e1
      cases e1
      rw [hg'] at hg
      exact singleFF_stored hff hk (by rw [← hg]; rfl)
    · have hgt : ∀ incl, ∃ it, f.moveToKeyGreaterThan q incl = .ok it ∧ it.isValid = false := by
        intro incl
        unfold Filter.moveToKeyGreaterThan
        dsimp only
        obtain ⟨d, e1, hv, -⟩ := hd.seek hs hq incl (it := (Iter.new f).dense) (by simp [Iter.new, DIter.new, hd.height])
          (by simp [Iter.new, DIter.new, hd.height]) rfl rfl
        rw [e1, ok_bind]
        dsimp only
        rw [hv, if_pos (by decide)]
        exact ⟨_, rfl, by unfold Iter.isValid; simp [hv]⟩
      refine ⟨hgt, fun incl right ri => ?_, fun right => ?_⟩
      · unfold SuRF.lookupRange Filter.lookupRange Filter.rangeSeek
        dsimp only
        obtain ⟨d, e1, hv, -⟩ := hd.seek hs hq incl (it := (Iter.new f).clear.dense) (by simp [Iter.new, Iter.clear, DIter.clear, DIter.new, hd.height])
          (by simp [Iter.new, Iter.clear, DIter.clear, DIter.new, hd.height]) rfl rfl
        rw [e1, ok_bind]
        dsimp only
        rw [hv, if_pos (by decide), pure_bind, if_pos (by unfold Iter.isValid; simp [hv]), pure_bind]
        exact ⟨_, rfl⟩
      · obtain ⟨it, e1, hv⟩ := hgt true
        unfold SuRF.approxCount Filter.approxCount
        rw [e1, ok_bind, hv, if_pos (by decide), pure_bind]
        exact ⟨_, rfl⟩
  · obtain ⟨f, e, h1⟩ := C10_partial h hs hff
    obtain ⟨f', e', h2⟩ := C11_partial h hs hff
    rw [e] at e'
    cases e'
    exact ⟨f, by unfold SuRF.create; rw [e]; rfl, ⟨fun _ => hff, fun _ => h1⟩, ⟨fun _ => hff, fun _ => h2⟩, fun hc => absurd hc hff⟩

end

/-- A list of the second kind, and the model on it: the range from 0x00 to 0xFF 0xFF is reported empty although it contains the key. -/
theorem C53_example : Setting cfgNone [[255, 1]] ∧ Spec.SingleFF [[255, 1]] ∧
    @rangeQ Env.x86 cfgNone [[255, 1]] [0] true [255, 255] true = .ok false :=
  ⟨⟨by decide, rfl, by decide, ⟨by decide, by decide, by decide⟩, fits_of_total (by decide) (by decide)⟩,
    ⟨[255, 1], by decide, rfl⟩, by decide +kernel⟩

end Surf.Props
