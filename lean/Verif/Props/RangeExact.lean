import Verif.Props.CountAny
import Verif.Props.PrefixFree
import Verif.Props.RangeWitness
import Verif.Props.Build

/-!
# What a positive range answer means (C55)

The exact value of `lookupRange` on an object that was just built.  The theorems hold for every machine with `Env.strict = false`, with and
without `assert`s.
-/

set_option linter.unusedSectionVars false
set_option autoImplicit false
set_option maxRecDepth 1000000

namespace Spec

/-- A filter with `r` real suffix bits cannot tell `q` from the stored key `k`: `q` matches `k`, and the bits behind are the same. -/
def Close (r : Nat) (keys : List Bytes) (k q : Bytes) : Prop :=
  Matches keys k q ∧ realSuffix0 r k (cut keys k) = realSuffix0 r q (cut keys k)

/-- `k` is the least stored key that is above `q` or close to it. -/
def FirstFrom (r : Nat) (keys : List Bytes) (q k : Bytes) : Prop :=
  k ∈ keys ∧ (q < k ∨ Close r keys k q) ∧ ∀ k' ∈ keys, (q < k' ∨ Close r keys k' q) → k ≤ k'

/-- First defect: `k` is the beginning of another stored key and shorter than `q`, and its first `s` bytes do not decide. -/
def Shorter (s : Nat) (keys : List Bytes) (k q : Bytes) : Prop :=
  k.length < q.length ∧ (k.length < s ∨ k.take s <+: q) ∧ ∃ k' ∈ keys, k' ≠ k ∧ k <+: k'

/-- Second defect: `q` is the beginning of `k`, and exactly 2018 bytes shorter than what is stored of it (or than the `s` bytes in the first encoding). -/
def Far (s : Nat) (keys : List Bytes) (k q : Bytes) : Prop :=
  q <+: k ∧ (if q.length < s then min s (stored keys k).length else (stored keys k).length) = q.length + 2018

end Spec

namespace Surf.Props
open Surf Trie

section
variable [Env] {cfg : Config} {keys : List Key}

/-- Number of real suffix bits that comparisons use. -/
def realBits (cfg : Config) : Nat := if cfg.suffixType = .kReal ∨ cfg.suffixType = .kMixed then cfg.realLen else 0

omit [Env] in
theorem close_self {r : Nat} {k : Key} (hk : k ∈ keys) : Spec.Close r keys k k := ⟨⟨hk, Or.inl rfl⟩, rfl⟩

/-- Suffixes compare as "could be equal" if the real bits are equal. -/
theorem cmpW_could (hs : Env.strict = false) (hok : cfg.Ok) (k q : Key) (l : Nat) :
    cmpW cfg (sfxOf cfg k l) q l = kCouldBePositive ↔ Spec.realSuffix0 (realBits cfg) k l = Spec.realSuffix0 (realBits cfg) q l := by
  unfold realBits
  by_cases hn : cfg.suffixType = .kReal ∨ cfg.suffixType = .kMixed
  swap
  · rw [if_neg hn]
    have h1 : cfg.suffixType = .kNone ∨ cfg.suffixType = .kHash := by
      cases hc : cfg.suffixType <;> simp_all
    have : cmpW cfg (sfxOf cfg k l) q l = kCouldBePositive := by
      unfold cmpW cmpR
      rw [if_pos h1]
    rw [this]
    have h0 : ∀ a : Key, Spec.realSuffix0 0 a l = [] := by
      intro a
      unfold Spec.realSuffix0 Spec.realSuffix
      split <;> simp
    rw [h0, h0]
    simp
  rw [if_pos hn]
  have h64 : cfg.realLen ≤ 64 := by have := hok.1; omega
  have hval : (if cfg.suffixType = .kMixed then BitvectorSuffix.extractRealSuffix (sfxOf cfg k l) cfg.realLen
      else (pure (sfxOf cfg k l) : R Word)) = .ok (BitvectorSuffix.constructRealSuffix k l cfg.realLen) := by
    rcases hn with hn | hn
    · rw [if_neg (by simp [hn])]
      unfold sfxOf BitvectorSuffix.constructSuffix
      rw [hn]
      rfl
    · rw [if_pos hn]
      have h1 := hok.2
      have h2 := hok.1
      rw [hn] at h1
      exact sfxOf_real hs hok (Or.inr hn) (by dsimp only at h1; omega) k l
  have hc := cmpR_ok (cfg := cfg) hs (sfxOf cfg k l) q l
  have hc : (if BitvectorSuffix.constructRealSuffix k l cfg.realLen = 0 ∧ BitvectorSuffix.constructRealSuffix q l cfg.realLen = 0 then
        (.ok kCouldBePositive : R Int)
      else if BitvectorSuffix.constructRealSuffix k l cfg.realLen = 0 ∨
        BitvectorSuffix.constructRealSuffix k l cfg.realLen < BitvectorSuffix.constructRealSuffix q l cfg.realLen then .ok (-1)
      else if BitvectorSuffix.constructRealSuffix k l cfg.realLen = BitvectorSuffix.constructRealSuffix q l cfg.realLen then
        .ok kCouldBePositive
      else .ok 1) = .ok (cmpW cfg (sfxOf cfg k l) q l) := by
    rw [← hc]
    symm
    unfold cmpR
    have e0 : ¬ (cfg.suffixType = .kNone ∨ cfg.suffixType = .kHash) := by rcases hn with hn | hn <;> simp [hn]
    rw [if_neg e0]
    dsimp only
    rcases hn with hn | hn
    · have e1 : ¬ cfg.suffixType = .kMixed := by simp [hn]
      rw [if_neg e1] at hval
      rw [if_neg e1, hval, ok_bind]
      rfl
    · rw [if_pos hn] at hval
      rw [if_pos hn, hval, ok_bind]
      rfl
  have hinj : ∀ {a b : Int}, (Except.ok a : R Int) = .ok b → b = a := fun h => by cases h; rfl
  rw [← real_inj h64]
  generalize BitvectorSuffix.constructRealSuffix k l cfg.realLen = a at hc
  generalize BitvectorSuffix.constructRealSuffix q l cfg.realLen = b at hc
  split at hc
  · rename_i h1
    rw [hinj hc, h1.1, h1.2]
    simp
  · rename_i h1
    split at hc
    · rename_i h2
      rw [hinj hc]
      refine ⟨fun g => absurd g (by decide), fun g => ?_⟩
      exfalso
      subst g
      rcases h2 with h2 | h2
      · exact h1 ⟨h2, h2⟩
      · exact absurd h2 (by rw [BitVec.lt_def]; omega)
    · split at hc
      · rename_i h3
        rw [hinj hc, h3]
        simp
      · rename_i h3
        rw [hinj hc]
        exact ⟨fun g => absurd g (by decide), fun g => absurd g h3⟩

/-- Where the search of a range query ends. -/
theorem land (h : Setting cfg keys) (hs : Env.strict = false) {f : Filter} {s : Nat}
    (hr : FRep cfg (leafStrs keys) (swKeys cfg keys) s f) (hpad : PadOk f (leafStrs keys) s) {q : Key} (incl : Bool)
    (hq : SafeSeek cfg keys s q) {it0 : Iter} (hcl : Clean (leafStrs keys) s it0) :
    ∃ it, seekFrom f it0 q incl = .ok it ∧
      ((it.isValid = false ∧ ∀ k ∈ keys, ¬ Spec.Above q incl k) ∨
        ∃ k ∈ keys, At (leafStrs keys) s it (leafOf keys k) ∧ (q < k ∨ Spec.Close (realBits cfg) keys k q) ∧
          ∀ k' ∈ keys, Spec.Above q incl k' → k ≤ k') ∧
      (incl = true ∨ Spec.PrefixFree keys → ∀ k' ∈ keys, Spec.Close (realBits cfg) keys k' q →
        At (leafStrs keys) s it (leafOf keys k')) := by
  obtain ⟨it, e, ho⟩ := hr.seek hs hpad h.root q hq.ne incl (h.seekSafe hr.s1 hq.safe) hcl
  have hk := h.seekKeys hs hq.sfx ho
  refine ⟨it, e, ?_, fun hpf k' hk' hc => ?_⟩
  · rcases hk with ⟨hf, hv, h1, h2⟩ | ⟨k, hk, hmin, ⟨ha, ho'⟩ | ⟨-, h2, h3, h4, h5, -⟩⟩
    · exact Or.inl ⟨hv, h1⟩
    · refine Or.inr ⟨k, hk, ha, ?_, hmin⟩
      rcases ho' with ⟨-, h1 | ⟨-, rfl⟩, -⟩ | ⟨hf, hm⟩ | ⟨-, -, -, h1⟩
      · exact Or.inl h1
      · exact Or.inr (close_self hk)
      · rcases ho with ⟨hf', -⟩ | ⟨p, hp, hpw, hat, ho⟩ | ⟨hx, hwq, t, hl, ho⟩
        · rw [hf] at hf'; cases hf'
        · have hpe := at_unique h hk hat ha
          subst hpe
          rcases ho with ⟨-, h1 | h1⟩ | ⟨h1, -⟩
          · have := h.leaf_whole hk h1
            subst this
            exact Or.inr (close_self hk)
          · rw [swKeys_leaf h.wf cfg (h.leaf_mem hk), leaf_length h.wf h.sorted (h.leaf_mem hk)] at h1
            rcases cmpW_cases (cfg := cfg) (sfxOf cfg k (Spec.cut keys k)) q (Spec.cut keys k) hs with hc | hc | hc
            · exact Or.inr ⟨hm, (cmpW_could hs h.ok k q _).1 hc⟩
            · exact absurd hc h1
            · exact Or.inl ((h.cmp hs hm hq.sfx).2 hc)
          · rw [hf] at h1; cases h1
        · exact (own_absurd h.wf (h.mem_ts.2 ⟨k, hk, rfl⟩) ((leaf_match h.wf h.sorted (h.leaf_mem hk)).2 hm) hx hwq).elim
      · exact Or.inl h1
    · rcases hq.long with hb | hb
      · omega
      · have := hb k hk h4 fun hc => above_irrefl (incl := false) (Or.inl h5) (hc ▸ h5)
        omega
  · obtain ⟨hm, hsx⟩ := hc
    have hmem := h.mem_ts.2 ⟨k', hk', rfl⟩
    have hpre := (leaf_match h.wf h.sorted (h.leaf_mem hk')).2 hm
    have hcmp : cmpW cfg (swKeys cfg keys (leafOf keys k')) q (leafOf keys k').length ≠ -1 := by
      rw [swKeys_leaf h.wf cfg (h.leaf_mem hk'), leaf_length h.wf h.sorted (h.leaf_mem hk'), (cmpW_could hs h.ok k' q _).2 hsx]
      decide
    rcases ho with ⟨-, p, hpast, -⟩ | ⟨p, hp, hpw, hat, -⟩ | ⟨hx, hwq, -⟩
    · exfalso
      rcases hpf with rfl | hpf
      · exact past_absurd h.wf hmem hpre hcmp hpast
      · obtain ⟨h1, h2, h3 | h3 | ⟨h3, h4, -⟩⟩ := hpast
        · exact past_absurd h.wf hmem hpre hcmp ⟨h1, h2, Or.inl h3⟩
        · exact past_absurd h.wf hmem hpre hcmp ⟨h1, h2, Or.inr (Or.inl h3)⟩
        · have := pre_unique h.wf hmem h3 hpre h1
          subst this
          have hkq := h.leaf_whole hk' h4
          subst hkq
          have h2 : 2 ≤ (leafOf keys k').length := by
            rw [h4, w_length]
            have := List.length_pos_iff.2 (h.valid.nonempty k' hk')
            omega
          obtain ⟨p, k2, g3, g4, g5, g6, g7⟩ := leaf_dropLast h.wf (h.leaf_mem hk') h2
          rw [h4, w_eq, List.dropLast_concat] at g3
          have := syms_inj g3
          subst this
          exact g6 (hpf _ hk' _ g5 g7).symm
    · have := pre_unique h.wf hmem hp hpre hpw
      subst this
      exact hat
    · exact (own_absurd h.wf hmem hpre hx hwq).elim

omit [Env] in
theorem undecided_iff (h : Setting cfg keys) {k : Key} (hk : k ∈ keys) (s : Nat) (q : Key) :
    Undecided s (leafOf keys k) q ↔ Spec.Shorter s keys k q := by
  have hzero : 0 ∈ leafOf keys k → leafOf keys k = w k := fun h0 => leaf_zero (h.leaf_pre hk) h0
  have hb : Surf.bytesOf ((w k).take s) = k.take s := bytesOf_take k s
  constructor
  · rintro ⟨h0, h1, h2⟩
    have hw := hzero h0
    rw [hw, w_length] at h1 h2
    rw [hb] at h2
    refine ⟨by omega, by rcases h2 with h2 | h2; exacts [Or.inl (by omega), Or.inr h2], ?_⟩
    have h2 : 2 ≤ (leafOf keys k).length := by
      rw [hw, w_length]
      have := List.length_pos_iff.2 (h.valid.nonempty k hk)
      omega
    obtain ⟨p, k', h3, h4, h5, h6, h7⟩ := leaf_dropLast h.wf (h.leaf_mem hk) h2
    rw [hw, w_eq, List.dropLast_concat] at h3
    have := syms_inj h3
    subst this
    exact ⟨k', h5, h6, h7⟩
  · rintro ⟨h1, h2, k', hk', hne, hp⟩
    have hw : leafOf keys k = w k := by
      have := h.leaf_pre hk
      rw [w_eq] at this
      rcases List.prefix_concat_iff.1 this with g | g
      · rw [g, w_eq]
      · exact absurd (leaf_unique h.sorted (h.leaf_mem hk) (mem_uniq.2 hk') (g.trans (syms_prefix_w.2 hp))) hne
    refine ⟨by rw [hw, w_eq]; simp, by rw [hw, w_length]; omega, ?_⟩
    rw [hw, w_length, hb]
    rcases h2 with h2 | h2
    · exact Or.inl (by omega)
    · exact Or.inr h2

/-- What the comparison with the right bound says. -/
theorem right_end (h : Setting cfg keys) (hs : Env.strict = false) {f : Filter} {s : Nat}
    (hr : FRep cfg (leafStrs keys) (swKeys cfg keys) s f) {k q : Key} (hk : k ∈ keys) (hq : q.length < 2 ^ 64)
    (hsx : Suffixes cfg keys q) {it : Iter} (ha : At (leafStrs keys) s it (leafOf keys k)) :
    ∃ c, it.compare f q = .ok c ∧ c ≠ 0 ∧ (c = kCouldBePositive ∨ c < 0 ↔
      k < q ∨ Spec.Close (realBits cfg) keys k q ∨ Spec.Shorter s keys k q ∨ Spec.Far s keys k q) := by
  obtain ⟨c, e, hc0, ho⟩ := hr.compareVal hs ha q hq
  refine ⟨c, e, hc0, ?_⟩
  have hst : Surf.bytesOf (leafOf keys k) = Spec.stored keys k := bytesOf_leaf k
  have hsp : Spec.stored keys k <+: k := List.take_prefix _ _
  have hl := leaf_length h.wf h.sorted (h.leaf_mem hk)
  have hzero : 0 ∈ leafOf keys k → leafOf keys k = w k := fun h0 => leaf_zero (h.leaf_pre hk) h0
  rw [CmpVal, undecided_iff h hk, hst] at ho
  rcases ho with ⟨rfl, h1⟩ | ⟨h1, h2, h3⟩ | ⟨h1, h2, h3, h4⟩ | ⟨hp, hnt, rfl⟩
  · exact ⟨fun _ => Or.inr (Or.inr (Or.inl h1)), fun _ => Or.inr (by decide)⟩
  · exact ⟨fun _ => Or.inl (lt_of_prefix_lt h2 h3 hsp), fun _ => Or.inr h1⟩
  · have hlt : q < k := lt_of_lt_prefix h2 hsp
    have hfar : c = kCouldBePositive ↔ Spec.Far s keys k q := by
      unfold CmpPos at h3
      rw [hst] at h3
      unfold Spec.Far
      by_cases hpq : q <+: Spec.stored keys k
      · rw [h3.1 hpq]
        have : kCouldBePositive = 2018 := rfl
        rw [this]
        constructor
        · intro g
          exact ⟨hpq.trans hsp, by omega⟩
        · rintro ⟨-, g⟩
          rw [g]
          omega
      · rw [h3.2 hpq]
        refine ⟨fun g => absurd g (by decide), fun ⟨g1, g2⟩ => absurd ?_ hpq⟩
        refine List.prefix_of_prefix_length_le g1 hsp ?_
        split at g2 <;> omega
    rw [hfar]
    constructor
    · rintro (g | g)
      · exact Or.inr (Or.inr (Or.inr g))
      · omega
    · rintro (g | g | g | g)
      · exact absurd (w_lt.2 g) (lt_asymm (w_lt.2 hlt))
      · exfalso
        have hm := (leaf_match h.wf h.sorted (h.leaf_mem hk)).2 g.1
        have hp : Spec.stored keys k <+: q := by
          by_cases h0 : 0 ∈ leafOf keys k
          · have h5 := hzero h0
            have := h.leaf_whole (q := q) hk (leaf_zero hm h0)
            subst this
            exact hsp
          · rw [← hst]
            obtain ⟨p, h5, h6⟩ := prefix_w hm h0
            have hb : Surf.bytesOf (leafOf keys k) = p := by
              have := bytesOf_take p p.length
              rw [List.take_length, w_eq, List.take_append_of_le_length (by simp), List.take_of_length_le (by simp)] at this
              rw [h5, this]
            rw [hb]; exact h6
        obtain ⟨r, rfl⟩ := hp
        exact List.le_append_left (l₁ := Spec.stored keys k) (l₂ := r) h2
      · exact absurd g h4
      · exact Or.inl g
  · have hm : Spec.Matches keys k q := by
      refine (leaf_match h.wf h.sorted (h.leaf_mem hk)).1 ?_
      by_cases h0 : 0 ∈ leafOf keys k
      · have hw := hzero h0
        rw [← hst, hw] at hp
        rw [hw] at hnt ⊢
        rw [w_length] at hnt
        have hb : Surf.bytesOf (w k) = k := by
          have := bytesOf_take k (k.length + 1)
          rw [List.take_of_length_le (by simp), List.take_of_length_le (by simp)] at this
          exact this
        rw [hb] at hp
        have : k = q := hp.eq_of_length_le (by
          by_contra hc
          exact hnt ⟨hw ▸ h0, by omega⟩)
        rw [this]
      · obtain ⟨p, h1, -⟩ := prefix_w (h.leaf_pre hk) h0
        have hb : Surf.bytesOf (leafOf keys k) = p := by
          have := bytesOf_take p p.length
          rw [List.take_length, w_eq, List.take_append_of_le_length (by simp), List.take_of_length_le (by simp)] at this
          rw [h1, this]
        rw [← hst, hb] at hp
        rw [h1]
        exact syms_prefix_w.2 hp
    rw [swKeys_leaf h.wf cfg (h.leaf_mem hk), hl] at hc0 ⊢
    obtain ⟨g1, g2⟩ := h.cmp hs hm hsx
    have hcl := cmpW_could hs h.ok k q (Spec.cut keys k)
    have hq0 : Spec.stored keys k <+: q := hp
    have hnfar : ¬ Spec.Far s keys k q := by
      rintro ⟨-, hf⟩
      have := hq0.length_le
      split at hf <;> omega
    have hnsh : ¬ Spec.Shorter s keys k q := by
      rw [← undecided_iff h hk]
      rintro ⟨h1, h2, -⟩
      exact hnt ⟨h1, h2⟩
    rcases cmpW_cases (cfg := cfg) (sfxOf cfg k (Spec.cut keys k)) q (Spec.cut keys k) hs with hc | hc | hc
    · exact ⟨fun _ => Or.inr (Or.inl ⟨hm, hcl.1 hc⟩), fun _ => Or.inl hc⟩
    · exact ⟨fun _ => Or.inl (g1 hc), fun _ => Or.inr (by rw [hc]; decide)⟩
    · refine ⟨fun g => ?_, fun g => ?_⟩
      · rw [hc] at g
        rcases g with g | g
        · exact absurd g (by decide)
        · exact absurd g (by decide)
      · exfalso
        rcases g with g | g | g | g
        · exact absurd (w_lt.2 g) (lt_asymm (w_lt.2 (g2 hc)))
        · rw [hcl.2 g.2] at hc
          exact absurd hc (by decide)
        · exact hnsh g
        · exact hnfar g

/-- The range query, given the position its search ends at. -/
theorem range_at {f : Filter} {left right : Key} {li ri : Bool} {r0 : Iter} (e1 : seekFrom f (Iter.new f).clear left li = .ok r0)
    (P : Prop) (hc : r0.isValid = true → ∃ c, r0.compare f right = .ok c ∧ c ≠ 0 ∧ (c = kCouldBePositive ∨ c < 0 ↔ P))
    (hv : r0.isValid = false → ¬ P) :
    ∃ r o', SuRF.lookupRange ⟨f, Iter.new f, Iter.new f⟩ left li right ri = .ok (r, o') ∧ (r = true ↔ P) := by
  obtain ⟨it, e2, hd, hsp⟩ := rangeSeek_of_seek (f := f) (it := Iter.new f) e1
  have hval : it.isValid = r0.isValid := by unfold Iter.isValid; rw [hd, hsp]
  have hcmp : it.compare f right = r0.compare f right := by unfold Iter.compare; rw [hval, hd, hsp]
  unfold SuRF.lookupRange Filter.lookupRange
  dsimp only
  rw [e2, ok_bind, hval]
  cases hv' : r0.isValid
  · exact ⟨false, _, rfl, by simpa using hv hv'⟩
  · obtain ⟨c, hc1, hc2, hc3⟩ := hc hv'
    simp only [Bool.not_true, Bool.false_eq_true, if_false]
    rw [hcmp, hc1, ok_bind]
    by_cases h1 : c = kCouldBePositive
    · rw [if_pos h1]
      exact ⟨true, _, rfl, by simp [← hc3, h1]⟩
    · rw [if_neg h1]
      cases ri
      · exact ⟨decide (c < 0), _, rfl, by simp [← hc3, h1]⟩
      · refine ⟨decide (c ≤ 0), _, rfl, ?_⟩
        simp only [decide_eq_true_eq, ← hc3, h1, false_or]
        omega

/-- The comparison with the right bound does not exclude `k`. -/
def Ends (cfg : Config) (keys : List Key) (s : Nat) (k q : Key) : Prop :=
  k < q ∨ Spec.Close (realBits cfg) keys k q ∨ Spec.Shorter s keys k q ∨ Spec.Far s keys k q

theorem range_land (h : Setting cfg keys) (hs : Env.strict = false) {f : Filter} {s : Nat}
    (hr : FRep cfg (leafStrs keys) (swKeys cfg keys) s f) (hpad : PadOk f (leafStrs keys) s) {left right : Key} (li ri : Bool)
    (hq : SafeSeek cfg keys s left) (h64 : right.length < 2 ^ 64) (hsx : Suffixes cfg keys right) :
    ∃ r o', SuRF.lookupRange ⟨f, Iter.new f, Iter.new f⟩ left li right ri = .ok (r, o') ∧
      (r = true → ∃ k ∈ keys, (left < k ∨ Spec.Close (realBits cfg) keys k left) ∧ Ends cfg keys s k right) ∧
      (li = true ∨ Spec.PrefixFree keys →
        (r = true ↔ ∃ k, Spec.FirstFrom (realBits cfg) keys left k ∧ Ends cfg keys s k right) ∧
        ((∃ k ∈ keys, left < k ∨ Spec.Close (realBits cfg) keys k left) → ∃ k, Spec.FirstFrom (realBits cfg) keys left k)) := by
  obtain ⟨it, e, hl, hcl⟩ := land h hs hr hpad li hq (clear_clean hr)
  obtain ⟨r, o', e2, hiff⟩ := range_at (right := right) (ri := ri) e (∃ k ∈ keys, At (leafStrs keys) s it (leafOf keys k) ∧ Ends cfg keys s k right)
    (fun hv => by
      rcases hl with ⟨hv', -⟩ | ⟨k, hk, ha, -⟩
      · rw [hv] at hv'; cases hv'
      · obtain ⟨c, h1, h2, h3⟩ := right_end h hs hr hk h64 hsx ha
        refine ⟨c, h1, h2, h3.trans ⟨fun g => ⟨k, hk, ha, g⟩, ?_⟩⟩
        rintro ⟨k', hk', ha', g⟩
        have he := at_unique h hk ha' ha
        have : k' = k := stored_inj hk' hk (by rw [← bytesOf_leaf, ← bytesOf_leaf, he])
        subst this
        exact g)
    (fun hv => by
      rintro ⟨k, -, ha, -⟩
      rw [ha.isValid] at hv; cases hv)
  have hinj : ∀ {k k' : Key}, k ∈ keys → k' ∈ keys → At (leafStrs keys) s it (leafOf keys k) → At (leafStrs keys) s it (leafOf keys k') → k' = k := by
    intro k k' hk hk' ha ha'
    have he := at_unique h hk ha' ha
    exact stored_inj hk' hk (by rw [← bytesOf_leaf, ← bytesOf_leaf, he])
  refine ⟨r, o', e2, fun hrt => ?_, fun hpf => ?_⟩
  · obtain ⟨k, hk, ha, hend⟩ := hiff.1 hrt
    refine ⟨k, hk, ?_, hend⟩
    rcases hl with ⟨hv', -⟩ | ⟨k', hk', ha', h1, -⟩
    · rw [ha.isValid] at hv'; cases hv'
    · rw [hinj hk' hk ha' ha]; exact h1
  · have hfirst : ∀ {k}, k ∈ keys → At (leafStrs keys) s it (leafOf keys k) → Spec.FirstFrom (realBits cfg) keys left k := by
      intro k hk ha
      rcases hl with ⟨hv', -⟩ | ⟨k', hk', ha', h1, h2⟩
      · rw [ha.isValid] at hv'; cases hv'
      · rw [hinj hk' hk ha' ha]
        refine ⟨hk', h1, fun x hx hx' => ?_⟩
        rcases hx' with hx' | hx'
        · exact h2 x hx (Or.inl hx')
        · rw [hinj hk' hx ha' (hcl hpf x hx hx')]
          exact List.le_refl _
    refine ⟨?_, ?_⟩
    · rw [hiff]
      constructor
      · rintro ⟨k, hk, ha, hend⟩
        exact ⟨k, hfirst hk ha, hend⟩
      · rintro ⟨k, hf, hend⟩
        rcases hl with ⟨hv', h0⟩ | ⟨k', hk', ha', h1, h2⟩
        · rcases hf.2.1 with g | g
          · exact absurd (Or.inl g) (h0 k hf.1)
          · rw [(hcl hpf k hf.1 g).isValid] at hv'; cases hv'
        · have g := hfirst hk' ha'
          have : k = k' := w_inj (le_antisymm (w_le.2 (hf.2.2 k' hk' h1)) (w_le.2 (g.2.2 k hf.1 hf.2.1)))
          subst this
          exact ⟨k, hk', ha', hend⟩
    · rintro ⟨k, hk, hk2⟩
      rcases hl with ⟨hv', h0⟩ | ⟨k', hk', ha', h1, h2⟩
      · rcases hk2 with g | g
        · exact absurd (Or.inl g) (h0 k hk)
        · rw [(hcl hpf k hk g).isValid] at hv'; cases hv'
      · exact ⟨k', hfirst hk' ha'⟩

/-- A positive answer to a range query is explained by a stored key that is above the left bound or close to it, and below the right bound or close to
it, but for two defects of the comparison (`Spec.Shorter`, `Spec.Far`).  If the left bound is included or no key is the beginning
of another one, the answer is exactly that of the least key above the left bound or close to it.
Missing from C55: the two defects (`C55_refuted`, `C55_far_refuted`), left bounds that are not `SafeSeek`, incomplete suffixes of
more than 8 bits, `SingleFF` lists. -/
theorem C55_partial (h : Setting cfg keys) (hs : Env.strict = false) (hff : ¬ Spec.SingleFF keys) :
    ∃ f, SuRF.create cfg keys = .ok ⟨f, Iter.new f, Iter.new f⟩ ∧ ∀ left li right ri,
      SafeSeek cfg keys f.getSparseStartLevel left → right.length < 2 ^ 64 → Suffixes cfg keys right →
      ∃ r o', SuRF.lookupRange ⟨f, Iter.new f, Iter.new f⟩ left li right ri = .ok (r, o') ∧
        (r = true → ∃ k ∈ keys, (left < k ∨ Spec.Close (realBits cfg) keys k left) ∧
          (k < right ∨ Spec.Close (realBits cfg) keys k right ∨ Spec.Shorter f.getSparseStartLevel keys k right ∨
            Spec.Far f.getSparseStartLevel keys k right)) ∧
        (li = true ∨ Spec.PrefixFree keys → (r = true ↔ ∃ k, Spec.FirstFrom (realBits cfg) keys left k ∧
          (k < right ∨ Spec.Close (realBits cfg) keys k right ∨ Spec.Shorter f.getSparseStartLevel keys k right ∨
            Spec.Far f.getSparseStartLevel keys k right))) := by
  obtain ⟨f, s, e, hr, hpad⟩ := h.create hs hff
  refine ⟨f, by unfold SuRF.create; rw [e]; rfl, fun left li right ri hq h64 hsx => ?_⟩
  have hst : f.getSparseStartLevel = s := hr.sparse.start
  rw [hst] at hq ⊢
  obtain ⟨r, o', e2, h1, h2⟩ := range_land h hs hr hpad li ri hq h64 hsx
  exact ⟨r, o', e2, h1, fun g => (h2 g).1⟩

/-- Key lists without prefixes: a range query answers `true` exactly if some stored key is above the left bound or close to it, and below the right bound
or close to it; whether the bounds are included makes no difference.  Keys that start with the right bound must be stored with fewer than 2018 bytes
more (`C55_far_refuted`). -/
theorem C55_free_partial (h : Setting cfg keys) (hs : Env.strict = false) (hff : ¬ Spec.SingleFF keys) (hpf : Spec.PrefixFree keys) :
    ∃ f, SuRF.create cfg keys = .ok ⟨f, Iter.new f, Iter.new f⟩ ∧ ∀ left li right ri,
      SafeSeek cfg keys f.getSparseStartLevel left → right.length < 2 ^ 64 → Suffixes cfg keys right →
      (∀ k ∈ keys, right <+: k → (Spec.stored keys k).length < right.length + 2018) →
      ∃ r o', SuRF.lookupRange ⟨f, Iter.new f, Iter.new f⟩ left li right ri = .ok (r, o') ∧
        (r = true ↔ ∃ k ∈ keys, (left < k ∨ Spec.Close (realBits cfg) keys k left) ∧
          (k < right ∨ Spec.Close (realBits cfg) keys k right)) := by
  obtain ⟨f, s, e, hr, hpad⟩ := h.create hs hff
  refine ⟨f, by unfold SuRF.create; rw [e]; rfl, fun left li right ri hq h64 hsx hfar => ?_⟩
  have hst : f.getSparseStartLevel = s := hr.sparse.start
  rw [hst] at hq
  obtain ⟨r, o', e2, -, h2⟩ := range_land h hs hr hpad li ri hq h64 hsx
  obtain ⟨h2, h3⟩ := h2 (Or.inr hpf)
  refine ⟨r, o', e2, h2.trans ⟨?_, ?_⟩⟩
  · rintro ⟨k, hf, hend⟩
    refine ⟨k, hf.1, hf.2.1, ?_⟩
    rcases hend with g | g | ⟨-, -, k', hk', hne, hp⟩ | ⟨g1, g2⟩
    · exact Or.inl g
    · exact Or.inr g
    · exact absurd (hpf k hf.1 k' hk' hp).symm hne
    · have := hfar k hf.1 g1
      split at g2 <;> omega
  · rintro ⟨k0, hk0, h4, h5⟩
    obtain ⟨k, hf⟩ := h3 ⟨k0, hk0, h4⟩
    refine ⟨k, hf, ?_⟩
    rcases lt_or_eq_of_le (w_le.2 (hf.2.2 k0 hk0 h4)) with hlt | heq
    · left
      rcases h5 with h5 | h5
      · exact w_lt.1 (hlt.trans (w_lt.2 h5))
      · refine h.key_lt hf.1 ((leaf_match h.wf h.sorted (h.leaf_mem hk0)).2 h5.1) ((h.leaf_lt hf.1 hk0).2 (w_lt.1 hlt)) fun hc => ?_
        have := leaf_unique h.sorted (h.leaf_mem hf.1) (mem_uniq.2 hk0) (hc.trans (h.leaf_pre hk0))
        rw [this] at hlt
        exact lt_irrefl _ hlt
    · have := w_inj heq
      subst this
      rcases h5 with h5 | h5
      · exact Or.inl h5
      · exact Or.inr (Or.inl h5)

end

/-! ## Examples -/

/-- The bounds "abh" and "ac" meet the hypotheses, and the theorem explains the answer `true`: "abkx" lies between them. -/
example : ∃ f, @SuRF.create Env.x86 cfgReal8 rgKeys = .ok ⟨f, Iter.new f, Iter.new f⟩ ∧
    @SafeSeek Env.x86 cfgReal8 rgKeys f.getSparseStartLevel [97, 98, 104] ∧ Suffixes cfgReal8 rgKeys [97, 99] ∧
    Spec.FirstFrom (realBits cfgReal8) rgKeys [97, 98, 104] [97, 98, 107, 120] := by
  letI := Env.x86
  obtain ⟨f, e, -⟩ := C55_partial rgSetting.2.1 rfl rgSetting.2.2
  have hl := rgLevel
  have e' := e
  unfold SuRF.create at e'
  cases hf : Filter.create cfgReal8 rgKeys with
  | error x => rw [hf] at e'; cases e'
  | ok g =>
    rw [hf] at e' hl
    cases e'
    have hinj : ∀ {a b : Nat}, (Except.ok a : R Nat) = .ok b → a = b := fun h => by cases h; rfl
    have h1 : f.getSparseStartLevel = 1 := hinj hl
    refine ⟨f, e, h1 ▸ rgSafe, suffixes_of_le (by decide) _, by decide, Or.inl (by decide), fun k hk hc => ?_⟩
    rcases hc with hc | ⟨⟨-, hc | ⟨p, hp, h2, h3, h4⟩⟩, -⟩
    · have : ∀ k ∈ rgKeys, ([97, 98, 104] : Key) < k → ([97, 98, 107, 120] : Key) ≤ k := by decide
      exact this k hk hc
    · subst hc
      exact absurd hk (by decide)
    · have h5 : ∀ k ∈ rgKeys, ∀ p ∈ ([97, 98, 104] : Key).inits, p <+: k → p ≠ [] → ∃ k' ∈ rgKeys, p <+: k' ∧ k' ≠ k := by decide
      obtain ⟨k', h6, h7, h8⟩ := h5 k hk p ((List.mem_inits _ _).2 h3) h2 hp
      exact absurd (h4 k' h6 h7) h8

/-- Keys without prefixes: "ab0", "abc", "b"; the left bound "abb" meets the hypotheses of `C55_free_partial`. -/
def pfKeys : List Key := [[97, 98, 48], [97, 98, 99], [98]]

theorem pfSetting : Setting cfgNone pfKeys ∧ ¬ Spec.SingleFF pfKeys ∧ Spec.PrefixFree pfKeys := by
  refine ⟨⟨by decide, rfl, by decide, ⟨by decide, by decide, by decide⟩, fits_of_total (by decide) (by decide)⟩, ?_, by decide⟩
  rintro ⟨k, h1, h2⟩
  have := h1 [98] (by decide)
  subst this
  simp at h2

example : ∃ f, @SuRF.create Env.x86 cfgNone pfKeys = .ok ⟨f, Iter.new f, Iter.new f⟩ ∧
    @SafeSeek Env.x86 cfgNone pfKeys f.getSparseStartLevel [97, 98, 98] ∧
    ∀ k ∈ pfKeys, ([97, 98] : Key) <+: k → (Spec.stored pfKeys k).length < ([97, 98] : Key).length + 2018 := by
  letI := Env.x86
  obtain ⟨f, e, -⟩ := C55_partial pfSetting.1 rfl pfSetting.2.1
  have hl : (@Filter.create Env.x86 cfgNone pfKeys).map Filter.getSparseStartLevel = .ok 1 := by decide +kernel
  have e' := e
  unfold SuRF.create at e'
  cases hf : Filter.create cfgNone pfKeys with
  | error x => rw [hf] at e'; cases e'
  | ok g =>
    rw [hf] at e' hl
    cases e'
    have hinj : ∀ {a b : Nat}, (Except.ok a : R Nat) = .ok b → a = b := fun h => by cases h; rfl
    have h1 : f.getSparseStartLevel = 1 := hinj hl
    refine ⟨f, e, by rw [h1]; exact ⟨Or.inl (by decide), pfSetting.2.2.seekSafe (fun p _ => Spec.not_overrun (Or.inl (by decide +kernel))) _,
      suffixes_of_le (by decide) _, Or.inl (by decide)⟩, by decide⟩

/-- The model: "abb" to "abc" contains a key, "abb" to "ab" does not, "abc" to "abd" does. -/
theorem pf_example : @rangeQ Env.x86 cfgNone pfKeys [97, 98, 98] true [97, 98, 99] false = .ok true ∧
    @rangeQ Env.x86 cfgNone pfKeys [97, 98, 98] true [97, 98, 98, 99] true = .ok false ∧
    @rangeQ Env.x86 cfgNone pfKeys [97, 98, 99, 100] true [97, 98, 99, 101] true = .ok true := by decide +kernel

/-! ## The claim without exceptions fails -/

/-- C55, first defect: stored "ab" and "aba"; the range from "aa" to "aaaa" answers `true`, though no stored key lies in it
and no stored key matches one of its bounds. -/
theorem C55_refuted : @rangeQ Env.x86 cfgNone [[97, 98], [97, 98, 97]] [97, 97] true [97, 97, 97, 97] true = .ok true ∧
    (∀ k ∈ ([[97, 98], [97, 98, 97]] : List Key), ¬ Spec.InRange [97, 97] true [97, 97, 97, 97] true k) ∧
    ∀ k, ¬ Spec.Matches [[97, 98], [97, 98, 97]] k [97, 97] ∧ ¬ Spec.Matches [[97, 98], [97, 98, 97]] k [97, 97, 97, 97] := by
  refine ⟨by decide +kernel, ?_, fun k => ⟨?_, ?_⟩⟩
  · intro k hk
    simp only [List.mem_cons, List.not_mem_nil, or_false] at hk
    rintro ⟨-, h | ⟨-, h⟩⟩
    · rcases hk with rfl | rfl <;> exact absurd h (by decide)
    · rcases hk with rfl | rfl <;> exact absurd h (by decide)
  all_goals
    rintro ⟨hk, h | ⟨p, hp, h1, h2, h3⟩⟩
    · subst h
      exact absurd hk (by decide)
    · have h5 : ∀ k ∈ ([[97, 98], [97, 98, 97]] : List Key), ∀ p ∈ ([97, 97, 97, 97] : Key).inits, p <+: k → p ≠ [] →
        ∃ k' ∈ ([[97, 98], [97, 98, 97]] : List Key), p <+: k' ∧ k' ≠ k := by decide
      obtain ⟨k', h6, h7, h8⟩ := h5 k hk p ((List.mem_inits _ _).2 (h2.trans (by decide))) h1 hp
      exact absurd (h3 k' h6 h7) h8

theorem common_pair (m : Nat) (a b : UInt8) (h : a ≠ b) : Spec.common (List.replicate m 97 ++ [a]) (List.replicate m 97 ++ [b]) = m := by
  induction m with
  | zero => simp [Spec.common, h]
  | succ m ih =>
    rw [List.replicate_succ, List.cons_append, List.cons_append, Spec.common, if_pos rfl, ih]

theorem pair_stored {m : Nat} {k : Key} (hk : k ∈ pairKeys m) : (Spec.stored (pairKeys m) k).length = m + 1 := by
  unfold Spec.stored Spec.cut
  simp only [pairKeys, List.mem_cons, List.not_mem_nil, or_false] at hk
  have hne : List.replicate m (97 : UInt8) ++ [98] ≠ List.replicate m 97 ++ [99] := by simp
  rcases hk with rfl | rfl
  · have : (pairKeys m).filter (· ≠ List.replicate m 97 ++ [98]) = [List.replicate m 97 ++ [99]] := by
      simp [pairKeys]
    rw [this]
    simp [common_pair m 98 99 (by decide)]
  · have : (pairKeys m).filter (· ≠ List.replicate m 97 ++ [99]) = [List.replicate m 97 ++ [98]] := by
      simp [pairKeys]
    rw [this]
    simp [common_pair m 99 98 (by decide)]

theorem pair_setting {m : Nat} (hm : m ≤ 200000) : Setting cfgFar (pairKeys m) ∧ ¬ Spec.SingleFF (pairKeys m) := by
  refine ⟨⟨by decide, rfl, by decide, pairKeys_valid m, fits_of_total (by decide) (by simp [pairKeys]; omega)⟩, ?_⟩
  rintro ⟨k, h, -⟩
  have g1 := h _ (show List.replicate m 97 ++ [98] ∈ pairKeys m by simp [pairKeys])
  have g2 := h _ (show List.replicate m 97 ++ [99] ∈ pairKeys m by simp [pairKeys])
  have := g1.trans g2.symm
  simp at this

theorem pair_start [Env] (hs : Env.strict = false) {m : Nat} (hm : m ≤ 200000) {f : Filter} (e : Filter.create cfgFar (pairKeys m) = .ok f) :
    f.getSparseStartLevel = 1 := by
  obtain ⟨f', e', h1, -, h3⟩ := C31_partial hs (pair_setting hm).1 (pairKeys_shares (by omega)) (by simp [pairKeys])
  rw [e] at e'
  cases e'
  by_contra hne
  have := h3 1 (by omega)
  have := pairKeys_cost (m := m) (by omega)
  omega

/-- C55, second defect: two keys of `m + 1` bytes that differ in the last one and start with "a".  The answer for the range from "a" to "a", which contains no
stored key and whose bound matches none, is `true` exactly for `m = 2018`: the length of the rest is taken for the mark of
"could be equal". -/
theorem C55_far_refuted [Env] (hs : Env.strict = false) {m : Nat} (h1 : 1 ≤ m) (hm : m ≤ 200000) :
    (∀ k ∈ pairKeys m, ¬ Spec.InRange [97] true [97] true k) ∧ (∀ k, ¬ Spec.Matches (pairKeys m) k [97]) ∧
    ∃ o, SuRF.create cfgFar (pairKeys m) = .ok o ∧ ∃ r o', o.lookupRange [97] true [97] true = .ok (r, o') ∧ (r = true ↔ m = 2018) := by
  obtain ⟨hset, hff⟩ := pair_setting hm
  have hlen : ∀ k ∈ pairKeys m, k.length = m + 1 := by
    intro k hk
    simp only [pairKeys, List.mem_cons, List.not_mem_nil, or_false] at hk
    rcases hk with rfl | rfl <;> simp
  have hpre : ∀ k ∈ pairKeys m, ([97] : Key) <+: k := by
    intro k hk
    obtain ⟨n, rfl⟩ : ∃ n, m = n + 1 := ⟨m - 1, by omega⟩
    simp only [pairKeys, List.mem_cons, List.not_mem_nil, or_false, List.replicate_succ, List.cons_append] at hk
    rcases hk with rfl | rfl <;> simp
  have hlt : ∀ k ∈ pairKeys m, ([97] : Key) < k := by
    intro k hk
    obtain ⟨r, hr⟩ := hpre k hk
    have := hlen k hk
    rw [← hr] at this ⊢
    cases r with
    | nil => simp at this; omega
    | cons x r => simp
  have hnm : ∀ k, ¬ Spec.Matches (pairKeys m) k [97] := by
    rintro k ⟨hk, h | ⟨p, hp, -, h2, h3⟩⟩
    · have := hlen k hk
      rw [← h] at this
      simp at this; omega
    · have g : ∀ k' ∈ pairKeys m, k' = k := fun k' hk' => h3 k' hk' (h2.trans (hpre k' hk'))
      have g1 := g _ (show List.replicate m 97 ++ [98] ∈ pairKeys m by simp [pairKeys])
      have g2 := g _ (show List.replicate m 97 ++ [99] ∈ pairKeys m by simp [pairKeys])
      have := g1.trans g2.symm
      simp at this
  have hnlt : ∀ k ∈ pairKeys m, ¬ k < ([97] : Key) := fun k hk hc => lt_asymm (w_lt.2 hc) (w_lt.2 (hlt k hk))
  refine ⟨fun k hk hc => ?_, hnm, ?_⟩
  · rcases hc.2 with h | ⟨-, h⟩
    · exact hnlt k hk h
    · have := hlen k hk
      rw [h] at this
      simp at this; omega
  obtain ⟨f, e, hq⟩ := C55_partial hset hs hff
  have hst : f.getSparseStartLevel = 1 := by
    have e' := e
    unfold SuRF.create at e'
    cases hf : Filter.create cfgFar (pairKeys m) with
    | error x => rw [hf] at e'; cases e'
    | ok g =>
      rw [hf] at e'
      cases e'
      exact pair_start hs hm hf
  rw [hst] at hq
  have hsafe : SafeSeek cfgFar (pairKeys m) 1 [97] := by
    refine ⟨Or.inl (by decide), fun p b hl h1 => ?_, suffixes_of_le (by decide) _, Or.inl (by decide)⟩
    have := hl.2.1.length_le
    simp only [List.length_append, List.length_cons, List.length_nil] at this
    omega
  obtain ⟨r, o', e2, -, h3⟩ := hq [97] true [97] true hsafe (by decide) (suffixes_of_le (by decide) _)
  refine ⟨_, e, r, o', e2, (h3 (Or.inl rfl)).trans ⟨?_, fun hm' => ?_⟩⟩
  · rintro ⟨k, hk, h4 | h4 | ⟨-, -, k', hk', hne, hp⟩ | ⟨-, h4⟩⟩
    · exact absurd h4 (hnlt k hk.1)
    · exact absurd h4.1 (hnm k)
    · exact absurd (hp.eq_of_length (by rw [hlen k hk.1, hlen k' hk'])).symm hne
    · rw [if_neg (by decide), pair_stored hk.1] at h4
      simp at h4
      omega
  · have hk : List.replicate m (97 : UInt8) ++ [98] ∈ pairKeys m := by simp [pairKeys]
    refine ⟨List.replicate m 97 ++ [98], ⟨hk, Or.inl (hlt _ hk), fun k' hk' _ => ?_⟩, Or.inr (Or.inr (Or.inr ⟨hpre _ hk, ?_⟩))⟩
    · simp only [pairKeys, List.mem_cons, List.not_mem_nil, or_false] at hk'
      rcases hk' with rfl | rfl
      · exact List.le_refl _
      · exact List.le_of_lt (snoc_lt2 _ (by decide))
    · rw [if_neg (by decide), pair_stored hk]
      simp
      omega

end Surf.Props
