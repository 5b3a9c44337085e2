import Verif.Proof.CountSeek
import Verif.Props.Count

/-!
# Counts for any bounds (C21)

What `approxCount` returns for left bounds that match no stored key, and between iterators from `moveToFirst`, seeks and `++`.
The theorems hold for every machine with `Env.strict = false`, with and without `assert`s.
-/

set_option linter.unusedSectionVars false
set_option autoImplicit false

namespace Surf.Props
open Surf Trie

section
variable [Env] {cfg : Config} {keys : List Key}

omit [Env] in
/-- The first `s` bytes of a key that continues below level `s`. -/
theorem leaf_take (h : Setting cfg keys) {k : Key} (hk : k ∈ keys) {s : Nat} (hs : s < (leafOf keys k).length) :
    (leafOf keys k).take s = syms (k.take s) ∧ s ≤ k.length := by
  have h1 := (h.leaf_pre hk).length_le
  simp only [w_length] at h1
  have h2 : s ≤ k.length := by omega
  refine ⟨?_, h2⟩
  obtain ⟨r, hr⟩ := h.leaf_pre hk
  have : (leafOf keys k).take s = (w k).take s := by rw [← hr, List.take_append_of_le_length (by omega)]
  rw [this, w_eq, List.take_append_of_le_length (by simpa using h2), syms_take]

omit [Env] in
theorem leaf_take_iff (h : Setting cfg keys) {k k2 : Key} (hk : k ∈ keys) (hk2 : k2 ∈ keys) (hne : k ≠ k2) {s : Nat}
    (hs : s < (leafOf keys k).length) : (leafOf keys k).take s = (leafOf keys k2).take s ↔ k.take s = k2.take s := by
  obtain ⟨e1, hl1⟩ := leaf_take h hk hs
  rcases Nat.lt_or_ge s (leafOf keys k2).length with h2 | h2
  · obtain ⟨e2, -⟩ := leaf_take h hk2 h2
    rw [e1, e2]
    exact ⟨fun h3 => syms_inj h3, fun h3 => by rw [h3]⟩
  · rw [List.take_of_length_le h2]
    constructor
    · intro h3
      exfalso
      have h4 : leafOf keys k2 <+: w k := by
        rw [← h3]
        exact (List.take_prefix _ _).trans (h.leaf_pre hk)
      exact hne (leaf_unique h.sorted (h.leaf_mem hk2) (mem_uniq.2 hk) h4)
    · intro h3
      exfalso
      have hl2 : s ≤ k2.length := by
        have := congrArg List.length h3
        simp at this; omega
      have h4 : leafOf keys k2 <+: (syms k2).take s := by
        refine List.prefix_take_iff.2 ⟨?_, h2⟩
        refine List.prefix_of_prefix_length_le (h.leaf_pre hk2) ?_ (by simp; omega)
        rw [w_eq]
        exact List.prefix_append _ _
      have h5 : leafOf keys k2 <+: w k := by
        refine h4.trans ?_
        rw [← syms_take, ← h3, syms_take, w_eq]
        exact (List.take_prefix _ _).trans (List.prefix_append _ _)
      exact hne (leaf_unique h.sorted (h.leaf_mem hk2) (mem_uniq.2 hk) h5)

omit [Env] in
theorem btw_keys (h : Setting cfg keys) {k k2 : Key} (hk : k ∈ keys) (hk2 : k2 ∈ keys) (s : Nat) :
    (∃ x ∈ keys, k < x ∧ x < k2 ∧ Spec.cut keys x = s) ↔ btw (leafStrs keys) s (leafOf keys k) (leafOf keys k2) ≠ 0 := by
  rw [← Nat.pos_iff_ne_zero, btw_pos]
  constructor
  · rintro ⟨x, hx, h1, h2, h3⟩
    exact ⟨_, h.mem_ts.2 ⟨x, hx, rfl⟩, by rw [leaf_length h.wf h.sorted (h.leaf_mem hx), h3], (h.leaf_lt hk hx).2 h1,
      (h.leaf_lt hx hk2).2 h2⟩
  · rintro ⟨t, ht, h1, h2, h3⟩
    obtain ⟨x, hx, rfl⟩ := h.mem_ts.1 ht
    rw [leaf_length h.wf h.sorted (h.leaf_mem hx)] at h1
    exact ⟨x, hx, (h.leaf_lt hk hx).1 h2, (h.leaf_lt hx hk2).1 h3, h1⟩

omit [Env] in
theorem between_rev {k k2 : Key} (hle : ¬ k < k2) : Spec.between keys k k2 = 0 := by
  unfold Spec.between
  rw [List.length_eq_zero_iff, List.filter_eq_nil_iff]
  intro x _
  simp only [decide_eq_true_eq, not_and]
  intro g1 g2
  exact hle (w_lt.1 ((w_lt.2 g1).trans (w_lt.2 g2)))

/-- The count between two iterators at keys, internally. -/
theorem count_any (h : Setting cfg keys) (hs : Env.strict = false) {f : Filter} {s : Nat}
    (hr : FRep cfg (leafStrs keys) (swKeys cfg keys) s f) (hm : MemBehind f) (hc : Spec.CountSafe keys s)
    {k k2 : Key} (hk : k ∈ keys) (hk2 : k2 ∈ keys) {it it2 : Iter}
    (ha : At (leafStrs keys) s it (leafOf keys k)) (ha2 : At (leafStrs keys) s it2 (leafOf keys k2))
    (hsd : Side s it (leafOf keys k)) :
    f.approxCountIter it it2 = .ok (Spec.counted keys s it.dense.searchComplete k k2) := by
  have hrev : ¬ k < k2 → Spec.counted keys s it.dense.searchComplete k k2 = 0 := fun hn => by
    unfold Spec.counted
    rw [if_neg (fun hc => hn hc.2.2.1), between_rev hn]
  rcases lt_trichotomy (w k) (w k2) with h1 | h1 | h1
  · rw [hr.approxAny hs (hr.pastOk hs hm) (h.dgood hc) ha ha2 ((h.leaf_lt hk hk2).2 (w_lt.1 h1)) (fun g => (hsd g).1) (fun g => (hsd g).2),
      h.between hk hk2]
    congr 1
    have hne : k ≠ k2 := fun e => lt_irrefl _ (e ▸ h1)
    unfold adjust Spec.counted
    have hlen := leaf_length h.wf h.sorted (h.leaf_mem hk)
    by_cases hsl : s < (leafOf keys k).length
    · have hiff : (it.dense.searchComplete = true ∧ s < (leafOf keys k).length ∧ (leafOf keys k).take s ≠ (leafOf keys k2).take s) ↔
          (it.dense.searchComplete = true ∧ s < Spec.cut keys k ∧ k < k2 ∧ k.take s ≠ k2.take s) := by
        rw [Ne, leaf_take_iff h hk hk2 hne hsl, hlen]
        constructor
        · rintro ⟨g1, g2, g3⟩; exact ⟨g1, g2, w_lt.1 h1, g3⟩
        · rintro ⟨g1, g2, -, g3⟩; exact ⟨g1, g2, g3⟩
      by_cases hcond : it.dense.searchComplete = true ∧ s < Spec.cut keys k ∧ k < k2 ∧ k.take s ≠ k2.take s
      · rw [if_pos hcond, if_pos (hiff.2 hcond)]
        by_cases hb : ∃ x ∈ keys, k < x ∧ x < k2 ∧ Spec.cut keys x = s
        · rw [if_pos hb, if_neg ((btw_keys h hk hk2 s).1 hb)]
        · rw [if_neg hb, if_pos (by
            by_contra hz
            exact hb ((btw_keys h hk hk2 s).2 hz))]
      · rw [if_neg hcond, if_neg (fun g => hcond (hiff.1 g))]
    · rw [if_neg (fun g => hsl g.2.1), if_neg (fun g => hsl (hlen ▸ g.2.1))]
  · have := w_inj h1
    subst this
    rw [hr.approxSame (hr.pastOk hs hm) ha ha2, hrev (fun g => lt_irrefl _ (w_lt.2 g))]
  · rw [hr.approxRev (hr.pastOk hs hm) ha ha2 ((h.leaf_lt hk2 hk).2 (w_lt.1 h1)), hrev (fun g => lt_asymm (w_lt.2 g) h1)]

omit [Env] in
theorem at_unique (h : Setting cfg keys) {s : Nat} {it : Iter} {t : Str} {k : Key} (hk : k ∈ keys)
    (h1 : At (leafStrs keys) s it t) (h2 : At (leafStrs keys) s it (leafOf keys k)) : t = leafOf keys k := by
  obtain ⟨k', hk', rfl⟩ := h.mem_ts.1 h1.mem
  have e1 := h1.getKey h.wf
  rw [h2.getKey h.wf, bytesOf_leaf, bytesOf_leaf] at e1
  rw [stored_inj hk hk' e1]

/-- A seek with what `approxCount` reads of the iterator. -/
theorem seek_side (h : Setting cfg keys) (hs : Env.strict = false) {f : Filter} {s : Nat}
    (hr : FRep cfg (leafStrs keys) (swKeys cfg keys) s f) (hpad : PadOk f (leafStrs keys) s) {q : Key} (incl : Bool)
    (hq : SafeSeek cfg keys s q) {it : Iter} (e : f.moveToKeyGreaterThan q incl = .ok it) {k : Key} (hk : k ∈ keys)
    (ha : At (leafStrs keys) s it (leafOf keys k)) :
    Side s it (leafOf keys k) ∧ (s < Spec.cut keys k → (it.dense.searchComplete = false ↔ k.take s = q.take s)) := by
  obtain ⟨it', e', ho⟩ := hr.seekSide hs hpad h.root q hq.ne incl (h.seekSafe hr.s1 hq.safe) hr.newClean
  rw [← moveToKeyGreaterThan_eq, e] at e'
  cases e'
  rcases ho with hv | ⟨t, h1, h2, h3⟩ | ⟨h1, h2, h3, t, h4, h5⟩
  · rw [ha.isValid] at hv; cases hv
  · have := at_unique h hk h1 ha
    subst this
    refine ⟨h2, fun hlt => ?_⟩
    rw [← leaf_length h.wf h.sorted (h.leaf_mem hk)] at hlt
    obtain ⟨e1, -⟩ := leaf_take h hk hlt
    rw [h3 hlt, e1, ← syms_take]
    exact ⟨fun g => syms_inj g, fun g => by rw [g]⟩
  · exfalso
    obtain ⟨k0, hk0, rfl⟩ := h.mem_ts.1 h4.1
    have hp : q <+: k0 := syms_prefix_w.1 (h4.2.1.trans (h.leaf_pre hk0))
    have hne : k0 ≠ q := by
      rintro rfl
      have := (h.leaf_pre hk0).length_le
      simp at this; omega
    have hl0 := leaf_length h.wf h.sorted (h.leaf_mem hk0)
    rcases hq.long with hb | hb
    · omega
    · have := hb k0 hk0 hp hne
      omega

/-- The seek for the left bound: invalid if every key is below `l`, else at the first key at or above `l` or at a key that matches `l`. -/
theorem left_any (h : Setting cfg keys) (hs : Env.strict = false) {f : Filter} {s : Nat}
    (hr : FRep cfg (leafStrs keys) (swKeys cfg keys) s f) (hpad : PadOk f (leafStrs keys) s) {l : Key}
    (hq : LeftOk cfg keys l ∨ SafeSeek cfg keys s l) :
    ∃ it, f.moveToKeyGreaterThan l true = .ok it ∧
      ((it.isValid = false ∧ ∀ x ∈ keys, w x < w l) ∨
        ∃ k ∈ keys, At (leafStrs keys) s it (leafOf keys k) ∧ (∀ x ∈ keys, w l ≤ w x → w k ≤ w x) ∧
          (w l ≤ w k ∨ Spec.Matches keys k l) ∧ Side s it (leafOf keys k) ∧
          (s < Spec.cut keys k → (it.dense.searchComplete = false ↔ k.take s = l.take s))) := by
  have hle : ∀ {x : Key}, w l ≤ w x → Spec.Above l true x := fun {x} hx => by
    rcases lt_or_eq_of_le hx with g | g
    · exact Or.inl (w_lt.1 g)
    · exact Or.inr ⟨rfl, (w_inj g).symm⟩
  rcases hq with ⟨k, hm, hcl⟩ | hq
  · obtain ⟨it, e, ha, hsc, hkl⟩ := left_seek h hs hr hpad hm hcl
    have hlen := leaf_length h.wf h.sorted (h.leaf_mem hm.1)
    refine ⟨it, e, Or.inr ⟨k, hm.1, ha, fun x hx hrx => not_lt.1 fun hlt => ?_, Or.inr hm, fun g => ⟨?_, hkl g⟩, fun g => ⟨fun _ => ?_, fun _ => ?_⟩⟩⟩
    · rw [mid_key h hm.1 hx hm (matches_self hm.1) hrx (le_of_lt hlt)] at hlt
      exact lt_irrefl _ hlt
    · rw [hsc]; exact decide_eq_true g
    · have h1 := (leaf_match h.wf h.sorted (h.leaf_mem hm.1)).2 hm
      rw [← hlen] at g
      obtain ⟨e1, hl⟩ := leaf_take h hm.1 g
      have h2 : syms (k.take s) <+: w l := by rw [← e1]; exact (List.take_prefix _ _).trans h1
      have h3 := syms_prefix_w.1 h2
      rw [List.prefix_iff_eq_take] at h3
      simpa [hl] using h3
    · rw [hsc]; exact decide_eq_false (by omega)
  · obtain ⟨it, o, e, hp, ho⟩ := seek_pos h hs hr hpad true hq
    refine ⟨it, e, ?_⟩
    rcases ho with ⟨rfl, -, hno, -⟩ | ⟨i, k, rfl, hi, hmin, ho⟩
    · exact Or.inl ⟨hp, fun x hx => not_le.1 fun hc => hno x hx (hle hc)⟩
    · obtain ⟨k', hk', ha⟩ := hp
      rw [hi] at hk'
      cases hk'
      have hk := get_mem hi
      obtain ⟨h1, h2⟩ := seek_side h hs hr hpad true hq e hk ha
      refine Or.inr ⟨k, hk, ha, fun x hx hc => w_le.2 (hmin x hx (hle hc)), ?_, h1, h2⟩
      rcases ho with ⟨-, h1 | ⟨-, rfl⟩, -⟩ | ⟨-, h1⟩ | ⟨-, -, -, h1⟩
      · exact Or.inl (le_of_lt (w_lt.2 h1))
      · exact Or.inl le_rfl
      · exact Or.inr h1
      · exact Or.inl (le_of_lt (w_lt.2 h1))

/-- The count for any pair of bounds.  It is 0 if all keys are below `l`.  Otherwise the left bound leads to a key `k`, the first
at or above `l` or one that matches `l`; the right bound leads to a key `k2`, the first at or above `r`, or one that matches `r`, or the last key if
all are below `r`.  The number of keys in the range is the number strictly between `k` and `k2` or at most 2 more, and the count is `Spec.counted`:
the number strictly between `k` and `k2`, unless `k` continues below the `s` levels of the first encoding and its first `s` bytes are
neither those of `l` nor those of `k2`.  In this case it is one too small or 2^32 - 1 too big.
Missing from C21: what is wrong there (`C21_refuted`), key lists that are not `CountSafe` (`C21_over_refuted`, `C21_zero_refuted`),
bounds that match no stored key and are not `SafeSeek`, and the condition on the memory behind an array (`C21_past_refuted`). -/
theorem C21_any_partial (h : Setting cfg keys) (hs : Env.strict = false) (hff : ¬ Spec.SingleFF keys) :
    ∃ o, SuRF.create cfg keys = .ok o ∧ (MemBehind o.filter → Spec.CountSafe keys o.filter.getSparseStartLevel →
      ∀ l r, (LeftOk cfg keys l ∨ SafeSeek cfg keys o.filter.getSparseStartLevel l) →
      (LeftOk cfg keys r ∨ SafeSeek cfg keys o.filter.getSparseStartLevel r) → l ≤ r →
      ∀ o1 : SuRF, o1.filter = o.filter → ∃ c o2, o1.approxCount l r = .ok (c, o2) ∧ o2.filter = o.filter ∧
        ((c = 0 ∧ ∀ x ∈ keys, x < l) ∨
          ∃ k ∈ keys, ∃ k2 ∈ keys, (∀ x ∈ keys, l ≤ x → k ≤ x) ∧ (l ≤ k ∨ Spec.Matches keys k l) ∧
            (∀ x ∈ keys, r ≤ x → k2 ≤ x) ∧ (((∀ x ∈ keys, x < r) ∧ ∀ x ∈ keys, x ≤ k2) ∨ r ≤ k2 ∨ Spec.Matches keys k2 r) ∧
            c = Spec.counted keys o.filter.getSparseStartLevel
              (decide (k.take o.filter.getSparseStartLevel ≠ l.take o.filter.getSparseStartLevel)) k k2 ∧
            Spec.between keys k k2 ≤ Spec.within keys l r ∧ Spec.within keys l r ≤ Spec.between keys k k2 + 2)) := by
  obtain ⟨f, s, e, hr, hpad⟩ := h.create hs hff
  refine ⟨⟨f, Iter.new f, Iter.new f⟩, by unfold SuRF.create; rw [e]; rfl, ?_⟩
  have hst : f.getSparseStartLevel = s := hr.sparse.start
  dsimp only
  rw [hst]
  intro hm hc l r hql hqr hlr o1 ho1
  obtain ⟨it, e1, hcl⟩ := left_any h hs hr hpad hql
  rcases hcl with ⟨hv, hlow⟩ | ⟨k, hk, ha, hmin, hkl, hsd, hsc⟩
  · refine ⟨0, { o1 with iter := it, iter2 := o1.iter2.clear }, ?_, ho1, Or.inl ⟨rfl, fun x hx => w_lt.1 (hlow x hx)⟩⟩
    unfold SuRF.approxCount Filter.approxCount
    rw [ho1, e1, ok_bind, hv]
    rfl
  obtain ⟨itr, it2, k2, e2, e3, hk2, ha2, hmin2, hcase⟩ := right_seek h hs hr hpad hqr
  have hlr' := w_le.2 hlr
  have e4 := count_any h hs hr hm hc hk hk2 ha ha2 hsd
  have e5 : Spec.counted keys s it.dense.searchComplete k k2 = Spec.counted keys s (decide (k.take s ≠ l.take s)) k k2 := by
    by_cases hlt : s < Spec.cut keys k
    · congr 1
      rw [Bool.eq_iff_iff, decide_eq_true_eq, Ne, ← hsc hlt, Bool.not_eq_false]
    · unfold Spec.counted
      rw [if_neg (fun g => hlt g.2.1), if_neg (fun g => hlt g.2.1)]
  rw [e5] at e4
  refine ⟨_, { o1 with iter := it, iter2 := it2 }, ?_, ho1, Or.inr ⟨k, hk, k2, hk2, fun x hx g => w_le.1 (hmin x hx (w_le.2 g)),
    hkl.imp w_le.1 id, fun x hx g => w_le.1 (hmin2 x hx (w_le.2 g)), ?_, rfl, ?_⟩⟩
  · unfold SuRF.approxCount Filter.approxCount
    rw [ho1, e1, ok_bind, ha.isValid]
    simp only [Bool.not_true, Bool.false_eq_true, if_false]
    rw [e2, ok_bind]
    cases hv : itr.isValid
    · rw [hv] at e3
      simp only [Bool.not_false, if_true] at e3 ⊢
      rw [e3, ok_bind, e4]
      rfl
    · rw [hv] at e3
      simp only [Bool.not_true, Bool.false_eq_true, if_false] at e3 ⊢
      rw [e3, ok_bind, e4]
      rfl
  · rcases hcase with ⟨g1, g2⟩ | g | g
    · exact Or.inl ⟨fun x hx => w_lt.1 (g1 x hx), fun x hx => w_le.1 (g2 x hx)⟩
    · exact Or.inr (Or.inl (w_le.1 g))
    · exact Or.inr (Or.inr g)
  refine within_bounds (keys := keys) (l := l) (r := r) (k := k) (k2 := k2) (fun x hx h1 h2 => ⟨?_, ?_⟩) (fun x hx h1 h2 => ?_)
  · refine not_lt.1 fun hlt => ?_
    rcases hkl with hkl | hkl
    · exact absurd (hkl.trans (le_of_lt h1)) (not_le.2 hlt)
    · have := mid_key h hk hx (matches_self hk) hkl (le_of_lt h1) (le_of_lt hlt)
      rw [this] at h1; exact lt_irrefl _ h1
  · exact not_lt.1 fun hlt => absurd h2 (not_lt.2 (hmin2 x hx (le_of_lt hlt)))
  · by_cases hxk : x = k
    · exact Or.inl hxk
    by_cases hxk2 : x = k2
    · exact Or.inr (Or.inl hxk2)
    refine Or.inr (Or.inr ⟨?_, ?_⟩)
    · exact lt_of_le_of_ne (hmin x hx h1) fun g => hxk (w_inj g).symm
    · refine not_le.1 fun hle => hxk2 ?_
      rcases hcase with ⟨-, h3⟩ | h3 | h3
      · exact w_inj (le_antisymm (h3 x hx) hle)
      · exact w_inj (le_antisymm (h2.trans h3) hle)
      · exact mid_key h hk2 hx (matches_self hk2) h3 hle h2

/-! ## Iterators that only move forward -/

/-- The iterators from `moveToFirst` (`b = true`) or a seek (`b = false`), and what `++` makes of them. -/
inductive Forward (cfg : Config) (keys : List Key) (f : Filter) : Bool → Iter → Prop
  | first {it : Iter} : f.moveToFirst = .ok it → Forward cfg keys f true it
  | seek {it : Iter} {q : Key} {incl : Bool} : SafeSeek cfg keys f.getSparseStartLevel q →
      f.moveToKeyGreaterThan q incl = .ok it → Forward cfg keys f false it
  | inc {b r : Bool} {it it' : Iter} : Forward cfg keys f b it → it.inc f = .ok (r, it') → Forward cfg keys f b it'

theorem Forward.side (h : Setting cfg keys) (hs : Env.strict = false) {f : Filter} {s : Nat}
    (hr : FRep cfg (leafStrs keys) (swKeys cfg keys) s f) (hpad : PadOk f (leafStrs keys) s) {b : Bool} {it : Iter}
    (hf : Forward cfg keys f b it) :
    it.isValid = false ∨ ∃ k ∈ keys, At (leafStrs keys) s it (leafOf keys k) ∧ Side s it (leafOf keys k) ∧
      (b = true → it.dense.searchComplete = true) := by
  have hst : f.getSparseStartLevel = s := hr.sparse.start
  have hinj : ∀ {α : Type} {a b : α}, (Except.ok a : R α) = .ok b → a = b := fun h => by cases h; rfl
  induction hf with
  | first e =>
    obtain ⟨it', t, e', hl, ha, h1, h2⟩ := hr.firstSide hs h.root
    have := hinj (e'.symm.trans e)
    subst this
    obtain ⟨k, hk, rfl⟩ := h.mem_ts.1 hl.1
    exact Or.inr ⟨k, hk, ha, h2, fun _ => h1⟩
  | seek hq e =>
    rw [hst] at hq
    obtain ⟨it', o, e', hp, -⟩ := seek_pos h hs hr hpad _ hq
    have := hinj (e'.symm.trans e)
    subst this
    cases o with
    | none => exact Or.inl hp
    | some i =>
      obtain ⟨k, hi, ha⟩ := hp
      exact Or.inr ⟨k, get_mem hi, ha, (seek_side h hs hr hpad _ hq e (get_mem hi) ha).1, fun hc => absurd hc (by decide)⟩
  | @inc b r it it' _ e ih =>
    rcases ih with hv | ⟨k, hk, ha, hsd, hb⟩
    · unfold Iter.inc at e
      rw [hv] at e
      have := hinj e
      simp only [Prod.mk.injEq] at this
      rw [← this.2]
      exact Or.inl hv
    · obtain ⟨r', it1, e', ho⟩ := hr.incSide hs ha hsd
      have := hinj (e'.symm.trans e)
      cases this
      rcases ho with ⟨-, hv, -⟩ | ⟨-, t, hn, ha', hsd', hc⟩
      · exact Or.inl hv
      · obtain ⟨k', hk', rfl⟩ := h.mem_ts.1 hn.1
        refine Or.inr ⟨k', hk', ha', hsd', fun g => ?_⟩
        rcases hc with hc | hc
        · exact hc
        · rw [hc]; exact hb g

/-- The count between two iterators: the left one from `moveToFirst` or a seek and any number of `++`, the other one at a key in whatever way
it got there, also before the left one.  For a left iterator from `moveToFirst` the flag is set: between iterators on keys that
differ in their first `s` bytes the count is wrong if the left key continues below. -/
theorem C21_forward_partial (h : Setting cfg keys) (hs : Env.strict = false) (hff : ¬ Spec.SingleFF keys) :
    ∃ f, Filter.create cfg keys = .ok f ∧ (MemBehind f → Spec.CountSafe keys f.getSparseStartLevel →
      ∀ b it it2, Forward cfg keys f b it → it.isValid = true → Reached cfg keys f it2 → it2.isValid = true →
        ∃ k ∈ keys, ∃ k2 ∈ keys, it.getKey = Spec.stored keys k ∧ it2.getKey = Spec.stored keys k2 ∧
          ∃ skip, (b = true → skip = true) ∧
            f.approxCountIter it it2 = .ok (Spec.counted keys f.getSparseStartLevel skip k k2)) := by
  obtain ⟨f, s, e, hr, hpad⟩ := h.create hs hff
  refine ⟨f, e, ?_⟩
  have hst : f.getSparseStartLevel = s := hr.sparse.start
  rw [hst]
  intro hm hc b it it2 hf hv hre hv2
  rcases hf.side h hs hr hpad with hn | ⟨k, hk, ha, hsd, hb⟩
  · rw [hn] at hv; cases hv
  obtain ⟨o, hp⟩ := hre.pos h hs hr hpad (lookup_total h hs hff e)
  cases o with
  | none => rw [show it2.isValid = false from hp] at hv2; cases hv2
  | some i =>
    obtain ⟨k2, hi, ha2⟩ := hp
    exact ⟨k, hk, k2, get_mem hi, by rw [ha.getKey h.wf, bytesOf_leaf], by rw [ha2.getKey h.wf, bytesOf_leaf],
      it.dense.searchComplete, hb, count_any h hs hr hm hc hk (get_mem hi) ha ha2 hsd⟩

end

/-! ## Examples -/

set_option maxRecDepth 1000000

/-- Seeks for one byte are safe. -/
theorem abSafe (b : UInt8) : @SafeSeek Env.onesW cfgNone abKeys 1 [b] := by
  letI := Env.onesW
  refine ⟨Or.inl (by simp), fun p c hl h1 => ?_, suffixes_of_le (by decide) _, Or.inl (by simp)⟩
  have := hl.2.1.length_le
  simp only [List.length_append, List.length_cons, List.length_nil] at this
  omega

/-- The conditions of `C21_any_partial` hold for a list of four keys and the bounds "A" and "b": `C21_refuted` is an instance of it.  The left
bound leads to "aa", the right one to "ba", and one key is strictly between.  From "a" the count is right. -/
example : Setting cfgNone abKeys ∧ ¬ Spec.SingleFF abKeys ∧
    (@SuRF.create Env.onesW cfgNone abKeys).toOption.any (fun o => @decide (@MemBehind Env.onesW o.filter) (@instDecidableMemBehind Env.onesW _) &&
      o.filter.getSparseStartLevel == 1) = true ∧
    Spec.CountSafe abKeys 1 ∧ @SafeSeek Env.onesW cfgNone abKeys 1 [65] ∧ @SafeSeek Env.onesW cfgNone abKeys 1 [98] ∧
    @countQ Env.onesW cfgNone abKeys [65] [98] = .ok 4294967296 ∧ Spec.counted abKeys 1 true [97, 97] [98, 97] = 4294967296 ∧
    @countQ Env.onesW cfgNone abKeys [97] [98] = .ok 1 ∧ Spec.counted abKeys 1 false [97, 97] [98, 97] = 1 :=
  ⟨abSetting.1, abSetting.2, by decide +kernel, abCount, abSafe _, abSafe _, by decide +kernel, by decide +kernel, by decide +kernel,
    by decide +kernel⟩

/-- "aa", "ab", "b", "ca", "cb". -/
def abcKeys : List Key := [[97, 97], [97, 98], [98], [99, 97], [99, 98]]

/-- The other case of `Spec.counted`: the key "b" is strictly between and ends in the first encoding.  The count from "A" to "ca" is 1, the range has
four keys; from "aa" it is 2. -/
theorem C21_under_refuted : @countQ Env.onesW cfgNone abcKeys [65] [99, 97] = .ok 1 ∧ Spec.within abcKeys [65] [99, 97] = 4 ∧
    Spec.counted abcKeys 1 true [97, 97] [99, 97] = 1 ∧ @countQ Env.onesW cfgNone abcKeys [97, 97] [99, 97] = .ok 2 := by decide +kernel

/-- Builds a filter, and counts from the first key to the position of a seek. -/
def countFirst [Env] (cfg : Config) (keys : List Key) (r : Key) : R Nat := do
  let f ← Filter.create cfg keys
  let it ← f.moveToFirst
  let it2 ← f.moveToKeyGreaterThan r true
  f.approxCountIter it it2

/-- C21: the count from the first key, as an iterator, to the third of four keys is `2^32` too. -/
theorem C21_first_refuted : @countFirst Env.onesW cfgNone abKeys [98, 97] = .ok 4294967296 := by decide +kernel

end Surf.Props
