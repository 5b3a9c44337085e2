import Verif.Proof.CountKeys
import Verif.Props.Range
import Verif.Props.CountWitness

/-!
# Counts (C21)

The theorems hold for every machine with `Env.strict = false`, with and without `assert`s, under a condition on the memory
behind an array (`MemBehind`): `approxCount` looks for a set bit behind the end of a bit vector.
-/

set_option linter.unusedSectionVars false
set_option autoImplicit false

namespace Surf.Props
open Surf Trie

section
variable [Env] {cfg : Config} {keys : List Key}

omit [Env] in
theorem mid_prefix {p a b x : Str} (h1 : p <+: a) (h2 : p <+: b) (ha : a ≤ x) (hb : x ≤ b) : p <+: x := by
  obtain ⟨a', rfl⟩ := h1
  obtain ⟨b', rfl⟩ := h2
  by_contra hc
  rcases lt_trichotomy p x with h | h | h
  · exact absurd (append_lt h hc b') (not_lt.2 hb)
  · exact hc (h ▸ List.prefix_refl _)
  · exact absurd (lt_of_lt_of_le h (le_append p a')) (not_lt.2 ha)

omit [Env] in
theorem w_le {a b : Key} : w a ≤ w b ↔ a ≤ b := by
  rw [← not_lt, w_lt]
  exact Iff.rfl

omit [Env] in
/-- A key between a key and a query that matches it is that key. -/
theorem mid_key (h : Setting cfg keys) {k x a b : Key} (hk : k ∈ keys) (hx : x ∈ keys) (ha : Spec.Matches keys k a)
    (hb : Spec.Matches keys k b) (h1 : w a ≤ w x) (h2 : w x ≤ w b) : x = k :=
  leaf_unique h.sorted (h.leaf_mem hk) (mem_uniq.2 hx)
    (mid_prefix ((leaf_match h.wf h.sorted (h.leaf_mem hk)).2 ha) ((leaf_match h.wf h.sorted (h.leaf_mem hk)).2 hb) h1 h2)

omit [Env] in
theorem matches_self {k : Key} (hk : k ∈ keys) : Spec.Matches keys k k := ⟨hk, Or.inl rfl⟩

/-- The count between two iterators at keys, internally. -/
theorem count_at (h : Setting cfg keys) (hs : Env.strict = false) {f : Filter} {s : Nat}
    (hr : FRep cfg (leafStrs keys) (swKeys cfg keys) s f) (hm : MemBehind f) (hc : Spec.CountSafe keys s)
    {k k2 : Key} (hk : k ∈ keys) (hk2 : k2 ∈ keys) (hle : w k ≤ w k2) {it it2 : Iter}
    (ha : At (leafStrs keys) s it (leafOf keys k)) (ha2 : At (leafStrs keys) s it2 (leafOf keys k2))
    (hsc : it.dense.searchComplete = decide ((leafOf keys k).length ≤ s))
    (hkl : (leafOf keys k).length ≤ s → it.sparse.keyLen = 0) :
    f.approxCountIter it it2 = .ok (Spec.between keys k k2) := by
  rcases lt_or_eq_of_le hle with h1 | h1
  · rw [hr.approx hs (hr.pastOk hs hm) (h.dgood hc) ha ha2 ((h.leaf_lt hk hk2).2 (w_lt.1 h1)) hsc hkl, h.between hk hk2]
  · have := w_inj h1
    subst this
    rw [hr.approxSame (hr.pastOk hs hm) ha ha2]
    congr 1
    unfold Spec.between
    symm
    rw [List.length_eq_zero_iff, List.filter_eq_nil_iff]
    intro x _
    simp only [decide_eq_true_eq, not_and]
    intro g1 g2
    exact lt_asymm (w_lt.2 g1) (w_lt.2 g2)

/-- The left bounds that work: `l` matches a stored key and is not excluded by the suffix of that key. -/
def LeftOk (cfg : Config) (keys : List Key) (l : Key) : Prop :=
  ∃ k, Spec.Matches keys k l ∧ (l = k ∨ cfg.suffixType = .kNone ∨ cfg.suffixType = .kHash ∨ (l < k ∧ Suffixes cfg keys l))

omit [Env] in
theorem LeftOk.of_mem {l : Key} (h : l ∈ keys) : LeftOk cfg keys l := ⟨l, matches_self h, Or.inl rfl⟩

/-- The seek for the left bound, internally. -/
theorem left_seek (h : Setting cfg keys) (hs : Env.strict = false) {f : Filter} {s : Nat}
    (hr : FRep cfg (leafStrs keys) (swKeys cfg keys) s f) (hpad : PadOk f (leafStrs keys) s) {l k : Key}
    (hm : Spec.Matches keys k l)
    (hc : l = k ∨ cfg.suffixType = .kNone ∨ cfg.suffixType = .kHash ∨ (l < k ∧ Suffixes cfg keys l)) :
    ∃ it, f.moveToKeyGreaterThan l true = .ok it ∧ At (leafStrs keys) s it (leafOf keys k) ∧
      it.dense.searchComplete = decide ((leafOf keys k).length ≤ s) ∧ ((leafOf keys k).length ≤ s → it.sparse.keyLen = 0) := by
  refine h.seekOwn hs hr hpad hm.1 hm ?_
  rcases hc with rfl | hc | hc | ⟨hlt, hsx⟩
  · exact cmpW_self hs h.ok _ _
  · exact cmpW_noReal (Or.inl hc) _ _ _
  · exact cmpW_noReal (Or.inr hc) _ _ _
  · intro hneg
    have := (h.cmp hs hm hsx).1 hneg
    exact lt_asymm (w_lt.2 this) (w_lt.2 hlt)

omit [Env] in
/-- A count between two keys close to the bounds. -/
theorem within_bounds {l r k k2 : Key} 
    (hA : ∀ x ∈ keys, w k < w x → w x < w k2 → w l ≤ w x ∧ w x ≤ w r)
    (hB : ∀ x ∈ keys, w l ≤ w x → w x ≤ w r → x = k ∨ x = k2 ∨ (w k < w x ∧ w x < w k2)) :
    Spec.between keys k k2 ≤ Spec.within keys l r ∧ Spec.within keys l r ≤ Spec.between keys k k2 + 2 := by
  unfold Spec.between Spec.within
  constructor
  · refine (List.Nodup.subperm (List.Nodup.filter _ (List.nodup_dedup _)) ?_).length_le
    intro x hx
    simp only [List.mem_filter, List.mem_dedup, decide_eq_true_eq] at hx ⊢
    obtain ⟨g1, g2⟩ := hA x hx.1 (w_lt.2 hx.2.1) (w_lt.2 hx.2.2)
    exact ⟨hx.1, w_le.1 g1, w_le.1 g2⟩
  · have : ((keys.dedup.filter fun x => decide (l ≤ x ∧ x ≤ r))).Subperm
        (k :: k2 :: keys.dedup.filter fun x => decide (k < x ∧ x < k2)) := by
      refine List.Nodup.subperm (List.Nodup.filter _ (List.nodup_dedup _)) ?_
      intro x hx
      simp only [List.mem_filter, List.mem_dedup, decide_eq_true_eq, List.mem_cons] at hx ⊢
      rcases hB x hx.1 (w_le.2 hx.2.1) (w_le.2 hx.2.2) with g | g | ⟨g1, g2⟩
      · exact Or.inl g
      · exact Or.inr (Or.inl g)
      · exact Or.inr (Or.inr ⟨hx.1, w_lt.1 g1, w_lt.1 g2⟩)
    simpa using this.length_le

/-- The seek for the right bound as `approxCount` does it: the position is the last key, if no key is at or above `r`, or the
first key at or above `r`, or a key that matches `r`. -/
theorem right_seek (h : Setting cfg keys) (hs : Env.strict = false) {f : Filter} {s : Nat}
    (hr : FRep cfg (leafStrs keys) (swKeys cfg keys) s f) (hpad : PadOk f (leafStrs keys) s) {r : Key}
    (hq : LeftOk cfg keys r ∨ SafeSeek cfg keys s r) :
    ∃ it it2 k, f.moveToKeyGreaterThan r true = .ok it ∧ (if !it.isValid then f.moveToLast else pure it) = .ok it2 ∧ k ∈ keys ∧
      At (leafStrs keys) s it2 (leafOf keys k) ∧ (∀ x ∈ keys, w r ≤ w x → w k ≤ w x) ∧
      (((∀ x ∈ keys, w x < w r) ∧ ∀ x ∈ keys, w x ≤ w k) ∨ w r ≤ w k ∨ Spec.Matches keys k r) := by
  have hle : ∀ {x : Key}, w r ≤ w x → Spec.Above r true x := fun {x} hx => by
    rcases lt_or_eq_of_le hx with g | g
    · exact Or.inl (w_lt.1 g)
    · exact Or.inr ⟨rfl, (w_inj g).symm⟩
  rcases hq with ⟨k, hm, hcl⟩ | hq
  · obtain ⟨it, e, ha, -⟩ := left_seek h hs hr hpad hm hcl
    refine ⟨it, it, k, e, by rw [ha.isValid]; rfl, hm.1, ha, fun x hx hrx => not_lt.1 fun hlt => ?_, Or.inr (Or.inr hm)⟩
    rw [mid_key h hm.1 hx hm (matches_self hm.1) hrx (le_of_lt hlt)] at hlt
    exact lt_irrefl _ hlt
  obtain ⟨it, o, e, hp, ho⟩ := seek_pos h hs hr hpad true hq
  rcases ho with ⟨rfl, -, hno, -⟩ | ⟨i, k, rfl, hi, hmin, ho⟩
  · have hv : it.isValid = false := hp
    obtain ⟨it2, t, e2, hR, ha, -⟩ := hr.moveToLast h.root
    obtain ⟨k, hk, rfl⟩ := h.mem_ts.1 hR.1
    have hlt : ∀ x ∈ keys, w x < w r := fun x hx => not_le.1 fun hc => hno x hx (hle hc)
    refine ⟨it, it2, k, e, by rw [hv]; exact e2, hk, ha, fun x hx hc => absurd (hlt x hx) (not_lt.2 hc), Or.inl ⟨hlt, ?_⟩⟩
    intro x hx
    refine not_lt.1 fun hc => ?_
    have := hR.2.2 _ (h.mem_ts.2 ⟨x, hx, rfl⟩) List.nil_prefix
    exact absurd ((h.leaf_lt hk hx).2 (w_lt.1 hc)) (not_lt.2 this)
  · obtain ⟨k', hk', ha⟩ := hp
    rw [hi] at hk'
    cases hk'
    have hk := get_mem hi
    refine ⟨it, it, k, e, by rw [ha.isValid]; rfl, hk, ha, fun x hx hc => w_le.2 (hmin x hx (hle hc)), Or.inr ?_⟩
    rcases ho with ⟨-, h1 | ⟨-, rfl⟩, -⟩ | ⟨-, h1⟩ | ⟨-, -, -, h1⟩
    · exact Or.inl (le_of_lt (w_lt.2 h1))
    · exact Or.inl le_rfl
    · exact Or.inr h1
    · exact Or.inl (le_of_lt (w_lt.2 h1))

/-- The count from `l` to `r` is the number of keys in this range or at most 2 less.  For stored keys `l` and `r` it is the number of
keys strictly between them.  It does not depend on what the object was used for before.
Missing from C21: left bounds that match no stored key (`C21_refuted`), key lists that are not `CountSafe` (`C21_over_refuted`,
`C21_zero_refuted`), right bounds that match no stored key and are not `SafeSeek`, and the condition on the memory behind an array (`C21_past_refuted`). -/
theorem C21_partial (h : Setting cfg keys) (hs : Env.strict = false) (hff : ¬ Spec.SingleFF keys) :
    ∃ o, SuRF.create cfg keys = .ok o ∧ (MemBehind o.filter → Spec.CountSafe keys o.filter.getSparseStartLevel →
      ∀ l r, LeftOk cfg keys l → (LeftOk cfg keys r ∨ SafeSeek cfg keys o.filter.getSparseStartLevel r) → l ≤ r →
      ∀ o1 : SuRF, o1.filter = o.filter → ∃ c o2, o1.approxCount l r = .ok (c, o2) ∧ o2.filter = o.filter ∧
        c ≤ Spec.within keys l r ∧ Spec.within keys l r ≤ c + 2 ∧
        (l ∈ keys → r ∈ keys → c = Spec.between keys l r)) := by
  obtain ⟨f, s, e, hr, hpad⟩ := h.create hs hff
  refine ⟨⟨f, Iter.new f, Iter.new f⟩, by unfold SuRF.create; rw [e]; rfl, ?_⟩
  have hst : f.getSparseStartLevel = s := hr.sparse.start
  rw [hst]
  rintro hm hc l r ⟨k, hkl, hcl⟩ hq hlr o1 ho1
  dsimp only at hm ho1
  obtain ⟨it, e1, ha, hsc, hkl0⟩ := left_seek h hs hr hpad hkl hcl
  obtain ⟨itr, it2, k2, e2, e3, hk2, ha2, hmin, hcase⟩ := right_seek h hs hr hpad hq
  have hk := hkl.1
  have hlr' := w_le.2 hlr
  have hkk : w k ≤ w k2 := by
    refine not_lt.1 fun hlt => ?_
    rcases hcase with ⟨-, h1⟩ | h1 | h1
    · exact absurd (h1 k hk) (not_le.2 hlt)
    · have := mid_key h hk hk2 hkl (matches_self hk) (hlr'.trans h1) (le_of_lt hlt)
      rw [this] at hlt; exact lt_irrefl _ hlt
    · rcases le_or_gt (w k) (w r) with h2 | h2
      · have := mid_key h hk2 hk (matches_self hk2) h1 (le_of_lt hlt) h2
        rw [this] at hlt; exact lt_irrefl _ hlt
      · have h3 := (leaf_match h.wf h.sorted (h.leaf_mem hk)).2 hkl
        have h4 := mid_prefix h3 (h.leaf_pre hk) hlr' (le_of_lt h2)
        have h5 := (leaf_match h.wf h.sorted (h.leaf_mem hk2)).2 h1
        have := pre_unique h.wf (h.mem_ts.2 ⟨k, hk, rfl⟩) (h.mem_ts.2 ⟨k2, hk2, rfl⟩) h4 h5
        rw [h.leaf_inj hk2 hk this] at hlt; exact lt_irrefl _ hlt
  have e4 := count_at h hs hr hm hc hk hk2 hkk ha ha2 hsc hkl0
  refine ⟨Spec.between keys k k2, { o1 with iter := it, iter2 := it2 }, ?_, ho1, ?_⟩
  · unfold SuRF.approxCount Filter.approxCount
    rw [ho1, e1, ok_bind, ha.isValid]
    simp only [Bool.not_true, Bool.false_eq_true, if_false]
    rw [e2, ok_bind]
    cases hv : itr.isValid
    · rw [hv] at e3
      simp only [Bool.not_false, if_true] at e3 ⊢
      rw [e3, ok_bind, e4]
      rfl
    · rw [hv] at e3
      simp only [Bool.not_true, Bool.false_eq_true, if_false] at e3 ⊢
      rw [e3, ok_bind, e4]
      rfl
  have hb := within_bounds (keys := keys) (l := l) (r := r) (k := k) (k2 := k2) (fun x hx h1 h2 => ⟨?_, ?_⟩) (fun x hx h1 h2 => ?_)
  · refine ⟨hb.1, hb.2, fun hl hr' => ?_⟩
    have hkl' : l = k := mid_key h hk hl hkl hkl le_rfl le_rfl
    have hrk : r = k2 := by
      rcases hcase with ⟨h1, -⟩ | h1 | h1
      · exact absurd (h1 r hr') (lt_irrefl _)
      · exact w_inj (le_antisymm h1 (hmin r hr' le_rfl))
      · exact mid_key h hk2 hr' h1 h1 le_rfl le_rfl
    rw [hkl', hrk]
  · refine not_lt.1 fun hlt => ?_
    have := mid_key h hk hx (matches_self hk) hkl (le_of_lt h1) (le_of_lt hlt)
    rw [this] at h1; exact lt_irrefl _ h1
  · exact not_lt.1 fun hlt => absurd h2 (not_lt.2 (hmin x hx (le_of_lt hlt)))
  · by_cases hxk : x = k
    · exact Or.inl hxk
    by_cases hxk2 : x = k2
    · exact Or.inr (Or.inl hxk2)
    refine Or.inr (Or.inr ⟨?_, ?_⟩)
    · refine not_le.1 fun hle => hxk ?_
      exact mid_key h hk hx hkl (matches_self hk) h1 hle
    · refine not_le.1 fun hle => hxk2 ?_
      rcases hcase with ⟨-, h3⟩ | h3 | h3
      · exact w_inj (le_antisymm (h3 x hx) hle)
      · exact w_inj (le_antisymm (h2.trans h3) hle)
      · exact mid_key h hk2 hx (matches_self hk2) h3 hle h2

/-- The count between two iterators: the left one from the seek for a stored key `l`, the other at the key `k` in whatever way it
got there. -/
theorem C21_iter_partial (h : Setting cfg keys) (hs : Env.strict = false) (hff : ¬ Spec.SingleFF keys) :
    ∃ f, Filter.create cfg keys = .ok f ∧ (MemBehind f → Spec.CountSafe keys f.getSparseStartLevel →
      ∀ l ∈ keys, ∀ it it2, f.moveToKeyGreaterThan l true = .ok it → Reached cfg keys f it2 → it2.isValid = true →
        ∃ k ∈ keys, it2.getKey = Spec.stored keys k ∧
          (l ≤ k → f.approxCountIter it it2 = .ok (Spec.between keys l k))) := by
  obtain ⟨f, s, e, hr, hpad⟩ := h.create hs hff
  refine ⟨f, e, ?_⟩
  have hst : f.getSparseStartLevel = s := hr.sparse.start
  rw [hst]
  intro hm hc l hl it it2 e1 hre hv
  obtain ⟨it', e1', ha, hsc, hkl0⟩ := left_seek h hs hr hpad (matches_self hl) (Or.inl rfl)
  rw [e1'] at e1
  cases e1
  obtain ⟨o, hp⟩ := hre.pos h hs hr hpad (lookup_total h hs hff e)
  cases o with
  | none => rw [show it2.isValid = false from hp] at hv; cases hv
  | some i =>
    obtain ⟨k, hi, ha2⟩ := hp
    refine ⟨k, get_mem hi, by rw [ha2.getKey h.wf, bytesOf_leaf], fun hle => ?_⟩
    exact count_at h hs hr hm hc hl (get_mem hi) (w_le.2 hle) ha ha2 hsc hkl0

end

/-! ## Examples -/

set_option maxRecDepth 1000000

instance [Env] (f : Filter) : Decidable (MemBehind f) := by unfold MemBehind; infer_instance

theorem abCount : Spec.CountSafe abKeys 1 := by
  refine ⟨by decide +kernel, fun p hp => ?_⟩
  have : p = [] := List.length_eq_zero_iff.1 hp.1
  subst this
  exact ⟨by decide +kernel, by decide +kernel⟩

/-- The conditions of `C21_partial` hold for a list of four keys, the bounds "aa" and "bb", and memory that is not zero behind
the arrays.  The count is 2. -/
example : Setting cfgNone abKeys ∧ ¬ Spec.SingleFF abKeys ∧
    (@SuRF.create Env.onesW cfgNone abKeys).toOption.any (fun o => @decide (@MemBehind Env.onesW o.filter) (@instDecidableMemBehind Env.onesW _) &&
      o.filter.getSparseStartLevel == 1) = true ∧
    Spec.CountSafe abKeys 1 ∧ LeftOk cfgNone abKeys [97, 97] ∧ LeftOk cfgNone abKeys [98, 98] ∧
    @countQ Env.onesW cfgNone abKeys [97, 97] [98, 98] = .ok 2 ∧ Spec.between abKeys [97, 97] [98, 98] = 2 :=
  ⟨abSetting.1, abSetting.2, by decide +kernel, abCount, LeftOk.of_mem (by decide), LeftOk.of_mem (by decide), by decide +kernel,
    by decide +kernel⟩

end Surf.Props
