import Verif.Proof.Count
import Verif.Proof.History
import Verif.Proof.SeekKeys

/-!
# Counting between keys

What `approxCount` needs from the left seek, when the left bound is a stored key, and the number of leaves
between two leaves as a number of keys.
-/

set_option linter.unusedSectionVars false
set_option autoImplicit false

namespace Surf
open Trie

variable [Env] {cfg : Config} {ts : List Str} {sw : Str → Word} {s : Nat} {f : Filter}

/-- The suffix of a stored key is never smaller than the suffix of the key itself. -/
theorem cmpW_self (hs : Env.strict = false) (hok : cfg.Ok) (k : Key) (l : Nat) :
    cmpW cfg (sfxOf cfg k l) k l ≠ -1 := by
  intro hneg
  have hinj : ∀ {a b : Int}, (Except.ok a : R Int) = .ok b → b = a := fun h => by cases h; rfl
  have hn := (passes_neg hs hok k k l (passes_self hs hok k l) hneg).1
  have hc := cmpR_ok (cfg := cfg) hs (sfxOf cfg k l) k l
  rw [hneg] at hc
  unfold cmpR at hc
  have e0 : ¬ (cfg.suffixType = .kNone ∨ cfg.suffixType = .kHash) := by simp [hn]
  have e1 : ¬ cfg.suffixType = .kMixed := by simp [hn]
  have e2 : sfxOf cfg k l = BitvectorSuffix.constructRealSuffix k l cfg.realLen := by
    unfold sfxOf BitvectorSuffix.constructSuffix
    rw [hn]; rfl
  rw [if_neg e0] at hc
  dsimp only at hc
  rw [if_neg e1, e2] at hc
  change (if _ then _ else _) = _ at hc
  split at hc
  · have := hinj hc; exact absurd this (by decide)
  · rename_i h4
    rw [if_neg (by
      rintro (h5 | h5)
      · exact h4 ⟨h5, h5⟩
      · exact absurd h5 (by rw [BitVec.lt_def]; omega)), if_pos rfl] at hc
    have := hinj hc; exact absurd this (by decide)

omit [Env] in
theorem pre_unique (h : WF ts) {t p y : Str} (ht : t ∈ ts) (hp : p ∈ ts) (h1 : t <+: y) (h2 : p <+: y) : p = t := by
  rcases List.prefix_or_prefix_of_prefix h1 h2 with h3 | h3
  · exact (h.pf t ht p hp h3).symm
  · exact h.pf p hp t ht h3

theorem past_absurd (h : WF ts) {key : Key} {t p : Str} (ht : t ∈ ts) (hpre : t <+: w key)
    (hc : cmpW cfg (sw t) key t.length ≠ -1) (hp : Past cfg ts sw key true p) : False := by
  obtain ⟨hpw, -, ⟨he, hno⟩ | ⟨h1, h2⟩ | ⟨-, -, h3⟩⟩ := hp
  · rcases List.prefix_or_prefix_of_prefix hpre hpw with h3 | h3
    · exact hno t ht h3
    · rw [ex_iff.2 ⟨t, ht, h3⟩] at he; cases he
  · have := pre_unique h ht h1 hpre hpw
    subst this
    exact hc h2
  · cases h3

omit [Env] in
theorem own_absurd (h : WF ts) {key : Key} {t : Str} (ht : t ∈ ts) (hpre : t <+: w key)
    (hi : isInt ts (syms key) = true) (hno : w key ∉ ts) : False := by
  rw [w_eq] at hpre hno
  rcases List.prefix_concat_iff.1 hpre with h1 | h1
  · exact hno (h1 ▸ ht)
  · exact no_leaf_above h hi ht h1

/-- An inclusive seek for a string below a leaf whose suffix does not exclude it ends at that leaf. -/
theorem FRep.seekOwn (h : FRep cfg ts sw s f) (hs : Env.strict = false) (hpad : PadOk f ts s) (hroot : ∀ t ∈ ts, ¬ [0] <+: t)
    (key : Key) (hne : key ≠ [] ∨ Env.ndebug = true) {t : Str} (ht : t ∈ ts) (htk : t <+: w key)
    (hcmp : cmpW cfg (sw t) key t.length ≠ -1) {it : Iter} (hcl : Clean ts s it) :
    ∃ it', seekFrom f it key true = .ok it' ∧ At ts s it' t ∧ it'.dense.searchComplete = decide (t.length ≤ s) ∧
      (t.length ≤ s → it'.sparse.keyLen = 0) := by
  obtain ⟨fp, d, ed, hd⟩ := h.dseek hs hroot key hne true s 0 (by omega) (by omega) (by simpa using root_int h.wf)
    (it := it.dense) (by simpa using hcl.d) (by simp [DPath]) hcl.pre
  have hout := fun hv hc => h.dseekOut key true s 0 (by omega) (by omega) (by simpa using root_int h.wf) ed hv hc
  rw [List.take_zero, num_root h.wf] at ed
  have hidle := fun t => hcl.sp.idle t
  unfold seekFrom LoudsDense.moveToKeyGreaterThan
  rw [h.dense.height, ed, ok_bind]
  dsimp only
  rcases hd with ⟨rfl, p, hpast, -⟩ | ⟨rfl, p, hp, hpw, hpl, hpc, ha⟩ | ⟨rfl, hks, hi, hno, -⟩ |
    ⟨rfl, hks, hi, hon, hpath, hpre, hv, hsc, hsend⟩
  · exact (past_absurd h.wf ht htk hcmp hpast).elim
  · have hpt := pre_unique h.wf ht hp htk hpw
    subst hpt
    have hsc : d.searchComplete = true := by
      cases hc : d.searchComplete
      · obtain ⟨h1, h2, -⟩ := hout ha.valid hc
        refine absurd ?_ (no_leaf_above h.wf h2 hp)
        refine List.prefix_of_prefix_length_le (l₃ := w key) htk ?_ (by simp; omega)
        rw [w_eq]
        exact (List.take_prefix _ _).trans (List.prefix_append _ _)
      · rfl
    rw [ha.valid, ha.complete, decide_eq_true hpl]
    simp only [Bool.not_true, Bool.false_eq_true, if_false, if_true]
    exact ⟨_, rfl, ⟨hp, ha, fun h4 => absurd h4 (by omega), fun _ => hidle p⟩, hsc, fun _ => hcl.sp.len⟩
  · exact (own_absurd h.wf ht htk hi hno).elim
  · have hxl : ((syms key).take s).length = s := by simp; omega
    have hcomp : d.isComplete = false := by unfold DIter.isComplete; rw [hsc]; rfl
    have hok : ∀ l, s ≤ l → l < key.length → isInt ts ((syms key).take l) = true → ex ts ((syms key).take (l + 1)) = false →
      NextOk ts s ((syms key).take l) (key.getD l 0).toNat := by
      intro l _ hl hx he
      exfalso
      obtain ⟨e1, e2⟩ := take_succ_w hl
      rw [← e1] at he
      exact no_leaf h.wf hx e2 he t ht htk
    rw [hv, hcomp, hsc]
    simp only [Bool.not_true, Bool.false_eq_true, if_false, Bool.not_false, if_true]
    obtain ⟨A, C, hA, hn⟩ := h.snode hi (by omega)
    obtain ⟨fp, it', e, hr⟩ := h.sseek hs hpad key true hok _ s hks rfl le_rfl hi hA
      (it := { it.sparse with startNode := num ts ((syms key).take s) })
      (SOn.start hcl.sp.len hcl.sp.kl hcl.sp.pl hxl) hcl.sp.term rfl
    unfold Iter.passToSparse LoudsSparse.moveToKeyGreaterThan
    dsimp only
    rw [hsend, h.sfirst hA hn, ok_bind, h.sparse.start, e, ok_bind]
    dsimp only
    rcases hr with ⟨rfl, p, hpast, -⟩ | ⟨p, hp, hpw, hlt, ha, hfp⟩ | ⟨rfl, h1, h2, -⟩
    · exact (past_absurd h.wf ht htk hcmp hpast).elim
    · have hpt := pre_unique h.wf ht hp htk hpw
      subst hpt
      rw [ha.valid]
      simp only [Bool.not_true, Bool.false_eq_true, if_false]
      have htk' : p.take s = (syms key).take s := by
        have : p.take s = (w key).take s := by
          obtain ⟨r, hr⟩ := hpw
          rw [← hr, List.take_append_of_le_length (by omega)]
        rw [this, w_eq, List.take_append_of_le_length (by simp; omega)]
      refine ⟨_, rfl, ⟨hp, ⟨hv, by rw [hcomp, decide_eq_false (by omega)], by rw [hpre, decide_eq_false (by omega)],
        fun _ _ _ h4 => absurd h4 (by omega), fun _ _ h4 => absurd h4 (by omega), fun _ => by rw [htk']; exact hon⟩,
        fun _ => ha, fun h4 => absurd h4 (by omega)⟩, ?_, fun h4 => absurd h4 (by omega)⟩
      rw [decide_eq_false (by omega)]; exact hsc
    · exact (own_absurd h.wf ht htk h1 h2).elim

/-! ## In terms of the keys -/

variable {keys : List Key}

theorem Setting.seekOwn (h : Setting cfg keys) (hs : Env.strict = false) {f : Filter} {s : Nat}
    (hr : FRep cfg (leafStrs keys) (swKeys cfg keys) s f) (hpad : PadOk f (leafStrs keys) s) {k q : Key} (hk : k ∈ keys)
    (hq : Spec.Matches keys k q) (hcmp : cmpW cfg (sfxOf cfg k (Spec.cut keys k)) q (Spec.cut keys k) ≠ -1) :
    ∃ it, f.moveToKeyGreaterThan q true = .ok it ∧ At (leafStrs keys) s it (leafOf keys k) ∧
      it.dense.searchComplete = decide ((leafOf keys k).length ≤ s) ∧ ((leafOf keys k).length ≤ s → it.sparse.keyLen = 0) := by
  rw [moveToKeyGreaterThan_eq]
  have hne : q ≠ [] := by
    rintro rfl
    rcases hq.2 with h1 | ⟨p, h1, -, h2, -⟩
    · exact h.valid.nonempty k hk h1.symm
    · exact h1 (List.prefix_nil.1 h2)
  refine hr.seekOwn hs hpad h.root q (Or.inl hne) (h.mem_ts.2 ⟨k, hk, rfl⟩)
    ((leaf_match h.wf h.sorted (h.leaf_mem hk)).2 hq) ?_ hr.newClean
  rw [swKeys_leaf h.wf cfg (h.leaf_mem hk), leaf_length h.wf h.sorted (h.leaf_mem hk)]
  exact hcmp

theorem cmpW_noReal (h : cfg.suffixType = .kNone ∨ cfg.suffixType = .kHash) (sfx : Word) (q : Key) (l : Nat) :
    cmpW cfg sfx q l ≠ -1 := by
  unfold cmpW cmpR
  rw [if_pos h]
  decide

/-- Leaves between two leaves are keys between two keys. -/
theorem Setting.between (h : Setting cfg keys) {k k' : Key} (hk : k ∈ keys) (hk' : k' ∈ keys) :
    ((leafStrs keys).filter fun t => decide (leafOf keys k < t ∧ t < leafOf keys k')).length = Spec.between keys k k' := by
  unfold Spec.between
  rw [← List.length_map (f := leafOf keys) (as := keys.dedup.filter _)]
  refine (List.Perm.length_eq ((List.perm_ext_iff_of_nodup ?_ ?_).2 ?_))
  · refine List.Nodup.filter _ (h.wf.sorted.imp fun {a b} hab => ?_)
    exact ne_of_lt hab
  · refine List.Nodup.map_on ?_ (List.Nodup.filter _ (List.nodup_dedup _))
    intro a ha b hb e
    exact h.leaf_inj (List.mem_dedup.1 (List.mem_filter.1 ha).1) (List.mem_dedup.1 (List.mem_filter.1 hb).1) e
  · intro t
    simp only [List.mem_filter, decide_eq_true_eq, List.mem_map, List.mem_dedup]
    constructor
    · rintro ⟨ht, h1, h2⟩
      obtain ⟨k0, hk0, rfl⟩ := h.mem_ts.1 ht
      exact ⟨k0, ⟨hk0, (h.leaf_lt hk hk0).1 h1, (h.leaf_lt hk0 hk').1 h2⟩, rfl⟩
    · rintro ⟨k0, ⟨hk0, h1, h2⟩, rfl⟩
      exact ⟨h.mem_ts.2 ⟨k0, hk0, rfl⟩, (h.leaf_lt hk hk0).2 h1, (h.leaf_lt hk0 hk').2 h2⟩

omit [Env] in
theorem syms_le {a b : Key} (hl : a.length = b.length) (h : syms a ≤ syms b) : a ≤ b := by
  intro hba
  have h2 : w b < w a := w_lt.2 hba
  rcases lt_or_eq_of_le h with h1 | h1
  · exact lt_asymm h2 (w_lt.2 (syms_lt hl h1))
  · rw [syms_inj h1] at h2
    exact lt_irrefl _ h2

theorem Setting.dgood (h : Setting cfg keys) {s : Nat} (hc : Spec.CountSafe keys s) : DGood (leafStrs keys) s := by
  have hpre : ∀ {p : Key} {c : Nat}, ex (leafStrs keys) (syms p ++ [c]) = true → ∃ k ∈ keys, syms p ++ [c] <+: leafOf keys k := by
    intro p c he
    obtain ⟨t, ht, hp⟩ := ex_iff.1 he
    obtain ⟨k, hk, rfl⟩ := h.mem_ts.1 ht
    exact ⟨k, hk, hp⟩
  have hnode : ∀ {x : Str}, isInt (leafStrs keys) x = true → ∃ p, x = syms p ∧ (p = [] ∨ Spec.Shared keys p) := by
    intro x hx
    by_cases h0 : x = []
    · exact ⟨[], by rw [h0]; rfl, Or.inl rfl⟩
    · obtain ⟨p, e, hp⟩ := node_shared h.wf h.sorted hx h0
      exact ⟨p, e, Or.inr hp⟩
  refine ⟨?_, fun x hx0 hx hl => ?_, fun z hz hl hmax => ?_⟩
  · by_contra he
    obtain ⟨t, ht, hp⟩ := ex_iff.1 (show ex (leafStrs keys) [0] = true by simpa using he)
    exact h.root t ht hp
  · by_contra he
    obtain ⟨p, rfl, -⟩ := hnode hx
    obtain ⟨k, hk, hp⟩ := hpre (by simpa using he)
    have hp0 : p ≠ [] := by rintro rfl; exact hx0 rfl
    apply hc.1 k hk
    have e : syms p ++ [1] = syms (p ++ [0]) := by simp [syms]
    rw [e] at hp
    have h1 : p ++ [0] <+: Spec.stored keys k := by
      have h2 : p ++ [0] <+: k := syms_prefix_w.1 (hp.trans (h.leaf_pre hk))
      have h3 := hp.length_le
      rw [leaf_length h.wf h.sorted (h.leaf_mem hk), syms_length] at h3
      exact List.prefix_take_iff.2 ⟨h2, h3⟩
    have h4 : p ++ [0] <+: (Spec.stored keys k).take s := List.prefix_take_iff.2 ⟨h1, by simp at hl ⊢; omega⟩
    obtain ⟨a, p', rfl⟩ := List.exists_cons_of_ne_nil hp0
    obtain ⟨r, hr⟩ := h4
    rw [← hr]
    simp
  · obtain ⟨p, rfl, hp⟩ := hnode hz
    have hl' : p.length = s - 1 := by simpa using hl
    have hlast : Spec.LastAt keys (s - 1) p := by
      refine ⟨hl', ?_, fun p' hp' hl2 => ?_⟩
      · rcases hp with rfl | hp
        · left; simpa using hl'.symm
        · exact Or.inr hp
      · exact syms_le (by omega) (hmax _ (shared_int h.sorted hp') (by simpa using hl2))
    obtain ⟨h1, h2⟩ := hc.2 p hlast
    constructor
    · by_contra he
      obtain ⟨k, hk, hp⟩ := hpre (by simpa using he)
      have := (w_pf (k := p) (hp.trans (h.leaf_pre hk)))
      exact h1 (this ▸ hk)
    · by_contra he
      obtain ⟨k, hk, hp⟩ := hpre (by simpa using he)
      refine h2 k hk (syms_prefix_w.1 (List.IsPrefix.trans ?_ (h.leaf_pre hk)))
      rw [syms_append]
      exact hp

/-- What `approxCount` relies on: the word behind the bit vector that marks the first branches is not zero; if the number of
marks and one is a multiple of the sampling interval, what stands behind the table of samples is at least the number of bits. -/
def MemBehind (f : Filter) : Prop :=
  let v := f.sparse.loudsBits
  ((v.numOnes + 1) % v.sampleInterval ≠ 0 → Env.junkW v.bits v.bits.length ≠ 0) ∧
    ((v.numOnes + 1) % v.sampleInterval = 0 → v.numBits ≤ Env.junkP v.selectLut v.selectLut.length)

theorem FRep.pastOk (h : FRep cfg ts sw s f) (hs : Env.strict = false) (hm : MemBehind f) (hlt : s < maxLen ts) : PastOk f := by
  have hr := h.sparse.louds
  have ho := hr.ones
  obtain ⟨t, ht, hl⟩ := exists_maxLen h.wf.ne
  have hi : isInt ts (t.take s) = true := isInt_iff.2 ⟨t, ht, List.take_prefix _ _, fun hc => by
    have := congrArg List.length hc
    simp at this; omega⟩
  obtain ⟨A, C, hA, -⟩ := h.snode hi (by simp; omega)
  refine select_past hr hs ?_ (ho ▸ hm.1) (ho ▸ hm.2)
  intro hc
  have h1 := loudsOf_count (ts := ts) (snodes ts s)
  rw [hA] at h1
  change loudsOf ts (snodes ts s) = [] at hc
  rw [← hA, hc, hA] at h1
  simp at h1

end Surf
