import Verif.Proof.SeekKeys
import Verif.Props.Iter

/-!
# Seeking and range queries (C08, C14, C15, C17, C32, C37, C38)

The theorems hold for every machine with `Env.strict = false`, with and without `assert`s.
-/

set_option linter.unusedSectionVars false
set_option autoImplicit false

namespace Surf.Props
open Surf Trie

section
variable [Env] {cfg : Config} {keys : List Key}

/-- Real suffixes do not mislead a comparison with `q` (`Spec.SuffixFair`).  True of all keys and queries when the filter has at most 8
real bits or none, and when the keys and the query have the same length. -/
def Suffixes (cfg : Config) (keys : List Key) (q : Key) : Prop :=
  cfg.suffixType = .kReal ∨ cfg.suffixType = .kMixed → Spec.SuffixFair cfg.realLen keys q

omit [Env] in
theorem suffixes_of_le (h : cfg.suffixType = .kReal ∨ cfg.suffixType = .kMixed → cfg.realLen ≤ 8) (q : Key) :
    Suffixes cfg keys q := fun hc => Spec.suffixFair_of_le (h hc) _ _

/-- The seek from a clean iterator, internally. -/
theorem seek_key (h : Setting cfg keys) (hs : Env.strict = false) {f : Filter} {s : Nat}
    (hr : FRep cfg (leafStrs keys) (swKeys cfg keys) s f) (hpad : PadOk f (leafStrs keys) s) {q : Key}
    (hne : q ≠ [] ∨ Env.ndebug = true) (incl : Bool) (hsafe : Spec.SeekSafe keys s q) (hsx : Suffixes cfg keys q)
    {it : Iter} (hcl : Clean (leafStrs keys) s it) :
    ∃ it', seekFrom f it q incl = .ok it' ∧ SeekKey cfg keys s q incl it' := by
  obtain ⟨it', e, ho⟩ := hr.seek hs hpad h.root q hne incl (h.seekSafe hr.s1 hsafe) hcl
  exact ⟨it', e, h.seekKeys hs hsx ho⟩

/-! ## C14, C37: where a seek ends -/

/-- A seek to `q` ends at a stored key that no key above `q` precedes, and is invalid only if there is no key above `q`.
The key of the iterator is a prefix of that key: its truncated form if the flag is not set.
Missing from C14: queries that are not `SeekSafe` (`C14_refuted`), filters with
more than 8 real suffix bits and keys or queries that are not `SuffixFair` (`C14_suffix_refuted`), the empty query on
a build with `assert`s, `SingleFF` lists. -/
theorem C14_partial (h : Setting cfg keys) (hs : Env.strict = false) (hff : ¬ Spec.SingleFF keys) :
    ∃ f, Filter.create cfg keys = .ok f ∧ ∀ q incl, (q ≠ [] ∨ Env.ndebug = true) →
      Spec.SeekSafe keys f.getSparseStartLevel q → Suffixes cfg keys q →
      ∃ it, f.moveToKeyGreaterThan q incl = .ok it ∧
        (it.isValid = false → ∀ k ∈ keys, ¬ Spec.Above q incl k) ∧
        (it.isValid = true → ∃ k ∈ keys, (∀ k' ∈ keys, Spec.Above q incl k' → k ≤ k') ∧ it.getKey <+: k ∧
          (it.getKey = Spec.stored keys k ∨
            (it.getFpFlag = true ∧ q <+: k ∧ q.length < f.getSparseStartLevel ∧ it.getKey.length = f.getSparseStartLevel))) := by
  obtain ⟨f, s, e, hr, hpad⟩ := h.create hs hff
  refine ⟨f, e, fun q incl hne hsafe hsx => ?_⟩
  have hst : f.getSparseStartLevel = s := hr.sparse.start
  rw [hst] at hsafe ⊢
  obtain ⟨it, e1, ho⟩ := seek_key h hs hr hpad hne incl hsafe hsx hr.newClean
  refine ⟨it, e1, fun hv => ?_, fun hv => ?_⟩
  · rcases ho with ⟨-, -, ho, -⟩ | ⟨k, -, -, ⟨ha, -⟩ | ⟨-, -, -, -, -, ha⟩⟩
    · exact ho
    · rw [ha.isValid] at hv; cases hv
    · rw [ha.isValid] at hv; cases hv
  · rcases ho with ⟨-, ho, -⟩ | ⟨k, hk, hmin, ⟨ha, -⟩ | ⟨h1, h2, h3, h4, -, ha⟩⟩
    · rw [ho] at hv; cases hv
    · have hg : it.getKey = Spec.stored keys k := by rw [ha.getKey h.wf, bytesOf_leaf]
      exact ⟨k, hk, hmin, hg ▸ List.take_prefix _ _, Or.inl hg⟩
    · have hl := leaf_length h.wf h.sorted (h.leaf_mem hk)
      have hg : it.getKey = k.take s := by
        rw [(ha.getKey h.wf (h.mem_ts.2 ⟨k, hk, rfl⟩) (by omega)).1]
        unfold leafOf
        rw [List.take_take, bytesOf_take, Nat.min_eq_left (by omega)]
      refine ⟨k, hk, hmin, hg ▸ List.take_prefix _ _, Or.inr ⟨h1, h4, h2, ?_⟩⟩
      rw [hg, List.length_take]
      have : (leafOf keys k).length ≤ (w k).length := (h.leaf_pre hk).length_le
      rw [hl] at this
      simp at this; omega

/-- When the flag of the iterator is not set, the seek is exact: the iterator is at the first stored key above `q`, or
invalid when there is none.  When it is set, the key it is at matches `q` (or starts with `q` and `q` is
shorter than the levels of the first encoding). -/
theorem C37_partial (h : Setting cfg keys) (hs : Env.strict = false) (hff : ¬ Spec.SingleFF keys) :
    ∃ f, Filter.create cfg keys = .ok f ∧ ∀ q incl, (q ≠ [] ∨ Env.ndebug = true) →
      Spec.SeekSafe keys f.getSparseStartLevel q → Suffixes cfg keys q →
      ∃ it, f.moveToKeyGreaterThan q incl = .ok it ∧
        (it.getFpFlag = false → (it.isValid = false ∧ ∀ k ∈ keys, ¬ Spec.Above q incl k) ∨
          (it.isValid = true ∧ ∃ k, Spec.FirstAbove keys q incl k ∧ it.getKey = Spec.stored keys k)) ∧
        (it.getFpFlag = true → it.isValid = true ∧ ∃ k ∈ keys,
          (it.getKey = Spec.stored keys k ∧ Spec.Matches keys k q) ∨
          (Spec.FirstAbove keys q incl k ∧ q <+: k ∧ q.length < f.getSparseStartLevel)) := by
  obtain ⟨f, s, e, hr, hpad⟩ := h.create hs hff
  refine ⟨f, e, fun q incl hne hsafe hsx => ?_⟩
  have hst : f.getSparseStartLevel = s := hr.sparse.start
  rw [hst] at hsafe ⊢
  obtain ⟨it, e1, ho⟩ := seek_key h hs hr hpad hne incl hsafe hsx hr.newClean
  refine ⟨it, e1, fun hf => ?_, fun hf => ?_⟩
  · unfold Iter.getFpFlag at hf
    rcases ho with ⟨-, hv, ho, -⟩ | ⟨k, hk, hmin, ⟨ha, ho⟩ | ⟨h1, -⟩⟩
    · exact Or.inl ⟨hv, ho⟩
    · right
      rcases ho with ⟨-, ho, -⟩ | ⟨h1, -⟩ | ⟨h1, -⟩
      · exact ⟨ha.isValid, k, ⟨hk, ho, hmin⟩, by rw [ha.getKey h.wf, bytesOf_leaf]⟩
      · rw [h1] at hf; cases hf
      · rw [h1] at hf; cases hf
    · rw [h1] at hf; cases hf
  · unfold Iter.getFpFlag at hf
    rcases ho with ⟨h1, -⟩ | ⟨k, hk, hmin, ⟨ha, ho⟩ | ⟨-, h2, h3, h4, h5, ha⟩⟩
    · rw [h1] at hf; cases hf
    · refine ⟨ha.isValid, k, hk, ?_⟩
      rcases ho with ⟨h1, -⟩ | ⟨-, ho⟩ | ⟨-, h2, h3, h4⟩
      · rw [h1] at hf; cases hf
      · exact Or.inl ⟨by rw [ha.getKey h.wf, bytesOf_leaf], ho⟩
      · exact Or.inr ⟨⟨hk, Or.inl h4, hmin⟩, h3, h2⟩
    · exact ⟨ha.isValid, k, hk, Or.inr ⟨⟨hk, Or.inl h5, hmin⟩, h4, h2⟩⟩

/-! ## C32: comparison -/

/-- What comparing an iterator at the stored key `k` with `q` says. -/
theorem compare_key (h : Setting cfg keys) (hs : Env.strict = false) {f : Filter} {s : Nat}
    (hr : FRep cfg (leafStrs keys) (swKeys cfg keys) s f) {k q : Key} (hk : k ∈ keys) (hq : q.length < 2 ^ 64)
    (hsx : Suffixes cfg keys q) {it : Iter} (ha : At (leafStrs keys) s it (leafOf keys k)) :
    ∃ c, it.compare f q = .ok c ∧ c ≠ 0 ∧ (c < 0 → k < q ∨ (k.length < q.length ∧ ∃ k' ∈ keys, k' ≠ k ∧ k <+: k')) ∧
      (0 < c → c = kCouldBePositive ∨ q < k) := by
  obtain ⟨c, e, hc0, ho⟩ := hr.compare hs ha q hq
  have hst : bytesOf (leafOf keys k) = Spec.stored keys k := bytesOf_leaf k
  have hsp : Spec.stored keys k <+: k := List.take_prefix _ _
  have hl := leaf_length h.wf h.sorted (h.leaf_mem hk)
  have hzero : 0 ∈ leafOf keys k → leafOf keys k = w k := fun h0 => leaf_zero (h.leaf_pre hk) h0
  refine ⟨c, e, hc0, ?_⟩
  rcases ho with ⟨rfl, h0, hlt⟩ | ⟨hneg, hlt, hnp⟩ | ⟨hpos, hlt⟩ | ⟨hp, hnt, rfl⟩
  · refine ⟨fun _ => Or.inr ?_, fun hc => absurd hc (by decide)⟩
    have hw := hzero h0
    rw [hw, w_length] at hlt
    refine ⟨by omega, ?_⟩
    have h2 : 2 ≤ (leafOf keys k).length := by
      rw [hw, w_length]
      have := List.length_pos_iff.2 (h.valid.nonempty k hk)
      omega
    obtain ⟨p, k', h3, h4, h5, h6, h7⟩ := leaf_dropLast h.wf (h.leaf_mem hk) h2
    rw [hw, w_eq, List.dropLast_concat] at h3
    have := syms_inj h3
    subst this
    exact ⟨k', h5, h6, h7⟩
  · rw [hst] at hlt hnp
    exact ⟨fun _ => Or.inl (lt_of_prefix_lt hlt hnp hsp), fun hc => absurd hc (by omega)⟩
  · rw [hst] at hlt
    exact ⟨fun hc => absurd hc (by omega), fun _ => Or.inr (lt_of_lt_prefix hlt hsp)⟩
  · have hm : Spec.Matches keys k q := by
      refine (leaf_match h.wf h.sorted (h.leaf_mem hk)).1 ?_
      by_cases h0 : 0 ∈ leafOf keys k
      · have hw := hzero h0
        rw [hw] at hp hnt ⊢
        rw [w_length] at hnt
        have hb : bytesOf (w k) = k := by
          have := bytesOf_take k (k.length + 1)
          rw [List.take_of_length_le (by simp), List.take_of_length_le (by simp)] at this
          exact this
        rw [hb] at hp
        have : k = q := hp.eq_of_length_le (by
          by_contra hc
          exact hnt ⟨hw ▸ h0, by omega⟩)
        rw [this]
      · obtain ⟨p, h1, -⟩ := prefix_w (h.leaf_pre hk) h0
        have hb : bytesOf (leafOf keys k) = p := by
          have := bytesOf_take p p.length
          rw [List.take_length, w_eq, List.take_append_of_le_length (by simp), List.take_of_length_le (by simp)] at this
          rw [h1, this]
        rw [hb] at hp
        rw [h1]
        exact syms_prefix_w.2 hp
    rw [swKeys_leaf h.wf cfg (h.leaf_mem hk), hl] at hc0 ⊢
    obtain ⟨g1, g2⟩ := h.cmp hs hm hsx
    rcases cmpW_cases (cfg := cfg) (sfxOf cfg k (Spec.cut keys k)) q (Spec.cut keys k) hs with hc | hc | hc
    · exact ⟨fun hn => absurd hn (by rw [hc]; decide), fun _ => Or.inl hc⟩
    · exact ⟨fun _ => Or.inl (g1 hc), fun hp => absurd hp (by rw [hc]; decide)⟩
    · exact ⟨fun hn => absurd hn (by rw [hc]; decide), fun _ => Or.inr (g2 hc)⟩

/-! ## Iterators after seeking -/

/-- The seeks that leave an iterator at a key. -/
structure SafeSeek (cfg : Config) (keys : List Key) (s : Nat) (q : Key) : Prop where
  ne : q ≠ [] ∨ Env.ndebug = true
  safe : Spec.SeekSafe keys s q
  sfx : Suffixes cfg keys q
  long : Spec.LongEnough keys s q

theorem seek_pos (h : Setting cfg keys) (hs : Env.strict = false) {f : Filter} {s : Nat}
    (hr : FRep cfg (leafStrs keys) (swKeys cfg keys) s f) (hpad : PadOk f (leafStrs keys) s) {q : Key} (incl : Bool)
    (hq : SafeSeek cfg keys s q) :
    ∃ it o, f.moveToKeyGreaterThan q incl = .ok it ∧ Pos keys s it o ∧
      ((o = none ∧ it.couldBeFp = false ∧ (∀ k ∈ keys, ¬ Spec.Above q incl k) ∧ q ∉ keys) ∨
        ∃ (i : Nat) (k : Key), o = some i ∧ keys.dedup[i]? = some k ∧ (∀ k' ∈ keys, Spec.Above q incl k' → k ≤ k') ∧
          ((it.couldBeFp = false ∧ Spec.Above q incl k ∧ ∀ k0, Spec.Matches keys k0 q → k0 = q ∨
              cmpW cfg (sfxOf cfg k0 (Spec.cut keys k0)) q (Spec.cut keys k0) = -1) ∨
           (it.couldBeFp = true ∧ Spec.Matches keys k q) ∨
           (it.couldBeFp = true ∧ q.length < s ∧ q <+: k ∧ q < k))) := by
  obtain ⟨it, e, ho⟩ := seek_key h hs hr hpad hq.ne incl hq.safe hq.sfx hr.newClean
  rcases ho with ⟨hf, hv, ho, hnq⟩ | ⟨k, hk, hmin, ⟨ha, ho⟩ | ⟨-, h2, h3, h4, h5, -⟩⟩
  · exact ⟨it, none, e, hv, Or.inl ⟨rfl, hf, ho, hnq⟩⟩
  · obtain ⟨i, hi⟩ := mem_dedup_get hk
    exact ⟨it, some i, e, ⟨k, hi, ha⟩, Or.inr ⟨i, k, rfl, hi, hmin, ho⟩⟩
  · rcases hq.long with hb | hb
    · omega
    · have := hb k hk h4 fun hc => above_irrefl (incl := false) (Or.inl h5) (hc ▸ h5)
      omega

theorem less_pos (h : Setting cfg keys) (hs : Env.strict = false) {f : Filter} {s : Nat}
    (hr : FRep cfg (leafStrs keys) (swKeys cfg keys) s f) (hpad : PadOk f (leafStrs keys) s) {q : Key} (incl : Bool)
    (hq : SafeSeek cfg keys s q) (hlk : ∃ b, f.lookupKey q = .ok b) :
    ∃ it o, f.moveToKeyLessThan q incl = .ok it ∧ Pos keys s it o := by
  obtain ⟨it, o, e, hp, -⟩ := seek_pos h hs hr hpad false hq
  obtain ⟨b, hb⟩ := hlk
  have hprev : ∀ {it : Iter} {o : Option Nat}, Pos keys s it o → ∃ r it' o', it.dec f = .ok (r, it') ∧ Pos keys s it' o' := by
    intro it o hp
    obtain ⟨r, it', e', h1⟩ := hp.prev h hr
    rcases h1 with ⟨-, h1⟩ | ⟨-, h1, -⟩
    · exact ⟨_, it', _, e', h1⟩
    · exact ⟨_, it', _, e', h1⟩
  unfold Filter.moveToKeyLessThan
  rw [e, ok_bind]
  cases hv : it.isValid
  · obtain ⟨it', e', hp'⟩ := Pos.last h hr
    exact ⟨it', _, e', hp'⟩
  · simp only [Bool.not_true, Bool.false_eq_true, if_false]
    cases hf : it.getFpFlag
    · simp only [Bool.not_false, if_true]
      obtain ⟨r1, it1, o1, e1, hp1⟩ := hprev hp
      rw [e1, ok_bind]
      dsimp only
      rw [hb, ok_bind]
      cases b
      · exact ⟨it1, o1, rfl, hp1⟩
      · obtain ⟨r2, it2, o2, e2, hp2⟩ := hprev hp1
        simp only [if_true]
        rw [e2, ok_bind]
        exact ⟨it2, o2, rfl, hp2⟩
    · exact ⟨it, o, rfl, hp⟩

/-- The iterators that a program can obtain, with seeks restricted to `SafeSeek`. -/
inductive Reached (cfg : Config) (keys : List Key) (f : Filter) : Iter → Prop
  | first {it : Iter} : f.moveToFirst = .ok it → Reached cfg keys f it
  | last {it : Iter} : f.moveToLast = .ok it → Reached cfg keys f it
  | seek {it : Iter} {q : Key} {incl : Bool} : SafeSeek cfg keys f.getSparseStartLevel q →
      f.moveToKeyGreaterThan q incl = .ok it → Reached cfg keys f it
  | seekLess {it : Iter} {q : Key} {incl : Bool} : SafeSeek cfg keys f.getSparseStartLevel q →
      f.moveToKeyLessThan q incl = .ok it → Reached cfg keys f it
  | move {it it' : Iter} {m : Spec.Move} {r : Bool} : Reached cfg keys f it → doMove f it m = .ok (r, it') →
      Reached cfg keys f it'

theorem Reached.pos (h : Setting cfg keys) (hs : Env.strict = false) {f : Filter} {s : Nat}
    (hr : FRep cfg (leafStrs keys) (swKeys cfg keys) s f) (hpad : PadOk f (leafStrs keys) s) {it : Iter}
    (hlk : ∀ q, ∃ b, f.lookupKey q = .ok b) (hre : Reached cfg keys f it) : ∃ o, Pos keys s it o := by
  have hst : f.getSparseStartLevel = s := hr.sparse.start
  have hinj : ∀ {α : Type} {a b : α}, (Except.ok a : R α) = .ok b → a = b := fun h => by cases h; rfl
  induction hre with
  | first e =>
    obtain ⟨it', e', hp⟩ := Pos.first h hs hr
    exact ⟨_, hinj (e'.symm.trans e) ▸ hp⟩
  | last e =>
    obtain ⟨it', e', hp⟩ := Pos.last h hr
    exact ⟨_, hinj (e'.symm.trans e) ▸ hp⟩
  | seek hq e =>
    rw [hst] at hq
    obtain ⟨it', o, e', hp, -⟩ := seek_pos h hs hr hpad _ hq
    exact ⟨o, hinj (e'.symm.trans e) ▸ hp⟩
  | seekLess hq e =>
    rw [hst] at hq
    obtain ⟨it', o, e', hp⟩ := less_pos h hs hr hpad _ hq (hlk _)
    exact ⟨o, hinj (e'.symm.trans e) ▸ hp⟩
  | @move _ _ m _ _ e ih =>
    obtain ⟨o, hp⟩ := ih
    cases m with
    | next =>
      obtain ⟨it', e', h1⟩ := hp.next h hs hr
      have := hinj (e'.symm.trans e)
      cases this
      exact ⟨_, h1⟩
    | prev =>
      obtain ⟨r, it', e', h1⟩ := hp.prev h hr
      have := hinj (e'.symm.trans e)
      cases this
      rcases h1 with ⟨-, h1⟩ | ⟨-, h1, -⟩
      · exact ⟨_, h1⟩
      · exact ⟨_, h1⟩

theorem lookup_total (h : Setting cfg keys) (hs : Env.strict = false) (hff : ¬ Spec.SingleFF keys) {f : Filter}
    (e : Filter.create cfg keys = .ok f) (q : Key) : ∃ b, f.lookupKey q = .ok b := by
  obtain ⟨f', e', hl⟩ := h.lookup hs hff
  rw [e] at e'
  cases e'
  obtain ⟨r, hr, -⟩ := hl q
  exact ⟨r, hr⟩

/-- A seek followed by any sequence of steps shows the keys as a walk along the sorted distinct keys does that starts at a key
`k`; no key above `q` is before `k`, and `k` itself is above `q` or matches it, which the flag tells.  With
`++` alone this is a scan of all stored keys above `q`.  Missing from C38: seeks that are
not `SafeSeek` (`C38_refuted`), `--` on lists with a key that starts with byte 0x00, `SingleFF` lists. -/
theorem C38_partial (h : Setting cfg keys) (hs : Env.strict = false) (hff : ¬ Spec.SingleFF keys) :
    ∃ f, Filter.create cfg keys = .ok f ∧ ∀ q incl, SafeSeek cfg keys f.getSparseStartLevel q →
      ∃ it o, f.moveToKeyGreaterThan q incl = .ok it ∧
        ((o = none ∧ it.getFpFlag = false ∧ ∀ k ∈ keys, ¬ Spec.Above q incl k) ∨
          ∃ (i : Nat) (k : Key), o = some i ∧ keys.dedup[i]? = some k ∧ (∀ k' ∈ keys, Spec.Above q incl k' → k ≤ k') ∧
            (Spec.Above q incl k ∨ (it.getFpFlag = true ∧ Spec.Matches keys k q))) ∧
        ∀ ms : List Spec.Move, (Spec.Move.prev ∈ ms → ∀ k ∈ keys, k.head? ≠ some 0) →
          ∃ it', runMoves f ms it = .ok ((Spec.trace keys.dedup.length ms o).map Option.isSome, it') ∧
            Shows keys it' (Spec.after keys.dedup.length ms o) := by
  obtain ⟨f, s, e, hr, hpad⟩ := h.create hs hff
  refine ⟨f, e, fun q incl hq => ?_⟩
  have hst : f.getSparseStartLevel = s := hr.sparse.start
  rw [hst] at hq
  obtain ⟨it, o, e1, hp, ho⟩ := seek_pos h hs hr hpad incl hq
  refine ⟨it, o, e1, ?_, fun ms hz => ?_⟩
  · rcases ho with ⟨h1, h2, h3, -⟩ | ⟨i, k, h1, h2, h3, h4⟩
    · exact Or.inl ⟨h1, h2, h3⟩
    · refine Or.inr ⟨i, k, h1, h2, h3, ?_⟩
      rcases h4 with ⟨-, h4, -⟩ | h4 | ⟨-, -, -, h4⟩
      · exact Or.inl h4
      · exact Or.inr h4
      · exact Or.inl (Or.inl h4)
  obtain ⟨it', e2, hp'⟩ := hp.run h hs hr ms hz
  exact ⟨it', e2, hp'.shows h⟩

/-- Comparing a valid iterator with `q`: its key is the truncated form of a stored key `k`, the result is never 0, and unless
it is the mark for "could be equal" a positive result means `q < k` and a negative one `k < q`, except when `k` is a prefix
of another stored key and shorter than `q`.  Missing from C32: that exception (`C32_refuted`), incomplete suffixes
of more than 8 bits, iterators from seeks that are not `SafeSeek`, queries of 2^64 bytes. -/
theorem C32_partial (h : Setting cfg keys) (hs : Env.strict = false) (hff : ¬ Spec.SingleFF keys) :
    ∃ f, Filter.create cfg keys = .ok f ∧ ∀ it, Reached cfg keys f it → it.isValid = true →
      ∃ k ∈ keys, it.getKey = Spec.stored keys k ∧ ∀ q : Key, q.length < 2 ^ 64 → Suffixes cfg keys q →
        ∃ c, it.compare f q = .ok c ∧ c ≠ 0 ∧
          (c < 0 → k < q ∨ (k.length < q.length ∧ ∃ k' ∈ keys, k' ≠ k ∧ k <+: k')) ∧
          (0 < c → c = kCouldBePositive ∨ q < k) := by
  obtain ⟨f, s, e, hr, hpad⟩ := h.create hs hff
  refine ⟨f, e, fun it hre hv => ?_⟩
  obtain ⟨o, hp⟩ := hre.pos h hs hr hpad (lookup_total h hs hff e)
  cases o with
  | none => rw [show it.isValid = false from hp] at hv; cases hv
  | some i =>
    obtain ⟨k, hk, ha⟩ := hp
    exact ⟨k, get_mem hk, by rw [ha.getKey h.wf, bytesOf_leaf], fun q hq hsx => compare_key h hs hr (get_mem hk) hq hsx ha⟩

/-! ## C16: seeking backward -/

theorem dec_fp {f : Filter} {it it' : Iter} {r : Bool} (h : it.dec f = .ok (r, it')) : it'.couldBeFp = it.couldBeFp := by
  have hd : ∀ {a a' : Iter} {r : Bool}, a.decrementDense f = .ok (r, a') → a'.couldBeFp = a.couldBeFp := by
    intro a a' r h
    unfold Iter.decrementDense at h
    split at h
    · cases h; rfl
    · cases hd : a.dense.dec f.dense with
      | error e => rw [hd] at h; cases h
      | ok d =>
        rw [hd, ok_bind] at h
        dsimp only at h
        split at h
        · cases h; rfl
        · split at h
          · cases h; rfl
          · cases hm : (SIter.moveToRightMostKey f.sparse ({ a with dense := d } : Iter).passToSparse.sparse) with
            | error e => rw [hm] at h; cases h
            | ok d' =>
              rw [hm, ok_bind] at h
              cases h; rfl
  have hsp : ∀ {a a' : Iter} {r : Bool}, a.decrementSparse f = .ok (r, a') → a'.couldBeFp = a.couldBeFp := by
    intro a a' r h
    unfold Iter.decrementSparse at h
    split at h
    · cases h; rfl
    · cases hd : a.sparse.dec f.sparse with
      | error e => rw [hd] at h; cases h
      | ok d =>
        rw [hd, ok_bind] at h
        cases h; rfl
  unfold Iter.dec at h
  split at h
  · cases h; rfl
  · cases h1 : it.decrementSparse f with
    | error e => rw [h1] at h; cases h
    | ok x =>
      obtain ⟨b, it1⟩ := x
      rw [h1, ok_bind] at h
      dsimp only at h
      cases b
      · simp only [Bool.false_eq_true, if_false] at h
        exact (hd h).trans (hsp h1)
      · simp only [if_true] at h
        cases h
        exact hsp h1

theorem last_fp {f : Filter} {it : Iter} (h : f.moveToLast = .ok it) : it.couldBeFp = false := by
  unfold Filter.moveToLast at h
  dsimp only at h
  split at h
  · cases h1 : (Iter.new f).dense.setToLastLabelInRoot f.dense with
    | error e => rw [h1] at h; cases h
    | ok d =>
      rw [h1, ok_bind] at h
      cases h2 : d.moveToRightMostKey f.dense with
      | error e => rw [h2] at h; cases h
      | ok d2 =>
        rw [h2, ok_bind] at h
        split at h
        · cases h; rfl
        · cases h3 : (({ Iter.new f with dense := d2 } : Iter).passToSparse.sparse.moveToRightMostKey f.sparse) with
          | error e => rw [h3] at h; cases h
          | ok d3 => rw [h3, ok_bind] at h; cases h; rfl
  · cases h1 : (Iter.new f).sparse.setToLastLabelInRoot f.sparse with
    | error e => rw [h1] at h; cases h
    | ok d =>
      rw [h1, ok_bind] at h
      cases h2 : d.moveToRightMostKey f.sparse with
      | error e => rw [h2] at h; cases h
      | ok d2 => rw [h2, ok_bind] at h; cases h; rfl

/-- `moveToKeyLessThan` with a clear flag is at the last stored key below `q`, or invalid when there is none; with the
flag set its key matches `q` (or starts with `q`, and `q` is shorter than the levels of the
first encoding).  The parameter `inclusive` has no effect.
Missing from C16: seeks that are not `SafeSeek` (`C16_refuted`), lists with a key that starts with byte 0x00 (`C16_zero_refuted`), queries
that match a different key whose real suffix is zero (`C16_suffix_refuted`), `SingleFF` lists. -/
theorem C16_partial (h : Setting cfg keys) (hs : Env.strict = false) (hff : ¬ Spec.SingleFF keys)
    (hz : ∀ k ∈ keys, k.head? ≠ some 0) :
    ∃ f, Filter.create cfg keys = .ok f ∧ ∀ q incl, SafeSeek cfg keys f.getSparseStartLevel q →
      (cfg.suffixType = .kReal → ∀ k, Spec.Matches keys k q → k ≠ q →
        Spec.realSuffix0 cfg.realLen k (Spec.cut keys k) ≠ List.replicate cfg.realLen false) →
      ∃ it, f.moveToKeyLessThan q incl = .ok it ∧
        (it.getFpFlag = false → (it.isValid = false ∧ ∀ k ∈ keys, ¬ k < q) ∨
          (it.isValid = true ∧ ∃ k, Spec.LastBelow keys q k ∧ it.getKey = Spec.stored keys k)) ∧
        (it.getFpFlag = true → it.isValid = true ∧ ∃ k ∈ keys, it.getKey = Spec.stored keys k ∧
          (Spec.Matches keys k q ∨ (q <+: k ∧ q.length < f.getSparseStartLevel))) := by
  obtain ⟨f, s, e, hr, hpad⟩ := h.create hs hff
  obtain ⟨f', e', hlk⟩ := h.lookup hs hff
  rw [e] at e'
  cases e'
  refine ⟨f, e, fun q incl hq hrs => ?_⟩
  have hst : f.getSparseStartLevel = s := hr.sparse.start
  rw [hst] at hq ⊢
  obtain ⟨it, o, e1, hp, ho⟩ := seek_pos h hs hr hpad false hq
  obtain ⟨b, e2, hb⟩ := hlk q
  have hwl : ∀ {a b : Key}, ¬ a < b → ¬ b < a → a = b := by
    intro a b h1 h2
    by_contra hc
    rcases lt_or_gt_of_ne (fun hx => hc (w_inj hx) : w a ≠ w b) with h3 | h3
    · exact h1 (w_lt.1 h3)
    · exact h2 (w_lt.1 h3)
  have htr : ∀ {a b c : Key}, a < b → b < c → a < c := fun h1 h2 => w_lt.1 (lt_trans (w_lt.2 h1) (w_lt.2 h2))
  have hir : ∀ {a : Key}, ¬ a < a := fun h1 => lt_irrefl _ (w_lt.2 h1)
  have hprev : ∀ {it : Iter} {o : Option Nat}, Pos keys s it o → ∃ r it', it.dec f = .ok (r, it') ∧
      Pos keys s it' (Spec.step keys.dedup.length .prev o) := by
    intro it o hp
    obtain ⟨r, it', e', h1⟩ := hp.prev h hr
    rcases h1 with ⟨-, h1⟩ | ⟨-, -, i, k, -, hk, h2⟩
    · exact ⟨_, it', e', h1⟩
    · exact absurd h2 (hz k (get_mem hk))
  have hidx : ∀ {i j : Nat} {a b : Key}, keys.dedup[i]? = some a → keys.dedup[j]? = some b → (a < b ↔ i < j) :=
    fun hi hj => h.dedup_lt hi hj
  unfold Filter.moveToKeyLessThan
  rw [e1, ok_bind]
  rcases ho with ⟨rfl, hf, ho, hnq⟩ | ⟨i, k, rfl, hk, hmin, ho⟩
  · -- no key above q: the last key
    rw [show it.isValid = false from hp]
    simp only [Bool.not_false, if_true]
    obtain ⟨it', e', hp'⟩ := Pos.last h hr
    refine ⟨it', e', fun _ => Or.inr ?_, fun hf => ?_⟩
    · obtain ⟨k, hk, ha⟩ := hp'
      refine ⟨ha.isValid, k, ⟨get_mem hk, ?_, fun k' hk' hlt => ?_⟩, by rw [ha.getKey h.wf, bytesOf_leaf]⟩
      · by_contra hc
        have := hwl hc fun hc' => ho k (get_mem hk) (Or.inl hc')
        exact hnq (this ▸ get_mem hk)
      · obtain ⟨j, hj⟩ := mem_dedup_get hk'
        intro hc
        have := (hidx hk hj).1 hc
        obtain ⟨hj', -⟩ := List.getElem?_eq_some_iff.1 hj
        omega
    · unfold Iter.getFpFlag at hf
      rw [last_fp e'] at hf; cases hf
  · obtain ⟨k1, hk1, ha⟩ := id hp
    rw [hk] at hk1
    cases hk1
    rw [ha.isValid]
    simp only [Bool.not_true, Bool.false_eq_true, if_false]
    rcases ho with ⟨hf, ho, hmt⟩ | ho
    · -- exact
      have hab : q < k := by
        rcases ho with ho | ⟨ho, -⟩
        · exact ho
        · cases ho
      unfold Iter.getFpFlag
      rw [hf]
      simp only [Bool.not_false, if_true]
      obtain ⟨r1, it1, e3, hp1⟩ := hprev hp
      have hf1 := dec_fp e3
      rw [e3, ok_bind]
      dsimp only
      rw [e2, ok_bind]
      have hbq : b = true ↔ q ∈ keys := by
        constructor
        · rintro rfl
          rcases hb with ⟨k0, hm, hpass⟩ | ⟨-, hb⟩
          · rcases hmt k0 hm with h1 | h1
            · exact h1 ▸ hm.1
            · by_contra hc
              obtain ⟨h2, h3⟩ := passes_neg hs h.ok _ _ _ hpass.symm h1
              exact hrs h2 k0 hm (fun hx => hc (hx ▸ hm.1)) h3
          · have h1 := (hb.1 rfl).2
            rw [hst] at h1
            exact absurd h1 hq.safe.not_zeroHit
        · intro hqk
          rcases hb with ⟨k0, hm, hpass⟩ | ⟨hno, -⟩
          · have : k0 = q := by
              have h1 := (leaf_match h.wf h.sorted (h.leaf_mem hm.1)).2 hm
              have h2 := h.leaf_pre hqk
              have h3 := h.mem_ts.2 ⟨k0, hm.1, rfl⟩
              have h4 := h.mem_ts.2 ⟨q, hqk, rfl⟩
              have h5 : leafOf keys k0 = leafOf keys q := by
                rcases List.prefix_or_prefix_of_prefix h1 h2 with h6 | h6
                · exact h.wf.pf _ h3 _ h4 h6
                · exact (h.wf.pf _ h4 _ h3 h6).symm
              refine stored_inj hm.1 hqk ?_
              rw [← bytesOf_leaf, ← bytesOf_leaf, h5]
            subst this
            rw [hpass, passes_self hs h.ok]
          · exact absurd ⟨hqk, Or.inl rfl⟩ (hno q)
      -- keys before index i are at most q
      have hlow : ∀ {j : Nat} {k' : Key}, keys.dedup[j]? = some k' → j < i → ¬ q < k' := by
        intro j k' hj hji hc
        exact hmin k' (get_mem hj) (Or.inl hc) ((hidx hj hk).2 hji)
      have hhigh : ∀ {j : Nat} {k' : Key}, keys.dedup[j]? = some k' → i ≤ j → q < k' := by
        intro j k' hj hij
        rcases Nat.lt_or_ge i j with h1 | h1
        · exact htr hab ((hidx hk hj).2 h1)
        · have : i = j := by omega
          subst this
          rw [hk] at hj; cases hj; exact hab
      have fin : ∀ {it' : Iter} {m : Nat}, it'.couldBeFp = false →
          Pos keys s it' (if 0 < m then some (m - 1) else none) →
          (∀ {j : Nat} {k' : Key}, keys.dedup[j]? = some k' → (k' < q ↔ j < m)) →
          ((it'.couldBeFp = false → (it'.isValid = false ∧ ∀ k ∈ keys, ¬ k < q) ∨
            (it'.isValid = true ∧ ∃ k, Spec.LastBelow keys q k ∧ it'.getKey = Spec.stored keys k)) ∧
          (it'.couldBeFp = true → it'.isValid = true ∧ ∃ k ∈ keys, it'.getKey = Spec.stored keys k ∧
            (Spec.Matches keys k q ∨ (q <+: k ∧ q.length < s)))) := by
        intro it' m hf' hp' hiff
        refine ⟨fun _ => ?_, fun hc => by rw [hf'] at hc; cases hc⟩
        by_cases hm : 0 < m
        · rw [if_pos hm] at hp'
          obtain ⟨k2, hk2, ha2⟩ := hp'
          refine Or.inr ⟨ha2.isValid, k2, ⟨get_mem hk2, (hiff hk2).2 (by omega), fun k' hk' hlt => ?_⟩,
            by rw [ha2.getKey h.wf, bytesOf_leaf]⟩
          obtain ⟨j, hj⟩ := mem_dedup_get hk'
          have h1 := (hiff hj).1 hlt
          intro hc
          have := (hidx hk2 hj).1 hc
          omega
        · rw [if_neg hm] at hp'
          refine Or.inl ⟨hp', fun k' hk' hlt => ?_⟩
          obtain ⟨j, hj⟩ := mem_dedup_get hk'
          have := (hiff hj).1 hlt
          omega
      cases b
      · have hnq : q ∉ keys := fun hc => by have := hbq.2 hc; cases this
        refine ⟨it1, rfl, ?_⟩
        refine fin (m := i) (hf1.trans hf) hp1 fun {j k'} hj => ⟨fun hlt => ?_, fun hji => ?_⟩
        · by_contra hc
          exact hir (htr hlt (hhigh hj (by omega)))
        · by_contra hc
          exact hnq (hwl (hlow hj hji) hc ▸ get_mem hj)
      · obtain ⟨jq, hjq⟩ := mem_dedup_get (hbq.1 rfl)
        have h1 : jq < i := by
          by_contra hc
          exact hir (hhigh hjq (by omega))
        have h2 : jq + 1 = i := by
          by_contra hc
          obtain ⟨hi', -⟩ := List.getElem?_eq_some_iff.1 hk
          have h3 : keys.dedup[jq + 1]? = some keys.dedup[jq + 1] := List.getElem?_eq_getElem (by omega)
          exact hlow h3 (by omega) ((hidx hjq h3).2 (by omega))
        simp only [if_true]
        obtain ⟨r2, it2, e4, hp2⟩ := hprev hp1
        rw [e4, ok_bind]
        refine ⟨it2, rfl, ?_⟩
        refine fin (m := i - 1) ((dec_fp e4).trans (hf1.trans hf)) ?_ fun {j k'} hj => ?_
        · simp only [Spec.step] at hp2
          rw [if_pos (by omega)] at hp2
          exact hp2
        · rw [hidx hj hjq]; omega
    · -- flagged
      have hf : it.couldBeFp = true := by
        rcases ho with ⟨ho, -⟩ | ⟨ho, -⟩ <;> exact ho
      unfold Iter.getFpFlag
      rw [hf]
      simp only [Bool.not_true, Bool.false_eq_true, if_false]
      refine ⟨it, rfl, fun hc => absurd (hf.symm.trans hc) (by decide), fun _ => ⟨ha.isValid, k, get_mem hk, by rw [ha.getKey h.wf, bytesOf_leaf], ?_⟩⟩
      rcases ho with ⟨-, ho⟩ | ⟨-, h1, h2, -⟩
      · exact Or.inl ho
      · exact Or.inr ⟨h2, h1⟩

/-! ## C15: the key of an iterator -/

/-- A valid iterator's key is a prefix of a stored key, its truncated form, and no other stored key has the same truncated
form; steps never fail.  Missing from C15: iterators from seeks that are not `SafeSeek` (`C15_seek_refuted`),
`SingleFF` lists (`C15_refuted`). -/
theorem C15_partial (h : Setting cfg keys) (hs : Env.strict = false) (hff : ¬ Spec.SingleFF keys) :
    ∃ f, Filter.create cfg keys = .ok f ∧ ∀ it, Reached cfg keys f it →
      (it.isValid = true → ∃ k ∈ keys, it.getKey <+: k ∧ it.getKey = Spec.stored keys k ∧
        ∀ k' ∈ keys, it.getKey = Spec.stored keys k' → k' = k) ∧
      ∀ m, ∃ r it', doMove f it m = .ok (r, it') ∧ r = it'.isValid := by
  obtain ⟨f, s, e, hr, hpad⟩ := h.create hs hff
  refine ⟨f, e, fun it hre => ?_⟩
  obtain ⟨o, hpo⟩ := hre.pos h hs hr hpad (lookup_total h hs hff e)
  refine ⟨fun hv => ?_, fun m => ?_⟩
  · have := hpo.shows h
    cases o with
    | none => rw [this.1] at hv; cases hv
    | some i =>
      obtain ⟨-, k, hk, hg⟩ := this
      refine ⟨k, get_mem hk, hg ▸ List.take_prefix _ _, hg, fun k' hk' hg' => ?_⟩
      exact stored_inj hk' (get_mem hk) (hg'.symm.trans hg)
  · have hval : ∀ {it : Iter} {o : Option Nat}, Pos keys s it o → o.isSome = it.isValid := by
      intro it o hp
      have := hp.shows h
      cases o with
      | none => rw [this.1]; rfl
      | some i => rw [this.1]; rfl
    cases m with
    | next =>
      obtain ⟨it', e', h1⟩ := hpo.next h hs hr
      exact ⟨_, it', e', hval h1⟩
    | prev =>
      obtain ⟨r, it', e', h1⟩ := hpo.prev h hr
      rcases h1 with ⟨h1, h2⟩ | ⟨h1, h2, -⟩
      · exact ⟨_, it', e', h1.trans (hval h2)⟩
      · exact ⟨_, it', e', h1.trans (hval h2)⟩

/-! ## C17: getSuffix -/

/-- For a valid iterator at the stored key `k`: `getSuffix` returns the number of
real suffix bits and these bits of `k` behind its truncated form as a number (zeros when `k` is too short);
nothing for the other suffix types.  Missing from C17: 64 real bits (`C17_refuted`), iterators from
seeks that are not `SafeSeek`. -/
theorem C17_partial (h : Setting cfg keys) (hs : Env.strict = false) (hff : ¬ Spec.SingleFF keys) (h64 : cfg.realLen < 64) :
    ∃ f, Filter.create cfg keys = .ok f ∧ ∀ it, Reached cfg keys f it → it.isValid = true →
        ∃ k ∈ keys, it.getKey = Spec.stored keys k ∧ ∃ l v, it.getSuffix f = .ok (l, v) ∧
          ((cfg.suffixType = .kReal ∨ cfg.suffixType = .kMixed) → l = cfg.realLen ∧ v.toNat < 2 ^ cfg.realLen ∧
            (List.range cfg.realLen).map (fun i => v.toNat.testBit (cfg.realLen - 1 - i)) =
              Spec.realSuffix0 cfg.realLen k (Spec.cut keys k)) ∧
          (¬ (cfg.suffixType = .kReal ∨ cfg.suffixType = .kMixed) → l = 0 ∧ v = 0) := by
  obtain ⟨f, s, e, hr, hpad⟩ := h.create hs hff
  refine ⟨f, e, fun it hre hv => ?_⟩
  obtain ⟨o, hpo⟩ := hre.pos h hs hr hpad (lookup_total h hs hff e)
  cases o with
  | none => rw [show it.isValid = false from hpo] at hv; cases hv
  | some i =>
    obtain ⟨k, hk, ha⟩ := hpo
    refine ⟨k, get_mem hk, by rw [ha.getKey h.wf, bytesOf_leaf], ?_⟩
    have hg := hr.getSuffix hs ha
    have hm := h.leaf_mem (get_mem hk)
    by_cases hc : cfg.suffixType = .kReal ∨ cfg.suffixType = .kMixed
    · rw [if_pos hc, swKeys_leaf h.wf cfg hm, leaf_length h.wf h.sorted hm, sfxOf_real hs h.ok hc h64, ok_bind] at hg
      refine ⟨_, _, hg, fun _ => ⟨rfl, ?_, ?_⟩, fun hn => absurd hc hn⟩
      · have hf := (constructRealSuffix_spec k (Spec.cut keys k) cfg.realLen (by omega)).1
        refine Nat.lt_pow_two_of_testBit _ fun i hi => ?_
        rcases Nat.lt_or_ge i 64 with h1 | h1
        · have := hf (63 - i) (by omega)
          rw [BitVec.getMsbD_eq_getLsbD, decide_eq_true (by omega), Bool.true_and] at this
          rw [← this, BitVec.testBit_toNat]
          congr 1; omega
        · exact Nat.testBit_lt_two_pow (lt_of_lt_of_le (BitVec.isLt _) (Nat.pow_le_pow_right (by omega) h1))
      · rw [← real_bits (by omega)]
        refine List.map_congr_left fun i hi => ?_
        have := List.mem_range.1 hi
        rw [BitVec.getMsbD_eq_getLsbD, decide_eq_true (by omega), Bool.true_and, BitVec.testBit_toNat]
        congr 1; omega
    · rw [if_neg hc] at hg
      exact ⟨0, 0, hg, fun hn => absurd hn hc, fun _ => ⟨rfl, rfl⟩⟩

/-! ## C08: range queries -/

theorem clear_clean {f : Filter} {s : Nat} (hr : FRep cfg (leafStrs keys) (swKeys cfg keys) s f) :
    Clean (leafStrs keys) s (Iter.new f).clear := by
  have := hr.newClean
  exact ⟨⟨this.d.len, this.d.kl, this.d.pl, this.d.le, this.d.key, this.d.pos⟩, rfl, ⟨rfl, rfl, rfl, this.sp.kl, this.sp.pl⟩⟩

/-- `lookupRange` on an object that was just built answers `true` when a stored key lies in the range.
Missing from C08: left bounds that are not `SeekSafe` (`C08_refuted`), filters with more than 8 real suffix bits and keys or
bounds that are not `SuffixFair` (`C08_suffix_refuted`), for filters with real suffixes left bounds
that are not `LongEnough` (`C08_short_refuted`), the
empty left bound on a build with `assert`s, `SingleFF` lists. -/
theorem C08_partial (h : Setting cfg keys) (hs : Env.strict = false) (hff : ¬ Spec.SingleFF keys) :
    ∃ f, SuRF.create cfg keys = .ok ⟨f, Iter.new f, Iter.new f⟩ ∧ ∀ left li right ri, (left ≠ [] ∨ Env.ndebug = true) →
      right.length < 2 ^ 64 →
      Spec.SeekSafe keys f.getSparseStartLevel left → Suffixes cfg keys left → Suffixes cfg keys right →
      (cfg.suffixType = .kReal ∨ cfg.suffixType = .kMixed →
        Spec.LongEnough keys f.getSparseStartLevel left) →
      ∃ r o', SuRF.lookupRange ⟨f, Iter.new f, Iter.new f⟩ left li right ri = .ok (r, o') ∧
        ((∃ k ∈ keys, Spec.InRange left li right ri k) → r = true) := by
  obtain ⟨f, s, e, hr, hpad⟩ := h.create hs hff
  refine ⟨f, by unfold SuRF.create; rw [e]; rfl, fun left li right ri hne h64 hsafe hsx hsx' hb => ?_⟩
  have hst : f.getSparseStartLevel = s := hr.sparse.start
  rw [hst] at hsafe hb
  obtain ⟨r0, e1, ho⟩ := seek_key h hs hr hpad hne li hsafe hsx (clear_clean hr)
  obtain ⟨it, e2, hd, hsp⟩ := rangeSeek_of_seek (f := f) (it := Iter.new f) e1
  have hval : it.isValid = r0.isValid := by unfold Iter.isValid; rw [hd, hsp]
  have hcmp : it.compare f right = r0.compare f right := by unfold Iter.compare; rw [hval, hd, hsp]
  -- the range query, given the position
  have hend : (∃ c, it.isValid = true → r0.compare f right = .ok c ∧ c ≠ 0) →
      ∃ r o', SuRF.lookupRange ⟨f, Iter.new f, Iter.new f⟩ left li right ri = .ok (r, o') ∧
        (r = true ↔ it.isValid = true ∧ ∃ c, r0.compare f right = .ok c ∧ (c = kCouldBePositive ∨ c < 0)) := by
    rintro ⟨c, hc⟩
    unfold SuRF.lookupRange Filter.lookupRange
    dsimp only
    rw [e2, ok_bind]
    cases hv : it.isValid
    · exact ⟨false, _, rfl, by simp⟩
    · obtain ⟨hc1, hc2⟩ := hc hv
      simp only [Bool.not_true, Bool.false_eq_true, if_false]
      rw [hcmp, hc1, ok_bind]
      by_cases h1 : c = kCouldBePositive
      · rw [if_pos h1]
        exact ⟨true, _, rfl, by simp [h1]⟩
      · rw [if_neg h1]
        cases ri
        · exact ⟨decide (c < 0), _, rfl, by simp [h1]⟩
        · refine ⟨decide (c ≤ 0), _, rfl, ?_⟩
          simp only [decide_eq_true_eq, true_and, Except.ok.injEq, exists_eq_left', h1, false_or]
          omega
  have hle : ∀ {a b c : Key}, a ≤ b → (b < c ∨ b = c) → ¬ c < a := by
    intro a b c h1 h2 h3
    have h1' : ¬ w b < w a := fun hc => h1 (w_lt.1 hc)
    rcases h2 with h2 | rfl
    · exact h1' (lt_trans (w_lt.2 h2) (w_lt.2 h3))
    · exact h1 h3
  have hright : ∀ {k}, Spec.InRange left li right ri k → k < right ∨ k = right := by
    rintro k ⟨-, h1 | ⟨-, h1⟩⟩
    · exact Or.inl h1
    · exact Or.inr h1
  rcases ho with ⟨-, hv, ho, -⟩ | ⟨k, hk, hmin, ⟨ha, -⟩ | ⟨-, h2, h3, h4, h5, ha⟩⟩
  · rw [← hval] at hv
    obtain ⟨r, o', e3, -⟩ := hend ⟨0, fun hc => by rw [hv] at hc; cases hc⟩
    exact ⟨r, o', e3, fun ⟨k, hk, hin⟩ => absurd hin.1 (ho k hk)⟩
  · obtain ⟨c, e4, hc0, -, hpos⟩ := compare_key h hs hr hk h64 hsx' ha
    obtain ⟨r, o', e3, hr3⟩ := hend ⟨c, fun _ => ⟨e4, hc0⟩⟩
    refine ⟨r, o', e3, fun ⟨k', hk', hin⟩ => hr3.2 ⟨by rw [hval]; exact ha.isValid, c, e4, ?_⟩⟩
    rcases lt_trichotomy c 0 with hc | hc | hc
    · exact Or.inr hc
    · exact absurd hc hc0
    · rcases hpos hc with hp | hp
      · exact Or.inl hp
      · exact absurd hp (hle (hmin k' hk' hin.1) (hright hin))
  · have hnr : cfg.suffixType = .kNone ∨ cfg.suffixType = .kHash := by
      by_contra hc
      have : cfg.suffixType = .kReal ∨ cfg.suffixType = .kMixed := by
        cases ht : cfg.suffixType <;> simp_all
      rcases hb this with hb | hb
      · omega
      · have := hb k hk h4 fun hc => above_irrefl (incl := false) (Or.inl h5) (hc ▸ h5)
        omega
    have hl := leaf_length h.wf h.sorted (h.leaf_mem hk)
    obtain ⟨c, e4, hc⟩ := hr.stuckCompare (h.mem_ts.2 ⟨k, hk, rfl⟩) (by omega) ha hnr right
    have hg : bytesOf ((leafOf keys k).take s) <+: k := by
      unfold leafOf
      rw [List.take_take, bytesOf_take]
      exact List.take_prefix _ _
    have hc0 : c ≠ 0 := by
      rcases hc with ⟨hc, -⟩ | ⟨hc, -⟩ | ⟨hc, -⟩
      · omega
      · omega
      · rw [hc]; decide
    obtain ⟨r, o', e3, hr3⟩ := hend ⟨c, fun _ => ⟨e4, hc0⟩⟩
    refine ⟨r, o', e3, fun ⟨k', hk', hin⟩ => hr3.2 ⟨by rw [hval]; exact ha.isValid, c, e4, ?_⟩⟩
    rcases hc with ⟨hc, -⟩ | ⟨-, hc⟩ | ⟨hc, -⟩
    · exact Or.inr hc
    · exact absurd (lt_of_lt_prefix hc hg) (hle (hmin k' hk' hin.1) (hright hin))
    · exact Or.inl hc

end

end Surf.Props
