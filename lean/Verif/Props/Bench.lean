import Verif.Model.Bench
import Verif.Props.Bloom
import Verif.Props.History
import Verif.Props.Ints

/-!
# The benchmark (C46, C47, C48, C49)
-/

set_option linter.unusedSectionVars false
set_option autoImplicit false
set_option maxRecDepth 1000000

namespace Surf.Props
open Surf Surf.Bench Trie

theorem key_tri (a b : Key) : a < b ∨ a = b ∨ b < a := by
  rcases lt_trichotomy (w a) (w b) with h | h | h
  · exact Or.inl (w_lt.1 h)
  · exact Or.inr (Or.inl (w_inj h))
  · exact Or.inr (Or.inr (w_lt.1 h))

theorem key_le {a b : Key} (h : a ≤ b) : a < b ∨ a = b := by
  rcases key_tri a b with h1 | h1 | h1
  · exact Or.inl h1
  · exact Or.inr h1
  · exact absurd h1 (List.not_lt.2 h)

/-! ## C48: bounds of the range queries -/

/-- The upper bound of a range query is above the key exactly when the last byte of a text is an ASCII character, and when adding the size
of the range to an integer does not overflow. -/
theorem C48 :
    (∀ (p : Key) (c : UInt8), ∃ u, getUpperBoundKey .email (p ++ [c]) = .ok u ∧ (p ++ [c] < u ↔ c.toNat < 128) ∧
      (c.toNat < 128 → ∃ d, u = p ++ [d] ∧ d.toNat = c.toNat + 128)) ∧
    (∀ x : BitVec 64, ∃ u : BitVec 64, getUpperBoundKey .int (uint64ToString x) = .ok (uint64ToString u) ∧
      (uint64ToString x < uint64ToString u ↔ x.toNat + kIntRangeSize < 2 ^ 64) ∧
      (x.toNat + kIntRangeSize < 2 ^ 64 → u.toNat = x.toNat + kIntRangeSize)) := by
  constructor
  · intro p c
    have h1 : (c + 128).toNat = (c.toNat + 128) % 256 := by rw [UInt8.toNat_add]; rfl
    have h2 := c.toNat_lt
    refine ⟨p ++ [c + 128], by simp [getUpperBoundKey], ?_, fun hc => ⟨c + 128, rfl, by omega⟩⟩
    constructor
    · intro h
      have h3 : [c] < [c + 128] := by
        by_contra hc
        rcases key_le (List.not_lt.1 hc) with h4 | h4
        · have := List.append_left_lt (l₁ := p) h4
          rw [← w_lt] at h this
          exact lt_asymm h this
        · rw [h4, ← w_lt] at h
          exact lt_irrefl _ h
      rw [List.cons_lt_cons_iff] at h3
      rcases h3 with h3 | ⟨-, h3⟩
      · rw [UInt8.lt_iff_toNat_lt] at h3; omega
      · exact absurd h3 (by simp)
    · intro h
      refine List.append_left_lt ?_
      rw [List.cons_lt_cons_iff]
      exact Or.inl (UInt8.lt_iff_toNat_lt.2 (by omega))
  · intro x
    have hx := x.isLt
    have hk : kIntRangeSize = 92233697311 := rfl
    have h1 : (x + BitVec.ofNat 64 kIntRangeSize).toNat = (x.toNat + kIntRangeSize) % 2 ^ 64 := by
      rw [BitVec.toNat_add, BitVec.toNat_ofNat, Nat.add_mod_mod]
    refine ⟨x + BitVec.ofNat 64 kIntRangeSize, ?_, ?_, ?_⟩
    · unfold getUpperBoundKey
      rw [u64_len, if_neg (by decide), (C22 x x).2.1]
    · rw [(C22 _ _).2.2, h1]
      omega
    · intro h
      rw [h1]
      omega

/-- Both kinds of keys for which the range is empty: "é" in UTF-8, and 2^64 - 1. -/
theorem upper_example : getUpperBoundKey .email [195, 169] = .ok [195, 41] ∧
    getUpperBoundKey .int (uint64ToString (BitVec.ofNat 64 (2 ^ 64 - 1))) = .ok (uint64ToString (BitVec.ofNat 64 92233697310)) ∧
    getUpperBoundKey .email [97] = .ok [225] := by decide +kernel

section
variable [Env] {cfg : Config} {ins : List Key}

/-! ## C46: point queries -/

theorem pointPositives_ok {flt : Flt} {ans : Key → Bool} (h : ∀ t, flt.lookup t = .ok (ans t)) (ts : List Key) :
    pointPositives flt ts = .ok (ts.filter ans).length := by
  induction ts with
  | nil => rfl
  | cons t ts ih =>
    rw [pointPositives, h, ok_bind, ih, ok_bind, List.filter_cons]
    cases ans t
    · change Except.ok _ = _; simp
    · change Except.ok _ = _; simp [Nat.add_comm]

omit [Env] in
theorem filter_split (p q : Key → Bool) (ts : List Key) (hpq : ∀ t, q t = true → p t = true) :
    (ts.filter p).length = (ts.filter q).length + (ts.filter fun t => p t && !q t).length := by
  induction ts with
  | nil => rfl
  | cons t ts ih =>
    rw [List.filter_cons, List.filter_cons, List.filter_cons]
    cases hq : q t
    · cases hp : p t <;> simp [ih]; omega
    · rw [hpq t hq]; simp [ih]; omega

theorem assertR_true {b : Bool} (h : b = true) : assertR b = .ok () := by
  unfold assertR
  rw [h]; rfl

theorem runPoint_ok {flt : Flt} {ans : Key → Bool} (h : ∀ t, flt.lookup t = .ok (ans t)) (hi : ∀ k ∈ ins, ans k = true) (ts : List Key) :
    runPoint flt ins ts = .ok ((ts.filter fun t => ans t && decide (t ∉ ins)).length : Int) := by
  unfold runPoint
  rw [pointPositives_ok h, ok_bind]
  dsimp only
  have := filter_split ans (fun t => decide (t ∈ ins)) ts (fun t ht => hi t (of_decide_eq_true ht))
  have h2 : (ts.filter fun t => ans t && decide (t ∉ ins)) = ts.filter fun t => ans t && !decide (t ∈ ins) := by simp
  rw [h2]
  unfold pointTrue
  rw [this, assertR_true (by simp), ok_bind]
  change Except.ok _ = _
  congr 1
  push_cast
  ring

/-- The number the benchmark prints as false positives of point queries is the number of queries answered `true` for keys that are not
stored; the assertion behind it never fails.  For all filter types; SuRF filters of a single key that starts with 0xFF are excepted. -/
theorem C46 (ft : String) (sl : Nat) (hs : Env.strict = false)
    (h : (ft = "Bloom" ∧ ins.length < 2 ^ 31) ∨ (ft ≠ "Bloom" ∧ Setting (configOf ft sl) ins ∧ ¬ Spec.SingleFF ins)) :
    ∃ (flt : Flt) (ans : Key → Bool), mkFilter ft sl ins = .ok flt ∧ (∀ t, flt.lookup t = .ok (ans t)) ∧ (∀ k ∈ ins, ans k = true) ∧
      ∀ ts, runPoint flt ins ts = .ok ((ts.filter fun t => ans t && decide (t ∉ ins)).length : Int) := by
  rcases h with ⟨rfl, hn⟩ | ⟨hne, h, hff⟩
  · obtain ⟨filt, -, hc, hk, hq⟩ := (C45 kBitsPerKey ins.length (by decide) hn).1 ins rfl
    have hans : ∀ t, ∃ r, Flt.lookup (.bloom filt) t = .ok r := fun t => by
      obtain ⟨r, e, -⟩ := hq t
      exact ⟨r, e⟩
    choose ans ha using hans
    have hi : ∀ k ∈ ins, ans k = true := fun k hkm => by
      have := ha k
      rw [show Flt.lookup (.bloom filt) k = .ok true from hk k hkm] at this
      exact (Except.ok.inj this).symm
    refine ⟨.bloom filt, ans, ?_, ha, hi, runPoint_ok ha hi⟩
    unfold mkFilter
    rw [if_pos rfl, hc]
    rfl
  · obtain ⟨f, e, hl⟩ := h.lookup hs hff
    obtain ⟨f', e', hk⟩ := C01_partial h hs hff
    have hfe : f' = f := by rw [e] at e'; exact (Except.ok.inj e').symm
    subst hfe
    have hans : ∀ t, ∃ r, Flt.lookup (.surf ⟨f', Iter.new f', Iter.new f'⟩) t = .ok r := fun t => by
      obtain ⟨r, e, -⟩ := hl t
      exact ⟨r, e⟩
    choose ans ha using hans
    have hi : ∀ k ∈ ins, ans k = true := fun k hkm => by
      have := ha k
      rw [show Flt.lookup (.surf ⟨f', Iter.new f', Iter.new f'⟩) k = .ok true from hk k hkm] at this
      exact (Except.ok.inj this).symm
    refine ⟨.surf ⟨f', Iter.new f', Iter.new f'⟩, ans, ?_, ha, hi, runPoint_ok ha hi⟩
    unfold mkFilter SuRF.create
    rw [if_neg hne, e]
    rfl

/-- What the positive answers of the four kinds of SuRF filters mean, with the suffix length given on the command line: a stored key matches and its next
`sl` bits, its `sl` hash bits or both agree with those of the query. -/
theorem C46_answers (ft : String) (sl : Nat) (hs : Env.strict = false) (hne : ft ≠ "Bloom") (h : Setting (configOf ft sl) ins)
    (hff : ¬ Spec.SingleFF ins) :
    ∃ flt, mkFilter ft sl ins = .ok flt ∧ ∀ t, ∃ r, flt.lookup t = .ok r ∧
      (ft = "SuRF" → 0 ∉ t → (r = true ↔ ∃ k, Spec.Matches ins k t)) ∧
      (ft = "SuRFHash" → sl ≤ 57 → (r = true ↔ ∃ k, Spec.Matches ins k t ∧
        (suffixHash k).toNat / 2 ^ 7 % 2 ^ sl = (suffixHash t).toNat / 2 ^ 7 % 2 ^ sl)) ∧
      (ft = "SuRFReal" → (r = true ↔ ∃ k, Spec.Matches ins k t ∧
        (Spec.realSuffix0 sl k (Spec.cut ins k) = List.replicate sl false ∨
          ∃ b, Spec.realSuffix sl k (Spec.cut ins k) = some b ∧ Spec.realSuffix sl t (Spec.cut ins k) = some b))) ∧
      (ft = "SuRFMixed" → sl ≤ 57 → (r = true ↔ ∃ k, Spec.Matches ins k t ∧
        (suffixHash k).toNat / 2 ^ 7 % 2 ^ sl = (suffixHash t).toNat / 2 ^ 7 % 2 ^ sl ∧
        Spec.realSuffix0 sl k (Spec.cut ins k) = Spec.realSuffix0 sl t (Spec.cut ins k))) := by
  have hmk : ∀ f, Filter.create (configOf ft sl) ins = .ok f → mkFilter ft sl ins = .ok (.surf ⟨f, Iter.new f, Iter.new f⟩) := fun f e => by
    unfold mkFilter SuRF.create
    rw [if_neg hne, e]
    rfl
  by_cases h1 : ft = "SuRF"
  · subst h1
    obtain ⟨f, e, hl⟩ := C02_noZero h hs hff rfl
    obtain ⟨f', e', hl'⟩ := h.lookup hs hff
    rw [e] at e'
    cases e'
    refine ⟨_, hmk _ e, fun t => ?_⟩
    obtain ⟨r, e1, -⟩ := hl' t
    refine ⟨r, e1, fun _ h0 => ?_, fun hc => absurd hc (by decide), fun hc => absurd hc (by decide), fun hc => absurd hc (by decide)⟩
    obtain ⟨r', e2, h2⟩ := hl t h0
    rw [e1] at e2
    cases e2
    exact h2
  by_cases h2 : ft = "SuRFHash"
  · subst h2
    by_cases h57 : sl ≤ 57
    · obtain ⟨f, e, hl⟩ := C04 h hs hff rfl h57
      refine ⟨_, hmk _ e, fun t => ?_⟩
      obtain ⟨r, e1, h2⟩ := hl t
      exact ⟨r, e1, fun hc => absurd hc (by decide), fun _ _ => h2, fun hc => absurd hc (by decide), fun hc => absurd hc (by decide)⟩
    · obtain ⟨f, e, hl⟩ := h.lookup hs hff
      refine ⟨_, hmk _ e, fun t => ?_⟩
      obtain ⟨r, e1, -⟩ := hl t
      exact ⟨r, e1, fun hc => absurd hc (by decide), fun _ hc => absurd hc h57, fun hc => absurd hc (by decide), fun hc => absurd hc (by decide)⟩
  by_cases h3 : ft = "SuRFReal"
  · subst h3
    obtain ⟨f, e, hl⟩ := C03 h hs hff rfl
    refine ⟨_, hmk _ e, fun t => ?_⟩
    obtain ⟨r, e1, h2⟩ := hl t
    exact ⟨r, e1, fun hc => absurd hc (by decide), fun hc => absurd hc (by decide), fun _ => h2, fun hc => absurd hc (by decide)⟩
  by_cases h4 : ft = "SuRFMixed" ∧ sl ≤ 57
  · obtain ⟨rfl, h57⟩ := h4
    obtain ⟨f, e, hl⟩ := C05 h hs hff rfl h57
    refine ⟨_, hmk _ e, fun t => ?_⟩
    obtain ⟨r, e1, h2⟩ := hl t
    exact ⟨r, e1, fun hc => absurd hc (by decide), fun hc => absurd hc (by decide), fun hc => absurd hc (by decide), fun _ _ => h2⟩
  · obtain ⟨f, e, hl⟩ := h.lookup hs hff
    refine ⟨_, hmk _ e, fun t => ?_⟩
    obtain ⟨r, e1, -⟩ := hl t
    exact ⟨r, e1, fun hc => absurd hc h1, fun hc => absurd hc h2, fun hc => absurd hc h3, fun hc h57 => absurd ⟨hc, h57⟩ h4⟩

/-! ## C47: range queries -/

/-- Some stored key is in the range from `t` to `u`, both included. -/
def Hit (ins : List Key) (t u : Key) : Prop := ∃ k ∈ ins, Spec.InRange t true u true k

omit [Env] in
/-- The benchmark finds a key below the upper bound exactly when there is one in the half-open range. -/
theorem lowerBound_lt (hsort : ins.Pairwise (· ≤ ·)) (t u : Key) :
    (match lowerBound ins t with | some k => decide (k < u) | none => false) = true ↔ ∃ k ∈ ins, t ≤ k ∧ k < u := by
  unfold lowerBound
  cases h : ins.find? fun k => decide (t ≤ k) with
  | none =>
    rw [List.find?_eq_none] at h
    simp only [Bool.false_eq_true, false_iff, not_exists, not_and]
    intro k hk hle
    have := h k hk
    simp [hle] at this
  | some k =>
    dsimp only
    rw [decide_eq_true_iff]
    obtain ⟨hp, as, bs, rfl, hno⟩ := List.find?_eq_some_iff_append.1 h
    have hle : t ≤ k := of_decide_eq_true hp
    constructor
    · intro hlt
      exact ⟨k, by simp, hle, hlt⟩
    · rintro ⟨x, hx, h1, h2⟩
      rcases List.mem_append.1 hx with hx | hx
      · have := hno x hx
        simp [h1] at this
      · rcases List.mem_cons.1 hx with rfl | hx
        · exact h2
        · have := (List.pairwise_append.1 hsort).2.1
          have := List.rel_of_pairwise_cons this hx
          rcases key_le this with h3 | rfl
          · rw [← w_lt] at h2 h3 ⊢
            exact lt_trans h3 h2
          · exact h2

/-- A query of the range workload that works: the upper bound exists and is not a stored key, and the conditions of `C08_partial` hold. -/
structure GoodTxn (cfg : Config) (ins : List Key) (s : Nat) (kt : KeyType) (t : Key) (u : Key) : Prop where
  up : getUpperBoundKey kt t = .ok u
  ne : t ≠ []
  len : u.length < 2 ^ 64
  safe : Spec.SeekSafe ins s t
  sl : Suffixes cfg ins t
  sr : Suffixes cfg ins u
  long : cfg.suffixType = .kReal ∨ cfg.suffixType = .kMixed → Spec.LongEnough ins s t
  out : u ∉ ins

theorem rangeTrue_ok {kt : KeyType} (hsort : ins.Pairwise (· ≤ ·)) (up : Key → Key) (tr : Key → Bool)
    {ts : List Key} (hup : ∀ t ∈ ts, getUpperBoundKey kt t = .ok (up t)) (htr : ∀ t ∈ ts, (tr t = true ↔ ∃ k ∈ ins, t ≤ k ∧ k < up t)) :
    rangeTrue kt ins ts = .ok (ts.filter tr).length := by
  induction ts with
  | nil => rfl
  | cons t ts ih =>
    have h1 := hup t (by simp)
    have h2 := lowerBound_lt hsort t (up t)
    rw [← htr t (by simp)] at h2
    have h3 : rangeHit kt ins t = .ok (tr t) := by
      unfold rangeHit
      rw [← Bool.eq_iff_iff.2 h2, h1]
      cases lowerBound ins t <;> rfl
    rw [rangeTrue, h3, ok_bind, ih (fun x hx => hup x (by simp [hx])) (fun x hx => htr x (by simp [hx])), ok_bind, List.filter_cons]
    cases tr t
    · change Except.ok _ = _; simp
    · change Except.ok _ = _; simp [Nat.add_comm]

open Classical in
/-- The range workload, internally: the answers, the two numbers and their difference. -/
theorem range_parts (ft : String) (sl : Nat) (hs : Env.strict = false) (hne : ft ≠ "Bloom") (h : Setting (configOf ft sl) ins)
    (hff : ¬ Spec.SingleFF ins) :
    ∃ o, mkFilter ft sl ins = .ok (.surf o) ∧
      ∀ (kt : KeyType) (ts : List Key) (up : Key → Key), (∀ t ∈ ts, GoodTxn (configOf ft sl) ins o.filter.getSparseStartLevel kt t (up t)) →
        ∃ ans : Key → Bool, (∀ t ∈ ts, ∃ o', Flt.lookupRange (.surf o) t (up t) = .ok (ans t, o')) ∧
          (∀ t ∈ ts, Hit ins t (up t) → ans t = true) ∧ (∃ flt, rangePositives kt (.surf o) ts = .ok ((ts.filter ans).length, flt)) ∧
          rangeTrue kt ins ts = .ok (ts.filter fun t => decide (Hit ins t (up t))).length ∧
          runRange kt (.surf o) ins ts = .ok ((ts.filter fun t => ans t && decide (¬ Hit ins t (up t))).length : Int) := by
  obtain ⟨f, e, h8⟩ := C08_partial h hs hff
  obtain ⟨f', s, e', hr', hp'⟩ := h.create hs hff
  have hfe : f' = f := by
    unfold SuRF.create at e
    rw [e'] at e
    cases e; rfl
  subst hfe
  have hnav := hr'.navAll hs
  refine ⟨⟨f', Iter.new f', Iter.new f'⟩, by unfold mkFilter; rw [if_neg hne, e]; rfl, fun kt ts up hg => ?_⟩
  -- the answers on the fresh object
  have hans : ∀ t, ∃ r, t ∈ ts → ∃ o', SuRF.lookupRange ⟨f', Iter.new f', Iter.new f'⟩ t true (up t) true = .ok (r, o') ∧
      (Hit ins t (up t) → r = true) := by
    intro t
    by_cases ht : t ∈ ts
    · have g := hg t ht
      obtain ⟨r, o', e1, h1⟩ := h8 t true (up t) true (Or.inl g.ne) g.len g.safe g.sl g.sr g.long
      exact ⟨r, fun _ => ⟨o', e1, h1⟩⟩
    · exact ⟨false, fun hc => absurd hc ht⟩
  choose ans ha using hans
  have hfold : ∀ (l : List Key), (∀ t ∈ l, t ∈ ts) → ∀ o : SuRF, o.filter = f' → Sized f' o.iter →
      ∃ flt, rangePositives kt (.surf o) l = .ok ((l.filter ans).length, flt) := by
    intro l
    induction l with
    | nil => intro _ o _ _; exact ⟨_, rfl⟩
    | cons t l ih =>
      intro hl o hf ho
      have ht := hl t (by simp)
      obtain ⟨o', e1, -⟩ := ha t ht
      have h5 := call_fresh hnav hf ho (.range t true (up t) true)
      unfold call at h5
      dsimp only at h5
      rw [e1] at h5
      cases h6 : o.lookupRange t true (up t) true with
      | error x => rw [h6] at h5; exact h5.elim
      | ok x =>
        rw [h6] at h5
        obtain ⟨r', o2⟩ := x
        have h7 : Answer.bool r' = Answer.bool (ans t) := h5.1
        injection h7 with h7
        subst h7
        obtain ⟨flt, e2⟩ := ih (fun x hx => hl x (by simp [hx])) o2 h5.2.1 h5.2.2
        refine ⟨flt, ?_⟩
        rw [rangePositives, (hg t ht).up, ok_bind]
        unfold Flt.lookupRange
        dsimp only
        rw [h6, ok_bind]
        dsimp only
        rw [pure_bind]
        dsimp only
        rw [e2, ok_bind, List.filter_cons]
        cases ans t
        · change Except.ok _ = _; simp
        · change Except.ok _ = _; simp [Nat.add_comm]
  obtain ⟨flt, ep⟩ := hfold ts (fun _ h => h) ⟨f', Iter.new f', Iter.new f'⟩ rfl (Sized.new f')
  let tr : Key → Bool := fun t => decide (∃ k ∈ ins, t ≤ k ∧ k < up t)
  have htr := rangeTrue_ok h.valid.sorted up tr (fun t ht => (hg t ht).up) (fun t _ => decide_eq_true_iff)
  have hhit : ∀ t ∈ ts, (tr t = true ↔ Hit ins t (up t)) := by
    intro t ht
    rw [decide_eq_true_iff]
    constructor
    · rintro ⟨k, hk, h1, h2⟩
      refine ⟨k, hk, ?_, Or.inl h2⟩
      rcases key_le h1 with h1 | h1
      · exact Or.inl h1
      · exact Or.inr ⟨rfl, h1.symm⟩
    · rintro ⟨k, hk, h1, h2⟩
      refine ⟨k, hk, ?_, ?_⟩
      · rcases h1 with h1 | ⟨-, rfl⟩
        · exact List.le_of_lt h1
        · exact List.le_refl _
      · rcases h2 with h2 | ⟨-, rfl⟩
        · exact h2
        · exact absurd hk (hg t ht).out
  have hfp : (ts.filter fun t => ans t && decide (¬ Hit ins t (up t))) = ts.filter fun t => ans t && !tr t := by
    refine List.filter_congr fun t ht => ?_
    have h1 := hhit t ht
    by_cases hc : Hit ins t (up t)
    · rw [h1.2 hc]; simp [hc]
    · have : tr t = false := by rw [← Bool.not_eq_true, h1]; exact hc
      rw [this]; simp [hc]
  have htr2 : ts.filter tr = ts.filter fun t => decide (Hit ins t (up t)) :=
    List.filter_congr fun t ht => by rw [Bool.eq_iff_iff, hhit t ht, decide_eq_true_iff]
  refine ⟨ans, fun t ht => ?_, fun t ht hc => ?_, ⟨flt, ep⟩, htr2 ▸ htr, ?_⟩
  · obtain ⟨o', e1, -⟩ := ha t ht
    refine ⟨.surf o', ?_⟩
    unfold Flt.lookupRange
    dsimp only
    rw [e1]; rfl
  · obtain ⟨o', -, h2⟩ := ha t ht
    exact h2 hc
  · rw [hfp]
    unfold runRange
    rw [ep, ok_bind]
    dsimp only
    rw [htr, ok_bind]
    have hsplit : (ts.filter ans).length = (ts.filter tr).length + (ts.filter fun t => ans t && !tr t).length := by
      have h1 : ts.filter tr = ts.filter fun t => tr t && ans t := by
        refine List.filter_congr fun t ht => ?_
        cases hc : tr t
        · rfl
        · obtain ⟨o', -, h2⟩ := ha t ht
          rw [h2 ((hhit t ht).1 hc)]; rfl
      have h2 := filter_split ans (fun t => tr t && ans t) ts (fun t ht => by simp at ht; exact ht.2)
      rw [h1, h2]
      congr 2
      refine List.filter_congr fun t _ => ?_
      cases ans t <;> cases tr t <;> rfl
    rw [hsplit, assertR_true (by simp), ok_bind]
    change Except.ok _ = _
    congr 1
    push_cast
    ring

open Classical in
/-- The number the benchmark prints as false positives of range queries is the number of queries answered `true` although no
stored key is in the range, and the assertion behind it does not fail.  `ans` are the answers of the filter, which do not depend on the
queries made before.  Missing from C47: ranges whose upper bound is a stored key (`C47_bound_refuted`), queries excluded in
`C08_partial` (`C47_refuted`), Bloom filters (they answer all range queries with `false`). -/
theorem C47_partial (ft : String) (sl : Nat) (hs : Env.strict = false) (hne : ft ≠ "Bloom") (h : Setting (configOf ft sl) ins)
    (hff : ¬ Spec.SingleFF ins) :
    ∃ o, mkFilter ft sl ins = .ok (.surf o) ∧
      ∀ (kt : KeyType) (ts : List Key) (up : Key → Key), (∀ t ∈ ts, GoodTxn (configOf ft sl) ins o.filter.getSparseStartLevel kt t (up t)) →
        ∃ ans : Key → Bool, (∀ t ∈ ts, ∃ o', Flt.lookupRange (.surf o) t (up t) = .ok (ans t, o')) ∧
          runRange kt (.surf o) ins ts = .ok ((ts.filter fun t => ans t && decide (¬ Hit ins t (up t))).length : Int) := by
  obtain ⟨o, e, hq⟩ := range_parts ft sl hs hne h hff
  refine ⟨o, e, fun kt ts up hg => ?_⟩
  obtain ⟨ans, h1, -, -, -, h2⟩ := hq kt ts up hg
  exact ⟨ans, h1, h2⟩

attribute [local irreducible] kIntRangeSize in
open Classical in
/-- The same for integers, with conditions on the stored integers only and on the upper bounds.  Missing from C47: upper bounds that are
stored integers, lists whose last labels overrun the block (`C47_refuted`), lists of a single integer from 255 * 2^56 on. -/
theorem C47_ints_partial (ft : String) (sl : Nat) {xs : List (BitVec 64)} (hs : Env.strict = false) (hne : ft ≠ "Bloom")
    (h : Setting (configOf ft sl) (xs.map uint64ToString)) (h2 : ∃ x ∈ xs, ∃ y ∈ xs, x ≠ y ∨ x.toNat < 255 * 2 ^ 56) :
    ∃ o, mkFilter ft sl (xs.map uint64ToString) = .ok (.surf o) ∧
      ((∀ p, Spec.LastShared (xs.map uint64ToString) p → ¬ Spec.Overrun (xs.map uint64ToString) o.filter.getSparseStartLevel p) →
        ∀ ts : List (BitVec 64), (∀ t ∈ ts, t.toNat + kIntRangeSize < 2 ^ 64 ∧ ∀ x ∈ xs, x.toNat ≠ t.toNat + kIntRangeSize) →
        ∃ ans : Key → Bool, (∀ t ∈ ts, ∃ u o', getUpperBoundKey .int (uint64ToString t) = .ok u ∧
            Flt.lookupRange (.surf o) (uint64ToString t) u = .ok (ans (uint64ToString t), o')) ∧
          runRange .int (.surf o) (xs.map uint64ToString) (ts.map uint64ToString) = .ok ((ts.filter fun t => ans (uint64ToString t) &&
            decide (¬ ∃ x ∈ xs, t.toNat ≤ x.toNat ∧ x.toNat ≤ t.toNat + kIntRangeSize)).length : Int)) := by
  have hff : ¬ Spec.SingleFF (xs.map uint64ToString) := by
    rintro ⟨k, hk, hh⟩
    obtain ⟨x, hx, y, hy, hne | hlt⟩ := h2
    swap
    · rw [← hk _ (List.mem_map_of_mem hx)] at hh
      exact u64_head hlt hh
    exact hne (u64_inj ((hk _ (List.mem_map_of_mem hx)).trans (hk _ (List.mem_map_of_mem hy)).symm))
  have hn : ∀ k ∈ xs.map uint64ToString, k.length = 8 := fun k hk => by obtain ⟨y, -, rfl⟩ := List.mem_map.1 hk; exact u64_len y
  obtain ⟨o, e, hq⟩ := C47_partial ft sl hs hne h hff
  refine ⟨o, e, fun hov ts hts => ?_⟩
  have hsl : o.filter.getSparseStartLevel ≤ 8 := by
    obtain ⟨f', m, e', -, ⟨k0, hk0, hm⟩, hH, h1, h2⟩ := C33 h hs
    have he : o.filter = f' := by
      unfold mkFilter SuRF.create at e
      rw [if_neg hne, e'] at e
      cases e; rfl
    have : (Spec.stored (xs.map uint64ToString) k0).length ≤ 8 := by
      unfold Spec.stored
      rw [List.length_take, hn k0 hk0]
      omega
    rw [he]
    omega
  -- the upper bounds
  obtain ⟨up, hupd⟩ : ∃ up : Key → Key, ∀ t, up t = uint64ToString (stringToUint64 t + BitVec.ofNat 64 kIntRangeSize) := ⟨_, fun _ => rfl⟩
  have hup : ∀ t : BitVec 64, up (uint64ToString t) = uint64ToString (t + BitVec.ofNat 64 kIntRangeSize) := fun t => by
    rw [hupd, (C22 t t).2.1]
  have hnat : ∀ t ∈ ts, (t + BitVec.ofNat 64 kIntRangeSize).toNat = t.toNat + kIntRangeSize := fun t ht => by
    have := (hts t ht).1
    rw [BitVec.toNat_add, BitVec.toNat_ofNat, Nat.add_mod_mod, Nat.mod_eq_of_lt this]
  have hok : ∀ t : BitVec 64, getUpperBoundKey .int (uint64ToString t) = .ok (up (uint64ToString t)) := fun t => by
    unfold getUpperBoundKey
    rw [u64_len, if_neg (by decide), hupd]
  have hsx : ∀ q : Key, q.length = 8 → Suffixes (configOf ft sl) (xs.map uint64ToString) q := fun q hq _ => Spec.suffixFair_of_length hn hq
  obtain ⟨ans, ha, hr⟩ := hq .int (ts.map uint64ToString) up (by
    intro t0 ht0
    obtain ⟨t, ht, rfl⟩ := List.mem_map.1 ht0
    have hlen := u64_len t
    refine ⟨hok t, (by intro hc; rw [hc] at hlen; cases hlen), ?_, ?_, hsx _ hlen, ?_, fun _ => Or.inl (hlen.symm ▸ hsl), ?_⟩
    · rw [hup, u64_len]; decide
    · intro p b hl _
      refine Or.inl ⟨fun hm => ?_, Or.inl fun hc => hov p hc.1 hc.2⟩
      have h3 := hl.2.1.length_le
      rw [hlen, List.length_append, hn p hm, List.length_singleton] at h3
      omega
    · exact hsx _ (by rw [hup, u64_len])
    · rw [hup]
      intro hc
      obtain ⟨x, hx, hxe⟩ := List.mem_map.1 hc
      refine (hts t ht).2 x hx ?_
      rw [u64_inj hxe, hnat t ht])
  refine ⟨ans, fun t ht => ?_, ?_⟩
  · obtain ⟨o', e1⟩ := ha _ (List.mem_map_of_mem ht)
    exact ⟨_, o', hok t, e1⟩
  · rw [hr, List.filter_map, List.length_map]
    have hiff : ∀ t ∈ ts, (Hit (xs.map uint64ToString) (uint64ToString t) (up (uint64ToString t)) ↔
        ∃ x ∈ xs, t.toNat ≤ x.toNat ∧ x.toNat ≤ t.toNat + kIntRangeSize) := by
      intro t ht
      rw [hup]
      constructor
      · rintro ⟨k, hk, h1, h2⟩
        obtain ⟨x, hx, rfl⟩ := List.mem_map.1 hk
        refine ⟨x, hx, ?_, ?_⟩
        · rcases h1 with h1 | ⟨-, h1⟩
          · exact le_of_lt ((C22 t x).2.2.1 h1)
          · rw [u64_inj h1]
        · rw [← hnat t ht]
          rcases h2 with h2 | ⟨-, h2⟩
          · exact le_of_lt ((C22 x _).2.2.1 h2)
          · rw [u64_inj h2]
      · rintro ⟨x, hx, h1, h2⟩
        refine ⟨uint64ToString x, List.mem_map_of_mem hx, ?_, ?_⟩
        · rcases Nat.lt_or_eq_of_le h1 with h1 | h1
          · exact Or.inl ((C22 t x).2.2.2 h1)
          · exact Or.inr ⟨rfl, by rw [BitVec.eq_of_toNat_eq h1]⟩
        · rw [← hnat t ht] at h2
          rcases Nat.lt_or_eq_of_le h2 with h2 | h2
          · exact Or.inl ((C22 x _).2.2.2 h2)
          · exact Or.inr ⟨rfl, by rw [BitVec.eq_of_toNat_eq h2]⟩
    have hf : ts.filter ((fun t => ans t && decide (¬ Hit (xs.map uint64ToString) t (up t))) ∘ uint64ToString) =
        ts.filter fun t => ans (uint64ToString t) && decide (¬ ∃ x ∈ xs, t.toNat ≤ x.toNat ∧ x.toNat ≤ t.toNat + kIntRangeSize) := by
      refine List.filter_congr fun t ht => ?_
      rw [Function.comp_apply, decide_eq_decide.2 (not_congr (hiff t ht))]
    rw [hf]

/-! ## C49: counts -/

/-- What the workload "count-short" adds up for a SuRF filter: 1 for every query whose count is not 0. -/
def shortSpec (up : Key → Key) : SuRF → List Key → R Nat
  | _, [] => .ok 0
  | o, t :: ts => do
    let (n, o) ← o.approxCount t (up t)
    let m ← shortSpec up o ts
    return (if n = 0 then 0 else 1) + m

/-- The number printed as `count` is the number of queries whose approximate count is not 0, not the sum of the counts. -/
theorem C49_partial {kt : KeyType} {up : Key → Key} : ∀ (ts : List Key), (∀ t ∈ ts, getUpperBoundKey kt t = .ok (up t)) → ∀ o : SuRF,
    Prod.fst <$> shortCounts kt (.surf o) ts = shortSpec up o ts
  | [], _, _ => rfl
  | t :: ts, h, o => by
    rw [shortCounts, h t (by simp), ok_bind, shortSpec]
    unfold Flt.approxCount
    dsimp only
    cases h1 : o.approxCount t (up t) with
    | error e => rfl
    | ok x =>
      obtain ⟨n, o'⟩ := x
      have ih := C49_partial ts (fun x hx => h x (by simp [hx])) o'
      rw [ok_bind, ok_bind]
      dsimp only
      rw [pure_bind]
      dsimp only
      rw [← ih]
      cases h2 : shortCounts kt (.surf o') ts with
      | error e => rfl
      | ok y =>
        obtain ⟨m, fl⟩ := y
        change Except.ok _ = Except.ok _
        congr 1
        by_cases hn : n = 0
        · subst hn; rfl
        · rw [if_neg hn]
          have : (n != 0) = true := by simpa using hn
          rw [this]; rfl

end

/-! ## Examples and refutations -/

/-- Two integers 5 + 92233697311 and 10^12. -/
def boundInts : List Key := [uint64ToString 92233697316#64, uint64ToString 1000000000000#64]

/-- The hypotheses of `C47_ints_partial` hold for 3, 300, 70000 and 2^63 and the queries 4, 299 and 2^62, with 8 real suffix bits, and
those of `C46`. -/
theorem C47_example : "SuRFReal" ≠ "Bloom" ∧ Setting (configOf "SuRFReal" 8) (exInts.map uint64ToString) ∧
    ¬ Spec.SingleFF (exInts.map uint64ToString) ∧
    (∃ x ∈ exInts, ∃ y ∈ exInts, x ≠ y ∨ x.toNat < 255 * 2 ^ 56) ∧ (∀ p, ¬ Spec.Overrun (exInts.map uint64ToString) 1 p) ∧
    (∀ t ∈ [4#64, 299#64, 4611686018427387904#64], t.toNat + kIntRangeSize < 2 ^ 64 ∧ ∀ x ∈ exInts, x.toNat ≠ t.toNat + kIntRangeSize) ∧
    (@mkFilter Env.x86dbg "SuRFReal" 8 (exInts.map uint64ToString) >>= fun f => @runRange Env.x86dbg .int f (exInts.map uint64ToString)
      ([4#64, 299#64, 4611686018427387904#64].map uint64ToString)) = .ok 0 := by
  have h : IntsOk exInts := exInts_ok.1
  have hc : configOf "SuRFReal" 8 = { suffixType := .kReal, realLen := 8 } := by
    unfold configOf
    rw [if_neg (by decide +kernel), if_neg (by decide +kernel), if_pos rfl]
  rw [hc]
  refine ⟨by decide +kernel, ⟨by decide, rfl, by decide, ints_valid h, fits_of_total (by decide) (by decide +kernel)⟩, ?_, exInts_ok.2.2.1, exInts_ok.2.2.2,
    ?_, by decide +kernel⟩
  swap
  · have hk : kIntRangeSize = 92233697311 := rfl
    rw [hk]
    intro t ht
    simp only [List.mem_cons, List.not_mem_nil, or_false] at ht
    refine ⟨?_, fun x hx => ?_⟩
    · rcases ht with rfl | rfl | rfl <;> simp only [BitVec.toNat_ofNat] <;> omega
    · simp only [exInts, List.mem_cons, List.not_mem_nil, or_false] at hx
      rcases ht with rfl | rfl | rfl <;> rcases hx with rfl | rfl | rfl | rfl <;> simp only [BitVec.toNat_ofNat] <;> omega
  rintro ⟨k, hk, -⟩
  have h1 := hk (uint64ToString 3#64) (by decide +kernel)
  have h2 := hk (uint64ToString 300#64) (by decide +kernel)
  rw [← h2] at h1
  exact absurd h1 (by decide +kernel)

/-- The query from 5 on has the stored integer 5 + 92233697311 in its range, both bounds included, and is still counted as a false
positive. -/
theorem C47_bound_refuted :
    getUpperBoundKey .int (uint64ToString 5#64) = .ok (uint64ToString 92233697316#64) ∧ uint64ToString 92233697316#64 ∈ boundInts ∧
    (@mkFilter Env.x86dbg "SuRFReal" 8 boundInts >>= fun f => @runRange Env.x86dbg .int f boundInts [uint64ToString 5#64]) = .ok 1 := by
  refine ⟨by decide +kernel, by decide +kernel, by decide +kernel⟩

/-- The assertion of the benchmark fails: the filter misses the integer 276 behind 270 (`C44_refuted`).  Without assertions the
number of false positives is -1. -/
theorem C47_refuted :
    (@mkFilter Env.x86dbg "SuRF" 0 (manyInts.map uint64ToString) >>= fun f =>
      @runRange Env.x86dbg .int f (manyInts.map uint64ToString) [uint64ToString 270#64]) = .error .assertFail ∧
    (@mkFilter Env.x86 "SuRF" 0 (manyInts.map uint64ToString) >>= fun f =>
      @runRange Env.x86 .int f (manyInts.map uint64ToString) [uint64ToString 270#64]) = .ok (-1) := by
  refine ⟨by decide +kernel, by decide +kernel⟩

/-- A Bloom filter answers every range query with `false`, so one query with a key in its range makes the assertion fail. -/
theorem C47_bloom_refuted :
    (@mkFilter Env.x86dbg "Bloom" 0 boundInts >>= fun f => @runRange Env.x86dbg .int f boundInts [uint64ToString 6#64]) = .error .assertFail ∧
    (@mkFilter Env.x86 "Bloom" 0 boundInts >>= fun f => @runRange Env.x86 .int f boundInts [uint64ToString 6#64]) = .ok (-1) := by
  refine ⟨by decide +kernel, by decide +kernel⟩

/-- Three different queries on a filter of four texts: a hit, a miss and a false positive. -/
theorem bench_example :
    (@mkFilter Env.x86dbg "SuRF" 0 [[97, 98], [97, 99], [98], [98, 99]] >>= fun f =>
      @runPoint Env.x86dbg f [[97, 98], [97, 99], [98], [98, 99]] [[97, 98], [99], [97, 98, 100]]) = .ok 1 ∧
    (@mkFilter Env.x86dbg "Bloom" 0 [[97, 98], [97, 99], [98], [98, 99]] >>= fun f =>
      @runPoint Env.x86dbg f [[97, 98], [97, 99], [98], [98, 99]] [[97, 98], [99], [97, 98, 100]]) = .ok 0 := by
  refine ⟨by decide +kernel, by decide +kernel⟩

/-- A query of the benchmark with a count of several keys: `count` is 1. -/
theorem C49_refuted :
    (@mkFilter Env.x86dbg "SuRF" 0 [[97], [98], [99], [100], [101]] >>= fun f =>
      Prod.fst <$> @shortCounts Env.x86dbg .email f [[97]]) = .ok 1 ∧
    (@SuRF.create Env.x86dbg {} [[97], [98], [99], [100], [101]] >>= fun o =>
      Prod.fst <$> @SuRF.approxCount Env.x86dbg o [97] [225]) = .ok 3 := by
  refine ⟨by decide +kernel, by decide +kernel⟩

end Surf.Props
