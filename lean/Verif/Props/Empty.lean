import Verif.Props.Lookup
import Verif.Props.RangeWitness

/-!
# A filter without keys (C62); the empty string as a key (C63)
-/

set_option linter.unusedSectionVars false
set_option autoImplicit false
set_option maxRecDepth 1000000

namespace Surf.Props
open Surf Trie

section
variable [Env] {cfg : Config}

/-- What the constructor makes of an empty list when assertions are disabled. -/
def noKeys (cfg : Config) : Filter :=
  ⟨⟨0, [], ⟨⟨0, []⟩, LoudsDense.rankBlock, [0]⟩, ⟨⟨0, []⟩, LoudsDense.rankBlock, [0]⟩, ⟨⟨0, []⟩, LoudsDense.rankBlock, [0]⟩,
    ⟨⟨0, []⟩, cfg.suffixType, if cfg.suffixType = .kNone then 0 else cfg.hashLen, if cfg.suffixType = .kNone then 0 else cfg.realLen⟩⟩,
   ⟨0, 0, 0, 0, [], ⟨1, [0]⟩, ⟨⟨0, []⟩, 512, [0]⟩, ⟨⟨0, []⟩, 64, 0, [0]⟩,
    ⟨⟨0, []⟩, cfg.suffixType, if cfg.suffixType = .kNone then 0 else cfg.hashLen, if cfg.suffixType = .kNone then 0 else cfg.realLen⟩⟩⟩

theorem assertR_nd (h : Env.ndebug = true) (b : Bool) : assertR b = .ok () := by unfold assertR; simp [h]

theorem create_nil (h : Env.ndebug = true) : Filter.create cfg [] = .ok (noKeys cfg) := by
  have hb : Builder.build cfg [] = .ok ⟨[], 0, [], [], []⟩ := by
    unfold Builder.build
    rw [assertR_nd h]
    cases cfg.includeDense <;> rfl
  have hl : levelRange [] [] 0 0 = .ok [] := rfl
  unfold Filter.create
  rw [hb]
  have hd : LoudsDense.mk' cfg ⟨[], 0, [], [], []⟩ = .ok (noKeys cfg).dense := by
    unfold LoudsDense.mk'
    by_cases hc : cfg.suffixType = .kNone
    · simp only [hc, if_true, noKeys]; rfl
    · simp only [hc, if_false, noKeys]
      unfold BitvectorSuffix.mk'
      simp only [assertR_nd h]
      rfl
  have hs : LoudsSparse.mk' cfg ⟨[], 0, [], [], []⟩ = .ok (noKeys cfg).sparse := by
    unfold LoudsSparse.mk'
    by_cases hc : cfg.suffixType = .kNone
    · simp only [hc, if_true, noKeys]; rfl
    · simp only [hc, if_false, noKeys]
      unfold BitvectorSuffix.mk'
      simp only [assertR_nd h]
      rfl
  show (do let d ← LoudsDense.mk' cfg ⟨[], 0, [], [], []⟩; let s ← LoudsSparse.mk' cfg ⟨[], 0, [], [], []⟩; return (⟨d, s⟩ : Filter)) = _
  rw [hd, hs]
  rfl

theorem appendL_nil {it it' : SIter} (h : it.key = []) {l : UInt8} {p : Nat} : it.appendL l p ≠ .ok it' := by
  intro he
  obtain ⟨_, -, he⟩ := bind_inv he
  obtain ⟨k, hk, -⟩ := bind_inv he
  rw [h] at hk
  simp [wr] at hk

theorem append_nil {t : LoudsSparse} {it it' : SIter} (h : it.key = []) {p : Nat} : it.append t p ≠ .ok it' := by
  intro he
  obtain ⟨_, -, he⟩ := bind_inv he
  obtain ⟨_, -, he⟩ := bind_inv he
  obtain ⟨k, hk, -⟩ := bind_inv he
  rw [h] at hk
  simp [wr] at hk

theorem leftMost_nil {t : LoudsSparse} {it it' : SIter} (h : it.key = []) (h0 : it.keyLen = 0) : it.moveToLeftMostKey t ≠ .ok it' := by
  intro he
  unfold SIter.moveToLeftMostKey at he
  dsimp only at he
  rw [if_pos h0] at he
  obtain ⟨_, -, hx⟩ := bind_inv he
  obtain ⟨_, -, hx⟩ := bind_inv hx
  obtain ⟨_, hx, -⟩ := bind_inv hx
  exact appendL_nil h hx

theorem seek_nil {t : LoudsSparse} {key rest : Key} {incl : Bool} {level pos : Nat} {it : SIter} {r : Bool × SIter}
    (h : it.key = []) (h0 : it.keyLen = 0) : t.seekLoop key incl rest level pos it ≠ .ok r := by
  intro he
  cases rest with
  | nil =>
    obtain ⟨_, -, he⟩ := bind_inv he
    dsimp only at he
    split at he
    · obtain ⟨c, -, he⟩ := bind_inv he
      split at he
      · obtain ⟨e, -, he⟩ := bind_inv he
        obtain ⟨b, -, he⟩ := bind_inv he
        split at he
        · obtain ⟨_, hx, -⟩ := bind_inv he
          exact appendL_nil h hx
        · obtain ⟨_, hx, -⟩ := bind_inv he
          exact leftMost_nil h h0 hx
      · obtain ⟨_, hx, -⟩ := bind_inv (show (it.moveToLeftMostKey t >>= fun it => pure (false, it)) = _ from he)
        exact leftMost_nil h h0 hx
    · obtain ⟨_, hx, -⟩ := bind_inv (show (it.moveToLeftMostKey t >>= fun it => pure (false, it)) = _ from he)
      exact leftMost_nil h h0 hx
  | cons c rest =>
    obtain ⟨_, -, he⟩ := bind_inv he
    obtain ⟨⟨b, p⟩, -, he⟩ := bind_inv he
    cases b with
    | false =>
      obtain ⟨_, hx, -⟩ := bind_inv he
      obtain ⟨⟨b, p⟩, -, hx⟩ := bind_inv hx
      cases b with
      | false =>
        obtain ⟨_, hx, -⟩ := bind_inv hx
        exact append_nil h hx
      | true =>
        obtain ⟨_, hx, -⟩ := bind_inv hx
        exact append_nil h hx
    | true =>
      obtain ⟨_, hx, -⟩ := bind_inv he
      exact appendL_nil h hx

theorem seekF_nil {q : Key} {incl : Bool} {it : Iter} : (noKeys cfg).moveToKeyGreaterThan q incl ≠ .ok it := by
  intro he
  obtain ⟨⟨a, d⟩, hd, he⟩ := bind_inv he
  rw [← Except.ok.inj hd] at he
  obtain ⟨⟨b, s⟩, hs, -⟩ := bind_inv he
  obtain ⟨_, -, hs⟩ := bind_inv hs
  exact seek_nil rfl rfl hs

/-- Of C62 nothing holds.  With assertions the constructor stops the program; without them every point query is answered `true`, for all
suffix types and ratios, and every other operation has undefined behaviour or does not return: range queries (with any bounds), counts, and
all ways to obtain an iterator. -/
theorem C62_refuted :
    (Env.ndebug = false → SuRF.create cfg [] = .error .assertFail) ∧
    (Env.ndebug = true → ∃ o, SuRF.create cfg [] = .ok o ∧
      (∀ q, o.lookupKey q = .ok true) ∧
      (∀ l li r ri x, o.lookupRange l li r ri ≠ .ok x) ∧
      (∀ l r x, o.approxCount l r ≠ .ok x) ∧
      (∀ x, o.filter.moveToFirst ≠ .ok x) ∧ (∀ x, o.filter.moveToLast ≠ .ok x) ∧
      (∀ q incl x, o.filter.moveToKeyGreaterThan q incl ≠ .ok x) ∧
      (∀ q incl x, o.filter.moveToKeyLessThan q incl ≠ .ok x)) := by
  constructor
  · intro h
    unfold SuRF.create Filter.create Builder.build assertR
    simp only [h]
    rfl
  · intro h
    refine ⟨⟨noKeys cfg, Iter.new (noKeys cfg), Iter.new (noKeys cfg)⟩, ?_, fun q => rfl, ?_, ?_, ?_, ?_, fun q incl x => seekF_nil, ?_⟩
    · unfold SuRF.create
      rw [create_nil h]
      rfl
    · intro l li r ri x he
      obtain ⟨⟨a, b⟩, he, -⟩ := bind_inv he
      obtain ⟨it, he, -⟩ := bind_inv he
      obtain ⟨⟨a, d⟩, hd, he⟩ := bind_inv he
      rw [← Except.ok.inj hd] at he
      obtain ⟨⟨b, s⟩, hs, -⟩ := bind_inv he
      obtain ⟨_, -, hs⟩ := bind_inv hs
      exact seek_nil rfl rfl hs
    · intro l r x he
      obtain ⟨⟨a, b⟩, he, -⟩ := bind_inv he
      obtain ⟨it, he, -⟩ := bind_inv he
      exact seekF_nil he
    · intro x he
      obtain ⟨s, he, -⟩ := bind_inv he
      obtain ⟨_, -, he⟩ := bind_inv he
      obtain ⟨ps, hp, -⟩ := bind_inv he
      cases hp
    · intro x he
      obtain ⟨s, he, -⟩ := bind_inv he
      obtain ⟨_, -, he⟩ := bind_inv he
      obtain ⟨p, -, he⟩ := bind_inv he
      obtain ⟨ps, hp, -⟩ := bind_inv he
      cases hp
    · intro q incl x he
      obtain ⟨it, he, -⟩ := bind_inv he
      exact seekF_nil he

end

/-- C62 on a machine: with assertions the constructor stops; without them a key is reported as present and a range query
searches the memory behind an array of no words (the model's fuel is exhausted). -/
theorem C62_example :
    (@SuRF.create Env.x86dbg {} []) = .error .assertFail ∧
    (@bind R _ _ _ (@SuRF.create Env.x86 {} []) fun o => @SuRF.lookupKey Env.x86 o [65]) = .ok true ∧
    (@bind R _ _ _ (@SuRF.create Env.x86 {} []) fun o => (@SuRF.lookupRange Env.x86 o [65] true [67] true).map (·.1)) = .error .diverge := by
  decide +kernel

/-! ## The empty string as a key -/

section
variable [Env] {cfg : Config} {keys : List Key}

/-- With assertions enabled a list that starts with the empty string (which a sorted list does if it has it) stops the program. -/
theorem create_emptyKey_dbg (h : Env.ndebug = false) : Filter.create cfg ([] :: keys) = .error .assertFail := by
  unfold Filter.create Builder.build Builder.buildSparse
  have h1 : assertR (decide (([] :: keys : List Key).length > 0)) = .ok () := by unfold assertR; simp
  have h2 : ∀ ls next, Builder.insertKey cfg ls [] next = .error .assertFail := by
    intro ls next
    unfold Builder.insertKey Builder.skipCommonPrefix Builder.insertKeyBytesToTrieUntilUnique assertR
    simp only [h]
    rfl
  rw [h1]
  show ((Builder.buildSparseLoop cfg (keys.length + 1) ([] :: keys) [] >>= _) >>= _) = _
  unfold Builder.buildSparseLoop
  dsimp only
  rw [h2]
  rfl

theorem constructReal_short {len : Nat} : BitvectorSuffix.constructRealSuffix [] 1 len = BitvectorSuffix.constructRealSuffix [0] 1 len := by
  unfold BitvectorSuffix.constructRealSuffix
  rw [if_pos (Or.inl (by simp))]
  by_cases h0 : len = 0
  · subst h0; rfl
  · rw [if_pos (Or.inr (by simp; omega))]

theorem insertSuffix_emptyKey (ht : cfg.suffixType = .kNone ∨ cfg.suffixType = .kReal) (ls : List Level) :
    Builder.insertSuffix cfg ls [] 1 = Builder.insertSuffix cfg ls [0] 1 := by
  have : BitvectorSuffix.constructSuffix cfg.suffixType [] cfg.hashLen 1 cfg.realLen =
      BitvectorSuffix.constructSuffix cfg.suffixType [0] cfg.hashLen 1 cfg.realLen := by
    rcases ht with ht | ht
    · rw [ht]; rfl
    · rw [ht]
      unfold BitvectorSuffix.constructSuffix
      dsimp only
      rw [constructReal_short]
  unfold Builder.insertSuffix
  rw [this]

theorem insertBytes_zero (h : Env.ndebug = true) {key next : Key} (hk : key.getD 0 0 = 0)
    (hc : 0 + 1 > next.length ∨ key.take (0 + 1) ≠ next.take (0 + 1)) :
    Builder.insertKeyBytesToTrieUntilUnique [] key next 0 =
        (Builder.insertKeyByte [] 0 0 true false >>= fun ls => .ok (ls, 1)) := by
  unfold Builder.insertKeyBytesToTrieUntilUnique
  rw [assertR_nd h, ok_bind, hk]
  dsimp only
  exact congrArg _ (funext fun ls => if_pos hc)

theorem insertKey_first (key next : Key) : Builder.insertKey cfg [] key next =
    (Builder.insertKeyBytesToTrieUntilUnique [] key next 0 >>= fun r => Builder.insertSuffix cfg r.1 key r.2) := by
  unfold Builder.insertKey
  have : Builder.skipCommonPrefix key [] 0 = .ok ([], 0) := by
    cases key with
    | nil => rfl
    | cons c t => rfl
  rw [this, ok_bind]

theorem insertKey_emptyKey (h : Env.ndebug = true) (ht : cfg.suffixType = .kNone ∨ cfg.suffixType = .kReal) (next : Key)
    (hx : next = [] ∨ next.take 1 ≠ [0] ∧ next.take 1 ≠ []) :
    Builder.insertKey cfg [] [] next = Builder.insertKey cfg [] [0] next := by
  have hc1 : 0 + 1 > next.length ∨ ([] : Key).take (0 + 1) ≠ next.take (0 + 1) := by
    rcases hx with rfl | hx
    · exact Or.inl (by simp)
    · exact Or.inr fun he => hx.2 he.symm
  have hc2 : 0 + 1 > next.length ∨ ([0] : Key).take (0 + 1) ≠ next.take (0 + 1) := by
    rcases hx with rfl | hx
    · exact Or.inl (by simp)
    · exact Or.inr fun he => hx.1 he.symm
  rw [insertKey_first, insertKey_first, insertBytes_zero h rfl hc1, insertBytes_zero h rfl hc2]
  generalize Builder.insertKeyByte [] 0 0 true false = x
  cases x with
  | error e => rw [err_bind, err_bind, err_bind]
  | ok ls => rw [ok_bind, ok_bind, ok_bind, insertSuffix_emptyKey ht]

/-- Without assertions the empty string is inserted as if it were the string of one zero byte. -/
theorem create_emptyKey (h : Env.ndebug = true) (ht : cfg.suffixType = .kNone ∨ cfg.suffixType = .kReal)
    (h0 : ∀ k ∈ keys, k ≠ [] ∧ k.head? ≠ some 0) : Filter.create cfg ([] :: keys) = Filter.create cfg ([0] :: keys) := by
  have hd : ∀ a : Key, (∀ k ∈ keys, a ≠ k) → Builder.dropSame a keys = keys := by
    intro a ha
    cases keys with
    | nil => rfl
    | cons k ks => unfold Builder.dropSame; rw [if_neg (ha k (by simp))]
  have hd1 := hd [] fun k hk he => (h0 k hk).1 he.symm
  have hd2 := hd [0] fun k hk he => (h0 k hk).2 (by rw [← he]; rfl)
  have hn : keys.head?.getD [] = [] ∨ (keys.head?.getD []).take 1 ≠ [0] ∧ (keys.head?.getD []).take 1 ≠ [] := by
    cases keys with
    | nil => exact Or.inl rfl
    | cons k ks =>
      have := h0 k (by simp)
      refine Or.inr ?_
      cases k with
      | nil => exact absurd rfl this.1
      | cons c t =>
        simp only [List.head?_cons, Option.getD_some, List.take_succ_cons, List.take_zero]
        refine ⟨fun he => this.2 ?_, by simp⟩
        simpa using he
  have hi := insertKey_emptyKey h ht
  have hu : ∀ (n : Nat) (k : Key), Builder.buildSparseLoop cfg (n + 1) (k :: keys) [] =
      (Builder.insertKey cfg [] k ((Builder.dropSame k keys).head?.getD []) >>= fun ls =>
        Builder.buildSparseLoop cfg n (Builder.dropSame k keys) ls) := by
    intro n k
    rw [Builder.buildSparseLoop]
  have hb : Builder.buildSparse cfg ([] :: keys) = Builder.buildSparse cfg ([0] :: keys) := by
    unfold Builder.buildSparse
    rw [List.length_cons, List.length_cons, hu, hu, hd1, hd2, hi _ hn]
  unfold Filter.create Builder.build
  rw [hb, assertR_nd h, assertR_nd h]

/-- Without assertions the filter of a list with the empty string is that of the list with the string of one zero byte instead, except for the suffix of this one. -/
theorem emptyKey_rep (h : Setting cfg ([0] :: keys)) (hs : Env.strict = false) (hd : Env.ndebug = true) (h0 : ∀ k ∈ keys, k.head? ≠ some 0) :
    ∃ f s sw, Filter.create cfg ([] :: keys) = .ok f ∧ FRep cfg (leafStrs ([0] :: keys)) sw s f ∧ PadOk f (leafStrs ([0] :: keys)) s ∧
      sw [1] = sfxOf cfg [] 1 ∧
      ∀ k ∈ keys, ∀ t, (k, t) ∈ leaves 0 (uniq ([0] :: keys)) → sw t = sfxOf cfg k t.length := by
  have hne : ∀ k ∈ keys, k ≠ [] := fun k hk => h.valid.nonempty k (by simp [hk])
  have hds : ∀ a : Key, (∀ k ∈ keys, a ≠ k) → Builder.dropSame a keys = keys := by
    intro a ha
    cases keys with
    | nil => rfl
    | cons k ks => unfold Builder.dropSame; rw [if_neg (ha k (by simp))]
  have hu0 : uniq ([] :: keys) = [] :: uniq keys := by rw [uniq, hds [] fun k hk he => hne k hk he.symm]
  have hu1 : uniq ([0] :: keys) = [0] :: uniq keys := by rw [uniq, hds [0] fun k hk he => h0 k hk (by rw [← he]; rfl)]
  have hk := keysOk h.valid h.fits.toSmall
  have hwf := leafStrs_wf hk
  have hsort := uniq_sorted hk.sorted
  rw [hu1] at hsort
  have hlcp : ∀ k ∈ keys, lcp [0] k = 0 := by
    intro k hk
    cases k with
    | nil => rfl
    | cons c t =>
      have : c ≠ 0 := fun hc => h0 _ hk (by rw [hc]; rfl)
      unfold lcp
      rw [if_neg (fun hc => this hc.symm)]
  have hn0 : nextLcp [0] (uniq keys) = 0 := by
    rw [nextLcp_eq]
    cases hq : (uniq keys).head? with
    | none => rfl
    | some k => exact hlcp k (mem_uniq.1 (List.mem_of_mem_head? hq))
  have hlv : leaves 0 (uniq ([0] :: keys)) = ([0], [1]) :: leaves 0 (uniq keys) := by
    rw [hu1]
    show ([0], (w [0]).take (max 0 (nextLcp [0] (uniq keys)) + 1)) :: leaves (nextLcp [0] (uniq keys)) (uniq keys) = _
    rw [hn0]; rfl
  have hls : leafStrs ([0] :: keys) = [1] :: (leaves 0 (uniq keys)).map Prod.snd := by
    unfold leafStrs truncs
    rw [hlv, List.map_cons]
  -- the first key
  obtain ⟨ls1, e1, r1⟩ := insertTrie_ok (L := cfg.hashLen + cfg.realLen) (H := 0) (ls := []) (ts := []) (ss := [])
    ⟨rfl, by simp, by simp, by simp⟩ (by rw [M32_eq]; decide) List.Pairwise.nil (kc := []) (b := 0) (kr := []) (next := (uniq keys).head?.getD [])
    (Or.inl ⟨rfl, rfl⟩) (by simp) (by simp)
  have hl0 : lcp [0] ((uniq keys).head?.getD []) = 0 := by rw [← nextLcp_eq]; exact hn0
  rw [List.nil_append, List.length_nil, hl0] at e1 r1
  have hx : (uniq keys).head?.getD [] = [] ∨ ((uniq keys).head?.getD []).take 1 ≠ [0] ∧ ((uniq keys).head?.getD []).take 1 ≠ [] := by
    cases hq : (uniq keys).head? with
    | none => exact Or.inl rfl
    | some k =>
      have hkm := mem_uniq.1 (List.mem_of_mem_head? hq)
      cases k with
      | nil => exact absurd rfl (hne _ hkm)
      | cons c t =>
        refine Or.inr ⟨fun he => h0 _ hkm ?_, by simp⟩
        simpa using he
  have hc1 : 0 + 1 > ((uniq keys).head?.getD []).length ∨ ([] : Key).take (0 + 1) ≠ ((uniq keys).head?.getD []).take (0 + 1) := by
    rcases hx with hx | hx
    · rw [hx]; exact Or.inl (by simp)
    · exact Or.inr fun he => hx.2 he.symm
  have hc2 : 0 + 1 > ((uniq keys).head?.getD []).length ∨ ([0] : Key).take (0 + 1) ≠ ((uniq keys).head?.getD []).take (0 + 1) := by
    rcases hx with hx | hx
    · rw [hx]; exact Or.inl (by simp)
    · exact Or.inr fun he => hx.1 he.symm
  rw [insertBytes_zero hd rfl hc2, ← insertBytes_zero hd (key := []) rfl hc1] at e1
  obtain ⟨ls2, wd, e2, ew, hfit, r2⟩ := insertSuffix_ok (Or.inl hs) h.ok r1 (t := [1]) (by simp) (by simp) (by rw [M32_eq]; decide)
    (by rw [M32_eq]; simp [wordsAt]) []
  have hwd : sfxOf cfg [] 1 = wd := by
    unfold sfxOf
    rw [show ([1] : Str).length = 1 from rfl] at ew
    rw [ew]; rfl
  -- the others
  have hsx : sfxs cfg (leaves 0 (uniq ([0] :: keys))) = ([1], sfxOf cfg [0] 1) :: sfxs cfg (leaves 0 (uniq keys)) := by rw [hlv]; rfl
  obtain ⟨ls, H, e3, r3, g1, g2, g3⟩ := insertAll_ok (Or.inl hs) h.ok (uniq keys) (c := 0) r2
    (by have h1 := uniq_length keys; have h2 := hk.num; rw [List.length_cons] at h2; simp; omega)
    (by
      intro l
      have h1 := small_level (cfg := cfg) h.fits.toSmall l
      rw [hsx, wordsAt_cons, List.length_append] at h1
      rw [List.nil_append, List.singleton_append, wordsAt_cons, List.length_append]
      refine le_trans (Nat.mul_le_mul_left _ ?_) h1
      dsimp only
      split <;> simp)
    (by have := hwf.sorted; rw [hls] at this; simpa [w] using this)
    (by
      intro t ht c hc
      have : t = [1] := by simpa [w] using ht
      subst this
      simp at hc; omega)
    (List.pairwise_cons.1 hsort).2
    (fun k hkm => ⟨hne k (mem_uniq.1 hkm), hk.len k (by simp [mem_uniq.1 hkm])⟩)
    (fun _ => Or.inr ⟨[], [1], [0], by simp [w], by decide, fun k hkm => by
      have h1 := List.mem_of_mem_head? hkm
      exact ⟨(List.pairwise_cons.1 hsort).1 k h1, (hlcp k (mem_uniq.1 h1)).symm⟩, by simp⟩)
  have hts : ([] ++ [(w [0]).take (max 0 0 + 1)] ++ (leaves 0 (uniq keys)).map Prod.snd : List Str) = leafStrs ([0] :: keys) := by rw [hls]; rfl
  rw [hts, List.nil_append, List.singleton_append] at r3
  have hH : H = maxLen (leafStrs ([0] :: keys)) + 1 := by
    obtain ⟨t, ht, htm⟩ := exists_maxLen hwf.ne
    have h1 : t.length + 1 ≤ H := by
      rw [hls] at ht
      rcases List.mem_cons.1 ht with rfl | ht
      · simpa using g1
      · exact g2 t ht
    rcases g3 with g3 | ⟨t', ht', g3⟩
    · have h2 := le_maxLen (ts := leafStrs ([0] :: keys)) (t := [1]) (by rw [hls]; simp)
      simp at g3 h2; omega
    · have h2 := le_maxLen (ts := leafStrs ([0] :: keys)) (t := t') (by rw [hls]; exact List.mem_cons_of_mem _ ht')
      omega
  rw [hH] at r3
  have hb : Builder.buildSparse cfg ([] :: keys) = .ok ls := by
    unfold Builder.buildSparse
    rw [buildSparseLoop_eq _ _ _ _ le_rfl, hu0, insertAll, insertKey_first, e1, ok_bind]
    dsimp only
    rw [show max 0 0 + 1 = ([1] : Str).length from rfl, e2, ok_bind, e3]
  have hss : (([1], wd) :: sfxs cfg (leaves 0 (uniq keys))).map Prod.fst = leafStrs ([0] :: keys) := by
    rw [hls, List.map_cons]; simp [sfxs]
  have hff : ¬ Spec.SingleFF ([0] :: keys) := by
    rintro ⟨k, hk, h1⟩
    rw [← hk [0] (by simp)] at h1
    cases h1
  obtain ⟨f, s, e, hr, hp⟩ := create_of_rep hs h.ok h.dense h.ratio hwf (fun he => hff ((leafStrs_ff h.valid.ne h.valid.nonempty).1 he))
    hss r3.weak (by
      intro x hx
      rcases List.mem_cons.1 hx with rfl | hx
      · exact hfit
      · exact sfxs_fits (Or.inl hs) h.ok x hx) (sizes_ok h.valid h.fits.toFits0) (List.cons_ne_nil _ _) hb
  have hnd : ((([1], wd) :: sfxs cfg (leaves 0 (uniq keys))).map Prod.fst).Nodup := by
    rw [hss]; exact hwf.sorted.imp fun h => ne_of_lt h
  refine ⟨f, s, _, e, ⟨hr, by have := items_half h.valid h.fits.toSmall; have := h.fits.half; omega⟩, hp, ?_, fun k hkm t ht => ?_⟩
  · unfold swOf
    rw [lookup_of_mem hnd (x := wd) (by simp), hwd]; rfl
  · unfold swOf
    rw [lookup_of_mem hnd (x := sfxOf cfg k t.length)]
    · rfl
    · rw [hlv] at ht
      rcases List.mem_cons.1 ht with he | ht
      · cases he
        exact absurd rfl (h0 _ hkm)
      · exact List.mem_cons_of_mem _ (List.mem_map.2 ⟨_, ht, rfl⟩)

/-- The point queries of such a filter. -/
theorem emptyKey_lookup (h : Setting cfg ([0] :: keys)) (hs : Env.strict = false) (hd : Env.ndebug = true) (h0 : ∀ k ∈ keys, k.head? ≠ some 0) :
    ∃ f, Filter.create cfg ([] :: keys) = .ok f ∧ ∀ q, ∃ r, f.lookupKey q = .ok r ∧
      ((∃ k ∈ keys, Spec.Matches ([0] :: keys) k q ∧ r = passes cfg (sfxOf cfg k (Spec.cut ([0] :: keys) k)) q (Spec.cut ([0] :: keys) k)) ∨
       ([0] <+: q ∧ r = passes cfg (sfxOf cfg [] 1) q 1) ∨
       ((∀ k, ¬ Spec.Matches ([0] :: keys) k q) ∧
         (r = true ↔ cfg.suffixType = .kNone ∧ Spec.ZeroHit ([0] :: keys) f.getSparseStartLevel q))) := by
  obtain ⟨f, s, sw, e, hr, hp, hw0, hw⟩ := emptyKey_rep h hs hd h0
  refine ⟨f, e, fun q => ?_⟩
  obtain ⟨r, e1, h1⟩ := hr.lookup hs h.ok q (Or.inl hp)
  refine ⟨r, e1, ?_⟩
  rcases h1 with ⟨t, ht, htq, rfl⟩ | ⟨hno, h2⟩
  · obtain ⟨k, hk, hl, hpre⟩ := mem_leafStrs ht
    rcases List.mem_cons.1 hk with rfl | hk
    · have hm := (leaf_match h.wf h.sorted hl).1 htq
      have hlen := leaf_length h.wf h.sorted hl
      have hcut : Spec.cut ([0] :: keys) [0] = 1 := by
        unfold Spec.cut
        have : ∀ l : List Key, (∀ k ∈ l, k.head? ≠ some 0) → ((l.filter (· ≠ [0])).map (Spec.common [0])).foldr max 0 = 0 := by
          intro l hl
          induction l with
          | nil => rfl
          | cons k l ih =>
            have ih := ih fun x hx => hl x (by simp [hx])
            rw [List.filter_cons]
            split
            · rw [List.map_cons, List.foldr_cons, ih]
              cases k with
              | nil => rfl
              | cons c u =>
                have : c ≠ 0 := fun hc => hl (c :: u) (by simp) (by rw [hc]; rfl)
                simp [Spec.common, this.symm]
            · exact ih
        rw [List.filter_cons, if_neg (by simp), this keys h0]
      have ht1 : t = [1] := by
        rw [hcut] at hlen
        rw [List.prefix_iff_eq_take.1 hpre, hlen]
        rfl
      subst ht1
      refine Or.inr (Or.inl ⟨?_, by rw [hw0]; rfl⟩)
      rcases hm.2 with rfl | ⟨p, hp0, hp1, hp2, -⟩
      · exact List.prefix_rfl
      · have : p = [0] := by
          cases p with
          | nil => exact absurd rfl hp0
          | cons c u => have := hp1.length_le; cases hp1.eq_of_length (by simp at this ⊢; omega); rfl
        rwa [this] at hp2
    · refine Or.inl ⟨k, hk, (leaf_match h.wf h.sorted hl).1 htq, ?_⟩
      rw [hw k hk t hl, leaf_length h.wf h.sorted hl]
  · refine Or.inr (Or.inr ⟨?_, ?_⟩)
    · intro k hm
      obtain ⟨t, hl, ht⟩ := leaf_of_key hm.1
      exact hno t ht ((leaf_match h.wf h.sorted hl).2 hm)
    · rw [h2, padHit_iff h.wf h.sorted hr.s1, show f.getSparseStartLevel = s from hr.sparse.start]

/-- What the program does with the empty string as a key.  With assertions it stops (`C63_refuted`).  Without them, with any suffixes, when no key
starts with a zero byte: all other keys are found.  Missing from C63: the empty string itself (`C63_refuted`), and lists with keys that start with a zero
byte (`C63_lost_refuted`). -/
theorem C63_partial (h : Setting cfg ([0] :: keys)) (hs : Env.strict = false) (hd : Env.ndebug = true) (h0 : ∀ k ∈ keys, k.head? ≠ some 0) :
    ∃ f, Filter.create cfg ([] :: keys) = .ok f ∧ ∀ k ∈ keys, f.lookupKey k = .ok true := by
  obtain ⟨f, e, hl⟩ := emptyKey_lookup h hs hd h0
  refine ⟨f, e, fun k hk => ?_⟩
  obtain ⟨r, e1, h1⟩ := hl k
  have hm : Spec.Matches ([0] :: keys) k k := ⟨by simp [hk], Or.inl rfl⟩
  rcases h1 with ⟨k', hk', hm', rfl⟩ | ⟨hz, -⟩ | ⟨hno, -⟩
  · have : k' = k := by
      rcases hm'.2 with h1 | ⟨p, -, -, h3, h4⟩
      · exact h1.symm
      · exact (h4 k (by simp [hk]) h3).symm
    subst this
    rw [e1, passes_self hs h.ok]
  · obtain ⟨u, rfl⟩ := hz
    exact absurd rfl (h0 _ hk)
  · exact absurd hm (hno k)

/-- C63 fails: with assertions no filter with the empty string can be built; without them the empty string is not found, and without hash suffixes a string
that is not stored is. -/
theorem C63_refuted :
    (Env.ndebug = false → Filter.create cfg ([] :: keys) = .error .assertFail) ∧
    (Setting cfg ([0] :: keys) → Env.strict = false → Env.ndebug = true → (∀ k ∈ keys, k.head? ≠ some 0) →
      ∃ f, Filter.create cfg ([] :: keys) = .ok f ∧ f.lookupKey [] = .ok false ∧
        (cfg.suffixType = .kNone ∨ cfg.suffixType = .kReal → f.lookupKey [0] = .ok true)) := by
  refine ⟨create_emptyKey_dbg, fun h hs hd h0 => ?_⟩
  obtain ⟨f, e, hf⟩ := emptyKey_lookup h hs hd h0
  refine ⟨f, e, ?_, fun ht => ?_⟩
  · obtain ⟨r, er, hr⟩ := hf []
    rw [er]
    have hm : ∀ k, ¬ Spec.Matches ([0] :: keys) k [] := by
      rintro k ⟨hk, h1 | ⟨p, hp, -, hq, -⟩⟩
      · exact h.valid.nonempty k hk h1.symm
      · exact hp (List.prefix_nil.1 hq)
    rcases hr with ⟨k, -, hk, -⟩ | ⟨hz, -⟩ | ⟨-, hr⟩
    · exact absurd hk (hm k)
    · exact absurd (List.prefix_nil.1 hz) (by simp)
    · cases r with
      | false => rfl
      | true =>
        obtain ⟨p, -, -, hq, -⟩ := (hr.1 rfl).2
        exact absurd (List.prefix_nil.1 hq) (by simp)
  · have hff : ¬ Spec.SingleFF ([0] :: keys) := by
      rintro ⟨k, hk, h1⟩
      rw [← hk [0] (by simp)] at h1
      cases h1
    obtain ⟨f', e', hf'⟩ := C01_partial h hs hff
    rw [create_emptyKey hd ht fun k hk => ⟨h.valid.nonempty k (by simp [hk]), h0 k hk⟩, e'] at e
    cases e
    exact hf' [0] (by simp)

end

/-- The hypotheses of `C63_partial` and `C63_refuted` are met, without suffixes, with hashes and with real suffixes. -/
example : Setting cfgNone ([0] :: rgKeys) ∧ Setting { suffixType := .kHash, hashLen := 8 } ([0] :: rgKeys) ∧ Setting cfgReal8 ([0] :: rgKeys) ∧
    (∀ k ∈ rgKeys, k.head? ≠ some 0) :=
  ⟨⟨by decide, rfl, by decide, ⟨by decide, by decide, by decide⟩, fits_of_total (by decide) (by decide)⟩,
   ⟨by decide, rfl, by decide, ⟨by decide, by decide, by decide⟩, fits_of_total (by decide) (by decide)⟩,
   ⟨by decide, rfl, by decide, ⟨by decide, by decide, by decide⟩, fits_of_total (by decide) (by decide)⟩, by decide⟩

/-- Other keys can be lost, too: with the empty string and a key that starts with a zero byte, keys are missed that the filter without the
empty string finds. -/
theorem C63_lost_refuted :
    let keys : List Key := [[0, 65, 66], [66, 67, 68], [67, 68, 69]]
    let cfg : Config := { suffixType := .kReal, realLen := 8 }
    (∀ k ∈ keys, @bind R _ _ _ (@SuRF.create Env.x86 cfg keys) (fun o => @SuRF.lookupKey Env.x86 o k) = .ok true) ∧
    @bind R _ _ _ (@SuRF.create Env.x86 cfg ([] :: keys)) (fun o => @SuRF.lookupKey Env.x86 o [67, 68, 69]) = .ok false := by
  decide +kernel

end Surf.Props
