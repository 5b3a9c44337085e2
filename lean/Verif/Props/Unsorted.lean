import Verif.Props.LookupWitness

/-!
# Key lists that are not sorted (C69)

The constructor relies on its caller to sort the keys.  One of its assertions notices a key that follows a longer key it is the beginning of.  Nothing notices other
lists that are not sorted.
-/

set_option linter.unusedSectionVars false
set_option autoImplicit false
set_option maxRecDepth 1000000

namespace Surf.Props
open Surf Builder

section
variable [Env] {cfg : Config}

theorem inv_bind {α β : Type} {x : R α} {g : α → R β} {b : β} (h : (x >>= g) = .ok b) : ∃ a, x = .ok a ∧ g a = .ok b := by
  cases x with
  | error e => cases h
  | ok a => exact ⟨a, rfl, h⟩

/-- The test of `skipCommonPrefix` succeeds for all bytes of `x`. -/
def Path (ls : List Level) (x : Key) : Prop := ∀ i (h : i < x.length), isCharCommonPrefix ls x[i] i = .ok true

theorem Path.mono {ls : List Level} {x y : Key} (h : Path ls x) (hy : y <+: x) : Path ls y := by
  obtain ⟨z, rfl⟩ := hy
  intro i hi
  have := h i (by simp; omega)
  rwa [List.getElem_append_left hi] at this

theorem Path.snoc {ls : List Level} {x : Key} {c : UInt8} (h : Path ls x) (hc : isCharCommonPrefix ls c x.length = .ok true) : Path ls (x ++ [c]) := by
  intro i hi
  rw [List.length_append, List.length_singleton] at hi
  by_cases hix : i = x.length
  · subst hix; simpa using hc
  · rw [List.getElem_append_left (by omega)]; exact h i (by omega)

theorem common_keep {ls ls' : List Level} {i : Nat} {c : UInt8}
    (hk : ∀ lv : Level, ls[i]? = some lv → ∃ lv', ls'[i]? = some lv' ∧ lv'.labels = lv.labels ∧ lv'.isLastTerm = lv.isLastTerm)
    (h : isCharCommonPrefix ls c i = .ok true) : isCharCommonPrefix ls' c i = .ok true := by
  unfold isCharCommonPrefix at h ⊢
  cases hi : ls[i]? with
  | none => rw [hi] at h; cases h
  | some lv =>
    obtain ⟨lv', g1, g2, g3⟩ := hk lv hi
    rw [hi] at h
    rw [g1]
    dsimp only at h ⊢
    rw [g2, g3]
    exact h

/-- Changes that keep the labels and the marks keep the paths. -/
theorem Path.keep {ls ls' : List Level} {x : Key} (h : Path ls x)
    (hk : ∀ (i : Nat) (lv : Level), ls[i]? = some lv → ∃ lv', ls'[i]? = some lv' ∧ lv'.labels = lv.labels ∧ lv'.isLastTerm = lv.isLastTerm) :
    Path ls' x := fun i hi => common_keep (hk i) (h i hi)

theorem modLevel_get {ls ls' : List Level} {l : Nat} {g : Level → R Level} (h : modLevel ls l g = .ok ls') :
    ∃ lv lv', ls[l]? = some lv ∧ g lv = .ok lv' ∧ ls' = ls.set l lv' := by
  unfold modLevel at h
  obtain ⟨lv, h1, h2⟩ := inv_bind h
  obtain ⟨lv', h3, h4⟩ := inv_bind h2
  cases h4
  refine ⟨lv, lv', ?_, h3, rfl⟩
  unfold getR at h1
  split at h1
  · rename_i x hx; cases h1; exact hx
  · cases h1

theorem modLevel_keep {ls ls' : List Level} {l : Nat} {g : Level → R Level} (h : modLevel ls l g = .ok ls')
    (hg : ∀ lv lv', g lv = .ok lv' → lv'.labels = lv.labels ∧ lv'.isLastTerm = lv.isLastTerm) (i : Nat) (lv : Level) (hi : ls[i]? = some lv) :
    ∃ lv', ls'[i]? = some lv' ∧ lv'.labels = lv.labels ∧ lv'.isLastTerm = lv.isLastTerm := by
  obtain ⟨u, u', h1, h2, rfl⟩ := modLevel_get h
  by_cases he : l = i
  · subst he
    rw [h1] at hi
    cases hi
    obtain ⟨hlt, -⟩ := List.getElem?_eq_some_iff.1 h1
    exact ⟨u', by rw [List.getElem?_set_self hlt], hg _ _ h2⟩
  · exact ⟨lv, by rw [List.getElem?_set_ne he]; exact hi, rfl, rfl⟩

theorem markChild_keep (lv lv' : Level) (h : markChild lv = .ok lv') : lv'.labels = lv.labels ∧ lv'.isLastTerm = lv.isLastTerm := by
  unfold markChild at h
  obtain ⟨c, -, h2⟩ := inv_bind h
  cases h2
  exact ⟨rfl, rfl⟩

theorem storeSuffix_keep {n : Nat} {w : Word} (lv lv' : Level) (h : storeSuffix lv n w = .ok lv') :
    lv'.labels = lv.labels ∧ lv'.isLastTerm = lv.isLastTerm := by
  unfold storeSuffix at h
  obtain ⟨_, -, h⟩ := inv_bind h
  dsimp only at h
  split at h
  · obtain ⟨_, -, h⟩ := inv_bind h
    obtain ⟨_, -, h⟩ := inv_bind h
    cases h
    exact ⟨rfl, rfl⟩
  · obtain ⟨_, -, h⟩ := inv_bind h
    obtain ⟨_, -, h⟩ := inv_bind h
    obtain ⟨_, -, h⟩ := inv_bind h
    obtain ⟨_, -, h⟩ := inv_bind h
    cases h
    exact ⟨rfl, rfl⟩

theorem grow_keep (ls : List Level) (l : Nat) (i : Nat) (lv : Level) (hi : ls[i]? = some lv) :
    ∃ lv', (if l ≥ ls.length then ls ++ [newLevel] else ls)[i]? = some lv' ∧ lv'.labels = lv.labels ∧ lv'.isLastTerm = lv.isLastTerm := by
  refine ⟨lv, ?_, rfl, rfl⟩
  split
  · obtain ⟨hlt, -⟩ := List.getElem?_eq_some_iff.1 hi
    rw [List.getElem?_append_left hlt]; exact hi
  · exact hi

/-- Inserting a byte extends the path. -/
theorem insertKeyByte_path {ls ls' : List Level} {x : Key} {c : UInt8} {st : Bool} (hp : Path ls x)
    (h : insertKeyByte ls c x.length st false = .ok ls') : Path ls' (x ++ [c]) := by
  unfold insertKeyByte at h
  dsimp only at h
  have hp0 : Path (if x.length ≥ ls.length then ls ++ [newLevel] else ls) x := hp.keep fun i lv hi => grow_keep ls x.length i lv hi
  generalize (if x.length ≥ ls.length then ls ++ [newLevel] else ls) = l0 at h hp0
  obtain ⟨_, -, h⟩ := inv_bind h
  have key : ∀ l1, Path l1 x → modLevel l1 x.length (pushItem · c st false) = .ok ls' → Path ls' (x ++ [c]) := by
    intro l1 hp1 h
    obtain ⟨lv, lv', g1, g2, rfl⟩ := modLevel_get h
    have hlv : lv'.labels = lv.labels ++ [c] ∧ lv'.isLastTerm = false := by
      unfold pushItem at g2
      dsimp only at g2
      split at g2
      · obtain ⟨_, -, g2⟩ := inv_bind g2
        cases g2
        exact ⟨rfl, rfl⟩
      · obtain ⟨_, -, g2⟩ := inv_bind g2
        cases g2
        exact ⟨rfl, rfl⟩
    obtain ⟨hlt, -⟩ := List.getElem?_eq_some_iff.1 g1
    have hx : Path (l1.set x.length lv') x := fun i hi => by
      refine common_keep (fun lv2 h2 => ⟨lv2, ?_, rfl, rfl⟩) (hp1 i hi)
      rw [List.getElem?_set_ne (by omega)]; exact h2
    refine hx.snoc ?_
    unfold isCharCommonPrefix
    rw [List.getElem?_set_self hlt]
    dsimp only
    rw [hlv.1, hlv.2]
    simp
  split at h
  · obtain ⟨l1, h1, h⟩ := inv_bind h
    exact key l1 (hp0.keep fun i lv hi => modLevel_keep h1 markChild_keep i lv hi) h
  · obtain ⟨l1, h1, h⟩ := inv_bind h
    cases h1
    exact key _ hp0 h

/-- The loop that inserts the bytes shared with the next key, when that key is the beginning of this one. -/
theorem insertRest_path (ks ns : Key) (hn : ns <+: ks) (hne : ns ≠ ks) {ls ls' : List Level} {x : Key} {l' : Nat} (hp : Path ls x)
    (h : insertRest ks ns ls x.length = .ok (ls', l')) : Path ls' (x ++ ns) := by
  induction ks generalizing ns ls x with
  | nil => exact absurd (List.prefix_nil.1 hn) hne
  | cons k ks ih =>
    cases ns with
    | nil =>
      rw [List.append_nil]
      simp only [insertRest] at h
      obtain ⟨l1, h1, h⟩ := inv_bind h
      cases h
      exact (insertKeyByte_path hp h1).mono (List.prefix_append _ _)
    | cons n ns =>
      obtain ⟨rfl, hn'⟩ := List.cons_prefix_cons.1 hn
      simp only [insertRest, if_true] at h
      obtain ⟨l1, h1, h⟩ := inv_bind h
      have hp1 := insertKeyByte_path hp h1
      have := ih ns hn' (fun e => hne (by rw [e])) hp1 (by rw [List.length_append]; exact h)
      rwa [List.append_assoc] at this

/-- The walk along the previous key. -/
theorem skip_path (k : Key) {ls ls' : List Level} {x : Key} {l' : Nat} (hp : Path ls x) (h : skipCommonPrefix k ls x.length = .ok (ls', l')) :
    ∃ n, n ≤ k.length ∧ l' = x.length + n ∧ Path ls' (x ++ k.take n) := by
  induction k generalizing ls x with
  | nil =>
    simp only [skipCommonPrefix] at h
    cases h
    exact ⟨0, le_rfl, rfl, by simpa using hp⟩
  | cons c k ih =>
    simp only [skipCommonPrefix] at h
    obtain ⟨b, h1, h⟩ := inv_bind h
    cases b with
    | false =>
      simp only [Bool.false_eq_true, if_false] at h
      cases h
      exact ⟨0, by omega, rfl, by simpa using hp⟩
    | true =>
      simp only [if_true] at h
      obtain ⟨l1, h2, h⟩ := inv_bind h
      have hp1 : Path l1 (x ++ [c]) := (hp.snoc h1).keep fun i lv hi => modLevel_keep h2 markChild_keep i lv hi
      obtain ⟨n, g1, g2, g3⟩ := ih hp1 (by rw [List.length_append]; exact h)
      refine ⟨n + 1, by simpa using g1, by rw [g2]; simp; omega, ?_⟩
      rw [List.append_assoc] at g3
      exact g3

/-- A key that the walk follows to its end. -/
theorem skip_all (k : Key) {ls ls' : List Level} {x : Key} {l' : Nat} (hp : Path ls (x ++ k)) (h : skipCommonPrefix k ls x.length = .ok (ls', l')) :
    l' = x.length + k.length := by
  induction k generalizing ls x with
  | nil =>
    simp only [skipCommonPrefix] at h
    cases h
    rfl
  | cons c k ih =>
    have h1 := hp x.length (by simp)
    rw [List.getElem_append_right (le_refl _)] at h1
    simp only [Nat.sub_self, List.getElem_cons_zero] at h1
    simp only [skipCommonPrefix, h1] at h
    obtain ⟨b, hb, h⟩ := inv_bind h
    cases hb
    rw [if_pos rfl] at h
    obtain ⟨l1, h2, h⟩ := inv_bind h
    have hp1 : Path l1 (x ++ [c] ++ k) := by
      rw [List.append_assoc]
      exact hp.keep fun i lv hi => modLevel_keep h2 markChild_keep i lv hi
    have := ih hp1 (by rw [List.length_append]; exact h)
    rw [this]; simp; omega

/-- Such a key cannot be inserted when assertions are enabled. -/
theorem insertKey_refuse (hd : Env.ndebug = false) {ls ls' : List Level} {k next : Key} (hp : Path ls k) : insertKey cfg ls k next ≠ .ok ls' := by
  intro h
  unfold insertKey at h
  obtain ⟨⟨l1, lev⟩, h1, h⟩ := inv_bind h
  have h2 := skip_all k (x := []) hp h1
  dsimp only at h
  obtain ⟨⟨l2, lev2⟩, h3, -⟩ := inv_bind h
  unfold insertKeyBytesToTrieUntilUnique at h3
  obtain ⟨_, h4, -⟩ := inv_bind h3
  unfold assertR at h4
  rw [hd, h2] at h4
  simp at h4

/-- After a key followed by one of its beginnings was inserted, the walk would follow the latter to its end. -/
theorem insertKey_path {ls ls' : List Level} {k p : Key} (hp : p <+: k) (hne : p ≠ k) (h : insertKey cfg ls k p = .ok ls') : Path ls' p := by
  unfold insertKey at h
  obtain ⟨⟨l1, n⟩, h1, h⟩ := inv_bind h
  obtain ⟨m, hn, hlev, hp1⟩ := skip_path k (x := []) (fun i hi => by simp at hi) h1
  simp only [List.length_nil, Nat.zero_add, List.nil_append] at hlev hp1
  obtain rfl : n = m := hlev
  dsimp only at h
  obtain ⟨⟨l2, lev2⟩, h3, h⟩ := inv_bind h
  dsimp only at h
  have hlt : p.length < k.length := by
    have := hp.length_le
    rcases Nat.lt_or_ge p.length k.length with g | g
    · exact g
    · exact absurd (hp.eq_of_length (by omega)) hne
  have hp2 : Path l2 p := by
    unfold insertKeyBytesToTrieUntilUnique at h3
    obtain ⟨_, -, h3⟩ := inv_bind h3
    dsimp only at h3
    obtain ⟨l3, h4, h3⟩ := inv_bind h3
    by_cases hnk : n < k.length
    · have hl : (k.take n).length = n := by simp; omega
      have h5 := insertKeyByte_path hp1 (by rw [hl]; exact h4)
      have he : k.take n ++ [k.getD n 0] = k.take (n + 1) := by
        rw [List.take_succ_eq_append_getElem hnk, List.getD_eq_getElem?_getD, List.getElem?_eq_getElem hnk, Option.getD_some]
      rw [he] at h5
      split at h3
      · rename_i hc
        cases h3
        rcases hc with hc | hc
        · refine h5.mono ?_
          rw [List.prefix_iff_eq_take.1 hp]
          exact List.take_prefix_take_left (by omega)
        · by_cases hpn : n + 1 ≤ p.length
          · exfalso
            apply hc
            obtain ⟨z, rfl⟩ := hp
            rw [List.take_append_of_le_length hpn]
          · refine h5.mono ?_
            rw [List.prefix_iff_eq_take.1 hp]
            exact List.take_prefix_take_left (by omega)
      · rename_i hc
        have hpn : n + 1 ≤ p.length := by
          by_contra hg
          exact hc (Or.inl (by omega))
        obtain ⟨z, rfl⟩ := hp
        have hl2 : ((p ++ z).take (n + 1)).length = n + 1 := by simp; omega
        have h6 := insertRest_path ((p ++ z).drop (n + 1)) (p.drop (n + 1)) (x := (p ++ z).take (n + 1)) (by rw [List.drop_append_of_le_length hpn]; exact List.prefix_append _ _)
          (by
            rw [List.drop_append_of_le_length hpn]
            intro e
            apply hne
            have : z = [] := by simpa using e
            simp [this]) h5 (by rw [hl2]; exact h3)
        rw [List.take_append_of_le_length hpn, List.take_append_drop] at h6
        exact h6
    · have hnk' : n = k.length := by omega
      have hkn : k.take n = k := by rw [hnk', List.take_length]
      rw [hkn] at hp1
      have h5 := insertKeyByte_path hp1 (by rw [← hnk']; exact h4)
      split at h3
      · cases h3
        exact h5.mono (hp.trans (List.prefix_append _ _))
      · rename_i hc
        exact absurd (Or.inl (by omega)) hc
  unfold insertSuffix at h
  dsimp only at h
  obtain ⟨_, -, h⟩ := inv_bind h
  obtain ⟨w, -, h⟩ := inv_bind h
  exact (hp2.keep fun i lv hi => grow_keep l2 lev2 i lv hi).keep fun i lv hi => modLevel_keep h storeSuffix_keep i lv hi

omit [Env] in
theorem dropSame_pair (a k p : Key) (as bs : List Key) (hne : p ≠ k) :
    (∃ as', dropSame a (as ++ k :: p :: bs) = as' ++ k :: p :: bs) ∨ (a = k ∧ dropSame a (as ++ k :: p :: bs) = p :: bs) := by
  induction as with
  | nil =>
    by_cases h : a = k
    · subst h
      right
      refine ⟨rfl, ?_⟩
      simp only [List.nil_append, dropSame, if_true]
      rw [if_neg fun e => hne e.symm]
    · left
      refine ⟨[], ?_⟩
      simp only [List.nil_append, dropSame]
      rw [if_neg h]
  | cons b as ih =>
    simp only [List.cons_append, dropSame]
    split
    · exact ih
    · exact Or.inl ⟨b :: as, rfl⟩

theorem loop_refuse (hd : Env.ndebug = false) {k p : Key} (hp : p <+: k) (hne : p ≠ k) (fuel : Nat) (as bs : List Key) (ls ls' : List Level) :
    buildSparseLoop cfg fuel (as ++ k :: p :: bs) ls ≠ .ok ls' := by
  induction fuel generalizing as ls with
  | zero => cases as <;> (intro h; cases h)
  | succ fuel ih =>
    have last : ∀ ls1 ls2, insertKey cfg ls1 k p = .ok ls2 → buildSparseLoop cfg fuel (p :: bs) ls2 ≠ .ok ls' := by
      intro ls1 ls2 h1 h2
      have hpath := insertKey_path hp hne h1
      cases fuel with
      | zero => cases h2
      | succ fuel =>
        simp only [buildSparseLoop] at h2
        obtain ⟨l3, h3, -⟩ := inv_bind h2
        exact insertKey_refuse hd hpath h3
    intro h
    cases as with
    | nil =>
      simp only [List.nil_append, buildSparseLoop, dropSame] at h
      rw [if_neg fun e => hne e.symm] at h
      obtain ⟨l1, h1, h⟩ := inv_bind h
      exact last _ _ h1 h
    | cons a as =>
      simp only [List.cons_append, buildSparseLoop] at h
      rcases dropSame_pair a k p as bs hne with ⟨as', e⟩ | ⟨rfl, e⟩
      · rw [e] at h
        obtain ⟨l1, h1, h⟩ := inv_bind h
        exact ih _ _ h
      · rw [e] at h
        obtain ⟨l1, h1, h⟩ := inv_bind h
        exact last _ _ h1 h

/-- **C69**, partial: with assertions enabled, every key list in which a key is followed directly by one of its proper beginnings (also by the empty string) is
refused, whatever the other keys and the configuration.
Missing from C69: other lists that are not sorted; they are accepted (`C69_refuted`). -/
theorem C69_partial (hd : Env.ndebug = false) {k p : Key} (hp : p <+: k) (hne : p ≠ k) (as bs : List Key) (f : Filter) :
    Filter.create cfg (as ++ k :: p :: bs) ≠ .ok f := by
  intro h
  unfold Filter.create Builder.build buildSparse at h
  obtain ⟨b, h, -⟩ := inv_bind h
  obtain ⟨_, -, h⟩ := inv_bind h
  obtain ⟨ls, h, -⟩ := inv_bind h
  exact loop_refuse hd hp hne _ as bs [] ls h

end

/-- The hypotheses are met by a machine with assertions and the list "b", "ab", "a", "c". -/
theorem C69_example : @Filter.create Env.x86dbg cfgNone ([[98]] ++ [97, 98] :: [97] :: [[99]]) = .error .assertFail ∧
    Env.x86dbg.ndebug = false := by decide +kernel

/-- C69 fails: with assertions enabled, filters are built of the lists "ac", "ab", "aa" and (with 8-bit hashes) "b", "a", and miss stored keys. -/
theorem C69_refuted : @run Env.x86dbg cfgNone [[97, 99], [97, 98], [97, 97]] [97, 97] = .ok false ∧
    @run Env.x86dbg cfgHash [[98], [97]] [97] = .ok false := by decide +kernel

/-- Without assertions the lists of `C69_partial` are accepted too: of "ab", "a" the second key becomes "a" with a zero byte. -/
theorem C69_release_refuted : @run Env.x86 cfgNone [[97, 98], [97]] [97] = .ok false ∧ @run Env.x86 cfgNone [[97, 98], [97]] [97, 0] = .ok true := by
  decide +kernel

end Surf.Props
