import Verif.Proof.Trie
import Verif.Spec

/-!
# From sorted key lists to leaf strings

Every key is truncated after the first symbol that tells it apart from its neighbours.
-/

namespace Trie
open Spec (Bytes)

/-- The symbol string of a key: its bytes plus one, then the terminator 0. -/
def w (k : Bytes) : Str := k.map (fun b => b.toNat + 1) ++ [0]

@[simp] theorem w_length (k : Bytes) : (w k).length = k.length + 1 := by simp [w]
@[simp] theorem w_nil : w [] = [0] := rfl
@[simp] theorem w_cons (a : UInt8) (k : Bytes) : w (a :: k) = (a.toNat + 1) :: w k := rfl

theorem w_sym (k : Bytes) : ∀ c ∈ w k, c ≤ 256 := by
  intro c hc
  simp only [w, List.mem_append, List.mem_map, List.mem_singleton] at hc
  rcases hc with ⟨b, -, rfl⟩ | rfl
  · have := b.toNat_lt; omega
  · omega

theorem w_term {k : Bytes} {t : Str} (h : t <+: w k) : 0 ∉ t.dropLast := by
  induction k generalizing t with
  | nil =>
    have := h.length_le
    simp only [w_nil, List.length_cons, List.length_nil] at this
    have hd : t.dropLast = [] := by
      rw [← List.length_eq_zero_iff, List.length_dropLast]; omega
    simp [hd]
  | cons a k ih =>
    cases t with
    | nil => simp
    | cons x t =>
      rw [w_cons, List.cons_prefix_cons] at h
      obtain ⟨rfl, h⟩ := h
      cases t with
      | nil => simp
      | cons y t =>
        have := ih h
        simp only [List.dropLast_cons_cons, List.mem_cons, not_or]
        exact ⟨by omega, this⟩

theorem w_inj {k k' : Bytes} (h : w k = w k') : k = k' := by
  induction k generalizing k' with
  | nil =>
    cases k' with
    | nil => rfl
    | cons b k' => simp at h
  | cons a k ih =>
    cases k' with
    | nil => simp at h
    | cons b k' =>
      simp only [w_cons, List.cons.injEq, Nat.add_right_cancel_iff] at h
      rw [ih h.2, UInt8.toNat_inj.1 h.1]

theorem w_lt {k k' : Bytes} : w k < w k' ↔ k < k' := by
  induction k generalizing k' with
  | nil =>
    cases k' with
    | nil => simp
    | cons b k' => simp [List.cons_lt_cons_iff]
  | cons a k ih =>
    cases k' with
    | nil => simp [List.cons_lt_cons_iff]
    | cons b k' =>
      simp only [w_cons, List.cons_lt_cons_iff, ih, Nat.add_right_cancel_iff, UInt8.toNat_inj]
      rw [Nat.add_lt_add_iff_right, UInt8.lt_iff_toNat_lt]

theorem w_pf {k k' : Bytes} (h : w k <+: w k') : k = k' := by
  induction k generalizing k' with
  | nil =>
    cases k' with
    | nil => rfl
    | cons b k' => simp [List.cons_prefix_cons] at h
  | cons a k ih =>
    cases k' with
    | nil => simp [List.cons_prefix_cons] at h
    | cons b k' =>
      simp only [w_cons, List.cons_prefix_cons, Nat.add_right_cancel_iff] at h
      rw [ih h.2, UInt8.toNat_inj.1 h.1]

/-- Length of the longest common prefix. -/
def lcp : Bytes → Bytes → Nat
  | a :: as, b :: bs => if a = b then lcp as bs + 1 else 0
  | _, _ => 0

theorem lcp_le_left (k k' : Bytes) : lcp k k' ≤ k.length := by
  induction k generalizing k' with
  | nil => simp [lcp]
  | cons a k ih =>
    cases k' with
    | nil => simp [lcp]
    | cons b k' =>
      simp only [lcp]; split
      · have := ih k'; simp; omega
      · simp

theorem lcp_spec {k k' : Bytes} (h : k < k') :
    lcp k k' < k'.length ∧ k.take (lcp k k') = k'.take (lcp k k') ∧
      (w k).take (lcp k k') = (w k').take (lcp k k') ∧
      (w k).take (lcp k k' + 1) < (w k').take (lcp k k' + 1) := by
  induction k generalizing k' with
  | nil =>
    cases k' with
    | nil => simp at h
    | cons b k' => simp [lcp, List.cons_lt_cons_iff]
  | cons a k ih =>
    cases k' with
    | nil => simp at h
    | cons b k' =>
      rw [List.cons_lt_cons_iff] at h
      rcases h with h | ⟨rfl, h⟩
      · have hne : a ≠ b := by rintro rfl; exact absurd h (UInt8.lt_irrefl _)
        rw [UInt8.lt_iff_toNat_lt] at h
        simp [lcp, hne, List.cons_lt_cons_iff, h]
      · obtain ⟨h1, h2, h3, h4⟩ := ih h
        simp only [lcp, if_true, List.length_cons, List.take_succ_cons, w_cons, h2, h3,
          List.cons_lt_cons_iff]
        exact ⟨by omega, trivial, trivial, Or.inr ⟨trivial, h4⟩⟩

/-- Common prefix with the next key; 0 when there is none. -/
def nextLcp (k : Bytes) : List Bytes → Nat
  | [] => 0
  | k' :: _ => lcp k k'

theorem nextLcp_le (k : Bytes) (ks : List Bytes) : nextLcp k ks ≤ k.length := by
  cases ks with
  | nil => simp [nextLcp]
  | cons a ks => exact lcp_le_left _ _

/-- Keys with their leaf strings; `c` is the common prefix of the first key with its predecessor. -/
def leaves : Nat → List Bytes → List (Bytes × Str)
  | _, [] => []
  | c, k :: rest => (k, (w k).take (max c (nextLcp k rest) + 1)) :: leaves (nextLcp k rest) rest

theorem leaves_fst (c : Nat) (ks : List Bytes) : (leaves c ks).map Prod.fst = ks := by
  induction ks generalizing c with
  | nil => rfl
  | cons k ks ih => simp [leaves, ih]

theorem leaves_prefix {c : Nat} {ks : List Bytes} {k : Bytes} {t : Str} (h : (k, t) ∈ leaves c ks) :
    t <+: w k ∧ t ≠ [] := by
  induction ks generalizing c with
  | nil => simp [leaves] at h
  | cons a ks ih =>
    simp only [leaves, List.mem_cons, Prod.mk.injEq] at h
    rcases h with ⟨rfl, rfl⟩ | h
    · refine ⟨List.take_prefix _ _, ?_⟩
      intro h0
      have := congrArg List.length h0
      simp at this
    · exact ih h

/-- `a` is smaller than `b` at a position both have. -/
def D (a b : Str) : Prop := ∃ m, m ≤ a.length ∧ m ≤ b.length ∧ a.take m < b.take m

theorem D.lt {a b : Str} : D a b → a < b := fun ⟨_, _, _, h⟩ => take_lt_of_take_lt h

theorem D.trans {a b c : Str} : D a b → D b c → D a c := by
  rintro ⟨m, ha, hb, h⟩ ⟨n, hb', hc, h'⟩
  rcases le_total m n with hmn | hmn
  · refine ⟨m, ha, by omega, lt_of_lt_of_le h ?_⟩
    exact take_le_of_lt (take_lt_of_take_lt h') m
  · refine ⟨n, by omega, hc, lt_of_le_of_lt ?_ h'⟩
    exact take_le_of_lt (take_lt_of_take_lt h) n

theorem D.not_prefix {a b : Str} : D a b → ¬ a <+: b ∧ ¬ b <+: a := by
  rintro ⟨m, ha, hb, h⟩
  constructor
  · rintro ⟨c, rfl⟩; rw [List.take_append_of_le_length ha] at h; exact lt_irrefl _ h
  · rintro ⟨c, rfl⟩; rw [List.take_append_of_le_length hb] at h; exact lt_irrefl _ h

theorem leaves_adj {c : Nat} {k k' : Bytes} {rest : List Bytes} (h : k < k') :
    D ((w k).take (max c (lcp k k') + 1)) ((w k').take (max (lcp k k') (nextLcp k' rest) + 1)) := by
  obtain ⟨h1, -, -, h2⟩ := lcp_spec h
  have h3 := lcp_le_left k k'
  refine ⟨lcp k k' + 1, ?_, ?_, ?_⟩
  · simp only [List.length_take, w_length]; omega
  · simp only [List.length_take, w_length]; omega
  · rw [List.take_take, List.take_take, Nat.min_eq_left (by omega), Nat.min_eq_left (by omega)]
    exact h2

theorem leaves_D {ks : List Bytes} (hs : ks.Pairwise (· < ·)) (c : Nat) :
    (leaves c ks).Pairwise fun x y => D x.2 y.2 := by
  induction ks generalizing c with
  | nil => simp [leaves]
  | cons k ks ih =>
    rw [List.pairwise_cons] at hs
    simp only [leaves, List.pairwise_cons]
    refine ⟨?_, ih hs.2 _⟩
    cases ks with
    | nil => simp [leaves]
    | cons k' ks =>
      have hadj := leaves_adj (c := c) (rest := ks) (hs.1 k' (by simp))
      have ih' := ih hs.2 (nextLcp k (k' :: ks))
      simp only [leaves, nextLcp, List.pairwise_cons, List.mem_cons] at ih' ⊢
      rintro x (rfl | hx)
      · exact hadj
      · exact hadj.trans (ih'.1 x hx)

theorem dropLast_take_prefix (l : Str) (n : Nat) : (l.take (n + 1)).dropLast <+: l.take n := by
  rw [List.prefix_take_iff]
  refine ⟨(List.dropLast_prefix _).trans (List.take_prefix _ _), ?_⟩
  rw [List.length_dropLast, List.length_take]; omega

theorem pairwise_np {α : Type} {f : α → Str} {l : List α} (h : l.Pairwise fun a b => D (f a) (f b))
    {x y : α} (hx : x ∈ l) (hy : y ∈ l) (hne : x ≠ y) : ¬ f x <+: f y := by
  have hsym : l.Pairwise fun a b => ¬ f a <+: f b ∧ ¬ f b <+: f a := h.imp D.not_prefix
  have : Std.Symm fun a b => ¬ f a <+: f b ∧ ¬ f b <+: f a := ⟨fun _ _ h => ⟨h.2, h.1⟩⟩
  exact (hsym.forall hx hy hne).1

theorem leaves_sib {ks : List Bytes} (hs : ks.Pairwise (· < ·)) (c : Nat) :
    ∀ x ∈ leaves c ks, (∃ y ∈ leaves c ks, y.2 ≠ x.2 ∧ x.2.dropLast <+: y.2) ∨
      ((leaves c ks).head? = some x ∧ x.2.length ≤ c + 1) := by
  induction ks generalizing c with
  | nil => simp [leaves]
  | cons k ks ih =>
    rw [List.pairwise_cons] at hs
    cases ks with
    | nil =>
      intro x hx
      simp only [leaves, List.mem_singleton, nextLcp] at hx
      subst hx
      right
      simp only [leaves, nextLcp, List.head?_cons, true_and, List.length_take, w_length]
      omega
    | cons k' ks =>
      have hlt := hs.1 k' (by simp)
      obtain ⟨h1, -, h2, h3⟩ := lcp_spec hlt
      have hD := (leaves_adj (c := c) (rest := ks) hlt)
      have hne : (w k').take (max (lcp k k') (nextLcp k' ks) + 1) ≠ (w k).take (max c (lcp k k') + 1) :=
        fun h => hD.not_prefix.1 (h ▸ List.prefix_refl _)
      intro x hx
      have e : leaves c (k :: k' :: ks) = (k, (w k).take (max c (lcp k k') + 1)) ::
        leaves (lcp k k') (k' :: ks) := rfl
      rw [e] at hx ⊢
      rcases List.mem_cons.1 hx with rfl | hx
      · by_cases hc : lcp k k' < c
        · right
          simp only [List.head?_cons, true_and, List.length_take, w_length]
          omega
        · left
          refine ⟨(k', (w k').take (max (lcp k k') (nextLcp k' ks) + 1)), ?_, hne, ?_⟩
          · simp [leaves]
          · dsimp only
            rw [Nat.max_eq_right (by omega)]
            refine (dropLast_take_prefix _ _).trans ?_
            rw [h2]
            exact List.take_prefix_take_left (by omega)
      · rcases ih hs.2 _ x hx with ⟨y, hy, hy2⟩ | ⟨hh, hl⟩
        · exact Or.inl ⟨y, by simp [hy], hy2⟩
        · left
          have hx2 : x.2 = (w k').take (max (lcp k k') (nextLcp k' ks) + 1) := by
            simp only [leaves, List.head?_cons, Option.some.injEq] at hh
            rw [← hh]
          refine ⟨_, List.mem_cons_self, ?_, ?_⟩
          · dsimp only
            rw [hx2]; exact hne.symm
          · dsimp only
            have hp : x.2.dropLast <+: (w k').take (lcp k k') := by
              rw [List.prefix_take_iff]
              refine ⟨(List.dropLast_prefix _).trans ?_, by rw [List.length_dropLast]; omega⟩
              rw [hx2]; exact List.take_prefix _ _
            refine hp.trans ?_
            rw [← h2]
            exact List.take_prefix_take_left (by omega)

/-- The leaf strings of a strictly sorted key list. -/
def truncs (ks : List Bytes) : List Str := (leaves 0 ks).map Prod.snd

theorem truncs_wf {ks : List Bytes} (hne : ks ≠ []) (hs : ks.Pairwise (· < ·)) : WF (truncs ks) := by
  have hD : (truncs ks).Pairwise D := by
    unfold truncs; rw [List.pairwise_map]; exact leaves_D hs 0
  have hmem : ∀ t ∈ truncs ks, ∃ k, (k, t) ∈ leaves 0 ks := by
    intro t ht
    obtain ⟨⟨k, t'⟩, h1, rfl⟩ := List.mem_map.1 ht
    exact ⟨k, h1⟩
  refine ⟨?_, hD.imp D.lt, ?_, ?_, ?_, ?_, ?_⟩
  · intro h0
    have := congrArg List.length (leaves_fst 0 ks)
    have h1 := congrArg List.length h0
    simp only [truncs, List.length_map, List.length_nil] at this h1
    rw [h1] at this
    exact hne (List.length_eq_zero_iff.1 this.symm)
  · intro t ht
    obtain ⟨k, hk⟩ := hmem t ht
    exact (leaves_prefix hk).2
  · intro t ht t' ht' hp
    by_contra hne
    exact pairwise_np (f := id) hD ht ht' hne hp
  · intro t ht c hc
    obtain ⟨k, hk⟩ := hmem t ht
    exact w_sym k c ((leaves_prefix hk).1.subset hc)
  · intro t ht
    obtain ⟨k, hk⟩ := hmem t ht
    exact w_term (leaves_prefix hk).1
  · intro t ht hl
    obtain ⟨k, hk⟩ := hmem t ht
    rcases leaves_sib hs 0 _ hk with ⟨y, hy, h1, h2⟩ | ⟨-, h⟩
    · exact ⟨y.2, List.mem_map_of_mem hy, h1, h2⟩
    · dsimp only at h; omega

/-- Different keys have different leaf strings, and a leaf string is a prefix of no other key. -/
theorem leaf_unique {ks : List Bytes} (hs : ks.Pairwise (· < ·)) {k k' : Bytes} {t : Str}
    (h : (k, t) ∈ leaves 0 ks) (hk' : k' ∈ ks) (hp : t <+: w k') : k' = k := by
  obtain ⟨t', ht'⟩ : ∃ t', (k', t') ∈ leaves 0 ks := by
    rw [← leaves_fst 0 ks] at hk'
    obtain ⟨⟨a, t'⟩, h1, rfl⟩ := List.mem_map.1 hk'
    exact ⟨t', h1⟩
  by_contra hne
  have hxy : (k, t) ≠ (k', t') := fun e => hne (Prod.mk.inj e).1.symm
  rcases List.prefix_or_prefix_of_prefix hp (leaves_prefix ht').1 with h1 | h1
  · exact pairwise_np (leaves_D hs 0) h ht' hxy h1
  · exact pairwise_np (leaves_D hs 0) ht' h hxy.symm h1

end Trie
