import Verif.Props.SuffixKinds

/-!
# The hash and what its bits gain (C71, C72)

The hash of hash.hpp against an independently written one, and how many queries hash suffixes turn away.
-/

set_option linter.unusedSectionVars false
set_option autoImplicit false

/-! ## Specification -/

namespace Spec

/-- A number from its bytes, the least significant first. -/
def le (b : Bytes) : Nat := (b.zipIdx.map fun x => x.1.toNat * 256 ^ x.2).sum

/-- Mixing a 32-bit number into the state: add, multiply, fold the upper bits (from bit `r` on) into the lower ones. -/
def mix (r h w : Nat) : Nat :=
  let x := (h + w) * 0xc6a4a793 % 2 ^ 32
  x ^^^ (x / 2 ^ r)

/-- LevelDB's hash with the seed 0xbc9f1d34: whole groups of four bytes are mixed in with `r = 16`, what remains with `r = 24`. -/
def hash (k : Bytes) : Nat :=
  let n := k.length
  let h := (List.range (n / 4)).foldl (fun h i => mix 16 h (le ((k.drop (4 * i)).take 4))) (0xbc9f1d34 ^^^ (n * 0xc6a4a793 % 2 ^ 32))
  if n % 4 = 0 then h else mix 24 h (le (k.drop (4 * (n / 4))))

end Spec

namespace Surf.Props
open Surf

/-! ## The model's hash is that one -/

theorem le_nil : Spec.le [] = 0 := rfl

theorem le_cons (a : UInt8) (b : Key) : Spec.le (a :: b) = a.toNat + 256 * Spec.le b := by
  have h : ∀ (b : Key) (n : Nat), ((b.zipIdx (n + 1)).map fun x => x.1.toNat * 256 ^ x.2).sum =
      256 * ((b.zipIdx n).map fun x => x.1.toNat * 256 ^ x.2).sum := by
    intro b
    induction b with
    | nil => intro n; rfl
    | cons c b ih =>
      intro n
      simp only [List.zipIdx_cons, List.map_cons, List.sum_cons]
      rw [ih (n + 1), Nat.mul_add, pow_succ]
      congr 1
      ring
  unfold Spec.le
  rw [List.zipIdx_cons, List.map_cons, List.sum_cons, h b 0]
  simp

theorem hashM_toNat : hashM.toNat = 0xc6a4a793 := by decide

/-- One step of the model. -/
def hstep (r : Nat) (h w : BitVec 32) : BitVec 32 :=
  let x := (h + w) * hashM
  x ^^^ (x >>> r)

theorem hstep_toNat (r : Nat) (h : BitVec 32) (n : Nat) : (hstep r h (BitVec.ofNat 32 n)).toNat = Spec.mix r h.toNat n := by
  unfold hstep Spec.mix
  have hx : ((h + BitVec.ofNat 32 n) * hashM).toNat = (h.toNat + n) * 0xc6a4a793 % 2 ^ 32 := by
    rw [BitVec.toNat_mul, BitVec.toNat_add, BitVec.toNat_ofNat, Nat.add_mod_mod, Nat.mod_mul_mod, hashM_toNat]
  dsimp only
  rw [BitVec.toNat_xor, BitVec.toNat_ushiftRight, hx, Nat.shiftRight_eq_div_pow]

/-- A fold over groups of four bytes. -/
def hgroups {α : Type} (step : α → Key → α) : Nat → Key → α → α
  | 0, _, h => h
  | n + 1, x, h => hgroups step n (x.drop 4) (step h (x.take 4))

/-- The step for a whole group. -/
def hgroup (h : BitVec 32) (g : Key) : BitVec 32 := hstep 16 h (BitVec.ofNat 32 (leNat g))

/-- The state after a number of whole groups. -/
def hfull (n : Nat) (x : Key) (h : BitVec 32) : BitVec 32 := hgroups hgroup n x h

theorem hfull_zero (x : Key) (h : BitVec 32) : hfull 0 x h = h := by
  unfold hfull
  rw [hgroups]

theorem hfull_succ (n : Nat) (x : Key) (h : BitVec 32) :
    hfull (n + 1) x h = hfull n (x.drop 4) (hgroup h (x.take 4)) := by
  unfold hfull
  rw [hgroups]

/-- The step for one to three remaining bytes. -/
def hlast (t : Key) (h : BitVec 32) : BitVec 32 := if t = [] then h else hstep 24 h (BitVec.ofNat 32 (leNat t))

theorem hashLoop_short (t : Key) (ht : t.length < 4) (h : BitVec 32) : hashLoop t h = hlast t h := by
  have hsh : ∀ (x : UInt8) (i : Nat), BitVec.ofNat 32 x.toNat <<< i = BitVec.ofNat 32 (x.toNat * 2 ^ i) := by
    intro x i
    apply BitVec.eq_of_toNat_eq
    rw [BitVec.toNat_shiftLeft, BitVec.toNat_ofNat, BitVec.toNat_ofNat, Nat.shiftLeft_eq, Nat.mod_mul_mod]
  match t, ht with
  | [], _ => rfl
  | [a], _ =>
    unfold hashLoop hlast hstep
    simp only [leNat, Nat.mul_zero, Nat.add_zero, reduceCtorEq, if_false]
  | [a, b], _ =>
    unfold hashLoop hlast hstep
    simp only [leNat, Nat.mul_zero, Nat.add_zero, reduceCtorEq, if_false]
    rw [hsh, BitVec.add_assoc, ← BitVec.ofNat_add, show b.toNat * 2 ^ 8 + a.toNat = a.toNat + 256 * b.toNat by omega]
  | [a, b, c], _ =>
    unfold hashLoop hlast hstep
    simp only [leNat, Nat.mul_zero, Nat.add_zero, reduceCtorEq, if_false]
    rw [hsh, hsh, BitVec.add_assoc, BitVec.add_assoc, ← BitVec.ofNat_add, ← BitVec.ofNat_add,
      show c.toNat * 2 ^ 16 + (b.toNat * 2 ^ 8 + a.toNat) = a.toNat + 256 * (b.toNat + 256 * c.toNat) by omega]

theorem hashLoop_cons (a b c d : UInt8) (x : Key) (h : BitVec 32) :
    hashLoop (a :: b :: c :: d :: x) h = hashLoop x (hstep 16 h (decodeFixed32 a b c d)) := by
  conv_lhs => rw [hashLoop.eq_def]
  unfold hstep
  dsimp only

theorem four_le {x : Key} (h : 4 ≤ x.length) : ∃ a b c d y, x = a :: b :: c :: d :: y := by
  rcases x with _ | ⟨a, _ | ⟨b, _ | ⟨c, _ | ⟨d, y⟩⟩⟩⟩
  · simp at h
  · simp at h
  · simp at h
  · simp at h
  · exact ⟨a, b, c, d, y, rfl⟩

/-- Whole groups first. -/
theorem hashLoop_append (x : Key) (n : Nat) (hx : x.length = 4 * n) (y : Key) (h : BitVec 32) :
    hashLoop (x ++ y) h = hashLoop y (hfull n x h) := by
  induction n generalizing x h with
  | zero =>
    have := List.length_eq_zero_iff.1 hx
    subst this
    rw [List.nil_append, hfull_zero]
  | succ n ih =>
    · obtain ⟨a, b, c, d, x, rfl⟩ := four_le (x := x) (by omega)
      have hx' : x.length = 4 * n := by simp at hx; omega
      rw [hfull_succ, List.drop_succ_cons, List.drop_succ_cons, List.drop_succ_cons, List.drop_succ_cons, List.drop_zero, ← ih x hx',
        List.cons_append, List.cons_append, List.cons_append, List.cons_append, hashLoop_cons]
      simp only [List.take_succ_cons, List.take_zero]
      rw [decodeFixed32, hgroup]

theorem hfull_toNat (x : Key) (n : Nat) (hx : x.length = 4 * n) (y : Key) (h : BitVec 32) :
    (hfull n x h).toNat = (List.range n).foldl (fun h i => Spec.mix 16 h (Spec.le (((x ++ y).drop (4 * i)).take 4))) h.toNat := by
  induction n generalizing x h with
  | zero =>
    have := List.length_eq_zero_iff.1 hx
    subst this
    rw [hfull_zero, List.range_zero, List.foldl_nil]
  | succ n ih =>
    · obtain ⟨a, b, c, d, x, rfl⟩ := four_le (x := x) (by omega)
      have hx' : x.length = 4 * n := by simp at hx; omega
      rw [hfull_succ, List.drop_succ_cons, List.drop_succ_cons, List.drop_succ_cons, List.drop_succ_cons, List.drop_zero, ih x hx',
        List.range_succ_eq_map, List.foldl_cons, List.foldl_map]
      simp only [List.take_succ_cons, List.take_zero]
      rw [hgroup, hstep_toNat]
      have h1 : Spec.le ((((a :: b :: c :: d :: x) ++ y).drop (4 * 0)).take 4) = leNat [a, b, c, d] := by
        simp [le_cons, le_nil, leNat]
      rw [h1]
      congr 1

theorem leNat_eq (t : Key) : leNat t = Spec.le t := by
  induction t with
  | nil => rfl
  | cons a t ih => rw [leNat, ih, le_cons]

/-- The model's hash is the specified one, for all strings. -/
theorem suffixHash_spec (k : Key) : (suffixHash k).toNat = Spec.hash k := by
  have hx : (k.take (4 * (k.length / 4))).length = 4 * (k.length / 4) := by rw [List.length_take]; omega
  have hy : (k.drop (4 * (k.length / 4))).length = k.length % 4 := by rw [List.length_drop]; omega
  have hk := List.take_append_drop (4 * (k.length / 4)) k
  have h0 : (0xbc9f1d34#32 ^^^ (BitVec.ofNat 32 k.length * hashM)).toNat = 0xbc9f1d34 ^^^ (k.length * 0xc6a4a793 % 2 ^ 32) := by
    rw [BitVec.toNat_xor, BitVec.toNat_mul, BitVec.toNat_ofNat, BitVec.toNat_ofNat, Nat.mod_mul_mod, hashM_toNat,
      Nat.mod_eq_of_lt (show 0xbc9f1d34 < 2 ^ 32 by decide)]
  have h1 : suffixHash k = hlast (k.drop (4 * (k.length / 4)))
      (hfull (k.length / 4) (k.take (4 * (k.length / 4))) (0xbc9f1d34#32 ^^^ (BitVec.ofNat 32 k.length * hashM))) := by
    unfold suffixHash
    rw [← hashLoop_short _ (by rw [hy]; omega), ← hashLoop_append _ _ hx, hk]
  have h2 := hfull_toNat _ _ hx (k.drop (4 * (k.length / 4))) (0xbc9f1d34#32 ^^^ (BitVec.ofNat 32 k.length * hashM))
  rw [hk, h0] at h2
  rw [h1]
  unfold hlast Spec.hash
  dsimp only
  by_cases hz : k.length % 4 = 0
  · rw [if_pos hz, if_pos (List.length_eq_zero_iff.1 (by rw [hy, hz])), h2]
  · rw [if_neg hz, if_neg (fun hc => hz (by rw [← hy, hc]; rfl)), hstep_toNat, h2, leNat_eq]

/-! ## Every step is a bijection -/

theorem mulM_inj {x y : BitVec 32} (h : x * hashM = y * hashM) : x = y := by
  have h1 : hashM * 0xd8198e9b#32 = 1#32 := by decide
  have h2 := congrArg (· * 0xd8198e9b#32) h
  simpa only [BitVec.mul_assoc, h1, BitVec.mul_one] using h2

theorem xorshift_inj {r : Nat} (hr : 16 ≤ r) {x y : BitVec 32} (h : x ^^^ (x >>> r) = y ^^^ (y >>> r)) : x = y := by
  have key : ∀ x : BitVec 32, (x ^^^ (x >>> r)) ^^^ ((x ^^^ (x >>> r)) >>> r) = x := by
    intro x
    apply BitVec.eq_of_getLsbD_eq
    intro i hi
    simp only [BitVec.getLsbD_xor, BitVec.getLsbD_ushiftRight]
    rw [BitVec.getLsbD_of_ge x (r + (r + i)) (by omega)]
    cases x.getLsbD i <;> cases x.getLsbD (r + i) <;> rfl
  rw [← key x, h, key y]

theorem hstep_inj {r : Nat} (hr : 16 ≤ r) {h h' w : BitVec 32} (e : hstep r h w = hstep r h' w) : h = h' := by
  have := mulM_inj (xorshift_inj hr e)
  exact (BitVec.add_left_inj w).1 this

theorem hstep_inj' {r : Nat} (hr : 16 ≤ r) {h w w' : BitVec 32} (e : hstep r h w = hstep r h w') : w = w' := by
  have := mulM_inj (xorshift_inj hr e)
  exact (BitVec.add_right_inj h).1 this

theorem hfull_inj (n : Nat) (x : Key) {h h' : BitVec 32} (e : hfull n x h = hfull n x h') : h = h' := by
  induction n generalizing x h h' with
  | zero => exact e
  | succ n ih =>
    rw [hfull_succ, hfull_succ] at e
    exact hstep_inj (r := 16) (by omega) (ih _ e)

theorem hlast_inj (t : Key) {h h' : BitVec 32} (e : hlast t h = hlast t h') : h = h' := by
  unfold hlast at e
  split at e
  · exact e
  · exact hstep_inj (by omega) e

theorem hashLoop_inj (y : Key) {h h' : BitVec 32} (e : hashLoop y h = hashLoop y h') : h = h' := by
  have hx : (y.take (4 * (y.length / 4))).length = 4 * (y.length / 4) := by rw [List.length_take]; omega
  have hy : (y.drop (4 * (y.length / 4))).length < 4 := by rw [List.length_drop]; omega
  have hk := List.take_append_drop (4 * (y.length / 4)) y
  rw [← hk, hashLoop_append _ _ hx, hashLoop_append _ _ hx, hashLoop_short _ hy, hashLoop_short _ hy] at e
  exact hfull_inj _ _ (hlast_inj _ e)

theorem decode_inj {a b c d a' b' c' d' : UInt8} (e : decodeFixed32 a b c d = decodeFixed32 a' b' c' d') :
    [a, b, c, d] = [a', b', c', d'] := by
  have := congrArg BitVec.toNat e
  unfold decodeFixed32 at this
  simp only [BitVec.toNat_ofNat, leNat] at this
  have ha := a.toNat_lt
  have hb := b.toNat_lt
  have hc := c.toNat_lt
  have hd := d.toNat_lt
  have ha' := a'.toNat_lt
  have hb' := b'.toNat_lt
  have hc' := c'.toNat_lt
  have hd' := d'.toNat_lt
  have h1 : a.toNat = a'.toNat := by omega
  have h2 : b.toNat = b'.toNat := by omega
  have h3 : c.toNat = c'.toNat := by omega
  have h4 : d.toNat = d'.toNat := by omega
  rw [UInt8.toNat_inj.1 h1, UInt8.toNat_inj.1 h2, UInt8.toNat_inj.1 h3, UInt8.toNat_inj.1 h4]

/-- Strings of one length that differ in a single aligned group of four bytes have different hashes. -/
theorem hash_group_inj {x g g' y : Key} {n : Nat} (hx : x.length = 4 * n) (hg : g.length = 4) (hg' : g'.length = 4)
    (e : suffixHash (x ++ g ++ y) = suffixHash (x ++ g' ++ y)) : g = g' := by
  match g, hg, g', hg' with
  | [a, b, c, d], _, [a', b', c', d'], _ =>
    unfold suffixHash at e
    rw [List.append_assoc, List.append_assoc, hashLoop_append x n hx, hashLoop_append x n hx] at e
    rw [hashLoop_append [a, b, c, d] 1 rfl, hashLoop_append [a', b', c', d'] 1 rfl] at e
    have := hashLoop_inj y e
    simp only [List.length_append, List.length_cons, List.length_nil] at this
    rw [hfull_succ, hfull_succ, hfull_zero, hfull_zero] at this
    exact decode_inj (hstep_inj' (by omega) this)

/-! ## Counting -/

theorem strings_add (i j : Nat) : Spec.strings (i + j) = (Spec.strings i).flatMap fun x => (Spec.strings j).map (x ++ ·) := by
  induction i with
  | zero => simp [Spec.strings]
  | succ i ih =>
    rw [show i + 1 + j = (i + j) + 1 by omega, Spec.strings, Spec.strings, ih]
    simp only [List.flatMap_assoc, List.map_flatMap, List.flatMap_map, List.map_map]
    rfl

theorem filter_flatMap_length {α β : Type} (l : List α) (f : α → List β) (p : β → Bool) (c : Nat) (h : ∀ x ∈ l, ((f x).filter p).length = c) :
    ((l.flatMap f).filter p).length = l.length * c := by
  induction l with
  | nil => simp
  | cons a l ih =>
    rw [List.flatMap_cons, List.filter_append, List.length_append, h a (by simp), ih fun x hx => h x (by simp [hx]), List.length_cons]
    ring

theorem filter_map_length {α β : Type} (l : List α) (f : α → β) (p : β → Bool) : ((l.map f).filter p).length = (l.filter fun x => p (f x)).length := by
  rw [List.filter_map, List.length_map]; rfl

/-- Pairs may be counted in either order. -/
theorem count_swap {α β : Type} (l : List α) (m : List β) (p : α → β → Bool) :
    (l.map fun a => (m.filter fun b => p a b).length).sum = (m.map fun b => (l.filter fun a => p a b).length).sum := by
  induction l with
  | nil => simp
  | cons a l ih =>
    rw [List.map_cons, List.sum_cons, ih]
    clear ih
    induction m with
    | nil => simp
    | cons b m ihm =>
      rw [List.map_cons, List.sum_cons, List.map_cons, List.sum_cons, ← ihm, List.filter_cons, List.filter_cons]
      cases p a b
      · simp only [Bool.false_eq_true, if_false]; omega
      · simp only [if_true, List.length_cons]; omega

theorem filter_flatMap_sum {α β : Type} (l : List α) (f : α → List β) (p : β → Bool) :
    ((l.flatMap f).filter p).length = (l.map fun x => ((f x).filter p).length).sum := by
  induction l with
  | nil => simp
  | cons a l ih => rw [List.flatMap_cons, List.filter_append, List.length_append, ih, List.map_cons, List.sum_cons]

/-- Of the numbers below `a * c * b`, `a * b` have a given residue of the quotient by `a` modulo `c`. -/
theorem count_div (a : Nat) (ha : 0 < a) (P : Nat → Bool) (b : Nat) :
    ((List.range (a * b)).filter fun n => P (n / a)).length = a * ((List.range b).filter P).length := by
  induction b with
  | zero => simp
  | succ b ih =>
    rw [Nat.mul_succ, List.range_add, List.filter_append, List.length_append, ih, List.range_succ, List.filter_append, List.length_append, filter_map_length,
      Nat.mul_add]
    congr 1
    have h1 : ∀ x ∈ List.range a, P ((a * b + x) / a) = P b := by
      intro x hx
      rw [Nat.mul_add_div ha, Nat.div_eq_of_lt (List.mem_range.1 hx), Nat.add_zero]
    rw [List.filter_congr h1]
    cases hb : P b <;> simp [hb]

theorem count_mod (c v : Nat) (hv : v < c) (b : Nat) : ((List.range (c * b)).filter fun n => decide (n % c = v)).length = b := by
  induction b with
  | zero => simp
  | succ b ih =>
    rw [Nat.mul_succ, List.range_add, List.filter_append, List.length_append, ih, filter_map_length]
    congr 1
    refine filter_one List.nodup_range (List.mem_range.2 hv) _ fun x hx => ?_
    rw [decide_eq_true_iff, Nat.mul_add_mod, Nat.mod_eq_of_lt (List.mem_range.1 hx)]

theorem count_bits (l : List Nat) (N n : Nat) (hn : n ≤ 25) (hN : N = 2 ^ 7 * (2 ^ n * 2 ^ (25 - n))) (hl : l.Perm (List.range N)) (v : Nat) (hv : v < 2 ^ n) :
    (l.filter fun z => decide (z / 2 ^ 7 % 2 ^ n = v)).length = 2 ^ (32 - n) := by
  rw [(hl.filter fun z => decide (z / 2 ^ 7 % 2 ^ n = v)).length_eq, hN,
    count_div (2 ^ 7) (Nat.two_pow_pos 7) (fun z => decide (z % 2 ^ n = v)), count_mod _ _ hv, ← pow_add]
  congr 1
  omega

theorem perm_range (l : List Nat) (N : Nat) (h1 : l.Nodup) (h2 : ∀ z ∈ l, z < N) (h3 : l.length = N) : l.Perm (List.range N) := by
  refine (List.subperm_of_subset h1 fun z hz => List.mem_range.2 (h2 z hz)).perm_of_length_le ?_
  rw [h3, List.length_range]

/-- Of the `2^32` values of a group of four bytes, `2^(32-n)` lead to given `n` bits of the hash from bit 7 on. -/
theorem group_count (x y : Key) (m : Nat) (hx : x.length = 4 * m) (n : Nat) (hn : n ≤ 25) (v : Nat) (hv : v < 2 ^ n) :
    ((Spec.strings 4).filter fun g => decide ((suffixHash (x ++ g ++ y)).toNat / 2 ^ 7 % 2 ^ n = v)).length = 2 ^ (32 - n) := by
  rw [← filter_map_length (Spec.strings 4) (fun g => (suffixHash (x ++ g ++ y)).toNat) fun z => decide (z / 2 ^ 7 % 2 ^ n = v)]
  refine count_bits _ (2 ^ 32) n hn ?_ (perm_range _ _ ?_ ?_ ?_) v hv
  · rw [← pow_add, ← pow_add, show 7 + (n + (25 - n)) = 32 by omega]
  · refine List.Nodup.map_on ?_ (Spec.strings_nodup 4)
    intro a ha b hb e
    exact hash_group_inj hx (Spec.mem_strings.1 ha) (Spec.mem_strings.1 hb) (BitVec.eq_of_toNat_eq e)
  · intro z hz
    obtain ⟨g, -, rfl⟩ := List.mem_map.1 hz
    exact BitVec.isLt _
  · rw [List.length_map, strings_length]

/-- The same for strings of any length that start with a given string, if they contain an aligned group of four bytes behind it. -/
theorem hash_count (p : Key) (j m : Nat) (h1 : p.length ≤ 4 * m) (h2 : 4 * m + 4 ≤ p.length + j) (n : Nat) (hn : n ≤ 25) (v : Nat) (hv : v < 2 ^ n) :
    ((Spec.strings j).filter fun x => decide ((suffixHash (p ++ x)).toNat / 2 ^ 7 % 2 ^ n = v)).length = 2 ^ (8 * j - n) := by
  obtain ⟨i, hi⟩ : ∃ i, 4 * m = p.length + i := ⟨4 * m - p.length, by omega⟩
  obtain ⟨l, hl⟩ : ∃ l, j = i + (4 + l) := ⟨j - i - 4, by omega⟩
  subst hl
  rw [strings_add, filter_flatMap_length _ _ _ (2 ^ (8 * (4 + l) - n)), strings_length, ← pow_add]
  · congr 1; omega
  · intro x hx
    have hx' := Spec.mem_strings.1 hx
    rw [filter_map_length, strings_add, filter_flatMap_sum]
    have e : ((Spec.strings 4).map fun g => (((Spec.strings l).map (g ++ ·)).filter fun y =>
        decide ((suffixHash (p ++ (x ++ y))).toNat / 2 ^ 7 % 2 ^ n = v)).length) =
        (Spec.strings 4).map fun g => ((Spec.strings l).filter fun y =>
          decide ((suffixHash ((p ++ x) ++ g ++ y)).toNat / 2 ^ 7 % 2 ^ n = v)).length := by
      refine List.map_congr_left fun g _ => ?_
      rw [filter_map_length]
      simp only [List.append_assoc]
    rw [e, count_swap]
    have e2 : ((Spec.strings l).map fun y => ((Spec.strings 4).filter fun g =>
          decide ((suffixHash ((p ++ x) ++ g ++ y)).toNat / 2 ^ 7 % 2 ^ n = v)).length) = (Spec.strings l).map fun _ => 2 ^ (32 - n) := by
      refine List.map_congr_left fun y _ => ?_
      exact group_count (p ++ x) y m (by rw [List.length_append]; omega) n hn v hv
    rw [e2, List.map_const', List.sum_replicate_nat, strings_length, ← pow_add]
    congr 1; omega

section
variable [Env] {cfg cfg' : Config} {keys : List Key}

/-! ## C71: which hash is stored -/

/-- **C71.** A point query on a filter with `n` hash bits is answered `true` exactly when it matches a stored key and bits 7 to `7+n-1` of LevelDB's hash
agree. -/
theorem C71 (h : Setting cfg keys) (hs : Env.strict = false) (hff : ¬ Spec.SingleFF keys) (hn : cfg.suffixType = .kHash) (h57 : cfg.hashLen ≤ 57) :
    ∃ f, Filter.create cfg keys = .ok f ∧ ∀ q, ∃ r, f.lookupKey q = .ok r ∧
      (r = true ↔ ∃ k, Spec.Matches keys k q ∧ Spec.hash k / 2 ^ 7 % 2 ^ cfg.hashLen = Spec.hash q / 2 ^ 7 % 2 ^ cfg.hashLen) := by
  obtain ⟨f, e, hl⟩ := C04 h hs hff hn h57
  refine ⟨f, e, fun q => ?_⟩
  obtain ⟨r, e1, g⟩ := hl q
  simp only [suffixHash_spec] at g
  exact ⟨r, e1, g⟩

/-- The same for mixed suffixes: the hash part and the real part agree. -/
theorem C71_mixed (h : Setting cfg keys) (hs : Env.strict = false) (hff : ¬ Spec.SingleFF keys) (hn : cfg.suffixType = .kMixed) (h57 : cfg.hashLen ≤ 57) :
    ∃ f, Filter.create cfg keys = .ok f ∧ ∀ q, ∃ r, f.lookupKey q = .ok r ∧
      (r = true ↔ ∃ k, Spec.Matches keys k q ∧ Spec.hash k / 2 ^ 7 % 2 ^ cfg.hashLen = Spec.hash q / 2 ^ 7 % 2 ^ cfg.hashLen ∧
        Spec.realSuffix0 cfg.realLen k (Spec.cut keys k) = Spec.realSuffix0 cfg.realLen q (Spec.cut keys k)) := by
  obtain ⟨f, e, hl⟩ := C05 h hs hff hn h57
  refine ⟨f, e, fun q => ?_⟩
  obtain ⟨r, e1, g⟩ := hl q
  simp only [suffixHash_spec] at g
  exact ⟨r, e1, g⟩

/-! ## C65 for hashes -/

/-- A filter with `m` hash bits accepts no query that a filter with `n ≤ m` of them turns away. -/
theorem C65_hash (h : Setting cfg keys) (h' : Setting cfg' keys) (hs : Env.strict = false) (hff : ¬ Spec.SingleFF keys)
    (hn : cfg.suffixType = .kHash) (hn' : cfg'.suffixType = .kHash) (hnm : cfg.hashLen ≤ cfg'.hashLen) (h57 : cfg'.hashLen ≤ 57) :
    ∃ f f', Filter.create cfg keys = .ok f ∧ Filter.create cfg' keys = .ok f' ∧
      ∀ q, f'.lookupKey q = .ok true → f.lookupKey q = .ok true := by
  obtain ⟨f, e, hl⟩ := C71 h hs hff hn (by omega)
  obtain ⟨f', e', hl'⟩ := C71 h' hs hff hn' h57
  refine ⟨f, f', e, e', fun q hq => ?_⟩
  obtain ⟨r', e1', g'⟩ := hl' q
  obtain ⟨r, e1, g⟩ := hl q
  rw [e1'] at hq
  cases hq
  obtain ⟨k, hm, g1⟩ := g'.1 rfl
  rw [e1, g.2 ⟨k, hm, ?_⟩]
  have hd : 2 ^ cfg.hashLen ∣ 2 ^ cfg'.hashLen := pow_dvd_pow 2 hnm
  have := congrArg (· % 2 ^ cfg.hashLen) g1
  simpa only [Nat.mod_mod_of_dvd _ hd] using this

/-! ## C72: how many queries a hash turns away -/

theorem hash_lt (k : Key) : Spec.hash k / 2 ^ 7 < 2 ^ 25 := by
  rw [← suffixHash_spec]
  have := (suffixHash k).isLt
  rw [Nat.div_lt_iff_lt_mul (Nat.two_pow_pos 7), ← pow_add]
  exact this

theorem hash_mod (k : Key) (n : Nat) : Spec.hash k / 2 ^ 7 % 2 ^ n = Spec.hash k / 2 ^ 7 % 2 ^ min n 25 := by
  rcases Nat.le_total n 25 with h | h
  · rw [Nat.min_eq_left h]
  · rw [Nat.min_eq_right h, Nat.mod_eq_of_lt (hash_lt k)]
    exact Nat.mod_eq_of_lt (lt_of_lt_of_le (hash_lt k) (Nat.pow_le_pow_right (by omega) h))

/-- Hash suffixes of more than 25 bits are zero from bit 25 on: filters with 25 or more hash bits accept the same queries. -/
theorem C72_same (h : Setting cfg keys) (h' : Setting cfg' keys) (hs : Env.strict = false) (hff : ¬ Spec.SingleFF keys)
    (hn : cfg.suffixType = .kHash) (hn' : cfg'.suffixType = .kHash) (h25 : 25 ≤ cfg.hashLen) (h25' : 25 ≤ cfg'.hashLen)
    (h57 : cfg.hashLen ≤ 57) (h57' : cfg'.hashLen ≤ 57) :
    ∃ f f', Filter.create cfg keys = .ok f ∧ Filter.create cfg' keys = .ok f' ∧ ∀ q, f'.lookupKey q = f.lookupKey q := by
  obtain ⟨f, e, hl⟩ := C71 h hs hff hn h57
  obtain ⟨f', e', hl'⟩ := C71 h' hs hff hn' h57'
  refine ⟨f, f', e, e', fun q => ?_⟩
  obtain ⟨r', e1', g'⟩ := hl' q
  obtain ⟨r, e1, g⟩ := hl q
  simp only [hash_mod _ cfg.hashLen, hash_mod _ cfg'.hashLen, Nat.min_eq_right h25, Nat.min_eq_right h25'] at g g'
  rw [e1, e1', Bool.eq_iff_iff.2 (g'.trans g.symm)]

/-- **C72**, exactly: of the `2^(8j)` strings that continue the stored bytes of a key by `j` more bytes, a filter with `n` hash bits accepts
`2^(8j-n)` if `n ≤ 25` and `2^(8j-25)` otherwise, provided that one of the groups of four bytes the hash is made of (bytes `4m` to `4m+3`) lies in the continuation.
Missing from C72: shorter continuations; more than 25 bits, for which it is false (`C72_refuted`); more than 57. -/
theorem C72_partial (h : Setting cfg keys) (hs : Env.strict = false) (hff : ¬ Spec.SingleFF keys) (hn : cfg.suffixType = .kHash) (h57 : cfg.hashLen ≤ 57) :
    ∃ f, Filter.create cfg keys = .ok f ∧ ∀ k ∈ keys, Spec.cut keys k ≤ k.length →
      ∀ j m, Spec.cut keys k ≤ 4 * m → 4 * m + 4 ≤ Spec.cut keys k + j →
        ((Spec.strings j).filter fun x => decide (f.lookupKey (Spec.stored keys k ++ x) = .ok true)).length = 2 ^ (8 * j - min cfg.hashLen 25) := by
  obtain ⟨f, e, hl⟩ := C71 h hs hff hn h57
  refine ⟨f, e, fun k hk hc j m h1 h2 => ?_⟩
  have hlen : (Spec.stored keys k).length = Spec.cut keys k := by unfold Spec.stored; rw [List.length_take]; omega
  rw [← hash_count (Spec.stored keys k) j m (by omega) (by omega) (min cfg.hashLen 25) (by omega)
    (Spec.hash k / 2 ^ 7 % 2 ^ min cfg.hashLen 25) (Nat.mod_lt _ (Nat.two_pow_pos _))]
  congr 1
  apply List.filter_congr
  intro x _
  obtain ⟨r, e1, g⟩ := hl (Spec.stored keys k ++ x)
  have hm := matches_stored h hk hc x
  rw [decide_eq_decide, e1, Except.ok.injEq, g, suffixHash_spec]
  simp only [hash_mod _ cfg.hashLen]
  constructor
  · rintro ⟨k', hm', g1⟩
    have := matches_unique h hm hm'
    subst this
    exact g1.symm
  · intro g1
    exact ⟨k, hm, g1.symm⟩

end

/-! ## Examples and counterexamples -/

/-- Values from LevelDB's own test of the function. -/
theorem C71_example : Spec.hash [] = 0xbc9f1d34 ∧ Spec.hash [0x62] = 0xef1345c4 ∧ Spec.hash [0xc3, 0x97] = 0x5b663814 ∧
    Spec.hash [0xe2, 0x99, 0xa5] = 0x323c078f ∧ Spec.hash [0xe1, 0x80, 0xb9, 0x32] = 0xed21633a := by decide +kernel

/-- `n` hash suffix bits. -/
def cfgH (n : Nat) : Config := { suffixType := .kHash, hashLen := n }

theorem hashSetting : Setting (cfgH 8) axKeys ∧ Setting (cfgH 32) axKeys ∧ ¬ Spec.SingleFF axKeys ∧ Spec.cut axKeys [97, 120] = 1 := by
  have hv : Spec.Valid axKeys := ⟨by decide, by decide, by decide⟩
  exact ⟨⟨by decide, rfl, by decide, hv, fits_of_total (by decide) (by decide)⟩, ⟨by decide, rfl, by decide, hv, fits_of_total (by decide) (by decide)⟩,
    axSetting.2.2, by decide +kernel⟩

/-- C72 fails for 32 hash bits: of the `2^56` continuations of "a" by 7 bytes the filter accepts `2^31`, not `2^24`. -/
theorem C72_refuted [Env] (hs : Env.strict = false) : ∃ f, Filter.create (cfgH 32) axKeys = .ok f ∧
    ((Spec.strings 7).filter fun x => decide (f.lookupKey ([97] ++ x) = .ok true)).length = 2 ^ 31 := by
  obtain ⟨f, e, hl⟩ := C72_partial hashSetting.2.1 hs hashSetting.2.2.1 rfl (by decide)
  have h1 := hl [97, 120] (by decide) (by rw [hashSetting.2.2.2]; decide) 7 1 (by rw [hashSetting.2.2.2]; decide) (by rw [hashSetting.2.2.2])
  have h2 : Spec.stored axKeys [97, 120] = [97] := by
    unfold Spec.stored
    rw [hashSetting.2.2.2]
    rfl
  rw [h2] at h1
  exact ⟨f, e, h1⟩

end Surf.Props
