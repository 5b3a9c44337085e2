import Verif.Model.Bitvector

/-! # Word level lemmas: popcount, clz, ctz, select inside a word -/

namespace Surf

/-- Number of `true`s of `f` below `n`. -/
def rk (f : Nat → Bool) (n : Nat) : Nat := Nat.count (fun i => f i = true) n

theorem rk_zero (f) : rk f 0 = 0 := Nat.count_zero _

theorem rk_succ (f n) : rk f (n + 1) = rk f n + if f n then 1 else 0 := by
  unfold rk; rw [Nat.count_succ]

theorem rk_add (f a b) : rk f (a + b) = rk f a + rk (fun i => f (a + i)) b := by
  unfold rk; rw [Nat.count_add]

theorem rk_congr {f g : Nat → Bool} {n : Nat} (h : ∀ i, i < n → f i = g i) : rk f n = rk g n := by
  induction n with
  | zero => simp [rk_zero]
  | succ n ih => rw [rk_succ, rk_succ, ih (fun i hi => h i (by omega)), h n (by omega)]

theorem rk_eq_zero {f : Nat → Bool} {n : Nat} (h : ∀ i, i < n → f i = false) : rk f n = 0 := by
  induction n with
  | zero => simp [rk_zero]
  | succ n ih => rw [rk_succ, ih (fun i hi => h i (by omega)), h n (by omega)]; simp

theorem rk_mono (f) {a b : Nat} (h : a ≤ b) : rk f a ≤ rk f b := by
  obtain ⟨c, rfl⟩ := Nat.exists_eq_add_of_le h
  rw [rk_add]; omega

theorem rk_le (f n) : rk f n ≤ n := by
  induction n with
  | zero => simp [rk_zero]
  | succ n ih => rw [rk_succ]; split <;> omega

/-- A position holding a `true` is determined by its rank. -/
theorem rk_inj {f : Nat → Bool} {p q : Nat} (hp : f p = true) (hq : f q = true)
    (h : rk f p = rk f q) : p = q := by
  rcases Nat.lt_trichotomy p q with hl | he | hl
  · have := rk_mono f (show p + 1 ≤ q from hl)
    rw [rk_succ, hp] at this; simp at this; omega
  · exact he
  · have := rk_mono f (show q + 1 ≤ p from hl)
    rw [rk_succ, hq] at this; simp at this; omega

theorem popcount_eq (w : Word) : popcount w = rk w.getMsbD 64 := rfl

theorem popcount_le (w : Word) : popcount w ≤ 64 := rk_le _ _

theorem popcount_zero : popcount 0 = 0 := by
  rw [popcount_eq]; apply rk_eq_zero; intro i _; simp

theorem testMsb_eq (w : Word) {i : Nat} (h : i < 64) : testMsb w i = w.getMsbD i := by
  unfold testMsb
  have key : ∀ j : Nat, (w &&& (kMsbMask >>> i)).getMsbD j = (w.getMsbD j && (j == i)) := by
    intro j
    rw [BitVec.getMsbD_and, BitVec.getMsbD_ushiftRight]
    have hm : ∀ k, kMsbMask.getMsbD k = decide (k = 0) := by
      intro k
      by_cases hk : k < 64
      · have : ∀ k : Fin 64, kMsbMask.getMsbD k = decide (k.val = 0) := by decide
        exact this ⟨k, hk⟩
      · rw [BitVec.getMsbD_of_ge _ _ (by omega)]; simp; omega
    rw [hm]
    by_cases hw : w.getMsbD j = true
    · have : j < 64 := BitVec.lt_of_getMsbD hw
      by_cases hji : j = i
      · subst hji; simp [hw, h]
      · rw [hw, Bool.true_and, beq_false_of_ne hji]
        by_cases hlt : j < i
        · simp [hlt]
        · simp; omega
    · simp at hw; simp [hw]
  by_cases hw : w.getMsbD i = true
  · rw [hw, bne_iff_ne]
    intro h0
    have := key i
    rw [h0] at this; simp [hw] at this
  · simp at hw
    rw [hw]
    have : w &&& (kMsbMask >>> i) = 0 := by
      apply BitVec.eq_of_getMsbD_eq
      intro j hj
      rw [key]
      by_cases hji : j = i
      · subst hji; simp [hw]
      · simp [hji]
    rw [this]; rfl

/-! ### clz and ctz -/

theorem exists_msb_of_ne_zero {w : Word} (h : w ≠ 0) : ∃ i, i < 64 ∧ w.getMsbD i = true := by
  by_contra hc
  apply h
  apply BitVec.eq_of_getMsbD_eq
  intro i hi
  have := not_exists.mp hc i
  simp [hi] at this
  simp [this]

theorem clz_spec {w : Word} (h : w ≠ 0) :
    clz w < 64 ∧ w.getMsbD (clz w) = true ∧ ∀ j, j < clz w → w.getMsbD j = false := by
  obtain ⟨i, hi, hw⟩ := exists_msb_of_ne_zero h
  have hlt : clz w < (List.range 64).length := by
    unfold clz
    rw [List.findIdx_lt_length]
    exact ⟨i, by simp [hi], hw⟩
  have hlt' : clz w < 64 := by simpa using hlt
  refine ⟨hlt', ?_, ?_⟩
  · have h1 : w.getMsbD ((List.range 64)[clz w]'hlt) = true :=
      List.findIdx_getElem (p := fun i => w.getMsbD i) (xs := List.range 64) (w := hlt)
    have h2 : (List.range 64)[clz w]'hlt = clz w := List.getElem_range hlt
    rwa [h2] at h1
  · intro j hj
    have := List.not_of_lt_findIdx (p := fun i => w.getMsbD i) (xs := List.range 64) (i := j) hj
    simpa using this

theorem exists_lsb_of_ne_zero {w : Word} (h : w ≠ 0) : ∃ i, i < 64 ∧ w.getLsbD i = true := by
  obtain ⟨i, hi, hw⟩ := exists_msb_of_ne_zero h
  rw [BitVec.getMsbD_eq_getLsbD] at hw
  simp at hw
  exact ⟨64 - 1 - i, by omega, by simpa using hw.2⟩

theorem ctz_spec {w : Word} (h : w ≠ 0) :
    ctz w < 64 ∧ w.getLsbD (ctz w) = true ∧ ∀ j, j < ctz w → w.getLsbD j = false := by
  obtain ⟨i, hi, hw⟩ := exists_lsb_of_ne_zero h
  have hlt : ctz w < (List.range 64).length := by
    unfold ctz
    rw [List.findIdx_lt_length]
    exact ⟨i, by simp [hi], hw⟩
  have hlt' : ctz w < 64 := by simpa using hlt
  refine ⟨hlt', ?_, ?_⟩
  · have h1 : w.getLsbD ((List.range 64)[ctz w]'hlt) = true :=
      List.findIdx_getElem (p := fun i => w.getLsbD i) (xs := List.range 64) (w := hlt)
    have h2 : (List.range 64)[ctz w]'hlt = ctz w := List.getElem_range hlt
    rwa [h2] at h1
  · intro j hj
    have := List.not_of_lt_findIdx (p := fun i => w.getLsbD i) (xs := List.range 64) (i := j) hj
    simpa using this

theorem eq_zero_of_msb {w : Word} (h : ∀ i, i < 64 → w.getMsbD i = false) : w = 0 := by
  apply BitVec.eq_of_getMsbD_eq
  intro i hi
  rw [h i hi]; simp

/-! ### select64 -/

/-- `x` contains, right aligned, the `n` bits of `w` starting at (MSB first) position `o`. -/
def Window (w : Word) (o n : Nat) (x : Word) : Prop :=
  ∀ i, i < 64 → x.getMsbD i = if 64 - n ≤ i then w.getMsbD (o + (i - (64 - n))) else false

theorem Window.rk {w x : Word} {o n : Nat} (h : Window w o n x) (hn : n ≤ 64) :
    popcount x = Surf.rk (fun i => w.getMsbD (o + i)) n := by
  rw [popcount_eq]
  have h64 : (64 : Nat) = (64 - n) + n := by omega
  rw [show Surf.rk x.getMsbD 64 = Surf.rk x.getMsbD ((64 - n) + n) from by rw [← h64], rk_add]
  have h1 : Surf.rk x.getMsbD (64 - n) = 0 := by
    apply rk_eq_zero; intro i hi
    rw [h i (by omega), if_neg (by omega)]
  rw [h1, Nat.zero_add]
  apply rk_congr
  intro i hi
  rw [h _ (by omega), if_pos (by omega)]
  congr 1; omega

theorem Window.shr {w x : Word} {o t : Nat} (h : Window w o (2 * t) x) (ht : 2 * t ≤ 64) :
    Window w o t (x >>> t) := by
  intro i hi
  rw [BitVec.getMsbD_ushiftRight]
  by_cases hit : i < t
  · simp [hit, hi]; omega
  · simp [hit, hi]
    rw [h _ (by omega)]
    by_cases h2 : 64 - t ≤ i
    · rw [if_pos (by omega)]; simp [show 64 ≤ i + t by omega]; congr 1; omega
    · rw [if_neg (by omega)]; simp [show ¬ 64 ≤ i + t by omega]

theorem Window.mask {w x m : Word} {o t : Nat} (h : Window w o (2 * t) x) (ht : 2 * t ≤ 64)
    (hm : ∀ i, i < 64 → m.getMsbD i = decide (64 - t ≤ i)) :
    Window w (o + t) t (x &&& m) := by
  intro i hi
  rw [BitVec.getMsbD_and, hm i hi, h i hi]
  by_cases h2 : 64 - t ≤ i
  · rw [if_pos (by omega)]; simp [h2]; congr 1; omega
  · simp [h2]

theorem sel_step {w x : Word} {o t k : Nat} {ts : List Nat}
    (hw : Window w o (2 * t) x) (ht : 2 * t ≤ 64)
    (hm : ∀ i, i < 64 → (((1#64) <<< t) - 1#64).getMsbD i = decide (64 - t ≤ i))
    (hk : 1 ≤ k) (hk' : k ≤ popcount x) :
    ∃ (x' : Word) (o' k' : Nat),
      selSearchLoop (t :: ts) x k ((o : Int) - 1) = selSearchLoop ts x' k' ((o' : Int) - 1) ∧
      Window w o' t x' ∧ 1 ≤ k' ∧ k' ≤ popcount x' ∧ rk w.getMsbD o' + k' = rk w.getMsbD o + k := by
  have hs := hw.shr ht
  have hmk := hw.mask ht hm
  have c0 := hw.rk ht
  have c1 := hs.rk (by omega)
  have c2 := hmk.rk (by omega)
  have hsplit : popcount x = popcount (x >>> t) + popcount (x &&& (((1#64) <<< t) - 1#64)) := by
    rw [c0, c1, c2, Nat.two_mul, rk_add]
    congr 1
    apply rk_congr; intro i _; congr 1; omega
  by_cases hc : (k : Int) > (popcount (x >>> t) : Int)
  · refine ⟨_, o + t, k - popcount (x >>> t), ?_, hmk, by omega, by omega, ?_⟩
    · rw [selSearchLoop, if_pos hc]
      congr 1
      · omega
      · omega
    · rw [rk_add, ← c1]; omega
  · refine ⟨_, o, k, ?_, hs, hk, by omega, rfl⟩
    rw [selSearchLoop, if_neg hc]

/-- `select64` finds the `k`-th one bit of a word. -/
theorem select64_spec {w : Word} {k : Nat} (hk : 1 ≤ k) (hk' : k ≤ popcount w) :
    ∃ p : Nat, select64 w k = p ∧ p < 64 ∧ w.getMsbD p = true ∧ rk w.getMsbD p + 1 = k := by
  have hw0 : Window w 0 (2 * 32) w := by intro i hi; simp
  have m : ∀ t ∈ [32, 16, 8, 4, 2, 1], ∀ i, i < 64 →
      (((1#64) <<< t) - 1#64).getMsbD i = decide (64 - t ≤ i) := by
    have : ∀ t ∈ [32, 16, 8, 4, 2, 1], ∀ i : Fin 64,
      (((1#64) <<< t) - 1#64).getMsbD i = decide (64 - t ≤ i.val) := by decide +kernel
    intro t ht i hi
    exact this t ht ⟨i, hi⟩
  obtain ⟨x1, o1, k1, e1, w1, a1, b1, r1⟩ := sel_step (ts := [16, 8, 4, 2, 1]) hw0 (by omega) (m 32 (by simp)) hk hk'
  obtain ⟨x2, o2, k2, e2, w2, a2, b2, r2⟩ := sel_step (t := 16) (ts := [8, 4, 2, 1]) w1 (by omega) (m 16 (by simp)) a1 b1
  obtain ⟨x3, o3, k3, e3, w3, a3, b3, r3⟩ := sel_step (t := 8) (ts := [4, 2, 1]) w2 (by omega) (m 8 (by simp)) a2 b2
  obtain ⟨x4, o4, k4, e4, w4, a4, b4, r4⟩ := sel_step (t := 4) (ts := [2, 1]) w3 (by omega) (m 4 (by simp)) a3 b3
  obtain ⟨x5, o5, k5, e5, w5, a5, b5, r5⟩ := sel_step (t := 2) (ts := [1]) w4 (by omega) (m 2 (by simp)) a4 b4
  obtain ⟨x6, o6, k6, e6, w6, a6, b6, r6⟩ := sel_step (t := 1) (ts := []) w5 (by omega) (m 1 (by simp)) a5 b5
  have hpop := w6.rk (by omega)
  rw [rk_succ, rk_zero] at hpop
  have hbit : w.getMsbD o6 = true := by
    by_contra hc
    simp at hc
    simp [hc] at hpop
    omega
  have hk6 : k6 = 1 := by
    simp [hbit] at hpop; omega
  refine ⟨o6, ?_, BitVec.lt_of_getMsbD hbit, hbit, ?_⟩
  · unfold select64
    have : ((0 : Nat) : Int) - 1 = -1 := by simp
    rw [this] at e1
    rw [e1, e2, e3, e4, e5, e6, selSearchLoop]
    simp [hk6]
  · rw [rk_zero] at r1; omega

end Surf
