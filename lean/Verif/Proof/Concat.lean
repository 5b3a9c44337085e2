import Verif.Proof.RankSelect

/-! # Concatenating the per level bit vectors (bitvector.hpp:141-170) -/

set_option linter.unusedSectionVars false

namespace Surf
variable [Env]

theorem orAt_ok {a : List Word} {k : Nat} {x : Word} (hk : k < a.length) :
    ∃ a', orAt a k x = .ok a' ∧ a'.length = a.length ∧
      ∀ i, bitAt a' i = (bitAt a i || (decide (i / 64 = k) && x.getMsbD (i % 64))) := by
  refine ⟨a.set k (a[k] ||| x), ?_, by simp, ?_⟩
  · simp [orAt, hk]
  · intro i
    unfold bitAt
    by_cases h : i / 64 = k
    · subst h; simp [List.getD, hk]
    · simp [List.getD, h, List.getElem?_set_ne (Ne.symm h)]

theorem orAt_zero (hs : Env.strict = false) {a : List Word} {k : Nat} (hk : a.length ≤ k) :
    orAt a k 0 = .ok a := by
  simp [orAt, hk, hs]

/-- Writing word `w` at the (unaligned) position `64 * wid + sh`. -/
theorem concatWords_ok (sh : Nat) (hsh : sh < 64) (ws bits : List Word) (wid : Nat)
    (hroom : 64 * wid + sh + 64 * ws.length ≤ 64 * bits.length) :
    ∃ bits', concatWords sh ws bits wid = .ok (bits', wid + ws.length) ∧ bits'.length = bits.length ∧
      ∀ i, bitAt bits' i = (bitAt bits i || (decide (64 * wid + sh ≤ i) && bitAt ws (i - (64 * wid + sh)))) := by
  induction ws generalizing bits wid with
  | nil =>
    refine ⟨bits, rfl, rfl, ?_⟩
    intro i; simp [bitAt_ge []]
  | cons w ws ih =>
    simp only [List.length_cons] at hroom
    rw [concatWords]
    obtain ⟨b1, e1, l1, g1⟩ := orAt_ok (a := bits) (k := wid) (x := w >>> sh) (by omega)
    rw [e1, ok_bind]
    dsimp only
    obtain ⟨b2, e2, l2, g2⟩ : ∃ b2, (if sh > 0 then orAt b1 (wid + 1) (w <<< (64 - sh)) else pure b1) = .ok b2 ∧
        b2.length = bits.length ∧
        ∀ i, bitAt b2 i = (bitAt bits i ||
          (decide (64 * wid + sh ≤ i ∧ i < 64 * wid + sh + 64) && w.getMsbD (i - (64 * wid + sh)))) := by
      have h1 : ∀ i, i / 64 = wid → (w >>> sh).getMsbD (i % 64) =
          (decide (64 * wid + sh ≤ i ∧ i < 64 * wid + sh + 64) && w.getMsbD (i - (64 * wid + sh))) := by
        intro i hi
        rw [BitVec.getMsbD_ushiftRight]
        by_cases hc : i % 64 < sh
        · simp [hc, show ¬ (64 * wid + sh ≤ i) by omega]
        · simp [hc, show i % 64 < 64 by omega, show 64 * wid + sh ≤ i by omega, show i < 64 * wid + sh + 64 by omega]
          congr 1; omega
      by_cases hp : sh > 0
      · rw [if_pos hp]
        obtain ⟨b2, e2, l2, g2⟩ := orAt_ok (a := b1) (k := wid + 1) (x := w <<< (64 - sh)) (by omega)
        refine ⟨b2, e2, by omega, ?_⟩
        intro i
        rw [g2, g1]
        by_cases hi : i / 64 = wid
        · rw [h1 i hi]
          simp [hi]
        · by_cases hi2 : i / 64 = wid + 1
          · rw [BitVec.getMsbD_shiftLeft]
            simp only [hi, hi2]
            by_cases hc : i % 64 < sh
            · simp [show 64 * wid + sh ≤ i by omega, show i < 64 * wid + sh + 64 by omega]
              congr 2; omega
            · rw [BitVec.getMsbD_of_ge w (i % 64 + (64 - sh)) (by omega)]
              have hno : ¬ (64 * wid + sh ≤ i ∧ i < 64 * wid + sh + 64) := by omega
              simp [hno]
          · have hno : ¬ (64 * wid + sh ≤ i ∧ i < 64 * wid + sh + 64) := by omega
            simp [hi, hi2, hno]
      · rw [if_neg hp]
        refine ⟨b1, rfl, l1, ?_⟩
        intro i
        rw [g1]
        by_cases hi : i / 64 = wid
        · rw [h1 i hi]; simp [hi]
        · simp [hi]; intros; omega
    have hbr : ∀ (g : List Word → R (List Word × Nat)),
        (if sh > 0 then orAt b1 (wid + 1) (w <<< (64 - sh)) >>= g else pure b1 >>= g) = g b2 := by
      intro g
      split at e2
      · rw [if_pos (by assumption), e2, ok_bind]
      · rw [if_neg (by assumption), e2, ok_bind]
    rw [hbr]
    obtain ⟨b3, e3, l3, g3⟩ := ih b2 (wid + 1) (by omega)
    refine ⟨b3, ?_, by omega, ?_⟩
    · rw [e3]; simp; omega
    · intro i
      rw [g3, g2, Bool.or_assoc]
      congr 1
      by_cases hlo : 64 * wid + sh ≤ i
      · by_cases hhi : i < 64 * wid + sh + 64
        · have := bitAt_word (w :: ws) 0 (j := i - (64 * wid + sh)) (by omega)
          simp only [Nat.mul_zero, Nat.zero_add] at this
          rw [this]
          simp [hlo, hhi]
          intros; omega
        · have e : bitAt (w :: ws) (i - (64 * wid + sh)) = bitAt ws (i - (64 * (wid + 1) + sh)) := by
            unfold bitAt
            rw [show (i - (64 * wid + sh)) / 64 = (i - (64 * (wid + 1) + sh)) / 64 + 1 by omega,
              show (i - (64 * wid + sh)) % 64 = (i - (64 * (wid + 1) + sh)) % 64 by omega]
            simp
          rw [e]
          simp [hlo, hhi]
          intros; omega
      · simp [hlo]
        intros; omega

/-- A level: word vector `ws` holding the `n` bits `xs`, zero padded. -/
structure LevelBits (lv : List Word × Nat) (xs : List Bool) : Prop where
  num : lv.2 = xs.length
  room : xs.length ≤ 64 * lv.1.length
  bit : ∀ i, bitAt lv.1 i = xs.getD i false

omit [Env] in
theorem getD_append_bool (pre xs : List Bool) (i : Nat) :
    (pre ++ xs).getD i false = (pre.getD i false || (decide (pre.length ≤ i) && xs.getD (i - pre.length) false)) := by
  by_cases h : pre.length ≤ i
  · rw [getD_append_ge h]; simp [h]
  · rw [getD_append_lt (by omega)]; simp [h]

omit [Env] in
theorem bitAt_take (ws : List Word) (k i : Nat) (h : i < 64 * k) : bitAt (ws.take k) i = bitAt ws i := by
  unfold bitAt
  have : i / 64 < k := by omega
  simp [List.getD, List.getElem?_take, this]

theorem concatLevels_ok (hs : Env.strict = false) (lvs : List (List Word × Nat)) (xss : List (List Bool))
    (hlv : List.Forall₂ LevelBits lvs xss) (pre : List Bool) (bits : List Word) (wid sh : Nat) (hsh : sh < 64)
    (hpos : 64 * wid + sh = pre.length) (hbit : ∀ i, bitAt bits i = pre.getD i false)
    (hroom : pre.length + xss.flatten.length ≤ 64 * bits.length) :
    ∃ bits', concatLevels lvs bits wid sh = .ok bits' ∧ bits'.length = bits.length ∧
      ∀ i, bitAt bits' i = (pre ++ xss.flatten).getD i false := by
  induction hlv generalizing pre bits wid sh with
  | nil => exact ⟨bits, rfl, rfl, by simpa using hbit⟩
  | @cons lv xs lvs xss h1 h2 ih =>
    obtain ⟨ws, n⟩ := lv
    obtain ⟨hn, hr, hb⟩ := h1
    dsimp only at hn hr hb
    simp only [List.flatten_cons, List.length_append] at hroom
    have happ : pre ++ (xs :: xss).flatten = (pre ++ xs) ++ xss.flatten := by simp
    rw [happ]
    rw [concatLevels]
    by_cases h0 : n = 0
    · rw [if_pos h0]
      have : xs = [] := List.length_eq_zero_iff.mp (by omega)
      subst this
      exact ih pre bits wid sh hsh hpos hbit (by simpa using hroom) |>.imp (by simp)
    · rw [if_neg h0]
      dsimp only
      rw [if_neg (by omega)]
      obtain ⟨b1, e1, l1, g1⟩ := concatWords_ok sh hsh (ws.take (n / 64)) bits wid
        (by rw [List.length_take]; omega)
      rw [e1, ok_bind]
      dsimp only
      have hlt : (ws.take (n / 64)).length = n / 64 := by rw [List.length_take]; omega
      have g1' : ∀ i, bitAt b1 i = (pre ++ xs.take (64 * (n / 64))).getD i false := by
        intro i
        rw [g1, getD_append_bool, hbit, hpos]
        congr 2
        by_cases hi : i - pre.length < 64 * (n / 64)
        · rw [bitAt_take _ _ _ hi, hb]; simp [List.getD, List.getElem?_take, hi]
        · rw [bitAt_ge _ (by rw [hlt]; omega)]; simp [List.getD, List.getElem?_take, hi]
      by_cases hrem : n - n / 64 * 64 > 0
      · rw [if_pos hrem, rdW_ok (by omega), ok_bind]
        set last := ws.getD (n / 64) 0 with hlast
        obtain ⟨b2, e2, l2, g2⟩ := orAt_ok (a := b1) (k := wid + (ws.take (n / 64)).length) (x := last >>> sh)
          (by rw [hlt]; omega)
        rw [e2, ok_bind]
        rw [hlt] at g2 ⊢
        have hlastbit : ∀ j, j < 64 → last.getMsbD j = xs.getD (64 * (n / 64) + j) false := by
          intro j hj
          rw [← hb, bitAt_word _ _ hj]
        have hx : ∀ i, (pre ++ xs).getD i false = (bitAt b1 i ||
            (decide (pre.length + 64 * (n / 64) ≤ i ∧ i < pre.length + 64 * (n / 64) + 64) &&
              last.getMsbD (i - (pre.length + 64 * (n / 64))))) := by
          intro i
          rw [g1', getD_append_bool, getD_append_bool, Bool.or_assoc]
          congr 1
          by_cases hlo : pre.length + 64 * (n / 64) ≤ i
          · have hge : (xs.take (64 * (n / 64))).getD (i - pre.length) false = false := by
              simp [List.getD, List.getElem?_take, show ¬ (i - pre.length < 64 * (n / 64)) by omega]
            rw [hge]
            by_cases hhi : i < pre.length + 64 * (n / 64) + 64
            · rw [hlastbit _ (by omega)]
              simp only [hlo, hhi, show pre.length ≤ i by omega]
              simp
              congr 2; omega
            · simp [hlo, hhi, show pre.length ≤ i by omega, List.getD,
                show xs.length ≤ i - pre.length by omega]
          · by_cases hp : pre.length ≤ i
            · simp [hlo, hp, List.getD, List.getElem?_take, show i - pre.length < 64 * (n / 64) by omega]
            · simp [hlo, hp]
        have g2' : ∀ i, i < 64 * (wid + n / 64 + 1) → bitAt b2 i = (pre ++ xs).getD i false := by
          intro i hi
          rw [g2, hx]
          congr 1
          rw [BitVec.getMsbD_ushiftRight]
          by_cases hlo : pre.length + 64 * (n / 64) ≤ i
          · simp [hlo, show i / 64 = wid + n / 64 by omega, show i % 64 < 64 by omega,
              show ¬ i % 64 < sh by omega, show i < pre.length + 64 * (n / 64) + 64 by omega]
            congr 1; omega
          · by_cases hw : i / 64 = wid + n / 64
            · simp [hlo, show i % 64 < sh by omega]
            · simp [hlo, hw]
        have g2'' : ∀ i, 64 * (wid + n / 64 + 1) ≤ i → bitAt b2 i = bitAt b1 i := by
          intro i hi
          rw [g2]; simp [show ¬ i / 64 = wid + n / 64 by omega]
        have hfl : (xs ++ xss.flatten).length = xs.length + xss.flatten.length := List.length_append
        by_cases hsmall : sh + (n - n / 64 * 64) < 64
        · rw [if_pos hsmall]
          obtain ⟨b3, e3, l3, g3⟩ := ih (pre ++ xs) b2 (wid + n / 64) (sh + (n - n / 64 * 64)) hsmall
            (by rw [List.length_append]; omega)
            (by
              intro i
              by_cases hi : i < 64 * (wid + n / 64 + 1)
              · exact g2' i hi
              · rw [g2'' i (by omega), g1']
                rw [getD_ge (by rw [List.length_append, List.length_take]; omega),
                  getD_ge (by rw [List.length_append]; omega)])
            (by rw [List.length_append]; omega)
          exact ⟨b3, e3, by omega, g3⟩
        · rw [if_neg hsmall]
          have hshpos : 0 < sh := by omega
          rw [shlW, if_pos (by omega), ok_bind]
          obtain ⟨b3, e3, l3, g3⟩ : ∃ b3, orAt b2 (wid + n / 64 + 1) (last <<< (64 - sh)) = .ok b3 ∧
              b3.length = b2.length ∧ ∀ i, bitAt b3 i = (pre ++ xs).getD i false := by
            by_cases hin : wid + n / 64 + 1 < b2.length
            · obtain ⟨b3, e3, l3, g3⟩ := orAt_ok (a := b2) (k := wid + n / 64 + 1) (x := last <<< (64 - sh)) hin
              refine ⟨b3, e3, l3, ?_⟩
              intro i
              rw [g3]
              by_cases hi : i < 64 * (wid + n / 64 + 1)
              · rw [g2' i hi]; simp [show ¬ i / 64 = wid + n / 64 + 1 by omega]
              · rw [g2'' i (by omega), hx]
                congr 1
                by_cases hw : i / 64 = wid + n / 64 + 1
                · rw [BitVec.getMsbD_shiftLeft]
                  by_cases hc : i % 64 < sh
                  · simp [hw, show pre.length + 64 * (n / 64) ≤ i by omega,
                      show i < pre.length + 64 * (n / 64) + 64 by omega]
                    congr 1; omega
                  · rw [BitVec.getMsbD_of_ge last (i % 64 + (64 - sh)) (by omega)]
                    have hno : ¬ (pre.length + 64 * (n / 64) ≤ i ∧ i < pre.length + 64 * (n / 64) + 64) := by omega
                    simp [hno]
                · have hno : ¬ (pre.length + 64 * (n / 64) ≤ i ∧ i < pre.length + 64 * (n / 64) + 64) := by omega
                  simp [hw, hno]
            · have hz : last <<< (64 - sh) = 0 := by
                apply eq_zero_of_msb
                intro j hj
                rw [BitVec.getMsbD_shiftLeft]
                by_cases hjj : j + (64 - sh) < 64
                · rw [hlastbit _ hjj]
                  simp [List.getD, show xs.length ≤ 64 * (n / 64) + (j + (64 - sh)) by omega]
                · rw [BitVec.getMsbD_of_ge _ _ (by omega)]
              refine ⟨b2, by rw [hz]; exact orAt_zero hs (by omega), rfl, ?_⟩
              intro i
              by_cases hi : i < 64 * (wid + n / 64 + 1)
              · exact g2' i hi
              · rw [bitAt_ge _ (by omega)]
                rw [getD_ge (by rw [List.length_append]; omega)]
          rw [e3, ok_bind]
          obtain ⟨b4, e4, l4, g4⟩ := ih (pre ++ xs) b3 (wid + n / 64 + 1) (sh + (n - n / 64 * 64) - 64) (by omega)
            (by rw [List.length_append]; omega) g3 (by rw [List.length_append]; omega)
          exact ⟨b4, e4, by omega, g4⟩
      · rw [if_neg hrem]
        have htake : xs.take (64 * (n / 64)) = xs := List.take_of_length_le (by omega)
        rw [htake] at g1'
        obtain ⟨b3, e3, l3, g3⟩ := ih (pre ++ xs) b1 (wid + (ws.take (n / 64)).length) sh hsh
            (by rw [List.length_append, hlt]; omega) g1' (by rw [List.length_append]; omega)
        exact ⟨b3, e3, by omega, g3⟩

omit [Env] in
theorem levels_sum {lvs : List (List Word × Nat)} {xss : List (List Bool)} (hlv : List.Forall₂ LevelBits lvs xss) :
    (lvs.map (·.2)).sum = xss.flatten.length := by
  induction hlv with
  | nil => rfl
  | cons h1 h2 ih => simp only [List.map_cons, List.sum_cons, List.flatten_cons, List.length_append, ih, h1.num]

/-- The constructor of `Bitvector` concatenates its levels. -/
theorem Bitvector.mk'_ok (hs : Env.strict = false) {lvs : List (List Word × Nat)} {xss : List (List Bool)}
    (hlv : List.Forall₂ LevelBits lvs xss) (h32 : xss.flatten.length < M32) :
    ∃ b, Bitvector.mk' lvs = .ok b ∧ b.Rep xss.flatten := by
  have hsum : totalNumBits (lvs.map (·.2)) = xss.flatten.length := by
    unfold totalNumBits
    rw [levels_sum hlv, u32, Nat.mod_eq_of_lt h32]
  unfold Bitvector.mk'
  dsimp only
  set n := totalNumBits (lvs.map (·.2))
  set nw := if n % 64 = 0 then n / 64 else n / 64 + 1 with hnw
  have hroom : n ≤ 64 * nw := by rw [hnw]; split <;> omega
  obtain ⟨bits, e, l, g⟩ := concatLevels_ok hs lvs xss hlv [] (List.replicate nw 0) 0 0 (by omega) rfl
    (by
      intro i
      unfold bitAt
      have : (List.replicate nw (0 : Word)).getD (i / 64) 0 = 0 := by
        simp only [List.getD, List.getElem?_replicate]; split <;> rfl
      rw [this]; simp)
    (by simp only [List.length_nil, List.length_replicate]; omega)
  rw [e, ok_bind]
  refine ⟨_, rfl, ⟨hsum, ?_, by simpa using g⟩⟩
  rw [l, List.length_replicate]
  rfl

end Surf
