import Verif.Proof.Word

/-! # Bit vectors: representation, readBit, successor, predecessor, rank, select -/

namespace Surf

/-! ### The result monad -/

@[simp] theorem ok_bind {α β : Type} (a : α) (f : α → R β) : ((Except.ok a : R α) >>= f) = f a := rfl
@[simp] theorem pure_ok {α : Type} (a : α) : (pure a : R α) = Except.ok a := rfl
@[simp] theorem err_bind {α β : Type} (e : UB) (f : α → R β) :
    ((Except.error e : R α) >>= f) = Except.error e := rfl

theorem ok_congr {α : Type} {a b : α} (h : a = b) : (Except.ok a : R α) = .ok b := by rw [h]

theorem bind_ok_iff {α β : Type} {x : R α} {f : α → R β} {b : β} :
    (x >>= f) = .ok b ↔ ∃ a, x = .ok a ∧ f a = .ok b := by
  cases x with
  | error e => simp
  | ok a => simp

section
variable [Env]

theorem assertR_ok {b : Bool} (h : b = true) : assertR b = .ok () := by simp [assertR, h]

theorem rdW_ok {a : List Word} {i : Nat} (h : i < a.length) : rdW a i = .ok (a.getD i 0) := by
  simp [rdW, List.getD, h]

theorem rdB_ok {a : List UInt8} {i : Nat} (h : i < a.length) : rdB a i = .ok (a.getD i 0) := by
  simp [rdB, List.getD, h]

theorem rdP_ok {a : List Nat} {i : Nat} (h : i < a.length) : rdP a i = .ok (a.getD i 0) := by
  simp [rdP, List.getD, h]

theorem rdW_lenient (hs : Env.strict = false) (a : List Word) (i : Nat) : ∃ w, rdW a i = .ok w := by
  unfold rdW; split
  · exact ⟨_, rfl⟩
  · simp [hs]

theorem rdB_lenient (hs : Env.strict = false) (a : List UInt8) (i : Nat) : ∃ w, rdB a i = .ok w := by
  unfold rdB; split
  · exact ⟨_, rfl⟩
  · simp [hs]

end

theorem M32_eq : M32 = 4294967296 := rfl

theorem sub32_eq {a b : Nat} (h : b ≤ a) (ha : a < M32) : sub32 a b = a - b := by
  simp only [sub32, M32_eq] at *; omega

theorem add32_eq {a b : Nat} (h : a + b < M32) : add32 a b = a + b := by
  simp only [add32, u32, M32_eq] at *; omega

theorem mul32_eq {a b : Nat} (h : a * b < M32) : mul32 a b = a * b := by
  simp only [mul32, u32, M32_eq] at *; exact Nat.mod_eq_of_lt h

/-- Bit `i` (MSB first) of a word array; `false` past the end. -/
def bitAt (ws : List Word) (i : Nat) : Bool := (ws.getD (i / 64) 0).getMsbD (i % 64)

theorem bitAt_word (ws : List Word) (a : Nat) {j : Nat} (hj : j < 64) :
    bitAt ws (64 * a + j) = (ws.getD a 0).getMsbD j := by
  unfold bitAt
  rw [show (64 * a + j) / 64 = a by omega, show (64 * a + j) % 64 = j by omega]

theorem bitAt_ge (ws : List Word) {i : Nat} (h : 64 * ws.length ≤ i) : bitAt ws i = false := by
  unfold bitAt
  have : ws.length ≤ i / 64 := by omega
  simp [List.getD, this]

theorem rk_word (ws : List Word) (a : Nat) {b : Nat} (hb : b ≤ 64) :
    rk (bitAt ws) (64 * a + b) = rk (bitAt ws) (64 * a) + rk (ws.getD a 0).getMsbD b := by
  rw [rk_add]; congr 1
  apply rk_congr; intro i hi
  exact bitAt_word ws a (by omega)

theorem rk_full_word (ws : List Word) (a : Nat) :
    rk (bitAt ws) (64 * (a + 1)) = rk (bitAt ws) (64 * a) + popcount (ws.getD a 0) := by
  rw [show 64 * (a + 1) = 64 * a + 64 by omega, rk_word ws a (le_refl _), popcount_eq]

/-- Bit vector `b` holds exactly the bits `xs` (with zero padding up to a whole word). -/
structure Bitvector.Rep (b : Bitvector) (xs : List Bool) : Prop where
  num : b.numBits = xs.length
  len : b.bits.length = b.numWords
  bit : ∀ i, bitAt b.bits i = xs.getD i false

namespace Bitvector
variable {b : Bitvector} {xs : List Bool}

theorem numWords_bounds (b : Bitvector) :
    b.numBits ≤ 64 * b.numWords ∧ 64 * b.numWords < b.numBits + 64 := by
  unfold numWords; split <;> omega

theorem Rep.len_bounds (h : b.Rep xs) :
    xs.length ≤ 64 * b.bits.length ∧ 64 * b.bits.length < xs.length + 64 := by
  have := numWords_bounds b
  rw [h.len, ← h.num]; exact this

theorem Rep.rk_eq (h : b.Rep xs) (n : Nat) : rk (bitAt b.bits) n = rk (fun i => xs.getD i false) n :=
  rk_congr fun i _ => h.bit i

end Bitvector

theorem rk_list (xs : List Bool) (n : Nat) :
    rk (fun i => xs.getD i false) n = (xs.take n).count true := by
  induction n generalizing xs with
  | zero => simp [rk_zero]
  | succ n ih =>
    cases xs with
    | nil =>
      rw [rk_eq_zero]
      · simp
      · intro i _; simp
    | cons x xs =>
      rw [show n + 1 = 1 + n by omega, rk_add]
      have e : (fun i => (x :: xs).getD (1 + i) false) = fun i => xs.getD i false := by
        funext i; rw [Nat.add_comm]; simp [List.getD]
      rw [e, ih, rk_succ, rk_zero, Nat.add_comm 1 n]
      simp only [List.getD_cons_zero, List.take_succ_cons, List.count_cons]
      cases x <;> simp <;> omega

set_option linter.unusedSectionVars false

namespace Bitvector
variable [Env] {b : Bitvector} {xs : List Bool}

theorem readBit_ok (h : b.Rep xs) {pos : Nat} (hp : pos < xs.length) :
    b.readBit pos = .ok (xs.getD pos false) := by
  have hl := h.len_bounds
  have hn := h.num
  unfold readBit
  rw [assertR_ok (by simp; omega), ok_bind, rdW_ok (by omega), ok_bind, testMsb_eq _ (by omega)]
  rw [← h.bit]; rfl

/-- Reading just past the end is in range when the last word is not full. -/
theorem readBit_end (h : b.Rep xs) (hx : xs.length % 64 ≠ 0) :
    b.readBit xs.length = .ok false := by
  have hl := h.len_bounds
  have hn := h.num
  unfold readBit
  rw [assertR_ok (by simp; omega), ok_bind, rdW_ok (by omega), ok_bind, testMsb_eq _ (by omega)]
  have := h.bit xs.length
  simp [bitAt] at this
  simp [this]

/-! ### Successor -/

omit [Env] in
theorem getD_shl_zero {ws : List Word} {wid off : Nat} (hz : (ws.getD wid 0) <<< off = 0) (j : Nat)
    (h1 : 64 * wid + off ≤ j) (h2 : j < 64 * (wid + 1)) : bitAt ws j = false := by
  obtain ⟨i, rfl⟩ : ∃ i, j = 64 * wid + i := ⟨j - 64 * wid, by omega⟩
  rw [bitAt_word ws wid (by omega)]
  have := congrArg (fun w => w.getMsbD (i - off)) hz
  simp only [BitVec.getMsbD_shiftLeft] at this
  rw [show i - off + off = i by omega] at this
  simpa using this

theorem nextLoop_some (hlen : b.bits.length = b.numWords) (h32 : b.numWords < M32) {q : Nat}
    (hq : bitAt b.bits q = true) (fuel wid dist : Nat) (hw : 64 * (wid + 1) ≤ q)
    (hz : ∀ j, 64 * (wid + 1) ≤ j → j < q → bitAt b.bits j = false)
    (hf : b.numWords ≤ fuel + wid) :
    nextLoop b fuel wid dist = .ok (dist + (q - 64 * (wid + 1))) := by
  have hqlen : q < 64 * b.bits.length := by
    by_contra hc
    rw [bitAt_ge _ (by omega)] at hq; cases hq
  induction fuel generalizing wid dist with
  | zero => omega
  | succ fuel ih =>
    rw [nextLoop]
    have hs : sub32 b.numWords 1 = b.numWords - 1 := sub32_eq (by omega) h32
    dsimp only
    rw [hs, if_pos (by omega), rdW_ok (by omega), ok_bind]
    by_cases hne : b.bits.getD (wid + 1) 0 = 0
    · rw [if_neg (by simpa using hne)]
      have hnq : 64 * (wid + 1 + 1) ≤ q := by
        by_contra hc
        have := getD_shl_zero (off := 0) (by simpa using hne) q (by omega) (by omega)
        rw [this] at hq; cases hq
      rw [ih (wid + 1) (dist + 64) hnq (fun j h1 h2 => hz j (by omega) h2) (by omega)]
      exact ok_congr (by omega)
    · rw [if_pos (by simpa using hne)]
      obtain ⟨c1, c2, c3⟩ := clz_spec hne
      have hb := bitAt_word b.bits (wid + 1) c1
      rw [c2] at hb
      have : q = 64 * (wid + 1) + clz (b.bits.getD (wid + 1) 0) := by
        rcases Nat.lt_trichotomy q (64 * (wid + 1) + clz (b.bits.getD (wid + 1) 0)) with hl | he | hl
        · have := bitAt_word b.bits (wid + 1) (j := q - 64 * (wid + 1)) (by omega)
          rw [show 64 * (wid + 1) + (q - 64 * (wid + 1)) = q by omega, hq, c3 _ (by omega)] at this
          cases this
        · exact he
        · rw [hz _ (by omega) hl] at hb; cases hb
      rw [this]; simp

theorem nextLoop_none (hlen : b.bits.length = b.numWords) (h32 : b.numWords < M32)
    (fuel wid dist : Nat) (hw : wid < b.numWords)
    (hz : ∀ j, 64 * (wid + 1) ≤ j → bitAt b.bits j = false)
    (hf : b.numWords ≤ fuel + wid) :
    nextLoop b fuel wid dist = .ok (dist + 64 * (b.numWords - 1 - wid)) := by
  induction fuel generalizing wid dist with
  | zero => omega
  | succ fuel ih =>
    rw [nextLoop]
    have hs : sub32 b.numWords 1 = b.numWords - 1 := sub32_eq (by omega) h32
    dsimp only
    rw [hs]
    by_cases hl : wid < b.numWords - 1
    · have h0 : b.bits.getD (wid + 1) 0 = 0 := by
        apply eq_zero_of_msb
        intro i hi
        rw [← bitAt_word b.bits (wid + 1) hi]
        exact hz _ (by omega)
      rw [if_pos hl, rdW_ok (by omega), ok_bind, if_neg (by simpa using h0),
        ih (wid + 1) (dist + 64) (by omega) (fun j h1 => hz j (by omega)) (by omega)]
      exact ok_congr (by omega)
    · rw [if_neg hl]; simp; omega

/-- `distanceToNextSetBit` when there is a next one bit (at `q`); `start = pos + 1` in 32-bit
arithmetic. -/
theorem distNext_some (h : b.Rep xs) (h32 : xs.length < M32) {pos q : Nat}
    (ha : pos < xs.length ∨ Env.ndebug = true)
    (hq : xs.getD q false = true) (hs : add32 pos 1 ≤ q)
    (hz : ∀ j, add32 pos 1 ≤ j → j < q → xs.getD j false = false) :
    b.distanceToNextSetBit pos = .ok (q - add32 pos 1 + 1) := by
  have hl := h.len_bounds
  have hn := h.num
  have hlen := h.len
  have hM : M32 = 4294967296 := rfl
  have hqx : q < xs.length := by
    by_contra hc
    simp [List.getD, Nat.le_of_not_lt hc] at hq
  rw [← h.bit] at hq
  have hz' : ∀ j, add32 pos 1 ≤ j → j < q → bitAt b.bits j = false := by
    intro j h1 h2; rw [h.bit]; exact hz j h1 h2
  unfold distanceToNextSetBit
  have has : assertR (decide (pos < b.numBits)) = .ok () := by
    rcases ha with ha | ha
    · apply assertR_ok; simp; omega
    · simp [assertR, ha]
  rw [has, ok_bind]
  generalize hst : add32 pos 1 = st at *
  dsimp only
  rw [rdW_ok (by omega), ok_bind]
  by_cases hne : (b.bits.getD (st / 64) 0) <<< (st % 64) = 0
  · rw [if_neg (by simpa using hne)]
    have hnq : 64 * (st / 64 + 1) ≤ q := by
      by_contra hc
      have := getD_shl_zero hne q (by omega) (by omega)
      rw [this] at hq; cases hq
    have hsub : sub32 b.numWords 1 = b.numWords - 1 := sub32_eq (by omega) (by omega)
    rw [if_neg (by rw [hsub]; omega)]
    rw [nextLoop_some hlen (by omega) hq _ _ _ hnq (fun j h1 h2 => hz' j (by omega) h2) (by omega)]
    exact ok_congr (by omega)
  · rw [if_pos (by simpa using hne)]
    obtain ⟨c1, c2, c3⟩ := clz_spec hne
    simp only [BitVec.getMsbD_shiftLeft] at c2 c3
    set c := clz (b.bits.getD (st / 64) 0 <<< (st % 64)) with hc
    have hcm : st % 64 + c < 64 := by
      have := BitVec.lt_of_getMsbD c2; omega
    have hb := bitAt_word b.bits (st / 64) hcm
    rw [show st % 64 + c = c + st % 64 by omega, c2] at hb
    have : q = st + c := by
      rcases Nat.lt_trichotomy q (st + c) with hlt | he | hlt
      · have h3 := c3 (q - st) (by omega)
        have := bitAt_word b.bits (st / 64) (j := st % 64 + (q - st)) (by omega)
        rw [show 64 * (st / 64) + (st % 64 + (q - st)) = q by omega, hq] at this
        rw [show q - st + st % 64 = st % 64 + (q - st) by omega, ← this] at h3
        simp at h3
      · exact he
      · rw [hz' _ (by omega) (by omega)] at hb; cases hb
    rw [this]; simp; omega

/-- `distanceToNextSetBit` when no one bit follows: the distance to the end of the vector if `pos + 1`
lies in the last word, but the distance to the end of the *padding* otherwise. -/
theorem distNext_none (h : b.Rep xs) (h32 : xs.length < M32) {pos : Nat}
    (hp : pos + 1 < 64 * b.bits.length) (hpx : pos < xs.length)
    (hz : ∀ j, pos + 1 ≤ j → xs.getD j false = false) :
    b.distanceToNextSetBit pos =
      .ok (if (pos + 1) / 64 + 1 = b.bits.length then xs.length - pos
           else 64 * b.bits.length - pos) := by
  have hl := h.len_bounds
  have hn := h.num
  have hlen := h.len
  have hM : M32 = 4294967296 := rfl
  have hz' : ∀ j, pos + 1 ≤ j → bitAt b.bits j = false := by
    intro j h1; rw [h.bit]; exact hz j h1
  have hst : add32 pos 1 = pos + 1 := add32_eq (by omega)
  unfold distanceToNextSetBit
  rw [assertR_ok (by simp; omega), ok_bind, hst]
  dsimp only
  rw [rdW_ok (by omega), ok_bind]
  have hne : (b.bits.getD ((pos + 1) / 64) 0) <<< ((pos + 1) % 64) = 0 := by
    apply eq_zero_of_msb
    intro i hi
    rw [BitVec.getMsbD_shiftLeft]
    by_cases h2 : i + (pos + 1) % 64 < 64
    · rw [← bitAt_word b.bits _ h2, hz' _ (by omega)]
    · rw [BitVec.getMsbD_of_ge _ _ (by omega)]
  rw [if_neg (by simpa using hne)]
  have hsub : sub32 b.numWords 1 = b.numWords - 1 := sub32_eq (by omega) (by omega)
  rw [hsub]
  by_cases hlast : (pos + 1) / 64 + 1 = b.bits.length
  · rw [if_pos (by omega), if_pos hlast]
    rw [sub32_eq (by omega) (by omega), hn]; rfl
  · rw [if_neg (by omega), if_neg hlast,
      nextLoop_none hlen (by omega) _ _ _ (by omega) (fun j h1 => hz' j (by omega)) (by omega)]
    exact ok_congr (by omega)

/-- At the very end of a completely filled last word the code reads one word past the array; the result
is some distance between 1 and 65. -/
theorem distNext_end (hs : Env.strict = false) (h : b.Rep xs) (h32 : xs.length < M32) {pos : Nat}
    (hp : pos + 1 = 64 * b.bits.length) (hpx : pos < xs.length) :
    ∃ d, b.distanceToNextSetBit pos = .ok d ∧ 1 ≤ d ∧ d ≤ 65 := by
  have hl := h.len_bounds
  have hn := h.num
  have hlen := h.len
  have hM : M32 = 4294967296 := rfl
  have hst : add32 pos 1 = pos + 1 := add32_eq (by omega)
  unfold distanceToNextSetBit
  rw [assertR_ok (by simp; omega), ok_bind, hst]
  dsimp only
  obtain ⟨w, hw⟩ := rdW_lenient hs b.bits ((pos + 1) / 64)
  rw [hw, ok_bind]
  have hsub : sub32 b.numWords 1 = b.numWords - 1 := sub32_eq (by omega) (by omega)
  by_cases hne : w <<< ((pos + 1) % 64) = 0
  · rw [if_neg (by simpa using hne), if_neg (by rw [hsub]; omega), nextLoop, if_neg (by rw [hsub]; omega)]
    exact ⟨_, rfl, by omega, by omega⟩
  · rw [if_pos (by simpa using hne)]
    have := (clz_spec hne).1
    exact ⟨_, rfl, by omega, by omega⟩

/-! ### Predecessor -/

theorem prevLoop_some (wid dist : Nat) {q : Nat} (hlen : wid ≤ b.bits.length)
    (hq : bitAt b.bits q = true) (hqw : q < 64 * wid)
    (hz : ∀ j, q < j → j < 64 * wid → bitAt b.bits j = false) :
    prevLoop b wid dist = .ok (dist + (64 * wid - 1 - q)) := by
  induction wid generalizing dist with
  | zero => omega
  | succ wid ih =>
    rw [prevLoop, rdW_ok (by omega), ok_bind]
    by_cases hne : b.bits.getD wid 0 = 0
    · rw [if_neg (by simpa using hne)]
      have hqw' : q < 64 * wid := by
        by_contra hc
        have := getD_shl_zero (off := 0) (by simpa using hne) q (by omega) (by omega)
        rw [this] at hq; cases hq
      rw [ih (dist + 64) (by omega) hqw' (fun j h1 h2 => hz j h1 (by omega))]
      exact ok_congr (by omega)
    · rw [if_pos (by simpa using hne)]
      obtain ⟨c1, c2, c3⟩ := ctz_spec hne
      have hmsb : ∀ i, i < 64 → bitAt b.bits (64 * wid + (63 - i)) = (b.bits.getD wid 0).getLsbD i := by
        intro i hi
        rw [bitAt_word _ _ (by omega), BitVec.getMsbD_eq_getLsbD]
        simp [show 63 - i < 64 by omega, show 63 - (63 - i) = i by omega]
      have : q = 64 * wid + (63 - ctz (b.bits.getD wid 0)) := by
        rcases Nat.lt_trichotomy q (64 * wid + (63 - ctz (b.bits.getD wid 0))) with hl | he | hl
        · have := hz _ hl (by omega)
          rw [hmsb _ c1, c2] at this; cases this
        · exact he
        · have := hmsb (63 - (q - 64 * wid)) (by omega)
          rw [show 64 * wid + (63 - (63 - (q - 64 * wid))) = q by omega, hq, c3 _ (by omega)] at this
          cases this
      exact ok_congr (by omega)

theorem prevLoop_none (wid dist : Nat) (hlen : wid ≤ b.bits.length)
    (hz : ∀ j, j < 64 * wid → bitAt b.bits j = false) :
    prevLoop b wid dist = .ok (dist + 64 * wid) := by
  induction wid generalizing dist with
  | zero => simp [prevLoop]
  | succ wid ih =>
    rw [prevLoop, rdW_ok (by omega), ok_bind]
    have h0 : b.bits.getD wid 0 = 0 := by
      apply eq_zero_of_msb
      intro i hi
      rw [← bitAt_word b.bits wid hi]; exact hz _ (by omega)
    rw [if_neg (by simpa using h0), ih (dist + 64) (by omega) (fun j h1 => hz j (by omega))]
    exact ok_congr (by omega)

omit [Env] in
theorem shr_msb {w : Word} {off i : Nat} (ho : off < 64) (hi : i ≤ off) :
    (w >>> (63 - off)).getLsbD i = w.getMsbD (off - i) := by
  rw [BitVec.getLsbD_ushiftRight, BitVec.getMsbD_eq_getLsbD]
  simp [show off - i < 64 by omega]
  congr 1; omega

theorem distPrev_some (h : b.Rep xs) {pos q : Nat} (hp : pos ≤ xs.length)
    (hq : xs.getD q false = true) (hqp : q < pos)
    (hz : ∀ j, q < j → j < pos → xs.getD j false = false) :
    b.distanceToPrevSetBit pos = .ok (pos - q) := by
  have hl := h.len_bounds
  have hn := h.num
  rw [← h.bit] at hq
  have hz' : ∀ j, q < j → j < pos → bitAt b.bits j = false := by
    intro j h1 h2; rw [h.bit]; exact hz j h1 h2
  unfold distanceToPrevSetBit
  rw [assertR_ok (by simp; omega), ok_bind, if_neg (by omega)]
  dsimp only
  rw [rdW_ok (by omega), ok_bind]
  have hbit : ∀ i, i ≤ (pos - 1) % 64 → (b.bits.getD ((pos - 1) / 64) 0 >>> (63 - (pos - 1) % 64)).getLsbD i
      = bitAt b.bits (pos - 1 - i) := by
    intro i hi
    rw [shr_msb (by omega) hi, ← bitAt_word b.bits _ (by omega)]
    congr 1; omega
  by_cases hne : b.bits.getD ((pos - 1) / 64) 0 >>> (63 - (pos - 1) % 64) = 0
  · rw [if_neg (by simpa using hne)]
    have hqw : q < 64 * ((pos - 1) / 64) := by
      by_contra hc
      have := hbit (pos - 1 - q) (by omega)
      rw [hne, show pos - 1 - (pos - 1 - q) = q by omega, hq] at this
      simp at this
    rw [prevLoop_some _ _ (by omega) hq hqw (fun j h1 h2 => hz' j h1 (by omega))]
    exact ok_congr (by omega)
  · rw [if_pos (by simpa using hne)]
    obtain ⟨c1, c2, c3⟩ := ctz_spec hne
    set c := ctz (b.bits.getD ((pos - 1) / 64) 0 >>> (63 - (pos - 1) % 64)) with hc
    have hcle : c ≤ (pos - 1) % 64 := by
      by_contra hgt
      rw [BitVec.getLsbD_ushiftRight] at c2
      have := BitVec.lt_of_getLsbD c2
      omega
    rw [hbit c hcle] at c2
    have : q = pos - 1 - c := by
      rcases Nat.lt_trichotomy q (pos - 1 - c) with hlt | he | hlt
      · rw [hz' _ hlt (by omega)] at c2; cases c2
      · exact he
      · have h3 := c3 (pos - 1 - q) (by omega)
        rw [hbit _ (by omega), show pos - 1 - (pos - 1 - q) = q by omega, hq] at h3
        cases h3
    rw [this]; simp; omega

/-- Without a previous one bit the result is `pos + 1`, i.e. past the start. -/
theorem distPrev_none (h : b.Rep xs) {pos : Nat} (hp : pos ≤ xs.length) (hp0 : 0 < pos)
    (hz : ∀ j, j < pos → xs.getD j false = false) :
    b.distanceToPrevSetBit pos = .ok (pos + 1) := by
  have hl := h.len_bounds
  have hn := h.num
  have hz' : ∀ j, j < pos → bitAt b.bits j = false := by
    intro j h1; rw [h.bit]; exact hz j h1
  unfold distanceToPrevSetBit
  rw [assertR_ok (by simp; omega), ok_bind, if_neg (by omega)]
  dsimp only
  rw [rdW_ok (by omega), ok_bind]
  have hne : b.bits.getD ((pos - 1) / 64) 0 >>> (63 - (pos - 1) % 64) = 0 := by
    apply eq_zero_of_msb
    intro i hi
    rw [BitVec.getMsbD_ushiftRight]
    by_cases h2 : i < 63 - (pos - 1) % 64
    · simp [h2]
    · simp only [h2, decide_false, Bool.not_false, Bool.true_and, hi, decide_true]
      rw [← bitAt_word b.bits _ (by omega), hz' _ (by omega)]
  rw [if_neg (by simpa using hne),
    prevLoop_none _ _ (by omega) (fun j h1 => hz' j (by omega))]
  exact ok_congr (by omega)

end Bitvector
end Surf
