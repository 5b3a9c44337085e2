import Verif.Model.Workload
import Verif.Props.Bench

/-!
# The key files of the benchmark and the selection of keys (C58, C59)
-/

set_option linter.unusedSectionVars false
set_option autoImplicit false
set_option maxRecDepth 1000000

namespace Spec

/-- White space in a text file. -/
def blank (c : UInt8) : Bool := c.toNat ∈ [9, 10, 11, 12, 13, 32]

/-- The words of a text: what is between white space. -/
def words (bytes : Bytes) : List Bytes := (bytes.splitOnP blank).filter (· ≠ [])

/-- The file ends inside a word (there is no line break or other white space behind the last word). -/
def EndsInWord (bytes : Bytes) : Prop := ∃ c, bytes.getLast? = some c ∧ blank c = false

instance (bytes : Bytes) : Decidable (EndsInWord bytes) :=
  match h : bytes.getLast? with
  | none => .isFalse (by rintro ⟨c, e, -⟩; rw [h] at e; cases e)
  | some c => if hb : blank c = false then .isTrue ⟨c, h, hb⟩ else .isFalse (by rintro ⟨d, e, h'⟩; rw [h] at e; cases e; exact hb h')

/-- A word made of decimal digits. -/
def Numeral (wd : Bytes) : Prop := ∀ c ∈ wd, 48 ≤ c.toNat ∧ c.toNat ≤ 57

/-- Its value. -/
def numeralVal : Bytes → Nat
  | [] => 0
  | c :: wd => (c.toNat - 48) * 10 ^ wd.length + numeralVal wd

end Spec

namespace Surf.Props
open Surf Surf.Bench Trie

theorem isSpace_eq : isSpace = Spec.blank := by
  funext c
  rw [Bool.eq_iff_iff]
  simp only [isSpace, Spec.blank, Bool.or_eq_true, Bool.and_eq_true, beq_iff_eq, decide_eq_true_eq, UInt8.le_iff_toNat_le, List.mem_cons, List.not_mem_nil, or_false,
    ← UInt8.toNat_inj]
  change c.toNat = 32 ∨ 9 ≤ c.toNat ∧ c.toNat ≤ 13 ↔ _
  omega

theorem isDigit_iff (c : UInt8) : isDigit c = true ↔ 48 ≤ c.toNat ∧ c.toNat ≤ 57 := by
  simp only [isDigit, Bool.and_eq_true, decide_eq_true_eq, UInt8.le_iff_toNat_le]
  rfl

theorem blank_not_digit {c : UInt8} (h : Spec.blank c = true) : isDigit c = false := by
  rw [← Bool.not_eq_true, isDigit_iff]
  simp only [Spec.blank, List.mem_cons, List.not_mem_nil, or_false, decide_eq_true_eq] at h
  omega

/-! ## Words -/

theorem words_blank {c : UInt8} (h : Spec.blank c = true) (r : Key) : Spec.words (c :: r) = Spec.words r := by
  unfold Spec.words
  rw [List.splitOnP_cons_eq_if_modifyHead, if_pos h]
  simp

theorem words_drop (r : Key) : Spec.words (r.dropWhile Spec.blank) = Spec.words r := by
  induction r with
  | nil => rfl
  | cons c r ih =>
    rw [List.dropWhile_cons]
    split
    · next h => rw [ih, words_blank h]
    · rfl

theorem words_word {wd r : Key} (h0 : wd ≠ []) (h : ∀ c ∈ wd, Spec.blank c = false) (hr : ∀ c, r.head? = some c → Spec.blank c = true) :
    Spec.words (wd ++ r) = wd :: Spec.words r := by
  unfold Spec.words
  cases r with
  | nil =>
    rw [List.append_nil, List.splitOnP_eq_singleton h]
    simp [h0]
  | cons c r =>
    have hc := hr c rfl
    rw [List.splitOnP_append_cons_of_forall_mem h c hc, List.splitOnP_cons_eq_if_modifyHead, if_pos hc]
    simp [h0]

theorem head_dropWhile {p : UInt8 → Bool} {r : Key} {c : UInt8} (h : (r.dropWhile p).head? = some c) : p c = false := by
  induction r with
  | nil => cases h
  | cons a r ih =>
    rw [List.dropWhile_cons] at h
    split at h
    · exact ih h
    · next hp =>
      cases h
      simpa using hp

theorem ends_suffix {bytes r : Key} (h : r <:+ bytes) (hr : r ≠ []) : Spec.EndsInWord bytes ↔ Spec.EndsInWord r := by
  obtain ⟨a, rfl⟩ := h
  unfold Spec.EndsInWord
  rw [List.getLast?_append]
  cases h : r.getLast? with
  | none => exact absurd (List.getLast?_eq_none_iff.1 h) hr
  | some c => simp

theorem drop_nil {p : UInt8 → Bool} {r : Key} (h : r.dropWhile p = []) : ∀ c ∈ r, p c = true := by
  induction r with
  | nil => simp
  | cons a r ih =>
    rw [List.dropWhile_cons] at h
    split at h
    · next hp =>
      intro c hc
      rcases List.mem_cons.1 hc with rfl | hc
      · exact hp
      · exact ih h c hc
    · cases h

theorem mem_takeWhile {p : UInt8 → Bool} {r : Key} {c : UInt8} (h : c ∈ r.takeWhile p) : p c = true :=
  List.all_eq_true.1 List.all_takeWhile c h

theorem ends_blank {bytes : Key} (h : bytes.dropWhile Spec.blank = []) : ¬ Spec.EndsInWord bytes := by
  rintro ⟨c, hc, hb⟩
  have := List.mem_of_getLast? hc
  rw [drop_nil h c this] at hb
  cases hb

/-- What is left of a file with a word in it: the word, and nothing or white space and more. -/
theorem next_word {bytes : Key} (h : bytes.dropWhile Spec.blank ≠ []) :
    ∃ wd r, bytes.dropWhile Spec.blank = wd ++ r ∧ wd ≠ [] ∧ (∀ c ∈ wd, Spec.blank c = false) ∧ (∀ c, r.head? = some c → Spec.blank c = true) ∧
      ((bytes.dropWhile Spec.blank).takeWhile fun c => !Spec.blank c) = wd ∧
      ((bytes.dropWhile Spec.blank).dropWhile fun c => !Spec.blank c) = r ∧ Spec.words bytes = wd :: Spec.words r ∧
      (r = [] → Spec.EndsInWord bytes) ∧ (r ≠ [] → (Spec.EndsInWord bytes ↔ Spec.EndsInWord r)) := by
  generalize hrr : bytes.dropWhile Spec.blank = rr at *
  have hsuf : rr <:+ bytes := hrr ▸ List.dropWhile_suffix _
  have hsp := List.takeWhile_append_dropWhile (p := fun c => !Spec.blank c) (l := rr)
  have hwd : ∀ c ∈ rr.takeWhile fun c => !Spec.blank c, Spec.blank c = false := fun c hc => by
    simpa using mem_takeWhile hc
  have hne : (rr.takeWhile fun c => !Spec.blank c) ≠ [] := by
    intro hc
    cases rr with
    | nil => exact h rfl
    | cons a rr =>
      have := head_dropWhile (c := a) (by rw [hrr]; rfl)
      rw [List.takeWhile_cons, this] at hc
      simp at hc
  have hr : ∀ c, (rr.dropWhile fun c => !Spec.blank c).head? = some c → Spec.blank c = true := fun c hc => by
    simpa using head_dropWhile hc
  refine ⟨_, _, hsp.symm, hne, hwd, hr, rfl, rfl, ?_, fun h0 => ?_, fun h0 => ends_suffix ((List.dropWhile_suffix _).trans hsuf) h0⟩
  · rw [← words_drop bytes, hrr]
    conv_lhs => rw [← hsp]
    exact words_word hne hwd hr
  · rw [ends_suffix hsuf h]
    rw [h0, List.append_nil] at hsp
    rw [hsp] at hwd
    cases hl : rr.getLast? with
    | none => exact absurd (List.getLast?_eq_none_iff.1 hl) h
    | some c => exact ⟨c, hl, hwd c (List.mem_of_getLast? hl)⟩

/-! ## Text files -/

theorem loop_stop (n : Nat) (rest key : Key) : loadTextLoop n ⟨rest, false⟩ key = [] := by cases n <;> rfl

theorem loadTextLoop_eq (n : Nat) (bytes key : Key) :
    loadTextLoop n ⟨bytes, true⟩ key =
      (Spec.words bytes ++ if Spec.EndsInWord bytes then [] else [(Spec.words bytes).getLastD key]).take n := by
  induction n generalizing bytes key with
  | zero => simp [loadTextLoop]
  | succ n ih =>
    rw [loadTextLoop, if_pos rfl]
    unfold readWord
    dsimp only
    rw [isSpace_eq]
    simp only [Bool.not_true, Bool.false_eq_true, if_false]
    by_cases h : bytes.dropWhile Spec.blank = []
    · rw [if_pos h]
      dsimp only
      have h0 : Spec.words bytes = [] := by rw [← words_drop, h]; rfl
      rw [loop_stop, h0, if_neg (ends_blank h)]
      simp
    · rw [if_neg h]
      obtain ⟨wd, r, -, -, -, -, ht, hd, hw, h1, h2⟩ := next_word h
      rw [ht, hd, hw]
      dsimp only
      by_cases hr : r = []
      · subst hr
        rw [if_pos (h1 rfl)]
        simp only [ne_eq, not_true_eq_false, decide_false]
        rw [loop_stop]
        simp [Spec.words]
      · simp only [ne_eq, hr, not_false_eq_true, decide_true]
        rw [ih r wd]
        by_cases he : Spec.EndsInWord r
        · rw [if_pos he, if_pos ((h2 hr).2 he)]; rfl
        · rw [if_neg he, if_neg (fun hc => he ((h2 hr).1 hc))]
          rw [List.getLastD_eq_getLast?, List.getLastD_eq_getLast?, List.getLast?_cons]
          simp

/-! ## Number files -/

theorem digitsVal_acc (wd : Key) (a : Nat) :
    wd.foldl (fun a c => 10 * a + (c.toNat - 48)) a = a * 10 ^ wd.length + Spec.numeralVal wd := by
  induction wd generalizing a with
  | nil => simp [Spec.numeralVal]
  | cons c wd ih =>
    rw [List.foldl_cons, ih, Spec.numeralVal, List.length_cons, Nat.pow_succ]
    ring

theorem digitsVal_eq (wd : Key) : digitsVal wd = Spec.numeralVal wd := by
  unfold digitsVal
  rw [digitsVal_acc]
  simp

theorem takeWhile_word {wd r : Key} (h : Spec.Numeral wd) (hr : ∀ c, r.head? = some c → Spec.blank c = true) :
    (wd ++ r).takeWhile isDigit = wd ∧ (wd ++ r).dropWhile isDigit = r := by
  have h1 : ∀ c ∈ wd, isDigit c = true := fun c hc => (isDigit_iff c).2 (h c hc)
  rw [List.takeWhile_append_of_pos h1, List.dropWhile_append_of_pos h1]
  cases r with
  | nil => simp
  | cons c r =>
    have := blank_not_digit (hr c rfl)
    simp [List.takeWhile_cons, List.dropWhile_cons, this]

section
variable [Env]

theorem readInt_word {bytes : Key} (before : List Word) (h : bytes.dropWhile Spec.blank ≠ [])
    (hn : ∀ wd ∈ Spec.words bytes, Spec.Numeral wd ∧ Spec.numeralVal wd < 2 ^ 64) :
    ∃ wd r, Spec.words bytes = wd :: Spec.words r ∧ (r = [] → Spec.EndsInWord bytes) ∧ (r ≠ [] → (Spec.EndsInWord bytes ↔ Spec.EndsInWord r)) ∧
      readInt ⟨bytes, true⟩ before = .ok (BitVec.ofNat 64 (Spec.numeralVal wd), ⟨r, decide (r ≠ [])⟩) := by
  obtain ⟨wd, r, hb, h0, -, hr, -, -, hw, h1, h2⟩ := next_word h
  obtain ⟨hnum, hval⟩ := hn wd (by rw [hw]; simp)
  refine ⟨wd, r, hw, h1, h2, ?_⟩
  obtain ⟨ht, hd⟩ := takeWhile_word hnum hr
  unfold readInt
  dsimp only
  rw [isSpace_eq, hb]
  have hne : ¬ ((!true) || decide (wd ++ r = [])) = true := by simp [h0]
  rw [if_neg hne]
  have hhd : ∃ c wd', wd = c :: wd' ∧ 48 ≤ c.toNat := by
    cases wd with
    | nil => exact absurd rfl h0
    | cons c wd' => exact ⟨c, wd', rfl, (hnum c (by simp)).1⟩
  have hneg : ((wd ++ r).head? == some 45) = false ∧ ((wd ++ r).head? == some 43) = false := by
    obtain ⟨c, wd', rfl, hc⟩ := hhd
    simp only [List.cons_append, List.head?_cons, Option.some_beq_some, beq_eq_false_iff_ne, ne_eq]
    constructor <;> (rintro rfl; exact absurd hc (by decide))
  rw [hneg.1, hneg.2]
  simp only [Bool.or_false, Bool.false_eq_true, if_false]
  rw [ht, hd, if_neg h0, digitsVal_eq, if_neg (by omega)]

theorem intLoop_stop (n : Nat) (rest : Key) (before : List Word) : loadIntLoop n ⟨rest, false⟩ before = .ok before := by cases n <;> rfl

theorem loadIntLoop_eq (n : Nat) (bytes : Key) (before : List Word)
    (hn : ∀ wd ∈ Spec.words bytes, Spec.Numeral wd ∧ Spec.numeralVal wd < 2 ^ 64) :
    loadIntLoop n ⟨bytes, true⟩ before =
      let all := before ++ (Spec.words bytes).map fun wd => BitVec.ofNat 64 (Spec.numeralVal wd)
      if Spec.EndsInWord bytes ∨ n ≤ (Spec.words bytes).length then .ok (all.take (before.length + n))
      else if Env.strict then .error .oobRead
      else .ok (all ++ [Env.junkW all all.length]) := by
  induction n generalizing bytes before with
  | zero => simp [loadIntLoop]
  | succ n ih =>
    rw [loadIntLoop, if_pos rfl]
    by_cases h : bytes.dropWhile Spec.blank = []
    · have h0 : Spec.words bytes = [] := by rw [← words_drop, h]; rfl
      rw [h0]
      dsimp only
      rw [if_neg (by simp [ends_blank h]), List.map_nil, List.append_nil]
      unfold readInt
      dsimp only
      rw [isSpace_eq, h, if_pos (by simp)]
      cases hs : Env.strict
      · simp only [Bool.false_eq_true, if_false]
        rw [ok_bind]
        exact intLoop_stop _ _ _
      · rfl
    · obtain ⟨wd, r, hw, h1, h2, e⟩ := readInt_word before h hn
      rw [e, ok_bind, hw]
      dsimp only
      by_cases hr : r = []
      · subst hr
        simp only [ne_eq, not_true_eq_false, decide_false]
        rw [intLoop_stop, if_pos (Or.inl (h1 rfl))]
        simp [Spec.words]
      · simp only [ne_eq, hr, not_false_eq_true, decide_true]
        rw [ih r _ (fun x hx => hn x (by rw [hw]; exact List.mem_cons_of_mem _ hx))]
        dsimp only
        simp only [h2 hr, List.length_cons, Nat.add_le_add_iff_right, List.map_cons, List.length_append, List.length_nil, List.append_assoc, List.cons_append,
          List.nil_append]
        rw [show before.length + (0 + 1) + n = before.length + (n + 1) by omega]

/-! ## C58 -/

/-- The keys read from a file.  Text: the words of the file if it ends inside a word; otherwise the last word is read a second time (the empty
string if the file has no words).  Numbers: their values if the file ends inside a word; otherwise one more key, from an uninitialised variable, which
is an error in strict mode.  A file that cannot be opened has no keys.  The programs that write these files end every line with a line break
(workload_gen/gen_load.py, gen_txn.py). -/
theorem C58_partial :
    (∀ bytes, loadText (some bytes) =
      (Spec.words bytes ++ if Spec.EndsInWord bytes then [] else [(Spec.words bytes).getLastD []]).take 25000000) ∧
    loadText none = [] ∧
    (∀ bytes, (∀ wd ∈ Spec.words bytes, Spec.Numeral wd ∧ Spec.numeralVal wd < 2 ^ 64) → (Spec.words bytes).length < 100000000 →
      let ns := (Spec.words bytes).map fun wd => BitVec.ofNat 64 (Spec.numeralVal wd)
      (Spec.EndsInWord bytes → loadInts (some bytes) = .ok (ns.map uint64ToString)) ∧
      (¬ Spec.EndsInWord bytes → Env.strict = true → loadInts (some bytes) = .error .oobRead) ∧
      (¬ Spec.EndsInWord bytes → Env.strict = false →
        loadInts (some bytes) = .ok ((ns ++ [Env.junkW ns ns.length]).map uint64ToString))) ∧
    loadInts none = .ok [] := by
  refine ⟨fun bytes => loadTextLoop_eq _ _ _, loop_stop _ _ _, fun bytes hn hl => ?_, ?_⟩
  · have e := loadIntLoop_eq kNumIntRecords bytes [] hn
    have hk : kNumIntRecords = 100000000 := rfl
    dsimp only at e ⊢
    rw [List.nil_append] at e
    generalize hns : ((Spec.words bytes).map fun wd => BitVec.ofNat 64 (Spec.numeralVal wd)) = ns at *
    have hlen : ns.length = (Spec.words bytes).length := by rw [← hns, List.length_map]
    refine ⟨fun he => ?_, fun he hs => ?_, fun he hs => ?_⟩
    · rw [if_pos (Or.inl he), List.take_of_length_le (by simp only [List.length_nil]; omega)] at e
      unfold loadInts Stream.open'
      rw [e]; rfl
    · rw [if_neg (by rintro (h | h); exact he h; omega), if_pos hs] at e
      unfold loadInts Stream.open'
      rw [e]; rfl
    · rw [if_neg (by rintro (h | h); exact he h; omega), if_neg (by simp [hs])] at e
      unfold loadInts Stream.open'
      rw [e]; rfl
  · unfold loadInts Stream.open'
    rw [intLoop_stop]; rfl

end

/-! ## C59 -/

theorem keys_le_trans {a b c : Key} (h1 : a ≤ b) (h2 : b ≤ c) : a ≤ c := by
  rw [← List.not_lt, ← w_lt, not_lt] at *
  exact le_trans h1 h2

theorem keys_le_total (a b : Key) : a ≤ b ∨ b ≤ a := by
  rw [← List.not_lt, ← w_lt, not_lt, ← List.not_lt, ← w_lt, not_lt]
  exact le_total _ _

/-- The lists of keys that `selectKeysToInsert` can choose from `keys` are the sorted lists of `percent` per cent of them, rounded down, in which no key
occurs more often than in `keys`; the order of the shuffle decides which of them it is. -/
theorem C59 (keys : List Key) (percent : Nat) (hp : percent ≤ 100) (hn : keys.length * percent < 2 ^ 64) (sel : List Key) :
    (∃ shuffled, shuffled.Perm keys ∧ selectKeysToInsert percent shuffled = sel) ↔
      sel.Pairwise (· ≤ ·) ∧ (∀ k, sel.count k ≤ keys.count k) ∧ sel.length = keys.length * percent / 100 := by
  have hle : keys.length * percent / 100 ≤ keys.length := by
    have := Nat.mul_le_mul_left keys.length hp
    omega
  constructor
  · rintro ⟨sh, hperm, rfl⟩
    unfold selectKeysToInsert
    dsimp only
    rw [hperm.length_eq, Nat.mod_eq_of_lt hn]
    refine ⟨?_, fun k => ?_, ?_⟩
    · have := List.pairwise_mergeSort (le := fun a b : Key => decide (a ≤ b)) (fun a b c h1 h2 => by
        simp only [decide_eq_true_eq] at *
        exact keys_le_trans h1 h2) (fun a b => by
        simp only [Bool.or_eq_true, decide_eq_true_eq]
        exact keys_le_total a b) (sh.take (keys.length * percent / 100))
      exact this.imp fun h => by simpa using h
    · rw [(List.mergeSort_perm _ _).count_eq, ← hperm.count_eq]
      exact (List.take_sublist _ _).count_le _
    · rw [List.length_mergeSort, List.length_take, hperm.length_eq]
      omega
  · rintro ⟨hs, hc, hl⟩
    have hsub : sel.Subperm keys := List.subperm_ext_iff.2 fun k _ => hc k
    obtain ⟨l, hlp, hls⟩ := hsub
    obtain ⟨m, hm⟩ := hls.exists_perm_append
    refine ⟨sel ++ m, (hm.trans (hlp.append_right m)).symm, ?_⟩
    have hperm : (sel ++ m).Perm keys := (hm.trans (hlp.append_right m)).symm
    unfold selectKeysToInsert
    dsimp only
    rw [hperm.length_eq, Nat.mod_eq_of_lt hn, ← hl, List.take_left]
    exact List.mergeSort_of_pairwise (hs.imp fun h => by simpa using h)

/-- A filter can be built from the selection (it is sorted and has a key) if and only if `percent` per cent of the keys are at least one key. -/
theorem C59_valid (keys : List Key) (percent : Nat) (hp : percent ≤ 100) (hn : keys.length * percent < 2 ^ 64) (h0 : ∀ k ∈ keys, k ≠ [])
    {shuffled : List Key} (h : shuffled.Perm keys) :
    Spec.Valid (selectKeysToInsert percent shuffled) ↔ 100 ≤ keys.length * percent := by
  obtain ⟨h1, h2, h3⟩ := (C59 keys percent hp hn _).1 ⟨shuffled, h, rfl⟩
  constructor
  · intro hv
    have := List.length_pos_iff.2 hv.ne
    omega
  · intro hc
    refine ⟨List.length_pos_iff.1 (by omega), h1, fun k hk => h0 k ?_⟩
    have := h2 k
    have := List.count_pos_iff.2 hk
    exact List.count_pos_iff.1 (by omega)

/-! ## Examples and refutations -/

/-- Two lines with a line break behind each: the second word is loaded twice, and the variable for the third number is uninitialised. -/
theorem C58_refuted :
    Spec.words [97, 10, 98, 99, 10] = [[97], [98, 99]] ∧ loadText (some [97, 10, 98, 99, 10]) = [[97], [98, 99], [98, 99]] ∧
    Spec.words [49, 10, 50, 10] = [[49], [50]] ∧ Spec.numeralVal [50] = 2 ∧
    @loadInts Env.iso (some [49, 10, 50, 10]) = .error .oobRead ∧
    @loadInts Env.x86 (some [49, 10, 50, 10]) = .ok [uint64ToString 1#64, uint64ToString 2#64, uint64ToString 0#64] := by
  have hw1 : Spec.words [97, 10, 98, 99, 10] = [[97], [98, 99]] := by decide +kernel
  have hw2 : Spec.words [49, 10, 50, 10] = [[49], [50]] := by decide +kernel
  have hnum : ∀ wd ∈ Spec.words [49, 10, 50, 10], Spec.Numeral wd ∧ Spec.numeralVal wd < 2 ^ 64 := by
    rw [hw2]
    intro wd hwd
    simp only [List.mem_cons, List.not_mem_nil, or_false] at hwd
    rcases hwd with rfl | rfl <;> refine ⟨fun c hc => ?_, by decide⟩ <;> simp only [List.mem_cons, List.not_mem_nil, or_false] at hc <;> subst hc <;> decide
  have hlen : (Spec.words [49, 10, 50, 10]).length < 100000000 := by rw [hw2]; decide
  refine ⟨hw1, ?_, hw2, by decide, ?_, ?_⟩
  · rw [(@C58_partial Env.x86).1, hw1, if_neg (by decide +kernel)]
    decide +kernel
  · exact ((@C58_partial Env.iso).2.2.1 _ hnum hlen).2.1 (by decide +kernel) rfl
  · rw [((@C58_partial Env.x86).2.2.1 _ hnum hlen).2.2 (by decide +kernel) rfl, hw2]
    decide +kernel

/-- A file that ends inside a word is loaded as it is. -/
theorem C58_example : Spec.EndsInWord [97, 10, 98, 99] ∧ loadText (some [97, 10, 98, 99]) = [[97], [98, 99]] := by
  refine ⟨by decide +kernel, ?_⟩
  rw [(@C58_partial Env.x86).1, if_pos (by decide +kernel)]
  decide +kernel

/-- Half of four keys: "a" and "b" is a possible choice. -/
theorem C59_example : ∃ shuffled, shuffled.Perm [[97], [97], [98], ([99] : Key)] ∧ selectKeysToInsert 50 shuffled = [[97], [98]] := by
  refine (C59 _ 50 (by decide) (by decide) _).2 ⟨by decide +kernel, fun k => ?_, by decide⟩
  exact List.Sublist.count_le k (by decide +kernel)

/-- One per cent of two keys is no key.  The constructor of the filter stops at an assertion; without assertions the filter of no keys answers `true`. -/
theorem C59_refuted : selectKeysToInsert 1 [[97], [98]] = [] ∧ (@mkFilter Env.x86dbg "SuRF" 1 []).isOk = false ∧
    (@mkFilter Env.x86 "SuRF" 1 [] >>= fun f => @Flt.lookup Env.x86 f [99]) = .ok true := by
  refine ⟨by simp [selectKeysToInsert], by decide +kernel, by decide +kernel⟩

end Surf.Props
