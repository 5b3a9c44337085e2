import Mathlib.Data.List.Basic
import Mathlib.Data.List.Dedup
import Mathlib.Data.List.Infix

/-!
# Specifications

Everything in this file is stated on keys (lists of bytes), key lists and numbers.  Nothing here
mentions the data structures of the model.
-/

namespace Spec

/-- Byte strings, as in `std::string`. -/
abbrev Bytes := List UInt8

/-- The bits of a byte, most significant first. -/
def byteBits (b : UInt8) : List Bool := (List.range 8).map fun i => b.toNat.testBit (7 - i)

/-- The bits of a string, most significant bit of the first byte first. -/
def bits (k : Bytes) : List Bool := k.flatMap byteBits

/-! ## Key lists -/

/-- Key lists a filter can be built from: at least one key, sorted (duplicates allowed), no empty key. -/
structure Valid (keys : List Bytes) : Prop where
  ne : keys ≠ []
  sorted : keys.Pairwise (· ≤ ·)
  nonempty : ∀ k ∈ keys, k ≠ []

/-- `p` is a prefix of two different keys. -/
def Shared (keys : List Bytes) (p : Bytes) : Prop :=
  ∃ k ∈ keys, ∃ k' ∈ keys, k ≠ k' ∧ p <+: k ∧ p <+: k'

instance (keys : List Bytes) (p : Bytes) : Decidable (Shared keys p) := by unfold Shared; infer_instance

/-- The different strings that are a prefix of two different keys. -/
def sharedPrefixes (keys : List Bytes) : List Bytes :=
  (keys.flatMap List.inits).dedup.filter fun p => Shared keys p

/-- The branches at depth at least `l`: a prefix shared by two different keys and what follows it in
some key (a byte or the end of the key). -/
def branches (keys : List Bytes) (l : Nat) : List (Bytes × Option UInt8) :=
  (keys.flatMap fun k => (k.inits.filter fun p => l ≤ p.length ∧ Shared keys p).map fun p => (p, k[p.length]?)).dedup

/-- The byte array for `n` labels, whose size `n * (n / 64 + 1)` is computed in 32 bits, has room
for them.  True of every `n < 524288`. -/
def Room (n : Nat) : Prop := n < 64 ∨ n + 64 ≤ n * (n / 64 + 1) % 2 ^ 32

theorem room_of_lt {n : Nat} (h : n < 524288) : Room n := by
  unfold Room
  by_cases h1 : n < 64
  · exact Or.inl h1
  · right
    have h2 : n * (n / 64 + 1) ≤ 524287 * 8192 := Nat.mul_le_mul (by omega) (by omega)
    have h3 : n * 2 ≤ n * (n / 64 + 1) := Nat.mul_le_mul_left _ (by omega)
    rw [Nat.mod_eq_of_lt (by omega)]
    omega

/-- Size limits that keep all 32-bit positions in range; `n` is the number of suffix bits per key. -/
structure Small (n : Nat) (keys : List Bytes) : Prop where
  num : keys.length < 2 ^ 32
  len : ∀ k ∈ keys, k.length + 2 < 2 ^ 32
  node : 256 * ((sharedPrefixes keys).length + 1) < 2 ^ 32
  item : (sharedPrefixes keys).length + keys.length + 64 < 2 ^ 32
  sfx : n * keys.length < 2 ^ 32

/-- The same, and the array for the labels has room for them. -/
structure Fits0 (n : Nat) (keys : List Bytes) : Prop extends Small n keys where
  room : ∀ l, 1 ≤ l → Room ((branches keys l).length + 1)

/-- The same, and the sum of two positions in the array for the labels fits 32 bits (the binary
searches compute it). -/
structure Fits (n : Nat) (keys : List Bytes) : Prop extends Fits0 n keys where
  half : (sharedPrefixes keys).length + keys.length + 64 ≤ 2 ^ 31

/-! ## What a filter keeps of a key -/

/-- Length of the longest common prefix. -/
def common : Bytes → Bytes → Nat
  | a :: as, b :: bs => if a = b then common as bs + 1 else 0
  | _, _ => 0

/-- Number of bytes of `k` needed to tell it apart from the other keys: one more than the longest
prefix it shares with a different key.  It is `k.length + 1` when `k` is a prefix of another key. -/
def cut (keys : List Bytes) (k : Bytes) : Nat := ((keys.filter (· ≠ k)).map (common k)).foldr max 0 + 1

/-- The stored (truncated) form of a key. -/
def stored (keys : List Bytes) (k : Bytes) : Bytes := k.take (cut keys k)

/-- The query `q` is equal to the stored key `k`, or shares with it a non-empty prefix that no other
stored key has. -/
def Matches (keys : List Bytes) (k q : Bytes) : Prop :=
  k ∈ keys ∧ (q = k ∨ ∃ p, p ≠ [] ∧ p <+: k ∧ p <+: q ∧ ∀ k' ∈ keys, p <+: k' → k' = k)

/-- The first `n` bits of `k` behind its first `c` bytes, if there are that many. -/
def realSuffix (n : Nat) (k : Bytes) (c : Nat) : Option (List Bool) :=
  if c ≤ k.length ∧ n ≤ 8 * (k.length - c) then some ((bits (k.drop c)).take n) else none

/-- The same with zeros for a key that is too short. -/
def realSuffix0 (n : Nat) (k : Bytes) (c : Nat) : List Bool := (realSuffix n k c).getD (List.replicate n false)

/-! ## Sizes of the levels -/

/-- Number of shared prefixes of `l` bytes (the empty prefix always counts). -/
def nodesAt (keys : List Bytes) (l : Nat) : Nat :=
  if l = 0 then 1 else ((sharedPrefixes keys).filter fun p => p.length = l).length

/-- Number of branches behind the shared prefixes of `l` bytes. -/
def branchesAt (keys : List Bytes) (l : Nat) : Nat :=
  if l = 0 then (keys.map List.head?).dedup.length else ((branches keys l).filter fun b => b.1.length = l).length

/-- Number of different keys that are told apart from the others by their first `l + 1` bytes and not by fewer. -/
def endsAt (keys : List Bytes) (l : Nat) : Nat := (keys.dedup.filter fun k => cut keys k = l + 1).length

/-- Number of levels: as many as bytes are needed to tell all keys apart, and one (empty) more. -/
def levels (keys : List Bytes) : Nat := (keys.map (cut keys)).foldr max 0 + 1

/-- Estimated size of the levels before `c` in the first encoding, with `n` suffix bits per key. -/
def denseCost (n : Nat) (keys : List Bytes) (c : Nat) : Nat :=
  ((List.range c).map fun l =>
    512 * nodesAt keys l + (if l = 0 then 0 else nodesAt keys (l - 1) / 8 + 1) + endsAt keys l * n / 8).sum

/-- Estimated size of the levels from `c` on in the second encoding. -/
def sparseCost (n : Nat) (keys : List Bytes) (c : Nat) : Nat :=
  ((List.range' c (levels keys - c)).map fun l =>
    branchesAt keys l + 2 * branchesAt keys l / 8 + 1 + endsAt keys l * n / 8).sum

/-- `p` is the greatest among the longest prefixes shared by two different keys. -/
def LastShared (keys : List Bytes) (p : Bytes) : Prop :=
  Shared keys p ∧ ∀ p', Shared keys p' → p'.length < p.length ∨ (p'.length = p.length ∧ p' ≤ p)

/-- The query continues the last shared prefix with a zero byte and no stored key does. -/
def ZeroGap (keys : List Bytes) (q : Bytes) : Prop :=
  ∃ p, LastShared keys p ∧ p ++ [0] <+: q ∧ ∀ k ∈ keys, ¬ p ++ [0] <+: k

/-- Number of different continuations (a byte or the end of the key) of the stored keys that start with `p`. -/
def degree (keys : List Bytes) (p : Bytes) : Nat := ((keys.filter fun k => p <+: k).map fun k => k[p.length]?).dedup.length

/-- The branches from level `s` on are counted in blocks of 64.  Their number is not a multiple of 64, and those behind the
shared prefix `p`, if they are the last ones, reach from the second one on over more than one block. -/
def Overrun (keys : List Bytes) (s : Nat) (p : Bytes) : Prop :=
  (branches keys s).length % 64 ≠ 0 ∧ ((branches keys s).length - degree keys p + 1) / 64 < (branches keys s).length / 64

/-- The query continues the last shared prefix `p` with a zero byte, no stored key does, `p` has at least `s` bytes, and the
branches behind `p` overrun the last block. -/
def ZeroHit (keys : List Bytes) (s : Nat) (q : Bytes) : Prop :=
  ∃ p, LastShared keys p ∧ s ≤ p.length ∧ p ++ [0] <+: q ∧ (∀ k ∈ keys, ¬ p ++ [0] <+: k) ∧ Overrun keys s p

theorem ZeroHit.gap {keys : List Bytes} {s : Nat} {q : Bytes} (h : ZeroHit keys s q) : ZeroGap keys q := by
  obtain ⟨p, h1, -, h2, h3, -⟩ := h
  exact ⟨p, h1, h2, h3⟩

/-- There is one different key and it starts with the byte 0xFF. -/
def SingleFF (keys : List Bytes) : Prop := ∃ k, (∀ x ∈ keys, x = k) ∧ k.head? = some 255

/-! ## Bit vectors given level by level -/

/-- Bit `i` of an array of 64-bit words, counted from the most significant bit of the first word. -/
def wordBit (ws : List (BitVec 64)) (i : Nat) : Bool := (ws.getD (i / 64) 0).getMsbD (i % 64)

/-- A level is an array of words and the number of its bits that are used.  The array is large
enough and the unused bits are zero. -/
def Padded (lv : List (BitVec 64) × Nat) : Prop :=
  lv.2 ≤ 64 * lv.1.length ∧ ∀ i, lv.2 ≤ i → wordBit lv.1 i = false

/-- The used bits of all levels, in order. -/
def allBits (lvs : List (List (BitVec 64) × Nat)) : List Bool :=
  lvs.flatMap fun lv => (List.range lv.2).map (wordBit lv.1)

/-! ## Iteration -/

/-- `++` and `--`. -/
inductive Move
  | next
  | prev
  deriving DecidableEq

/-- What a step does to the position in a list of `n` elements; `none` is invalid. -/
def step (n : Nat) : Move → Option Nat → Option Nat
  | _, none => none
  | .next, some i => if i + 1 < n then some (i + 1) else none
  | .prev, some i => if 0 < i then some (i - 1) else none

/-- The positions after each of a sequence of steps. -/
def trace (n : Nat) : List Move → Option Nat → List (Option Nat)
  | [], _ => []
  | m :: ms, o => step n m o :: trace n ms (step n m o)

/-- The position after a sequence of steps. -/
def after (n : Nat) : List Move → Option Nat → Option Nat
  | [], o => o
  | m :: ms, o => after n ms (step n m o)

/-! ## Seeking and ranges -/

/-- The keys a seek to `q` looks for: greater than `q`, or also equal to it. -/
def Above (q : Bytes) (incl : Bool) (k : Bytes) : Prop := q < k ∨ (incl = true ∧ k = q)

/-- The keys of a range. -/
def InRange (left : Bytes) (leftIncl : Bool) (right : Bytes) (rightIncl : Bool) (k : Bytes) : Prop :=
  Above left leftIncl k ∧ (k < right ∨ (rightIncl = true ∧ k = right))

/-- `k` is the first key a seek to `q` looks for. -/
def FirstAbove (keys : List Bytes) (q : Bytes) (incl : Bool) (k : Bytes) : Prop :=
  k ∈ keys ∧ Above q incl k ∧ ∀ k' ∈ keys, Above q incl k' → k ≤ k'

/-- `k` is the last key below `q`. -/
def LastBelow (keys : List Bytes) (q k : Bytes) : Prop :=
  k ∈ keys ∧ k < q ∧ ∀ k' ∈ keys, k' < q → k' ≤ k

/-- The query leaves the stored keys behind the shared prefix `p`: it goes on with byte `b` and no stored key
does. -/
def LeavesAt (keys : List Bytes) (q p : Bytes) (b : UInt8) : Prop :=
  Shared keys p ∧ p ++ [b] <+: q ∧ ∀ k ∈ keys, ¬ p ++ [b] <+: k

/-- A stored key continues `p` with the byte `c`. -/
def Goes (keys : List Bytes) (p : Bytes) (c : UInt8) : Prop := ∃ k ∈ keys, p ++ [c] <+: k

/-- The searches for the next branch that work.  `s` is the level at which the second encoding starts.  The query leaves the stored
keys with byte `b` behind a prefix `p` of at least `s` bytes.

If `p` is not a stored key: the branches behind `p` do not overrun the last block, or `b` is not 0 and
all stored keys behind `p` are less than the query.

If `p` is a stored key: the branches behind `p` do not overrun the last block, and two different greater bytes
than `b` are possible behind `p`, or there is one, there are at most four branches, and not all of them are 0xFF or the end. -/
def SeekSafe (keys : List Bytes) (s : Nat) (q : Bytes) : Prop :=
  ∀ p b, LeavesAt keys q p b → s ≤ p.length →
    (p ∉ keys ∧ (¬ (LastShared keys p ∧ Overrun keys s p) ∨ (b ≠ 0 ∧ ∀ k ∈ keys, p <+: k → k < q))) ∨
    (p ∈ keys ∧ ¬ (LastShared keys p ∧ Overrun keys s p) ∧
      ((∃ c d, b < c ∧ c < d ∧ Goes keys p c ∧ Goes keys p d) ∨
        (degree keys p ≤ 4 ∧ (∃ c, b < c ∧ Goes keys p c) ∧ ∃ c, c ≠ 255 ∧ Goes keys p c)))

theorem SeekSafe.not_zeroHit {keys : List Bytes} {s : Nat} {q : Bytes} (h : SeekSafe keys s q) : ¬ ZeroHit keys s q := by
  rintro ⟨p, h1, h2, h3, h4, h5⟩
  rcases h p 0 ⟨h1.1, h3, h4⟩ h2 with ⟨-, h | h⟩ | ⟨-, h, -⟩
  · exact h ⟨h1, h5⟩
  · exact h.1 rfl
  · exact h ⟨h1, h5⟩

/-- If the branches are few or a multiple of 64, no search overruns the last block. -/
theorem not_overrun {keys : List Bytes} {s : Nat} {p : Bytes} (h : (branches keys s).length < 64 ∨ (branches keys s).length % 64 = 0) :
    ¬ Overrun keys s p := by
  rintro ⟨h1, h2⟩
  rcases h with h | h
  · omega
  · exact h1 h

/-- The search for `q` does not end at a missing byte behind the last shared prefix, unless the branches behind it do not overrun the
last block. -/
def LookupAligned (keys : List Bytes) (s : Nat) (q : Bytes) : Prop :=
  ∀ p b, LeavesAt keys q p b → s ≤ p.length → LastShared keys p → ¬ Overrun keys s p

/-- The same, and the last shared prefix is not a stored key. -/
def SeekAligned (keys : List Bytes) (s : Nat) (q : Bytes) : Prop :=
  ∀ p b, LeavesAt keys q p b → s ≤ p.length → LastShared keys p → p ∉ keys ∧ ¬ Overrun keys s p

/-- `q` has at least `s` bytes, or every stored key that starts with it is told apart from the others by its first `s`
bytes. -/
def LongEnough (keys : List Bytes) (s : Nat) (q : Bytes) : Prop :=
  s ≤ q.length ∨ ∀ k ∈ keys, q <+: k → k ≠ q → cut keys k ≤ s

/-- `p` is the greatest of the prefixes of `l` bytes shared by two different keys (`[]` for `l = 0`). -/
def LastAt (keys : List Bytes) (l : Nat) (p : Bytes) : Prop :=
  p.length = l ∧ (l = 0 ∨ Shared keys p) ∧ ∀ p', Shared keys p' → p'.length = l → p' ≤ p

/-- The key lists for which counting in the first encoding works: no byte 0 among the second to the `s`-th byte of a stored
key, as far as they are needed to tell it apart from the others; and the last shared prefix of `s - 1` bytes is not a stored key and
no stored key continues it with the byte 0xFF. -/
def CountSafe (keys : List Bytes) (s : Nat) : Prop :=
  (∀ k ∈ keys, 0 ∉ ((stored keys k).take s).tail) ∧
    ∀ p, LastAt keys (s - 1) p → p ∉ keys ∧ ∀ k ∈ keys, ¬ p ++ [255] <+: k

/-- Number of different keys strictly between `l` and `r`. -/
def between (keys : List Bytes) (l r : Bytes) : Nat := (keys.dedup.filter fun k => decide (l < k ∧ k < r)).length

/-- Number of different keys from `l` to `r`. -/
def within (keys : List Bytes) (l r : Bytes) : Nat := (keys.dedup.filter fun k => decide (l ≤ k ∧ k ≤ r)).length

/-- What the code counts from an iterator at the key `k` to an iterator at the key `k2`, when the first encoding has `s` levels.  It is the
number of keys strictly between, unless three things meet: the left iterator says that its search ended in the first encoding (`skip`), though its key
continues below; and the two keys differ in their first `s` bytes.  Then the count is one too small, or, if no key in between ends at the last
level of the first encoding, it is 2^32 - 1 too big. -/
def counted (keys : List Bytes) (s : Nat) (skip : Bool) (k k2 : Bytes) : Nat :=
  if skip = true ∧ s < cut keys k ∧ k < k2 ∧ k.take s ≠ k2.take s then
    if ∃ x ∈ keys, k < x ∧ x < k2 ∧ cut keys x = s then between keys k k2 - 1 else between keys k k2 + 4294967295
  else between keys k k2

/-- Suffixes of `r` bits do not mislead a comparison of `q` with the stored key `k` that matches it: if only one of the two has `r` more bits
behind the bytes they share, the other one ends there or is smaller. -/
def SuffixFair (r : Nat) (keys : List Bytes) (q : Bytes) : Prop :=
  ∀ k, Matches keys k q →
    (8 * (k.length - cut keys k) < r → r ≤ 8 * (q.length - cut keys k) → k.length ≤ cut keys k ∨ k < q) ∧
    (8 * (q.length - cut keys k) < r → r ≤ 8 * (k.length - cut keys k) → q.length ≤ cut keys k ∨ q < k)

/-- Up to 8 bits this is always so. -/
theorem suffixFair_of_le {r : Nat} (h : r ≤ 8) (keys : List Bytes) (q : Bytes) : SuffixFair r keys q := by
  intro k _
  exact ⟨fun _ _ => Or.inl (by omega), fun _ _ => Or.inl (by omega)⟩

/-- It is also so when all keys and the query have the same length. -/
theorem suffixFair_of_length {r n : Nat} {keys : List Bytes} {q : Bytes} (h : ∀ k ∈ keys, k.length = n) (hq : q.length = n) :
    SuffixFair r keys q := by
  intro k hm
  rw [h k hm.1, hq]
  exact ⟨fun _ _ => by omega, fun _ _ => by omega⟩

end Spec
