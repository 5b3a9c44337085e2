import Mathlib.Data.Nat.Count

/-!
# Execution model: results, undefined behaviour, machine environment, fixed width integers

Everything here is the "C++ abstract machine" part of the trusted base.
-/

namespace Surf

/-- Ways in which a C++ execution can go wrong. -/
inductive UB where
  | oobRead     -- read outside an array / vector
  | oobWrite    -- write outside an array / vector
  | overShift   -- shift count >= width of the type
  | assertFail  -- failed `assert`
  | exn         -- C++ exception (e.g. `std::out_of_range` of `substr`)
  | diverge     -- loop does not terminate (fuel of the model exhausted)
  | divZero     -- division by zero
  | badEnum     -- a value that is none of the enumerators read into an `enum`
  deriving DecidableEq, Repr, Inhabited

/-- Result of running a piece of modelled C++ code. -/
abbrev R (α : Type) := Except UB α

/-- `word_t` (config.hpp:16). -/
abbrev Word := BitVec 64

/-- `std::string` as the list of its bytes, each read as `(label_t)c`. -/
abbrev Key := List UInt8

/-- The machine the code runs on.

* `strict = true` is ISO C++: any out-of-range access or over-wide shift is an error.
* `strict = false` is x86-64: 64-bit shift counts are reduced mod 64 and an out-of-range read
  yields an arbitrary value given by the `junk` fields.
* `ndebug` says whether `assert` is compiled out (`-DNDEBUG`, the default CMake build). -/
class Env where
  strict : Bool
  ndebug : Bool
  junkW : List Word → Nat → Word
  junkB : List UInt8 → Nat → UInt8
  junkP : List Nat → Nat → Nat

/-- ISO C++ with asserts on; for undefined-behaviour witnesses. -/
@[reducible] def Env.iso : Env := ⟨true, false, fun _ _ => 0, fun _ _ => 0, fun _ _ => 0⟩
/-- x86-64 release build in which out-of-range memory happens to be zero; for witnesses. -/
@[reducible] def Env.x86 : Env := ⟨false, true, fun _ _ => 0, fun _ _ => 0, fun _ _ => 0⟩
/-- x86-64 debug build (asserts enabled), out-of-range memory zero; for witnesses. -/
@[reducible] def Env.x86dbg : Env := ⟨false, false, fun _ _ => 0, fun _ _ => 0, fun _ _ => 0⟩

section
variable [Env]

/-- `assert(b)`. -/
def assertR (b : Bool) : R Unit :=
  if b || Env.ndebug then .ok () else .error .assertFail

/-- Read of `word_t` element `i` of array `a`. -/
def rdW (a : List Word) (i : Nat) : R Word :=
  match a[i]? with
  | some w => .ok w
  | none => if Env.strict then .error .oobRead else .ok (Env.junkW a i)

/-- Read of `label_t` element `i` of array `a`. -/
def rdB (a : List UInt8) (i : Nat) : R UInt8 :=
  match a[i]? with
  | some w => .ok w
  | none => if Env.strict then .error .oobRead else .ok (Env.junkB a i)

/-- Read of `position_t` element `i` of array `a`. -/
def rdP (a : List Nat) (i : Nat) : R Nat :=
  match a[i]? with
  | some w => .ok w
  | none => if Env.strict then .error .oobRead else .ok (Env.junkP a i)

/-- `w << n` on `word_t`. -/
def shlW (w : Word) (n : Nat) : R Word :=
  if n < 64 then .ok (w <<< n)
  else if Env.strict then .error .overShift else .ok (w <<< (n % 64))

/-- `w >> n` on `word_t`. -/
def shrW (w : Word) (n : Nat) : R Word :=
  if n < 64 then .ok (w >>> n)
  else if Env.strict then .error .overShift else .ok (w >>> (n % 64))

end

/-- `a[i] |= x` on a `word_t` array.  Out of range it is an error, except that on a real
machine or-ing with zero leaves memory as it was. -/
def orAt [Env] (a : List Word) (i : Nat) (x : Word) : R (List Word) :=
  match a[i]? with
  | some w => .ok (a.set i (w ||| x))
  | none => if Env.strict || x != 0 then .error .oobWrite else .ok a

/-- `a[i] += x` on a `std::vector<word_t>`. -/
def addAt (a : List Word) (i : Nat) (x : Word) : R (List Word) :=
  match a[i]? with
  | some w => .ok (a.set i (w + x))
  | none => .error .oobWrite

/-- Overwrite element `i` (vectors of the iterators). -/
def wr {α : Type} (a : List α) (i : Nat) (x : α) : R (List α) :=
  if i < a.length then .ok (a.set i x) else .error .oobWrite

/-- Element access of a container whose out-of-range access we never tolerate
(`std::vector` of containers: there is no object there). -/
def getR {α : Type} (a : List α) (i : Nat) : R α :=
  match a[i]? with
  | some x => .ok x
  | none => .error .oobRead

/-! ## 32-bit unsigned arithmetic (`position_t`, `level_t`, config.hpp:9-10) -/

def M32 : Nat := 4294967296
/-- `kMaxPos` (config.hpp:11). -/
def kMaxPos : Nat := 4294967295
def u32 (a : Nat) : Nat := a % M32
def add32 (a b : Nat) : Nat := (a + b) % M32
def sub32 (a b : Nat) : Nat := (a + (M32 - b % M32)) % M32
def mul32 (a b : Nat) : Nat := (a * b) % M32
/-- `size_t` subtraction. -/
def sub64 (a b : Nat) : Nat := (a + (18446744073709551616 - b % 18446744073709551616)) % 18446744073709551616

/-! ## Constants of config.hpp:14-28 -/

def kFanout : Nat := 256
def kMsbMask : Word := 0x8000000000000000#64
def kIncludeDense : Bool := true
def kSparseDenseRatio : Nat := 16
def kTerminator : UInt8 := 255
def kHashShift : Nat := 7
def kCouldBePositive : Int := 2018

/-- `enum SuffixType` (config.hpp:30-35). -/
inductive SuffixType where
  | kNone | kHash | kReal | kMixed
  deriving DecidableEq, Repr, Inhabited

/-! ## Compiler builtins on 64-bit words (position 0 is the most significant bit) -/

/-- `__builtin_popcountll`. -/
def popcount (w : Word) : Nat := Nat.count (fun i => w.getMsbD i = true) 64

/-- `__builtin_clzll` (argument non-zero at every call). -/
def clz (w : Word) : Nat := (List.range 64).findIdx (fun i => w.getMsbD i)

/-- `__builtin_ctzll` (argument non-zero at every call). -/
def ctz (w : Word) : Nat := (List.range 64).findIdx (fun i => w.getLsbD i)

/-- `w & (kMsbMask >> offset)` as a truth value (bitvector.hpp:74, surf_builder.hpp:36). -/
def testMsb (w : Word) (offset : Nat) : Bool := (w &&& (kMsbMask >>> offset)) != 0

/-! ## Integer keys (config.hpp:49-58) -/

/-- Little-endian bytes of an integer as `memcpy` sees them. -/
def leBytes : Nat → Nat → List UInt8
  | 0, _ => []
  | k + 1, n => UInt8.ofNat (n % 256) :: leBytes k (n / 256)

/-- Little-endian decoding. -/
def leNat : List UInt8 → Nat
  | [] => 0
  | b :: bs => b.toNat + 256 * leNat bs

/-- `__builtin_bswap64`: reverse the eight bytes. -/
def bswap64 (w : Nat) : Nat := leNat (leBytes 8 w).reverse

/-- `uint64ToString` (config.hpp:49-52). -/
def uint64ToString (w : BitVec 64) : Key := leBytes 8 (bswap64 w.toNat)

/-- `stringToUint64` (config.hpp:54-58); `memcpy` of 8 bytes from the string. -/
def stringToUint64 (s : Key) : BitVec 64 := BitVec.ofNat 64 (bswap64 (leNat (s.take 8)))

/-! ## `std::string` helpers -/

/-- `std::string::compare`: the sign of the first differing byte (`memcmp`; only the sign is
specified, modelled as ±1), otherwise the difference of the lengths clamped to `int`. -/
def strCompareAux (la lb : Nat) : Key → Key → Int
  | a :: as, b :: bs => if a < b then -1 else if b < a then 1 else strCompareAux la lb as bs
  | _, _ => max (-2147483648) (min 2147483647 ((la : Int) - (lb : Int)))

def strCompare (a b : Key) : Int := strCompareAux a.length b.length a b

/-- `s.substr(pos)`: throws when `pos > size`. -/
def substrFrom (s : Key) (pos : Nat) : R Key :=
  if pos ≤ s.length then .ok (s.drop pos) else .error .exn

end Surf
