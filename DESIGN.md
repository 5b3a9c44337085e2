# Formal model of SuRF in Lean 4 — design

The table at the end says, per property, what is modelled and how it is proved; MANIFEST.json
names the theorems.

## Trusted base

* the Lean 4 kernel; the theorems listed in MANIFEST.json depend on at most
  `propext`, `Classical.choice`, `Quot.sound` (`lean/Verif/Axioms.lean` runs `#print axioms`
  on every one of them).  No `sorry`, no own axioms, no `native_decide`; concrete
  executions are evaluated by the kernel (`decide +kernel`).
* the hand translation of the C++ in /repo/include and /repo/bench to the Lean functions under
  `lean/Verif/Model/`.  Every definition cites the lines it models.
* meaning of the compiler builtins (`__builtin_popcountll/clzll/ctzll/bswap64`, SSE2
  byte compare + movemask) as written in `Model/Basic.lean`, `Model/Labels.lean`.

## Modelled / not modelled

Modelled function by function: `config.hpp`, `hash.hpp`, `popcount.h` (all
functions), `bitvector.hpp`, `rank.hpp`, `select.hpp`, `label_vector.hpp`, `suffix.hpp`,
`surf_builder.hpp`, `louds_dense.hpp`, `louds_sparse.hpp`, `surf.hpp`.
`bench/bloom.hpp`, `bench/MurmurHash3.h`, the filter wrappers of `bench/`,
`bench/bench.hpp`, `bench/workload.cpp` and `bench/workload_multi_thread.cpp` (arguments, key files,
selection of keys, queries, counts of positives).  Threads are
modelled as interleavings of the statements that use the shared iterators (C42).
`new`, `delete`, `destroy`, `size()` and `getMemoryUsage` are modelled on a heap of
blocks, with `sizeof` of the classes as parameters (C50 to C52).
Not modelled: `modifyKeyByte` (never called, C60), `atoi`, timing in `bench/`, its output except the numbers of C81 to C83, the library of `bench/workload_arf.cpp` (not in the
repository, a parameter in C82), `prefetch`.  Trusted for C58: the extraction operators of libstdc++ as written in `Model/Workload.lean`.

### Undefined behaviour is an outcome

All modelled functions live in `R α = Except UB α`.  `UB` distinguishes out-of-range
read, out-of-range write, over-wide shift, failed `assert`, C++ exception and
divergence (loops are structural or carry fuel; running out is `diverge`).
So `f x = ok v` says: terminates, no UB, value `v`.

A class `Env` fixes the machine:
* `strict = true`: ISO C++ — every out-of-range access and over-wide shift is an error;
* `strict = false`: x86-64 — 64-bit shift counts are taken mod 64, an out-of-range read
  returns an *arbitrary* value (a function of the environment, so theorems hold for
  whatever is there), `a[i] |= 0` out of range is harmless (any other out-of-range write
  is still an error);
* `ndebug`: whether `assert` is compiled out (the default CMake build) or fails.

Positive theorems are stated for every non-strict environment (both assert modes unless
stated); strictness violations are separate witness theorems.

### Numbers

`word_t` is `BitVec 64`, `label_t` is `UInt8`, keys are `List UInt8`.
`position_t`/`level_t` values are `Nat`.  Wherever the code can go below zero or relies on
wrap-around at the LoudsDense/LoudsSparse level the model uses explicit mod 2^32 operations
(`add32/sub32/mul32`).  The numbers of bits of the bit vectors, the positions at which
suffixes and dense labels are stored, and the sizes used to choose the level split and to allocate the label array are
computed in 32/64 bits with wrap-around as in the code (C29, C31, C36).  Counters that are bounded by the length of an
allocated array (loop indices, element counts of one level) are plain `Nat`; theorems in which they must stay below
2^32 carry the hypothesis `Spec.Small`, part of `Setting`.

### Hypotheses the theorems share

* `hs : Env.strict = false` — the machine does not trap on a shift by 64 or on a read just
  behind an array (both happen in every build, see C23_refuted, C24_refuted).  What such a read
  returns is arbitrary.
* `Setting cfg keys` (Proof/Built.lean) — the preconditions of the API: a sorted list of non-empty keys, usable suffix
  lengths, dense part enabled, ratio between 1 and 2^28, and `Spec.Fits` (32-bit positions do
  not overflow, the label array has room, and all label positions are below 2^31, because the binary searches add two of them in 32 bits;
  `C28_refuted`).  `Setting0` is the same without the limit of 2^31; construction and serialization (C19_exact, C36, C39) need no more.  `fits_of_total` gives the last one for
  lists of up to 8000000 bytes in all.
* `¬ SingleFF keys` — not a single different key starting with 0xFF; that case is settled by C35.
* `Spec.SeekSafe`, `SafeSeek`, `LongEnough`, `SuffixFair`, `LookupAligned`, `SeekAligned`, `ZeroHit`, `Overrun` —
  conditions on the *query* that exclude the defects of the code found here; each has a
  `_refuted` theorem with an execution in which the claim fails without it.

* `LeftOk`, `Spec.CountSafe`, `MemBehind` — the same for `approxCount`: conditions on the left bound, on the keys, and on
  the memory behind one bit vector.

## Proof architecture

1. word level: bit vectors as functions `Nat → Bool`; rank = `Nat.count`; select = inverse;
   successor/predecessor; label search; suffix slots.
2. trie theory (pure lists): strings over symbols `0 = terminator, b+1 = byte b`; sorted
   prefix-free list `ts`; BFS node list, children, block structure.
3. builder refines trie theory: after inserting a prefix of the key list, every level
   vector is the encoding of the trie of the strings so far (induction over the key list).
4. representation predicate `Rep filter trie`; navigation lemmas; `lookupKey` = spec.
5. iterators: states that denote a stored string; `++`, `--`, leftmost/rightmost descent.
6. seeks and ranges; 7. serialization; 8. counting.

Specifications (in `lean/Verif/Spec.lean`) speak about key lists and byte strings only.

Files: `Model/` is the translation; `Proof/` the helper theory (Word, BV, RankSelect, Label,
Suffix, Concat: step 1; Trie, Order, Nav: step 2; BuilderKeys, BuilderRep, DenseBuild, Create,
Cutoff, Built: step 3; FilterRep, DenseNav, SparseNav, Sem, Lookup: step 4; Iter, DenseIter,
SparseIter, IterKeys, History: step 5; Seek, SeekKeys, Compare, Keys: step 6; Serialize,
SerialShift, SerialSize, NumKeys, Trim*: step 7; Count*: step 8); `Props/` the property theorems and
their witnesses.

`seeded/LOG.jsonl` records the experiments with deliberately wrong models.

## Per property

| id | what is modelled and how it is proved |
|----|------|
| C01 | corollary of the exact characterisation of `lookupKey` (C35 settles the excluded list) |
| C02–C05 | `lookupKey` equals the spec: builder refinement + navigation; the answer is characterised exactly; C02 fails for `ZeroHit` queries (witness); a `SingleFF` filter without suffixes finds the empty key only (`C02_single`) |
| C06 | builder skips duplicates: equality of built objects |
| C07 | from C02: two ratios agree iff they agree on `ZeroHit`; witness where they do not |
| C08 | `lookupRange`: false in general, one witness per defect; `_partial` under the hypotheses excluding them |
| C09 | result of any query sequence on one object equals the results on fresh objects (the member iterator carries no information) |
| C10–C13 | iterator theory; C13 false before keys starting with 0x00: witness + `_partial` |
| C14–C16, C37, C38 | seek theory; witnesses for the failing cases |
| C15, C17 | invariant of all iterators reachable from the public operations |
| C18–C20, C39, C40 | byte-level model of the layout with absolute addresses; round trip up to the label padding; witnesses for padding, alignment and gaps; the exact size in terms of the keys decides whether the 32-bit size wraps (C19_exact), the numbers below 57464 * 65536 as a witness (C19_refuted); copies of every filter that can be written, whatever the number of keys (C18_any_partial, C39_any_partial); `SingleFF` filters and their copies answer like an empty filter (C18_single) |
| C21 | approxCount: exact between stored keys and at most 2 too small otherwise, under the stated conditions on the left bound, the dense levels and the memory behind one array (level by level: the positions the code extends the iterators to are related to the number of leaves before a leaf); the exact value, right or wrong, for any bounds that are safe seeks and for left iterators from `moveToFirst`, seeks and `++`, in either order; witnesses where each condition fails |
| C22 | pure bit-vector/byte argument |
| C23–C24 | by-product of `= ok _` theorems; strict-mode witnesses of UB |
| C25–C30 | word-level theorems; C26 holds below 2^32 ones minus one sampling step, and `C26_exact` shows that the constructor never returns otherwise; C28 holds below position 2^31, and `C28_refuted` gives a node there whose search misses a label; C29 holds below 2^32 bits, `C29_exact` says what is made of any number of bits, `C29_refuted` that 2^32 ones are written outside the array |
| C31 | false for every list: `cutoff_level--` (post-decrement) has no effect; general refutation, and what holds |
| C32 | iterator compare vs key order |
| C33 | builder refinement |
| C34 | false: witness, and `lookupKey = true` for all queries |
| C35 | exact statement for lists with one different key starting with 0xFF |
| C36 | builder writes: exact condition for an out-of-range write in terms of the number of branches from the start level on (`create_overflow`, `create_room`); refuted for two keys of 741439 bytes |
| C41 | `getKeyWithSuffix` = `getKey` + the word `getSuffix` returns; bit-level reading of its bytes |
| C42 | small-step model of the queries (Model/Threads.lean) and all interleavings: invariant "the answers a thread will get do not change"; witness for two range queries |
| C43 | corollary of C02 |
| C44 | corollary of C08, C22 and C33: keys and bounds of one length are `SeekSafe` up to `Overrun`, `SuffixFair` and `LongEnough`; a list of 64 integers refutes the rest |
| C45 | MurmurHash3 and the Bloom filter of the benchmark are modelled (`Model/Bloom.lean`); exact set of bits after each insertion by induction |
| C46 | the driver loop of the benchmark (`Model/Bench.lean`); from C01, C45 and definedness of point queries |
| C47 | from C08 and C09 (answers do not depend on earlier queries), and a description of the lower bound in the sorted list; three refutations |
| C48 | 8-bit and 64-bit wrap-around, C22 |
| C49 | induction over the queries (pairs of queries for count-long); the wrapper returns the count as `bool` |
| C50 | `new`, `delete` and `destroy` on a heap of blocks (`Model/Memory.lean`); invariant over all programs: disjoint regions of blocks, one for each construction |
| C51 | the same invariant gives the blocks in use; refuted for every filter |
| C52 | bounds on the sizes of the vectors (as for C19) rule out wrap-around; the size of the label array by inversion of the constructor; refuted for every filter |
| C53 | for such a list the representation is that of an empty trie (root bitmap of zeros): the searches in it are evaluated; otherwise C10, C11 |
| C54 | no shared prefix is a stored key, hence every search is `SeekSafe`; C08, C14; refuted by three prefix-free lists |
| C55 | the value of `Iter::compare` in every case (`CmpVal`), the leaf a seek ends at, both translated to keys; exact answer with two named defects; refuted by a two-key list and by a family of lists of which exactly one member fails |
| C56 | a word as its eight bytes (`pk`), every broadword step acts on the bytes separately (no carry), facts about one byte checked for all 256 values; loops by induction; refuted by two words and in general for arrays searched from their middle |
| C57 | `Model/Workload.lean`: shares of the threads, run on the interleaving model of C42; equal shares add up to a prefix of the queries; false positives counted right for point queries in equal shares (`C57_false_partial`) and for range queries of one thread (`C57_one_false_partial`); four refutations |
| C58 | input streams with the rules of libstdc++ for `>>`; induction over the rounds of the loop, one word each; the generators' line break at the end of the file refutes it |
| C59 | the shuffle is any permutation, the sort is determined by its result; both directions |
| C60 | the checks as a function of the arguments; exact set of accepted lines |
| C61 | as C47, with numbered queries |
| C62 | false: the object the constructor makes of no keys is computed for every configuration; point queries are true, everything else writes into an empty array |
| C63 | `emptyKey_rep`: without assertions the constructor builds the trie of the list with the string of one zero byte instead of the empty one, with another suffix there (the invariant of the builder, started behind the first key); lookups from it |
| C64 | the construction is proved for any suffix vectors (`create_gen`), which are then shown to hold all suffixes (`C64_partial`) or nothing (`C64_lost`); in the latter case every path of a lookup ends in `false` |
| C65 | from `lookup_sfx`, which says for each kind of suffix which continuations of a stored string are accepted; the key matched by a query is unique (`matches_unique`), so acceptance by two filters can be compared key by key |
| C66 | the accepted continuations are those whose first n bits are a given word; they are counted through the bijection between strings and bit lists (`prefix_count`) |
| C67 | the theorems on lookup, iteration and ranges hold on every machine with the same specification, so two machines agree; the split is shown equal by a comparison of the level sizes (`start_env`) |
| C68 | the same argument for two ratios on one machine; the counterexamples have a trie whose split changes the depth at which a bound ends |
| C69 | invariant of the builder: the walk of `skipCommonPrefix` would follow the last inserted key (`Path`), so a beginning of that key has no byte left to insert and the assertion fires |
| C70 | an invariant of iterators that says nothing of the order of keys (`IL`): the dense part stands at a leaf or at the last dense level; in the sparse part every position is that of an item deep enough for its level (`RealPos`), except that a valid iterator may stand one past the last item.  Seeks, `++` and `--` keep it, and each loop ends since a position at level i has an item of depth at least i (`FRep.sseekL`, `incL`, `decL`) |
| C71 | `Spec.hash`: a second, arithmetic formulation of the hash (groups of four bytes, sums and products modulo 2^32); `suffixHash_spec` proves the model's function equal to it, by induction over the groups; C71 then follows from C04, C05 |
| C72 | every round of the hash (add a word, multiply by an odd number, fold the upper half into the lower) is a bijection on 32-bit words, so strings that differ only in one aligned group have different hashes (`hash_group_inj`); the 2^32 values of that group therefore meet each hash once, and bits 7 and up of them each 2^(32-n) times (`group_count`, `hash_count`) |
| C73 | `Model/Bloom.lean`, `Model/Murmur.lean`; `Spec.murmur32/128/64` over natural numbers (rotation as multiplication and division, words of the zero-padded data): words, rotations and the fall-through `switch` are translated one by one (`rot_toNat`, `bytes4`, `mix_tail`), the rounds by induction; the bits of a filter from the exact content proved for C45 |
| C74 | `Setting0` instead of `Setting`; point lookup over `FRep0` with exact searches assumed only for the nodes on the way (`LowNode`, Proof/Walk.lean); `kidItems_fan` translates node sizes to the keys; refuted for the numbers up to 2^31+2 by computing the levels of their trie (`numKeys_lev`), the position of the last node and the label at the wrong midpoint |
| C75 | sizes of the eight vectors from `FRep0`, their lengths translated to the keys (`sitems_card`, `snodes_card`, `dnodes_card`, `dends_card`, `sends_card`); the bounds by linear arithmetic |
| C76 | the builder's levels are determined by the leaf strings and suffix words (`LRep_det`, `Rep_det`), these by the stored forms (`cut_stored`: a key is a prefix of another one iff its stored form is); converse by iterating over the filter (C12) |
| C77 | both answers expressed by `Spec.Close` (C02, C05 and `range_land` of C55); the two directions need different hypotheses, and each is refuted without them |
| C78 | `C55_free_partial` for both ranges and `close_between`: what lies between a key and a string close to it is close to it (unique prefixes are convex, up to 8 real bits are monotone); for the left bound alone the least key from it (`range_land`) |
| C79 | `C21_partial` for the three counts; `between_split`, `within_split` for the numbers of keys |
| C80 | `C55_free_partial` and `close_between`, as for C78; refuted as stated |
| C81 | `Model/Report.lean` (workload.cpp:215-232); `Spec.RightReport` counts the queries; the numbers of C46 and C47 (`range_parts`) and `filter_four` |
| C82 | `Model/Arf.lean` (workload_arf.cpp:70-145) over an arbitrary library; loops by induction against `Spec.answers`/`Spec.stateAfter` on lists of queries, then counting; the witness is an instance of the general theorem |
| C83 | `reportMulti` in `Model/Report.lean` (workload_multi_thread.cpp:232-237); `Spec.MultiReport` says what is printed and when the rate is right; from C57 and `multi_parts` |
| C84 | the model in an environment with `Env.strict = true`; `Spec.Inside` on the numbers of bits of the levels; `Bitvector.mk'_strict` in `Proof/ConcatStrict.lean` finds the only or-operation behind the array, `create_in`/`create_out` in `Proof/StrictCreate.lean` follow it through the construction |

Not expressed: real-time cost, false positive
*rates* (they need a distribution of queries), executions of racing threads that are not interleavings of statements.
