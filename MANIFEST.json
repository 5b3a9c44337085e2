{
 "claims": [
  {
   "property": "C01",
   "status": "partial",
   "theorems": [
    "Surf.Props.C01_partial",
    "Surf.Props.C01_refuted",
    "Surf.Props.C35"
   ],
   "note": "Proved for all settings except lists with one distinct key that starts with 0xFF, where C01_refuted/C35 prove that the key is missed."
  },
  {
   "property": "C02",
   "status": "partial",
   "theorems": [
    "Surf.Props.C02_partial",
    "Surf.Props.C02_noZero",
    "Surf.Props.C02_single",
    "Surf.Props.C02_refuted"
   ],
   "note": "The answer is characterised exactly for every query: true iff a stored key matches or the query is a ZeroHit (it goes on behind the last shared prefix with a byte 0x00 no key has there, and the search overruns the last block). C02_noZero: the equivalence of C02 for all queries without a byte 0x00. C02_refuted: a ZeroHit. C02_single: lists whose only key starts with 0xFF, where the empty query alone is answered true."
  },
  {
   "property": "C03",
   "status": "proved",
   "theorems": [
    "Surf.Props.C03"
   ],
   "note": ""
  },
  {
   "property": "C04",
   "status": "proved",
   "theorems": [
    "Surf.Props.C04"
   ],
   "note": ""
  },
  {
   "property": "C05",
   "status": "proved",
   "theorems": [
    "Surf.Props.C05"
   ],
   "note": ""
  },
  {
   "property": "C06",
   "status": "proved",
   "theorems": [
    "Surf.Props.C06"
   ],
   "note": ""
  },
  {
   "property": "C07",
   "status": "partial",
   "theorems": [
    "Surf.Props.C07_partial",
    "Surf.Props.C07_refuted"
   ],
   "note": "The exact condition under which two ratios agree on a query: unless suffixes are kNone and the query is a ZeroHit for one of them only; C07_refuted is such a case."
  },
  {
   "property": "C08",
   "status": "partial",
   "theorems": [
    "Surf.Props.C08_partial",
    "Surf.Props.C08_history_partial",
    "Surf.Props.C08_refuted",
    "Surf.Props.C08_suffix_refuted",
    "Surf.Props.C08_short_refuted",
    "Surf.Props.C08_overrun_refuted"
   ],
   "note": "Proved for SeekSafe left bounds (also when the bound leaves the stored keys behind a stored key and greater bytes are possible there), real suffixes that do not mislead the comparison (at most 8 bits, or complete, or keys of one length), and for real suffixes left bounds not shorter than the dense levels; each exception has an execution that misses a stored key."
  },
  {
   "property": "C09",
   "status": "proved",
   "theorems": [
    "Surf.Props.C09"
   ],
   "note": "Sequences of lookupKey, lookupRange and approxCount calls on one object, including calls that fail. Machine assumption: Env.strict = false."
  },
  {
   "property": "C10",
   "status": "partial",
   "theorems": [
    "Surf.Props.C10_partial",
    "Surf.Props.C10_refuted"
   ],
   "note": "Proved for every list except a single different key starting with 0xFF; C10_refuted shows the failure there."
  },
  {
   "property": "C11",
   "status": "partial",
   "theorems": [
    "Surf.Props.C11_partial",
    "Surf.Props.C11_refuted"
   ],
   "note": "As C10."
  },
  {
   "property": "C12",
   "status": "partial",
   "theorems": [
    "Surf.Props.C12_partial",
    "Surf.Props.C12_refuted"
   ],
   "note": "As C10."
  },
  {
   "property": "C13",
   "status": "partial",
   "theorems": [
    "Surf.Props.C13_partial",
    "Surf.Props.C13_step_partial",
    "Surf.Props.C13_refuted"
   ],
   "note": "Every sequence of ++ and -- when no key starts with byte 0x00; for all lists -- ends the iteration early only before such a key; C13_refuted shows that it does."
  },
  {
   "property": "C14",
   "status": "partial",
   "theorems": [
    "Surf.Props.C14_partial",
    "Surf.Props.C14_refuted",
    "Surf.Props.C14_suffix_refuted",
    "Surf.Props.C14_overrun_refuted"
   ],
   "note": "Proved for SeekSafe queries and suffixes that do not mislead the comparison (SuffixFair); the refutations show skipped keys for the others."
  },
  {
   "property": "C15",
   "status": "partial",
   "theorems": [
    "Surf.Props.C15_partial",
    "Surf.Props.C15_refuted",
    "Surf.Props.C15_seek_refuted"
   ],
   "note": "Every iterator obtained from moveToFirst, moveToLast, seeks in both directions and any steps, with seeks restricted to SafeSeek; C15_seek_refuted: the empty query leaves an iterator between two keys; C15_refuted: single key 0xFF."
  },
  {
   "property": "C16",
   "status": "partial",
   "theorems": [
    "Surf.Props.C16_partial",
    "Surf.Props.C16_refuted",
    "Surf.Props.C16_zero_refuted",
    "Surf.Props.C16_suffix_refuted",
    "Surf.Props.C16_inclusive"
   ],
   "note": "Proved for SafeSeek queries, lists without a key starting with 0x00 and queries not matching a key with zero real suffix; refutations for each exception; inclusive has no effect."
  },
  {
   "property": "C17",
   "status": "partial",
   "theorems": [
    "Surf.Props.C17_partial",
    "Surf.Props.C17_refuted",
    "Surf.Props.C17_strict"
   ],
   "note": "Up to 63 real bits, every iterator from SafeSeek seeks and any steps; C17_refuted: 64 bits."
  },
  {
   "property": "C18",
   "status": "partial",
   "theorems": [
    "Surf.Props.C18_partial",
    "Surf.Props.C18_any_partial",
    "Surf.Props.C18_single",
    "Surf.Props.C18_refuted"
   ],
   "note": "Proved for every filter that can be written (C19_exact; always up to 2^31 keys), lists other than SingleFF, and queries that do not run past the last label (stored keys always covered); C18_single: for SingleFF lists the filter and its copy agree on all queries with non-empty keys; C18_refuted: such a query is answered differently by the copy, which has no padding behind the labels. Any sequence of queries, any iterator walk."
  },
  {
   "property": "C19",
   "status": "partial",
   "theorems": [
    "Surf.Props.C19_partial",
    "Surf.Props.C19_exact",
    "Surf.Props.C19_refuted"
   ],
   "note": "Proved for at most 2^31 keys (C19_partial) and, exactly, for all filters whose second encoding takes less than 4 GiB; for all others serialize() writes behind its buffer, since serializedSize() adds the part sizes in 32 bits (C19_exact). Refuted: a list of 3.77 billion keys of 4 bytes for which the filter is built and cannot be written (C19_refuted)."
  },
  {
   "property": "C20",
   "status": "partial",
   "theorems": [
    "Surf.Props.C20_partial",
    "Surf.Props.C20_refuted"
   ],
   "note": "The result depends on the address only modulo 8 (all byte sequences); refuted for other alignments: the same bytes at address 4 lead to a division by zero."
  },
  {
   "property": "C21",
   "status": "partial",
   "theorems": [
    "Surf.Props.C21_partial",
    "Surf.Props.C21_iter_partial",
    "Surf.Props.C21_any_partial",
    "Surf.Props.C21_forward_partial",
    "Surf.Props.C21_refuted",
    "Surf.Props.C21_past_refuted",
    "Surf.Props.C21_over_refuted",
    "Surf.Props.C21_zero_refuted",
    "Surf.Props.C21_under_refuted",
    "Surf.Props.C21_first_refuted"
   ],
   "note": "Proved: for a left bound that is a stored key (or matches one and is not excluded by its suffix) and a right bound that is a stored key or a safe seek, the count is the number of keys in the range or at most 2 less, and exactly the number of keys strictly between two stored keys; also between iterators. Conditions: no byte 0 in the second to s-th stored byte, the last node of level s-1 ends no key and has no branch 0xFF, and memory behind one array is not zero. Refuted otherwise: the count can be 2^32 for four keys, depends on memory behind an array, can exceed the number of keys, and can be 3 too small between stored keys. For any pair of safe bounds (C21_any_partial), and for left iterators from moveToFirst, seeks and ++ (C21_forward_partial), the exact value is given: the keys strictly between the two positions, or one less, or 2^32 - 1 more, with the condition that decides which."
  },
  {
   "property": "C22",
   "status": "proved",
   "theorems": [
    "Surf.Props.C22"
   ],
   "note": ""
  },
  {
   "property": "C23",
   "status": "partial",
   "theorems": [
    "Surf.Props.C23_partial",
    "Surf.Props.C23_refuted"
   ],
   "note": "Proved for machines where shifting by 64 and reading behind a vector do not trap; C23_refuted: shift by 64 in strict ISO C++; C84 says exactly which filters with real suffixes are built there."
  },
  {
   "property": "C24",
   "status": "partial",
   "theorems": [
    "Surf.Props.C24_partial",
    "Surf.Props.C24_refuted"
   ],
   "note": "Same remark as C23; C24_refuted: out-of-range read in strict ISO C++."
  },
  {
   "property": "C25",
   "status": "proved",
   "theorems": [
    "Surf.Props.C25"
   ],
   "note": "For vectors of fewer than 2^32 bits on machines where an or-operation with zero behind an array does not trap (Env.strict = false), and in ISO C++ when the bits end inside a word or with a level made of whole words (Spec.Inside); see C84_vector for the rest."
  },
  {
   "property": "C26",
   "status": "partial",
   "theorems": [
    "Surf.Props.C26_partial",
    "Surf.Props.C26_exact",
    "Surf.Props.C26_refuted"
   ],
   "note": "Proved for vectors with fewer than 2^32 minus one sampling step ones. C26_exact: with more ones the constructor never returns, because the target of the next sample is computed in 32 bits; C26_refuted gives such a vector."
  },
  {
   "property": "C27",
   "status": "partial",
   "theorems": [
    "Surf.Props.C27_partial",
    "Surf.Props.C27_none",
    "Surf.Props.C27_refuted"
   ],
   "note": "Exact when a one bit exists and for the predecessor; C27_none gives the value when no one bit follows; C27_refuted: at the last position bits behind the vector are read."
  },
  {
   "property": "C28",
   "status": "partial",
   "theorems": [
    "Surf.Props.C28_partial",
    "Surf.Props.C28_refuted"
   ],
   "note": "Proved for all nodes that end below position 2^31. Beyond, the binary searches add two positions in 32 bits: C28_refuted is a node at position 2^31 that contains a label its search does not find."
  },
  {
   "property": "C29",
   "status": "partial",
   "theorems": [
    "Surf.Props.C29_partial",
    "Surf.Props.C29_exact",
    "Surf.Props.C29_refuted"
   ],
   "note": "Holds below 2^32 bits. The number of bits is kept in 32 bits: C29_exact says for any number of bits what is built or that the construction writes outside the array; C29_refuted is such a vector."
  },
  {
   "property": "C30",
   "status": "proved",
   "theorems": [
    "Surf.Props.C30"
   ],
   "note": ""
  },
  {
   "property": "C31",
   "status": "partial",
   "theorems": [
    "Surf.Props.C31_partial",
    "Surf.Props.C31_refuted",
    "Surf.Props.C31_size_refuted"
   ],
   "note": "The documented rule is violated at the chosen level for every key list (C31_refuted, with the sizes the code estimates); it holds for every smaller level. For fewer than 2^22 shared prefixes and at most 2^30 keys (beyond that the estimates wrap)."
  },
  {
   "property": "C32",
   "status": "partial",
   "theorems": [
    "Surf.Props.C32_partial",
    "Surf.Props.C32_refuted"
   ],
   "note": "Proved except for keys that are a prefix of another stored key and shorter than the query (C32_refuted) and incomplete suffixes of more than 8 bits."
  },
  {
   "property": "C33",
   "status": "proved",
   "theorems": [
    "Surf.Props.C33"
   ],
   "note": ""
  },
  {
   "property": "C34",
   "status": "partial",
   "theorems": [
    "Surf.Props.C34_refuted",
    "Surf.Props.C34_witness"
   ],
   "note": "The claim is false: C34_refuted proves that no lookup is ever answered false; C34_witness shows the failing construction."
  },
  {
   "property": "C35",
   "status": "proved",
   "theorems": [
    "Surf.Props.C35"
   ],
   "note": "Machine assumption: Env.strict = false."
  },
  {
   "property": "C36",
   "status": "partial",
   "theorems": [
    "Surf.Props.C36_partial",
    "Surf.Props.C36_exact",
    "Surf.Props.C36_refuted"
   ],
   "note": "C36_exact: the constructor writes behind its label array exactly when the 32-bit product (n+1)*((n+1)/64+1) is smaller than the number n of branches from the start level on, and succeeds otherwise; refuted for two keys of 741439 bytes."
  },
  {
   "property": "C37",
   "status": "partial",
   "theorems": [
    "Surf.Props.C37_partial",
    "Surf.Props.C14_refuted"
   ],
   "note": "Proved for SeekSafe queries and SuffixFair suffixes; C14_refuted shows a clear flag on a skipped key."
  },
  {
   "property": "C38",
   "status": "partial",
   "theorems": [
    "Surf.Props.C38_partial",
    "Surf.Props.C38_refuted"
   ],
   "note": "Proved for SafeSeek queries and any sequence of steps (-- only without keys starting with 0x00); C38_refuted: the empty query."
  },
  {
   "property": "C39",
   "status": "partial",
   "theorems": [
    "Surf.Props.C39_partial",
    "Surf.Props.C39_any_partial",
    "Surf.Props.C39_refuted"
   ],
   "note": "Proved for every filter that can be written (C19_exact; always up to 2^31 keys), for buffers with the same previous content; refuted otherwise (C39_refuted)."
  },
  {
   "property": "C40",
   "status": "partial",
   "theorems": [
    "Surf.Props.C40_partial",
    "Surf.Props.C39_any_partial",
    "Surf.Props.C40_refuted"
   ],
   "note": "Refuted: alignment gaps keep the previous content of the buffer. Proved: same length and the same filter when read back."
  },
  {
   "property": "C41",
   "status": "proved",
   "theorems": [
    "Surf.Props.C41"
   ],
   "note": "Machine assumption: Env.strict = false."
  },
  {
   "property": "C42",
   "status": "partial",
   "theorems": [
    "Surf.Props.C42_partial",
    "Surf.Props.C42_refuted"
   ],
   "note": "Steps of the threads are the statements that use the shared iterators, in any order. Proved when at most one thread makes other calls than lookupKey; C42_refuted: two threads calling lookupRange, one is told that no key is in its range although one is."
  },
  {
   "property": "C43",
   "status": "proved",
   "theorems": [
    "Surf.Props.C02_noZero"
   ],
   "note": "Machine assumption: Env.strict = false."
  },
  {
   "property": "C44",
   "status": "partial",
   "theorems": [
    "Surf.Props.C44_partial",
    "Surf.Props.C44_fixed_partial",
    "Surf.Props.C44_refuted",
    "Surf.Props.C44_single_refuted"
   ],
   "note": "Proved when the labels of the last node do not overrun the last block of 64; C44_refuted misses an integer of a list of 64 small ones. C44_single_refuted: for every list of one integer from 255 * 2^56 on every range of integers is reported empty. Machine assumption: Env.strict = false."
  },
  {
   "property": "C45",
   "status": "proved",
   "theorems": [
    "Surf.Props.C45"
   ],
   "note": "Bits per key and number of keys below 2^31."
  },
  {
   "property": "C46",
   "status": "proved",
   "theorems": [
    "Surf.Props.C46",
    "Surf.Props.C46_answers"
   ],
   "note": "Machine assumption: Env.strict = false."
  },
  {
   "property": "C47",
   "status": "partial",
   "theorems": [
    "Surf.Props.C47_partial",
    "Surf.Props.C47_ints_partial",
    "Surf.Props.C47_refuted",
    "Surf.Props.C47_bound_refuted",
    "Surf.Props.C47_bloom_refuted"
   ],
   "note": "Proved for SuRF filters when no upper bound is a stored key and the queries satisfy the conditions of C08_partial; C47_ints_partial for integers with a condition on the stored integers only. Refuted for a stored key at the upper bound (counted as false positive), for a false negative of the filter, and for Bloom filters (the assertion fails). Machine assumption: Env.strict = false."
  },
  {
   "property": "C48",
   "status": "proved",
   "theorems": [
    "Surf.Props.C48"
   ],
   "note": ""
  },
  {
   "property": "C49",
   "status": "partial",
   "theorems": [
    "Surf.Props.C49_partial",
    "Surf.Props.C49_long_partial",
    "Surf.Props.longBounds_eq",
    "Surf.Props.C49_refuted",
    "Surf.Props.C49_long_refuted"
   ],
   "note": "The printed number is the number of queries (pairs of neighbouring queries for count-long) with a count other than 0; C49_refuted, C49_long_refuted: 1 instead of 3."
  },
  {
   "property": "C50",
   "status": "proved",
   "theorems": [
    "Surf.Props.C50",
    "Surf.Props.C50_copy_refuted"
   ],
   "note": "C50_copy_refuted: destroying a filter and its copy deletes the same arrays twice."
  },
  {
   "property": "C51",
   "status": "partial",
   "theorems": [
    "Surf.Props.C51_partial",
    "Surf.Props.C51_refuted"
   ],
   "note": "C51_partial: exactly which blocks remain after any program; C51_refuted: eleven blocks remain of every destroyed filter (ten objects and an array)."
  },
  {
   "property": "C52",
   "status": "partial",
   "theorems": [
    "Surf.Props.C52_partial",
    "Surf.Props.C52_refuted"
   ],
   "note": "C52_partial: the exact difference for constructed and for read filters, up to 2^31 keys; C52_refuted: it is never 0. Machine assumption: Env.strict = false."
  },
  {
   "property": "C53",
   "status": "proved",
   "theorems": [
    "Surf.Props.C53",
    "Surf.Props.C53_example"
   ],
   "note": "Machine assumption: Env.strict = false."
  },
  {
   "property": "C54",
   "status": "partial",
   "theorems": [
    "Surf.Props.C54_partial",
    "Surf.Props.C54_refuted",
    "Surf.Props.C54_real_refuted"
   ],
   "note": "Proved for lists whose last labels do not overrun the last block of 64 and at most 8 real suffix bits (with real suffixes, left bounds of a range that are LongEnough); refuted for each exception. Machine assumption: Env.strict = false."
  },
  {
   "property": "C55",
   "status": "partial",
   "theorems": [
    "Surf.Props.C55_partial",
    "Surf.Props.C55_free_partial",
    "Surf.Props.C55_refuted",
    "Surf.Props.C55_far_refuted"
   ],
   "note": "Proved (C55_partial): the exact answer of a range query with a safe left bound: true iff the least stored key above the left bound or indistinguishable from it is below the right bound, or indistinguishable from it, or meets one of two defects of the comparison. For lists without prefixes and keys below 2018 bytes (C55_free_partial) the claim and its converse hold. Refuted in general: an iterator at a key that is the beginning of another key compares as less than every longer string (C55_refuted), and a right bound that is exactly 2018 bytes shorter than a stored key starting with it compares as kCouldBePositive (C55_far_refuted: among all pairs of keys of m+1 bytes exactly those with m = 2018)."
  },
  {
   "property": "C56",
   "status": "partial",
   "theorems": [
    "Surf.Props.C56_count",
    "Surf.Props.C56_partial",
    "Surf.Props.C56_refuted",
    "Surf.Props.C56_broadword_refuted",
    "Surf.Props.C56_over_refuted",
    "Surf.Props.C56_linear_refuted"
   ],
   "note": "Proved for all words and arrays: suxpopcount is the population count (C56_count); select64 and select64_naive find the k-th one, select512 and selectLinear the k-th one from a word on, select64_naive, select512 and selectLinear from word 0 answer -1 if there are fewer; select64_broadword finds the k-th one counted from the least significant bit and from 0 (C56_partial). Refuted: select64 answers a place if there are too few ones (C56_refuted); select64_broadword disagrees with the other two (C56_broadword_refuted) and shifts by 64 bits if there are too few ones (C56_over_refuted); selectLinear started behind word 0 reads past the array whenever there are too few ones (C56_linear_refuted)."
  },
  {
   "property": "C57",
   "status": "partial",
   "theorems": [
    "Surf.Props.C57_partial",
    "Surf.Props.C57_false_partial",
    "Surf.Props.C57_one_partial",
    "Surf.Props.C57_one_false_partial",
    "Surf.Props.C57_refuted",
    "Surf.Props.C57_range_refuted",
    "Surf.Props.C57_bound_refuted",
    "Surf.Props.C57_zero_refuted"
   ],
   "note": "Proved for point queries, all filters except a single key starting with 0xFF, all numbers of threads and all interleavings: the positives are those of the first t*(n/t) queries, all of them iff t divides n, and then the number printed as false positives is right (C57_false_partial); range queries with one thread: the positives (C57_one_partial) and the number printed, which is the number of ranges answered true without a stored key strictly between the bounds (C57_one_false_partial). Refuted: queries left over are not executed and the assertion fails (C57_refuted); range queries share the member iterator and lose answers (C57_range_refuted, cf. C42); a range whose left bound is stored counts as a false positive (C57_bound_refuted); zero threads divide by zero (C57_zero_refuted). Machine assumption: Env.strict = false."
  },
  {
   "property": "C58",
   "status": "partial",
   "theorems": [
    "Surf.Props.C58_partial",
    "Surf.Props.C58_refuted"
   ],
   "note": "Exact result for all text files and all files of numerals below 2^64: right iff the file ends inside a word; otherwise the last word is loaded twice, and for numbers an uninitialised variable is used (C58_refuted). The files written by the generators end with a line break. The extraction operators of libstdc++ are modelled."
  },
  {
   "property": "C59",
   "status": "partial",
   "theorems": [
    "Surf.Props.C59",
    "Surf.Props.C59_valid",
    "Surf.Props.C59_refuted"
   ],
   "note": "The first sentence is proved in full (C59); a filter can be built iff the selection has a key (C59_valid), which fails for small files (C59_refuted). Sizes below 2^64/100. Named without _partial where the statement is complete."
  },
  {
   "property": "C60",
   "status": "partial",
   "theorems": [
    "Surf.Props.C60_partial",
    "Surf.Props.C60_refuted"
   ],
   "note": "The exact set of accepted command lines (results of atoi given): alterByte is always rejected, any other word for the workload is accepted, as are 0 per cent, timestamp and ARF."
  },
  {
   "property": "C61",
   "status": "partial",
   "theorems": [
    "Surf.Props.C61_partial",
    "Surf.Props.C61_refuted"
   ],
   "note": "As C47: missing are upper bounds that are stored keys, seeks excluded in C08_partial and Bloom filters. Machine assumption: Env.strict = false."
  },
  {
   "property": "C62",
   "status": "partial",
   "theorems": [
    "Surf.Props.C62_refuted",
    "Surf.Props.C62_example"
   ],
   "note": "The claim is false in full: with assertions the constructor stops the program; without them lookupKey is always true and no other operation returns (C62_refuted, all configurations)."
  },
  {
   "property": "C63",
   "status": "partial",
   "theorems": [
    "Surf.Props.C63_partial",
    "Surf.Props.C63_refuted",
    "Surf.Props.C63_lost_refuted"
   ],
   "note": "False: with assertions the constructor stops the program; without them the empty string is not found and, without hashes, the string of one zero byte is (C63_refuted), and other keys can be lost (C63_lost_refuted). Proved for all suffixes: all other keys are found if no key starts with a zero byte. Machine assumption: Env.strict = false."
  },
  {
   "property": "C64",
   "status": "partial",
   "theorems": [
    "Surf.Props.C64_partial",
    "Surf.Props.C64_lost",
    "Surf.Props.C64_refuted"
   ],
   "note": "Proved when the suffix bits of every depth are at most 2^32 and those of either encoding fewer. False in general: when the suffix bits of every depth are 0 or 2^32 every query is answered false (C64_lost); 2^29 keys with 8-bit hashes are such a filter (C64_refuted). Machine assumption: Env.strict = false."
  },
  {
   "property": "C65",
   "status": "partial",
   "theorems": [
    "Surf.Props.C65_exact_partial",
    "Surf.Props.C65_none",
    "Surf.Props.C65_mixed",
    "Surf.Props.C65_hash",
    "Surf.Props.C65_refuted"
   ],
   "note": "Exact condition for real suffixes: it holds iff every stored key with n bits, not all zero, behind its telling bytes also has m bits there (C65_exact_partial); false for the keys ax and bxy with 8 and 16 bits (C65_refuted). No suffixes against any, mixed against its parts and hashes of two lengths are proved, the last two for at most 57 hash bits. Not for SingleFF lists. Machine assumption: Env.strict = false."
  },
  {
   "property": "C66",
   "status": "partial",
   "theorems": [
    "Surf.Props.C66_partial",
    "Surf.Props.C66_refuted"
   ],
   "note": "Exact count for every stored key: 2^(8j-n), or all 2^(8j) if the suffix of the key is zero or missing; so the claim is false for such keys (C66_refuted). Not for SingleFF lists. Machine assumption: Env.strict = false."
  },
  {
   "property": "C67",
   "status": "partial",
   "theorems": [
    "Surf.Props.C67_partial",
    "Surf.Props.C67_range_partial",
    "Surf.Props.C67_refuted"
   ],
   "note": "Proved for the split, point queries and iteration, and for safe ranges. False for counts, which read behind the arrays (C67_refuted). Missing: ranges with other left bounds, -- for lists with a key that starts with a zero byte, SingleFF lists. Machine assumption: Env.strict = false on both machines."
  },
  {
   "property": "C68",
   "status": "partial",
   "theorems": [
    "Surf.Props.C68_partial",
    "Surf.Props.C68_range_partial",
    "Surf.Props.C68_refuted",
    "Surf.Props.C68_count_refuted"
   ],
   "note": "Proved for iteration, and for ranges over keys without prefixes whose left bound is a safe seek in both filters. False for other ranges (C68_refuted) and for counts (C68_count_refuted). Not for SingleFF lists. Machine assumption: Env.strict = false."
  },
  {
   "property": "C69",
   "status": "partial",
   "theorems": [
    "Surf.Props.C69_partial",
    "Surf.Props.C69_refuted",
    "Surf.Props.C69_release_refuted"
   ],
   "note": "Proved: with assertions, every list in which a key is followed directly by one of its proper beginnings is refused. False for other lists that are not sorted (C69_refuted) and for all of them without assertions (C69_release_refuted)."
  },
  {
   "property": "C70",
   "status": "partial",
   "theorems": [
    "Surf.Props.C70_partial",
    "Surf.Props.C70_refuted",
    "Surf.Props.C70_count_refuted"
   ],
   "note": "Proved for all seeks, ranges and iterators, also those at positions that a wrong search left behind. False for the empty bound in builds with assertions (C70_refuted) and for counts (C70_count_refuted). Not for SingleFF lists (C53 has the answers of their seeks and ranges). Machine assumption: Env.strict = false."
  },
  {
   "property": "C71",
   "status": "proved",
   "theorems": [
    "Surf.Props.C71",
    "Surf.Props.C71_mixed",
    "Surf.Props.suffixHash_spec"
   ],
   "note": "Spec.hash is written anew over natural numbers; it has the values of LevelDB's own test (C71_example). SingleFF lists are excepted in the statement (C35 has their answers). Machine assumptions: Env.strict = false, little-endian."
  },
  {
   "property": "C72",
   "status": "partial",
   "theorems": [
    "Surf.Props.C72_partial",
    "Surf.Props.C72_same",
    "Surf.Props.C72_refuted"
   ],
   "note": "Exact count 2^(8j - min(n,25)) whenever one aligned group of four bytes lies in the continuation; so it is true up to 25 bits and false beyond: filters with 25 to 57 hash bits accept the same queries (C72_same, C72_refuted). Missing: shorter continuations, where the count depends on the values of the hash. Not for SingleFF lists. Machine assumption: Env.strict = false."
  },
  {
   "property": "C73",
   "status": "proved",
   "theorems": [
    "Surf.Props.C73",
    "Surf.Props.C73_bench",
    "Surf.Props.murmur32_spec",
    "Surf.Props.murmur128_spec",
    "Surf.Props.murmur64_spec"
   ],
   "note": "The specification is written anew over natural numbers, without a case distinction on the last bytes; C73_example: it has the published values. Data of fewer than 2^31 bytes (len is an int), little-endian machine, and the shifts of bytes of 128 and more into the sign bit of an int taken as compilers do them."
  },
  {
   "property": "C74",
   "status": "partial",
   "theorems": [
    "Surf.Props.C74_partial",
    "Surf.Props.C74_refuted",
    "Surf.Props.C74_large"
   ],
   "note": "Proved for all lists in which no prefix (except the empty one) is followed by 3 to 11 different bytes, with positions below 2^32 (C74_large: more than 2^31 keys for which this holds). Refuted for the numbers 0 to 2^31+2 with 4 bytes each: the stored number 2^31 is not found, since binarySearch computes (l + r) / 2 in 32 bits."
  },
  {
   "property": "C75",
   "status": "proved",
   "theorems": [
    "Surf.Props.C75"
   ],
   "note": "Exact formula Spec.size in terms of shared prefixes, branches and distinguishing lengths of the keys, and the two bounds; includes lists of one key and SingleFF lists."
  },
  {
   "property": "C76",
   "status": "proved",
   "theorems": [
    "Surf.Props.C76",
    "Surf.Props.C76_stored",
    "Surf.Props.C76_none"
   ],
   "note": "C76: same stored forms and suffix bits, same filter (bit for bit, including unused words); C76_stored: the stored forms can be read off the filter (any suffixes); C76_none: the equivalence without suffixes. SingleFF lists included. Machine assumption: Env.strict = false."
  },
  {
   "property": "C77",
   "status": "partial",
   "theorems": [
    "Surf.Props.C77_partial",
    "Surf.Props.C77_back_partial",
    "Surf.Props.C77_refuted",
    "Surf.Props.C77_real_refuted",
    "Surf.Props.C77_hash_refuted"
   ],
   "note": "Point query true implies range true for no, hash and mixed suffixes (C77_partial); range true implies point query true for prefix-free keys with no or real suffixes (C77_back_partial); queries within SafeSeek. Refuted in general: keys ab, aba and query aaa (range true, point false); 8 real bits, keys a, b and query a\\x05 (point true, range false). Hash bits are not looked at by range queries (C77_hash_refuted)."
  },
  {
   "property": "C78",
   "status": "partial",
   "theorems": [
    "Surf.Props.C78_partial",
    "Surf.Props.C78_left_partial",
    "Surf.Props.C78_refuted",
    "Surf.Props.C78_left_refuted"
   ],
   "note": "C78_left_partial: any keys, at most 8 real bits, lowering an included left bound of a nonempty range. C78_partial: both bounds, for prefix-free keys and at most 8 real bits. Left bounds within SafeSeek, keys starting with a right bound stored with fewer than 2018 bytes more. Refuted in general: keys abb, abba (raising the right bound), 16 real bits with keys a, b (lowering the left bound)."
  },
  {
   "property": "C79",
   "status": "partial",
   "theorems": [
    "Surf.Props.C79_partial",
    "Surf.Props.C79_refuted"
   ],
   "note": "Proved where C21_partial applies (bounds that match stored keys, CountSafe lists, the condition on memory behind an array): exact between stored keys, otherwise at most 3 more or 4 less. Refuted for a left bound below all keys: 0 + 1 against 2^32."
  },
  {
   "property": "C80",
   "status": "partial",
   "theorems": [
    "Surf.Props.C80_partial",
    "Surf.Props.C80_refuted",
    "Surf.Props.C80_excluded_refuted",
    "Surf.Props.C80_prefix_refuted"
   ],
   "note": "The claim fails (keys a, b: the range from az down to aa answers true; so does the range from a to a with both bounds excluded). C80_partial: for prefix-free keys and at most 8 real bits, an empty range answers true exactly if one stored key is close to both bounds. Fails with prefixes (C80_prefix_refuted)."
  },
  {
   "property": "C81",
   "status": "partial",
   "theorems": [
    "Surf.Props.C81_point_partial",
    "Surf.Props.C81_range_partial",
    "Surf.Props.C81_mix_partial",
    "Surf.Props.C81_bound_refuted",
    "Surf.Props.C81_count_refuted"
   ],
   "note": "Point queries: all numbers and the rate are right, for all filter types (except SuRF filters of a single key starting with 0xFF). Range queries: where C47_partial applies. Refuted: ranges whose upper bound is a stored key are counted as false positives; the count workloads print every query as a true negative. Mixed queries: where C61_partial applies. Simplification: the rate is a fraction, not a double."
  },
  {
   "property": "C82",
   "status": "partial",
   "theorems": [
    "Surf.Props.C82_partial",
    "Surf.Props.C82_refuted",
    "Surf.Props.C82_short_refuted"
   ],
   "note": "At least 10000000 queries and any library: no undefined behaviour; with a filter that misses nothing, positives, true positives and false positives are right. Refuted: all queries that should be answered false are printed as true negatives, also those answered true, so that the rate is f/(a+f) instead of f/a (one half for a filter that always answers true); fewer than 10000000 queries are read out of range. The library (not in the repository) is a parameter. Simplification: the rate is a fraction, not a double."
  },
  {
   "property": "C83",
   "status": "partial",
   "theorems": [
    "Surf.Props.C83_partial",
    "Surf.Props.C83_range_partial",
    "Surf.Props.C83_refuted"
   ],
   "note": "Point queries, any interleaving, a number of threads that divides that of the queries, and range queries of one thread (conditions of C08_partial): positives, true positives and false positives are right. Refuted: all queries that should be answered false are printed as true negatives and the rate is f/(a+f) instead of f/a; so it is right iff there is no false positive (field right), and C83_refuted prints 1/2 instead of 1. Other numbers of threads: C57_refuted. Machine assumption: Env.strict = false. Simplification: the rate is a fraction, not a double."
  },
  {
   "property": "C84",
   "status": "partial",
   "theorems": [
    "Surf.Props.C84_partial",
    "Surf.Props.C84_vector",
    "Surf.Props.C84_refuted"
   ],
   "note": "Exact: in ISO C++ (Env.strict = true) the filter with real suffixes is built iff each of its bit vectors (nodes and suffixes of the levels in the first encoding, branches and suffixes of the others) ends inside a word or with a level made of whole words; C84_vector says it for one bit vector, with the bits made. Refuted: eight suffixes of eight bits fill a word and the construction writes behind it. Without suffixes it fails (C23_refuted). Missing: hash and mixed suffixes, a single distinct key starting with byte 0xFF, 2^22 or more shared prefixes."
  }
 ]
}