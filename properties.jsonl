{"id": "C01", "title": "Point queries never miss a stored key", "statement": "If a SuRF is built from a sorted, non-empty list of non-empty byte strings, then lookupKey(k) returns true for every k in the list, for every suffix type (with at least one suffix bit when a type other than kNone is chosen and at most 64 in total) and every sparse/dense ratio >= 1.", "quantifier": "every sorted key list, every stored key, every suffix type and length, every ratio", "why_tests_cant": "A false negative can hide in any combination of trie shape, label bytes (0x00, 0xFF), level sizes crossing 64/256/512-bit boundaries and suffix packing; tests sample one word list and one integer list.", "anchors": ["include/surf.hpp: SuRF::create, SuRF::lookupKey", "include/louds_dense.hpp: LoudsDense::lookupKey", "include/louds_sparse.hpp: LoudsSparse::lookupKey", "include/surf_builder.hpp: SuRFBuilder::build"]}
{"id": "C02", "title": "A positive point query is explained by a stored distinguishing prefix", "statement": "With kNone, lookupKey(q) is true if and only if some stored key k either equals q and is a proper prefix of another stored key, or is not a proper prefix of another stored key and agrees with q on the shortest prefix of k that no other distinct stored key shares.", "quantifier": "every sorted key list, every query string of any length", "why_tests_cant": "An exact if-and-only-if over all queries cannot be sampled; every false positive must be accounted for by the truncation rule.", "anchors": ["include/surf.hpp: SuRF::lookupKey", "include/louds_dense.hpp: LoudsDense::lookupKey", "include/louds_sparse.hpp: LoudsSparse::lookupKey"]}
{"id": "C03", "title": "Real suffix bits narrow a positive answer", "statement": "With kReal and n suffix bits, lookupKey(q) is true iff some stored key k matches q as in C02 and, beyond the distinguishing prefix, either k has no recorded suffix (its next n bits are missing or all zero) or q has at least n more bits and they equal k's next n bits. Excepted are lists with a single distinct key that starts with byte 0xFF (see C35).", "quantifier": "every sorted key list, query and suffix length 1..64", "why_tests_cant": "Suffixes are packed across 64-bit word boundaries at positions that depend on the whole key set.", "anchors": ["include/suffix.hpp: BitvectorSuffix::constructRealSuffix, checkEquality, read", "include/surf_builder.hpp: SuRFBuilder::storeSuffix"]}
{"id": "C04", "title": "Hash suffix bits narrow a positive answer", "statement": "With kHash and n suffix bits (n>=1), lookupKey(q) is true iff some stored key k matches q as in C02 and the n-bit hash suffix of q equals that of k. Excepted are lists with a single distinct key that starts with byte 0xFF (see C35). The hash part has at most 57 bits.", "quantifier": "every sorted key list, query and hash suffix length", "why_tests_cant": "Hash suffix equality must be checked against the suffix of the right key for every trie position.", "anchors": ["include/suffix.hpp: constructHashSuffix, checkEquality", "include/hash.hpp: Hash"]}
{"id": "C05", "title": "Mixed suffixes require both parts to agree", "statement": "With kMixed (h hash bits, r real bits, h>=1, h+r<=64) lookupKey(q) is true iff some stored key k matches q as in C02 and both the h-bit hash suffix and the r-bit real suffix computed for q equal those computed for k. Excepted are lists with a single distinct key that starts with byte 0xFF (see C35). The hash part has at most 57 bits.", "quantifier": "every sorted key list, query, h and r", "why_tests_cant": "Same as C03/C04; additionally the two fields share one packed slot.", "anchors": ["include/suffix.hpp: constructMixedSuffix, extractHashSuffix, extractRealSuffix, checkEquality"]}
{"id": "C06", "title": "Duplicate keys are harmless", "statement": "Building from a sorted list with repeated keys yields exactly the same filter as building from the list without repetitions.", "quantifier": "every sorted list with any multiplicities", "why_tests_cant": "Multiplicities and their positions are unbounded.", "anchors": ["include/surf_builder.hpp: SuRFBuilder::buildSparse, isSameKey"]}
{"id": "C07", "title": "The dense/sparse split is invisible to point queries", "statement": "For the same keys and suffix configuration, filters built with any two ratios >= 1 give the same lookupKey answer for every query.", "quantifier": "every key list, every pair of ratios, every query", "why_tests_cant": "The cutoff level depends on data sizes; equality must hold for every cutoff.", "anchors": ["include/surf_builder.hpp: determineCutoffLevel, buildDense", "include/surf.hpp: SuRF::lookupKey"]}
{"id": "C08", "title": "Range queries never miss a stored key", "statement": "If some stored key lies in the queried interval (with the given inclusiveness), lookupRange returns true.", "quantifier": "every sorted key list, every pair of bounds and inclusiveness flags, every suffix type", "why_tests_cant": "A miss depends on where the left bound leaves the trie, node sizes, terminators and suffix lengths; tests only use stored keys or integers as bounds.", "anchors": ["include/surf.hpp: SuRF::lookupRange, SuRF::Iter::compare", "include/louds_sparse.hpp: LoudsSparse::moveToKeyGreaterThan, moveToLeftInNextSubtrie", "include/label_vector.hpp: LabelVector::search, searchGreaterThan"]}
{"id": "C09", "title": "Range queries do not depend on query history", "statement": "lookupRange's answer is a function of the filter and the arguments only: whatever lookupRange/approxCount calls were made before on the same object, the answer is the same as on a fresh object.", "quantifier": "every filter, every history of queries, every bounds", "why_tests_cant": "The object reuses a member iterator whose fields are only partly reset; histories are unbounded.", "anchors": ["include/surf.hpp: SuRF::lookupRange, SuRF::Iter::clear", "include/louds_dense.hpp: LoudsDense::Iter::clear", "include/louds_sparse.hpp: LoudsSparse::Iter::clear"]}
{"id": "C10", "title": "moveToFirst points at the smallest stored key", "statement": "moveToFirst returns a valid iterator whose key is the stored (truncated) form of the smallest key.", "quantifier": "every sorted key list and configuration", "why_tests_cant": "Leftmost descent crosses the dense/sparse border at data-dependent places.", "anchors": ["include/surf.hpp: SuRF::moveToFirst", "include/louds_dense.hpp: setToFirstLabelInRoot, moveToLeftMostKey", "include/louds_sparse.hpp: moveToLeftMostKey"]}
{"id": "C11", "title": "moveToLast points at the largest stored key", "statement": "moveToLast returns a valid iterator whose key is the stored (truncated) form of the largest key.", "quantifier": "every sorted key list and configuration", "why_tests_cant": "as C10, mirrored", "anchors": ["include/surf.hpp: SuRF::moveToLast", "include/louds_dense.hpp: setToLastLabelInRoot, moveToRightMostKey, getPrevPos", "include/louds_sparse.hpp: moveToRightMostKey, getLastLabelPos"]}
{"id": "C12", "title": "Forward iteration visits every stored key once, in order", "statement": "Starting at moveToFirst and applying ++ repeatedly visits exactly the distinct stored keys (in truncated form) in ascending order and then becomes invalid; ++ returns true exactly when the iterator is valid afterwards.", "quantifier": "every sorted key list, configuration and number of steps", "why_tests_cant": "Needs induction over an unbounded number of steps and all trie shapes.", "anchors": ["include/surf.hpp: SuRF::Iter::operator++", "include/louds_dense.hpp: Iter::operator++", "include/louds_sparse.hpp: Iter::operator++"]}
{"id": "C13", "title": "Backward iteration is the reverse of forward iteration", "statement": "-- moves a valid iterator to the previous distinct stored key, and makes it invalid at the smallest key.", "quantifier": "every sorted key list, configuration and position", "why_tests_cant": "Depends on predecessor search in bitmaps, including position 0, and on prefix keys.", "anchors": ["include/surf.hpp: SuRF::Iter::operator--", "include/louds_dense.hpp: Iter::operator--, getPrevPos", "include/louds_sparse.hpp: Iter::operator--"]}
{"id": "C14", "title": "Seeking forward never skips a stored key", "statement": "moveToKeyGreaterThan(q, inclusive) never positions the iterator after a stored key that is > q (or >= q when inclusive), and is invalid only if there is no such key.", "quantifier": "every key list, configuration, query and flag", "why_tests_cant": "Same failure modes as C08.", "anchors": ["include/surf.hpp: SuRF::moveToKeyGreaterThan", "include/louds_dense.hpp: LoudsDense::moveToKeyGreaterThan, compareSuffixGreaterThan", "include/louds_sparse.hpp: LoudsSparse::moveToKeyGreaterThan, compareSuffixGreaterThan"]}
{"id": "C15", "title": "An iterator's key is always a prefix of a stored key", "statement": "Whenever an iterator obtained from the public API is valid, getKey() returns a prefix of some stored key that identifies it.", "quantifier": "every key list, query and sequence of iterator operations", "why_tests_cant": "Iterator positions are recombined from per-level state; all reachable states matter.", "anchors": ["include/surf.hpp: SuRF::Iter::getKey", "include/louds_sparse.hpp: moveToLeftInNextSubtrie"]}
{"id": "C16", "title": "Seeking backward", "statement": "moveToKeyLessThan(q, ..) returns an iterator on the last stored key below q, or on a stored key that cannot be distinguished from q (reported by getFpFlag), and is invalid only if no stored key is below q.", "quantifier": "every key list, configuration and query", "why_tests_cant": "Combines C13 and C14 with the false-positive flag in every state.", "anchors": ["include/surf.hpp: SuRF::moveToKeyLessThan"]}
{"id": "C17", "title": "getSuffix returns the stored key's next real bits", "statement": "For kReal/kMixed with r real bits, a valid iterator positioned on stored key k returns from getSuffix length r and exactly the r bits of k following its distinguishing prefix, or 0 when k is too short.", "quantifier": "every key list, r, position", "why_tests_cant": "Suffix slots are located by rank arithmetic over the whole trie.", "anchors": ["include/surf.hpp: SuRF::Iter::getSuffix", "include/suffix.hpp: readReal, extractRealSuffix"]}
{"id": "C18", "title": "Serialization round trip", "statement": "deSerialize(serialize(f)) answers every query exactly as f does, for every filter f (buffer 8-byte aligned).", "quantifier": "every filter produced by the constructor, every query", "why_tests_cant": "Layout sizes depend on all component sizes; only equality of every byte field gives the claim.", "anchors": ["include/surf.hpp: SuRF::serialize, deSerialize", "include/louds_dense.hpp: serialize, deSerialize", "include/louds_sparse.hpp: serialize, deSerialize", "include/rank.hpp, select.hpp, suffix.hpp, label_vector.hpp: serialize, deSerialize"]}
{"id": "C19", "title": "serialize fills exactly serializedSize() bytes", "statement": "serialize() writes within and up to the end of a buffer of serializedSize() bytes (the final assertion holds), and serializedSize() is a multiple of 8.", "quantifier": "every filter", "why_tests_cant": "sizes are arbitrary", "anchors": ["include/surf.hpp: SuRF::serialize, serializedSize", "include/config.hpp: align, sizeAlign"]}
{"id": "C20", "title": "Deserialization depends only on the bytes", "statement": "deSerialize gives the same filter whatever the address of the buffer holding the bytes.", "quantifier": "every filter, every buffer address", "why_tests_cant": "Tests always use freshly allocated (aligned) buffers.", "anchors": ["include/config.hpp: align", "include/surf.hpp: SuRF::deSerialize"]}
{"id": "C21", "title": "approxCount error bound", "statement": "approxCount(left,right) differs from the number of stored keys between the two bounds by at most 2 (undercount), for left <= right.", "quantifier": "every key list, configuration and pair of bounds", "why_tests_cant": "Counts combine per-level rank differences with wrap-around arithmetic; tests use stored keys as bounds on two data sets.", "anchors": ["include/surf.hpp: SuRF::approxCount", "include/louds_dense.hpp: approxCount, extendPosList", "include/louds_sparse.hpp: approxCount, extendPosList, appendToPosList"]}
{"id": "C22", "title": "Integer keys keep their order", "statement": "stringToUint64(uint64ToString(x)) = x for every 64-bit x, uint64ToString(x) has 8 bytes, and x < y iff uint64ToString(x) < uint64ToString(y) in key order.", "quantifier": "all 64-bit integers", "why_tests_cant": "2^64 (pairs: 2^128) inputs", "anchors": ["include/config.hpp: uint64ToString, stringToUint64"]}
{"id": "C23", "title": "Construction is well-defined", "statement": "Building a filter from any sorted, non-empty list of non-empty keys terminates, triggers no assertion and makes no out-of-range access.", "quantifier": "every key list and configuration", "why_tests_cant": "Memory safety at exact word boundaries depends on data sizes.", "anchors": ["include/surf_builder.hpp: SuRFBuilder::build", "include/bitvector.hpp: Bitvector::concatenateBitvectors"]}
{"id": "C24", "title": "Point queries are well-defined", "statement": "lookupKey terminates on every query and makes no out-of-range access and no failing assertion.", "quantifier": "every filter, every query (including empty, very long, or bytes 0x00/0xFF)", "why_tests_cant": "Arbitrary query strings", "anchors": ["include/surf.hpp: SuRF::lookupKey"]}
{"id": "C25", "title": "Rank is exact", "statement": "BitvectorRank::rank(p) is the number of one bits at positions 0..p, for every bit vector and every p inside it.", "quantifier": "every bit vector length/content and position", "why_tests_cant": "block and word boundaries at all lengths", "anchors": ["include/rank.hpp: BitvectorRank::rank, initRankLut", "include/popcount.h: popcountLinear"]}
{"id": "C26", "title": "Select is exact and inverse to rank", "statement": "BitvectorSelect::select(r) is the position of the r-th one bit for every r in 1..numOnes, for every bit vector whose first bit is one.", "quantifier": "every bit vector and rank", "why_tests_cant": "sampling table, word boundary and in-word binary search at all sizes", "anchors": ["include/select.hpp: BitvectorSelect::select, initSelectLut", "include/popcount.h: select64_popcount_search"]}
{"id": "C27", "title": "Successor/predecessor search in bit vectors is exact", "statement": "distanceToNextSetBit(p)/distanceToPrevSetBit(p) give the distance to the nearest one bit after/before p, or the distance to the end/past the start if there is none.", "quantifier": "every bit vector and position", "why_tests_cant": "word boundaries", "anchors": ["include/bitvector.hpp: distanceToNextSetBit, distanceToPrevSetBit"]}
{"id": "C28", "title": "Label search is exact whatever strategy is used", "statement": "LabelVector::search finds label c within a node iff it is present (ignoring a leading terminator) and returns its position, for linear, binary and SIMD variants alike; searchGreaterThan finds the first label greater than c.", "quantifier": "every sorted label run of any size (up to 257) at any offset", "why_tests_cant": "strategy switches by size; SIMD reads past the node", "anchors": ["include/label_vector.hpp: search, linearSearch, binarySearch, simdSearch, searchGreaterThan"]}
{"id": "C29", "title": "Concatenating levels preserves every bit", "statement": "The bit vector assembled from per-level word vectors holds exactly the bits of the levels, in order, followed by zero padding.", "quantifier": "every number of levels and level sizes", "why_tests_cant": "all residues modulo 64 and their combinations", "anchors": ["include/bitvector.hpp: concatenateBitvectors, totalNumBits"]}
{"id": "C30", "title": "Packed suffixes are read back exactly", "statement": "After storing any sequence of n-bit suffixes per level and concatenating the levels, reading slot i returns the i-th stored suffix.", "quantifier": "every sequence of suffixes, every width 1..64, every level split", "why_tests_cant": "slots straddling words at every offset", "anchors": ["include/surf_builder.hpp: storeSuffix", "include/suffix.hpp: read"]}
{"id": "C31", "title": "Dense part respects the configured size ratio", "statement": "The dense levels are chosen so that dense size * sparse_dense_ratio < sparse size, as documented.", "quantifier": "every key list and ratio", "why_tests_cant": "depends on data sizes", "anchors": ["include/surf_builder.hpp: determineCutoffLevel, computeDenseMem, computeSparseMem"]}
{"id": "C32", "title": "Iterator comparison agrees with key order", "statement": "For a valid iterator on stored key k, compare(q) is negative only if k < q can hold, positive only if k > q can hold: with real suffixes of at most 8 bits, a negative result implies k < q, a positive result implies k > q.", "quantifier": "every key list, position and query", "why_tests_cant": "All relations between k, its truncation, its suffix and q", "anchors": ["include/surf.hpp: SuRF::Iter::compare", "include/louds_dense.hpp: Iter::compare", "include/louds_sparse.hpp: Iter::compare", "include/suffix.hpp: compare"]}
{"id": "C33", "title": "Height and split level are as documented", "statement": "getHeight() is one more than the length of the longest stored (truncated) key, getSparseStartLevel() lies strictly between 0 and getHeight() for ratio >= 1.", "quantifier": "every key list and ratio", "why_tests_cant": "depends on data", "anchors": ["include/surf.hpp: getHeight, getSparseStartLevel", "include/surf_builder.hpp: insertSuffix, addLevel, determineCutoffLevel"]}
{"id": "C34", "title": "include_dense=false gives a working filter", "statement": "A filter built with include_dense=false filters point queries (returns false for some absent key) and can be built with every suffix type.", "quantifier": "every key list and query", "why_tests_cant": "configuration never exercised by the SuRF tests", "anchors": ["include/surf.hpp: SuRF::lookupKey", "include/bitvector.hpp: Bitvector(.., end_level == 0)"]}
{"id": "C35", "title": "Exactly which key lists lose a stored key", "statement": "All stored keys are found by lookupKey unless the list has a single distinct key and that key starts with byte 0xFF; in that case lookupKey returns false for every non-empty query, the stored key included.", "quantifier": "every valid key list and configuration, every query", "why_tests_cant": "The exact set of key lists with false negatives cannot be found by sampling; the claim is an equivalence over all lists.", "anchors": ["include/surf_builder.hpp: SuRFBuilder::insertKeyIntoTrieUntilUnique, isTerminator", "include/louds_dense.hpp: LoudsDense::lookupKey"]}
{"id": "C36", "title": "Construction never writes outside its buffers", "statement": "Building a filter from a valid key list (sorted, non-empty keys, total size that fits in memory) never writes outside the arrays the constructor allocates.", "quantifier": "every valid key list and configuration", "why_tests_cant": "The size of the label array is computed with a 32-bit product that wraps only for filters with more than half a million labels and then only for some counts; sampled lists do not hit them.", "anchors": ["include/label_vector.hpp: LabelVector constructor", "include/louds_sparse.hpp: LoudsSparse constructor", "include/louds_dense.hpp: LoudsDense constructor"]}
{"id": "C37", "title": "A seek without the false-positive flag is exact", "statement": "If getFpFlag() is false after moveToKeyGreaterThan(q, inclusive), the iterator is on the first stored key > q (>= q when inclusive), or invalid when there is none; if the flag is true the iterator is on a stored key that cannot be told apart from q.", "quantifier": "every valid key list, configuration, query and inclusiveness", "why_tests_cant": "The flag is set on several independent paths (dense leaf, sparse leaf, exhausted query, prefix key); its meaning is a statement about all queries against all key sets.", "anchors": ["include/surf.hpp: SuRF::moveToKeyGreaterThan", "include/louds_dense.hpp: LoudsDense::moveToKeyGreaterThan", "include/louds_sparse.hpp: LoudsSparse::moveToKeyGreaterThan"]}
{"id": "C38", "title": "A seek followed by ++ scans all stored keys from there on", "statement": "After moveToKeyGreaterThan(q, inclusive), repeated ++ visits each stored key from the position of the seek to the last one exactly once and in order, then becomes invalid; mixed with -- it moves like a cursor over the sorted list.", "quantifier": "every valid key list, configuration, query and sequence of steps", "why_tests_cant": "A scan combines the state the seek leaves in two iterators with the stepping code; unbounded sequences of steps from every seek cannot be enumerated.", "anchors": ["include/surf.hpp: SuRF::moveToKeyGreaterThan, SuRF::Iter::operator ++, SuRF::Iter::operator --", "include/louds_dense.hpp: LoudsDense::Iter", "include/louds_sparse.hpp: LoudsSparse::Iter"]}
{"id": "C39", "title": "Serializing a copy gives the same bytes", "statement": "A filter read back with deSerialize has the same serializedSize(), and serializing it again writes the same bytes.", "quantifier": "every filter, every pair of 8-byte aligned buffers", "why_tests_cant": "Sizes and padding depend on all components; only a proof covers every filter.", "anchors": ["include/surf.hpp: SuRF::serialize, deSerialize, serializedSize", "include/label_vector.hpp: serialize, deSerialize"]}
{"id": "C40", "title": "Serialized bytes are determined by the filter", "statement": "serialize() of the same filter gives the same bytes every time, so that they can be compared or hashed.", "quantifier": "every filter, every content of the freshly allocated buffer", "why_tests_cant": "Fresh memory is often zero in tests.", "anchors": ["include/surf.hpp: SuRF::serialize", "include/config.hpp: align"]}
{"id": "C41", "title": "getKeyWithSuffix returns a bit prefix of a stored key", "statement": "For a valid iterator, getKeyWithSuffix(&bitlen) returns the iterator's key followed by the stored real suffix bits; the significant bits (all of them if bitlen is 0, else all but the last 8-bitlen, which are zero) are a prefix of the bits of one stored key, the key the iterator is positioned at. With r < 64 real bits that are present in the key and not all zero, exactly r bits are appended and bitlen is r mod 8; otherwise nothing is appended and bitlen is 0. Iterators: from moveToFirst, moveToLast, seeks as in C14, and any ++ and --; lists other than a single distinct key that starts with 0xFF.", "quantifier": "every valid list, every suffix configuration, every such iterator", "why_tests_cant": "The unit tests compare the suffix on two data sets; byte order, partial bytes and absent suffixes depend on all combinations of key length and suffix length.", "anchors": ["include/surf.hpp: SuRF::Iter::getKeyWithSuffix", "include/louds_dense.hpp: LoudsDense::Iter::getKeyWithSuffix", "include/louds_sparse.hpp: LoudsSparse::Iter::getKeyWithSuffix"]}
{"id": "C42", "title": "Threads can query one filter at the same time", "statement": "When several threads call lookupKey, lookupRange and approxCount on one SuRF object at the same time, as the multi-threaded benchmark does, every call returns what it would return on a fresh object.", "quantifier": "every valid list, any number of threads with any sequences of calls, every interleaving", "why_tests_cant": "A test executes few of the interleavings; the failing ones need a switch at one particular statement.", "anchors": ["include/surf.hpp: SuRF::lookupRange, SuRF::approxCount, iter_, iter2_", "bench/workload_multi_thread.cpp: execute_workload", "bench/filter_surf.hpp: FilterSuRF"]}
{"id": "C43", "title": "Point queries without zero bytes are exact without suffixes", "statement": "With kNone, for every query q that contains no byte 0x00 (any text), lookupKey(q) is true if and only if some stored key matches q as in C02. Excepted are lists with a single distinct key that starts with byte 0xFF (see C35).", "quantifier": "every valid list, every ratio >= 1, every query without a byte 0x00", "why_tests_cant": "False positives of the label search occur at few places of large tries only.", "anchors": ["include/surf.hpp: SuRF::lookupKey", "include/label_vector.hpp: LabelVector::search"]}
{"id": "C44", "title": "Range queries over integers and other keys of one length never miss", "statement": "For a filter built from a sorted list of 64-bit integers stored with uint64ToString, with any suffix type and any suffix lengths, lookupRange(uint64ToString(lo), li, uint64ToString(hi), ri) returns true whenever a stored integer lies in the range in integer order. The same holds for keys and bounds of any one length in byte order.", "quantifier": "every sorted list of integers that fits the 32-bit fields, every configuration, all bounds and inclusion flags", "why_tests_cant": "The integer test uses one arithmetic progression; a miss needs particular numbers of branches in the last node of the trie.", "anchors": ["include/config.hpp: uint64ToString", "include/surf.hpp: SuRF::lookupRange", "include/label_vector.hpp: LabelVector::binarySearchGreaterThan", "bench/bench.hpp: uint64ToString"]}
{"id": "C45", "title": "The benchmark's Bloom filter never misses an inserted key", "statement": "A Bloom filter created by CreateFilter from n string keys (or n 64-bit integers) with b bits per key answers KeyMayMatch(k) = true for each of them, whatever the destination buffer contained before. For any query it answers true exactly when every bit probed for the query is a bit probed for some inserted key. The filter has max(64, n*b) bits rounded up to bytes, plus one byte.", "quantifier": "all b, n < 2^31, all lists of n keys, all queries, all previous buffer contents", "why_tests_cant": "The hash is arbitrary 128-bit mixing; tests cover a few keys and cannot show that the probes of insertion and query agree for every size.", "anchors": ["bench/bloom.hpp: BloomFilter::CreateFilter", "bench/bloom.hpp: BloomFilter::KeyMayMatch", "bench/filter_bloom.hpp: FilterBloom"]}
{"id": "C46", "title": "The benchmark reports the exact number of false positives of point queries", "statement": "For the workload \"point\" and every filter type, the printed number of false positives is the number of queries that the filter answers with true although the key was not inserted; the assertion that it is not negative never fails. Excepted are SuRF filters of a single distinct key that starts with byte 0xFF (see C35).", "quantifier": "all filter types and suffix lengths, all lists of inserted keys, all lists of queries", "why_tests_cant": "The benchmark is not tested; the number is a difference of two counts that is right only when there are no false negatives.", "anchors": ["bench/workload.cpp: main", "bench/filter_surf.hpp: FilterSuRF::lookup", "bench/filter_bloom.hpp: FilterBloom::lookup", "bench/filter_factory.hpp: FilterFactory::createFilter"]}
{"id": "C47", "title": "The benchmark reports the exact number of false positives of range queries", "statement": "For the workload \"range\", the printed number of false positives is the number of range queries that the filter answers with true although no inserted key lies between the query key and its upper bound, both included as in the call of lookupRange; the assertion that it is not negative never fails.", "quantifier": "all filter types and suffix lengths, both key types, all lists of inserted keys, all lists of queries", "why_tests_cant": "The benchmark is not tested; a difference needs a stored key at the upper bound or a false negative of the filter.", "anchors": ["bench/workload.cpp: main", "bench/filter_surf.hpp: FilterSuRF::lookupRange", "bench/filter_bloom.hpp: FilterBloom::lookupRange", "bench/bench.hpp: getUpperBoundKey"]}
{"id": "C48", "title": "Upper bounds of the benchmark's range queries", "statement": "The upper bound computed for a text key is above the key if and only if its last byte is an ASCII character, and then it differs in the last byte by 128 only. The upper bound computed for an integer key x is above the key if and only if x + 92233697311 < 2^64, and then it is the encoding of x + 92233697311.", "quantifier": "all non-empty text keys, all 64-bit integers", "why_tests_cant": "Wrap-around of a char or a 64-bit sum only shows for keys at the end of the domain.", "anchors": ["bench/bench.hpp: getUpperBoundKey", "bench/workload.cpp: main"]}
{"id": "C49", "title": "The benchmark adds up approximate counts", "statement": "For a SuRF filter, the number printed as count for the workload \"count-short\" is the sum of approxCount over the queries, and for \"count-long\" the sum over the pairs of neighbouring queries.", "quantifier": "all filters, both key types, all lists of queries", "why_tests_cant": "The benchmark is not tested, and the conversion of the count to bool is silent.", "anchors": ["bench/filter_surf.hpp: FilterSuRF::approxCount", "bench/workload.cpp: main"]}
{"id": "C50", "title": "Memory is released correctly unless a filter is destroyed twice", "statement": "A program that constructs SuRF filters, reads filters with deSerialize, copies SuRF objects and calls destroy() never deletes memory that is not in use or deletes it in the wrong way (delete for new[] or the reverse), if and only if it destroys no filter twice, where a copy is the same filter as the original.", "quantifier": "all sequences of constructions, deSerialize, copies and destroy() on any number of filters, all key lists and configurations", "why_tests_cant": "Double deletion is undefined behaviour that tests do not observe, and the order and number of operations is unbounded.", "anchors": ["include/surf.hpp: SuRF::create, SuRF::deSerialize, SuRF::destroy", "include/louds_dense.hpp: LoudsDense::destroy", "include/louds_sparse.hpp: LoudsSparse::destroy"]}
{"id": "C51", "title": "destroy() releases all memory of a filter", "statement": "After any program that constructs, reads, copies and destroys filters, no memory is in use that was allocated for a filter that has been destroyed.", "quantifier": "all sequences of operations, all filters", "why_tests_cant": "Tests do not observe leaks; the unit tests pass without releasing anything.", "anchors": ["include/surf.hpp: SuRF::destroy", "include/louds_dense.hpp: LoudsDense::destroy", "include/louds_sparse.hpp: LoudsSparse::destroy", "include/rank.hpp: BitvectorRank::destroy", "include/select.hpp: BitvectorSelect::destroy", "include/suffix.hpp: BitvectorSuffix::destroy", "include/label_vector.hpp: LabelVector::destroy"]}
{"id": "C52", "title": "getMemoryUsage reports the memory a filter occupies", "statement": "getMemoryUsage() is the number of bytes of the SuRF object and of all memory allocated for it, for filters constructed from keys and for filters read with deSerialize.", "quantifier": "all key lists and configurations, all sizes of the classes below 2^20 bytes", "why_tests_cant": "No test checks the number, and the difference depends on the number of labels (it grows with its square).", "anchors": ["include/surf.hpp: SuRF::getMemoryUsage", "include/louds_dense.hpp: LoudsDense::getMemoryUsage", "include/louds_sparse.hpp: LoudsSparse::getMemoryUsage", "include/label_vector.hpp: LabelVector::LabelVector, LabelVector::size"]}
{"id": "C53", "title": "A filter of a single key starting with 0xFF behaves as if it were empty", "statement": "moveToFirst and moveToLast point at the smallest and the largest stored key if and only if the list has two different keys or its only different key does not start with the byte 0xFF. For the other lists every seek with a non-empty key ends behind the last key, every range query with a non-empty left bound is answered false and every approxCount is 0, although a key is stored.", "quantifier": "all valid key lists, all configurations, all bounds", "why_tests_cant": "Unit tests use large word and integer lists; the exact boundary of the failure is a statement about all lists and all queries.", "anchors": ["include/surf_builder.hpp: SuRFBuilder::buildSparse, isTerminator", "include/louds_dense.hpp: LoudsDense::moveToKeyGreaterThan, Iter::setToFirstLabelInRoot, Iter::setToLastLabelInRoot", "include/surf.hpp: SuRF::lookupRange, SuRF::approxCount"]}
{"id": "C54", "title": "Range queries and seeks over keys without prefixes never miss", "statement": "If no stored key is the beginning of another stored key (for example because every key ends with a terminator that occurs nowhere else), then no seek with a non-empty key skips a stored key and no range query with a non-empty left bound is answered false although a stored key lies in the range, whatever the bounds are.", "quantifier": "all key lists without prefixes, all bounds, all configurations", "why_tests_cant": "The set of bounds is infinite and the failures depend on the number of labels in the last node and on suffix lengths.", "anchors": ["include/surf.hpp: SuRF::lookupRange, SuRF::moveToKeyGreaterThan", "include/louds_sparse.hpp: LoudsSparse::moveToKeyGreaterThan", "include/label_vector.hpp: LabelVector::searchGreaterThan"]}
{"id": "C55", "title": "A positive range answer is explained by a stored key", "statement": "If lookupRange(left, ., right, .) answers true, some stored key is above the left bound or indistinguishable from it, and below the right bound or indistinguishable from it. A bound is indistinguishable from a stored key if it has the prefix that tells this key apart from all other stored keys and the same real suffix bits behind it. Range queries have no other false positives.", "quantifier": "all valid key lists, all configurations, all pairs of bounds", "why_tests_cant": "Unit tests check that stored ranges are found and count false positives on samples; which of all ranges may be answered true is a statement about all bounds and all lists, and the exceptions depend on coincidences of lengths.", "anchors": ["include/surf.hpp: SuRF::lookupRange, SuRF::Iter::compare", "include/louds_dense.hpp: LoudsDense::Iter::compare", "include/louds_sparse.hpp: LoudsSparse::Iter::compare", "include/config.hpp: kCouldBePositive"]}
{"id": "C56", "title": "The routines that count and select bits agree", "statement": "suxpopcount, the portable replacement of the compiler's population count, is the number of ones of every 64-bit word. select64, select64_naive and select64_broadword return the same place for the k-th one of a word, select512 and selectLinear the place of the k-th one of an array from a given word on; if there are fewer ones the answer is -1 and nothing outside the array is read.", "quantifier": "all 2^64 words, all arrays, all k", "why_tests_cant": "A word has 2^64 values; the bit tricks add and compare eight bytes at a time, and whether a carry can pass from one byte to the next is a question about all of them.", "anchors": ["include/popcount.h: suxpopcount, select64_naive, select64_popcount_search, select64_broadword, select512, selectLinear"]}
{"id": "C57", "title": "The benchmark with several threads executes every query once", "statement": "workload_multi_thread with n queries and t threads executes every query exactly once. For point queries on a SuRF filter the sum of the positives of all threads is the number of positives that one thread gets for all queries, in whatever order the threads run; the number of false positives it prints is the number of queries answered true for keys that were not inserted, and its assertion does not fail. For range queries the same holds with the ranges that contain no inserted key, both bounds included.", "quantifier": "all numbers of threads and queries, all filters, all interleavings", "why_tests_cant": "The order of the threads' steps is not under the control of a test, and the number of queries and threads is unbounded.", "anchors": ["bench/workload_multi_thread.cpp: main, execute_workload", "bench/filter_surf.hpp: FilterSuRF::lookup, FilterSuRF::lookupRange"]}
{"id": "C58", "title": "The benchmark loads the words of a key file", "statement": "loadKeysFromFile for text keys returns the words of the file in their order, each as often as it occurs, up to 25000000 of them. For integer keys it returns the encodings of the numbers in the file, up to 100000000 of them. A file without keys yields no keys.", "quantifier": "all files", "why_tests_cant": "The benchmark is not tested; whether the last key is read twice depends on the last byte of the file.", "anchors": ["bench/bench.hpp: loadKeysFromFile", "bench/workload_gen/gen_load.py", "bench/workload_gen/gen_txn.py"]}
{"id": "C59", "title": "The benchmark inserts a sorted random selection of the loaded keys", "statement": "The keys selectKeysToInsert chooses are sorted, are percent per cent of the loaded keys (rounded down), and no key occurs more often than among the loaded keys; every such choice is possible. For every percentage the usage message allows a filter can be built from the chosen keys.", "quantifier": "all lists of keys, all percentages up to 100, all results of the shuffle", "why_tests_cant": "The shuffle is random; the benchmark is not tested.", "anchors": ["bench/bench.hpp: selectKeysToInsert", "bench/filter_factory.hpp: FilterFactory::createFilter"]}
{"id": "C60", "title": "The benchmark accepts the command lines its usage message describes", "statement": "workload accepts a command line if and only if it is one of those that its usage message describes; in particular workload type alterByte is accepted for key type email.", "quantifier": "all command lines", "why_tests_cant": "The benchmark is not tested, and the set of command lines is infinite.", "anchors": ["bench/workload.cpp: main"]}
{"id": "C61", "title": "The benchmark reports the exact number of false positives of mixed queries", "statement": "For the workload \"mix\", the printed number of false positives is the number of point queries (every second query, from the first on) answered true for keys that were not inserted plus the number of range queries (the others) answered true although no inserted key lies in the range, both bounds included; the assertion that it is not negative does not fail.", "quantifier": "all filter types and suffix lengths, both key types, all lists of inserted keys, all lists of queries", "why_tests_cant": "The benchmark is not tested; point and range queries share one object, and a difference needs a stored key at the upper bound or a false negative.", "anchors": ["bench/workload.cpp: main", "bench/filter_surf.hpp: FilterSuRF", "bench/filter_bloom.hpp: FilterBloom"]}
{"id": "C62", "title": "A filter can be built from no keys", "statement": "A filter built from an empty list of keys works and is empty: lookupKey and lookupRange answer false, approxCount answers 0, and no iterator is valid.", "quantifier": "all configurations, all queries, with and without assertions", "why_tests_cant": "The tests never build a filter without keys; without assertions the outcome of a range query depends on the memory behind the arrays.", "anchors": ["include/surf_builder.hpp: SuRFBuilder::build", "include/surf.hpp: SuRF::lookupKey, SuRF::lookupRange, SuRF::approxCount, SuRF::moveToFirst"]}
{"id": "C63", "title": "The empty string can be a key", "statement": "If the empty string is one of the keys, a filter can be built from them, lookupKey of the empty string and of all other keys is true, and strings that share nothing with a stored key are not found because of it.", "quantifier": "all lists of keys that contain the empty string, all configurations", "why_tests_cant": "All keys of the tests have at least one byte, and the outcome for other keys depends on which bytes they start with.", "anchors": ["include/surf_builder.hpp: SuRFBuilder::insertKeyBytesToTrieUntilUnique", "include/louds_dense.hpp: LoudsDense::lookupKey"]}
{"id": "C64", "title": "Suffixes of very many keys are kept", "statement": "The suffixes of all keys are kept whatever their total number of bits: every stored key is found also in filters with 2^32 and more suffix bits.", "quantifier": "all sorted key lists and suffix lengths for which the trie itself fits 32-bit positions", "why_tests_cant": "It takes hundreds of millions of keys to reach 2^32 suffix bits; what is lost depends on how the bits are distributed over the levels.", "anchors": ["include/louds_dense.hpp: LoudsDense::LoudsDense", "include/louds_sparse.hpp: LoudsSparse::LoudsSparse", "include/suffix.hpp: BitvectorSuffix::checkEquality", "include/bitvector.hpp: Bitvector::totalNumBits"]}
{"id": "C65", "title": "Longer suffixes never make a filter less selective", "statement": "For the same keys, a filter with more suffix bits accepts no point query that the filter with fewer bits of the same kind turns away; a filter with any suffixes accepts none that a filter without suffixes turns away; a filter with mixed suffixes accepts none that one of its two parts alone turns away.", "quantifier": "all sorted key lists, suffix lengths and queries", "why_tests_cant": "It compares two filters on all queries; the exceptions need keys that end close behind the byte that tells them apart.", "anchors": ["include/suffix.hpp: BitvectorSuffix::constructRealSuffix", "include/suffix.hpp: BitvectorSuffix::checkEquality", "include/surf.hpp: SuRF::lookupKey"]}
{"id": "C66", "title": "n real suffix bits turn away all but one in 2^n continuations", "statement": "Of all strings that continue the stored bytes of a key by j bytes, a filter with n <= 8j real suffix bits accepts exactly 2^(8j-n).", "quantifier": "all sorted key lists, suffix lengths, stored keys and numbers j of further bytes", "why_tests_cant": "It counts the accepted queries among 2^(8j); tests measure a false positive rate on a sample.", "anchors": ["include/suffix.hpp: BitvectorSuffix::checkEquality", "include/suffix.hpp: BitvectorSuffix::constructRealSuffix", "include/surf.hpp: SuRF::lookupKey"]}
{"id": "C67", "title": "Answers do not depend on the machine", "statement": "Filters of the same keys and parameters give the same answers to point queries, range queries and counts and iterate over the same keys whether or not assertions are compiled in and whatever memory lies behind the arrays.", "quantifier": "all pairs of builds and memory contents, all sorted key lists, parameters and queries", "why_tests_cant": "A test runs on one build with one memory content; reads behind the end of an array show only in some of them.", "anchors": ["include/surf.hpp: SuRF::lookupKey", "include/surf.hpp: SuRF::lookupRange", "include/surf.hpp: SuRF::approxCount", "include/surf.hpp: SuRF::Iter::operator++"]}
{"id": "C68", "title": "The sparse-dense ratio does not change answers", "statement": "Filters of the same keys built with different ratios iterate over the same keys and give the same answers to range queries and counts.", "quantifier": "all sorted key lists, all ratios, bounds and sequences of iterator steps", "why_tests_cant": "It compares two encodings of the trie on all inputs; they differ only where the walk crosses from one encoding to the other.", "anchors": ["include/surf_builder.hpp: SuRFBuilder::determineCutoffLevel", "include/surf.hpp: SuRF::lookupRange", "include/surf.hpp: SuRF::approxCount", "include/surf.hpp: SuRF::Iter::operator--"]}
{"id": "C69", "title": "Key lists that are not sorted are refused", "statement": "In builds with assertions, the constructor stops on a key list that is not sorted instead of building a filter that misses stored keys.", "quantifier": "all key lists that are not sorted, all parameters", "why_tests_cant": "It ranges over all wrong lists; the assertions that fire depend on what the builder last wrote on each level.", "anchors": ["include/surf_builder.hpp: SuRFBuilder::build", "include/surf_builder.hpp: SuRFBuilder::skipCommonPrefix", "include/surf_builder.hpp: SuRFBuilder::insertKeyBytesToTrieUntilUnique"]}
{"id": "C70", "title": "Every query, seek and iterator step returns", "statement": "Whatever is asked of a filter, and wherever its iterators stand: point queries, range queries, seeks, steps and the observations of an iterator come back; none stops at an assertion, writes outside the arrays of the iterator, or runs without end.", "quantifier": "all sorted key lists, parameters, sequences of queries on one object, seeks for any string, sequences of iterator steps behind them", "why_tests_cant": "The walks also start from positions that a wrong search left behind; whether each of them ends is a question about all tries and all such positions.", "anchors": ["include/surf.hpp: SuRF::moveToKeyGreaterThan", "include/surf.hpp: SuRF::lookupRange", "include/surf.hpp: SuRF::Iter::operator++", "include/louds_sparse.hpp: LoudsSparse::moveToLeftInNextSubtrie", "include/louds_sparse.hpp: LoudsSparse::Iter::operator--"]}
{"id": "C71", "title": "The hash kept of a key is LevelDB's", "statement": "A filter with n hash bits accepts a query exactly when the query matches a stored key and bits 7 to 7+n-1 of LevelDB's hash of the whole query (seed 0xbc9f1d34, bytes read in little-endian groups of four, the last one to three bytes together) agree with those of the key, so that another program can predict the answers from the bytes alone. Excepted are lists with a single distinct key that starts with byte 0xFF, where every non-empty query is turned away (C35).", "quantifier": "all sorted key lists, hash lengths up to 57, queries of any length, both for hash and for mixed suffixes", "why_tests_cant": "A slip in a shift or in the handling of the last bytes still gives a function that makes a working filter; the unit tests compare the code with itself.", "anchors": ["include/hash.hpp: suffixHash", "include/suffix.hpp: BitvectorSuffix::constructHashSuffix", "include/suffix.hpp: BitvectorSuffix::checkEquality"]}
{"id": "C72", "title": "n hash bits turn away all but one in 2^n strings", "statement": "Of all strings that agree with a stored key up to the byte that tells it from the others and go on for j more bytes, exactly one in 2^n is accepted by a filter with n hash bits.", "quantifier": "all sorted key lists, stored keys, n, j", "why_tests_cant": "It counts over 2^(8j) strings; that no hash value is favoured follows from each round of the hash being invertible, not from samples.", "anchors": ["include/hash.hpp: suffixHash", "include/suffix.hpp: BitvectorSuffix::constructHashSuffix", "include/config.hpp: kHashShift"]}
{"id": "C73", "title": "The Bloom filter of the benchmark is LevelDB's with MurmurHash3", "statement": "The hash functions of the benchmark give the published values of MurmurHash3 (x86_32, x86_128, x64_128) for every input and seed. The Bloom filter of n keys with b bits each has max(64, n*b) bits rounded up to bytes, of which exactly those at the probes (h + i*delta mod 2^32) mod bits of the keys are set, with h and delta the first two words of x86_128 with seed 0xbc9f1d34, and one byte more with the number of probes 0.69*b (at least 1, at most 30). A query of any byte string as a filter reads only bits of it and answers by its last byte and its probes, so that filters are interchangeable with other implementations.", "quantifier": "all data, seeds, lists of string and integer keys, bits per key, byte strings taken for a filter", "why_tests_cant": "A wrong shift or threshold in the handling of the last bytes still gives a working filter with other bits; equality of the functions is about all inputs of all lengths.", "anchors": ["bench/MurmurHash3.h: MurmurHash3_x86_32", "bench/MurmurHash3.h: MurmurHash3_x86_128", "bench/MurmurHash3.h: MurmurHash3_x64_128", "bench/bloom.hpp: CreateFilter", "bench/bloom.hpp: KeyMayMatch"]}
{"id": "C74", "title": "Filters of more than 2^31 keys contain their keys", "statement": "If a filter can be built from a list of keys, every key of the list is found by a point lookup, also when the list has more than 2^31 keys or the filter more than 2^31 labels.", "quantifier": "every sorted key list that the constructor accepts with positions below 2^32, every suffix configuration and ratio", "why_tests_cant": "Needs billions of keys; the wrong midpoint of a bisection depends on absolute positions that no unit test reaches.", "anchors": ["include/label_vector.hpp: binarySearch", "include/louds_sparse.hpp: lookupKey", "include/surf.hpp: lookupKey"]}
{"id": "C75", "title": "Size of a filter", "statement": "serializedSize() is determined by the keys, the suffix lengths and the level at which the second encoding starts: with D nodes above that level, B branches from it on, n different keys and r suffix bits per key, it is at least (513 D + 10 B + n r) / 8 bytes and at most (546 D + 11 B + n r) / 8 bytes plus 4 bytes per level (8 for levels of the first encoding) plus 240 bytes, with an exact formula in between.", "quantifier": "every sorted key list, suffix configuration and ratio, as long as the second encoding takes less than 4 GiB (beyond it serialize fails, C19)", "why_tests_cant": "Tests print the size of a few filters; a bound needs all shapes of tries, including those where padding, counts and samples dominate.", "anchors": ["include/surf.hpp: serializedSize", "include/louds_dense.hpp: serializedSize", "include/louds_sparse.hpp: serializedSize"]}
{"id": "C76", "title": "A filter keeps nothing of a key but its telling bytes and its suffix", "statement": "Two sorted key lists with the same stored forms (the bytes that tell each key from the others) and the same suffix bits give exactly the same filter, so nothing else about the keys can be learnt from it. Conversely, equal filters have the same stored forms; without suffixes two lists give the same filter if and only if the stored forms are the same.", "quantifier": "all pairs of sorted key lists, every suffix configuration (up to 57 hash bits) and ratio", "why_tests_cant": "Relates all pairs of key lists; a test compares answers for a few keys and cannot show that two filters are equal bit for bit.", "anchors": ["include/surf_builder.hpp: build, insertKeyBytesToTrieUntilUnique, insertSuffix", "include/surf.hpp: SuRF::create"]}
{"id": "C77", "title": "A range that consists of one key is answered like a point query", "statement": "lookupRange(q, true, q, true) answers true whenever lookupKey(q) does, and conversely, so a caller may use either to test for one key.", "quantifier": "all sorted key lists, all queries q, every suffix configuration and ratio", "why_tests_cant": "The two calls run through different code (trie descent with suffix test against iterator seek with comparison); agreement on sampled keys says nothing about the other queries.", "anchors": ["include/surf.hpp: SuRF::lookupKey, SuRF::lookupRange", "include/suffix.hpp: checkEquality, compare"]}
{"id": "C78", "title": "Widening a range never loses a positive answer", "statement": "If lookupRange answers true for a range, it answers true for every range with a smaller or equal left bound and a larger or equal right bound.", "quantifier": "all sorted key lists, all pairs of nested ranges, all choices of included bounds, every suffix configuration and ratio", "why_tests_cant": "Monotonicity relates all pairs of nested ranges, including those whose answers are false positives, which tests do not check.", "anchors": ["include/surf.hpp: SuRF::lookupRange, SuRF::Iter::compare", "include/suffix.hpp: compare"]}
{"id": "C79", "title": "Counts of adjacent ranges add up", "statement": "approxCount(a, b) and approxCount(b, c) add up to approxCount(a, c), up to the error of the single counts; if a < b < c are stored keys, exactly, with one added for b.", "quantifier": "all sorted key lists, all bounds a <= b <= c, every suffix configuration and ratio, every state of the objects counted on", "why_tests_cant": "Relates three counts for all triples of bounds; each of them is computed from positions at every level, and a wrong case needs particular keys between the bounds.", "anchors": ["include/surf.hpp: SuRF::approxCount", "include/louds_dense.hpp: approxCount", "include/louds_sparse.hpp: approxCount"]}
{"id": "C80", "title": "An empty range contains nothing", "statement": "lookupRange answers false for a range whose right bound is below its left bound, and for a range with equal bounds that are both excluded.", "quantifier": "all sorted key lists, all bounds with right <= left, every suffix configuration and ratio", "why_tests_cant": "Tests query proper ranges; which of all inverted ranges are answered true depends on all pairs of bounds and stored keys.", "anchors": ["include/surf.hpp: SuRF::lookupRange", "include/surf.hpp: SuRF::Iter::compare"]}
{"id": "C81", "title": "The false positive rate printed by the benchmark is right", "statement": "The benchmark prints the numbers of positive answers, true positives, false positives and true negatives of its queries, and a false positive rate that is the share of the queries answered true among those that should be answered false.", "quantifier": "all inserted keys, all lists of queries, all filter types and suffix lengths", "why_tests_cant": "The numbers are printed, not checked; whether they are right depends on the filter having no false negatives on any of the queries.", "anchors": ["bench/workload.cpp: main (lines 123-232)"]}
{"id": "C82", "title": "The false positive rate printed by the ARF benchmark is right", "statement": "The ARF benchmark prints the numbers of positive answers, true positives, false positives and true negatives of the queries behind the training, and a false positive rate that is the share of the queries answered true among those that should be answered false, for every filter library.", "quantifier": "all query files, both query types, all behaviours of the filter library", "why_tests_cant": "The numbers are printed, not checked, and the library is not part of the repository: the claim is about every behaviour it may have.", "anchors": ["bench/workload_arf.cpp: main (lines 70-145)"]}
{"id": "C83", "title": "The false positive rate printed by the benchmark with several threads is right", "statement": "With VERBOSE, workload_multi_thread prints the numbers of positive answers, true positives, false positives and true negatives of its queries, and a false positive rate that is the share of the queries answered true among those that should be answered false, whatever the order in which the threads run.", "quantifier": "all inserted keys, all lists of queries, all numbers of threads, all interleavings", "why_tests_cant": "The numbers are printed, not checked; the answers are collected by threads that run in any order.", "anchors": ["bench/workload_multi_thread.cpp: main (lines 205-243)"]}
{"id": "C84", "title": "Building a filter is defined in ISO C++", "statement": "Building a filter with real suffixes from a sorted, non-empty list of non-empty keys makes no write outside an array and no shift by the width of a word, so that the result does not depend on how the machine or compiler treats them.", "quantifier": "all key lists, all numbers of suffix bits, all ratios", "why_tests_cant": "The write behind an array leaves the word there unchanged, so that the filter is the same; whether it happens depends on exact numbers of nodes, branches and suffix bits.", "anchors": ["include/bitvector.hpp: Bitvector::concatenateBitvectors", "include/surf_builder.hpp: SuRFBuilder::build", "include/suffix.hpp: BitvectorSuffix"]}
