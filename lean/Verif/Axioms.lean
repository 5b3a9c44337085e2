import Verif.Props.Agree
import Verif.Props.Arf
import Verif.Props.Bench
import Verif.Props.Beyond
import Verif.Props.Bloom
import Verif.Props.Build
import Verif.Props.Count
import Verif.Props.CountAny
import Verif.Props.CountSum
import Verif.Props.CountWitness
import Verif.Props.CountZero
import Verif.Props.Empty
import Verif.Props.HashSuffix
import Verif.Props.History
import Verif.Props.Ints
import Verif.Props.Iter
import Verif.Props.IterWitness
import Verif.Props.KeyFiles
import Verif.Props.KeySuffix
import Verif.Props.Lookup
import Verif.Props.LookupWitness
import Verif.Props.Machines
import Verif.Props.Memory
import Verif.Props.MultiReport
import Verif.Props.Murmur
import Verif.Props.Popcount
import Verif.Props.PrefixFree
import Verif.Props.Range
import Verif.Props.RangeExact
import Verif.Props.RangeWitness
import Verif.Props.Report
import Verif.Props.Returns
import Verif.Props.Same
import Verif.Props.SerialWrap
import Verif.Props.Serialize
import Verif.Props.SingleCopy
import Verif.Props.SingleFF
import Verif.Props.Size
import Verif.Props.Strict
import Verif.Props.SuffixKinds
import Verif.Props.SuffixWrap
import Verif.Props.Threads
import Verif.Props.Unsorted
import Verif.Props.Vectors
import Verif.Props.Workload

/-!
# Axioms of the property theorems

Building this file prints the axioms each theorem named in MANIFEST.json depends on. The only ones are `propext`,
`Classical.choice` and `Quot.sound`.
-/

#print axioms Surf.Props.C01_partial
#print axioms Surf.Props.C01_refuted
#print axioms Surf.Props.C02_noZero
#print axioms Surf.Props.C02_partial
#print axioms Surf.Props.C02_refuted
#print axioms Surf.Props.C02_single
#print axioms Surf.Props.C03
#print axioms Surf.Props.C04
#print axioms Surf.Props.C05
#print axioms Surf.Props.C06
#print axioms Surf.Props.C07_partial
#print axioms Surf.Props.C07_refuted
#print axioms Surf.Props.C08_history_partial
#print axioms Surf.Props.C08_overrun_refuted
#print axioms Surf.Props.C08_partial
#print axioms Surf.Props.C08_refuted
#print axioms Surf.Props.C08_short_refuted
#print axioms Surf.Props.C08_suffix_refuted
#print axioms Surf.Props.C09
#print axioms Surf.Props.C10_partial
#print axioms Surf.Props.C10_refuted
#print axioms Surf.Props.C11_partial
#print axioms Surf.Props.C11_refuted
#print axioms Surf.Props.C12_partial
#print axioms Surf.Props.C12_refuted
#print axioms Surf.Props.C13_partial
#print axioms Surf.Props.C13_refuted
#print axioms Surf.Props.C13_step_partial
#print axioms Surf.Props.C14_overrun_refuted
#print axioms Surf.Props.C14_partial
#print axioms Surf.Props.C14_refuted
#print axioms Surf.Props.C14_suffix_refuted
#print axioms Surf.Props.C15_partial
#print axioms Surf.Props.C15_refuted
#print axioms Surf.Props.C15_seek_refuted
#print axioms Surf.Props.C16_inclusive
#print axioms Surf.Props.C16_partial
#print axioms Surf.Props.C16_refuted
#print axioms Surf.Props.C16_suffix_refuted
#print axioms Surf.Props.C16_zero_refuted
#print axioms Surf.Props.C17_partial
#print axioms Surf.Props.C17_refuted
#print axioms Surf.Props.C17_strict
#print axioms Surf.Props.C18_any_partial
#print axioms Surf.Props.C18_partial
#print axioms Surf.Props.C18_refuted
#print axioms Surf.Props.C18_single
#print axioms Surf.Props.C19_exact
#print axioms Surf.Props.C19_partial
#print axioms Surf.Props.C19_refuted
#print axioms Surf.Props.C20_partial
#print axioms Surf.Props.C20_refuted
#print axioms Surf.Props.C21_any_partial
#print axioms Surf.Props.C21_first_refuted
#print axioms Surf.Props.C21_forward_partial
#print axioms Surf.Props.C21_iter_partial
#print axioms Surf.Props.C21_over_refuted
#print axioms Surf.Props.C21_partial
#print axioms Surf.Props.C21_past_refuted
#print axioms Surf.Props.C21_refuted
#print axioms Surf.Props.C21_under_refuted
#print axioms Surf.Props.C21_zero_refuted
#print axioms Surf.Props.C22
#print axioms Surf.Props.C23_partial
#print axioms Surf.Props.C23_refuted
#print axioms Surf.Props.C24_partial
#print axioms Surf.Props.C24_refuted
#print axioms Surf.Props.C25
#print axioms Surf.Props.C26_exact
#print axioms Surf.Props.C26_partial
#print axioms Surf.Props.C26_refuted
#print axioms Surf.Props.C27_none
#print axioms Surf.Props.C27_partial
#print axioms Surf.Props.C27_refuted
#print axioms Surf.Props.C28_partial
#print axioms Surf.Props.C28_refuted
#print axioms Surf.Props.C29_exact
#print axioms Surf.Props.C29_partial
#print axioms Surf.Props.C29_refuted
#print axioms Surf.Props.C30
#print axioms Surf.Props.C31_partial
#print axioms Surf.Props.C31_refuted
#print axioms Surf.Props.C31_size_refuted
#print axioms Surf.Props.C32_partial
#print axioms Surf.Props.C32_refuted
#print axioms Surf.Props.C33
#print axioms Surf.Props.C34_refuted
#print axioms Surf.Props.C34_witness
#print axioms Surf.Props.C35
#print axioms Surf.Props.C36_exact
#print axioms Surf.Props.C36_partial
#print axioms Surf.Props.C36_refuted
#print axioms Surf.Props.C37_partial
#print axioms Surf.Props.C38_partial
#print axioms Surf.Props.C38_refuted
#print axioms Surf.Props.C39_any_partial
#print axioms Surf.Props.C39_partial
#print axioms Surf.Props.C39_refuted
#print axioms Surf.Props.C40_partial
#print axioms Surf.Props.C40_refuted
#print axioms Surf.Props.C41
#print axioms Surf.Props.C42_partial
#print axioms Surf.Props.C42_refuted
#print axioms Surf.Props.C44_fixed_partial
#print axioms Surf.Props.C44_partial
#print axioms Surf.Props.C44_refuted
#print axioms Surf.Props.C44_single_refuted
#print axioms Surf.Props.C45
#print axioms Surf.Props.C46
#print axioms Surf.Props.C46_answers
#print axioms Surf.Props.C47_bloom_refuted
#print axioms Surf.Props.C47_bound_refuted
#print axioms Surf.Props.C47_ints_partial
#print axioms Surf.Props.C47_partial
#print axioms Surf.Props.C47_refuted
#print axioms Surf.Props.C48
#print axioms Surf.Props.C49_long_partial
#print axioms Surf.Props.C49_long_refuted
#print axioms Surf.Props.C49_partial
#print axioms Surf.Props.C49_refuted
#print axioms Surf.Props.C50
#print axioms Surf.Props.C50_copy_refuted
#print axioms Surf.Props.C51_partial
#print axioms Surf.Props.C51_refuted
#print axioms Surf.Props.C52_partial
#print axioms Surf.Props.C52_refuted
#print axioms Surf.Props.C53
#print axioms Surf.Props.C53_example
#print axioms Surf.Props.C54_partial
#print axioms Surf.Props.C54_real_refuted
#print axioms Surf.Props.C54_refuted
#print axioms Surf.Props.C55_far_refuted
#print axioms Surf.Props.C55_free_partial
#print axioms Surf.Props.C55_partial
#print axioms Surf.Props.C55_refuted
#print axioms Surf.Props.C56_broadword_refuted
#print axioms Surf.Props.C56_count
#print axioms Surf.Props.C56_linear_refuted
#print axioms Surf.Props.C56_over_refuted
#print axioms Surf.Props.C56_partial
#print axioms Surf.Props.C56_refuted
#print axioms Surf.Props.C57_bound_refuted
#print axioms Surf.Props.C57_false_partial
#print axioms Surf.Props.C57_one_false_partial
#print axioms Surf.Props.C57_one_partial
#print axioms Surf.Props.C57_partial
#print axioms Surf.Props.C57_range_refuted
#print axioms Surf.Props.C57_refuted
#print axioms Surf.Props.C57_zero_refuted
#print axioms Surf.Props.C58_partial
#print axioms Surf.Props.C58_refuted
#print axioms Surf.Props.C59
#print axioms Surf.Props.C59_refuted
#print axioms Surf.Props.C59_valid
#print axioms Surf.Props.C60_partial
#print axioms Surf.Props.C60_refuted
#print axioms Surf.Props.C61_partial
#print axioms Surf.Props.C61_refuted
#print axioms Surf.Props.C62_example
#print axioms Surf.Props.C62_refuted
#print axioms Surf.Props.C63_lost_refuted
#print axioms Surf.Props.C63_partial
#print axioms Surf.Props.C63_refuted
#print axioms Surf.Props.C64_lost
#print axioms Surf.Props.C64_partial
#print axioms Surf.Props.C64_refuted
#print axioms Surf.Props.C65_exact_partial
#print axioms Surf.Props.C65_hash
#print axioms Surf.Props.C65_mixed
#print axioms Surf.Props.C65_none
#print axioms Surf.Props.C65_refuted
#print axioms Surf.Props.C66_partial
#print axioms Surf.Props.C66_refuted
#print axioms Surf.Props.C67_partial
#print axioms Surf.Props.C67_range_partial
#print axioms Surf.Props.C67_refuted
#print axioms Surf.Props.C68_count_refuted
#print axioms Surf.Props.C68_partial
#print axioms Surf.Props.C68_range_partial
#print axioms Surf.Props.C68_refuted
#print axioms Surf.Props.C69_partial
#print axioms Surf.Props.C69_refuted
#print axioms Surf.Props.C69_release_refuted
#print axioms Surf.Props.C70_count_refuted
#print axioms Surf.Props.C70_partial
#print axioms Surf.Props.C70_refuted
#print axioms Surf.Props.C71
#print axioms Surf.Props.C71_mixed
#print axioms Surf.Props.C72_partial
#print axioms Surf.Props.C72_refuted
#print axioms Surf.Props.C72_same
#print axioms Surf.Props.C73
#print axioms Surf.Props.C73_bench
#print axioms Surf.Props.C74_large
#print axioms Surf.Props.C74_partial
#print axioms Surf.Props.C74_refuted
#print axioms Surf.Props.C75
#print axioms Surf.Props.C76
#print axioms Surf.Props.C76_none
#print axioms Surf.Props.C76_stored
#print axioms Surf.Props.C77_back_partial
#print axioms Surf.Props.C77_hash_refuted
#print axioms Surf.Props.C77_partial
#print axioms Surf.Props.C77_real_refuted
#print axioms Surf.Props.C77_refuted
#print axioms Surf.Props.C78_left_partial
#print axioms Surf.Props.C78_left_refuted
#print axioms Surf.Props.C78_partial
#print axioms Surf.Props.C78_refuted
#print axioms Surf.Props.C79_partial
#print axioms Surf.Props.C79_refuted
#print axioms Surf.Props.C80_excluded_refuted
#print axioms Surf.Props.C80_partial
#print axioms Surf.Props.C80_prefix_refuted
#print axioms Surf.Props.C80_refuted
#print axioms Surf.Props.C81_bound_refuted
#print axioms Surf.Props.C81_count_refuted
#print axioms Surf.Props.C81_mix_partial
#print axioms Surf.Props.C81_point_partial
#print axioms Surf.Props.C81_range_partial
#print axioms Surf.Props.C82_partial
#print axioms Surf.Props.C82_refuted
#print axioms Surf.Props.C82_short_refuted
#print axioms Surf.Props.C83_partial
#print axioms Surf.Props.C83_range_partial
#print axioms Surf.Props.C83_refuted
#print axioms Surf.Props.C84_partial
#print axioms Surf.Props.C84_refuted
#print axioms Surf.Props.C84_vector
#print axioms Surf.Props.longBounds_eq
#print axioms Surf.Props.murmur128_spec
#print axioms Surf.Props.murmur32_spec
#print axioms Surf.Props.murmur64_spec
#print axioms Surf.Props.suffixHash_spec
