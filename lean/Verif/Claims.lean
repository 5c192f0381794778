import Lean.Elab.Command
import Verif.Props.Adapt
import Verif.Props.Adaptors
import Verif.Props.Ancestors
import Verif.Props.AnyCode
import Verif.Props.AnySource
import Verif.Props.BigNumbers
import Verif.Props.BitVecTrait
import Verif.Props.BitVector
import Verif.Props.BlockChoice
import Verif.Props.BlockIO
import Verif.Props.BlockWidth
import Verif.Props.Blockwise
import Verif.Props.BloomFilter
import Verif.Props.Broadword
import Verif.Props.BufferMemory
import Verif.Props.Builds
import Verif.Props.Calls
import Verif.Props.CanonicalCode
import Verif.Props.Capacity
import Verif.Props.CapacityOps
import Verif.Props.Chunks
import Verif.Props.Closure
import Verif.Props.CodeLengths
import Verif.Props.CodeOrder
import Verif.Props.CodeOutcome
import Verif.Props.CodeSpace
import Verif.Props.CodeTotality
import Verif.Props.Coding
import Verif.Props.CommonPart
import Verif.Props.CompareNumbers
import Verif.Props.Completion
import Verif.Props.Counter
import Verif.Props.Decode
import Verif.Props.Derived
import Verif.Props.Directory
import Verif.Props.Documentation
import Verif.Props.EncodeMemory
import Verif.Props.Exact
import Verif.Props.ExactSpan
import Verif.Props.ExactVec
import Verif.Props.ExtraBits
import Verif.Props.Fenwick
import Verif.Props.Format
import Verif.Props.FormatOpts
import Verif.Props.Formats
import Verif.Props.GapSpace
import Verif.Props.Gaps
import Verif.Props.Graph
import Verif.Props.Growth
import Verif.Props.HashSet
import Verif.Props.HeapSort
import Verif.Props.Hidden
import Verif.Props.IndexChoice
import Verif.Props.IntVecTrait
import Verif.Props.IntVector
import Verif.Props.Iter
import Verif.Props.IterCompare
import Verif.Props.Layout
import Verif.Props.Memory
import Verif.Props.MinimalImpl
import Verif.Props.MoveBits
import Verif.Props.Neighbours
import Verif.Props.Nesting
import Verif.Props.NoRecover
import Verif.Props.OwnBlocks
import Verif.Props.OwnInts
import Verif.Props.Packed
import Verif.Props.Paper
import Verif.Props.Parentheses
import Verif.Props.Pieces
import Verif.Props.Portable
import Verif.Props.PriorityQueue
import Verif.Props.Program
import Verif.Props.ProgramCatch
import Verif.Props.Queue
import Verif.Props.RandomAccess
import Verif.Props.RangeLeast
import Verif.Props.Rank
import Verif.Props.RankMemory
import Verif.Props.RankSpace
import Verif.Props.Reach
import Verif.Props.Recover
import Verif.Props.Resync
import Verif.Props.Save
import Verif.Props.Search
import Verif.Props.SearchGeneric
import Verif.Props.Select
import Verif.Props.SelectCost
import Verif.Props.SelectExact
import Verif.Props.Sequence
import Verif.Props.Sieve
import Verif.Props.Slice
import Verif.Props.SliceUse
import Verif.Props.Sorted
import Verif.Props.SpaceUsage
import Verif.Props.Sparse
import Verif.Props.Stale
import Verif.Props.Storage
import Verif.Props.Stream
import Verif.Props.SubsetSums
import Verif.Props.SubtractNumbers
import Verif.Props.Tests
import Verif.Props.TextSearch
import Verif.Props.Totality
import Verif.Props.Transcode
import Verif.Props.Transfer
import Verif.Props.Trees
import Verif.Props.UnionFind
import Verif.Props.Universal
import Verif.Props.Unwind
import Verif.Props.VariableWidth
import Verif.Props.Wavelet
import Verif.Props.WaveletRange
import Verif.Props.WhichCode
import Verif.Props.WriteOrder
/-!
# The theorems named in MANIFEST.json

This file fails to build if a name in `MANIFEST.json` is not a theorem of the project, or if a theorem of
`Verif/Props` whose name begins with the number of a property is not in `MANIFEST.json`.
-/
open Lean Elab Command

namespace Succinct

/-- The theorems of `MANIFEST.json`, in the order in which they occur there. -/
def claimed : List Name := [
  ``Succinct.C01_low_mask,
  ``Succinct.C01_nth_mask,
  ``Succinct.C01_low_mask_default,
  ``Succinct.C02_get_with_bit,
  ``Succinct.C02_get_bit,
  ``Succinct.C02_with_bit_panics,
  ``Succinct.C03_get_bits,
  ``Succinct.C03_with_bits,
  ``Succinct.C03_panics_partial,
  ``Succinct.C03_panics_debug,
  ``Succinct.C03_release_wrap_counterexample,
  ``Succinct.C04_floor_lg,
  ``Succinct.C04_ceil_lg,
  ``Succinct.C05_ceil_div_partial,
  ``Succinct.C05_overflow,
  ``Succinct.C06_address_round_trip,
  ``Succinct.C06_address_of_pair,
  ``Succinct.C07_nbits,
  ``Succinct.C07_lg_nbits,
  ``Succinct.C07_exact_partial,
  ``Succinct.C07_counterexamples,
  ``Succinct.C09_get_bit,
  ``Succinct.C09_get_bits,
  ``Succinct.C09_get_bits_bit,
  ``Succinct.C10_set_bit,
  ``Succinct.C10_set_bits,
  ``Succinct.C11_zero_width_partial,
  ``Succinct.C11_end_panics,
  ``Succinct.C12_defaults_from_get_block,
  ``Succinct.C12_get_block_from_get_bit,
  ``Succinct.C12_vec_bool,
  ``Succinct.C12_block_array,
  ``Succinct.C12_set_block_from_set_bit,
  ``Succinct.C13_prim_read,
  ``Succinct.C13_prim_write,
  ``Succinct.C13_prim_law,
  ``Succinct.C13_release_wrap_counterexample,
  ``Succinct.C74_wide_partial,
  ``Succinct.C74_truncates,
  ``Succinct.C75_vec_bool_set_block_partial,
  ``Succinct.C75_set_block_alias,
  ``Succinct.C14_bit_vector_is_list,
  ``Succinct.C15_equality_is_extensional,
  ``Succinct.C16_out_of_range,
  ``Succinct.C17_fill,
  ``Succinct.C17_too_large_partial,
  ``Succinct.C17_release_counterexample,
  ``Succinct.C18_resize,
  ``Succinct.C18_release_counterexample,
  ``Succinct.C19_push_block,
  ``Succinct.C19_align_block,
  ``Succinct.C20_stack,
  ``Succinct.C21_storage,
  ``Succinct.C22_int_vector_is_list,
  ``Succinct.C23_set_isolated,
  ``Succinct.C24_too_large_panics,
  ``Succinct.C24_fill_wraps,
  ``Succinct.C25_width_validated,
  ``Succinct.C25_width_invariant,
  ``Succinct.C26_equality,
  ``Succinct.C27_reinterpret,
  ``Succinct.C28_bit_view,
  ``Succinct.C28_lawful,
  ``Succinct.C73_bit_vector_order,
  ``Succinct.C73_int_vector_order,
  ``Succinct.C76_out_of_range_partial,
  ``Succinct.C76_out_of_range_64,
  ``Succinct.C76_index_truncated,
  ``Succinct.C76_set_truncated,
  ``Succinct.C29_int_iter,
  ``Succinct.C29_bit_iter,
  ``Succinct.C29_collect,
  ``Succinct.C30_exact_size_partial,
  ``Succinct.C30_exact_size_bits_partial,
  ``Succinct.C30_exact,
  ``Succinct.C30_exact_bits,
  ``Succinct.C30_nth_past_end,
  ``Succinct.C30_count_truncated,
  ``Succinct.C31_binary,
  ``Succinct.C31_debug,
  ``Succinct.C32_window,
  ``Succinct.C32_new_out_of_bounds,
  ``Succinct.C32_lawful,
  ``Succinct.C33_write,
  ``Succinct.C33_lawful,
  ``Succinct.C34_flatten,
  ``Succinct.C34_range_forms,
  ``Succinct.C34_nested,
  ``Succinct.C35_blocks_partial,
  ``Succinct.C35_set_block_partial,
  ``Succinct.C35_partial_block_panics,
  ``Succinct.C35_partial_block_example,
  ``Succinct.C35_block_alias,
  ``Succinct.C36_words,
  ``Succinct.C37_jacobson,
  ``Succinct.C37_bit_vector,
  ``Succinct.C38_buildable_partial,
  ``Succinct.C38_short_vectors_panic,
  ``Succinct.C39_rank9,
  ``Succinct.C39_bit_vector,
  ``Succinct.C39_vec,
  ``Succinct.C40_jacobson,
  ``Succinct.C40_words_debug_partial,
  ``Succinct.C40_words_release_counterexample,
  ``Succinct.C40_rank9_partial,
  ``Succinct.C40_rank9_silent,
  ``Succinct.C40_rank9_silent_all,
  ``Succinct.C40_broadword_debug_partial,
  ``Succinct.C40_broadword_release_counterexample,
  ``Succinct.C40_broadword_release,
  ``Succinct.C40_rank0,
  ``Succinct.C40_words_rank0_release,
  ``Succinct.C40_broadword_rank0_release,
  ``Succinct.C41_rank_laws,
  ``Succinct.C43_binary_search,
  ``Succinct.C43_average,
  ``Succinct.C44_select_partial,
  ``Succinct.C44_max,
  ``Succinct.C44_max_release,
  ``Succinct.C44_max_debug,
  ``Succinct.C45_rank_of_select,
  ``Succinct.C45_select_of_rank,
  ``Succinct.C45_select_agree,
  ``Succinct.C45_tower,
  ``Succinct.C46_count_ones,
  ``Succinct.C47_select_partial,
  ``Succinct.C47_broadword_select_partial,
  ``Succinct.C47_large_r,
  ``Succinct.C47_never_panics,
  ``Succinct.C47_exact,
  ``Succinct.C47_zero,
  ``Succinct.C47_middle,
  ``Succinct.C47_middle_low,
  ``Succinct.C47_past_end_counterexample,
  ``Succinct.C48_u_le8,
  ``Succinct.C48_u_nz8,
  ``Succinct.C49_le8_partial,
  ``Succinct.C49_different_signs,
  ``Succinct.C50_broadword_rank,
  ``Succinct.C42_jacobson,
  ``Succinct.C42_jacobson_inner,
  ``Succinct.C42_rank9,
  ``Succinct.C42_rank9_inner,
  ``Succinct.C42_bin_search_select,
  ``Succinct.C42_bin_search_rank,
  ``Succinct.C42_bit_buffer,
  ``Succinct.C51_write,
  ``Succinct.C51_read,
  ``Succinct.C51_roundtrip,
  ``Succinct.C52_write_partial,
  ``Succinct.C52_read,
  ``Succinct.C52_roundtrip_partial,
  ``Succinct.C52_signed_full_width,
  ``Succinct.C52_signed_counterexample,
  ``Succinct.C52_zero_bits,
  ``Succinct.C52_too_wide,
  ``Succinct.C52_exact,
  ``Succinct.C53_read_int,
  ``Succinct.C53_read_int_be,
  ``Succinct.C53_lawful,
  ``Succinct.C53_lawful_be,
  ``Succinct.C54_buffer_is_file,
  ``Succinct.C54_constructors,
  ``Succinct.C54_bit_vector,
  ``Succinct.C54_write_then_read,
  ``Succinct.C08_roundtrip,
  ``Succinct.C08_bytes,
  ``Succinct.C55_unary,
  ``Succinct.C55_roundtrip,
  ``Succinct.C56_gamma,
  ``Succinct.C56_roundtrip,
  ``Succinct.C57_delta,
  ``Succinct.C57_roundtrip,
  ``Succinct.C58_omega,
  ``Succinct.C58_roundtrip,
  ``Succinct.C59_comma,
  ``Succinct.C59_roundtrip,
  ``Succinct.C60_largest,
  ``Succinct.C60_fibonacci,
  ``Succinct.C60_implements,
  ``Succinct.C60_too_large,
  ``Succinct.C60_roundtrip,
  ``Succinct.C61_lift0,
  ``Succinct.C61_roundtrip,
  ``Succinct.C61_max,
  ``Succinct.C62_all,
  ``Succinct.C62_streams,
  ``Succinct.C62_deque,
  ``Succinct.C62_bit_buffer,
  ``Succinct.C62_gamma_delta,
  ``Succinct.C63_prefix_free,
  ``Succinct.C63_unambiguous,
  ``Succinct.C64_end,
  ``Succinct.C64_truncated_partial,
  ``Succinct.C64_fibonacci,
  ``Succinct.C64_fibonacci_counterexample,
  ``Succinct.C65_zero_partial,
  ``Succinct.C65_omega,
  ``Succinct.C66_total,
  ``Succinct.C66_release,
  ``Succinct.C66_debug_partial,
  ``Succinct.C66_omega_panics,
  ``Succinct.C66_comma_panics,
  ``Succinct.C66_fibonacci_panics,
  ``Succinct.C66_lift0_unary,
  ``Succinct.C67_sink_failures,
  ``Succinct.C68_lengths,
  ``Succinct.C68_comma,
  ``Succinct.C68_fibonacci,
  ``Succinct.C68_written,
  ``Succinct.C69_terminates_partial,
  ``Succinct.C69_comma1_diverges,
  ``Succinct.C69_comma0,
  ``Succinct.C69_wide,
  ``Succinct.C77_only_codewords,
  ``Succinct.C77_omega_partial,
  ``Succinct.C77_omega_32_counterexample,
  ``Succinct.C77_omega_release_counterexample,
  ``Succinct.C77_comma_partial,
  ``Succinct.C77_comma_counterexample,
  ``Succinct.C70_with_capacity,
  ``Succinct.C70_reserve_partial,
  ``Succinct.C70_reserve_then_push,
  ``Succinct.C70_reserve_iff,
  ``Succinct.C70_reserve_counterexample,
  ``Succinct.C70_block_reserve,
  ``Succinct.C70_shrink,
  ``Succinct.C70_change,
  ``Succinct.C70_overflow_panics,
  ``Succinct.C70_reallocations,
  ``Succinct.C71_total,
  ``Succinct.C71_stack_only,
  ``Succinct.C71_stack_only_iff,
  ``Succinct.C71_vec,
  ``Succinct.C71_box,
  ``Succinct.C71_tuple,
  ``Succinct.C71_vectors,
  ``Succinct.C71_rank9,
  ``Succinct.C71_jacobson,
  ``Succinct.C71_select,
  ``Succinct.C72_rank9,
  ``Succinct.C72_jacobson,
  ``Succinct.C78_caught_panics,
  ``Succinct.C78_unchanged,
  ``Succinct.C79_caught_panics,
  ``Succinct.C79_unchanged,
  ``Succinct.C80_setters,
  ``Succinct.C80_refused_length,
  ``Succinct.C81_bool_vec_set_block_partial,
  ``Succinct.C81_bool_vec_set_block_p32,
  ``Succinct.C81_counterexample,
  ``Succinct.C82_capacity_ge_len,
  ``Succinct.C82_no_reallocation,
  ``Succinct.C83_rank9_partial,
  ``Succinct.C83_jacobson_partial,
  ``Succinct.C83_counterexample,
  ``Succinct.C84_read_bit_partial,
  ``Succinct.C84_whole_blocks_partial,
  ``Succinct.C84_counterexample,
  ``Succinct.C85_bit_vector,
  ``Succinct.C85_int_vector,
  ``Succinct.C85_bit_vector_bytes,
  ``Succinct.C85_int_vector_bytes,
  ``Succinct.C86_address_order,
  ``Succinct.C87_exact,
  ``Succinct.C87_one_block_partial,
  ``Succinct.C87_counterexample,
  ``Succinct.C88_exact,
  ``Succinct.C88_lexicographic_partial,
  ``Succinct.C88_counterexample,
  ``Succinct.C89_any_function,
  ``Succinct.C89_terminates,
  ``Succinct.C90_select_cost,
  ``Succinct.C90_unsuccessful,
  ``Succinct.C90_attained,
  ``Succinct.C91_rank9,
  ``Succinct.C91_jacobson,
  ``Succinct.C91_get_bits,
  ``Succinct.C92_monotone,
  ``Succinct.C92_bounds,
  ``Succinct.C93_kraft,
  ``Succinct.C94_reads,
  ``Succinct.C94_blocks,
  ``Succinct.C94_rank9,
  ``Succinct.C94_jacobson,
  ``Succinct.C95_bit_vector,
  ``Succinct.C95_bit_vector_new,
  ``Succinct.C95_int_vector,
  ``Succinct.C95_int_vector_new,
  ``Succinct.C95_iterators,
  ``Succinct.C95_format,
  ``Succinct.C95_rank9,
  ``Succinct.C95_jacobson,
  ``Succinct.C95_select,
  ``Succinct.C95_bit_buffer,
  ``Succinct.C96_decode_ends,
  ``Succinct.C96_fibonacci_always_ends,
  ``Succinct.C96_unary_endless,
  ``Succinct.C96_encode_hangs_iff,
  ``Succinct.C97_ceil_div,
  ``Succinct.C97_ceil_div_nbits,
  ``Succinct.C97_mul_div_nbits,
  ``Succinct.C97_low_mask,
  ``Succinct.C97_word_fields,
  ``Succinct.C97_word_bits,
  ``Succinct.C97_word_spans,
  ``Succinct.C97_word_rank,
  ``Succinct.C98_get_bits,
  ``Succinct.C98_set_bits,
  ``Succinct.C98_instances,
  ``Succinct.C98_bit_buffer,
  ``Succinct.C99_slice_get_block,
  ``Succinct.C99_slice_set_block,
  ``Succinct.C99_int_vector_index,
  ``Succinct.C99_get_random,
  ``Succinct.C99_set_random,
  ``Succinct.C99_fill_wraps,
  ``Succinct.C99_vec_bool_set_block,
  ``Succinct.C100_bit_vector,
  ``Succinct.C100_int_vector,
  ``Succinct.C101_aligned,
  ``Succinct.C101_is_empty,
  ``Succinct.C101_block_truncate,
  ``Succinct.C101_push_pop_block,
  ``Succinct.C102_count_ones,
  ``Succinct.C102_select1,
  ``Succinct.C102_u_nz8,
  ``Succinct.C102_u_le8,
  ``Succinct.C102_floor_lg,
  ``Succinct.C102_ceil_lg,
  ``Succinct.C102_ceil_div,
  ``Succinct.C102_ceil_div_overflow,
  ``Succinct.C102_code_decode,
  ``Succinct.C102_code_decode_tests,
  ``Succinct.C102_fibonacci,
  ``Succinct.C103_bit_vec,
  ``Succinct.C103_rank,
  ``Succinct.C103_select,
  ``Succinct.C103_compose,
  ``Succinct.C103_bin_search_select,
  ``Succinct.C103_search_through,
  ``Succinct.C103_tower,
  ``Succinct.C104_rank9,
  ``Succinct.C104_jacobson_partial,
  ``Succinct.C104_jacobson_whole_partial,
  ``Succinct.C104_counterexample,
  ``Succinct.C105_rank9,
  ``Succinct.C105_jacobson,
  ``Succinct.C106_unique,
  ``Succinct.C106_elias,
  ``Succinct.C106_lift0_panics_iff,
  ``Succinct.C106_gamma_pos,
  ``Succinct.C106_delta_builds,
  ``Succinct.C106_omega,
  ``Succinct.C106_omega_cases,
  ``Succinct.C106_omega_panics,
  ``Succinct.C106_omega_panics_iff,
  ``Succinct.C106_omega_only,
  ``Succinct.C106_comma,
  ``Succinct.C106_comma_widths,
  ``Succinct.C106_comma_panics_iff,
  ``Succinct.C106_fibonacci,
  ``Succinct.C106_fibonacci_panics_iff,
  ``Succinct.C106_all,
  ``Succinct.C107_bitvec,
  ``Succinct.C107_wrappers,
  ``Succinct.C107_sequences,
  ``Succinct.C107_vectors,
  ``Succinct.C107_rank_select,
  ``Succinct.C107_broadword,
  ``Succinct.C107_codes,
  ``Succinct.C107_streams,
  ``Succinct.C107_space,
  ``Succinct.C107_added_panics,
  ``Succinct.C108_bit_vector,
  ``Succinct.C108_int_vector,
  ``Succinct.C108_reach_bits,
  ``Succinct.C108_reach_ints,
  ``Succinct.C108_iterators,
  ``Succinct.C108_len_exception,
  ``Succinct.C108_bit_buffer,
  ``Succinct.C108_rank_select,
  ``Succinct.C108_codes,
  ``Succinct.C108_block_io,
  ``Succinct.C108_usize_exception,
  ``Succinct.C109_only_fails,
  ``Succinct.C109_unlimited,
  ``Succinct.C109_bit_vector,
  ``Succinct.C109_int_vector,
  ``Succinct.C109_bounded,
  ``Succinct.C109_rank,
  ``Succinct.C109_reserved_bits,
  ``Succinct.C109_reserved_ints,
  ``Succinct.C109_isize_max_not_enough,
  ``Succinct.C110_binary,
  ``Succinct.C110_debug,
  ``Succinct.C110_prefix,
  ``Succinct.C111_vectors,
  ``Succinct.C111_bit_vector,
  ``Succinct.C111_binary,
  ``Succinct.C111_int_vector,
  ``Succinct.C111_address,
  ``Succinct.C111_nested,
  ``Succinct.C111_jacobson,
  ``Succinct.C112_bit_vector,
  ``Succinct.C112_int_vector,
  ``Succinct.C112_exact_allocator,
  ``Succinct.C113_save,
  ``Succinct.C113_load,
  ``Succinct.C113_roundtrip,
  ``Succinct.C113_same_type,
  ``Succinct.C113_big_endian_counterexample,
  ``Succinct.C114_lookup,
  ``Succinct.C114_overwrite,
  ``Succinct.C115_read,
  ``Succinct.C115_write,
  ``Succinct.C115_bit_vector,
  ``Succinct.C115_int_vector_write,
  ``Succinct.C115_int_vector_read,
  ``Succinct.C116_resync,
  ``Succinct.C116_damage,
  ``Succinct.C116_short,
  ``Succinct.C116_ones,
  ``Succinct.C116_gamma_counterexample,
  ``Succinct.C117_programs,
  ``Succinct.C117_from_start,
  ``Succinct.C118_laws,
  ``Succinct.C118_int_iter,
  ``Succinct.C118_bit_iter,
  ``Succinct.C118_hash,
  ``Succinct.C118_bit_hash,
  ``Succinct.C119_encode,
  ``Succinct.C119_valid,
  ``Succinct.C119_roundtrip,
  ``Succinct.C119_untouched,
  ``Succinct.C120_push_bits,
  ``Succinct.C120_push_ints,
  ``Succinct.C120_bit_vector,
  ``Succinct.C120_int_vector,
  ``Succinct.C120_bit_states,
  ``Succinct.C120_int_states,
  ``Succinct.C120_bit_buffer,
  ``Succinct.C121_any,
  ``Succinct.C121_final,
  ``Succinct.C121_unwinds,
  ``Succinct.C122_programs,
  ``Succinct.C123_sequence,
  ``Succinct.C124_recode,
  ``Succinct.C124_copy,
  ``Succinct.C124_there_and_back,
  ``Succinct.C124_lossless,
  ``Succinct.C124_injective,
  ``Succinct.C124_comma_counterexample,
  ``Succinct.C125_chunks,
  ``Succinct.C125_parse_append,
  ``Succinct.C125_timely,
  ``Succinct.C125_start,
  ``Succinct.C125_bit_vector,
  ``Succinct.C125_roundtrip,
  ``Succinct.C126_rank9_only_fails,
  ``Succinct.C126_jacobson_only_fails,
  ``Succinct.C126_rank9,
  ``Succinct.C126_jacobson,
  ``Succinct.C126_jacobson_granted,
  ``Succinct.C126_jacobson_whole,
  ``Succinct.C126_answers,
  ``Succinct.C126_pipeline,
  ``Succinct.C127_encode,
  ``Succinct.C127_only_fails,
  ``Succinct.C127_ends,
  ``Succinct.C127_enough,
  ``Succinct.C127_omega,
  ``Succinct.C128_buffer,
  ``Succinct.C128_only_fails,
  ``Succinct.C128_encode,
  ``Succinct.C128_new,
  ``Succinct.C128_roundtrip,
  ``Succinct.C129_elias,
  ``Succinct.C129_lift0,
  ``Succinct.C129_encode,
  ``Succinct.C129_truncated,
  ``Succinct.C129_only_codewords,
  ``Succinct.C129_outcome,
  ``Succinct.C129_unambiguous,
  ``Succinct.C129_kraft,
  ``Succinct.C129_streams,
  ``Succinct.C130_unary,
  ``Succinct.C130_gamma,
  ``Succinct.C130_delta,
  ``Succinct.C130_fibonacci,
  ``Succinct.C130_comma,
  ``Succinct.C130_omega,
  ``Succinct.C130_elias,
  ``Succinct.C130_elias_header,
  ``Succinct.C130_lift0,
  ``Succinct.C130_decoders,
  ``Succinct.C131_unary,
  ``Succinct.C131_unary_damage,
  ``Succinct.C131_comma,
  ``Succinct.C131_comma_damage,
  ``Succinct.C131_comma_counterexample,
  ``Succinct.C132_entropy_bound,
  ``Succinct.C132_gamma,
  ``Succinct.C132_delta,
  ``Succinct.C132_omega,
  ``Succinct.C132_omega_optimal,
  ``Succinct.C132_fibonacci,
  ``Succinct.C132_comma,
  ``Succinct.C132_unary_counterexample,
  ``Succinct.C133_get_bit,
  ``Succinct.C133_get_block,
  ``Succinct.C133_round_trip,
  ``Succinct.C133_set_bit,
  ``Succinct.C133_set_block,
  ``Succinct.C133_push,
  ``Succinct.C133_neither_get,
  ``Succinct.C133_neither_set,
  ``Succinct.C134_arithmetic,
  ``Succinct.C134_average,
  ``Succinct.C134_search,
  ``Succinct.C134_any_function,
  ``Succinct.C134_unsigned,
  ``Succinct.C134_select,
  ``Succinct.C134_inverse,
  ``Succinct.C134_select_max,
  ``Succinct.C134_bool,
  ``Succinct.C135_gamma_delta,
  ``Succinct.C135_gamma_omega,
  ``Succinct.C135_gamma_fibonacci,
  ``Succinct.C135_gamma_comma,
  ``Succinct.C135_gamma_word,
  ``Succinct.C135_delta_omega,
  ``Succinct.C135_delta_fibonacci,
  ``Succinct.C135_delta_comma,
  ``Succinct.C135_delta_word,
  ``Succinct.C135_omega_fibonacci,
  ``Succinct.C135_omega_comma,
  ``Succinct.C135_omega_word,
  ``Succinct.C135_fibonacci_comma,
  ``Succinct.C135_fibonacci_word,
  ``Succinct.C135_comma_word,
  ``Succinct.C135_unary,
  ``Succinct.C136_iter_forward,
  ``Succinct.C136_iter_exact,
  ``Succinct.C136_bit_iter,
  ``Succinct.C136_start,
  ``Succinct.C136_start_bits,
  ``Succinct.C136_skip_forward,
  ``Succinct.C136_take_forward,
  ``Succinct.C136_rev,
  ``Succinct.C136_skip,
  ``Succinct.C136_take,
  ``Succinct.C136_collect,
  ``Succinct.C136_collect_exact,
  ``Succinct.C136_step_by,
  ``Succinct.C136_step_by_forward,
  ``Succinct.C136_step_by_back,
  ``Succinct.C136_step_by_len,
  ``Succinct.C136_step_by_nth_back,
  ``Succinct.C136_usize,
  ``Succinct.C136_skip_past_end,
  ``Succinct.C136_step_by_end,
  ``Succinct.C137_defaults,
  ``Succinct.C137_slice,
  ``Succinct.C137_slice_new,
  ``Succinct.C137_jacobson,
  ``Succinct.C137_rank9,
  ``Succinct.C137_select,
  ``Succinct.C137_buffer,
  ``Succinct.C137_still,
  ``Succinct.C137_still_defaults,
  ``Succinct.C137_rank9_correct,
  ``Succinct.C137_jacobson_correct,
  ``Succinct.C137_select_correct,
  ``Succinct.C137_codes,
  ``Succinct.C137_cache,
  ``Succinct.C138_logged,
  ``Succinct.C138_rank9_new,
  ``Succinct.C138_jacobson_new,
  ``Succinct.C138_rank9_rank1,
  ``Succinct.C138_jacobson_rank1,
  ``Succinct.C138_get_bit,
  ``Succinct.C138_get_bits,
  ``Succinct.C138_read_bit,
  ``Succinct.C138_logged_mut,
  ``Succinct.C138_slice_new,
  ``Succinct.C138_slice,
  ``Succinct.C138_set_bit,
  ``Succinct.C138_set_bits,
  ``Succinct.C138_get_block,
  ``Succinct.C138_select_rank9,
  ``Succinct.C139_lg_nbits,
  ``Succinct.C139_address,
  ``Succinct.C139_other_widths,
  ``Succinct.C140_gamma,
  ``Succinct.C140_delta,
  ``Succinct.C140_omega,
  ``Succinct.C141_block_choice,
  ``Succinct.C141_exceptions,
  ``Succinct.C142_streams,
  ``Succinct.C142_elias,
  ``Succinct.C142_unary,
  ``Succinct.C142_gamma,
  ``Succinct.C142_delta,
  ``Succinct.C142_omega_step,
  ``Succinct.C142_omega,
  ``Succinct.C142_comma,
  ``Succinct.C142_fibonacci,
  ``Succinct.C142_decode,
  ``Succinct.C142_decode_omega,
  ``Succinct.C143_last_wins,
  ``Succinct.C143_same,
  ``Succinct.C143_any_order,
  ``Succinct.C143_bit_vector,
  ``Succinct.C143_int_vector,
  ``Succinct.C144_rank9,
  ``Succinct.C144_jacobson,
  ``Succinct.C144_short,
  ``Succinct.C145_overflow,
  ``Succinct.C145_constant,
  ``Succinct.C145_constant_wrong,
  ``Succinct.C145_line_same,
  ``Succinct.C145_line_wrong,
  ``Succinct.C146_random_bounds,
  ``Succinct.C146_too_large,
  ``Succinct.C146_ceil_div,
  ``Succinct.C146_reserve,
  ``Succinct.C147_number,
  ``Succinct.C147_vectors,
  ``Succinct.C147_bit_vector,
  ``Succinct.C147_address,
  ``Succinct.C147_nested,
  ``Succinct.C147_plain,
  ``Succinct.C148_oblivious,
  ``Succinct.C148_average,
  ``Succinct.C149_rank9,
  ``Succinct.C149_rank9_equal,
  ``Succinct.C149_jacobson,
  ``Succinct.C149_jacobson_equal,
  ``Succinct.C150_jacobson_partial,
  ``Succinct.C150_jacobson_roomy_partial,
  ``Succinct.C150_counterexample,
  ``Succinct.C151_default,
  ``Succinct.C151_decode,
  ``Succinct.C151_encode,
  ``Succinct.C151_source,
  ``Succinct.C151_sink,
  ``Succinct.C151_roundtrip,
  ``Succinct.C151_omega_words,
  ``Succinct.C151_sources,
  ``Succinct.C151_source_default,
  ``Succinct.C151_sink_default,
  ``Succinct.OwnBlk.C152_crate,
  ``Succinct.OwnBlk.C152_inherit,
  ``Succinct.OwnBlk.C152_default_mask,
  ``Succinct.OwnBlk.C152_same,
  ``Succinct.OwnBlk.C152_vectors,
  ``Succinct.OwnBlk.C152_inherent,
  ``Succinct.OwnBlk.C152_bit_vector,
  ``Succinct.OwnBlk.C152_int_vector,
  ``Succinct.OwnBlk.C152_rank_select,
  ``Succinct.OwnBlk.C152_rank_bit_vector,
  ``Succinct.OwnBlk.C152_flags,
  ``Succinct.OwnBlk.C152_each,
  ``Succinct.OwnBlk.C152_each_rank,
  ``Succinct.C153_rank9,
  ``Succinct.C153_jacobson,
  ``Succinct.C153_error,
  ``Succinct.C153_right,
  ``Succinct.C153_still_right,
  ``Succinct.C153_select,
  ``Succinct.C154_write,
  ``Succinct.C154_write_be,
  ``Succinct.C154_write_be_signed,
  ``Succinct.C154_read,
  ``Succinct.C154_read_be,
  ``Succinct.C154_get_bits,
  ``Succinct.C154_set_bits,
  ``Succinct.C154_bit_vector,
  ``Succinct.C155_last_up_to,
  ``Succinct.C155_first_from,
  ``Succinct.C155_count_in,
  ``Succinct.C155_collect,
  ``Succinct.C155_bit_vector,
  ``Succinct.C156_combine,
  ``Succinct.C156_bit_vector,
  ``Succinct.C156_count,
  ``Succinct.C156_bit_vector_count,
  ``Succinct.C157_sorted,
  ``Succinct.C158_same_type,
  ``Succinct.C158_little,
  ``Succinct.C158_int_vector,
  ``Succinct.C158_int_vector_same_type,
  ``Succinct.C159_wavelet,
  ``Succinct.C160_numeric,
  ``Succinct.C160_omega,
  ``Succinct.C160_comma,
  ``Succinct.C160_vectors,
  ``Succinct.C160_comma_vectors,
  ``Succinct.C160_counterexamples,
  ``Succinct.C161_trees,
  ``Succinct.C162_gaps,
  ``Succinct.C162_common,
  ``Succinct.C162_gamma,
  ``Succinct.C162_delta,
  ``Succinct.C162_any,
  ``Succinct.C163_formats,
  ``Succinct.C163_prefix_free,
  ``Succinct.C163_truncated,
  ``Succinct.C163_canonical,
  ``Succinct.C164_text_search,
  ``Succinct.C165_canonical,
  ``Succinct.C166_int_vector,
  ``Succinct.C166_packed,
  ``Succinct.C166_window,
  ``Succinct.C166_backwards,
  ``Succinct.C166_reverse,
  ``Succinct.C166_sort,
  ``Succinct.C166_sort_int_vector,
  ``Succinct.C166_search,
  ``Succinct.C166_inverse,
  ``Succinct.C167_copy,
  ``Succinct.C167_move,
  ``Succinct.C167_insert,
  ``Succinct.C167_remove,
  ``Succinct.C167_bit_vector,
  ``Succinct.C168_queue,
  ``Succinct.C168_new_queue,
  ``Succinct.C169_parentheses,
  ``Succinct.C169_one_forest,
  ``Succinct.C170_variable_width,
  ``Succinct.C171_add,
  ``Succinct.C171_has,
  ``Succinct.C171_union,
  ``Succinct.C171_no_bits,
  ``Succinct.C171_bit_vector,
  ``Succinct.C172_ranges,
  ``Succinct.C173_sieve,
  ``Succinct.C174_init,
  ``Succinct.C174_find,
  ``Succinct.C174_join,
  ``Succinct.C174_classes,
  ``Succinct.C174_count,
  ``Succinct.C174_out_of_range,
  ``Succinct.C175_sort_down,
  ``Succinct.C175_sort,
  ``Succinct.C176_graph,
  ``Succinct.C176_reach,
  ``Succinct.C177_sum,
  ``Succinct.C177_find,
  ``Succinct.C177_add,
  ``Succinct.C177_sums,
  ``Succinct.C177_new,
  ``Succinct.C178_has,
  ``Succinct.C178_insert,
  ``Succinct.C178_calls,
  ``Succinct.C178_new,
  ``Succinct.C179_close,
  ``Succinct.C180_new,
  ``Succinct.C180_get,
  ``Succinct.C180_outside,
  ``Succinct.C180_put,
  ``Succinct.C180_entry,
  ``Succinct.C181_ancestors,
  ``Succinct.C181_unique,
  ``Succinct.C182_more,
  ``Succinct.C182_sums,
  ``Succinct.C183_length,
  ``Succinct.C183_new,
  ``Succinct.C183_unique,
  ``Succinct.C184_table,
  ``Succinct.C184_least,
  ``Succinct.C184_unique,
  ``Succinct.C185_add,
  ``Succinct.C185_bit_vector,
  ``Succinct.C186_push,
  ``Succinct.C186_pop,
  ``Succinct.C186_calls,
  ``Succinct.C186_new,
  ``Succinct.C187_compare,
  ``Succinct.C187_bit_vector,
  ``Succinct.C187_equal,
  ``Succinct.C188_subtract,
  ``Succinct.C188_bit_vector,
  ``Succinct.C189_tick,
  ``Succinct.C189_ticks,
  ``Succinct.C189_bit_vector]

/-- `C` followed by digits and an underscore, or by digits only. -/
def propertyName (s : String) : Bool :=
  match s.toList with
  | 'C' :: d :: r => d.isDigit && ((r.dropWhile (·.isDigit)).head?.all (· == '_'))
  | _ => false

run_cmd do
  let env ← getEnv
  for n in claimed do
    match env.find? n with
    | some (.thmInfo _) => pure ()
    | _ => throwError "not a theorem: {n}"
  for (n, i) in env.constants.map₁.toList do
    if (`Succinct).isPrefixOf n && !n.isInternal then
      if let .thmInfo _ := i then
        if let .str _ s := n then
          if propertyName s && !claimed.contains n then throwError "not claimed: {n}"

end Succinct
