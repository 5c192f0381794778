{
 "claims": [
  {
   "property": "C01",
   "status": "proved",
   "theorems": [
    "Succinct.C01_low_mask",
    "Succinct.C01_nth_mask",
    "Succinct.C01_low_mask_default"
   ],
   "note": ""
  },
  {
   "property": "C02",
   "status": "proved",
   "theorems": [
    "Succinct.C02_get_with_bit",
    "Succinct.C02_get_bit",
    "Succinct.C02_with_bit_panics"
   ],
   "note": ""
  },
  {
   "property": "C03",
   "status": "partial",
   "theorems": [
    "Succinct.C03_get_bits",
    "Succinct.C03_with_bits",
    "Succinct.C03_panics_partial",
    "Succinct.C03_panics_debug",
    "Succinct.C03_release_wrap_counterexample"
   ],
   "note": "Functional part and debug-mode panics proved in full. The panic clause fails in release builds when start+len wraps: proved counterexample; the partial theorem gives the exact range where it holds. Exact behaviour for all arguments: C97_word_fields."
  },
  {
   "property": "C04",
   "status": "proved",
   "theorems": [
    "Succinct.C04_floor_lg",
    "Succinct.C04_ceil_lg"
   ],
   "note": ""
  },
  {
   "property": "C05",
   "status": "partial",
   "theorems": [
    "Succinct.C05_ceil_div_partial",
    "Succinct.C05_overflow"
   ],
   "note": "The code computes (x+d-1)/d, which overflows near the maximum; proved exact without overflow, and the overflow behaviour is proved. Exact behaviour for all arguments: C97_ceil_div."
  },
  {
   "property": "C06",
   "status": "proved",
   "theorems": [
    "Succinct.C06_address_round_trip",
    "Succinct.C06_address_of_pair"
   ],
   "note": ""
  },
  {
   "property": "C07",
   "status": "partial",
   "theorems": [
    "Succinct.C07_nbits",
    "Succinct.C07_lg_nbits",
    "Succinct.C07_exact_partial",
    "Succinct.C07_counterexamples"
   ],
   "note": "checked_ceil_div_nbits overflows near u64::MAX and mul_nbits drops high bits: counterexamples proved; all other cases proved. Exact behaviour for all arguments: C97_ceil_div_nbits, C97_mul_div_nbits."
  },
  {
   "property": "C09",
   "status": "proved",
   "theorems": [
    "Succinct.C09_get_bit",
    "Succinct.C09_get_bits",
    "Succinct.C09_get_bits_bit"
   ],
   "note": ""
  },
  {
   "property": "C10",
   "status": "proved",
   "theorems": [
    "Succinct.C10_set_bit",
    "Succinct.C10_set_bits"
   ],
   "note": ""
  },
  {
   "property": "C11",
   "status": "partial",
   "theorems": [
    "Succinct.C11_zero_width_partial",
    "Succinct.C11_end_panics"
   ],
   "note": "Holds for start < bit_len; at start = bit_len of a block-aligned array the code indexes one past the end and panics (proved). Exact behaviour: C98_get_bits."
  },
  {
   "property": "C12",
   "status": "proved",
   "theorems": [
    "Succinct.C12_defaults_from_get_block",
    "Succinct.C12_get_block_from_get_bit",
    "Succinct.C12_vec_bool",
    "Succinct.C12_block_array",
    "Succinct.C12_set_block_from_set_bit"
   ],
   "note": ""
  },
  {
   "property": "C13",
   "status": "partial",
   "theorems": [
    "Succinct.C13_prim_read",
    "Succinct.C13_prim_write",
    "Succinct.C13_prim_law",
    "Succinct.C13_release_wrap_counterexample"
   ],
   "note": "All reads/writes and panics proved except spans whose end wraps past u64::MAX in builds without overflow checks, where get_bits returns a value instead of panicking (proved counterexample). Exact behaviour: C97_word_spans."
  },
  {
   "property": "C74",
   "status": "partial",
   "theorems": [
    "Succinct.C74_wide_partial",
    "Succinct.C74_truncates"
   ],
   "note": "Proved: reads always panic for count > 2*nbits, and for any count > nbits at block-aligned starts in debug builds; for other cases the code silently truncates (proved counterexamples). Exact behaviour for every count: C98_get_bits, C98_set_bits."
  },
  {
   "property": "C75",
   "status": "partial",
   "theorems": [
    "Succinct.C75_vec_bool_set_block_partial",
    "Succinct.C75_set_block_alias"
   ],
   "note": "Holds when position*nbits fits in u64; otherwise the index wraps and block 0 is overwritten (proved counterexample). Exact behaviour at every index: C99_vec_bool_set_block."
  },
  {
   "property": "C14",
   "status": "proved",
   "theorems": [
    "Succinct.C14_bit_vector_is_list"
   ],
   "note": ""
  },
  {
   "property": "C15",
   "status": "proved",
   "theorems": [
    "Succinct.C15_equality_is_extensional"
   ],
   "note": ""
  },
  {
   "property": "C16",
   "status": "proved",
   "theorems": [
    "Succinct.C16_out_of_range"
   ],
   "note": ""
  },
  {
   "property": "C17",
   "status": "partial",
   "theorems": [
    "Succinct.C17_fill",
    "Succinct.C17_too_large_partial",
    "Succinct.C17_release_counterexample"
   ],
   "note": "Contents proved for every addressable size. Too-large lengths are rejected except, in builds without overflow checks, lengths within nbits-1 of u64::MAX, which silently give an empty vector (proved counterexample). Exact behaviour there: C99_fill_wraps."
  },
  {
   "property": "C18",
   "status": "partial",
   "theorems": [
    "Succinct.C18_resize",
    "Succinct.C17_too_large_partial",
    "Succinct.C18_release_counterexample"
   ],
   "note": "Contents proved for every addressable size; the panic clause has the same exception as C17 (proved counterexample: resize(u64::MAX) empties the vector in release builds). Exact behaviour there: C99_fill_wraps."
  },
  {
   "property": "C19",
   "status": "proved",
   "theorems": [
    "Succinct.C19_push_block",
    "Succinct.C19_align_block"
   ],
   "note": ""
  },
  {
   "property": "C20",
   "status": "proved",
   "theorems": [
    "Succinct.C20_stack"
   ],
   "note": ""
  },
  {
   "property": "C21",
   "status": "proved",
   "theorems": [
    "Succinct.C21_storage"
   ],
   "note": ""
  },
  {
   "property": "C22",
   "status": "proved",
   "theorems": [
    "Succinct.C22_int_vector_is_list"
   ],
   "note": "Indices are usize-sized for block-sized elements; the remaining indices are C76."
  },
  {
   "property": "C23",
   "status": "proved",
   "theorems": [
    "Succinct.C23_set_isolated"
   ],
   "note": ""
  },
  {
   "property": "C24",
   "status": "proved",
   "theorems": [
    "Succinct.C24_too_large_panics",
    "Succinct.C24_fill_wraps"
   ],
   "note": ""
  },
  {
   "property": "C25",
   "status": "proved",
   "theorems": [
    "Succinct.C25_width_validated",
    "Succinct.C25_width_invariant"
   ],
   "note": ""
  },
  {
   "property": "C26",
   "status": "proved",
   "theorems": [
    "Succinct.C26_equality"
   ],
   "note": ""
  },
  {
   "property": "C27",
   "status": "proved",
   "theorems": [
    "Succinct.C27_reinterpret"
   ],
   "note": ""
  },
  {
   "property": "C28",
   "status": "proved",
   "theorems": [
    "Succinct.C28_bit_view",
    "Succinct.C28_lawful"
   ],
   "note": ""
  },
  {
   "property": "C73",
   "status": "proved",
   "theorems": [
    "Succinct.C73_bit_vector_order",
    "Succinct.C73_int_vector_order"
   ],
   "note": "IntVectors of different element widths are ordered by width first, as the derived order does."
  },
  {
   "property": "C76",
   "status": "partial",
   "theorems": [
    "Succinct.C76_out_of_range_partial",
    "Succinct.C76_out_of_range_64",
    "Succinct.C76_index_truncated",
    "Succinct.C76_set_truncated"
   ],
   "note": "Proved on 64-bit targets and for widths below the block size. On 32-bit targets block-sized elements alias: get(2^32) returns element 0 (proved counterexample). Exact behaviour at every index: C99_int_vector_index."
  },
  {
   "property": "C29",
   "status": "proved",
   "theorems": [
    "Succinct.C29_int_iter",
    "Succinct.C29_bit_iter",
    "Succinct.C29_collect"
   ],
   "note": ""
  },
  {
   "property": "C30",
   "status": "partial",
   "theorems": [
    "Succinct.C30_exact_size_partial",
    "Succinct.C30_exact_size_bits_partial",
    "Succinct.C30_exact",
    "Succinct.C30_exact_bits",
    "Succinct.C30_nth_past_end",
    "Succinct.C30_count_truncated"
   ],
   "note": "C30_exact gives the exact result after any calls; it is the documented one for lengths below 2^usize and while no nth call overshoots. After nth past the end the crate's len underflows (proved counterexample), and on 32-bit targets count() truncates for long vectors (proved counterexample)."
  },
  {
   "property": "C31",
   "status": "proved",
   "theorems": [
    "Succinct.C31_binary",
    "Succinct.C31_debug"
   ],
   "note": ""
  },
  {
   "property": "C32",
   "status": "proved",
   "theorems": [
    "Succinct.C32_window",
    "Succinct.C32_new_out_of_bounds",
    "Succinct.C32_lawful"
   ],
   "note": "Stated for any base satisfying the BitVec reading laws, which are proved for BitVector, IntVector, Vec<bool>, words and slices themselves."
  },
  {
   "property": "C33",
   "status": "proved",
   "theorems": [
    "Succinct.C33_write",
    "Succinct.C33_lawful"
   ],
   "note": ""
  },
  {
   "property": "C34",
   "status": "proved",
   "theorems": [
    "Succinct.C34_flatten",
    "Succinct.C34_range_forms",
    "Succinct.C34_nested"
   ],
   "note": ""
  },
  {
   "property": "C35",
   "status": "partial",
   "theorems": [
    "Succinct.C35_blocks_partial",
    "Succinct.C35_set_block_partial",
    "Succinct.C35_partial_block_panics",
    "Succinct.C35_partial_block_example",
    "Succinct.C35_block_alias"
   ],
   "note": "Proved for full blocks and for indices whose bit position is below 2^64. The full claim is false: reading a partial last block panics, and block index 2^58 of a u64 slice aliases block 0 (both proved). Exact behaviour at every index: C99_slice_get_block, C99_slice_set_block."
  },
  {
   "property": "C36",
   "status": "proved",
   "theorems": [
    "Succinct.C36_words"
   ],
   "note": ""
  },
  {
   "property": "C37",
   "status": "proved",
   "theorems": [
    "Succinct.C37_jacobson",
    "Succinct.C37_bit_vector"
   ],
   "note": "For vectors of at most 2^34 bits on 32-bit and 2^63 bits on 64-bit targets (allocation limits), over any lawful zero-padded bit vector."
  },
  {
   "property": "C38",
   "status": "partial",
   "theorems": [
    "Succinct.C38_buildable_partial",
    "Succinct.C38_short_vectors_panic"
   ],
   "note": "Construction succeeds exactly for at least two bits. The full claim is false: on empty and one-bit vectors JacobsonRank::new divides by zero (proved)."
  },
  {
   "property": "C39",
   "status": "proved",
   "theorems": [
    "Succinct.C39_rank9",
    "Succinct.C39_bit_vector",
    "Succinct.C39_vec"
   ],
   "note": "The number of blocks plus 8 must be a usize: always so on 64-bit targets, and on 32-bit targets for every directory that fits in memory."
  },
  {
   "property": "C40",
   "status": "partial",
   "theorems": [
    "Succinct.C40_jacobson",
    "Succinct.C40_words_debug_partial",
    "Succinct.C40_words_release_counterexample",
    "Succinct.C40_rank9_partial",
    "Succinct.C40_rank9_silent",
    "Succinct.C40_rank9_silent_all",
    "Succinct.C40_broadword_debug_partial",
    "Succinct.C40_broadword_release_counterexample",
    "Succinct.C40_broadword_release",
    "Succinct.C40_rank0",
    "Succinct.C40_words_rank0_release",
    "Succinct.C40_broadword_rank0_release"
   ],
   "note": "Proved for Jacobson in all builds, words and Broadword in builds with debug assertions, Rank9 past the last block. False otherwise: words and Broadword without debug assertions (overflow checks or not) and Rank9 inside the last block return numbers (proved). Exact behaviour of words: C97_word_rank, C40_words_rank0_release; of Broadword in release builds: C40_broadword_release, C40_broadword_rank0_release; of Rank9 inside the last block: C40_rank9_silent_all; rank0 of every structure from its rank1: C40_rank0."
  },
  {
   "property": "C41",
   "status": "proved",
   "theorems": [
    "Succinct.C41_rank_laws"
   ],
   "note": "Over the rank contract, which C36, C37, C39, C42 and C50 establish for the crate's structures."
  },
  {
   "property": "C43",
   "status": "proved",
   "theorems": [
    "Succinct.C43_binary_search",
    "Succinct.C43_average"
   ],
   "note": ""
  },
  {
   "property": "C44",
   "status": "partial",
   "theorems": [
    "Succinct.C44_select_partial",
    "Succinct.C44_max",
    "Succinct.C44_max_release",
    "Succinct.C44_max_debug"
   ],
   "note": "Proved for every k below u64::MAX. At k = u64::MAX the claim is false: release builds return Some(0) on any non-empty vector and None on the empty one, debug builds panic (C44_max, for select1, select0 and select)."
  },
  {
   "property": "C45",
   "status": "proved",
   "theorems": [
    "Succinct.C45_rank_of_select",
    "Succinct.C45_select_of_rank",
    "Succinct.C45_select_agree",
    "Succinct.C45_tower"
   ],
   "note": ""
  },
  {
   "property": "C46",
   "status": "proved",
   "theorems": [
    "Succinct.C46_count_ones"
   ],
   "note": ""
  },
  {
   "property": "C47",
   "status": "partial",
   "theorems": [
    "Succinct.C47_select_partial",
    "Succinct.C47_broadword_select_partial",
    "Succinct.C47_large_r",
    "Succinct.C47_never_panics",
    "Succinct.C47_exact",
    "Succinct.C47_zero",
    "Succinct.C47_middle",
    "Succinct.C47_middle_low",
    "Succinct.C47_past_end_counterexample"
   ],
   "note": "Proved for r < 128, which covers every r that can have an answer. False for larger r: for 192 <= r < 256 the result is Some(0) on every word (proved). Never panics for any r. C47_exact gives the returned value for every r >= 64, C47_zero on the zero word, C47_middle(_low) for 128 <= r < 192, where answers past the end of the word occur (select1(130, 7) = Some(70))."
  },
  {
   "property": "C48",
   "status": "proved",
   "theorems": [
    "Succinct.C48_u_le8",
    "Succinct.C48_u_nz8"
   ],
   "note": ""
  },
  {
   "property": "C49",
   "status": "partial",
   "theorems": [
    "Succinct.C49_le8_partial",
    "Succinct.C49_different_signs"
   ],
   "note": "Proved for bytes of equal sign. False for bytes of different sign, where the exact (wrong) result is proved."
  },
  {
   "property": "C50",
   "status": "proved",
   "theorems": [
    "Succinct.C50_broadword_rank"
   ],
   "note": ""
  },
  {
   "property": "C42",
   "status": "proved",
   "theorems": [
    "Succinct.C42_jacobson",
    "Succinct.C42_jacobson_inner",
    "Succinct.C42_rank9",
    "Succinct.C42_rank9_inner",
    "Succinct.C42_bin_search_select",
    "Succinct.C42_bin_search_rank",
    "Succinct.C42_bit_buffer"
   ],
   "note": ""
  },
  {
   "property": "C51",
   "status": "proved",
   "theorems": [
    "Succinct.C51_write",
    "Succinct.C51_read",
    "Succinct.C51_roundtrip"
   ],
   "note": "For any sink and source, signed and unsigned types."
  },
  {
   "property": "C52",
   "status": "partial",
   "theorems": [
    "Succinct.C52_write_partial",
    "Succinct.C52_read",
    "Succinct.C52_roundtrip_partial",
    "Succinct.C52_signed_full_width",
    "Succinct.C52_signed_counterexample",
    "Succinct.C52_zero_bits",
    "Succinct.C52_too_wide",
    "Succinct.C52_exact"
   ],
   "note": "Proved for unsigned types and for signed types with n below the width. False for signed types at full width: the mask is shifted arithmetically, the exact wrong output is proved. write_int_be(0, v) panics in debug builds. Exact behaviour for every n: C52_exact."
  },
  {
   "property": "C53",
   "status": "proved",
   "theorems": [
    "Succinct.C53_read_int",
    "Succinct.C53_read_int_be",
    "Succinct.C53_lawful",
    "Succinct.C53_lawful_be"
   ],
   "note": ""
  },
  {
   "property": "C54",
   "status": "proved",
   "theorems": [
    "Succinct.C54_buffer_is_file",
    "Succinct.C54_constructors",
    "Succinct.C54_bit_vector",
    "Succinct.C54_write_then_read"
   ],
   "note": "Over any lawful vector, and for BitVector."
  },
  {
   "property": "C08",
   "status": "proved",
   "theorems": [
    "Succinct.C08_roundtrip",
    "Succinct.C08_bytes"
   ],
   "note": "The byteorder crate's behaviour is assumed as described in Model/BlockIO.lean."
  },
  {
   "property": "C55",
   "status": "proved",
   "theorems": [
    "Succinct.C55_unary",
    "Succinct.C55_roundtrip"
   ],
   "note": ""
  },
  {
   "property": "C56",
   "status": "proved",
   "theorems": [
    "Succinct.C56_gamma",
    "Succinct.C56_roundtrip"
   ],
   "note": ""
  },
  {
   "property": "C57",
   "status": "proved",
   "theorems": [
    "Succinct.C57_delta",
    "Succinct.C57_roundtrip"
   ],
   "note": ""
  },
  {
   "property": "C58",
   "status": "proved",
   "theorems": [
    "Succinct.C58_omega",
    "Succinct.C58_roundtrip"
   ],
   "note": ""
  },
  {
   "property": "C59",
   "status": "proved",
   "theorems": [
    "Succinct.C59_comma",
    "Succinct.C59_roundtrip"
   ],
   "note": ""
  },
  {
   "property": "C60",
   "status": "proved",
   "theorems": [
    "Succinct.C60_largest",
    "Succinct.C60_fibonacci",
    "Succinct.C60_implements",
    "Succinct.C60_too_large",
    "Succinct.C60_roundtrip"
   ],
   "note": "The codeword is characterised as the Zeckendorf representation followed by a one."
  },
  {
   "property": "C61",
   "status": "proved",
   "theorems": [
    "Succinct.C61_lift0",
    "Succinct.C61_roundtrip",
    "Succinct.C61_max"
   ],
   "note": ""
  },
  {
   "property": "C62",
   "status": "proved",
   "theorems": [
    "Succinct.C62_all",
    "Succinct.C62_streams",
    "Succinct.C62_deque",
    "Succinct.C62_bit_buffer",
    "Succinct.C62_gamma_delta"
   ],
   "note": "For every code the crate's types can build, nested Elias and Lift0 included."
  },
  {
   "property": "C63",
   "status": "proved",
   "theorems": [
    "Succinct.C63_prefix_free",
    "Succinct.C63_unambiguous"
   ],
   "note": ""
  },
  {
   "property": "C64",
   "status": "partial",
   "theorems": [
    "Succinct.C64_end",
    "Succinct.C64_truncated_partial",
    "Succinct.C64_fibonacci",
    "Succinct.C64_fibonacci_counterexample"
   ],
   "note": "Fails for Fibonacci: a truncated codeword without a one is reported as the end of the stream; exact behaviour proved. Holds for all other codes."
  },
  {
   "property": "C65",
   "status": "partial",
   "theorems": [
    "Succinct.C65_zero_partial",
    "Succinct.C65_omega"
   ],
   "note": "Fails for Omega: encode(0) writes the codeword of 1."
  },
  {
   "property": "C66",
   "status": "partial",
   "theorems": [
    "Succinct.C66_total",
    "Succinct.C66_release",
    "Succinct.C66_debug_partial",
    "Succinct.C66_omega_panics",
    "Succinct.C66_comma_panics",
    "Succinct.C66_fibonacci_panics",
    "Succinct.C66_lift0_unary"
   ],
   "note": "When exactly decoders panic is C106. Unary, Gamma and Delta in all builds; everything in release builds; in debug builds Omega, Comma, Fibonacci and Lift0<Unary> panic on malformed input (counterexamples), and only beyond 76, 64 and 91 bits respectively."
  },
  {
   "property": "C67",
   "status": "proved",
   "theorems": [
    "Succinct.C67_sink_failures"
   ],
   "note": ""
  },
  {
   "property": "C68",
   "status": "proved",
   "theorems": [
    "Succinct.C68_lengths",
    "Succinct.C68_comma",
    "Succinct.C68_fibonacci",
    "Succinct.C68_written"
   ],
   "note": ""
  },
  {
   "property": "C69",
   "status": "partial",
   "theorems": [
    "Succinct.C69_terminates_partial",
    "Succinct.C69_comma1_diverges",
    "Succinct.C69_comma0",
    "Succinct.C69_wide"
   ],
   "note": "Fails for n = 1 (never returns) and n = 0 (division by zero); n >= 64 panics in debug builds. Exactly when encoding hangs, for all digit sizes and nestings: C96."
  },
  {
   "property": "C77",
   "status": "partial",
   "theorems": [
    "Succinct.C77_only_codewords",
    "Succinct.C77_omega_partial",
    "Succinct.C77_omega_32_counterexample",
    "Succinct.C77_omega_release_counterexample",
    "Succinct.C77_comma_partial",
    "Succinct.C77_comma_counterexample"
   ],
   "note": "Unary, Gamma, Delta, Fibonacci in full. Omega only for debug builds on 64-bit targets if fewer than 2^32 bits are read (the shift amount is taken modulo 2^32), with counterexamples for release builds and 32-bit targets (exactly when: C106_omega_only); Comma up to leading zero digits, with a counterexample."
  },
  {
   "property": "C70",
   "status": "partial",
   "theorems": [
    "Succinct.C70_with_capacity",
    "Succinct.C70_reserve_partial",
    "Succinct.C70_reserve_then_push",
    "Succinct.C70_reserve_iff",
    "Succinct.C70_reserve_counterexample",
    "Succinct.C70_block_reserve",
    "Succinct.C70_shrink",
    "Succinct.C70_change",
    "Succinct.C70_overflow_panics",
    "Succinct.C70_reallocations"
   ],
   "note": "Fails for reserve and reserve_exact when the vector has spare but insufficient capacity (counterexample); holds for with_capacity, block_reserve, and reserve on full vectors; C70_reserve_iff shows these cases are exactly the good ones for an exact allocator."
  },
  {
   "property": "C71",
   "status": "proved",
   "theorems": [
    "Succinct.C71_total",
    "Succinct.C71_stack_only",
    "Succinct.C71_stack_only_iff",
    "Succinct.C71_vec",
    "Succinct.C71_box",
    "Succinct.C71_tuple",
    "Succinct.C71_vectors",
    "Succinct.C71_rank9",
    "Succinct.C71_jacobson",
    "Succinct.C71_select"
   ],
   "note": "size_of of the types is a parameter."
  },
  {
   "property": "C72",
   "status": "proved",
   "theorems": [
    "Succinct.C72_rank9",
    "Succinct.C72_jacobson"
   ],
   "note": ""
  },
  {
   "property": "C78",
   "status": "proved",
   "theorems": [
    "Succinct.C78_caught_panics",
    "Succinct.C78_unchanged"
   ],
   "note": "Over a model that keeps the state at each panic; every function of it is proved to agree with the main model (theorems ..._res in Lemmas/Unwind.lean)."
  },
  {
   "property": "C79",
   "status": "proved",
   "theorems": [
    "Succinct.C79_caught_panics",
    "Succinct.C79_unchanged"
   ],
   "note": ""
  },
  {
   "property": "C80",
   "status": "proved",
   "theorems": [
    "Succinct.C80_setters",
    "Succinct.C80_refused_length"
   ],
   "note": ""
  },
  {
   "property": "C81",
   "status": "partial",
   "theorems": [
    "Succinct.C81_bool_vec_set_block_partial",
    "Succinct.C81_bool_vec_set_block_p32",
    "Succinct.C81_counterexample"
   ],
   "note": "Fails on 64-bit targets for positions >= 2^61 (counterexample); proved below that and on 32-bit targets. Exact behaviour at every index: C99_vec_bool_set_block."
  },
  {
   "property": "C82",
   "status": "proved",
   "theorems": [
    "Succinct.C82_capacity_ge_len",
    "Succinct.C82_no_reallocation"
   ],
   "note": "Over all allocators with Vec's documented contract; capacity() itself multiplies by the block width and needs the product below 2^64."
  },
  {
   "property": "C83",
   "status": "partial",
   "theorems": [
    "Succinct.C83_rank9_partial",
    "Succinct.C83_jacobson_partial",
    "Succinct.C83_counterexample"
   ],
   "note": "Exact: holds when the slice is a whole number of blocks long; otherwise construction panics, because get_block on the partial last block does (C35)."
  },
  {
   "property": "C84",
   "status": "partial",
   "theorems": [
    "Succinct.C84_read_bit_partial",
    "Succinct.C84_whole_blocks_partial",
    "Succinct.C84_counterexample"
   ],
   "note": "Exact: the bits of the whole blocks are read correctly, the bits of a partial last block panic; a slice of whole blocks is a lawful source."
  },
  {
   "property": "C85",
   "status": "proved",
   "theorems": [
    "Succinct.C85_bit_vector",
    "Succinct.C85_int_vector",
    "Succinct.C85_bit_vector_bytes",
    "Succinct.C85_int_vector_bytes"
   ],
   "note": "What std's Hash for u64, usize and Vec<integer> feeds to the hasher is assumed (Model/Derived.lean)."
  },
  {
   "property": "C86",
   "status": "proved",
   "theorems": [
    "Succinct.C86_address_order"
   ],
   "note": ""
  },
  {
   "property": "C87",
   "status": "partial",
   "theorems": [
    "Succinct.C87_exact",
    "Succinct.C87_one_block_partial",
    "Succinct.C87_counterexample"
   ],
   "note": "The exact order is proved: first differing block, then the last differing bit in it; so it depends on the block size. Holds for vectors of at most one block; counterexample with nine bits."
  },
  {
   "property": "C88",
   "status": "partial",
   "theorems": [
    "Succinct.C88_exact",
    "Succinct.C88_lexicographic_partial",
    "Succinct.C88_counterexample"
   ],
   "note": "The exact order is proved (block order of the packed bits). Lexicographic for block-sized elements; for narrower ones later elements of a block decide first: [1,0] < [0,1] with 4-bit elements in u8 blocks."
  },
  {
   "property": "C89",
   "status": "proved",
   "theorems": [
    "Succinct.C89_any_function",
    "Succinct.C89_terminates"
   ],
   "note": ""
  },
  {
   "property": "C90",
   "status": "proved",
   "theorems": [
    "Succinct.C90_select_cost",
    "Succinct.C90_unsuccessful",
    "Succinct.C90_attained"
   ],
   "note": "Over a copy of the search with a counter of calls; forgetting the counter gives the original (binarySearch_forget)."
  },
  {
   "property": "C91",
   "status": "proved",
   "theorems": [
    "Succinct.C91_rank9",
    "Succinct.C91_jacobson",
    "Succinct.C91_get_bits"
   ],
   "note": ""
  },
  {
   "property": "C92",
   "status": "proved",
   "theorems": [
    "Succinct.C92_monotone",
    "Succinct.C92_bounds"
   ],
   "note": ""
  },
  {
   "property": "C93",
   "status": "proved",
   "theorems": [
    "Succinct.C93_kraft"
   ],
   "note": ""
  },
  {
   "property": "C94",
   "status": "proved",
   "theorems": [
    "Succinct.C94_reads",
    "Succinct.C94_blocks",
    "Succinct.C94_rank9",
    "Succinct.C94_jacobson"
   ],
   "note": "A buffer is nested only over vectors that reject out-of-range block indices, and a slice gives blocks only when it is a whole number of blocks long; what happens otherwise is C35, C83, C84."
  },
  {
   "property": "C95",
   "status": "proved",
   "theorems": [
    "Succinct.C95_bit_vector",
    "Succinct.C95_bit_vector_new",
    "Succinct.C95_int_vector",
    "Succinct.C95_int_vector_new",
    "Succinct.C95_iterators",
    "Succinct.C95_format",
    "Succinct.C95_rank9",
    "Succinct.C95_jacobson",
    "Succinct.C95_select",
    "Succinct.C95_bit_buffer"
   ],
   "note": ""
  },
  {
   "property": "C96",
   "status": "proved",
   "theorems": [
    "Succinct.C96_decode_ends",
    "Succinct.C96_fibonacci_always_ends",
    "Succinct.C96_unary_endless",
    "Succinct.C96_encode_hangs_iff"
   ],
   "note": ""
  },
  {
   "property": "C97",
   "status": "proved",
   "theorems": [
    "Succinct.C97_ceil_div",
    "Succinct.C97_ceil_div_nbits",
    "Succinct.C97_mul_div_nbits",
    "Succinct.C97_low_mask",
    "Succinct.C97_word_fields",
    "Succinct.C97_word_bits",
    "Succinct.C97_word_spans",
    "Succinct.C97_word_rank"
   ],
   "note": ""
  },
  {
   "property": "C98",
   "status": "proved",
   "theorems": [
    "Succinct.C98_get_bits",
    "Succinct.C98_set_bits",
    "Succinct.C98_instances",
    "Succinct.C98_bit_buffer"
   ],
   "note": ""
  },
  {
   "property": "C99",
   "status": "proved",
   "theorems": [
    "Succinct.C99_slice_get_block",
    "Succinct.C99_slice_set_block",
    "Succinct.C99_int_vector_index",
    "Succinct.C99_get_random",
    "Succinct.C99_set_random",
    "Succinct.C99_fill_wraps",
    "Succinct.C99_vec_bool_set_block"
   ],
   "note": "Lengths whose block count is a usize but whose bits do not fit in memory are outside the model, see DESIGN.md."
  },
  {
   "property": "C100",
   "status": "proved",
   "theorems": [
    "Succinct.C100_bit_vector",
    "Succinct.C100_int_vector"
   ],
   "note": ""
  },
  {
   "property": "C101",
   "status": "proved",
   "theorems": [
    "Succinct.C101_aligned",
    "Succinct.C101_is_empty",
    "Succinct.C101_block_truncate",
    "Succinct.C101_push_pop_block"
   ],
   "note": ""
  },
  {
   "property": "C102",
   "status": "proved",
   "theorems": [
    "Succinct.C102_count_ones",
    "Succinct.C102_select1",
    "Succinct.C102_u_nz8",
    "Succinct.C102_u_le8",
    "Succinct.C102_floor_lg",
    "Succinct.C102_ceil_lg",
    "Succinct.C102_ceil_div",
    "Succinct.C102_ceil_div_overflow",
    "Succinct.C102_code_decode",
    "Succinct.C102_code_decode_tests",
    "Succinct.C102_fibonacci"
   ],
   "note": "The properties are transcribed in Tests/Quickcheck.lean. The failures for large arguments are of the test properties, not of the functions tested."
  },
  {
   "property": "C103",
   "status": "proved",
   "theorems": [
    "Succinct.C103_bit_vec",
    "Succinct.C103_rank",
    "Succinct.C103_select",
    "Succinct.C103_compose",
    "Succinct.C103_bin_search_select",
    "Succinct.C103_search_through",
    "Succinct.C103_tower"
   ],
   "note": ""
  },
  {
   "property": "C104",
   "status": "partial",
   "theorems": [
    "Succinct.C104_rank9",
    "Succinct.C104_jacobson_partial",
    "Succinct.C104_jacobson_whole_partial",
    "Succinct.C104_counterexample"
   ],
   "note": "Full for Rank9. JacobsonRank counts its entries one short unless the vector is a whole number of (large) blocks long; C104_jacobson_partial says exactly when a directory is reallocated, C104_counterexample gives 73 and 521 bits in 8-bit blocks."
  },
  {
   "property": "C105",
   "status": "proved",
   "theorems": [
    "Succinct.C105_rank9",
    "Succinct.C105_jacobson"
   ],
   "note": "Stack sizes of the types are parameters (bounded by those of 64-bit targets)."
  },
  {
   "property": "C106",
   "status": "proved",
   "theorems": [
    "Succinct.C106_unique",
    "Succinct.C106_elias",
    "Succinct.C106_lift0_panics_iff",
    "Succinct.C106_gamma_pos",
    "Succinct.C106_delta_builds",
    "Succinct.C106_omega",
    "Succinct.C106_omega_cases",
    "Succinct.C106_omega_panics",
    "Succinct.C106_omega_panics_iff",
    "Succinct.C106_omega_only",
    "Succinct.C106_comma",
    "Succinct.C106_comma_widths",
    "Succinct.C106_comma_panics_iff",
    "Succinct.C106_fibonacci",
    "Succinct.C106_fibonacci_panics_iff",
    "Succinct.C106_all"
   ],
   "note": ""
  },
  {
   "property": "C107",
   "status": "proved",
   "theorems": [
    "Succinct.C107_bitvec",
    "Succinct.C107_wrappers",
    "Succinct.C107_sequences",
    "Succinct.C107_vectors",
    "Succinct.C107_rank_select",
    "Succinct.C107_broadword",
    "Succinct.C107_codes",
    "Succinct.C107_streams",
    "Succinct.C107_space",
    "Succinct.C107_added_panics"
   ],
   "note": "State after a caught panic is not compared. byteorder-based block reads and writes contain no checked arithmetic and are not listed."
  },
  {
   "property": "C108",
   "status": "proved",
   "theorems": [
    "Succinct.C108_bit_vector",
    "Succinct.C108_int_vector",
    "Succinct.C108_reach_bits",
    "Succinct.C108_reach_ints",
    "Succinct.C108_iterators",
    "Succinct.C108_len_exception",
    "Succinct.C108_bit_buffer",
    "Succinct.C108_rank_select",
    "Succinct.C108_codes",
    "Succinct.C108_block_io",
    "Succinct.C108_usize_exception"
   ],
   "note": "Capacities, space usage and hashes (which depend on usize by design) are not compared. Streams of bits which are not codewords may decode differently, see C77_omega_32_counterexample."
  },
  {
   "property": "C109",
   "status": "proved",
   "theorems": [
    "Succinct.C109_only_fails",
    "Succinct.C109_unlimited",
    "Succinct.C109_bit_vector",
    "Succinct.C109_int_vector",
    "Succinct.C109_bounded",
    "Succinct.C109_rank",
    "Succinct.C109_reserved_bits",
    "Succinct.C109_reserved_ints",
    "Succinct.C109_isize_max_not_enough"
   ],
   "note": "The 2^60 limit on 64-bit targets is an assumption about machines: std's own limit, isize::MAX bytes, would not do (C109_isize_max_not_enough: 2^61 one-byte blocks make an empty vector). What a caught failure leaves behind is not modelled, nor are allocations by the rank structures."
  },
  {
   "property": "C110",
   "status": "proved",
   "theorems": [
    "Succinct.C110_binary",
    "Succinct.C110_debug",
    "Succinct.C110_prefix"
   ],
   "note": "How write! splits its text into calls of write_str is assumed (Model/Format.lean)."
  },
  {
   "property": "C111",
   "status": "proved",
   "theorems": [
    "Succinct.C111_vectors",
    "Succinct.C111_bit_vector",
    "Succinct.C111_binary",
    "Succinct.C111_int_vector",
    "Succinct.C111_address",
    "Succinct.C111_nested",
    "Succinct.C111_jacobson"
   ],
   "note": "The compact layout written by derived Debug is assumed (Model/Format.lean); for {:#?} and other options see C147."
  },
  {
   "property": "C112",
   "status": "proved",
   "theorems": [
    "Succinct.C112_bit_vector",
    "Succinct.C112_int_vector",
    "Succinct.C112_exact_allocator"
   ],
   "note": "Vec growth is a parameter; std's grows to max(2*cap, needed), which Alloc.amortized models."
  },
  {
   "property": "C113",
   "status": "proved",
   "theorems": [
    "Succinct.C113_save",
    "Succinct.C113_load",
    "Succinct.C113_roundtrip",
    "Succinct.C113_same_type",
    "Succinct.C113_big_endian_counterexample"
   ],
   "note": "The save and load programs are clients of the crate, not part of it."
  },
  {
   "property": "C114",
   "status": "proved",
   "theorems": [
    "Succinct.C114_lookup",
    "Succinct.C114_overwrite"
   ],
   "note": "The programs that note positions are clients of the crate."
  },
  {
   "property": "C115",
   "status": "proved",
   "theorems": [
    "Succinct.C115_read",
    "Succinct.C115_write",
    "Succinct.C115_bit_vector",
    "Succinct.C115_int_vector_write",
    "Succinct.C115_int_vector_read"
   ],
   "note": "Up to position + width within the vector and width at most that of the block type; outside see C98."
  },
  {
   "property": "C116",
   "status": "proved",
   "theorems": [
    "Succinct.C116_resync",
    "Succinct.C116_damage",
    "Succinct.C116_short",
    "Succinct.C116_ones",
    "Succinct.C116_gamma_counterexample"
   ],
   "note": ""
  },
  {
   "property": "C117",
   "status": "proved",
   "theorems": [
    "Succinct.C117_programs",
    "Succinct.C117_from_start"
   ],
   "note": "Calls on an object of another type, which Rust would reject, count as panics on both sides. Lengths and arguments must be legal (progOk): rank within the vector, select below u64::MAX, no encoding that loops for ever, no reversed ranges, no full-width signed number written big-endian (C52). Values and bits outside a code have the outcomes of C106 and C119."
  },
  {
   "property": "C118",
   "status": "proved",
   "theorems": [
    "Succinct.C118_laws",
    "Succinct.C118_int_iter",
    "Succinct.C118_bit_iter",
    "Succinct.C118_hash",
    "Succinct.C118_bit_hash"
   ],
   "note": ""
  },
  {
   "property": "C119",
   "status": "proved",
   "theorems": [
    "Succinct.C119_encode",
    "Succinct.C119_valid",
    "Succinct.C119_roundtrip",
    "Succinct.C119_untouched"
   ],
   "note": ""
  },
  {
   "property": "C120",
   "status": "proved",
   "theorems": [
    "Succinct.C120_push_bits",
    "Succinct.C120_push_ints",
    "Succinct.C120_bit_vector",
    "Succinct.C120_int_vector",
    "Succinct.C120_bit_states",
    "Succinct.C120_int_states",
    "Succinct.C120_bit_buffer"
   ],
   "note": ""
  },
  {
   "property": "C121",
   "status": "proved",
   "theorems": [
    "Succinct.C121_any",
    "Succinct.C121_final",
    "Succinct.C121_unwinds"
   ],
   "note": "Sources that deliver bits for ever are the subject of C96."
  },
  {
   "property": "C122",
   "status": "proved",
   "theorems": [
    "Succinct.C122_programs"
   ],
   "note": "The state left by a panic is taken from models in which panics carry the state (Model/Unwind.lean, Model/UnwindMore.lean), which are proved to agree with the others; what has been read from a source is counted by metering it. Arguments must be legal as in C117."
  },
  {
   "property": "C123",
   "status": "proved",
   "theorems": [
    "Succinct.C123_sequence"
   ],
   "note": "The programs that build and query the sequence are clients of the crate. Requests by number must be below u64::MAX (C44)."
  },
  {
   "property": "C124",
   "status": "proved",
   "theorems": [
    "Succinct.C124_recode",
    "Succinct.C124_copy",
    "Succinct.C124_there_and_back",
    "Succinct.C124_lossless",
    "Succinct.C124_injective",
    "Succinct.C124_comma_counterexample"
   ],
   "note": "The recoding program is a client of the crate. Comma(0), which decodes 0 without reading, is excluded as the first code."
  },
  {
   "property": "C125",
   "status": "proved",
   "theorems": [
    "Succinct.C125_chunks",
    "Succinct.C125_parse_append",
    "Succinct.C125_timely",
    "Succinct.C125_start",
    "Succinct.C125_bit_vector",
    "Succinct.C125_roundtrip"
   ],
   "note": "The program is a client of the crate. Comma(0), which decodes 0 without reading, is excluded."
  },
  {
   "property": "C126",
   "status": "proved",
   "theorems": [
    "Succinct.C126_rank9_only_fails",
    "Succinct.C126_jacobson_only_fails",
    "Succinct.C126_rank9",
    "Succinct.C126_jacobson",
    "Succinct.C126_jacobson_granted",
    "Succinct.C126_jacobson_whole",
    "Succinct.C126_answers",
    "Succinct.C126_pipeline"
   ],
   "note": "A refused request is a panic in the model; Rust aborts the process unless more than isize::MAX bytes were asked for."
  },
  {
   "property": "C127",
   "status": "proved",
   "theorems": [
    "Succinct.C127_encode",
    "Succinct.C127_only_fails",
    "Succinct.C127_ends",
    "Succinct.C127_enough",
    "Succinct.C127_omega"
   ],
   "note": "A refused request is a panic in the model."
  },
  {
   "property": "C128",
   "status": "proved",
   "theorems": [
    "Succinct.C128_buffer",
    "Succinct.C128_only_fails",
    "Succinct.C128_encode",
    "Succinct.C128_new",
    "Succinct.C128_roundtrip"
   ],
   "note": "The allocator is bounded (Heap.Bounded): it does not grant blocks whose bits cannot be counted in 64 bits."
  },
  {
   "property": "C129",
   "status": "proved",
   "theorems": [
    "Succinct.C129_elias",
    "Succinct.C129_lift0",
    "Succinct.C129_encode",
    "Succinct.C129_truncated",
    "Succinct.C129_only_codewords",
    "Succinct.C129_outcome",
    "Succinct.C129_unambiguous",
    "Succinct.C129_kraft",
    "Succinct.C129_streams"
   ],
   "note": ""
  },
  {
   "property": "C130",
   "status": "proved",
   "theorems": [
    "Succinct.C130_unary",
    "Succinct.C130_gamma",
    "Succinct.C130_delta",
    "Succinct.C130_fibonacci",
    "Succinct.C130_comma",
    "Succinct.C130_omega",
    "Succinct.C130_elias",
    "Succinct.C130_elias_header",
    "Succinct.C130_lift0",
    "Succinct.C130_decoders"
   ],
   "note": "Streams of fewer than 2^64 bits."
  },
  {
   "property": "C131",
   "status": "proved",
   "theorems": [
    "Succinct.C131_unary",
    "Succinct.C131_unary_damage",
    "Succinct.C131_comma",
    "Succinct.C131_comma_damage",
    "Succinct.C131_comma_counterexample"
   ],
   "note": "Damaged parts of fewer than 2^64 bits for Unary. Fibonacci and Gamma are in C116."
  },
  {
   "property": "C132",
   "status": "proved",
   "theorems": [
    "Succinct.C132_entropy_bound",
    "Succinct.C132_gamma",
    "Succinct.C132_delta",
    "Succinct.C132_omega",
    "Succinct.C132_omega_optimal",
    "Succinct.C132_fibonacci",
    "Succinct.C132_comma",
    "Succinct.C132_unary_counterexample"
   ],
   "note": "Uses Mathlib's real logarithm and golden ratio. Bits are counted on an unbounded queue."
  },
  {
   "property": "C133",
   "status": "proved",
   "theorems": [
    "Succinct.C133_get_bit",
    "Succinct.C133_get_block",
    "Succinct.C133_round_trip",
    "Succinct.C133_set_bit",
    "Succinct.C133_set_block",
    "Succinct.C133_push",
    "Succinct.C133_neither_get",
    "Succinct.C133_neither_set"
   ],
   "note": "Writes past the end by block index i are covered while i * nbits < 2^64 (see C81 for the rest). Unbounded recursion is 'never returns'; a real run would overflow its stack."
  },
  {
   "property": "C134",
   "status": "proved",
   "theorems": [
    "Succinct.C134_arithmetic",
    "Succinct.C134_average",
    "Succinct.C134_search",
    "Succinct.C134_any_function",
    "Succinct.C134_unsigned",
    "Succinct.C134_select",
    "Succinct.C134_inverse",
    "Succinct.C134_select_max",
    "Succinct.C134_bool"
   ],
   "note": "Primitive integers are modelled as integers within bounds; shifts by one as halving rounded down."
  },
  {
   "property": "C135",
   "status": "proved",
   "theorems": [
    "Succinct.C135_gamma_delta",
    "Succinct.C135_gamma_omega",
    "Succinct.C135_gamma_fibonacci",
    "Succinct.C135_gamma_comma",
    "Succinct.C135_gamma_word",
    "Succinct.C135_delta_omega",
    "Succinct.C135_delta_fibonacci",
    "Succinct.C135_delta_comma",
    "Succinct.C135_delta_word",
    "Succinct.C135_omega_fibonacci",
    "Succinct.C135_omega_comma",
    "Succinct.C135_omega_word",
    "Succinct.C135_fibonacci_comma",
    "Succinct.C135_fibonacci_word",
    "Succinct.C135_comma_word",
    "Succinct.C135_unary"
   ],
   "note": "The lengths are step functions; the comparison is decided at the steps and extended to all values by proof."
  },
  {
   "property": "C136",
   "status": "proved",
   "theorems": [
    "Succinct.C136_iter_forward",
    "Succinct.C136_iter_exact",
    "Succinct.C136_bit_iter",
    "Succinct.C136_start",
    "Succinct.C136_start_bits",
    "Succinct.C136_skip_forward",
    "Succinct.C136_take_forward",
    "Succinct.C136_rev",
    "Succinct.C136_skip",
    "Succinct.C136_take",
    "Succinct.C136_collect",
    "Succinct.C136_collect_exact",
    "Succinct.C136_step_by",
    "Succinct.C136_step_by_forward",
    "Succinct.C136_step_by_back",
    "Succinct.C136_step_by_len",
    "Succinct.C136_step_by_nth_back",
    "Succinct.C136_usize",
    "Succinct.C136_skip_past_end",
    "Succinct.C136_step_by_end"
   ],
   "note": "What the adaptors of std do is assumed (transcribed in Model/Adaptors.lean)."
  },
  {
   "property": "C137",
   "status": "proved",
   "theorems": [
    "Succinct.C137_defaults",
    "Succinct.C137_slice",
    "Succinct.C137_slice_new",
    "Succinct.C137_jacobson",
    "Succinct.C137_rank9",
    "Succinct.C137_select",
    "Succinct.C137_buffer",
    "Succinct.C137_still",
    "Succinct.C137_still_defaults",
    "Succinct.C137_rank9_correct",
    "Succinct.C137_jacobson_correct",
    "Succinct.C137_select_correct",
    "Succinct.C137_codes",
    "Succinct.C137_cache"
   ],
   "note": "Model/Hidden.lean lifts, for generic code, the simplification that &self methods leave self unchanged; C137_still shows that without hidden state it is the code of the other models."
  },
  {
   "property": "C138",
   "status": "proved",
   "theorems": [
    "Succinct.C138_logged",
    "Succinct.C138_rank9_new",
    "Succinct.C138_jacobson_new",
    "Succinct.C138_rank9_rank1",
    "Succinct.C138_jacobson_rank1",
    "Succinct.C138_get_bit",
    "Succinct.C138_get_bits",
    "Succinct.C138_read_bit",
    "Succinct.C138_logged_mut",
    "Succinct.C138_slice_new",
    "Succinct.C138_slice",
    "Succinct.C138_set_bit",
    "Succinct.C138_set_bits",
    "Succinct.C138_get_block",
    "Succinct.C138_select_rank9"
   ],
   "note": "Calls are recorded only if they return; where a call panics, both sides panic."
  },
  {
   "property": "C139",
   "status": "proved",
   "theorems": [
    "Succinct.C139_lg_nbits",
    "Succinct.C139_address",
    "Succinct.C139_other_widths"
   ],
   "note": "The contradiction is a defect only in the sense that the trait does not state the requirement; no block type of the crate is affected."
  },
  {
   "property": "C140",
   "status": "proved",
   "theorems": [
    "Succinct.C140_gamma",
    "Succinct.C140_delta",
    "Succinct.C140_omega"
   ],
   "note": ""
  },
  {
   "property": "C141",
   "status": "proved",
   "theorems": [
    "Succinct.C141_block_choice",
    "Succinct.C141_exceptions"
   ],
   "note": ""
  },
  {
   "property": "C142",
   "status": "proved",
   "theorems": [
    "Succinct.C142_streams",
    "Succinct.C142_elias",
    "Succinct.C142_unary",
    "Succinct.C142_gamma",
    "Succinct.C142_delta",
    "Succinct.C142_omega_step",
    "Succinct.C142_omega",
    "Succinct.C142_comma",
    "Succinct.C142_fibonacci",
    "Succinct.C142_decode",
    "Succinct.C142_decode_omega"
   ],
   "note": ""
  },
  {
   "property": "C143",
   "status": "proved",
   "theorems": [
    "Succinct.C143_last_wins",
    "Succinct.C143_same",
    "Succinct.C143_any_order",
    "Succinct.C143_bit_vector",
    "Succinct.C143_int_vector"
   ],
   "note": ""
  },
  {
   "property": "C144",
   "status": "proved",
   "theorems": [
    "Succinct.C144_rank9",
    "Succinct.C144_jacobson",
    "Succinct.C144_short"
   ],
   "note": ""
  },
  {
   "property": "C145",
   "status": "proved",
   "theorems": [
    "Succinct.C145_overflow",
    "Succinct.C145_constant",
    "Succinct.C145_constant_wrong",
    "Succinct.C145_line_same",
    "Succinct.C145_line_wrong"
   ],
   "note": ""
  },
  {
   "property": "C146",
   "status": "proved",
   "theorems": [
    "Succinct.C146_random_bounds",
    "Succinct.C146_too_large",
    "Succinct.C146_ceil_div",
    "Succinct.C146_reserve"
   ],
   "note": ""
  },
  {
   "property": "C147",
   "status": "proved",
   "theorems": [
    "Succinct.C147_number",
    "Succinct.C147_vectors",
    "Succinct.C147_bit_vector",
    "Succinct.C147_address",
    "Succinct.C147_nested",
    "Succinct.C147_plain"
   ],
   "note": "How std formats integers, structures, tuples and lists under options is assumed (Model/FormatOpts.lean). Debug for IntVector and Binary for BitVector do not look at the options; for JacobsonRank, whose directories are IntVectors, the text also determines their widths and elements."
  },
  {
   "property": "C148",
   "status": "proved",
   "theorems": [
    "Succinct.C148_oblivious",
    "Succinct.C148_average"
   ],
   "note": "Counts come from the counting copy of the search in Model/Probes.lean, which C89 ties to the search itself."
  },
  {
   "property": "C149",
   "status": "proved",
   "theorems": [
    "Succinct.C149_rank9",
    "Succinct.C149_rank9_equal",
    "Succinct.C149_jacobson",
    "Succinct.C149_jacobson_equal"
   ],
   "note": "Without zero padding (a type of the user) the entries up to the last whole word are the same and those behind it count bits past the end, which no query in range reads (C39, C150)."
  },
  {
   "property": "C150",
   "status": "partial",
   "theorems": [
    "Succinct.C150_jacobson_partial",
    "Succinct.C150_jacobson_roomy_partial",
    "Succinct.C150_counterexample"
   ],
   "note": "False for some: seven ones in the byte 0xFF make JacobsonRank::new panic. Exact: with T the ones before the last block plus those in it, extra ones included, all is right if T < 2^\u2308lg(n+1)\u2309 and construction panics otherwise. Rank9 is right with any extra bits (C39)."
  },
  {
   "property": "C151",
   "status": "proved",
   "theorems": [
    "Succinct.C151_default",
    "Succinct.C151_decode",
    "Succinct.C151_encode",
    "Succinct.C151_source",
    "Succinct.C151_sink",
    "Succinct.C151_roundtrip",
    "Succinct.C151_omega_words",
    "Succinct.C151_sources",
    "Succinct.C151_source_default",
    "Succinct.C151_sink_default"
   ],
   "note": "A second model of the coders, in which the four methods are entries of the dictionaries (at u64, the only type the coders use). Reading as it should: the first n bits if there are n, Ok(None) if there are none, UnexpectedEof otherwise; the state after an error is left open. Omega may ask read_int_be for any width on arbitrary bits, but only for widths below 64 on codewords."
  },
  {
   "property": "C152",
   "status": "proved",
   "theorems": [
    "Succinct.OwnBlk.C152_crate",
    "Succinct.OwnBlk.C152_inherit",
    "Succinct.OwnBlk.C152_default_mask",
    "Succinct.OwnBlk.C152_same",
    "Succinct.OwnBlk.C152_vectors",
    "Succinct.OwnBlk.C152_inherent",
    "Succinct.OwnBlk.C152_bit_vector",
    "Succinct.OwnBlk.C152_int_vector",
    "Succinct.OwnBlk.C152_rank_select",
    "Succinct.OwnBlk.C152_rank_bit_vector",
    "Succinct.OwnBlk.C152_flags",
    "Succinct.OwnBlk.C152_each",
    "Succinct.OwnBlk.C152_each_rank"
   ],
   "note": "A second model of the vectors, slices, iterators, Jacobson's structure and select by binary search, in which the methods of the block type are entries of a dictionary. Arithmetic, bitwise operators and shifts (PrimInt) are still those of an unsigned integer; ceil_lg and ceil_div are called at u64 and usize only. Rank9 works on u64 blocks and is not concerned."
  },
  {
   "property": "C153",
   "status": "proved",
   "theorems": [
    "Succinct.C153_rank9",
    "Succinct.C153_jacobson",
    "Succinct.C153_error",
    "Succinct.C153_right",
    "Succinct.C153_still_right",
    "Succinct.C153_select"
   ],
   "note": "The changed store is modelled as the same structure with another state of the store. select is stated for an unchanged length; the last block may change at will because no directory entry behind it is read."
  },
  {
   "property": "C154",
   "status": "proved",
   "theorems": [
    "Succinct.C154_write",
    "Succinct.C154_write_be",
    "Succinct.C154_write_be_signed",
    "Succinct.C154_read",
    "Succinct.C154_read_be",
    "Succinct.C154_get_bits",
    "Succinct.C154_set_bits",
    "Succinct.C154_bit_vector"
   ],
   "note": "The two-piece programs are not in the crate; they are readTwo, writeTwo and so on in Props/Pieces.lean."
  },
  {
   "property": "C155",
   "status": "proved",
   "theorems": [
    "Succinct.C155_last_up_to",
    "Succinct.C155_first_from",
    "Succinct.C155_count_in",
    "Succinct.C155_collect",
    "Succinct.C155_bit_vector"
   ],
   "note": "The programs are not in the crate; they are lastUpTo, firstFrom, countIn and collect in Props/Neighbours.lean."
  },
  {
   "property": "C156",
   "status": "proved",
   "theorems": [
    "Succinct.C156_combine",
    "Succinct.C156_bit_vector",
    "Succinct.C156_count",
    "Succinct.C156_bit_vector_count"
   ],
   "note": "The loops are not in the crate; they are combine and countBlocks in Props/Blockwise.lean. Bit slices are left out because their block access does not keep the contract (C35)."
  },
  {
   "property": "C157",
   "status": "proved",
   "theorems": [
    "Succinct.C157_sorted"
   ],
   "note": "The programs are not in the crate; they are sortedNew, sortedGet and sortedRank in Props/Sorted.lean."
  },
  {
   "property": "C158",
   "status": "proved",
   "theorems": [
    "Succinct.C158_same_type",
    "Succinct.C158_little",
    "Succinct.C158_int_vector",
    "Succinct.C158_int_vector_same_type"
   ],
   "note": "The loops are not in the crate; they are store and restore in Props/Transfer.lean. C113 is the case of bit vectors read with push_block."
  },
  {
   "property": "C159",
   "status": "proved",
   "theorems": [
    "Succinct.C159_wavelet"
   ],
   "note": "The programs are not in the crate; they are levels, levelsGet, levelsCount and levelsNth in Props/Wavelet.lean."
  },
  {
   "property": "C160",
   "status": "proved",
   "theorems": [
    "Succinct.C160_numeric",
    "Succinct.C160_omega",
    "Succinct.C160_comma",
    "Succinct.C160_vectors",
    "Succinct.C160_comma_vectors",
    "Succinct.C160_counterexamples"
   ],
   "note": "encodedCmp in Props/CodeOrder.lean encodes two values into new bit buffers and compares the vectors."
  },
  {
   "property": "C161",
   "status": "proved",
   "theorems": [
    "Succinct.C161_trees"
   ],
   "note": "The programs are not in the crate; they are treeNew, treeDegree, treeChild, treeParent and treeWalk in Props/Trees.lean."
  },
  {
   "property": "C162",
   "status": "proved",
   "theorems": [
    "Succinct.C162_gaps",
    "Succinct.C162_common",
    "Succinct.C162_gamma",
    "Succinct.C162_delta",
    "Succinct.C162_any"
   ],
   "note": "The programs are not in the crate; they are gapsWrite, gapsRead, gapsContains and gapsCommon in Props/Gaps.lean. An integer 2^64 - 1 cannot be a member: the program's next = x + 1 would overflow."
  },
  {
   "property": "C163",
   "status": "proved",
   "theorems": [
    "Succinct.C163_formats",
    "Succinct.C163_prefix_free",
    "Succinct.C163_truncated",
    "Succinct.C163_canonical"
   ],
   "note": "The programs are not in the crate; they are fmtWrite and fmtRead in Props/Formats.lean. C163_canonical assumes fewer than 2^64 bits are read, as C77."
  },
  {
   "property": "C164",
   "status": "proved",
   "theorems": [
    "Succinct.C164_text_search"
   ],
   "note": "The programs are clients of the crate, written for this property (Verif/Props/TextSearch.lean); they call the methods of C159 and of IntVector. The suffixes are sorted by the standard library (List.mergeSort here)."
  },
  {
   "property": "C165",
   "status": "proved",
   "theorems": [
    "Succinct.C165_canonical"
   ],
   "note": "The programs are clients of the crate, written for this property (Verif/Props/CanonicalCode.lean); they call its methods only and implement UniversalCode."
  },
  {
   "property": "C166",
   "status": "proved",
   "theorems": [
    "Succinct.C166_int_vector",
    "Succinct.C166_packed",
    "Succinct.C166_window",
    "Succinct.C166_backwards",
    "Succinct.C166_reverse",
    "Succinct.C166_sort",
    "Succinct.C166_sort_int_vector",
    "Succinct.C166_search",
    "Succinct.C166_inverse"
   ],
   "note": "The wrappers and programs are not in the crate; they are in Verif/Props/IntVecTrait.lean. The contract says nothing of positions outside the vector: for IntVector see C76 and C99."
  },
  {
   "property": "C167",
   "status": "proved",
   "theorems": [
    "Succinct.C167_copy",
    "Succinct.C167_move",
    "Succinct.C167_insert",
    "Succinct.C167_remove",
    "Succinct.C167_bit_vector"
   ],
   "note": "The programs are not in the crate; they are in Verif/Props/MoveBits.lean. That the direction matters is shown in Verif/Instances/MoveBits.lean."
  },
  {
   "property": "C168",
   "status": "proved",
   "theorems": [
    "Succinct.C168_queue",
    "Succinct.C168_new_queue"
   ],
   "note": "The programs are not in the crate; they are in Verif/Props/PriorityQueue.lean and call its methods only. The exchanges are generic over IntVecMut (C166)."
  },
  {
   "property": "C169",
   "status": "proved",
   "theorems": [
    "Succinct.C169_parentheses",
    "Succinct.C169_one_forest"
   ],
   "note": "The programs are not in the crate, whose TODO.md names balanced parentheses as a wish; they are in Verif/Props/Parentheses.lean and call its methods only. Matching parentheses are found by scanning."
  },
  {
   "property": "C170",
   "status": "proved",
   "theorems": [
    "Succinct.C170_variable_width"
   ],
   "note": "The programs are not in the crate; they are in Verif/Props/VariableWidth.lean and call its methods only."
  },
  {
   "property": "C171",
   "status": "proved",
   "theorems": [
    "Succinct.C171_add",
    "Succinct.C171_has",
    "Succinct.C171_union",
    "Succinct.C171_no_bits",
    "Succinct.C171_bit_vector"
   ],
   "note": "The programs are not in the crate; they are in Verif/Props/BloomFilter.lean and call its methods only."
  },
  {
   "property": "C172",
   "status": "proved",
   "theorems": [
    "Succinct.C172_ranges"
   ],
   "note": "The programs are not in the crate; they are in Verif/Props/WaveletRange.lean and call its methods only."
  },
  {
   "property": "C173",
   "status": "proved",
   "theorems": [
    "Succinct.C173_sieve"
   ],
   "note": "The program is not in the crate; it is in Verif/Props/Sieve.lean and calls its methods only."
  },
  {
   "property": "C174",
   "status": "proved",
   "theorems": [
    "Succinct.C174_init",
    "Succinct.C174_find",
    "Succinct.C174_join",
    "Succinct.C174_classes",
    "Succinct.C174_count",
    "Succinct.C174_out_of_range"
   ],
   "note": "The programs are not in the crate; they are in Verif/Props/UnionFind.lean and call the methods of its traits only."
  },
  {
   "property": "C175",
   "status": "proved",
   "theorems": [
    "Succinct.C175_sort_down",
    "Succinct.C175_sort"
   ],
   "note": "The program is not in the crate; it is in Verif/Props/HeapSort.lean and calls the methods of its traits only."
  },
  {
   "property": "C176",
   "status": "proved",
   "theorems": [
    "Succinct.C176_graph",
    "Succinct.C176_reach"
   ],
   "note": "The programs are not in the crate; they are in Verif/Props/Graph.lean and call its methods only."
  },
  {
   "property": "C177",
   "status": "proved",
   "theorems": [
    "Succinct.C177_sum",
    "Succinct.C177_find",
    "Succinct.C177_add",
    "Succinct.C177_sums",
    "Succinct.C177_new"
   ],
   "note": "The programs are not in the crate; they are in Verif/Props/Fenwick.lean and call the methods of its traits only."
  },
  {
   "property": "C178",
   "status": "proved",
   "theorems": [
    "Succinct.C178_has",
    "Succinct.C178_insert",
    "Succinct.C178_calls",
    "Succinct.C178_new"
   ],
   "note": "The programs are not in the crate; they are in Verif/Props/HashSet.lean and call the methods of its traits only."
  },
  {
   "property": "C179",
   "status": "proved",
   "theorems": [
    "Succinct.C179_close"
   ],
   "note": "The program is not in the crate; it is in Verif/Props/Closure.lean and calls the methods of its traits only."
  },
  {
   "property": "C180",
   "status": "proved",
   "theorems": [
    "Succinct.C180_new",
    "Succinct.C180_get",
    "Succinct.C180_outside",
    "Succinct.C180_put",
    "Succinct.C180_entry"
   ],
   "note": "The programs are not in the crate; they are in Verif/Props/Sparse.lean and call the methods of the crate only."
  },
  {
   "property": "C181",
   "status": "proved",
   "theorems": [
    "Succinct.C181_ancestors",
    "Succinct.C181_unique"
   ],
   "note": "The programs are not in the crate; they are in Verif/Props/Ancestors.lean and call those of Verif/Props/Parentheses.lean."
  },
  {
   "property": "C182",
   "status": "proved",
   "theorems": [
    "Succinct.C182_more",
    "Succinct.C182_sums"
   ],
   "note": "The programs are not in the crate; they are in Verif/Props/SubsetSums.lean and call its methods."
  },
  {
   "property": "C183",
   "status": "proved",
   "theorems": [
    "Succinct.C183_length",
    "Succinct.C183_new",
    "Succinct.C183_unique"
   ],
   "note": "The programs are not in the crate; they are in Verif/Props/CommonPart.lean and call its methods."
  },
  {
   "property": "C184",
   "status": "proved",
   "theorems": [
    "Succinct.C184_table",
    "Succinct.C184_least",
    "Succinct.C184_unique"
   ],
   "note": "The programs are not in the crate; they are in Verif/Props/RangeLeast.lean and call its methods."
  },
  {
   "property": "C185",
   "status": "proved",
   "theorems": [
    "Succinct.C185_add",
    "Succinct.C185_bit_vector"
   ],
   "note": "The programs are not in the crate; they are in Verif/Props/BigNumbers.lean and call its methods."
  },
  {
   "property": "C186",
   "status": "proved",
   "theorems": [
    "Succinct.C186_push",
    "Succinct.C186_pop",
    "Succinct.C186_calls",
    "Succinct.C186_new"
   ],
   "note": "The programs are not in the crate; they are in Verif/Props/Queue.lean and call its methods."
  },
  {
   "property": "C187",
   "status": "proved",
   "theorems": [
    "Succinct.C187_compare",
    "Succinct.C187_bit_vector",
    "Succinct.C187_equal"
   ],
   "note": "The program is not in the crate; it is in Verif/Props/CompareNumbers.lean and calls its methods."
  },
  {
   "property": "C188",
   "status": "proved",
   "theorems": [
    "Succinct.C188_subtract",
    "Succinct.C188_bit_vector"
   ],
   "note": "The program is not in the crate; it is in Verif/Props/SubtractNumbers.lean and calls its methods."
  },
  {
   "property": "C189",
   "status": "proved",
   "theorems": [
    "Succinct.C189_tick",
    "Succinct.C189_ticks",
    "Succinct.C189_bit_vector"
   ],
   "note": "The program is not in the crate; it is in Verif/Props/Counter.lean and calls its methods."
  }
 ]
}
