{
 "claims": [
  {
   "property": "C01",
   "status": "proved",
   "theorems": [
    "Verif.C01_schedule_independent",
    "Verif.C01_one_run_suffices",
    "Verif.C01_confluent"
   ],
   "note": ""
  },
  {
   "property": "C02",
   "status": "proved",
   "theorems": [
    "Verif.C02_roundtrip",
    "Verif.C02_bigEndian",
    "Verif.C02_canonical",
    "Verif.C02_wrong_length",
    "Verif.C02_total",
    "Verif.C02_bit",
    "Verif.C02_take"
   ],
   "note": ""
  },
  {
   "property": "C03",
   "status": "proved",
   "theorems": [
    "Verif.C03_roundtrip",
    "Verif.C03_length",
    "Verif.C03_accepts_iff",
    "Verif.C03_wrong_length",
    "Verif.C03_vec_no_panic",
    "Verif.C03_iter_eq_vec_partial",
    "Verif.C03_iter_bit_panics"
   ],
   "note": "The iterator decoder agrees with the vector decoder for all integer types; for Bit an invalid byte panics (C03_iter_bit_panics), so the agreement theorem is stated for the integer types only (suffix _partial)."
  },
  {
   "property": "C04",
   "status": "proved",
   "theorems": [
    "Verif.C04_bits_roundtrip",
    "Verif.C04_bits_roundtrip'",
    "Verif.C04_bits_value",
    "Verif.C04_wrong_count",
    "Verif.C04_msb",
    "Verif.C04_get_bit"
   ],
   "note": ""
  },
  {
   "property": "C05",
   "status": "proved",
   "theorems": [
    "Verif.C05_inverse",
    "Verif.C05_even_has_none",
    "Verif.C05_bit",
    "Verif.C05_128_panics"
   ],
   "note": "For u128 the code is todo!(): C05_128_panics."
  },
  {
   "property": "C06",
   "status": "proved",
   "theorems": [
    "Verif.C06_preprocess",
    "Verif.C06_zero_shares"
   ],
   "note": ""
  },
  {
   "property": "C07",
   "status": "proved",
   "theorems": [
    "Verif.C07_share",
    "Verif.C07_open",
    "Verif.C07_share_open",
    "Verif.C07_input",
    "Verif.C07_input_open",
    "Verif.C07_input_all",
    "Verif.C07_open_many",
    "Verif.C07_open_bit",
    "Verif.C07_open_bit_many",
    "Verif.C07_input_rejects",
    "Verif.C07_input_none"
   ],
   "note": ""
  },
  {
   "property": "C08",
   "status": "proved",
   "theorems": [
    "Verif.C08_linear",
    "Verif.C08_binary_local",
    "Verif.C08_unique"
   ],
   "note": ""
  },
  {
   "property": "C09",
   "status": "proved",
   "theorems": [
    "Verif.C09_mul",
    "Verif.C09_mul_many",
    "Verif.C09_dot",
    "Verif.C09_dot_many",
    "Verif.C09_masked_dot_many",
    "Verif.C09_dot_rejects",
    "Verif.C09_dot_many_rejects",
    "Verif.C09_dot_many_rejects_inner"
   ],
   "note": ""
  },
  {
   "property": "C10",
   "status": "proved",
   "theorems": [
    "Verif.C10_and",
    "Verif.C10_and_many",
    "Verif.C10_or",
    "Verif.C10_or_many",
    "Verif.C10_binary_or",
    "Verif.C10_rejects"
   ],
   "note": ""
  },
  {
   "property": "C11",
   "status": "proved",
   "theorems": [
    "Verif.C11_a2b",
    "Verif.C11_a2b_many"
   ],
   "note": ""
  },
  {
   "property": "C12",
   "status": "proved",
   "theorems": [
    "Verif.C12_get_msb",
    "Verif.C12_get_msb_many"
   ],
   "note": ""
  },
  {
   "property": "C13",
   "status": "proved",
   "theorems": [
    "Verif.C13_reduce_binary_or"
   ],
   "note": ""
  },
  {
   "property": "C14",
   "status": "proved",
   "theorems": [
    "Verif.C14_iris_in_db",
    "Verif.C14_equals_plain_search",
    "Verif.C14_end_to_end",
    "Verif.C14_compare_iris_many",
    "Verif.C14_compare_iris"
   ],
   "note": ""
  },
  {
   "property": "C15",
   "status": "proved",
   "theorems": [
    "Verif.C15_hamming_many",
    "Verif.C15_hamming_distance",
    "Verif.C15_sign",
    "Verif.C15_width_needed",
    "Verif.C15_signed_exact"
   ],
   "note": ""
  },
  {
   "property": "C16",
   "status": "proved",
   "theorems": [
    "Verif.C16_new",
    "Verif.C16_size",
    "Verif.C16_mask",
    "Verif.C16_mask_one",
    "Verif.C16_mask_query",
    "Verif.C16_chunk_zero",
    "Verif.C16_code_length"
   ],
   "note": ""
  },
  {
   "property": "C17",
   "status": "proved",
   "theorems": [
    "Verif.C17_get_bit",
    "Verif.C17_get_bit_panics",
    "Verif.C17_set_bit",
    "Verif.C17_flip_bit",
    "Verif.C17_bitwise",
    "Verif.C17_ext",
    "Verif.C17_bits",
    "Verif.C17_count_ones"
   ],
   "note": ""
  },
  {
   "property": "C18",
   "status": "proved",
   "theorems": [
    "Verif.C18_match_threshold",
    "Verif.C18_mask_threshold",
    "Verif.C18_literals",
    "Verif.C18_monotone"
   ],
   "note": ""
  },
  {
   "property": "C19",
   "status": "proved",
   "theorems": [
    "Verif.C19_is_close",
    "Verif.C19_is_close_ratio",
    "Verif.C19_symmetric",
    "Verif.C19_reflexive",
    "Verif.C19_find_match"
   ],
   "note": ""
  },
  {
   "property": "C20",
   "status": "proved",
   "theorems": [
    "Verif.C20_aby3",
    "Verif.C20_aby3_count",
    "Verif.C20_swift3",
    "Verif.C20_swift3_count",
    "Verif.C20_spdz"
   ],
   "note": ""
  },
  {
   "property": "C21",
   "status": "proved",
   "theorems": [
    "Verif.C21_mul",
    "Verif.C21_and",
    "Verif.C21_dot",
    "Verif.C21_input"
   ],
   "note": ""
  },
  {
   "property": "C22",
   "status": "proved",
   "theorems": [
    "Verif.C22_honest",
    "Verif.C22_jmp_verify",
    "Verif.C22_queue_values",
    "Verif.C22_open",
    "Verif.C22_open_bit",
    "Verif.C22_open_many"
   ],
   "note": ""
  },
  {
   "property": "C23",
   "status": "proved",
   "theorems": [
    "Verif.C23_complete",
    "Verif.C23_sound"
   ],
   "note": ""
  },
  {
   "property": "C24",
   "status": "proved",
   "theorems": [
    "Verif.C24_views_of_reachable",
    "Verif.C24_draws_total",
    "Verif.C24_run_triple",
    "Verif.C24_run_triples",
    "Verif.C24_check_value",
    "Verif.C24_mul_triple",
    "Verif.C24_check_values",
    "Verif.C24_mul_triple_many",
    "Verif.C24_dot_check_value",
    "Verif.C24_dot",
    "Verif.C24_complete"
   ],
   "note": ""
  },
  {
   "property": "C25",
   "status": "proved",
   "theorems": [
    "Verif.C25_exact",
    "Verif.C25_complete",
    "Verif.C25_sound",
    "Verif.C25_run_verify"
   ],
   "note": ""
  },
  {
   "property": "C26",
   "status": "proved",
   "theorems": [
    "Verif.C26_linear",
    "Verif.C26_share",
    "Verif.C26_filter"
   ],
   "note": ""
  },
  {
   "property": "C27",
   "status": "proved",
   "theorems": [
    "Verif.C27_complete",
    "Verif.C27_exact",
    "Verif.C27_sound"
   ],
   "note": ""
  },
  {
   "property": "C28",
   "status": "proved",
   "theorems": [
    "Verif.C28_bits",
    "Verif.C28_add_many",
    "Verif.C28_get",
    "Verif.C28_get_all"
   ],
   "note": ""
  },
  {
   "property": "C29",
   "status": "proved",
   "theorems": [
    "Verif.C29_exact",
    "Verif.C29_multiple",
    "Verif.C29_128",
    "Verif.C29_counterexamples",
    "Verif.C29_left_over",
    "Verif.C29_stuck",
    "Verif.C29_small_chunks",
    "Verif.C29_query_panics"
   ],
   "note": "Exact characterisation (answer iff enough triples, else every party panics). The naive claim that the triples always suffice is false of the code: C29_counterexamples, C29_left_over, C29_stuck, C29_small_chunks, C29_query_panics are proved negative results."
  },
  {
   "property": "C30",
   "status": "proved",
   "theorems": [
    "Verif.C30_coin"
   ],
   "note": ""
  },
  {
   "property": "C31",
   "status": "proved",
   "theorems": [
    "Verif.C31_complete",
    "Verif.C31_binding",
    "Verif.C31_reject"
   ],
   "note": ""
  },
  {
   "property": "C32",
   "status": "proved",
   "theorems": [
    "Verif.C32_permute",
    "Verif.C32_valid",
    "Verif.C32_size",
    "Verif.C32_uniform",
    "Verif.C32_shuffled",
    "Verif.C32_shuffled_words"
   ],
   "note": ""
  },
  {
   "property": "C33",
   "status": "proved",
   "theorems": [
    "Verif.C33_setup",
    "Verif.C33_only_valid_openings",
    "Verif.C33_bad_opening_rejected"
   ],
   "note": ""
  },
  {
   "property": "C34",
   "status": "proved",
   "theorems": [
    "Verif.C34_widths",
    "Verif.C34_mul",
    "Verif.C34_dot",
    "Verif.C34_dot_many",
    "Verif.C34_and",
    "Verif.C34_and_many",
    "Verif.C34_a2b",
    "Verif.C34_get_msb_many",
    "Verif.C34_reduce_binary_or",
    "Verif.C34_panics",
    "Verif.C34_size"
   ],
   "note": "For 32- and 128-bit rings the code's assertion fires and the methods panic (C34_panics); the positive theorems carry 40 <= V-K."
  },
  {
   "property": "C35",
   "status": "proved",
   "theorems": [
    "Verif.C35_receivers",
    "Verif.C35_no_equivocation",
    "Verif.C35_input_open",
    "Verif.C35_agreement"
   ],
   "note": ""
  },
  {
   "property": "C36",
   "status": "proved",
   "theorems": [
    "Verif.C36_iris_in_db",
    "Verif.C36_end_to_end",
    "Verif.C36_panics"
   ],
   "note": "For 32- and 128-bit rings comparisons panic (C36_panics); the positive theorems carry 40 <= V-K."
  },
  {
   "property": "C37",
   "status": "proved",
   "theorems": [
    "Verif.C37_setup",
    "Verif.C37_only_valid_openings"
   ],
   "note": ""
  },
  {
   "property": "C38",
   "status": "proved",
   "theorems": [
    "Verif.C38_share",
    "Verif.C38_input",
    "Verif.C38_input_none",
    "Verif.C38_open",
    "Verif.C38_open_many",
    "Verif.C38_open_bit",
    "Verif.C38_open_bit_many",
    "Verif.C38_roundtrip"
   ],
   "note": ""
  },
  {
   "property": "C39",
   "status": "proved",
   "theorems": [
    "Verif.C39_linear",
    "Verif.C39_binary_local",
    "Verif.C39_a2b_pre",
    "Verif.C39_a2b",
    "Verif.C39_a2b_many",
    "Verif.C39_get_msb_many",
    "Verif.C39_unique"
   ],
   "note": ""
  },
  {
   "property": "C40",
   "status": "proved",
   "theorems": [
    "Verif.C40_mul",
    "Verif.C40_dot",
    "Verif.C40_dot_many",
    "Verif.C40_and",
    "Verif.C40_and_many",
    "Verif.C40_or",
    "Verif.C40_reduce_binary_or",
    "Verif.C40_size",
    "Verif.C40_mul_open"
   ],
   "note": "Equal inner lengths are assumed in dot_many; with unequal inner lengths the code silently truncates the zip instead of reporting InvalidSize (C40_size states what is checked)."
  },
  {
   "property": "C41",
   "status": "proved",
   "theorems": [
    "Verif.C41_query_accepted",
    "Verif.C41_verify",
    "Verif.C41_outcome",
    "Verif.C41_verify_and",
    "Verif.C41_wide",
    "Verif.C41_split",
    "Verif.C41_query",
    "Verif.C41_never_wrong",
    "Verif.C41_query_wide"
   ],
   "note": ""
  },
  {
   "property": "C42",
   "status": "proved",
   "theorems": [
    "Verif.C42_aby3",
    "Verif.C42_swift3_not_complement"
   ],
   "note": "Negative result for Swift3: C42_swift3_not_complement."
  },
  {
   "property": "C43",
   "status": "proved",
   "theorems": [
    "Verif.C43_complete",
    "Verif.C43_params",
    "Verif.C43_registered"
   ],
   "note": ""
  },
  {
   "property": "C44",
   "status": "proved",
   "theorems": [
    "Verif.C44_mul",
    "Verif.C44_dot",
    "Verif.C44_accept_top",
    "Verif.C44_params",
    "Verif.C44_params_dot",
    "Verif.C44_wide_mul",
    "Verif.C44_wide_dot",
    "Verif.C44_honest_rejected"
   ],
   "note": "Exact characterisation for K < 64; honest rejection exhibited in C44_honest_rejected; K >= 64 panics: C44_wide_mul, C44_wide_dot."
  },
  {
   "property": "C45",
   "status": "proved",
   "theorems": [
    "Verif.C45_denotes",
    "Verif.C45_ring",
    "Verif.C45_evaluate",
    "Verif.C45_degree",
    "Verif.C45_interpolate",
    "Verif.C45_interpolate_panics",
    "Verif.C45_longDivision",
    "Verif.C45_longDivision_errors",
    "Verif.C45_longDivision_trailing_zero",
    "Verif.C45_rem"
   ],
   "note": "Negative result: C45_longDivision_trailing_zero."
  },
  {
   "property": "C46",
   "status": "proved",
   "theorems": [
    "Verif.C46_isZero",
    "Verif.C46_isOne"
   ],
   "note": "Negative result: C46_isOne characterises the (wrong) predicate exactly."
  },
  {
   "property": "C47",
   "status": "proved",
   "theorems": [
    "Verif.C47_check_config",
    "Verif.C47_aby3_precheck"
   ],
   "note": ""
  },
  {
   "property": "C48",
   "status": "proved",
   "theorems": [
    "Verif.C48_establish",
    "Verif.C48_reached",
    "Verif.C48_aby3_ring",
    "Verif.C48_id_too_large",
    "Verif.C48_single_party"
   ],
   "note": "Negative results: C48_id_too_large, C48_single_party."
  },
  {
   "property": "C49",
   "status": "proved",
   "theorems": [
    "Verif.C49_fifo",
    "Verif.C49_in_order",
    "Verif.C49_send_status",
    "Verif.C49_terminates",
    "Verif.C49_no_message_stuck",
    "Verif.C49_oversize_skipped"
   ],
   "note": "Channels are assumed reliable byte streams (QUIC); jobs queue modelled without the capacity bound of 8. Negative result: C49_oversize_skipped."
  },
  {
   "property": "C50",
   "status": "proved",
   "theorems": [
    "Verif.C50_framing",
    "Verif.C50_limit",
    "Verif.C50_bincode"
   ],
   "note": "tokio-util 0.7.10 LengthDelimitedCodec is modelled from its documented behaviour (4-byte big-endian length, 8 MiB limit)."
  },
  {
   "property": "C51",
   "status": "proved",
   "theorems": [
    "Verif.C51_delivery",
    "Verif.C51_send_ok",
    "Verif.C51_invalid_id",
    "Verif.C51_stats",
    "Verif.C51_steps",
    "Verif.C51_broadcast"
   ],
   "note": ""
  },
  {
   "property": "C52",
   "status": "proved",
   "theorems": [
    "Verif.C52_ceil_log2",
    "Verif.C52_split",
    "Verif.C52_seed"
   ],
   "note": ""
  },
  {
   "property": "C53",
   "status": "proved",
   "theorems": [
    "Verif.C53_plain_backend",
    "Verif.C53_plain_mask",
    "Verif.C53_dot"
   ],
   "note": ""
  },
  {
   "property": "C54",
   "status": "proved",
   "theorems": [
    "Verif.C54_input",
    "Verif.C54_input_all",
    "Verif.C54_input_open",
    "Verif.C54_mul",
    "Verif.C54_dot",
    "Verif.C54_dot_many",
    "Verif.C54_masked_dot_many",
    "Verif.C54_and",
    "Verif.C54_and_many",
    "Verif.C54_a2b",
    "Verif.C54_get_msb",
    "Verif.C54_get_msb_many",
    "Verif.C54_reduce_binary_or",
    "Verif.C54_open",
    "Verif.C54_open_many",
    "Verif.C54_open_bit",
    "Verif.C54_precompute",
    "Verif.C54_verify",
    "Verif.C54_setup_new_key",
    "Verif.C54_setup",
    "Verif.C54_iris_in_db",
    "Verif.C54_end_to_end"
   ],
   "note": ""
  },
  {
   "property": "C55",
   "status": "proved",
   "theorems": [
    "Verif.C55_table",
    "Verif.C55_table_panics",
    "Verif.C55_field"
   ],
   "note": ""
  },
  {
   "property": "C56",
   "status": "proved",
   "theorems": [
    "Verif.C56_sound",
    "Verif.C56_challenges",
    "Verif.C56_forty_bits"
   ],
   "note": ""
  },
  {
   "property": "C57",
   "status": "proved",
   "theorems": [
    "Verif.C57_dot_many",
    "Verif.C57_dot_wrong",
    "Verif.C57_query",
    "Verif.C57_query_inverted"
   ],
   "note": ""
  },
  {
   "property": "C58",
   "status": "proved",
   "theorems": [
    "Verif.C58_open_many",
    "Verif.C58_open"
   ],
   "note": ""
  },
  {
   "property": "C59",
   "status": "proved",
   "theorems": [
    "Verif.C59_run_mul_open",
    "Verif.C59_run_dot_open",
    "Verif.C59_run_dot_many_open"
   ],
   "note": "The coin is compared with a set fixed by the errors; C57 shows that a rushing corrupt party can choose its errors after learning the coin, so the bound is no guarantee against such a party. Errors are those in the first message of the corrupt party to its successor."
  },
  {
   "property": "C60",
   "status": "proved",
   "theorems": [
    "Verif.C60_draws_total",
    "Verif.C60_run_generate",
    "Verif.C60_run_valid"
   ],
   "note": ""
  },
  {
   "property": "C61",
   "status": "proved",
   "theorems": [
    "Verif.C61_raw",
    "Verif.C61_of_raw",
    "Verif.C61_random",
    "Verif.C61_similar",
    "Verif.C61_similar_distance"
   ],
   "note": ""
  },
  {
   "property": "C62",
   "status": "proved",
   "theorems": [
    "Verif.C62_plain",
    "Verif.C62_aby3_create",
    "Verif.C62_aby3_read",
    "Verif.C62_swift3_create",
    "Verif.C62_swift3_read",
    "Verif.C62_spdz_create",
    "Verif.C62_spdz_read",
    "Verif.C62_spdz_twice",
    "Verif.C62_party"
   ],
   "note": ""
  },
  {
   "property": "C63",
   "status": "proved",
   "theorems": [
    "Verif.C63_query",
    "Verif.C63_aby3",
    "Verif.C63_mal_aby3",
    "Verif.C63_spdz",
    "Verif.C63_swift3",
    "Verif.C63_should_match"
   ],
   "note": ""
  },
  {
   "property": "C64",
   "status": "proved",
   "theorems": [
    "Verif.C64_generate",
    "Verif.C64_generate_wrong",
    "Verif.C64_and_many",
    "Verif.C64_honest"
   ],
   "note": ""
  },
  {
   "property": "C65",
   "status": "proved",
   "theorems": [
    "Verif.C65_run_verify",
    "Verif.C65_run_verify_valid",
    "Verif.C65_run_and",
    "Verif.C65_run_or"
   ],
   "note": ""
  },
  {
   "property": "C66",
   "status": "proved",
   "theorems": [
    "Verif.C66_run_mul",
    "Verif.C66_run_dot",
    "Verif.C66_run_dots",
    "Verif.C66_run_masked",
    "Verif.C66_run_macs",
    "Verif.C66_draws_total",
    "Verif.C66_run_caught",
    "Verif.C66_run_caught_masked"
   ],
   "note": ""
  },
  {
   "property": "C67",
   "status": "proved",
   "theorems": [
    "Verif.C67_run_query",
    "Verif.C67_run_fresh",
    "Verif.C67_unnoticed_rare"
   ],
   "note": ""
  },
  {
   "property": "C68",
   "status": "proved",
   "theorems": [
    "Verif.C68_one_view",
    "Verif.C68_query_private",
    "Verif.C68_whole_view",
    "Verif.C68_and_many_private",
    "Verif.C68_masked_dot_many_private",
    "Verif.C68_get_msb_many_private",
    "Verif.C68_reduce_binary_or_private"
   ],
   "note": ""
  },
  {
   "property": "C69",
   "status": "proved",
   "theorems": [
    "Verif.C69_schedule_independent",
    "Verif.C69_more_room",
    "Verif.C69_aby3_query",
    "Verif.C69_mal_query",
    "Verif.C69_spdz_query",
    "Verif.C69_swift3_query",
    "Verif.C69_one_message_deadlocks"
   ],
   "note": ""
  },
  {
   "property": "C70",
   "status": "proved",
   "theorems": [
    "Verif.C70_never_wrong",
    "Verif.C70_terminates",
    "Verif.C70_no_hang",
    "Verif.C70_orderly",
    "Verif.C70_protocols",
    "Verif.C70_aby3_query",
    "Verif.C70_aby3_query_may_fail",
    "Verif.C70_every_protocol_may_fail",
    "Verif.C70_settles"
   ],
   "note": ""
  },
  {
   "property": "C71",
   "status": "proved",
   "theorems": [
    "Verif.C71_decode_message",
    "Verif.C71_decode_wait",
    "Verif.C71_decode_error",
    "Verif.C71_stream",
    "Verif.C71_stream_prefix",
    "Verif.C71_examples",
    "Verif.C71_close",
    "Verif.C71_close_returns"
   ],
   "note": ""
  },
  {
   "property": "C72",
   "status": "proved",
   "theorems": [
    "Verif.C72_roundtrip",
    "Verif.C72_arithmetic",
    "Verif.C72_sign",
    "Verif.C72_mixed",
    "Verif.C72_arithmetic_shr",
    "Verif.C72_verification",
    "Verif.C72_floor_div"
   ],
   "note": ""
  },
  {
   "property": "C73",
   "status": "proved",
   "theorems": [
    "Verif.C73_meaning",
    "Verif.C73_build",
    "Verif.C73_index",
    "Verif.C73_split",
    "Verif.C73_chunks",
    "Verif.C73_filter_reduce"
   ],
   "note": ""
  },
  {
   "property": "C74",
   "status": "proved",
   "theorems": [
    "Verif.C74_log_is_passive",
    "Verif.C74_log_complete",
    "Verif.C74_run_query",
    "Verif.C74_unnoticed_rare"
   ],
   "note": ""
  },
  {
   "property": "C75",
   "status": "proved",
   "theorems": [
    "Verif.C75_mul_sound",
    "Verif.C75_dot_sound",
    "Verif.C75_challenges",
    "Verif.C75_mul_bits",
    "Verif.C75_dot_bits",
    "Verif.C75_drawn",
    "Verif.C75_drawn_dot"
   ],
   "note": ""
  },
  {
   "property": "C76",
   "status": "proved",
   "theorems": [
    "Verif.C76_undetected",
    "Verif.C76_honest"
   ],
   "note": ""
  },
  {
   "property": "C77",
   "status": "proved",
   "theorems": [
    "Verif.C77_open",
    "Verif.C77_open_many",
    "Verif.C77_open_bit",
    "Verif.C77_open_bit_many",
    "Verif.C77_input",
    "Verif.C77_input_open"
   ],
   "note": ""
  },
  {
   "property": "C78",
   "status": "proved",
   "theorems": [
    "Verif.C78_and",
    "Verif.C78_mul",
    "Verif.C78_dot",
    "Verif.C78_and_many",
    "Verif.C78_dot_many"
   ],
   "note": ""
  },
  {
   "property": "C79",
   "status": "proved",
   "theorems": [
    "Verif.C79_coin",
    "Verif.C79_coin_differ",
    "Verif.C79_verify",
    "Verif.C79_and_caught",
    "Verif.C79_mul_caught",
    "Verif.C79_dot_caught"
   ],
   "note": ""
  },
  {
   "property": "C80",
   "status": "proved",
   "theorems": [
    "Verif.C80_and_sound",
    "Verif.C80_and_challenges",
    "Verif.C80_and_bits",
    "Verif.C80_mul_sound",
    "Verif.C80_dot_sound",
    "Verif.C80_challenges",
    "Verif.C80_mul_bits",
    "Verif.C80_dot_bits",
    "Verif.C80_same"
   ],
   "note": ""
  },
  {
   "property": "C81",
   "status": "proved",
   "theorems": [
    "Verif.C81_query"
   ],
   "note": ""
  },
  {
   "property": "C82",
   "status": "proved",
   "theorems": [
    "Verif.C82_setup",
    "Verif.C82_setup_differ",
    "Verif.C82_input_shifted"
   ],
   "note": ""
  },
  {
   "property": "C83",
   "status": "proved",
   "theorems": [
    "Verif.C83_masks",
    "Verif.C83_mal_setup",
    "Verif.C83_mal_aby3",
    "Verif.C83_swift3",
    "Verif.C83_spdz"
   ],
   "note": ""
  },
  {
   "property": "C84",
   "status": "proved",
   "theorems": [
    "Verif.C84_one_view",
    "Verif.C84_query_private",
    "Verif.C84_whole_view",
    "Verif.C84_and_many_private",
    "Verif.C84_dot_many_private",
    "Verif.C84_get_msb_many_private",
    "Verif.C84_reduce_binary_or_private"
   ],
   "note": ""
  },
  {
   "property": "C85",
   "status": "proved",
   "theorems": [
    "Verif.C85_session_answers",
    "Verif.C85_session_private"
   ],
   "note": ""
  },
  {
   "property": "C86",
   "status": "proved",
   "theorems": [
    "Verif.C86_aby3",
    "Verif.C86_spdz_exact",
    "Verif.C86_spdz_any_sizes",
    "Verif.C86_spdz_growing",
    "Verif.C86_spdz_shrinking",
    "Verif.C86_swift3",
    "Verif.C86_swift3_never_wrong",
    "Verif.C86_swift3_accumulates",
    "Verif.C86_swift3_limit"
   ],
   "note": ""
  },
  {
   "property": "C87",
   "status": "proved",
   "theorems": [
    "Verif.C87_one_view",
    "Verif.C87_query_private",
    "Verif.C87_whole_view",
    "Verif.C87_and_many_private",
    "Verif.C87_verify_macs_private",
    "Verif.C87_get_msb_many_private"
   ],
   "note": ""
  },
  {
   "property": "C88",
   "status": "proved",
   "theorems": [
    "Verif.C88_and_successor",
    "Verif.C88_and_predecessor",
    "Verif.C88_mul_successor",
    "Verif.C88_mul_predecessor",
    "Verif.C88_rare",
    "Verif.C88_allowed",
    "Verif.C88_mul_reveals",
    "Verif.C88_dot_successor",
    "Verif.C88_dot_predecessor",
    "Verif.C88_dot_reveals"
   ],
   "note": ""
  },
  {
   "property": "C89",
   "status": "proved",
   "theorems": [
    "Verif.C89_one_view",
    "Verif.C89_query_private",
    "Verif.C89_computation_private",
    "Verif.C89_whole_view",
    "Verif.C89_and_many_private",
    "Verif.C89_dot_many_private",
    "Verif.C89_get_msb_many_private",
    "Verif.C89_reduce_binary_or_private",
    "Verif.C89_open_bit_private"
   ],
   "note": ""
  },
  {
   "property": "C90",
   "status": "proved",
   "theorems": [
    "Verif.C90_aby3_one_view",
    "Verif.C90_aby3_input",
    "Verif.C90_aby3_input_all_one_view",
    "Verif.C90_aby3_input_all",
    "Verif.C90_mal_one_view",
    "Verif.C90_mal_input",
    "Verif.C90_mal_input_all_one_view",
    "Verif.C90_mal_input_all",
    "Verif.C90_spdz_one_view",
    "Verif.C90_spdz_input",
    "Verif.C90_spdz_input_all_one_view",
    "Verif.C90_spdz_input_all",
    "Verif.C90_swift3_input_all_correct",
    "Verif.C90_swift3_one_view",
    "Verif.C90_swift3_input",
    "Verif.C90_swift3_input_all_one_view",
    "Verif.C90_swift3_input_all"
   ],
   "note": ""
  },
  {
   "property": "C91",
   "status": "proved",
   "theorems": [
    "Verif.C91_aby3_open_view",
    "Verif.C91_aby3_open_many_view",
    "Verif.C91_aby3_open_bit_view",
    "Verif.C91_aby3_open_bit_many_view",
    "Verif.C91_mal_one_view",
    "Verif.C91_mal_open",
    "Verif.C91_mal_open_many",
    "Verif.C91_mal_open_bit",
    "Verif.C91_mal_open_bit_many",
    "Verif.C91_spdz_one_view",
    "Verif.C91_spdz_open",
    "Verif.C91_spdz_open_many",
    "Verif.C91_spdz_open_bit",
    "Verif.C91_spdz_open_bit_many",
    "Verif.C91_spdz_open_reveals",
    "Verif.C91_spdz_open_many_reveals",
    "Verif.C91_spdz_open_distinguishes",
    "Verif.C91_swift3_one_view",
    "Verif.C91_swift3_open",
    "Verif.C91_swift3_open_many",
    "Verif.C91_swift3_open_bit_many",
    "Verif.C91_swift3_mul",
    "Verif.C91_swift3_dot",
    "Verif.C91_swift3_and"
   ],
   "note": ""
  },
  {
   "property": "C92",
   "status": "proved",
   "theorems": [
    "Verif.C92_session_private",
    "Verif.C92_one_view"
   ],
   "note": ""
  },
  {
   "property": "C93",
   "status": "proved",
   "theorems": [
    "Verif.C93_aby3_one_view",
    "Verif.C93_aby3_mul",
    "Verif.C93_aby3_dot",
    "Verif.C93_aby3_dot_many",
    "Verif.C93_aby3_and",
    "Verif.C93_aby3_get_msb",
    "Verif.C93_mal_one_view",
    "Verif.C93_mal_mul",
    "Verif.C93_mal_dot",
    "Verif.C93_mal_and",
    "Verif.C93_mal_or",
    "Verif.C93_mal_get_msb",
    "Verif.C93_spdz_one_view",
    "Verif.C93_spdz_mul",
    "Verif.C93_spdz_dot",
    "Verif.C93_spdz_dot_many",
    "Verif.C93_spdz_and",
    "Verif.C93_spdz_or"
   ],
   "note": ""
  },
  {
   "property": "C94",
   "status": "proved",
   "theorems": [
    "Verif.C94_seeds",
    "Verif.C94_aby3_view",
    "Verif.C94_aby3",
    "Verif.C94_spdz_view",
    "Verif.C94_spdz",
    "Verif.C94_mal_view",
    "Verif.C94_mal",
    "Verif.C94_swift3_agree",
    "Verif.C94_swift3",
    "Verif.C94_aby3_occurs",
    "Verif.C94_spdz_occurs",
    "Verif.C94_mal_occurs",
    "Verif.C94_swift3_occurs",
    "Verif.C94_seed_occurs",
    "Verif.C94_one_view"
   ],
   "note": ""
  },
  {
   "property": "C95",
   "status": "proved",
   "theorems": [
    "Verif.C95_aby3_query",
    "Verif.C95_mal_query",
    "Verif.C95_spdz_query",
    "Verif.C95_aby3_operations",
    "Verif.C95_mal_operations",
    "Verif.C95_spdz_operations",
    "Verif.C95_aby3_wire",
    "Verif.C95_mal_wire",
    "Verif.C95_spdz_wire",
    "Verif.C95_occurs",
    "Verif.C95_sizes_show",
    "Verif.C95_swift3_operations",
    "Verif.C95_swift3_query",
    "Verif.C95_swift3_wire",
    "Verif.C95_swift3_and_verify",
    "Verif.C95_swift3_and_wire",
    "Verif.C95_swift3_mul_verify_varies",
    "Verif.C95_swift3_dot_verify_varies",
    "Verif.C95_swift3_verify_pattern",
    "Verif.C95_swift3_query_pattern",
    "Verif.C95_swift3_session_pattern"
   ],
   "note": ""
  },
  {
   "property": "C96",
   "status": "proved",
   "theorems": [
    "Verif.C96_aby3_operations",
    "Verif.C96_aby3_msb",
    "Verif.C96_aby3_or",
    "Verif.C96_aby3_query",
    "Verif.C96_aby3_wire",
    "Verif.C96_aby3_session",
    "Verif.C96_aby3_closed",
    "Verif.C96_aby3_least",
    "Verif.C96_aby3_single",
    "Verif.C96_chunk_sizes",
    "Verif.C96_mal_operations",
    "Verif.C96_mal_query",
    "Verif.C96_mal_wire",
    "Verif.C96_mal_session",
    "Verif.C96_mal_price",
    "Verif.C96_or_calls"
   ],
   "note": ""
  },
  {
   "property": "C97",
   "status": "proved",
   "theorems": [
    "Verif.C97_aby3_operations",
    "Verif.C97_aby3_msb",
    "Verif.C97_aby3_query",
    "Verif.C97_aby3_wire",
    "Verif.C97_aby3_session",
    "Verif.C97_aby3_program",
    "Verif.C97_rounds",
    "Verif.C97_rounds_one_chunk",
    "Verif.C97_sum",
    "Verif.C97_mal_operations",
    "Verif.C97_mal_query",
    "Verif.C97_mal_wire",
    "Verif.C97_mal_session",
    "Verif.C97_mal_rounds",
    "Verif.C97_mal_rounds_one_chunk",
    "Verif.C97_mal_sum"
   ],
   "note": ""
  }
 ]
}