{
 "claims": [
  {
   "property": "C01",
   "status": "proved",
   "theorems": [
    "Panacea.C01_decode_iff",
    "Panacea.C01_largest_error"
   ],
   "note": ""
  },
  {
   "property": "C02",
   "status": "proved",
   "theorems": [
    "Panacea.C02_new_isSome_iff",
    "Panacea.C02_pt_modulus",
    "Panacea.C02_encode",
    "Panacea.C02_decode_lt"
   ],
   "note": ""
  },
  {
   "property": "C03",
   "status": "proved",
   "theorems": [
    "Panacea.C03_ternary_roundtrip",
    "Panacea.C03_ternary_reject",
    "Panacea.C03_ternary_tight"
   ],
   "note": "The three f64 constants are taken as the literal u64 values (f64 rounding trusted)."
  },
  {
   "property": "C04",
   "status": "proved",
   "theorems": [
    "Panacea.C04_add",
    "Panacea.C04_sub"
   ],
   "note": ""
  },
  {
   "property": "C05",
   "status": "proved",
   "theorems": [
    "Panacea.C05_log2",
    "Panacea.C05_log2_zero"
   ],
   "note": ""
  },
  {
   "property": "C06",
   "status": "proved",
   "theorems": [
    "Panacea.C06_transpose_panics",
    "Panacea.C06_transpose_entries",
    "Panacea.C06_transpose_transpose"
   ],
   "note": ""
  },
  {
   "property": "C07",
   "status": "proved",
   "theorems": [
    "Panacea.C07_panics_iff",
    "Panacea.C07_eval_at_x_pow_k",
    "Panacea.C07_ring_hom",
    "Panacea.C07_compose",
    "Panacea.C07_bijective",
    "Panacea.C07_small"
   ],
   "note": ""
  },
  {
   "property": "C08",
   "status": "proved",
   "theorems": [
    "Panacea.C08_lossy_bits",
    "Panacea.C08_lossy_panics",
    "Panacea.C08_lossy_roundtrip"
   ],
   "note": ""
  },
  {
   "property": "C09",
   "status": "proved",
   "theorems": [
    "Panacea.C09_new_panics",
    "Panacea.C09_hash_bijection",
    "Panacea.C09_checked_hash",
    "Panacea.C09_hash_aliases",
    "Panacea.C09_named"
   ],
   "note": ""
  },
  {
   "property": "C10",
   "status": "proved",
   "theorems": [
    "Panacea.C10_tuple_bijection"
   ],
   "note": ""
  },
  {
   "property": "C11",
   "status": "proved",
   "theorems": [
    "Panacea.C11_mapping_total",
    "Panacea.C11_mapping_sound"
   ],
   "note": ""
  },
  {
   "property": "C12",
   "status": "proved",
   "theorems": [
    "Panacea.C12_panic_dead_code",
    "Panacea.C12_index_silently_dropped",
    "Panacea.C12_order_matters",
    "Panacea.C12_served_iff_free",
    "Panacea.C12_served_of_many_rows"
   ],
   "note": "The intended property is false of the code: C12_index_silently_dropped is the counterexample; the other theorems give the exact and a sufficient condition."
  },
  {
   "property": "C13",
   "status": "proved",
   "theorems": [
    "Panacea.C13_cartesian",
    "Panacea.C13_length",
    "Panacea.C13_mem",
    "Panacea.C13_default"
   ],
   "note": ""
  },
  {
   "property": "C14",
   "status": "proved",
   "theorems": [
    "Panacea.C14_file",
    "Panacea.C14_cli"
   ],
   "note": ""
  },
  {
   "property": "C15",
   "status": "proved",
   "theorems": [
    "Panacea.C15_digits",
    "Panacea.C15_recompose",
    "Panacea.C15_rounding",
    "Panacea.C15_round_idempotent"
   ],
   "note": ""
  },
  {
   "property": "C16",
   "status": "proved",
   "theorems": [
    "Panacea.C16_decrypt_encrypt",
    "Panacea.C16_panics_iff",
    "Panacea.C16_roundtrip_iff",
    "Panacea.C16_ternary",
    "Panacea.C16_constant"
   ],
   "note": ""
  },
  {
   "property": "C17",
   "status": "proved",
   "theorems": [
    "Panacea.C17_decrypt_encrypt",
    "Panacea.C17_roundtrip_iff"
   ],
   "note": ""
  },
  {
   "property": "C18",
   "status": "proved",
   "theorems": [
    "Panacea.C18_exact",
    "Panacea.C18_noise",
    "Panacea.C18_monomial_div"
   ],
   "note": ""
  },
  {
   "property": "C19",
   "status": "proved",
   "theorems": [
    "Panacea.C19_external_product",
    "Panacea.C19_messages"
   ],
   "note": ""
  },
  {
   "property": "C20",
   "status": "proved",
   "theorems": [
    "Panacea.C20_cmux",
    "Panacea.C20_messages",
    "Panacea.C20_out_irrelevant"
   ],
   "note": ""
  },
  {
   "property": "C21",
   "status": "proved",
   "theorems": [
    "Panacea.C21_constant",
    "Panacea.C21_poly",
    "Panacea.C21_rows",
    "Panacea.C21_neg_gsw",
    "Panacea.C21_neg_gsw_panics_iff",
    "Panacea.C21_neg_gsw_malformed"
   ],
   "note": ""
  },
  {
   "property": "C22",
   "status": "proved",
   "theorems": [
    "Panacea.C22_same",
    "Panacea.C22_involution",
    "Panacea.C22_decrypt",
    "Panacea.C22_flips"
   ],
   "note": ""
  },
  {
   "property": "C23",
   "status": "proved",
   "theorems": [
    "Panacea.C23_less_eq_than",
    "Panacea.C23_panics_iff",
    "Panacea.C23_decides"
   ],
   "note": ""
  },
  {
   "property": "C24",
   "status": "proved",
   "theorems": [
    "Panacea.C24_eq_to",
    "Panacea.C24_panics_iff",
    "Panacea.C24_decides"
   ],
   "note": ""
  },
  {
   "property": "C25",
   "status": "proved",
   "theorems": [
    "Panacea.C25_key",
    "Panacea.C25_keyswitch",
    "Panacea.C25_keyswitch_fourier",
    "Panacea.C25_variants_agree"
   ],
   "note": ""
  },
  {
   "property": "C26",
   "status": "proved",
   "theorems": [
    "Panacea.C26_panics_iff",
    "Panacea.C26_keyswitch_rgsw"
   ],
   "note": ""
  },
  {
   "property": "C27",
   "status": "proved",
   "theorems": [
    "Panacea.C27_key",
    "Panacea.C27_subs",
    "Panacea.C27_even_panics"
   ],
   "note": ""
  },
  {
   "property": "C28",
   "status": "proved",
   "theorems": [
    "Panacea.C28_trace",
    "Panacea.C28_trace_message",
    "Panacea.C28_missing_key_panics"
   ],
   "note": ""
  },
  {
   "property": "C29",
   "status": "proved",
   "theorems": [
    "Panacea.C29_expand",
    "Panacea.C29_non_bit_panics"
   ],
   "note": ""
  },
  {
   "property": "C30",
   "status": "proved",
   "theorems": [
    "Panacea.C30_sample_extract",
    "Panacea.C30_const_extract"
   ],
   "note": ""
  },
  {
   "property": "C31",
   "status": "proved",
   "theorems": [
    "Panacea.C31_key",
    "Panacea.C31_conv",
    "Panacea.C31_expand_slow"
   ],
   "note": ""
  },
  {
   "property": "C32",
   "status": "proved",
   "theorems": [
    "Panacea.C32_panics_iff",
    "Panacea.C32_is_max",
    "Panacea.C32_fresh",
    "Panacea.C32_encoded_guarantee",
    "Panacea.C32_ternary_measures_zero",
    "Panacea.C32_ternary_wrong"
   ],
   "note": ""
  },
  {
   "property": "C33",
   "status": "proved",
   "theorems": [
    "Panacea.C33_mask_mul",
    "Panacea.C33_negacyclic",
    "Panacea.C33_body_mul_always_zero",
    "Panacea.C33_body_mul_wrong"
   ],
   "note": ""
  },
  {
   "property": "C34",
   "status": "proved",
   "theorems": [
    "Panacea.C34_eval_panics",
    "Panacea.C34_eval_path",
    "Panacea.C34_max_feature_index",
    "Panacea.C34_max_feature_index_attained"
   ],
   "note": ""
  },
  {
   "property": "C35",
   "status": "proved",
   "theorems": [
    "Panacea.C35_flatten",
    "Panacea.C35_fix_index",
    "Panacea.C35_eval_same"
   ],
   "note": ""
  },
  {
   "property": "C36",
   "status": "proved",
   "theorems": [
    "Panacea.C36_counts",
    "Panacea.C36_new_with_depth"
   ],
   "note": ""
  },
  {
   "property": "C37",
   "status": "proved",
   "theorems": [
    "Panacea.C37_trunc_eval",
    "Panacea.C37_trunc_no_zero",
    "Panacea.C37_trunc_idem",
    "Panacea.C37_trunc_keeps"
   ],
   "note": ""
  },
  {
   "property": "C38",
   "status": "proved",
   "theorems": [
    "Panacea.C38_new_panics",
    "Panacea.C38_new_consumes",
    "Panacea.C38_max_leaf"
   ],
   "note": ""
  },
  {
   "property": "C39",
   "status": "proved",
   "theorems": [
    "Panacea.C39_eval_mod",
    "Panacea.C39_label_bits",
    "Panacea.C39_eval",
    "Panacea.C39_wide_label_wrong",
    "Panacea.C39_all_zero_panics",
    "Panacea.C39_feature_vector",
    "Panacea.C39_compare_expand",
    "Panacea.C39_simulate"
   ],
   "note": ""
  },
  {
   "property": "C40",
   "status": "proved",
   "theorems": [
    "Panacea.C40_demux",
    "Panacea.C40_client",
    "Panacea.C40_index_wraps",
    "Panacea.C40_one_hot",
    "Panacea.C40_unit_vector",
    "Panacea.C40_empty_panics"
   ],
   "note": ""
  },
  {
   "property": "C41",
   "status": "proved",
   "theorems": [
    "Panacea.C41_response",
    "Panacea.C41_decoded"
   ],
   "note": ""
  },
  {
   "property": "C42",
   "status": "proved",
   "theorems": [
    "Panacea.C42_update",
    "Panacea.C42_write_query",
    "Panacea.C42_read_query"
   ],
   "note": ""
  },
  {
   "property": "C43",
   "status": "proved",
   "theorems": [
    "Panacea.C43_history",
    "Panacea.C43_from_setup"
   ],
   "note": ""
  },
  {
   "property": "C44",
   "status": "proved",
   "theorems": [
    "Panacea.C44_distinct",
    "Panacea.C44_decoded"
   ],
   "note": ""
  },
  {
   "property": "C45",
   "status": "proved",
   "theorems": [
    "Panacea.C45_general",
    "Panacea.C45_reads_formula",
    "Panacea.C45_two_reads_triple",
    "Panacea.C45_witness"
   ],
   "note": ""
  },
  {
   "property": "C46",
   "status": "proved",
   "theorems": [
    "Panacea.C46_server",
    "Panacea.C46_batch_access"
   ],
   "note": ""
  },
  {
   "property": "C47",
   "status": "proved",
   "theorems": [
    "Panacea.C47_history",
    "Panacea.C47_from_setup"
   ],
   "note": ""
  },
  {
   "property": "C48",
   "status": "proved",
   "theorems": [
    "Panacea.C48_dummy_database",
    "Panacea.C48_decodes",
    "Panacea.C48_setup_size_panics"
   ],
   "note": ""
  },
  {
   "property": "C49",
   "status": "proved",
   "theorems": [
    "Panacea.C49_phase",
    "Panacea.C49_process_one",
    "Panacea.C49_process_multi",
    "Panacea.C49_process_batch",
    "Panacea.C49_independence_needed"
   ],
   "note": ""
  },
  {
   "property": "C50",
   "status": "proved",
   "theorems": [
    "Panacea.C50_no_deadlock",
    "Panacea.C50_terminates",
    "Panacea.C50_exclusion",
    "Panacea.C50_one_task_per_worker",
    "Panacea.C50_process_one",
    "Panacea.C50_process_multi",
    "Panacea.C50_process_batch"
   ],
   "note": ""
  },
  {
   "property": "C51",
   "status": "proved",
   "theorems": [
    "Panacea.C51_read_query",
    "Panacea.C51_write_query",
    "Panacea.C51_batch_query",
    "Panacea.C51_process_one",
    "Panacea.C51_process_multi",
    "Panacea.C51_process_batch",
    "Panacea.C51_one_accesses",
    "Panacea.C51_multi_accesses",
    "Panacea.C51_batch_accesses"
   ],
   "note": ""
  },
  {
   "property": "C52",
   "status": "proved",
   "theorems": [
    "Panacea.C52_process_one_panics_iff",
    "Panacea.C52_no_rows",
    "Panacea.C52_geometry",
    "Panacea.C52_zero_cols",
    "Panacea.C52_batch_panics_iff"
   ],
   "note": ""
  },
  {
   "property": "C53",
   "status": "proved",
   "theorems": [
    "Panacea.C53_double_write",
    "Panacea.C53_witness"
   ],
   "note": ""
  },
  {
   "property": "C54",
   "status": "proved",
   "theorems": [
    "Panacea.C54_session",
    "Panacea.C54_from_setup"
   ],
   "note": ""
  },
  {
   "property": "C55",
   "status": "proved",
   "theorems": [
    "Panacea.C55_single_completes",
    "Panacea.C55_single_panics"
   ],
   "note": ""
  },
  {
   "property": "C56",
   "status": "proved",
   "theorems": [
    "Panacea.C56_multi_completes",
    "Panacea.C56_multi_panics",
    "Panacea.C56_multi_no_queries"
   ],
   "note": ""
  },
  {
   "property": "C57",
   "status": "proved",
   "theorems": [
    "Panacea.C57_batch_completes",
    "Panacea.C57_batch_panics"
   ],
   "note": ""
  },
  {
   "property": "C58",
   "status": "proved",
   "theorems": [
    "Panacea.C58_context",
    "Panacea.C58_main_completes",
    "Panacea.C58_dryrun",
    "Panacea.C58_defaults"
   ],
   "note": ""
  },
  {
   "property": "C59",
   "status": "proved",
   "theorems": [
    "Panacea.C59_decrypt_db",
    "Panacea.C59_after_batches",
    "Panacea.C59_random_setup_panics"
   ],
   "note": ""
  },
  {
   "property": "C60",
   "status": "proved",
   "theorems": [
    "Panacea.C60_recompose",
    "Panacea.C60_simulate_sound",
    "Panacea.C60_simulate_panics"
   ],
   "note": ""
  },
  {
   "property": "C61",
   "status": "proved",
   "theorems": [
    "Panacea.C61_single_access",
    "Panacea.C61_lost"
   ],
   "note": ""
  },
  {
   "property": "C62",
   "status": "proved",
   "theorems": [
    "Panacea.C62_shapes",
    "Panacea.C62_roundtrip",
    "Panacea.C62_ternary",
    "Panacea.C62_scalar_roundtrip",
    "Panacea.C62_keys",
    "Panacea.C62_draws"
   ],
   "note": ""
  },
  {
   "property": "C63",
   "status": "proved",
   "theorems": [
    "Panacea.C63_process_one",
    "Panacea.C63_process_multi",
    "Panacea.C63_process_batch_some",
    "Panacea.C63_process_batch",
    "Panacea.C63_wrong_hash_panics_late"
   ],
   "note": ""
  },
  {
   "property": "C64",
   "status": "proved",
   "theorems": [
    "Panacea.C64_write_query",
    "Panacea.C64_read_query",
    "Panacea.C64_history",
    "Panacea.C64_ideal",
    "Panacea.C64_indistinguishable",
    "Panacea.C64_encrypt_rgsw",
    "Panacea.C64_neg_gsw",
    "Panacea.C64_subs_key",
    "Panacea.C64_features"
   ],
   "note": ""
  },
  {
   "property": "C65",
   "status": "proved",
   "theorems": [
    "Panacea.C65_exact",
    "Panacea.C65_rounding",
    "Panacea.C65_refines",
    "Panacea.C65_accumulate",
    "Panacea.C65_mul",
    "Panacea.C65_keyswitch"
   ],
   "note": ""
  },
  {
   "property": "C66",
   "status": "proved",
   "theorems": [
    "Panacea.C66_keys",
    "Panacea.C66_client",
    "Panacea.C66_server",
    "Panacea.C66_session",
    "Panacea.C66_same_size"
   ],
   "note": ""
  },
  {
   "property": "C67",
   "status": "proved",
   "theorems": [
    "Panacea.C67_no_poison",
    "Panacea.C67_history",
    "Panacea.C67_ends",
    "Panacea.C67_no_panic",
    "Panacea.C67_recovers",
    "Panacea.C67_process_one_after",
    "Panacea.C67_half_written",
    "Panacea.C67_buffer",
    "Panacea.C67_row_witness",
    "Panacea.C67_buffer_witness"
   ],
   "note": ""
  },
  {
   "property": "C68",
   "status": "proved",
   "theorems": [
    "Panacea.C68_tree_eval",
    "Panacea.C68_tree_counts",
    "Panacea.C68_eval_x_k",
    "Panacea.C68_log2",
    "Panacea.C68_codec",
    "Panacea.C68_codec_one",
    "Panacea.C68_lossy",
    "Panacea.C68_hash",
    "Panacea.C68_hash_overflow",
    "Panacea.C68_item_count",
    "Panacea.C68_gadget",
    "Panacea.C68_feature_factor_overflow"
   ],
   "note": ""
  },
  {
   "property": "C69",
   "status": "proved",
   "theorems": [
    "Panacea.C69_params_roundtrip",
    "Panacea.C69_tfhe_iff",
    "Panacea.C69_missing_member",
    "Panacea.C69_selection",
    "Panacea.C69_tree_roundtrip",
    "Panacea.C69_tree_members",
    "Panacea.C69_tree_optional"
   ],
   "note": ""
  },
  {
   "property": "C70",
   "status": "proved",
   "theorems": [
    "Panacea.C70_process_one",
    "Panacea.C70_history",
    "Panacea.C70_batches",
    "Panacea.C70_from_setup",
    "Panacea.C70_default_params",
    "Panacea.C70_sparse_row",
    "Panacea.C70_sparse_batches",
    "Panacea.C70_default_sparse",
    "Panacea.C70_witness"
   ],
   "note": ""
  },
  {
   "property": "C71",
   "status": "proved",
   "theorems": [
    "Panacea.C71_compare_expand",
    "Panacea.C71_server",
    "Panacea.C71_simulate",
    "Panacea.C71_default_params",
    "Panacea.C71_sparse_tree",
    "Panacea.C71_default_sparse",
    "Panacea.C71_witness"
   ],
   "note": ""
  },
  {
   "property": "C72",
   "status": "proved",
   "theorems": [
    "Panacea.C72_completes_iff",
    "Panacea.C72_report",
    "Panacea.C72_panic",
    "Panacea.C72_modulus_exact",
    "Panacea.C72_items_inexact"
   ],
   "note": ""
  },
  {
   "property": "C73",
   "status": "proved",
   "theorems": [
    "Panacea.C73_process_multi",
    "Panacea.C73_session",
    "Panacea.C73_from_setup",
    "Panacea.C73_sparse_session",
    "Panacea.C73_default_params",
    "Panacea.C73_default_sparse",
    "Panacea.C73_witness"
   ],
   "note": ""
  },
  {
   "property": "C74",
   "status": "proved",
   "theorems": [
    "Panacea.C74_numeral",
    "Panacea.C74_parse_iff",
    "Panacea.C74_byte_order_mark",
    "Panacea.C74_empty",
    "Panacea.C74_headerless",
    "Panacea.C74_roundtrip",
    "Panacea.C74_witness"
   ],
   "note": ""
  },
  {
   "property": "C75",
   "status": "proved",
   "theorems": [
    "Panacea.C75_tree_view",
    "Panacea.C75_oram_view",
    "Panacea.C75_oram_witness",
    "Panacea.C75_tree_witness"
   ],
   "note": ""
  },
  {
   "property": "C76",
   "status": "proved",
   "theorems": [
    "Panacea.C76_par_map",
    "Panacea.C76_par_map_completes",
    "Panacea.C76_simulate_parallel",
    "Panacea.C76_result",
    "Panacea.C76_display",
    "Panacea.C76_display_injective",
    "Panacea.C76_predictions_not_printed",
    "Panacea.C76_witness"
   ],
   "note": ""
  },
  {
   "property": "C77",
   "status": "proved",
   "theorems": [
    "Panacea.C77_thresholds",
    "Panacea.C77_guarantee",
    "Panacea.C77_decoded_report",
    "Panacea.C77_rgsw1",
    "Panacea.C77_ternary_report",
    "Panacea.C77_rgsw1_no_levels",
    "Panacea.C77_rgsw1_ignores_mask_rows",
    "Panacea.C77_rgsw1_exact_row",
    "Panacea.C77_rgsw1_one",
    "Panacea.C77_rgsw1_zero",
    "Panacea.C77_release",
    "Panacea.C77_rgsw1_witness"
   ],
   "note": ""
  },
  {
   "property": "C78",
   "status": "proved",
   "theorems": [
    "Panacea.C78_session",
    "Panacea.C78_batches",
    "Panacea.C78_single_query",
    "Panacea.C78_multi_query",
    "Panacea.C78_simulate",
    "Panacea.C78_subgaussian_tail",
    "Panacea.C78_gaussian_tail"
   ],
   "note": ""
  },
  {
   "property": "C79",
   "status": "proved",
   "theorems": [
    "Panacea.Flat.C79_layout",
    "Panacea.Flat.C79_buffers",
    "Panacea.Flat.C79_add_sub",
    "Panacea.Flat.C79_mul",
    "Panacea.Flat.C79_compare",
    "Panacea.Flat.C79_not",
    "Panacea.Flat.C79_eval_x_k",
    "Panacea.Flat.C79_rows",
    "Panacea.Flat.C79_rgsw",
    "Panacea.Flat.C79_encrypt_rgsw",
    "Panacea.Flat.C79_encrypt_rgsw_overflow",
    "Panacea.Flat.C79_izip",
    "Panacea.Flat.C79_izip5",
    "Panacea.Flat.C79_fourier_loops",
    "Panacea.Flat.C79_wrong_size",
    "Panacea.Flat.C79_keyswitch_key",
    "Panacea.Flat.C79_keyswitch",
    "Panacea.Flat.C79_from_keyswitch_key",
    "Panacea.Flat.C79_expand",
    "Panacea.Flat.C79_lwe"
   ],
   "note": ""
  },
  {
   "property": "C80",
   "status": "proved",
   "theorems": [
    "Panacea.Cost.C80_expand",
    "Panacea.Cost.C80_expand_fourier",
    "Panacea.Cost.C80_decision_tree",
    "Panacea.Cost.C80_simulate",
    "Panacea.Cost.C80_process_one",
    "Panacea.Cost.C80_process_multi",
    "Panacea.Cost.C80_process_batch",
    "Panacea.Cost.C80_demux",
    "Panacea.Cost.C80_linear",
    "Panacea.Cost.C80_same_work",
    "Panacea.Cost.C80_query_size"
   ],
   "note": ""
  },
  {
   "property": "C81",
   "status": "proved",
   "theorems": [
    "Panacea.C81_enc",
    "Panacea.C81_dec",
    "Panacea.C81_external_product",
    "Panacea.C81_cmux",
    "Panacea.C81_keyswitch",
    "Panacea.C81_keyswitch_fourier",
    "Panacea.C81_keyswitch_gsw",
    "Panacea.C81_expand",
    "Panacea.C81_less_eq",
    "Panacea.C81_trace1_fourier",
    "Panacea.C81_completes",
    "Panacea.C81_default"
   ],
   "note": ""
  },
  {
   "property": "C82",
   "status": "proved",
   "theorems": [
    "Panacea.C82_program",
    "Panacea.C82_inputs",
    "Panacea.C82_end_to_end",
    "Panacea.C82_meaning",
    "Panacea.C82_witness"
   ],
   "note": ""
  },
  {
   "property": "C83",
   "status": "proved",
   "theorems": [
    "Panacea.C83_codec",
    "Panacea.C83_naive_hash",
    "Panacea.C83_ternary_enc",
    "Panacea.C83_binary_enc",
    "Panacea.C83_keyswitching",
    "Panacea.C83_keyswitching_fourier",
    "Panacea.C83_keyswitching_rgsw",
    "Panacea.C83_subs",
    "Panacea.C83_subs_fourier",
    "Panacea.C83_eval_poly",
    "Panacea.C83_trace1",
    "Panacea.C83_encrypt_rgsw",
    "Panacea.C83_external_product",
    "Panacea.C83_cmux",
    "Panacea.C83_negs",
    "Panacea.C83_less_eq",
    "Panacea.C83_eq_to",
    "Panacea.C83_not",
    "Panacea.C83_lwe",
    "Panacea.C83_lwe_to_rlwe",
    "Panacea.C83_sample_extract",
    "Panacea.C83_demux",
    "Panacea.C83_demux_long",
    "Panacea.C83_default",
    "Panacea.C83_default_small",
    "Panacea.C83_expand",
    "Panacea.C83_expand_slow",
    "Panacea.C83_clear_trees",
    "Panacea.C83_traversal_1",
    "Panacea.C83_traversal_2",
    "Panacea.C83_traversal_long",
    "Panacea.C83_fourier_mul",
    "Panacea.C83_fourier_mul_fails",
    "Panacea.C83_compute_noise",
    "Panacea.C83_compute_noise_fails"
   ],
   "note": ""
  },
  {
   "property": "C84",
   "status": "proved",
   "theorems": [
    "Panacea.C84_oram",
    "Panacea.C84_oram_multi",
    "Panacea.C84_oram_more",
    "Panacea.C84_oram_batch_iff",
    "Panacea.C84_oram_batch",
    "Panacea.C84_oram_batch_fails",
    "Panacea.C84_oram_batch_more"
   ],
   "note": ""
  },
  {
   "property": "C85",
   "status": "proved",
   "theorems": [
    "Panacea.Flat.C85_demux",
    "Panacea.Flat.C85_server",
    "Panacea.Flat.C85_client",
    "Panacea.Flat.C85_simulate",
    "Panacea.Flat.C85_lazy",
    "Panacea.Flat.C85_missing"
   ],
   "note": ""
  },
  {
   "property": "C86",
   "status": "proved",
   "theorems": [
    "Panacea.Flat.C86_mixed",
    "Panacea.Flat.C86_process_one",
    "Panacea.Flat.C86_process_multi",
    "Panacea.Flat.C86_process_batch",
    "Panacea.Flat.C86_decrypt_db",
    "Panacea.Flat.C86_queries",
    "Panacea.Flat.C86_setup",
    "Panacea.Flat.C86_session",
    "Panacea.Flat.C86_batches"
   ],
   "note": ""
  },
  {
   "property": "C87",
   "status": "proved",
   "theorems": [
    "Panacea.C87_grammar",
    "Panacea.C87_unambiguous",
    "Panacea.C87_print",
    "Panacea.C87_params_text",
    "Panacea.C87_not_json",
    "Panacea.C87_cut",
    "Panacea.C87_truncated",
    "Panacea.C87_tree_text",
    "Panacea.C87_test_json",
    "Panacea.C87_repo_params"
   ],
   "note": ""
  },
  {
   "property": "C88",
   "status": "proved",
   "theorems": [
    "Panacea.C88_parse_iff",
    "Panacea.C88_unambiguous",
    "Panacea.C88_order",
    "Panacea.C88_secure_seed",
    "Panacea.C88_twice",
    "Panacea.C88_unknown",
    "Panacea.C88_help",
    "Panacea.C88_cli_runs",
    "Panacea.C88_file_runs",
    "Panacea.C88_verbose",
    "Panacea.C88_completes",
    "Panacea.C88_defaults",
    "Panacea.C88_witness"
   ],
   "note": ""
  },
  {
   "property": "C89",
   "status": "proved",
   "theorems": [
    "Panacea.C89_uniform",
    "Panacea.C89_batch",
    "Panacea.C89_batch_pow",
    "Panacea.C89_two",
    "Panacea.C89_history",
    "Panacea.C89_overload",
    "Panacea.C89_test_oram_batch",
    "Panacea.C89_run"
   ],
   "note": ""
  },
  {
   "property": "C90",
   "status": "proved",
   "theorems": [
    "Panacea.C90_oram_simulated",
    "Panacea.C90_oram",
    "Panacea.C90_tree_simulated",
    "Panacea.C90_tree",
    "Panacea.C90_ideal",
    "Panacea.C90_uniform_noise",
    "Panacea.C90_witness",
    "Panacea.C90_tree_witness"
   ],
   "note": ""
  },
  {
   "property": "C91",
   "status": "proved",
   "theorems": [
    "Panacea.C91_adaptive",
    "Panacea.C91_accepted",
    "Panacea.C91_private",
    "Panacea.C91_witness"
   ],
   "note": ""
  },
  {
   "property": "C92",
   "status": "proved",
   "theorems": [
    "Panacea.C92_unbounded",
    "Panacea.C92_not_all_tests",
    "Panacea.C92_default",
    "Panacea.C92_witness"
   ],
   "note": ""
  },
  {
   "property": "C93",
   "status": "proved",
   "theorems": [
    "Panacea.C93_single",
    "Panacea.C93_multi",
    "Panacea.C93_batch",
    "Panacea.C93_run",
    "Panacea.C93_main",
    "Panacea.C93_params_json",
    "Panacea.C93_params_json_sparse",
    "Panacea.C93_default_sparse",
    "Panacea.C93_witness",
    "Panacea.C93_params_json_witness"
   ],
   "note": ""
  },
  {
   "property": "C94",
   "status": "proved",
   "theorems": [
    "Panacea.C94_oram",
    "Panacea.C94_oram_multi",
    "Panacea.C94_oram_more",
    "Panacea.C94_oram_batch_iff",
    "Panacea.C94_oram_batch",
    "Panacea.C94_oram_batch_fails",
    "Panacea.C94_oram_batch_more",
    "Panacea.C94_default",
    "Panacea.C94_default_sparse",
    "Panacea.C94_ignored_sparse",
    "Panacea.C94_witness"
   ],
   "note": ""
  },
  {
   "property": "C95",
   "status": "proved",
   "theorems": [
    "Panacea.C95_constant_bit",
    "Panacea.C95_answers",
    "Panacea.C95_collapse",
    "Panacea.C95_collapse_sound",
    "Panacea.C95_model_shows"
   ],
   "note": ""
  },
  {
   "property": "C96",
   "status": "proved",
   "theorems": [
    "Panacea.C96_delivery",
    "Panacea.C96_clients",
    "Panacea.C96_duplicate",
    "Panacea.C96_replay",
    "Panacea.C96_batches",
    "Panacea.C96_witness"
   ],
   "note": ""
  },
  {
   "property": "C97",
   "status": "proved",
   "theorems": [
    "Panacea.C97_answer",
    "Panacea.C97_item",
    "Panacea.C97_exchange",
    "Panacea.C97_witness"
   ],
   "note": ""
  },
  {
   "property": "C98",
   "status": "proved",
   "theorems": [
    "Panacea.C98_call",
    "Panacea.C98_sessions",
    "Panacea.C98_from_setup"
   ],
   "note": ""
  },
  {
   "property": "C99",
   "status": "proved",
   "theorems": [
    "Panacea.C99_grid",
    "Panacea.C99_from_setup",
    "Panacea.C99_stale",
    "Panacea.C99_witness"
   ],
   "note": ""
  },
  {
   "property": "C100",
   "status": "proved",
   "theorems": [
    "Panacea.C100_call",
    "Panacea.C100_sessions",
    "Panacea.C100_from_setup",
    "Panacea.C100_sparse",
    "Panacea.C100_default_params",
    "Panacea.C100_default_sparse",
    "Panacea.C100_witness"
   ],
   "note": ""
  },
  {
   "property": "C101",
   "status": "proved",
   "theorems": [
    "Panacea.Flat.C101_run",
    "Panacea.Flat.C101_main",
    "Panacea.Flat.C101_params_json",
    "Panacea.Flat.C101_params_json_witness"
   ],
   "note": ""
  }
 ]
}