{
 "claims": [
  {
   "property": "C01",
   "status": "proved",
   "theorems": [
    "Verif.C01_KT_normalised"
   ],
   "note": ""
  },
  {
   "property": "C02",
   "status": "proved",
   "theorems": [
    "Verif.C02_KT_update_frame",
    "Verif.C02_KT_cached_total",
    "Verif.C02_KT_unknown_symbol"
   ],
   "note": ""
  },
  {
   "property": "C03",
   "status": "proved",
   "theorems": [
    "Verif.C03_KT_frequency",
    "Verif.C03_KT_closed_form",
    "Verif.C03_KT_exchangeable"
   ],
   "note": ""
  },
  {
   "property": "C04",
   "status": "proved",
   "theorems": [
    "Verif.C04_KTBinary_eq_KT",
    "Verif.C04_KTBinary_runs"
   ],
   "note": ""
  },
  {
   "property": "C05",
   "status": "proved",
   "theorems": [
    "Verif.C05_SAD_mass",
    "Verif.C05_SAD_coherent"
   ],
   "note": ""
  },
  {
   "property": "C06",
   "status": "proved",
   "theorems": [
    "Verif.C06_logsumexp",
    "Verif.C06_logsumexp_perm",
    "Verif.C06_logsumexp2"
   ],
   "note": ""
  },
  {
   "property": "C07",
   "status": "partial",
   "theorems": [
    "Verif.C07_update_seq_partial",
    "Verif.C07_log_predict_seq_partial",
    "Verif.C07_update_seq_empty",
    "Verif.C07_full_is_false"
   ],
   "note": "Proved for non-empty sequences. The full statement is false for the empty sequence: the code empties the history (C07_update_seq_empty, C07_full_is_false)."
  },
  {
   "property": "C08",
   "status": "proved",
   "theorems": [
    "Verif.C08_Averager_mixture",
    "Verif.C08_Averager_empty"
   ],
   "note": ""
  },
  {
   "property": "C09",
   "status": "proved",
   "theorems": [
    "Verif.C09_Averager_lawful",
    "Verif.C09_Averager_update_normalised"
   ],
   "note": ""
  },
  {
   "property": "C10",
   "status": "proved",
   "theorems": [
    "Verif.C10_Averager_regret"
   ],
   "note": ""
  },
  {
   "property": "C11",
   "status": "proved",
   "theorems": [
    "Verif.C11_Averager_map",
    "Verif.C11_Averager_map_best"
   ],
   "note": ""
  },
  {
   "property": "C12",
   "status": "partial",
   "theorems": [
    "Verif.C12_Factored_routes_partial",
    "Verif.C12_Factored_empty",
    "Verif.C12_Factored_drops_weight",
    "Verif.C12_Factored_run"
   ],
   "note": "Routing, frame and whole runs proved. The natural statement 'updates the factor with the caller's weight' is false: the code always passes weight 1 (C12_Factored_drops_weight)."
  },
  {
   "property": "C13",
   "status": "proved",
   "theorems": [
    "Verif.C13_CTW_closed_form",
    "Verif.C13_CTW_run_succeeds",
    "Verif.C13_CTW_default"
   ],
   "note": ""
  },
  {
   "property": "C14",
   "status": "proved",
   "theorems": [
    "Verif.C14_CTW_predict_eq_update"
   ],
   "note": ""
  },
  {
   "property": "C15",
   "status": "proved",
   "theorems": [
    "Verif.C15_CTW_normalised"
   ],
   "note": ""
  },
  {
   "property": "C16",
   "status": "proved",
   "theorems": [
    "Verif.C16_CTW_regret"
   ],
   "note": ""
  },
  {
   "property": "C17",
   "status": "proved",
   "theorems": [
    "Verif.C17_CTW_predict_pure",
    "Verif.C17_base_models_pure",
    "Verif.C17_interleaved",
    "Verif.C17_PTW_predict_pure",
    "Verif.C17_FMN_predict_pure"
   ],
   "note": "PTW, PTWFixedLength, Factored: C17_PTW_predict_pure; FMN: C17_FMN_predict_pure (base models with faithful copies, C50); C17_interleaved removes the predictions from any sequence of successful calls."
  },
  {
   "property": "C18",
   "status": "partial",
   "theorems": [
    "Verif.C18_mkcontext_partial",
    "Verif.C18_locality_partial",
    "Verif.C18_depth_zero_context",
    "Verif.C18_depth_zero_not_normalised"
   ],
   "note": "Proved for depth >= 1. False at depth 0 (C18_depth_zero_context, C18_depth_zero_not_normalised)."
  },
  {
   "property": "C19",
   "status": "proved",
   "theorems": [
    "Verif.C19_CTW_KT_eq_CTW"
   ],
   "note": ""
  },
  {
   "property": "C20",
   "status": "proved",
   "theorems": [
    "Verif.C20_copies_independent",
    "Verif.C20_base_models"
   ],
   "note": ""
  },
  {
   "property": "C21",
   "status": "proved",
   "theorems": [
    "Verif.C21_memory_safe",
    "Verif.C21_C_code_safe"
   ],
   "note": ""
  },
  {
   "property": "C22",
   "status": "proved",
   "theorems": [
    "Verif.C22_fast_eq_python",
    "Verif.C22_fast_eq_python_alphabet",
    "Verif.C22_depth_zero_disagree"
   ],
   "note": ""
  },
  {
   "property": "C23",
   "status": "proved",
   "theorems": [
    "Verif.C23_copy_always_fails"
   ],
   "note": ""
  },
  {
   "property": "C24",
   "status": "proved",
   "theorems": [
    "Verif.C24_PTWFixedLength_closed_form",
    "Verif.C24_length_rounded_up",
    "Verif.C24_PTWFixedLength_init",
    "Verif.C24_PTWFixedLength_normalised"
   ],
   "note": ""
  },
  {
   "property": "C25",
   "status": "proved",
   "theorems": [
    "Verif.C25_PTW_ratio"
   ],
   "note": ""
  },
  {
   "property": "C26",
   "status": "proved",
   "theorems": [
    "Verif.C26_PTW_normalised"
   ],
   "note": ""
  },
  {
   "property": "C27",
   "status": "partial",
   "theorems": [
    "Verif.C27_predict_eq_update_partial",
    "Verif.C27_predict_overestimates",
    "Verif.C27_predictions_exceed_one",
    "Verif.C27_witness",
    "Verif.C27_fixed_predict_eq_update_partial",
    "Verif.C27_fixed_overestimates",
    "Verif.C27_fixed_exceed_one",
    "Verif.C27_FMN_predict_eq_update_partial",
    "Verif.C27_FMN_overestimates",
    "Verif.C27_FMN_exceed_one"
   ],
   "note": "Proved when the next symbol does not start a new block. False at block boundaries, where log_predict overestimates and the predictions sum to more than one (C27_predict_overestimates, C27_predictions_exceed_one, C27_witness; C27_fixed_* for PTWFixedLength and C27_FMN_* for FMN)."
  },
  {
   "property": "C28",
   "status": "proved",
   "theorems": [
    "Verif.C28_PTWFixedLength_regret",
    "Verif.C28_PTW_regret",
    "Verif.C28_partition_cost"
   ],
   "note": ""
  },
  {
   "property": "C29",
   "status": "proved",
   "theorems": [
    "Verif.C29_PTW_models"
   ],
   "note": ""
  },
  {
   "property": "C30",
   "status": "proved",
   "theorems": [
    "Verif.C30_min_length_rounded_down",
    "Verif.C30_not_rounded_up"
   ],
   "note": ""
  },
  {
   "property": "C31",
   "status": "proved",
   "theorems": [
    "Verif.C31_LogStore_contents",
    "Verif.C31_LogStore_length",
    "Verif.C31_LogStore_ends"
   ],
   "note": ""
  },
  {
   "property": "C32",
   "status": "proved",
   "theorems": [
    "Verif.C32_lazyAdd",
    "Verif.C32_LogStoreUniform_contents",
    "Verif.C32_LogStoreUniform_size",
    "Verif.C32_LogStoreUniform_index"
   ],
   "note": ""
  },
  {
   "property": "C33",
   "status": "proved",
   "theorems": [
    "Verif.C33_LogStores_agree"
   ],
   "note": ""
  },
  {
   "property": "C34",
   "status": "proved",
   "theorems": [
    "Verif.C34_stores_lawful",
    "Verif.C34_FMN_normalised",
    "Verif.C34_FMN_closed_form",
    "Verif.C34_FMN_schedule"
   ],
   "note": ""
  },
  {
   "property": "C35",
   "status": "proved",
   "theorems": [
    "Verif.C35_FMN_keeps_first",
    "Verif.C35_FMN_store_size"
   ],
   "note": ""
  },
  {
   "property": "C36",
   "status": "proved",
   "theorems": [
    "Verif.C36_learners_PTW_closed_form",
    "Verif.C36_learners_PTW_eq_PTWFixedLength",
    "Verif.C36_learners_PTW_total",
    "Verif.C36_learners_PTW_limit",
    "Verif.C36_learners_PTW_deepest"
   ],
   "note": ""
  },
  {
   "property": "C37",
   "status": "proved",
   "theorems": [
    "Verif.C37_learners_PTW_predict_eq_update",
    "Verif.C37_learners_PTW_normalised"
   ],
   "note": ""
  },
  {
   "property": "C38",
   "status": "proved",
   "theorems": [
    "Verif.C38_learners_PTW_models",
    "Verif.C38_learners_PTW_model_contents",
    "Verif.C38_learners_PTW_at_most_depth"
   ],
   "note": ""
  },
  {
   "property": "C39",
   "status": "proved",
   "theorems": [
    "Verif.C39_log_prob_tracks",
    "Verif.C39_ctw_PTW_closed_form",
    "Verif.C39_ctw_PTW_eq_PTWFixedLength",
    "Verif.C39_ctw_PTW_total",
    "Verif.C39_ctw_PTW_predict",
    "Verif.C39_ctw_PTW_predict_pure"
   ],
   "note": ""
  },
  {
   "property": "C40",
   "status": "proved",
   "theorems": [
    "Verif.C40_binaryBoundary",
    "Verif.C40_atPartitionStart",
    "Verif.C40_mscb"
   ],
   "note": ""
  },
  {
   "property": "C41",
   "status": "proved",
   "theorems": [
    "Verif.C41_encoder_interval",
    "Verif.C41_compress_total",
    "Verif.C41_empty_interval_never_returns"
   ],
   "note": ""
  },
  {
   "property": "C42",
   "status": "partial",
   "theorems": [
    "Verif.C42_compress_injective",
    "Verif.C42_round_trip_partial",
    "Verif.C42_round_trip_half",
    "Verif.C42_ctw_KT_round_trip_partial",
    "Verif.C42_ctw_CTW_round_trip_partial",
    "Verif.C42_decode_never_returns",
    "Verif.C42_ctw_KT_never_decodes",
    "Verif.C42_without_room",
    "Verif.C42_round_trip_longer",
    "Verif.C42_round_trip_last_bit",
    "Verif.C42_round_trip_empty",
    "Verif.C42_ctw_KT_round_trip_longer",
    "Verif.C42_ctw_CTW_round_trip_longer"
   ],
   "note": "Injectivity proved without conditions; round trip proved in full for models giving zero at least one half, and for every model with room for zero in every interval when the last symbol made the code longer (C42_round_trip_longer), when the code ends with a one and zero never has less than 4/2^N (C42_round_trip_last_bit), or when the decoder returns (C42_round_trip_partial). The full statement is false: C42_ctw_KT_never_decodes, C42_without_room."
  },
  {
   "property": "C43",
   "status": "proved",
   "theorems": [
    "Verif.C43_fractions",
    "Verif.C43_fraction_near_probability",
    "Verif.C43_symbol_width",
    "Verif.C43_code_length"
   ],
   "note": ""
  },
  {
   "property": "C44",
   "status": "partial",
   "theorems": [
    "Verif.C44_ctw_KT_byte_one",
    "Verif.C44_bytes_round_trip_partial",
    "Verif.C44_mirrored",
    "Verif.C44_mirrored_returned"
   ],
   "note": "Proved for the uniform model. The full statement is false: C44_ctw_KT_byte_one. For every other model with the round trip of C42 the bytes come back when the bits of every byte are mirrored before and after decompress_bytes (C44_mirrored, C44_mirrored_returned)."
  },
  {
   "property": "C45",
   "status": "proved",
   "theorems": [
    "Verif.C45_decompress_raises_TypeError",
    "Verif.C45_compress_calls"
   ],
   "note": "The expected compatibility is false; the property says exactly which classes fail at which call, and that is what is proved."
  },
  {
   "property": "C46",
   "status": "proved",
   "theorems": [
    "Verif.C46_FMN_regret"
   ],
   "note": ""
  },
  {
   "property": "C47",
   "status": "proved",
   "theorems": [
    "Verif.C47_ctw_KT_eq_model_KT",
    "Verif.C47_ctw_KT_counts",
    "Verif.C47_learners_KT_eq_model_KT",
    "Verif.C47_learners_KT_log_prob",
    "Verif.C47_learners_KT_empty"
   ],
   "note": ""
  },
  {
   "property": "C48",
   "status": "proved",
   "theorems": [
    "Verif.C48_ctw_CTW_eq_model_CTW",
    "Verif.C48_ctw_CTW_KT_eq_model_CTW_KT",
    "Verif.C48_ctw_CTW_closed_form",
    "Verif.C48_ctw_CTW_depth_zero",
    "Verif.C48_ctw_CTW_predict",
    "Verif.C48_ctw_CTW_base"
   ],
   "note": ""
  },
  {
   "property": "C49",
   "status": "partial",
   "theorems": [
    "Verif.C49_ctw_Averager_reset",
    "Verif.C49_ctw_Averager_mixture_partial",
    "Verif.C49_ctw_Averager_predict",
    "Verif.C49_ctw_KT_detached",
    "Verif.C49_recomputing_classes",
    "Verif.C49_ctw_Averager_double_counts",
    "Verif.C49_ctw_Averager_not_normalised",
    "Verif.C49_ctw_Averager_not_mixture",
    "Verif.C49_ctw_Averager_map"
   ],
   "note": "Proved for new components and for components whose answers do not depend on log_prob (KT). False for trained components that recompute log_prob: C49_ctw_Averager_not_mixture, C49_ctw_Averager_not_normalised."
  },
  {
   "property": "C50",
   "status": "proved",
   "theorems": [
    "Verif.C50_copy_answers",
    "Verif.C50_estimators",
    "Verif.C50_Averager",
    "Verif.C50_Factored",
    "Verif.C50_CTW",
    "Verif.C50_CTW_KT",
    "Verif.C50_no_copy",
    "Verif.C50_copyable"
   ],
   "note": ""
  },
  {
   "property": "C51",
   "status": "proved",
   "theorems": [
    "Verif.C51_KTBinary_redundancy",
    "Verif.C51_KTBinary_redundancy_loss",
    "Verif.C51_KT_redundancy",
    "Verif.C51_KTBinary_redundancy_tight"
   ],
   "note": ""
  },
  {
   "property": "C52",
   "status": "proved",
   "theorems": [
    "Verif.C52_CTW_redundancy"
   ],
   "note": ""
  },
  {
   "property": "C53",
   "status": "proved",
   "theorems": [
    "Verif.C53_partition_exists",
    "Verif.C53_PTWFixedLength_redundancy",
    "Verif.C53_PTW_redundancy"
   ],
   "note": ""
  },
  {
   "property": "C54",
   "status": "partial",
   "theorems": [
    "Verif.C54_one_tile_per_tiling_partial",
    "Verif.C54_indices_valid_partial",
    "Verif.C54_width_not_dividing",
    "Verif.C54_concatenate",
    "Verif.C54_bias_first",
    "Verif.C54_signal_length",
    "Verif.C54_one_tile_fitting_partial",
    "Verif.C54_indices_valid_iff"
   ],
   "note": "Proved for the default width, every width 1/k and every width w such that the fractional part of 1/w is below 1/n. C54_indices_valid_iff shows that the statement is false for all other widths; C54_width_not_dividing is an instance."
  },
  {
   "property": "C55",
   "status": "proved",
   "theorems": [
    "Verif.C55_same_tile_iff"
   ],
   "note": ""
  },
  {
   "property": "C56",
   "status": "proved",
   "theorems": [
    "Verif.C56_resolution",
    "Verif.C56_getPairs"
   ],
   "note": ""
  },
  {
   "property": "C57",
   "status": "proved",
   "theorems": [
    "Verif.C57_getData",
    "Verif.C57_calls",
    "Verif.C57_prefix",
    "Verif.C57_ordered",
    "Verif.C57_stuck",
    "Verif.C57_probability_of_one",
    "Verif.C57_iteration",
    "Verif.C57_empty"
   ],
   "note": ""
  },
  {
   "property": "C58",
   "status": "proved",
   "theorems": [
    "Verif.C58_updates",
    "Verif.C58_getAllData",
    "Verif.C58_agree",
    "Verif.C58_negative",
    "Verif.C58_no_rows",
    "Verif.C58_no_entries",
    "Verif.C58_step"
   ],
   "note": ""
  },
  {
   "property": "C59",
   "status": "proved",
   "theorems": [
    "Verif.C59_discounted",
    "Verif.C59_bounded",
    "Verif.C59_horizon",
    "Verif.C59_default_raises",
    "Verif.C59_trace",
    "Verif.C59_trace_return",
    "Verif.C59_replacing"
   ],
   "note": ""
  },
  {
   "property": "C60",
   "status": "partial",
   "theorems": [
    "Verif.C60_running_mean_partial",
    "Verif.C60_window_one",
    "Verif.C60_errors"
   ],
   "note": "Proved for windows of at least two. False for a window of one, where the result is empty: C60_window_one."
  },
  {
   "property": "C61",
   "status": "proved",
   "theorems": [
    "Verif.C61_scale",
    "Verif.C61_constant",
    "Verif.C61_given_range",
    "Verif.C61_logSumExp",
    "Verif.C61_unitizer",
    "Verif.C61_argmax"
   ],
   "note": ""
  },
  {
   "property": "C62",
   "status": "proved",
   "theorems": [
    "Verif.C62_half",
    "Verif.C62_sample",
    "Verif.C62_sample_rows",
    "Verif.C62_other"
   ],
   "note": ""
  },
  {
   "property": "C63",
   "status": "proved",
   "theorems": [
    "Verif.C63_regions",
    "Verif.C63_cover",
    "Verif.C63_empty"
   ],
   "note": ""
  },
  {
   "property": "C64",
   "status": "proved",
   "theorems": [
    "Verif.C64_outer"
   ],
   "note": ""
  },
  {
   "property": "C65",
   "status": "proved",
   "theorems": [
    "Verif.C65_ctw_FMN_total",
    "Verif.C65_ctw_FMN_closed_form",
    "Verif.C65_ctw_FMN_schedule",
    "Verif.C65_ctw_FMN_store_size",
    "Verif.C65_ctw_FMN_regret",
    "Verif.C65_ctw_KT_base",
    "Verif.C65_reset_detached",
    "Verif.C65_ctw_FMN_KT"
   ],
   "note": ""
  },
  {
   "property": "C66",
   "status": "partial",
   "theorems": [
    "Verif.C66_ctw_FMN_predict_partial",
    "Verif.C66_ctw_FMN_CTW_not_normalised"
   ],
   "note": "Proved for base models for which log_predict agrees with update after log_prob has been set to zero, in particular KT. False for ctw.CTW: the stored copies keep the root probability although Averager sets log_prob to zero, so the predictions after one symbol sum to 7/8 (C66_ctw_FMN_CTW_not_normalised)."
  },
  {
   "property": "C67",
   "status": "proved",
   "theorems": [
    "Verif.C67_learners_Averager_mixture",
    "Verif.C67_learners_Averager_empty",
    "Verif.C67_learners_Averager_map"
   ],
   "note": ""
  },
  {
   "property": "C68",
   "status": "partial",
   "theorems": [
    "Verif.C68_learners_Averager_predict_joint",
    "Verif.C68_learners_Averager_predict_partial",
    "Verif.C68_learners_PTW_over_Averager",
    "Verif.C68_learners_Averager_not_normalised"
   ],
   "note": "Proved before the first update. False afterwards: predict returns the joint probability of the past and the symbol (C68_learners_Averager_predict_joint, C68_learners_Averager_not_normalised), and update returns None, so PTW over Averager raises TypeError (C68_learners_PTW_over_Averager)."
  },
  {
   "property": "C69",
   "status": "partial",
   "theorems": [
    "Verif.C69_learners_KT_reset_partial",
    "Verif.C69_learners_Averager_reset",
    "Verif.C69_learners_PTW_reset"
   ],
   "note": "Proved for KT. False for Averager, whose models stay trained, and for PTW, which inherits a reset that keeps its subtrees (C69_learners_Averager_reset, C69_learners_PTW_reset)."
  },
  {
   "property": "C70",
   "status": "proved",
   "theorems": [
    "Verif.C70_learners_PTW_child_string",
    "Verif.C70_uncertain_base",
    "Verif.C70_learners_PTW_model_string",
    "Verif.C70_learners_PTW_child_string_certain"
   ],
   "note": ""
  },
  {
   "property": "C71",
   "status": "proved",
   "theorems": [
    "Verif.C71_int",
    "Verif.C71_protocol_roundtrip",
    "Verif.C71_envdir_roundtrip",
    "Verif.C71_protocol_plain_iff",
    "Verif.C71_protocol_negative",
    "Verif.C71_protocol_parts",
    "Verif.C71_protocol_not_stable"
   ],
   "note": ""
  },
  {
   "property": "C72",
   "status": "proved",
   "theorems": [
    "Verif.C72_split_params",
    "Verif.C72_split_params_roundtrip",
    "Verif.C72_split_params_bare",
    "Verif.C72_split_params_error_iff",
    "Verif.C72_split_params_unsafe"
   ],
   "note": ""
  },
  {
   "property": "C73",
   "status": "proved",
   "theorems": [
    "Verif.C73_number_roundtrip",
    "Verif.C73_number_negative",
    "Verif.C73_array_headers",
    "Verif.C73_de_number",
    "Verif.C73_de_number_all_digits"
   ],
   "note": ""
  },
  {
   "property": "C74",
   "status": "proved",
   "theorems": [
    "Verif.C74_combinations",
    "Verif.C74_combinations_count",
    "Verif.C74_get_all_combinations"
   ],
   "note": ""
  },
  {
   "property": "C75",
   "status": "proved",
   "theorems": [
    "Verif.C75_shared_keys",
    "Verif.C75_unique_keys",
    "Verif.C75_shared_values",
    "Verif.C75_none"
   ],
   "note": ""
  },
  {
   "property": "C76",
   "status": "proved",
   "theorems": [
    "Verif.C76_group_by_key",
    "Verif.C76_group_by_keys",
    "Verif.C76_group_by_keys_same",
    "Verif.C76_group_by_keys_merged"
   ],
   "note": ""
  },
  {
   "property": "C77",
   "status": "proved",
   "theorems": [
    "Verif.C77_set_attributes",
    "Verif.C77_set_attributes_iff",
    "Verif.C77_set_attributes_missing",
    "Verif.C77_set_attributes_not_atomic"
   ],
   "note": ""
  },
  {
   "property": "C78",
   "status": "proved",
   "theorems": [
    "Verif.C78_split_params",
    "Verif.C78_split_params_no_dash",
    "Verif.C78_split_params_numbers",
    "Verif.C78_split_modifiers",
    "Verif.C78_split_modifiers_all",
    "Verif.C78_split_modifiers_name",
    "Verif.C78_remove_modifiers",
    "Verif.C78_add_remove_modifiers",
    "Verif.C78_add_modifiers_substring"
   ],
   "note": ""
  },
  {
   "property": "C79",
   "status": "proved",
   "theorems": [
    "Verif.C79_all_approx",
    "Verif.C79_approx",
    "Verif.C79_approx_differ",
    "Verif.C79_dicts_exact_match",
    "Verif.C79_dicts_exact_match_asymmetric"
   ],
   "note": ""
  },
  {
   "property": "C80",
   "status": "proved",
   "theorems": [
    "Verif.C80_update_seq",
    "Verif.C80_update_seq_total",
    "Verif.C80_log_predict_seq",
    "Verif.C80_CTW_log_predict_seq",
    "Verif.C80_CTW_log_predict_seq_total",
    "Verif.C80_log_predict_seq_not_joint"
   ],
   "note": ""
  },
  {
   "property": "C81",
   "status": "partial",
   "theorems": [
    "Verif.C81_nodes",
    "Verif.C81_size",
    "Verif.C81_size_bounds",
    "Verif.C81_python_size_partial",
    "Verif.C81_python_size_copy",
    "Verif.C81_python_size_copied",
    "Verif.C81_python_size_wrong"
   ],
   "note": "Proved for modelfast.CTW_KT, and for model.CTW in sessions without copy. False for model.CTW after copy(): the nodes that the copy creates are counted for the original (C81_python_size_copy, C81_python_size_wrong)."
  },
  {
   "property": "C82",
   "status": "proved",
   "theorems": [
    "Verif.C82_ctw_SAD_eq_model_SAD"
   ],
   "note": ""
  },
  {
   "property": "C83",
   "status": "proved",
   "theorems": [
    "Verif.C83_use_history"
   ],
   "note": ""
  },
  {
   "property": "C84",
   "status": "partial",
   "theorems": [
    "Verif.C84_dir_string_roundtrip_partial",
    "Verif.C84_dir_string_injective_partial",
    "Verif.C84_keyword_struct",
    "Verif.C84_positional_keywords",
    "Verif.C84_positional_underscore",
    "Verif.C84_positional_values",
    "Verif.C84_unset_positional",
    "Verif.C84_last_component",
    "Verif.C84_collision",
    "Verif.C84_no_fields",
    "Verif.C84_required",
    "Verif.C84_nested",
    "Verif.C84_parent",
    "Verif.C84_evaluated",
    "Verif.C84_evaluated_once",
    "Verif.C84_transient"
   ],
   "note": "Holds under FldsGood and ClassGood (Spec/Structures.lean). False in the unchanged code outside: keyword Structs leave their name in base_dir (PTWModel, FMNModel), structures whose keyword parameters are all positional cannot be read (CoinEnv), and separators in values, see the C84_ witnesses."
  },
  {
   "property": "C85",
   "status": "partial",
   "theorems": [
    "Verif.C85_compress",
    "Verif.C85_recoverable_partial",
    "Verif.C85_uncompress_raises",
    "Verif.C85_context_models_raise",
    "Verif.C85_common_history_raises",
    "Verif.C85_empty_file",
    "Verif.C85_large_file",
    "Verif.C85_same_file",
    "Verif.C85_exception"
   ],
   "note": "False in the unchanged code: uncompress always raises (C85_uncompress_raises); CTW (the default), FastCTW, CTW_KT and CTW_PTW raise TypeError and four further models raise AttributeError; compressing a file onto itself loses it (C85_same_file). Proved: for KT, PTW and FMN the compressed file determines the original."
  },
  {
   "property": "C86",
   "status": "proved",
   "theorems": [
    "Verif.C86_bytes",
    "Verif.C86_fractions",
    "Verif.C86_bar"
   ],
   "note": "Fractions are exact reals."
  },
  {
   "property": "C87",
   "status": "proved",
   "theorems": [
    "Verif.C87_hallway",
    "Verif.C87_room",
    "Verif.C87_room_wall",
    "Verif.C87_switcher",
    "Verif.C87_switcher_total",
    "Verif.C87_switcher_empty",
    "Verif.C87_never_switch"
   ],
   "note": "Random numbers are arbitrary streams; modes are objects of the two classes of the file."
  },
  {
   "property": "C88",
   "status": "partial",
   "theorems": [
    "Verif.C88_jobs",
    "Verif.C88_run",
    "Verif.C88_own_script_partial",
    "Verif.C88_overwritten",
    "Verif.C88_params",
    "Verif.C88_params_hyphen",
    "Verif.C88_params_raises",
    "Verif.C88_run_now",
    "Verif.C88_queue_name"
   ],
   "note": "False in the unchanged code: jobs that differ only in base directory or platform share a script name; if they are not submitted (debug) or the submissions fail, the later overwrites the earlier (C88_overwritten). A hyphen in a protocol shifts the parameters read back (C88_params_hyphen). Proved under distinct names."
  },
  {
   "property": "C89",
   "status": "proved",
   "theorems": [
    "Verif.C89_stats",
    "Verif.C89_flaked",
    "Verif.C89_killed",
    "Verif.C89_empty_log",
    "Verif.C89_zlog",
    "Verif.C89_ratio_lost",
    "Verif.C89_entry",
    "Verif.C89_all_logs",
    "Verif.C89_all_logs_raise",
    "Verif.C89_dotted"
   ],
   "note": "Values are strings; the table is the dictionary from which the data frame is made."
  },
  {
   "property": "C90",
   "status": "proved",
   "theorems": [
    "Verif.C90_write",
    "Verif.C90_safe",
    "Verif.C90_safe_frame",
    "Verif.C90_closed",
    "Verif.C90_no_directory",
    "Verif.C90_write_log",
    "Verif.C90_read",
    "Verif.C90_round_trip",
    "Verif.C90_lost_row",
    "Verif.C90_check_headers",
    "Verif.C90_only_comments"
   ],
   "note": "Files are texts in a map; the number of labels that pandas checks is not modelled."
  },
  {
   "property": "C91",
   "status": "proved",
   "theorems": [
    "Verif.C91_headers",
    "Verif.C91_no_subset",
    "Verif.C91_array",
    "Verif.C91_number_raises",
    "Verif.C91_complete_exists",
    "Verif.C91_complete_headers",
    "Verif.C91_complete_none",
    "Verif.C91_complete_lines",
    "Verif.C91_filepaths"
   ],
   "note": "The columns which pandas finds are an arbitrary function of the file; os.walk is a list of directories with files."
  },
  {
   "property": "C92",
   "status": "proved",
   "theorems": [
    "Verif.C92_table",
    "Verif.C92_array",
    "Verif.C92_default",
    "Verif.C92_white_space",
    "Verif.C92_save",
    "Verif.C92_round_trip",
    "Verif.C92_round_trip_table",
    "Verif.C92_num_lines",
    "Verif.C92_no_file",
    "Verif.C92_empty_file",
    "Verif.C92_blank_line",
    "Verif.C92_snippets",
    "Verif.C92_save_nothing",
    "Verif.C92_save_empty_note",
    "Verif.C92_same_header",
    "Verif.C92_twice",
    "Verif.C92_comments_column"
   ],
   "note": "float() and the conversion by numpy are one arbitrary partial function; zipped files are not modelled."
  },
  {
   "property": "C93",
   "status": "proved",
   "theorems": [
    "Verif.C93_KT_redundancy",
    "Verif.C93_KT_redundancy_loss",
    "Verif.C93_CTW_redundancy",
    "Verif.C93_PTWFixedLength_redundancy",
    "Verif.C93_PTW_redundancy",
    "Verif.C93_FMN_redundancy"
   ],
   "note": "Exact real arithmetic; unit weights."
  },
  {
   "property": "C94",
   "status": "proved",
   "theorems": [
    "Verif.C94_items_round_trip",
    "Verif.C94_items_sorted",
    "Verif.C94_items_same",
    "Verif.C94_items_sign",
    "Verif.C94_items_empty",
    "Verif.C94_params_to_args",
    "Verif.C94_params_to_arg_string",
    "Verif.C94_shorten_keys",
    "Verif.C94_join_params"
   ],
   "note": "float() is an arbitrary partial function; str() of a value is part of the value."
  },
  {
   "property": "C95",
   "status": "partial",
   "theorems": [
    "Verif.C95_make_dirs_partial",
    "Verif.C95_make_dirs_obstructed",
    "Verif.C95_make_dirs_claims_missing",
    "Verif.C95_make_dirs_relative",
    "Verif.C95_get_all_dirs",
    "Verif.C95_get_all_dirs_base",
    "Verif.C95_get_all_dirs_self",
    "Verif.C95_get_all_subdirs"
   ],
   "note": "False in the unchanged code: make_dirs gives a path that is not there if two directories are missing below an obstacle, and recurs without end if more are (C95_make_dirs_obstructed, C95_make_dirs_claims_missing); relative paths with several missing directories are never made (C95_make_dirs_relative). Proved for absolute paths without obstacle."
  },
  {
   "property": "C96",
   "status": "partial",
   "theorems": [
    "Verif.C96_zip_unzip",
    "Verif.C96_zip_crash",
    "Verif.C96_unzip_crash_partial",
    "Verif.C96_unzip_crash_taken",
    "Verif.C96_unzip_not_zipped",
    "Verif.C96_file_exists",
    "Verif.C96_file_exists_zip",
    "Verif.C96_file_exists_missing",
    "Verif.C96_file_exists_make_dir"
   ],
   "note": "False in the unchanged code: what a crash leaves while unzipping is then taken for the file (C96_unzip_crash_taken). Proved: zipped file or complete text is always there."
  },
  {
   "property": "C97",
   "status": "partial",
   "theorems": [
    "Verif.C97_match_sets",
    "Verif.C97_match_items",
    "Verif.C97_best_file_match_partial",
    "Verif.C97_best_file_own",
    "Verif.C97_best_file_list",
    "Verif.C97_split_ext",
    "Verif.C97_text_files",
    "Verif.C97_dir_params",
    "Verif.C97_validate_keys",
    "Verif.C97_validate_set",
    "Verif.C97_validate_values_partial",
    "Verif.C97_validate_part",
    "Verif.C97_check_param_matches",
    "Verif.C97_check_param_missing"
   ],
   "note": "False in the unchanged code: get_best_file_match raises for a list of features (C97_best_file_list), and validate_params accepts every part of a required string (C97_validate_part). Proved for one feature, and with that exception."
  },
  {
   "property": "C98",
   "status": "proved",
   "theorems": [
    "Verif.C98_skip_comments",
    "Verif.C98_header_indices",
    "Verif.C98_formatted_data",
    "Verif.C98_formatted_kinds",
    "Verif.C98_formatted_blanks",
    "Verif.C98_bin_data",
    "Verif.C98_bin_data_length",
    "Verif.C98_scale_val",
    "Verif.C98_alpha_init"
   ],
   "note": "int() and float() are arbitrary partial functions; np.linspace is exact."
  },
  {
   "property": "C99",
   "status": "proved",
   "theorems": [
    "Verif.C99_exact",
    "Verif.C99_logsumexp2",
    "Verif.C99_predict_is_update",
    "Verif.C99_kt_sequence"
   ],
   "note": "Overflow, infinities and NaN are outside; exp may underflow to 0."
  },
  {
   "property": "C100",
   "status": "proved",
   "theorems": [
    "Verif.C100_ctw_sum",
    "Verif.C100_ctw_predict"
   ],
   "note": "For weight 1 and the default base model KTBinary; overflow, infinities and NaN are outside."
  },
  {
   "property": "C101",
   "status": "proved",
   "theorems": [
    "Verif.C101_one_rounding_error",
    "Verif.C101_same_splits",
    "Verif.C101_split_stable"
   ],
   "note": "The code violates the round trip for rounded probabilities: C101_one_rounding_error is the witness, C101_same_splits what remains true."
  },
  {
   "property": "C102",
   "status": "proved",
   "theorems": [
    "Verif.C102_clean_raises",
    "Verif.C102_clean_characters",
    "Verif.C102_clean_idempotent",
    "Verif.C102_clean_list",
    "Verif.C102_clean_order",
    "Verif.C102_clean_dict",
    "Verif.C102_clean_ambiguous",
    "Verif.C102_format_param_raises",
    "Verif.C102_format_param_equals",
    "Verif.C102_format_param_arg",
    "Verif.C102_format_join"
   ],
   "note": "str and repr are arbitrary functions; keys are strings."
  },
  {
   "property": "C103",
   "status": "proved",
   "theorems": [
    "Verif.C103_listify_elements",
    "Verif.C103_listify_generator",
    "Verif.C103_listify_copy"
   ],
   "note": "The code violates it for generators: C103_listify_generator."
  },
  {
   "property": "C104",
   "status": "partial",
   "theorems": [
    "Verif.C104_filter_names",
    "Verif.C104_block",
    "Verif.C104_no_filter",
    "Verif.C104_own_ranges_partial",
    "Verif.C104_wrong_range",
    "Verif.C104_scaled_end",
    "Verif.C104_unitvect",
    "Verif.C104_unitvect_kind",
    "Verif.C104_check_headers"
   ],
   "note": "The full claim OwnRanges is false in the code: C104_wrong_range. C104_block says what the code does in every case, C104_own_ranges_partial when it is right. pd.rolling_mean is an arbitrary function."
  },
  {
   "property": "C105",
   "status": "proved",
   "theorems": [
    "Verif.C105_types",
    "Verif.C105_copy",
    "Verif.C105_missing",
    "Verif.C105_own_keyword",
    "Verif.C105_nested_keywords",
    "Verif.C105_boolean_string",
    "Verif.C105_integer_boolean",
    "Verif.C105_dict_keys",
    "Verif.C105_keyed_list",
    "Verif.C105_list_string",
    "Verif.C105_missing_list",
    "Verif.C105_nested_no_keywords"
   ],
   "note": "Type constructors, equality and string parsing are arbitrary functions; the flaws are C105_missing (second part), C105_boolean_string, C105_missing_list, C105_nested_no_keywords."
  },
  {
   "property": "C106",
   "status": "partial",
   "theorems": [
    "Verif.C106_no_overwrite",
    "Verif.C106_save_data",
    "Verif.C106_argument_ignored",
    "Verif.C106_data_lost",
    "Verif.C106_load_raises",
    "Verif.C106_load_kept",
    "Verif.C106_data_roundtrip_partial",
    "Verif.C106_load_wrong_path",
    "Verif.C106_model_roundtrip",
    "Verif.C106_no_path",
    "Verif.C106_exception_replaced",
    "Verif.C106_saved_where",
    "Verif.C106_log_exists"
   ],
   "note": "The full claim is RoundTrip; it is false for a directory string that is not empty (C106_load_wrong_path), and without base_dir (C106_load_raises). Other flaws: C106_argument_ignored, C106_data_lost, C106_exception_replaced."
  },
  {
   "property": "C107",
   "status": "partial",
   "theorems": [
    "Verif.C107_matches",
    "Verif.C107_monotone",
    "Verif.C107_parameter",
    "Verif.C107_transient",
    "Verif.C107_string_form",
    "Verif.C107_complement_partial",
    "Verif.C107_drop_keyword",
    "Verif.C107_drop_value",
    "Verif.C107_none",
    "Verif.C107_none_string"
   ],
   "note": "The full claim is Complement; it is false with a keyword (C107_drop_keyword) and for values that are not strings (C107_drop_value)."
  },
  {
   "property": "C108",
   "status": "partial",
   "theorems": [
    "Verif.C108_roundtrip_partial",
    "Verif.C108_space",
    "Verif.C108_missing",
    "Verif.C108_untyped",
    "Verif.C108_boolean_values",
    "Verif.C108_hyphen",
    "Verif.C108_required_default",
    "Verif.C108_exclusive",
    "Verif.C108_bad_integer"
   ],
   "note": "The full claim is CommandLine.RoundTrip; it is false for spaces (C108_space), hyphens (C108_hyphen), missing attributes (C108_missing) and untyped values (C108_untyped)."
  },
  {
   "property": "C109",
   "status": "proved",
   "theorems": [
    "Verif.C109_exact",
    "Verif.C109_fixed_sum",
    "Verif.C109_ptw_sum"
   ],
   "note": "The bounds need a condition like 500*eps*T*(H+2) <= 1 and are not sharp. log_predict is not covered: it differs from update at complete trees anyway (C27), and it computes the adjustment in another order."
  },
  {
   "property": "C110",
   "status": "proved",
   "theorems": [
    "Verif.C110_code_length",
    "Verif.C110_code_length_wide",
    "Verif.C110_ctw_KT",
    "Verif.C110_ctw_CTW",
    "Verif.C110_loss_grows"
   ],
   "note": "The general bound loses up to one bit per symbol. C110_loss_grows shows that a linear loss does occur (one sixth of a bit per symbol), because _3_4 is one half and narrow intervals around the middle are never widened."
  },
  {
   "property": "C111",
   "status": "proved",
   "theorems": [
    "Verif.C111_directories",
    "Verif.C111_own_directory",
    "Verif.C111_inherited",
    "Verif.C111_failure",
    "Verif.C111_exit",
    "Verif.C111_exit_stops",
    "Verif.C111_run_failure",
    "Verif.C111_run",
    "Verif.C111_enter_hidden",
    "Verif.C111_own_directory_needed"
   ],
   "note": "C111_enter_hidden: an AttributeError inside the __enter__ of a part is hidden and the part counts as entered. C111_own_directory_needed: with a parameter of its own an experiment does not end in its own log path."
  },
  {
   "property": "C112",
   "status": "proved",
   "theorems": [
    "Verif.C112_tower_normalised",
    "Verif.C112_tower_sum",
    "Verif.C112_tower_sequence",
    "Verif.C112_tower_bounded"
   ],
   "note": "The bound stays quadratic for every nesting because the errors that a base model keeps in its remembered sum are not counted again by the model over it."
  },
  {
   "property": "C113",
   "status": "proved",
   "theorems": [
    "Verif.C113_double",
    "Verif.C113_nearest_even",
    "Verif.C113_kt_counts",
    "Verif.C113_code_length",
    "Verif.C113_tower_code_length"
   ],
   "note": "The decoder is not part of the claim: with rounded arithmetic it need not recover the message (C101)."
  },
  {
   "property": "C114",
   "status": "partial",
   "theorems": [
    "Verif.C114_min_height",
    "Verif.C114_height_partial",
    "Verif.C114_height_wrong",
    "Verif.C114_extra_level",
    "Verif.C114_mscb"
   ],
   "note": "C114_height_partial excludes the three lengths for which C114_height_wrong proves the opposite. Logarithms are taken to be correctly rounded."
  },
  {
   "property": "C115",
   "status": "partial",
   "theorems": [
    "Verif.C115_partitions",
    "Verif.C115_posterior_total",
    "Verif.C115_map_partial",
    "Verif.C115_decisive",
    "Verif.C115_fixed_map_partial",
    "Verif.C115_ctw_map_partial",
    "Verif.C115_ctw_decisive",
    "Verif.C115_not_map",
    "Verif.C115_exact",
    "Verif.C115_complete_partial"
   ],
   "note": "C115_map_partial bounds the loss by 2^levels, C115_complete_partial by 2 when the tree is full; C115_exact says what is maximised; C115_not_map is the counterexample. The posterior is over the segment of the last symbol; a new segment that may start with the next symbol is not considered, as in the code."
  },
  {
   "property": "C116",
   "status": "proved",
   "theorems": [
    "Verif.C116_exact",
    "Verif.C116_logsumexp",
    "Verif.C116_average_sum"
   ],
   "note": "The components are updated in rounded arithmetic as well; for log_predict see C127."
  },
  {
   "property": "C117",
   "status": "proved",
   "theorems": [
    "Verif.C117_exact",
    "Verif.C117_fmn_sum",
    "Verif.C117_near_exact",
    "Verif.C117_decisive",
    "Verif.C117_first_period"
   ],
   "note": "Near ties cannot be excluded in general: rounding may store another model, so the comparison is with an exact run that stores a nearly best model (FMN.NearRun); C117_decisive gives the exact run itself if there are no near ties, and C117_first_period is a case without hypotheses on ties."
  },
  {
   "property": "C118",
   "status": "proved",
   "theorems": [
    "Verif.C118_code_length",
    "Verif.C118_ctw_KT",
    "Verif.C118_ctw_CTW",
    "Verif.C118_file_KT",
    "Verif.C118_file_PTW",
    "Verif.C118_file_FMN"
   ],
   "note": "That the loss is not bounded by a constant is C110_loss_grows. Arithmetic is exact; C113 has the bounds for rounded arithmetic."
  },
  {
   "property": "C119",
   "status": "proved",
   "theorems": [
    "Verif.C119_FMN_fresh",
    "Verif.C119_FMN_redundancy"
   ],
   "note": "Follows from C46 with the model that C35 keeps in the store."
  },
  {
   "property": "C120",
   "status": "partial",
   "theorems": [
    "Verif.C120_record",
    "Verif.C120_reconstruct",
    "Verif.C120_flat",
    "Verif.C120_flat_strings",
    "Verif.C120_flat_complete_partial",
    "Verif.C120_flat_nested",
    "Verif.C120_flat_shadow",
    "Verif.C120_matches_param",
    "Verif.C120_matches_nested"
   ],
   "note": "False for get_flat_record of nested structures: it looks up the nested parameters in the outer instance, which raises AttributeError (C120_flat_nested) or gives the value of another parameter (C120_flat_shadow). C120_flat says what it gives always, C120_flat_complete_partial proves the claim for classes without nested structures."
  },
  {
   "property": "C121",
   "status": "partial",
   "theorems": [
    "Verif.C121_models",
    "Verif.C121_estimators",
    "Verif.C121_KT",
    "Verif.C121_Averager",
    "Verif.C121_Averager_failed",
    "Verif.C121_CTW_failed",
    "Verif.C121_PTW_failed",
    "Verif.C121_PTW_factory_failed",
    "Verif.C121_FMN_failed",
    "Verif.C121_CTW",
    "Verif.C121_PTW_partial",
    "Verif.C121_PTWFixedLength_partial",
    "Verif.C121_FMN_partial",
    "Verif.C121_update_seq",
    "Verif.C121_Averager_mixed",
    "Verif.C121_CTW_context",
    "Verif.C121_CTW_context_deep",
    "Verif.C121_PTW_log_predict",
    "Verif.C121_update_seq_history"
   ],
   "note": "False for log_predict of PTW (and what is built on it) after a failed update at the end of a complete partition (C121_PTW_log_predict), for mixtures whose components know different symbols (C121_Averager_mixed) and for CTW with contexts that are no indices (C121_CTW_context); update_seq that raises leaves the caller's history longer (C121_update_seq). The _partial theorems prove for PTW, PTWFixedLength and FMN that later updates are not affected; for KT, Averager with equal alphabets and CTW nothing at all is changed."
  },
  {
   "property": "C122",
   "status": "proved",
   "theorems": [
    "Verif.C122_SAD_redundancy",
    "Verif.C122_SAD_loss",
    "Verif.C122_CTW",
    "Verif.C122_PTW",
    "Verif.C122_ctw_SAD"
   ],
   "note": "The product form with the frequencies of the symbols is C122_SAD_redundancy; C122_SAD_loss is the bound in nats."
  },
  {
   "property": "C123",
   "status": "partial",
   "theorems": [
    "Verif.C123_keeps",
    "Verif.C123_reformat_partial",
    "Verif.C123_twice",
    "Verif.C123_stopped",
    "Verif.C123_conversion_fails"
   ],
   "note": "All but the last sentence is proved for every input. The last sentence is false in the code: a run that is stopped (C123_stopped) or that raises (C123_conversion_fails) leaves an incomplete file, which the next run takes as done and keeps while it ends normally."
  },
  {
   "property": "C124",
   "status": "proved",
   "theorems": [
    "Verif.C124_KT",
    "Verif.C124_SAD",
    "Verif.C124_predict",
    "Verif.C124_exact",
    "Verif.C124_double"
   ],
   "note": "Weights are 1. C124_exact: with exact arithmetic the rounded models are the exact ones; C124_double: doubles count exactly."
  },
  {
   "property": "C125",
   "status": "proved",
   "theorems": [
    "Verif.C125_KTBinary",
    "Verif.C125_KT",
    "Verif.C125_SAD",
    "Verif.C125_exact",
    "Verif.C125_previews",
    "Verif.C125_CTW_previews",
    "Verif.C125_PTW_previews_in_block",
    "Verif.C125_PTWFixedLength_previews_in_block"
   ],
   "note": "C125_exact: with exact arithmetic the predictions are those of the exact models. At the excepted block ends update and log_predict differ already in exact arithmetic (C27)."
  },
  {
   "property": "C126",
   "status": "proved",
   "theorems": [
    "Verif.C126_code_length",
    "Verif.C126_tower",
    "Verif.C126_KT",
    "Verif.C126_PTW"
   ],
   "note": "C113 allows a bit for every symbol of the message; this does not."
  },
  {
   "property": "C127",
   "status": "proved",
   "theorems": [
    "Verif.C127_KTBinary",
    "Verif.C127_KT",
    "Verif.C127_SAD",
    "Verif.C127_decisive",
    "Verif.C127_exact",
    "Verif.C127_near_exact",
    "Verif.C127_Averager_previews",
    "Verif.C127_FMN_previews_in_block"
   ],
   "note": "Weights 1. The comparison is with FMN.NearCalls, exact runs that store a nearly best model: rounding may decide near ties (C127_decisive: without them it is the exact run; C127_near_exact: the exact run is one of them). SAD needs an arithmetic that counts exactly, as doubles do below 2^53. The digit-for-digit theorem excepts the ends of periods, where update and log_predict of PTW differ already in exact arithmetic (C27)."
  },
  {
   "property": "C128",
   "status": "proved",
   "theorems": [
    "Verif.C128_cells",
    "Verif.C128_round_trip",
    "Verif.C128_unreadable",
    "Verif.C128_missing",
    "Verif.C128_generator",
    "Verif.C128_string",
    "Verif.C128_spaces",
    "Verif.C128_boundaries"
   ],
   "note": "Texts of numbers, commas, brackets and spaces; the reader of numbers is arbitrary. np.array is not modelled. The shift of rows is shown by C128_boundaries."
  },
  {
   "property": "C129",
   "status": "proved",
   "theorems": [
    "Verif.C129_PTW_models",
    "Verif.C129_PTW_count",
    "Verif.C129_PTW_work",
    "Verif.C129_FMN_LogStore",
    "Verif.C129_FMN_LogStoreUniform"
   ],
   "note": "Counts base models, not the size of a base model (for CTW see C81). Sharpens C29."
  },
  {
   "property": "C130",
   "status": "proved",
   "theorems": [
    "Verif.C130_closed_form",
    "Verif.C130_regret",
    "Verif.C130_normalised",
    "Verif.C130_crossing",
    "Verif.C130_bounds",
    "Verif.C130_defect"
   ],
   "note": "Exact account of what happens beyond the announced length; C130_defect shows a sum of 5/6. Within the length see C24."
  },
  {
   "property": "C131",
   "status": "proved",
   "theorems": [
    "Verif.C131_exact",
    "Verif.C131_CTW_KT_eq_CTW",
    "Verif.C131_C_eq_python",
    "Verif.C131_double",
    "Verif.C131_all_three",
    "Verif.C131_error",
    "Verif.C131_error_alphabet"
   ],
   "note": "The C program is taken to compute each operation separately in double precision, with the log and exp of Python; a compiler that joins operations or keeps more digits is not modelled. Depth 0: see C22. Larger alphabets: model.KT keeps a running total while the C code adds the counts anew, so the digits may differ."
  },
  {
   "property": "C132",
   "status": "partial",
   "theorems": [
    "Verif.C132_end",
    "Verif.C132_other_files",
    "Verif.C132_beginning",
    "Verif.C132_again",
    "Verif.C132_same_file_lost",
    "Verif.C132_cut_partial",
    "Verif.C132_taken_for_another"
   ],
   "note": "The last sentence is false: with the model KT a run on the single byte 48 stopped before its last byte leaves the complete compressed file of the single byte 208 (C132_taken_for_another); what holds is that a cut file can only be taken for other data of the same length. If INFILE and OUTFILE are the same the content is lost as soon as the file is opened (C132_same_file_lost)."
  },
  {
   "property": "C133",
   "status": "partial",
   "theorems": [
    "Verif.C133_ends",
    "Verif.C133_KTBinary_atomic",
    "Verif.C133_compose",
    "Verif.C133_at_most_one_partial",
    "Verif.C133_Averager_recovers_partial",
    "Verif.C133_CTW_recovers_partial",
    "Verif.C133_CTW_less",
    "Verif.C133_KT_for_ever",
    "Verif.C133_SAD_symbol_lost",
    "Verif.C133_unshared",
    "Verif.C133_copy_changes",
    "Verif.C133_PTW_ends",
    "Verif.C133_PTW_twice",
    "Verif.C133_PTW_more",
    "Verif.C133_PTWFixedLength_more"
   ],
   "note": "True of KTBinary only. KT interrupted between its two assignments assigns probabilities with a sum above one for ever (C133_KT_for_ever); SAD interrupted in the first update with a symbol raises for that symbol for ever (C133_SAD_symbol_lost); a context tree loses a part of the probability (C133_CTW_less); PTW records an adjustment twice and PTWFixedLength a wrong total, and the probabilities of the next update sum to more than one (C133_PTW_more, C133_PTWFixedLength_more). What holds for mixtures and context trees over KTBinary is that the sum stays at most one and that one complete update makes it one again, for context trees in the same context. Other models are not affected by an interrupted one they share no node with (C133_unshared), but an interrupted update of a copy may lead later updates of the copy to change the original (C133_copy_changes). Interruptions are between assignments; those inside of a C function are not modelled."
  },
  {
   "property": "C134",
   "status": "partial",
   "theorems": [
    "Verif.C134_unshared_partial",
    "Verif.C134_own_models_partial",
    "Verif.C134_update_race",
    "Verif.C134_copy_race"
   ],
   "note": "True of models that share no node: whatever the schedule, each thread gets what it gets alone (C134_unshared_partial), which for models that it created or copied itself is what separate trees return (C134_own_models_partial). False of a model and its copy: two updates at once can mix the observations (C134_update_race), and two copies at once can lose a reference, so that later an update of a copy changes the original (C134_copy_race). Steps read or write one field of one node; the base model of a node is read and written whole. For model.py's CTW; the C functions behind modelfast run without the interpreter's lock, so the same races apply there."
  },
  {
   "property": "C135",
   "status": "partial",
   "theorems": [
    "Verif.C135_KT",
    "Verif.C135_binary_partial",
    "Verif.C135_negative",
    "Verif.C135_history",
    "Verif.C135_history_half_updated",
    "Verif.C135_negative_accepted",
    "Verif.C135_fast_partial",
    "Verif.C135_fast_poisoned"
   ],
   "note": "Proved for KT (C135_KT); SAD raises once it has met all of its symbols (C05). For KTBinary and context trees over it only the symbols other than -2, -1, 0, 1 are refused (C135_binary_partial); -1 and -2 are taken for 1 and 0, also in histories, and no sequence of calls can tell the difference (C135_negative, C135_negative_accepted). Other integers among the last depth symbols of a history make a context tree raise (C135_history), after the root has counted the symbol (C135_history_half_updated). modelfast.CTW_KT does not compare symbols with the size of the alphabet: an update with the first symbol beyond it raises nothing, and every later result is NaN (C135_fast_poisoned); with proper symbols all results are numbers (C135_fast_partial). The last two use a model of double with infinities and NaN and exact finite arithmetic, and assume that the fields of the C structure lie next to each other, which the C standard does not promise. Symbols further out, which address pointers, are not described."
  },
  {
   "property": "C136",
   "status": "partial",
   "theorems": [
    "Verif.C136_KT_partial",
    "Verif.C136_take_back",
    "Verif.C136_positive",
    "Verif.C136_predictable",
    "Verif.C136_above_one",
    "Verif.C136_SAD_partial",
    "Verif.C136_SAD_zero",
    "Verif.C136_mixtures"
   ],
   "note": "Proved for KT and KTBinary with any weights (C136_KT_partial, C136_take_back). No update raises and the predictions sum to one as long as all counts stay positive (C136_positive); all symbols can be predicted exactly if all counts are positive or all are negative (C136_predictable); in between a prediction can be a probability above one (C136_above_one). SAD: true of lists about the same symbols (C136_SAD_partial), but if the first update with a symbol has weight zero then the symbol can neither be predicted nor learned any more (C136_SAD_zero). False for Averager and CTW, where an update with weight zero still moves the weights of the components (C136_mixtures); Factored ignores weights (C12)."
  },
  {
   "property": "C137",
   "status": "partial",
   "theorems": [
    "Verif.C137_KT",
    "Verif.C137_KTBinary",
    "Verif.C137_SAD_partial",
    "Verif.C137_SAD_new",
    "Verif.C137_Averager",
    "Verif.C137_Factored",
    "Verif.C137_CTW",
    "Verif.C137_CTW_base",
    "Verif.C137_PTW_partial",
    "Verif.C137_PTWFixedLength_partial",
    "Verif.C137_FMN_partial",
    "Verif.C137_PTW_falls"
   ],
   "note": "Proved for KT and KTBinary, and for Averager, Factored and CTW over any model with the property, in all states reached by updates. Proved for PTW, PTWFixedLength and FMN when both observations are in the same block of minimum length. False for PTW at the end of such a block: over KTBinary with the default minimum length, a fourth zero has probability 19/24 and then a fifth 347/470 (C137_PTW_falls). False for SAD when the symbol is new (C137_SAD_new), proved otherwise (C137_SAD_partial)."
  },
  {
   "property": "C138",
   "status": "partial",
   "theorems": [
    "Verif.C138_outputs",
    "Verif.C138_seqProb",
    "Verif.C138_KT",
    "Verif.C138_KTBinary",
    "Verif.C138_SAD",
    "Verif.C138_Averager",
    "Verif.C138_Factored",
    "Verif.C138_CTW_partial",
    "Verif.C138_CTW_padding",
    "Verif.C138_PTW",
    "Verif.C138_PTWFixedLength",
    "Verif.C138_FMN",
    "Verif.C138_CTW_zero"
   ],
   "note": "Proved for KT, KTBinary (bits exchanged) and SAD, and for Averager, Factored, PTW, PTWFixedLength and FMN (both stores) over any models with the property. For CTW if the context function follows the renaming (C138_CTW_partial), in particular if the padding symbol is renamed too (C138_CTW_padding). False for the default context function, which pads short histories with zeros: with the bits exchanged, a context tree of depth one gives 3/16 instead of 1/8 (C138_CTW_zero)."
  },
  {
   "property": "C139",
   "status": "proved",
   "theorems": [
    "Verif.C139_KTBinary",
    "Verif.C139_CTW_KT",
    "Verif.C139_exchange",
    "Verif.C139_FMN"
   ],
   "note": "KT((0,1)) and KTBinary, and CTW_KT and CTW with default arguments, are alike in the sense of C138, copies included (C139_KTBinary, C139_CTW_KT). C139_exchange replaces any model by an alike one inside of every other class; C139_FMN is an instance two levels deep."
  },
  {
   "property": "C140",
   "status": "proved",
   "theorems": [
    "Verif.C140_estimators",
    "Verif.C140_Averager",
    "Verif.C140_Factored",
    "Verif.C140_copies",
    "Verif.C140_CTW",
    "Verif.C140_CTW_KTBinary",
    "Verif.C140_CTW_predict",
    "Verif.C140_CTW_KT",
    "Verif.C140_CTW_zero",
    "Verif.C140_PTW",
    "Verif.C140_PTW_enough",
    "Verif.C140_PTW_predict",
    "Verif.C140_PTWFixedLength",
    "Verif.C140_FMN",
    "Verif.C140_FMN_KTBinary",
    "Verif.C140_limit"
   ],
   "note": "Every method is modelled again with the number of further calls that the limit allows, and a frame for every call of a Python function. Exact numbers for KT, KTBinary, SAD, Averager, Factored, CTW (updates and predictions), CTW_KT, PTW, PTWFixedLength and FMN with both stores. CTW(0) takes the whole history as context, so that it fails with any limit when the history is long enough (C140_CTW_zero). The state that a RecursionError leaves behind is not modelled."
  },
  {
   "property": "C141",
   "status": "proved",
   "theorems": [
    "Verif.C141_count_le_models",
    "Verif.C141_no_wrap",
    "Verif.C141_C_code",
    "Verif.C141_few_models",
    "Verif.C141_wrapped_count_mixes",
    "Verif.C141_wrapped_count_frees"
   ],
   "note": "The heap of C20 and C21 with counts modulo M, for every M. C141_count_le_models: every node stands at one place of the trees, so each model refers to it at most once. C141_no_wrap: equal to unlimited counts while fewer than M models exist. C141_wrapped_count_mixes and C141_wrapped_count_frees: the bound is exact. Failure of malloc is not modelled."
  },
  {
   "property": "C142",
   "status": "proved",
   "theorems": [
    "Verif.C142_KT",
    "Verif.C142_KTBinary",
    "Verif.C142_Averager",
    "Verif.C142_CTW",
    "Verif.C142_PTW",
    "Verif.C142_PTWFixedLength",
    "Verif.C142_FMN",
    "Verif.C142_binary"
   ],
   "note": "For bounds that depend on the number of updates and widen with it. The probabilities that update returns; PTW.log_predict is outside (it overestimates at the ends of blocks, C27). C142_binary: towers over KTBinary."
  },
  {
   "property": "C143",
   "status": "proved",
   "theorems": [
    "Verif.C143_damage",
    "Verif.C143_followed",
    "Verif.C143_zeros",
    "Verif.C143_not_followed",
    "Verif.C143_any_bits"
   ],
   "note": "The beginning needs the interval to be wide enough at each symbol (Roomy), as the round trip does (C42). C143_not_followed is a defect: the codes are not self-delimiting, because the encoder's _3_4 equals its _half (ac.py:77)."
  },
  {
   "property": "C144",
   "status": "proved",
   "theorems": [
    "Verif.C144_count",
    "Verif.C144_fraction",
    "Verif.C144_not_shortened",
    "Verif.C144_count_bytes",
    "Verif.C144_length_needed"
   ],
   "note": "Real-arithmetic probabilities; the coder's integers are exact."
  },
  {
   "property": "C145",
   "status": "proved",
   "theorems": [
    "Verif.C145_distance",
    "Verif.C145_number",
    "Verif.C145_Averager",
    "Verif.C145_KT",
    "Verif.C145_PTW",
    "Verif.C145_FMN",
    "Verif.C145_CTW"
   ],
   "note": "Predictions are the probabilities that update reports. The expectation is the finite sum over all sequences of n symbols; sources are functions from histories to distributions, so that they need not be independent or stationary (C145_distance)."
  },
  {
   "property": "C146",
   "status": "proved",
   "theorems": [
    "Verif.C146_CTW_depth",
    "Verif.C146_CTW_binary",
    "Verif.C146_PTWFixedLength_length",
    "Verif.C146_PTWFixedLength_blocks",
    "Verif.C146_PTW_unknown_length",
    "Verif.C146_Averager_more"
   ],
   "note": "In exact arithmetic. CTW of depth 0 is outside of C146_CTW_binary because of its contexts (C18), and covered by C146_CTW_depth for other context functions."
  },
  {
   "property": "C147",
   "status": "proved",
   "theorems": [
    "Verif.C147_Averager_order"
   ],
   "note": "Values of update; ties in map are broken by the order (C11)."
  },
  {
   "property": "C148",
   "status": "proved",
   "theorems": [
    "Verif.C148_Averager_share",
    "Verif.C148_Averager_best",
    "Verif.C148_CTW_tree",
    "Verif.C148_PTW_partition",
    "Verif.C148_PTWFixedLength_partition"
   ],
   "note": "In exact arithmetic, for what update returns (for log_predict of PTW at the end of blocks see C27)."
  },
  {
   "property": "C149",
   "status": "proved",
   "theorems": [
    "Verif.C149_learners_PTW_depth",
    "Verif.C149_PTWFixedLength_length",
    "Verif.C149_learners_PTW_loss",
    "Verif.C149_learners_PTW_next",
    "Verif.C149_PTWFixedLength_next",
    "Verif.C149_PTW_next",
    "Verif.C149_PTW_first"
   ],
   "note": "In exact arithmetic, for what update returns (C37: log_predict of learners.PTW returns the same)."
  },
  {
   "property": "C150",
   "status": "proved",
   "theorems": [
    "Verif.C150_KT",
    "Verif.C150_KTBinary",
    "Verif.C150_Averager",
    "Verif.C150_CTW",
    "Verif.C150_PTWFixedLength",
    "Verif.C150_PTWFixedLength_order",
    "Verif.C150_SAD_order"
   ],
   "note": "In exact arithmetic; by C03_KT_exchangeable for KT."
  },
  {
   "property": "C151",
   "status": "proved",
   "theorems": [
    "Verif.C151_Averager_one",
    "Verif.C151_Averager_nested",
    "Verif.C151_CTW_one",
    "Verif.C151_PTWFixedLength_one",
    "Verif.C151_PTW_one"
   ],
   "note": "In exact arithmetic."
  },
  {
   "property": "C152",
   "status": "partial",
   "theorems": [
    "Verif.C152_alphabets_partial",
    "Verif.C152_python_partial",
    "Verif.C152_signed_symbol",
    "Verif.C152_signed_context",
    "Verif.C152_not_a_byte",
    "Verif.C152_exactly"
   ],
   "note": "Partial because alphabets of more than 128 (or 256) symbols do not work; C152_exactly says that these are all that do."
  },
  {
   "property": "C153",
   "status": "proved",
   "theorems": [
    "Verif.C153_distribution",
    "Verif.C153_sequences",
    "Verif.C153_predictions",
    "Verif.C153_asking",
    "Verif.C153_copies"
   ],
   "note": "By induction on how the object was put together. Parts that are the same Python object are not described."
  },
  {
   "property": "C154",
   "status": "proved",
   "theorems": [
    "Verif.C154_distinct",
    "Verif.C154_repeated",
    "Verif.C154_first",
    "Verif.C154_exactly",
    "Verif.C154_shared",
    "Verif.C154_factored_one",
    "Verif.C154_factored_copy_distinct",
    "Verif.C154_factored_copy_shared"
   ],
   "note": "Objects are identities and a heap tells their states; the parts of the parts share nothing with each other."
  },
  {
   "property": "C155",
   "status": "proved",
   "theorems": [
    "Verif.C155_KT_one_more",
    "Verif.C155_KT",
    "Verif.C155_Averager",
    "Verif.C155_CTW",
    "Verif.C155_CTW_one_more",
    "Verif.C155_CTW_history",
    "Verif.C155_PTWFixedLength",
    "Verif.C155_KT_reached"
   ],
   "note": "Exact real arithmetic; unit weights."
  },
  {
   "property": "C156",
   "status": "proved",
   "theorems": [
    "Verif.C156_window",
    "Verif.C156_calls",
    "Verif.C156_no_less",
    "Verif.C156_Factored",
    "Verif.C156_Factored_trimmed"
   ],
   "note": "Context trees of depth 0 are not covered; there the code uses the whole history (C18)."
  },
  {
   "property": "C157",
   "status": "proved",
   "theorems": [
    "Verif.C157_no_better",
    "Verif.C157_KTBinary",
    "Verif.C157_worst_case",
    "Verif.C157_worst_case_built",
    "Verif.C157_Averager"
   ],
   "note": "Unit weights. In exact arithmetic."
  },
  {
   "property": "C158",
   "status": "proved",
   "theorems": [
    "Verif.C158_PTWFixedLength",
    "Verif.C158_PTW",
    "Verif.C158_FMN",
    "Verif.C158_Averager",
    "Verif.C158_CTW_competes",
    "Verif.C158_PTW_CTW",
    "Verif.C158_FMN_CTW"
   ],
   "note": "Unit weights for the context tree; changes at multiples of the minimum block length."
  },
  {
   "property": "C159",
   "status": "proved",
   "theorems": [
    "Verif.C159_KT",
    "Verif.C159_predict",
    "Verif.C159_PTW",
    "Verif.C159_ctw",
    "Verif.C159_ctw_sign",
    "Verif.C159_SAD",
    "Verif.C159_from_sequence"
   ],
   "note": "Where the programs are those that do not raise. learners.CTW and learners.Averager keep no separate sum (C67)."
  },
  {
   "property": "C160",
   "status": "proved",
   "theorems": [
    "Verif.C160_few",
    "Verif.C160_PTW",
    "Verif.C160_FMN",
    "Verif.C160_KT",
    "Verif.C160_CTW",
    "Verif.C160_PTW_CTW",
    "Verif.C160_FMN_CTW",
    "Verif.C160_needed"
   ],
   "note": "Unit weights; changes at multiples of the minimum block length. Exact real arithmetic."
  },
  {
   "property": "C161",
   "status": "proved",
   "theorems": [
    "Verif.C161_KT_reveals",
    "Verif.C161_KT_exactly",
    "Verif.C161_KT_one"
   ],
   "note": "Unit weights, default counts."
  },
  {
   "property": "C162",
   "status": "proved",
   "theorems": [
    "Verif.C162_lawful",
    "Verif.C162_updateLawful",
    "Verif.C162_excess",
    "Verif.C162_exactly",
    "Verif.C162_default",
    "Verif.C162_depth"
   ],
   "note": "For general nodes (binary_context=False) and binary ones alike; copying is C23."
  },
  {
   "property": "C163",
   "status": "proved",
   "theorems": [
    "Verif.C163_closed_form",
    "Verif.C163_regret"
   ],
   "note": "The condition on the contexts is the exact one for CTW to be a model (C162); contexts must have a common bound on their lengths in the sequence."
  },
  {
   "property": "C164",
   "status": "proved",
   "theorems": [
    "Verif.C164_KT_counts",
    "Verif.C164_KT_alphabet",
    "Verif.C164_KT_empty",
    "Verif.C164_KTBinary",
    "Verif.C164_SAD",
    "Verif.C164_Averager",
    "Verif.C164_Factored",
    "Verif.C164_height",
    "Verif.C164_PTW",
    "Verif.C164_PTW_calls",
    "Verif.C164_FMN"
   ],
   "note": "Models for updates of weight at least zero. Logarithms are exact: how they round is C114. Context trees are C162."
  },
  {
   "property": "C165",
   "status": "proved",
   "theorems": [
    "Verif.C165_positions",
    "Verif.C165_LogStore_held",
    "Verif.C165_LogStore_ages",
    "Verif.C165_LogStoreUniform_near",
    "Verif.C165_FMN"
   ],
   "note": "learners.LogStore holds the same items (C33)."
  },
  {
   "property": "C166",
   "status": "proved",
   "theorems": [
    "Verif.C166_KT",
    "Verif.C166_worst_case",
    "Verif.C166_worst_case_built",
    "Verif.C166_default",
    "Verif.C166_constant"
   ],
   "note": "Weights are one."
  },
  {
   "property": "C167",
   "status": "proved",
   "theorems": [
    "Verif.C167_ctw_PTW",
    "Verif.C167_learners_PTW",
    "Verif.C167_ctw_FMN",
    "Verif.C167_KT",
    "Verif.C167_ctw_CTW",
    "Verif.C167_ctw_PTW_KT",
    "Verif.C167_learners_PTW_KT",
    "Verif.C167_ctw_FMN_KT"
   ],
   "note": "Weights are one for the bounds about KT."
  },
  {
   "property": "C168",
   "status": "proved",
   "theorems": [
    "Verif.C168_stream",
    "Verif.C168_lag",
    "Verif.C168_silence",
    "Verif.C168_limit",
    "Verif.C168_limit_bytes",
    "Verif.C168_limit_reached"
   ],
   "note": "Probabilities are exact reals, as in C43."
  },
  {
   "property": "C169",
   "status": "proved",
   "theorems": [
    "Verif.C169_estimators",
    "Verif.C169_mixtures",
    "Verif.C169_Factored",
    "Verif.C169_CTW",
    "Verif.C169_CTW_KT",
    "Verif.C169_update_seq",
    "Verif.C169_own_list",
    "Verif.C169_own_list_seq",
    "Verif.C169_own_list_predict"
   ],
   "note": "TakesAs says that with a given value as history an object does exactly what the model over lists does with a given list. What a failed update leaves behind is C121; updateSeq here leaves an object whose own update raises as it was."
  },
  {
   "property": "C170",
   "status": "proved",
   "theorems": [
    "Verif.C170_same_object"
   ],
   "note": "The state of the one base model is threaded through the tree (Model/SameObject.lean). Only updates are treated: log_predict does not change a KTBinary, so its probabilities sum to one."
  },
  {
   "property": "C171",
   "status": "proved",
   "theorems": [
    "Verif.C171_FMN",
    "Verif.C171_prior",
    "Verif.C171_CTW",
    "Verif.C171_PTWFixedLength",
    "Verif.C171_learners_PTW",
    "Verif.C171_CTW_posterior",
    "Verif.C171_PTWFixedLength_posterior",
    "Verif.C171_PTW_posterior",
    "Verif.C171_count"
   ],
   "note": "Prunings and partitions are finite types (Spec/Prunings.lean), so the sums are over all of them. Rests on the closed forms C13, C24, C25 and C36."
  },
  {
   "property": "C172",
   "status": "proved",
   "theorems": [
    "Verif.C172_posterior",
    "Verif.C172_probability",
    "Verif.C172_prediction",
    "Verif.C172_KT",
    "Verif.C172_CTW",
    "Verif.C172_dirichlet",
    "Verif.C172_KT_posterior",
    "Verif.C172_KT_probability"
   ],
   "note": "The beta distribution is Mathlib's betaMeasure; the Dirichlet distribution is defined by breaking a stick (Spec/Dirichlet.lean), as a measure that C172_dirichlet shows to live on the probability distributions over the alphabet. The expectations are Lebesgue integrals."
  },
  {
   "property": "C173",
   "status": "proved",
   "theorems": [
    "Verif.C173_update_seq",
    "Verif.C173_log_predict_seq",
    "Verif.C173_action",
    "Verif.C173_distribution",
    "Verif.C173_copy",
    "Verif.C173_rule",
    "Verif.C173_FMN",
    "Verif.C173_hallway"
   ],
   "note": "Objects of two classes in one Factored are a sum type (Model/Either.lean). The sequence must not be empty, because update_seq with an empty sequence empties the history (C07)."
  },
  {
   "property": "C174",
   "status": "proved",
   "theorems": [
    "Verif.C174_frozen",
    "Verif.C174_no_effect",
    "Verif.C174_parts",
    "Verif.C174_distribution",
    "Verif.C174_PTW",
    "Verif.C174_FMN",
    "Verif.C174_estimators",
    "Verif.C174_learning"
   ],
   "note": "Spec/Frozen.lean has the source that does not learn. The overestimates of PTW and FMN are those of C27."
  },
  {
   "property": "C175",
   "status": "proved",
   "theorems": [
    "Verif.C175_room",
    "Verif.C175_room_CTW",
    "Verif.C175_hallway"
   ],
   "note": "The courses are given explicitly by their random numbers, which lie in [0, 1)."
  },
  {
   "property": "C176",
   "status": "proved",
   "theorems": [
    "Verif.C176_unseen",
    "Verif.C176_martingale",
    "Verif.C176_KT",
    "Verif.C176_CTW_order",
    "Verif.C176_PTW_order"
   ],
   "note": "The last two sentences are proved by the values themselves (C176_CTW_order, C176_PTW_order)."
  },
  {
   "property": "C177",
   "status": "proved",
   "theorems": [
    "Verif.C177_rule",
    "Verif.C177_periodic"
   ],
   "note": "Before the start of the sequence the contexts are filled up with zeros, as in the code."
  },
  {
   "property": "C178",
   "status": "proved",
   "theorems": [
    "Verif.C178_at_least",
    "Verif.C178_too_small"
   ],
   "note": "The best rule is built along the recursion over the depth; the binary estimator gives a zeros and b ones at most 4^-min(a, b)."
  },
  {
   "property": "C179",
   "status": "proved",
   "theorems": [
    "Verif.C179_KTBinary",
    "Verif.C179_PTWFixedLength",
    "Verif.C179_PTW",
    "Verif.C179_learners_PTW",
    "Verif.C179_learners",
    "Verif.C179_learners_KT",
    "Verif.C179_ctw"
   ],
   "note": "The binary estimator gives a zeros and b ones, not both 0, at most half of 4^-min(a, b), and there are at most 2 min(a, b) + 1 runs. For growing trees the ratio of C25 is summed up."
  }
 ]
}