{
 "claims": [
  {
   "property": "C01",
   "status": "proved",
   "theorems": [
    "Padasip.C01_run_total",
    "Padasip.C01_run_total_history"
   ],
   "note": ""
  },
  {
   "property": "C02",
   "status": "proved",
   "theorems": [
    "Padasip.C02_run_is_log",
    "Padasip.C02_output_is_row_times_input"
   ],
   "note": ""
  },
  {
   "property": "C03",
   "status": "proved",
   "theorems": [
    "Padasip.C03_causal"
   ],
   "note": ""
  },
  {
   "property": "C04",
   "status": "proved",
   "theorems": [
    "Padasip.C04_chunks"
   ],
   "note": ""
  },
  {
   "property": "C05",
   "status": "proved",
   "theorems": [
    "Padasip.C05_adapt_loop"
   ],
   "note": ""
  },
  {
   "property": "C06",
   "status": "proved",
   "theorems": [
    "Padasip.C06_predict_pure",
    "Padasip.C06_real_time",
    "Padasip.C06_ocnlms_protocol_differs"
   ],
   "note": ""
  },
  {
   "property": "C07",
   "status": "proved",
   "theorems": [
    "Padasip.C07_plain_series",
    "Padasip.C07_length_mismatch",
    "Padasip.C07_empty"
   ],
   "note": ""
  },
  {
   "property": "C08",
   "status": "proved",
   "theorems": [
    "Padasip.C08_run_wrong_width",
    "Padasip.C08_predict_wrong_size",
    "Padasip.C08_adapt_wrong_size",
    "Padasip.C08_broadcast_ap",
    "Padasip.C08_broadcast_ocnlms"
   ],
   "note": ""
  },
  {
   "property": "C09",
   "status": "proved",
   "theorems": [
    "Padasip.C09_rejected_run_is_invisible",
    "Padasip.C09_benveniste_adapt_raises",
    "Padasip.C09_benveniste_silent_change",
    "Padasip.C09_ocnlms_adapt_raises",
    "Padasip.C09_benveniste_width_one",
    "Padasip.C09_ocnlms_used",
    "Padasip.C09_ocnlms_fresh"
   ],
   "note": ""
  },
  {
   "property": "C10",
   "status": "proved",
   "theorems": [
    "Padasip.C10_rounded",
    "Padasip.C10_pretrained",
    "Padasip.C10_no_training_data",
    "Padasip.C10_no_test_data",
    "Padasip.C10_negative",
    "Padasip.C10_negative_all"
   ],
   "note": ""
  },
  {
   "property": "C11",
   "status": "proved",
   "theorems": [
    "Padasip.C11_size",
    "Padasip.C11_init_weights",
    "Padasip.C11_default_size"
   ],
   "note": ""
  },
  {
   "property": "C12",
   "status": "proved",
   "theorems": [
    "Padasip.C12_rejected_adapt_corrupts_memory",
    "Padasip.C12_memory_after_next_sample",
    "Padasip.C12_weights_differ"
   ],
   "note": ""
  },
  {
   "property": "C13",
   "status": "proved",
   "theorems": [
    "Padasip.C13_lms",
    "Padasip.C13_lmf",
    "Padasip.C13_sslms"
   ],
   "note": ""
  },
  {
   "property": "C14",
   "status": "proved",
   "theorems": [
    "Padasip.C14_nlms",
    "Padasip.C14_nlmf",
    "Padasip.C14_nsslms"
   ],
   "note": ""
  },
  {
   "property": "C15",
   "status": "proved",
   "theorems": [
    "Padasip.C15_gngd",
    "Padasip.C15_fresh"
   ],
   "note": ""
  },
  {
   "property": "C16",
   "status": "proved",
   "theorems": [
    "Padasip.C16_mathews",
    "Padasip.C16_mathews_sum",
    "Padasip.C16_ang",
    "Padasip.C16_benveniste",
    "Padasip.C16_ang_sum",
    "Padasip.C16_benveniste_sum",
    "Padasip.C16_fresh"
   ],
   "note": ""
  },
  {
   "property": "C17",
   "status": "proved",
   "theorems": [
    "Padasip.C17_gmcc",
    "Padasip.C17_llncosh"
   ],
   "note": ""
  },
  {
   "property": "C18",
   "status": "proved",
   "theorems": [
    "Padasip.C18_lms",
    "Padasip.C18_lmf",
    "Padasip.C18_lms_documented_sign",
    "Padasip.C18_lmf_documented_factor",
    "Padasip.C18_llncosh",
    "Padasip.C18_gmcc"
   ],
   "note": ""
  },
  {
   "property": "C19",
   "status": "proved",
   "theorems": [
    "Padasip.C19_perfect_prediction"
   ],
   "note": ""
  },
  {
   "property": "C20",
   "status": "proved",
   "theorems": [
    "Padasip.C20_a_posteriori_error",
    "Padasip.C20_criterion"
   ],
   "note": ""
  },
  {
   "property": "C21",
   "status": "proved",
   "theorems": [
    "Padasip.C21_monotone",
    "Padasip.C21_energy",
    "Padasip.C21_error_vanishes"
   ],
   "note": ""
  },
  {
   "property": "C22",
   "status": "proved",
   "theorems": [
    "Padasip.C22_monotone",
    "Padasip.C22_energy",
    "Padasip.C22_criterion",
    "Padasip.C22_error_vanishes"
   ],
   "note": ""
  },
  {
   "property": "C23",
   "status": "proved",
   "theorems": [
    "Padasip.C23_robust"
   ],
   "note": ""
  },
  {
   "property": "C24",
   "status": "proved",
   "theorems": [
    "Padasip.C24_inverse_correlation",
    "Padasip.C24_fresh"
   ],
   "note": ""
  },
  {
   "property": "C25",
   "status": "proved",
   "theorems": [
    "Padasip.C25_least_squares"
   ],
   "note": ""
  },
  {
   "property": "C26",
   "status": "proved",
   "theorems": [
    "Padasip.C26_noise_free",
    "Padasip.C26_monotone"
   ],
   "note": ""
  },
  {
   "property": "C27",
   "status": "proved",
   "theorems": [
    "Padasip.C27_memory_window"
   ],
   "note": ""
  },
  {
   "property": "C28",
   "status": "proved",
   "theorems": [
    "Padasip.C28_positive_definite",
    "Padasip.C28_singular",
    "Padasip.C28_never_singular",
    "Padasip.C28_never_singular_history"
   ],
   "note": ""
  },
  {
   "property": "C29",
   "status": "proved",
   "theorems": [
    "Padasip.C29_order_one_is_nlms"
   ],
   "note": ""
  },
  {
   "property": "C30",
   "status": "proved",
   "theorems": [
    "Padasip.C30_monotone"
   ],
   "note": ""
  },
  {
   "property": "C31",
   "status": "proved",
   "theorems": [
    "Padasip.C31_gngd",
    "Padasip.C31_vslms"
   ],
   "note": ""
  },
  {
   "property": "C32",
   "status": "proved",
   "theorems": [
    "Padasip.C32_increment",
    "Padasip.C32_not_lms"
   ],
   "note": ""
  },
  {
   "property": "C33",
   "status": "proved",
   "theorems": [
    "Padasip.C33_sslms",
    "Padasip.C33_nsslms"
   ],
   "note": ""
  },
  {
   "property": "C34",
   "status": "proved",
   "theorems": [
    "Padasip.C34_llncosh",
    "Padasip.C34_gmcc",
    "Padasip.C34_gmcc_two"
   ],
   "note": ""
  },
  {
   "property": "C35",
   "status": "proved",
   "theorems": [
    "Padasip.C35_sign_symmetry"
   ],
   "note": ""
  },
  {
   "property": "C36",
   "status": "proved",
   "theorems": [
    "Padasip.C36_column_permutation"
   ],
   "note": ""
  },
  {
   "property": "C37",
   "status": "proved",
   "theorems": [
    "Padasip.C37_lms",
    "Padasip.C37_nlms",
    "Padasip.C37_rls",
    "Padasip.C37_ap"
   ],
   "note": ""
  },
  {
   "property": "C38",
   "status": "proved",
   "theorems": [
    "Padasip.C38_run",
    "Padasip.C38_for_ever"
   ],
   "note": ""
  },
  {
   "property": "C39",
   "status": "proved",
   "theorems": [
    "Padasip.C39_eps_negative",
    "Padasip.C39_denominator_zero",
    "Padasip.C39_positive_step",
    "Padasip.C39_sufficient"
   ],
   "note": ""
  },
  {
   "property": "C40",
   "status": "proved",
   "theorems": [
    "Padasip.C40_update_memory",
    "Padasip.C40_predict_advances",
    "Padasip.C40_predict_value",
    "Padasip.C40_index",
    "Padasip.C40_slot",
    "Padasip.C40_half_unused",
    "Padasip.C40_stored_target_wrong",
    "Padasip.C40_mem_one",
    "Padasip.C40_clear_memory",
    "Padasip.C40_clear_memory_predict"
   ],
   "note": ""
  },
  {
   "property": "C41",
   "status": "proved",
   "theorems": [
    "Padasip.C41_mean_matters"
   ],
   "note": ""
  },
  {
   "property": "C42",
   "status": "proved",
   "theorems": [
    "Padasip.C42_keys_distinct",
    "Padasip.C42_get_filter",
    "Padasip.C42_unknown",
    "Padasip.C42_reachable",
    "Padasip.C42_entry_points",
    "Padasip.C42_any_case"
   ],
   "note": ""
  },
  {
   "property": "C43",
   "status": "proved",
   "theorems": [
    "Padasip.C43_type_error",
    "Padasip.C43_from_n_alone",
    "Padasip.C43_from_n_and_mu",
    "Padasip.C43_default_model",
    "Padasip.C43_missing_n",
    "Padasip.C43_errors"
   ],
   "note": ""
  },
  {
   "property": "C44",
   "status": "proved",
   "theorems": [
    "Padasip.C44_filter_data",
    "Padasip.C44_n_is_ignored",
    "Padasip.C44_first_row"
   ],
   "note": ""
  },
  {
   "property": "C45",
   "status": "proved",
   "theorems": [
    "Padasip.C45_lengths",
    "Padasip.C45_difference",
    "Padasip.C45_total",
    "Padasip.C45_symmetric",
    "Padasip.C45_shift"
   ],
   "note": ""
  },
  {
   "property": "C46",
   "status": "proved",
   "theorems": [
    "Padasip.C46_nonneg",
    "Padasip.C46_definite",
    "Padasip.C46_zero_iff_equal",
    "Padasip.C46_scale"
   ],
   "note": ""
  },
  {
   "property": "C47",
   "status": "proved",
   "theorems": [
    "Padasip.C47_square",
    "Padasip.C47_order"
   ],
   "note": ""
  },
  {
   "property": "C48",
   "status": "proved",
   "theorems": [
    "Padasip.C48_triangle"
   ],
   "note": ""
  },
  {
   "property": "C49",
   "status": "proved",
   "theorems": [
    "Padasip.C49_dispatch",
    "Padasip.C49_rejected"
   ],
   "note": ""
  },
  {
   "property": "C50",
   "status": "proved",
   "theorems": [
    "Padasip.C50_value",
    "Padasip.C50_twenty_db"
   ],
   "note": ""
  },
  {
   "property": "C51",
   "status": "proved",
   "theorems": [
    "Padasip.C51_exact",
    "Padasip.C51_right_iff",
    "Padasip.C51_lengths",
    "Padasip.C51_mae",
    "Padasip.C51_witnesses"
   ],
   "note": ""
  },
  {
   "property": "C52",
   "status": "proved",
   "theorems": [
    "Padasip.C52_exact",
    "Padasip.C52_below_range",
    "Padasip.C52_diverges",
    "Padasip.C52_default_diverges"
   ],
   "note": ""
  },
  {
   "property": "C53",
   "status": "proved",
   "theorems": [
    "Padasip.C53_windows",
    "Padasip.C53_injective",
    "Padasip.C53_overlap",
    "Padasip.C53_last_column"
   ],
   "note": ""
  },
  {
   "property": "C54",
   "status": "proved",
   "theorems": [
    "Padasip.C54_invalid",
    "Padasip.C54_too_long",
    "Padasip.C54_total"
   ],
   "note": ""
  },
  {
   "property": "C55",
   "status": "proved",
   "theorems": [
    "Padasip.C55_back_of_standardize",
    "Padasip.C55_standardize_of_back",
    "Padasip.C55_defaults",
    "Padasip.C55_length"
   ],
   "note": ""
  },
  {
   "property": "C56",
   "status": "proved",
   "theorems": [
    "Padasip.C56_std_zero_iff",
    "Padasip.C56_zero_mean_unit_std",
    "Padasip.C56_idempotent",
    "Padasip.C56_affine_invariant",
    "Padasip.C56_constant"
   ],
   "note": ""
  },
  {
   "property": "C57",
   "status": "proved",
   "theorems": [
    "Padasip.C57_projection",
    "Padasip.C57_default",
    "Padasip.C57_too_many",
    "Padasip.C57_negative",
    "Padasip.C57_degenerate",
    "Padasip.C57_components"
   ],
   "note": ""
  },
  {
   "property": "C58",
   "status": "proved",
   "theorems": [
    "Padasip.C58_uncorrelated",
    "Padasip.C58_maximal",
    "Padasip.C58_nonneg",
    "Padasip.C58_orthonormal_of_distinct",
    "Padasip.C58_not_centred",
    "Padasip.C58_contract_satisfiable"
   ],
   "note": ""
  },
  {
   "property": "C59",
   "status": "proved",
   "theorems": [
    "Padasip.C59_decomposition",
    "Padasip.C59_symmetric",
    "Padasip.C59_semidefinite",
    "Padasip.C59_class_order",
    "Padasip.C59_hash_independent",
    "Padasip.C59_permute_rename",
    "Padasip.C59_lda_permute_rename"
   ],
   "note": ""
  },
  {
   "property": "C60",
   "status": "proved",
   "theorems": [
    "Padasip.C60_projection",
    "Padasip.C60_default",
    "Padasip.C60_discriminants",
    "Padasip.C60_singular",
    "Padasip.C60_nonneg"
   ],
   "note": ""
  },
  {
   "property": "C61",
   "status": "proved",
   "theorems": [
    "Padasip.C61_unknown_function",
    "Padasip.C61_sum",
    "Padasip.C61_max",
    "Padasip.C61_no_weights",
    "Padasip.C61_bounds"
   ],
   "note": ""
  },
  {
   "property": "C62",
   "status": "proved",
   "theorems": [
    "Padasip.C62_mismatch",
    "Padasip.C62_length"
   ],
   "note": ""
  },
  {
   "property": "C63",
   "status": "proved",
   "theorems": [
    "Padasip.C63_increment",
    "Padasip.C63_fraction",
    "Padasip.C63_antitone",
    "Padasip.C63_antitone_fails_early",
    "Padasip.C63_api"
   ],
   "note": ""
  },
  {
   "property": "C64",
   "status": "proved",
   "theorems": [
    "Padasip.C64_direct",
    "Padasip.C64_negative_order"
   ],
   "note": ""
  },
  {
   "property": "C65",
   "status": "proved",
   "theorems": [
    "Padasip.C65_multiscale",
    "Padasip.C65_direct"
   ],
   "note": ""
  },
  {
   "property": "C66",
   "status": "proved",
   "theorems": [
    "Padasip.C66_shift",
    "Padasip.C66_early_rows_use_raw_weights",
    "Padasip.C66_shift_direct"
   ],
   "note": ""
  },
  {
   "property": "C67",
   "status": "proved",
   "theorems": [
    "Padasip.C67_scale"
   ],
   "note": ""
  },
  {
   "property": "C68",
   "status": "proved",
   "theorems": [
    "Padasip.C68_length",
    "Padasip.C68_window",
    "Padasip.C68_unknown_method",
    "Padasip.C68_documented_30",
    "Padasip.C68_window_zero",
    "Padasip.C68_succeeds"
   ],
   "note": ""
  },
  {
   "property": "C69",
   "status": "proved",
   "theorems": [
    "Padasip.C69_bounds",
    "Padasip.C69_unsurprising"
   ],
   "note": ""
  },
  {
   "property": "C70",
   "status": "proved",
   "theorems": [
    "Padasip.C70_top",
    "Padasip.C70_count",
    "Padasip.C70_exact_bounds",
    "Padasip.C70_log10log10_ten"
   ],
   "note": ""
  },
  {
   "property": "C71",
   "status": "proved",
   "theorems": [
    "Padasip.C71_mse",
    "Padasip.C71_mean_iff"
   ],
   "note": ""
  },
  {
   "property": "C72",
   "status": "proved",
   "theorems": [
    "Padasip.C72_train",
    "Padasip.C72_epochs_add",
    "Padasip.C72_shuffle"
   ],
   "note": ""
  },
  {
   "property": "C73",
   "status": "proved",
   "theorems": [
    "Padasip.C73_activation",
    "Padasip.C73_range",
    "Padasip.C73_derivative"
   ],
   "note": ""
  },
  {
   "property": "C74",
   "status": "proved",
   "theorems": [
    "Padasip.C74_bias",
    "Padasip.C74_bias_init",
    "Padasip.C74_output1",
    "Padasip.C74_gradient"
   ],
   "note": ""
  },
  {
   "property": "C75",
   "status": "proved",
   "theorems": [
    "Padasip.C75_output2",
    "Padasip.C75_several_outputs",
    "Padasip.C75_two_layers",
    "Padasip.C75_several_outputs_never",
    "Padasip.C75_several_outputs_witness",
    "Padasip.C75_two_layers_witness"
   ],
   "note": ""
  },
  {
   "property": "C76",
   "status": "proved",
   "theorems": [
    "Padasip.C76_predict",
    "Padasip.C76_predict_independent",
    "Padasip.C76_run_weights",
    "Padasip.C76_run",
    "Padasip.C76_run_rows",
    "Padasip.C76_test",
    "Padasip.C76_test_run",
    "Padasip.C76_run_broadcasts"
   ],
   "note": ""
  },
  {
   "property": "C77",
   "status": "proved",
   "theorems": [
    "Padasip.C77_rejected",
    "Padasip.C77_lengths",
    "Padasip.C77_width",
    "Padasip.C77_target",
    "Padasip.C77_accepted",
    "Padasip.C77_accepted_iff"
   ],
   "note": ""
  },
  {
   "property": "C78",
   "status": "proved",
   "theorems": [
    "Padasip.C78_copies",
    "Padasip.C78_run",
    "Padasip.C78_buffer",
    "Padasip.C78_keeps_reference",
    "Padasip.C78_constructed",
    "Padasip.C78_witness"
   ],
   "note": ""
  },
  {
   "property": "C79",
   "status": "proved",
   "theorems": [
    "Padasip.C79_frame",
    "Padasip.C79_init_weights",
    "Padasip.C79_returned"
   ],
   "note": ""
  },
  {
   "property": "C80",
   "status": "proved",
   "theorems": [
    "Padasip.C80_causal",
    "Padasip.C80_shift",
    "Padasip.C80_first_sample_uses_raw_weights"
   ],
   "note": ""
  },
  {
   "property": "C81",
   "status": "proved",
   "theorems": [
    "Padasip.C81_orthogonal",
    "Padasip.C81_sslms_not_invariant"
   ],
   "note": ""
  },
  {
   "property": "C82",
   "status": "proved",
   "theorems": [
    "Padasip.C82_units",
    "Padasip.C82_needs_parameters"
   ],
   "note": ""
  },
  {
   "property": "C83",
   "status": "proved",
   "theorems": [
    "Padasip.C83_lmf",
    "Padasip.C83_lmf_criterion",
    "Padasip.C83_nlmf",
    "Padasip.C83_nlms",
    "Padasip.C83_gngd",
    "Padasip.C83_vslms_mathews",
    "Padasip.C83_vslms_ang",
    "Padasip.C83_vslms_benveniste",
    "Padasip.C83_sslms",
    "Padasip.C83_sslms_criterion",
    "Padasip.C83_nsslms",
    "Padasip.C83_rls",
    "Padasip.C83_ap",
    "Padasip.C83_llncosh",
    "Padasip.C83_llncosh_criterion",
    "Padasip.C83_gmcc_two",
    "Padasip.C83_gmcc_criterion",
    "Padasip.C83_lmf_diverges",
    "Padasip.C83_sslms_oscillates"
   ],
   "note": ""
  },
  {
   "property": "C84",
   "status": "proved",
   "theorems": [
    "Padasip.C84_nlms",
    "Padasip.C84_nlms_minimal_change",
    "Padasip.C84_ap"
   ],
   "note": ""
  },
  {
   "property": "C85",
   "status": "proved",
   "theorems": [
    "Padasip.C85_robust",
    "Padasip.C85_misalignment"
   ],
   "note": ""
  },
  {
   "property": "C86",
   "status": "proved",
   "theorems": [
    "Padasip.C86_rls_order",
    "Padasip.C86_lms_order_matters"
   ],
   "note": ""
  },
  {
   "property": "C87",
   "status": "proved",
   "theorems": [
    "Padasip.C87_lms",
    "Padasip.C87_nlms",
    "Padasip.C87_lms_converges",
    "Padasip.C87_nlms_converges"
   ],
   "note": ""
  },
  {
   "property": "C88",
   "status": "proved",
   "theorems": [
    "Padasip.C88_predict",
    "Padasip.C88_any_order",
    "Padasip.C88_double"
   ],
   "note": ""
  },
  {
   "property": "C89",
   "status": "proved",
   "theorems": [
    "Padasip.C89_series",
    "Padasip.C89_two_series"
   ],
   "note": ""
  },
  {
   "property": "C90",
   "status": "proved",
   "theorems": [
    "Padasip.C90_lms",
    "Padasip.C90_nlms"
   ],
   "note": ""
  },
  {
   "property": "C91",
   "status": "proved",
   "theorems": [
    "Padasip.C91_lms",
    "Padasip.C91_lmf",
    "Padasip.C91_nlms",
    "Padasip.C91_nlmf",
    "Padasip.C91_sslms",
    "Padasip.C91_nsslms",
    "Padasip.C91_llncosh",
    "Padasip.C91_gmcc",
    "Padasip.C91_gngd",
    "Padasip.C91_mathews",
    "Padasip.C91_ang",
    "Padasip.C91_benveniste",
    "Padasip.C91_rls",
    "Padasip.C91_ap",
    "Padasip.C91_ocnlms",
    "Padasip.C91_sslms_exception"
   ],
   "note": ""
  },
  {
   "property": "C92",
   "status": "proved",
   "theorems": [
    "Padasip.C92_construct",
    "Padasip.C92_entry_points"
   ],
   "note": ""
  },
  {
   "property": "C93",
   "status": "proved",
   "theorems": [
    "Padasip.C93_ap_order_zero",
    "Padasip.C93_memory_methods",
    "Padasip.C93_ocnlms_mem_zero",
    "Padasip.C93_accepted"
   ],
   "note": ""
  },
  {
   "property": "C94",
   "status": "proved",
   "theorems": [
    "Padasip.C94_lms_rate",
    "Padasip.C94_nlms_rate",
    "Padasip.C94_rls_bound",
    "Padasip.C94_rls_rate",
    "Padasip.C94_rls_forgetting",
    "Padasip.C94_lms_identifies",
    "Padasip.C94_nlms_identifies",
    "Padasip.C94_rls_identifies",
    "Padasip.C94_ap_identifies"
   ],
   "note": ""
  },
  {
   "property": "C95",
   "status": "proved",
   "theorems": [
    "Padasip.C95_lms_span",
    "Padasip.C95_lms_orthogonal",
    "Padasip.C95_lmf_span",
    "Padasip.C95_lmf_orthogonal",
    "Padasip.C95_nlms_span",
    "Padasip.C95_nlms_orthogonal",
    "Padasip.C95_nlmf_span",
    "Padasip.C95_nlmf_orthogonal",
    "Padasip.C95_gngd_span",
    "Padasip.C95_gngd_orthogonal",
    "Padasip.C95_mathews_span",
    "Padasip.C95_mathews_orthogonal",
    "Padasip.C95_ang_span",
    "Padasip.C95_ang_orthogonal",
    "Padasip.C95_benveniste_span",
    "Padasip.C95_benveniste_orthogonal",
    "Padasip.C95_rls_span",
    "Padasip.C95_rls_orthogonal",
    "Padasip.C95_ap_orthogonal",
    "Padasip.C95_ocnlms_orthogonal",
    "Padasip.C95_ap_span",
    "Padasip.C95_ocnlms_span",
    "Padasip.C95_sslms_leaves_span",
    "Padasip.C95_nsslms_leaves_span",
    "Padasip.C95_sslms_dead_component",
    "Padasip.C95_nsslms_dead_component",
    "Padasip.C95_gmcc_span",
    "Padasip.C95_gmcc_orthogonal",
    "Padasip.C95_llncosh_span",
    "Padasip.C95_llncosh_orthogonal"
   ],
   "note": ""
  },
  {
   "property": "C96",
   "status": "proved",
   "theorems": [
    "Padasip.C96_history_is_data",
    "Padasip.C96_untrimmed_target_rejected",
    "Padasip.C96_too_short",
    "Padasip.C96_fir_is_linear",
    "Padasip.C96_alignment",
    "Padasip.C96_bias_is_affine",
    "Padasip.C96_nlms_fir",
    "Padasip.C96_perfect",
    "Padasip.C96_nlms_identifies"
   ],
   "note": ""
  },
  {
   "property": "C97",
   "status": "proved",
   "theorems": [
    "Padasip.C97_sslms_diverges",
    "Padasip.C97_nsslms_diverges",
    "Padasip.C97_sslms_error_explodes",
    "Padasip.C97_nsslms_error_explodes",
    "Padasip.C97_lms_learns",
    "Padasip.C97_nlms_learns"
   ],
   "note": ""
  },
  {
   "property": "C98",
   "status": "proved",
   "theorems": [
    "Padasip.C98_lmf_learns_iff",
    "Padasip.C98_lmf_explodes",
    "Padasip.C98_lmf_no_safe_step",
    "Padasip.C98_nlmf_learns_iff",
    "Padasip.C98_nlmf_explodes",
    "Padasip.C98_lmf_safe_region",
    "Padasip.C98_nlmf_safe_region"
   ],
   "note": ""
  },
  {
   "property": "C99",
   "status": "proved",
   "theorems": [
    "Padasip.C99_gngd",
    "Padasip.C99_gngd_monotone",
    "Padasip.C99_vslms_mathews",
    "Padasip.C99_vslms_ang",
    "Padasip.C99_vslms_benveniste",
    "Padasip.C99_lmf",
    "Padasip.C99_nlmf",
    "Padasip.C99_nlms",
    "Padasip.C99_lms",
    "Padasip.C99_llncosh_monotone",
    "Padasip.C99_llncosh_error_vanishes",
    "Padasip.C99_gmcc_monotone",
    "Padasip.C99_gmcc_error_vanishes",
    "Padasip.C99_lmf_error_vanishes"
   ],
   "note": ""
  },
  {
   "property": "C100",
   "status": "proved",
   "theorems": [
    "Padasip.C100_lms_regret",
    "Padasip.C100_nlms_regret",
    "Padasip.C100_rls_identity",
    "Padasip.C100_rls_regret",
    "Padasip.C100_rls_log_regret",
    "Padasip.C100_llncosh_regret"
   ],
   "note": ""
  },
  {
   "property": "C101",
   "status": "proved",
   "theorems": [
    "Padasip.C101_lms_tracking",
    "Padasip.C101_lms_steady_state",
    "Padasip.C101_nlms_tracking",
    "Padasip.C101_nlms_steady_state",
    "Padasip.C101_rate",
    "Padasip.C101_drift_without_excitation"
   ],
   "note": ""
  },
  {
   "property": "C102",
   "status": "proved",
   "theorems": [
    "Padasip.C102_accepts",
    "Padasip.C102_exceptions",
    "Padasip.C102_new",
    "Padasip.C102_mu_number",
    "Padasip.C102_mu_string",
    "Padasip.C102_fresh_raises",
    "Padasip.C102_mu_auto",
    "Padasip.C102_fresh_weights",
    "Padasip.C102_fresh_witness"
   ],
   "note": ""
  },
  {
   "property": "C103",
   "status": "proved",
   "theorems": [
    "Padasip.C103_descent",
    "Padasip.C103_descent_two_layers",
    "Padasip.C103_first_step",
    "Padasip.C103_auto_not_safe"
   ],
   "note": ""
  },
  {
   "property": "C104",
   "status": "proved",
   "theorems": [
    "Padasip.C104_bounded",
    "Padasip.C104_unreachable",
    "Padasip.C104_sensitivity",
    "Padasip.C104_sensitivity_one",
    "Padasip.C104_ignored_input"
   ],
   "note": ""
  },
  {
   "property": "C105",
   "status": "proved",
   "theorems": [
    "Padasip.C105_step",
    "Padasip.C105_train",
    "Padasip.C105_run_test",
    "Padasip.C105_new",
    "Padasip.C105_twins"
   ],
   "note": ""
  },
  {
   "property": "C106",
   "status": "proved",
   "theorems": [
    "Padasip.C106_update_iff",
    "Padasip.C106_fits",
    "Padasip.C106_mu_zero",
    "Padasip.C106_zero_output_weights"
   ],
   "note": ""
  },
  {
   "property": "C107",
   "status": "proved",
   "theorems": [
    "Padasip.C107_most_variance",
    "Padasip.C107_least_loss",
    "Padasip.C107_total",
    "Padasip.C107_solver_independent",
    "Padasip.C107_similarity",
    "Padasip.C107_shift",
    "Padasip.C107_reorder"
   ],
   "note": ""
  },
  {
   "property": "C108",
   "status": "proved",
   "theorems": [
    "Padasip.C108_ratio",
    "Padasip.C108_fisher",
    "Padasip.C108_uncorrelated",
    "Padasip.C108_rank",
    "Padasip.C108_contract_satisfiable"
   ],
   "note": ""
  },
  {
   "property": "C109",
   "status": "proved",
   "theorems": [
    "Padasip.C109_affine",
    "Padasip.C109_solver_independent",
    "Padasip.C109_shift"
   ],
   "note": ""
  },
  {
   "property": "C110",
   "status": "proved",
   "theorems": [
    "Padasip.C110_column",
    "Padasip.C110_wide",
    "Padasip.C110_wide_ocnlms",
    "Padasip.C110_wide_ap"
   ],
   "note": ""
  },
  {
   "property": "C111",
   "status": "proved",
   "theorems": [
    "Padasip.C111_series",
    "Padasip.C111_mae_column",
    "Padasip.C111_mae_column_wrong",
    "Padasip.C111_mse_column",
    "Padasip.C111_mse_column_negative",
    "Padasip.C111_columns",
    "Padasip.C111_mismatch",
    "Padasip.C111_tables",
    "Padasip.C111_trap"
   ],
   "note": ""
  },
  {
   "property": "C112",
   "status": "proved",
   "theorems": [
    "Padasip.C112_lms_closer",
    "Padasip.C112_lms_outputs",
    "Padasip.C112_lms_rate",
    "Padasip.C112_nlms_closer",
    "Padasip.C112_nlms_outputs",
    "Padasip.C112_nlms_rate",
    "Padasip.C112_rls_difference",
    "Padasip.C112_rls_rate",
    "Padasip.C112_rls_forgetting",
    "Padasip.C112_ap_closer",
    "Padasip.C112_lms_forgets",
    "Padasip.C112_lms_same_outputs",
    "Padasip.C112_nlms_forgets",
    "Padasip.C112_nlms_same_outputs",
    "Padasip.C112_rls_forgets",
    "Padasip.C112_ap_forgets",
    "Padasip.C112_llncosh_closer"
   ],
   "note": ""
  },
  {
   "property": "C113",
   "status": "proved",
   "theorems": [
    "Padasip.C113_rls_robust",
    "Padasip.C113_rls_excited",
    "Padasip.C113_rls_steady_state",
    "Padasip.C113_ap_robust"
   ],
   "note": ""
  },
  {
   "property": "C114",
   "status": "proved",
   "theorems": [
    "Padasip.C114_lms",
    "Padasip.C114_nlms",
    "Padasip.C114_rls",
    "Padasip.C114_ap"
   ],
   "note": ""
  },
  {
   "property": "C115",
   "status": "proved",
   "theorems": [
    "Padasip.C115_concat",
    "Padasip.C115_permute",
    "Padasip.C115_bias_variance",
    "Padasip.C115_best_constant_mse",
    "Padasip.C115_best_constant_mae"
   ],
   "note": ""
  },
  {
   "property": "C116",
   "status": "proved",
   "theorems": [
    "Padasip.C116_valid_error",
    "Padasip.C116_series",
    "Padasip.C116_number",
    "Padasip.C116_first",
    "Padasip.C116_trap"
   ],
   "note": ""
  },
  {
   "property": "C117",
   "status": "proved",
   "theorems": [
    "Padasip.C117_one_target_per_weight",
    "Padasip.C117_one_element",
    "Padasip.C117_wrong_length"
   ],
   "note": ""
  },
  {
   "property": "C118",
   "status": "proved",
   "theorems": [
    "Padasip.C118_sizes",
    "Padasip.C118_negative"
   ],
   "note": ""
  },
  {
   "property": "C119",
   "status": "proved",
   "theorems": [
    "Padasip.C119_mathews_explodes",
    "Padasip.C119_benveniste_explodes",
    "Padasip.C119_mathews",
    "Padasip.C119_benveniste",
    "Padasip.C119_ang",
    "Padasip.C119_mathews_learns",
    "Padasip.C119_mathews_negative_step"
   ],
   "note": ""
  },
  {
   "property": "C120",
   "status": "proved",
   "theorems": [
    "Padasip.C120_windup",
    "Padasip.C120_silence",
    "Padasip.C120_after_silence",
    "Padasip.C120_gain_le",
    "Padasip.C120_gain_bounded",
    "Padasip.C120_never_off",
    "Padasip.C120_switches_off",
    "Padasip.C120_windup_limit"
   ],
   "note": ""
  },
  {
   "property": "C121",
   "status": "proved",
   "theorems": [
    "Padasip.C121_lms",
    "Padasip.C121_lmf",
    "Padasip.C121_gmcc",
    "Padasip.C121_llncosh",
    "Padasip.C121_sslms",
    "Padasip.C121_ang",
    "Padasip.C121_nlms",
    "Padasip.C121_nlmf",
    "Padasip.C121_nsslms",
    "Padasip.C121_mathews",
    "Padasip.C121_gngd",
    "Padasip.C121_benveniste",
    "Padasip.C121_rls",
    "Padasip.C121_nlms_wraps",
    "Padasip.C121_rls_wraps",
    "Padasip.C121_rls_diverges",
    "Padasip.C121_mathews_stuck"
   ],
   "note": ""
  },
  {
   "property": "C122",
   "status": "proved",
   "theorems": [
    "Padasip.C122_lms_mean",
    "Padasip.C122_lms_mean_converges",
    "Padasip.C122_lms_mean_diverges",
    "Padasip.C122_nlms_mean",
    "Padasip.C122_nlms_mean_converges"
   ],
   "note": ""
  },
  {
   "property": "C123",
   "status": "proved",
   "theorems": [
    "Padasip.C123_nlms_iid",
    "Padasip.C123_nlms_almost_surely",
    "Padasip.C123_lms_almost_surely",
    "Padasip.C123_lms",
    "Padasip.C123_nlms",
    "Padasip.C123_lms_white",
    "Padasip.C123_lms_white_converges",
    "Padasip.C123_lms_white_diverges",
    "Padasip.C123_documented_example"
   ],
   "note": ""
  },
  {
   "property": "C124",
   "status": "proved",
   "theorems": [
    "Padasip.C124_mean_lms",
    "Padasip.C124_mean_nlms",
    "Padasip.C124_mean_rls",
    "Padasip.C124_mean_ap",
    "Padasip.C124_rls_covariance",
    "Padasip.C124_rls_mean_square",
    "Padasip.C124_rls_consistent"
   ],
   "note": ""
  },
  {
   "property": "C125",
   "status": "proved",
   "theorems": [
    "Padasip.C125_metrics",
    "Padasip.C125_metrics_one",
    "Padasip.C125_standardize",
    "Padasip.C125_elbnd",
    "Padasip.C125_le_multiscale",
    "Padasip.C125_le_silent",
    "Padasip.C125_le_direct",
    "Padasip.C125_ese_silent",
    "Padasip.C125_pot",
    "Padasip.C125_ese_succeeds"
   ],
   "note": ""
  },
  {
   "property": "C126",
   "status": "proved",
   "theorems": [
    "Padasip.C126_input",
    "Padasip.C126_target",
    "Padasip.C126_predict",
    "Padasip.C126_for_ever",
    "Padasip.C126_train",
    "Padasip.C126_mse_one"
   ],
   "note": ""
  },
  {
   "property": "C127",
   "status": "proved",
   "theorems": [
    "Padasip.C127_le_agrees",
    "Padasip.C127_le_array_one",
    "Padasip.C127_le_array_many",
    "Padasip.C127_le_scalar",
    "Padasip.C127_le_rejects",
    "Padasip.C127_le_accepts_iff",
    "Padasip.C127_le_nonpositive",
    "Padasip.C127_ese_agrees",
    "Padasip.C127_ese_negative"
   ],
   "note": ""
  },
  {
   "property": "C128",
   "status": "proved",
   "theorems": [
    "Padasip.C128_update_many",
    "Padasip.C128_update_one",
    "Padasip.C128_epochs",
    "Padasip.C128_activation_predict",
    "Padasip.C128_activation_run",
    "Padasip.C128_activation_update",
    "Padasip.C128_activation_no_epoch",
    "Padasip.C128_activation_train"
   ],
   "note": ""
  },
  {
   "property": "C129",
   "status": "proved",
   "theorems": [
    "Padasip.C129_dimension",
    "Padasip.C129_few_samples",
    "Padasip.C129_distances",
    "Padasip.C129_pca_real",
    "Padasip.C129_lda_real"
   ],
   "note": ""
  },
  {
   "property": "C130",
   "status": "proved",
   "theorems": [
    "Padasip.C130_unusable",
    "Padasip.C130_clear_does_not_help",
    "Padasip.C130_repair",
    "Padasip.C130_breaks",
    "Padasip.C130_predict"
   ],
   "note": ""
  },
  {
   "property": "C131",
   "status": "proved",
   "theorems": [
    "Padasip.C131_run",
    "Padasip.C131_for_ever",
    "Padasip.C131_sslms",
    "Padasip.C131_nsslms",
    "Padasip.C131_llncosh",
    "Padasip.C131_gmcc"
   ],
   "note": ""
  },
  {
   "property": "C132",
   "status": "proved",
   "theorems": [
    "Padasip.C132_slope",
    "Padasip.C132_sign",
    "Padasip.C132_descent",
    "Padasip.C132_climbs",
    "Padasip.C132_climbs_three",
    "Padasip.C132_climbs_tanh",
    "Padasip.C132_first_step"
   ],
   "note": ""
  },
  {
   "property": "C133",
   "status": "proved",
   "theorems": [
    "Padasip.C133_loop",
    "Padasip.C133_log",
    "Padasip.C133_chunks",
    "Padasip.C133_step",
    "Padasip.C133_scalar",
    "Padasip.C133_wrong_length",
    "Padasip.C133_raise",
    "Padasip.C133_wrong_sample",
    "Padasip.C133_ap_adapt",
    "Padasip.C133_ap_step",
    "Padasip.C133_ap_same",
    "Padasip.C133_base",
    "Padasip.C133_ap_base",
    "Padasip.C133_ap_differ"
   ],
   "note": ""
  },
  {
   "property": "C134",
   "status": "proved",
   "theorems": [
    "Padasip.C134_sslms_regret",
    "Padasip.C134_nsslms_regret",
    "Padasip.C134_sslms_mean_error",
    "Padasip.C134_sslms_one_weight",
    "Padasip.C134_nsslms_one_weight"
   ],
   "note": ""
  },
  {
   "property": "C135",
   "status": "proved",
   "theorems": [
    "Padasip.C135_gmcc",
    "Padasip.C135_llncosh",
    "Padasip.C135_sslms",
    "Padasip.C135_nsslms",
    "Padasip.C135_lms",
    "Padasip.C135_lmf",
    "Padasip.C135_nlms",
    "Padasip.C135_nlmf",
    "Padasip.C135_rls"
   ],
   "note": ""
  },
  {
   "property": "C136",
   "status": "proved",
   "theorems": [
    "Padasip.C136_accepted",
    "Padasip.C136_default_size",
    "Padasip.C136_refused",
    "Padasip.C136_predict",
    "Padasip.C136_wrong_input",
    "Padasip.C136_adapt_square",
    "Padasip.C136_adapt_rejects",
    "Padasip.C136_run_rejects",
    "Padasip.C136_one_row"
   ],
   "note": ""
  },
  {
   "property": "C137",
   "status": "proved",
   "theorems": [
    "Padasip.C137_arrays",
    "Padasip.C137_converted",
    "Padasip.C137_rejected",
    "Padasip.C137_wrong_length",
    "Padasip.C137_half_done",
    "Padasip.C137_recovers",
    "Padasip.C137_broken_adapt",
    "Padasip.C137_broken_run"
   ],
   "note": ""
  },
  {
   "property": "C138",
   "status": "proved",
   "theorems": [
    "Padasip.C138_lms",
    "Padasip.C138_lmf",
    "Padasip.C138_gmcc",
    "Padasip.C138_llncosh",
    "Padasip.C138_ang",
    "Padasip.C138_benveniste",
    "Padasip.C138_rls",
    "Padasip.C138_nlms",
    "Padasip.C138_nlmf",
    "Padasip.C138_onehot_nlms",
    "Padasip.C138_onehot_nlmf",
    "Padasip.C138_onehot_gngd",
    "Padasip.C138_mathews",
    "Padasip.C138_nlms_diverges",
    "Padasip.C138_sign_adapt",
    "Padasip.C138_sign_run",
    "Padasip.C138_sign_floats",
    "Padasip.C138_two_series",
    "Padasip.C138_one_series"
   ],
   "note": ""
  },
  {
   "property": "C139",
   "status": "proved",
   "theorems": [
    "Padasip.C139_lms",
    "Padasip.C139_nlms",
    "Padasip.C139_lms_bound",
    "Padasip.C139_nlms_bound",
    "Padasip.C139_lms_probability",
    "Padasip.C139_nlms_probability",
    "Padasip.C139_lms_white",
    "Padasip.C139_lms_MSE",
    "Padasip.C139_documented_example"
   ],
   "note": ""
  },
  {
   "property": "C140",
   "status": "proved",
   "theorems": [
    "Padasip.C140_lms",
    "Padasip.C140_nlms",
    "Padasip.C140_lms_consistent",
    "Padasip.C140_nlms_consistent",
    "Padasip.C140_not_least_squares",
    "Padasip.C140_rls",
    "Padasip.C140_lms_pretrained",
    "Padasip.C140_nlms_pretrained"
   ],
   "note": ""
  },
  {
   "property": "C141",
   "status": "proved",
   "theorems": [
    "Padasip.C141_embedding",
    "Padasip.C141_zero_columns",
    "Padasip.C141_repeated_columns",
    "Padasip.C141_sslms_repeated"
   ],
   "note": ""
  },
  {
   "property": "C142",
   "status": "proved",
   "theorems": [
    "Padasip.C142_delay",
    "Padasip.C142_elbnd_lms",
    "Padasip.C142_elbnd_nlms",
    "Padasip.C142_elbnd_sslms",
    "Padasip.C142_elbnd_prompt",
    "Padasip.C142_disturbance",
    "Padasip.C142_share_of_active_inputs"
   ],
   "note": ""
  },
  {
   "property": "C143",
   "status": "proved",
   "theorems": [
    "Padasip.C143_accepted_iff_independent",
    "Padasip.C143_interpolates",
    "Padasip.C143_warm_up",
    "Padasip.C143_exact_identification",
    "Padasip.C143_run_returns_iff",
    "Padasip.C143_run_crash",
    "Padasip.C143_run_again"
   ],
   "note": ""
  },
  {
   "property": "C144",
   "status": "proved",
   "theorems": [
    "Padasip.C144_gngd_pause_length",
    "Padasip.C144_mathews_pause_length",
    "Padasip.C144_silence_removable",
    "Padasip.C144_silent_sample",
    "Padasip.C144_pause_matters",
    "Padasip.C144_memory_filters_move"
   ],
   "note": ""
  },
  {
   "property": "C145",
   "status": "proved",
   "theorems": [
    "Padasip.C145_lms",
    "Padasip.C145_lmf",
    "Padasip.C145_nlms",
    "Padasip.C145_nlmf",
    "Padasip.C145_gngd",
    "Padasip.C145_mathews",
    "Padasip.C145_ang",
    "Padasip.C145_benveniste",
    "Padasip.C145_llncosh",
    "Padasip.C145_gmcc",
    "Padasip.C145_rls",
    "Padasip.C145_ap",
    "Padasip.C145_ocnlms",
    "Padasip.C145_sslms_jump",
    "Padasip.C145_nsslms_jump",
    "Padasip.C145_gmcc_jump"
   ],
   "note": ""
  },
  {
   "property": "C146",
   "status": "proved",
   "theorems": [
    "Padasip.C146_accepted",
    "Padasip.C146_documented",
    "Padasip.C146_target_per_weight",
    "Padasip.C146_number_input"
   ],
   "note": ""
  },
  {
   "property": "C147",
   "status": "proved",
   "theorems": [
    "Padasip.C147_unchanged",
    "Padasip.C147_vector",
    "Padasip.C147_number",
    "Padasip.C147_array",
    "Padasip.C147_other_vector",
    "Padasip.C147_matrix_of_run",
    "Padasip.C147_transposed",
    "Padasip.C147_square"
   ],
   "note": ""
  },
  {
   "property": "C148",
   "status": "proved",
   "theorems": [
    "Padasip.C148_gngd",
    "Padasip.C148_mathews",
    "Padasip.C148_ang",
    "Padasip.C148_benveniste",
    "Padasip.C148_step",
    "Padasip.C148_same_as_numbers"
   ],
   "note": ""
  },
  {
   "property": "C149",
   "status": "proved",
   "theorems": [
    "Padasip.C149_stays_broken",
    "Padasip.C149_forever",
    "Padasip.C149_run_sample",
    "Padasip.C149_breaks"
   ],
   "note": ""
  },
  {
   "property": "C150",
   "status": "proved",
   "theorems": [
    "Padasip.C150_ap_accepted",
    "Padasip.C150_ap_bad_input",
    "Padasip.C150_ap_bad_target",
    "Padasip.C150_oc_accepted",
    "Padasip.C150_oc_rejected"
   ],
   "note": ""
  },
  {
   "property": "C151",
   "status": "proved",
   "theorems": [
    "Padasip.C151_accepted",
    "Padasip.C151_bad_target",
    "Padasip.C151_zero_mu",
    "Padasip.C151_number",
    "Padasip.C151_bad_input",
    "Padasip.C151_wrong_length",
    "Padasip.C151_forever",
    "Padasip.C151_breaks",
    "Padasip.C151_step",
    "Padasip.C151_same_as_numbers"
   ],
   "note": ""
  },
  {
   "property": "C152",
   "status": "proved",
   "theorems": [
    "Padasip.C152_standardize",
    "Padasip.C152_round_trip",
    "Padasip.C152_default_offset",
    "Padasip.C152_elbnd"
   ],
   "note": ""
  },
  {
   "property": "C153",
   "status": "proved",
   "theorems": [
    "Padasip.C153_nonneg",
    "Padasip.C153_exceptions",
    "Padasip.C153_accepts"
   ],
   "note": ""
  },
  {
   "property": "C154",
   "status": "proved",
   "theorems": [
    "Padasip.C154_accepted",
    "Padasip.C154_rejected",
    "Padasip.C154_one_accepted",
    "Padasip.C154_one_rejected",
    "Padasip.C154_one_damage",
    "Padasip.C154_predict",
    "Padasip.C154_series"
   ],
   "note": ""
  },
  {
   "property": "C155",
   "status": "proved",
   "theorems": [
    "Padasip.C155_predict",
    "Padasip.C155_vanishes",
    "Padasip.C155_depth"
   ],
   "note": ""
  },
  {
   "property": "C156",
   "status": "proved",
   "theorems": [
    "Padasip.C156_llncosh",
    "Padasip.C156_lmf",
    "Padasip.C156_nlmf",
    "Padasip.C156_sslms",
    "Padasip.C156_nsslms"
   ],
   "note": ""
  },
  {
   "property": "C157",
   "status": "proved",
   "theorems": [
    "Padasip.C157_train",
    "Padasip.C157_train_call"
   ],
   "note": ""
  },
  {
   "property": "C158",
   "status": "proved",
   "theorems": [
    "Padasip.C158_lms",
    "Padasip.C158_lms_for_ever",
    "Padasip.C158_nlms",
    "Padasip.C158_nlms_for_ever"
   ],
   "note": ""
  },
  {
   "property": "C159",
   "status": "proved",
   "theorems": [
    "Padasip.C159_lms_tracking",
    "Padasip.C159_lms_steady_state",
    "Padasip.C159_nlms_tracking",
    "Padasip.C159_nlms_steady_state"
   ],
   "note": ""
  },
  {
   "property": "C160",
   "status": "proved",
   "theorems": [
    "Padasip.C160_absorbed",
    "Padasip.C160_lms_stored",
    "Padasip.C160_lms_lost",
    "Padasip.C160_lms_stalled",
    "Padasip.C160_nlms_stored",
    "Padasip.C160_nlms_lost",
    "Padasip.C160_sslms_stored",
    "Padasip.C160_sslms_frozen",
    "Padasip.C160_sslms_bounded",
    "Padasip.C160_never_learns"
   ],
   "note": ""
  },
  {
   "property": "C161",
   "status": "proved",
   "theorems": [
    "Padasip.C161_sigmoid",
    "Padasip.C161_tanh",
    "Padasip.C161_node",
    "Padasip.C161_row",
    "Padasip.C161_train"
   ],
   "note": ""
  },
  {
   "property": "C162",
   "status": "proved",
   "theorems": [
    "Padasip.C162_error",
    "Padasip.C162_underflow",
    "Padasip.C162_predict",
    "Padasip.C162_lms",
    "Padasip.C162_lms_step",
    "Padasip.C162_lms_for_ever",
    "Padasip.C162_lmf",
    "Padasip.C162_gmcc_stored",
    "Padasip.C162_gmcc_outlier"
   ],
   "note": ""
  }
 ]
}