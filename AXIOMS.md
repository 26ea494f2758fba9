# Axioms per theorem

Output of `#print axioms`, written by `tools/mkaxioms.py`. `propext`, `Classical.choice` and `Quot.sound` are the three standard axioms of Lean; no other axiom occurs.

| theorem | axioms |
|---|---|
| Padasip.C01_run_total | propext, Classical.choice, Quot.sound |
| Padasip.C01_run_total_history | propext, Classical.choice, Quot.sound |
| Padasip.C02_run_is_log | propext, Classical.choice, Quot.sound |
| Padasip.C02_output_is_row_times_input | propext, Classical.choice, Quot.sound |
| Padasip.C03_causal | propext, Classical.choice, Quot.sound |
| Padasip.C04_chunks | propext, Classical.choice, Quot.sound |
| Padasip.C05_adapt_loop | propext, Classical.choice, Quot.sound |
| Padasip.C06_predict_pure | propext, Quot.sound |
| Padasip.C06_real_time | propext, Classical.choice, Quot.sound |
| Padasip.C06_ocnlms_protocol_differs | propext, Classical.choice, Quot.sound |
| Padasip.C07_plain_series | propext, Quot.sound |
| Padasip.C07_length_mismatch | propext, Quot.sound |
| Padasip.C07_empty | propext, Quot.sound |
| Padasip.C08_run_wrong_width | propext, Classical.choice, Quot.sound |
| Padasip.C08_predict_wrong_size | propext, Quot.sound |
| Padasip.C08_adapt_wrong_size | propext, Quot.sound |
| Padasip.C08_broadcast_ap | propext, Quot.sound |
| Padasip.C08_broadcast_ocnlms | propext, Quot.sound |
| Padasip.C09_rejected_run_is_invisible | propext, Classical.choice, Quot.sound |
| Padasip.C09_benveniste_adapt_raises | propext, Classical.choice, Quot.sound |
| Padasip.C09_benveniste_silent_change | propext, Classical.choice, Quot.sound |
| Padasip.C09_ocnlms_adapt_raises | propext, Classical.choice, Quot.sound |
| Padasip.C09_benveniste_width_one | propext, Classical.choice, Quot.sound |
| Padasip.C09_ocnlms_used | propext, Classical.choice, Quot.sound |
| Padasip.C09_ocnlms_fresh | propext, Classical.choice, Quot.sound |
| Padasip.C10_rounded | propext, Classical.choice, Quot.sound |
| Padasip.C10_pretrained | propext, Classical.choice, Quot.sound |
| Padasip.C10_no_training_data | propext, Classical.choice, Quot.sound |
| Padasip.C10_no_test_data | propext, Classical.choice, Quot.sound |
| Padasip.C10_negative | propext, Classical.choice, Quot.sound |
| Padasip.C10_negative_all | propext, Classical.choice, Quot.sound |
| Padasip.C11_size | propext, Quot.sound |
| Padasip.C11_init_weights | propext, Quot.sound |
| Padasip.C11_default_size | propext, Quot.sound |
| Padasip.C12_rejected_adapt_corrupts_memory | propext, Classical.choice, Quot.sound |
| Padasip.C12_memory_after_next_sample | propext, Classical.choice, Quot.sound |
| Padasip.C12_weights_differ | propext, Classical.choice, Quot.sound |
| Padasip.C13_lms | propext, Classical.choice, Quot.sound |
| Padasip.C13_lmf | propext, Classical.choice, Quot.sound |
| Padasip.C13_sslms | propext, Classical.choice, Quot.sound |
| Padasip.C14_nlms | propext, Classical.choice, Quot.sound |
| Padasip.C14_nlmf | propext, Classical.choice, Quot.sound |
| Padasip.C14_nsslms | propext, Classical.choice, Quot.sound |
| Padasip.C15_gngd | propext, Classical.choice, Quot.sound |
| Padasip.C15_fresh | propext, Classical.choice, Quot.sound |
| Padasip.C16_mathews | propext, Classical.choice, Quot.sound |
| Padasip.C16_mathews_sum | propext, Classical.choice, Quot.sound |
| Padasip.C16_ang | propext, Classical.choice, Quot.sound |
| Padasip.C16_benveniste | propext, Classical.choice, Quot.sound |
| Padasip.C16_ang_sum | propext, Classical.choice, Quot.sound |
| Padasip.C16_benveniste_sum | propext, Classical.choice, Quot.sound |
| Padasip.C16_fresh | propext, Classical.choice, Quot.sound |
| Padasip.C17_gmcc | propext, Classical.choice, Quot.sound |
| Padasip.C17_llncosh | propext, Classical.choice, Quot.sound |
| Padasip.C18_lms | propext, Classical.choice, Quot.sound |
| Padasip.C18_lmf | propext, Classical.choice, Quot.sound |
| Padasip.C18_lms_documented_sign | propext, Classical.choice, Quot.sound |
| Padasip.C18_lmf_documented_factor | propext, Classical.choice, Quot.sound |
| Padasip.C18_llncosh | propext, Classical.choice, Quot.sound |
| Padasip.C18_gmcc | propext, Classical.choice, Quot.sound |
| Padasip.C19_perfect_prediction | propext, Classical.choice, Quot.sound |
| Padasip.C20_a_posteriori_error | propext, Classical.choice, Quot.sound |
| Padasip.C20_criterion | propext, Classical.choice, Quot.sound |
| Padasip.C21_monotone | propext, Classical.choice, Quot.sound |
| Padasip.C21_energy | propext, Classical.choice, Quot.sound |
| Padasip.C21_error_vanishes | propext, Classical.choice, Quot.sound |
| Padasip.C22_monotone | propext, Classical.choice, Quot.sound |
| Padasip.C22_energy | propext, Classical.choice, Quot.sound |
| Padasip.C22_criterion | propext, Classical.choice, Quot.sound |
| Padasip.C22_error_vanishes | propext, Classical.choice, Quot.sound |
| Padasip.C23_robust | propext, Classical.choice, Quot.sound |
| Padasip.C24_inverse_correlation | propext, Classical.choice, Quot.sound |
| Padasip.C24_fresh | propext, Classical.choice, Quot.sound |
| Padasip.C25_least_squares | propext, Classical.choice, Quot.sound |
| Padasip.C26_noise_free | propext, Classical.choice, Quot.sound |
| Padasip.C26_monotone | propext, Classical.choice, Quot.sound |
| Padasip.C27_memory_window | propext, Classical.choice, Quot.sound |
| Padasip.C28_positive_definite | propext, Classical.choice, Quot.sound |
| Padasip.C28_singular | propext, Classical.choice, Quot.sound |
| Padasip.C28_never_singular | propext, Classical.choice, Quot.sound |
| Padasip.C28_never_singular_history | propext, Classical.choice, Quot.sound |
| Padasip.C29_order_one_is_nlms | propext, Classical.choice, Quot.sound |
| Padasip.C30_monotone | propext, Classical.choice, Quot.sound |
| Padasip.C31_gngd | propext, Classical.choice, Quot.sound |
| Padasip.C31_vslms | propext, Classical.choice, Quot.sound |
| Padasip.C32_increment | propext, Classical.choice, Quot.sound |
| Padasip.C32_not_lms | propext, Classical.choice, Quot.sound |
| Padasip.C33_sslms | propext, Classical.choice, Quot.sound |
| Padasip.C33_nsslms | propext, Classical.choice, Quot.sound |
| Padasip.C34_llncosh | propext, Classical.choice, Quot.sound |
| Padasip.C34_gmcc | propext, Classical.choice, Quot.sound |
| Padasip.C34_gmcc_two | propext, Classical.choice, Quot.sound |
| Padasip.C35_sign_symmetry | propext, Classical.choice, Quot.sound |
| Padasip.C36_column_permutation | propext, Classical.choice, Quot.sound |
| Padasip.C37_lms | propext, Classical.choice, Quot.sound |
| Padasip.C37_nlms | propext, Classical.choice, Quot.sound |
| Padasip.C37_rls | propext, Classical.choice, Quot.sound |
| Padasip.C37_ap | propext, Classical.choice, Quot.sound |
| Padasip.C38_run | propext, Classical.choice, Quot.sound |
| Padasip.C38_for_ever | propext, Classical.choice, Quot.sound |
| Padasip.C39_eps_negative | propext, Classical.choice, Quot.sound |
| Padasip.C39_denominator_zero | propext, Classical.choice, Quot.sound |
| Padasip.C39_positive_step | propext, Classical.choice, Quot.sound |
| Padasip.C39_sufficient | propext, Classical.choice, Quot.sound |
| Padasip.C40_update_memory | propext, Classical.choice, Quot.sound |
| Padasip.C40_predict_advances | propext, Quot.sound |
| Padasip.C40_predict_value | propext, Quot.sound |
| Padasip.C40_index | propext, Classical.choice, Quot.sound |
| Padasip.C40_slot | propext, Classical.choice, Quot.sound |
| Padasip.C40_half_unused | propext, Classical.choice, Quot.sound |
| Padasip.C40_stored_target_wrong | propext, Classical.choice, Quot.sound |
| Padasip.C40_mem_one | propext, Classical.choice, Quot.sound |
| Padasip.C40_clear_memory | propext, Quot.sound |
| Padasip.C40_clear_memory_predict | propext, Classical.choice, Quot.sound |
| Padasip.C41_mean_matters | propext, Classical.choice, Quot.sound |
| Padasip.C42_keys_distinct | none |
| Padasip.C42_get_filter | propext, Quot.sound |
| Padasip.C42_unknown | propext, Quot.sound |
| Padasip.C42_reachable | propext, Quot.sound |
| Padasip.C42_entry_points | propext, Quot.sound |
| Padasip.C42_any_case | propext, Quot.sound |
| Padasip.C43_type_error | propext, Classical.choice, Quot.sound |
| Padasip.C43_from_n_alone | propext, Classical.choice, Quot.sound |
| Padasip.C43_from_n_and_mu | propext, Quot.sound |
| Padasip.C43_default_model | propext, Classical.choice, Quot.sound |
| Padasip.C43_missing_n | propext, Quot.sound |
| Padasip.C43_errors | propext, Quot.sound |
| Padasip.C44_filter_data | propext, Quot.sound |
| Padasip.C44_n_is_ignored | propext, Quot.sound |
| Padasip.C44_first_row | propext, Classical.choice, Quot.sound |
| Padasip.C45_lengths | propext |
| Padasip.C45_difference | propext |
| Padasip.C45_total | propext, Quot.sound |
| Padasip.C45_symmetric | propext, Classical.choice, Quot.sound |
| Padasip.C45_shift | propext, Classical.choice, Quot.sound |
| Padasip.C46_nonneg | propext, Classical.choice, Quot.sound |
| Padasip.C46_definite | propext, Classical.choice, Quot.sound |
| Padasip.C46_zero_iff_equal | propext, Classical.choice, Quot.sound |
| Padasip.C46_scale | propext, Classical.choice, Quot.sound |
| Padasip.C47_square | propext, Classical.choice, Quot.sound |
| Padasip.C47_order | propext, Classical.choice, Quot.sound |
| Padasip.C48_triangle | propext, Classical.choice, Quot.sound |
| Padasip.C49_dispatch | propext, Classical.choice, Quot.sound |
| Padasip.C49_rejected | propext, Classical.choice, Quot.sound |
| Padasip.C50_value | propext, Classical.choice, Quot.sound |
| Padasip.C50_twenty_db | propext, Classical.choice, Quot.sound |
| Padasip.C51_exact | propext, Classical.choice, Quot.sound |
| Padasip.C51_right_iff | propext, Classical.choice, Quot.sound |
| Padasip.C51_lengths | propext, Classical.choice, Quot.sound |
| Padasip.C51_mae | propext, Classical.choice, Quot.sound |
| Padasip.C51_witnesses | propext, Classical.choice, Quot.sound |
| Padasip.C52_exact | propext, Classical.choice, Quot.sound |
| Padasip.C52_below_range | propext, Classical.choice, Quot.sound |
| Padasip.C52_diverges | propext, Classical.choice, Quot.sound |
| Padasip.C52_default_diverges | propext, Classical.choice, Quot.sound |
| Padasip.C53_windows | propext, Quot.sound |
| Padasip.C53_injective | propext, Quot.sound |
| Padasip.C53_overlap | propext, Quot.sound |
| Padasip.C53_last_column | propext, Quot.sound |
| Padasip.C54_invalid | propext |
| Padasip.C54_too_long | propext, Quot.sound |
| Padasip.C54_total | propext, Quot.sound |
| Padasip.C55_back_of_standardize | propext, Classical.choice, Quot.sound |
| Padasip.C55_standardize_of_back | propext, Classical.choice, Quot.sound |
| Padasip.C55_defaults | propext, Classical.choice, Quot.sound |
| Padasip.C55_length | propext, Classical.choice, Quot.sound |
| Padasip.C56_std_zero_iff | propext, Classical.choice, Quot.sound |
| Padasip.C56_zero_mean_unit_std | propext, Classical.choice, Quot.sound |
| Padasip.C56_idempotent | propext, Classical.choice, Quot.sound |
| Padasip.C56_affine_invariant | propext, Classical.choice, Quot.sound |
| Padasip.C56_constant | propext, Quot.sound |
| Padasip.C57_projection | propext, Classical.choice, Quot.sound |
| Padasip.C57_default | propext, Classical.choice, Quot.sound |
| Padasip.C57_too_many | propext, Classical.choice, Quot.sound |
| Padasip.C57_negative | propext, Classical.choice, Quot.sound |
| Padasip.C57_degenerate | propext, Classical.choice, Quot.sound |
| Padasip.C57_components | propext, Classical.choice, Quot.sound |
| Padasip.C58_uncorrelated | propext, Classical.choice, Quot.sound |
| Padasip.C58_maximal | propext, Classical.choice, Quot.sound |
| Padasip.C58_nonneg | propext, Classical.choice, Quot.sound |
| Padasip.C58_orthonormal_of_distinct | propext, Classical.choice, Quot.sound |
| Padasip.C58_not_centred | propext, Classical.choice, Quot.sound |
| Padasip.C58_contract_satisfiable | propext, Classical.choice, Quot.sound |
| Padasip.C59_decomposition | propext, Classical.choice, Quot.sound |
| Padasip.C59_symmetric | propext, Classical.choice, Quot.sound |
| Padasip.C59_semidefinite | propext, Classical.choice, Quot.sound |
| Padasip.C59_class_order | propext, Classical.choice, Quot.sound |
| Padasip.C59_hash_independent | propext, Classical.choice, Quot.sound |
| Padasip.C59_permute_rename | propext, Classical.choice, Quot.sound |
| Padasip.C59_lda_permute_rename | propext, Classical.choice, Quot.sound |
| Padasip.C60_projection | propext, Classical.choice, Quot.sound |
| Padasip.C60_default | propext, Classical.choice, Quot.sound |
| Padasip.C60_discriminants | propext, Classical.choice, Quot.sound |
| Padasip.C60_singular | propext, Classical.choice, Quot.sound |
| Padasip.C60_nonneg | propext, Classical.choice, Quot.sound |
| Padasip.C61_unknown_function | propext |
| Padasip.C61_sum | propext, Classical.choice, Quot.sound |
| Padasip.C61_max | propext, Classical.choice, Quot.sound |
| Padasip.C61_no_weights | propext, Classical.choice, Quot.sound |
| Padasip.C61_bounds | propext, Classical.choice, Quot.sound |
| Padasip.C62_mismatch | propext, Classical.choice, Quot.sound |
| Padasip.C62_length | propext, Classical.choice, Quot.sound |
| Padasip.C63_increment | propext, Classical.choice, Quot.sound |
| Padasip.C63_fraction | propext, Classical.choice, Quot.sound |
| Padasip.C63_antitone | propext, Classical.choice, Quot.sound |
| Padasip.C63_antitone_fails_early | propext, Classical.choice, Quot.sound |
| Padasip.C63_api | propext, Classical.choice, Quot.sound |
| Padasip.C64_direct | propext, Classical.choice, Quot.sound |
| Padasip.C64_negative_order | propext |
| Padasip.C65_multiscale | propext, Classical.choice, Quot.sound |
| Padasip.C65_direct | propext, Classical.choice, Quot.sound |
| Padasip.C66_shift | propext, Classical.choice, Quot.sound |
| Padasip.C66_early_rows_use_raw_weights | propext, Classical.choice, Quot.sound |
| Padasip.C66_shift_direct | propext, Classical.choice, Quot.sound |
| Padasip.C67_scale | propext, Classical.choice, Quot.sound |
| Padasip.C68_length | propext, Classical.choice, Quot.sound |
| Padasip.C68_window | propext, Classical.choice, Quot.sound |
| Padasip.C68_unknown_method | propext, Classical.choice, Quot.sound |
| Padasip.C68_documented_30 | propext, Classical.choice, Quot.sound |
| Padasip.C68_window_zero | propext, Classical.choice, Quot.sound |
| Padasip.C68_succeeds | propext, Classical.choice, Quot.sound |
| Padasip.C69_bounds | propext, Classical.choice, Quot.sound |
| Padasip.C69_unsurprising | propext, Classical.choice, Quot.sound |
| Padasip.C70_top | propext, Classical.choice, Quot.sound |
| Padasip.C70_count | propext, Classical.choice, Quot.sound |
| Padasip.C70_exact_bounds | propext, Classical.choice, Quot.sound |
| Padasip.C70_log10log10_ten | propext, Classical.choice, Quot.sound |
| Padasip.C71_mse | propext, Classical.choice, Quot.sound |
| Padasip.C71_mean_iff | propext, Classical.choice, Quot.sound |
| Padasip.C72_train | propext, Classical.choice, Quot.sound |
| Padasip.C72_epochs_add | propext, Quot.sound |
| Padasip.C72_shuffle | propext, Classical.choice, Quot.sound |
| Padasip.C73_activation | propext, Classical.choice, Quot.sound |
| Padasip.C73_range | propext, Classical.choice, Quot.sound |
| Padasip.C73_derivative | propext, Classical.choice, Quot.sound |
| Padasip.C74_bias | propext, Classical.choice, Quot.sound |
| Padasip.C74_bias_init | propext, Classical.choice, Quot.sound |
| Padasip.C74_output1 | propext, Classical.choice, Quot.sound |
| Padasip.C74_gradient | propext, Classical.choice, Quot.sound |
| Padasip.C75_output2 | propext, Classical.choice, Quot.sound |
| Padasip.C75_several_outputs | propext, Classical.choice, Quot.sound |
| Padasip.C75_two_layers | propext, Classical.choice, Quot.sound |
| Padasip.C75_several_outputs_never | propext, Classical.choice, Quot.sound |
| Padasip.C75_several_outputs_witness | propext, Classical.choice, Quot.sound |
| Padasip.C75_two_layers_witness | propext, Classical.choice, Quot.sound |
| Padasip.C76_predict | propext |
| Padasip.C76_predict_independent | propext, Quot.sound |
| Padasip.C76_run_weights | propext |
| Padasip.C76_run | propext, Quot.sound |
| Padasip.C76_run_rows | propext, Quot.sound |
| Padasip.C76_test | propext, Quot.sound |
| Padasip.C76_test_run | propext, Quot.sound |
| Padasip.C76_run_broadcasts | propext, Quot.sound |
| Padasip.C77_rejected | propext |
| Padasip.C77_lengths | propext |
| Padasip.C77_width | propext, Classical.choice, Quot.sound |
| Padasip.C77_target | propext, Classical.choice, Quot.sound |
| Padasip.C77_accepted | propext, Classical.choice, Quot.sound |
| Padasip.C77_accepted_iff | propext, Classical.choice, Quot.sound |
| Padasip.C78_copies | propext, Classical.choice, Quot.sound |
| Padasip.C78_run | propext, Classical.choice, Quot.sound |
| Padasip.C78_buffer | propext, Classical.choice, Quot.sound |
| Padasip.C78_keeps_reference | propext, Quot.sound |
| Padasip.C78_constructed | propext, Quot.sound |
| Padasip.C78_witness | propext, Classical.choice, Quot.sound |
| Padasip.C79_frame | propext, Classical.choice, Quot.sound |
| Padasip.C79_init_weights | propext, Classical.choice, Quot.sound |
| Padasip.C79_returned | propext, Classical.choice, Quot.sound |
| Padasip.C80_causal | propext, Classical.choice, Quot.sound |
| Padasip.C80_shift | propext, Classical.choice, Quot.sound |
| Padasip.C80_first_sample_uses_raw_weights | propext, Classical.choice, Quot.sound |
| Padasip.C81_orthogonal | propext, Classical.choice, Quot.sound |
| Padasip.C81_sslms_not_invariant | propext, Classical.choice, Quot.sound |
| Padasip.C82_units | propext, Classical.choice, Quot.sound |
| Padasip.C82_needs_parameters | propext, Classical.choice, Quot.sound |
| Padasip.C83_lmf | propext, Classical.choice, Quot.sound |
| Padasip.C83_lmf_criterion | propext, Classical.choice, Quot.sound |
| Padasip.C83_nlmf | propext, Classical.choice, Quot.sound |
| Padasip.C83_nlms | propext, Classical.choice, Quot.sound |
| Padasip.C83_gngd | propext, Classical.choice, Quot.sound |
| Padasip.C83_vslms_mathews | propext, Classical.choice, Quot.sound |
| Padasip.C83_vslms_ang | propext, Classical.choice, Quot.sound |
| Padasip.C83_vslms_benveniste | propext, Classical.choice, Quot.sound |
| Padasip.C83_sslms | propext, Classical.choice, Quot.sound |
| Padasip.C83_sslms_criterion | propext, Classical.choice, Quot.sound |
| Padasip.C83_nsslms | propext, Classical.choice, Quot.sound |
| Padasip.C83_rls | propext, Classical.choice, Quot.sound |
| Padasip.C83_ap | propext, Classical.choice, Quot.sound |
| Padasip.C83_llncosh | propext, Classical.choice, Quot.sound |
| Padasip.C83_llncosh_criterion | propext, Classical.choice, Quot.sound |
| Padasip.C83_gmcc_two | propext, Classical.choice, Quot.sound |
| Padasip.C83_gmcc_criterion | propext, Classical.choice, Quot.sound |
| Padasip.C83_lmf_diverges | propext, Classical.choice, Quot.sound |
| Padasip.C83_sslms_oscillates | propext, Classical.choice, Quot.sound |
| Padasip.C84_nlms | propext, Classical.choice, Quot.sound |
| Padasip.C84_nlms_minimal_change | propext, Classical.choice, Quot.sound |
| Padasip.C84_ap | propext, Classical.choice, Quot.sound |
| Padasip.C85_robust | propext, Classical.choice, Quot.sound |
| Padasip.C85_misalignment | propext, Classical.choice, Quot.sound |
| Padasip.C86_rls_order | propext, Classical.choice, Quot.sound |
| Padasip.C86_lms_order_matters | propext, Classical.choice, Quot.sound |
| Padasip.C87_lms | propext, Classical.choice, Quot.sound |
| Padasip.C87_nlms | propext, Classical.choice, Quot.sound |
| Padasip.C87_lms_converges | propext, Classical.choice, Quot.sound |
| Padasip.C87_nlms_converges | propext, Classical.choice, Quot.sound |
| Padasip.C88_predict | propext, Classical.choice, Quot.sound |
| Padasip.C88_any_order | propext, Classical.choice, Quot.sound |
| Padasip.C88_double | propext, Classical.choice, Quot.sound |
| Padasip.C89_series | propext, Classical.choice, Quot.sound |
| Padasip.C89_two_series | propext, Classical.choice, Quot.sound |
| Padasip.C90_lms | propext, Classical.choice, Quot.sound |
| Padasip.C90_nlms | propext, Classical.choice, Quot.sound |
| Padasip.C91_lms | propext, Classical.choice, Quot.sound |
| Padasip.C91_lmf | propext, Classical.choice, Quot.sound |
| Padasip.C91_nlms | propext, Classical.choice, Quot.sound |
| Padasip.C91_nlmf | propext, Classical.choice, Quot.sound |
| Padasip.C91_sslms | propext, Classical.choice, Quot.sound |
| Padasip.C91_nsslms | propext, Classical.choice, Quot.sound |
| Padasip.C91_llncosh | propext, Classical.choice, Quot.sound |
| Padasip.C91_gmcc | propext, Classical.choice, Quot.sound |
| Padasip.C91_gngd | propext, Classical.choice, Quot.sound |
| Padasip.C91_mathews | propext, Classical.choice, Quot.sound |
| Padasip.C91_ang | propext, Classical.choice, Quot.sound |
| Padasip.C91_benveniste | propext, Classical.choice, Quot.sound |
| Padasip.C91_rls | propext, Classical.choice, Quot.sound |
| Padasip.C91_ap | propext, Classical.choice, Quot.sound |
| Padasip.C91_ocnlms | propext, Classical.choice, Quot.sound |
| Padasip.C91_sslms_exception | propext, Classical.choice, Quot.sound |
| Padasip.C92_construct | propext, Classical.choice, Quot.sound |
| Padasip.C92_entry_points | propext, Classical.choice, Quot.sound |
| Padasip.C93_ap_order_zero | propext, Quot.sound |
| Padasip.C93_memory_methods | propext, Quot.sound |
| Padasip.C93_ocnlms_mem_zero | propext, Quot.sound |
| Padasip.C93_accepted | propext, Quot.sound |
| Padasip.C94_lms_rate | propext, Classical.choice, Quot.sound |
| Padasip.C94_nlms_rate | propext, Classical.choice, Quot.sound |
| Padasip.C94_rls_bound | propext, Classical.choice, Quot.sound |
| Padasip.C94_rls_rate | propext, Classical.choice, Quot.sound |
| Padasip.C94_rls_forgetting | propext, Classical.choice, Quot.sound |
| Padasip.C94_lms_identifies | propext, Classical.choice, Quot.sound |
| Padasip.C94_nlms_identifies | propext, Classical.choice, Quot.sound |
| Padasip.C94_rls_identifies | propext, Classical.choice, Quot.sound |
| Padasip.C94_ap_identifies | propext, Classical.choice, Quot.sound |
| Padasip.C95_lms_span | propext, Classical.choice, Quot.sound |
| Padasip.C95_lms_orthogonal | propext, Classical.choice, Quot.sound |
| Padasip.C95_lmf_span | propext, Classical.choice, Quot.sound |
| Padasip.C95_lmf_orthogonal | propext, Classical.choice, Quot.sound |
| Padasip.C95_nlms_span | propext, Classical.choice, Quot.sound |
| Padasip.C95_nlms_orthogonal | propext, Classical.choice, Quot.sound |
| Padasip.C95_nlmf_span | propext, Classical.choice, Quot.sound |
| Padasip.C95_nlmf_orthogonal | propext, Classical.choice, Quot.sound |
| Padasip.C95_gngd_span | propext, Classical.choice, Quot.sound |
| Padasip.C95_gngd_orthogonal | propext, Classical.choice, Quot.sound |
| Padasip.C95_mathews_span | propext, Classical.choice, Quot.sound |
| Padasip.C95_mathews_orthogonal | propext, Classical.choice, Quot.sound |
| Padasip.C95_ang_span | propext, Classical.choice, Quot.sound |
| Padasip.C95_ang_orthogonal | propext, Classical.choice, Quot.sound |
| Padasip.C95_benveniste_span | propext, Classical.choice, Quot.sound |
| Padasip.C95_benveniste_orthogonal | propext, Classical.choice, Quot.sound |
| Padasip.C95_rls_span | propext, Classical.choice, Quot.sound |
| Padasip.C95_rls_orthogonal | propext, Classical.choice, Quot.sound |
| Padasip.C95_ap_orthogonal | propext, Classical.choice, Quot.sound |
| Padasip.C95_ocnlms_orthogonal | propext, Classical.choice, Quot.sound |
| Padasip.C95_ap_span | propext, Classical.choice, Quot.sound |
| Padasip.C95_ocnlms_span | propext, Classical.choice, Quot.sound |
| Padasip.C95_sslms_leaves_span | propext, Classical.choice, Quot.sound |
| Padasip.C95_nsslms_leaves_span | propext, Classical.choice, Quot.sound |
| Padasip.C95_sslms_dead_component | propext, Classical.choice, Quot.sound |
| Padasip.C95_nsslms_dead_component | propext, Classical.choice, Quot.sound |
| Padasip.C95_gmcc_span | propext, Classical.choice, Quot.sound |
| Padasip.C95_gmcc_orthogonal | propext, Classical.choice, Quot.sound |
| Padasip.C95_llncosh_span | propext, Classical.choice, Quot.sound |
| Padasip.C95_llncosh_orthogonal | propext, Classical.choice, Quot.sound |
| Padasip.C96_history_is_data | propext, Quot.sound |
| Padasip.C96_untrimmed_target_rejected | propext, Quot.sound |
| Padasip.C96_too_short | propext, Quot.sound |
| Padasip.C96_fir_is_linear | propext, Classical.choice, Quot.sound |
| Padasip.C96_alignment | propext, Classical.choice, Quot.sound |
| Padasip.C96_bias_is_affine | propext, Classical.choice, Quot.sound |
| Padasip.C96_nlms_fir | propext, Classical.choice, Quot.sound |
| Padasip.C96_perfect | propext, Classical.choice, Quot.sound |
| Padasip.C96_nlms_identifies | propext, Classical.choice, Quot.sound |
| Padasip.C97_sslms_diverges | propext, Classical.choice, Quot.sound |
| Padasip.C97_nsslms_diverges | propext, Classical.choice, Quot.sound |
| Padasip.C97_sslms_error_explodes | propext, Classical.choice, Quot.sound |
| Padasip.C97_nsslms_error_explodes | propext, Classical.choice, Quot.sound |
| Padasip.C97_lms_learns | propext, Classical.choice, Quot.sound |
| Padasip.C97_nlms_learns | propext, Classical.choice, Quot.sound |
| Padasip.C98_lmf_learns_iff | propext, Classical.choice, Quot.sound |
| Padasip.C98_lmf_explodes | propext, Classical.choice, Quot.sound |
| Padasip.C98_lmf_no_safe_step | propext, Classical.choice, Quot.sound |
| Padasip.C98_nlmf_learns_iff | propext, Classical.choice, Quot.sound |
| Padasip.C98_nlmf_explodes | propext, Classical.choice, Quot.sound |
| Padasip.C98_lmf_safe_region | propext, Classical.choice, Quot.sound |
| Padasip.C98_nlmf_safe_region | propext, Classical.choice, Quot.sound |
| Padasip.C99_gngd | propext, Classical.choice, Quot.sound |
| Padasip.C99_gngd_monotone | propext, Classical.choice, Quot.sound |
| Padasip.C99_vslms_mathews | propext, Classical.choice, Quot.sound |
| Padasip.C99_vslms_ang | propext, Classical.choice, Quot.sound |
| Padasip.C99_vslms_benveniste | propext, Classical.choice, Quot.sound |
| Padasip.C99_lmf | propext, Classical.choice, Quot.sound |
| Padasip.C99_nlmf | propext, Classical.choice, Quot.sound |
| Padasip.C99_nlms | propext, Classical.choice, Quot.sound |
| Padasip.C99_lms | propext, Classical.choice, Quot.sound |
| Padasip.C99_llncosh_monotone | propext, Classical.choice, Quot.sound |
| Padasip.C99_llncosh_error_vanishes | propext, Classical.choice, Quot.sound |
| Padasip.C99_gmcc_monotone | propext, Classical.choice, Quot.sound |
| Padasip.C99_gmcc_error_vanishes | propext, Classical.choice, Quot.sound |
| Padasip.C99_lmf_error_vanishes | propext, Classical.choice, Quot.sound |
| Padasip.C100_lms_regret | propext, Classical.choice, Quot.sound |
| Padasip.C100_nlms_regret | propext, Classical.choice, Quot.sound |
| Padasip.C100_rls_identity | propext, Classical.choice, Quot.sound |
| Padasip.C100_rls_regret | propext, Classical.choice, Quot.sound |
| Padasip.C100_rls_log_regret | propext, Classical.choice, Quot.sound |
| Padasip.C100_llncosh_regret | propext, Classical.choice, Quot.sound |
| Padasip.C101_lms_tracking | propext, Classical.choice, Quot.sound |
| Padasip.C101_lms_steady_state | propext, Classical.choice, Quot.sound |
| Padasip.C101_nlms_tracking | propext, Classical.choice, Quot.sound |
| Padasip.C101_nlms_steady_state | propext, Classical.choice, Quot.sound |
| Padasip.C101_rate | propext, Classical.choice, Quot.sound |
| Padasip.C101_drift_without_excitation | propext, Classical.choice, Quot.sound |
| Padasip.C102_accepts | propext, Classical.choice, Quot.sound |
| Padasip.C102_exceptions | propext, Classical.choice, Quot.sound |
| Padasip.C102_new | propext, Classical.choice, Quot.sound |
| Padasip.C102_mu_number | propext, Classical.choice, Quot.sound |
| Padasip.C102_mu_string | propext, Classical.choice, Quot.sound |
| Padasip.C102_fresh_raises | propext, Classical.choice, Quot.sound |
| Padasip.C102_mu_auto | propext, Classical.choice, Quot.sound |
| Padasip.C102_fresh_weights | propext, Classical.choice, Quot.sound |
| Padasip.C102_fresh_witness | propext, Classical.choice, Quot.sound |
| Padasip.C103_descent | propext, Classical.choice, Quot.sound |
| Padasip.C103_descent_two_layers | propext, Classical.choice, Quot.sound |
| Padasip.C103_first_step | propext, Classical.choice, Quot.sound |
| Padasip.C103_auto_not_safe | propext, Classical.choice, Quot.sound |
| Padasip.C104_bounded | propext, Classical.choice, Quot.sound |
| Padasip.C104_unreachable | propext, Classical.choice, Quot.sound |
| Padasip.C104_sensitivity | propext, Classical.choice, Quot.sound |
| Padasip.C104_sensitivity_one | propext, Classical.choice, Quot.sound |
| Padasip.C104_ignored_input | propext, Classical.choice, Quot.sound |
| Padasip.C105_step | propext, Classical.choice, Quot.sound |
| Padasip.C105_train | propext, Classical.choice, Quot.sound |
| Padasip.C105_run_test | propext, Classical.choice, Quot.sound |
| Padasip.C105_new | propext, Classical.choice, Quot.sound |
| Padasip.C105_twins | propext, Classical.choice, Quot.sound |
| Padasip.C106_update_iff | propext, Classical.choice, Quot.sound |
| Padasip.C106_fits | propext, Classical.choice, Quot.sound |
| Padasip.C106_mu_zero | propext, Classical.choice, Quot.sound |
| Padasip.C106_zero_output_weights | propext, Classical.choice, Quot.sound |
| Padasip.C107_most_variance | propext, Classical.choice, Quot.sound |
| Padasip.C107_least_loss | propext, Classical.choice, Quot.sound |
| Padasip.C107_total | propext, Classical.choice, Quot.sound |
| Padasip.C107_solver_independent | propext, Classical.choice, Quot.sound |
| Padasip.C107_similarity | propext, Classical.choice, Quot.sound |
| Padasip.C107_shift | propext, Classical.choice, Quot.sound |
| Padasip.C107_reorder | propext, Classical.choice, Quot.sound |
| Padasip.C108_ratio | propext, Classical.choice, Quot.sound |
| Padasip.C108_fisher | propext, Classical.choice, Quot.sound |
| Padasip.C108_uncorrelated | propext, Classical.choice, Quot.sound |
| Padasip.C108_rank | propext, Classical.choice, Quot.sound |
| Padasip.C108_contract_satisfiable | propext, Classical.choice, Quot.sound |
| Padasip.C109_affine | propext, Classical.choice, Quot.sound |
| Padasip.C109_solver_independent | propext, Classical.choice, Quot.sound |
| Padasip.C109_shift | propext, Classical.choice, Quot.sound |
| Padasip.C110_column | propext, Quot.sound |
| Padasip.C110_wide | propext, Classical.choice, Quot.sound |
| Padasip.C110_wide_ocnlms | propext, Classical.choice, Quot.sound |
| Padasip.C110_wide_ap | propext, Classical.choice, Quot.sound |
| Padasip.C111_series | propext |
| Padasip.C111_mae_column | propext, Classical.choice, Quot.sound |
| Padasip.C111_mae_column_wrong | propext, Classical.choice, Quot.sound |
| Padasip.C111_mse_column | propext, Classical.choice, Quot.sound |
| Padasip.C111_mse_column_negative | propext, Classical.choice, Quot.sound |
| Padasip.C111_columns | propext, Classical.choice, Quot.sound |
| Padasip.C111_mismatch | propext, Classical.choice, Quot.sound |
| Padasip.C111_tables | propext, Classical.choice, Quot.sound |
| Padasip.C111_trap | propext, Classical.choice, Quot.sound |
| Padasip.C112_lms_closer | propext, Classical.choice, Quot.sound |
| Padasip.C112_lms_outputs | propext, Classical.choice, Quot.sound |
| Padasip.C112_lms_rate | propext, Classical.choice, Quot.sound |
| Padasip.C112_nlms_closer | propext, Classical.choice, Quot.sound |
| Padasip.C112_nlms_outputs | propext, Classical.choice, Quot.sound |
| Padasip.C112_nlms_rate | propext, Classical.choice, Quot.sound |
| Padasip.C112_rls_difference | propext, Classical.choice, Quot.sound |
| Padasip.C112_rls_rate | propext, Classical.choice, Quot.sound |
| Padasip.C112_rls_forgetting | propext, Classical.choice, Quot.sound |
| Padasip.C112_ap_closer | propext, Classical.choice, Quot.sound |
| Padasip.C112_lms_forgets | propext, Classical.choice, Quot.sound |
| Padasip.C112_lms_same_outputs | propext, Classical.choice, Quot.sound |
| Padasip.C112_nlms_forgets | propext, Classical.choice, Quot.sound |
| Padasip.C112_nlms_same_outputs | propext, Classical.choice, Quot.sound |
| Padasip.C112_rls_forgets | propext, Classical.choice, Quot.sound |
| Padasip.C112_ap_forgets | propext, Classical.choice, Quot.sound |
| Padasip.C112_llncosh_closer | propext, Classical.choice, Quot.sound |
| Padasip.C113_rls_robust | propext, Classical.choice, Quot.sound |
| Padasip.C113_rls_excited | propext, Classical.choice, Quot.sound |
| Padasip.C113_rls_steady_state | propext, Classical.choice, Quot.sound |
| Padasip.C113_ap_robust | propext, Classical.choice, Quot.sound |
| Padasip.C114_lms | propext, Classical.choice, Quot.sound |
| Padasip.C114_nlms | propext, Classical.choice, Quot.sound |
| Padasip.C114_rls | propext, Classical.choice, Quot.sound |
| Padasip.C114_ap | propext, Classical.choice, Quot.sound |
| Padasip.C115_concat | propext, Classical.choice, Quot.sound |
| Padasip.C115_permute | propext, Classical.choice, Quot.sound |
| Padasip.C115_bias_variance | propext, Classical.choice, Quot.sound |
| Padasip.C115_best_constant_mse | propext, Classical.choice, Quot.sound |
| Padasip.C115_best_constant_mae | propext, Classical.choice, Quot.sound |
| Padasip.C116_valid_error | propext |
| Padasip.C116_series | propext |
| Padasip.C116_number | propext |
| Padasip.C116_first | propext |
| Padasip.C116_trap | propext, Classical.choice, Quot.sound |
| Padasip.C117_one_target_per_weight | propext, Classical.choice, Quot.sound |
| Padasip.C117_one_element | propext, Classical.choice, Quot.sound |
| Padasip.C117_wrong_length | propext, Classical.choice, Quot.sound |
| Padasip.C118_sizes | propext, Classical.choice, Quot.sound |
| Padasip.C118_negative | propext, Classical.choice, Quot.sound |
| Padasip.C119_mathews_explodes | propext, Classical.choice, Quot.sound |
| Padasip.C119_benveniste_explodes | propext, Classical.choice, Quot.sound |
| Padasip.C119_mathews | propext, Classical.choice, Quot.sound |
| Padasip.C119_benveniste | propext, Classical.choice, Quot.sound |
| Padasip.C119_ang | propext, Classical.choice, Quot.sound |
| Padasip.C119_mathews_learns | propext, Classical.choice, Quot.sound |
| Padasip.C119_mathews_negative_step | propext, Classical.choice, Quot.sound |
| Padasip.C120_windup | propext, Classical.choice, Quot.sound |
| Padasip.C120_silence | propext, Classical.choice, Quot.sound |
| Padasip.C120_after_silence | propext, Classical.choice, Quot.sound |
| Padasip.C120_gain_le | propext, Classical.choice, Quot.sound |
| Padasip.C120_gain_bounded | propext, Classical.choice, Quot.sound |
| Padasip.C120_never_off | propext, Classical.choice, Quot.sound |
| Padasip.C120_switches_off | propext, Classical.choice, Quot.sound |
| Padasip.C120_windup_limit | propext, Classical.choice, Quot.sound |
| Padasip.C121_lms | propext, Classical.choice, Quot.sound |
| Padasip.C121_lmf | propext, Classical.choice, Quot.sound |
| Padasip.C121_gmcc | propext, Classical.choice, Quot.sound |
| Padasip.C121_llncosh | propext, Classical.choice, Quot.sound |
| Padasip.C121_sslms | propext, Classical.choice, Quot.sound |
| Padasip.C121_ang | propext, Classical.choice, Quot.sound |
| Padasip.C121_nlms | propext, Classical.choice, Quot.sound |
| Padasip.C121_nlmf | propext, Classical.choice, Quot.sound |
| Padasip.C121_nsslms | propext, Classical.choice, Quot.sound |
| Padasip.C121_mathews | propext, Classical.choice, Quot.sound |
| Padasip.C121_gngd | propext, Classical.choice, Quot.sound |
| Padasip.C121_benveniste | propext, Classical.choice, Quot.sound |
| Padasip.C121_rls | propext, Classical.choice, Quot.sound |
| Padasip.C121_nlms_wraps | propext, Classical.choice, Quot.sound |
| Padasip.C121_rls_wraps | propext, Classical.choice, Quot.sound |
| Padasip.C121_rls_diverges | propext, Classical.choice, Quot.sound |
| Padasip.C121_mathews_stuck | propext, Classical.choice, Quot.sound |
| Padasip.C122_lms_mean | propext, Classical.choice, Quot.sound |
| Padasip.C122_lms_mean_converges | propext, Classical.choice, Quot.sound |
| Padasip.C122_lms_mean_diverges | propext, Classical.choice, Quot.sound |
| Padasip.C122_nlms_mean | propext, Classical.choice, Quot.sound |
| Padasip.C122_nlms_mean_converges | propext, Classical.choice, Quot.sound |
| Padasip.C123_nlms_iid | propext, Classical.choice, Quot.sound |
| Padasip.C123_nlms_almost_surely | propext, Classical.choice, Quot.sound |
| Padasip.C123_lms_almost_surely | propext, Classical.choice, Quot.sound |
| Padasip.C123_lms | propext, Classical.choice, Quot.sound |
| Padasip.C123_nlms | propext, Classical.choice, Quot.sound |
| Padasip.C123_lms_white | propext, Classical.choice, Quot.sound |
| Padasip.C123_lms_white_converges | propext, Classical.choice, Quot.sound |
| Padasip.C123_lms_white_diverges | propext, Classical.choice, Quot.sound |
| Padasip.C123_documented_example | propext, Classical.choice, Quot.sound |
| Padasip.C124_mean_lms | propext, Classical.choice, Quot.sound |
| Padasip.C124_mean_nlms | propext, Classical.choice, Quot.sound |
| Padasip.C124_mean_rls | propext, Classical.choice, Quot.sound |
| Padasip.C124_mean_ap | propext, Classical.choice, Quot.sound |
| Padasip.C124_rls_covariance | propext, Classical.choice, Quot.sound |
| Padasip.C124_rls_mean_square | propext, Classical.choice, Quot.sound |
| Padasip.C124_rls_consistent | propext, Classical.choice, Quot.sound |
| Padasip.C125_metrics | propext, Classical.choice, Quot.sound |
| Padasip.C125_metrics_one | propext, Quot.sound |
| Padasip.C125_standardize | propext, Quot.sound |
| Padasip.C125_elbnd | propext, Classical.choice, Quot.sound |
| Padasip.C125_le_multiscale | propext, Classical.choice, Quot.sound |
| Padasip.C125_le_silent | propext, Classical.choice, Quot.sound |
| Padasip.C125_le_direct | propext, Classical.choice, Quot.sound |
| Padasip.C125_ese_silent | propext, Classical.choice, Quot.sound |
| Padasip.C125_pot | propext, Classical.choice, Quot.sound |
| Padasip.C125_ese_succeeds | propext, Classical.choice, Quot.sound |
| Padasip.C126_input | propext, Quot.sound |
| Padasip.C126_target | propext, Quot.sound |
| Padasip.C126_predict | propext, Quot.sound |
| Padasip.C126_for_ever | propext, Quot.sound |
| Padasip.C126_train | propext, Classical.choice, Quot.sound |
| Padasip.C126_mse_one | propext, Classical.choice, Quot.sound |
| Padasip.C127_le_agrees | propext, Classical.choice, Quot.sound |
| Padasip.C127_le_array_one | propext |
| Padasip.C127_le_array_many | propext |
| Padasip.C127_le_scalar | propext, Classical.choice, Quot.sound |
| Padasip.C127_le_rejects | propext, Classical.choice, Quot.sound |
| Padasip.C127_le_accepts_iff | propext, Classical.choice, Quot.sound |
| Padasip.C127_le_nonpositive | propext, Classical.choice, Quot.sound |
| Padasip.C127_ese_agrees | propext, Classical.choice, Quot.sound |
| Padasip.C127_ese_negative | propext, Quot.sound |
| Padasip.C128_update_many | propext, Quot.sound |
| Padasip.C128_update_one | propext, Classical.choice, Quot.sound |
| Padasip.C128_epochs | propext, Quot.sound |
| Padasip.C128_activation_predict | propext |
| Padasip.C128_activation_run | propext |
| Padasip.C128_activation_update | propext |
| Padasip.C128_activation_no_epoch | propext |
| Padasip.C128_activation_train | propext, Classical.choice, Quot.sound |
| Padasip.C129_dimension | propext, Classical.choice, Quot.sound |
| Padasip.C129_few_samples | propext, Classical.choice, Quot.sound |
| Padasip.C129_distances | propext, Classical.choice, Quot.sound |
| Padasip.C129_pca_real | propext, Classical.choice, Quot.sound |
| Padasip.C129_lda_real | propext, Classical.choice, Quot.sound |
| Padasip.C130_unusable | propext, Classical.choice, Quot.sound |
| Padasip.C130_clear_does_not_help | propext, Classical.choice, Quot.sound |
| Padasip.C130_repair | propext, Classical.choice, Quot.sound |
| Padasip.C130_breaks | propext, Classical.choice, Quot.sound |
| Padasip.C130_predict | propext, Classical.choice, Quot.sound |
| Padasip.C131_run | propext, Classical.choice, Quot.sound |
| Padasip.C131_for_ever | propext, Classical.choice, Quot.sound |
| Padasip.C131_sslms | propext, Classical.choice, Quot.sound |
| Padasip.C131_nsslms | propext, Classical.choice, Quot.sound |
| Padasip.C131_llncosh | propext, Classical.choice, Quot.sound |
| Padasip.C131_gmcc | propext, Classical.choice, Quot.sound |
| Padasip.C132_slope | propext, Classical.choice, Quot.sound |
| Padasip.C132_sign | propext, Classical.choice, Quot.sound |
| Padasip.C132_descent | propext, Classical.choice, Quot.sound |
| Padasip.C132_climbs | propext, Classical.choice, Quot.sound |
| Padasip.C132_climbs_three | propext, Classical.choice, Quot.sound |
| Padasip.C132_climbs_tanh | propext, Classical.choice, Quot.sound |
| Padasip.C132_first_step | propext, Classical.choice, Quot.sound |
| Padasip.C133_loop | propext, Quot.sound |
| Padasip.C133_log | propext, Classical.choice, Quot.sound |
| Padasip.C133_chunks | propext, Quot.sound |
| Padasip.C133_step | propext, Quot.sound |
| Padasip.C133_scalar | propext, Quot.sound |
| Padasip.C133_wrong_length | propext, Quot.sound |
| Padasip.C133_raise | propext, Quot.sound |
| Padasip.C133_wrong_sample | propext |
| Padasip.C133_ap_adapt | propext, Quot.sound |
| Padasip.C133_ap_step | propext, Classical.choice, Quot.sound |
| Padasip.C133_ap_same | propext, Classical.choice, Quot.sound |
| Padasip.C133_base | propext, Classical.choice, Quot.sound |
| Padasip.C133_ap_base | propext, Classical.choice, Quot.sound |
| Padasip.C133_ap_differ | propext, Classical.choice, Quot.sound |
| Padasip.C134_sslms_regret | propext, Classical.choice, Quot.sound |
| Padasip.C134_nsslms_regret | propext, Classical.choice, Quot.sound |
| Padasip.C134_sslms_mean_error | propext, Classical.choice, Quot.sound |
| Padasip.C134_sslms_one_weight | propext, Classical.choice, Quot.sound |
| Padasip.C134_nsslms_one_weight | propext, Classical.choice, Quot.sound |
| Padasip.C135_gmcc | propext, Classical.choice, Quot.sound |
| Padasip.C135_llncosh | propext, Classical.choice, Quot.sound |
| Padasip.C135_sslms | propext, Classical.choice, Quot.sound |
| Padasip.C135_nsslms | propext, Classical.choice, Quot.sound |
| Padasip.C135_lms | propext, Classical.choice, Quot.sound |
| Padasip.C135_lmf | propext, Classical.choice, Quot.sound |
| Padasip.C135_nlms | propext, Classical.choice, Quot.sound |
| Padasip.C135_nlmf | propext, Classical.choice, Quot.sound |
| Padasip.C135_rls | propext, Classical.choice, Quot.sound |
| Padasip.C136_accepted | propext, Quot.sound |
| Padasip.C136_default_size | propext, Quot.sound |
| Padasip.C136_refused | propext, Quot.sound |
| Padasip.C136_predict | propext, Quot.sound |
| Padasip.C136_wrong_input | propext, Quot.sound |
| Padasip.C136_adapt_square | propext, Classical.choice, Quot.sound |
| Padasip.C136_adapt_rejects | propext, Classical.choice, Quot.sound |
| Padasip.C136_run_rejects | propext, Classical.choice, Quot.sound |
| Padasip.C136_one_row | propext, Classical.choice, Quot.sound |
| Padasip.C137_arrays | propext, Quot.sound |
| Padasip.C137_converted | propext, Quot.sound |
| Padasip.C137_rejected | propext, Quot.sound |
| Padasip.C137_wrong_length | propext, Quot.sound |
| Padasip.C137_half_done | propext, Quot.sound |
| Padasip.C137_recovers | propext, Quot.sound |
| Padasip.C137_broken_adapt | propext, Quot.sound |
| Padasip.C137_broken_run | propext, Classical.choice, Quot.sound |
| Padasip.C138_lms | propext, Classical.choice, Quot.sound |
| Padasip.C138_lmf | propext, Classical.choice, Quot.sound |
| Padasip.C138_gmcc | propext, Classical.choice, Quot.sound |
| Padasip.C138_llncosh | propext, Classical.choice, Quot.sound |
| Padasip.C138_ang | propext, Classical.choice, Quot.sound |
| Padasip.C138_benveniste | propext, Classical.choice, Quot.sound |
| Padasip.C138_rls | propext, Classical.choice, Quot.sound |
| Padasip.C138_nlms | propext, Classical.choice, Quot.sound |
| Padasip.C138_nlmf | propext, Classical.choice, Quot.sound |
| Padasip.C138_onehot_nlms | propext, Classical.choice, Quot.sound |
| Padasip.C138_onehot_nlmf | propext, Classical.choice, Quot.sound |
| Padasip.C138_onehot_gngd | propext, Classical.choice, Quot.sound |
| Padasip.C138_mathews | propext, Classical.choice, Quot.sound |
| Padasip.C138_nlms_diverges | propext, Classical.choice, Quot.sound |
| Padasip.C138_sign_adapt | propext, Classical.choice, Quot.sound |
| Padasip.C138_sign_run | propext, Classical.choice, Quot.sound |
| Padasip.C138_sign_floats | propext, Classical.choice, Quot.sound |
| Padasip.C138_two_series | propext, Classical.choice, Quot.sound |
| Padasip.C138_one_series | propext, Classical.choice, Quot.sound |
| Padasip.C139_lms | propext, Classical.choice, Quot.sound |
| Padasip.C139_nlms | propext, Classical.choice, Quot.sound |
| Padasip.C139_lms_bound | propext, Classical.choice, Quot.sound |
| Padasip.C139_nlms_bound | propext, Classical.choice, Quot.sound |
| Padasip.C139_lms_probability | propext, Classical.choice, Quot.sound |
| Padasip.C139_nlms_probability | propext, Classical.choice, Quot.sound |
| Padasip.C139_lms_white | propext, Classical.choice, Quot.sound |
| Padasip.C139_lms_MSE | propext, Classical.choice, Quot.sound |
| Padasip.C139_documented_example | propext, Classical.choice, Quot.sound |
| Padasip.C140_lms | propext, Classical.choice, Quot.sound |
| Padasip.C140_nlms | propext, Classical.choice, Quot.sound |
| Padasip.C140_lms_consistent | propext, Classical.choice, Quot.sound |
| Padasip.C140_nlms_consistent | propext, Classical.choice, Quot.sound |
| Padasip.C140_not_least_squares | propext, Classical.choice, Quot.sound |
| Padasip.C140_rls | propext, Classical.choice, Quot.sound |
| Padasip.C140_lms_pretrained | propext, Classical.choice, Quot.sound |
| Padasip.C140_nlms_pretrained | propext, Classical.choice, Quot.sound |
| Padasip.C141_embedding | propext, Classical.choice, Quot.sound |
| Padasip.C141_zero_columns | propext, Classical.choice, Quot.sound |
| Padasip.C141_repeated_columns | propext, Classical.choice, Quot.sound |
| Padasip.C141_sslms_repeated | propext, Classical.choice, Quot.sound |
| Padasip.C142_delay | propext, Classical.choice, Quot.sound |
| Padasip.C142_elbnd_lms | propext, Classical.choice, Quot.sound |
| Padasip.C142_elbnd_nlms | propext, Classical.choice, Quot.sound |
| Padasip.C142_elbnd_sslms | propext, Classical.choice, Quot.sound |
| Padasip.C142_elbnd_prompt | propext, Classical.choice, Quot.sound |
| Padasip.C142_disturbance | propext, Classical.choice, Quot.sound |
| Padasip.C142_share_of_active_inputs | propext, Classical.choice, Quot.sound |
| Padasip.C143_accepted_iff_independent | propext, Classical.choice, Quot.sound |
| Padasip.C143_interpolates | propext, Classical.choice, Quot.sound |
| Padasip.C143_warm_up | propext, Classical.choice, Quot.sound |
| Padasip.C143_exact_identification | propext, Classical.choice, Quot.sound |
| Padasip.C143_run_returns_iff | propext, Classical.choice, Quot.sound |
| Padasip.C143_run_crash | propext, Classical.choice, Quot.sound |
| Padasip.C143_run_again | propext, Classical.choice, Quot.sound |
| Padasip.C144_gngd_pause_length | propext, Classical.choice, Quot.sound |
| Padasip.C144_mathews_pause_length | propext, Classical.choice, Quot.sound |
| Padasip.C144_silence_removable | propext, Classical.choice, Quot.sound |
| Padasip.C144_silent_sample | propext, Classical.choice, Quot.sound |
| Padasip.C144_pause_matters | propext, Classical.choice, Quot.sound |
| Padasip.C144_memory_filters_move | propext, Classical.choice, Quot.sound |
| Padasip.C145_lms | propext, Classical.choice, Quot.sound |
| Padasip.C145_lmf | propext, Classical.choice, Quot.sound |
| Padasip.C145_nlms | propext, Classical.choice, Quot.sound |
| Padasip.C145_nlmf | propext, Classical.choice, Quot.sound |
| Padasip.C145_gngd | propext, Classical.choice, Quot.sound |
| Padasip.C145_mathews | propext, Classical.choice, Quot.sound |
| Padasip.C145_ang | propext, Classical.choice, Quot.sound |
| Padasip.C145_benveniste | propext, Classical.choice, Quot.sound |
| Padasip.C145_llncosh | propext, Classical.choice, Quot.sound |
| Padasip.C145_gmcc | propext, Classical.choice, Quot.sound |
| Padasip.C145_rls | propext, Classical.choice, Quot.sound |
| Padasip.C145_ap | propext, Classical.choice, Quot.sound |
| Padasip.C145_ocnlms | propext, Classical.choice, Quot.sound |
| Padasip.C145_sslms_jump | propext, Classical.choice, Quot.sound |
| Padasip.C145_nsslms_jump | propext, Classical.choice, Quot.sound |
| Padasip.C145_gmcc_jump | propext, Classical.choice, Quot.sound |
| Padasip.C146_accepted | propext, Classical.choice, Quot.sound |
| Padasip.C146_documented | propext, Classical.choice, Quot.sound |
| Padasip.C146_target_per_weight | propext, Classical.choice, Quot.sound |
| Padasip.C146_number_input | propext, Classical.choice, Quot.sound |
| Padasip.C147_unchanged | propext |
| Padasip.C147_vector | propext, Quot.sound |
| Padasip.C147_number | propext, Quot.sound |
| Padasip.C147_array | propext, Quot.sound |
| Padasip.C147_other_vector | propext |
| Padasip.C147_matrix_of_run | propext, Quot.sound |
| Padasip.C147_transposed | propext, Quot.sound |
| Padasip.C147_square | propext, Classical.choice, Quot.sound |
| Padasip.C148_gngd | propext, Classical.choice, Quot.sound |
| Padasip.C148_mathews | propext, Classical.choice, Quot.sound |
| Padasip.C148_ang | propext, Classical.choice, Quot.sound |
| Padasip.C148_benveniste | propext, Classical.choice, Quot.sound |
| Padasip.C148_step | propext, Classical.choice, Quot.sound |
| Padasip.C148_same_as_numbers | propext, Classical.choice, Quot.sound |
| Padasip.C149_stays_broken | propext, Classical.choice, Quot.sound |
| Padasip.C149_forever | propext, Classical.choice, Quot.sound |
| Padasip.C149_run_sample | propext, Classical.choice, Quot.sound |
| Padasip.C149_breaks | propext, Classical.choice, Quot.sound |
| Padasip.C150_ap_accepted | propext, Classical.choice, Quot.sound |
| Padasip.C150_ap_bad_input | propext, Quot.sound |
| Padasip.C150_ap_bad_target | propext, Classical.choice, Quot.sound |
| Padasip.C150_oc_accepted | propext, Classical.choice, Quot.sound |
| Padasip.C150_oc_rejected | propext, Classical.choice, Quot.sound |
| Padasip.C151_accepted | propext, Classical.choice, Quot.sound |
| Padasip.C151_bad_target | propext, Classical.choice, Quot.sound |
| Padasip.C151_zero_mu | propext, Quot.sound |
| Padasip.C151_number | propext, Quot.sound |
| Padasip.C151_bad_input | propext, Classical.choice, Quot.sound |
| Padasip.C151_wrong_length | propext |
| Padasip.C151_forever | propext, Classical.choice, Quot.sound |
| Padasip.C151_breaks | propext, Classical.choice, Quot.sound |
| Padasip.C151_step | propext, Classical.choice, Quot.sound |
| Padasip.C151_same_as_numbers | propext, Classical.choice, Quot.sound |
| Padasip.C152_standardize | propext, Classical.choice, Quot.sound |
| Padasip.C152_round_trip | propext, Classical.choice, Quot.sound |
| Padasip.C152_default_offset | propext, Classical.choice, Quot.sound |
| Padasip.C152_elbnd | propext, Classical.choice, Quot.sound |
| Padasip.C153_nonneg | propext, Quot.sound |
| Padasip.C153_exceptions | propext, Classical.choice, Quot.sound |
| Padasip.C153_accepts | propext, Classical.choice, Quot.sound |
| Padasip.C154_accepted | propext, Classical.choice, Quot.sound |
| Padasip.C154_rejected | propext, Classical.choice, Quot.sound |
| Padasip.C154_one_accepted | propext, Classical.choice, Quot.sound |
| Padasip.C154_one_rejected | propext, Classical.choice, Quot.sound |
| Padasip.C154_one_damage | propext, Classical.choice, Quot.sound |
| Padasip.C154_predict | propext, Classical.choice, Quot.sound |
| Padasip.C154_series | propext, Classical.choice, Quot.sound |
| Padasip.C155_predict | propext, Classical.choice, Quot.sound |
| Padasip.C155_vanishes | propext, Classical.choice, Quot.sound |
| Padasip.C155_depth | propext, Classical.choice, Quot.sound |
| Padasip.C156_llncosh | propext, Classical.choice, Quot.sound |
| Padasip.C156_lmf | propext, Classical.choice, Quot.sound |
| Padasip.C156_nlmf | propext, Classical.choice, Quot.sound |
| Padasip.C156_sslms | propext, Classical.choice, Quot.sound |
| Padasip.C156_nsslms | propext, Classical.choice, Quot.sound |
| Padasip.C157_train | propext, Classical.choice, Quot.sound |
| Padasip.C157_train_call | propext, Classical.choice, Quot.sound |
| Padasip.C158_lms | propext, Classical.choice, Quot.sound |
| Padasip.C158_lms_for_ever | propext, Classical.choice, Quot.sound |
| Padasip.C158_nlms | propext, Classical.choice, Quot.sound |
| Padasip.C158_nlms_for_ever | propext, Classical.choice, Quot.sound |
| Padasip.C159_lms_tracking | propext, Classical.choice, Quot.sound |
| Padasip.C159_lms_steady_state | propext, Classical.choice, Quot.sound |
| Padasip.C159_nlms_tracking | propext, Classical.choice, Quot.sound |
| Padasip.C159_nlms_steady_state | propext, Classical.choice, Quot.sound |
| Padasip.C160_absorbed | propext, Classical.choice, Quot.sound |
| Padasip.C160_lms_stored | propext, Classical.choice, Quot.sound |
| Padasip.C160_lms_lost | propext, Classical.choice, Quot.sound |
| Padasip.C160_lms_stalled | propext, Classical.choice, Quot.sound |
| Padasip.C160_nlms_stored | propext, Classical.choice, Quot.sound |
| Padasip.C160_nlms_lost | propext, Classical.choice, Quot.sound |
| Padasip.C160_sslms_stored | propext, Classical.choice, Quot.sound |
| Padasip.C160_sslms_frozen | propext, Classical.choice, Quot.sound |
| Padasip.C160_sslms_bounded | propext, Classical.choice, Quot.sound |
| Padasip.C160_never_learns | propext, Classical.choice, Quot.sound |
| Padasip.C161_sigmoid | propext, Classical.choice, Quot.sound |
| Padasip.C161_tanh | propext, Classical.choice, Quot.sound |
| Padasip.C161_node | propext, Classical.choice, Quot.sound |
| Padasip.C161_row | propext, Classical.choice, Quot.sound |
| Padasip.C161_train | propext, Classical.choice, Quot.sound |
| Padasip.C162_error | propext, Classical.choice, Quot.sound |
| Padasip.C162_underflow | propext, Classical.choice, Quot.sound |
| Padasip.C162_predict | propext, Classical.choice, Quot.sound |
| Padasip.C162_lms | propext, Classical.choice, Quot.sound |
| Padasip.C162_lms_step | propext, Classical.choice, Quot.sound |
| Padasip.C162_lms_for_ever | propext, Classical.choice, Quot.sound |
| Padasip.C162_lmf | propext, Classical.choice, Quot.sound |
| Padasip.C162_gmcc_stored | propext, Classical.choice, Quot.sound |
| Padasip.C162_gmcc_outlier | propext, Classical.choice, Quot.sound |
