TorchMPS.C01_shapeBroadcast_ok_iff : Classical.choice Quot.sound propext
TorchMPS.C01_shapeBroadcast_succeeds_iff : Classical.choice Quot.sound propext
TorchMPS.C01_shapeBroadcast_error : Classical.choice Quot.sound propext
TorchMPS.C02_shapeBroadcast_set : Classical.choice Quot.sound propext
TorchMPS.C02_shapeBroadcast_perm : Classical.choice Quot.sound propext
TorchMPS.C02_shapeBroadcast_repeat : Classical.choice Quot.sound propext
TorchMPS.C03_batchBroadcast_ok : Classical.choice Quot.sound propext
TorchMPS.C03_batchBroadcast_value_error : Classical.choice Quot.sound propext
TorchMPS.C03_batchBroadcast_assertion : Quot.sound propext
TorchMPS.C03_batchBroadcast_short : Quot.sound propext
TorchMPS.C04_batchTo_returns : Classical.choice Quot.sound propext
TorchMPS.C04_batchTo_accepts_iff : Classical.choice Quot.sound propext
TorchMPS.C04_batchTo_not_exact : Quot.sound propext
TorchMPS.C04_batchTo_exact : Classical.choice Quot.sound propext
TorchMPS.C04_batchTo_rejects_iff : Classical.choice Quot.sound propext
TorchMPS.C05_bundle_stacks : Classical.choice Quot.sound propext
TorchMPS.C05_bundle_unchanged : Classical.choice Quot.sound propext
TorchMPS.C05_bundle_single_iff : Classical.choice Quot.sound propext
TorchMPS.C06_cindex : Classical.choice Quot.sound propext
TorchMPS.C06_phaseify : Classical.choice Quot.sound propext
TorchMPS.C06_hermitianTrace : Classical.choice Quot.sound propext
TorchMPS.C06_realify : Classical.choice Quot.sound propext
TorchMPS.C06_realify_rejects : Classical.choice Quot.sound propext
TorchMPS.C07_largest_below_iff : Classical.choice Quot.sound propext
TorchMPS.C07_documented_iff : Classical.choice Quot.sound propext
TorchMPS.C07_floor2_value : Classical.choice Quot.sound propext
TorchMPS.C07_floor2_mono : Classical.choice Quot.sound propext
TorchMPS.C07_floor2_wrong : Classical.choice Quot.sound propext
TorchMPS.C08_matReducePar_value : Classical.choice Quot.sound propext
TorchMPS.C08_matReducePar_exact : Classical.choice Quot.sound propext
TorchMPS.C08_matReducePar_empty : Classical.choice Quot.sound propext
TorchMPS.C09_matReduceSeq_value : Classical.choice Quot.sound propext
TorchMPS.C09_matReduceSeq_exact : Classical.choice Quot.sound propext
TorchMPS.C09_matReduceSeq_square : Classical.choice Quot.sound propext
TorchMPS.C10_contractMatseq_log : Classical.choice Quot.sound propext
TorchMPS.C10_contractMatseq_value : Classical.choice Quot.sound propext
TorchMPS.C10_strategies_agree : Classical.choice Quot.sound propext
TorchMPS.C11_batch_independent : Classical.choice Quot.sound propext
TorchMPS.C12_nan_iff : Classical.choice Quot.sound propext
TorchMPS.C12_value_exact : Classical.choice Quot.sound propext
TorchMPS.C12_zero_not_returned : Classical.choice Quot.sound propext
TorchMPS.C13_empty_identity : Classical.choice Quot.sound propext
TorchMPS.C13_empty_left : Classical.choice Quot.sound propext
TorchMPS.C13_empty_right : Classical.choice Quot.sound propext
TorchMPS.C13_empty_both : Classical.choice Quot.sound propext
TorchMPS.C13_empty_list : Classical.choice Quot.sound propext
TorchMPS.C14_index_uniform : Classical.choice Quot.sound propext
TorchMPS.C14_index_sites : Classical.choice Quot.sound propext
TorchMPS.C14_vector_uniform : Classical.choice Quot.sound propext
TorchMPS.C14_vector_sites : Classical.choice Quot.sound propext
TorchMPS.C14_onehot : Classical.choice Quot.sound propext
TorchMPS.C14_uniform_repeat : Classical.choice Quot.sound propext
TorchMPS.C14_index_out_of_range : Classical.choice Quot.sound propext
TorchMPS.C15_index_accepts_iff : Classical.choice Quot.sound propext
TorchMPS.C15_vector_accepts_iff : Classical.choice Quot.sound propext
TorchMPS.C15_vector_value : Classical.choice Quot.sound propext
TorchMPS.C15_short_accepted : Classical.choice Quot.sound propext
TorchMPS.C15_long_rejected : Classical.choice Quot.sound propext
TorchMPS.C15_vector_rejected : Classical.choice Quot.sound propext
TorchMPS.C15_vector_length_one_accepted : Classical.choice Quot.sound propext
TorchMPS.C15_slim_rejected : Classical.choice Quot.sound propext
TorchMPS.C16_slim_value : Classical.choice Quot.sound propext
TorchMPS.C16_slim_nan_iff : Classical.choice Quot.sound propext
TorchMPS.C16_slim_empty : Classical.choice Quot.sound propext
TorchMPS.C17_log_norm : Classical.choice Quot.sound propext
TorchMPS.C17_log_norm_zero : Classical.choice Quot.sound propext
TorchMPS.C18_log_norm_lambda : Classical.choice Quot.sound propext
TorchMPS.C18_log_norm_lambda_zero : Classical.choice Quot.sound propext
TorchMPS.C18_log_norm_signed : Classical.choice Quot.sound propext
TorchMPS.C18_hermitian_family : Classical.choice Quot.sound propext
TorchMPS.C19_core_rank : Classical.choice Quot.sound propext
TorchMPS.C19_bond_mismatch : Classical.choice Quot.sound propext
TorchMPS.C19_length_mismatch : Classical.choice Quot.sound propext
TorchMPS.C19_length_missing : Classical.choice Quot.sound propext
TorchMPS.C19_lambda_rank : Classical.choice Quot.sound propext
TorchMPS.C19_arbitrary_length : Classical.choice Quot.sound propext
TorchMPS.C19_accepted : Classical.choice Quot.sound propext
TorchMPS.C20_near_eye_init : Classical.choice Quot.sound propext
TorchMPS.C20_near_eye_init_noiseless : Classical.choice Quot.sound propext
TorchMPS.C20_normal_init : Classical.choice Quot.sound propext
TorchMPS.C20_rejects : Classical.choice Quot.sound propext
TorchMPS.C21_forward_exact : Classical.choice Quot.sound propext
TorchMPS.C21_born_rule : Classical.choice Quot.sound propext
TorchMPS.C21_refused_zero : Classical.choice Quot.sound propext
TorchMPS.C22_probabilities_sum_to_one : Classical.choice Quot.sound propext
TorchMPS.C23_uniform_sum_to_one : Classical.choice Quot.sound propext
TorchMPS.C24_log_prob_nonpos : Classical.choice Quot.sound propext
TorchMPS.C24_loss : Classical.choice Quot.sound propext
TorchMPS.C25_strategies_agree : Classical.choice Quot.sound propext
TorchMPS.C25_default_implies_others : Classical.choice Quot.sound propext
TorchMPS.C25_zero_amplitude_differs : Classical.choice Quot.sound propext
TorchMPS.C26_batch_elements_independent : Classical.choice Quot.sound propext
TorchMPS.C27_scale_and_gauge_invariance : Classical.choice Quot.sound propext
TorchMPS.C28_discrete_embedding_normalised : Classical.choice Quot.sound propext
TorchMPS.C29_bias_normalised : Classical.choice Quot.sound propext
TorchMPS.C29_bias_not_normalised : Classical.choice Quot.sound propext
TorchMPS.C29_normalised_iff : Classical.choice Quot.sound propext
TorchMPS.C30_compression_exact : Classical.choice Quot.sound propext
TorchMPS.C30_compression_lossy : Classical.choice Quot.sound propext
TorchMPS.C30_total_mass : Classical.choice Quot.sound propext
TorchMPS.C30_mass_bounds : Classical.choice Quot.sound propext
TorchMPS.C31_rescaled_embedding : Classical.choice Quot.sound propext
TorchMPS.C31_onehot_same : Classical.choice Quot.sound propext
TorchMPS.C32_weights : Classical.choice Quot.sound propext
TorchMPS.C32_trapezoid_normalised : Classical.choice Quot.sound propext
TorchMPS.C32_current_lambda : Classical.choice Quot.sound propext
TorchMPS.C32_total_mass : Classical.choice Quot.sound propext
TorchMPS.C32_mass_bounds : Classical.choice Quot.sound propext
TorchMPS.C33_slim_with_bias : Classical.choice Quot.sound propext
TorchMPS.C33_slim_ignores_parallel : Classical.choice Quot.sound propext
TorchMPS.C33_documented_precedence_fails : Classical.choice Quot.sound propext
TorchMPS.C34_forward_uses_current_parameters : Classical.choice Quot.sound propext
TorchMPS.C34_log_norm_before_forward : Classical.choice Quot.sound propext
TorchMPS.C34_log_norm_after_forward : Classical.choice Quot.sound propext
TorchMPS.C35_onehot_entries : Classical.choice Quot.sound propext
TorchMPS.C35_onehot_raises : Classical.choice Quot.sound propext
TorchMPS.C35_onehot_lambda : Classical.choice Quot.sound propext
TorchMPS.C36_trig_embed_entries : Classical.choice Quot.sound propext
TorchMPS.C36_trig_unit_norm : Classical.choice Quot.sound propext
TorchMPS.C36_sincos : Classical.choice Quot.sound propext
TorchMPS.C37_lambda_hermitian_psd : Classical.choice Quot.sound propext
TorchMPS.C38_domain_continuous : Classical.choice Quot.sound propext
TorchMPS.C38_domain_discrete : Classical.choice Quot.sound propext
TorchMPS.C38_mlp_list : Classical.choice Quot.sound propext
TorchMPS.C38_mlp_int : Classical.choice Quot.sound propext
TorchMPS.C39_svd_flex_reconstructs : Classical.choice Quot.sound propext
TorchMPS.C40_bond_dim : Classical.choice Quot.sound propext
TorchMPS.C40_no_cutoff : Classical.choice Quot.sound propext
TorchMPS.C40_runtime_error_iff : Classical.choice Quot.sound propext
TorchMPS.C40_shapes_and_zero_padding : Classical.choice Quot.sound propext
TorchMPS.C40_sv_vec : Classical.choice Quot.sound propext
TorchMPS.C40_squared_error : Classical.choice Quot.sound propext
TorchMPS.C41_accepted_strings : Classical.choice Quot.sound propext
TorchMPS.C41_partition_not_checked : Classical.choice Quot.sound propext
TorchMPS.C42_random_zero : Classical.choice Quot.sound propext
TorchMPS.C42_random_eye : Classical.choice Quot.sound propext
TorchMPS.C42_min_random_eye : Classical.choice Quot.sound propext
TorchMPS.C42_min_random_eye_capped : Classical.choice Quot.sound propext
TorchMPS.C42_cap_fails_for_nonsquare : Classical.choice Quot.sound propext
TorchMPS.C42_random_eye_scrambled : Classical.choice Quot.sound propext
TorchMPS.C42_unknown_method : Classical.choice Quot.sound propext
TorchMPS.C42_bad_index_string : Classical.choice Quot.sound propext
TorchMPS.C42_bare_min_random_eye_fails : Classical.choice Quot.sound propext
TorchMPS.C43_joint_shuffle_keeps_pairs : Quot.sound propext
TorchMPS.C43_device_mismatch : propext
TorchMPS.C43_arguments_shuffled_in_place : propext
TorchMPS.C43_lengths_not_checked : Quot.sound propext
TorchMPS.C44_load_HV_data : Classical.choice Quot.sound propext
TorchMPS.C44_numpy_without_int : Classical.choice Quot.sound propext
TorchMPS.C44_length_zero : Classical.choice Quot.sound propext
TorchMPS.C45_onehot : Classical.choice Quot.sound propext
TorchMPS.C45_out_of_range : Classical.choice Quot.sound propext
TorchMPS.C45_negative_labels_wrap : Classical.choice Quot.sound propext
TorchMPS.C46_product : Classical.choice Quot.sound propext
TorchMPS.C46_missing_bond : Classical.choice Quot.sound propext
TorchMPS.C46_out_of_letters : Classical.choice Quot.sound propext
TorchMPS.C46_size_mismatch : Classical.choice Quot.sound propext
TorchMPS.C46_unsupported : Classical.choice Quot.sound propext
TorchMPS.C46_scalar : Classical.choice Quot.sound propext
TorchMPS.C46_scalar_edge : Classical.choice Quot.sound propext
TorchMPS.C46_broadcast : Classical.choice Quot.sound propext
TorchMPS.C47_right : Classical.choice Quot.sound propext
TorchMPS.C47_left : Classical.choice Quot.sound propext
TorchMPS.C47_empty : Classical.choice Quot.sound propext
TorchMPS.C48_edges : Classical.choice Quot.sound propext
TorchMPS.C48_terminal : Classical.choice Quot.sound propext
TorchMPS.C48_ring : Classical.choice Quot.sound propext
TorchMPS.C48_ring_sequential_fails : Classical.choice Quot.sound propext
TorchMPS.C49_batched : Quot.sound propext
TorchMPS.C49_unbatched : Classical.choice Quot.sound propext
TorchMPS.C49_history : Classical.choice Quot.sound propext
TorchMPS.C50_empty_list : Classical.choice Quot.sound propext
TorchMPS.C50_scalar : propext
TorchMPS.C50_list_mul : propext
TorchMPS.C51_open : Classical.choice Quot.sound propext
TorchMPS.C52_trace : Classical.choice Quot.sound propext
TorchMPS.C52_rotation : Classical.choice Quot.sound propext
TorchMPS.C53_mps : Classical.choice Quot.sound propext
TorchMPS.C53_ti : Classical.choice Quot.sound propext
TorchMPS.C54_shape : Classical.choice Quot.sound propext
TorchMPS.C54_label0_first_call : Classical.choice Quot.sound propext
TorchMPS.C54_label0_stale_batch : Classical.choice Quot.sound propext
TorchMPS.C54_label0 : Classical.choice Quot.sound propext
TorchMPS.C54_label0_iff : Classical.choice Quot.sound propext
TorchMPS.C54_label0_alone : Classical.choice Quot.sound propext
TorchMPS.C54_no_pixels : Classical.choice Quot.sound propext
TorchMPS.C54_ti : Classical.choice Quot.sound propext
TorchMPS.C55_construction : Classical.choice Quot.sound propext
TorchMPS.C55_evaluates : Classical.choice Quot.sound propext
TorchMPS.C55_short_region_fails : Classical.choice Quot.sound propext
TorchMPS.C55_evaluates_iff : Classical.choice Quot.sound propext
TorchMPS.C55_one_pixel_first : Classical.choice Quot.sound propext
TorchMPS.C55_default_small : Classical.choice Quot.sound propext
TorchMPS.C56_gather : Classical.choice Quot.sound propext
TorchMPS.C56_out_of_range : Classical.choice Quot.sound propext
TorchMPS.C56_agree : Classical.choice Quot.sound propext
TorchMPS.C56_identity : Classical.choice Quot.sound propext
TorchMPS.C56_arguments : propext
TorchMPS.C56_tensor_path : Classical.choice Quot.sound propext
TorchMPS.C57_embedding : Classical.choice Quot.sound propext
TorchMPS.C57_forward : Classical.choice Quot.sound propext
TorchMPS.C57_default_needs_two : Classical.choice Quot.sound propext
TorchMPS.C57_wrong_features : Classical.choice Quot.sound propext
TorchMPS.C57_wrong_pixels : Quot.sound propext
TorchMPS.C57_empty_batch : Classical.choice Quot.sound propext
TorchMPS.C57_register : propext
TorchMPS.C57_history : propext
TorchMPS.C57_ti_register : propext
TorchMPS.C57_ti_embedding : Classical.choice Quot.sound propext
TorchMPS.C58_multi_affine : Classical.choice Quot.sound propext
TorchMPS.C59_merge : Classical.choice Quot.sound propext
TorchMPS.C59_same_as_plain : Classical.choice Quot.sound propext
TorchMPS.C59_construction : Classical.choice Quot.sound propext
TorchMPS.C59_one_pixel : Classical.choice Quot.sound propext
TorchMPS.C59_forward : Classical.choice Quot.sound propext
TorchMPS.C60_flips : Classical.choice Quot.sound propext
TorchMPS.C61_flips_iff : Classical.choice Quot.sound propext
TorchMPS.C61_structure : Classical.choice Quot.sound propext
TorchMPS.C61_two_sites : Classical.choice Quot.sound propext
TorchMPS.C62_call : Classical.choice Quot.sound propext
TorchMPS.C62_history : Classical.choice Quot.sound propext
TorchMPS.C62_construction : Classical.choice Quot.sound propext
TorchMPS.C62_two_flips : Classical.choice Quot.sound propext
TorchMPS.C63_rescale : Classical.choice Quot.sound propext
TorchMPS.C63_balanced : Classical.choice Quot.sound propext
TorchMPS.C64_lossless : Classical.choice Quot.sound propext
TorchMPS.C64_untrained : Classical.choice Quot.sound propext
TorchMPS.C64_truncation : Classical.choice Quot.sound propext
TorchMPS.C65_inactive : Classical.choice Quot.sound propext
TorchMPS.C66_value : Classical.choice Quot.sound propext
TorchMPS.C66_empty : Classical.choice Quot.sound propext
TorchMPS.C66_rejected : Classical.choice Quot.sound propext
TorchMPS.C66_construction : Classical.choice Quot.sound propext
TorchMPS.C66_initial_vector : Classical.choice Quot.sound propext
TorchMPS.C67_value : Classical.choice Quot.sound propext
TorchMPS.C67_alone : Classical.choice Quot.sound propext
TorchMPS.C68_harmless : Classical.choice Quot.sound propext
TorchMPS.C68_actual_value : Classical.choice Quot.sound propext
TorchMPS.C68_padding_changes_outputs : Classical.choice Quot.sound propext
TorchMPS.C68_fails_otherwise : Classical.choice Quot.sound propext
TorchMPS.C69_accepted : Classical.choice Quot.sound propext
TorchMPS.C69_accepted_iff : Classical.choice Quot.sound propext
TorchMPS.C69_different_lengths : Classical.choice Quot.sound propext
TorchMPS.C69_wrong_ranks : Quot.sound propext
TorchMPS.C69_wrong_features : Quot.sound propext
TorchMPS.C69_other_errors : propext
TorchMPS.C70_orthogonal_factors : Classical.choice Quot.sound propext
TorchMPS.C70_kept_le : Classical.choice Quot.sound propext
TorchMPS.C71_accepts_iff : Classical.choice Quot.sound propext
TorchMPS.C71_constructed : Classical.choice Quot.sound propext
TorchMPS.C71_core_entries : Classical.choice Quot.sound propext
TorchMPS.C71_edges : Classical.choice Quot.sound propext
TorchMPS.C71_bias_inert : Classical.choice Quot.sound propext
TorchMPS.C71_rejects_args : Classical.choice Quot.sound propext
TorchMPS.C71_rejects_embedding : Classical.choice Quot.sound propext
TorchMPS.C71_trainable_unchecked : Classical.choice Quot.sound propext
TorchMPS.C71_uniform_seq_len : Classical.choice Quot.sound propext
TorchMPS.C71_normalised : Classical.choice Quot.sound propext
TorchMPS.C71_discrete_function : Classical.choice Quot.sound propext
TorchMPS.C71_continuous_function : Classical.choice Quot.sound propext
TorchMPS.C72_best_approximation : Classical.choice Quot.sound propext
TorchMPS.C72_minimal_bond : Classical.choice Quot.sound propext
TorchMPS.C73_plain : Classical.choice Quot.sound propext
TorchMPS.C73_adaptive : Classical.choice Quot.sound propext
TorchMPS.C74_constructed : Classical.choice Quot.sound propext
TorchMPS.C74_entries : Classical.choice Quot.sound propext
TorchMPS.C74_range : Classical.choice Quot.sound propext
TorchMPS.C74_discrete_fails : Classical.choice Quot.sound propext
TorchMPS.C74_lambda : Classical.choice Quot.sound propext
TorchMPS.C74_compression : Classical.choice Quot.sound propext
TorchMPS.C74_normalised_in_training : Classical.choice Quot.sound propext
TorchMPS.C75_uniform_is_unrolled : Classical.choice Quot.sound propext
TorchMPS.C75_bias_absorbed : Classical.choice Quot.sound propext
TorchMPS.C75_mirrored : Classical.choice Quot.sound propext
TorchMPS.C76_sequential : Classical.choice Quot.sound propext
TorchMPS.C76_sequential_range : Classical.choice Quot.sound propext
TorchMPS.C76_parallel : Classical.choice Quot.sound propext
TorchMPS.C76_slim : Classical.choice Quot.sound propext
TorchMPS.C77_test_accuracy : Classical.choice Quot.sound propext
TorchMPS.C77_test_accuracy_exact : Classical.choice Quot.sound propext
TorchMPS.C77_reports : Classical.choice Quot.sound propext
TorchMPS.C77_epoch : Classical.choice Quot.sound propext
TorchMPS.C77_completes : Classical.choice Quot.sound propext
TorchMPS.C77_too_few_training_images : Classical.choice Quot.sound propext
TorchMPS.C77_too_few_test_images : Classical.choice Quot.sound propext
TorchMPS.C77_adaptive_completes : Classical.choice Quot.sound propext
TorchMPS.C77_adaptive : Classical.choice Quot.sound propext
TorchMPS.C78_reverts : Classical.choice Quot.sound propext
TorchMPS.C78_forgets : Classical.choice Quot.sound propext
TorchMPS.C79_pixel_core : Classical.choice Quot.sound propext
TorchMPS.C79_output_core : Classical.choice Quot.sound propext
TorchMPS.C80_gauge : Classical.choice Quot.sound propext
TorchMPS.C80_padding : Classical.choice Quot.sound propext
TorchMPS.C81_ti_is_mps : Classical.choice Quot.sound propext
TorchMPS.C82_near_constant : Classical.choice Quot.sound propext
TorchMPS.C82_vanishing : Classical.choice Quot.sound propext
TorchMPS.C82_adaptive : Classical.choice Quot.sound propext
TorchMPS.C82_initial_loss : Classical.choice Quot.sound propext
TorchMPS.C82_script : Classical.choice Quot.sound propext
TorchMPS.C83_exact_model : Classical.choice Quot.sound propext
TorchMPS.C83_seq : Classical.choice Quot.sound propext
TorchMPS.C83_par : Classical.choice Quot.sound propext
TorchMPS.C83_limit : Classical.choice Quot.sound propext
TorchMPS.C83_seq_par : Classical.choice Quot.sound propext
TorchMPS.C83_contract : Classical.choice Quot.sound propext
TorchMPS.C83_rounding : Classical.choice Quot.sound propext
TorchMPS.C83_relative : Classical.choice Quot.sound propext
TorchMPS.C84_seq : Classical.choice Quot.sound propext
TorchMPS.C84_par : Classical.choice Quot.sound propext
TorchMPS.C84_contract : Classical.choice Quot.sound propext
TorchMPS.C84_abs_sum : Classical.choice Quot.sound propext
TorchMPS.C84_mps_forward : Classical.choice Quot.sound propext
TorchMPS.C84_mps_embedding : Classical.choice Quot.sound propext
TorchMPS.C84_mps_path : Classical.choice Quot.sound propext
TorchMPS.C84_core_gradient : Classical.choice Quot.sound propext
TorchMPS.C84_output_gradient : Classical.choice Quot.sound propext
TorchMPS.C85_embedding_gradient : Classical.choice Quot.sound propext
TorchMPS.C85_compress : Classical.choice Quot.sound propext
TorchMPS.C85_log_norm : Classical.choice Quot.sound propext
TorchMPS.C85_forward : Classical.choice Quot.sound propext
TorchMPS.C85_formula : Classical.choice Quot.sound propext
TorchMPS.C85_loss : Classical.choice Quot.sound propext
TorchMPS.C85_score : Classical.choice Quot.sound propext
TorchMPS.C85_gauge : Classical.choice Quot.sound propext
TorchMPS.C85_scale : Classical.choice Quot.sound propext
TorchMPS.C85_slim_length : Classical.choice Quot.sound propext
TorchMPS.C86_objects : Classical.choice Quot.sound propext
TorchMPS.C86_parameters : Classical.choice Quot.sound propext
TorchMPS.C86_results : Classical.choice Quot.sound propext
TorchMPS.C86_construction : Classical.choice Quot.sound propext
TorchMPS.C87_accepts_iff : Quot.sound propext
TorchMPS.C87_mps : Classical.choice Quot.sound propext
TorchMPS.C87_mps_restored : Classical.choice Quot.sound propext
TorchMPS.C87_mps_accepts_iff : Classical.choice Quot.sound propext
TorchMPS.C87_ti_mps : Classical.choice Quot.sound propext
TorchMPS.C87_prob_mps : Classical.choice Quot.sound propext
TorchMPS.C87_prob_mps_rejects : Classical.choice Quot.sound propext
TorchMPS.C87_prob_mps_restored : Classical.choice Quot.sound propext
TorchMPS.C88_load : Classical.choice Quot.sound propext
TorchMPS.C88_restart : Classical.choice Quot.sound propext
TorchMPS.C89_trainable_not_trained : Classical.choice Quot.sound propext
TorchMPS.C89_lambda_frozen : Classical.choice Quot.sound propext
TorchMPS.C89_stale_normalisation : Classical.choice Quot.sound propext
TorchMPS.C89_loaded_normalisation : Classical.choice Quot.sound propext
TorchMPS.C89_probability_four : Classical.choice Quot.sound propext
TorchMPS.C89_trainable_not_saved : Classical.choice Quot.sound propext
TorchMPS.C90_change : Classical.choice Quot.sound propext
TorchMPS.C90_cutoff : Classical.choice Quot.sound propext
TorchMPS.C91_log_norm : Classical.choice Quot.sound propext
TorchMPS.C91_log_prob : Classical.choice Quot.sound propext
TorchMPS.C91_nonneg : Classical.choice Quot.sound propext
TorchMPS.C91_exact_model : Classical.choice Quot.sound propext
TorchMPS.C91_rounding : Classical.choice Quot.sound propext
TorchMPS.C91_limit : Classical.choice Quot.sound propext
TorchMPS.C92_rank_bound : Classical.choice Quot.sound propext
TorchMPS.C92_exactly : Classical.choice Quot.sound propext
TorchMPS.C92_universal : Classical.choice Quot.sound propext
TorchMPS.C92_forward : Classical.choice Quot.sound propext
TorchMPS.C92_needs : Classical.choice Quot.sound propext
TorchMPS.C93_represents : Classical.choice Quot.sound propext
TorchMPS.C93_rank_bound : Classical.choice Quot.sound propext
TorchMPS.C93_exactly : Classical.choice Quot.sound propext
TorchMPS.C93_all_tables : Classical.choice Quot.sound propext
TorchMPS.C94_same_batch : Classical.choice Quot.sound propext
TorchMPS.C94_terminates : Classical.choice Quot.sound propext
TorchMPS.C94_all_finish : Classical.choice Quot.sound propext
TorchMPS.C94_race : Classical.choice Quot.sound propext
TorchMPS.C94_extra_rows : Classical.choice Quot.sound propext
TorchMPS.C95_mps : Classical.choice Quot.sound propext
TorchMPS.C95_ti : Classical.choice Quot.sound propext
TorchMPS.C96_exact_mps : Classical.choice Quot.sound propext
TorchMPS.C96_exact_ti : Classical.choice Quot.sound propext
TorchMPS.C96_mps : Classical.choice Quot.sound propext
TorchMPS.C96_agree : Classical.choice Quot.sound propext
TorchMPS.C96_nonneg : Classical.choice Quot.sound propext
TorchMPS.C96_ti : Classical.choice Quot.sound propext
TorchMPS.C96_rounding : Classical.choice Quot.sound propext
TorchMPS.C97_mps : Classical.choice Quot.sound propext
TorchMPS.C97_relative : Classical.choice Quot.sound propext
TorchMPS.C97_continuous : Classical.choice Quot.sound propext
TorchMPS.C97_label : Classical.choice Quot.sound propext
TorchMPS.C97_ti : Classical.choice Quot.sound propext
TorchMPS.C97_ti_relative : Classical.choice Quot.sound propext
TorchMPS.C98_distance : Classical.choice Quot.sound propext
TorchMPS.C98_relative : Classical.choice Quot.sound propext
TorchMPS.C98_nonneg : Classical.choice Quot.sound propext
TorchMPS.C98_continuous : Classical.choice Quot.sound propext
TorchMPS.C99_rank_bound : Classical.choice Quot.sound propext
TorchMPS.C99_exactly : Classical.choice Quot.sound propext
TorchMPS.C99_palindromes : Classical.choice Quot.sound propext
TorchMPS.C100_rank_bound : Classical.choice Quot.sound propext
TorchMPS.C100_exactly : Classical.choice Quot.sound propext
TorchMPS.C100_palindromes : Classical.choice Quot.sound propext
TorchMPS.C101_derivative : Classical.choice Quot.sound propext
TorchMPS.C101_forward_mode : Classical.choice Quot.sound propext
TorchMPS.C101_core_entry : Classical.choice Quot.sound propext
TorchMPS.C102_sequential : Classical.choice Quot.sound propext
TorchMPS.C102_parallel : Classical.choice Quot.sound propext
TorchMPS.C102_direction : propext
TorchMPS.C102_direction_wrong : Classical.choice Quot.sound propext
TorchMPS.C102_tradeoff : Classical.choice Quot.sound propext
TorchMPS.C103_gradient : Classical.choice Quot.sound propext
TorchMPS.C103_pixel_core_convex : Classical.choice Quot.sound propext
TorchMPS.C103_output_core_convex : Classical.choice Quot.sound propext
TorchMPS.C104_loss : Classical.choice Quot.sound propext
TorchMPS.C104_attained : Classical.choice Quot.sound propext
TorchMPS.C104_expected : Classical.choice Quot.sound propext
TorchMPS.C105_run : Classical.choice Quot.sound propext
TorchMPS.C105_work : Classical.choice Quot.sound propext
TorchMPS.C105_compare : Classical.choice Quot.sound propext
TorchMPS.C105_serial : Classical.choice Quot.sound propext
TorchMPS.C106_run : Classical.choice Quot.sound propext
TorchMPS.C106_work : Classical.choice Quot.sound propext
TorchMPS.C106_compare : Classical.choice Quot.sound propext
TorchMPS.C106_serial : Classical.choice Quot.sound propext
TorchMPS.C106_padding : Classical.choice Quot.sound propext
TorchMPS.C107_reflection : Classical.choice Quot.sound propext
TorchMPS.C107_classes : Classical.choice Quot.sound propext
TorchMPS.C107_sum : Classical.choice Quot.sound propext
TorchMPS.C107_sum_open : Classical.choice Quot.sound propext
TorchMPS.C107_sum_ti : Classical.choice Quot.sound propext
TorchMPS.C108_history : Classical.choice Quot.sound propext
TorchMPS.C108_refused : Classical.choice Quot.sound propext
TorchMPS.C108_ti_history : Classical.choice Quot.sound propext
TorchMPS.C108_trained : Quot.sound propext
TorchMPS.C108_saved : Classical.choice Quot.sound propext
TorchMPS.C108_accepts_iff : Classical.choice Quot.sound propext
TorchMPS.C108_register_first : Classical.choice Quot.sound propext
TorchMPS.C108_ti_saved : Classical.choice Quot.sound propext
TorchMPS.C108_gradient : Classical.choice Quot.sound propext
TorchMPS.C109_linear_regression : Classical.choice Quot.sound propext
TorchMPS.C109_no_bias : Classical.choice Quot.sound propext
TorchMPS.C109_polynomial : Classical.choice Quot.sound propext
TorchMPS.C109_black_and_white : Classical.choice Quot.sound propext
TorchMPS.C109_all_polynomials : Classical.choice Quot.sound propext
TorchMPS.C110_change_of_basis : Classical.choice Quot.sound propext
TorchMPS.C110_identified : Classical.choice Quot.sound propext
TorchMPS.C110_fixed_bias : Classical.choice Quot.sound propext
TorchMPS.C110_embedded : Classical.choice Quot.sound propext
TorchMPS.C110_every_basis : Classical.choice Quot.sound propext
TorchMPS.C111_gradient : Classical.choice Quot.sound propext
TorchMPS.C111_initial_convex : Classical.choice Quot.sound propext
TorchMPS.C111_terminal_convex : Classical.choice Quot.sound propext
TorchMPS.C112_sensitivity : Classical.choice Quot.sound propext
TorchMPS.C112_convex : Classical.choice Quot.sound propext
TorchMPS.C113_agree : Classical.choice Quot.sound propext
TorchMPS.C113_recurrence : Classical.choice Quot.sound propext
TorchMPS.C113_uniform : Classical.choice Quot.sound propext
TorchMPS.C114_balance : Classical.choice Quot.sound propext
TorchMPS.C114_descent : Classical.choice Quot.sound propext
TorchMPS.C114_weight_decay : Classical.choice Quot.sound propext
TorchMPS.C114_cross_entropy : Classical.choice Quot.sound propext
TorchMPS.C114_ti_ends : Classical.choice Quot.sound propext
TorchMPS.C114_ti_core : Classical.choice Quot.sound propext
TorchMPS.C114_prob_orthogonal : Classical.choice Quot.sound propext
TorchMPS.C114_prob_descent : Classical.choice Quot.sound propext
TorchMPS.C114_prob_weight_decay : Classical.choice Quot.sound propext
TorchMPS.C115_ti_combination : Classical.choice Quot.sound propext
TorchMPS.C115_ti_product : Classical.choice Quot.sound propext
TorchMPS.C115_ti_reverse : Classical.choice Quot.sound propext
TorchMPS.C115_ti_substitution : Classical.choice Quot.sound propext
TorchMPS.C115_unif_product : Classical.choice Quot.sound propext
TorchMPS.C115_unif_power : Classical.choice Quot.sound propext
TorchMPS.C115_unif_reverse : Classical.choice Quot.sound propext
TorchMPS.C115_unif_context : Classical.choice Quot.sound propext
TorchMPS.C115_unif_blocks : Classical.choice Quot.sound propext
TorchMPS.C115_ti_sharp : Classical.choice Quot.sound propext
