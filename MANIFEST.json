{
 "claims": [
  {
   "property": "C01",
   "status": "proved",
   "theorems": [
    "TorchMPS.C01_shapeBroadcast_ok_iff",
    "TorchMPS.C01_shapeBroadcast_succeeds_iff",
    "TorchMPS.C01_shapeBroadcast_error"
   ],
   "note": "Full: success iff compatible, exact result, ValueError otherwise."
  },
  {
   "property": "C02",
   "status": "proved",
   "theorems": [
    "TorchMPS.C02_shapeBroadcast_set",
    "TorchMPS.C02_shapeBroadcast_perm",
    "TorchMPS.C02_shapeBroadcast_repeat"
   ],
   "note": "Result depends only on the set of shapes."
  },
  {
   "property": "C03",
   "status": "proved",
   "theorems": [
    "TorchMPS.C03_batchBroadcast_ok",
    "TorchMPS.C03_batchBroadcast_value_error",
    "TorchMPS.C03_batchBroadcast_assertion",
    "TorchMPS.C03_batchBroadcast_short"
   ],
   "note": "Full: shape, entries, ValueError iff incompatible, AssertionErrors, short lists."
  },
  {
   "property": "C04",
   "status": "proved",
   "theorems": [
    "TorchMPS.C04_batchTo_returns",
    "TorchMPS.C04_batchTo_accepts_iff",
    "TorchMPS.C04_batchTo_not_exact",
    "TorchMPS.C04_batchTo_exact",
    "TorchMPS.C04_batchTo_rejects_iff"
   ],
   "note": "C04_batchTo_returns: exactly what is returned and when it is the requested shape; C04_batchTo_rejects_iff; C04_batchTo_exact; C04_batchTo_not_exact: the unqualified claim is false."
  },
  {
   "property": "C05",
   "status": "proved",
   "theorems": [
    "TorchMPS.C05_bundle_stacks",
    "TorchMPS.C05_bundle_unchanged",
    "TorchMPS.C05_bundle_single_iff"
   ],
   "note": "Full, for every dim argument torch accepts."
  },
  {
   "property": "C06",
   "status": "proved",
   "theorems": [
    "TorchMPS.C06_cindex",
    "TorchMPS.C06_phaseify",
    "TorchMPS.C06_hermitianTrace",
    "TorchMPS.C06_realify",
    "TorchMPS.C06_realify_rejects"
   ],
   "note": ""
  },
  {
   "property": "C07",
   "status": "proved",
   "theorems": [
    "TorchMPS.C07_largest_below_iff",
    "TorchMPS.C07_documented_iff",
    "TorchMPS.C07_floor2_value",
    "TorchMPS.C07_floor2_mono",
    "TorchMPS.C07_floor2_wrong"
   ],
   "note": "The documentation is wrong about the code; the theorems give its value and exactly where it agrees with either reading."
  },
  {
   "property": "C08",
   "status": "proved",
   "theorems": [
    "TorchMPS.C08_matReducePar_value",
    "TorchMPS.C08_matReducePar_exact",
    "TorchMPS.C08_matReducePar_empty"
   ],
   "note": ""
  },
  {
   "property": "C09",
   "status": "proved",
   "theorems": [
    "TorchMPS.C09_matReduceSeq_value",
    "TorchMPS.C09_matReduceSeq_exact",
    "TorchMPS.C09_matReduceSeq_square"
   ],
   "note": ""
  },
  {
   "property": "C10",
   "status": "proved",
   "theorems": [
    "TorchMPS.C10_contractMatseq_log",
    "TorchMPS.C10_contractMatseq_value",
    "TorchMPS.C10_strategies_agree"
   ],
   "note": ""
  },
  {
   "property": "C11",
   "status": "proved",
   "theorems": [
    "TorchMPS.C11_batch_independent"
   ],
   "note": ""
  },
  {
   "property": "C12",
   "status": "proved",
   "theorems": [
    "TorchMPS.C12_nan_iff",
    "TorchMPS.C12_value_exact",
    "TorchMPS.C12_zero_not_returned"
   ],
   "note": "C12_nan_iff: exactly when NaN is produced; C12_value_exact; C12_zero_not_returned: a concrete zero product not returned as 0."
  },
  {
   "property": "C13",
   "status": "proved",
   "theorems": [
    "TorchMPS.C13_empty_identity",
    "TorchMPS.C13_empty_left",
    "TorchMPS.C13_empty_right",
    "TorchMPS.C13_empty_both",
    "TorchMPS.C13_empty_list"
   ],
   "note": ""
  },
  {
   "property": "C14",
   "status": "proved",
   "theorems": [
    "TorchMPS.C14_index_uniform",
    "TorchMPS.C14_index_sites",
    "TorchMPS.C14_vector_uniform",
    "TorchMPS.C14_vector_sites",
    "TorchMPS.C14_onehot",
    "TorchMPS.C14_uniform_repeat",
    "TorchMPS.C14_index_out_of_range"
   ],
   "note": ""
  },
  {
   "property": "C15",
   "status": "proved",
   "theorems": [
    "TorchMPS.C15_index_accepts_iff",
    "TorchMPS.C15_vector_accepts_iff",
    "TorchMPS.C15_vector_value",
    "TorchMPS.C15_short_accepted",
    "TorchMPS.C15_long_rejected",
    "TorchMPS.C15_vector_rejected",
    "TorchMPS.C15_vector_length_one_accepted",
    "TorchMPS.C15_slim_rejected"
   ],
   "note": "The claim \"other lengths raise\" is false of the default evaluation; C15_index_accepts_iff, C15_vector_accepts_iff and C15_vector_value characterise exactly what is accepted and with which result."
  },
  {
   "property": "C16",
   "status": "proved",
   "theorems": [
    "TorchMPS.C16_slim_value",
    "TorchMPS.C16_slim_nan_iff",
    "TorchMPS.C16_slim_empty"
   ],
   "note": ""
  },
  {
   "property": "C17",
   "status": "proved",
   "theorems": [
    "TorchMPS.C17_log_norm",
    "TorchMPS.C17_log_norm_zero"
   ],
   "note": ""
  },
  {
   "property": "C18",
   "status": "proved",
   "theorems": [
    "TorchMPS.C18_log_norm_lambda",
    "TorchMPS.C18_log_norm_lambda_zero",
    "TorchMPS.C18_log_norm_signed",
    "TorchMPS.C18_hermitian_family"
   ],
   "note": ""
  },
  {
   "property": "C19",
   "status": "proved",
   "theorems": [
    "TorchMPS.C19_core_rank",
    "TorchMPS.C19_bond_mismatch",
    "TorchMPS.C19_length_mismatch",
    "TorchMPS.C19_length_missing",
    "TorchMPS.C19_lambda_rank",
    "TorchMPS.C19_arbitrary_length",
    "TorchMPS.C19_accepted"
   ],
   "note": ""
  },
  {
   "property": "C20",
   "status": "proved",
   "theorems": [
    "TorchMPS.C20_near_eye_init",
    "TorchMPS.C20_near_eye_init_noiseless",
    "TorchMPS.C20_normal_init",
    "TorchMPS.C20_rejects"
   ],
   "note": ""
  },
  {
   "property": "C21",
   "status": "proved",
   "theorems": [
    "TorchMPS.C21_forward_exact",
    "TorchMPS.C21_born_rule",
    "TorchMPS.C21_refused_zero"
   ],
   "note": ""
  },
  {
   "property": "C22",
   "status": "proved",
   "theorems": [
    "TorchMPS.C22_probabilities_sum_to_one"
   ],
   "note": ""
  },
  {
   "property": "C23",
   "status": "proved",
   "theorems": [
    "TorchMPS.C23_uniform_sum_to_one"
   ],
   "note": ""
  },
  {
   "property": "C24",
   "status": "proved",
   "theorems": [
    "TorchMPS.C24_log_prob_nonpos",
    "TorchMPS.C24_loss"
   ],
   "note": ""
  },
  {
   "property": "C25",
   "status": "proved",
   "theorems": [
    "TorchMPS.C25_strategies_agree",
    "TorchMPS.C25_default_implies_others",
    "TorchMPS.C25_zero_amplitude_differs"
   ],
   "note": "Agreement proved for all inputs on which both strategies return; the disagreement on zero amplitudes is proved too."
  },
  {
   "property": "C26",
   "status": "proved",
   "theorems": [
    "TorchMPS.C26_batch_elements_independent"
   ],
   "note": ""
  },
  {
   "property": "C27",
   "status": "proved",
   "theorems": [
    "TorchMPS.C27_scale_and_gauge_invariance"
   ],
   "note": ""
  },
  {
   "property": "C28",
   "status": "proved",
   "theorems": [
    "TorchMPS.C28_discrete_embedding_normalised"
   ],
   "note": ""
  },
  {
   "property": "C29",
   "status": "proved",
   "theorems": [
    "TorchMPS.C29_bias_normalised",
    "TorchMPS.C29_bias_not_normalised",
    "TorchMPS.C29_normalised_iff"
   ],
   "note": "C29_normalised_iff is exact for uncompressed lambda matrices; C30_total_mass gives the total in the compressed cases; C29_bias_not_normalised is the counterexample to unconditional normalisation."
  },
  {
   "property": "C30",
   "status": "proved",
   "theorems": [
    "TorchMPS.C30_compression_exact",
    "TorchMPS.C30_compression_lossy",
    "TorchMPS.C30_total_mass",
    "TorchMPS.C30_mass_bounds"
   ],
   "note": "C30_total_mass (exact), C30_compression_exact, C30_mass_bounds, C30_compression_lossy (witness)."
  },
  {
   "property": "C31",
   "status": "proved",
   "theorems": [
    "TorchMPS.C31_rescaled_embedding",
    "TorchMPS.C31_onehot_same"
   ],
   "note": ""
  },
  {
   "property": "C32",
   "status": "proved",
   "theorems": [
    "TorchMPS.C32_weights",
    "TorchMPS.C32_trapezoid_normalised",
    "TorchMPS.C32_current_lambda",
    "TorchMPS.C32_total_mass",
    "TorchMPS.C32_mass_bounds"
   ],
   "note": ""
  },
  {
   "property": "C33",
   "status": "proved",
   "theorems": [
    "TorchMPS.C33_slim_with_bias",
    "TorchMPS.C33_slim_ignores_parallel",
    "TorchMPS.C33_documented_precedence_fails"
   ],
   "note": "slim_eval+bias raises ValueError; slim_eval overrides parallel_eval; the documented precedence is refuted."
  },
  {
   "property": "C34",
   "status": "proved",
   "theorems": [
    "TorchMPS.C34_forward_uses_current_parameters",
    "TorchMPS.C34_log_norm_before_forward",
    "TorchMPS.C34_log_norm_after_forward"
   ],
   "note": "For all histories of module updates, MPS updates, forward and log_norm calls."
  },
  {
   "property": "C35",
   "status": "proved",
   "theorems": [
    "TorchMPS.C35_onehot_entries",
    "TorchMPS.C35_onehot_raises",
    "TorchMPS.C35_onehot_lambda"
   ],
   "note": ""
  },
  {
   "property": "C36",
   "status": "proved",
   "theorems": [
    "TorchMPS.C36_trig_embed_entries",
    "TorchMPS.C36_trig_unit_norm",
    "TorchMPS.C36_sincos"
   ],
   "note": ""
  },
  {
   "property": "C37",
   "status": "proved",
   "theorems": [
    "TorchMPS.C37_lambda_hermitian_psd"
   ],
   "note": ""
  },
  {
   "property": "C38",
   "status": "proved",
   "theorems": [
    "TorchMPS.C38_domain_continuous",
    "TorchMPS.C38_domain_discrete",
    "TorchMPS.C38_mlp_list",
    "TorchMPS.C38_mlp_int"
   ],
   "note": ""
  },
  {
   "property": "C39",
   "status": "proved",
   "theorems": [
    "TorchMPS.C39_svd_flex_reconstructs"
   ],
   "note": "For every tensor, accepted string, sv_right, any matrix SVD satisfying its contract (which exists: someSvd_spec)."
  },
  {
   "property": "C40",
   "status": "proved",
   "theorems": [
    "TorchMPS.C40_bond_dim",
    "TorchMPS.C40_no_cutoff",
    "TorchMPS.C40_runtime_error_iff",
    "TorchMPS.C40_shapes_and_zero_padding",
    "TorchMPS.C40_sv_vec",
    "TorchMPS.C40_squared_error"
   ],
   "note": ""
  },
  {
   "property": "C41",
   "status": "proved",
   "theorems": [
    "TorchMPS.C41_accepted_strings",
    "TorchMPS.C41_partition_not_checked"
   ],
   "note": "Acceptance characterised exactly; C41_partition_not_checked shows what is accepted beyond the documentation."
  },
  {
   "property": "C42",
   "status": "proved",
   "theorems": [
    "TorchMPS.C42_random_zero",
    "TorchMPS.C42_random_eye",
    "TorchMPS.C42_min_random_eye",
    "TorchMPS.C42_min_random_eye_capped",
    "TorchMPS.C42_cap_fails_for_nonsquare",
    "TorchMPS.C42_random_eye_scrambled",
    "TorchMPS.C42_unknown_method",
    "TorchMPS.C42_bad_index_string",
    "TorchMPS.C42_bare_min_random_eye_fails"
   ],
   "note": "Full, including the cases in which the construction fails or scrambles."
  },
  {
   "property": "C43",
   "status": "proved",
   "theorems": [
    "TorchMPS.C43_joint_shuffle_keeps_pairs",
    "TorchMPS.C43_device_mismatch",
    "TorchMPS.C43_arguments_shuffled_in_place",
    "TorchMPS.C43_lengths_not_checked"
   ],
   "note": "Pairs preserved for every generator; device check; in-place effect; lengths not compared."
  },
  {
   "property": "C44",
   "status": "proved",
   "theorems": [
    "TorchMPS.C44_load_HV_data",
    "TorchMPS.C44_numpy_without_int",
    "TorchMPS.C44_length_zero"
   ],
   "note": ""
  },
  {
   "property": "C45",
   "status": "proved",
   "theorems": [
    "TorchMPS.C45_onehot",
    "TorchMPS.C45_out_of_range",
    "TorchMPS.C45_negative_labels_wrap"
   ],
   "note": ""
  },
  {
   "property": "C46",
   "status": "proved",
   "theorems": [
    "TorchMPS.C46_product",
    "TorchMPS.C46_missing_bond",
    "TorchMPS.C46_out_of_letters",
    "TorchMPS.C46_size_mismatch",
    "TorchMPS.C46_unsupported",
    "TorchMPS.C46_scalar",
    "TorchMPS.C46_scalar_edge",
    "TorchMPS.C46_broadcast"
   ],
   "note": "Every admissible product, with the silent broadcasting of single-sample factors (C46_broadcast)."
  },
  {
   "property": "C47",
   "status": "proved",
   "theorems": [
    "TorchMPS.C47_right",
    "TorchMPS.C47_left",
    "TorchMPS.C47_empty"
   ],
   "note": ""
  },
  {
   "property": "C48",
   "status": "proved",
   "theorems": [
    "TorchMPS.C48_edges",
    "TorchMPS.C48_terminal",
    "TorchMPS.C48_ring",
    "TorchMPS.C48_ring_sequential_fails"
   ],
   "note": ""
  },
  {
   "property": "C49",
   "status": "proved",
   "theorems": [
    "TorchMPS.C49_batched",
    "TorchMPS.C49_unbatched",
    "TorchMPS.C49_history"
   ],
   "note": ""
  },
  {
   "property": "C50",
   "status": "proved",
   "theorems": [
    "TorchMPS.C50_empty_list",
    "TorchMPS.C50_scalar",
    "TorchMPS.C50_list_mul"
   ],
   "note": ""
  },
  {
   "property": "C51",
   "status": "proved",
   "theorems": [
    "TorchMPS.C51_open"
   ],
   "note": ""
  },
  {
   "property": "C52",
   "status": "proved",
   "theorems": [
    "TorchMPS.C52_trace",
    "TorchMPS.C52_rotation"
   ],
   "note": "Trace of the ordered product, and invariance under rotation of the pixel cores."
  },
  {
   "property": "C53",
   "status": "proved",
   "theorems": [
    "TorchMPS.C53_mps",
    "TorchMPS.C53_ti"
   ],
   "note": ""
  },
  {
   "property": "C54",
   "status": "proved",
   "theorems": [
    "TorchMPS.C54_shape",
    "TorchMPS.C54_label0_first_call",
    "TorchMPS.C54_label0_stale_batch",
    "TorchMPS.C54_label0",
    "TorchMPS.C54_label0_iff",
    "TorchMPS.C54_label0_alone",
    "TorchMPS.C54_no_pixels",
    "TorchMPS.C54_ti"
   ],
   "note": "C54_shape: label_site >= 1, after every history of calls (and the TI_MPS theorem). label_site 0: C54_label0 (outcome for every stale batch size), C54_label0_iff (exactly when the shape is right), C54_label0_alone, C54_label0_first_call, C54_label0_stale_batch (witness), C54_no_pixels."
  },
  {
   "property": "C55",
   "status": "proved",
   "theorems": [
    "TorchMPS.C55_construction",
    "TorchMPS.C55_evaluates",
    "TorchMPS.C55_short_region_fails",
    "TorchMPS.C55_evaluates_iff",
    "TorchMPS.C55_one_pixel_first",
    "TorchMPS.C55_default_small"
   ],
   "note": "Every label_site constructs (C55_construction) and is evaluated exactly when neither side has exactly one pixel (C55_evaluates_iff; for label_site 0 under the batch-size condition of C54); C55_default_small: the default fails for input_dim 1, 2, 3."
  },
  {
   "property": "C56",
   "status": "proved",
   "theorems": [
    "TorchMPS.C56_gather",
    "TorchMPS.C56_out_of_range",
    "TorchMPS.C56_agree",
    "TorchMPS.C56_identity",
    "TorchMPS.C56_arguments",
    "TorchMPS.C56_tensor_path"
   ],
   "note": "Gathering, identity, dependence on the path pixels only; constructor checks; tensor paths raise."
  },
  {
   "property": "C57",
   "status": "proved",
   "theorems": [
    "TorchMPS.C57_embedding",
    "TorchMPS.C57_forward",
    "TorchMPS.C57_default_needs_two",
    "TorchMPS.C57_wrong_features",
    "TorchMPS.C57_wrong_pixels",
    "TorchMPS.C57_empty_batch",
    "TorchMPS.C57_register",
    "TorchMPS.C57_history",
    "TorchMPS.C57_ti_register",
    "TorchMPS.C57_ti_embedding"
   ],
   "note": "Entrywise embedding, all error cases, and all histories of registrations."
  },
  {
   "property": "C58",
   "status": "proved",
   "theorems": [
    "TorchMPS.C58_multi_affine"
   ],
   "note": ""
  },
  {
   "property": "C59",
   "status": "proved",
   "theorems": [
    "TorchMPS.C59_merge",
    "TorchMPS.C59_same_as_plain",
    "TorchMPS.C59_construction",
    "TorchMPS.C59_one_pixel",
    "TorchMPS.C59_forward"
   ],
   "note": ""
  },
  {
   "property": "C60",
   "status": "proved",
   "theorems": [
    "TorchMPS.C60_flips"
   ],
   "note": ""
  },
  {
   "property": "C61",
   "status": "proved",
   "theorems": [
    "TorchMPS.C61_flips_iff",
    "TorchMPS.C61_structure",
    "TorchMPS.C61_two_sites"
   ],
   "note": "C61_flips_iff: after every history the next call succeeds iff, when a flip is due, neither region of exactly two sites is met in the wrong merge state, no merged core vanishes below the cutoff and no lone core is zero; C61_structure, C61_two_sites."
  },
  {
   "property": "C62",
   "status": "proved",
   "theorems": [
    "TorchMPS.C62_call",
    "TorchMPS.C62_history",
    "TorchMPS.C62_construction",
    "TorchMPS.C62_two_flips"
   ],
   "note": ""
  },
  {
   "property": "C63",
   "status": "proved",
   "theorems": [
    "TorchMPS.C63_rescale",
    "TorchMPS.C63_balanced"
   ],
   "note": ""
  },
  {
   "property": "C64",
   "status": "proved",
   "theorems": [
    "TorchMPS.C64_lossless",
    "TorchMPS.C64_untrained",
    "TorchMPS.C64_truncation"
   ],
   "note": ""
  },
  {
   "property": "C65",
   "status": "proved",
   "theorems": [
    "TorchMPS.C65_inactive"
   ],
   "note": ""
  },
  {
   "property": "C66",
   "status": "proved",
   "theorems": [
    "TorchMPS.C66_value",
    "TorchMPS.C66_empty",
    "TorchMPS.C66_rejected",
    "TorchMPS.C66_construction",
    "TorchMPS.C66_initial_vector"
   ],
   "note": "Every accepted input with longest sequence >= 1, every history; length 0 always raises (C66_empty); constructor characterised."
  },
  {
   "property": "C67",
   "status": "proved",
   "theorems": [
    "TorchMPS.C67_value",
    "TorchMPS.C67_alone"
   ],
   "note": "For all lists of embedded sequences, including empty ones beside longer ones."
  },
  {
   "property": "C68",
   "status": "proved",
   "theorems": [
    "TorchMPS.C68_harmless",
    "TorchMPS.C68_actual_value",
    "TorchMPS.C68_padding_changes_outputs",
    "TorchMPS.C68_fails_otherwise"
   ],
   "note": "C68_harmless, C68_fails_otherwise (converse: every other map fails for some parameters), C68_actual_value, C68_padding_changes_outputs."
  },
  {
   "property": "C69",
   "status": "proved",
   "theorems": [
    "TorchMPS.C69_accepted",
    "TorchMPS.C69_accepted_iff",
    "TorchMPS.C69_different_lengths",
    "TorchMPS.C69_wrong_ranks",
    "TorchMPS.C69_wrong_features",
    "TorchMPS.C69_other_errors"
   ],
   "note": "Acceptance characterised exactly (C69_accepted_iff), the result entry by entry, and the exceptions. Lists with items that are not tensors are not modelled."
  },
  {
   "property": "C70",
   "status": "proved",
   "theorems": [
    "TorchMPS.C70_orthogonal_factors",
    "TorchMPS.C70_kept_le"
   ],
   "note": ""
  },
  {
   "property": "C71",
   "status": "proved",
   "theorems": [
    "TorchMPS.C71_accepts_iff",
    "TorchMPS.C71_constructed",
    "TorchMPS.C71_core_entries",
    "TorchMPS.C71_edges",
    "TorchMPS.C71_bias_inert",
    "TorchMPS.C71_rejects_args",
    "TorchMPS.C71_rejects_embedding",
    "TorchMPS.C71_trainable_unchecked",
    "TorchMPS.C71_uniform_seq_len",
    "TorchMPS.C71_normalised",
    "TorchMPS.C71_discrete_function",
    "TorchMPS.C71_continuous_function"
   ],
   "note": ""
  },
  {
   "property": "C72",
   "status": "proved",
   "theorems": [
    "TorchMPS.C72_best_approximation",
    "TorchMPS.C72_minimal_bond"
   ],
   "note": ""
  },
  {
   "property": "C73",
   "status": "proved",
   "theorems": [
    "TorchMPS.C73_plain",
    "TorchMPS.C73_adaptive"
   ],
   "note": ""
  },
  {
   "property": "C74",
   "status": "proved",
   "theorems": [
    "TorchMPS.C74_constructed",
    "TorchMPS.C74_entries",
    "TorchMPS.C74_range",
    "TorchMPS.C74_discrete_fails",
    "TorchMPS.C74_lambda",
    "TorchMPS.C74_compression",
    "TorchMPS.C74_normalised_in_training"
   ],
   "note": "Full, with the hypothesis on the overlaps that makes the compressed lambda exact (C74_compression says exactly when it holds)."
  },
  {
   "property": "C75",
   "status": "proved",
   "theorems": [
    "TorchMPS.C75_uniform_is_unrolled",
    "TorchMPS.C75_bias_absorbed",
    "TorchMPS.C75_mirrored"
   ],
   "note": "Full for models without embedding; the absorbed-bias and mirrored forms for the two non-slim modes."
  },
  {
   "property": "C76",
   "status": "proved",
   "theorems": [
    "TorchMPS.C76_sequential",
    "TorchMPS.C76_sequential_range",
    "TorchMPS.C76_parallel",
    "TorchMPS.C76_slim"
   ],
   "note": "Full, over exact arithmetic."
  },
  {
   "property": "C77",
   "status": "proved",
   "theorems": [
    "TorchMPS.C77_test_accuracy",
    "TorchMPS.C77_test_accuracy_exact",
    "TorchMPS.C77_reports",
    "TorchMPS.C77_epoch",
    "TorchMPS.C77_completes",
    "TorchMPS.C77_too_few_training_images",
    "TorchMPS.C77_too_few_test_images",
    "TorchMPS.C77_adaptive_completes",
    "TorchMPS.C77_adaptive"
   ],
   "note": "Full, over exact arithmetic. The optimiser step, the data sets, the orders of the samplers and the choice among equal maxima are arbitrary."
  },
  {
   "property": "C78",
   "status": "proved",
   "theorems": [
    "TorchMPS.C78_reverts",
    "TorchMPS.C78_forgets"
   ],
   "note": "Full. C78_reverts compares every later call with the model switched to its other list; C78_forgets gives the value returned by the next call. Hypotheses beyond the failing flip (non-zero cores, no singular value cut off in the stale list) exclude the NaN and lossy cases, treated in C63 and C64."
  },
  {
   "property": "C79",
   "status": "proved",
   "theorems": [
    "TorchMPS.C79_pixel_core",
    "TorchMPS.C79_output_core"
   ],
   "note": "Full, for the non-adaptive MPS."
  },
  {
   "property": "C80",
   "status": "proved",
   "theorems": [
    "TorchMPS.C80_gauge",
    "TorchMPS.C80_padding"
   ],
   "note": "Full, for the non-adaptive MPS; the bias matrices take part in the change of basis."
  },
  {
   "property": "C81",
   "status": "proved",
   "theorems": [
    "TorchMPS.C81_ti_is_mps"
   ],
   "note": "Full."
  },
  {
   "property": "C82",
   "status": "proved",
   "theorems": [
    "TorchMPS.C82_near_constant",
    "TorchMPS.C82_vanishing",
    "TorchMPS.C82_adaptive",
    "TorchMPS.C82_initial_loss",
    "TorchMPS.C82_script"
   ],
   "note": "Exact arithmetic; the bounds are on the exact values. The last part is the known issue 'no training when use_bias=False' of torchmps.py:338 made precise."
  },
  {
   "property": "C83",
   "status": "proved",
   "theorems": [
    "TorchMPS.C83_exact_model",
    "TorchMPS.C83_seq",
    "TorchMPS.C83_par",
    "TorchMPS.C83_limit",
    "TorchMPS.C83_seq_par",
    "TorchMPS.C83_contract",
    "TorchMPS.C83_rounding",
    "TorchMPS.C83_relative"
   ],
   "note": "The algorithms are written over arbitrary operations (FlOps); C83_exact_model shows that exact operations give the model of the other properties. No overflow or underflow of products; rescaling factors within e^-S..e^S."
  },
  {
   "property": "C84",
   "status": "proved",
   "theorems": [
    "TorchMPS.C84_seq",
    "TorchMPS.C84_par",
    "TorchMPS.C84_contract",
    "TorchMPS.C84_abs_sum",
    "TorchMPS.C84_mps_forward",
    "TorchMPS.C84_mps_embedding",
    "TorchMPS.C84_mps_path",
    "TorchMPS.C84_core_gradient",
    "TorchMPS.C84_output_gradient"
   ],
   "note": "Forward mode: the algorithms run over dual numbers (Model/Autodiff). torch's reverse mode applies the transposed linear maps to the same local derivatives; that torch implements the derivatives of its elementary operations is trusted."
  },
  {
   "property": "C85",
   "status": "proved",
   "theorems": [
    "TorchMPS.C85_embedding_gradient",
    "TorchMPS.C85_compress",
    "TorchMPS.C85_log_norm",
    "TorchMPS.C85_forward",
    "TorchMPS.C85_formula",
    "TorchMPS.C85_loss",
    "TorchMPS.C85_score",
    "TorchMPS.C85_gauge",
    "TorchMPS.C85_scale",
    "TorchMPS.C85_slim_length"
   ],
   "note": "Forward mode on dual numbers (see C84). C85_forward covers models without embedding object; with an embedding see C85_log_norm (any moving lambda matrix which is a Gram matrix), C85_compress and C85_embedding_gradient. At a zero amplitude the log probability is -inf or an exception is raised and there is no gradient."
  },
  {
   "property": "C86",
   "status": "proved",
   "theorems": [
    "TorchMPS.C86_objects",
    "TorchMPS.C86_parameters",
    "TorchMPS.C86_results",
    "TorchMPS.C86_construction"
   ],
   "note": "On a model with object identity (Model/AdaptiveHeap.lean), shown to refine the value model of C59-C65, C78: this also justifies the simplification made there (effects of the in-place rescaling on the list given up). C86_results goes on after exceptions and ends with the first failing flip; C86_objects also covers what follows."
  },
  {
   "property": "C87",
   "status": "proved",
   "theorems": [
    "TorchMPS.C87_accepts_iff",
    "TorchMPS.C87_mps",
    "TorchMPS.C87_mps_restored",
    "TorchMPS.C87_mps_accepts_iff",
    "TorchMPS.C87_ti_mps",
    "TorchMPS.C87_prob_mps",
    "TorchMPS.C87_prob_mps_rejects",
    "TorchMPS.C87_prob_mps_restored"
   ],
   "note": "On a model of what is registered (Model/Registry.lean) and of nn.Module.state_dict / load_state_dict (strict). C87_accepts_iff is the criterion for arbitrary state dicts, C87_mps_accepts_iff for two MPS of any architectures. Dtypes and devices are not modelled."
  },
  {
   "property": "C88",
   "status": "proved",
   "theorems": [
    "TorchMPS.C88_load",
    "TorchMPS.C88_restart"
   ],
   "note": "On the model with object identity of C86, where `module_list` and one of the two lists are the same objects, so load_state_dict writes them twice. Histories without failed flips."
  },
  {
   "property": "C89",
   "status": "proved",
   "theorems": [
    "TorchMPS.C89_trainable_not_trained",
    "TorchMPS.C89_lambda_frozen",
    "TorchMPS.C89_stale_normalisation",
    "TorchMPS.C89_loaded_normalisation",
    "TorchMPS.C89_probability_four",
    "TorchMPS.C89_trainable_not_saved"
   ],
   "note": "C89_probability_four and C89_trainable_not_saved are concrete witnesses: a probability of 4, and a model whose probability 1/5 is 1/2 after saving and loading."
  },
  {
   "property": "C90",
   "status": "proved",
   "theorems": [
    "TorchMPS.C90_change",
    "TorchMPS.C90_cutoff"
   ],
   "note": "C90_change: the bound through the singular values dropped. C90_cutoff: the bound through the cutoff alone if nothing is dropped beyond the bond dimension. Exact arithmetic; hypotheses as in C64 (no vanishing cores, not one of the stuck layouts), with a concrete trained model meeting them."
  },
  {
   "property": "C91",
   "status": "proved",
   "theorems": [
    "TorchMPS.C91_log_norm",
    "TorchMPS.C91_log_prob",
    "TorchMPS.C91_nonneg",
    "TorchMPS.C91_exact_model",
    "TorchMPS.C91_rounding",
    "TorchMPS.C91_limit"
   ],
   "note": "C91_log_norm: get_log_norm; C91_log_prob: forward; C91_nonneg: no cancellation without negative parameters; C91_rounding: rounding after every elementary operation meets the contract; C91_limit: the error factors tend to 0; C91_exact_model: with exact arithmetic the rounded forward equals the model of the other properties. Overflow is not modelled; complex parameters, embeddings and bias matrices are not covered."
  },
  {
   "property": "C92",
   "status": "proved",
   "theorems": [
    "TorchMPS.C92_rank_bound",
    "TorchMPS.C92_exactly",
    "TorchMPS.C92_universal",
    "TorchMPS.C92_forward",
    "TorchMPS.C92_needs"
   ],
   "note": "C92_rank_bound: necessity (also with bias and for uniform models); C92_exactly: the representable distributions; C92_universal: bond dimension d^(n/2) suffices; C92_forward: log probabilities returned for batches; C92_needs: the lower bound for repeated sequences."
  },
  {
   "property": "C93",
   "status": "proved",
   "theorems": [
    "TorchMPS.C93_represents",
    "TorchMPS.C93_rank_bound",
    "TorchMPS.C93_exactly",
    "TorchMPS.C93_all_tables"
   ],
   "note": "C93_represents: sufficiency; C93_rank_bound: necessity; C93_exactly: both, without bias and with open boundaries; C93_all_tables: all tables for black and white images."
  },
  {
   "property": "C94",
   "status": "proved",
   "theorems": [
    "TorchMPS.C94_same_batch",
    "TorchMPS.C94_terminates",
    "TorchMPS.C94_all_finish",
    "TorchMPS.C94_race",
    "TorchMPS.C94_extra_rows"
   ],
   "note": "C94_same_batch: results under every schedule; C94_terminates, C94_all_finish: termination; C94_race: the failure with different batch sizes; C94_extra_rows: a concrete schedule with a wrong number of rows. Only accesses to global_bs are interleaved (everything else is local to a thread); threads are sequentially consistent, as under the interpreter lock."
  },
  {
   "property": "C95",
   "status": "proved",
   "theorems": [
    "TorchMPS.C95_mps",
    "TorchMPS.C95_ti"
   ],
   "note": "C95_mps, C95_ti. The other threads are arbitrary programs over the shared attribute, not only evaluations. As in C94 each access is atomic. MPS with a region of one site (which raise in every evaluation) are excluded."
  },
  {
   "property": "C96",
   "status": "proved",
   "theorems": [
    "TorchMPS.C96_exact_mps",
    "TorchMPS.C96_exact_ti",
    "TorchMPS.C96_mps",
    "TorchMPS.C96_agree",
    "TorchMPS.C96_nonneg",
    "TorchMPS.C96_ti",
    "TorchMPS.C96_rounding"
   ],
   "note": "C96_exact_mps and C96_exact_ti tie the rounded program to the model used elsewhere (exact arithmetic gives back MPS.forward and TI_MPS.forward); C96_mps, C96_ti the bounds; C96_agree, C96_nonneg consequences; C96_rounding rounding after every operation satisfies the assumption. No overflow or underflow; a registered feature map is taken as it is; MPS with a region of one site (which raise in every evaluation) are excluded."
  },
  {
   "property": "C97",
   "status": "proved",
   "theorems": [
    "TorchMPS.C97_mps",
    "TorchMPS.C97_relative",
    "TorchMPS.C97_continuous",
    "TorchMPS.C97_label",
    "TorchMPS.C97_ti",
    "TorchMPS.C97_ti_relative"
   ],
   "note": "C97_mps and C97_ti the general bounds, C97_relative and C97_ti_relative for relative changes, C97_continuous continuity, C97_label the certificate for labels. Exact arithmetic (see C96 for rounding). The bound for relative changes is attained (example)."
  },
  {
   "property": "C98",
   "status": "proved",
   "theorems": [
    "TorchMPS.C98_distance",
    "TorchMPS.C98_relative",
    "TorchMPS.C98_nonneg",
    "TorchMPS.C98_continuous"
   ],
   "note": "C98_distance the general bound, C98_relative for relative changes, C98_continuous continuity, C98_nonneg log probabilities. Models without embedding; probabilities are the exponentials of what forward returns (0 where it refuses, as in C22). Exact arithmetic (see C91 for rounding)."
  },
  {
   "property": "C99",
   "status": "proved",
   "theorems": [
    "TorchMPS.C99_rank_bound",
    "TorchMPS.C99_exactly",
    "TorchMPS.C99_palindromes"
   ],
   "note": "C99_rank_bound: necessity, also for finite blocks; C99_exactly: both directions (the theorem of Carlyle and Paz for this model); C99_palindromes: a function no TI_MPS computes. Exact arithmetic; trainable end vectors (fixed_ends=False)."
  },
  {
   "property": "C100",
   "status": "proved",
   "theorems": [
    "TorchMPS.C100_rank_bound",
    "TorchMPS.C100_exactly",
    "TorchMPS.C100_palindromes"
   ],
   "note": "C100_rank_bound: necessity, also with bias; C100_exactly: both directions; C100_palindromes: a support no uniform model has. Exact arithmetic."
  },
  {
   "property": "C101",
   "status": "proved",
   "theorems": [
    "TorchMPS.C101_derivative",
    "TorchMPS.C101_forward_mode",
    "TorchMPS.C101_core_entry"
   ],
   "note": "C101_derivative: the derivative of the outputs; C101_core_entry: the partial derivatives of the shared core; C101_forward_mode: forward over dual numbers. As in C84, that torch differentiates its elementary operations correctly is trusted."
  },
  {
   "property": "C102",
   "status": "proved",
   "theorems": [
    "TorchMPS.C102_sequential",
    "TorchMPS.C102_parallel",
    "TorchMPS.C102_direction",
    "TorchMPS.C102_direction_wrong",
    "TorchMPS.C102_tradeoff"
   ],
   "note": "The algorithms of mps_base over an arbitrary arithmetic (Model/Rounded) are run on matrices carrying the work that went into them (Model/Cost). Multiplications of rescaling steps, which are linear in the number of entries, are not counted."
  },
  {
   "property": "C103",
   "status": "proved",
   "theorems": [
    "TorchMPS.C103_gradient",
    "TorchMPS.C103_pixel_core_convex",
    "TorchMPS.C103_output_core_convex"
   ],
   "note": "Over the reals; CrossEntropyLoss is modelled by its documented formula. C84 gives the derivatives of the scores, C79 the affine dependence on one core."
  },
  {
   "property": "C104",
   "status": "proved",
   "theorems": [
    "TorchMPS.C104_loss",
    "TorchMPS.C104_attained",
    "TorchMPS.C104_expected"
   ],
   "note": "Rests on normalisation (C22, C23): with a wrong normalisation the bound fails."
  },
  {
   "property": "C105",
   "status": "proved",
   "theorems": [
    "TorchMPS.C105_run",
    "TorchMPS.C105_work",
    "TorchMPS.C105_compare",
    "TorchMPS.C105_serial"
   ],
   "note": "Non-adaptive models with regions of no or at least two pixels. Additions (bias, trace) and the feature map are not counted."
  },
  {
   "property": "C106",
   "status": "proved",
   "theorems": [
    "TorchMPS.C106_run",
    "TorchMPS.C106_work",
    "TorchMPS.C106_compare",
    "TorchMPS.C106_serial",
    "TorchMPS.C106_padding"
   ],
   "note": "Inputs whose longest sequence has length at least 1 (others raise, C66). Additions and the feature map are not counted."
  },
  {
   "property": "C107",
   "status": "proved",
   "theorems": [
    "TorchMPS.C107_reflection",
    "TorchMPS.C107_classes",
    "TorchMPS.C107_sum",
    "TorchMPS.C107_sum_open",
    "TorchMPS.C107_sum_ti"
   ],
   "note": "Non-adaptive models with regions of no or at least two pixels (others raise, C55); C107_reflection for models without a path."
  },
  {
   "property": "C108",
   "status": "proved",
   "theorems": [
    "TorchMPS.C108_history",
    "TorchMPS.C108_refused",
    "TorchMPS.C108_ti_history",
    "TorchMPS.C108_trained",
    "TorchMPS.C108_saved",
    "TorchMPS.C108_accepts_iff",
    "TorchMPS.C108_register_first",
    "TorchMPS.C108_ti_saved",
    "TorchMPS.C108_gradient"
   ],
   "note": "Non-adaptive MPS and TI_MPS. nn.Module.__setattr__, parameters() and load_state_dict are modelled (Model/FeatureModule.lean, Model/Registry.lean); a module object shared by several models is not. C108_gradient: MPS without a path, raw inputs with at least one sample and pixel; the map is assumed to be differentiated correctly by autograd."
  },
  {
   "property": "C109",
   "status": "proved",
   "theorems": [
    "TorchMPS.C109_linear_regression",
    "TorchMPS.C109_no_bias",
    "TorchMPS.C109_polynomial",
    "TorchMPS.C109_black_and_white",
    "TorchMPS.C109_all_polynomials"
   ],
   "note": "Non-adaptive models with regions of no or at least two pixels (others raise, C55). The polynomial statements are for the default feature map without a path."
  },
  {
   "property": "C110",
   "status": "proved",
   "theorems": [
    "TorchMPS.C110_change_of_basis",
    "TorchMPS.C110_identified",
    "TorchMPS.C110_fixed_bias",
    "TorchMPS.C110_embedded",
    "TorchMPS.C110_every_basis"
   ],
   "note": "Exact arithmetic. The outputs compared are those of forward for all accepted batches (of one length; sequence lists with different lengths are C66-C68)."
  },
  {
   "property": "C111",
   "status": "proved",
   "theorems": [
    "TorchMPS.C111_gradient",
    "TorchMPS.C111_initial_convex",
    "TorchMPS.C111_terminal_convex"
   ],
   "note": "Exact real arithmetic; the loss is that of train_script.py (torch.nn.CrossEntropyLoss), which the script applies to an MPS (C103)."
  },
  {
   "property": "C112",
   "status": "proved",
   "theorems": [
    "TorchMPS.C112_sensitivity",
    "TorchMPS.C112_convex"
   ],
   "note": "Exact real arithmetic; what happens at flips is the subject of C60-C64 and C90."
  },
  {
   "property": "C113",
   "status": "proved",
   "theorems": [
    "TorchMPS.C113_agree",
    "TorchMPS.C113_recurrence",
    "TorchMPS.C113_uniform"
   ],
   "note": "Exact arithmetic over a field (TI_MPS) and over the real or complex numbers (ProbUnifMPS); the probabilistic models are assumed to give some sequence of each length a positive probability and, when slim_eval is on, to have no bias."
  },
  {
   "property": "C114",
   "status": "proved",
   "theorems": [
    "TorchMPS.C114_balance",
    "TorchMPS.C114_descent",
    "TorchMPS.C114_weight_decay",
    "TorchMPS.C114_cross_entropy",
    "TorchMPS.C114_ti_ends",
    "TorchMPS.C114_ti_core",
    "TorchMPS.C114_prob_orthogonal",
    "TorchMPS.C114_prob_descent",
    "TorchMPS.C114_prob_weight_decay"
   ],
   "note": "Real parameters and exact arithmetic; a gradient is given as the vector of partial derivatives which yields all directional derivatives. The training script uses Adam, whose steps are not multiples of the gradient: the statements about steps are about plain gradient descent, those about vanishing gradients apply to any optimiser."
  },
  {
   "property": "C115",
   "status": "proved",
   "theorems": [
    "TorchMPS.C115_ti_combination",
    "TorchMPS.C115_ti_product",
    "TorchMPS.C115_ti_reverse",
    "TorchMPS.C115_ti_substitution",
    "TorchMPS.C115_unif_product",
    "TorchMPS.C115_unif_power",
    "TorchMPS.C115_unif_reverse",
    "TorchMPS.C115_unif_context",
    "TorchMPS.C115_unif_blocks",
    "TorchMPS.C115_ti_sharp"
   ],
   "note": "Parameters in any field (TI_MPS), real or complex (uniform models); exact arithmetic. The feature vectors of the given models need not be independent; those of the constructed ones must be. Existence of parameters, not that training finds them."
  }
 ]
}