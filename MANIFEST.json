{
 "claims": [
  {
   "property": "C01",
   "status": "proved",
   "theorems": [
    "Verif.Props.C01_pow2_helpers",
    "Verif.Props.C01_pow2_helpers_wrap"
   ],
   "note": ""
  },
  {
   "property": "C02",
   "status": "proved",
   "theorems": [
    "Verif.Props.C02_subset_products",
    "Verif.Props.C02_exp_subset_product"
   ],
   "note": ""
  },
  {
   "property": "C03",
   "status": "proved",
   "theorems": [
    "Verif.Props.C03_oneshot_eq_iterated",
    "Verif.Props.C03_fold_generators",
    "Verif.Props.C03_single_generator"
   ],
   "note": ""
  },
  {
   "property": "C04",
   "status": "proved",
   "theorems": [
    "Verif.Props.C04_commit_value",
    "Verif.Props.C04_commit2_value",
    "Verif.Props.C04_homomorphic",
    "Verif.Props.C04_verify_iff",
    "Verif.Props.C04_verify2_iff",
    "Verif.Props.C04_short_arrays"
   ],
   "note": ""
  },
  {
   "property": "C05",
   "status": "proved",
   "theorems": [
    "Verif.Props.C05_binding",
    "Verif.Props.C05_unique_opening"
   ],
   "note": ""
  },
  {
   "property": "C06",
   "status": "proved",
   "theorems": [
    "Verif.Props.C06_linear_complete",
    "Verif.Props.C06_linear_prover_total",
    "Verif.Props.C06_linear_exact"
   ],
   "note": ""
  },
  {
   "property": "C07",
   "status": "proved",
   "theorems": [
    "Verif.Props.C07_linear_complete_offsets"
   ],
   "note": ""
  },
  {
   "property": "C08",
   "status": "proved",
   "theorems": [
    "Verif.Props.C08_quadratic_complete",
    "Verif.Props.C08_quadratic_exact",
    "Verif.Props.C08_quadratic_prover_total"
   ],
   "note": ""
  },
  {
   "property": "C09",
   "status": "proved",
   "theorems": [
    "Verif.Props.C09_norm_squared",
    "Verif.Props.C09_norm_prover_succeeds"
   ],
   "note": ""
  },
  {
   "property": "C10",
   "status": "proved",
   "theorems": [
    "Verif.Props.C10_honest_length",
    "Verif.Props.C10_wrong_length_throws"
   ],
   "note": ""
  },
  {
   "property": "C11",
   "status": "proved",
   "theorems": [
    "Verif.Props.C11_linear_verifier",
    "Verif.Props.C11_quadratic_verifier"
   ],
   "note": ""
  },
  {
   "property": "C12",
   "status": "proved",
   "theorems": [
    "Verif.Props.C12_linear_in_step",
    "Verif.Props.C12_quadratic_in_step"
   ],
   "note": ""
  },
  {
   "property": "C13",
   "status": "proved",
   "theorems": [
    "Verif.Props.C13_linear_extract",
    "Verif.Props.C13_linear_sound",
    "Verif.Props.C13_linear_tree",
    "Verif.Props.C13_linear_iff"
   ],
   "note": ""
  },
  {
   "property": "C14",
   "status": "proved",
   "theorems": [
    "Verif.Props.C14_linear_roundtrip",
    "Verif.Props.C14_quadratic_roundtrip",
    "Verif.Props.C14_mismatch_throws",
    "Verif.Props.C14_empty_witness_ub",
    "Verif.Props.C14_size_limits",
    "Verif.Props.C14_prover_succeeds"
   ],
   "note": ""
  },
  {
   "property": "C15",
   "status": "proved",
   "theorems": [
    "Verif.Props.C15_merge",
    "Verif.Props.C15_merge_rhs",
    "Verif.Props.C15_merge_terms",
    "Verif.Props.C15_merge_mismatch",
    "Verif.Props.C15_empty_dropped"
   ],
   "note": ""
  },
  {
   "property": "C16",
   "status": "proved",
   "theorems": [
    "Verif.Props.C16_merge_implied",
    "Verif.Props.C16_merge_sound"
   ],
   "note": ""
  },
  {
   "property": "C17",
   "status": "proved",
   "theorems": [
    "Verif.Props.C17_innerProduct",
    "Verif.Props.C17_symm",
    "Verif.Props.C17_value"
   ],
   "note": ""
  },
  {
   "property": "C18",
   "status": "proved",
   "theorems": [
    "Verif.Props.C18_merge",
    "Verif.Props.C18_merge_scaled",
    "Verif.Props.C18_overlap_unchecked"
   ],
   "note": ""
  },
  {
   "property": "C19",
   "status": "proved",
   "theorems": [
    "Verif.Props.C19_addAssign",
    "Verif.Props.C19_addAssign_empty",
    "Verif.Props.C19_ub_witness"
   ],
   "note": ""
  },
  {
   "property": "C20",
   "status": "proved",
   "theorems": [
    "Verif.Props.C20_lin",
    "Verif.Props.C20_lin_loose",
    "Verif.Props.C20_quad",
    "Verif.Props.C20_quad_loose"
   ],
   "note": ""
  },
  {
   "property": "C21",
   "status": "proved",
   "theorems": [
    "Verif.Props.C21_split",
    "Verif.Props.C21_split_index"
   ],
   "note": ""
  },
  {
   "property": "C22",
   "status": "proved",
   "theorems": [
    "Verif.Props.C22_shape",
    "Verif.Props.C22_meaning",
    "Verif.Props.C22_honest",
    "Verif.Props.C22_int_limits"
   ],
   "note": ""
  },
  {
   "property": "C23",
   "status": "proved",
   "theorems": [
    "Verif.Props.C23_newSharing_valid",
    "Verif.Props.C23_reconstruct",
    "Verif.Props.C23_share_reconstruct",
    "Verif.Props.C23_collision_throws"
   ],
   "note": ""
  },
  {
   "property": "C24",
   "status": "proved",
   "theorems": [
    "Verif.Props.C24_parity_check",
    "Verif.Props.C24_threshold_zero",
    "Verif.Props.C24_rows"
   ],
   "note": ""
  },
  {
   "property": "C25",
   "status": "proved",
   "theorems": [
    "Verif.Props.C25_privacy",
    "Verif.Props.C25_unique"
   ],
   "note": ""
  },
  {
   "property": "C26",
   "status": "proved",
   "theorems": [
    "Verif.Props.C26_decode",
    "Verif.Props.C26_short_buffer",
    "Verif.Props.C26_ternary",
    "Verif.Props.C26_at",
    "Verif.Props.C26_distribution"
   ],
   "note": ""
  },
  {
   "property": "C27",
   "status": "proved",
   "theorems": [
    "Verif.Props.C27_left_vec",
    "Verif.Props.C27_right_vec",
    "Verif.Props.C27_left_mat",
    "Verif.Props.C27_right_mat",
    "Verif.Props.C27_mismatch"
   ],
   "note": ""
  },
  {
   "property": "C28",
   "status": "proved",
   "theorems": [
    "Verif.Props.C28_entry",
    "Verif.Props.C28_left_vec",
    "Verif.Props.C28_right_vec",
    "Verif.Props.C28_left_mat",
    "Verif.Props.C28_right_mat",
    "Verif.Props.C28_mismatch",
    "Verif.Props.C28_decode"
   ],
   "note": ""
  },
  {
   "property": "C29",
   "status": "proved",
   "theorems": [
    "Verif.Props.C29_matrix",
    "Verif.Props.C29_ematrix",
    "Verif.Props.C29_multiple_of_four",
    "Verif.Props.C29_default_shape"
   ],
   "note": ""
  },
  {
   "property": "C30",
   "status": "proved",
   "theorems": [
    "Verif.Props.C30_two_squares",
    "Verif.Props.C30_no_failure",
    "Verif.Props.C30_throws",
    "Verif.Props.C30_square"
   ],
   "note": ""
  },
  {
   "property": "C31",
   "status": "proved",
   "theorems": [
    "Verif.Props.C31_four_squares",
    "Verif.Props.C31_negative",
    "Verif.Props.C31_squares",
    "Verif.Props.C31_failure",
    "Verif.Props.C31_failure_71",
    "Verif.Props.C31_failure_unbounded"
   ],
   "note": ""
  },
  {
   "property": "C32",
   "status": "proved",
   "theorems": [
    "Verif.Props.C32_scalars",
    "Verif.Props.C32_throws",
    "Verif.Props.C32_short_pad",
    "Verif.Props.C32_elements",
    "Verif.Props.C32_elements_throws",
    "Verif.Props.C32_failure"
   ],
   "note": ""
  },
  {
   "property": "C33",
   "status": "proved",
   "theorems": [
    "Verif.Props.C33_decode",
    "Verif.Props.C33_library",
    "Verif.Props.C33_tight"
   ],
   "note": ""
  },
  {
   "property": "C34",
   "status": "proved",
   "theorems": [
    "Verif.Props.C34_relation",
    "Verif.Props.C34_decrypt",
    "Verif.Props.C34_throws"
   ],
   "note": ""
  },
  {
   "property": "C35",
   "status": "proved",
   "theorems": [
    "Verif.Props.C35_noise",
    "Verif.Props.C35_no_failure",
    "Verif.Props.C35_setParams"
   ],
   "note": ""
  },
  {
   "property": "C36",
   "status": "proved",
   "theorems": [
    "Verif.Props.C36_digits",
    "Verif.Props.C36_recompose",
    "Verif.Props.C36_zero_radix"
   ],
   "note": ""
  },
  {
   "property": "C37",
   "status": "proved",
   "theorems": [
    "Verif.Props.C37_expand",
    "Verif.Props.C37_meaning",
    "Verif.Props.C37_make",
    "Verif.Props.C37_slice"
   ],
   "note": ""
  },
  {
   "property": "C38",
   "status": "proved",
   "theorems": [
    "Verif.Props.C38_history",
    "Verif.Props.C38_unregistered_leak"
   ],
   "note": ""
  },
  {
   "property": "C39",
   "status": "proved",
   "theorems": [
    "Verif.Props.C39_layout",
    "Verif.Props.C39_defined",
    "Verif.Props.C39_swap",
    "Verif.Props.C39_generators"
   ],
   "note": ""
  },
  {
   "property": "C40",
   "status": "proved",
   "theorems": [
    "Verif.Props.C40_scalars",
    "Verif.Props.C40_elements",
    "Verif.Props.C40_range",
    "Verif.Props.C40_range_overflow"
   ],
   "note": ""
  },
  {
   "property": "C41",
   "status": "proved",
   "theorems": [
    "Verif.Props.C41_powers"
   ],
   "note": ""
  },
  {
   "property": "C42",
   "status": "proved",
   "theorems": [
    "Verif.Props.C42_aggregation",
    "Verif.Props.C42_public",
    "Verif.Props.C42_zero_challenge",
    "Verif.Props.C42_final_proofs"
   ],
   "note": ""
  },
  {
   "property": "C43",
   "status": "proved",
   "theorems": [
    "Verif.Props.C43_decryption_meaning",
    "Verif.Props.C43_decryption",
    "Verif.Props.C43_decryption_defined",
    "Verif.Props.C43_decryption_small",
    "Verif.Props.C43_encryption_meaning",
    "Verif.Props.C43_encryption",
    "Verif.Props.C43_encryption_stale",
    "Verif.Props.C43_encryption_defined",
    "Verif.Props.C43_encryption_small",
    "Verif.Props.C43_keygen_meaning",
    "Verif.Props.C43_keygen",
    "Verif.Props.C43_keygen_defined",
    "Verif.Props.C43_keygen_small",
    "Verif.Props.C43_reshare_meaning",
    "Verif.Props.C43_reshare",
    "Verif.Props.C43_lInfty",
    "Verif.Props.C43_smallness_meaning",
    "Verif.Props.C43_smallness",
    "Verif.Props.C43_smallness_defined",
    "Verif.Props.C43_smallness_small"
   ],
   "note": ""
  },
  {
   "property": "C44",
   "status": "proved",
   "theorems": [
    "Verif.Props.C44_linear_generators",
    "Verif.Props.C44_quadratic_generators",
    "Verif.Props.C44_shared_generator",
    "Verif.Props.C44_not_binding",
    "Verif.Props.C44_any_value_provable"
   ],
   "note": ""
  },
  {
   "property": "C45",
   "status": "proved",
   "theorems": [
    "Verif.Props.C45_integers",
    "Verif.Props.C45_scalars",
    "Verif.Props.C45_scalar_types",
    "Verif.Props.C45_elements",
    "Verif.Props.C45_elements_round_trip",
    "Verif.Props.C45_big_integers"
   ],
   "note": ""
  },
  {
   "property": "C46",
   "status": "proved",
   "theorems": [
    "Verif.Props.C46_balanced_remainder",
    "Verif.Props.C46_zero",
    "Verif.Props.C46_boundary"
   ],
   "note": ""
  },
  {
   "property": "C47",
   "status": "proved",
   "theorems": [
    "Verif.Props.C47_bounded_throws",
    "Verif.Props.C47_bounded_range",
    "Verif.Props.C47_bounded_distribution",
    "Verif.Props.C47_zero_one",
    "Verif.Props.C47_zero_one_stale"
   ],
   "note": ""
  },
  {
   "property": "C48",
   "status": "proved",
   "theorems": [
    "Verif.Props.C48_setInteger"
   ],
   "note": ""
  },
  {
   "property": "C49",
   "status": "proved",
   "theorems": [
    "Verif.Props.C49_labels"
   ],
   "note": ""
  },
  {
   "property": "C50",
   "status": "proved",
   "theorems": [
    "Verif.Props.C50_transcript",
    "Verif.Props.C50_challenge_length",
    "Verif.Props.C50_rng",
    "Verif.Props.C50_rng_order"
   ],
   "note": ""
  },
  {
   "property": "C51",
   "status": "proved",
   "theorems": [
    "Verif.Props.C51_sponge",
    "Verif.Props.C51_injective",
    "Verif.Props.C51_collision",
    "Verif.Props.C51_padding"
   ],
   "note": ""
  },
  {
   "property": "C52",
   "status": "proved",
   "theorems": [
    "Verif.Props.C52_linear_bytes",
    "Verif.Props.C52_quadratic_bytes",
    "Verif.Props.C52_linear",
    "Verif.Props.C52_linear_collision",
    "Verif.Props.C52_quadratic"
   ],
   "note": ""
  },
  {
   "property": "C53",
   "status": "proved",
   "theorems": [
    "Verif.Props.C53_call",
    "Verif.Props.C53_linear",
    "Verif.Props.C53_quadratic"
   ],
   "note": ""
  },
  {
   "property": "C54",
   "status": "proved",
   "theorems": [
    "Verif.Props.C54_linear",
    "Verif.Props.C54_quadratic",
    "Verif.Props.C54_not_read_back",
    "Verif.Props.C54_undefined"
   ],
   "note": ""
  },
  {
   "property": "C55",
   "status": "proved",
   "theorems": [
    "Verif.Props.C55_addTerm",
    "Verif.Props.C55_addIdx"
   ],
   "note": ""
  },
  {
   "property": "C56",
   "status": "proved",
   "theorems": [
    "Verif.Props.C56_elements",
    "Verif.Props.C56_double",
    "Verif.Props.C56_scalars",
    "Verif.Props.C56_scalars_slice"
   ],
   "note": ""
  },
  {
   "property": "C57",
   "status": "proved",
   "theorems": [
    "Verif.Props.C57_quadratic_extract",
    "Verif.Props.C57_quadratic_sound",
    "Verif.Props.C57_quadratic_tree",
    "Verif.Props.C57_quadratic_iff"
   ],
   "note": ""
  },
  {
   "property": "C58",
   "status": "proved",
   "theorems": [
    "Verif.Props.C58_quadratic_forgery",
    "Verif.Props.C58_tag_forgery",
    "Verif.Props.C58_norm_forgery"
   ],
   "note": ""
  },
  {
   "property": "C59",
   "status": "proved",
   "theorems": [
    "Verif.Props.C59_order_prime",
    "Verif.Props.C59_ring_operations",
    "Verif.Props.C59_division",
    "Verif.Props.C59_inner_product"
   ],
   "note": ""
  },
  {
   "property": "C60",
   "status": "proved",
   "theorems": [
    "Verif.Props.C60_keccakf"
   ],
   "note": ""
  },
  {
   "property": "C61",
   "status": "proved",
   "theorems": [
    "Verif.Props.C61_permutation",
    "Verif.Props.C61_iterate"
   ],
   "note": ""
  },
  {
   "property": "C62",
   "status": "proved",
   "theorems": [
    "Verif.Props.C62_point_operations",
    "Verif.Props.C62_multi_exp",
    "Verif.Props.C62_base_times_scalar"
   ],
   "note": ""
  },
  {
   "property": "C63",
   "status": "proved",
   "theorems": [
    "Verif.Props.C63_final_equation",
    "Verif.Props.C63_enforced",
    "Verif.Props.C63_enforced_conv",
    "Verif.Props.C63_acceptance",
    "Verif.Props.C63_norm0_not_enforced"
   ],
   "note": ""
  },
  {
   "property": "C64",
   "status": "proved",
   "theorems": [
    "Verif.Props.C64_start",
    "Verif.Props.C64_prepared",
    "Verif.Props.C64_complete",
    "Verif.Props.C64_live",
    "Verif.Props.C64_defined",
    "Verif.Props.C64_outcomes",
    "Verif.Props.C64_challenges"
   ],
   "note": ""
  },
  {
   "property": "C65",
   "status": "proved",
   "theorems": [
    "Verif.Props.C65_start",
    "Verif.Props.C65_complete"
   ],
   "note": ""
  },
  {
   "property": "C66",
   "status": "proved",
   "theorems": [
    "Verif.Props.C66_inputs",
    "Verif.Props.C66_inputs_defined",
    "Verif.Props.C66_no_error",
    "Verif.Props.C66_run",
    "Verif.Props.C66_standard",
    "Verif.Props.C66_outcomes",
    "Verif.Props.C66_default_dimension",
    "Verif.Props.C66_good_dimension",
    "Verif.Props.C66_default_run",
    "Verif.Props.C66_good_run",
    "Verif.Props.C66_run_exists"
   ],
   "note": ""
  },
  {
   "property": "C67",
   "status": "proved",
   "theorems": [
    "Verif.Props.C67_bounds",
    "Verif.Props.C67_no_wrap",
    "Verif.Props.C67_digits_fit",
    "Verif.Props.C67_model"
   ],
   "note": ""
  },
  {
   "property": "C68",
   "status": "proved",
   "theorems": [
    "Verif.Props.C68_soundness",
    "Verif.Props.C68_tight",
    "Verif.Props.C68_norms"
   ],
   "note": ""
  },
  {
   "property": "C69",
   "status": "proved",
   "theorems": [
    "Verif.Props.C69_bad",
    "Verif.Props.C69_good",
    "Verif.Props.C69_bytes",
    "Verif.Props.C69_tight",
    "Verif.Props.C69_decryption",
    "Verif.Props.C69_encryption",
    "Verif.Props.C69_keygen",
    "Verif.Props.C69_smallness"
   ],
   "note": ""
  },
  {
   "property": "C70",
   "status": "proved",
   "theorems": [
    "Verif.Props.C70_left",
    "Verif.Props.C70_right",
    "Verif.Props.C70_decryption",
    "Verif.Props.C70_encryption",
    "Verif.Props.C70_keygen",
    "Verif.Props.C70_numbers"
   ],
   "note": ""
  },
  {
   "property": "C71",
   "status": "proved",
   "theorems": [
    "Verif.Props.C71_unique",
    "Verif.Props.C71_ambiguous",
    "Verif.Props.C71_numbers",
    "Verif.Props.C71_states"
   ],
   "note": ""
  },
  {
   "property": "C72",
   "status": "proved",
   "theorems": [
    "Verif.Props.C72_encryption1",
    "Verif.Props.C72_encryption2",
    "Verif.Props.C72_decryption",
    "Verif.Props.C72_key",
    "Verif.Props.C72_round",
    "Verif.Props.C72_invalid",
    "Verif.Props.C72_invalid_key",
    "Verif.Props.C72_program"
   ],
   "note": ""
  },
  {
   "property": "C73",
   "status": "proved",
   "theorems": [
    "Verif.Props.C73_meaning",
    "Verif.Props.C73_round",
    "Verif.Props.C73_fooled_left",
    "Verif.Props.C73_fooled_right",
    "Verif.Props.C73_fooled_small"
   ],
   "note": ""
  },
  {
   "property": "C74",
   "status": "proved",
   "theorems": [
    "Verif.Props.C74_constructor",
    "Verif.Props.C74_given",
    "Verif.Props.C74_key_hash",
    "Verif.Props.C74_crs_binding",
    "Verif.Props.C74_key_binding",
    "Verif.Props.C74_key_shape",
    "Verif.Props.C74_stale",
    "Verif.Props.C74_equality"
   ],
   "note": ""
  },
  {
   "property": "C75",
   "status": "proved",
   "theorems": [
    "Verif.Props.C75_quad",
    "Verif.Props.C75_lin",
    "Verif.Props.C75_side_effect",
    "Verif.Props.C75_prepared"
   ],
   "note": ""
  },
  {
   "property": "C76",
   "status": "proved",
   "theorems": [
    "Verif.Props.C76_zero_one",
    "Verif.Props.C76_zero_one_element",
    "Verif.Props.C76_bounded",
    "Verif.Props.C76_limit",
    "Verif.Props.C76_bounded_element"
   ],
   "note": ""
  },
  {
   "property": "C77",
   "status": "proved",
   "theorems": [
    "Verif.Props.C77_divCeil",
    "Verif.Props.C77_divCeil_negative",
    "Verif.Props.C77_log2",
    "Verif.Props.C77_log2_negative",
    "Verif.Props.C77_conv_element",
    "Verif.Props.C77_conv_round",
    "Verif.Props.C77_inner",
    "Verif.Props.C77_balanced",
    "Verif.Props.C77_latched"
   ],
   "note": ""
  },
  {
   "property": "C78",
   "status": "proved",
   "theorems": [
    "Verif.Props.C78_stoi",
    "Verif.Props.C78_parties",
    "Verif.Props.C78_dimension",
    "Verif.Props.C78_outcomes",
    "Verif.Props.C78_run"
   ],
   "note": ""
  },
  {
   "property": "C79",
   "status": "proved",
   "theorems": [
    "Verif.Props.C79_init",
    "Verif.Props.C79_already"
   ],
   "note": ""
  },
  {
   "property": "C80",
   "status": "proved",
   "theorems": [
    "Verif.Props.C80_commit",
    "Verif.Props.C80_linear",
    "Verif.Props.C80_linear_hiding",
    "Verif.Props.C80_quadratic",
    "Verif.Props.C80_quadratic_hiding",
    "Verif.Props.C80_quadratic_zero",
    "Verif.Props.C80_norm_hiding"
   ],
   "note": ""
  },
  {
   "property": "C81",
   "status": "proved",
   "theorems": [
    "Verif.Props.C81_reply",
    "Verif.Props.C81_rate",
    "Verif.Props.C81_hiding",
    "Verif.Props.C81_not_perfect",
    "Verif.Props.C81_setting"
   ],
   "note": ""
  },
  {
   "property": "C82",
   "status": "proved",
   "theorems": [
    "Verif.Props.C82_faithful",
    "Verif.Props.C82_length",
    "Verif.Props.C82_scalars",
    "Verif.Props.C82_reduction",
    "Verif.Props.C82_linear_challenges",
    "Verif.Props.C82_quadratic_challenges",
    "Verif.Props.C82_linear_binding",
    "Verif.Props.C82_quadratic_binding",
    "Verif.Props.C82_program"
   ],
   "note": ""
  },
  {
   "property": "C83",
   "status": "proved",
   "theorems": [
    "Verif.Props.C83_challenges",
    "Verif.Props.C83_round",
    "Verif.Props.C83_w_free",
    "Verif.Props.C83_aggregation",
    "Verif.Props.C83_final",
    "Verif.Props.C83_binding",
    "Verif.Props.C83_final_binding",
    "Verif.Props.C83_not_bound"
   ],
   "note": ""
  },
  {
   "property": "C84",
   "status": "proved",
   "theorems": [
    "Verif.Props.C84_statement",
    "Verif.Props.C84_offsets",
    "Verif.Props.C84_round_forgery",
    "Verif.Props.C84_accepted",
    "Verif.Props.C84_old_key_last"
   ],
   "note": ""
  },
  {
   "property": "C85",
   "status": "proved",
   "theorems": [
    "Verif.Props.C85_verified",
    "Verif.Props.C85_handover",
    "Verif.Props.C85_handovers",
    "Verif.Props.C85_constraints",
    "Verif.Props.C85_channel",
    "Verif.Props.C85_sealed"
   ],
   "note": ""
  },
  {
   "property": "C86",
   "status": "proved",
   "theorems": [
    "Verif.Props.C86_privacy",
    "Verif.Props.C86_sharp"
   ],
   "note": ""
  },
  {
   "property": "C87",
   "status": "proved",
   "theorems": [
    "Verif.Props.C87_linear_part",
    "Verif.Props.C87_linear_conv"
   ],
   "note": ""
  },
  {
   "property": "C88",
   "status": "proved",
   "theorems": [
    "Verif.Props.C88_commitments",
    "Verif.Props.C88_public",
    "Verif.Props.C88_hiding",
    "Verif.Props.C88_final"
   ],
   "note": ""
  },
  {
   "property": "C89",
   "status": "proved",
   "theorems": [
    "Verif.Props.C89_left",
    "Verif.Props.C89_right",
    "Verif.Props.C89_decryption",
    "Verif.Props.C89_encryption",
    "Verif.Props.C89_keygen",
    "Verif.Props.C89_round",
    "Verif.Props.C89_inputs",
    "Verif.Props.C89_program"
   ],
   "note": ""
  },
  {
   "property": "C90",
   "status": "proved",
   "theorems": [
    "Verif.Props.C90_trials",
    "Verif.Props.C90_distribution",
    "Verif.Props.C90_noise",
    "Verif.Props.C90_keys",
    "Verif.Props.C90_keygen",
    "Verif.Props.C90_encrypt",
    "Verif.Props.C90_program",
    "Verif.Props.C90_run"
   ],
   "note": ""
  },
  {
   "property": "C91",
   "status": "proved",
   "theorems": [
    "Verif.Props.C91_trial",
    "Verif.Props.C91_gives_up",
    "Verif.Props.C91_product",
    "Verif.Props.C91_rate",
    "Verif.Props.C91_rare",
    "Verif.Props.C91_round",
    "Verif.Props.C91_run"
   ],
   "note": ""
  },
  {
   "property": "C92",
   "status": "proved",
   "theorems": [
    "Verif.Props.C92_wrong",
    "Verif.Props.C92_right",
    "Verif.Props.C92_statement"
   ],
   "note": ""
  },
  {
   "property": "C93",
   "status": "proved",
   "theorems": [
    "Verif.Props.C93_bytes",
    "Verif.Props.C93_injective",
    "Verif.Props.C93_calls",
    "Verif.Props.C93_two_arrays",
    "Verif.Props.C93_no_secrets",
    "Verif.Props.C93_entropy",
    "Verif.Props.C93_wiped"
   ],
   "note": ""
  },
  {
   "property": "C94",
   "status": "proved",
   "theorems": [
    "Verif.Props.C94_linear_prover",
    "Verif.Props.C94_quadratic_prover",
    "Verif.Props.C94_linear_verifier",
    "Verif.Props.C94_entries",
    "Verif.Props.C94_verify_again"
   ],
   "note": ""
  },
  {
   "property": "C95",
   "status": "proved",
   "theorems": [
    "Verif.Props.C95_apart",
    "Verif.Props.C95_ext_apart",
    "Verif.Props.C95_left_vec",
    "Verif.Props.C95_right_vec",
    "Verif.Props.C95_left_mat",
    "Verif.Props.C95_right_mat",
    "Verif.Props.C95_ext_zero",
    "Verif.Props.C95_ext_right_mat",
    "Verif.Props.C95_ext_two"
   ],
   "note": ""
  },
  {
   "property": "C96",
   "status": "proved",
   "theorems": [
    "Verif.Props.C96_multi_exp",
    "Verif.Props.C96_commit",
    "Verif.Props.C96_linear_prover",
    "Verif.Props.C96_linear_verifier",
    "Verif.Props.C96_quadratic_prover",
    "Verif.Props.C96_quadratic_verifier",
    "Verif.Props.C96_linear_prover_tag",
    "Verif.Props.C96_linear_verifier_tag",
    "Verif.Props.C96_quadratic_prover_tag",
    "Verif.Props.C96_quadratic_verifier_tag",
    "Verif.Props.C96_norm_prover",
    "Verif.Props.C96_norm_verifier"
   ],
   "note": ""
  },
  {
   "property": "C97",
   "status": "proved",
   "theorems": [
    "Verif.Props.C97_linear_refines",
    "Verif.Props.C97_quadratic_refines",
    "Verif.Props.C97_linear_accepts",
    "Verif.Props.C97_quadratic_accepts",
    "Verif.Props.C97_linear_safe",
    "Verif.Props.C97_quadratic_safe"
   ],
   "note": ""
  },
  {
   "property": "C98",
   "status": "proved",
   "theorems": [
    "Verif.Props.C98_linear_residues",
    "Verif.Props.C98_quadratic_residues",
    "Verif.Props.C98_no_error",
    "Verif.Props.C98_linear_accepts",
    "Verif.Props.C98_quadratic_accepts",
    "Verif.Props.C98_encodings",
    "Verif.Props.C98_linear_malleable",
    "Verif.Props.C98_quadratic_malleable",
    "Verif.Props.C98_linear_zero",
    "Verif.Props.C98_quadratic_zero",
    "Verif.Props.C98_linear_exact",
    "Verif.Props.C98_quadratic_exact",
    "Verif.Props.C98_linear_safe",
    "Verif.Props.C98_quadratic_safe",
    "Verif.Props.C98_top_bit_accepted",
    "Verif.Props.C98_tag_linear",
    "Verif.Props.C98_tag_quadratic",
    "Verif.Props.C98_tag_norm"
   ],
   "note": ""
  },
  {
   "property": "C99",
   "status": "proved",
   "theorems": [
    "Verif.Props.C99_encodings",
    "Verif.Props.C99_quadratic_forgery",
    "Verif.Props.C99_offset_forgery",
    "Verif.Props.C99_value",
    "Verif.Props.C99_tag_forgery",
    "Verif.Props.C99_linear_extract",
    "Verif.Props.C99_quadratic_extract"
   ],
   "note": ""
  },
  {
   "property": "C100",
   "status": "proved",
   "theorems": [
    "Verif.Props.C100_inner",
    "Verif.Props.C100_norm_exact",
    "Verif.Props.C100_norm_forgery",
    "Verif.Props.C100_fixed_first",
    "Verif.Props.C100_no_root"
   ],
   "note": ""
  },
  {
   "property": "C101",
   "status": "proved",
   "theorems": [
    "Verif.Props.C101_decrypt",
    "Verif.Props.C101_numbers",
    "Verif.Props.C101_round",
    "Verif.Props.C101_secret"
   ],
   "note": ""
  },
  {
   "property": "C102",
   "status": "proved",
   "theorems": [
    "Verif.Props.C102_decryption",
    "Verif.Props.C102_numbers",
    "Verif.Props.C102_round",
    "Verif.Props.C102_accepted",
    "Verif.Props.C102_program"
   ],
   "note": ""
  },
  {
   "property": "C103",
   "status": "proved",
   "theorems": [
    "Verif.Props.C103_bounds",
    "Verif.Props.C103_params",
    "Verif.Props.C103_no_failure",
    "Verif.Props.C103_ceilSqrt",
    "Verif.Props.C103_values",
    "Verif.Props.C103_program"
   ],
   "note": ""
  },
  {
   "property": "C104",
   "status": "proved",
   "theorems": [
    "Verif.Props.C104_linear",
    "Verif.Props.C104_quadratic",
    "Verif.Props.C104_linear_iff",
    "Verif.Props.C104_quadratic_honest",
    "Verif.Props.C104_linear_claim",
    "Verif.Props.C104_quadratic_claim",
    "Verif.Props.C104_bytes",
    "Verif.Props.C104_library"
   ],
   "note": ""
  },
  {
   "property": "C105",
   "status": "proved",
   "theorems": [
    "Verif.Props.C105_linear",
    "Verif.Props.C105_quadratic",
    "Verif.Props.C105_public_linear",
    "Verif.Props.C105_public_quadratic",
    "Verif.Props.C105_library"
   ],
   "note": ""
  },
  {
   "property": "C106",
   "status": "proved",
   "theorems": [
    "Verif.Props.C106_linear",
    "Verif.Props.C106_quadratic"
   ],
   "note": ""
  },
  {
   "property": "C107",
   "status": "proved",
   "theorems": [
    "Verif.Props.C107_library",
    "Verif.Props.C107_places",
    "Verif.Props.C107_linear",
    "Verif.Props.C107_quadratic"
   ],
   "note": ""
  },
  {
   "property": "C108",
   "status": "proved",
   "theorems": [
    "Verif.Props.C108_vector",
    "Verif.Props.C108_linear",
    "Verif.Props.C108_quadratic",
    "Verif.Props.C108_sets",
    "Verif.Props.C108_value",
    "Verif.Props.C108_printVec",
    "Verif.Props.C108_printScalar",
    "Verif.Props.C108_number",
    "Verif.Props.C108_printVec_empty",
    "Verif.Props.C108_debugPrint"
   ],
   "note": ""
  }
 ]
}