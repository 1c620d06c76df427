# Axioms of each property theorem

Output of `#print axioms`, one line per theorem of `MANIFEST.json`.

* `Verif.Props.C42_aggregation`: propext, Classical.choice, Quot.sound
* `Verif.Props.C42_public`: propext, Classical.choice, Quot.sound
* `Verif.Props.C42_zero_challenge`: propext, Classical.choice, Quot.sound
* `Verif.Props.C42_final_proofs`: propext, Classical.choice, Quot.sound
* `Verif.Props.C77_divCeil`: propext, Classical.choice, Quot.sound
* `Verif.Props.C77_divCeil_negative`: propext, Classical.choice, Quot.sound
* `Verif.Props.C77_log2`: propext, Classical.choice, Quot.sound
* `Verif.Props.C77_log2_negative`: propext, Classical.choice, Quot.sound
* `Verif.Props.C77_conv_element`: propext, Classical.choice, Quot.sound
* `Verif.Props.C77_conv_round`: propext, Classical.choice, Quot.sound
* `Verif.Props.C77_inner`: propext, Classical.choice, Quot.sound
* `Verif.Props.C77_balanced`: propext, Classical.choice, Quot.sound
* `Verif.Props.C77_latched`: propext, Quot.sound
* `Verif.Props.C79_init`: propext, Classical.choice, Quot.sound
* `Verif.Props.C79_already`: propext
* `Verif.Props.C71_unique`: propext, Classical.choice, Quot.sound
* `Verif.Props.C71_ambiguous`: propext, Classical.choice, Quot.sound
* `Verif.Props.C71_numbers`: propext, Classical.choice, Quot.sound
* `Verif.Props.C71_states`: propext, Classical.choice, Quot.sound
* `Verif.Props.C78_stoi`: propext, Quot.sound
* `Verif.Props.C78_parties`: propext, Classical.choice, Quot.sound
* `Verif.Props.C78_dimension`: propext, Classical.choice, Quot.sound
* `Verif.Props.C78_outcomes`: propext, Classical.choice, Quot.sound
* `Verif.Props.C78_run`: propext, Classical.choice, Quot.sound
* `Verif.Props.C69_bad`: propext, Classical.choice, Quot.sound
* `Verif.Props.C69_good`: propext, Classical.choice, Quot.sound
* `Verif.Props.C69_bytes`: propext, Classical.choice, Quot.sound
* `Verif.Props.C69_tight`: propext, Classical.choice, Quot.sound
* `Verif.Props.C69_decryption`: propext, Classical.choice, Quot.sound
* `Verif.Props.C69_encryption`: propext, Classical.choice, Quot.sound
* `Verif.Props.C69_keygen`: propext, Classical.choice, Quot.sound
* `Verif.Props.C69_smallness`: propext, Classical.choice, Quot.sound
* `Verif.Props.C93_bytes`: propext, Classical.choice, Quot.sound
* `Verif.Props.C93_injective`: propext, Classical.choice, Quot.sound
* `Verif.Props.C93_calls`: propext, Classical.choice, Quot.sound
* `Verif.Props.C93_two_arrays`: propext, Classical.choice, Quot.sound
* `Verif.Props.C93_no_secrets`: propext, Quot.sound
* `Verif.Props.C93_entropy`: propext, Classical.choice, Quot.sound
* `Verif.Props.C93_wiped`: propext, Quot.sound
* `Verif.Props.C67_bounds`: propext, Classical.choice, Quot.sound
* `Verif.Props.C67_no_wrap`: propext, Classical.choice, Quot.sound
* `Verif.Props.C67_digits_fit`: propext, Classical.choice, Quot.sound
* `Verif.Props.C67_model`: propext, Classical.choice, Quot.sound
* `Verif.Props.C07_linear_complete_offsets`: propext, Classical.choice, Quot.sound
* `Verif.Props.C06_linear_complete`: propext, Classical.choice, Quot.sound
* `Verif.Props.C06_linear_prover_total`: propext, Classical.choice, Quot.sound
* `Verif.Props.C06_linear_exact`: propext, Classical.choice, Quot.sound
* `Verif.Props.C08_quadratic_complete`: propext, Classical.choice, Quot.sound
* `Verif.Props.C08_quadratic_exact`: propext, Classical.choice, Quot.sound
* `Verif.Props.C08_quadratic_prover_total`: propext, Classical.choice, Quot.sound
* `Verif.Props.C10_honest_length`: propext, Classical.choice, Quot.sound
* `Verif.Props.C10_wrong_length_throws`: propext, Classical.choice, Quot.sound
* `Verif.Props.C11_linear_verifier`: propext, Classical.choice, Quot.sound
* `Verif.Props.C11_quadratic_verifier`: propext, Classical.choice, Quot.sound
* `Verif.Props.C12_linear_in_step`: propext, Classical.choice, Quot.sound
* `Verif.Props.C12_quadratic_in_step`: propext, Classical.choice, Quot.sound
* `Verif.Props.C14_linear_roundtrip`: propext, Classical.choice, Quot.sound
* `Verif.Props.C14_quadratic_roundtrip`: propext, Classical.choice, Quot.sound
* `Verif.Props.C14_mismatch_throws`: propext, Classical.choice, Quot.sound
* `Verif.Props.C14_empty_witness_ub`: propext, Classical.choice, Quot.sound
* `Verif.Props.C14_size_limits`: propext, Classical.choice, Quot.sound
* `Verif.Props.C14_prover_succeeds`: propext, Classical.choice, Quot.sound
* `Verif.Props.C09_norm_squared`: propext, Classical.choice, Quot.sound
* `Verif.Props.C09_norm_prover_succeeds`: propext, Classical.choice, Quot.sound
* `Verif.Props.C75_quad`: propext, Classical.choice, Quot.sound
* `Verif.Props.C75_lin`: propext, Classical.choice, Quot.sound
* `Verif.Props.C75_side_effect`: propext, Classical.choice, Quot.sound
* `Verif.Props.C75_prepared`: propext, Classical.choice, Quot.sound
* `Verif.Props.C70_left`: propext, Classical.choice, Quot.sound
* `Verif.Props.C70_right`: propext, Classical.choice, Quot.sound
* `Verif.Props.C70_decryption`: propext, Classical.choice, Quot.sound
* `Verif.Props.C70_encryption`: propext, Classical.choice, Quot.sound
* `Verif.Props.C70_keygen`: propext, Classical.choice, Quot.sound
* `Verif.Props.C70_numbers`: propext, Classical.choice, Quot.sound
* `Verif.Props.C15_merge`: propext, Classical.choice, Quot.sound
* `Verif.Props.C15_merge_rhs`: propext, Classical.choice, Quot.sound
* `Verif.Props.C15_merge_terms`: propext, Classical.choice, Quot.sound
* `Verif.Props.C15_merge_mismatch`: propext, Quot.sound
* `Verif.Props.C15_empty_dropped`: propext, Quot.sound
* `Verif.Props.C16_merge_implied`: propext, Classical.choice, Quot.sound
* `Verif.Props.C16_merge_sound`: propext, Classical.choice, Quot.sound
* `Verif.Props.C17_innerProduct`: propext, Classical.choice, Quot.sound
* `Verif.Props.C17_symm`: propext, Quot.sound
* `Verif.Props.C17_value`: propext, Quot.sound
* `Verif.Props.C18_merge`: propext, Classical.choice, Quot.sound
* `Verif.Props.C18_merge_scaled`: propext, Classical.choice, Quot.sound
* `Verif.Props.C18_overlap_unchecked`: propext, Classical.choice, Quot.sound
* `Verif.Props.C19_addAssign`: propext, Classical.choice, Quot.sound
* `Verif.Props.C19_addAssign_empty`: propext, Quot.sound
* `Verif.Props.C19_ub_witness`: propext, Classical.choice, Quot.sound
* `Verif.Props.C20_lin`: propext, Quot.sound
* `Verif.Props.C20_lin_loose`: propext, Quot.sound
* `Verif.Props.C20_quad`: propext, Classical.choice, Quot.sound
* `Verif.Props.C20_quad_loose`: propext, Quot.sound
* `Verif.Props.C21_split`: propext, Quot.sound
* `Verif.Props.C21_split_index`: propext, Classical.choice, Quot.sound
* `Verif.Props.C22_shape`: propext, Classical.choice, Quot.sound
* `Verif.Props.C22_meaning`: propext, Classical.choice, Quot.sound
* `Verif.Props.C22_honest`: propext, Classical.choice, Quot.sound
* `Verif.Props.C22_int_limits`: propext, Classical.choice, Quot.sound
* `Verif.Props.C55_addTerm`: propext, Classical.choice, Quot.sound
* `Verif.Props.C55_addIdx`: propext, Classical.choice, Quot.sound
* `Verif.Props.C104_linear`: propext, Classical.choice, Quot.sound
* `Verif.Props.C104_quadratic`: propext, Classical.choice, Quot.sound
* `Verif.Props.C104_linear_iff`: propext, Classical.choice, Quot.sound
* `Verif.Props.C104_quadratic_honest`: propext, Classical.choice, Quot.sound
* `Verif.Props.C104_linear_claim`: propext, Classical.choice, Quot.sound
* `Verif.Props.C104_quadratic_claim`: propext, Classical.choice, Quot.sound
* `Verif.Props.C104_bytes`: propext, Classical.choice, Quot.sound
* `Verif.Props.C104_library`: propext, Classical.choice, Quot.sound
* `Verif.Props.C96_multi_exp`: propext, Quot.sound
* `Verif.Props.C96_commit`: propext, Quot.sound
* `Verif.Props.C96_linear_prover`: propext, Classical.choice, Quot.sound
* `Verif.Props.C96_linear_verifier`: propext, Classical.choice, Quot.sound
* `Verif.Props.C96_quadratic_prover`: propext, Classical.choice, Quot.sound
* `Verif.Props.C96_quadratic_verifier`: propext, Classical.choice, Quot.sound
* `Verif.Props.C96_linear_prover_tag`: propext, Classical.choice, Quot.sound
* `Verif.Props.C96_linear_verifier_tag`: propext, Classical.choice, Quot.sound
* `Verif.Props.C96_quadratic_prover_tag`: propext, Classical.choice, Quot.sound
* `Verif.Props.C96_quadratic_verifier_tag`: propext, Classical.choice, Quot.sound
* `Verif.Props.C96_norm_prover`: propext, Classical.choice, Quot.sound
* `Verif.Props.C96_norm_verifier`: propext, Classical.choice, Quot.sound
* `Verif.Props.C103_bounds`: propext, Classical.choice, Quot.sound
* `Verif.Props.C103_params`: propext, Classical.choice, Quot.sound
* `Verif.Props.C103_no_failure`: propext, Classical.choice, Quot.sound
* `Verif.Props.C103_ceilSqrt`: propext, Classical.choice, Quot.sound
* `Verif.Props.C103_values`: propext, Classical.choice, Quot.sound
* `Verif.Props.C103_program`: propext, Classical.choice, Quot.sound
* `Verif.Props.C105_linear`: propext, Classical.choice, Quot.sound
* `Verif.Props.C105_quadratic`: propext, Classical.choice, Quot.sound
* `Verif.Props.C105_public_linear`: propext, Classical.choice, Quot.sound
* `Verif.Props.C105_public_quadratic`: propext, Classical.choice, Quot.sound
* `Verif.Props.C105_library`: propext, Classical.choice, Quot.sound
* `Verif.Props.C106_linear`: propext, Classical.choice, Quot.sound
* `Verif.Props.C106_quadratic`: propext, Classical.choice, Quot.sound
* `Verif.Props.C107_library`: propext, Classical.choice, Quot.sound
* `Verif.Props.C107_places`: propext, Classical.choice, Quot.sound
* `Verif.Props.C107_linear`: propext, Classical.choice, Quot.sound
* `Verif.Props.C107_quadratic`: propext, Classical.choice, Quot.sound
* `Verif.Props.C44_linear_generators`: propext, Quot.sound
* `Verif.Props.C44_quadratic_generators`: propext, Quot.sound
* `Verif.Props.C44_shared_generator`: propext, Classical.choice, Quot.sound
* `Verif.Props.C44_not_binding`: propext, Classical.choice, Quot.sound
* `Verif.Props.C44_any_value_provable`: propext, Classical.choice, Quot.sound
* `Verif.Props.C30_two_squares`: propext, Classical.choice, Quot.sound
* `Verif.Props.C30_no_failure`: propext, Classical.choice, Quot.sound
* `Verif.Props.C30_throws`: propext, Classical.choice, Quot.sound
* `Verif.Props.C30_square`: propext, Classical.choice, Quot.sound
* `Verif.Props.C31_four_squares`: propext, Classical.choice, Quot.sound
* `Verif.Props.C31_negative`: propext, Classical.choice, Quot.sound
* `Verif.Props.C31_squares`: propext, Classical.choice, Quot.sound
* `Verif.Props.C31_failure`: propext, Classical.choice, Quot.sound
* `Verif.Props.C31_failure_71`: propext, Classical.choice, Quot.sound
* `Verif.Props.C31_failure_unbounded`: propext, Classical.choice, Quot.sound
* `Verif.Props.C90_trials`: propext, Classical.choice, Quot.sound
* `Verif.Props.C90_distribution`: propext, Classical.choice, Quot.sound
* `Verif.Props.C90_noise`: propext, Classical.choice, Quot.sound
* `Verif.Props.C90_keys`: propext, Classical.choice, Quot.sound
* `Verif.Props.C90_keygen`: propext, Classical.choice, Quot.sound
* `Verif.Props.C90_encrypt`: propext, Classical.choice, Quot.sound
* `Verif.Props.C90_program`: propext, Classical.choice, Quot.sound
* `Verif.Props.C90_run`: propext, Classical.choice, Quot.sound
* `Verif.Props.C85_verified`: propext, Classical.choice, Quot.sound
* `Verif.Props.C85_handover`: propext, Classical.choice, Quot.sound
* `Verif.Props.C85_handovers`: propext, Classical.choice, Quot.sound
* `Verif.Props.C85_constraints`: propext, Classical.choice, Quot.sound
* `Verif.Props.C85_channel`: propext, Classical.choice, Quot.sound
* `Verif.Props.C85_sealed`: propext, Classical.choice, Quot.sound
* `Verif.Props.C86_privacy`: propext, Classical.choice, Quot.sound
* `Verif.Props.C86_sharp`: propext, Classical.choice, Quot.sound
* `Verif.Props.C94_linear_prover`: propext, Classical.choice, Quot.sound
* `Verif.Props.C94_quadratic_prover`: propext, Classical.choice, Quot.sound
* `Verif.Props.C94_linear_verifier`: propext, Classical.choice, Quot.sound
* `Verif.Props.C94_entries`: propext, Classical.choice, Quot.sound
* `Verif.Props.C94_verify_again`: propext, Classical.choice, Quot.sound
* `Verif.Props.C60_keccakf`: propext, Classical.choice, Quot.sound
* `Verif.Props.C61_permutation`: propext, Classical.choice, Quot.sound
* `Verif.Props.C61_iterate`: propext, Classical.choice, Quot.sound
* `Verif.Props.C74_constructor`: propext, Classical.choice, Quot.sound
* `Verif.Props.C74_given`: propext, Classical.choice, Quot.sound
* `Verif.Props.C74_key_hash`: propext, Classical.choice, Quot.sound
* `Verif.Props.C74_crs_binding`: propext, Classical.choice, Quot.sound
* `Verif.Props.C74_key_binding`: propext, Classical.choice, Quot.sound
* `Verif.Props.C74_key_shape`: propext, Classical.choice, Quot.sound
* `Verif.Props.C74_stale`: propext, Classical.choice, Quot.sound
* `Verif.Props.C74_equality`: propext, Classical.choice, Quot.sound
* `Verif.Props.C52_linear_bytes`: propext, Classical.choice, Quot.sound
* `Verif.Props.C52_quadratic_bytes`: propext, Classical.choice, Quot.sound
* `Verif.Props.C52_linear`: propext, Quot.sound
* `Verif.Props.C52_linear_collision`: propext, Quot.sound
* `Verif.Props.C52_quadratic`: propext, Quot.sound
* `Verif.Props.C82_faithful`: propext, Classical.choice, Quot.sound
* `Verif.Props.C82_length`: propext, Classical.choice, Quot.sound
* `Verif.Props.C82_scalars`: propext, Classical.choice, Quot.sound
* `Verif.Props.C82_reduction`: propext, Classical.choice, Quot.sound
* `Verif.Props.C82_linear_challenges`: propext, Classical.choice, Quot.sound
* `Verif.Props.C82_quadratic_challenges`: propext, Classical.choice, Quot.sound
* `Verif.Props.C82_linear_binding`: propext, Classical.choice, Quot.sound
* `Verif.Props.C82_quadratic_binding`: propext, Classical.choice, Quot.sound
* `Verif.Props.C82_program`: propext, Classical.choice, Quot.sound
* `Verif.Props.C87_linear_part`: propext, Classical.choice, Quot.sound
* `Verif.Props.C87_linear_conv`: propext, Classical.choice, Quot.sound
* `Verif.Props.C34_relation`: propext, Classical.choice, Quot.sound
* `Verif.Props.C34_decrypt`: propext, Classical.choice, Quot.sound
* `Verif.Props.C34_throws`: propext, Classical.choice, Quot.sound
* `Verif.Props.C66_inputs`: propext, Classical.choice, Quot.sound
* `Verif.Props.C66_inputs_defined`: propext, Classical.choice, Quot.sound
* `Verif.Props.C66_no_error`: propext, Classical.choice, Quot.sound
* `Verif.Props.C66_run`: propext, Classical.choice, Quot.sound
* `Verif.Props.C66_standard`: propext, Classical.choice, Quot.sound
* `Verif.Props.C66_outcomes`: propext, Classical.choice, Quot.sound
* `Verif.Props.C66_default_dimension`: propext, Classical.choice, Quot.sound
* `Verif.Props.C66_good_dimension`: propext, Classical.choice, Quot.sound
* `Verif.Props.C66_default_run`: propext, Classical.choice, Quot.sound
* `Verif.Props.C66_good_run`: propext, Classical.choice, Quot.sound
* `Verif.Props.C66_run_exists`: propext, Classical.choice, Quot.sound
* `Verif.Props.C81_reply`: propext, Classical.choice, Quot.sound
* `Verif.Props.C81_rate`: propext, Classical.choice, Quot.sound
* `Verif.Props.C81_hiding`: propext, Classical.choice, Quot.sound
* `Verif.Props.C81_not_perfect`: propext, Classical.choice, Quot.sound
* `Verif.Props.C81_setting`: propext, Classical.choice, Quot.sound
* `Verif.Props.C50_transcript`: propext, Classical.choice, Quot.sound
* `Verif.Props.C50_challenge_length`: propext, Classical.choice, Quot.sound
* `Verif.Props.C50_rng`: propext, Classical.choice, Quot.sound
* `Verif.Props.C50_rng_order`: propext, Quot.sound
* `Verif.Props.C51_sponge`: propext, Classical.choice, Quot.sound
* `Verif.Props.C51_injective`: propext, Classical.choice, Quot.sound
* `Verif.Props.C51_collision`: propext, Classical.choice, Quot.sound
* `Verif.Props.C51_padding`: propext, Classical.choice, Quot.sound
* `Verif.Props.C53_call`: propext, Classical.choice, Quot.sound
* `Verif.Props.C53_linear`: propext, Classical.choice, Quot.sound
* `Verif.Props.C53_quadratic`: propext, Classical.choice, Quot.sound
* `Verif.Props.C63_final_equation`: propext, Classical.choice, Quot.sound
* `Verif.Props.C63_enforced`: propext, Classical.choice, Quot.sound
* `Verif.Props.C63_enforced_conv`: propext, Classical.choice, Quot.sound
* `Verif.Props.C63_acceptance`: propext, Classical.choice, Quot.sound
* `Verif.Props.C63_norm0_not_enforced`: propext, Classical.choice, Quot.sound
* `Verif.Props.C92_wrong`: propext, Classical.choice, Quot.sound
* `Verif.Props.C92_right`: propext, Classical.choice, Quot.sound
* `Verif.Props.C92_statement`: propext, Classical.choice, Quot.sound
* `Verif.Props.C100_inner`: propext, Classical.choice, Quot.sound
* `Verif.Props.C100_norm_exact`: propext, Classical.choice, Quot.sound
* `Verif.Props.C100_norm_forgery`: propext, Classical.choice, Quot.sound
* `Verif.Props.C100_fixed_first`: propext, Classical.choice, Quot.sound
* `Verif.Props.C100_no_root`: propext, Classical.choice, Quot.sound
* `Verif.Props.C01_pow2_helpers`: propext, Classical.choice, Quot.sound
* `Verif.Props.C01_pow2_helpers_wrap`: propext, Classical.choice, Quot.sound
* `Verif.Props.C02_subset_products`: propext, Classical.choice, Quot.sound
* `Verif.Props.C02_exp_subset_product`: propext, Classical.choice, Quot.sound
* `Verif.Props.C03_oneshot_eq_iterated`: propext, Classical.choice, Quot.sound
* `Verif.Props.C03_fold_generators`: propext, Classical.choice, Quot.sound
* `Verif.Props.C03_single_generator`: propext, Classical.choice, Quot.sound
* `Verif.Props.C04_commit_value`: propext, Quot.sound
* `Verif.Props.C04_commit2_value`: propext, Quot.sound
* `Verif.Props.C04_homomorphic`: propext, Classical.choice, Quot.sound
* `Verif.Props.C04_verify_iff`: propext, Quot.sound
* `Verif.Props.C04_verify2_iff`: propext, Quot.sound
* `Verif.Props.C04_short_arrays`: propext, Quot.sound
* `Verif.Props.C05_binding`: propext, Classical.choice, Quot.sound
* `Verif.Props.C05_unique_opening`: propext, Classical.choice, Quot.sound
* `Verif.Props.C97_linear_refines`: propext, Classical.choice, Quot.sound
* `Verif.Props.C97_quadratic_refines`: propext, Classical.choice, Quot.sound
* `Verif.Props.C97_linear_accepts`: propext, Classical.choice, Quot.sound
* `Verif.Props.C97_quadratic_accepts`: propext, Classical.choice, Quot.sound
* `Verif.Props.C97_linear_safe`: propext, Classical.choice, Quot.sound
* `Verif.Props.C97_quadratic_safe`: propext, Classical.choice, Quot.sound
* `Verif.Props.C108_vector`: propext, Classical.choice, Quot.sound
* `Verif.Props.C108_linear`: propext, Classical.choice, Quot.sound
* `Verif.Props.C108_quadratic`: propext, Classical.choice, Quot.sound
* `Verif.Props.C108_sets`: propext, Classical.choice, Quot.sound
* `Verif.Props.C108_value`: propext, Classical.choice, Quot.sound
* `Verif.Props.C108_printVec`: propext, Classical.choice, Quot.sound
* `Verif.Props.C108_printScalar`: propext, Classical.choice, Quot.sound
* `Verif.Props.C108_number`: propext, Classical.choice, Quot.sound
* `Verif.Props.C108_printVec_empty`: propext, Quot.sound
* `Verif.Props.C108_debugPrint`: propext, Classical.choice, Quot.sound
* `Verif.Props.C98_linear_residues`: propext, Classical.choice, Quot.sound
* `Verif.Props.C98_quadratic_residues`: propext, Classical.choice, Quot.sound
* `Verif.Props.C98_no_error`: propext, Classical.choice, Quot.sound
* `Verif.Props.C98_linear_accepts`: propext, Classical.choice, Quot.sound
* `Verif.Props.C98_quadratic_accepts`: propext, Classical.choice, Quot.sound
* `Verif.Props.C98_encodings`: propext, Classical.choice, Quot.sound
* `Verif.Props.C98_linear_malleable`: propext, Classical.choice, Quot.sound
* `Verif.Props.C98_quadratic_malleable`: propext, Classical.choice, Quot.sound
* `Verif.Props.C98_linear_zero`: propext, Classical.choice, Quot.sound
* `Verif.Props.C98_quadratic_zero`: propext, Classical.choice, Quot.sound
* `Verif.Props.C98_linear_exact`: propext, Classical.choice, Quot.sound
* `Verif.Props.C98_quadratic_exact`: propext, Classical.choice, Quot.sound
* `Verif.Props.C98_linear_safe`: propext, Classical.choice, Quot.sound
* `Verif.Props.C98_quadratic_safe`: propext, Classical.choice, Quot.sound
* `Verif.Props.C98_top_bit_accepted`: propext, Classical.choice, Quot.sound
* `Verif.Props.C98_tag_linear`: propext, Classical.choice, Quot.sound
* `Verif.Props.C98_tag_quadratic`: propext, Classical.choice, Quot.sound
* `Verif.Props.C98_tag_norm`: propext, Classical.choice, Quot.sound
* `Verif.Props.C54_linear`: propext, Classical.choice, Quot.sound
* `Verif.Props.C54_quadratic`: propext, Classical.choice, Quot.sound
* `Verif.Props.C54_not_read_back`: propext, Classical.choice, Quot.sound
* `Verif.Props.C54_undefined`: propext, Classical.choice, Quot.sound
* `Verif.Props.C57_quadratic_extract`: propext, Classical.choice, Quot.sound
* `Verif.Props.C57_quadratic_sound`: propext, Classical.choice, Quot.sound
* `Verif.Props.C57_quadratic_tree`: propext, Classical.choice, Quot.sound
* `Verif.Props.C57_quadratic_iff`: propext, Classical.choice, Quot.sound
* `Verif.Props.C101_decrypt`: propext, Classical.choice, Quot.sound
* `Verif.Props.C101_numbers`: propext, Classical.choice, Quot.sound
* `Verif.Props.C101_round`: propext, Classical.choice, Quot.sound
* `Verif.Props.C101_secret`: propext, Classical.choice, Quot.sound
* `Verif.Props.C33_decode`: propext, Classical.choice, Quot.sound
* `Verif.Props.C33_library`: propext, Classical.choice, Quot.sound
* `Verif.Props.C33_tight`: propext, Classical.choice, Quot.sound
* `Verif.Props.C35_noise`: propext, Classical.choice, Quot.sound
* `Verif.Props.C35_no_failure`: propext, Classical.choice, Quot.sound
* `Verif.Props.C35_setParams`: propext, Classical.choice, Quot.sound
* `Verif.Props.C38_history`: propext, Classical.choice, Quot.sound
* `Verif.Props.C38_unregistered_leak`: propext, Classical.choice, Quot.sound
* `Verif.Props.C43_decryption_meaning`: propext, Classical.choice, Quot.sound
* `Verif.Props.C43_decryption`: propext, Classical.choice, Quot.sound
* `Verif.Props.C43_decryption_defined`: propext, Classical.choice, Quot.sound
* `Verif.Props.C43_decryption_small`: propext, Classical.choice, Quot.sound
* `Verif.Props.C43_encryption_meaning`: propext, Classical.choice, Quot.sound
* `Verif.Props.C43_encryption`: propext, Classical.choice, Quot.sound
* `Verif.Props.C43_encryption_stale`: propext, Classical.choice, Quot.sound
* `Verif.Props.C43_encryption_defined`: propext, Classical.choice, Quot.sound
* `Verif.Props.C43_encryption_small`: propext, Classical.choice, Quot.sound
* `Verif.Props.C43_keygen_meaning`: propext, Classical.choice, Quot.sound
* `Verif.Props.C43_keygen`: propext, Classical.choice, Quot.sound
* `Verif.Props.C43_keygen_defined`: propext, Classical.choice, Quot.sound
* `Verif.Props.C43_keygen_small`: propext, Classical.choice, Quot.sound
* `Verif.Props.C43_reshare_meaning`: propext, Classical.choice, Quot.sound
* `Verif.Props.C43_reshare`: propext, Classical.choice, Quot.sound
* `Verif.Props.C43_lInfty`: propext, Classical.choice, Quot.sound
* `Verif.Props.C43_smallness_meaning`: propext, Classical.choice, Quot.sound
* `Verif.Props.C43_smallness`: propext, Classical.choice, Quot.sound
* `Verif.Props.C43_smallness_defined`: propext, Classical.choice, Quot.sound
* `Verif.Props.C43_smallness_small`: propext, Classical.choice, Quot.sound
* `Verif.Props.C32_scalars`: propext, Classical.choice, Quot.sound
* `Verif.Props.C32_throws`: propext, Classical.choice, Quot.sound
* `Verif.Props.C32_short_pad`: propext, Classical.choice, Quot.sound
* `Verif.Props.C32_elements`: propext, Classical.choice, Quot.sound
* `Verif.Props.C32_elements_throws`: propext, Classical.choice, Quot.sound
* `Verif.Props.C32_failure`: propext, Classical.choice, Quot.sound
* `Verif.Props.C36_digits`: propext, Classical.choice, Quot.sound
* `Verif.Props.C36_recompose`: propext, Classical.choice, Quot.sound
* `Verif.Props.C36_zero_radix`: propext, Classical.choice, Quot.sound
* `Verif.Props.C41_powers`: propext, Classical.choice, Quot.sound
* `Verif.Props.C37_expand`: propext, Classical.choice, Quot.sound
* `Verif.Props.C37_meaning`: propext, Classical.choice, Quot.sound
* `Verif.Props.C37_make`: propext, Classical.choice, Quot.sound
* `Verif.Props.C37_slice`: propext, Quot.sound
* `Verif.Props.C40_scalars`: propext, Classical.choice, Quot.sound
* `Verif.Props.C40_elements`: propext, Classical.choice, Quot.sound
* `Verif.Props.C40_range`: propext, Classical.choice, Quot.sound
* `Verif.Props.C40_range_overflow`: propext
* `Verif.Props.C39_layout`: propext, Classical.choice, Quot.sound
* `Verif.Props.C39_defined`: propext, Quot.sound
* `Verif.Props.C39_swap`: propext
* `Verif.Props.C39_generators`: propext, Classical.choice, Quot.sound
* `Verif.Props.C56_elements`: propext, Classical.choice, Quot.sound
* `Verif.Props.C56_double`: propext, Classical.choice, Quot.sound
* `Verif.Props.C56_scalars`: propext, Classical.choice, Quot.sound
* `Verif.Props.C56_scalars_slice`: propext, Quot.sound
* `Verif.Props.C64_start`: propext, Classical.choice, Quot.sound
* `Verif.Props.C64_prepared`: propext, Classical.choice, Quot.sound
* `Verif.Props.C64_complete`: propext, Classical.choice, Quot.sound
* `Verif.Props.C64_live`: propext, Classical.choice, Quot.sound
* `Verif.Props.C64_defined`: propext, Classical.choice, Quot.sound
* `Verif.Props.C64_outcomes`: propext, Classical.choice, Quot.sound
* `Verif.Props.C64_challenges`: propext, Classical.choice, Quot.sound
* `Verif.Props.C65_start`: propext, Classical.choice, Quot.sound
* `Verif.Props.C65_complete`: propext, Classical.choice, Quot.sound
* `Verif.Props.C84_statement`: propext, Classical.choice, Quot.sound
* `Verif.Props.C84_offsets`: propext, Classical.choice, Quot.sound
* `Verif.Props.C84_round_forgery`: propext, Classical.choice, Quot.sound
* `Verif.Props.C84_accepted`: propext, Classical.choice, Quot.sound
* `Verif.Props.C84_old_key_last`: propext, Classical.choice, Quot.sound
* `Verif.Props.C88_commitments`: propext, Classical.choice, Quot.sound
* `Verif.Props.C88_public`: propext, Classical.choice, Quot.sound
* `Verif.Props.C88_hiding`: propext, Classical.choice, Quot.sound
* `Verif.Props.C88_final`: propext, Classical.choice, Quot.sound
* `Verif.Props.C73_meaning`: propext, Classical.choice, Quot.sound
* `Verif.Props.C73_round`: propext, Classical.choice, Quot.sound
* `Verif.Props.C73_fooled_left`: propext, Classical.choice, Quot.sound
* `Verif.Props.C73_fooled_right`: propext, Classical.choice, Quot.sound
* `Verif.Props.C73_fooled_small`: propext, Classical.choice, Quot.sound
* `Verif.Props.C83_challenges`: propext, Classical.choice, Quot.sound
* `Verif.Props.C83_round`: propext, Classical.choice, Quot.sound
* `Verif.Props.C83_w_free`: propext, Classical.choice, Quot.sound
* `Verif.Props.C83_aggregation`: propext, Classical.choice, Quot.sound
* `Verif.Props.C83_final`: propext, Classical.choice, Quot.sound
* `Verif.Props.C83_binding`: propext, Classical.choice, Quot.sound
* `Verif.Props.C83_final_binding`: propext, Classical.choice, Quot.sound
* `Verif.Props.C83_not_bound`: propext, Classical.choice, Quot.sound
* `Verif.Props.C76_zero_one`: propext, Classical.choice, Quot.sound
* `Verif.Props.C76_zero_one_element`: propext, Classical.choice, Quot.sound
* `Verif.Props.C76_bounded`: propext, Classical.choice, Quot.sound
* `Verif.Props.C76_limit`: propext, Classical.choice, Quot.sound
* `Verif.Props.C76_bounded_element`: propext, Classical.choice, Quot.sound
* `Verif.Props.C45_integers`: propext, Classical.choice, Quot.sound
* `Verif.Props.C45_scalars`: propext, Classical.choice, Quot.sound
* `Verif.Props.C45_scalar_types`: propext, Classical.choice, Quot.sound
* `Verif.Props.C45_elements`: propext, Classical.choice, Quot.sound
* `Verif.Props.C45_elements_round_trip`: propext, Classical.choice, Quot.sound
* `Verif.Props.C45_big_integers`: propext, Classical.choice, Quot.sound
* `Verif.Props.C46_balanced_remainder`: propext, Classical.choice, Quot.sound
* `Verif.Props.C46_zero`: propext, Classical.choice, Quot.sound
* `Verif.Props.C46_boundary`: propext, Quot.sound
* `Verif.Props.C47_bounded_throws`: propext
* `Verif.Props.C47_bounded_range`: propext, Classical.choice, Quot.sound
* `Verif.Props.C47_bounded_distribution`: propext, Classical.choice, Quot.sound
* `Verif.Props.C47_zero_one`: propext, Classical.choice, Quot.sound
* `Verif.Props.C47_zero_one_stale`: propext
* `Verif.Props.C48_setInteger`: propext, Classical.choice, Quot.sound
* `Verif.Props.C49_labels`: propext, Classical.choice, Quot.sound
* `Verif.Props.C59_order_prime`: propext, Classical.choice, Quot.sound
* `Verif.Props.C59_ring_operations`: propext, Classical.choice, Quot.sound
* `Verif.Props.C59_division`: propext, Classical.choice, Quot.sound
* `Verif.Props.C59_inner_product`: propext, Classical.choice, Quot.sound
* `Verif.Props.C62_point_operations`: propext, Classical.choice, Quot.sound
* `Verif.Props.C62_multi_exp`: propext, Classical.choice, Quot.sound
* `Verif.Props.C62_base_times_scalar`: propext, Classical.choice, Quot.sound
* `Verif.Props.C23_newSharing_valid`: propext, Classical.choice, Quot.sound
* `Verif.Props.C23_reconstruct`: propext, Classical.choice, Quot.sound
* `Verif.Props.C23_share_reconstruct`: propext, Classical.choice, Quot.sound
* `Verif.Props.C23_collision_throws`: propext, Classical.choice, Quot.sound
* `Verif.Props.C24_parity_check`: propext, Classical.choice, Quot.sound
* `Verif.Props.C24_threshold_zero`: propext, Quot.sound
* `Verif.Props.C24_rows`: propext, Classical.choice, Quot.sound
* `Verif.Props.C25_privacy`: propext, Classical.choice, Quot.sound
* `Verif.Props.C25_unique`: propext, Classical.choice, Quot.sound
* `Verif.Props.C91_trial`: propext, Classical.choice, Quot.sound
* `Verif.Props.C91_gives_up`: propext, Classical.choice, Quot.sound
* `Verif.Props.C91_product`: propext, Classical.choice, Quot.sound
* `Verif.Props.C91_rate`: propext, Classical.choice, Quot.sound
* `Verif.Props.C91_rare`: propext, Classical.choice, Quot.sound
* `Verif.Props.C91_round`: propext, Classical.choice, Quot.sound
* `Verif.Props.C91_run`: propext, Classical.choice, Quot.sound
* `Verif.Props.C68_soundness`: propext, Classical.choice, Quot.sound
* `Verif.Props.C68_tight`: propext, Classical.choice, Quot.sound
* `Verif.Props.C68_norms`: propext, Classical.choice, Quot.sound
* `Verif.Props.C13_linear_extract`: propext, Classical.choice, Quot.sound
* `Verif.Props.C13_linear_sound`: propext, Classical.choice, Quot.sound
* `Verif.Props.C13_linear_tree`: propext, Classical.choice, Quot.sound
* `Verif.Props.C13_linear_iff`: propext, Classical.choice, Quot.sound
* `Verif.Props.C58_quadratic_forgery`: propext, Classical.choice, Quot.sound
* `Verif.Props.C58_tag_forgery`: propext, Classical.choice, Quot.sound
* `Verif.Props.C58_norm_forgery`: propext, Classical.choice, Quot.sound
* `Verif.Props.C89_left`: propext, Classical.choice, Quot.sound
* `Verif.Props.C89_right`: propext, Classical.choice, Quot.sound
* `Verif.Props.C89_decryption`: propext, Classical.choice, Quot.sound
* `Verif.Props.C89_encryption`: propext, Classical.choice, Quot.sound
* `Verif.Props.C89_keygen`: propext, Classical.choice, Quot.sound
* `Verif.Props.C89_round`: propext, Classical.choice, Quot.sound
* `Verif.Props.C89_inputs`: propext, Classical.choice, Quot.sound
* `Verif.Props.C89_program`: propext, Classical.choice, Quot.sound
* `Verif.Props.C26_decode`: propext, Classical.choice, Quot.sound
* `Verif.Props.C26_short_buffer`: propext, Classical.choice, Quot.sound
* `Verif.Props.C26_ternary`: propext, Quot.sound
* `Verif.Props.C26_at`: propext, Classical.choice, Quot.sound
* `Verif.Props.C26_distribution`: propext, Classical.choice, Quot.sound
* `Verif.Props.C27_left_vec`: propext, Classical.choice, Quot.sound
* `Verif.Props.C27_right_vec`: propext, Classical.choice, Quot.sound
* `Verif.Props.C27_left_mat`: propext, Classical.choice, Quot.sound
* `Verif.Props.C27_right_mat`: propext, Classical.choice, Quot.sound
* `Verif.Props.C27_mismatch`: propext
* `Verif.Props.C28_entry`: propext, Classical.choice, Quot.sound
* `Verif.Props.C28_left_vec`: propext, Classical.choice, Quot.sound
* `Verif.Props.C28_right_vec`: propext, Classical.choice, Quot.sound
* `Verif.Props.C28_left_mat`: propext, Classical.choice, Quot.sound
* `Verif.Props.C28_right_mat`: propext, Classical.choice, Quot.sound
* `Verif.Props.C28_mismatch`: propext
* `Verif.Props.C28_decode`: propext, Classical.choice, Quot.sound
* `Verif.Props.C29_matrix`: propext, Classical.choice, Quot.sound
* `Verif.Props.C29_ematrix`: propext, Classical.choice, Quot.sound
* `Verif.Props.C29_multiple_of_four`: propext, Classical.choice, Quot.sound
* `Verif.Props.C29_default_shape`: propext, Quot.sound
* `Verif.Props.C95_apart`: propext, Classical.choice, Quot.sound
* `Verif.Props.C95_ext_apart`: propext, Classical.choice, Quot.sound
* `Verif.Props.C95_left_vec`: propext, Classical.choice, Quot.sound
* `Verif.Props.C95_right_vec`: propext, Classical.choice, Quot.sound
* `Verif.Props.C95_left_mat`: propext, Classical.choice, Quot.sound
* `Verif.Props.C95_right_mat`: propext, Classical.choice, Quot.sound
* `Verif.Props.C95_ext_zero`: propext, Classical.choice, Quot.sound
* `Verif.Props.C95_ext_right_mat`: propext, Classical.choice, Quot.sound
* `Verif.Props.C95_ext_two`: propext, Classical.choice, Quot.sound
* `Verif.Props.C99_encodings`: propext, Classical.choice, Quot.sound
* `Verif.Props.C99_quadratic_forgery`: propext, Classical.choice, Quot.sound
* `Verif.Props.C99_offset_forgery`: propext, Classical.choice, Quot.sound
* `Verif.Props.C99_value`: propext, Classical.choice, Quot.sound
* `Verif.Props.C99_tag_forgery`: propext, Classical.choice, Quot.sound
* `Verif.Props.C99_linear_extract`: propext, Classical.choice, Quot.sound
* `Verif.Props.C99_quadratic_extract`: propext, Classical.choice, Quot.sound
* `Verif.Props.C72_encryption1`: propext, Classical.choice, Quot.sound
* `Verif.Props.C72_encryption2`: propext, Classical.choice, Quot.sound
* `Verif.Props.C72_decryption`: propext, Classical.choice, Quot.sound
* `Verif.Props.C72_key`: propext, Classical.choice, Quot.sound
* `Verif.Props.C72_round`: propext, Classical.choice, Quot.sound
* `Verif.Props.C72_invalid`: propext, Classical.choice, Quot.sound
* `Verif.Props.C72_invalid_key`: propext, Classical.choice, Quot.sound
* `Verif.Props.C72_program`: propext, Classical.choice, Quot.sound
* `Verif.Props.C80_commit`: propext, Quot.sound
* `Verif.Props.C80_linear`: propext, Classical.choice, Quot.sound
* `Verif.Props.C80_linear_hiding`: propext, Classical.choice, Quot.sound
* `Verif.Props.C80_quadratic`: propext, Classical.choice, Quot.sound
* `Verif.Props.C80_quadratic_hiding`: propext, Classical.choice, Quot.sound
* `Verif.Props.C80_quadratic_zero`: propext, Classical.choice, Quot.sound
* `Verif.Props.C80_norm_hiding`: propext, Classical.choice, Quot.sound
* `Verif.Props.C102_decryption`: propext, Classical.choice, Quot.sound
* `Verif.Props.C102_numbers`: propext, Classical.choice, Quot.sound
* `Verif.Props.C102_round`: propext, Classical.choice, Quot.sound
* `Verif.Props.C102_accepted`: propext, Classical.choice, Quot.sound
* `Verif.Props.C102_program`: propext, Classical.choice, Quot.sound
