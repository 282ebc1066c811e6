'Verif.Props.C01_dest' depends on axioms: [propext, Classical.choice, Quot.sound]
'Verif.Props.C01_hintLess' depends on axioms: [propext, Classical.choice, Quot.sound]
'Verif.Props.C01_hintNormalized' depends on axioms: [propext, Classical.choice, Quot.sound]
'Verif.Props.C01_source' depends on axioms: [propext, Classical.choice, Quot.sound]
'Verif.Props.C01_validate_iff' depends on axioms: [propext, Classical.choice, Quot.sound]
'Verif.Props.C02_dest' depends on axioms: [propext, Classical.choice, Quot.sound]
'Verif.Props.C02_hintLess' depends on axioms: [propext, Classical.choice, Quot.sound]
'Verif.Props.C02_hintNormalized' depends on axioms: [propext, Classical.choice, Quot.sound]
'Verif.Props.C02_source_partial' depends on axioms: [propext, Classical.choice, Quot.sound]
'Verif.Props.C02_source_violated' depends on axioms: [propext, Classical.choice, Quot.sound]
'Verif.Props.C03_dest' depends on axioms: [propext, Classical.choice, Quot.sound]
'Verif.Props.C03_hintLess' depends on axioms: [propext, Classical.choice, Quot.sound]
'Verif.Props.C03_hintNormalized' depends on axioms: [propext, Classical.choice, Quot.sound]
'Verif.Props.C03_source' depends on axioms: [propext, Classical.choice, Quot.sound]
'Verif.Props.C04_detectChains' depends on axioms: [propext, Classical.choice, Quot.sound]
'Verif.Props.C04_iterate' depends on axioms: [propext, Classical.choice, Quot.sound]
'Verif.Props.C05_eval' depends on axioms: [propext, Classical.choice, Quot.sound]
'Verif.Props.C05_random_violated' depends on axioms: [propext, Classical.choice, Quot.sound]
'Verif.Props.C05_shape' depends on axioms: [propext, Classical.choice, Quot.sound]
'Verif.Props.C05_value' depends on axioms: [propext, Classical.choice, Quot.sound]
'Verif.Props.C05_vars' depends on axioms: [propext, Classical.choice, Quot.sound]
'Verif.Props.C06_complete' depends on axioms: [propext, Classical.choice, Quot.sound]
'Verif.Props.C06_satisfiable' depends on axioms: [propext, Classical.choice, Quot.sound]
'Verif.Props.C07_bits' depends on axioms: [propext, Classical.choice, Quot.sound]
'Verif.Props.C07_constrained' depends on axioms: [propext, Classical.choice, Quot.sound]
'Verif.Props.C07_exact' depends on axioms: [propext, Classical.choice, Quot.sound]
'Verif.Props.C07_gf2' depends on axioms: [propext, Classical.choice, Quot.sound]
'Verif.Props.C07_partial' depends on axioms: [propext, Classical.choice, Quot.sound]
'Verif.Props.C07_violated' depends on axioms: [propext, Classical.choice, Quot.sound]
'Verif.Props.C08_no_marks' depends on axioms: [propext, Classical.choice, Quot.sound]
'Verif.Props.C08_partial' depends on axioms: [propext, Classical.choice, Quot.sound]
'Verif.Props.C08_total' depends on axioms: [propext, Classical.choice, Quot.sound]
'Verif.Props.C08_up_to_marks' depends on axioms: [propext, Classical.choice, Quot.sound]
'Verif.Props.C08_violated' depends on axioms: [propext, Classical.choice, Quot.sound]
'Verif.Props.C09_adversarial' depends on axioms: [propext, Classical.choice, Quot.sound]
'Verif.Props.C09_removeAndExport' depends on axioms: [propext, Classical.choice, Quot.sound]
'Verif.Props.C10_empty_violated' depends on axioms: [propext, Classical.choice, Quot.sound]
'Verif.Props.C10_finalBuild_partial' depends on axioms: [propext, Classical.choice, Quot.sound]
'Verif.Props.C11_limit_panic' depends on axioms: [propext, Classical.choice, Quot.sound]
'Verif.Props.C11_mulFanout_partial' depends on axioms: [propext, Classical.choice, Quot.sound]
'Verif.Props.C11_random_violated' depends on axioms: [propext, Classical.choice, Quot.sound]
'Verif.Props.C12_exportConstraints' depends on axioms: [propext, Classical.choice, Quot.sound]
'Verif.Props.C12_verdict' depends on axioms: [propext, Classical.choice, Quot.sound]
'Verif.Props.C13_panic' depends on axioms: [propext, Classical.choice, Quot.sound]
'Verif.Props.C13_random_violated' depends on axioms: [propext, Classical.choice, Quot.sound]
'Verif.Props.C13_solveDuplicates_partial' depends on axioms: [propext, Classical.choice, Quot.sound]
'Verif.Props.C14_noConstraints_violated' depends on axioms: [propext, Classical.choice, Quot.sound]
'Verif.Props.C14_split_noRandom' depends on axioms: [propext, Classical.choice, Quot.sound]
'Verif.Props.C14_split_partial' depends on axioms: [propext, Classical.choice, Quot.sound]
'Verif.Props.C14_total' depends on axioms: [propext, Classical.choice, Quot.sound]
'Verif.Props.C15_deterministic' depends on axioms: [propext, Classical.choice, Quot.sound]
'Verif.Props.C15_layering' depends on axioms: [propext, Classical.choice, Quot.sound]
'Verif.Props.C15_placed' depends on axioms: [propext, Classical.choice, Quot.sound]
'Verif.Props.C15_total' depends on axioms: [propext, Classical.choice, Quot.sound]
'Verif.Props.C15_valid' depends on axioms: [propext, Classical.choice, Quot.sound]
'Verif.Props.C16_complete' depends on axioms: [propext, Classical.choice, Quot.sound]
'Verif.Props.C16_gates' depends on axioms: [propext, Classical.choice, Quot.sound]
'Verif.Props.C16_sound' depends on axioms: [propext, Classical.choice, Quot.sound]
'Verif.Props.C16_value' depends on axioms: [propext, Classical.choice, Quot.sound]
'Verif.Props.C17' depends on axioms: [propext, Classical.choice, Quot.sound]
'Verif.Props.C17_eval' depends on axioms: [propext, Classical.choice, Quot.sound]
'Verif.Props.C17_valid' depends on axioms: [propext, Classical.choice, Quot.sound]
'Verif.Props.C17_wellformed' depends on axioms: [propext, Classical.choice, Quot.sound]
'Verif.Props.C18_common_partial' depends on axioms: [propext, Classical.choice, Quot.sound]
'Verif.Props.C18_common_violated' depends on axioms: [propext, Classical.choice, Quot.sound]
'Verif.Props.C18_expand_partial' depends on axioms: [propext, Classical.choice, Quot.sound]
'Verif.Props.C18_expand_violated' depends on axioms: [propext, Classical.choice, Quot.sound]
'Verif.Props.C18_expand_wellformed' depends on axioms: [propext, Classical.choice, Quot.sound]
'Verif.Props.C18_layered' depends on axioms: [propext, Classical.choice, Quot.sound]
'Verif.Props.C18_loop' depends on axioms: [propext, Classical.choice, Quot.sound]
'Verif.Props.C19' depends on axioms: [propext, Classical.choice, Quot.sound]
'Verif.Props.C19_perm' depends on axioms: [propext, Quot.sound]
'Verif.Props.C19_valid' depends on axioms: [propext, Classical.choice, Quot.sound]
'Verif.Props.C20_initialised' depends on axioms: [propext, Classical.choice, Quot.sound]
'Verif.Props.C20_output_range_violated' depends on axioms: [propext, Classical.choice, Quot.sound]
'Verif.Props.C20_partial' depends on axioms: [propext, Classical.choice, Quot.sound]
'Verif.Props.C20_public_violated' depends on axioms: [propext, Classical.choice, Quot.sound]
'Verif.Props.C20_validate_panics_violated' depends on axioms: [propext, Classical.choice, Quot.sound]
'Verif.Props.C20_validate_total' depends on axioms: [propext, Classical.choice, Quot.sound]
'Verif.Props.C20_validate_total_normal' depends on axioms: [propext, Classical.choice, Quot.sound]
'Verif.Props.C20_wires' depends on axioms: [propext, Classical.choice, Quot.sound]
'Verif.Props.C21_compose' depends on axioms: [propext, Classical.choice, Quot.sound]
'Verif.Props.C21_compose_assoc' depends on axioms: [propext, Quot.sound]
'Verif.Props.C21_compose_identity' depends on axioms: [propext, Quot.sound]
'Verif.Props.C21_empty_stays' depends on axioms: [propext]
'Verif.Props.C21_identity' depends on axioms: [propext, Quot.sound]
'Verif.Props.C21_mapInputs' depends on axioms: [propext, Quot.sound]
'Verif.Props.C21_sentinel' depends on axioms: [propext, Quot.sound]
'Verif.Props.C21_validate' depends on axioms: [propext, Quot.sound]
'Verif.Props.C21_wrong_length' does not depend on any axioms
'Verif.Props.C22_cleanup' depends on axioms: [propext, Classical.choice, Quot.sound]
'Verif.Props.C22_dest' depends on axioms: [propext, Classical.choice, Quot.sound]
'Verif.Props.C22_dest_terminates' depends on axioms: [propext, Classical.choice, Quot.sound]
'Verif.Props.C22_fixed_point' depends on axioms: [propext, Classical.choice, Quot.sound]
'Verif.Props.C22_hintLess' depends on axioms: [propext, Classical.choice, Quot.sound]
'Verif.Props.C22_hintLess_terminates' depends on axioms: [propext, Classical.choice, Quot.sound]
'Verif.Props.C22_hintNormalized' depends on axioms: [propext, Classical.choice, Quot.sound]
'Verif.Props.C22_hintNormalized_terminates' depends on axioms: [propext, Classical.choice, Quot.sound]
'Verif.Props.C22_prune_terminates' depends on axioms: [propext, Classical.choice, Quot.sound]
'Verif.Props.C22_source' depends on axioms: [propext, Classical.choice, Quot.sound]
'Verif.Props.C22_source_terminates' depends on axioms: [propext, Classical.choice, Quot.sound]
'Verif.Props.C23_addBack' depends on axioms: [propext, Classical.choice, Quot.sound]
'Verif.Props.C23_valid' depends on axioms: [propext, Classical.choice, Quot.sound]
'Verif.Props.C24_arith_partial' depends on axioms: [propext, Classical.choice, Quot.sound]
'Verif.Props.C24_arith_sound_partial' depends on axioms: [propext, Classical.choice, Quot.sound]
'Verif.Props.C24_complete_partial' depends on axioms: [propext, Classical.choice, Quot.sound]
'Verif.Props.C24_exact_partial' depends on axioms: [propext, Classical.choice, Quot.sound]
'Verif.Props.C24_plain' depends on axioms: [propext, Classical.choice, Quot.sound]
'Verif.Props.C24_run_partial' depends on axioms: [propext, Classical.choice, Quot.sound]
'Verif.Props.C24_solved_partial' depends on axioms: [propext, Classical.choice, Quot.sound]
'Verif.Props.C24_solver_partial' depends on axioms: [propext, Classical.choice, Quot.sound]
'Verif.Props.C24_sound_partial' depends on axioms: [propext, Classical.choice, Quot.sound]
'Verif.Props.C24_valid' depends on axioms: [propext, Classical.choice, Quot.sound]
'Verif.Props.C25_hintNormalized' depends on axioms: [propext, Classical.choice, Quot.sound]
'Verif.Props.C25_hintNormalized_wrong_config' depends on axioms: [propext, Classical.choice, Quot.sound]
'Verif.Props.C25_layered' depends on axioms: [propext, Classical.choice, Quot.sound]
'Verif.Props.C25_layered_injective' depends on axioms: [propext, Classical.choice, Quot.sound]
'Verif.Props.C25_layered_wrong_field' depends on axioms: [propext, Classical.choice, Quot.sound]
'Verif.Props.C25_source' depends on axioms: [propext, Classical.choice, Quot.sound]
'Verif.Props.C25_source_wrong_config' depends on axioms: [propext, Classical.choice, Quot.sound]
'Verif.Props.C25_witness' depends on axioms: [propext, Classical.choice, Quot.sound]
'Verif.Props.C26_lane' depends on axioms: [propext, Classical.choice, Quot.sound]
'Verif.Props.C26_lossless' depends on axioms: [propext, Classical.choice, Quot.sound]
'Verif.Props.C26_run' depends on axioms: [propext, Classical.choice, Quot.sound]
'Verif.Props.C26_run_total' depends on axioms: [propext, Classical.choice, Quot.sound]
'Verif.Props.C27_complete' depends on axioms: [propext, Classical.choice, Quot.sound]
'Verif.Props.C27_lengths' depends on axioms: [propext, Classical.choice, Quot.sound]
'Verif.Props.C27_many' depends on axioms: [propext, Classical.choice, Quot.sound]
'Verif.Props.C27_solve' depends on axioms: [propext, Classical.choice, Quot.sound]
'Verif.Props.C28_bits_unique' depends on axioms: [propext, Quot.sound]
'Verif.Props.C28_bitwise' depends on axioms: [propext, Classical.choice, Quot.sound]
'Verif.Props.C28_compare' depends on axioms: [propext, Classical.choice, Quot.sound]
'Verif.Props.C28_div' depends on axioms: [propext, Classical.choice, Quot.sound]
'Verif.Props.C28_ids' depends on axioms: [propext, Quot.sound]
'Verif.Props.C28_intDiv_mod' depends on axioms: [propext, Classical.choice, Quot.sound]
'Verif.Props.C28_logic' depends on axioms: [propext, Classical.choice, Quot.sound]
'Verif.Props.C28_pow' depends on axioms: [propext, Classical.choice, Quot.sound]
'Verif.Props.C28_select' depends on axioms: [propext, Classical.choice, Quot.sound]
'Verif.Props.C28_shift' depends on axioms: [propext, Classical.choice, Quot.sound]
'Verif.Props.C28_toBinary' depends on axioms: [propext, Classical.choice, Quot.sound]
'Verif.Props.C28_toBinary_error' depends on axioms: [propext, Classical.choice, Quot.sound]
'Verif.Props.C28_total' depends on axioms: [propext, Classical.choice, Quot.sound]
'Verif.Props.C29_adversarial_partial' depends on axioms: [propext, Classical.choice, Quot.sound]
'Verif.Props.C29_constant_value' depends on axioms: [propext, Classical.choice, Quot.sound]
'Verif.Props.C29_doc' depends on axioms: [propext, Classical.choice, Quot.sound]
'Verif.Props.C29_panics' depends on axioms: [propext, Classical.choice, Quot.sound]
'Verif.Props.C29_validate' depends on axioms: [propext, Classical.choice, Quot.sound]
'Verif.Props.C29_values' depends on axioms: [propext, Classical.choice, Quot.sound]
'Verif.Props.C30_geq' depends on axioms: [propext, Classical.choice, Quot.sound]
'Verif.Props.C30_geq_adversarial_partial' depends on axioms: [propext, Classical.choice, Quot.sound]
'Verif.Props.C30_gt' depends on axioms: [propext, Classical.choice, Quot.sound]
'Verif.Props.C30_gt_adversarial_partial' depends on axioms: [propext, Classical.choice, Quot.sound]
'Verif.Props.C30_violated' depends on axioms: [propext, Classical.choice, Quot.sound]
'Verif.Props.C31_partial' depends on axioms: [propext, Classical.choice, Quot.sound]
'Verif.Props.C31_same_function' depends on axioms: [propext, Classical.choice, Quot.sound]
'Verif.Props.C31_second_ignored' depends on axioms: [propext, Classical.choice, Quot.sound]
'Verif.Props.C31_simple' depends on axioms: [propext, Classical.choice, Quot.sound]
'Verif.Props.C31_simple_violated' depends on axioms: [propext, Classical.choice, Quot.sound]
'Verif.Props.C31_violated' depends on axioms: [propext, Classical.choice, Quot.sound]
'Verif.Props.C32_arguments' depends on axioms: [propext, Quot.sound]
'Verif.Props.C32_fresh' depends on axioms: [propext, Quot.sound]
'Verif.Props.C32_hash_injective' depends on axioms: [propext, Classical.choice, Quot.sound]
'Verif.Props.C32_join_total' depends on axioms: [propext, Quot.sound]
'Verif.Props.C32_result' depends on axioms: [propext, Quot.sound]
'Verif.Props.C32_roundtrip' depends on axioms: [propext, Quot.sound]
'Verif.Props.C33_empty_violated' does not depend on any axioms
'Verif.Props.C33_load_dump' depends on axioms: [propext]
'Verif.Props.C33_num_vars' depends on axioms: [propext]
'Verif.Props.C33_num_vars_partial' depends on axioms: [propext]
'Verif.Props.C33_trait_num_vars' depends on axioms: [propext]
'Verif.Props.C33_violated' depends on axioms: [propext]
'Verif.Props.C34_flatten_panics' depends on axioms: [propext, Quot.sound]
'Verif.Props.C34_roundtrip' depends on axioms: [propext, Quot.sound]
'Verif.Props.C34_simd' depends on axioms: [propext, Quot.sound]
'Verif.Props.C34_unflatten' depends on axioms: [propext, Classical.choice, Quot.sound]
'Verif.Props.C35_illegal' depends on axioms: [propext]
'Verif.Props.C35_permute' depends on axioms: [propext, Classical.choice, Quot.sound]
'Verif.Props.C35_spec_total' depends on axioms: [propext, Classical.choice, Quot.sound]
'Verif.Props.C36_mapping' depends on axioms: [propext, Classical.choice, Quot.sound]
'Verif.Props.C36_padding' depends on axioms: [propext, Classical.choice, Quot.sound]
'Verif.Props.C36_repeats' depends on axioms: [propext, Classical.choice, Quot.sound]
'Verif.Props.C37_partial' depends on axioms: [propext, Quot.sound]
'Verif.Props.C37_violated' depends on axioms: [propext, Classical.choice, Quot.sound]
'Verif.Props.C38_exact' depends on axioms: [propext, Quot.sound]
'Verif.Props.C38_hints' depends on axioms: [propext, Classical.choice, Quot.sound]
'Verif.Props.C38_load_sound' depends on axioms: [propext, Quot.sound]
'Verif.Props.C38_partial' depends on axioms: [propext, Classical.choice, Quot.sound]
'Verif.Props.C38_violated' depends on axioms: [propext, Quot.sound]
'Verif.Props.C39_bucketSort' depends on axioms: [propext, Classical.choice, Quot.sound]
'Verif.Props.C39_heap' depends on axioms: [propext, Classical.choice, Quot.sound]
'Verif.Props.C39_pool' depends on axioms: [propext, Quot.sound]
'Verif.Props.C39_pow2' depends on axioms: [propext, Quot.sound]
'Verif.Props.C39_staticHash_partial' depends on axioms: [propext, Classical.choice, Quot.sound]
'Verif.Props.C39_staticHash_violated' depends on axioms: [propext, Classical.choice, Quot.sound]
'Verif.Props.C39_topo' depends on axioms: [propext, Classical.choice, Quot.sound]
'Verif.Props.C39_unionFind' depends on axioms: [propext, Classical.choice, Quot.sound]
'Verif.Props.C40_circuit_complete' depends on axioms: [propext, Classical.choice, Quot.sound]
'Verif.Props.C40_circuit_sound' depends on axioms: [propext, Classical.choice, Quot.sound]
'Verif.Props.C40_range_complete' depends on axioms: [propext, Classical.choice, Quot.sound]
'Verif.Props.C40_range_sound' depends on axioms: [propext, Classical.choice, Quot.sound]
'Verif.Props.C40_smallChar_violated' depends on axioms: [propext, Classical.choice, Quot.sound]
'Verif.Props.C40_table_complete' depends on axioms: [propext, Classical.choice, Quot.sound]
'Verif.Props.C40_table_sound' depends on axioms: [propext, Classical.choice, Quot.sound]
'Verif.Props.C41_complete' depends on axioms: [propext, Classical.choice, Quot.sound]
'Verif.Props.C41_exact_partial' depends on axioms: [propext, Classical.choice, Quot.sound]
'Verif.Props.C41_final_sound' depends on axioms: [propext, Classical.choice, Quot.sound]
'Verif.Props.C41_general_partial' depends on axioms: [propext, Classical.choice, Quot.sound]
'Verif.Props.C41_honest' depends on axioms: [propext, Classical.choice, Quot.sound]
'Verif.Props.C41_negative_violated' depends on axioms: [propext, Classical.choice, Quot.sound]
'Verif.Props.C41_zero_violated' depends on axioms: [propext, Quot.sound]
'Verif.Props.C42_complete' depends on axioms: [propext, Classical.choice, Quot.sound]
'Verif.Props.C42_dims_violated' depends on axioms: [propext, Classical.choice, Quot.sound]
'Verif.Props.C42_sound_partial' depends on axioms: [propext, Classical.choice, Quot.sound]
'Verif.Props.C42_violated' depends on axioms: [propext, Classical.choice, Quot.sound]
'Verif.Props.C42_wrong_accepted' depends on axioms: [propext, Classical.choice, Quot.sound]
'Verif.Props.C43_adders' depends on axioms: [propext, Classical.choice, Quot.sound]
'Verif.Props.C43_compress' depends on axioms: [propext, Classical.choice, Quot.sound]
'Verif.Props.C43_digest_unique' depends on axioms: [propext, Quot.sound]
'Verif.Props.C43_functions' depends on axioms: [propext, Classical.choice, Quot.sound]
'Verif.Props.C43_hash_partial' depends on axioms: [propext, Classical.choice, Quot.sound]
'Verif.Props.C43_inputs' depends on axioms: [propext, Classical.choice, Quot.sound]
'Verif.Props.C43_padding_violated' depends on axioms: [propext, Classical.choice, Quot.sound]
'Verif.Props.C43_rotations' depends on axioms: [propext, Classical.choice, Quot.sound]
'Verif.Props.C43_sumAll' depends on axioms: [propext, Classical.choice, Quot.sound]
'Verif.Props.C44_accumulate_iff' depends on axioms: [propext, Quot.sound]
'Verif.Props.C44_add_complete' depends on axioms: [propext, Classical.choice, Quot.sound]
'Verif.Props.C44_add_partial' depends on axioms: [propext, Classical.choice, Quot.sound]
'Verif.Props.C44_add_reduced_violated' depends on axioms: [propext, Classical.choice, Quot.sound]
'Verif.Props.C44_equal' depends on axioms: [propext, Quot.sound]
'Verif.Props.C44_greaterEq_violated' depends on axioms: [propext, Classical.choice, Quot.sound]
'Verif.Props.C44_less_complete' depends on axioms: [propext, Classical.choice, Quot.sound]
'Verif.Props.C44_less_violated' depends on axioms: [propext, Classical.choice, Quot.sound]
'Verif.Props.C44_limbs_iff' depends on axioms: [propext, Quot.sound]
'Verif.Props.C44_mulNoMod_complete' depends on axioms: [propext, Classical.choice, Quot.sound]
'Verif.Props.C44_mul_complete' depends on axioms: [propext, Classical.choice, Quot.sound]
'Verif.Props.C44_mul_fourLimbs_violated' depends on axioms: [propext, Classical.choice, Quot.sound]
'Verif.Props.C44_mul_violated' depends on axioms: [propext, Classical.choice, Quot.sound]
'Verif.Props.C45_circuit' depends on axioms: [propext, Classical.choice, Quot.sound]
'Verif.Props.C45_flatten' depends on axioms: [propext, Classical.choice, Quot.sound]
'Verif.Props.C45_reference' depends on axioms: [propext, Classical.choice, Quot.sound]
'Verif.Props.C45_unreduced_violated' depends on axioms: [propext]
'Verif.Props.C46_compiles' depends on axioms: [propext, Classical.choice, Quot.sound]
'Verif.Props.C46_compiles_low' depends on axioms: [propext, Classical.choice, Quot.sound]
'Verif.Props.C46_loop_ends' depends on axioms: [propext, Classical.choice, Quot.sound]
'Verif.Props.C46_noInputs_violated' depends on axioms: [propext, Classical.choice, Quot.sound]
'Verif.Props.C47_arith_sound_partial' depends on axioms: [propext, Classical.choice, Quot.sound]
'Verif.Props.C47_bound' depends on axioms: [propext, Classical.choice, Quot.sound]
'Verif.Props.C47_depends' depends on axioms: [propext, Classical.choice, Quot.sound]
'Verif.Props.C47_deterministic' depends on axioms: [propext, Classical.choice, Quot.sound]
'Verif.Props.C47_exact_partial' depends on axioms: [propext, Classical.choice, Quot.sound]
'Verif.Props.C47_sound_partial' depends on axioms: [propext, Classical.choice, Quot.sound]
'Verif.Props.C48_padData' depends on axioms: [propext, Classical.choice, Quot.sound]
'Verif.Props.C48_reorder' depends on axioms: [propext, Classical.choice, Quot.sound]
'Verif.Props.C48_valid' depends on axioms: [propext, Classical.choice, Quot.sound]
'Verif.Props.C49_calling' depends on axioms: [propext, Classical.choice, Quot.sound]
'Verif.Props.C49_exact_partial' depends on axioms: [propext, Classical.choice, Quot.sound]
'Verif.Props.C49_layout' depends on axioms: [propext, Classical.choice, Quot.sound]
'Verif.Props.C49_sound_partial' depends on axioms: [propext, Classical.choice, Quot.sound]
'Verif.Props.C50_37bytes' depends on axioms: [propext, Classical.choice, Quot.sound]
'Verif.Props.C50_batch' depends on axioms: [propext, Classical.choice, Quot.sound]
'Verif.Props.C50_batch_violated' depends on axioms: [propext, Classical.choice, Quot.sound]
'Verif.Props.C50_bits_violated' depends on axioms: [propext, Classical.choice, Quot.sound]
'Verif.Props.C50_compress' depends on axioms: [propext, Classical.choice, Quot.sound]
'Verif.Props.C50_hash' depends on axioms: [propext, Classical.choice, Quot.sound]
'Verif.Props.C50_sha_unique' depends on axioms: [propext, Quot.sound]
'Verif.Props.C51_add' depends on axioms: [propext, Classical.choice, Quot.sound]
'Verif.Props.C51_add_no_reduce' depends on axioms: [propext, Classical.choice, Quot.sound]
'Verif.Props.C51_add_reduce' depends on axioms: [propext, Classical.choice, Quot.sound]
'Verif.Props.C51_big_less' depends on axioms: [propext, Classical.choice, Quot.sound]
'Verif.Props.C51_bigint' depends on axioms: [propext, Classical.choice, Quot.sound]
'Verif.Props.C51_div' depends on axioms: [propext, Classical.choice, Quot.sound]
'Verif.Props.C51_from_bits' depends on axioms: [propext, Classical.choice, Quot.sound]
'Verif.Props.C51_is_zero' depends on axioms: [propext, Quot.sound]
'Verif.Props.C51_less' depends on axioms: [propext, Classical.choice, Quot.sound]
'Verif.Props.C51_lookup' depends on axioms: [propext, Quot.sound]
'Verif.Props.C51_one_limb_violated' depends on axioms: [propext, Quot.sound]
'Verif.Props.C51_put32' depends on axioms: [propext, Classical.choice, Quot.sound]
'Verif.Props.C51_put32_26' depends on axioms: [propext, Classical.choice, Quot.sound]
'Verif.Props.C51_put64' depends on axioms: [propext, Classical.choice, Quot.sound]
'Verif.Props.C51_select' depends on axioms: [propext, Quot.sound]
'Verif.Props.C51_thirty_violated' depends on axioms: [propext, Classical.choice, Quot.sound]
'Verif.Props.C51_to_bits' depends on axioms: [propext, Classical.choice, Quot.sound]
'Verif.Props.C52_add_complete' depends on axioms: [propext, Classical.choice, Quot.sound]
'Verif.Props.C52_add_partial' depends on axioms: [propext, Classical.choice, Quot.sound]
'Verif.Props.C52_check' depends on axioms: [propext, Classical.choice, Quot.sound]
'Verif.Props.C52_copy_complete' depends on axioms: [propext, Classical.choice, Quot.sound]
'Verif.Props.C52_copy_partial' depends on axioms: [propext, Classical.choice, Quot.sound]
'Verif.Props.C52_div_complete' depends on axioms: [propext, Classical.choice, Quot.sound]
'Verif.Props.C52_div_partial' depends on axioms: [propext, Classical.choice, Quot.sound]
'Verif.Props.C52_equal_any' depends on axioms: [propext, Classical.choice, Quot.sound]
'Verif.Props.C52_equal_complete' depends on axioms: [propext, Classical.choice, Quot.sound]
'Verif.Props.C52_equal_partial' depends on axioms: [propext, Classical.choice, Quot.sound]
'Verif.Props.C52_equal_violated' depends on axioms: [propext, Classical.choice, Quot.sound]
'Verif.Props.C52_inverse_complete' depends on axioms: [propext, Classical.choice, Quot.sound]
'Verif.Props.C52_inverse_partial' depends on axioms: [propext, Classical.choice, Quot.sound]
'Verif.Props.C52_isZero_partial' depends on axioms: [propext, Classical.choice, Quot.sound]
'Verif.Props.C52_isZero_violated' depends on axioms: [propext, Classical.choice, Quot.sound]
'Verif.Props.C52_mulConst_complete' depends on axioms: [propext, Classical.choice, Quot.sound]
'Verif.Props.C52_mulConst_partial' depends on axioms: [propext, Classical.choice, Quot.sound]
'Verif.Props.C52_mul_any' depends on axioms: [propext, Classical.choice, Quot.sound]
'Verif.Props.C52_mul_complete' depends on axioms: [propext, Classical.choice, Quot.sound]
'Verif.Props.C52_mul_partial' depends on axioms: [propext, Classical.choice, Quot.sound]
'Verif.Props.C52_mul_violated' depends on axioms: [propext, Classical.choice, Quot.sound]
'Verif.Props.C52_neg_complete' depends on axioms: [propext, Classical.choice, Quot.sound]
'Verif.Props.C52_neg_partial' depends on axioms: [propext, Classical.choice, Quot.sound]
'Verif.Props.C52_reduce_partial' depends on axioms: [propext, Classical.choice, Quot.sound]
'Verif.Props.C52_select' depends on axioms: [propext, Classical.choice, Quot.sound]
'Verif.Props.C52_sub_complete' depends on axioms: [propext, Classical.choice, Quot.sound]
'Verif.Props.C52_sub_partial' depends on axioms: [propext, Classical.choice, Quot.sound]
'Verif.Props.C53_cyclotomicSquare_complete' depends on axioms: [propext, Classical.choice, Quot.sound]
'Verif.Props.C53_cyclotomicSquare_partial' depends on axioms: [propext, Classical.choice, Quot.sound]
'Verif.Props.C53_e12_add_complete' depends on axioms: [propext, Classical.choice, Quot.sound]
'Verif.Props.C53_e12_add_partial' depends on axioms: [propext, Classical.choice, Quot.sound]
'Verif.Props.C53_e12_conj_complete' depends on axioms: [propext, Classical.choice, Quot.sound]
'Verif.Props.C53_e12_conj_partial' depends on axioms: [propext, Classical.choice, Quot.sound]
'Verif.Props.C53_e12_copy_complete' depends on axioms: [propext, Classical.choice, Quot.sound]
'Verif.Props.C53_e12_copy_partial' depends on axioms: [propext, Classical.choice, Quot.sound]
'Verif.Props.C53_e12_div_complete' depends on axioms: [propext, Classical.choice, Quot.sound]
'Verif.Props.C53_e12_div_partial' depends on axioms: [propext, Classical.choice, Quot.sound]
'Verif.Props.C53_e12_equal_complete' depends on axioms: [propext, Classical.choice, Quot.sound]
'Verif.Props.C53_e12_equal_partial' depends on axioms: [propext, Classical.choice, Quot.sound]
'Verif.Props.C53_e12_frob2_complete' depends on axioms: [propext, Classical.choice, Quot.sound]
'Verif.Props.C53_e12_frob2_partial' depends on axioms: [propext, Classical.choice, Quot.sound]
'Verif.Props.C53_e12_frob_complete' depends on axioms: [propext, Classical.choice, Quot.sound]
'Verif.Props.C53_e12_frob_partial' depends on axioms: [propext, Classical.choice, Quot.sound]
'Verif.Props.C53_e12_inverse_complete' depends on axioms: [propext, Classical.choice, Quot.sound]
'Verif.Props.C53_e12_inverse_partial' depends on axioms: [propext, Classical.choice, Quot.sound]
'Verif.Props.C53_e12_isZero_partial' depends on axioms: [propext, Classical.choice, Quot.sound]
'Verif.Props.C53_e12_mul014_complete' depends on axioms: [propext, Classical.choice, Quot.sound]
'Verif.Props.C53_e12_mul014_partial' depends on axioms: [propext, Classical.choice, Quot.sound]
'Verif.Props.C53_e12_mulBy014_complete' depends on axioms: [propext, Classical.choice, Quot.sound]
'Verif.Props.C53_e12_mulBy014_partial' depends on axioms: [propext, Classical.choice, Quot.sound]
'Verif.Props.C53_e12_mul_complete' depends on axioms: [propext, Classical.choice, Quot.sound]
'Verif.Props.C53_e12_mul_partial' depends on axioms: [propext, Classical.choice, Quot.sound]
'Verif.Props.C53_e12_select_complete' depends on axioms: [propext, Classical.choice, Quot.sound]
'Verif.Props.C53_e12_select_partial' depends on axioms: [propext, Classical.choice, Quot.sound]
'Verif.Props.C53_e12_square_complete' depends on axioms: [propext, Classical.choice, Quot.sound]
'Verif.Props.C53_e12_square_partial' depends on axioms: [propext, Classical.choice, Quot.sound]
'Verif.Props.C53_e12_sub_complete' depends on axioms: [propext, Classical.choice, Quot.sound]
'Verif.Props.C53_e12_sub_partial' depends on axioms: [propext, Classical.choice, Quot.sound]
'Verif.Props.C53_e2_add_complete' depends on axioms: [propext, Classical.choice, Quot.sound]
'Verif.Props.C53_e2_add_partial' depends on axioms: [propext, Classical.choice, Quot.sound]
'Verif.Props.C53_e2_conj_complete' depends on axioms: [propext, Classical.choice, Quot.sound]
'Verif.Props.C53_e2_conj_partial' depends on axioms: [propext, Classical.choice, Quot.sound]
'Verif.Props.C53_e2_copy_complete' depends on axioms: [propext, Classical.choice, Quot.sound]
'Verif.Props.C53_e2_copy_partial' depends on axioms: [propext, Classical.choice, Quot.sound]
'Verif.Props.C53_e2_div_complete' depends on axioms: [propext, Classical.choice, Quot.sound]
'Verif.Props.C53_e2_div_partial' depends on axioms: [propext, Classical.choice, Quot.sound]
'Verif.Props.C53_e2_double_complete' depends on axioms: [propext, Classical.choice, Quot.sound]
'Verif.Props.C53_e2_double_partial' depends on axioms: [propext, Classical.choice, Quot.sound]
'Verif.Props.C53_e2_equal_complete' depends on axioms: [propext, Classical.choice, Quot.sound]
'Verif.Props.C53_e2_equal_partial' depends on axioms: [propext, Classical.choice, Quot.sound]
'Verif.Props.C53_e2_inverse_complete' depends on axioms: [propext, Classical.choice, Quot.sound]
'Verif.Props.C53_e2_inverse_partial' depends on axioms: [propext, Classical.choice, Quot.sound]
'Verif.Props.C53_e2_isZero_partial' depends on axioms: [propext, Classical.choice, Quot.sound]
'Verif.Props.C53_e2_mulConst_complete' depends on axioms: [propext, Classical.choice, Quot.sound]
'Verif.Props.C53_e2_mulConst_partial' depends on axioms: [propext, Classical.choice, Quot.sound]
'Verif.Props.C53_e2_mulElement_complete' depends on axioms: [propext, Classical.choice, Quot.sound]
'Verif.Props.C53_e2_mulElement_partial' depends on axioms: [propext, Classical.choice, Quot.sound]
'Verif.Props.C53_e2_mulNonResidue_complete' depends on axioms: [propext, Classical.choice, Quot.sound]
'Verif.Props.C53_e2_mulNonResidue_partial' depends on axioms: [propext, Classical.choice, Quot.sound]
'Verif.Props.C53_e2_mul_complete' depends on axioms: [propext, Classical.choice, Quot.sound]
'Verif.Props.C53_e2_mul_partial' depends on axioms: [propext, Classical.choice, Quot.sound]
'Verif.Props.C53_e2_neg_complete' depends on axioms: [propext, Classical.choice, Quot.sound]
'Verif.Props.C53_e2_neg_partial' depends on axioms: [propext, Classical.choice, Quot.sound]
'Verif.Props.C53_e2_select_complete' depends on axioms: [propext, Classical.choice, Quot.sound]
'Verif.Props.C53_e2_select_partial' depends on axioms: [propext, Classical.choice, Quot.sound]
'Verif.Props.C53_e2_square_complete' depends on axioms: [propext, Classical.choice, Quot.sound]
'Verif.Props.C53_e2_square_partial' depends on axioms: [propext, Classical.choice, Quot.sound]
'Verif.Props.C53_e2_sub_complete' depends on axioms: [propext, Classical.choice, Quot.sound]
'Verif.Props.C53_e2_sub_partial' depends on axioms: [propext, Classical.choice, Quot.sound]
'Verif.Props.C53_e6_add_complete' depends on axioms: [propext, Classical.choice, Quot.sound]
'Verif.Props.C53_e6_add_partial' depends on axioms: [propext, Classical.choice, Quot.sound]
'Verif.Props.C53_e6_divBy6_complete' depends on axioms: [propext, Classical.choice, Quot.sound]
'Verif.Props.C53_e6_divBy6_partial' depends on axioms: [propext, Classical.choice, Quot.sound]
'Verif.Props.C53_e6_div_complete' depends on axioms: [propext, Classical.choice, Quot.sound]
'Verif.Props.C53_e6_div_partial' depends on axioms: [propext, Classical.choice, Quot.sound]
'Verif.Props.C53_e6_double_complete' depends on axioms: [propext, Classical.choice, Quot.sound]
'Verif.Props.C53_e6_double_partial' depends on axioms: [propext, Classical.choice, Quot.sound]
'Verif.Props.C53_e6_equal_complete' depends on axioms: [propext, Classical.choice, Quot.sound]
'Verif.Props.C53_e6_equal_partial' depends on axioms: [propext, Classical.choice, Quot.sound]
'Verif.Props.C53_e6_inverse_complete' depends on axioms: [propext, Classical.choice, Quot.sound]
'Verif.Props.C53_e6_inverse_partial' depends on axioms: [propext, Classical.choice, Quot.sound]
'Verif.Props.C53_e6_isZero_partial' depends on axioms: [propext, Classical.choice, Quot.sound]
'Verif.Props.C53_e6_mulBy01_complete' depends on axioms: [propext, Classical.choice, Quot.sound]
'Verif.Props.C53_e6_mulBy01_partial' depends on axioms: [propext, Classical.choice, Quot.sound]
'Verif.Props.C53_e6_mulBy0_complete' depends on axioms: [propext, Classical.choice, Quot.sound]
'Verif.Props.C53_e6_mulBy0_partial' depends on axioms: [propext, Classical.choice, Quot.sound]
'Verif.Props.C53_e6_mulBy12_complete' depends on axioms: [propext, Classical.choice, Quot.sound]
'Verif.Props.C53_e6_mulBy12_partial' depends on axioms: [propext, Classical.choice, Quot.sound]
'Verif.Props.C53_e6_mulE2_complete' depends on axioms: [propext, Classical.choice, Quot.sound]
'Verif.Props.C53_e6_mulE2_partial' depends on axioms: [propext, Classical.choice, Quot.sound]
'Verif.Props.C53_e6_mulNonResidue_complete' depends on axioms: [propext, Classical.choice, Quot.sound]
'Verif.Props.C53_e6_mulNonResidue_partial' depends on axioms: [propext, Classical.choice, Quot.sound]
'Verif.Props.C53_e6_mul_complete' depends on axioms: [propext, Classical.choice, Quot.sound]
'Verif.Props.C53_e6_mul_partial' depends on axioms: [propext, Classical.choice, Quot.sound]
'Verif.Props.C53_e6_neg_complete' depends on axioms: [propext, Classical.choice, Quot.sound]
'Verif.Props.C53_e6_neg_partial' depends on axioms: [propext, Classical.choice, Quot.sound]
'Verif.Props.C53_e6_select_complete' depends on axioms: [propext, Classical.choice, Quot.sound]
'Verif.Props.C53_e6_select_partial' depends on axioms: [propext, Classical.choice, Quot.sound]
'Verif.Props.C53_e6_square_complete' depends on axioms: [propext, Classical.choice, Quot.sound]
'Verif.Props.C53_e6_square_partial' depends on axioms: [propext, Classical.choice, Quot.sound]
'Verif.Props.C53_e6_sub_complete' depends on axioms: [propext, Classical.choice, Quot.sound]
'Verif.Props.C53_e6_sub_partial' depends on axioms: [propext, Classical.choice, Quot.sound]
'Verif.Props.C53_easyPart_complete' depends on axioms: [propext, Classical.choice, Quot.sound]
'Verif.Props.C53_easyPart_partial' depends on axioms: [propext, Classical.choice, Quot.sound]
'Verif.Props.C53_expt_complete' depends on axioms: [propext, Classical.choice, Quot.sound]
'Verif.Props.C53_expt_partial' depends on axioms: [propext, Classical.choice, Quot.sound]
'Verif.Props.C53_finalExp_any' depends on axioms: [propext, Classical.choice, Quot.sound]
'Verif.Props.C53_finalExp_violated' depends on axioms: [propext, Classical.choice, Quot.sound]
'Verif.Props.C53_frobenius' depends on axioms: [propext, Classical.choice, Quot.sound]
'Verif.Props.C53_isZero_violated' depends on axioms: [propext, Classical.choice, Quot.sound]
'Verif.Props.C53_pairingTail_any' depends on axioms: [propext, Classical.choice, Quot.sound]
