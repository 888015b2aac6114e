# Axioms of each property theorem

Output of `#print axioms`, collected over the theorems named in MANIFEST.json.

| property | theorem | axioms |
|---|---|---|
| C01 | `C01_config_space_gen` | propext, Classical.choice, Quot.sound |
| C02 | `C02_config_legal` | propext, Classical.choice, Quot.sound |
| C02 | `C02_cancelling_fails` | propext |
| C02 | `C02_short_extent_raises` | propext, Classical.choice, Quot.sound |
| C03 | `C03_add_phonon` | propext, Classical.choice, Quot.sound |
| C03 | `C03_missing_type` | propext, Quot.sound |
| C04 | `C04_remove_phonon` | propext, Classical.choice, Quot.sound |
| C05 | `C05_histories` | propext, Classical.choice, Quot.sound |
| C05 | `C05_no_vacuum` | propext, Classical.choice, Quot.sound |
| C05 | `C05_vacuum_exception` | propext, Classical.choice, Quot.sound |
| C06 | `C06_add_remove` | propext, Classical.choice, Quot.sound |
| C07 | `C07_budget` | propext, Classical.choice, Quot.sound |
| C07 | `C07_exhausted` | propext |
| C08 | `C08_bad_removal_partial` | propext, Classical.choice, Quot.sound |
| C08 | `C08_negative_wraps` | propext, Classical.choice, Quot.sound |
| C08 | `C08_negative_index_accepted` | propext, Quot.sound |
| C09 | `C09_identifiers` | propext, Classical.choice, Quot.sound |
| C10 | `C10_generate_all` | propext, Classical.choice, Quot.sound |
| C11 | `C11_count` | propext, Classical.choice, Quot.sound |
| C11 | `C11_comb` | propext, Classical.choice, Quot.sound |
| C12 | `C12_right_hand_side` | propext, Classical.choice, Quot.sound |
| C12 | `C12_removals_always_possible` | propext, Classical.choice, Quot.sound |
| C12 | `C12_green` | propext, Classical.choice, Quot.sound |
| C13 | `C13_phonon_number_step` | propext, Classical.choice, Quot.sound |
| C14 | `C14_term_arguments` | propext, Classical.choice, Quot.sound |
| C15 | `C15_single_green` | propext, Classical.choice, Quot.sound |
| C16 | `C16_assembled` | propext, Classical.choice, Quot.sound |
| C16 | `C16_single_coupling` | propext, Classical.choice, Quot.sound |
| C16 | `C16_closure` | propext, Classical.choice, Quot.sound |
| C17 | `C17_basis` | propext, Classical.choice, Quot.sound |
| C18 | `C18_green_last` | propext, Classical.choice, Quot.sound |
| C19 | `C19_sparse_matrix` | propext, Classical.choice, Quot.sound |
| C19 | `C19_solutions` | propext, Classical.choice, Quot.sound |
| C20 | `C20_dense_blocks` | propext, Classical.choice, Quot.sound |
| C21 | `C21_sparse_dense_agree` | propext, Classical.choice, Quot.sound |
| C22 | `C22_nonsingular` | propext, Classical.choice, Quot.sound |
| C22 | `C22_assembled` | propext, Classical.choice, Quot.sound |
| C23 | `C23_spectral_positive` | propext, Classical.choice, Quot.sound |
| C23 | `C23_assembled` | propext, Classical.choice, Quot.sound |
| C24 | `C24_propagator` | propext, Classical.choice, Quot.sound |
| C24 | `C24_only_unit_lattice` | propext, Classical.choice, Quot.sound |
| C25 | `C25_free_weight` | propext, Classical.choice, Quot.sound |
| C26 | `C26_chunks_separate` | propext, Classical.choice, Quot.sound |
| C26 | `C26_entries` | propext, Classical.choice, Quot.sound |
| C26 | `C26_total` | propext, Classical.choice, Quot.sound |
| C26 | `C26_parallel` | propext, Quot.sound |
| C26 | `C26_integer_fails` | propext, Quot.sound |
| C27 | `C27_chunks` | propext, Classical.choice, Quot.sound |
| C27 | `C27_bad_rank` | propext |
| C28 | `C28_serial` | propext, Classical.choice, Quot.sound |
| C28 | `C28_divisible_partial` | propext, Classical.choice, Quot.sound |
| C28 | `C28_values_partial` | propext, Classical.choice, Quot.sound |
| C28 | `C28_shape_fails` | propext, Classical.choice, Quot.sound |
| C28 | `C28_single_point_fails` | propext, Quot.sound |
| C28 | `C28_nan_fails` | propext, Quot.sound |
| C28 | `C28_uneven_fails` | propext, Quot.sound |
| C29 | `C29_padding_partial` | propext, Classical.choice, Quot.sound |
| C29 | `C29_single_point_fails` | propext, Quot.sound |
| C29 | `C29_many_brigades_fail` | propext, Classical.choice, Quot.sound |
| C30 | `C30_ownership` | propext, Quot.sound |
| C30 | `C30_rank` | propext, Classical.choice, Quot.sound |
| C30 | `C30_assembly` | propext, Classical.choice, Quot.sound |
| C30 | `C30_solve_partial` | propext, Classical.choice, Quot.sound |
| C30 | `C30_physical_partial` | propext, Classical.choice, Quot.sound |
| C30 | `C30_large_brigade_fails` | propext, Classical.choice, Quot.sound |
| C31 | `C31_key_iff` | propext, Classical.choice, Quot.sound |
| C31 | `C31_rounding` | propext, Classical.choice, Quot.sound |
| C31 | `C31_key_near` | propext, Classical.choice, Quot.sound |
| C31 | `C31_key_lattice` | propext, Classical.choice, Quot.sound |
| C31 | `C31_transparent_partial` | propext, Classical.choice, Quot.sound |
| C31 | `C31_ten_decimals_partial` | propext, Classical.choice, Quot.sound |
| C31 | `C31_no_root` | propext, Classical.choice, Quot.sound |
| C31 | `C31_collision_fails` | propext, Classical.choice, Quot.sound |
| C31 | `C31_other_system_fails` | propext, Classical.choice, Quot.sound |
| C31 | `C31_shared_partial` | propext, Classical.choice, Quot.sound |
| C31 | `C31_race_fails` | propext, Classical.choice, Quot.sound |
| C32 | `C32_negative_saved` | propext, Classical.choice, Quot.sound |
| C32 | `C32_negative_exists` | propext, Classical.choice, Quot.sound |
| C32 | `C32_positive_partial` | propext, Classical.choice, Quot.sound |
| C33 | `C33_pickles_partial` | propext, Quot.sound |
| C33 | `C33_model_fails` | propext, Quot.sound |
| C33 | `C33_mixed_checkpoint` | propext, Quot.sound |
| C34 | `C34_round_trip` | propext, Classical.choice, Quot.sound |
| C34 | `C34_default_limit` | propext, Quot.sound |
| C34 | `C34_later_addition_fails` | propext, Classical.choice, Quot.sound |
| C35 | `C35_recover_partial` | propext, Quot.sound |
| C35 | `C35_between_pickles_fails` | propext, Quot.sound |
| C35 | `C35_before_model_fails` | propext, Quot.sound |
| C35 | `C35_torn_pickle_permanent` | propext, Quot.sound |
| C35 | `C35_reload_can_destroy` | propext, Quot.sound |
| C36 | `C36_solver_root_fails` | propext, Quot.sound |
| C36 | `C36_same_root_partial` | propext, Quot.sound |
| C37 | `C37_rejected_unchanged_partial` | propext, Classical.choice, Quot.sound |
| C37 | `C37_unknown_type_changes_model` | propext, Classical.choice, Quot.sound |
| C38 | `C38_bookkeeping` | propext, Classical.choice, Quot.sound |
| C38 | `C38_terms_belong` | propext, Classical.choice, Quot.sound |
| C38 | `C38_pairs` | propext, Classical.choice, Quot.sound |
| C39 | `C39_frequencies_partial` | propext, Classical.choice, Quot.sound |
| C39 | `C39_equal_frequencies_fail` | propext, Classical.choice, Quot.sound |
| C40 | `C40_hermitian` | propext, Classical.choice, Quot.sound |
| C40 | `C40_adjoint_involutive` | propext, Quot.sound |
| C41 | `C41_thermofield` | propext, Classical.choice, Quot.sound |
| C41 | `C41_zero_temperature` | propext, Classical.choice, Quot.sound |
| C42 | `C42_coupling_map` | propext, Classical.choice, Quot.sound |
| C42 | `C42_sign_and_names` | propext, Classical.choice, Quot.sound |
| C42 | `C42_names` | propext, Classical.choice, Quot.sound |
| C43 | `C43_buffer` | propext, Quot.sound |
| C43 | `C43_flush` | propext, Quot.sound |
| C44 | `C44_two_broadenings` | propext, Classical.choice, Quot.sound |
| C44 | `C44_recovers` | propext, Classical.choice, Quot.sound |
| C44 | `C44_on_peak_fails` | propext, Classical.choice, Quot.sound |
| C44 | `C44_two_frequencies` | propext, Classical.choice, Quot.sound |
| C44 | `C44_two_frequencies_defined` | propext, Classical.choice, Quot.sound |
| C44 | `C44_two_frequencies_choice` | propext, Classical.choice, Quot.sound |
| C44 | `C44_two_frequencies_recovers` | propext, Classical.choice, Quot.sound |
| C44 | `C44_two_frequencies_wrong_peak` | propext, Classical.choice, Quot.sound |
| C45 | `C45_combinations_partial` | propext, Classical.choice, Quot.sound |
| C45 | `C45_bond_peierls_mixture_fails` | propext, Classical.choice, Quot.sound |
| C46 | `C46_zero_couplings_partial` | propext, Classical.choice, Quot.sound |
| C46 | `C46_assembled_partial` | propext, Classical.choice, Quot.sound |
| C46 | `C46_free_model_fails` | propext, Quot.sound |
| C47 | `C47_lazy_fails` | propext, Quot.sound |
| C47 | `C47_primed_partial` | propext, Quot.sound |
| C47 | `C47_default_primed` | propext, Quot.sound |
| C48 | `C48_sign` | propext, Classical.choice, Quot.sound |
| C48 | `C48_negated_calls` | propext, Quot.sound |
| C49 | `C49_periodic` | propext, Classical.choice, Quot.sound |
| C49 | `C49_assembled` | propext, Classical.choice, Quot.sound |
| C50 | `C50_history` | propext, Classical.choice, Quot.sound |
| C50 | `C50_add` | propext, Classical.choice, Quot.sound |
| C50 | `C50_assign` | propext, Classical.choice, Quot.sound |
| C50 | `C50_fresh` | propext, Classical.choice, Quot.sound |
| C50 | `C50_default` | propext, Classical.choice, Quot.sound |
| C50 | `C50_system` | propext, Classical.choice, Quot.sound |
| C50 | `C50_setter_fails` | propext, Classical.choice, Quot.sound |
| C51 | `C51_override_fails` | propext, Classical.choice, Quot.sound |
| C51 | `C51_trivial_override_partial` | propext, Classical.choice, Quot.sound |
| C52 | `C52_bounded` | propext, Classical.choice, Quot.sound |
| C53 | `C53_message` | propext, Classical.choice, Quot.sound |
| C53 | `C53_no_time` | propext, Classical.choice, Quot.sound |
| C53 | `C53_timeit` | propext, Classical.choice, Quot.sound |
| C53 | `C53_stream_fails` | propext, Classical.choice, Quot.sound |
| C53 | `C53_elapsed` | propext, Classical.choice, Quot.sound |
| C53 | `C53_remaining` | propext, Classical.choice, Quot.sound |
| C54 | `C54_names` | propext, Classical.choice, Quot.sound |
| C54 | `C54_point` | propext, Classical.choice, Quot.sound |
| C54 | `C54_greens` | propext, Classical.choice, Quot.sound |
| C54 | `C54_other_model_fails` | propext, Classical.choice, Quot.sound |
| C54 | `C54_mixed_fails` | propext, Classical.choice, Quot.sound |
| C55 | `C55_exact` | propext, Classical.choice, Quot.sound |
| C55 | `C55_value` | propext, Classical.choice, Quot.sound |
| C55 | `C55_assembled` | propext, Classical.choice, Quot.sound |
| C56 | `C56_operator` | propext, Classical.choice, Quot.sound |
| C56 | `C56_returned` | propext, Classical.choice, Quot.sound |
| C56 | `C56_assembled` | propext, Classical.choice, Quot.sound |
| C57 | `C57_symmetric` | propext, Classical.choice, Quot.sound |
| C58 | `C58_lipschitz` | propext, Classical.choice, Quot.sound |
| C58 | `C58_grid` | propext, Classical.choice, Quot.sound |
| C59 | `C59_weight` | propext, Classical.choice, Quot.sound |
| C59 | `C59_moment` | propext, Classical.choice, Quot.sound |
| C60 | `C60_converges` | propext, Classical.choice, Quot.sound |
| C60 | `C60_assembled` | propext, Classical.choice, Quot.sound |
| C60 | `C60_sequence` | propext, Classical.choice, Quot.sound |
| C61 | `C61_atomic` | propext, Classical.choice, Quot.sound |
| C61 | `C61_lines` | propext, Classical.choice, Quot.sound |
| C62 | `C62_construct` | propext, Classical.choice, Quot.sound |
| C62 | `C62_no_axis` | propext, Classical.choice, Quot.sound |
| C62 | `C62_add` | propext, Classical.choice, Quot.sound |
| C62 | `C62_remove` | propext, Classical.choice, Quot.sound |
| C62 | `C62_bad_removal` | propext, Classical.choice, Quot.sound |
| C62 | `C62_missing_type` | propext, Classical.choice, Quot.sound |
| C62 | `C62_dimension_mismatch` | propext, Classical.choice, Quot.sound |
| C62 | `C62_add_remove` | propext, Classical.choice, Quot.sound |
| C62 | `C62_exhausted` | propext, Classical.choice, Quot.sound |
| C62 | `C62_budget` | propext, Classical.choice, Quot.sound |
| C62 | `C62_default_budget` | propext, Classical.choice, Quot.sound |
| C62 | `C62_histories` | propext, Classical.choice, Quot.sound |
| C62 | `C62_identifiers` | propext, Classical.choice, Quot.sound |
| C62 | `C62_identifiers_axes` | propext, Classical.choice, Quot.sound |
| C62 | `C62_one_dimension` | propext, Classical.choice, Quot.sound |
| C63 | `C63_order` | propext, Classical.choice, Quot.sound |
| C64 | `C64_silent` | propext, Classical.choice, Quot.sound |
| C64 | `C64_wide` | propext, Classical.choice, Quot.sound |
| C65 | `C65_units` | propext, Classical.choice, Quot.sound |
| C65 | `C65_edwards` | propext, Classical.choice, Quot.sound |
| C66 | `C66_parameters` | propext, Classical.choice, Quot.sound |
| C66 | `C66_momentum` | propext, Classical.choice, Quot.sound |
| C66 | `C66_assembled` | propext, Classical.choice, Quot.sound |
| C67 | `C67_below` | propext, Classical.choice, Quot.sound |
| C67 | `C67_assembled` | propext, Classical.choice, Quot.sound |
| C68 | `C68_momentum_average` | propext, Classical.choice, Quot.sound |
| C69 | `C69_each_sign` | propext, Classical.choice, Quot.sound |
| C70 | `C70_exact` | propext, Classical.choice, Quot.sound |
| C70 | `C70_returned` | propext, Classical.choice, Quot.sound |
| C70 | `C70_one_site_partial` | propext, Classical.choice, Quot.sound |
| C70 | `C70_wrong` | propext, Classical.choice, Quot.sound |
| C71 | `C71_exact` | propext, Classical.choice, Quot.sound |
| C71 | `C71_product_partial` | propext, Classical.choice, Quot.sound |
| C71 | `C71_wrong` | propext, Classical.choice, Quot.sound |
| C72 | `C72_second_order` | propext, Classical.choice, Quot.sound |
| C73 | `C73_excess` | propext, Classical.choice, Quot.sound |
| C73 | `C73_certified_partial` | propext, Classical.choice, Quot.sound |
| C73 | `C73_quiet` | propext, Classical.choice, Quot.sound |
| C73 | `C73_flagged_stored` | propext, Classical.choice, Quot.sound |
| C73 | `C73_messages` | propext, Classical.choice, Quot.sound |
| C73 | `C73_memory` | propext, Classical.choice, Quot.sound |
| C73 | `C73_blind` | propext, Classical.choice, Quot.sound |
| C74 | `C74_reported` | propext, Classical.choice, Quot.sound |
| C74 | `C74_prediction_partial` | propext, Classical.choice, Quot.sound |
| C74 | `C74_false_alarm` | propext, Classical.choice, Quot.sound |
| C74 | `C74_total` | propext, Classical.choice, Quot.sound |
| C75 | `C75_display_partial` | propext, Classical.choice, Quot.sound |
| C75 | `C75_override` | propext, Classical.choice, Quot.sound |
| C75 | `C75_unknown` | propext, Classical.choice, Quot.sound |
| C76 | `C76_full_id` | propext, Classical.choice, Quot.sound |
| C77 | `C77_kept_partial` | propext, Classical.choice, Quot.sound |
| C77 | `C77_unchecked` | propext, Quot.sound |
| C77 | `C77_negative` | propext, Classical.choice, Quot.sound |
| C78 | `C78_late` | propext, Classical.choice, Quot.sound |
| C78 | `C78_early` | propext, Quot.sound |
| C78 | `C78_interleaved` | propext, Classical.choice, Quot.sound |
| C79 | `C79_expansion` | propext, Classical.choice, Quot.sound |
| C79 | `C79_moments` | propext, Classical.choice, Quot.sound |
| C79 | `C79_two` | propext, Classical.choice, Quot.sound |
| C80 | `C80_textbook` | propext, Classical.choice, Quot.sound |
| C80 | `C80_vertex` | propext, Classical.choice, Quot.sound |
| C80 | `C80_width` | propext, Classical.choice, Quot.sound |
| C81 | `C81_average` | propext, Classical.choice, Quot.sound |
| C81 | `C81_spectral` | propext, Classical.choice, Quot.sound |
| C81 | `C81_peaks` | propext, Classical.choice, Quot.sound |
| C82 | `C82_representation` | propext, Classical.choice, Quot.sound |
| C82 | `C82_determined` | propext, Classical.choice, Quot.sound |
| C83 | `C83_inverse` | propext, Classical.choice, Quot.sound |
| C83 | `C83_residual` | propext, Classical.choice, Quot.sound |
| C83 | `C83_unknowns` | propext, Classical.choice, Quot.sound |
| C83 | `C83_stored` | propext, Classical.choice, Quot.sound |
| C83 | `C83_single_precision` | propext, Classical.choice, Quot.sound |
| C83 | `C83_assembled` | propext, Classical.choice, Quot.sound |
| C84 | `C84_critical_partial` | propext, Classical.choice, Quot.sound |
| C84 | `C84_refusals_partial` | propext, Classical.choice, Quot.sound |
| C84 | `C84_ranks` | propext, Quot.sound |
| C84 | `C84_silenced_fails` | propext, Classical.choice, Quot.sound |
| C84 | `C84_accepted_fails` | propext, Classical.choice, Quot.sound |
| C84 | `C84_activation` | propext, Classical.choice, Quot.sound |
| C84 | `C84_exception` | propext, Classical.choice, Quot.sound |
| C84 | `C84_testing` | propext, Quot.sound |
| C84 | `C84_setters_partial` | propext, Classical.choice, Quot.sound |
| C85 | `C85_restored_partial` | propext, Classical.choice, Quot.sound |
| C85 | `C85_block_fails` | propext, Classical.choice, Quot.sound |
| C85 | `C85_construction_fails` | propext, Classical.choice, Quot.sound |
| C85 | `C85_solver_fails` | propext, Classical.choice, Quot.sound |
| C85 | `C85_nested_fails` | propext, Quot.sound |
| C86 | `C86_brigades_partial` | propext, Classical.choice, Quot.sound |
| C86 | `C86_sound` | propext, Classical.choice, Quot.sound |
| C86 | `C86_gathered_partial` | propext, Classical.choice, Quot.sound |
| C86 | `C86_eof_fails` | propext, Classical.choice, Quot.sound |
| C86 | `C86_deadlock_fails` | propext, Classical.choice, Quot.sound |
| C86 | `C86_mixed_fails` | propext, Classical.choice, Quot.sound |
| C87 | `C87_values` | propext, Classical.choice, Quot.sound |
| C87 | `C87_aligned` | propext, Classical.choice, Quot.sound |
| C87 | `C87_cached` | propext, Classical.choice, Quot.sound |
| C88 | `C88_stronger` | propext, Classical.choice, Quot.sound |
| C88 | `C88_edge` | propext, Classical.choice, Quot.sound |
| C88 | `C88_assembled` | propext, Classical.choice, Quot.sound |
| C88 | `C88_limits` | propext, Classical.choice, Quot.sound |
| C89 | `C89_center` | propext, Classical.choice, Quot.sound |
| C89 | `C89_assembled` | propext, Classical.choice, Quot.sound |
| C89 | `C89_static` | propext, Classical.choice, Quot.sound |
| C89 | `C89_peierls` | propext, Classical.choice, Quot.sound |
| C90 | `C90_causal` | propext, Classical.choice, Quot.sound |
| C90 | `C90_assembled` | propext, Classical.choice, Quot.sound |
| C91 | `C91_cold` | propext, Classical.choice, Quot.sound |
| C91 | `C91_limit` | propext, Classical.choice, Quot.sound |
| C92 | `C92_right_hand_side` | propext, Classical.choice, Quot.sound |
| C92 | `C92_removals_always_possible` | propext, Classical.choice, Quot.sound |
| C92 | `C92_green` | propext, Classical.choice, Quot.sound |
| C92 | `C92_other_couplings_fail` | propext, Classical.choice, Quot.sound |
| C92 | `C92_dimension_mismatch` | propext, Classical.choice, Quot.sound |
| C92 | `C92_no_system` | propext, Quot.sound |
| C92 | `C92_one_dimension` | propext, Classical.choice, Quot.sound |
| C92 | `C92_equations_one_dimension` | propext, Classical.choice, Quot.sound |
| C92 | `C92_green_one_dimension` | propext, Classical.choice, Quot.sound |
| C93 | `C93_config_legal_partial` | propext, Classical.choice, Quot.sound |
| C93 | `C93_accepts` | propext, Classical.choice, Quot.sound |
| C93 | `C93_extent_first_axis_only` | propext, Classical.choice, Quot.sound |
| C94 | `C94_error` | propext, Classical.choice, Quot.sound |
| C94 | `C94_coupling` | propext, Classical.choice, Quot.sound |
| C94 | `C94_assembled` | propext, Classical.choice, Quot.sound |
| C94 | `C94_accuracy` | propext, Classical.choice, Quot.sound |
| C94 | `C94_rate` | propext, Classical.choice, Quot.sound |
| C95 | `C95_exists` | propext, Classical.choice, Quot.sound |
| C95 | `C95_error` | propext, Classical.choice, Quot.sound |
| C95 | `C95_assembled` | propext, Classical.choice, Quot.sound |
| C95 | `C95_pair` | propext, Classical.choice, Quot.sound |
| C95 | `C95_interaction` | propext, Classical.choice, Quot.sound |
| C95 | `C95_accuracy` | propext, Classical.choice, Quot.sound |
| C95 | `C95_rate` | propext, Classical.choice, Quot.sound |
| C96 | `C96_states` | propext, Classical.choice, Quot.sound |
| C96 | `C96_cap` | propext, Classical.choice, Quot.sound |
| C96 | `C96_numbers` | propext, Classical.choice, Quot.sound |
| C96 | `C96_extent` | propext, Classical.choice, Quot.sound |
| C96 | `C96_window` | propext, Classical.choice, Quot.sound |
| C97 | `C97_outside` | propext, Classical.choice, Quot.sound |
| C97 | `C97_weight` | propext, Classical.choice, Quot.sound |
| C97 | `C97_assembled` | propext, Classical.choice, Quot.sound |
| C98 | `C98_residual` | propext, Classical.choice, Quot.sound |
| C98 | `C98_norms` | propext, Classical.choice, Quot.sound |
| C98 | `C98_stored` | propext, Classical.choice, Quot.sound |
| C98 | `C98_exact` | propext, Classical.choice, Quot.sound |
| C98 | `C98_assembled` | propext, Classical.choice, Quot.sound |
| C99 | `C99_ignored` | propext, Classical.choice, Quot.sound |
| C99 | `C99_kept` | propext, Classical.choice, Quot.sound |
| C99 | `C99_effect` | propext, Classical.choice, Quot.sound |
| C100 | `C100_ensemble_partial` | propext, Classical.choice, Quot.sound |
| C100 | `C100_textbook` | propext, Classical.choice, Quot.sound |
| C100 | `C100_edwards_fails` | propext, Classical.choice, Quot.sound |
| C101 | `C101_finite` | propext, Classical.choice, Quot.sound |
| C101 | `C101_limit` | propext, Classical.choice, Quot.sound |
| C101 | `C101_thermal` | propext, Classical.choice, Quot.sound |
| C102 | `C102_round_trip` | propext, Classical.choice, Quot.sound |
| C102 | `C102_distinct` | propext, Classical.choice, Quot.sound |
| C102 | `C102_hamiltonian` | propext, Classical.choice, Quot.sound |
| C102 | `C102_later` | propext, Classical.choice, Quot.sound |
| C102 | `C102_unknown` | propext, Quot.sound |
| C102 | `C102_unknown_file` | propext, Classical.choice, Quot.sound |
| C102 | `C102_numbers` | propext, Classical.choice, Quot.sound |
| C103 | `C103_serial` | propext, Classical.choice, Quot.sound |
| C103 | `C103_parallel` | propext, Classical.choice, Quot.sound |
| C103 | `C103_assembled` | propext, Classical.choice, Quot.sound |
| C104 | `C104_weight` | propext, Classical.choice, Quot.sound |
| C104 | `C104_extraction` | propext, Classical.choice, Quot.sound |
| C104 | `C104_assembled` | propext, Classical.choice, Quot.sound |
| C105 | `C105_programs` | propext, Classical.choice, Quot.sound |
| C105 | `C105_repeat` | propext, Classical.choice, Quot.sound |
| C105 | `C105_assembled` | propext, Classical.choice, Quot.sound |
| C106 | `C106_separate_partial` | propext, Classical.choice, Quot.sound |
| C106 | `C106_shared_root_fails` | propext, Classical.choice, Quot.sound |
| C107 | `C107_safe` | propext, Classical.choice, Quot.sound |
| C107 | `C107_recovers` | propext, Classical.choice, Quot.sound |
| C107 | `C107_torn_result` | propext, Classical.choice, Quot.sound |
| C107 | `C107_uninterrupted` | propext, Classical.choice, Quot.sound |
| C108 | `C108_accuracy` | propext, Classical.choice, Quot.sound |
| C108 | `C108_runs` | propext, Classical.choice, Quot.sound |
| C108 | `C108_exact` | propext, Classical.choice, Quot.sound |
| C109 | `C109_accuracy` | propext, Classical.choice, Quot.sound |
| C109 | `C109_terminates` | propext, Classical.choice, Quot.sound |
| C109 | `C109_alone` | propext, Classical.choice, Quot.sound |
| C109 | `C109_undisturbed_partial` | propext, Classical.choice, Quot.sound |
| C109 | `C109_result_race_fails` | propext, Classical.choice, Quot.sound |
| C109 | `C109_resume_race_fails` | propext, Classical.choice, Quot.sound |
| C110 | `C110_accuracy` | propext, Classical.choice, Quot.sound |
| C110 | `C110_terminates` | propext, Classical.choice, Quot.sound |
| C110 | `C110_undisturbed_partial` | propext, Classical.choice, Quot.sound |
| C110 | `C110_completes` | propext, Classical.choice, Quot.sound |
| C110 | `C110_calls_race_fails` | propext, Classical.choice, Quot.sound |
| C110 | `C110_resume_race_fails` | propext, Classical.choice, Quot.sound |
| C111 | `C111_sparse_partial` | propext, Classical.choice, Quot.sound |
| C111 | `C111_sparse_fails` | propext, Classical.choice, Quot.sound |
| C111 | `C111_missing` | propext, Classical.choice, Quot.sound |
| C111 | `C111_dense` | propext, Classical.choice, Quot.sound |
| C111 | `C111_dense_missing` | propext, Classical.choice, Quot.sound |
| C111 | `C111_mumps_source` | propext, Classical.choice, Quot.sound |
| C111 | `C111_returned_partial` | propext, Classical.choice, Quot.sound |
| C111 | `C111_mumps_fails` | propext, Classical.choice, Quot.sound |
| C112 | `C112_certified` | propext, Classical.choice, Quot.sound |
| C112 | `C112_quiet` | propext, Classical.choice, Quot.sound |
| C112 | `C112_session` | propext, Classical.choice, Quot.sound |
| C112 | `C112_assembled` | propext, Classical.choice, Quot.sound |
| C113 | `C113_unknowns` | propext, Classical.choice, Quot.sound |
| C113 | `C113_arguments` | propext, Classical.choice, Quot.sound |
| C113 | `C113_count` | propext, Classical.choice, Quot.sound |
| C113 | `C113_entries` | propext, Classical.choice, Quot.sound |
| C113 | `C113_one_type` | propext, Classical.choice, Quot.sound |
| C113 | `C113_one_mode` | propext, Classical.choice, Quot.sound |
| C114 | `C114_only_new` | propext, Classical.choice, Quot.sound |
| C114 | `C114_files` | propext, Classical.choice, Quot.sound |
| C114 | `C114_repeat` | propext, Classical.choice, Quot.sound |
| C114 | `C114_brigades` | propext, Classical.choice, Quot.sound |
| C115 | `C115_weak` | propext, Classical.choice, Quot.sound |
| C115 | `C115_untruncated` | propext, Classical.choice, Quot.sound |
| C115 | `C115_fourth` | propext, Classical.choice, Quot.sound |
| C116 | `C116_outside_partial` | propext, Classical.choice, Quot.sound |
| C116 | `C116_unsorted_fails` | propext, Classical.choice, Quot.sound |
| C116 | `C116_slice` | propext, Classical.choice, Quot.sound |
| C116 | `C116_brigades_partial` | propext, Classical.choice, Quot.sound |
| C116 | `C116_race_fails` | propext, Classical.choice, Quot.sound |
| C117 | `C117_lanczos` | propext, Classical.choice, Quot.sound |
| C117 | `C117_bound` | propext, Classical.choice, Quot.sound |
| C117 | `C117_bracket` | propext, Classical.choice, Quot.sound |
| C117 | `C117_holstein` | propext, Classical.choice, Quot.sound |
| C117 | `C117_drift` | propext, Classical.choice, Quot.sound |
| C117 | `C117_sharp` | propext, Classical.choice, Quot.sound |
| C118 | `C118_concave` | propext, Classical.choice, Quot.sound |
| C118 | `C118_concaveOn` | propext, Classical.choice, Quot.sound |
| C119 | `C119_stages_partial` | propext, Classical.choice, Quot.sound |
| C119 | `C119_sound` | propext, Classical.choice, Quot.sound |
| C119 | `C119_gathered_partial` | propext, Classical.choice, Quot.sound |
| C119 | `C119_results_partial` | propext, Classical.choice, Quot.sound |
| C119 | `C119_emptied_fails` | propext, Classical.choice, Quot.sound |
| C119 | `C119_missing_fails` | propext, Classical.choice, Quot.sound |
| C119 | `C119_leftover_fails` | propext, Classical.choice, Quot.sound |
| C119 | `C119_padding_fails` | propext, Classical.choice, Quot.sound |
| C120 | `C120_selfenergy` | propext, Classical.choice, Quot.sound |
| C120 | `C120_band` | propext, Classical.choice, Quot.sound |
| C120 | `C120_assembled` | propext, Classical.choice, Quot.sound |
| C121 | `C121_printed` | propext, Classical.choice, Quot.sound |
| C121 | `C121_matrix_partial` | propext, Classical.choice, Quot.sound |
| C121 | `C121_full` | propext, Classical.choice, Quot.sound |
| C121 | `C121_generalized` | propext, Classical.choice, Quot.sound |
| C121 | `C121_zero_hopping_fails` | propext, Classical.choice, Quot.sound |
| C122 | `C122_polaron` | propext, Classical.choice, Quot.sound |
| C123 | `C123_advanced_partial` | propext, Classical.choice, Quot.sound |
| C123 | `C123_hopping_fails` | propext, Classical.choice, Quot.sound |
| C124 | `C124_ground` | propext, Classical.choice, Quot.sound |
| C124 | `C124_trial` | propext, Classical.choice, Quot.sound |
| C124 | `C124_assembled` | propext, Classical.choice, Quot.sound |
| C124 | `C124_holstein` | propext, Classical.choice, Quot.sound |
| C124 | `C124_lang_firsov` | propext, Classical.choice, Quot.sound |
| C124 | `C124_peierls_fails` | propext, Classical.choice, Quot.sound |
| C124 | `C124_exact` | propext, Classical.choice, Quot.sound |
| C124 | `C124_exact_holstein` | propext, Classical.choice, Quot.sound |
| C125 | `C125_recovers` | propext, Classical.choice, Quot.sound |
| C125 | `C125_absolute` | propext, Classical.choice, Quot.sound |
| C125 | `C125_free` | propext, Classical.choice, Quot.sound |
| C125 | `C125_few` | propext, Classical.choice, Quot.sound |
| C125 | `C125_sign_fails` | propext, Classical.choice, Quot.sound |
| C125 | `C125_two_frequencies_fails` | propext, Classical.choice, Quot.sound |
| C126 | `C126_round_trip_partial` | propext, Classical.choice, Quot.sound |
| C126 | `C126_histories_partial` | propext, Classical.choice, Quot.sound |
| C126 | `C126_accepted` | propext, Classical.choice, Quot.sound |
| C126 | `C126_term_fails` | propext, Classical.choice, Quot.sound |
| C126 | `C126_no_types_fails` | propext, Classical.choice, Quot.sound |
| C126 | `C126_dictionary_fails` | propext, Classical.choice, Quot.sound |
| C127 | `C127_term` | propext, Classical.choice, Quot.sound |
| C127 | `C127_numbers` | propext, Classical.choice, Quot.sound |
| C127 | `C127_hamiltonian_partial` | propext, Classical.choice, Quot.sound |
| C127 | `C127_models_partial` | propext, Classical.choice, Quot.sound |
| C127 | `C127_rounded_fails` | propext, Classical.choice, Quot.sound |
| C127 | `C127_names_fails` | propext, Classical.choice, Quot.sound |
| C128 | `C128_coefficients` | propext, Classical.choice, Quot.sound |
| C128 | `C128_propagator` | propext, Classical.choice, Quot.sound |
| C128 | `C128_momentum` | propext, Classical.choice, Quot.sound |
| C128 | `C128_terms` | propext, Classical.choice, Quot.sound |
| C128 | `C128_linear` | propext, Classical.choice, Quot.sound |
| C128 | `C128_assembled` | propext, Classical.choice, Quot.sound |
| C128 | `C128_small_hopping_fails` | propext, Classical.choice, Quot.sound |
| C129 | `C129_exact` | propext, Classical.choice, Quot.sound |
| C129 | `C129_bound` | propext, Classical.choice, Quot.sound |
| C129 | `C129_linear` | propext, Classical.choice, Quot.sound |
| C129 | `C129_positive` | propext, Classical.choice, Quot.sound |
| C129 | `C129_assembled` | propext, Classical.choice, Quot.sound |
| C130 | `C130_algebra` | propext, Classical.choice, Quot.sound |
| C130 | `C130_vertices` | propext, Classical.choice, Quot.sound |
| C130 | `C130_textbook` | propext, Classical.choice, Quot.sound |
| C131 | `C131_limit` | propext, Classical.choice, Quot.sound |
| C132 | `C132_exact` | propext, Classical.choice, Quot.sound |
| C132 | `C132_linear` | propext, Classical.choice, Quot.sound |
| C132 | `C132_positive` | propext, Classical.choice, Quot.sound |
| C132 | `C132_assembled` | propext, Classical.choice, Quot.sound |
| C133 | `C133_ground` | propext, Classical.choice, Quot.sound |
| C133 | `C133_bound` | propext, Classical.choice, Quot.sound |
| C133 | `C133_holstein` | propext, Classical.choice, Quot.sound |
| C134 | `C134_linear` | propext, Classical.choice, Quot.sound |
| C134 | `C134_assembled` | propext, Classical.choice, Quot.sound |
| C135 | `C135_end_to_end` | propext, Classical.choice, Quot.sound |
