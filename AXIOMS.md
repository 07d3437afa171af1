# Axioms of the theorems in MANIFEST.json

Written by `tools/axioms.py` from `#print axioms`.

## none

* `Bwsl.C35_reset`
* `Bwsl.C56_constructor`
* `Bwsl.C60_defined`
* `Bwsl.C61_symmetric`
* `Bwsl.C109_empty`
* `Bwsl.C118_save_violated`
* `Bwsl.C120_builders`
* `Bwsl.C120_default`
* `Bwsl.C125_grid`
* `Bwsl.C125_swap`
* `Bwsl.C125_itself`
* `Bwsl.C159_values`
* `Bwsl.C164_sum_violated`
* `Bwsl.C164_index_violated`

## `propext`

* `Bwsl.C11_large_extent`
* `Bwsl.C44_checked`
* `Bwsl.C44_checked_west`
* `Bwsl.C44_unchecked`
* `Bwsl.C46_accumulators`
* `Bwsl.C46_moves`
* `Bwsl.C46_sequence`
* `Bwsl.C52_out_of_turn`
* `Bwsl.C54_add`
* `Bwsl.C54_add_eq`
* `Bwsl.C66_constructor`
* `Bwsl.C90_apply`
* `Bwsl.C90_append`
* `Bwsl.C93_unsigned`
* `Bwsl.C108_bravais`
* `Bwsl.C108_spaces`
* `Bwsl.C112_default`
* `Bwsl.C119_moves_partial`
* `Bwsl.C119_full_violated`
* `Bwsl.C119_add_violated`
* `Bwsl.C120_exclusive`
* `Bwsl.C133_index_narrow`
* `Bwsl.C165_apply`

## `propext`, `Classical.choice`, `Quot.sound`

* `Bwsl.C01_index_roundtrip`
* `Bwsl.C01_grid_roundtrip`
* `Bwsl.C02_coords_roundtrip`
* `Bwsl.C02_injective`
* `Bwsl.C02_surjective`
* `Bwsl.C03_lexicographic`
* `Bwsl.C04_defined_iff`
* `Bwsl.C04_wrap`
* `Bwsl.C05_num_pairs`
* `Bwsl.C05_grid`
* `Bwsl.C06_enforce_closed`
* `Bwsl.C06_enforce_open`
* `Bwsl.C06_defined_iff`
* `Bwsl.C06_lattice_enforce`
* `Bwsl.C06_lattice_short`
* `Bwsl.C06_lattice_long`
* `Bwsl.C07_zero_extent_diverges`
* `Bwsl.C08_unmap_map`
* `Bwsl.C08_map_unmap`
* `Bwsl.C08_mapped_site`
* `Bwsl.C08_unmapped_overflow`
* `Bwsl.C09_translation_invariant`
* `Bwsl.C09_unmapped_comm`
* `Bwsl.C09_unmapped_assoc`
* `Bwsl.C09_mapped_chain`
* `Bwsl.C09_unit_inverse`
* `Bwsl.C10_open_value`
* `Bwsl.C10_open_valid_iff_partial`
* `Bwsl.C10_violated`
* `Bwsl.C11_jump_closed`
* `Bwsl.C11_jump_open`
* `Bwsl.C12_winding`
* `Bwsl.C12_no_overflow`
* `Bwsl.C13_isOnGrid`
* `Bwsl.C13_index_valid`
* `Bwsl.C13_iff`
* `Bwsl.C14_cbinomial`
* `Bwsl.C14_cbinomial_above`
* `Bwsl.C14_overflow_witness`
* `Bwsl.C15_negative_k`
* `Bwsl.C15_violated`
* `Bwsl.C16_gcd`
* `Bwsl.C16_gcd_undefined`
* `Bwsl.C17_value_partial`
* `Bwsl.C17_gcd_sign_partial`
* `Bwsl.C17_violated`
* `Bwsl.C18_signeddiff`
* `Bwsl.C18_absdiff_long`
* `Bwsl.C20_interval`
* `Bwsl.C20_positive`
* `Bwsl.C20_binary64`
* `Bwsl.C21_extremes`
* `Bwsl.C22_sum_into`
* `Bwsl.C22_subtract_into`
* `Bwsl.C22_sum_ub`
* `Bwsl.C22_subtract_ub`
* `Bwsl.C22_invert`
* `Bwsl.C23_empty_violated`
* `Bwsl.C23_diverges_violated`
* `Bwsl.C23_repeated_violated`
* `Bwsl.C23_ends_partial`
* `Bwsl.C23_sound_partial`
* `Bwsl.C23_out_of_bounds_violated`
* `Bwsl.C23_out_of_bounds_binary64_violated`
* `Bwsl.C24_between`
* `Bwsl.C24_monotone`
* `Bwsl.C24_lerpi`
* `Bwsl.C26_value_lowest_terms`
* `Bwsl.C26_defined`
* `Bwsl.C26_long_min_undefined`
* `Bwsl.C26_zero_zero`
* `Bwsl.C27_sign_partial`
* `Bwsl.C27_positive_denominator_partial`
* `Bwsl.C27_violated`
* `Bwsl.C28_add`
* `Bwsl.C28_sub`
* `Bwsl.C28_mul`
* `Bwsl.C28_div`
* `Bwsl.C28_mixed`
* `Bwsl.C28_defined`
* `Bwsl.C29_eq`
* `Bwsl.C30_lt_partial`
* `Bwsl.C30_violated`
* `Bwsl.C30_exactly_partial`
* `Bwsl.C30_constructed_partial`
* `Bwsl.C31_mixed_partial`
* `Bwsl.C31_agreement_partial`
* `Bwsl.C31_violated`
* `Bwsl.C31_exactly_partial`
* `Bwsl.C32_round_trip`
* `Bwsl.C33_accepts`
* `Bwsl.C33_rejects`
* `Bwsl.C34_conversion`
* `Bwsl.C34_isInt`
* `Bwsl.C36_binary64`
* `Bwsl.C36_integers`
* `Bwsl.C37_error_free`
* `Bwsl.C37_two_values`
* `Bwsl.C37_history`
* `Bwsl.C38_error_bound`
* `Bwsl.C38_error_bound_gamma`
* `Bwsl.C39_statistics`
* `Bwsl.C39_mean`
* `Bwsl.C39_nonneg`
* `Bwsl.C39_zero_iff`
* `Bwsl.C39_order`
* `Bwsl.C39_deviation`
* `Bwsl.C41_statistics`
* `Bwsl.C41_unit_weights`
* `Bwsl.C41_repetition`
* `Bwsl.C42_sum`
* `Bwsl.C42_mean`
* `Bwsl.C43_value_partial`
* `Bwsl.C43_scaled_partial`
* `Bwsl.C43_deviation_partial`
* `Bwsl.C43_deviation_root_partial`
* `Bwsl.C43_correct_iff_partial`
* `Bwsl.C43_violated`
* `Bwsl.C45_violated`
* `Bwsl.C45_outcome_partial`
* `Bwsl.C46_group`
* `Bwsl.C47_defined`
* `Bwsl.C47_counts`
* `Bwsl.C47_conservation`
* `Bwsl.C48_result`
* `Bwsl.C48_normalised`
* `Bwsl.C49_forceAdd`
* `Bwsl.C49_undefined`
* `Bwsl.C50_value_partial`
* `Bwsl.C50_violated`
* `Bwsl.C50_iff_partial`
* `Bwsl.C50_later_partial`
* `Bwsl.C51_sum_after_resize`
* `Bwsl.C52_alternation`
* `Bwsl.C53_balance`
* `Bwsl.C53_ratios`
* `Bwsl.C53_ratios_binary64`
* `Bwsl.C54_average`
* `Bwsl.C55_after_proposal_partial`
* `Bwsl.C56_row`
* `Bwsl.C56_precision`
* `Bwsl.C56_append_only`
* `Bwsl.C56_mean`
* `Bwsl.C57_unknown`
* `Bwsl.C57_known`
* `Bwsl.C58_header`
* `Bwsl.C58_columns`
* `Bwsl.C58_empty`
* `Bwsl.C59_round_trip`
* `Bwsl.C59_from_string`
* `Bwsl.C59_unknown`
* `Bwsl.C60_trichotomy`
* `Bwsl.C60_le_ge`
* `Bwsl.C60_compatible`
* `Bwsl.C61_reflexive`
* `Bwsl.C61_total`
* `Bwsl.C61_widened`
* `Bwsl.C61_exact`
* `Bwsl.C61_tolerances`
* `Bwsl.C61_defaults`
* `Bwsl.C62_binary64_partial`
* `Bwsl.C62_finite_partial`
* `Bwsl.C63_kth`
* `Bwsl.C63_increasing`
* `Bwsl.C63_collect`
* `Bwsl.C63_begin_call`
* `Bwsl.C63_end`
* `Bwsl.C63_zero_steps`
* `Bwsl.C63_monotone`
* `Bwsl.C64_kth`
* `Bwsl.C64_powers`
* `Bwsl.C64_increasing`
* `Bwsl.C64_collect`
* `Bwsl.C64_states`
* `Bwsl.C64_visit`
* `Bwsl.C65_compare`
* `Bwsl.C65_symmetric`
* `Bwsl.C66_real_space`
* `Bwsl.C66_additive`
* `Bwsl.C66_vector`
* `Bwsl.C66_translation`
* `Bwsl.C66_antisymmetric`
* `Bwsl.C66_composes`
* `Bwsl.C67_distance`
* `Bwsl.C67_metric`
* `Bwsl.C67_definite`
* `Bwsl.C68_neighbor`
* `Bwsl.C68_opposite`
* `Bwsl.C69_nearest`
* `Bwsl.C70_any_dual`
* `Bwsl.C70_dual`
* `Bwsl.C71_orthogonal_partial`
* `Bwsl.C71_triangular_violated`
* `Bwsl.C71_exactly_partial`
* `Bwsl.C71_diagonal_partial`
* `Bwsl.C71_double_partial`
* `Bwsl.C72_symmetric`
* `Bwsl.C72_are_neighbors`
* `Bwsl.C73_valid`
* `Bwsl.C73_closed`
* `Bwsl.C73_coordination`
* `Bwsl.C73_open`
* `Bwsl.C73_defined`
* `Bwsl.C74_orthogonal`
* `Bwsl.C74_predefined`
* `Bwsl.C75_triangular_partial`
* `Bwsl.C75_triangular_violated`
* `Bwsl.C75_triangular_iff_partial`
* `Bwsl.C76_vector`
* `Bwsl.C76_position`
* `Bwsl.C77_vector_iff_partial`
* `Bwsl.C77_distance_iff_partial`
* `Bwsl.C77_square_iff_partial`
* `Bwsl.C77_triangular_iff_partial`
* `Bwsl.C77_value_partial`
* `Bwsl.C77_dominated_partial`
* `Bwsl.C77_backwards_violated`
* `Bwsl.C77_other_pair_violated`
* `Bwsl.C78_axis_aligned_partial`
* `Bwsl.C78_orthogonal_partial`
* `Bwsl.C78_equal_extents_partial`
* `Bwsl.C78_triangular_iff_partial`
* `Bwsl.C78_triangular_violated`
* `Bwsl.C78_open_violated`
* `Bwsl.C78_iff_partial`
* `Bwsl.C79_value`
* `Bwsl.C79_nonneg`
* `Bwsl.C79_zero_momentum`
* `Bwsl.C79_zero_momentum_exists`
* `Bwsl.C79_additive`
* `Bwsl.C79_open`
* `Bwsl.C80_orthogonal`
* `Bwsl.C80_equal_extents`
* `Bwsl.C81_allowed`
* `Bwsl.C81_orthogonal`
* `Bwsl.C81_equal_extents`
* `Bwsl.C82_positions`
* `Bwsl.C82_distances`
* `Bwsl.C82_momenta_partial`
* `Bwsl.C82_pairs_partial`
* `Bwsl.C82_open_momenta_violated`
* `Bwsl.C82_open_pairs_violated`
* `Bwsl.C83_accepts`
* `Bwsl.C83_rejects`
* `Bwsl.C83_round_trip`
* `Bwsl.C83_draws`
* `Bwsl.C83_serialize`
* `Bwsl.C84_dimensions`
* `Bwsl.C85_odd_violated`
* `Bwsl.C85_even_partial`
* `Bwsl.C86_kahan_error`
* `Bwsl.C87_mean_in_range`
* `Bwsl.C87_variance_nonneg`
* `Bwsl.C87_mean_finite`
* `Bwsl.C87_overflow`
* `Bwsl.C88_history`
* `Bwsl.C88_average`
* `Bwsl.C88_unit_interval`
* `Bwsl.C89_frequencies`
* `Bwsl.C90_apply_integer`
* `Bwsl.C91_dump`
* `Bwsl.C91_not_a_number`
* `Bwsl.C91_undefined`
* `Bwsl.C91_injective`
* `Bwsl.C92_exact`
* `Bwsl.C92_nearest`
* `Bwsl.C92_integer`
* `Bwsl.C92_mono`
* `Bwsl.C92_error`
* `Bwsl.C93_long`
* `Bwsl.C93_square_nonneg`
* `Bwsl.C93_parity`
* `Bwsl.C93_exact`
* `Bwsl.C94_line`
* `Bwsl.C94_readable`
* `Bwsl.C94_message`
* `Bwsl.C94_new`
* `Bwsl.C95_distance`
* `Bwsl.C95_neighbors`
* `Bwsl.C96_distance`
* `Bwsl.C96_single`
* `Bwsl.C97_connected`
* `Bwsl.C97_predefined`
* `Bwsl.C98_heaviside`
* `Bwsl.C98_heaviside2`
* `Bwsl.C98_reflection`
* `Bwsl.C99_value`
* `Bwsl.C99_norm`
* `Bwsl.C99_order`
* `Bwsl.C99_nonneg`
* `Bwsl.C99_component`
* `Bwsl.C99_single`
* `Bwsl.C99_range`
* `Bwsl.C99_error`
* `Bwsl.C99_integers`
* `Bwsl.C100_sum`
* `Bwsl.C100_product`
* `Bwsl.C100_order`
* `Bwsl.C100_squares`
* `Bwsl.C101_readable_partial`
* `Bwsl.C101_texts_partial`
* `Bwsl.C101_violated`
* `Bwsl.C102_bound`
* `Bwsl.C102_peak`
* `Bwsl.C102_opposite`
* `Bwsl.C102_scale`
* `Bwsl.C102_single`
* `Bwsl.C102_uniform_orthogonal`
* `Bwsl.C102_uniform_equal_extents`
* `Bwsl.C102_unequal_extents`
* `Bwsl.C103_distinct`
* `Bwsl.C103_complete_orthogonal`
* `Bwsl.C103_complete_equal_extents`
* `Bwsl.C103_opposite`
* `Bwsl.C104_gcd`
* `Bwsl.C104_gcd_undefined`
* `Bwsl.C104_agrees`
* `Bwsl.C104_compares`
* `Bwsl.C104_constructor`
* `Bwsl.C104_constructor_defined`
* `Bwsl.C104_arithmetic`
* `Bwsl.C104_mixed`
* `Bwsl.C104_defined`
* `Bwsl.C104_comparison_domain`
* `Bwsl.C104_narrow`
* `Bwsl.C104_text`
* `Bwsl.C104_round_trip`
* `Bwsl.C104_conversion`
* `Bwsl.C104_double`
* `Bwsl.C105_orthogonal`
* `Bwsl.C105_compare`
* `Bwsl.C105_position`
* `Bwsl.C105_symmetric`
* `Bwsl.C105_predefined`
* `Bwsl.C105_predefined_compare`
* `Bwsl.C105_neighbours`
* `Bwsl.C106_error_partial`
* `Bwsl.C106_compare_partial`
* `Bwsl.C106_neighbours_violated`
* `Bwsl.C106_bravais_violated`
* `Bwsl.C107_jump`
* `Bwsl.C107_open`
* `Bwsl.C107_open_triangular`
* `Bwsl.C107_triangular`
* `Bwsl.C108_grid`
* `Bwsl.C108_mapped`
* `Bwsl.C108_lattice`
* `Bwsl.C108_neighbors`
* `Bwsl.C109_origin`
* `Bwsl.C109_translations`
* `Bwsl.C109_point`
* `Bwsl.C110_error_partial`
* `Bwsl.C110_exact_partial`
* `Bwsl.C110_end_violated`
* `Bwsl.C111_outcome_partial`
* `Bwsl.C111_minimum_violated`
* `Bwsl.C111_self_violated`
* `Bwsl.C112_divided`
* `Bwsl.C112_move`
* `Bwsl.C113_error_partial`
* `Bwsl.C113_monotone_partial`
* `Bwsl.C113_end_violated`
* `Bwsl.C114_defined`
* `Bwsl.C114_kth`
* `Bwsl.C114_end`
* `Bwsl.C114_collect`
* `Bwsl.C114_ends`
* `Bwsl.C114_negative`
* `Bwsl.C115_result`
* `Bwsl.C115_frequencies`
* `Bwsl.C115_ratios`
* `Bwsl.C116_range`
* `Bwsl.C116_order`
* `Bwsl.C116_scale`
* `Bwsl.C116_near_range`
* `Bwsl.C116_constant`
* `Bwsl.C116_overshoot`
* `Bwsl.C117_value`
* `Bwsl.C117_exact`
* `Bwsl.C117_wraps`
* `Bwsl.C117_symmetric`
* `Bwsl.C117_gcd`
* `Bwsl.C117_double`
* `Bwsl.C117_double_unsigned`
* `Bwsl.C118_headers_partial`
* `Bwsl.C118_row_partial`
* `Bwsl.C118_headers_violated`
* `Bwsl.C118_lost_violated`
* `Bwsl.C118_precision`
* `Bwsl.C118_history_partial`
* `Bwsl.C118_untouched`
* `Bwsl.C118_room_partial`
* `Bwsl.C118_full_violated`
* `Bwsl.C118_full_save_violated`
* `Bwsl.C119_force_partial`
* `Bwsl.C121_canonical`
* `Bwsl.C121_halves`
* `Bwsl.C121_unit`
* `Bwsl.C121_draw`
* `Bwsl.C121_below`
* `Bwsl.C121_tiny_violated`
* `Bwsl.C121_choice`
* `Bwsl.C121_index_violated`
* `Bwsl.C121_zero_violated`
* `Bwsl.C121_overflow_violated`
* `Bwsl.C121_distribution`
* `Bwsl.C121_probability`
* `Bwsl.C121_certain`
* `Bwsl.C121_frequency_sums`
* `Bwsl.C121_total`
* `Bwsl.C121_frequency`
* `Bwsl.C122_unique`
* `Bwsl.C122_sequence`
* `Bwsl.C122_range`
* `Bwsl.C122_proper`
* `Bwsl.C122_same`
* `Bwsl.C122_seeds`
* `Bwsl.C122_first`
* `Bwsl.C122_saved`
* `Bwsl.C122_choice64`
* `Bwsl.C122_choice32`
* `Bwsl.C123_iff`
* `Bwsl.C123_exact`
* `Bwsl.C123_default`
* `Bwsl.C123_close`
* `Bwsl.C123_tiny`
* `Bwsl.C124_value`
* `Bwsl.C124_ends`
* `Bwsl.C124_ends_all`
* `Bwsl.C124_monotone`
* `Bwsl.C124_error`
* `Bwsl.C124_between`
* `Bwsl.C124_outside_violated`
* `Bwsl.C124_lerpi`
* `Bwsl.C125_grid_moved`
* `Bwsl.C125_lattice`
* `Bwsl.C125_lattice_saved`
* `Bwsl.C125_lattice_sk`
* `Bwsl.C125_bravais`
* `Bwsl.C125_getGrid`
* `Bwsl.C126_mean`
* `Bwsl.C126_scaled`
* `Bwsl.C126_variance`
* `Bwsl.C127_mean`
* `Bwsl.C127_sum`
* `Bwsl.C127_variance`
* `Bwsl.C128_reads`
* `Bwsl.C128_round_trip`
* `Bwsl.C128_order`
* `Bwsl.C128_clean`
* `Bwsl.C128_default_precision`
* `Bwsl.C128_row`
* `Bwsl.C128_stats`
* `Bwsl.C128_ratios`
* `Bwsl.C129_round_trip`
* `Bwsl.C129_injective`
* `Bwsl.C129_digits`
* `Bwsl.C129_integers`
* `Bwsl.C129_clean`
* `Bwsl.C129_doubles`
* `Bwsl.C129_positions`
* `Bwsl.C129_distances`
* `Bwsl.C129_momenta`
* `Bwsl.C129_coordinates`
* `Bwsl.C130_accurate`
* `Bwsl.C130_order`
* `Bwsl.C130_injective`
* `Bwsl.C130_opposite`
* `Bwsl.C131_accurate`
* `Bwsl.C131_nonneg`
* `Bwsl.C131_accumulate`
* `Bwsl.C131_opposite`
* `Bwsl.C131_zero_momentum`
* `Bwsl.C132_finite`
* `Bwsl.C132_mean`
* `Bwsl.C132_relative`
* `Bwsl.C132_neumaier`
* `Bwsl.C132_row`
* `Bwsl.C133_square`
* `Bwsl.C133_square_narrow`
* `Bwsl.C133_cube`
* `Bwsl.C133_sum`
* `Bwsl.C133_product`
* `Bwsl.C133_absdiff`
* `Bwsl.C133_signeddiff`
* `Bwsl.C133_cbinomial`
* `Bwsl.C133_cbinomial_total`
* `Bwsl.C133_cbinomial_overflow`
* `Bwsl.C133_cbinomial_negative`
* `Bwsl.C133_gcd`
* `Bwsl.C133_gcd_unsigned`
* `Bwsl.C133_gcd_undefined`
* `Bwsl.C133_into`
* `Bwsl.C133_reduces`
* `Bwsl.C133_invert`
* `Bwsl.C133_index_to_array`
* `Bwsl.C133_sum_squared`
* `Bwsl.C133_long`
* `Bwsl.C133_size`
* `Bwsl.C134_constructor`
* `Bwsl.C134_constructor_undefined`
* `Bwsl.C134_constructor_unsigned`
* `Bwsl.C134_operations`
* `Bwsl.C134_values`
* `Bwsl.C134_overflow`
* `Bwsl.C134_unsigned`
* `Bwsl.C134_unsigned_difference`
* `Bwsl.C134_mixed`
* `Bwsl.C134_mixed_values`
* `Bwsl.C134_compare`
* `Bwsl.C134_integer`
* `Bwsl.C134_instances`
* `Bwsl.C134_instances_mixed`
* `Bwsl.C134_unsigned_witness`
* `Bwsl.C135_sum`
* `Bwsl.C135_sum_defined`
* `Bwsl.C135_sum_wide`
* `Bwsl.C135_sum_same`
* `Bwsl.C135_product`
* `Bwsl.C136_rejected`
* `Bwsl.C136_accepted`
* `Bwsl.C136_status_violated`
* `Bwsl.C136_position_violated`
* `Bwsl.C137_accepts`
* `Bwsl.C137_rejects`
* `Bwsl.C137_round_trip`
* `Bwsl.C137_range`
* `Bwsl.C137_negative`
* `Bwsl.C138_histogram`
* `Bwsl.C138_probability`
* `Bwsl.C138_integers`
* `Bwsl.C138_formula`
* `Bwsl.C139_defined`
* `Bwsl.C139_kth`
* `Bwsl.C139_increments`
* `Bwsl.C139_end`
* `Bwsl.C139_collect`
* `Bwsl.C139_unsigned`
* `Bwsl.C139_signed`
* `Bwsl.C139_around`
* `Bwsl.C139_steps`
* `Bwsl.C140_symmetric`
* `Bwsl.C140_opposite`
* `Bwsl.C140_nonneg`
* `Bwsl.C140_same`
* `Bwsl.C140_components`
* `Bwsl.C140_distance`
* `Bwsl.C140_finite`
* `Bwsl.C141_defined`
* `Bwsl.C141_kth`
* `Bwsl.C141_increments`
* `Bwsl.C141_last`
* `Bwsl.C141_constant`
* `Bwsl.C141_collect`
* `Bwsl.C141_visit`
* `Bwsl.C141_powers`
* `Bwsl.C142_exact_partial`
* `Bwsl.C142_close_partial`
* `Bwsl.C142_two_violated`
* `Bwsl.C143_kahan`
* `Bwsl.C143_neumaier`
* `Bwsl.C143_welford`
* `Bwsl.C143_west`
* `Bwsl.C143_checks`
* `Bwsl.C143_naive`
* `Bwsl.C143_hist`
* `Bwsl.C143_moves`
* `Bwsl.C143_groups`
* `Bwsl.C143_math`
* `Bwsl.C143_choose`
* `Bwsl.C143_upper_bound`
* `Bwsl.C143_approx`
* `Bwsl.C143_linspace`
* `Bwsl.C143_logspace`
* `Bwsl.C143_bravais`
* `Bwsl.C143_lattice`
* `Bwsl.C143_exception`
* `Bwsl.C143_signs`
* `Bwsl.C143_exception_occurs`
* `Bwsl.C144_kahan`
* `Bwsl.C144_neumaier`
* `Bwsl.C144_welford`
* `Bwsl.C144_hist`
* `Bwsl.C144_norms`
* `Bwsl.C144_bravais`
* `Bwsl.C144_lattice`
* `Bwsl.C145_enforce`
* `Bwsl.C145_enforce_lattice`
* `Bwsl.C145_translate`
* `Bwsl.C145_far`
* `Bwsl.C145_gcd`
* `Bwsl.C145_gcd_types`
* `Bwsl.C145_gcd_reached`
* `Bwsl.C145_cbinomial`
* `Bwsl.C145_grow`
* `Bwsl.C146_welford_variance`
* `Bwsl.C146_linspace`
* `Bwsl.C146_welford_error`
* `Bwsl.C146_lerp_value`
* `Bwsl.C146_lerp_ends`
* `Bwsl.C146_lerp_error`
* `Bwsl.C146_lerp_differs`
* `Bwsl.C146_norm`
* `Bwsl.C146_position`
* `Bwsl.C146_distance`
* `Bwsl.C146_plain`
* `Bwsl.C146_no_rounding`
* `Bwsl.C147_linspace_monotone`
* `Bwsl.C147_linspace_error`
* `Bwsl.C147_linspace_repeats`
* `Bwsl.C147_lerp_value`
* `Bwsl.C147_lerp_ends`
* `Bwsl.C147_lerpi_ends`
* `Bwsl.C147_lerp_monotone`
* `Bwsl.C147_lerp_error`
* `Bwsl.C147_heaviside`
* `Bwsl.C148_sgn`
* `Bwsl.C148_absdiff`
* `Bwsl.C148_absdiff_symm`
* `Bwsl.C148_absdiff_zero`
* `Bwsl.C148_max`
* `Bwsl.C148_min`
* `Bwsl.C148_sum_error`
* `Bwsl.C148_sum_exact`
* `Bwsl.C148_product_exact`
* `Bwsl.C149_sum_order_violated`
* `Bwsl.C149_sum_order_partial`
* `Bwsl.C149_undo_violated`
* `Bwsl.C149_undo_partial`
* `Bwsl.C150_no_rounding`
* `Bwsl.C150_near_range`
* `Bwsl.C150_constant`
* `Bwsl.C150_error`
* `Bwsl.C151_accurate`
* `Bwsl.C151_nonneg`
* `Bwsl.C151_accumulate`
* `Bwsl.C151_opposite`
* `Bwsl.C151_zero_momentum`
* `Bwsl.C151_reciprocal`
* `Bwsl.C151_plain`
* `Bwsl.C151_no_rounding`
* `Bwsl.C152_draw`
* `Bwsl.C152_choice`
* `Bwsl.C152_plain`
* `Bwsl.C153_accurate`
* `Bwsl.C153_injective`
* `Bwsl.C153_opposite`
* `Bwsl.C154_accurate`
* `Bwsl.C154_allowed`
* `Bwsl.C154_opposite`
* `Bwsl.C155_accepts`
* `Bwsl.C155_error`
* `Bwsl.C155_monotone`
* `Bwsl.C155_exponents`
* `Bwsl.C155_visit`
* `Bwsl.C156_outputs`
* `Bwsl.C156_count`
* `Bwsl.C156_unit`
* `Bwsl.C156_canonical`
* `Bwsl.C156_draw`
* `Bwsl.C156_below`
* `Bwsl.C156_psums`
* `Bwsl.C156_choice`
* `Bwsl.C156_distribution`
* `Bwsl.C156_probability`
* `Bwsl.C156_certain`
* `Bwsl.C156_frequency_sums`
* `Bwsl.C156_total`
* `Bwsl.C156_frequency`
* `Bwsl.C157_square`
* `Bwsl.C157_parity`
* `Bwsl.C157_cube`
* `Bwsl.C157_integers`
* `Bwsl.C157_sum`
* `Bwsl.C157_sum_integers`
* `Bwsl.C157_sum_converted`
* `Bwsl.C157_nonneg`
* `Bwsl.C157_double`
* `Bwsl.C157_error`
* `Bwsl.C157_norm_integers`
* `Bwsl.C157_single`
* `Bwsl.C158_error`
* `Bwsl.C158_exact`
* `Bwsl.C158_symmetric`
* `Bwsl.C158_above`
* `Bwsl.C159_sums`
* `Bwsl.C159_count`
* `Bwsl.C159_max_min`
* `Bwsl.C159_l2norm`
* `Bwsl.C159_into`
* `Bwsl.C159_index`
* `Bwsl.C160_long_double_violated`
* `Bwsl.C160_end_violated`
* `Bwsl.C161_tiny_violated`
* `Bwsl.C161_index_violated`
* `Bwsl.C161_zero_violated`
* `Bwsl.C161_overflow_violated`
* `Bwsl.C162_small_violated`
* `Bwsl.C162_large_violated`
* `Bwsl.C162_overload_violated`
* `Bwsl.C162_single_violated`
* `Bwsl.C163_below_violated`
* `Bwsl.C163_stuck_violated`
* `Bwsl.C164_l2norm_violated`
* `Bwsl.C164_undo_partial`
* `Bwsl.C165_histogram`
* `Bwsl.C165_conversions`
* `Bwsl.C165_float`
* `Bwsl.C165_integers`
* `Bwsl.C165_error`
* `Bwsl.C165_sums`
* `Bwsl.C166_whole_partial`
* `Bwsl.C166_fractions_violated`
* `Bwsl.C166_range_violated`
* `Bwsl.C166_long_violated`
* `Bwsl.C167_left_partial`
* `Bwsl.C167_simplify_partial`
* `Bwsl.C167_lowest_violated`
* `Bwsl.C167_unchanged_violated`
* `Bwsl.C167_types_partial`
* `Bwsl.C167_range`
* `Bwsl.C168_open_violated`
* `Bwsl.C168_apart_violated`
* `Bwsl.C168_larger_partial`
* `Bwsl.C168_closed_partial`
* `Bwsl.C169_components`
* `Bwsl.C169_finite`
* `Bwsl.C169_momentum`
* `Bwsl.C169_zero`
* `Bwsl.C169_middle`
* `Bwsl.C170_into`
* `Bwsl.C170_into_types`
* `Bwsl.C170_into_float`
* `Bwsl.C170_double`
* `Bwsl.C170_sk_open_partial`
* `Bwsl.C170_sk_value`
* `Bwsl.C170_sk_first_partial`
* `Bwsl.C170_sk_violated`
* `Bwsl.C171_plane`
* `Bwsl.C171_dominant`
* `Bwsl.C172_plane`
* `Bwsl.C172_dominant`
* `Bwsl.C172_shell`
* `Bwsl.C173_frequency`
* `Bwsl.C173_reliability`
* `Bwsl.C173_fused`
* `Bwsl.C173_absorbed`
* `Bwsl.C174_accurate`
* `Bwsl.C174_physical`
* `Bwsl.C175_nonneg`
* `Bwsl.C175_grows`
* `Bwsl.C175_any`
* `Bwsl.C175_orthogonal`
* `Bwsl.C175_plain`
* `Bwsl.C176_neumaier_stays`
* `Bwsl.C176_welford`
* `Bwsl.C176_welford_stays`
* `Bwsl.C176_west`
* `Bwsl.C176_histogram`
* `Bwsl.C177_overflow_violated`
* `Bwsl.C177_welford_partial`
* `Bwsl.C178_kahan`
* `Bwsl.C178_neumaier`
* `Bwsl.C178_welford`
* `Bwsl.C178_west`
* `Bwsl.C178_histogram`
* `Bwsl.C178_lerp`
* `Bwsl.C178_l2norm`
* `Bwsl.C179_momentum`
* `Bwsl.C179_accumulate`
* `Bwsl.C179_compute`
* `Bwsl.C179_plain`
* `Bwsl.C179_exists`
* `Bwsl.C180_linspace_monotone`
* `Bwsl.C180_linspace_error`
* `Bwsl.C180_linspace_repeats`
* `Bwsl.C180_lerp_value`
* `Bwsl.C180_lerp_ends`
* `Bwsl.C180_lerp_monotone`
* `Bwsl.C180_lerp_error`
* `Bwsl.C180_norm_nonneg`
* `Bwsl.C180_norm_error`
* `Bwsl.C180_sum`
* `Bwsl.C180_integers`
* `Bwsl.C180_same`
* `Bwsl.C180_negated`
* `Bwsl.C180_draw`
* `Bwsl.C180_choice`
* `Bwsl.C181_kahan`
* `Bwsl.C181_neumaier`
* `Bwsl.C181_histogram`
* `Bwsl.C181_linspace`
* `Bwsl.C181_lerp`
* `Bwsl.C181_norm`
* `Bwsl.C181_choice`
* `Bwsl.C182_built`
* `Bwsl.C182_position`
* `Bwsl.C182_vector`
* `Bwsl.C182_distance`
* `Bwsl.C182_momentum`
* `Bwsl.C182_neighbors`
* `Bwsl.C182_structure_factor`
* `Bwsl.C182_bravais`
* `Bwsl.C183_welford`
* `Bwsl.C183_west`
* `Bwsl.C183_weights`
* `Bwsl.C183_approx`
* `Bwsl.C183_deviation`
* `Bwsl.C184_shape`
* `Bwsl.C184_plain`
* `Bwsl.C184_same`
* `Bwsl.C184_predefined`
* `Bwsl.C185_accumulate`
* `Bwsl.C185_compute`
* `Bwsl.C185_plain`
* `Bwsl.C185_clear`
* `Bwsl.C185_first_site`
* `Bwsl.C186_lattice`
* `Bwsl.C186_structure_factor`
* `Bwsl.C187_welford`
* `Bwsl.C187_west`
* `Bwsl.C187_weights`
* `Bwsl.C187_fused_quieter`
* `Bwsl.C188_welford`
* `Bwsl.C188_welford_last`
* `Bwsl.C188_constant`
* `Bwsl.C188_west`
* `Bwsl.C188_west_last`
* `Bwsl.C188_kahan_last`
* `Bwsl.C189_add`
* `Bwsl.C189_propose`
* `Bwsl.C189_histogram`
* `Bwsl.C190_psums`
* `Bwsl.C190_choice`
* `Bwsl.C191_order`
* `Bwsl.C191_undo`
* `Bwsl.C192_product`
* `Bwsl.C192_calm`
* `Bwsl.C192_sign`
* `Bwsl.C192_order`
* `Bwsl.C192_underflow`
* `Bwsl.C193_sum`
* `Bwsl.C193_product`
* `Bwsl.C193_extremes`
* `Bwsl.C193_sgn`
* `Bwsl.C194_sum`
* `Bwsl.C194_into`
* `Bwsl.C194_extremes`
* `Bwsl.C194_product`
* `Bwsl.C195_sum`
* `Bwsl.C195_product`
* `Bwsl.C195_zero`
* `Bwsl.C195_into`
* `Bwsl.C196_neumaier`
* `Bwsl.C196_kahan_partial`
* `Bwsl.C196_kahan_violated`
* `Bwsl.C196_kahan_ordered_partial`
* `Bwsl.C197_grows`
* `Bwsl.C198_range`
* `Bwsl.C198_frequency`
* `Bwsl.C198_equal`
* `Bwsl.C199_exact_partial`
* `Bwsl.C199_close_partial`
* `Bwsl.C199_variance_partial`
* `Bwsl.C199_violated`

## `propext`, `Quot.sound`

* `Bwsl.C05_pair_roundtrip`
* `Bwsl.C05_index_roundtrip`
* `Bwsl.C18_absdiff`
* `Bwsl.C18_sgn`
* `Bwsl.C19_max`
* `Bwsl.C19_min`
* `Bwsl.C20_psums`
* `Bwsl.C20_empty`
* `Bwsl.C21_iff`
* `Bwsl.C21_monotone`
* `Bwsl.C22_subtract_sum`
* `Bwsl.C22_sum_subtract`
* `Bwsl.C23_step_partial`
* `Bwsl.C24_ends`
* `Bwsl.C25_sum`
* `Bwsl.C25_product`
* `Bwsl.C25_perm`
* `Bwsl.C32_text_shape`
* `Bwsl.C35_kahan`
* `Bwsl.C35_neumaier`
* `Bwsl.C35_knuthWelford`
* `Bwsl.C35_west`
* `Bwsl.C35_integer`
* `Bwsl.C36_exact`
* `Bwsl.C36_mean_exact`
* `Bwsl.C40_nan`
* `Bwsl.C40_nan_west`
* `Bwsl.C40_nan_history`
* `Bwsl.C40_nan_integer`
* `Bwsl.C42_sum_conv`
* `Bwsl.C46_histogram`
* `Bwsl.C48_results`
* `Bwsl.C51_resize`
* `Bwsl.C54_history`
* `Bwsl.C54_other_status`
* `Bwsl.C55_violated`
* `Bwsl.C55_fresh`
* `Bwsl.C60_equivalence`
* `Bwsl.C61_antisymmetric`
* `Bwsl.C62_violated`
* `Bwsl.C68_further`
* `Bwsl.C88_reset`
* `Bwsl.C90_apply_checked`
* `Bwsl.C91_usage`
* `Bwsl.C108_bravais_points`
* `Bwsl.C108_jump`
* `Bwsl.C112_subscripts`
* `Bwsl.C118_save_partial`
* `Bwsl.C119_hist_partial`
* `Bwsl.C119_group_partial`
* `Bwsl.C122_dump`
* `Bwsl.C133_array_to_index`
* `Bwsl.C133_long_containers`
* `Bwsl.C134_instances_compare`
* `Bwsl.C136_room`
* `Bwsl.C137_instances`
* `Bwsl.C139_long`
* `Bwsl.C140_norm`
* `Bwsl.C146_exact`
* `Bwsl.C146_special`
* `Bwsl.C146_welford_mean`
* `Bwsl.C148_into`
* `Bwsl.C148_invert`
* `Bwsl.C150_count`
* `Bwsl.C150_squares`
* `Bwsl.C155_collect`
* `Bwsl.C176_neumaier`
* `Bwsl.C176_kahan_stays`
* `Bwsl.C176_kahan`
* `Bwsl.C177_neumaier_violated`
* `Bwsl.C177_kahan_violated`
* `Bwsl.C178_plain`
* `Bwsl.C193_subtract`
