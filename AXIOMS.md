# Axioms of every theorem, as printed by Lean

| property | theorem | axioms |
|---|---|---|
| C01 | `PyGSP.C01_constructor_accepts_iff` | propext, Classical.choice, Quot.sound |
| C01 | `PyGSP.C01_rejects_with_valueError` | propext, Classical.choice, Quot.sound |
| C01 | `PyGSP.C01_constructor_weights` | propext, Classical.choice, Quot.sound |
| C01 | `PyGSP.C01_constructor_warnings` | propext, Classical.choice, Quot.sound |
| C02 | `PyGSP.C02_n_edges_undirected` | propext, Classical.choice, Quot.sound |
| C02 | `PyGSP.C02_n_edges_directed` | propext, Classical.choice, Quot.sound |
| C02 | `PyGSP.C02_storage_independent` | propext, Classical.choice, Quot.sound |
| C02 | `PyGSP.C02_duplicate_storage` | propext, Classical.choice, Quot.sound |
| C03 | `PyGSP.C03_is_directed_iff` | propext, Classical.choice, Quot.sound |
| C03 | `PyGSP.C03_every_call` | propext, Classical.choice, Quot.sound |
| C04 | `PyGSP.C04_edge_list` | propext, Classical.choice, Quot.sound |
| C05 | `PyGSP.C05_is_connected_iff` | propext, Classical.choice, Quot.sound |
| C05 | `PyGSP.C05_empty_graph` | propext, Classical.choice, Quot.sound |
| C05 | `PyGSP.C05_every_call` | propext, Classical.choice, Quot.sound |
| C06 | `PyGSP.C06_has_loops_iff` | propext, Quot.sound |
| C06 | `PyGSP.C06_is_weighted_iff` | propext, Classical.choice, Quot.sound |
| C07 | `PyGSP.C07_degree` | propext, Classical.choice, Quot.sound |
| C07 | `PyGSP.C07_weighted_degree` | propext, Classical.choice, Quot.sound |
| C07 | `PyGSP.C07_adjacency` | propext, Quot.sound |
| C07 | `PyGSP.C07_every_call` | propext, Classical.choice, Quot.sound |
| C08 | `PyGSP.C08_subgraph` | propext, Classical.choice, Quot.sound |
| C08 | `PyGSP.C08_mask` | propext, Quot.sound |
| C09 | `PyGSP.C09_directed_raises` | propext, Classical.choice, Quot.sound |
| C09 | `PyGSP.C09_extract_components` | propext, Classical.choice, Quot.sound |
| C09 | `PyGSP.C09_negative_weights_violated` | propext, Classical.choice, Quot.sound |
| C10 | `PyGSP.C10_combinatorial` | propext, Classical.choice, Quot.sound |
| C10 | `PyGSP.C10_loops_invisible` | propext, Classical.choice, Quot.sound |
| C10 | `PyGSP.C10_unknown_type` | propext, Classical.choice, Quot.sound |
| C11 | `PyGSP.C11_quadratic_form` | propext, Classical.choice, Quot.sound |
| C11 | `PyGSP.C11_psd` | propext, Classical.choice, Quot.sound |
| C11 | `PyGSP.C11_negative_weights_violated` | propext, Classical.choice, Quot.sound |
| C12 | `PyGSP.C12_normalized` | propext, Classical.choice, Quot.sound |
| C13 | `PyGSP.C13_diff_operator` | propext, Classical.choice, Quot.sound |
| C13 | `PyGSP.C13_unknown_type` | propext, Classical.choice, Quot.sound |
| C14 | `PyGSP.C14_grad` | propext, Classical.choice, Quot.sound |
| C14 | `PyGSP.C14_div_adjoint` | propext, Classical.choice, Quot.sound |
| C14 | `PyGSP.C14_div_grad` | propext, Classical.choice, Quot.sound |
| C14 | `PyGSP.C14_lengths` | propext, Classical.choice, Quot.sound |
| C14 | `PyGSP.C14_calls` | propext, Classical.choice, Quot.sound |
| C14 | `PyGSP.C14_normalized_energy` | propext, Classical.choice, Quot.sound |
| C14 | `PyGSP.C14_documented_normalized_energy_violated` | propext, Classical.choice, Quot.sound |
| C15 | `PyGSP.C15_estimate` | propext, Classical.choice, Quot.sound |
| C15 | `PyGSP.C15_upper_bound` | propext, Classical.choice, Quot.sound |
| C15 | `PyGSP.C15_unknown_type` | propext, Classical.choice, Quot.sound |
| C16 | `PyGSP.C16_check_signal` | none |
| C16 | `PyGSP.C16_set_signal` | propext, Classical.choice, Quot.sound |
| C16 | `PyGSP.C16_fourier` | propext, Classical.choice, Quot.sound |
| C17 | `PyGSP.C17_immutable` | propext, Classical.choice, Quot.sound |
| C17 | `PyGSP.C17_setter` | propext, Classical.choice, Quot.sound |
| C18 | `PyGSP.C18_structure` | propext, Classical.choice, Quot.sound |
| C18 | `PyGSP.C18_connected` | propext, Classical.choice, Quot.sound |
| C18 | `PyGSP.C18_laplacian` | propext, Classical.choice, Quot.sound |
| C18 | `PyGSP.C18_diff_operator` | propext, Classical.choice, Quot.sound |
| C18 | `PyGSP.C18_fourier` | propext, Classical.choice, Quot.sound |
| C18 | `PyGSP.C18_coherence` | propext, Classical.choice, Quot.sound |
| C19 | `PyGSP.C19_lmax_is_a_number` | propext, Classical.choice, Quot.sound |
| C19 | `PyGSP.C19_type_change_violated` | propext, Classical.choice, Quot.sound |
| C19 | `PyGSP.C19_scenario_violated` | propext, Classical.choice, Quot.sound |
| C20 | `PyGSP.C20_lmax_exact` | propext, Classical.choice, Quot.sound |
| C20 | `PyGSP.C20_cached` | propext, Classical.choice, Quot.sound |
| C20 | `PyGSP.C20_reestimate_violated` | propext, Classical.choice, Quot.sound |
| C21 | `PyGSP.C21_atomic` | propext, Classical.choice, Quot.sound |
| C21 | `PyGSP.C21_recover` | propext, Classical.choice, Quot.sound |
| C21 | `PyGSP.C21_laplacian_violated` | propext, Classical.choice, Quot.sound |
| C21 | `PyGSP.C21_estimate_violated` | propext, Classical.choice, Quot.sound |
| C21 | `PyGSP.C21_fourier_violated` | propext, Classical.choice, Quot.sound |
| C21 | `PyGSP.C21_negative_weights_assertion` | propext, Classical.choice, Quot.sound |
| C22 | `PyGSP.C22_orientation_invisible` | propext, Classical.choice, Quot.sound |
| C22 | `PyGSP.C22_transpose_and_average` | propext, Classical.choice, Quot.sound |
| C23 | `PyGSP.C23_edges` | propext, Classical.choice, Quot.sound |
| C23 | `PyGSP.C23_laplacian` | propext, Classical.choice, Quot.sound |
| C23 | `PyGSP.C23_structure` | propext, Classical.choice, Quot.sound |
| C24 | `PyGSP.C24_igft_gft` | propext, Classical.choice, Quot.sound |
| C24 | `PyGSP.C24_gft_igft` | propext, Classical.choice, Quot.sound |
| C24 | `PyGSP.C24_parseval` | propext, Classical.choice, Quot.sound |
| C24 | `PyGSP.C24_partial_basis_violated` | propext, Classical.choice, Quot.sound |
| C24 | `PyGSP.C24_length_check` | propext, Classical.choice, Quot.sound |
| C25 | `PyGSP.C25_fourier_basis` | propext, Classical.choice, Quot.sound |
| C26 | `PyGSP.C26_coherence` | propext, Classical.choice, Quot.sound |
| C26 | `PyGSP.C26_readable` | propext, Classical.choice, Quot.sound |
| C27 | `PyGSP.C27_kernel` | propext, Classical.choice, Quot.sound |
| C27 | `PyGSP.C27_zero_eigenvalues` | propext, Classical.choice, Quot.sound |
| C27 | `PyGSP.C27_connected_iff` | propext, Classical.choice, Quot.sound |
| C28 | `PyGSP.C28_one_signal` | propext, Classical.choice, Quot.sound |
| C28 | `PyGSP.C28_many_signals` | propext, Classical.choice, Quot.sound |
| C28 | `PyGSP.C28_many_signals_3d` | propext, Classical.choice, Quot.sound |
| C28 | `PyGSP.C28_synthesis` | propext, Classical.choice, Quot.sound |
| C28 | `PyGSP.C28_synthesis_2d` | propext, Classical.choice, Quot.sound |
| C28 | `PyGSP.C28_shapes` | propext, Classical.choice, Quot.sound |
| C28 | `PyGSP.C28_function_of_L` | propext, Classical.choice, Quot.sound |
| C28 | `PyGSP.C28_partial_basis_violated` | propext, Classical.choice, Quot.sound |
| C29 | `PyGSP.C29_adjoint` | propext, Classical.choice, Quot.sound |
| C29 | `PyGSP.C29_single_selfadjoint` | propext, Classical.choice, Quot.sound |
| C30 | `PyGSP.C30_frame_bounds` | propext, Classical.choice, Quot.sound |
| C31 | `PyGSP.C31_tight_reconstruction` | propext, Classical.choice, Quot.sound |
| C31 | `PyGSP.C31_tight_single` | propext, Classical.choice, Quot.sound |
| C31 | `PyGSP.C31_single_synthesize_violated` | propext, Classical.choice, Quot.sound |
| C32 | `PyGSP.C32_complement` | propext, Classical.choice, Quot.sound |
| C33 | `PyGSP.C33_inverse` | propext, Classical.choice, Quot.sound |
| C33 | `PyGSP.C33_inverse_single` | propext, Classical.choice, Quot.sound |
| C33 | `PyGSP.C33_pseudo` | propext, Classical.choice, Quot.sound |
| C34 | `PyGSP.C34_localize` | propext, Classical.choice, Quot.sound |
| C34 | `PyGSP.C34_frame` | propext, Classical.choice, Quot.sound |
| C34 | `PyGSP.C34_frame_violated` | propext, Classical.choice, Quot.sound |
| C35 | `PyGSP.C35_cheby_op` | propext, Classical.choice, Quot.sound |
| C35 | `PyGSP.C35_cheby_op_errors` | propext, Classical.choice, Quot.sound |
| C36 | `PyGSP.C36_interpolation` | propext, Classical.choice, Quot.sound |
| C36 | `PyGSP.C36_polynomials` | propext, Classical.choice, Quot.sound |
| C37 | `PyGSP.C37_local` | propext, Classical.choice, Quot.sound |
| C38 | `PyGSP.C38_linear` | propext, Classical.choice, Quot.sound |
| C38 | `PyGSP.C38_independent` | propext, Classical.choice, Quot.sound |
| C38 | `PyGSP.C38_state` | propext, Classical.choice, Quot.sound |
| C39 | `PyGSP.C39_add_evaluate` | propext, Classical.choice, Quot.sound |
| C39 | `PyGSP.C39_getitem_int` | propext, Classical.choice, Quot.sound |
| C39 | `PyGSP.C39_getitem_slice` | propext, Classical.choice, Quot.sound |
| C39 | `PyGSP.C39_add_filter` | propext, Classical.choice, Quot.sound |
| C39 | `PyGSP.C39_getitem_filter` | propext, Classical.choice, Quot.sound |
| C40 | `PyGSP.C40_shape` | propext, Classical.choice, Quot.sound |
| C40 | `PyGSP.C40_accepted` | propext, Classical.choice, Quot.sound |
| C40 | `PyGSP.C40_method` | propext, Classical.choice, Quot.sound |
| C40 | `PyGSP.C40_analyze_synthesize` | propext, Classical.choice, Quot.sound |
| C40 | `PyGSP.C40_chebyshev` | propext, Classical.choice, Quot.sound |
| C41 | `PyGSP.C41_parseval` | propext, Classical.choice, Quot.sound |
| C41 | `PyGSP.C41_reconstruction` | propext, Classical.choice, Quot.sound |
| C41 | `PyGSP.C41_lowpass` | propext, Classical.choice, Quot.sound |
| C41 | `PyGSP.C41_regular_degree_violated` | propext, Classical.choice, Quot.sound |
| C41 | `PyGSP.C41_regular_highpass` | propext, Classical.choice, Quot.sound |
| C42 | `PyGSP.C42_meyer` | propext, Classical.choice, Quot.sound |
| C42 | `PyGSP.C42_meyer_errors` | propext, Classical.choice, Quot.sound |
| C43 | `PyGSP.C43_simpleTight` | propext, Classical.choice, Quot.sound |
| C43 | `PyGSP.C43_simpleTight_errors` | propext, Classical.choice, Quot.sound |
| C44 | `PyGSP.C44_halfCosine` | propext, Classical.choice, Quot.sound |
| C45 | `PyGSP.C45_itersine` | propext, Classical.choice, Quot.sound |
| C46 | `PyGSP.C46_values` | propext, Classical.choice, Quot.sound |
| C46 | `PyGSP.C46_clip` | propext, Classical.choice, Quot.sound |
| C46 | `PyGSP.C46_normalize` | propext, Classical.choice, Quot.sound |
| C46 | `PyGSP.C46_semigroup` | propext, Classical.choice, Quot.sound |
| C46 | `PyGSP.C46_contraction` | propext, Classical.choice, Quot.sound |
| C46 | `PyGSP.C46_mass` | propext, Classical.choice, Quot.sound |
| C46 | `PyGSP.C46_maximum_principle` | propext, Classical.choice, Quot.sound |
| C47 | `PyGSP.C47_accepted` | propext, Classical.choice, Quot.sound |
| C47 | `PyGSP.C47_values` | propext, Classical.choice, Quot.sound |
| C47 | `PyGSP.C47_wave_equation` | propext, Classical.choice, Quot.sound |
| C47 | `PyGSP.C47_negative_speed_violated` | propext, Classical.choice, Quot.sound |
| C48 | `PyGSP.C48_expwin` | propext, Classical.choice, Quot.sound |
| C48 | `PyGSP.C48_monotone` | propext, Classical.choice, Quot.sound |
| C49 | `PyGSP.C49_rectangular` | propext, Classical.choice, Quot.sound |
| C49 | `PyGSP.C49_projection` | propext, Classical.choice, Quot.sound |
| C50 | `PyGSP.C50_mexicanHat` | propext, Classical.choice, Quot.sound |
| C50 | `PyGSP.C50_abspline_kernel` | propext, Classical.choice, Quot.sound |
| C50 | `PyGSP.C50_abspline` | propext, Classical.choice, Quot.sound |
| C51 | `PyGSP.C51_checks` | propext, Classical.choice, Quot.sound |
| C51 | `PyGSP.C51_gabor` | propext, Classical.choice, Quot.sound |
| C51 | `PyGSP.C51_modulation_evaluate` | propext, Classical.choice, Quot.sound |
| C51 | `PyGSP.C51_modulation_repeated_violated` | propext, Classical.choice, Quot.sound |
| C51 | `PyGSP.C51_modulation_zero` | propext, Classical.choice, Quot.sound |
| C51 | `PyGSP.C51_windowed_transform` | propext, Classical.choice, Quot.sound |
| C53 | `PyGSP.C53_errors` | propext, Quot.sound |
| C53 | `PyGSP.C53_symmetric` | propext, Quot.sound |
| C53 | `PyGSP.C53_values` | propext, Classical.choice, Quot.sound |
| C53 | `PyGSP.C53_identity_on_symmetric` | propext, Classical.choice, Quot.sound |
| C53 | `PyGSP.C53_tril_negative_violated` | propext, Classical.choice, Quot.sound |
| C54 | `PyGSP.C54_distanz` | propext, Classical.choice, Quot.sound |
| C54 | `PyGSP.C54_metric` | propext, Classical.choice, Quot.sound |
| C55 | `PyGSP.C55_symmetric` | propext, Classical.choice, Quot.sound |
| C55 | `PyGSP.C55_lap_type` | propext, Classical.choice, Quot.sound |
| C55 | `PyGSP.C55_effective_resistance` | propext, Classical.choice, Quot.sound |
| C55 | `PyGSP.C55_metric` | propext, Classical.choice, Quot.sound |
| C56 | `PyGSP.C56_rescale_center` | propext, Classical.choice, Quot.sound |
| C57 | `PyGSP.C57_log_scales` | propext, Classical.choice, Quot.sound |
| C58 | `PyGSP.Learning.C58_unmeasured_ignored` | propext, Classical.choice, Quot.sound |
| C58 | `PyGSP.Learning.C58_harmonic` | propext, Classical.choice, Quot.sound |
| C58 | `PyGSP.Learning.C58_one_column_violated` | propext, Classical.choice, Quot.sound |
| C58 | `PyGSP.C58_interpolation` | propext, Classical.choice, Quot.sound |
| C58 | `PyGSP.C58_any_laplacian` | propext, Classical.choice, Quot.sound |
| C58 | `PyGSP.C58_errors` | propext, Classical.choice, Quot.sound |
| C58 | `PyGSP.C58_integer_measurements_violated` | propext, Classical.choice, Quot.sound |
| C58 | `PyGSP.C58_columns` | propext, Classical.choice, Quot.sound |
| C59 | `PyGSP.C59_minimises` | propext, Classical.choice, Quot.sound |
| C59 | `PyGSP.C59_unique_bounded` | propext, Classical.choice, Quot.sound |
| C59 | `PyGSP.C59_mask` | propext, Classical.choice, Quot.sound |
| C59 | `PyGSP.C59_columns` | propext, Classical.choice, Quot.sound |
| C60 | `PyGSP.C60_logits` | propext, Classical.choice, Quot.sound |
| C60 | `PyGSP.C60_negative_labels_violated` | propext, Classical.choice, Quot.sound |
| C60 | `PyGSP.C60_classification` | propext, Classical.choice, Quot.sound |
| C60 | `PyGSP.C60_single_class_violated` | propext, Classical.choice, Quot.sound |
| C61 | `PyGSP.C61_projection` | propext, Classical.choice, Quot.sound |
| C61 | `PyGSP.C61_projection_idem` | propext, Classical.choice, Quot.sound |
| C61 | `PyGSP.C61_no_class` | propext, Classical.choice, Quot.sound |
| C61 | `PyGSP.C61_gradient` | propext, Classical.choice, Quot.sound |
| C61 | `PyGSP.C61_step` | propext, Classical.choice, Quot.sound |
| C61 | `PyGSP.C61_fixed_point` | propext, Classical.choice, Quot.sound |
| C61 | `PyGSP.C61_convergence` | propext, Classical.choice, Quot.sound |
| C61 | `PyGSP.C61_setup` | propext, Classical.choice, Quot.sound |
| C62 | `PyGSP.C62_kron_reduction` | propext, Classical.choice, Quot.sound |
| C62 | `PyGSP.C62_resistance` | propext, Classical.choice, Quot.sound |
| C62 | `PyGSP.C62_connectivity` | propext, Classical.choice, Quot.sound |
| C62 | `PyGSP.C62_weights_grow` | propext, Classical.choice, Quot.sound |
| C62 | `PyGSP.C62_errors` | propext, Classical.choice, Quot.sound |
| C62 | `PyGSP.C62_coords_violated` | propext, Classical.choice, Quot.sound |
| C62 | `PyGSP.C62_transitive` | propext, Classical.choice, Quot.sound |
| C63 | `PyGSP.C63_chebyshev` | propext, Classical.choice, Quot.sound |
| C63 | `PyGSP.C63_unique` | propext, Classical.choice, Quot.sound |
| C63 | `PyGSP.C63_interpolate` | propext, Classical.choice, Quot.sound |
| C63 | `PyGSP.C63_many_violated` | propext, Classical.choice, Quot.sound |
| C63 | `PyGSP.C63_range` | propext, Classical.choice, Quot.sound |
| C63 | `PyGSP.C63_constant_violated` | propext, Classical.choice, Quot.sound |
| C63 | `PyGSP.C63_errors` | propext, Classical.choice, Quot.sound |
| C64 | `PyGSP.C64_reconstruction` | propext, Classical.choice, Quot.sound |
| C64 | `PyGSP.C64_1d_violated` | propext, Classical.choice, Quot.sound |
| C64 | `PyGSP.C64_many_violated` | propext, Classical.choice, Quot.sound |
| C64 | `PyGSP.C64_default_violated` | propext, Classical.choice, Quot.sound |
| C64 | `PyGSP.C64_exact` | propext, Classical.choice, Quot.sound |
| C65 | `PyGSP.C65_bookkeeping` | propext, Classical.choice, Quot.sound |
| C65 | `PyGSP.C65_electrical` | propext, Classical.choice, Quot.sound |
| C65 | `PyGSP.C65_basis_overwritten_violated` | propext, Classical.choice, Quot.sound |
| C65 | `PyGSP.C65_one_level` | propext, Classical.choice, Quot.sound |
| C65 | `PyGSP.C65_basis_destroyed_violated` | propext, Classical.choice, Quot.sound |
| C65 | `PyGSP.C65_sparsify_violated` | propext, Classical.choice, Quot.sound |
| C65 | `PyGSP.C65_one_level_default` | propext, Classical.choice, Quot.sound |
| C65 | `PyGSP.C65_default_errors` | propext, Classical.choice, Quot.sound |
| C66 | `PyGSP.C66_subgraph` | propext, Classical.choice, Quot.sound |
| C66 | `PyGSP.C66_conservation` | propext, Classical.choice, Quot.sound |
| C66 | `PyGSP.C66_total` | propext, Classical.choice, Quot.sound |
| C66 | `PyGSP.C66_connected_or_exhausted` | propext, Classical.choice, Quot.sound |
| C66 | `PyGSP.C66_unbiased` | propext, Classical.choice, Quot.sound |
| C66 | `PyGSP.C66_errors` | propext, Classical.choice, Quot.sound |
| C66 | `PyGSP.C66_two_vertices_violated` | propext, Classical.choice, Quot.sound |
| C66 | `PyGSP.C66_matrix_violated` | propext, Classical.choice, Quot.sound |
| C67 | `PyGSP.C67_weights` | propext, Classical.choice, Quot.sound |
| C67 | `PyGSP.C67_structure` | propext, Classical.choice, Quot.sound |
| C67 | `PyGSP.C67_errors` | propext, Classical.choice, Quot.sound |
| C68 | `PyGSP.C68_weights` | propext, Classical.choice, Quot.sound |
| C68 | `PyGSP.C68_structure` | propext, Classical.choice, Quot.sound |
| C68 | `PyGSP.C68_errors` | propext, Classical.choice, Quot.sound |
| C68 | `PyGSP.C68_even_violated` | propext, Classical.choice, Quot.sound |
| C69 | `PyGSP.C69_weights` | propext, Classical.choice, Quot.sound |
| C69 | `PyGSP.C69_structure` | propext, Classical.choice, Quot.sound |
| C70 | `PyGSP.C70_weights` | propext, Classical.choice, Quot.sound |
| C70 | `PyGSP.C70_structure` | propext, Classical.choice, Quot.sound |
| C70 | `PyGSP.C70_errors` | propext, Classical.choice, Quot.sound |
| C70 | `PyGSP.C70_negative_diagonal_violated` | propext, Classical.choice, Quot.sound |
| C71 | `PyGSP.C71_weights` | propext, Classical.choice, Quot.sound |
| C71 | `PyGSP.C71_structure` | propext, Classical.choice, Quot.sound |
| C71 | `PyGSP.C71_errors` | propext, Classical.choice, Quot.sound |
| C71 | `PyGSP.C71_star` | propext, Classical.choice, Quot.sound |
| C71 | `PyGSP.C71_coords` | propext, Classical.choice, Quot.sound |
| C72 | `PyGSP.C72_full` | propext, Classical.choice, Quot.sound |
| C73 | `PyGSP.C73_weights` | propext, Classical.choice, Quot.sound |
| C73 | `PyGSP.C73_structure` | propext, Classical.choice, Quot.sound |
| C73 | `PyGSP.C73_loop_violated` | propext, Classical.choice, Quot.sound |
| C74 | `PyGSP.C74_sampling` | propext, Classical.choice, Quot.sound |
| C74 | `PyGSP.C74_structure` | propext, Classical.choice, Quot.sound |
| C74 | `PyGSP.C74_certain` | propext, Classical.choice, Quot.sound |
| C74 | `PyGSP.C74_errors` | propext, Classical.choice, Quot.sound |
| C74 | `PyGSP.C74_connected` | propext, Classical.choice, Quot.sound |
| C74 | `PyGSP.C74_labels` | propext, Classical.choice, Quot.sound |
| C74 | `PyGSP.C74_probabilities` | propext, Classical.choice, Quot.sound |
| C74 | `PyGSP.C74_integer_q_violated` | propext, Classical.choice, Quot.sound |
| C74 | `PyGSP.C74_q_overwritten_violated` | propext, Classical.choice, Quot.sound |
| C74 | `PyGSP.C74_erdosRenyi` | propext, Classical.choice, Quot.sound |
| C75 | `PyGSP.C75_structure` | propext, Classical.choice, Quot.sound |
| C75 | `PyGSP.C75_attachment` | propext, Classical.choice, Quot.sound |
| C75 | `PyGSP.C75_errors` | propext, Classical.choice, Quot.sound |
| C76 | `PyGSP.C76_structure` | propext, Classical.choice, Quot.sound |
| C76 | `PyGSP.C76_limits` | propext, Classical.choice, Quot.sound |
| C76 | `PyGSP.C76_never_returns_violated` | propext, Classical.choice, Quot.sound |
| C76 | `PyGSP.C76_restart_violated` | propext, Classical.choice, Quot.sound |
| C77 | `PyGSP.C77_structure` | propext, Classical.choice, Quot.sound |
| C77 | `PyGSP.C77_grid` | propext, Classical.choice, Quot.sound |
| C77 | `PyGSP.C77_tree_violated` | propext, Classical.choice, Quot.sound |
| C78 | `PyGSP.Gen.C78_attributes` | propext, Classical.choice, Quot.sound |
| C78 | `PyGSP.Gen.C78_communities` | propext, Classical.choice, Quot.sound |
| C78 | `PyGSP.Gen.C78_simple` | propext, Classical.choice, Quot.sound |
| C78 | `PyGSP.Gen.C78_between` | propext, Classical.choice, Quot.sound |
| C78 | `PyGSP.Gen.C78_density` | propext, Classical.choice, Quot.sound |
| C78 | `PyGSP.Gen.C78_epsilon` | propext, Classical.choice, Quot.sound |
| C78 | `PyGSP.Gen.C78_k_neigh_violated` | propext, Classical.choice, Quot.sound |
| C78 | `PyGSP.Gen.C78_coords` | propext, Classical.choice, Quot.sound |
| C78 | `PyGSP.Gen.C78_returns` | propext, Classical.choice, Quot.sound |
| C78 | `PyGSP.Gen.C78_errors` | propext, Classical.choice, Quot.sound |
| C78 | `PyGSP.Gen.C78_empty_violated` | propext, Classical.choice, Quot.sound |
| C78 | `PyGSP.Gen.C78_single_violated` | propext, Classical.choice, Quot.sound |
| C79 | `PyGSP.C79_knn` | propext, Classical.choice, Quot.sound |
| C79 | `PyGSP.C79_knn_structure` | propext, Classical.choice, Quot.sound |
| C79 | `PyGSP.C79_radius` | propext, Classical.choice, Quot.sound |
| C79 | `PyGSP.C79_invariance` | propext, Classical.choice, Quot.sound |
| C79 | `PyGSP.C79_returns` | propext, Classical.choice, Quot.sound |
| C79 | `PyGSP.C79_radius_returns` | propext, Classical.choice, Quot.sound |
| C79 | `PyGSP.C79_errors` | propext, Classical.choice, Quot.sound |
| C79 | `PyGSP.C79_duplicates_violated` | propext, Classical.choice, Quot.sound |
| C79 | `PyGSP.C79_mutates_violated` | propext, Classical.choice, Quot.sound |
| C80 | `PyGSP.Gen.C80_weights` | propext, Classical.choice, Quot.sound |
| C80 | `PyGSP.Gen.C80_structure` | propext, Classical.choice, Quot.sound |
| C80 | `PyGSP.Gen.C80_uniform` | propext, Classical.choice, Quot.sound |
| C80 | `PyGSP.Gen.C80_order` | propext, Classical.choice, Quot.sound |
| C80 | `PyGSP.Gen.C80_errors` | propext, Classical.choice, Quot.sound |
| C80 | `PyGSP.Gen.C80_coincident_violated` | propext, Classical.choice, Quot.sound |
| C80 | `PyGSP.Gen.C80_mutates_violated` | propext, Classical.choice, Quot.sound |
| C81 | `PyGSP.IO.C81_round_trip` | propext, Classical.choice, Quot.sound |
| C81 | `PyGSP.IO.C81_exact` | propext, Classical.choice, Quot.sound |
| C81 | `PyGSP.IO.C81_order_violated` | propext, Classical.choice, Quot.sound |
| C81 | `PyGSP.IO.C81_one_column_violated` | propext, Classical.choice, Quot.sound |
| C81 | `PyGSP.IO.C81_lost_violated` | propext, Classical.choice, Quot.sound |
| C81 | `PyGSP.IO.C81_merged_violated` | propext, Classical.choice, Quot.sound |
| C81 | `PyGSP.IO.C81_export_mutates_violated` | propext, Classical.choice, Quot.sound |
| C82 | `PyGSP.IO.C82_round_trip` | propext, Classical.choice, Quot.sound |
| C82 | `PyGSP.IO.C82_import` | propext, Classical.choice, Quot.sound |
| C83 | `PyGSP.IO.C83_round_trip` | propext, Classical.choice, Quot.sound |
| C83 | `PyGSP.IO.C83_isolated_violated` | propext, Classical.choice, Quot.sound |
| C84 | `PyGSP.IO.C84_extension` | propext, Classical.choice, Quot.sound |
| C84 | `PyGSP.IO.C84_no_extension` | propext, Classical.choice, Quot.sound |
| C84 | `PyGSP.IO.C84_rejects` | propext, Classical.choice, Quot.sound |
| C84 | `PyGSP.IO.C84_backend` | propext, Classical.choice, Quot.sound |
| C84 | `PyGSP.IO.C84_round_trip` | propext, Classical.choice, Quot.sound |
| C84 | `PyGSP.IO.C84_save_mutates_violated` | propext, Classical.choice, Quot.sound |
| C85 | `PyGSP.Layout.C85_spring_fixed` | propext, Classical.choice, Quot.sound |
| C85 | `PyGSP.Layout.C85_spring_zero_violated` | propext, Classical.choice, Quot.sound |
| C85 | `PyGSP.Layout.C85_spring_free` | propext, Classical.choice, Quot.sound |
| C85 | `PyGSP.Layout.C85_spring_single_violated` | propext, Classical.choice, Quot.sound |
| C85 | `PyGSP.Layout.C85_spring_range_violated` | propext, Classical.choice, Quot.sound |
| C85 | `PyGSP.Layout.C85_array` | propext, Classical.choice, Quot.sound |
| C85 | `PyGSP.Layout.C85_array_iff` | propext, Classical.choice, Quot.sound |
| C85 | `PyGSP.Layout.C85_single_vertex_violated` | propext, Classical.choice, Quot.sound |
| C85 | `PyGSP.Layout.C85_spring_forces` | propext, Classical.choice, Quot.sound |
| C85 | `PyGSP.Layout.C85_spring_negative_violated` | propext, Classical.choice, Quot.sound |
| C85 | `PyGSP.Layout.C85_fixed_layouts` | propext, Classical.choice, Quot.sound |
| C85 | `PyGSP.Layout.C85_random` | propext, Classical.choice, Quot.sound |
| C85 | `PyGSP.Layout.C85_unknown` | propext, Classical.choice, Quot.sound |
| C85 | `PyGSP.Layout.C85_community` | propext, Classical.choice, Quot.sound |
| C85 | `PyGSP.Layout.C85_community_missing_violated` | propext, Classical.choice, Quot.sound |
| C85 | `PyGSP.Layout.C85_eigenmap` | propext, Classical.choice, Quot.sound |
| C85 | `PyGSP.Layout.C85_eigenmap_basis_violated` | propext, Classical.choice, Quot.sound |
| C85 | `PyGSP.Layout.C85_eigenmap_small_violated` | propext, Classical.choice, Quot.sound |
| C86 | `PyGSP.Features.C86_avg_adj_deg` | propext, Classical.choice, Quot.sound |
| C86 | `PyGSP.Features.C86_avg_violated` | propext, Classical.choice, Quot.sound |
| C86 | `PyGSP.Features.C86_tig` | propext, Classical.choice, Quot.sound |
| C86 | `PyGSP.Features.C86_spectrogram` | propext, Classical.choice, Quot.sound |
| C86 | `PyGSP.Features.C86_bank_violated` | propext, Classical.choice, Quot.sound |
| C86 | `PyGSP.Features.C86_method_violated` | propext, Classical.choice, Quot.sound |
| C86 | `PyGSP.Features.C86_plot_violated` | propext, Classical.choice, Quot.sound |
| C87 | `PyGSP.Spectrum.C87_path` | propext, Classical.choice, Quot.sound |
| C88 | `PyGSP.Spectrum.C88_ring` | propext, Classical.choice, Quot.sound |
| C88 | `PyGSP.Spectrum.C88_torus` | propext, Classical.choice, Quot.sound |
| C88 | `PyGSP.Spectrum.C88_grid` | propext, Classical.choice, Quot.sound |
| C89 | `PyGSP.Spectrum.C89_full` | propext, Classical.choice, Quot.sound |
| C89 | `PyGSP.Spectrum.C89_star` | propext, Classical.choice, Quot.sound |
| C90 | `PyGSP.C90_two_bands` | propext, Classical.choice, Quot.sound |
| C90 | `PyGSP.C90_wavelets` | propext, Classical.choice, Quot.sound |
| C90 | `PyGSP.C90_translates` | propext, Classical.choice, Quot.sound |
| C90 | `PyGSP.C90_others` | propext, Classical.choice, Quot.sound |
| C90 | `PyGSP.C90_windows` | propext, Classical.choice, Quot.sound |
| C91 | `PyGSP.C91_best_approximation` | propext, Classical.choice, Quot.sound |
| C91 | `PyGSP.C91_errors` | propext, Classical.choice, Quot.sound |
| C91 | `PyGSP.C91_limit` | propext, Classical.choice, Quot.sound |
| C92 | `PyGSP.C92_coefficients` | propext, Classical.choice, Quot.sound |
| C92 | `PyGSP.C92_bounds` | propext, Classical.choice, Quot.sound |
| C92 | `PyGSP.C92_accuracy` | propext, Classical.choice, Quot.sound |
| C92 | `PyGSP.C92_errors` | propext, Classical.choice, Quot.sound |
| C92 | `PyGSP.C92_bounds_overwritten_violated` | propext, Classical.choice, Quot.sound |
| C92 | `PyGSP.C92_filter` | propext, Classical.choice, Quot.sound |
| C93 | `PyGSP.C93_projection` | propext, Classical.choice, Quot.sound |
| C93 | `PyGSP.C93_krylov` | propext, Classical.choice, Quot.sound |
| C93 | `PyGSP.C93_early_stop` | propext, Classical.choice, Quot.sound |
| C93 | `PyGSP.C93_square_violated` | propext, Classical.choice, Quot.sound |
| C94 | `PyGSP.Gen.C94_swissroll` | propext, Classical.choice, Quot.sound |
| C94 | `PyGSP.Gen.C94_swissroll_points` | propext, Classical.choice, Quot.sound |
| C94 | `PyGSP.Gen.C94_swissroll_returns` | propext, Classical.choice, Quot.sound |
| C94 | `PyGSP.Gen.C94_swissroll_distinct` | propext, Classical.choice, Quot.sound |
| C94 | `PyGSP.Gen.C94_david` | propext, Classical.choice, Quot.sound |
| C94 | `PyGSP.Gen.C94_david_dense_violated` | propext, Classical.choice, Quot.sound |
| C95 | `PyGSP.Gen.C95_sensor_cells` | propext, Classical.choice, Quot.sound |
| C95 | `PyGSP.Gen.C95_sensor` | propext, Classical.choice, Quot.sound |
| C95 | `PyGSP.Gen.C95_sensor_returns` | propext, Classical.choice, Quot.sound |
| C95 | `PyGSP.Gen.C95_sphere` | propext, Classical.choice, Quot.sound |
| C95 | `PyGSP.Gen.C95_sphere_errors` | propext, Classical.choice, Quot.sound |
| C95 | `PyGSP.Gen.C95_sphere_radius_violated` | propext, Classical.choice, Quot.sound |
| C95 | `PyGSP.Gen.C95_cube_points` | propext, Classical.choice, Quot.sound |
| C95 | `PyGSP.Gen.C95_cube` | propext, Classical.choice, Quot.sound |
| C95 | `PyGSP.Gen.C95_cube_errors` | propext, Classical.choice, Quot.sound |
| C95 | `PyGSP.Gen.C95_twomoons` | propext, Classical.choice, Quot.sound |
| C95 | `PyGSP.Gen.C95_twomoons_errors` | propext, Classical.choice, Quot.sound |
| C95 | `PyGSP.Gen.C95_twomoons_copies_violated` | propext, Classical.choice, Quot.sound |
| C96 | `PyGSP.Gen.C96_features` | propext, Classical.choice, Quot.sound |
| C96 | `PyGSP.Gen.C96_center` | propext, Classical.choice, Quot.sound |
| C96 | `PyGSP.Gen.C96_contrast` | propext, Classical.choice, Quot.sound |
| C96 | `PyGSP.Gen.C96_errors` | propext, Classical.choice, Quot.sound |
| C96 | `PyGSP.Gen.C96_graph` | propext, Classical.choice, Quot.sound |
| C96 | `PyGSP.Gen.C96_grid` | propext, Classical.choice, Quot.sound |
| C96 | `PyGSP.Gen.C96_grid_errors` | propext, Classical.choice, Quot.sound |
| C96 | `PyGSP.Gen.C96_grid_structure` | propext, Classical.choice, Quot.sound |
| C97 | `PyGSP.C97_near_best` | propext, Classical.choice, Quot.sound |
| C97 | `PyGSP.C97_lipschitz` | propext, Classical.choice, Quot.sound |
| C97 | `PyGSP.C97_convergence` | propext, Classical.choice, Quot.sound |
| C97 | `PyGSP.C97_smooth` | propext, Classical.choice, Quot.sound |
| C97 | `PyGSP.C97_heat` | propext, Classical.choice, Quot.sound |
| C98 | `PyGSP.Plot.C98_positions` | propext, Classical.choice, Quot.sound |
| C98 | `PyGSP.Plot.C98_vertex_sizes` | propext, Classical.choice, Quot.sound |
| C98 | `PyGSP.Plot.C98_edge_style` | propext, Classical.choice, Quot.sound |
| C98 | `PyGSP.Plot.C98_signal` | propext, Classical.choice, Quot.sound |
| C98 | `PyGSP.Plot.C98_scaled` | propext, Classical.choice, Quot.sound |
| C98 | `PyGSP.Plot.C98_default_ranges` | propext, Classical.choice, Quot.sound |
| C98 | `PyGSP.Plot.C98_returns` | propext, Classical.choice, Quot.sound |
| C98 | `PyGSP.Plot.C98_errors` | propext, Classical.choice, Quot.sound |
| C98 | `PyGSP.Plot.C98_curve` | propext, Classical.choice, Quot.sound |
| C98 | `PyGSP.Plot.C98_line_without_signal_violated` | propext, Classical.choice, Quot.sound |
| C98 | `PyGSP.Plot.C98_default_limits` | propext, Classical.choice, Quot.sound |
| C98 | `PyGSP.Plot.C98_small_signal_violated` | propext, Classical.choice, Quot.sound |
| C98 | `PyGSP.Plot.C98_single_violated` | propext, Classical.choice, Quot.sound |
| C98 | `PyGSP.Plot.C98_pyqtgraph_violated` | propext, Classical.choice, Quot.sound |
| C99 | `PyGSP.C99_history` | propext, Classical.choice, Quot.sound |
| C99 | `PyGSP.C99_graphs_intact` | propext, Classical.choice, Quot.sound |
| C99 | `PyGSP.C99_eager_constant` | propext, Classical.choice, Quot.sound |
| C99 | `PyGSP.C99_eager_reads` | propext, Classical.choice, Quot.sound |
| C99 | `PyGSP.C99_lazy_current` | propext, Classical.choice, Quot.sound |
| C99 | `PyGSP.C99_lazy_filter` | propext, Classical.choice, Quot.sound |
| C99 | `PyGSP.C99_lazy_frame` | propext, Classical.choice, Quot.sound |
| C99 | `PyGSP.C99_lazy_in_program` | propext, Classical.choice, Quot.sound |
| C99 | `PyGSP.C99_lazy_stable` | propext, Classical.choice, Quot.sound |
| C99 | `PyGSP.C99_add` | propext, Classical.choice, Quot.sound |
| C99 | `PyGSP.C99_call` | propext, Classical.choice, Quot.sound |
| C99 | `PyGSP.C99_getitem` | propext, Classical.choice, Quot.sound |
| C99 | `PyGSP.C99_response_changes_violated` | propext, Classical.choice, Quot.sound |
| C99 | `PyGSP.C99_call_lmax_violated` | propext, Classical.choice, Quot.sound |
| C100 | `PyGSP.C100_linspace` | propext, Classical.choice, Quot.sound |
| C100 | `PyGSP.C100_drawn` | propext, Classical.choice, Quot.sound |
| C100 | `PyGSP.C100_functions` | propext, Classical.choice, Quot.sound |
| C100 | `PyGSP.C100_tight` | propext, Classical.choice, Quot.sound |
| C100 | `PyGSP.C100_bounds` | propext, Classical.choice, Quot.sound |
| C100 | `PyGSP.C100_lazy` | propext, Classical.choice, Quot.sound |
| C100 | `PyGSP.C100_history` | propext, Classical.choice, Quot.sound |
| C100 | `PyGSP.C100_twice_violated` | propext, Classical.choice, Quot.sound |
| C101 | `PyGSP.C101_lipschitz` | propext, Classical.choice, Quot.sound |
| C101 | `PyGSP.C101_rate` | propext, Classical.choice, Quot.sound |
| C101 | `PyGSP.C101_convergence` | propext, Classical.choice, Quot.sound |
| C102 | `PyGSP.C102_spectrum` | propext, Classical.choice, Quot.sound |
| C102 | `PyGSP.C102_filter` | propext, Classical.choice, Quot.sound |
| C102 | `PyGSP.C102_chebyshev` | propext, Classical.choice, Quot.sound |
| C102 | `PyGSP.C102_resistance` | propext, Classical.choice, Quot.sound |
| C102 | `PyGSP.C102_regression` | propext, Classical.choice, Quot.sound |
| C102 | `PyGSP.C102_symmetry` | propext, Classical.choice, Quot.sound |
| C103 | `PyGSP.C103_laplacian` | propext, Classical.choice, Quot.sound |
| C103 | `PyGSP.C103_spectrum` | propext, Classical.choice, Quot.sound |
| C103 | `PyGSP.C103_filter` | propext, Classical.choice, Quot.sound |
| C103 | `PyGSP.C103_chebyshev` | propext, Classical.choice, Quot.sound |
| C103 | `PyGSP.C103_resistance` | propext, Classical.choice, Quot.sound |
| C103 | `PyGSP.C103_regression` | propext, Classical.choice, Quot.sound |
| C103 | `PyGSP.C103_designs` | propext, Classical.choice, Quot.sound |
| C104 | `PyGSP.C104_connected` | propext, Classical.choice, Quot.sound |
| C104 | `PyGSP.C104_energy` | propext, Classical.choice, Quot.sound |
| C104 | `PyGSP.C104_spectrum` | propext, Classical.choice, Quot.sound |
| C104 | `PyGSP.C104_resistance` | propext, Classical.choice, Quot.sound |
| C105 | `PyGSP.C105_subgraph` | propext, Classical.choice, Quot.sound |
| C105 | `PyGSP.C105_components` | propext, Classical.choice, Quot.sound |
| C105 | `PyGSP.C105_filter` | propext, Classical.choice, Quot.sound |
| C105 | `PyGSP.C105_chebyshev` | propext, Classical.choice, Quot.sound |
| C105 | `PyGSP.C105_resistance` | propext, Classical.choice, Quot.sound |
| C105 | `PyGSP.C105_regression` | propext, Classical.choice, Quot.sound |
| C105 | `PyGSP.C105_spectrum` | propext, Classical.choice, Quot.sound |
| C106 | `PyGSP.Gen.C106_minnesota` | propext, Classical.choice, Quot.sound |
| C106 | `PyGSP.Gen.C106_minnesota_raw` | propext, Classical.choice, Quot.sound |
| C106 | `PyGSP.Gen.C106_airfoil` | propext, Classical.choice, Quot.sound |
| C106 | `PyGSP.Gen.C106_airfoil_errors` | propext, Classical.choice, Quot.sound |
| C106 | `PyGSP.Gen.C106_bunny` | propext, Classical.choice, Quot.sound |
| C106 | `PyGSP.Gen.C106_bunny_returns` | propext, Classical.choice, Quot.sound |
| C107 | `PyGSP.Gen.C107_path` | propext, Classical.choice, Quot.sound |
| C107 | `PyGSP.Gen.C107_ring` | propext, Classical.choice, Quot.sound |
| C107 | `PyGSP.Gen.C107_grid` | propext, Classical.choice, Quot.sound |
| C107 | `PyGSP.Gen.C107_torus` | propext, Classical.choice, Quot.sound |
| C108 | `PyGSP.C108_ring` | propext, Classical.choice, Quot.sound |
| C108 | `PyGSP.C108_torus` | propext, Classical.choice, Quot.sound |
| C108 | `PyGSP.C108_path` | propext, Classical.choice, Quot.sound |
| C108 | `PyGSP.C108_grid` | propext, Classical.choice, Quot.sound |
| C108 | `PyGSP.C108_full` | propext, Classical.choice, Quot.sound |
| C108 | `PyGSP.C108_star` | propext, Classical.choice, Quot.sound |
| C108 | `PyGSP.C108_heat_grid` | propext, Classical.choice, Quot.sound |
| C108 | `PyGSP.C108_heat_torus` | propext, Classical.choice, Quot.sound |
| C109 | `PyGSP.C109_regular_bipartite` | propext, Classical.choice, Quot.sound |
| C109 | `PyGSP.C109_join` | propext, Classical.choice, Quot.sound |
| C109 | `PyGSP.C109_normalized` | propext, Classical.choice, Quot.sound |
| C109 | `PyGSP.C109_bipartite` | propext, Classical.choice, Quot.sound |
| C109 | `PyGSP.C109_value` | propext, Classical.choice, Quot.sound |
| C109 | `PyGSP.C109_estimate` | propext, Classical.choice, Quot.sound |
| C109 | `PyGSP.C109_exact` | propext, Classical.choice, Quot.sound |
| C109 | `PyGSP.C109_bipartite_violated` | propext, Classical.choice, Quot.sound |
| C110 | `PyGSP.C110_energy` | propext, Classical.choice, Quot.sound |
| C110 | `PyGSP.C110_spectrum` | propext, Classical.choice, Quot.sound |
| C110 | `PyGSP.C110_filter` | propext, Classical.choice, Quot.sound |
| C110 | `PyGSP.C110_designs` | propext, Classical.choice, Quot.sound |
| C110 | `PyGSP.C110_inexact` | propext, Classical.choice, Quot.sound |
| C111 | `PyGSP.C111_edges` | propext, Classical.choice, Quot.sound |
| C111 | `PyGSP.C111_kron` | propext, Classical.choice, Quot.sound |
| C111 | `PyGSP.C111_subgraph` | propext, Classical.choice, Quot.sound |
| C112 | `PyGSP.C112_refines` | propext, Classical.choice, Quot.sound |
| C112 | `PyGSP.C112_caller_keeps` | propext, Classical.choice, Quot.sound |
| C112 | `PyGSP.C112_frame` | propext, Classical.choice, Quot.sound |
| C112 | `PyGSP.C112_untouched` | propext, Classical.choice, Quot.sound |
| C112 | `PyGSP.C112_histories` | propext, Classical.choice, Quot.sound |
| C112 | `PyGSP.C112_corrupts_violated` | propext, Classical.choice, Quot.sound |
| C112 | `PyGSP.C112_stale_violated` | propext, Classical.choice, Quot.sound |
| C113 | `PyGSP.C113_energy` | propext, Classical.choice, Quot.sound |
| C113 | `PyGSP.C113_multiplier` | propext, Classical.choice, Quot.sound |
| C113 | `PyGSP.C113_cascade` | propext, Classical.choice, Quot.sound |
| C113 | `PyGSP.C113_band` | propext, Classical.choice, Quot.sound |
| C113 | `PyGSP.C113_uncertainty` | propext, Classical.choice, Quot.sound |
| C113 | `PyGSP.C113_tikhonov` | propext, Classical.choice, Quot.sound |
| C113 | `PyGSP.C113_computed` | propext, Classical.choice, Quot.sound |
| C114 | `PyGSP.C114_spectral` | propext, Classical.choice, Quot.sound |
| C114 | `PyGSP.C114_kirchhoff` | propext, Classical.choice, Quot.sound |
| C114 | `PyGSP.C114_foster` | propext, Classical.choice, Quot.sound |
| C114 | `PyGSP.C114_bounds` | propext, Classical.choice, Quot.sound |
| C115 | `PyGSP.C115_poincare` | propext, Classical.choice, Quot.sound |
| C115 | `PyGSP.C115_cut` | propext, Classical.choice, Quot.sound |
| C115 | `PyGSP.C115_degrees` | propext, Classical.choice, Quot.sound |
| C115 | `PyGSP.C115_trace` | propext, Classical.choice, Quot.sound |
| C115 | `PyGSP.C115_normalized_cut` | propext, Classical.choice, Quot.sound |
| C115 | `PyGSP.C115_sweep` | propext, Classical.choice, Quot.sound |
| C115 | `PyGSP.C115_normalized_sweep` | propext, Classical.choice, Quot.sound |
| C115 | `PyGSP.C115_gap` | propext, Classical.choice, Quot.sound |
| C116 | `PyGSP.C116_grid` | propext, Classical.choice, Quot.sound |
| C116 | `PyGSP.C116_accuracy` | propext, Classical.choice, Quot.sound |
| C116 | `PyGSP.C116_monotone` | propext, Classical.choice, Quot.sound |
| C116 | `PyGSP.C116_estimate_violated` | propext, Classical.choice, Quot.sound |
| C117 | `PyGSP.C117_full` | propext, Classical.choice, Quot.sound |
| C117 | `PyGSP.C117_limit` | propext, Classical.choice, Quot.sound |
| C117 | `PyGSP.C117_title` | propext, Classical.choice, Quot.sound |
| C117 | `PyGSP.C117_small_limit_violated` | propext, Classical.choice, Quot.sound |
| C117 | `PyGSP.C117_counts` | propext, Classical.choice, Quot.sound |
| C117 | `PyGSP.C117_filter` | propext, Classical.choice, Quot.sound |
| C117 | `PyGSP.C117_filter_overrides` | propext, Classical.choice, Quot.sound |
| C117 | `PyGSP.C117_filter_counts` | propext, Classical.choice, Quot.sound |
| C118 | `PyGSP.C118_domains` | propext, Classical.choice, Quot.sound |
| C118 | `PyGSP.C118_mode` | propext, Classical.choice, Quot.sound |
| C118 | `PyGSP.C118_oscillates` | propext, Classical.choice, Quot.sound |
| C118 | `PyGSP.C118_fiedler` | propext, Classical.choice, Quot.sound |
| C118 | `PyGSP.C118_bisection` | propext, Classical.choice, Quot.sound |
| C119 | `PyGSP.C119_law` | propext, Classical.choice, Quot.sound |
| C119 | `PyGSP.C119_mean` | propext, Classical.choice, Quot.sound |
| C119 | `PyGSP.C119_variance` | propext, Classical.choice, Quot.sound |
| C119 | `PyGSP.C119_one_signal` | propext, Classical.choice, Quot.sound |
| C119 | `PyGSP.C119_all_signals` | propext, Classical.choice, Quot.sound |
| C119 | `PyGSP.C119_frequencies` | propext, Classical.choice, Quot.sound |
| C119 | `PyGSP.C119_connected` | propext, Classical.choice, Quot.sound |
| C119 | `PyGSP.C119_upper` | propext, Classical.choice, Quot.sound |
| C120 | `PyGSP.C120_tradeoff` | propext, Classical.choice, Quot.sound |
| C120 | `PyGSP.C120_vs_interpolation` | propext, Classical.choice, Quot.sound |
| C120 | `PyGSP.C120_small_tau` | propext, Classical.choice, Quot.sound |
| C120 | `PyGSP.C120_large_tau` | propext, Classical.choice, Quot.sound |
| C120 | `PyGSP.C120_filter` | propext, Classical.choice, Quot.sound |
| C120 | `PyGSP.C120_stable` | propext, Classical.choice, Quot.sound |
| C120 | `PyGSP.C120_affine` | propext, Classical.choice, Quot.sound |
| C121 | `PyGSP.C121_spread` | propext, Classical.choice, Quot.sound |
| C121 | `PyGSP.C121_heat` | propext, Classical.choice, Quot.sound |
| C121 | `PyGSP.C121_regression` | propext, Classical.choice, Quot.sound |
| C122 | `PyGSP.C122_regression` | propext, Classical.choice, Quot.sound |
| C122 | `PyGSP.C122_two_steps` | propext, Classical.choice, Quot.sound |
| C122 | `PyGSP.C122_classification` | propext, Classical.choice, Quot.sound |
| C123 | `PyGSP.C123_distribution` | propext, Classical.choice, Quot.sound |
| C123 | `PyGSP.C123_independent` | propext, Classical.choice, Quot.sound |
| C123 | `PyGSP.C123_conditional` | propext, Classical.choice, Quot.sound |
| C123 | `PyGSP.C123_trials` | propext, Classical.choice, Quot.sound |
| C123 | `PyGSP.C123_edges` | propext, Classical.choice, Quot.sound |
| C123 | `PyGSP.C123_erdosRenyi` | propext, Classical.choice, Quot.sound |
| C123 | `PyGSP.C123_connected_positive` | propext, Classical.choice, Quot.sound |
| C124 | `PyGSP.C124_helmholtz` | propext, Classical.choice, Quot.sound |
| C124 | `PyGSP.C124_circulations` | propext, Classical.choice, Quot.sound |
| C124 | `PyGSP.C124_demands` | propext, Classical.choice, Quot.sound |
| C124 | `PyGSP.C124_div` | propext, Classical.choice, Quot.sound |
| C124 | `PyGSP.C124_thomson` | propext, Classical.choice, Quot.sound |
| C124 | `PyGSP.C124_resistance` | propext, Classical.choice, Quot.sound |
| C124 | `PyGSP.C124_gradients` | propext, Classical.choice, Quot.sound |
| C125 | `PyGSP.C125_cut` | propext, Classical.choice, Quot.sound |
| C125 | `PyGSP.C125_lower` | propext, Classical.choice, Quot.sound |
| C125 | `PyGSP.C125_upper` | propext, Classical.choice, Quot.sound |
| C125 | `PyGSP.C125_bound` | propext, Classical.choice, Quot.sound |
| C125 | `PyGSP.C125_trials` | propext, Classical.choice, Quot.sound |
| C125 | `PyGSP.C125_erdosRenyi` | propext, Classical.choice, Quot.sound |
| C125 | `PyGSP.C125_degrees` | propext, Classical.choice, Quot.sound |
| C126 | `PyGSP.C126_heat_equation` | propext, Classical.choice, Quot.sound |
| C126 | `PyGSP.C126_decay` | propext, Classical.choice, Quot.sound |
| C126 | `PyGSP.C126_mixing` | propext, Classical.choice, Quot.sound |
| C126 | `PyGSP.C126_equilibrium` | propext, Classical.choice, Quot.sound |
| C126 | `PyGSP.C126_energy` | propext, Classical.choice, Quot.sound |
| C126 | `PyGSP.C126_convex` | propext, Classical.choice, Quot.sound |
| C126 | `PyGSP.C126_spread` | propext, Classical.choice, Quot.sound |
| C126 | `PyGSP.C126_return` | propext, Classical.choice, Quot.sound |
| C127 | `PyGSP.C127_wave` | propext, Classical.choice, Quot.sound |
| C127 | `PyGSP.C127_superposition` | propext, Classical.choice, Quot.sound |
| C127 | `PyGSP.C127_energy` | propext, Classical.choice, Quot.sound |
| C127 | `PyGSP.C127_mass` | propext, Classical.choice, Quot.sound |
| C127 | `PyGSP.C127_finite_speed` | propext, Classical.choice, Quot.sound |
| C128 | `PyGSP.Plot.C128_close_all` | propext, Classical.choice, Quot.sound |
| C128 | `PyGSP.Plot.C128_stays_open` | propext, Classical.choice, Quot.sound |
| C128 | `PyGSP.Plot.C128_same_picture` | propext, Classical.choice, Quot.sound |
| C128 | `PyGSP.Plot.C128_graph_returns` | propext, Classical.choice, Quot.sound |
| C128 | `PyGSP.Plot.C128_graph_raises` | propext, Classical.choice, Quot.sound |
| C128 | `PyGSP.Plot.C128_line_without_signal` | propext, Classical.choice, Quot.sound |
| C128 | `PyGSP.Plot.C128_pyqtgraph` | propext, Classical.choice, Quot.sound |
| C128 | `PyGSP.Plot.C128_filter` | propext, Classical.choice, Quot.sound |
| C128 | `PyGSP.Plot.C128_stray_figure_violated` | propext, Classical.choice, Quot.sound |
| C129 | `PyGSP.C129_read_back` | propext, Classical.choice, Quot.sound |
| C129 | `PyGSP.C129_path` | propext, Classical.choice, Quot.sound |
| C129 | `PyGSP.C129_path_text` | propext, Classical.choice, Quot.sound |
| C129 | `PyGSP.C129_ring` | propext, Classical.choice, Quot.sound |
| C129 | `PyGSP.C129_comet` | propext, Classical.choice, Quot.sound |
| C129 | `PyGSP.C129_torus` | propext, Classical.choice, Quot.sound |
| C129 | `PyGSP.C129_no_parameter` | propext, Classical.choice, Quot.sound |
| C129 | `PyGSP.C129_grid2d` | propext, Classical.choice, Quot.sound |
| C129 | `PyGSP.C129_grid2d_violated` | propext, Classical.choice, Quot.sound |
| C129 | `PyGSP.C129_block_model_violated` | propext, Classical.choice, Quot.sound |
| C129 | `PyGSP.C129_block_text` | propext, Classical.choice, Quot.sound |
| C129 | `PyGSP.C129_block_model` | propext, Classical.choice, Quot.sound |
| C130 | `PyGSP.C130_no_package` | propext, Classical.choice, Quot.sound |
| C130 | `PyGSP.C130_sklearn` | propext, Classical.choice, Quot.sound |
| C130 | `PyGSP.C130_same_graph` | propext, Classical.choice, Quot.sound |
| C130 | `PyGSP.C130_metric_violated` | propext, Classical.choice, Quot.sound |
| C130 | `PyGSP.C130_errors` | propext, Classical.choice, Quot.sound |
| C130 | `PyGSP.C130_no_neighbour` | propext, Classical.choice, Quot.sound |
| C130 | `PyGSP.C130_pyflann` | propext, Classical.choice, Quot.sound |
| C131 | `PyGSP.C131_call` | propext, Classical.choice, Quot.sound |
| C131 | `PyGSP.C131_program` | propext, Classical.choice, Quot.sound |
| C131 | `PyGSP.C131_frame` | propext, Classical.choice, Quot.sound |
| C131 | `PyGSP.C131_never_returns_violated` | propext, Classical.choice, Quot.sound |
| C132 | `PyGSP.C132_frequencies` | propext, Classical.choice, Quot.sound |
| C132 | `PyGSP.C132_mode` | propext, Classical.choice, Quot.sound |
| C132 | `PyGSP.C132_gather` | propext, Classical.choice, Quot.sound |
| C132 | `PyGSP.C132_apart` | propext, Classical.choice, Quot.sound |
| C132 | `PyGSP.C132_misplaced` | propext, Classical.choice, Quot.sound |
| C132 | `PyGSP.C132_recovered` | propext, Classical.choice, Quot.sound |
| C132 | `PyGSP.C132_components` | propext, Classical.choice, Quot.sound |
| C133 | `PyGSP.C133_first` | propext, Classical.choice, Quot.sound |
| C133 | `PyGSP.C133_computed` | propext, Classical.choice, Quot.sound |
| C133 | `PyGSP.C133_projection` | propext, Classical.choice, Quot.sound |
| C133 | `PyGSP.C133_eigenmap` | propext, Classical.choice, Quot.sound |
| C133 | `PyGSP.C133_drawing` | propext, Classical.choice, Quot.sound |
| C134 | `PyGSP.C134_walk_stops` | propext, Classical.choice, Quot.sound |
| C134 | `PyGSP.C134_regression` | propext, Classical.choice, Quot.sound |
| C134 | `PyGSP.C134_classification` | propext, Classical.choice, Quot.sound |
| C134 | `PyGSP.C134_commute` | propext, Classical.choice, Quot.sound |
| C134 | `PyGSP.C134_escape` | propext, Classical.choice, Quot.sound |
| C134 | `PyGSP.C134_kron` | propext, Classical.choice, Quot.sound |
| C135 | `PyGSP.C135_group` | propext, Classical.choice, Quot.sound |
| C135 | `PyGSP.C135_leak` | propext, Classical.choice, Quot.sound |
| C135 | `PyGSP.C135_mode` | propext, Classical.choice, Quot.sound |
| C135 | `PyGSP.C135_rectangular` | propext, Classical.choice, Quot.sound |
| C136 | `PyGSP.Prefs.C136_limits_path` | propext, Classical.choice, Quot.sound |
| C136 | `PyGSP.Prefs.C136_limits_ring` | propext, Classical.choice, Quot.sound |
| C136 | `PyGSP.Prefs.C136_limits_randomRing` | propext, Classical.choice, Quot.sound |
| C136 | `PyGSP.Prefs.C136_limits_torus` | propext, Classical.choice, Quot.sound |
| C136 | `PyGSP.Prefs.C136_limits_star` | propext, Classical.choice, Quot.sound |
| C136 | `PyGSP.Prefs.C136_limits_tree` | propext, Classical.choice, Quot.sound |
| C136 | `PyGSP.Prefs.C136_limits_sensors` | propext, Classical.choice, Quot.sound |
| C136 | `PyGSP.Prefs.C136_limits_grid_violated` | propext, Classical.choice, Quot.sound |
| C136 | `PyGSP.Prefs.C136_limits_swissroll_violated` | propext, Classical.choice, Quot.sound |
| C136 | `PyGSP.Prefs.C136_made` | propext, Classical.choice, Quot.sound |
| C136 | `PyGSP.Prefs.C136_fresh` | propext, Classical.choice, Quot.sound |
| C136 | `PyGSP.Prefs.C136_private` | propext, Classical.choice, Quot.sound |
| C136 | `PyGSP.Prefs.C136_stay` | propext, Classical.choice, Quot.sound |
| C136 | `PyGSP.Prefs.C136_derived` | propext, Classical.choice, Quot.sound |
| C136 | `PyGSP.Prefs.C136_patches_ignored_violated` | propext, Classical.choice, Quot.sound |
| C136 | `PyGSP.Prefs.C136_readable` | propext, Classical.choice, Quot.sound |
| C136 | `PyGSP.Prefs.C136_style` | propext, Classical.choice, Quot.sound |
| C136 | `PyGSP.Prefs.C136_tree_width_violated` | propext, Classical.choice, Quot.sound |
| C136 | `PyGSP.Prefs.C136_view` | propext, Classical.choice, Quot.sound |
| C137 | `PyGSP.C137_expected_degree` | propext, Classical.choice, Quot.sound |
| C137 | `PyGSP.C137_growth` | propext, Classical.choice, Quot.sound |
| C137 | `PyGSP.C137_older` | propext, Classical.choice, Quot.sound |
| C137 | `PyGSP.C137_law` | propext, Classical.choice, Quot.sound |
| C138 | `PyGSP.Layout.C138_links` | propext, Classical.choice, Quot.sound |
| C138 | `PyGSP.Layout.C138_renaming` | propext, Classical.choice, Quot.sound |
| C138 | `PyGSP.Layout.C138_symmetry` | propext, Classical.choice, Quot.sound |
| C138 | `PyGSP.Layout.C138_twins` | propext, Classical.choice, Quot.sound |
| C138 | `PyGSP.Layout.C138_isometry` | propext, Classical.choice, Quot.sound |
| C138 | `PyGSP.Layout.C138_similar` | propext, Classical.choice, Quot.sound |
| C138 | `PyGSP.Layout.C138_flat` | propext, Classical.choice, Quot.sound |
| C139 | `PyGSP.C139_one_vs_rest` | propext, Classical.choice, Quot.sound |
| C139 | `PyGSP.C139_two_classes` | propext, Classical.choice, Quot.sound |
| C139 | `PyGSP.C139_merge` | propext, Classical.choice, Quot.sound |
| C139 | `PyGSP.C139_rename` | propext, Classical.choice, Quot.sound |
| C139 | `PyGSP.C139_same_problem` | propext, Classical.choice, Quot.sound |
| C139 | `PyGSP.C139_fixed_point` | propext, Classical.choice, Quot.sound |
| C139 | `PyGSP.C139_rate` | propext, Classical.choice, Quot.sound |
| C139 | `PyGSP.C139_limit` | propext, Classical.choice, Quot.sound |
| C139 | `PyGSP.C139_normalized_violated` | propext, Classical.choice, Quot.sound |
| C140 | `PyGSP.C140_distances_only` | propext, Classical.choice, Quot.sound |
| C140 | `PyGSP.C140_rotation` | propext, Classical.choice, Quot.sound |
| C140 | `PyGSP.C140_units_knn` | propext, Classical.choice, Quot.sound |
| C140 | `PyGSP.C140_box` | propext, Classical.choice, Quot.sound |
| C140 | `PyGSP.C140_units_radius` | propext, Classical.choice, Quot.sound |
| C140 | `PyGSP.C140_more_neighbours` | propext, Classical.choice, Quot.sound |
| C140 | `PyGSP.C140_larger_radius` | propext, Classical.choice, Quot.sound |
| C140 | `PyGSP.C140_chains` | propext, Classical.choice, Quot.sound |
| C140 | `PyGSP.C140_complete` | propext, Classical.choice, Quot.sound |
| C140 | `PyGSP.C140_order_knn` | propext, Classical.choice, Quot.sound |
| C140 | `PyGSP.C140_order_radius` | propext, Classical.choice, Quot.sound |
| C140 | `PyGSP.C140_rescale_rotation_violated` | propext, Classical.choice, Quot.sound |
| C140 | `PyGSP.C140_triangle_violated` | propext, Classical.choice, Quot.sound |
| C141 | `PyGSP.C141_mean` | propext, Classical.choice, Quot.sound |
| C141 | `PyGSP.C141_all_signals` | propext, Classical.choice, Quot.sound |
| C141 | `PyGSP.C141_frequencies` | propext, Classical.choice, Quot.sound |
| C141 | `PyGSP.C141_erdosRenyi` | propext, Classical.choice, Quot.sound |
| C141 | `PyGSP.C141_communities` | propext, Classical.choice, Quot.sound |
| C141 | `PyGSP.C141_limit` | propext, Classical.choice, Quot.sound |
| C142 | `PyGSP.C142_total` | propext, Classical.choice, Quot.sound |
| C142 | `PyGSP.C142_exact` | propext, Classical.choice, Quot.sound |
| C142 | `PyGSP.C142_cheby` | propext, Classical.choice, Quot.sound |
| C142 | `PyGSP.C142_combinatorial` | propext, Classical.choice, Quot.sound |
| C142 | `PyGSP.C142_unit` | propext, Classical.choice, Quot.sound |
| C142 | `PyGSP.C142_nearest` | propext, Classical.choice, Quot.sound |
| C142 | `PyGSP.C142_laplacian` | propext, Classical.choice, Quot.sound |
| C142 | `PyGSP.C142_frequencies` | propext, Classical.choice, Quot.sound |
| C142 | `PyGSP.C142_integers` | propext, Classical.choice, Quot.sound |
| C143 | `PyGSP.C143_dot` | propext, Classical.choice, Quot.sound |
| C143 | `PyGSP.C143_transforms` | propext, Classical.choice, Quot.sound |
| C143 | `PyGSP.C143_roundtrip` | propext, Classical.choice, Quot.sound |
| C143 | `PyGSP.C143_exact` | propext, Classical.choice, Quot.sound |
| C143 | `PyGSP.C143_filter` | propext, Classical.choice, Quot.sound |
| C144 | `PyGSP.C144_values` | propext, Classical.choice, Quot.sound |
| C144 | `PyGSP.C144_basis` | propext, Classical.choice, Quot.sound |
| C144 | `PyGSP.C144_scale_violated` | propext, Classical.choice, Quot.sound |
| C144 | `PyGSP.C144_negative_violated` | propext, Classical.choice, Quot.sound |
| C144 | `PyGSP.C144_lmax` | propext, Classical.choice, Quot.sound |
| C144 | `PyGSP.C144_lmax_violated` | propext, Classical.choice, Quot.sound |
| C145 | `PyGSP.C145_exact` | propext, Classical.choice, Quot.sound |
| C145 | `PyGSP.C145_entries` | propext, Classical.choice, Quot.sound |
| C145 | `PyGSP.C145_frequencies` | propext, Classical.choice, Quot.sound |
| C145 | `PyGSP.C145_symmetric_violated` | propext, Classical.choice, Quot.sound |
| C146 | `PyGSP.C146_solver` | propext, Classical.choice, Quot.sound |
| C146 | `PyGSP.C146_result` | propext, Classical.choice, Quot.sound |
| C146 | `PyGSP.C146_all_measured` | propext, Classical.choice, Quot.sound |
| C146 | `PyGSP.C146_error` | propext, Classical.choice, Quot.sound |
| C146 | `PyGSP.C146_small_tau` | propext, Classical.choice, Quot.sound |
| C146 | `PyGSP.C146_small_tau_violated` | propext, Classical.choice, Quot.sound |
| C146 | `PyGSP.C146_classification_violated` | propext, Classical.choice, Quot.sound |
| C146 | `PyGSP.C146_scaled` | propext, Classical.choice, Quot.sound |
| C146 | `PyGSP.C146_renamed` | propext, Classical.choice, Quot.sound |
| C146 | `PyGSP.C146_additive_violated` | propext, Classical.choice, Quot.sound |
| C147 | `PyGSP.C147_rate` | propext, Classical.choice, Quot.sound |
| C147 | `PyGSP.C147_distance` | propext, Classical.choice, Quot.sound |
| C147 | `PyGSP.C147_far` | propext, Classical.choice, Quot.sound |
| C147 | `PyGSP.C147_far_violated` | propext, Classical.choice, Quot.sound |
| C148 | `PyGSP.C148_energy` | propext, Classical.choice, Quot.sound |
| C148 | `PyGSP.C148_exact` | propext, Classical.choice, Quot.sound |
| C148 | `PyGSP.C148_grad` | propext, Classical.choice, Quot.sound |
| C148 | `PyGSP.C148_div` | propext, Classical.choice, Quot.sound |
| C148 | `PyGSP.C148_constant` | propext, Classical.choice, Quot.sound |
| C148 | `PyGSP.C148_integers` | propext, Classical.choice, Quot.sound |
| C148 | `PyGSP.C148_negative_violated` | propext, Classical.choice, Quot.sound |
| C149 | `PyGSP.C149_coefficients` | propext, Classical.choice, Quot.sound |
| C149 | `PyGSP.C149_exact` | propext, Classical.choice, Quot.sound |
| C149 | `PyGSP.C149_exists` | propext, Classical.choice, Quot.sound |
| C149 | `PyGSP.C149_total` | propext, Classical.choice, Quot.sound |
| C149 | `PyGSP.C149_heat` | propext, Classical.choice, Quot.sound |
| C150 | `PyGSP.C150_error` | propext, Classical.choice, Quot.sound |
| C150 | `PyGSP.C150_weight` | propext, Classical.choice, Quot.sound |
| C150 | `PyGSP.C150_exact` | propext, Classical.choice, Quot.sound |
| C150 | `PyGSP.C150_integers` | propext, Classical.choice, Quot.sound |
| C150 | `PyGSP.C150_separated_violated` | propext, Classical.choice, Quot.sound |
| C150 | `PyGSP.C150_diagonal_violated` | propext, Classical.choice, Quot.sound |
| C151 | `PyGSP.Gen.C151_shuffle_probability` | propext, Classical.choice, Quot.sound |
| C151 | `PyGSP.Gen.C151_draws` | propext, Classical.choice, Quot.sound |
| C151 | `PyGSP.Gen.C151_uniform` | propext, Classical.choice, Quot.sound |
| C151 | `PyGSP.Gen.C151_probability` | propext, Classical.choice, Quot.sound |
| C151 | `PyGSP.Gen.C151_shuffle` | propext, Classical.choice, Quot.sound |
| C152 | `PyGSP.Gen.C152_elsewhere` | propext, Classical.choice, Quot.sound |
| C152 | `PyGSP.Gen.C152_uniform` | propext, Classical.choice, Quot.sound |
| C152 | `PyGSP.Gen.C152_probability` | propext, Classical.choice, Quot.sound |
| C153 | `PyGSP.C153_path` | propext, Classical.choice, Quot.sound |
| C153 | `PyGSP.C153_ring` | propext, Classical.choice, Quot.sound |
| C153 | `PyGSP.C153_full` | propext, Classical.choice, Quot.sound |
| C153 | `PyGSP.C153_star` | propext, Classical.choice, Quot.sound |
| C153 | `PyGSP.C153_multiresolution` | propext, Classical.choice, Quot.sound |
| C154 | `PyGSP.C154_simple` | propext, Classical.choice, Quot.sound |
| C154 | `PyGSP.C154_default` | propext, Classical.choice, Quot.sound |
| C154 | `PyGSP.C154_star_mesh` | propext, Classical.choice, Quot.sound |
| C154 | `PyGSP.C154_bipartite_level` | propext, Classical.choice, Quot.sound |
| C154 | `PyGSP.C154_path_multiresolution` | propext, Classical.choice, Quot.sound |
| C154 | `PyGSP.C154_grid` | propext, Classical.choice, Quot.sound |
