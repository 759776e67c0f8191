{
 "claims": [
  {
   "property": "C01",
   "status": "proved",
   "theorems": [
    "PyGSP.C01_constructor_accepts_iff",
    "PyGSP.C01_rejects_with_valueError",
    "PyGSP.C01_constructor_weights",
    "PyGSP.C01_constructor_warnings"
   ],
   "note": ""
  },
  {
   "property": "C02",
   "status": "proved",
   "theorems": [
    "PyGSP.C02_n_edges_undirected",
    "PyGSP.C02_n_edges_directed",
    "PyGSP.C02_storage_independent",
    "PyGSP.C02_duplicate_storage"
   ],
   "note": ""
  },
  {
   "property": "C03",
   "status": "proved",
   "theorems": [
    "PyGSP.C03_is_directed_iff",
    "PyGSP.C03_every_call"
   ],
   "note": ""
  },
  {
   "property": "C04",
   "status": "proved",
   "theorems": [
    "PyGSP.C04_edge_list"
   ],
   "note": ""
  },
  {
   "property": "C05",
   "status": "proved",
   "theorems": [
    "PyGSP.C05_is_connected_iff",
    "PyGSP.C05_empty_graph",
    "PyGSP.C05_every_call"
   ],
   "note": ""
  },
  {
   "property": "C06",
   "status": "proved",
   "theorems": [
    "PyGSP.C06_has_loops_iff",
    "PyGSP.C06_is_weighted_iff"
   ],
   "note": ""
  },
  {
   "property": "C07",
   "status": "proved",
   "theorems": [
    "PyGSP.C07_degree",
    "PyGSP.C07_weighted_degree",
    "PyGSP.C07_adjacency",
    "PyGSP.C07_every_call"
   ],
   "note": ""
  },
  {
   "property": "C08",
   "status": "proved",
   "theorems": [
    "PyGSP.C08_subgraph",
    "PyGSP.C08_mask"
   ],
   "note": ""
  },
  {
   "property": "C09",
   "status": "proved",
   "theorems": [
    "PyGSP.C09_directed_raises",
    "PyGSP.C09_extract_components",
    "PyGSP.C09_negative_weights_violated"
   ],
   "note": ""
  },
  {
   "property": "C10",
   "status": "proved",
   "theorems": [
    "PyGSP.C10_combinatorial",
    "PyGSP.C10_loops_invisible",
    "PyGSP.C10_unknown_type"
   ],
   "note": ""
  },
  {
   "property": "C11",
   "status": "proved",
   "theorems": [
    "PyGSP.C11_quadratic_form",
    "PyGSP.C11_psd",
    "PyGSP.C11_negative_weights_violated"
   ],
   "note": ""
  },
  {
   "property": "C12",
   "status": "proved",
   "theorems": [
    "PyGSP.C12_normalized"
   ],
   "note": ""
  },
  {
   "property": "C13",
   "status": "proved",
   "theorems": [
    "PyGSP.C13_diff_operator",
    "PyGSP.C13_unknown_type"
   ],
   "note": ""
  },
  {
   "property": "C14",
   "status": "proved",
   "theorems": [
    "PyGSP.C14_grad",
    "PyGSP.C14_div_adjoint",
    "PyGSP.C14_div_grad",
    "PyGSP.C14_lengths",
    "PyGSP.C14_calls",
    "PyGSP.C14_normalized_energy",
    "PyGSP.C14_documented_normalized_energy_violated"
   ],
   "note": ""
  },
  {
   "property": "C15",
   "status": "proved",
   "theorems": [
    "PyGSP.C15_estimate",
    "PyGSP.C15_upper_bound",
    "PyGSP.C15_unknown_type"
   ],
   "note": ""
  },
  {
   "property": "C16",
   "status": "proved",
   "theorems": [
    "PyGSP.C16_check_signal",
    "PyGSP.C16_set_signal",
    "PyGSP.C16_fourier"
   ],
   "note": ""
  },
  {
   "property": "C17",
   "status": "proved",
   "theorems": [
    "PyGSP.C17_immutable",
    "PyGSP.C17_setter"
   ],
   "note": ""
  },
  {
   "property": "C18",
   "status": "proved",
   "theorems": [
    "PyGSP.C18_structure",
    "PyGSP.C18_connected",
    "PyGSP.C18_laplacian",
    "PyGSP.C18_diff_operator",
    "PyGSP.C18_fourier",
    "PyGSP.C18_coherence"
   ],
   "note": ""
  },
  {
   "property": "C19",
   "status": "proved",
   "theorems": [
    "PyGSP.C19_lmax_is_a_number",
    "PyGSP.C19_type_change_violated",
    "PyGSP.C19_scenario_violated"
   ],
   "note": ""
  },
  {
   "property": "C20",
   "status": "proved",
   "theorems": [
    "PyGSP.C20_lmax_exact",
    "PyGSP.C20_cached",
    "PyGSP.C20_reestimate_violated"
   ],
   "note": ""
  },
  {
   "property": "C21",
   "status": "proved",
   "theorems": [
    "PyGSP.C21_atomic",
    "PyGSP.C21_recover",
    "PyGSP.C21_laplacian_violated",
    "PyGSP.C21_estimate_violated",
    "PyGSP.C21_fourier_violated",
    "PyGSP.C21_negative_weights_assertion"
   ],
   "note": ""
  },
  {
   "property": "C22",
   "status": "proved",
   "theorems": [
    "PyGSP.C22_orientation_invisible",
    "PyGSP.C22_transpose_and_average"
   ],
   "note": ""
  },
  {
   "property": "C23",
   "status": "proved",
   "theorems": [
    "PyGSP.C23_edges",
    "PyGSP.C23_laplacian",
    "PyGSP.C23_structure"
   ],
   "note": ""
  },
  {
   "property": "C24",
   "status": "proved",
   "theorems": [
    "PyGSP.C24_igft_gft",
    "PyGSP.C24_gft_igft",
    "PyGSP.C24_parseval",
    "PyGSP.C24_partial_basis_violated",
    "PyGSP.C24_length_check"
   ],
   "note": ""
  },
  {
   "property": "C25",
   "status": "proved",
   "theorems": [
    "PyGSP.C25_fourier_basis"
   ],
   "note": ""
  },
  {
   "property": "C26",
   "status": "proved",
   "theorems": [
    "PyGSP.C26_coherence",
    "PyGSP.C26_readable"
   ],
   "note": ""
  },
  {
   "property": "C27",
   "status": "proved",
   "theorems": [
    "PyGSP.C27_kernel",
    "PyGSP.C27_zero_eigenvalues",
    "PyGSP.C27_connected_iff"
   ],
   "note": ""
  },
  {
   "property": "C28",
   "status": "proved",
   "theorems": [
    "PyGSP.C28_one_signal",
    "PyGSP.C28_many_signals",
    "PyGSP.C28_many_signals_3d",
    "PyGSP.C28_synthesis",
    "PyGSP.C28_synthesis_2d",
    "PyGSP.C28_shapes",
    "PyGSP.C28_function_of_L",
    "PyGSP.C28_partial_basis_violated"
   ],
   "note": ""
  },
  {
   "property": "C29",
   "status": "proved",
   "theorems": [
    "PyGSP.C29_adjoint",
    "PyGSP.C29_single_selfadjoint"
   ],
   "note": ""
  },
  {
   "property": "C30",
   "status": "proved",
   "theorems": [
    "PyGSP.C30_frame_bounds"
   ],
   "note": ""
  },
  {
   "property": "C31",
   "status": "proved",
   "theorems": [
    "PyGSP.C31_tight_reconstruction",
    "PyGSP.C31_tight_single",
    "PyGSP.C31_single_synthesize_violated"
   ],
   "note": ""
  },
  {
   "property": "C32",
   "status": "proved",
   "theorems": [
    "PyGSP.C32_complement"
   ],
   "note": ""
  },
  {
   "property": "C33",
   "status": "proved",
   "theorems": [
    "PyGSP.C33_inverse",
    "PyGSP.C33_inverse_single",
    "PyGSP.C33_pseudo"
   ],
   "note": ""
  },
  {
   "property": "C34",
   "status": "proved",
   "theorems": [
    "PyGSP.C34_localize",
    "PyGSP.C34_frame",
    "PyGSP.C34_frame_violated"
   ],
   "note": ""
  },
  {
   "property": "C35",
   "status": "proved",
   "theorems": [
    "PyGSP.C35_cheby_op",
    "PyGSP.C35_cheby_op_errors"
   ],
   "note": ""
  },
  {
   "property": "C36",
   "status": "proved",
   "theorems": [
    "PyGSP.C36_interpolation",
    "PyGSP.C36_polynomials"
   ],
   "note": ""
  },
  {
   "property": "C37",
   "status": "proved",
   "theorems": [
    "PyGSP.C37_local"
   ],
   "note": ""
  },
  {
   "property": "C38",
   "status": "proved",
   "theorems": [
    "PyGSP.C38_linear",
    "PyGSP.C38_independent",
    "PyGSP.C38_state"
   ],
   "note": ""
  },
  {
   "property": "C39",
   "status": "proved",
   "theorems": [
    "PyGSP.C39_add_evaluate",
    "PyGSP.C39_getitem_int",
    "PyGSP.C39_getitem_slice",
    "PyGSP.C39_add_filter",
    "PyGSP.C39_getitem_filter"
   ],
   "note": ""
  },
  {
   "property": "C40",
   "status": "proved",
   "theorems": [
    "PyGSP.C40_shape",
    "PyGSP.C40_accepted",
    "PyGSP.C40_method",
    "PyGSP.C40_analyze_synthesize",
    "PyGSP.C40_chebyshev"
   ],
   "note": ""
  },
  {
   "property": "C41",
   "status": "proved",
   "theorems": [
    "PyGSP.C41_parseval",
    "PyGSP.C41_reconstruction",
    "PyGSP.C41_lowpass",
    "PyGSP.C41_regular_degree_violated",
    "PyGSP.C41_regular_highpass"
   ],
   "note": ""
  },
  {
   "property": "C42",
   "status": "proved",
   "theorems": [
    "PyGSP.C42_meyer",
    "PyGSP.C42_meyer_errors"
   ],
   "note": ""
  },
  {
   "property": "C43",
   "status": "proved",
   "theorems": [
    "PyGSP.C43_simpleTight",
    "PyGSP.C43_simpleTight_errors"
   ],
   "note": ""
  },
  {
   "property": "C44",
   "status": "proved",
   "theorems": [
    "PyGSP.C44_halfCosine"
   ],
   "note": ""
  },
  {
   "property": "C45",
   "status": "proved",
   "theorems": [
    "PyGSP.C45_itersine"
   ],
   "note": ""
  },
  {
   "property": "C46",
   "status": "proved",
   "theorems": [
    "PyGSP.C46_values",
    "PyGSP.C46_clip",
    "PyGSP.C46_normalize",
    "PyGSP.C46_semigroup",
    "PyGSP.C46_contraction",
    "PyGSP.C46_mass",
    "PyGSP.C46_maximum_principle"
   ],
   "note": ""
  },
  {
   "property": "C47",
   "status": "proved",
   "theorems": [
    "PyGSP.C47_accepted",
    "PyGSP.C47_values",
    "PyGSP.C47_wave_equation",
    "PyGSP.C47_negative_speed_violated"
   ],
   "note": ""
  },
  {
   "property": "C48",
   "status": "proved",
   "theorems": [
    "PyGSP.C48_expwin",
    "PyGSP.C48_monotone"
   ],
   "note": ""
  },
  {
   "property": "C49",
   "status": "proved",
   "theorems": [
    "PyGSP.C49_rectangular",
    "PyGSP.C49_projection"
   ],
   "note": ""
  },
  {
   "property": "C50",
   "status": "proved",
   "theorems": [
    "PyGSP.C50_mexicanHat",
    "PyGSP.C50_abspline_kernel",
    "PyGSP.C50_abspline"
   ],
   "note": ""
  },
  {
   "property": "C51",
   "status": "proved",
   "theorems": [
    "PyGSP.C51_checks",
    "PyGSP.C51_gabor",
    "PyGSP.C51_modulation_evaluate",
    "PyGSP.C51_modulation_repeated_violated",
    "PyGSP.C51_modulation_zero",
    "PyGSP.C51_windowed_transform"
   ],
   "note": ""
  },
  {
   "property": "C53",
   "status": "proved",
   "theorems": [
    "PyGSP.C53_errors",
    "PyGSP.C53_symmetric",
    "PyGSP.C53_values",
    "PyGSP.C53_identity_on_symmetric",
    "PyGSP.C53_tril_negative_violated"
   ],
   "note": ""
  },
  {
   "property": "C54",
   "status": "proved",
   "theorems": [
    "PyGSP.C54_distanz",
    "PyGSP.C54_metric"
   ],
   "note": ""
  },
  {
   "property": "C55",
   "status": "proved",
   "theorems": [
    "PyGSP.C55_symmetric",
    "PyGSP.C55_lap_type",
    "PyGSP.C55_effective_resistance",
    "PyGSP.C55_metric"
   ],
   "note": ""
  },
  {
   "property": "C56",
   "status": "proved",
   "theorems": [
    "PyGSP.C56_rescale_center"
   ],
   "note": ""
  },
  {
   "property": "C57",
   "status": "proved",
   "theorems": [
    "PyGSP.C57_log_scales"
   ],
   "note": ""
  },
  {
   "property": "C58",
   "status": "proved",
   "theorems": [
    "PyGSP.Learning.C58_unmeasured_ignored",
    "PyGSP.Learning.C58_harmonic",
    "PyGSP.Learning.C58_one_column_violated",
    "PyGSP.C58_interpolation",
    "PyGSP.C58_any_laplacian",
    "PyGSP.C58_errors",
    "PyGSP.C58_integer_measurements_violated",
    "PyGSP.C58_columns"
   ],
   "note": ""
  },
  {
   "property": "C59",
   "status": "proved",
   "theorems": [
    "PyGSP.C59_minimises",
    "PyGSP.C59_unique_bounded",
    "PyGSP.C59_mask",
    "PyGSP.C59_columns"
   ],
   "note": ""
  },
  {
   "property": "C60",
   "status": "proved",
   "theorems": [
    "PyGSP.C60_logits",
    "PyGSP.C60_negative_labels_violated",
    "PyGSP.C60_classification",
    "PyGSP.C60_single_class_violated"
   ],
   "note": ""
  },
  {
   "property": "C61",
   "status": "proved",
   "theorems": [
    "PyGSP.C61_projection",
    "PyGSP.C61_projection_idem",
    "PyGSP.C61_no_class",
    "PyGSP.C61_gradient",
    "PyGSP.C61_step",
    "PyGSP.C61_fixed_point",
    "PyGSP.C61_convergence",
    "PyGSP.C61_setup"
   ],
   "note": ""
  },
  {
   "property": "C62",
   "status": "proved",
   "theorems": [
    "PyGSP.C62_kron_reduction",
    "PyGSP.C62_resistance",
    "PyGSP.C62_connectivity",
    "PyGSP.C62_weights_grow",
    "PyGSP.C62_errors",
    "PyGSP.C62_coords_violated",
    "PyGSP.C62_transitive"
   ],
   "note": ""
  },
  {
   "property": "C63",
   "status": "proved",
   "theorems": [
    "PyGSP.C63_chebyshev",
    "PyGSP.C63_unique",
    "PyGSP.C63_interpolate",
    "PyGSP.C63_many_violated",
    "PyGSP.C63_range",
    "PyGSP.C63_constant_violated",
    "PyGSP.C63_errors"
   ],
   "note": ""
  },
  {
   "property": "C64",
   "status": "proved",
   "theorems": [
    "PyGSP.C64_reconstruction",
    "PyGSP.C64_1d_violated",
    "PyGSP.C64_many_violated",
    "PyGSP.C64_default_violated",
    "PyGSP.C64_exact"
   ],
   "note": ""
  },
  {
   "property": "C65",
   "status": "proved",
   "theorems": [
    "PyGSP.C65_bookkeeping",
    "PyGSP.C65_electrical",
    "PyGSP.C65_basis_overwritten_violated",
    "PyGSP.C65_one_level",
    "PyGSP.C65_basis_destroyed_violated",
    "PyGSP.C65_sparsify_violated",
    "PyGSP.C65_one_level_default",
    "PyGSP.C65_default_errors"
   ],
   "note": ""
  },
  {
   "property": "C66",
   "status": "proved",
   "theorems": [
    "PyGSP.C66_subgraph",
    "PyGSP.C66_conservation",
    "PyGSP.C66_total",
    "PyGSP.C66_connected_or_exhausted",
    "PyGSP.C66_unbiased",
    "PyGSP.C66_errors",
    "PyGSP.C66_two_vertices_violated",
    "PyGSP.C66_matrix_violated"
   ],
   "note": ""
  },
  {
   "property": "C67",
   "status": "proved",
   "theorems": [
    "PyGSP.C67_weights",
    "PyGSP.C67_structure",
    "PyGSP.C67_errors"
   ],
   "note": ""
  },
  {
   "property": "C68",
   "status": "proved",
   "theorems": [
    "PyGSP.C68_weights",
    "PyGSP.C68_structure",
    "PyGSP.C68_errors",
    "PyGSP.C68_even_violated"
   ],
   "note": ""
  },
  {
   "property": "C69",
   "status": "proved",
   "theorems": [
    "PyGSP.C69_weights",
    "PyGSP.C69_structure"
   ],
   "note": ""
  },
  {
   "property": "C70",
   "status": "proved",
   "theorems": [
    "PyGSP.C70_weights",
    "PyGSP.C70_structure",
    "PyGSP.C70_errors",
    "PyGSP.C70_negative_diagonal_violated"
   ],
   "note": ""
  },
  {
   "property": "C71",
   "status": "proved",
   "theorems": [
    "PyGSP.C71_weights",
    "PyGSP.C71_structure",
    "PyGSP.C71_errors",
    "PyGSP.C71_star",
    "PyGSP.C71_coords"
   ],
   "note": ""
  },
  {
   "property": "C72",
   "status": "proved",
   "theorems": [
    "PyGSP.C72_full"
   ],
   "note": ""
  },
  {
   "property": "C73",
   "status": "proved",
   "theorems": [
    "PyGSP.C73_weights",
    "PyGSP.C73_structure",
    "PyGSP.C73_loop_violated"
   ],
   "note": ""
  },
  {
   "property": "C74",
   "status": "proved",
   "theorems": [
    "PyGSP.C74_sampling",
    "PyGSP.C74_structure",
    "PyGSP.C74_certain",
    "PyGSP.C74_errors",
    "PyGSP.C74_connected",
    "PyGSP.C74_labels",
    "PyGSP.C74_probabilities",
    "PyGSP.C74_integer_q_violated",
    "PyGSP.C74_q_overwritten_violated",
    "PyGSP.C74_erdosRenyi"
   ],
   "note": ""
  },
  {
   "property": "C75",
   "status": "proved",
   "theorems": [
    "PyGSP.C75_structure",
    "PyGSP.C75_attachment",
    "PyGSP.C75_errors"
   ],
   "note": ""
  },
  {
   "property": "C76",
   "status": "proved",
   "theorems": [
    "PyGSP.C76_structure",
    "PyGSP.C76_limits",
    "PyGSP.C76_never_returns_violated",
    "PyGSP.C76_restart_violated"
   ],
   "note": ""
  },
  {
   "property": "C77",
   "status": "proved",
   "theorems": [
    "PyGSP.C77_structure",
    "PyGSP.C77_grid",
    "PyGSP.C77_tree_violated"
   ],
   "note": ""
  },
  {
   "property": "C78",
   "status": "proved",
   "theorems": [
    "PyGSP.Gen.C78_attributes",
    "PyGSP.Gen.C78_communities",
    "PyGSP.Gen.C78_simple",
    "PyGSP.Gen.C78_between",
    "PyGSP.Gen.C78_density",
    "PyGSP.Gen.C78_epsilon",
    "PyGSP.Gen.C78_k_neigh_violated",
    "PyGSP.Gen.C78_coords",
    "PyGSP.Gen.C78_returns",
    "PyGSP.Gen.C78_errors",
    "PyGSP.Gen.C78_empty_violated",
    "PyGSP.Gen.C78_single_violated"
   ],
   "note": ""
  },
  {
   "property": "C79",
   "status": "proved",
   "theorems": [
    "PyGSP.C79_knn",
    "PyGSP.C79_knn_structure",
    "PyGSP.C79_radius",
    "PyGSP.C79_invariance",
    "PyGSP.C79_returns",
    "PyGSP.C79_radius_returns",
    "PyGSP.C79_errors",
    "PyGSP.C79_duplicates_violated",
    "PyGSP.C79_mutates_violated"
   ],
   "note": ""
  },
  {
   "property": "C80",
   "status": "proved",
   "theorems": [
    "PyGSP.Gen.C80_weights",
    "PyGSP.Gen.C80_structure",
    "PyGSP.Gen.C80_uniform",
    "PyGSP.Gen.C80_order",
    "PyGSP.Gen.C80_errors",
    "PyGSP.Gen.C80_coincident_violated",
    "PyGSP.Gen.C80_mutates_violated"
   ],
   "note": ""
  },
  {
   "property": "C81",
   "status": "proved",
   "theorems": [
    "PyGSP.IO.C81_round_trip",
    "PyGSP.IO.C81_exact",
    "PyGSP.IO.C81_order_violated",
    "PyGSP.IO.C81_one_column_violated",
    "PyGSP.IO.C81_lost_violated",
    "PyGSP.IO.C81_merged_violated",
    "PyGSP.IO.C81_export_mutates_violated"
   ],
   "note": ""
  },
  {
   "property": "C82",
   "status": "proved",
   "theorems": [
    "PyGSP.IO.C82_round_trip",
    "PyGSP.IO.C82_import"
   ],
   "note": ""
  },
  {
   "property": "C83",
   "status": "proved",
   "theorems": [
    "PyGSP.IO.C83_round_trip",
    "PyGSP.IO.C83_isolated_violated"
   ],
   "note": ""
  },
  {
   "property": "C84",
   "status": "proved",
   "theorems": [
    "PyGSP.IO.C84_extension",
    "PyGSP.IO.C84_no_extension",
    "PyGSP.IO.C84_rejects",
    "PyGSP.IO.C84_backend",
    "PyGSP.IO.C84_round_trip",
    "PyGSP.IO.C84_save_mutates_violated"
   ],
   "note": ""
  },
  {
   "property": "C85",
   "status": "proved",
   "theorems": [
    "PyGSP.Layout.C85_spring_fixed",
    "PyGSP.Layout.C85_spring_zero_violated",
    "PyGSP.Layout.C85_spring_free",
    "PyGSP.Layout.C85_spring_single_violated",
    "PyGSP.Layout.C85_spring_range_violated",
    "PyGSP.Layout.C85_array",
    "PyGSP.Layout.C85_array_iff",
    "PyGSP.Layout.C85_single_vertex_violated",
    "PyGSP.Layout.C85_spring_forces",
    "PyGSP.Layout.C85_spring_negative_violated",
    "PyGSP.Layout.C85_fixed_layouts",
    "PyGSP.Layout.C85_random",
    "PyGSP.Layout.C85_unknown",
    "PyGSP.Layout.C85_community",
    "PyGSP.Layout.C85_community_missing_violated",
    "PyGSP.Layout.C85_eigenmap",
    "PyGSP.Layout.C85_eigenmap_basis_violated",
    "PyGSP.Layout.C85_eigenmap_small_violated"
   ],
   "note": ""
  },
  {
   "property": "C86",
   "status": "proved",
   "theorems": [
    "PyGSP.Features.C86_avg_adj_deg",
    "PyGSP.Features.C86_avg_violated",
    "PyGSP.Features.C86_tig",
    "PyGSP.Features.C86_spectrogram",
    "PyGSP.Features.C86_bank_violated",
    "PyGSP.Features.C86_method_violated",
    "PyGSP.Features.C86_plot_violated"
   ],
   "note": ""
  },
  {
   "property": "C87",
   "status": "proved",
   "theorems": [
    "PyGSP.Spectrum.C87_path"
   ],
   "note": ""
  },
  {
   "property": "C88",
   "status": "proved",
   "theorems": [
    "PyGSP.Spectrum.C88_ring",
    "PyGSP.Spectrum.C88_torus",
    "PyGSP.Spectrum.C88_grid"
   ],
   "note": ""
  },
  {
   "property": "C89",
   "status": "proved",
   "theorems": [
    "PyGSP.Spectrum.C89_full",
    "PyGSP.Spectrum.C89_star"
   ],
   "note": ""
  },
  {
   "property": "C90",
   "status": "proved",
   "theorems": [
    "PyGSP.C90_two_bands",
    "PyGSP.C90_wavelets",
    "PyGSP.C90_translates",
    "PyGSP.C90_others",
    "PyGSP.C90_windows"
   ],
   "note": ""
  },
  {
   "property": "C91",
   "status": "proved",
   "theorems": [
    "PyGSP.C91_best_approximation",
    "PyGSP.C91_errors",
    "PyGSP.C91_limit"
   ],
   "note": ""
  },
  {
   "property": "C92",
   "status": "proved",
   "theorems": [
    "PyGSP.C92_coefficients",
    "PyGSP.C92_bounds",
    "PyGSP.C92_accuracy",
    "PyGSP.C92_errors",
    "PyGSP.C92_bounds_overwritten_violated",
    "PyGSP.C92_filter"
   ],
   "note": ""
  },
  {
   "property": "C93",
   "status": "proved",
   "theorems": [
    "PyGSP.C93_projection",
    "PyGSP.C93_krylov",
    "PyGSP.C93_early_stop",
    "PyGSP.C93_square_violated"
   ],
   "note": ""
  },
  {
   "property": "C94",
   "status": "proved",
   "theorems": [
    "PyGSP.Gen.C94_swissroll",
    "PyGSP.Gen.C94_swissroll_points",
    "PyGSP.Gen.C94_swissroll_returns",
    "PyGSP.Gen.C94_swissroll_distinct",
    "PyGSP.Gen.C94_david",
    "PyGSP.Gen.C94_david_dense_violated"
   ],
   "note": ""
  },
  {
   "property": "C95",
   "status": "proved",
   "theorems": [
    "PyGSP.Gen.C95_sensor_cells",
    "PyGSP.Gen.C95_sensor",
    "PyGSP.Gen.C95_sensor_returns",
    "PyGSP.Gen.C95_sphere",
    "PyGSP.Gen.C95_sphere_errors",
    "PyGSP.Gen.C95_sphere_radius_violated",
    "PyGSP.Gen.C95_cube_points",
    "PyGSP.Gen.C95_cube",
    "PyGSP.Gen.C95_cube_errors",
    "PyGSP.Gen.C95_twomoons",
    "PyGSP.Gen.C95_twomoons_errors",
    "PyGSP.Gen.C95_twomoons_copies_violated"
   ],
   "note": ""
  },
  {
   "property": "C96",
   "status": "proved",
   "theorems": [
    "PyGSP.Gen.C96_features",
    "PyGSP.Gen.C96_center",
    "PyGSP.Gen.C96_contrast",
    "PyGSP.Gen.C96_errors",
    "PyGSP.Gen.C96_graph",
    "PyGSP.Gen.C96_grid",
    "PyGSP.Gen.C96_grid_errors",
    "PyGSP.Gen.C96_grid_structure"
   ],
   "note": ""
  },
  {
   "property": "C97",
   "status": "proved",
   "theorems": [
    "PyGSP.C97_near_best",
    "PyGSP.C97_lipschitz",
    "PyGSP.C97_convergence",
    "PyGSP.C97_smooth",
    "PyGSP.C97_heat"
   ],
   "note": ""
  },
  {
   "property": "C98",
   "status": "proved",
   "theorems": [
    "PyGSP.Plot.C98_positions",
    "PyGSP.Plot.C98_vertex_sizes",
    "PyGSP.Plot.C98_edge_style",
    "PyGSP.Plot.C98_signal",
    "PyGSP.Plot.C98_scaled",
    "PyGSP.Plot.C98_default_ranges",
    "PyGSP.Plot.C98_returns",
    "PyGSP.Plot.C98_errors",
    "PyGSP.Plot.C98_curve",
    "PyGSP.Plot.C98_line_without_signal_violated",
    "PyGSP.Plot.C98_default_limits",
    "PyGSP.Plot.C98_small_signal_violated",
    "PyGSP.Plot.C98_single_violated",
    "PyGSP.Plot.C98_pyqtgraph_violated"
   ],
   "note": ""
  },
  {
   "property": "C99",
   "status": "proved",
   "theorems": [
    "PyGSP.C99_history",
    "PyGSP.C99_graphs_intact",
    "PyGSP.C99_eager_constant",
    "PyGSP.C99_eager_reads",
    "PyGSP.C99_lazy_current",
    "PyGSP.C99_lazy_filter",
    "PyGSP.C99_lazy_frame",
    "PyGSP.C99_lazy_in_program",
    "PyGSP.C99_lazy_stable",
    "PyGSP.C99_add",
    "PyGSP.C99_call",
    "PyGSP.C99_getitem",
    "PyGSP.C99_response_changes_violated",
    "PyGSP.C99_call_lmax_violated"
   ],
   "note": ""
  },
  {
   "property": "C100",
   "status": "proved",
   "theorems": [
    "PyGSP.C100_linspace",
    "PyGSP.C100_drawn",
    "PyGSP.C100_functions",
    "PyGSP.C100_tight",
    "PyGSP.C100_bounds",
    "PyGSP.C100_lazy",
    "PyGSP.C100_history",
    "PyGSP.C100_twice_violated"
   ],
   "note": ""
  },
  {
   "property": "C101",
   "status": "proved",
   "theorems": [
    "PyGSP.C101_lipschitz",
    "PyGSP.C101_rate",
    "PyGSP.C101_convergence"
   ],
   "note": ""
  },
  {
   "property": "C102",
   "status": "proved",
   "theorems": [
    "PyGSP.C102_spectrum",
    "PyGSP.C102_filter",
    "PyGSP.C102_chebyshev",
    "PyGSP.C102_resistance",
    "PyGSP.C102_regression",
    "PyGSP.C102_symmetry"
   ],
   "note": ""
  },
  {
   "property": "C103",
   "status": "proved",
   "theorems": [
    "PyGSP.C103_laplacian",
    "PyGSP.C103_spectrum",
    "PyGSP.C103_filter",
    "PyGSP.C103_chebyshev",
    "PyGSP.C103_resistance",
    "PyGSP.C103_regression",
    "PyGSP.C103_designs"
   ],
   "note": ""
  },
  {
   "property": "C104",
   "status": "proved",
   "theorems": [
    "PyGSP.C104_connected",
    "PyGSP.C104_energy",
    "PyGSP.C104_spectrum",
    "PyGSP.C104_resistance"
   ],
   "note": ""
  },
  {
   "property": "C105",
   "status": "proved",
   "theorems": [
    "PyGSP.C105_subgraph",
    "PyGSP.C105_components",
    "PyGSP.C105_filter",
    "PyGSP.C105_chebyshev",
    "PyGSP.C105_resistance",
    "PyGSP.C105_regression",
    "PyGSP.C105_spectrum"
   ],
   "note": ""
  },
  {
   "property": "C106",
   "status": "proved",
   "theorems": [
    "PyGSP.Gen.C106_minnesota",
    "PyGSP.Gen.C106_minnesota_raw",
    "PyGSP.Gen.C106_airfoil",
    "PyGSP.Gen.C106_airfoil_errors",
    "PyGSP.Gen.C106_bunny",
    "PyGSP.Gen.C106_bunny_returns"
   ],
   "note": ""
  },
  {
   "property": "C107",
   "status": "proved",
   "theorems": [
    "PyGSP.Gen.C107_path",
    "PyGSP.Gen.C107_ring",
    "PyGSP.Gen.C107_grid",
    "PyGSP.Gen.C107_torus"
   ],
   "note": ""
  },
  {
   "property": "C108",
   "status": "proved",
   "theorems": [
    "PyGSP.C108_ring",
    "PyGSP.C108_torus",
    "PyGSP.C108_path",
    "PyGSP.C108_grid",
    "PyGSP.C108_full",
    "PyGSP.C108_star",
    "PyGSP.C108_heat_grid",
    "PyGSP.C108_heat_torus"
   ],
   "note": ""
  },
  {
   "property": "C109",
   "status": "proved",
   "theorems": [
    "PyGSP.C109_regular_bipartite",
    "PyGSP.C109_join",
    "PyGSP.C109_normalized",
    "PyGSP.C109_bipartite",
    "PyGSP.C109_value",
    "PyGSP.C109_estimate",
    "PyGSP.C109_exact",
    "PyGSP.C109_bipartite_violated"
   ],
   "note": ""
  },
  {
   "property": "C110",
   "status": "proved",
   "theorems": [
    "PyGSP.C110_energy",
    "PyGSP.C110_spectrum",
    "PyGSP.C110_filter",
    "PyGSP.C110_designs",
    "PyGSP.C110_inexact"
   ],
   "note": ""
  },
  {
   "property": "C111",
   "status": "proved",
   "theorems": [
    "PyGSP.C111_edges",
    "PyGSP.C111_kron",
    "PyGSP.C111_subgraph"
   ],
   "note": ""
  },
  {
   "property": "C112",
   "status": "proved",
   "theorems": [
    "PyGSP.C112_refines",
    "PyGSP.C112_caller_keeps",
    "PyGSP.C112_frame",
    "PyGSP.C112_untouched",
    "PyGSP.C112_histories",
    "PyGSP.C112_corrupts_violated",
    "PyGSP.C112_stale_violated"
   ],
   "note": ""
  },
  {
   "property": "C113",
   "status": "proved",
   "theorems": [
    "PyGSP.C113_energy",
    "PyGSP.C113_multiplier",
    "PyGSP.C113_cascade",
    "PyGSP.C113_band",
    "PyGSP.C113_uncertainty",
    "PyGSP.C113_tikhonov",
    "PyGSP.C113_computed"
   ],
   "note": ""
  },
  {
   "property": "C114",
   "status": "proved",
   "theorems": [
    "PyGSP.C114_spectral",
    "PyGSP.C114_kirchhoff",
    "PyGSP.C114_foster",
    "PyGSP.C114_bounds"
   ],
   "note": ""
  },
  {
   "property": "C115",
   "status": "proved",
   "theorems": [
    "PyGSP.C115_poincare",
    "PyGSP.C115_cut",
    "PyGSP.C115_degrees",
    "PyGSP.C115_trace",
    "PyGSP.C115_normalized_cut",
    "PyGSP.C115_sweep",
    "PyGSP.C115_normalized_sweep",
    "PyGSP.C115_gap"
   ],
   "note": ""
  },
  {
   "property": "C116",
   "status": "proved",
   "theorems": [
    "PyGSP.C116_grid",
    "PyGSP.C116_accuracy",
    "PyGSP.C116_monotone",
    "PyGSP.C116_estimate_violated"
   ],
   "note": ""
  },
  {
   "property": "C117",
   "status": "proved",
   "theorems": [
    "PyGSP.C117_full",
    "PyGSP.C117_limit",
    "PyGSP.C117_title",
    "PyGSP.C117_small_limit_violated",
    "PyGSP.C117_counts",
    "PyGSP.C117_filter",
    "PyGSP.C117_filter_overrides",
    "PyGSP.C117_filter_counts"
   ],
   "note": ""
  },
  {
   "property": "C118",
   "status": "proved",
   "theorems": [
    "PyGSP.C118_domains",
    "PyGSP.C118_mode",
    "PyGSP.C118_oscillates",
    "PyGSP.C118_fiedler",
    "PyGSP.C118_bisection"
   ],
   "note": ""
  },
  {
   "property": "C119",
   "status": "proved",
   "theorems": [
    "PyGSP.C119_law",
    "PyGSP.C119_mean",
    "PyGSP.C119_variance",
    "PyGSP.C119_one_signal",
    "PyGSP.C119_all_signals",
    "PyGSP.C119_frequencies",
    "PyGSP.C119_connected",
    "PyGSP.C119_upper"
   ],
   "note": ""
  },
  {
   "property": "C120",
   "status": "proved",
   "theorems": [
    "PyGSP.C120_tradeoff",
    "PyGSP.C120_vs_interpolation",
    "PyGSP.C120_small_tau",
    "PyGSP.C120_large_tau",
    "PyGSP.C120_filter",
    "PyGSP.C120_stable",
    "PyGSP.C120_affine"
   ],
   "note": ""
  },
  {
   "property": "C121",
   "status": "proved",
   "theorems": [
    "PyGSP.C121_spread",
    "PyGSP.C121_heat",
    "PyGSP.C121_regression"
   ],
   "note": ""
  },
  {
   "property": "C122",
   "status": "proved",
   "theorems": [
    "PyGSP.C122_regression",
    "PyGSP.C122_two_steps",
    "PyGSP.C122_classification"
   ],
   "note": ""
  },
  {
   "property": "C123",
   "status": "proved",
   "theorems": [
    "PyGSP.C123_distribution",
    "PyGSP.C123_independent",
    "PyGSP.C123_conditional",
    "PyGSP.C123_trials",
    "PyGSP.C123_edges",
    "PyGSP.C123_erdosRenyi",
    "PyGSP.C123_connected_positive"
   ],
   "note": ""
  },
  {
   "property": "C124",
   "status": "proved",
   "theorems": [
    "PyGSP.C124_helmholtz",
    "PyGSP.C124_circulations",
    "PyGSP.C124_demands",
    "PyGSP.C124_div",
    "PyGSP.C124_thomson",
    "PyGSP.C124_resistance",
    "PyGSP.C124_gradients"
   ],
   "note": ""
  },
  {
   "property": "C125",
   "status": "proved",
   "theorems": [
    "PyGSP.C125_cut",
    "PyGSP.C125_lower",
    "PyGSP.C125_upper",
    "PyGSP.C125_bound",
    "PyGSP.C125_trials",
    "PyGSP.C125_erdosRenyi",
    "PyGSP.C125_degrees"
   ],
   "note": ""
  },
  {
   "property": "C126",
   "status": "proved",
   "theorems": [
    "PyGSP.C126_heat_equation",
    "PyGSP.C126_decay",
    "PyGSP.C126_mixing",
    "PyGSP.C126_equilibrium",
    "PyGSP.C126_energy",
    "PyGSP.C126_convex",
    "PyGSP.C126_spread",
    "PyGSP.C126_return"
   ],
   "note": ""
  },
  {
   "property": "C127",
   "status": "proved",
   "theorems": [
    "PyGSP.C127_wave",
    "PyGSP.C127_superposition",
    "PyGSP.C127_energy",
    "PyGSP.C127_mass",
    "PyGSP.C127_finite_speed"
   ],
   "note": ""
  },
  {
   "property": "C128",
   "status": "proved",
   "theorems": [
    "PyGSP.Plot.C128_close_all",
    "PyGSP.Plot.C128_stays_open",
    "PyGSP.Plot.C128_same_picture",
    "PyGSP.Plot.C128_graph_returns",
    "PyGSP.Plot.C128_graph_raises",
    "PyGSP.Plot.C128_line_without_signal",
    "PyGSP.Plot.C128_pyqtgraph",
    "PyGSP.Plot.C128_filter",
    "PyGSP.Plot.C128_stray_figure_violated"
   ],
   "note": ""
  },
  {
   "property": "C129",
   "status": "proved",
   "theorems": [
    "PyGSP.C129_read_back",
    "PyGSP.C129_path",
    "PyGSP.C129_path_text",
    "PyGSP.C129_ring",
    "PyGSP.C129_comet",
    "PyGSP.C129_torus",
    "PyGSP.C129_no_parameter",
    "PyGSP.C129_grid2d",
    "PyGSP.C129_grid2d_violated",
    "PyGSP.C129_block_model_violated",
    "PyGSP.C129_block_text",
    "PyGSP.C129_block_model"
   ],
   "note": ""
  },
  {
   "property": "C130",
   "status": "proved",
   "theorems": [
    "PyGSP.C130_no_package",
    "PyGSP.C130_sklearn",
    "PyGSP.C130_same_graph",
    "PyGSP.C130_metric_violated",
    "PyGSP.C130_errors",
    "PyGSP.C130_no_neighbour",
    "PyGSP.C130_pyflann"
   ],
   "note": ""
  },
  {
   "property": "C131",
   "status": "proved",
   "theorems": [
    "PyGSP.C131_call",
    "PyGSP.C131_program",
    "PyGSP.C131_frame",
    "PyGSP.C131_never_returns_violated"
   ],
   "note": ""
  },
  {
   "property": "C132",
   "status": "proved",
   "theorems": [
    "PyGSP.C132_frequencies",
    "PyGSP.C132_mode",
    "PyGSP.C132_gather",
    "PyGSP.C132_apart",
    "PyGSP.C132_misplaced",
    "PyGSP.C132_recovered",
    "PyGSP.C132_components"
   ],
   "note": ""
  },
  {
   "property": "C133",
   "status": "proved",
   "theorems": [
    "PyGSP.C133_first",
    "PyGSP.C133_computed",
    "PyGSP.C133_projection",
    "PyGSP.C133_eigenmap",
    "PyGSP.C133_drawing"
   ],
   "note": ""
  },
  {
   "property": "C134",
   "status": "proved",
   "theorems": [
    "PyGSP.C134_walk_stops",
    "PyGSP.C134_regression",
    "PyGSP.C134_classification",
    "PyGSP.C134_commute",
    "PyGSP.C134_escape",
    "PyGSP.C134_kron"
   ],
   "note": ""
  },
  {
   "property": "C135",
   "status": "proved",
   "theorems": [
    "PyGSP.C135_group",
    "PyGSP.C135_leak",
    "PyGSP.C135_mode",
    "PyGSP.C135_rectangular"
   ],
   "note": ""
  },
  {
   "property": "C136",
   "status": "proved",
   "theorems": [
    "PyGSP.Prefs.C136_limits_path",
    "PyGSP.Prefs.C136_limits_ring",
    "PyGSP.Prefs.C136_limits_randomRing",
    "PyGSP.Prefs.C136_limits_torus",
    "PyGSP.Prefs.C136_limits_star",
    "PyGSP.Prefs.C136_limits_tree",
    "PyGSP.Prefs.C136_limits_sensors",
    "PyGSP.Prefs.C136_limits_grid_violated",
    "PyGSP.Prefs.C136_limits_swissroll_violated",
    "PyGSP.Prefs.C136_made",
    "PyGSP.Prefs.C136_fresh",
    "PyGSP.Prefs.C136_private",
    "PyGSP.Prefs.C136_stay",
    "PyGSP.Prefs.C136_derived",
    "PyGSP.Prefs.C136_patches_ignored_violated",
    "PyGSP.Prefs.C136_readable",
    "PyGSP.Prefs.C136_style",
    "PyGSP.Prefs.C136_tree_width_violated",
    "PyGSP.Prefs.C136_view"
   ],
   "note": ""
  },
  {
   "property": "C137",
   "status": "proved",
   "theorems": [
    "PyGSP.C137_expected_degree",
    "PyGSP.C137_growth",
    "PyGSP.C137_older",
    "PyGSP.C137_law"
   ],
   "note": ""
  },
  {
   "property": "C138",
   "status": "proved",
   "theorems": [
    "PyGSP.Layout.C138_links",
    "PyGSP.Layout.C138_renaming",
    "PyGSP.Layout.C138_symmetry",
    "PyGSP.Layout.C138_twins",
    "PyGSP.Layout.C138_isometry",
    "PyGSP.Layout.C138_similar",
    "PyGSP.Layout.C138_flat"
   ],
   "note": ""
  },
  {
   "property": "C139",
   "status": "proved",
   "theorems": [
    "PyGSP.C139_one_vs_rest",
    "PyGSP.C139_two_classes",
    "PyGSP.C139_merge",
    "PyGSP.C139_rename",
    "PyGSP.C139_same_problem",
    "PyGSP.C139_fixed_point",
    "PyGSP.C139_rate",
    "PyGSP.C139_limit",
    "PyGSP.C139_normalized_violated"
   ],
   "note": ""
  },
  {
   "property": "C140",
   "status": "proved",
   "theorems": [
    "PyGSP.C140_distances_only",
    "PyGSP.C140_rotation",
    "PyGSP.C140_units_knn",
    "PyGSP.C140_box",
    "PyGSP.C140_units_radius",
    "PyGSP.C140_more_neighbours",
    "PyGSP.C140_larger_radius",
    "PyGSP.C140_chains",
    "PyGSP.C140_complete",
    "PyGSP.C140_order_knn",
    "PyGSP.C140_order_radius",
    "PyGSP.C140_rescale_rotation_violated",
    "PyGSP.C140_triangle_violated"
   ],
   "note": ""
  },
  {
   "property": "C141",
   "status": "proved",
   "theorems": [
    "PyGSP.C141_mean",
    "PyGSP.C141_all_signals",
    "PyGSP.C141_frequencies",
    "PyGSP.C141_erdosRenyi",
    "PyGSP.C141_communities",
    "PyGSP.C141_limit"
   ],
   "note": ""
  },
  {
   "property": "C142",
   "status": "proved",
   "theorems": [
    "PyGSP.C142_total",
    "PyGSP.C142_exact",
    "PyGSP.C142_cheby",
    "PyGSP.C142_combinatorial",
    "PyGSP.C142_unit",
    "PyGSP.C142_nearest",
    "PyGSP.C142_laplacian",
    "PyGSP.C142_frequencies",
    "PyGSP.C142_integers"
   ],
   "note": ""
  },
  {
   "property": "C143",
   "status": "proved",
   "theorems": [
    "PyGSP.C143_dot",
    "PyGSP.C143_transforms",
    "PyGSP.C143_roundtrip",
    "PyGSP.C143_exact",
    "PyGSP.C143_filter"
   ],
   "note": ""
  },
  {
   "property": "C144",
   "status": "proved",
   "theorems": [
    "PyGSP.C144_values",
    "PyGSP.C144_basis",
    "PyGSP.C144_scale_violated",
    "PyGSP.C144_negative_violated",
    "PyGSP.C144_lmax",
    "PyGSP.C144_lmax_violated"
   ],
   "note": ""
  },
  {
   "property": "C145",
   "status": "proved",
   "theorems": [
    "PyGSP.C145_exact",
    "PyGSP.C145_entries",
    "PyGSP.C145_frequencies",
    "PyGSP.C145_symmetric_violated"
   ],
   "note": ""
  },
  {
   "property": "C146",
   "status": "proved",
   "theorems": [
    "PyGSP.C146_solver",
    "PyGSP.C146_result",
    "PyGSP.C146_all_measured",
    "PyGSP.C146_error",
    "PyGSP.C146_small_tau",
    "PyGSP.C146_small_tau_violated",
    "PyGSP.C146_classification_violated",
    "PyGSP.C146_scaled",
    "PyGSP.C146_renamed",
    "PyGSP.C146_additive_violated"
   ],
   "note": ""
  },
  {
   "property": "C147",
   "status": "proved",
   "theorems": [
    "PyGSP.C147_rate",
    "PyGSP.C147_distance",
    "PyGSP.C147_far",
    "PyGSP.C147_far_violated"
   ],
   "note": ""
  },
  {
   "property": "C148",
   "status": "proved",
   "theorems": [
    "PyGSP.C148_energy",
    "PyGSP.C148_exact",
    "PyGSP.C148_grad",
    "PyGSP.C148_div",
    "PyGSP.C148_constant",
    "PyGSP.C148_integers",
    "PyGSP.C148_negative_violated"
   ],
   "note": ""
  },
  {
   "property": "C149",
   "status": "proved",
   "theorems": [
    "PyGSP.C149_coefficients",
    "PyGSP.C149_exact",
    "PyGSP.C149_exists",
    "PyGSP.C149_total",
    "PyGSP.C149_heat"
   ],
   "note": ""
  },
  {
   "property": "C150",
   "status": "proved",
   "theorems": [
    "PyGSP.C150_error",
    "PyGSP.C150_weight",
    "PyGSP.C150_exact",
    "PyGSP.C150_integers",
    "PyGSP.C150_separated_violated",
    "PyGSP.C150_diagonal_violated"
   ],
   "note": ""
  },
  {
   "property": "C151",
   "status": "proved",
   "theorems": [
    "PyGSP.Gen.C151_shuffle_probability",
    "PyGSP.Gen.C151_draws",
    "PyGSP.Gen.C151_uniform",
    "PyGSP.Gen.C151_probability",
    "PyGSP.Gen.C151_shuffle"
   ],
   "note": ""
  },
  {
   "property": "C152",
   "status": "proved",
   "theorems": [
    "PyGSP.Gen.C152_elsewhere",
    "PyGSP.Gen.C152_uniform",
    "PyGSP.Gen.C152_probability"
   ],
   "note": ""
  },
  {
   "property": "C153",
   "status": "proved",
   "theorems": [
    "PyGSP.C153_path",
    "PyGSP.C153_ring",
    "PyGSP.C153_full",
    "PyGSP.C153_star",
    "PyGSP.C153_multiresolution"
   ],
   "note": ""
  },
  {
   "property": "C154",
   "status": "proved",
   "theorems": [
    "PyGSP.C154_simple",
    "PyGSP.C154_default",
    "PyGSP.C154_star_mesh",
    "PyGSP.C154_bipartite_level",
    "PyGSP.C154_path_multiresolution",
    "PyGSP.C154_grid"
   ],
   "note": ""
  }
 ]
}
