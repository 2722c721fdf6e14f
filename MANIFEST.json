{
 "claims": [
  {
   "property": "C01",
   "status": "proved",
   "theorems": [
    "Fmmax.C01_reciprocal_dual",
    "Fmmax.C01_reciprocal_dependent"
   ],
   "note": ""
  },
  {
   "property": "C02",
   "status": "partial",
   "theorems": [
    "Fmmax.C02_false_for_batch_of_two",
    "Fmmax.C02_false_for_larger_batch",
    "Fmmax.C02_reciprocal_singleton_batch_partial",
    "Fmmax.C02_false_for_every_batch",
    "Fmmax.C02_exactly_single_lattices",
    "Fmmax.C02_finding_outer_batch"
   ],
   "note": "False for every batch shape with more than one lattice (C02_false_for_every_batch; wrong values, wrong shape or TypeError); C02_exactly_single_lattices shows that batches of a single lattice are exactly the cases where it holds."
  },
  {
   "property": "C03",
   "status": "proved",
   "theorems": [
    "Fmmax.C03_zeroth_order_first"
   ],
   "note": ""
  },
  {
   "property": "C04",
   "status": "proved",
   "theorems": [
    "Fmmax.C04_no_duplicate_orders"
   ],
   "note": ""
  },
  {
   "property": "C05",
   "status": "proved",
   "theorems": [
    "Fmmax.C05_sorted_by_magnitude"
   ],
   "note": ""
  },
  {
   "property": "C06",
   "status": "partial",
   "theorems": [
    "Fmmax.C06_false_for_odd_circular",
    "Fmmax.C06_negation_symmetric_partial",
    "Fmmax.C06_negation_symmetric_moderate_partial"
   ],
   "note": "False for circular truncation with an odd count on very elongated cells (refuted); proved for parallelogramic truncation, for even counts, and for every count when |u|^2,|v|^2 <= pi |u x v|."
  },
  {
   "property": "C07",
   "status": "partial",
   "theorems": [
    "Fmmax.C07_false_for_thin_cells",
    "Fmmax.C07_circular_orders_exact",
    "Fmmax.C07_circular_exact_partial",
    "Fmmax.C07_circular_exact_moderate_partial"
   ],
   "note": "False on very elongated cells (refuted); proved under N|u|^2 <= pi|u x v|(N//2+1)^2 (and v), plus an exact description in general."
  },
  {
   "property": "C08",
   "status": "proved",
   "theorems": [
    "Fmmax.C08_parallelogramic_box",
    "Fmmax.C08_half_sides_unique"
   ],
   "note": ""
  },
  {
   "property": "C09",
   "status": "proved",
   "theorems": [
    "Fmmax.C09_monotone_in_count"
   ],
   "note": ""
  },
  {
   "property": "C10",
   "status": "proved",
   "theorems": [
    "Fmmax.C10_brillouin_grid",
    "Fmmax.C10_brillouin_grid_zone"
   ],
   "note": ""
  },
  {
   "property": "C11",
   "status": "partial",
   "theorems": [
    "Fmmax.C11_false_for_lexicographic_check",
    "Fmmax.C11_shape_rejection_partial",
    "Fmmax.C11_positive_shapes_accepted"
   ],
   "note": "False: (2,0) raises ZeroDivisionError and (2,-1) returns an empty grid; the partial theorem characterises exactly when ValueError is raised."
  },
  {
   "property": "C12",
   "status": "proved",
   "theorems": [
    "Fmmax.C12_transverse_wavevectors"
   ],
   "note": ""
  },
  {
   "property": "C13",
   "status": "proved",
   "theorems": [
    "Fmmax.C13_plane_wave_magnitude",
    "Fmmax.C13_angles_round_trip",
    "Fmmax.C13_snell"
   ],
   "note": ""
  },
  {
   "property": "C14",
   "status": "proved",
   "theorems": [
    "Fmmax.C14_unit_cell_coordinates"
   ],
   "note": ""
  },
  {
   "property": "C15",
   "status": "proved",
   "theorems": [
    "Fmmax.C15_round_trip"
   ],
   "note": ""
  },
  {
   "property": "C16",
   "status": "proved",
   "theorems": [
    "Fmmax.C16_ifft_is_fourier_series",
    "Fmmax.C16_scatter_cells_distinct",
    "Fmmax.C16_fft_is_fourier_coefficients"
   ],
   "note": ""
  },
  {
   "property": "C17",
   "status": "proved",
   "theorems": [
    "Fmmax.C17_convolution_matrix_entries",
    "Fmmax.C17_differences_alias_at_minimum_shape"
   ],
   "note": ""
  },
  {
   "property": "C18",
   "status": "proved",
   "theorems": [
    "Fmmax.C18_convolution_theorem"
   ],
   "note": ""
  },
  {
   "property": "C19",
   "status": "proved",
   "theorems": [
    "Fmmax.C19_shape_validation",
    "Fmmax.C19_min_shape",
    "Fmmax.C19_no_alias",
    "Fmmax.C19_alias_below_bound"
   ],
   "note": ""
  },
  {
   "property": "C20",
   "status": "proved",
   "theorems": [
    "Fmmax.C20_constant",
    "Fmmax.C20_conj_transpose",
    "Fmmax.C20_linear",
    "Fmmax.C20_positive_real_part",
    "Fmmax.C20_quadratic_form"
   ],
   "note": ""
  },
  {
   "property": "C21",
   "status": "proved",
   "theorems": [
    "Fmmax.C21_selected_root",
    "Fmmax.C21_isotropic",
    "Fmmax.C21_anisotropic",
    "Fmmax.C21_forward_modes_do_not_grow",
    "Fmmax.C21_imaginary_part_may_vanish"
   ],
   "note": ""
  },
  {
   "property": "C22",
   "status": "proved",
   "theorems": [
    "Fmmax.C22_uniform_solves_general_eigenproblem",
    "Fmmax.C22_uniform_mode_equation",
    "Fmmax.C22_uniform_succeeds_iff"
   ],
   "note": ""
  },
  {
   "property": "C23",
   "status": "proved",
   "theorems": [
    "Fmmax.C23_constant_pattern_matrices",
    "Fmmax.C23_constant_pattern_layer"
   ],
   "note": ""
  },
  {
   "property": "C24",
   "status": "proved",
   "theorems": [
    "Fmmax.C24_fft_matrices",
    "Fmmax.C24_fft_layer",
    "Fmmax.C24_uniform",
    "Fmmax.C24_vector_constant_tangent",
    "Fmmax.C24_vector_constant_tangent_permeability",
    "Fmmax.C24_varying_tangent_not_exact",
    "Fmmax.C24_finding_zero_tangent"
   ],
   "note": ""
  },
  {
   "property": "C25",
   "status": "proved",
   "theorems": [
    "Fmmax.C25_uniform",
    "Fmmax.C25_numerical",
    "Fmmax.C25_patterned_fft",
    "Fmmax.C25_anisotropic_fft",
    "Fmmax.C25_anisotropic_uniform",
    "Fmmax.C25_modes_complete",
    "Fmmax.C25_absorbing_pattern",
    "Fmmax.C25_finding_reported_ez"
   ],
   "note": ""
  },
  {
   "property": "C26",
   "status": "proved",
   "theorems": [
    "Fmmax.C26_k_script_k_products_vanish",
    "Fmmax.C26_matrices_exist",
    "Fmmax.C26_uniform_script_k"
   ],
   "note": ""
  },
  {
   "property": "C27",
   "status": "proved",
   "theorems": [
    "Fmmax.C27_projector",
    "Fmmax.C27_selects_normal_component",
    "Fmmax.C27_scale_and_phase_free",
    "Fmmax.C27_no_division_by_zero"
   ],
   "note": ""
  },
  {
   "property": "C28",
   "status": "partial",
   "theorems": [
    "Fmmax.C28_validate",
    "Fmmax.C28_isotropic",
    "Fmmax.C28_general_anisotropic_partial",
    "Fmmax.C28_false_value_error",
    "Fmmax.C28_anisotropic"
   ],
   "note": "Isotropic entry point proved in full. Anisotropic entry points: success exactly under the stated conditions; the exception is TypeError (not ValueError) when xx and yy cannot be broadcast together (refuted by witness)."
  },
  {
   "property": "C29",
   "status": "proved",
   "theorems": [
    "Fmmax.C29_smatrix_sound"
   ],
   "note": ""
  },
  {
   "property": "C30",
   "status": "proved",
   "theorems": [
    "Fmmax.C30_smatrix_complete_unique"
   ],
   "note": ""
  },
  {
   "property": "C31",
   "status": "proved",
   "theorems": [
    "Fmmax.C31_append_layer",
    "Fmmax.C31_prepend_layer",
    "Fmmax.C31_any_build_order"
   ],
   "note": "append: equality including failure; prepend and arbitrary build orders: equality of the finite results"
  },
  {
   "property": "C32",
   "status": "proved",
   "theorems": [
    "Fmmax.C32_scan_eq_loop"
   ],
   "note": ""
  },
  {
   "property": "C33",
   "status": "proved",
   "theorems": [
    "Fmmax.C33_interior_substacks"
   ],
   "note": ""
  },
  {
   "property": "C34",
   "status": "proved",
   "theorems": [
    "Fmmax.C34_star_product",
    "Fmmax.C34_star_assoc"
   ],
   "note": ""
  },
  {
   "property": "C35",
   "status": "partial",
   "theorems": [
    "Fmmax.C35_false_for_single_layer",
    "Fmmax.C35_set_end_thickness_partial",
    "Fmmax.C35_set_start_thickness_partial"
   ],
   "note": "False for single-layer stacks (C35_false_for_single_layer); proved for every stack of at least two layers."
  },
  {
   "property": "C36",
   "status": "proved",
   "theorems": [
    "Fmmax.C36_single_layer",
    "Fmmax.C36_identical_layers"
   ],
   "note": "Amplitudes are referred to the start (forward) and end (backward) of a layer, so the phase counts all layers but the last / first."
  },
  {
   "property": "C37",
   "status": "proved",
   "theorems": [
    "Fmmax.C37_split_layer"
   ],
   "note": ""
  },
  {
   "property": "C38",
   "status": "proved",
   "theorems": [
    "Fmmax.C38_mode_change",
    "Fmmax.C38_interior_modes"
   ],
   "note": ""
  },
  {
   "property": "C39",
   "status": "proved",
   "theorems": [
    "Fmmax.C39_group_action",
    "Fmmax.C39_invertible",
    "Fmmax.C39_no_amplification",
    "Fmmax.C39_eigensolve_layers_do_not_amplify",
    "Fmmax.C39_colocate_ends"
   ],
   "note": ""
  },
  {
   "property": "C40",
   "status": "proved",
   "theorems": [
    "Fmmax.C40_recovers_consistent_amplitudes",
    "Fmmax.C40_interior_amplitudes",
    "Fmmax.C40_agrees_with_s_matrix"
   ],
   "note": ""
  },
  {
   "property": "C41",
   "status": "proved",
   "theorems": [
    "Fmmax.C41_amplitude_flux",
    "Fmmax.C41_amplitude_split",
    "Fmmax.C41_directional_flux",
    "Fmmax.C41_directional_pure",
    "Fmmax.C41_eigenmode_flux",
    "Fmmax.C41_succeeds_iff"
   ],
   "note": ""
  },
  {
   "property": "C42",
   "status": "proved",
   "theorems": [
    "Fmmax.C42_uniform_lossless",
    "Fmmax.C42_anisotropic_lossless",
    "Fmmax.C42_isotropic_lossless",
    "Fmmax.C42_energy_conservation",
    "Fmmax.C42_reflection_transmission",
    "Fmmax.C42_two_sided",
    "Fmmax.C42_vector_lossless",
    "Fmmax.C42_vector_anisotropic_lossless",
    "Fmmax.C42_finding_vector_formulation"
   ],
   "note": ""
  },
  {
   "property": "C43",
   "status": "proved",
   "theorems": [
    "Fmmax.C43_uniform_passive",
    "Fmmax.C43_anisotropic_passive",
    "Fmmax.C43_isotropic_passive",
    "Fmmax.C43_passivity",
    "Fmmax.C43_reflection_transmission",
    "Fmmax.C43_two_sided",
    "Fmmax.C43_vector_passive"
   ],
   "note": ""
  },
  {
   "property": "C44",
   "status": "proved",
   "theorems": [
    "Fmmax.C44_layer_3d_grid_eq_coordinates",
    "Fmmax.C44_stack_3d_grid_eq_coordinates",
    "Fmmax.C44_on_coordinates",
    "Fmmax.C44_grid_succeeds_iff",
    "Fmmax.C44_grid_eq_coordinates",
    "Fmmax.C44_bloch_coordinates",
    "Fmmax.C44_bloch_grid"
   ],
   "note": ""
  },
  {
   "property": "C45",
   "status": "proved",
   "theorems": [
    "Fmmax.C45_lengths_rejected",
    "Fmmax.C45_succeeds_iff",
    "Fmmax.C45_z_coordinates",
    "Fmmax.C45_finding_single_gridpoint"
   ],
   "note": ""
  },
  {
   "property": "C46",
   "status": "proved",
   "theorems": [
    "Fmmax.C46_layer_coordinates_succeeds_iff",
    "Fmmax.C46_layer_columns",
    "Fmmax.C46_layer_grid_succeeds_iff",
    "Fmmax.C46_stack_columns",
    "Fmmax.C46_tangential_continuity"
   ],
   "note": ""
  },
  {
   "property": "C47",
   "status": "proved",
   "theorems": [
    "Fmmax.C47_invertible_iff",
    "Fmmax.C47_round_trip",
    "Fmmax.C47_fields_reproduced"
   ],
   "note": ""
  },
  {
   "property": "C48",
   "status": "proved",
   "theorems": [
    "Fmmax.C48_bloch_components",
    "Fmmax.C48_shape_rejected"
   ],
   "note": ""
  },
  {
   "property": "C49",
   "status": "proved",
   "theorems": [
    "Fmmax.C49_interior_amplitudes",
    "Fmmax.C49_source_sound",
    "Fmmax.C49_source_unique",
    "Fmmax.C49_succeeds_iff"
   ],
   "note": ""
  },
  {
   "property": "C50",
   "status": "proved",
   "theorems": [
    "Fmmax.C50_dirac",
    "Fmmax.C50_dirac_shift",
    "Fmmax.C50_gaussian",
    "Fmmax.C50_gaussian_zero_width",
    "Fmmax.C50_gaussian_smaller"
   ],
   "note": ""
  },
  {
   "property": "C51",
   "status": "proved",
   "theorems": [
    "Fmmax.C51_interior",
    "Fmmax.C51_finding_zero_exponent"
   ],
   "note": ""
  },
  {
   "property": "C52",
   "status": "proved",
   "theorems": [
    "Fmmax.C52_matched",
    "Fmmax.C52_finite",
    "Fmmax.C52_stretch"
   ],
   "note": ""
  },
  {
   "property": "C53",
   "status": "proved",
   "theorems": [
    "Fmmax.C53_closed_form",
    "Fmmax.C53_profile"
   ],
   "note": ""
  },
  {
   "property": "C54",
   "status": "proved",
   "theorems": [
    "Fmmax.C54_widths",
    "Fmmax.C54_finding_empty_axis"
   ],
   "note": ""
  },
  {
   "property": "C55",
   "status": "proved",
   "theorems": [
    "Fmmax.C55_composition",
    "Fmmax.C55_rotation",
    "Fmmax.C55_axis",
    "Fmmax.C55_polarization"
   ],
   "note": ""
  },
  {
   "property": "C56",
   "status": "proved",
   "theorems": [
    "Fmmax.C56_evaluation",
    "Fmmax.C56_geometry",
    "Fmmax.C56_identity"
   ],
   "note": ""
  },
  {
   "property": "C57",
   "status": "proved",
   "theorems": [
    "Fmmax.C57_normalize",
    "Fmmax.C57_normalize_elementwise",
    "Fmmax.C57_fields"
   ],
   "note": ""
  },
  {
   "property": "C58",
   "status": "proved",
   "theorems": [
    "Fmmax.C58_unit",
    "Fmmax.C58_polarization",
    "Fmmax.C58_finding_complex_field"
   ],
   "note": ""
  },
  {
   "property": "C59",
   "status": "proved",
   "theorems": [
    "Fmmax.C59_gradient",
    "Fmmax.C59_invariances"
   ],
   "note": ""
  },
  {
   "property": "C60",
   "status": "proved",
   "theorems": [
    "Fmmax.C60_scale",
    "Fmmax.C60_offset",
    "Fmmax.C60_contrast"
   ],
   "note": ""
  },
  {
   "property": "C61",
   "status": "partial",
   "theorems": [
    "Fmmax.C61_direction",
    "Fmmax.C61_phase",
    "Fmmax.C61_axis_aligned_partial",
    "Fmmax.C61_false_diagonal",
    "Fmmax.C61_false_complex_contrast",
    "Fmmax.C61_singleton_axis"
   ],
   "note": "False (C61_false_diagonal, C61_false_complex_contrast): the code returns (sin a, cos a) for gradient angle a, where the phase of a complex contrast is added to a; perpendicular to the gradient for real contrast along a coordinate axis (partial theorem). C61_direction and C61_phase give the field exactly."
  },
  {
   "property": "C62",
   "status": "proved",
   "theorems": [
    "Fmmax.C62_unflatten",
    "Fmmax.C62_rejects"
   ],
   "note": ""
  },
  {
   "property": "C63",
   "status": "proved",
   "theorems": [
    "Fmmax.C63_regular_grid"
   ],
   "note": ""
  },
  {
   "property": "C64",
   "status": "proved",
   "theorems": [
    "Fmmax.C64_unflatten_flux",
    "Fmmax.C64_finding_axis_order"
   ],
   "note": ""
  },
  {
   "property": "C65",
   "status": "proved",
   "theorems": [
    "Fmmax.C65_angles"
   ],
   "note": ""
  },
  {
   "property": "C66",
   "status": "proved",
   "theorems": [
    "Fmmax.C66_weights_exact",
    "Fmmax.C66_total",
    "Fmmax.C66_additive",
    "Fmmax.C66_monotone",
    "Fmmax.C66_finding_missing_orders"
   ],
   "note": ""
  },
  {
   "property": "C67",
   "status": "proved",
   "theorems": [
    "Fmmax.C67_batch_compatible",
    "Fmmax.C67_finding_zero_dimension"
   ],
   "note": ""
  },
  {
   "property": "C68",
   "status": "proved",
   "theorems": [
    "Fmmax.C68_absolute_axes",
    "Fmmax.C68_rejects",
    "Fmmax.C68_idempotent"
   ],
   "note": ""
  },
  {
   "property": "C69",
   "status": "proved",
   "theorems": [
    "Fmmax.C69_endpoints",
    "Fmmax.C69_nonzero",
    "Fmmax.C69_passive"
   ],
   "note": ""
  },
  {
   "property": "C70",
   "status": "proved",
   "theorems": [
    "Fmmax.C70_denominators",
    "Fmmax.C70_finite",
    "Fmmax.C70_adjoint",
    "Fmmax.C70_regularised",
    "Fmmax.C70_broadening_error",
    "Fmmax.C70_scaling"
   ],
   "note": ""
  },
  {
   "property": "C71",
   "status": "proved",
   "theorems": [
    "Fmmax.C71_hash",
    "Fmmax.C71_equivalence",
    "Fmmax.C71_hash_key",
    "Fmmax.C71_finding_float",
    "Fmmax.C71_round_trip",
    "Fmmax.C71_enum"
   ],
   "note": ""
  },
  {
   "property": "C72",
   "status": "proved",
   "theorems": [
    "Fmmax.C72_solid_angle"
   ],
   "note": ""
  },
  {
   "property": "C73",
   "status": "proved",
   "theorems": [
    "Fmmax.C73_maxwell"
   ],
   "note": ""
  },
  {
   "property": "C74",
   "status": "proved",
   "theorems": [
    "Fmmax.C74_minimizer",
    "Fmmax.C74_start",
    "Fmmax.C74_solvable",
    "Fmmax.C74_steps",
    "Fmmax.C74_tangent_field",
    "Fmmax.C74_working_grid",
    "Fmmax.C74_no_steps"
   ],
   "note": "jax's reverse-mode convention for complex inputs is part of the model (jaxGrad)."
  },
  {
   "property": "C75",
   "status": "proved",
   "theorems": [
    "Fmmax.C75_finite",
    "Fmmax.C75_schemes"
   ],
   "note": ""
  },
  {
   "property": "C76",
   "status": "proved",
   "theorems": [
    "Fmmax.C76_lattice_vectors",
    "Fmmax.C76_finding_unchecked",
    "Fmmax.C76_expansion",
    "Fmmax.C76_layer_solve_result",
    "Fmmax.C76_finding_weak_checks",
    "Fmmax.C76_amplitudes"
   ],
   "note": ""
  },
  {
   "property": "C77",
   "status": "proved",
   "theorems": [
    "Fmmax.C77_transverse_wavevectors_batch"
   ],
   "note": ""
  },
  {
   "property": "C78",
   "status": "proved",
   "theorems": [
    "Fmmax.C78_profile",
    "Fmmax.C78_brillouin_profile",
    "Fmmax.C78_finding_missing_neighbour"
   ],
   "note": ""
  },
  {
   "property": "C79",
   "status": "proved",
   "theorems": [
    "Fmmax.C79_auto_grid",
    "Fmmax.C79_xy_spacing",
    "Fmmax.C79_z_spacing",
    "Fmmax.C79_finding_thin_layer"
   ],
   "note": ""
  },
  {
   "property": "C80",
   "status": "partial",
   "theorems": [
    "Fmmax.C80_per_element_partial",
    "Fmmax.C80_raises_otherwise",
    "Fmmax.C80_false_for_partial_broadcast",
    "Fmmax.C80_finding_silent_pairing"
   ],
   "note": "False if the lattice batch is neither a single lattice nor one lattice per array (C80_false_for_partial_broadcast; C80_raises_otherwise shows ValueError in all those cases); proved in the remaining cases."
  },
  {
   "property": "C81",
   "status": "proved",
   "theorems": [
    "Fmmax.C81_absorbing_second",
    "Fmmax.C81_absorbing_slab",
    "Fmmax.C81_anisotropic_absorbing",
    "Fmmax.C81_anisotropic_succeeds",
    "Fmmax.C81_succeeds_iff",
    "Fmmax.C81_absorbing_first",
    "Fmmax.C81_absorbing_stack",
    "Fmmax.C81_append_iff",
    "Fmmax.C81_prepend_iff",
    "Fmmax.C81_star_iff",
    "Fmmax.C81_operations",
    "Fmmax.C81_uniform_absorbing",
    "Fmmax.C81_isotropic_absorbing",
    "Fmmax.C81_uniform_outward",
    "Fmmax.C81_finding_surface_wave"
   ],
   "note": ""
  },
  {
   "property": "C82",
   "status": "proved",
   "theorems": [
    "Fmmax.C82_field_shapes",
    "Fmmax.C82_finding_negative_axes",
    "Fmmax.C82_finding_broadcast_rejected"
   ],
   "note": ""
  },
  {
   "property": "C83",
   "status": "proved",
   "theorems": [
    "Fmmax.C83_dirac_batch",
    "Fmmax.C83_gaussian_batch",
    "Fmmax.C83_rejects"
   ],
   "note": ""
  },
  {
   "property": "C84",
   "status": "proved",
   "theorems": [
    "Fmmax.C84_redescription",
    "Fmmax.C84_uniform_ends"
   ],
   "note": ""
  },
  {
   "property": "C85",
   "status": "proved",
   "theorems": [
    "Fmmax.C85_translation",
    "Fmmax.C85_magnitudes",
    "Fmmax.C85_roll",
    "Fmmax.C85_rolled_arrays",
    "Fmmax.C85_rolled_formulations"
   ],
   "note": ""
  },
  {
   "property": "C86",
   "status": "proved",
   "theorems": [
    "Fmmax.C86_formulations",
    "Fmmax.C86_similarity",
    "Fmmax.C86_scale_invariance"
   ],
   "note": ""
  },
  {
   "property": "C87",
   "status": "proved",
   "theorems": [
    "Fmmax.C87_relabelling",
    "Fmmax.C87_supercell",
    "Fmmax.C87_exchange"
   ],
   "note": ""
  },
  {
   "property": "C88",
   "status": "proved",
   "theorems": [
    "Fmmax.C88_symmetry",
    "Fmmax.C88_half_turn",
    "Fmmax.C88_mirror"
   ],
   "note": ""
  },
  {
   "property": "C89",
   "status": "proved",
   "theorems": [
    "Fmmax.C89_lorentz_invariant",
    "Fmmax.C89_reciprocity",
    "Fmmax.C89_uniform_ends",
    "Fmmax.C89_normal_incidence",
    "Fmmax.C89_zeroth_order",
    "Fmmax.C89_half_turn"
   ],
   "note": ""
  },
  {
   "property": "C90",
   "status": "proved",
   "theorems": [
    "Fmmax.C90_fft_axes",
    "Fmmax.C90_ifft_axis",
    "Fmmax.C90_round_trip",
    "Fmmax.C90_shape_rejected",
    "Fmmax.C90_finding_reversed_axes",
    "Fmmax.C90_finding_separated_axes"
   ],
   "note": ""
  },
  {
   "property": "C91",
   "status": "proved",
   "theorems": [
    "Fmmax.C91_scalar_thickness",
    "Fmmax.C91_batched_thickness",
    "Fmmax.C91_finding_thickness_per_mode",
    "Fmmax.C91_batched_distance",
    "Fmmax.C91_scalar_distance",
    "Fmmax.C91_distance_per_amplitude",
    "Fmmax.C91_finding_no_common_shape"
   ],
   "note": ""
  },
  {
   "property": "C92",
   "status": "proved",
   "theorems": [
    "Fmmax.C92_supercell",
    "Fmmax.C92_uniform_ends",
    "Fmmax.C92_brillouin_grid"
   ],
   "note": ""
  },
  {
   "property": "C93",
   "status": "proved",
   "theorems": [
    "Fmmax.C93_transmission_line",
    "Fmmax.C93_succeeds_iff",
    "Fmmax.C93_interface_succeeds_iff",
    "Fmmax.C93_fresnel",
    "Fmmax.C93_airy",
    "Fmmax.C93_total_reflection",
    "Fmmax.C93_brewster"
   ],
   "note": ""
  },
  {
   "property": "C94",
   "status": "partial",
   "theorems": [
    "Fmmax.C94_constant_tangent",
    "Fmmax.C94_succeeds_iff",
    "Fmmax.C94_determined",
    "Fmmax.C94_phase_y",
    "Fmmax.C94_phase_x",
    "Fmmax.C94_lines_y",
    "Fmmax.C94_lines_x",
    "Fmmax.C94_finding_absorption",
    "Fmmax.C94_modes",
    "Fmmax.C94_finding_single_order",
    "Fmmax.C94_effective_medium",
    "Fmmax.C94_false_absorption",
    "Fmmax.C94_false_single_order"
   ],
   "note": ""
  },
  {
   "property": "C95",
   "status": "proved",
   "theorems": [
    "Fmmax.C95_absorbed_power",
    "Fmmax.C95_uniform",
    "Fmmax.C95_isotropic_density",
    "Fmmax.C95_balance",
    "Fmmax.C95_incident_power",
    "Fmmax.C95_finding_reported_ez"
   ],
   "note": ""
  },
  {
   "property": "C96",
   "status": "proved",
   "theorems": [
    "Fmmax.C96_isotropic",
    "Fmmax.C96_anisotropic",
    "Fmmax.C96_anisotropic_unit_permeability",
    "Fmmax.C96_stack",
    "Fmmax.C96_calculation"
   ],
   "note": ""
  },
  {
   "property": "C97",
   "status": "proved",
   "theorems": [
    "Fmmax.C97_succeeds_iff",
    "Fmmax.C97_absorbing",
    "Fmmax.C97_uniform_layers"
   ],
   "note": ""
  },
  {
   "property": "C98",
   "status": "proved",
   "theorems": [
    "Fmmax.C98_point_sources",
    "Fmmax.C98_emission",
    "Fmmax.C98_brillouin_average"
   ],
   "note": ""
  },
  {
   "property": "C99",
   "status": "proved",
   "theorems": [
    "Fmmax.C99_incident_waves",
    "Fmmax.C99_sources"
   ],
   "note": ""
  },
  {
   "property": "C100",
   "status": "proved",
   "theorems": [
    "Fmmax.C100_false_even",
    "Fmmax.C100_supercell",
    "Fmmax.C100_box",
    "Fmmax.C100_generated"
   ],
   "note": "Proved for odd numbers of cells; the negative statement for even numbers is C100_false_even (witness with two cells)."
  },
  {
   "property": "C101",
   "status": "proved",
   "theorems": [
    "Fmmax.C101_false_ratio",
    "Fmmax.C101_false_magnitude",
    "Fmmax.C101_resolution"
   ],
   "note": "The negative part of the statement is proved by witnesses valid for all positive weights (C101_false_ratio, C101_false_magnitude)."
  },
  {
   "property": "C102",
   "status": "proved",
   "theorems": [
    "Fmmax.C102_currents",
    "Fmmax.C102_same_plane",
    "Fmmax.C102_points",
    "Fmmax.C102_uniform_layers"
   ],
   "note": ""
  },
  {
   "property": "C103",
   "status": "proved",
   "theorems": [
    "Fmmax.C103_fields",
    "Fmmax.C103_flux",
    "Fmmax.C103_duality",
    "Fmmax.C103_vacuum_ends",
    "Fmmax.C103_self_dual",
    "Fmmax.C103_no_reflection"
   ],
   "note": ""
  },
  {
   "property": "C104",
   "status": "proved",
   "theorems": [
    "Fmmax.C104_translation",
    "Fmmax.C104_turn",
    "Fmmax.C104_turn_jones",
    "Fmmax.C104_formulation_translation",
    "Fmmax.C104_formulation_turn",
    "Fmmax.C104_formulation_turn_jones",
    "Fmmax.C104_stack_translation",
    "Fmmax.C104_stack_turn",
    "Fmmax.C104_finding_gratings",
    "Fmmax.C104_finding_jones_mirror"
   ],
   "note": ""
  },
  {
   "property": "C105",
   "status": "proved",
   "theorems": [
    "Fmmax.C105_interior",
    "Fmmax.C105_interior_shape",
    "Fmmax.C105_prepend",
    "Fmmax.C105_star_product",
    "Fmmax.C105_set_end_layer_thickness",
    "Fmmax.C105_set_start_layer_thickness",
    "Fmmax.C105_calculation"
   ],
   "note": ""
  },
  {
   "property": "C106",
   "status": "proved",
   "theorems": [
    "Fmmax.C106_amplitudes",
    "Fmmax.C106_amplitudes_with_source",
    "Fmmax.C106_amplitude_poynting_flux",
    "Fmmax.C106_directional_poynting_flux",
    "Fmmax.C106_eigenmode_poynting_flux",
    "Fmmax.C106_fields",
    "Fmmax.C106_finding_fields_of_unequal_shapes",
    "Fmmax.C106_fields_on_grid",
    "Fmmax.C106_fields_on_coordinates"
   ],
   "note": ""
  },
  {
   "property": "C107",
   "status": "proved",
   "theorems": [
    "Fmmax.C107_layer_fields_3d",
    "Fmmax.C107_layer_fields_3d_on_coordinates",
    "Fmmax.C107_stack_fields_3d",
    "Fmmax.C107_stack_fields_3d_on_coordinates",
    "Fmmax.C107_calculation",
    "Fmmax.C107_finding_unequal_shapes"
   ],
   "note": ""
  },
  {
   "property": "C108",
   "status": "proved",
   "theorems": [
    "Fmmax.C108_polarization_terms",
    "Fmmax.C108_polarization_terms_shapes",
    "Fmmax.C108_amplitudes",
    "Fmmax.C108_finding_unequal_shapes",
    "Fmmax.C108_fields",
    "Fmmax.C108_fields_on_coordinates"
   ],
   "note": ""
  },
  {
   "property": "C109",
   "status": "proved",
   "theorems": [
    "Fmmax.C109_stack",
    "Fmmax.C109_interior",
    "Fmmax.C109_shape",
    "Fmmax.C109_append",
    "Fmmax.C109_prepend",
    "Fmmax.C109_set_end_layer_thickness",
    "Fmmax.C109_set_start_layer_thickness",
    "Fmmax.C109_thickness_axis",
    "Fmmax.C109_calculation",
    "Fmmax.C109_finding_mode_axis"
   ],
   "note": ""
  },
  {
   "property": "C110",
   "status": "proved",
   "theorems": [
    "Fmmax.C110_scan",
    "Fmmax.C110_scan_eq_loop",
    "Fmmax.C110_rejects",
    "Fmmax.C110_finding_one_lattice",
    "Fmmax.C110_calculation"
   ],
   "note": "The documented use with a batched eigensolve and one lattice fails (C110_finding_one_lattice); proved for stacked layers, and for the batched eigensolve after its arrays are broadcast along the leading axis."
  },
  {
   "property": "C111",
   "status": "proved",
   "theorems": [
    "Fmmax.C111_common_batch",
    "Fmmax.C111_elements",
    "Fmmax.C111_total",
    "Fmmax.C111_finding_wavelengths_summed",
    "Fmmax.C111_rejects_zero"
   ],
   "note": "Proved for every common batch; the batch elements are separate only if the wavelength and wavevector can be broadcast to the batch of the flux (C111_elements), otherwise they are summed (C111_finding_wavelengths_summed)."
  },
  {
   "property": "C112",
   "status": "proved",
   "theorems": [
    "Fmmax.C112_reversed_stack",
    "Fmmax.C112_palindrome",
    "Fmmax.C112_interior",
    "Fmmax.C112_finding_direction",
    "Fmmax.C112_amplitudes",
    "Fmmax.C112_fields_mirrored",
    "Fmmax.C112_fluxes",
    "Fmmax.C112_fields_3d_coordinates",
    "Fmmax.C112_fields_3d_grid",
    "Fmmax.C112_finding_single_gridpoint",
    "Fmmax.C112_calculation",
    "Fmmax.C112_emission",
    "Fmmax.C112_emission_interior"
   ],
   "note": "stack_s_matrix may be finite in one direction only (C112_finding_direction), stack_s_matrices_interior not (C112_interior). Fields: numbers of gridpoints along z other than 1 (C112_finding_single_gridpoint). Sources: vertical currents enter through the layer before the source, so they need equal layers on both sides of it."
  },
  {
   "property": "C113",
   "status": "proved",
   "theorems": [
    "Fmmax.C113_amplitudes_for_fields",
    "Fmmax.C113_rejected",
    "Fmmax.C113_supercell_round_trip",
    "Fmmax.C113_auto_grid"
   ],
   "note": "Fields on the numerical grid of a lattice without batch dimensions for the automatic grid."
  },
  {
   "property": "C114",
   "status": "proved",
   "theorems": [
    "Fmmax.C114_stack_s_matrix",
    "Fmmax.C114_stack_s_matrix_scan",
    "Fmmax.C114_interior",
    "Fmmax.C114_append_prepend",
    "Fmmax.C114_star_product",
    "Fmmax.C114_amplitudes_interior",
    "Fmmax.C114_stack_amplitudes",
    "Fmmax.C114_colocate",
    "Fmmax.C114_poynting_flux",
    "Fmmax.C114_eigenmode_flux",
    "Fmmax.C114_fields",
    "Fmmax.C114_fields_on_coordinates",
    "Fmmax.C114_directional_flux",
    "Fmmax.C114_finite_open",
    "Fmmax.C114_thicknesses",
    "Fmmax.C114_end_thickness_derivative"
   ],
   "note": "Patterned layers enter through their eigenvalues and eigenvectors, of which smoothness is assumed; fields on a grid are not included (fields at coordinates are)."
  },
  {
   "property": "C115",
   "status": "proved",
   "theorems": [
    "Fmmax.C115_uniform_layer",
    "Fmmax.C115_uniform_stack",
    "Fmmax.C115_finding_gain_flips_eigenvalues",
    "Fmmax.C115_finding_gain_inverts_reflection"
   ],
   "note": "The sign of eigenvalues jumps where a lossless propagating mode acquires gain (C115_finding_gain_flips_eigenvalues, C115_finding_gain_inverts_reflection)."
  },
  {
   "property": "C116",
   "status": "proved",
   "theorems": [
    "Fmmax.C116_row",
    "Fmmax.C116_uniform_ends",
    "Fmmax.C116_uncoupled",
    "Fmmax.C116_classical_mount",
    "Fmmax.C116_groove_length",
    "Fmmax.C116_named_schemes"
   ],
   "note": "Layers with a single row and several columns (1 x n arrays) are not covered: the single-column calculation would use the solver for uniform layers."
  },
  {
   "property": "C117",
   "status": "proved",
   "theorems": [
    "Fmmax.C117_stack_s_matrix",
    "Fmmax.C117_fields",
    "Fmmax.C117_eigensolve",
    "Fmmax.C117_absorbing_layer",
    "Fmmax.C117_solved_stack"
   ],
   "note": "Differentiability is stated on the set of parameters with independent eigenvectors in the interior layers; at lossless propagating modes see C115."
  },
  {
   "property": "C118",
   "status": "proved",
   "theorems": [
    "Fmmax.C118_computed_gradient",
    "Fmmax.C118_true_derivative",
    "Fmmax.C118_gradient_error",
    "Fmmax.C118_finding_degenerate_modes",
    "Fmmax.C118_finding_choice_of_eigenvectors"
   ],
   "note": "The true derivative and the computed gradient are both determined exactly; C118_finding_* show that they differ for degenerate modes."
  },
  {
   "property": "C119",
   "status": "proved",
   "theorems": [
    "Fmmax.C119_s_matrix",
    "Fmmax.C119_uniform_ends",
    "Fmmax.C119_emission",
    "Fmmax.C119_illumination"
   ],
   "note": "Eigensolvers are functions satisfying IsEig (eigenpairs; independent eigenvectors whenever the matrix is diagonalisable)."
  },
  {
   "property": "C120",
   "status": "proved",
   "theorems": [
    "Fmmax.C120_thick_layer",
    "Fmmax.C120_hidden",
    "Fmmax.C120_absorbing",
    "Fmmax.C120_zero_thickness",
    "Fmmax.C120_thin_layer"
   ],
   "note": "Limits are of exact scattering matrices; rounding is not modelled."
  },
  {
   "property": "C121",
   "status": "proved",
   "theorems": [
    "Fmmax.C121_fields",
    "Fmmax.C121_time_reversal",
    "Fmmax.C121_uniform_ends",
    "Fmmax.C121_decaying_ends",
    "Fmmax.C121_propagating_ends",
    "Fmmax.C121_no_perfect_absorption",
    "Fmmax.C121_decaying_stack",
    "Fmmax.C121_finding_gain",
    "Fmmax.C121_tangent_field",
    "Fmmax.C121_schemes",
    "Fmmax.C121_grating_fields",
    "Fmmax.C121_gratings",
    "Fmmax.C121_finding_gratings"
   ],
   "note": "Layers solved in a vector formulation are covered if they are isotropic and their tangent field is, up to a phase factor, conjugate for the conjugate permittivity and reversed orders. This is proved for the schemes POL and NORMAL and patterns whose gradient has two directions (C121_schemes), and for all schemes and gratings whose contrast is real or imaginary (C121_gratings). For gratings with another contrast it is false (C121_finding_gratings). The schemes with Jones vectors for other patterns are not covered."
  },
  {
   "property": "C122",
   "status": "proved",
   "theorems": [
    "Fmmax.C122_absorbed",
    "Fmmax.C122_absorbed_sign",
    "Fmmax.C122_work",
    "Fmmax.C122_radiated",
    "Fmmax.C122_passive",
    "Fmmax.C122_homogeneous",
    "Fmmax.C122_work_any",
    "Fmmax.C122_work_complex",
    "Fmmax.C122_radiated_any",
    "Fmmax.C122_passive_any",
    "Fmmax.C122_finding_vertical_absorbing"
   ],
   "note": "Vertical currents: for the balance with the reported vertical field (C122_work, C122_radiated, C122_passive) the layers next to the source must be the same and their inverse z-permittivity matrix Hermitian; C122_work_any, C122_radiated_any and C122_passive_any hold without these conditions, in terms of the displacement. In absorbing media the power from reported fields is not that delivered (C122_finding_vertical_absorbing)."
  }
 ]
}
