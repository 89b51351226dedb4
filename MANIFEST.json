{
 "claims": [
  {
   "property": "C01",
   "status": "proved",
   "theorems": [
    "Microjax.Props.C01_single_images"
   ],
   "note": ""
  },
  {
   "property": "C02",
   "status": "partial",
   "theorems": [
    "Microjax.Props.C02_true_single_mag",
    "Microjax.Props.C02_single_mag_value",
    "Microjax.Props.C02_violated",
    "Microjax.Props.C02_single_mag_partial"
   ],
   "note": "The code violates the property at every source position: C02_violated. The true value is C02_true_single_mag, the code's value C02_single_mag_value, and C02_single_mag_partial is what remains true."
  },
  {
   "property": "C03",
   "status": "partial",
   "theorems": [
    "Microjax.Props.C03_det_binary",
    "Microjax.Props.C03_det_triple",
    "Microjax.Props.C03_violated_single",
    "Microjax.Props.C03_single_sign_partial",
    "Microjax.Props.C03_lens_eq"
   ],
   "note": "Proved for two and three lenses; violated for one lens off the unit circle (C03_violated_single), where only the sign is right."
  },
  {
   "property": "C04",
   "status": "proved",
   "theorems": [
    "Microjax.Props.C04_binary_complete",
    "Microjax.Props.C04_binary_leading",
    "Microjax.Props.C04_binary_exact",
    "Microjax.Props.C04_root_not_on_lens"
   ],
   "note": ""
  },
  {
   "property": "C05",
   "status": "proved",
   "theorems": [
    "Microjax.Props.C05_triple_complete"
   ],
   "note": ""
  },
  {
   "property": "C06",
   "status": "proved",
   "theorems": [
    "Microjax.Props.C06_binary_mag",
    "Microjax.Props.C06_triple_mag"
   ],
   "note": ""
  },
  {
   "property": "C07",
   "status": "proved",
   "theorems": [
    "Microjax.Props.C07_mask_binary",
    "Microjax.Props.C07_mask_triple",
    "Microjax.Props.C07_error"
   ],
   "note": ""
  },
  {
   "property": "C08",
   "status": "partial",
   "theorems": [
    "Microjax.Props.C08_contour_binary",
    "Microjax.Props.C08_contour_triple_violated",
    "Microjax.Props.C08_contour_triple_partial",
    "Microjax.Props.C08_binary_frame",
    "Microjax.Props.C08_triple_frame"
   ],
   "note": "Proved for point-source and binary contour entry points; C08_contour_triple_violated: mag_extended_source with three lenses uses masses q : 1-q3 : 2 q3. With q3 = 0 it agrees (C08_contour_triple_partial)."
  },
  {
   "property": "C09",
   "status": "proved",
   "theorems": [
    "Microjax.Props.C09_reflect_image",
    "Microjax.Props.C09_swap_image",
    "Microjax.Props.C09_reflect_mag",
    "Microjax.Props.C09_swap_mag"
   ],
   "note": ""
  },
  {
   "property": "C10",
   "status": "proved",
   "theorems": [
    "Microjax.Props.C10_binary",
    "Microjax.Props.C10_triple",
    "Microjax.Props.C10_binary_off_lens",
    "Microjax.Props.C10_single"
   ],
   "note": ""
  },
  {
   "property": "C11",
   "status": "proved",
   "theorems": [
    "Microjax.Props.C11_binary",
    "Microjax.Props.C11_triple",
    "Microjax.Props.C11_tracking_greedy"
   ],
   "note": ""
  },
  {
   "property": "C12",
   "status": "proved",
   "theorems": [
    "Microjax.Props.C12_match_points_greedy",
    "Microjax.Props.C12_match_points_perm",
    "Microjax.Props.C12_match_points_repeats"
   ],
   "note": ""
  },
  {
   "property": "C13",
   "status": "proved",
   "theorems": [
    "Microjax.Props.C13_sequential",
    "Microjax.Props.C13_sequential_mask"
   ],
   "note": ""
  },
  {
   "property": "C14",
   "status": "proved",
   "theorems": [
    "Microjax.Props.C14_polyder"
   ],
   "note": ""
  },
  {
   "property": "C15",
   "status": "proved",
   "theorems": [
    "Microjax.Props.C15_cauchy",
    "Microjax.Props.C15_start_distinct",
    "Microjax.Props.C15_needs_floor"
   ],
   "note": ""
  },
  {
   "property": "C16",
   "status": "proved",
   "theorems": [
    "Microjax.Props.C16_loop",
    "Microjax.Props.C16_freeze",
    "Microjax.Props.C16_flag",
    "Microjax.Props.C16_total"
   ],
   "note": ""
  },
  {
   "property": "C17",
   "status": "proved",
   "theorems": [
    "Microjax.Props.C17_fixed_point"
   ],
   "note": ""
  },
  {
   "property": "C18",
   "status": "proved",
   "theorems": [
    "Microjax.Props.C18_root_tangent"
   ],
   "note": ""
  },
  {
   "property": "C19",
   "status": "proved",
   "theorems": [
    "Microjax.Props.C19_clean"
   ],
   "note": ""
  },
  {
   "property": "C20",
   "status": "proved",
   "theorems": [
    "Microjax.Props.C20_batch_loop",
    "Microjax.Props.C20_batch"
   ],
   "note": ""
  },
  {
   "property": "C21",
   "status": "proved",
   "theorems": [
    "Microjax.Props.C21_zero_radius",
    "Microjax.Props.C21_paczynski",
    "Microjax.Props.C21_even_polynomial",
    "Microjax.Props.C21_dispatch"
   ],
   "note": ""
  },
  {
   "property": "C22",
   "status": "proved",
   "theorems": [
    "Microjax.Props.C22_local_inverse",
    "Microjax.Props.C22_terms",
    "Microjax.Props.C22_expansion",
    "Microjax.Props.C22_total"
   ],
   "note": ""
  },
  {
   "property": "C23",
   "status": "proved",
   "theorems": [
    "Microjax.Props.C23_residual"
   ],
   "note": ""
  },
  {
   "property": "C24",
   "status": "partial",
   "theorems": [
    "Microjax.Props.C24_binary",
    "Microjax.Props.C24_triple_partial",
    "Microjax.Props.C24_triple_violated"
   ],
   "note": "Two lenses proved. Three lenses: violated whenever the third lens is off the real axis; C24_triple_partial covers psi = 0."
  },
  {
   "property": "C25",
   "status": "proved",
   "theorems": [
    "Microjax.Props.C25_weighted_fit",
    "Microjax.Props.C25_minimises"
   ],
   "note": ""
  },
  {
   "property": "C26",
   "status": "partial",
   "theorems": [
    "Microjax.Props.C26_array_partial",
    "Microjax.Props.C26_scalar_violated",
    "Microjax.Props.C26_scalar_det_violated",
    "Microjax.Props.C26_default_violated"
   ],
   "note": "Array errors behave (C26_array_partial); scalar error and the default err = 0 violate the documentation (C26_scalar_violated, C26_scalar_det_violated, C26_default_violated)."
  },
  {
   "property": "C27",
   "status": "proved",
   "theorems": [
    "Microjax.Props.C27_covariance",
    "Microjax.Props.C27_marginal",
    "Microjax.Props.C27_diagonal",
    "Microjax.Props.C27_diagonal_marginal"
   ],
   "note": ""
  },
  {
   "property": "C28",
   "status": "proved",
   "theorems": [
    "Microjax.Props.C28_agree"
   ],
   "note": ""
  },
  {
   "property": "C29",
   "status": "proved",
   "theorems": [
    "Microjax.Props.C29_chunking"
   ],
   "note": ""
  },
  {
   "property": "C30",
   "status": "proved",
   "theorems": [
    "Microjax.Props.C30_selection",
    "Microjax.Props.C30_zero_calls",
    "Microjax.Props.C30_enough_calls",
    "Microjax.Props.C30_missing"
   ],
   "note": ""
  },
  {
   "property": "C31",
   "status": "proved",
   "theorems": [
    "Microjax.Props.C31_selection"
   ],
   "note": ""
  },
  {
   "property": "C32",
   "status": "proved",
   "theorems": [
    "Microjax.Props.C32_reproduces_cubics",
    "Microjax.Props.C32_nodes",
    "Microjax.Props.C32_affine",
    "Microjax.Props.C32_array",
    "Microjax.Props.C32_epsilon_limit"
   ],
   "note": ""
  },
  {
   "property": "C33",
   "status": "partial",
   "theorems": [
    "Microjax.Props.C33_primal_partial",
    "Microjax.Props.C33_in_source_violated",
    "Microjax.Props.C33_profile_violated"
   ],
   "note": "The primal value under differentiation differs from the plain value for both functions; C33_primal_partial says where they agree."
  },
  {
   "property": "C34",
   "status": "proved",
   "theorems": [
    "Microjax.Props.C34_nonneg",
    "Microjax.Props.C34_unit_flux",
    "Microjax.Props.C34_contour_profile"
   ],
   "note": ""
  },
  {
   "property": "C35",
   "status": "partial",
   "theorems": [
    "Microjax.Props.C35_in_source",
    "Microjax.Props.C35_step_smooth",
    "Microjax.Props.C35_step_limit",
    "Microjax.Props.C35_profile_distance_partial",
    "Microjax.Props.C35_profile_u1_violated",
    "Microjax.Props.C35_facB_partial",
    "Microjax.Props.C35_facB_violated"
   ],
   "note": "in_source, step_smooth and the distance tangent of the profile are right; the u1 tangent and calc_facB above its threshold are not (violated)."
  },
  {
   "property": "C36",
   "status": "proved",
   "theorems": [
    "Microjax.Props.C36_quadrature",
    "Microjax.Props.C36_lower_bound"
   ],
   "note": ""
  },
  {
   "property": "C37",
   "status": "proved",
   "theorems": [
    "Microjax.Props.C37_cell_weight",
    "Microjax.Props.C37_bounds",
    "Microjax.Props.C37_zero_region",
    "Microjax.Props.C37_inside_exact"
   ],
   "note": ""
  },
  {
   "property": "C38",
   "status": "partial",
   "theorems": [
    "Microjax.Props.C38_margin_partial",
    "Microjax.Props.C38_cover_partial",
    "Microjax.Props.C38_end_point_violated",
    "Microjax.Props.C38_violated",
    "Microjax.Props.C38_violated_magnification"
   ],
   "note": "Coverage proved under the stated conditions (C38_cover_partial); without them witnesses show lost images and a zero magnification."
  },
  {
   "property": "C39",
   "status": "partial",
   "theorems": [
    "Microjax.Props.C39_violated",
    "Microjax.Props.C39_cover_partial"
   ],
   "note": "C39_violated gives sectors that vanish; C39_cover_partial states when every angle stays covered."
  },
  {
   "property": "C40",
   "status": "proved",
   "theorems": [
    "Microjax.Props.C40_cluster_range",
    "Microjax.Props.C40_cluster_radii",
    "Microjax.Props.C40_cluster_angles"
   ],
   "note": ""
  },
  {
   "property": "C41",
   "status": "partial",
   "theorems": [
    "Microjax.Props.C41_binary_limb_complete",
    "Microjax.Props.C41_triple_limb_complete",
    "Microjax.Props.C41_uniform_limb",
    "Microjax.Props.C41_limb_dark_partial",
    "Microjax.Props.C41_limb_dark_violated"
   ],
   "note": "mag_uniform builds regions from the right lens; mag_limb_dark with three lenses from the binary (C41_limb_dark_violated); C41_limb_dark_partial covers two lenses."
  },
  {
   "property": "C42",
   "status": "proved",
   "theorems": [
    "Microjax.Props.C42_polygon_area",
    "Microjax.Props.C42_translate",
    "Microjax.Props.C42_reverse"
   ],
   "note": ""
  },
  {
   "property": "C43",
   "status": "proved",
   "theorems": [
    "Microjax.Props.C43_merge_two",
    "Microjax.Props.C43_overflow",
    "Microjax.Props.C43_merge_open"
   ],
   "note": ""
  },
  {
   "property": "C44",
   "status": "proved",
   "theorems": [
    "Microjax.Props.C44_runs",
    "Microjax.Props.C44_split",
    "Microjax.Props.C44_split_overflow"
   ],
   "note": ""
  },
  {
   "property": "C45",
   "status": "proved",
   "theorems": [
    "Microjax.Props.C45_largest_gaps",
    "Microjax.Props.C45_gap",
    "Microjax.Props.C45_sampling"
   ],
   "note": ""
  },
  {
   "property": "C46",
   "status": "proved",
   "theorems": [
    "Microjax.Props.C46_match",
    "Microjax.Props.C46_permute",
    "Microjax.Props.C46_limb"
   ],
   "note": ""
  },
  {
   "property": "C47",
   "status": "proved",
   "theorems": [
    "Microjax.Props.C47_one_lens",
    "Microjax.Props.C47_two_lenses",
    "Microjax.Props.C47_three_lenses",
    "Microjax.Props.C47_dispatch"
   ],
   "note": ""
  },
  {
   "property": "C48",
   "status": "partial",
   "theorems": [
    "Microjax.Props.C48_rejects_centre_partial",
    "Microjax.Props.C48_violated"
   ],
   "note": "C48_violated gives a source at the planetary caustic that is accepted; C48_rejects_centre_partial is the region in which rejection is guaranteed."
  },
  {
   "property": "C49",
   "status": "partial",
   "theorems": [
    "Microjax.Props.C49_binary",
    "Microjax.Props.C49_triple_partial",
    "Microjax.Props.C49_triple_violated"
   ],
   "note": "Two lenses proved; three lenses violated unless the conditions of C49_triple_partial hold."
  },
  {
   "property": "C50",
   "status": "proved",
   "theorems": [
    "Microjax.Props.C50_uniform_limit",
    "Microjax.Props.C50_curl"
   ],
   "note": ""
  },
  {
   "property": "C51",
   "status": "proved",
   "theorems": [
    "Microjax.Props.C51_zero_at_reference"
   ],
   "note": ""
  },
  {
   "property": "C52",
   "status": "proved",
   "theorems": [
    "Microjax.Props.C52_linear",
    "Microjax.Props.C52_components"
   ],
   "note": ""
  },
  {
   "property": "C53",
   "status": "proved",
   "theorems": [
    "Microjax.Props.C53_basis"
   ],
   "note": ""
  },
  {
   "property": "C54",
   "status": "proved",
   "theorems": [
    "Microjax.Props.C54_accuracy",
    "Microjax.Props.C54_symmetry"
   ],
   "note": ""
  },
  {
   "property": "C55",
   "status": "proved",
   "theorems": [
    "Microjax.Props.C55_ellipse",
    "Microjax.Props.C55_periodic",
    "Microjax.Props.C55_projection",
    "Microjax.Props.C55_newton",
    "Microjax.Props.C55_equinox"
   ],
   "note": ""
  },
  {
   "property": "C56",
   "status": "partial",
   "theorems": [
    "Microjax.Props.C56_perihelion_partial",
    "Microjax.Props.C56_vernal_violated"
   ],
   "note": "Perihelion proved (C56_perihelion_partial); equinox violated."
  },
  {
   "property": "C57",
   "status": "proved",
   "theorems": [
    "Microjax.Props.C57_inferred",
    "Microjax.Props.C57_given"
   ],
   "note": ""
  },
  {
   "property": "C58",
   "status": "proved",
   "theorems": [
    "Microjax.Props.C58_is_point_magnification",
    "Microjax.Props.C58_even_gt_one_decreasing"
   ],
   "note": ""
  },
  {
   "property": "C59",
   "status": "proved",
   "theorems": [
    "Microjax.Props.C59_disc_centre"
   ],
   "note": ""
  },
  {
   "property": "C60",
   "status": "partial",
   "theorems": [
    "Microjax.Props.C60_limb2_centre",
    "Microjax.Props.C60_limb1_centre",
    "Microjax.Props.C60_mag_limb_violated",
    "Microjax.Props.C60_mag_limb_value"
   ],
   "note": "Central values of the two limb terms proved; the combination of weights in mag_limb is violated."
  },
  {
   "property": "C61",
   "status": "proved",
   "theorems": [
    "Microjax.Props.C61_ellipk_accuracy",
    "Microjax.Props.C61_ellipe_accuracy",
    "Microjax.Props.C61_branches_agree",
    "Microjax.Props.C61_agm_between",
    "Microjax.Props.C61_at_zero"
   ],
   "note": ""
  },
  {
   "property": "C62",
   "status": "proved",
   "theorems": [
    "Microjax.Props.C62_reciprocal_grid",
    "Microjax.Props.C62_odd_length"
   ],
   "note": ""
  },
  {
   "property": "C63",
   "status": "proved",
   "theorems": [
    "Microjax.Props.C63_window",
    "Microjax.Props.C63_log_extrap"
   ],
   "note": ""
  },
  {
   "property": "C64",
   "status": "proved",
   "theorems": [
    "Microjax.Props.C64_even",
    "Microjax.Props.C64_centre",
    "Microjax.Props.C64_disc_centre",
    "Microjax.Props.C64_far_small",
    "Microjax.Props.C64_far_large",
    "Microjax.Props.C64_small_scaling"
   ],
   "note": ""
  },
  {
   "property": "C65",
   "status": "partial",
   "theorems": [
    "Microjax.Props.C65_gamma_nan_violated",
    "Microjax.Props.C65_gamma_nan_partial",
    "Microjax.Props.C65_shift",
    "Microjax.Props.C65_reflection"
   ],
   "note": "gamma_ is NaN on whole vertical lines (violated); away from them it is defined (C65_gamma_nan_partial) and obeys the shift and reflection formulas."
  },
  {
   "property": "C66",
   "status": "proved",
   "theorems": [
    "Microjax.Props.C66_first_nonzero",
    "Microjax.Props.C66_first_zero",
    "Microjax.Props.C66_last_nonzero"
   ],
   "note": ""
  },
  {
   "property": "C67",
   "status": "proved",
   "theorems": [
    "Microjax.Props.C67_min_zero_avoiding",
    "Microjax.Props.C67_max_zero_avoiding",
    "Microjax.Props.C67_mean_zero_avoiding"
   ],
   "note": ""
  },
  {
   "property": "C68",
   "status": "proved",
   "theorems": [
    "Microjax.Props.C68_sparse_argsort"
   ],
   "note": ""
  },
  {
   "property": "C69",
   "status": "proved",
   "theorems": [
    "Microjax.Props.C69_trapz_zero_avoiding",
    "Microjax.Props.C69_not_general"
   ],
   "note": ""
  },
  {
   "property": "C70",
   "status": "partial",
   "theorems": [
    "Microjax.Props.C70_one_lens_violated",
    "Microjax.Props.C70_limb_darkening_violated"
   ],
   "note": "Violated whenever u1 > 0 and the multipole correction does not vanish. C70_one_lens_violated: in the single-lens light curve the value is strictly too high at every accepted point with 14 rho^4 (u^2+4)^3 <= u1 u^4 (u^2+1)."
  },
  {
   "property": "C71",
   "status": "proved",
   "theorems": [
    "Microjax.Props.C71_uniform_converges",
    "Microjax.Props.C71_annulus"
   ],
   "note": ""
  },
  {
   "property": "C72",
   "status": "proved",
   "theorems": [
    "Microjax.Props.C72_limb_converges"
   ],
   "note": ""
  },
  {
   "property": "C73",
   "status": "proved",
   "theorems": [
    "Microjax.Props.C73_no_linear_part"
   ],
   "note": ""
  },
  {
   "property": "C74",
   "status": "proved",
   "theorems": [
    "Microjax.Props.C74_rules_exact",
    "Microjax.Props.C74_rules_accuracy"
   ],
   "note": ""
  },
  {
   "property": "C75",
   "status": "proved",
   "theorems": [
    "Microjax.Props.C75_exact_on_modes",
    "Microjax.Props.C75_power_law",
    "Microjax.Props.C75_linear"
   ],
   "note": ""
  },
  {
   "property": "C76",
   "status": "proved",
   "theorems": [
    "Microjax.Props.C76_process"
   ],
   "note": ""
  },
  {
   "property": "C77",
   "status": "proved",
   "theorems": [
    "Microjax.Props.C77_contour_sum"
   ],
   "note": ""
  },
  {
   "property": "C78",
   "status": "partial",
   "theorems": [
    "Microjax.Props.C78_closing_edge_violated",
    "Microjax.Props.C78_disc_centre"
   ],
   "note": "End-to-end accuracy for the centred source proved (C78_disc_centre); for general single-lens contours the closing edge is missing (C78_closing_edge_violated)."
  },
  {
   "property": "C79",
   "status": "proved",
   "theorems": [
    "Microjax.Props.C79_point_single",
    "Microjax.Props.C79_point_binary",
    "Microjax.Props.C79_point_triple",
    "Microjax.Props.C79_finite"
   ],
   "note": ""
  },
  {
   "property": "C80",
   "status": "proved",
   "theorems": [
    "Microjax.Props.C80_cubic",
    "Microjax.Props.C80_converges"
   ],
   "note": ""
  },
  {
   "property": "C81",
   "status": "proved",
   "theorems": [
    "Microjax.Props.C81_tracking",
    "Microjax.Props.C81_path"
   ],
   "note": ""
  },
  {
   "property": "C82",
   "status": "proved",
   "theorems": [
    "Microjax.Props.C82_single",
    "Microjax.Props.C82_binary",
    "Microjax.Props.C82_triple"
   ],
   "note": ""
  },
  {
   "property": "C83",
   "status": "proved",
   "theorems": [
    "Microjax.Props.C83_close",
    "Microjax.Props.C83_light_curve",
    "Microjax.Props.C83_monotone",
    "Microjax.Props.C83_cusp",
    "Microjax.Props.C83_true_image",
    "Microjax.Props.C83_ghost",
    "Microjax.Props.C83_available"
   ],
   "note": ""
  },
  {
   "property": "C84",
   "status": "proved",
   "theorems": [
    "Microjax.Props.C84_ring",
    "Microjax.Props.C84_limb_entering",
    "Microjax.Props.C84_limb_leaving"
   ],
   "note": ""
  },
  {
   "property": "C85",
   "status": "proved",
   "theorems": [
    "Microjax.Props.C85_binary",
    "Microjax.Props.C85_triple"
   ],
   "note": ""
  },
  {
   "property": "C86",
   "status": "proved",
   "theorems": [
    "Microjax.Props.C86_binary",
    "Microjax.Props.C86_triple"
   ],
   "note": ""
  },
  {
   "property": "C87",
   "status": "proved",
   "theorems": [
    "Microjax.Props.C87_same_polynomial",
    "Microjax.Props.C87_leading",
    "Microjax.Props.C87_same_roots",
    "Microjax.Props.C87_same_images"
   ],
   "note": ""
  },
  {
   "property": "C88",
   "status": "proved",
   "theorems": [
    "Microjax.Props.C88_zero_sector",
    "Microjax.Props.C88_valid_set",
    "Microjax.Props.C88_masked_irrelevant",
    "Microjax.Props.C88_order",
    "Microjax.Props.C88_error"
   ],
   "note": ""
  },
  {
   "property": "C89",
   "status": "proved",
   "theorems": [
    "Microjax.Props.C89_binary",
    "Microjax.Props.C89_triple"
   ],
   "note": ""
  },
  {
   "property": "C90",
   "status": "proved",
   "theorems": [
    "Microjax.Props.C90_j0",
    "Microjax.Props.C90_j1",
    "Microjax.Props.C90_parity",
    "Microjax.Props.C90_j2",
    "Microjax.Props.C90_j1p5"
   ],
   "note": ""
  },
  {
   "property": "C91",
   "status": "partial",
   "theorems": [
    "Microjax.Props.C91_jvp_partial",
    "Microjax.Props.C91_jvp_violated"
   ],
   "note": "C91_jvp_violated: the derivative rule of j1_ gives NaN at zero, where J1 has derivative one half. C91_jvp_partial: the rule of j0_ everywhere and that of j1_ at every nonzero argument are the derivatives up to 1e-12 and 2e-12. Missing: j1_ at zero (false)."
  },
  {
   "property": "C92",
   "status": "partial",
   "theorems": [
    "Microjax.Props.C92_limb1_code_partial",
    "Microjax.Props.C92_limb2_code_partial",
    "Microjax.Props.C92_disk",
    "Microjax.Props.C92_limb1_partial",
    "Microjax.Props.C92_limb1_violated",
    "Microjax.Props.C92_limb2_partial",
    "Microjax.Props.C92_limb2_violated",
    "Microjax.Props.C92_mix_violated"
   ],
   "note": "Disc proved for all k rho >= 0; limb profiles proved for k rho > 0 (also with the gamma function of the code); violated at the origin (1/3, 1/4 instead of 1), near the origin for limb2 (unbounded), and for the closed forms of the linear law at every a1 in (0,1)."
  },
  {
   "property": "C93",
   "status": "proved",
   "theorems": [
    "Microjax.Props.C93_accuracy"
   ],
   "note": ""
  },
  {
   "property": "C94",
   "status": "proved",
   "theorems": [
    "Microjax.Props.C94_gamma_ratio",
    "Microjax.Props.C94_kernel"
   ],
   "note": ""
  },
  {
   "property": "C95",
   "status": "proved",
   "theorems": [
    "Microjax.Props.C95_hankel"
   ],
   "note": ""
  },
  {
   "property": "C96",
   "status": "proved",
   "theorems": [
    "Microjax.Props.C96_cell",
    "Microjax.Props.C96_node",
    "Microjax.Props.C96_outside",
    "Microjax.Props.C96_between",
    "Microjax.Props.C96_logspace"
   ],
   "note": ""
  },
  {
   "property": "C97",
   "status": "proved",
   "theorems": [
    "Microjax.Props.C97_table",
    "Microjax.Props.C97_magnification"
   ],
   "note": "The error of the first Hankel transform is assumed zero, that of the second enters as delta; the transforms themselves are the subject of C75, C94, C95."
  },
  {
   "property": "C98",
   "status": "partial",
   "theorems": [
    "Microjax.Props.C98_small_value",
    "Microjax.Props.C98_small_violated",
    "Microjax.Props.C98_small_partial"
   ],
   "note": "The branch computes one plus the source average of 1/|w| (C98_small_value), so it exceeds the source average of the magnification by one (C98_small_violated); after subtraction of one the claim holds (C98_small_partial)."
  },
  {
   "property": "C99",
   "status": "partial",
   "theorems": [
    "Microjax.Props.C99_exact",
    "Microjax.Props.C99_error",
    "Microjax.Props.C99_converges",
    "Microjax.Props.C99_split_violated",
    "Microjax.Props.C99_split_partial"
   ],
   "note": "C99_exact, C99_error, C99_converges: exactness, error bound and convergence hold in full. C99_split_violated: a contour point at most 4 rho below the base point puts every node of the first rule outside the interval. C99_split_partial: the placement holds in all other cases. Missing: the placement for those contour points (false)."
  },
  {
   "property": "C100",
   "status": "proved",
   "theorems": [
    "Microjax.Props.C100_tracks",
    "Microjax.Props.C100_closed"
   ],
   "note": ""
  },
  {
   "property": "C101",
   "status": "partial",
   "theorems": [
    "Microjax.Props.C101_nearest",
    "Microjax.Props.C101_complete_partial",
    "Microjax.Props.C101_complete_violated"
   ],
   "note": "C101_nearest: what is merged is the nearest passing pair, unless four failing pairs are at most as far apart. C101_complete_violated: two empty slots count as segments at the coordinate origin and can fill all four candidates, so that nothing is merged. C101_complete_partial: a merge takes place when fewer than four failing pairs are as near. Missing: completeness without that hypothesis (false)."
  },
  {
   "property": "C102",
   "status": "proved",
   "theorems": [
    "Microjax.Props.C102_accuracy",
    "Microjax.Props.C102_jvp"
   ],
   "note": ""
  },
  {
   "property": "C103",
   "status": "proved",
   "theorems": [
    "Microjax.Props.C103_dj",
    "Microjax.Props.C103_ddj",
    "Microjax.Props.C103_jsqr",
    "Microjax.Props.C103_by_parts"
   ],
   "note": ""
  },
  {
   "property": "C104",
   "status": "proved",
   "theorems": [
    "Microjax.Props.C104_interp",
    "Microjax.Props.C104_large",
    "Microjax.Props.C104_small",
    "Microjax.Props.C104_profiles",
    "Microjax.Props.C104_orders",
    "Microjax.Props.C104_hankel",
    "Microjax.Props.C104_kernels"
   ],
   "note": ""
  },
  {
   "property": "C105",
   "status": "partial",
   "theorems": [
    "Microjax.Props.C105_refine_partial",
    "Microjax.Props.C105_wrap_violated",
    "Microjax.Props.C105_adaptive"
   ],
   "note": "C105_adaptive and C105_refine_partial: distance_from_source_adaptive in full; refine_final gives the widened hull of the samples whose stored angle lies in the region. C105_wrap_violated: a region across angle 0 whose samples are stored between pi and 2 pi gets an empty radial range. Missing: samples in the region modulo 2 pi (false)."
  },
  {
   "property": "C106",
   "status": "partial",
   "theorems": [
    "Microjax.Props.C106_binary_partial",
    "Microjax.Props.C106_triple_partial",
    "Microjax.Props.C106_triple_violated",
    "Microjax.Props.C106_binary_violated"
   ],
   "note": "The value is never below the sum over the true images; it is exact when no spurious root is within the tolerance (C06); next to a caustic spurious roots are counted and the excess has no bound."
  },
  {
   "property": "C107",
   "status": "partial",
   "theorems": [
    "Microjax.Props.C107_violated",
    "Microjax.Props.C107_distance_violated",
    "Microjax.Props.C107_partial"
   ],
   "note": "The code measures r3, psi from the mid-point of lenses 1 and 2, which is neither of the two documented origins (C107_violated, C107_distance_violated); C107_partial gives the conversion that makes the documented systems agree with the code."
  },
  {
   "property": "C108",
   "status": "partial",
   "theorems": [
    "Microjax.Props.C108_single_partial",
    "Microjax.Props.C108_single_violated",
    "Microjax.Props.C108_binary",
    "Microjax.Props.C108_triple"
   ],
   "note": "Two and three lenses: proved, with no assumption on multiplicities or spurious roots. One lens: the code's value exceeds one by the order of |w|^-2 (C108_single_violated); C108_single_partial is what holds."
  },
  {
   "property": "C109",
   "status": "partial",
   "theorems": [
    "Microjax.Props.C109_binary_partial",
    "Microjax.Props.C109_binary_violated",
    "Microjax.Props.C109_triple_partial",
    "Microjax.Props.C109_triple_violated"
   ],
   "note": "Proved if the lenses are further apart than the tolerance of the mask; otherwise refuted for every sufficiently distant source (C109_binary_violated, C109_triple_violated)."
  },
  {
   "property": "C110",
   "status": "proved",
   "theorems": [
    "Microjax.Props.C110_uniform",
    "Microjax.Props.C110_limb",
    "Microjax.Props.C110_binary_bound",
    "Microjax.Props.C110_triple_bound",
    "Microjax.Props.C110_binary_far",
    "Microjax.Props.C110_triple_far"
   ],
   "note": "The limits are in the resolutions; the rate is not part of the property. C110_binary_bound and C110_triple_bound need a root finder that returns all roots, C110_*_far need nothing."
  },
  {
   "property": "C111",
   "status": "proved",
   "theorems": [
    "Microjax.Props.C111_binary",
    "Microjax.Props.C111_uniform"
   ],
   "note": "For binaries; the multipole code places the third lens of a triple elsewhere (C24)."
  },
  {
   "property": "C112",
   "status": "proved",
   "theorems": [
    "Microjax.Props.C112_binary",
    "Microjax.Props.C112_triple",
    "Microjax.Props.C112_binary_caustic",
    "Microjax.Props.C112_triple_caustic"
   ],
   "note": "The root finder is assumed to return all roots of every polynomial with nonzero leading coefficient."
  },
  {
   "property": "C113",
   "status": "proved",
   "theorems": [
    "Microjax.Props.C113_binary",
    "Microjax.Props.C113_triple"
   ],
   "note": "The root finder is assumed to return all roots. The hypothesis that no flagged root is exactly critical says that the code does not divide by zero (the value would be infinite). The limit is 1/(e(2+e)) with e = T tol/d, T = 1+3/a^2, d = sqrt(M/T)/2."
  },
  {
   "property": "C114",
   "status": "proved",
   "theorems": [
    "Microjax.Props.C114_light_curve",
    "Microjax.Props.C114_small_sources"
   ],
   "note": "The regions are assumed to cover the images once (C38, C39 show that define_regions can fail to); in the second theorem the positions are regular: the root finder returns all roots, distinct, and no spurious root is within the tolerance."
  },
  {
   "property": "C115",
   "status": "partial",
   "theorems": [
    "Microjax.Props.C115_binary",
    "Microjax.Props.C115_binary_incompatible",
    "Microjax.Props.C115_triple_partial",
    "Microjax.Props.C115_triple_raises_violated",
    "Microjax.Props.C115_triple_wrong_violated"
   ],
   "note": "C115_binary is the full statement for two lenses. For three lenses it is proved for scalar parameters and refuted for arrays (raises, or silently wrong)."
  },
  {
   "property": "C116",
   "status": "partial",
   "theorems": [
    "Microjax.Props.C116_light_curve_partial",
    "Microjax.Props.C116_small_sources_partial",
    "Microjax.Props.C116_far_violated"
   ],
   "note": "C116_light_curve_partial covers the points of the full solver, C116_small_sources_partial all points for a third lens on the axis. Off the axis the claim is refuted by C116_far_violated."
  },
  {
   "property": "C117",
   "status": "partial",
   "theorems": [
    "Microjax.Props.C117_mag_limb",
    "Microjax.Props.C117_mag_limb1_partial",
    "Microjax.Props.C117_small_value",
    "Microjax.Props.C117_small_violated",
    "Microjax.Props.C117_grid"
   ],
   "note": "C117_mag_limb (all sources) and C117_mag_limb1_partial (rho >= rho_switch) hold; C117_small_value says what mag_limb1 returns below rho_switch and C117_small_violated that it is less than a quarter of the mean there. C117_grid: the output grid of the code's transform. Transforms are a parameter, assumed exact in the first two calls."
  },
  {
   "property": "C118",
   "status": "partial",
   "theorems": [
    "Microjax.Props.C118_binary_partial",
    "Microjax.Props.C118_true",
    "Microjax.Props.C118_tolerance_violated",
    "Microjax.Props.C118_triple_partial",
    "Microjax.Props.C118_triple_true"
   ],
   "note": "C118_binary_partial and C118_triple_partial: the code, for sources where no stray root is within the tolerance of the mask. C118_true and C118_triple_true: the true magnifications, without tolerance. C118_tolerance_violated: within the tolerance the limit is too large by an explicit amount."
  },
  {
   "property": "C119",
   "status": "partial",
   "theorems": [
    "Microjax.Props.C119_binary",
    "Microjax.Props.C119_triple",
    "Microjax.Props.C119_binary_caustic",
    "Microjax.Props.C119_triple_caustic",
    "Microjax.Props.C119_binary_regular_partial",
    "Microjax.Props.C119_single",
    "Microjax.Props.C119_nan_violated",
    "Microjax.Props.C119_binary_any",
    "Microjax.Props.C119_triple_any"
   ],
   "note": "C119_binary, C119_triple: exact classification. C119_binary_caustic, C119_triple_caustic: never a number on a caustic. C119_binary_regular_partial: the magnification off the caustics, if no rejected root is critical. C119_single: one lens. C119_nan_violated: a nan off the caustics. C119_binary_any, C119_triple_any: the classification for whatever the root finder returns, also at the lenses."
  },
  {
   "property": "C120",
   "status": "partial",
   "theorems": [
    "Microjax.Props.C120_uniform_partial",
    "Microjax.Props.C120_violated",
    "Microjax.Props.C120_empty_violated"
   ],
   "note": "C120_uniform_partial: the limit of the value under differentiation, and its distance from the magnification. C120_violated: that limit is not the magnification. C120_empty_violated: regions that miss the source, both functions, at every resolution."
  },
  {
   "property": "C121",
   "status": "proved",
   "theorems": [
    "Microjax.Props.C121_uniform"
   ],
   "note": "C121_uniform: all paths of lens, source, radius and regions. The value is the one reported under differentiation (C120)."
  },
  {
   "property": "C122",
   "status": "partial",
   "theorems": [
    "Microjax.Props.C122_u1_violated"
   ],
   "note": "C122_u1_violated: the exact defect for every input. The code has the property nowhere (there is no partial theorem)."
  },
  {
   "property": "C123",
   "status": "partial",
   "theorems": [
    "Microjax.Props.C123_gap",
    "Microjax.Props.C123_flat_partial",
    "Microjax.Props.C123_radius_violated"
   ],
   "note": "C123_gap: exact difference between derivative and tangent. C123_flat_partial: no difference for u1 = 0 and a threshold above every gap. C123_radius_violated: strict inequality in the direction of the radius."
  },
  {
   "property": "C124",
   "status": "proved",
   "theorems": [
    "Microjax.Props.C124_uniform",
    "Microjax.Props.C124_limb",
    "Microjax.Props.C124_once_iff"
   ],
   "note": "C124_uniform, C124_limb: the limits. C124_once_iff: when the limit is the magnification. disc_twice in the same file is the concrete case of overlapping regions."
  },
  {
   "property": "C125",
   "status": "partial",
   "theorems": [
    "Microjax.Props.C125_apart_partial",
    "Microjax.Props.C125_once_partial",
    "Microjax.Props.C125_ring_regions_violated",
    "Microjax.Props.C125_ring_violated",
    "Microjax.Props.C125_ring_excess_violated",
    "Microjax.Props.C125_single_lens_violated"
   ],
   "note": "C125_ring_violated: the regions of a complete ring. C125_ring_excess_violated, C125_ring_regions_violated, C125_single_lens_violated: the excess in the magnification. C125_apart_partial, C125_once_partial: no overlap if an angular bin is free; they assume that no limb radius other than the extremes lies on an end of its run of bins."
  },
  {
   "property": "C126",
   "status": "partial",
   "theorems": [
    "Microjax.Props.C126_boundary_partial",
    "Microjax.Props.C126_sampled_partial",
    "Microjax.Props.C126_hole_violated",
    "Microjax.Props.C126_deficit_violated",
    "Microjax.Props.C126_ring_deficit_violated",
    "Microjax.Props.C126_equal_masses_violated"
   ],
   "note": "C126_hole_violated: the full pipeline leaves the disc out, for every root finder. C126_deficit_violated, C126_ring_deficit_violated: what this costs in the limit. C126_equal_masses_violated: the wide equal-mass binary. C126_boundary_partial, C126_sampled_partial: regions that do not overlap and contain the images of the limb contain all images once; missing: limbs that occupy every angular bin (violated) or are sampled more coarsely than the margins."
  },
  {
   "property": "C127",
   "status": "proved",
   "theorems": [
    "Microjax.Props.C127_limb_dense",
    "Microjax.Props.C127_limb_polar",
    "Microjax.Props.C127_uniform_pipeline",
    "Microjax.Props.C127_limb_dark_pipeline"
   ],
   "note": "C127_limb_dense: sampled limb images fill the images of the limb. C127_limb_polar: the same in polar coordinates. C127_uniform_pipeline, C127_limb_dark_pipeline: limit of the complete functions; the conditions of GoodLimb are those under which the tables of define_regions lose nothing (C38, C125, C126 show what happens without)."
  },
  {
   "property": "C128",
   "status": "proved",
   "theorems": [
    "Microjax.Props.C128_binary",
    "Microjax.Props.C128_triple",
    "Microjax.Props.C128_binary_small",
    "Microjax.Props.C128_triple_small"
   ],
   "note": "C128_binary, C128_triple: error bound under conditions on the branches of the roots along the limb. C128_binary_small, C128_triple_small: these conditions hold below some radius at every position with distinct roots and no spurious root within the tolerance. For triples the lenses are those of C08_contour_triple_violated."
  },
  {
   "property": "C129",
   "status": "proved",
   "theorems": [
    "Microjax.Props.C129_binary",
    "Microjax.Props.C129_triple"
   ],
   "note": "C129_binary, C129_triple. For triples the lenses are those that the code uses (C08)."
  },
  {
   "property": "C130",
   "status": "partial",
   "theorems": [
    "Microjax.Props.C130_conjugate",
    "Microjax.Props.C130_real_roots_violated",
    "Microjax.Props.C130_axis_violated",
    "Microjax.Props.C130_critical_violated"
   ],
   "note": "C130_conjugate: the symmetry. C130_real_roots_violated, C130_axis_violated, C130_critical_violated: consequences in exact arithmetic; floating point rounding, which breaks the symmetry in practice, is not modelled. Convergence from nearby starting values is C80."
  },
  {
   "property": "C131",
   "status": "proved",
   "theorems": [
    "Microjax.Props.C131_binary",
    "Microjax.Props.C131_triple",
    "Microjax.Props.C131_binary_small",
    "Microjax.Props.C131_triple_small"
   ],
   "note": "C131_binary, C131_triple: explicit bound under the conditions of C128; C131_binary_small, C131_triple_small: all conditions derived for small sources at regular positions. Exact arithmetic; the model has no NaN at a quadrature node that coincides with a lens. For triples the lenses are those that the code uses (C08)."
  },
  {
   "property": "C132",
   "status": "proved",
   "theorems": [
    "Microjax.Props.C132_single"
   ],
   "note": "C132_single: explicit bound, uniform sources, exact arithmetic."
  },
  {
   "property": "C133",
   "status": "proved",
   "theorems": [
    "Microjax.Props.C133_single",
    "Microjax.Props.C133_single_rate"
   ],
   "note": "C133_single with a bound on the variation of the profile as a parameter, C133_single_rate with an explicit one. The limit is taken in npts_ld for fixed npts_limb; exact arithmetic."
  },
  {
   "property": "C134",
   "status": "partial",
   "theorems": [
    "Microjax.Props.C134_multipole_error",
    "Microjax.Props.C134_exact_violated",
    "Microjax.Props.C134_lightcurve_partial"
   ],
   "note": "C134_exact_violated: the docstring's exactness fails at every point where the multipole value is used. C134_multipole_error and C134_lightcurve_partial: explicit error bounds at every point instead. Missing: exactness (false); the limb-darkened light curve, for which the multipole value ignores u1 (C70)."
  },
  {
   "property": "C135",
   "status": "proved",
   "theorems": [
    "Microjax.Props.C135_multipole_limb"
   ],
   "note": "C135_multipole_limb: two-sided bound, exact arithmetic."
  },
  {
   "property": "C136",
   "status": "partial",
   "theorems": [
    "Microjax.Props.C136_log_violated",
    "Microjax.Props.C136_log_partial"
   ],
   "note": "C136_log_violated: positive and unbounded outside the disc, wrong inside except where r and mu coincide or at the limb. C136_log_partial: inside the disc the value is the intended profile with r and mu exchanged. Missing: the stated profile (false)."
  },
  {
   "property": "C137",
   "status": "proved",
   "theorems": [
    "Microjax.Props.C137_base",
    "Microjax.Props.C137_local"
   ],
   "note": "Exact arithmetic; leggauss as documented."
  }
 ]
}