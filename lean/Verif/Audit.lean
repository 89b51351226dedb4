import Verif.Props.Acceptance
import Verif.Props.AtLeastOne
import Verif.Props.Bessel
import Verif.Props.Boundary
import Verif.Props.Broadcast
import Verif.Props.Caustics
import Verif.Props.Certificate
import Verif.Props.Cluster
import Verif.Props.ConjugateRoots
import Verif.Props.ContourAccuracy
import Verif.Props.ContourArea
import Verif.Props.ContourClosed
import Verif.Props.ContourEndToEnd
import Verif.Props.ContourIntegral
import Verif.Props.ContourLimb
import Verif.Props.ContourLimbDark
import Verif.Props.ContourLimbEnd
import Verif.Props.ContourLimbSmall
import Verif.Props.ContourLocal
import Verif.Props.ContourQuadrature
import Verif.Props.ContourRegular
import Verif.Props.ContourSingleDark
import Verif.Props.ContourSingleDisc
import Verif.Props.ContourSingleLd
import Verif.Props.ContourSingleLens
import Verif.Props.ContourTracks
import Verif.Props.Critical
import Verif.Props.CriticalDense
import Verif.Props.CubicInterp
import Verif.Props.Differentiated
import Verif.Props.Digamma
import Verif.Props.DiscAverage
import Verif.Props.EaConvergence
import Verif.Props.Elliptic
import Verif.Props.ExtendedSource
import Verif.Props.FarField
import Verif.Props.FastLensCentre
import Verif.Props.FastLensLog
import Verif.Props.FastLensMag
import Verif.Props.FastLensNumpy
import Verif.Props.FftLimb
import Verif.Props.FftLimbSmall
import Verif.Props.FftLog
import Verif.Props.FftLogKernels
import Verif.Props.FftLogModes
import Verif.Props.FftLogNumpy
import Verif.Props.FftPipeline
import Verif.Props.FftSmall
import Verif.Props.GammaAccuracy
import Verif.Props.Gradient
import Verif.Props.HankelModes
import Verif.Props.HexSingle
import Verif.Props.HexSingleLd
import Verif.Props.ImageCount
import Verif.Props.InexactRoots
import Verif.Props.Interp
import Verif.Props.Lightcurve
import Verif.Props.LightcurveEnd
import Verif.Props.Likelihood
import Verif.Props.Limb
import Verif.Props.LimbDense
import Verif.Props.LimbDenseCase
import Verif.Props.LimbGradient
import Verif.Props.LimbGradientCase
import Verif.Props.LimbTangent
import Verif.Props.LimbTrace
import Verif.Props.MergeFinal
import Verif.Props.Multipole
import Verif.Props.NonFinite
import Verif.Props.NonFiniteRoots
import Verif.Props.Parallax
import Verif.Props.PointSource
import Verif.Props.PointSourceExamples
import Verif.Props.PolySolver
import Verif.Props.ProfileFT
import Verif.Props.RayShooting
import Verif.Props.RegionApart
import Verif.Props.RegionCover
import Verif.Props.RegionFill
import Verif.Props.RegionFillCase
import Verif.Props.RegionHole
import Verif.Props.RegionOnce
import Verif.Props.RegionPasses
import Verif.Props.RegionRing
import Verif.Props.RegionRingMag
import Verif.Props.RegionSeparate
import Verif.Props.RegionSet
import Verif.Props.RegionViolation
import Verif.Props.SegmentMerge
import Verif.Props.SmallSource
import Verif.Props.Split
import Verif.Props.StitchNearest
import Verif.Props.SubCell
import Verif.Props.Tangent
import Verif.Props.Tolerance
import Verif.Props.TrackOrder
import Verif.Props.Tracking
import Verif.Props.TripleDirect
import Verif.Props.TripleGeometry
import Verif.Props.TripleLightcurve
import Verif.Props.Uncalled
import Verif.Props.Utils
import Verif.Props.VanishingPlanet
import Verif.Props.VanishingThird

/-! Axioms of every theorem named in MANIFEST.json (expected: propext, Classical.choice, Quot.sound). -/

#print axioms Microjax.Props.C01_single_images
#print axioms Microjax.Props.C02_true_single_mag
#print axioms Microjax.Props.C02_single_mag_value
#print axioms Microjax.Props.C02_violated
#print axioms Microjax.Props.C02_single_mag_partial
#print axioms Microjax.Props.C03_det_binary
#print axioms Microjax.Props.C03_det_triple
#print axioms Microjax.Props.C03_violated_single
#print axioms Microjax.Props.C03_single_sign_partial
#print axioms Microjax.Props.C03_lens_eq
#print axioms Microjax.Props.C04_binary_complete
#print axioms Microjax.Props.C04_binary_leading
#print axioms Microjax.Props.C04_binary_exact
#print axioms Microjax.Props.C04_root_not_on_lens
#print axioms Microjax.Props.C05_triple_complete
#print axioms Microjax.Props.C06_binary_mag
#print axioms Microjax.Props.C06_triple_mag
#print axioms Microjax.Props.C07_mask_binary
#print axioms Microjax.Props.C07_mask_triple
#print axioms Microjax.Props.C07_error
#print axioms Microjax.Props.C08_contour_binary
#print axioms Microjax.Props.C08_contour_triple_violated
#print axioms Microjax.Props.C08_contour_triple_partial
#print axioms Microjax.Props.C08_binary_frame
#print axioms Microjax.Props.C08_triple_frame
#print axioms Microjax.Props.C09_reflect_image
#print axioms Microjax.Props.C09_swap_image
#print axioms Microjax.Props.C09_reflect_mag
#print axioms Microjax.Props.C09_swap_mag
#print axioms Microjax.Props.C10_binary
#print axioms Microjax.Props.C10_triple
#print axioms Microjax.Props.C10_binary_off_lens
#print axioms Microjax.Props.C10_single
#print axioms Microjax.Props.C11_binary
#print axioms Microjax.Props.C11_triple
#print axioms Microjax.Props.C11_tracking_greedy
#print axioms Microjax.Props.C12_match_points_greedy
#print axioms Microjax.Props.C12_match_points_perm
#print axioms Microjax.Props.C12_match_points_repeats
#print axioms Microjax.Props.C13_sequential
#print axioms Microjax.Props.C13_sequential_mask
#print axioms Microjax.Props.C14_polyder
#print axioms Microjax.Props.C15_cauchy
#print axioms Microjax.Props.C15_start_distinct
#print axioms Microjax.Props.C15_needs_floor
#print axioms Microjax.Props.C16_loop
#print axioms Microjax.Props.C16_freeze
#print axioms Microjax.Props.C16_flag
#print axioms Microjax.Props.C16_total
#print axioms Microjax.Props.C17_fixed_point
#print axioms Microjax.Props.C18_root_tangent
#print axioms Microjax.Props.C19_clean
#print axioms Microjax.Props.C20_batch_loop
#print axioms Microjax.Props.C20_batch
#print axioms Microjax.Props.C21_zero_radius
#print axioms Microjax.Props.C21_paczynski
#print axioms Microjax.Props.C21_even_polynomial
#print axioms Microjax.Props.C21_dispatch
#print axioms Microjax.Props.C22_local_inverse
#print axioms Microjax.Props.C22_terms
#print axioms Microjax.Props.C22_expansion
#print axioms Microjax.Props.C22_total
#print axioms Microjax.Props.C23_residual
#print axioms Microjax.Props.C24_binary
#print axioms Microjax.Props.C24_triple_partial
#print axioms Microjax.Props.C24_triple_violated
#print axioms Microjax.Props.C25_weighted_fit
#print axioms Microjax.Props.C25_minimises
#print axioms Microjax.Props.C26_array_partial
#print axioms Microjax.Props.C26_scalar_violated
#print axioms Microjax.Props.C26_scalar_det_violated
#print axioms Microjax.Props.C26_default_violated
#print axioms Microjax.Props.C27_covariance
#print axioms Microjax.Props.C27_marginal
#print axioms Microjax.Props.C27_diagonal
#print axioms Microjax.Props.C27_diagonal_marginal
#print axioms Microjax.Props.C28_agree
#print axioms Microjax.Props.C29_chunking
#print axioms Microjax.Props.C30_selection
#print axioms Microjax.Props.C30_zero_calls
#print axioms Microjax.Props.C30_enough_calls
#print axioms Microjax.Props.C30_missing
#print axioms Microjax.Props.C31_selection
#print axioms Microjax.Props.C32_reproduces_cubics
#print axioms Microjax.Props.C32_nodes
#print axioms Microjax.Props.C32_affine
#print axioms Microjax.Props.C32_array
#print axioms Microjax.Props.C32_epsilon_limit
#print axioms Microjax.Props.C33_primal_partial
#print axioms Microjax.Props.C33_in_source_violated
#print axioms Microjax.Props.C33_profile_violated
#print axioms Microjax.Props.C34_nonneg
#print axioms Microjax.Props.C34_unit_flux
#print axioms Microjax.Props.C34_contour_profile
#print axioms Microjax.Props.C35_in_source
#print axioms Microjax.Props.C35_step_smooth
#print axioms Microjax.Props.C35_step_limit
#print axioms Microjax.Props.C35_profile_distance_partial
#print axioms Microjax.Props.C35_profile_u1_violated
#print axioms Microjax.Props.C35_facB_partial
#print axioms Microjax.Props.C35_facB_violated
#print axioms Microjax.Props.C36_quadrature
#print axioms Microjax.Props.C36_lower_bound
#print axioms Microjax.Props.C37_cell_weight
#print axioms Microjax.Props.C37_bounds
#print axioms Microjax.Props.C37_zero_region
#print axioms Microjax.Props.C37_inside_exact
#print axioms Microjax.Props.C38_margin_partial
#print axioms Microjax.Props.C38_cover_partial
#print axioms Microjax.Props.C38_end_point_violated
#print axioms Microjax.Props.C38_violated
#print axioms Microjax.Props.C38_violated_magnification
#print axioms Microjax.Props.C39_violated
#print axioms Microjax.Props.C39_cover_partial
#print axioms Microjax.Props.C40_cluster_range
#print axioms Microjax.Props.C40_cluster_radii
#print axioms Microjax.Props.C40_cluster_angles
#print axioms Microjax.Props.C41_binary_limb_complete
#print axioms Microjax.Props.C41_triple_limb_complete
#print axioms Microjax.Props.C41_uniform_limb
#print axioms Microjax.Props.C41_limb_dark_partial
#print axioms Microjax.Props.C41_limb_dark_violated
#print axioms Microjax.Props.C42_polygon_area
#print axioms Microjax.Props.C42_translate
#print axioms Microjax.Props.C42_reverse
#print axioms Microjax.Props.C43_merge_two
#print axioms Microjax.Props.C43_overflow
#print axioms Microjax.Props.C43_merge_open
#print axioms Microjax.Props.C44_runs
#print axioms Microjax.Props.C44_split
#print axioms Microjax.Props.C44_split_overflow
#print axioms Microjax.Props.C45_largest_gaps
#print axioms Microjax.Props.C45_gap
#print axioms Microjax.Props.C45_sampling
#print axioms Microjax.Props.C46_match
#print axioms Microjax.Props.C46_permute
#print axioms Microjax.Props.C46_limb
#print axioms Microjax.Props.C47_one_lens
#print axioms Microjax.Props.C47_two_lenses
#print axioms Microjax.Props.C47_three_lenses
#print axioms Microjax.Props.C47_dispatch
#print axioms Microjax.Props.C48_rejects_centre_partial
#print axioms Microjax.Props.C48_violated
#print axioms Microjax.Props.C49_binary
#print axioms Microjax.Props.C49_triple_partial
#print axioms Microjax.Props.C49_triple_violated
#print axioms Microjax.Props.C50_uniform_limit
#print axioms Microjax.Props.C50_curl
#print axioms Microjax.Props.C51_zero_at_reference
#print axioms Microjax.Props.C52_linear
#print axioms Microjax.Props.C52_components
#print axioms Microjax.Props.C53_basis
#print axioms Microjax.Props.C54_accuracy
#print axioms Microjax.Props.C54_symmetry
#print axioms Microjax.Props.C55_ellipse
#print axioms Microjax.Props.C55_periodic
#print axioms Microjax.Props.C55_projection
#print axioms Microjax.Props.C55_newton
#print axioms Microjax.Props.C55_equinox
#print axioms Microjax.Props.C56_perihelion_partial
#print axioms Microjax.Props.C56_vernal_violated
#print axioms Microjax.Props.C57_inferred
#print axioms Microjax.Props.C57_given
#print axioms Microjax.Props.C58_is_point_magnification
#print axioms Microjax.Props.C58_even_gt_one_decreasing
#print axioms Microjax.Props.C59_disc_centre
#print axioms Microjax.Props.C60_limb2_centre
#print axioms Microjax.Props.C60_limb1_centre
#print axioms Microjax.Props.C60_mag_limb_violated
#print axioms Microjax.Props.C60_mag_limb_value
#print axioms Microjax.Props.C61_ellipk_accuracy
#print axioms Microjax.Props.C61_ellipe_accuracy
#print axioms Microjax.Props.C61_branches_agree
#print axioms Microjax.Props.C61_agm_between
#print axioms Microjax.Props.C61_at_zero
#print axioms Microjax.Props.C62_reciprocal_grid
#print axioms Microjax.Props.C62_odd_length
#print axioms Microjax.Props.C63_window
#print axioms Microjax.Props.C63_log_extrap
#print axioms Microjax.Props.C64_even
#print axioms Microjax.Props.C64_centre
#print axioms Microjax.Props.C64_disc_centre
#print axioms Microjax.Props.C64_far_small
#print axioms Microjax.Props.C64_far_large
#print axioms Microjax.Props.C64_small_scaling
#print axioms Microjax.Props.C65_gamma_nan_violated
#print axioms Microjax.Props.C65_gamma_nan_partial
#print axioms Microjax.Props.C65_shift
#print axioms Microjax.Props.C65_reflection
#print axioms Microjax.Props.C66_first_nonzero
#print axioms Microjax.Props.C66_first_zero
#print axioms Microjax.Props.C66_last_nonzero
#print axioms Microjax.Props.C67_min_zero_avoiding
#print axioms Microjax.Props.C67_max_zero_avoiding
#print axioms Microjax.Props.C67_mean_zero_avoiding
#print axioms Microjax.Props.C68_sparse_argsort
#print axioms Microjax.Props.C69_trapz_zero_avoiding
#print axioms Microjax.Props.C69_not_general
#print axioms Microjax.Props.C70_one_lens_violated
#print axioms Microjax.Props.C70_limb_darkening_violated
#print axioms Microjax.Props.C71_uniform_converges
#print axioms Microjax.Props.C71_annulus
#print axioms Microjax.Props.C72_limb_converges
#print axioms Microjax.Props.C73_no_linear_part
#print axioms Microjax.Props.C74_rules_exact
#print axioms Microjax.Props.C74_rules_accuracy
#print axioms Microjax.Props.C75_exact_on_modes
#print axioms Microjax.Props.C75_power_law
#print axioms Microjax.Props.C75_linear
#print axioms Microjax.Props.C76_process
#print axioms Microjax.Props.C77_contour_sum
#print axioms Microjax.Props.C78_closing_edge_violated
#print axioms Microjax.Props.C78_disc_centre
#print axioms Microjax.Props.C79_point_single
#print axioms Microjax.Props.C79_point_binary
#print axioms Microjax.Props.C79_point_triple
#print axioms Microjax.Props.C79_finite
#print axioms Microjax.Props.C80_cubic
#print axioms Microjax.Props.C80_converges
#print axioms Microjax.Props.C81_tracking
#print axioms Microjax.Props.C81_path
#print axioms Microjax.Props.C82_single
#print axioms Microjax.Props.C82_binary
#print axioms Microjax.Props.C82_triple
#print axioms Microjax.Props.C83_close
#print axioms Microjax.Props.C83_light_curve
#print axioms Microjax.Props.C83_monotone
#print axioms Microjax.Props.C83_cusp
#print axioms Microjax.Props.C83_true_image
#print axioms Microjax.Props.C83_ghost
#print axioms Microjax.Props.C83_available
#print axioms Microjax.Props.C84_ring
#print axioms Microjax.Props.C84_limb_entering
#print axioms Microjax.Props.C84_limb_leaving
#print axioms Microjax.Props.C85_binary
#print axioms Microjax.Props.C85_triple
#print axioms Microjax.Props.C86_binary
#print axioms Microjax.Props.C86_triple
#print axioms Microjax.Props.C87_same_polynomial
#print axioms Microjax.Props.C87_leading
#print axioms Microjax.Props.C87_same_roots
#print axioms Microjax.Props.C87_same_images
#print axioms Microjax.Props.C88_zero_sector
#print axioms Microjax.Props.C88_valid_set
#print axioms Microjax.Props.C88_masked_irrelevant
#print axioms Microjax.Props.C88_order
#print axioms Microjax.Props.C88_error
#print axioms Microjax.Props.C89_binary
#print axioms Microjax.Props.C89_triple
#print axioms Microjax.Props.C90_j0
#print axioms Microjax.Props.C90_j1
#print axioms Microjax.Props.C90_parity
#print axioms Microjax.Props.C90_j2
#print axioms Microjax.Props.C90_j1p5
#print axioms Microjax.Props.C91_jvp_partial
#print axioms Microjax.Props.C91_jvp_violated
#print axioms Microjax.Props.C92_limb1_code_partial
#print axioms Microjax.Props.C92_limb2_code_partial
#print axioms Microjax.Props.C92_disk
#print axioms Microjax.Props.C92_limb1_partial
#print axioms Microjax.Props.C92_limb1_violated
#print axioms Microjax.Props.C92_limb2_partial
#print axioms Microjax.Props.C92_limb2_violated
#print axioms Microjax.Props.C92_mix_violated
#print axioms Microjax.Props.C93_accuracy
#print axioms Microjax.Props.C94_gamma_ratio
#print axioms Microjax.Props.C94_kernel
#print axioms Microjax.Props.C95_hankel
#print axioms Microjax.Props.C96_cell
#print axioms Microjax.Props.C96_node
#print axioms Microjax.Props.C96_outside
#print axioms Microjax.Props.C96_between
#print axioms Microjax.Props.C96_logspace
#print axioms Microjax.Props.C97_table
#print axioms Microjax.Props.C97_magnification
#print axioms Microjax.Props.C98_small_value
#print axioms Microjax.Props.C98_small_violated
#print axioms Microjax.Props.C98_small_partial
#print axioms Microjax.Props.C99_exact
#print axioms Microjax.Props.C99_error
#print axioms Microjax.Props.C99_converges
#print axioms Microjax.Props.C99_split_violated
#print axioms Microjax.Props.C99_split_partial
#print axioms Microjax.Props.C100_tracks
#print axioms Microjax.Props.C100_closed
#print axioms Microjax.Props.C101_nearest
#print axioms Microjax.Props.C101_complete_partial
#print axioms Microjax.Props.C101_complete_violated
#print axioms Microjax.Props.C102_accuracy
#print axioms Microjax.Props.C102_jvp
#print axioms Microjax.Props.C103_dj
#print axioms Microjax.Props.C103_ddj
#print axioms Microjax.Props.C103_jsqr
#print axioms Microjax.Props.C103_by_parts
#print axioms Microjax.Props.C104_interp
#print axioms Microjax.Props.C104_large
#print axioms Microjax.Props.C104_small
#print axioms Microjax.Props.C104_profiles
#print axioms Microjax.Props.C104_orders
#print axioms Microjax.Props.C104_hankel
#print axioms Microjax.Props.C104_kernels
#print axioms Microjax.Props.C105_refine_partial
#print axioms Microjax.Props.C105_wrap_violated
#print axioms Microjax.Props.C105_adaptive
#print axioms Microjax.Props.C106_binary_partial
#print axioms Microjax.Props.C106_triple_partial
#print axioms Microjax.Props.C106_triple_violated
#print axioms Microjax.Props.C106_binary_violated
#print axioms Microjax.Props.C107_violated
#print axioms Microjax.Props.C107_distance_violated
#print axioms Microjax.Props.C107_partial
#print axioms Microjax.Props.C108_single_partial
#print axioms Microjax.Props.C108_single_violated
#print axioms Microjax.Props.C108_binary
#print axioms Microjax.Props.C108_triple
#print axioms Microjax.Props.C109_binary_partial
#print axioms Microjax.Props.C109_binary_violated
#print axioms Microjax.Props.C109_triple_partial
#print axioms Microjax.Props.C109_triple_violated
#print axioms Microjax.Props.C110_uniform
#print axioms Microjax.Props.C110_limb
#print axioms Microjax.Props.C110_binary_bound
#print axioms Microjax.Props.C110_triple_bound
#print axioms Microjax.Props.C110_binary_far
#print axioms Microjax.Props.C110_triple_far
#print axioms Microjax.Props.C111_binary
#print axioms Microjax.Props.C111_uniform
#print axioms Microjax.Props.C112_binary
#print axioms Microjax.Props.C112_triple
#print axioms Microjax.Props.C112_binary_caustic
#print axioms Microjax.Props.C112_triple_caustic
#print axioms Microjax.Props.C113_binary
#print axioms Microjax.Props.C113_triple
#print axioms Microjax.Props.C114_light_curve
#print axioms Microjax.Props.C114_small_sources
#print axioms Microjax.Props.C115_binary
#print axioms Microjax.Props.C115_binary_incompatible
#print axioms Microjax.Props.C115_triple_partial
#print axioms Microjax.Props.C115_triple_raises_violated
#print axioms Microjax.Props.C115_triple_wrong_violated
#print axioms Microjax.Props.C116_light_curve_partial
#print axioms Microjax.Props.C116_small_sources_partial
#print axioms Microjax.Props.C116_far_violated
#print axioms Microjax.Props.C117_mag_limb
#print axioms Microjax.Props.C117_mag_limb1_partial
#print axioms Microjax.Props.C117_small_value
#print axioms Microjax.Props.C117_small_violated
#print axioms Microjax.Props.C117_grid
#print axioms Microjax.Props.C118_binary_partial
#print axioms Microjax.Props.C118_true
#print axioms Microjax.Props.C118_tolerance_violated
#print axioms Microjax.Props.C118_triple_partial
#print axioms Microjax.Props.C118_triple_true
#print axioms Microjax.Props.C119_binary
#print axioms Microjax.Props.C119_triple
#print axioms Microjax.Props.C119_binary_caustic
#print axioms Microjax.Props.C119_triple_caustic
#print axioms Microjax.Props.C119_binary_regular_partial
#print axioms Microjax.Props.C119_single
#print axioms Microjax.Props.C119_nan_violated
#print axioms Microjax.Props.C119_binary_any
#print axioms Microjax.Props.C119_triple_any
#print axioms Microjax.Props.C120_uniform_partial
#print axioms Microjax.Props.C120_violated
#print axioms Microjax.Props.C120_empty_violated
#print axioms Microjax.Props.C121_uniform
#print axioms Microjax.Props.C122_u1_violated
#print axioms Microjax.Props.C123_gap
#print axioms Microjax.Props.C123_flat_partial
#print axioms Microjax.Props.C123_radius_violated
#print axioms Microjax.Props.C124_uniform
#print axioms Microjax.Props.C124_limb
#print axioms Microjax.Props.C124_once_iff
#print axioms Microjax.Props.C125_apart_partial
#print axioms Microjax.Props.C125_once_partial
#print axioms Microjax.Props.C125_ring_regions_violated
#print axioms Microjax.Props.C125_ring_violated
#print axioms Microjax.Props.C125_ring_excess_violated
#print axioms Microjax.Props.C125_single_lens_violated
#print axioms Microjax.Props.C126_boundary_partial
#print axioms Microjax.Props.C126_sampled_partial
#print axioms Microjax.Props.C126_hole_violated
#print axioms Microjax.Props.C126_deficit_violated
#print axioms Microjax.Props.C126_ring_deficit_violated
#print axioms Microjax.Props.C126_equal_masses_violated
#print axioms Microjax.Props.C127_limb_dense
#print axioms Microjax.Props.C127_limb_polar
#print axioms Microjax.Props.C127_uniform_pipeline
#print axioms Microjax.Props.C127_limb_dark_pipeline
#print axioms Microjax.Props.C128_binary
#print axioms Microjax.Props.C128_triple
#print axioms Microjax.Props.C128_binary_small
#print axioms Microjax.Props.C128_triple_small
#print axioms Microjax.Props.C129_binary
#print axioms Microjax.Props.C129_triple
#print axioms Microjax.Props.C130_conjugate
#print axioms Microjax.Props.C130_real_roots_violated
#print axioms Microjax.Props.C130_axis_violated
#print axioms Microjax.Props.C130_critical_violated
#print axioms Microjax.Props.C131_binary
#print axioms Microjax.Props.C131_triple
#print axioms Microjax.Props.C131_binary_small
#print axioms Microjax.Props.C131_triple_small
#print axioms Microjax.Props.C132_single
#print axioms Microjax.Props.C133_single
#print axioms Microjax.Props.C133_single_rate
#print axioms Microjax.Props.C134_multipole_error
#print axioms Microjax.Props.C134_exact_violated
#print axioms Microjax.Props.C134_lightcurve_partial
#print axioms Microjax.Props.C135_multipole_limb
#print axioms Microjax.Props.C136_log_violated
#print axioms Microjax.Props.C136_log_partial
#print axioms Microjax.Props.C137_base
#print axioms Microjax.Props.C137_local
