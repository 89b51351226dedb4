{
 "C02": {
  "status": "partial",
  "note": "The code violates the property at every source position: C02_violated. The true value is C02_true_single_mag, the code's value C02_single_mag_value, and C02_single_mag_partial is what remains true."
 },
 "C03": {
  "status": "partial",
  "note": "Proved for two and three lenses; violated for one lens off the unit circle (C03_violated_single), where only the sign is right."
 },
 "C08": {
  "status": "partial",
  "note": "Proved for point-source and binary contour entry points; C08_contour_triple_violated: mag_extended_source with three lenses uses masses q : 1-q3 : 2 q3. With q3 = 0 it agrees (C08_contour_triple_partial)."
 },
 "C24": {
  "status": "partial",
  "note": "Two lenses proved. Three lenses: violated whenever the third lens is off the real axis; C24_triple_partial covers psi = 0."
 },
 "C26": {
  "status": "partial",
  "note": "Array errors behave (C26_array_partial); scalar error and the default err = 0 violate the documentation (C26_scalar_violated, C26_scalar_det_violated, C26_default_violated)."
 },
 "C33": {
  "status": "partial",
  "note": "The primal value under differentiation differs from the plain value for both functions; C33_primal_partial says where they agree."
 },
 "C35": {
  "status": "partial",
  "note": "in_source, step_smooth and the distance tangent of the profile are right; the u1 tangent and calc_facB above its threshold are not (violated)."
 },
 "C38": {
  "status": "partial",
  "note": "Coverage proved under the stated conditions (C38_cover_partial); without them witnesses show lost images and a zero magnification."
 },
 "C39": {
  "status": "partial",
  "note": "C39_violated gives sectors that vanish; C39_cover_partial states when every angle stays covered."
 },
 "C41": {
  "status": "partial",
  "note": "mag_uniform builds regions from the right lens; mag_limb_dark with three lenses from the binary (C41_limb_dark_violated); C41_limb_dark_partial covers two lenses."
 },
 "C48": {
  "status": "partial",
  "note": "C48_violated gives a source at the planetary caustic that is accepted; C48_rejects_centre_partial is the region in which rejection is guaranteed."
 },
 "C49": {
  "status": "partial",
  "note": "Two lenses proved; three lenses violated unless the conditions of C49_triple_partial hold."
 },
 "C56": {
  "status": "partial",
  "note": "Perihelion proved (C56_perihelion_partial); equinox violated."
 },
 "C60": {
  "status": "partial",
  "note": "Central values of the two limb terms proved; the combination of weights in mag_limb is violated."
 },
 "C65": {
  "status": "partial",
  "note": "gamma_ is NaN on whole vertical lines (violated); away from them it is defined (C65_gamma_nan_partial) and obeys the shift and reflection formulas."
 },
 "C70": {
  "status": "partial",
  "note": "Violated whenever u1 > 0 and the multipole correction does not vanish. C70_one_lens_violated: in the single-lens light curve the value is strictly too high at every accepted point with 14 rho^4 (u^2+4)^3 <= u1 u^4 (u^2+1)."
 },
 "C78": {
  "status": "partial",
  "note": "End-to-end accuracy for the centred source proved (C78_disc_centre); for general single-lens contours the closing edge is missing (C78_closing_edge_violated)."
 },
 "C92": {
  "status": "partial",
  "note": "Disc proved for all k rho >= 0; limb profiles proved for k rho > 0 (also with the gamma function of the code); violated at the origin (1/3, 1/4 instead of 1), near the origin for limb2 (unbounded), and for the closed forms of the linear law at every a1 in (0,1)."
 },
 "C98": {
  "status": "partial",
  "note": "The branch computes one plus the source average of 1/|w| (C98_small_value), so it exceeds the source average of the magnification by one (C98_small_violated); after subtraction of one the claim holds (C98_small_partial)."
 },
 "C97": {
  "note": "The error of the first Hankel transform is assumed zero, that of the second enters as delta; the transforms themselves are the subject of C75, C94, C95."
 },
 "C106": {
  "note": "The value is never below the sum over the true images; it is exact when no spurious root is within the tolerance (C06); next to a caustic spurious roots are counted and the excess has no bound."
 },
 "C107": {
  "note": "The code measures r3, psi from the mid-point of lenses 1 and 2, which is neither of the two documented origins (C107_violated, C107_distance_violated); C107_partial gives the conversion that makes the documented systems agree with the code."
 },
 "C108": {
  "note": "Two and three lenses: proved, with no assumption on multiplicities or spurious roots. One lens: the code's value exceeds one by the order of |w|^-2 (C108_single_violated); C108_single_partial is what holds."
 },
 "C109": {
  "note": "Proved if the lenses are further apart than the tolerance of the mask; otherwise refuted for every sufficiently distant source (C109_binary_violated, C109_triple_violated)."
 },
 "C110": {
  "note": "The limits are in the resolutions; the rate is not part of the property. C110_binary_bound and C110_triple_bound need a root finder that returns all roots, C110_*_far need nothing."
 },
 "C111": {
  "note": "For binaries; the multipole code places the third lens of a triple elsewhere (C24)."
 },
 "C112": {
  "note": "The root finder is assumed to return all roots of every polynomial with nonzero leading coefficient."
 },
 "C113": {
  "note": "The root finder is assumed to return all roots. The hypothesis that no flagged root is exactly critical says that the code does not divide by zero (the value would be infinite). The limit is 1/(e(2+e)) with e = T tol/d, T = 1+3/a^2, d = sqrt(M/T)/2."
 },
 "C114": {
  "note": "The regions are assumed to cover the images once (C38, C39 show that define_regions can fail to); in the second theorem the positions are regular: the root finder returns all roots, distinct, and no spurious root is within the tolerance."
 },
 "C115": {
  "note": "C115_binary is the full statement for two lenses. For three lenses it is proved for scalar parameters and refuted for arrays (raises, or silently wrong)."
 },
 "C116": {
  "note": "C116_light_curve_partial covers the points of the full solver, C116_small_sources_partial all points for a third lens on the axis. Off the axis the claim is refuted by C116_far_violated."
 },
 "C117": {
  "note": "C117_mag_limb (all sources) and C117_mag_limb1_partial (rho >= rho_switch) hold; C117_small_value says what mag_limb1 returns below rho_switch and C117_small_violated that it is less than a quarter of the mean there. C117_grid: the output grid of the code's transform. Transforms are a parameter, assumed exact in the first two calls."
 },
 "C118": {
  "note": "C118_binary_partial and C118_triple_partial: the code, for sources where no stray root is within the tolerance of the mask. C118_true and C118_triple_true: the true magnifications, without tolerance. C118_tolerance_violated: within the tolerance the limit is too large by an explicit amount."
 },
 "C119": {
  "note": "C119_binary, C119_triple: exact classification. C119_binary_caustic, C119_triple_caustic: never a number on a caustic. C119_binary_regular_partial: the magnification off the caustics, if no rejected root is critical. C119_single: one lens. C119_nan_violated: a nan off the caustics. C119_binary_any, C119_triple_any: the classification for whatever the root finder returns, also at the lenses."
 },
 "C120": {
  "note": "C120_uniform_partial: the limit of the value under differentiation, and its distance from the magnification. C120_violated: that limit is not the magnification. C120_empty_violated: regions that miss the source, both functions, at every resolution."
 },
 "C121": {
  "note": "C121_uniform: all paths of lens, source, radius and regions. The value is the one reported under differentiation (C120)."
 },
 "C122": {
  "note": "C122_u1_violated: the exact defect for every input. The code has the property nowhere (there is no partial theorem)."
 },
 "C123": {
  "note": "C123_gap: exact difference between derivative and tangent. C123_flat_partial: no difference for u1 = 0 and a threshold above every gap. C123_radius_violated: strict inequality in the direction of the radius."
 },
 "C124": {
  "note": "C124_uniform, C124_limb: the limits. C124_once_iff: when the limit is the magnification. disc_twice in the same file is the concrete case of overlapping regions."
 },
 "C125": {
  "note": "C125_ring_violated: the regions of a complete ring. C125_ring_excess_violated, C125_ring_regions_violated, C125_single_lens_violated: the excess in the magnification. C125_apart_partial, C125_once_partial: no overlap if an angular bin is free; they assume that no limb radius other than the extremes lies on an end of its run of bins."
 },
 "C126": {
  "note": "C126_hole_violated: the full pipeline leaves the disc out, for every root finder. C126_deficit_violated, C126_ring_deficit_violated: what this costs in the limit. C126_equal_masses_violated: the wide equal-mass binary. C126_boundary_partial, C126_sampled_partial: regions that do not overlap and contain the images of the limb contain all images once; missing: limbs that occupy every angular bin (violated) or are sampled more coarsely than the margins."
 },
 "C127": {
  "note": "C127_limb_dense: sampled limb images fill the images of the limb. C127_limb_polar: the same in polar coordinates. C127_uniform_pipeline, C127_limb_dark_pipeline: limit of the complete functions; the conditions of GoodLimb are those under which the tables of define_regions lose nothing (C38, C125, C126 show what happens without)."
 },
 "C128": {
  "note": "C128_binary, C128_triple: error bound under conditions on the branches of the roots along the limb. C128_binary_small, C128_triple_small: these conditions hold below some radius at every position with distinct roots and no spurious root within the tolerance. For triples the lenses are those of C08_contour_triple_violated."
 },
 "C129": {
  "note": "C129_binary, C129_triple. For triples the lenses are those that the code uses (C08)."
 },
 "C130": {
  "note": "C130_conjugate: the symmetry. C130_real_roots_violated, C130_axis_violated, C130_critical_violated: consequences in exact arithmetic; floating point rounding, which breaks the symmetry in practice, is not modelled. Convergence from nearby starting values is C80."
 },
 "C131": {
  "note": "C131_binary, C131_triple: explicit bound under the conditions of C128; C131_binary_small, C131_triple_small: all conditions derived for small sources at regular positions. Exact arithmetic; the model has no NaN at a quadrature node that coincides with a lens. For triples the lenses are those that the code uses (C08)."
 },
 "C132": {
  "note": "C132_single: explicit bound, uniform sources, exact arithmetic."
 },
 "C133": {
  "note": "C133_single with a bound on the variation of the profile as a parameter, C133_single_rate with an explicit one. The limit is taken in npts_ld for fixed npts_limb; exact arithmetic."
 },
 "C134": {
  "note": "C134_exact_violated: the docstring's exactness fails at every point where the multipole value is used. C134_multipole_error and C134_lightcurve_partial: explicit error bounds at every point instead. Missing: exactness (false); the limb-darkened light curve, for which the multipole value ignores u1 (C70)."
 },
 "C135": {
  "note": "C135_multipole_limb: two-sided bound, exact arithmetic."
 },
 "C91": {
  "note": "C91_jvp_violated: the derivative rule of j1_ gives NaN at zero, where J1 has derivative one half. C91_jvp_partial: the rule of j0_ everywhere and that of j1_ at every nonzero argument are the derivatives up to 1e-12 and 2e-12. Missing: j1_ at zero (false)."
 },
 "C99": {
  "note": "C99_exact, C99_error, C99_converges: exactness, error bound and convergence hold in full. C99_split_violated: a contour point at most 4 rho below the base point puts every node of the first rule outside the interval. C99_split_partial: the placement holds in all other cases. Missing: the placement for those contour points (false)."
 },
 "C101": {
  "note": "C101_nearest: what is merged is the nearest passing pair, unless four failing pairs are at most as far apart. C101_complete_violated: two empty slots count as segments at the coordinate origin and can fill all four candidates, so that nothing is merged. C101_complete_partial: a merge takes place when fewer than four failing pairs are as near. Missing: completeness without that hypothesis (false)."
 },
 "C105": {
  "note": "C105_adaptive and C105_refine_partial: distance_from_source_adaptive in full; refine_final gives the widened hull of the samples whose stored angle lies in the region. C105_wrap_violated: a region across angle 0 whose samples are stored between pi and 2 pi gets an empty radial range. Missing: samples in the region modulo 2 pi (false)."
 },
 "C136": {
  "status": "partial",
  "note": "C136_log_violated: positive and unbounded outside the disc, wrong inside except where r and mu coincide or at the limb. C136_log_partial: inside the disc the value is the intended profile with r and mu exchanged. Missing: the stated profile (false)."
 },
 "C137": {
  "note": "Exact arithmetic; leggauss as documented."
 }
}
