{"id": "C01", "title": "Single-lens images are exactly the solutions of the lens equation", "statement": "For a single lens and any non-zero source position w, the two image positions returned by the image finder both satisfy z - 1/conj(z) = w, both are flagged as valid, they are distinct, and every image-plane point that satisfies the equation is one of the two.", "quantifier": "every complex w != 0 and every image-plane point z", "why_tests_cant": "the set of sources is a continuum; a test checks a few w and can never show no third image exists", "anchors": ["src/microjax/point_source.py:_images_point_source (nlenses == 1)", "src/microjax/point_source.py:lens_eq"]}
{"id": "C02", "title": "Single-lens point-source magnification is the Paczynski formula", "statement": "mag_point_source(w, nlenses=1) equals (u^2+2)/(u*sqrt(u^2+4)) with u=|w|, for every w != 0. (The code violates this: it returns sqrt(u^2+4)/u.)", "quantifier": "every complex w != 0", "why_tests_cant": "the shipped tests check only monotonicity and the limit at |w|=100, both of which the wrong value also satisfies", "anchors": ["src/microjax/point_source.py:mag_point_source", "src/microjax/point_source.py:lens_eq_det_jac (nlenses == 1)"]}
{"id": "C03", "title": "lens_eq_det_jac is the Jacobian determinant of lens_eq", "statement": "For 1, 2 and 3 lenses, away from the lens positions, lens_eq(z) is real-differentiable as a map of the plane and lens_eq_det_jac(z) is the determinant of its real 2x2 derivative. (True for 2 and 3 lenses; violated for 1 lens, where the square of the modulus is missing.)", "quantifier": "every image-plane point z off the lens positions, all masses and positions", "why_tests_cant": "derivatives at a continuum of points; finite differences at samples do not establish the identity", "anchors": ["src/microjax/point_source.py:lens_eq", "src/microjax/point_source.py:lens_eq_det_jac"]}
{"id": "C04", "title": "Binary image polynomial misses no image", "statement": "Every image-plane point z (off the two lenses) that satisfies the binary lens equation for source w is a root of the degree-5 polynomial handed to the root finder, and the leading coefficient is conj(w)^2 - a^2.", "quantifier": "all complex w, all real a, e1, all z off the lenses", "why_tests_cant": "completeness is a universal statement over all parameter values and all images", "anchors": ["src/microjax/coeffs.py:_poly_coeffs_binary", "src/microjax/point_source.py:_images_point_source (nlenses == 2)"]}
{"id": "C05", "title": "Triple image polynomial misses no image", "statement": "Every image-plane point z (off the three lenses) that satisfies the triple lens equation for source w is, after subtracting the returned shift, a root of the degree-10 polynomial handed to the root finder.", "quantifier": "all complex w, all real a, r3, psi, e1, e2, all z off the lenses", "why_tests_cant": "a 10th-degree identity in six parameters cannot be settled by sampling", "anchors": ["src/microjax/coeffs.py:_poly_coeffs_triple_CM", "src/microjax/point_source.py:_images_point_source (nlenses == 3)"]}
{"id": "C06", "title": "Binary point-source magnification sums 1/|det J| over exactly the true images", "statement": "If the root finder returns all complex roots of its input polynomial, and no spurious root solves the lens equation to within the 1e-6 tolerance, then the magnification equals the sum of 1/|det J| over the set of all solutions of the lens equation for the source shifted to the mid-point frame (each solution once).", "quantifier": "all s, q, w with a non-degenerate polynomial and simple roots", "why_tests_cant": "needs the full solution set of the lens equation, which no finite test can enumerate for all parameters", "anchors": ["src/microjax/point_source.py:mag_point_source", "src/microjax/point_source.py:_images_point_source"]}
{"id": "C07", "title": "Valid images solve the lens equation within tolerance, and exact images are never masked out", "statement": "For 2 and 3 lenses every returned point flagged valid maps back to within 1e-6 (1e-3 for three lenses) of the source, and any returned point that maps exactly to the source is flagged valid, whatever the root finder returned.", "quantifier": "every source, every lens configuration, every root-finder output", "why_tests_cant": "must hold even for root-finder outputs never produced in tests", "anchors": ["src/microjax/point_source.py:_images_point_source"]}
{"id": "C08", "title": "Frame and mass conventions of the binary and triple entry points agree", "statement": "For every separation s and mass ratio q the shift applied to the source puts the centre of mass of the two lenses at the origin of the user frame, the two mass fractions add to one and have ratio q, and the lens separation is s; in the triple case the three fractions add to one with ratios q and q3 to the primary, and the frame shift used by the point-source, multipole and contour entry points is the same. (Violated by mag_extended_source for three lenses: there the third mass fraction becomes 2*q3/(1+q+q3).)", "quantifier": "all s, q, q3", "why_tests_cant": "an identity in continuous parameters across four entry points", "anchors": ["src/microjax/point_source.py:mag_point_source", "src/microjax/inverse_ray/lightcurve.py:mag_binary,mag_triple", "src/microjax/caustics/lightcurve.py:magnifications", "src/microjax/caustics/extended_source/mag.py:mag_extended_source"]}
{"id": "C09", "title": "Reflection and lens-swap symmetry of the point-source magnification", "statement": "Mirroring the source in the lens axis leaves the set of images mirrored and the magnification unchanged; exchanging the two masses (q -> 1/q) together with w -> -w does too.", "quantifier": "all s, q>0, w", "why_tests_cant": "symmetry must hold over the whole parameter space", "anchors": ["src/microjax/point_source.py:mag_point_source", "src/microjax/point_source.py:lens_eq", "src/microjax/point_source.py:lens_eq_det_jac"]}
{"id": "C10", "title": "Critical curves consist exactly of the points where det J vanishes", "statement": "A point off the lenses is a root of the critical-curve polynomial for some sampling phase if and only if lens_eq_det_jac vanishes there, for the binary and the triple lens; for one lens the unit circle maps to the origin.", "quantifier": "all phases phi, all lens parameters, all z off the lenses", "why_tests_cant": "an equivalence over a continuum", "anchors": ["src/microjax/coeffs.py:_poly_coeffs_critical_binary,_poly_coeffs_critical_triple", "src/microjax/point_source.py:critical_and_caustic_curves"]}
{"id": "C11", "title": "Returned caustics are the lens-map image of the returned critical curves", "statement": "In critical_and_caustic_curves every caustic point, shifted back to the mid-point frame, equals lens_eq of the critical point at the same branch and phase, and for every phase the branches together are a permutation of the roots found for that phase (no root lost or duplicated by the tracking).", "quantifier": "all root-finder outputs, any number of phases and branches", "why_tests_cant": "must hold for every root list, including near-coincident roots where the greedy matching has ties", "anchors": ["src/microjax/point_source.py:critical_and_caustic_curves", "src/microjax/utils.py:match_points"]}
{"id": "C12", "title": "match_points is an injective greedy nearest-neighbour matching", "statement": "For any two point lists with at least as many candidates as points, the returned indices are pairwise distinct and each one is a nearest candidate among those not used earlier (lowest index on ties); with equal lengths it is a permutation. With more points than candidates it repeats an index.", "quantifier": "all finite point lists of any length", "why_tests_cant": "quantifies over all point sets and lengths", "anchors": ["src/microjax/utils.py:match_points"]}
{"id": "C13", "title": "Sequential tracking returns one column per source position", "statement": "For a source path of any length n >= 1 the sequential solver returns exactly n columns; column k holds images of source k computed by the same image finder started from column k-1, with the validity mask of that source.", "quantifier": "all path lengths and all image-finder behaviours", "why_tests_cant": "unbounded history: column k depends on all previous columns", "anchors": ["src/microjax/point_source.py:_images_point_source_sequential"]}
{"id": "C14", "title": "Derivative coefficients", "statement": "The coefficient list used as derivative in the root solver represents the formal derivative of the input polynomial, for every degree.", "quantifier": "every coefficient list", "why_tests_cant": "unbounded degree", "anchors": ["src/microjax/poly_solver.py:_polyder_coeffs"]}
{"id": "C15", "title": "Starting circle contains all roots", "statement": "If the modulus of the leading coefficient is at least the machine-epsilon floor (2^-52), every complex root of the polynomial lies inside the circle on which the default initial guesses are placed. (Without that floor the claim fails.)", "quantifier": "all coefficient lists of any degree, all roots", "why_tests_cant": "a bound on all roots of all polynomials", "anchors": ["src/microjax/poly_solver.py:_cauchy_radius", "src/microjax/poly_solver.py:poly_roots_EA"]}
{"id": "C16", "title": "Root iteration stops, and freezes converged roots", "statement": "The iteration runs at most max_iter times; it stops earlier exactly when all components are flagged converged; a component flagged converged never changes in later iterations; a component is flagged exactly when its last step is at most the tolerance; the number of components never changes.", "quantifier": "all polynomials, initial guesses, tolerances, iteration limits", "why_tests_cant": "an invariant over every execution history", "anchors": ["src/microjax/poly_solver.py:poly_roots_EA", "src/microjax/poly_solver.py:_ea_step"]}
{"id": "C17", "title": "Exact simple roots are a fixed point of the solver", "statement": "If the initial guesses are exact roots, the iteration returns them unchanged after one sweep, for any tolerance > 0 (before real-root cleaning).", "quantifier": "all polynomials of any degree and all exact root vectors", "why_tests_cant": "all degrees and all inputs", "anchors": ["src/microjax/poly_solver.py:_ea_step", "src/microjax/poly_solver.py:poly_roots_EA"]}
{"id": "C18", "title": "Root derivatives obey the implicit function theorem", "statement": "For any differentiable path of coefficients and any differentiable path of simple roots, the tangent reported by the custom derivative rule equals the true derivative of the root along the path.", "quantifier": "all degrees, all differentiable coefficient paths", "why_tests_cant": "derivatives along all directions in coefficient space", "anchors": ["src/microjax/poly_solver.py:_poly_roots_EA_jvp"]}
{"id": "C19", "title": "Real-root cleaning moves a root by less than ten tolerances and only for real polynomials", "statement": "The clean-up step changes only imaginary parts, only when all coefficients are real to within 10 tol, only where |Im z| < 10 tol, and then sets them to exactly zero.", "quantifier": "all inputs", "why_tests_cant": "all inputs", "anchors": ["src/microjax/poly_solver.py:_clean_real_roots"]}
{"id": "C20", "title": "Batching does not mix polynomials", "statement": "For a batch of any shape, every row of poly_roots is the result of solving that row alone, in the same position.", "quantifier": "all batch sizes", "why_tests_cant": "unbounded batch sizes", "anchors": ["src/microjax/poly_solver.py:poly_roots,poly_roots_EA_multi"]}
{"id": "C21", "title": "Hexadecapole magnification reduces to the point-source magnification", "statement": "At rho = 0 mag_hexadecapole returns the sum over valid images of 1/|1-|W2|^2|, i.e. the point-source magnification of the same images, and for one lens this is the Paczynski value; the error estimate at rho=0 is 0 and the correction is an even polynomial in rho of degree 4.", "quantifier": "all image sets, masks, lens parameters, u1", "why_tests_cant": "all inputs", "anchors": ["src/microjax/multipole.py:mag_hexadecapole,_mag_hexadecapole_cassan"]}
{"id": "C22", "title": "Multipole terms are the disc-averaged Taylor terms of the image magnification", "statement": "With z a smooth local inverse of the lens map, the coefficients used for the quadrupole and hexadecapole corrections are 1/4 of the Laplacian and 1/8 of the bi-Laplacian of the signed point-source magnification with respect to source position, so the returned per-image value is the fourth-order expansion of the flux-weighted mean over a linearly limb-darkened disc.", "quantifier": "all smooth local inverses, all one/two/three lens configurations, all rho and u1", "why_tests_cant": "an identity between fifth-order derivatives at every regular point", "anchors": ["src/microjax/multipole.py:_mag_hexadecapole_cassan", "src/microjax/multipole.py:mag_hexadecapole"]}
{"id": "C23", "title": "The multipole error estimate bounds the correction", "statement": "The residual returned next to the multipole magnification is non-negative and is at least the absolute difference between the summed corrections it is built from.", "quantifier": "all inputs", "why_tests_cant": "all inputs", "anchors": ["src/microjax/multipole.py:mag_hexadecapole"]}
{"id": "C24", "title": "The multipole and the point-source entry points describe the same lens", "statement": "For the same images the rho=0 multipole magnification per image equals 1/|lens_eq_det_jac|. (True for two lenses; for three lenses it holds when psi = 0 but is violated for general psi because the multipole branch places the third lens at the real number r3.)", "quantifier": "all lens parameters and image positions", "why_tests_cant": "all inputs", "anchors": ["src/microjax/multipole.py:mag_hexadecapole", "src/microjax/point_source.py:lens_eq_det_jac"]}
{"id": "C25", "title": "linear_chi2 minimises the weighted chi-square", "statement": "For array errors that are all positive and a model that is not constant, the returned (Fs, Fb) minimise sum ((flux - Fs*x - Fb)/err)^2 over all real pairs, the minimiser is unique, chi2 is the attained minimum, and the standard errors are the square roots of the diagonal of the inverse normal matrix.", "quantifier": "all data lengths and values with positive errors and non-degenerate design", "why_tests_cant": "an optimum over all real pairs for all data sets", "anchors": ["src/microjax/likelihood.py:linear_chi2"]}
{"id": "C26", "title": "linear_chi2 treats a scalar error as the same error for every datum", "statement": "Passing a scalar err gives the same result as passing an array filled with it, and err = 0 means an unweighted fit, as documented. (Violated: a scalar weight is not broadcast before summing, so the normal equations use the weight once instead of n times.)", "quantifier": "all data lengths n, all scalar errors", "why_tests_cant": "all data sets", "anchors": ["src/microjax/likelihood.py:linear_chi2"]}
{"id": "C27", "title": "nll_ulens is the negative log of the flux-marginalised Gaussian likelihood", "statement": "For positive per-datum variances and positive prior variances, nll_ulens equals 1/2 (f^T S^-1 f + log det S) with S = C + M Lambda M^T, the covariance of the data after marginalising the two linear flux parameters; the same for nll_ulens_general with symmetric positive definite C, Lambda and any prior mean.", "quantifier": "all data lengths, all data, all positive (definite) covariances", "why_tests_cant": "all sizes; a determinant identity", "anchors": ["src/microjax/likelihood.py:nll_ulens", "src/microjax/likelihood.py:nll_ulens_general"]}
{"id": "C28", "title": "nll_ulens agrees with nll_ulens_general", "statement": "With diagonal C, diagonal Lambda and zero prior mean both functions return the same value.", "quantifier": "all data lengths and values", "why_tests_cant": "all sizes", "anchors": ["src/microjax/likelihood.py:nll_ulens,nll_ulens_general"]}
{"id": "C29", "title": "Chunking does not change results", "statement": "Evaluating with any positive chunk size gives, in order, exactly the per-point results: padding entries never leak into the output.", "quantifier": "all data lengths and all chunk sizes >= 1", "why_tests_cant": "all lengths and chunk sizes", "anchors": ["src/microjax/inverse_ray/lightcurve.py:mag_binary,mag_triple (chunked_vmap)"]}
{"id": "C30", "title": "mag_binary uses the full solver exactly on the first MAX_FULL_CALLS rejected points", "statement": "Every point accepted by the proximity tests keeps its multipole value; among the rejected points, in input order, exactly the first MAX_FULL_CALLS get the full extended-source value of that same point; all other points keep their multipole value; the output has the input's length and order.", "quantifier": "all trajectories, test outcomes, MAX_FULL_CALLS >= 0, chunk sizes >= 1", "why_tests_cant": "all lengths and all accept/reject patterns", "anchors": ["src/microjax/inverse_ray/lightcurve.py:mag_binary"]}
{"id": "C31", "title": "mag_triple evaluates the first MAX_FULL_CALLS points in full", "statement": "The first min(n, MAX_FULL_CALLS) points get the extended-source value, every later point the multipole value.", "quantifier": "all lengths, MAX_FULL_CALLS, chunk sizes", "why_tests_cant": "all lengths", "anchors": ["src/microjax/inverse_ray/lightcurve.py:mag_triple"]}
{"id": "C32", "title": "Sub-cell boundary interpolation is the four-point Lagrange interpolant", "statement": "For four distinct abscissae and no epsilon, cubic_interp passes through the four points, reproduces every polynomial of degree at most three and is unchanged by any affine rescaling of the abscissae (so the internal min/max normalisation has no effect).", "quantifier": "all distinct nodes, values, evaluation points", "why_tests_cant": "all inputs", "anchors": ["src/microjax/inverse_ray/extended_source.py:cubic_interp"]}
{"id": "C33", "title": "Differentiating does not change the value of the source indicator", "statement": "The primal value returned when in_source or Is_limb_1st is evaluated under differentiation equals the value of the plain call. (Violated for both.)", "quantifier": "all distances and radii", "why_tests_cant": "all inputs", "anchors": ["src/microjax/inverse_ray/boundary.py:in_source", "src/microjax/inverse_ray/limb_darkening.py:Is_limb_1st"]}
{"id": "C34", "title": "The limb-darkening profile is a non-negative profile with unit flux", "statement": "For every 0 <= u1 <= 1 the profile is non-negative, vanishes outside the unit disc, and integrates to one over the unit disc; it agrees with the contour code's profile up to the factor pi.", "quantifier": "all u1 and radii", "why_tests_cant": "an integral over a continuum for all u1", "anchors": ["src/microjax/inverse_ray/limb_darkening.py:Is_limb_1st", "src/microjax/caustics/integrate.py:_brightness_profile"]}
{"id": "C35", "title": "Derivative rules are the derivatives of the functions they differentiate", "statement": "The tangents reported for in_source, step_smooth, Is_limb_1st and calc_facB are the derivatives of the value reported under differentiation (for step_smooth, of the documented steep sigmoid). (True for in_source, step_smooth, for Is_limb_1st in the distance and for calc_facB below its threshold; violated for Is_limb_1st in u1, where the sign of the normalisation term is wrong, and for calc_facB above the threshold.)", "quantifier": "all inputs in the smooth region", "why_tests_cant": "derivative at all points", "anchors": ["src/microjax/inverse_ray/limb_darkening.py:Is_limb_1st_jvp", "src/microjax/inverse_ray/boundary.py:in_source_jvp,step_smooth"]}
{"id": "C36", "title": "Limb-cell weight is the exact square-root-profile quadrature", "statement": "For delta above the threshold, calc_facB(delta)*sqrt(delta) is the integral of sqrt(x) from 0 to delta+1/2; the weight is at least 1/2 on (0,1].", "quantifier": "all delta in (0,1]", "why_tests_cant": "continuum", "anchors": ["src/microjax/inverse_ray/boundary.py:calc_facB"]}
{"id": "C37", "title": "Ray-shooting magnification is a non-negative, bounded quadrature over the regions", "statement": "For every set of ring regions with ordered bounds mag_uniform is non-negative, each angular cell gets a weight in [0,1], a region of zero radial extent contributes nothing, and the total is at most N/(N-1)*(M-3)/(M-1) times the area of all regions divided by pi rho^2 (N radial, M angular samples); this is at most the area itself when M <= 2N+1, and it is attained by a region lying inside the image of the source.", "quantifier": "all region lists, resolutions, source positions", "why_tests_cant": "all inputs", "anchors": ["src/microjax/inverse_ray/extended_source.py:mag_uniform"]}
{"id": "C38", "title": "Region construction covers every valid limb image", "statement": "Every valid image of the source limb lies in one of the ring sectors over which rays are shot. (Violated in corner cases: see the witness theorems; proved under the stated conditions.)", "quantifier": "all limb image lists, bin numbers, margins", "why_tests_cant": "coverage must hold for all image configurations", "anchors": ["src/microjax/inverse_ray/merge_area.py:define_regions,cluster_1d,_refine_addmargin_merge_r,_merge_final"]}
{"id": "C39", "title": "Merging angular sectors across theta = 0 never discards area of an unrelated ring", "statement": "A sector ending at 2*pi is removed only if it has been merged into a sector starting at 0 with the same radial range. (Violated.)", "quantifier": "all sector tables", "why_tests_cant": "all inputs", "anchors": ["src/microjax/inverse_ray/merge_area.py:_merge_final"]}
{"id": "C40", "title": "One-dimensional clustering brackets every occupied bin", "statement": "Every input value lies in a bin belonging to a maximal run of occupied bins; start and end edges of runs are paired in order, and when there are at most max_cluster runs each value's bin lies between a returned start and its paired end.", "quantifier": "all inputs, bin numbers", "why_tests_cant": "all inputs", "anchors": ["src/microjax/inverse_ray/merge_area.py:cluster_1d"]}
{"id": "C41", "title": "Extended-source entry points trace the limb through the lens the user specified", "statement": "With nlenses = 3 both mag_uniform and mag_limb_dark build their regions from images of the three-lens equation. (Violated by mag_limb_dark, which builds them from the binary lens.)", "quantifier": "all triple-lens inputs", "why_tests_cant": "all inputs", "anchors": ["src/microjax/inverse_ray/extended_source.py:mag_limb_dark,mag_uniform", "src/microjax/inverse_ray/merge_area.py:calc_source_limb"]}
{"id": "C42", "title": "The uniform contour integral is the signed polygon area", "statement": "For every closed contour the boundary integral equals the shoelace area of the polygon; it is translation invariant, changes sign when the contour is reversed, and zero padding after the closing point does not change it.", "quantifier": "all closed polygons of any length and any padding", "why_tests_cant": "unbounded lengths", "anchors": ["src/microjax/caustics/integrate.py:_integrate_unif", "src/microjax/utils.py:trapz_zero_avoiding"]}
{"id": "C43", "title": "Merging contour segments loses and duplicates no point", "statement": "Joining two segments (in any of the four head/tail arrangements) yields a buffer whose points are exactly the points of both in path order, with parity made uniform, provided they fit in the buffer.", "quantifier": "all segment lengths and contents", "why_tests_cant": "unbounded lengths", "anchors": ["src/microjax/caustics/extended_source/segments.py:_merge_two_segments,_concatenate_segments"]}
{"id": "C44", "title": "Splitting an image track partitions it", "statement": "The pieces produced from one image track are disjoint, their union is the set of valid samples, and within each piece the parity is constant and no step is longer than 0.1, provided there are at most twice n_parts pieces.", "quantifier": "all tracks of any length, all masks and parities", "why_tests_cant": "unbounded lengths and change patterns", "anchors": ["src/microjax/caustics/extended_source/segments.py:_split_segment"]}
{"id": "C45", "title": "Limb refinement keeps angles sorted and images aligned with their angles", "statement": "Through all refinement rounds the list of limb angles remains strictly increasing, and column k of the image array always belongs to angle k.", "quantifier": "all refinement histories", "why_tests_cant": "an invariant over unbounded histories", "anchors": ["src/microjax/caustics/extended_source/limb.py:_images_of_source_limb"]}
{"id": "C46", "title": "Image tracking along the limb permutes, never loses, images", "statement": "Each column of the tracked image array is a permutation of the solver output for that limb angle, with mask and parity moved along.", "quantifier": "all columns", "why_tests_cant": "all inputs, any number of columns", "anchors": ["src/microjax/caustics/extended_source/limb.py:_permute_images"]}
{"id": "C47", "title": "Hybrid light curve returns one value per source point chosen by its own test", "statement": "In magnifications each output entry is the multipole value if the point passes its test and otherwise the contour value of that point; for three lenses every point is evaluated in full; for one lens a point passing the test has |w| >= 2 rho.", "quantifier": "all trajectories", "why_tests_cant": "all lengths and patterns", "anchors": ["src/microjax/caustics/lightcurve.py:magnifications"]}
{"id": "C48", "title": "The planetary-caustic test rejects sources at the planetary caustic", "statement": "For a small mass ratio a source centred on the planetary caustic (the source position whose unperturbed image falls on the planet) fails the test, so that it is evaluated in full. (Violated.)", "quantifier": "all s, small q, rho", "why_tests_cant": "all parameters", "anchors": ["src/microjax/caustics/lightcurve.py:_planetary_caustic_test", "src/microjax/inverse_ray/cond_extended.py:_planetary_caustic_test"]}
{"id": "C49", "title": "The proximity tests differentiate the deflection field correctly", "statement": "The three functions used in the caustic-proximity test are the deflection, its first and its second derivative, for the lens described by the parameters. (True for two lenses, violated for three.)", "quantifier": "all z off the lenses, all parameters", "why_tests_cant": "derivatives at all points", "anchors": ["src/microjax/inverse_ray/cond_extended.py:_caustics_proximity_test", "src/microjax/caustics/lightcurve.py:_caustics_proximity_test"]}
{"id": "C50", "title": "Limb-darkened contour integrand reduces to the uniform one", "statement": "With u1 = 0 the P and Q integrals are the half coordinate differences, so on any closed contour the limb-darkened contour integral equals the uniform one whenever the quadrature weights sum to 2.", "quantifier": "all closed contours, all quadrature sizes", "why_tests_cant": "all contours", "anchors": ["src/microjax/caustics/integrate.py:_integrate_ld"]}
{"id": "C51", "title": "Parallax offsets vanish at the reference time", "statement": "compute_parallax at t = tref returns (0,0) for all parallax vectors and event coordinates.", "quantifier": "all piE, tref, coordinates, orbital elements", "why_tests_cant": "all inputs", "anchors": ["src/microjax/trajectory/parallax.py:set_parallax,compute_parallax"]}
{"id": "C52", "title": "Parallax offsets are linear in piE and rotate the projected offset", "statement": "The offsets are linear in (piEN, piEE) and dtau^2 + du^2 = |piE|^2 times the squared projected displacement.", "quantifier": "all inputs", "why_tests_cant": "all inputs", "anchors": ["src/microjax/trajectory/parallax.py:compute_parallax"]}
{"id": "C53", "title": "The projection basis is orthonormal and perpendicular to the line of sight", "statement": "For every event not at a pole, north and east are unit vectors, orthogonal to each other and to the line of sight, point towards increasing Dec and RA, and the orbital-to-equatorial matrix is a rotation.", "quantifier": "all RA, Dec with cos Dec != 0", "why_tests_cant": "continuum", "anchors": ["src/microjax/trajectory/parallax.py:prepare_projection_basis"]}
{"id": "C54", "title": "Kepler's equation is solved to a known accuracy", "statement": "For every mean anomaly and eccentricity 0 <= e < 1 the returned eccentric anomaly differs from the unique exact solution by at most (e/(2(1-e)))^31 (0.85 e)^32, equals it when e = 0 and at the apses, and is odd and 2*pi-equivariant.", "quantifier": "all phases and eccentricities", "why_tests_cant": "error bound over a continuum", "anchors": ["src/microjax/trajectory/parallax.py:getpsi"]}
{"id": "C55", "title": "Earth's projected position lies on the orbit and is periodic", "statement": "The orbital position satisfies the ellipse equation with semi-major axis 1 and eccentricity e, its length is 1 - e cos(psi), the projection is no longer than that, it repeats with the orbital period, it stays within the bound of C54 of the projection of a motion obeying Newton's law of gravitation with that period and perihelion, and at the vernal-equinox time the vector points along the positive x axis of the equatorial frame (the direction of the Sun seen from the Earth).", "quantifier": "all times and elements with 0 <= e < 1", "why_tests_cant": "all times", "anchors": ["src/microjax/trajectory/parallax.py:project_earth_position,prepare_projection_basis"]}
{"id": "C56", "title": "peri_vernal returns the tabulated epochs nearest to the reference time", "statement": "The returned perihelion is a nearest tabulated perihelion, and the returned vernal equinox a nearest tabulated vernal equinox, to the reference time. (Second half violated: the equinox of the same table row is returned.)", "quantifier": "all reference times", "why_tests_cant": "all times", "anchors": ["src/microjax/trajectory/parallax.py:peri_vernal"]}
{"id": "C57", "title": "set_parallax infers both epochs when either is missing", "statement": "If tperi or tvernal is 0 both are taken from the table, otherwise both user values are used unchanged.", "quantifier": "all inputs", "why_tests_cant": "all inputs", "anchors": ["src/microjax/trajectory/parallax.py:set_parallax"]}
{"id": "C58", "title": "Point-lens magnification of the FFT module exceeds one and decreases", "statement": "A_point(u) is even, greater than 1 and strictly decreasing on u > 0.", "quantifier": "all u", "why_tests_cant": "continuum", "anchors": ["src/microjax/fastlens/mag_fft_jax.py:A_point"]}
{"id": "C59", "title": "Central finite-source magnification of a uniform disc is exact", "statement": "The value used at u = 0 for a uniform disc, sqrt(rho^2+4)/rho, equals the disc average of A_point.", "quantifier": "all rho > 0", "why_tests_cant": "an integral for all rho", "anchors": ["src/microjax/fastlens/mag_fft_jax.py:mag_disk,magnification_disk"]}
{"id": "C60", "title": "Central finite-source magnification of limb-darkened discs is exact", "statement": "The value used at u = 0 by magnification_limb2 is the average of A_point over the profile 1-r^2; that of magnification_limb1 is the average over sqrt(1-r^2) up to the error of the elliptic integrals; mag_limb and mag_limb1 combine the uniform and the limb term with the weights of the linear law. (Last part violated: negative magnification at rho=1, a1=0.9.)", "quantifier": "all rho, all coefficients", "why_tests_cant": "integrals for all rho", "anchors": ["src/microjax/fastlens/mag_fft_jax.py:magnification_limb2,mag_limb"]}
{"id": "C61", "title": "Elliptic integrals are accurate for every m < 1, on both branches", "statement": "For every m < 1, ellipk(m) and ellipe(m) equal the complete elliptic integrals K(m), E(m) up to a relative error of (1-r)^32 (r <= 1 the ratio of 1 and sqrt(1-m)); the branch for negative m returns the same value as the direct AGM formula; K(0)=E(0)=pi/2; every AGM value lies between its arguments.", "quantifier": "all m < 1", "why_tests_cant": "continuum", "anchors": ["src/microjax/fastlens/special.py:agm,agm2,ellipk_,ellipe_,ellipk,ellipe"]}
{"id": "C62", "title": "FFTLog returns samples on the reciprocal grid of the input", "statement": "For every input length, extrapolation and padding, with padding present or an even total length, the abscissae returned are (ell+1)/x in reverse order of the original samples: extrapolated and padded samples never leak out.", "quantifier": "all lengths and extrapolation/padding sizes", "why_tests_cant": "index arithmetic over all sizes", "anchors": ["src/microjax/fastlens/fftlog_jax.py:fftlog.__init__,fftlog.fftlog"]}
{"id": "C63", "title": "Window and extrapolation helpers", "statement": "The taper takes values in [0,1], equals 1 below the cut and 0 at the end; log extrapolation of a geometric grid is the geometric grid continued in both directions.", "quantifier": "all sizes", "why_tests_cant": "all sizes", "anchors": ["src/microjax/fastlens/fftlog_jax.py:c_window,log_extrap"]}
{"id": "C64", "title": "FFT-based magnification dispatch", "statement": "A(u, rho) depends only on |u|; for rho >= rho_switch it equals the analytic central value at u = 0 and is 1 beyond the tabulated range; for smaller sources it equals the point-lens magnification for |u| >= u_switch rho and scales as 1 + f(u/rho)/rho inside.", "quantifier": "all u, rho", "why_tests_cant": "all inputs", "anchors": ["src/microjax/fastlens/mag_fft_jax.py:mag_,magnification"]}
{"id": "C65", "title": "Gamma function is finite wherever the mathematical function is", "statement": "gamma_ is NaN only at the poles 0, -1, -2, ... (Violated: any z whose real part is a non-positive integer yields NaN, whatever its imaginary part.) Elsewhere its relative error is that of Stirling's series at z+16 (right half plane) or its inverse at 1-z (left half plane).", "quantifier": "all complex z", "why_tests_cant": "continuum", "anchors": ["src/microjax/fastlens/special.py:gamma_"]}
{"id": "C66", "title": "Index helpers", "statement": "first_nonzero, last_nonzero and first_zero return the index of the first/last such entry when there is one and 0 otherwise.", "quantifier": "all arrays of any length", "why_tests_cant": "all lengths", "anchors": ["src/microjax/utils.py:first_nonzero,last_nonzero,first_zero"]}
{"id": "C67", "title": "Zero-avoiding minimum, maximum and mean", "statement": "min_zero_avoiding/max_zero_avoiding return the least/greatest non-zero entry if there is one and 0 otherwise; mean_zero_avoiding is the arithmetic mean of the non-zero entries, 0 if there is none.", "quantifier": "all real arrays of any positive length, any signs", "why_tests_cant": "all lengths and sign patterns", "anchors": ["src/microjax/utils.py:min_zero_avoiding,max_zero_avoiding,mean_zero_avoiding"]}
{"id": "C68", "title": "sparse_argsort sorts non-zero entries and puts zeros last", "statement": "The result is a permutation of the indices; the non-zero entries come first in ascending order (stable), followed by all zero entries in index order.", "quantifier": "all arrays", "why_tests_cant": "all lengths", "anchors": ["src/microjax/utils.py:sparse_argsort"]}
{"id": "C69", "title": "trapz_zero_avoiding integrates up to the tail of a zero-padded buffer", "statement": "If all samples and abscissae after the tail are zero the result equals the trapezoid sum over the samples up to and including the tail. (Without zero padding only the one segment after the tail is removed: violated as documented.)", "quantifier": "all buffers and tail indices", "why_tests_cant": "all lengths", "anchors": ["src/microjax/utils.py:trapz_zero_avoiding"]}
{"id": "C70", "title": "The hybrid light curve uses the limb-darkened multipole value at accepted points", "statement": "With limb darkening switched on, the value magnifications returns at a point accepted by its accuracy test is the multipole approximation of the limb-darkened source with the given u1. (Violated: u1 is not passed to mag_hexadecapole, so accepted points get the uniform-source value.)", "quantifier": "all rho, all u1 in (0,1]", "why_tests_cant": "the difference is second order in rho and smaller than usual tolerances", "anchors": ["src/microjax/caustics/lightcurve.py:magnifications"]}
{"id": "C71", "title": "mag_uniform converges to the finite-source magnification", "statement": "For every binary or triple lens, source position and radius, and every list of ring regions that covers the images of the source disc exactly once (up to a set of measure zero), mag_uniform tends to (area of the images of the disc)/(area of the disc) as r_resolution and th_resolution tend to infinity independently; a single large annulus is such a list for every lens and source.", "quantifier": "all lens parameters, sources, region lists; limit over both resolutions", "why_tests_cant": "a limit statement about all lenses and sources; tests compare finitely many resolutions with another code", "anchors": ["src/microjax/inverse_ray/extended_source.py:mag_uniform"]}
{"id": "C72", "title": "mag_limb_dark converges to the limb-darkened finite-source magnification", "statement": "Under the same covering condition mag_limb_dark tends to (flux of the images)/(flux of the source) for the linear limb-darkening law as both resolutions tend to infinity, for every u1 < 3 and every delta_c: neither the boundary weights calc_facB nor delta_c bias the limit.", "quantifier": "all lens parameters, sources, u1 < 3, delta_c, region lists", "why_tests_cant": "a limit statement about all lenses and sources", "anchors": ["src/microjax/inverse_ray/extended_source.py:mag_limb_dark"]}
{"id": "C73", "title": "Parallax offsets have no linear part at the reference time", "statement": "For every event, orbit and finite-difference step dt the offsets at tref + dt and tref - dt are equal, so no linear drift is left in the offsets over the difference step.", "quantifier": "all events, parallax vectors, orbits and steps dt != 0", "why_tests_cant": "The cancellation between the stored velocity and the later subtraction must hold for every event; tests compare a few light curves with a tolerance.", "anchors": ["src/microjax/trajectory/parallax.py:272-350", "src/microjax/trajectory/parallax.py:352-397"]}
{"id": "C74", "title": "Derivative rules of the elliptic integrals are their derivatives", "statement": "The formulas of ellipk_jvp and ellipe_jvp are dK/dm and dE/dm when fed with exact values, and the returned tangents differ from the derivatives at most by the propagated AGM error.", "quantifier": "all 0 < m < 1, all tangents", "why_tests_cant": "derivatives of integrals on a continuum", "anchors": ["src/microjax/fastlens/special.py:ellipk_jvp,ellipe_jvp"]}
{"id": "C75", "title": "FFTLog is exact on resolved log-periodic modes and linear", "statement": "On a geometric grid of even length >= 16, samples of Re(e^{i phi} x0^{-i eta} x^{nu+i eta}) with eta a grid frequency below the taper are mapped to samples of sqrt(pi)/4 Re(e^{i phi} x0^{-i eta} g_l(nu+i eta) y^{-nu-i eta}) on the reciprocal grid, without discretisation error; the transform is linear in the samples.", "quantifier": "all grids, sizes, modes, phases, orders, biases, kernels", "why_tests_cant": "all sizes and modes", "anchors": ["src/microjax/fastlens/fftlog_jax.py:fftlog.__init__,fftlog.get_c_m,fftlog.fftlog"]}
{"id": "C76", "title": "Every run of two or more samples becomes exactly one contour row", "statement": "_process_segments turns the open image tracks into rows such that every maximal stretch of valid, equal-parity samples without a long step, of length at least two, appears in exactly one row, moved to the front and padded with zeros, and all other rows are zero.", "quantifier": "all tracks, masks, parities and lengths with at most ten runs per track and at most nr_of_segments long runs", "why_tests_cant": "all arrangements of runs in all tracks at once; a lost or doubled run changes the area silently", "anchors": ["src/microjax/caustics/extended_source/segments.py:100-137", "src/microjax/caustics/extended_source/segments.py:140-185"]}
{"id": "C77", "title": "The contour sum is the signed area of polygons that use every run once", "statement": "For a uniform source the number that mag_extended_source divides by the source area is the sum of parity times polygon area over the closed tracks plus the same sum over at most three stitched contours; each stitched contour chains whole runs, has one parity and no jump; no run is used twice, and the used and left-over runs together are exactly the runs of at least two samples.", "quantifier": "all tracks within the capacity of the buffers whose open members avoid the real axis", "why_tests_cant": "depends on the combination of splitting, stitching and integration for arbitrary tracks", "anchors": ["src/microjax/caustics/extended_source/contours.py:21-78", "src/microjax/caustics/extended_source/segments.py:314-448", "src/microjax/caustics/extended_source/mag.py:126-164"]}
{"id": "C78", "title": "Contour magnification of a source behind a single lens", "statement": "mag_extended_source(0, rho, nlenses=1, npts_limb=n) lies between S(1 - (2 pi/(n/2-1))^2/6 - 1e-8) and S with S = sqrt(1+4/rho^2), for whatever random perturbations are drawn; contours of one lens are integrated up to their closing point. (The last part is violated: the closing edge is left out, so for a general contour one triangle is missing.)", "quantifier": "all rho > 0, all n from 18 to 2e8, all random draws", "why_tests_cant": "continuum of radii and all numbers of samples", "anchors": ["src/microjax/caustics/extended_source/mag.py:36-164", "src/microjax/caustics/extended_source/limb.py:66-180", "src/microjax/caustics/extended_source/contours.py:21-42"]}
{"id": "C79", "title": "No source is ever demagnified", "statement": "mag_point_source returns at least one for one, two and three lenses of positive mass at every source position off the caustics, and the values of mag_uniform and mag_limb_dark with regions covering the images once eventually exceed 1 - eps as the grid is refined, for every eps > 0.", "quantifier": "all source positions, separations, mass ratios, third-lens positions, source radii and linear limb-darkening coefficients in [0,1); point sources: root finder returning all roots", "why_tests_cant": "a lower bound over a continuum of configurations; it depends on the existence of a minimum of the light-travel time for every configuration", "anchors": ["src/microjax/point_source.py:409-469", "src/microjax/inverse_ray/extended_source.py:41-389"]}
{"id": "C80", "title": "The Ehrlich-Aberth solver converges from nearby starting values", "statement": "If the starting values lie within e of the roots of the polynomial, matched one to one, the roots are at least delta apart and 4 n e <= delta, then one sweep contracts every error cubically, and poly_roots_EA stops after finitely many sweeps with its i-th output within max(2/3 tol, e/2^max_iter) + 10 tol of root i (the 10 tol comes from the final cleaning), for every tolerance and iteration limit.", "quantifier": "all degrees, all polynomials with simple roots and nonzero leading coefficient, all starting values in the basin, all tolerances and iteration limits", "why_tests_cant": "an error bound for all polynomials of all degrees and every starting point in the basin", "anchors": ["src/microjax/poly_solver.py:113-232"]}
{"id": "C81", "title": "Sequential image tracking never exchanges two images", "statement": "Along a source path on which the roots of the image polynomial stay at least delta apart and move by at most mu per sample with 20 (mu + eta) <= delta, row i of the table of _images_point_source_sequential stays within 1.1e-11 of the same root i at every later sample, however long the path, when the first column is within eta. For every continuous path without caustic crossing (roots delta apart) every sufficiently fine sampling has this property.", "quantifier": "all binary lenses, all source paths, all lengths; initial column within eta of the roots", "why_tests_cant": "invariant over unboundedly long paths and arbitrary trajectories", "anchors": ["src/microjax/point_source.py:344-407", "src/microjax/poly_solver.py:289-321"]}
{"id": "C82", "title": "The critical curves are complete", "statement": "critical_and_caustic_curves(npts, nlenses) returns only critical points of the lens map in the user's frame together with their images (the caustic), and every critical point z has a returned point c with |c-z| <= pi/(npts-1) (one lens), |c-z|^4 <= pi/(npts-1) prod |z-z_i|^2 (two lenses), |c-z|^6 <= pi/(npts-1) prod |z-z_i|^2 (three lenses), so no part of the curve is missed as npts grows.", "quantifier": "all npts >= 2, all positive mass ratios, all separations and third-lens positions with distinct lenses, all critical points; root finder returning all roots", "why_tests_cant": "completeness of a curve over a continuum of points and configurations", "anchors": ["src/microjax/point_source.py:179-266", "src/microjax/coeffs.py:6-51"]}
{"id": "C83", "title": "What acceptance of the quick value guarantees", "statement": "Where mag_binary keeps the multipole value, that value differs from mag_point_source at the same position by less than 0.01 (also as an entry of the light curve); every valid image z of the position satisfies 36 (rho+0.001)^2 |Im(conj(alpha'(z))^3 alpha''(z)^2)| < |det J(z)|^5 with alpha the deflection field; if some root was rejected, the factors of the rejected roots sum to more than 8 (rho+0.001), and at a true image the factor equals |det J|^2/|f''(conj z) f'(z) - f''(z) f'(conj z)^2|. A position accepted for one source radius is accepted for every smaller one, and a position accepted for a point source is accepted for all small enough positive radii.", "quantifier": "all positions, radii, limb-darkening coefficients, separations, mass ratios and root finders", "why_tests_cant": "the guarantee is about every position of every light curve and every radius; tests compare a few curves", "anchors": ["src/microjax/inverse_ray/cond_extended.py:40-117", "src/microjax/inverse_ray/lightcurve.py:62-215", "src/microjax/caustics/lightcurve.py:64-129"]}
{"id": "C84", "title": "Accuracy of the angular sum with sub-cell boundaries", "statement": "For a uniform source, on a ring of N equally spaced angles where the source-plane distance crosses the limb transversally (one-sided slope bounded below on each crossing, four samples around it, smooth there), the sum that mag_uniform forms from cubic boundary estimates equals the ring radius times the angle of the ring inside the source (between the second and the last-but-one sample), up to an explicit error per crossing of fourth order in the spacing plus a 1e-10 regularisation term. For a limb-darkened source whose brightness rises from the limb like a square root, the boundary cell's weight is the exact integral of the brightness from the limb to the far edge of the cell.", "quantifier": "all rings, all numbers of samples and crossings, all smooth distance functions meeting the slope bound, all spacings; all boundary cells with more than delta_c of the cell inside", "why_tests_cant": "the order of accuracy is a statement about all spacings and all crossing positions; tests compare a few magnifications with a reference code at fixed resolution", "anchors": ["src/microjax/inverse_ray/extended_source.py:126-156", "src/microjax/inverse_ray/extended_source.py:274-297", "src/microjax/inverse_ray/extended_source.py:332-389", "src/microjax/inverse_ray/boundary.py:15-35"]}
{"id": "C85", "title": "Number and parities of the images", "statement": "For a binary (s nonzero, q>0) and a source that is not at a lens, if the root finder returns all roots, the roots are distinct and none comes within the tolerance without being a solution, the number of positions flagged by _images_point_source is three or five; they are exactly the images of the source, and exactly one more of them has negative than positive Jacobian determinant. For a triple (distinct lenses, positive masses) the number is four, six, eight or ten, with exactly two more negative than positive parities.", "quantifier": "all separations, mass ratios, third-lens positions, all source positions off the lenses and caustics, all root finders that return all roots", "why_tests_cant": "counting images for every lens and source needs the index theorem for the lens map; a test can only count at sampled sources", "anchors": ["src/microjax/point_source.py:268-355", "src/microjax/point_source.py:100-266"]}
{"id": "C86", "title": "Signed magnification sum and lower bound inside caustics", "statement": "When all five (binary) or all ten (triple) roots are images, the reciprocals of the determinants computed by the code sum to exactly one, and mag_point_source returns at least three (binary) or at least seven (triple).", "quantifier": "all separations and mass ratios, all third-lens positions, all sources with the maximal number of images, all root finders that return all roots", "why_tests_cant": "the sum rule is an identity over a continuum of lens configurations; tests compare single values", "anchors": ["src/microjax/point_source.py:409-469", "src/microjax/point_source.py:268-355"]}
{"id": "C87", "title": "The two triple-lens polynomials are interchangeable", "statement": "The polynomial built by _poly_coeffs_triple (mid-point frame, fully expanded) at z equals the polynomial built by _poly_coeffs_triple_CM (centre-of-mass frame) at z minus the returned shift, with the same degree and leading coefficient. Hence their roots differ exactly by the shift, and calling either in _images_point_source gives the same candidates and flags up to order and the same magnification.", "quantifier": "all sources, separations, third-lens positions, mass fractions and evaluation points; all root finders that return all roots", "why_tests_cant": "an identity between two degree-10 polynomials with some 1300 monomials in seven variables; a test compares roots at sample parameters to within floating-point noise", "anchors": ["src/microjax/coeffs.py:210-1600", "src/microjax/coeffs.py:53-148", "src/microjax/point_source.py:329-339"]}
{"id": "C88", "title": "Image regions depend only on the set of valid limb images", "statement": "define_regions returns the same regions for two sets of limb candidates that contain the same valid images: the order of the candidates, repetitions, and the positions of the masked (spurious) candidates are irrelevant; only whether any candidate is masked matters. A sector starting at angle zero is kept and only grows by the margin. A number of lenses other than two or three is an error.", "quantifier": "all candidate lists of any length, all bin counts and margins, all source radii", "why_tests_cant": "invariance over all permutations and all positions of spurious candidates; a test compares a few orders", "anchors": ["src/microjax/inverse_ray/merge_area.py:17-114", "src/microjax/inverse_ray/merge_area.py:151-297"]}
{"id": "C89", "title": "Gradients of mag_point_source are the derivatives of the magnification", "statement": "For two and three lenses, when the source is not at a lens, not on a caustic and no spurious root passes the residual tolerance, the tangent that forward-mode differentiation of mag_point_source returns (implicit rule at poly_roots, ordinary rules elsewhere, no tangent through the mask) is the derivative of the physical point-source magnification with respect to s, q (and q3, r3, psi) and the source position, in every direction; near such a point mag_point_source returns the physical magnification.", "quantifier": "all lens parameters and source positions off the caustics, all differentiable paths of parameters, every root finder that returns all roots (in any order, the order may change from call to call)", "why_tests_cant": "a derivative at every point and direction; finite-difference tests sample a few points and cannot rule out a missing chain-rule term that is small there, nor mask or root-order switches", "anchors": ["src/microjax/point_source.py:409-469", "src/microjax/poly_solver.py:235-251", "src/microjax/coeffs.py:53-208"]}
{"id": "C90", "title": "Bessel functions are accurate for every real argument", "statement": "j0 and j1 differ from the Bessel functions J0 and J1 by at most 1e-12 at every real argument (in exact arithmetic, with the coefficient tables of the source); j0 is even and j1 odd; j2 satisfies the recurrence and differs from J2 by at most 2e-12 at every nonzero argument; j1p5 equals J_{3/2} exactly for x > 0.", "quantifier": "all real x, no bound; includes the branch points |x| = 1e-5 and |x| = 5 and the limit of large x", "why_tests_cant": "unbounded continuum of arguments; a wrong digit in a coefficient can hide between sample points or beyond the largest tested argument", "anchors": ["src/microjax/fastlens/special.py:236-522"]}
{"id": "C91", "title": "Derivative rules of the Bessel functions", "statement": "The custom derivative of j0 is the derivative of J0 up to 1e-12 everywhere; the custom derivative of j1 is the derivative of J1 (J0 - J1/x, one half at zero) up to 2e-12.", "quantifier": "all real arguments and tangents", "why_tests_cant": "a continuum of arguments; the removable singularity at zero is a single point", "anchors": ["src/microjax/fastlens/special.py:446-451", "src/microjax/fastlens/special.py:497-503"]}
{"id": "C92", "title": "Fourier profiles of the sources are the transforms of the discs", "statement": "The method sk(k, rho) of magnification_disk, magnification_limb1 and magnification_limb2 returns the two-dimensional Fourier transform, normalised to unit flux, of the brightness profiles 1, sqrt(1-r^2) and 1-r^2 on a disc of radius rho, to about 1e-12; the closed forms of mag_limb1 (sk_, sk__) return the transform of the linear limb-darkening law 1 - a1 (1 - sqrt(1-r^2)).", "quantifier": "all wavenumbers k and radii rho with k rho >= 0, all limb-darkening coefficients", "why_tests_cant": "a continuum of wavenumbers including the removable singularity at zero and arguments where cancellation dominates; normalisation errors are invisible after interpolation at a few source positions", "anchors": ["src/microjax/fastlens/mag_fft_jax.py:76-82", "src/microjax/fastlens/mag_fft_jax.py:246-331", "src/microjax/fastlens/special.py:477-522"]}
{"id": "C93", "title": "Gamma function is accurate in the whole complex plane", "statement": "gamma(z) has relative error at most 2e-15 (exact arithmetic) at every complex z whose real part is not a non-positive integer.", "quantifier": "all such z, without bound on real or imaginary part; right half plane directly, left half plane through the reflection", "why_tests_cant": "the documentation claims accuracy on a sampled square |Re|,|Im| < 100; the FFTLog kernel evaluates it at frequencies chosen by the user's grid", "anchors": ["src/microjax/fastlens/special.py:14-64"]}
{"id": "C94", "title": "The FFTLog kernel is the gamma ratio of the Mellin transform", "statement": "g_m_vals(mu, q) equals Gamma((mu+1+q)/2)/Gamma((mu+1-q)/2) and g_l(l, z) equals 2^z Gamma((l+z)/2)/Gamma((3+l-z)/2), both up to relative error 6e-12, on the exact branch and on the asymptotic branch for large arguments.", "quantifier": "all orders mu >= 0 (l >= -1/2), all biases between 1 and 2, all frequencies", "why_tests_cant": "unbounded frequencies, two branches that must agree at the switch; a wrong coefficient of the asymptotic branch changes only high frequencies", "anchors": ["src/microjax/fastlens/fftlog_jax.py:173-206", "src/microjax/fastlens/fftlog_jax.py:238-247"]}
{"id": "C95", "title": "The discrete Hankel transform returns the Hankel integral", "statement": "For every function f that the logarithmic grid resolves (x^(1/2-nu) f is a trigonometric polynomial in log x with the period of the grid and frequencies below the taper), hankel(x, f(x), nu).hankel(0) returns y = 1/(2x) reversed and, at each y, the integral of f(x) J_0(xy) dx/x over (0, infinity), up to 6e-12 of the sum of the moduli of the mode contributions.", "quantifier": "all geometric grids of even length >= 16, all biases in [1, 2], all resolved f (any number of modes, amplitudes and phases, frequency zero included), all output points; gamma function of the package", "why_tests_cant": "a test compares a few functions with known transforms and sees aliasing errors of 1e-3 that hide a wrong normalisation, order or phase at some frequencies", "anchors": ["src/microjax/fastlens/fftlog_jax.py:9-70", "src/microjax/fastlens/fftlog_jax.py:112-121", "src/microjax/fastlens/fftlog_jax.py:238-247"]}
{"id": "C96", "title": "Tables are read by linear interpolation on geometric grids", "statement": "Interpolation in the magnification tables returns the stored sample at every node, the chord between the two neighbouring samples inside a cell (hence a value between them), the first sample to the left of the grid and the requested value (or the last sample) to the right; logspace(lo, hi, n) is the geometric progression from 10^lo to 10^hi.", "quantifier": "all non-decreasing grids of any length (also with repeated abscissae, as the truncation at u = 100 produces), all samples, all arguments", "why_tests_cant": "off-by-one errors in the cell search only show at nodes, in the last cell or on repeated abscissae", "anchors": ["src/microjax/fastlens/mag_fft_jax.py:141-166", "src/microjax/fastlens/mag_fft_jax.py:203-221"]}
{"id": "C97", "title": "FFT magnification is the source average of the point-source magnification", "statement": "For rho >= rho_switch, if the first Hankel transform is exact and the second has error at most delta, A(u, rho) at every distance u < 100 of the output grid equals the mean, over a source of radius rho with brightness profile S, of the single-lens point-source magnification blurred by a Gaussian of width rho/(20 sqrt(2) pi) (the damping factor), up to delta/(2 pi); table entries at u >= 100 are one.", "quantifier": "all source radii, all integrable profiles S of non-zero flux with sk their normalised transform, all settings of the constructor, all Hankel transforms with the stated accuracy, all source positions in the plane", "why_tests_cant": "the normalisations 2 pi, k^2, -1/+1 of the two transforms and the meaning of the damping factor are only tested against finite-precision reference curves at a few u, rho", "anchors": ["src/microjax/fastlens/mag_fft_jax.py:141-150", "src/microjax/fastlens/mag_fft_jax.py:194-223", "src/microjax/fastlens/mag_fft_jax.py:225-244"]}
{"id": "C98", "title": "Magnification of small sources", "statement": "For rho < rho_switch and u < u_switch rho, A(u, rho) is the mean of the single-lens magnification over the source (blurred by a Gaussian of width sqrt(2) rho/100), up to the error of the Hankel transform and terms of order u and rho.", "quantifier": "all source radii below rho_switch, all non-negative integrable profiles of non-zero flux, all settings, all source positions on the output grid", "why_tests_cant": "the regime rho < 1e-4 has magnifications above 1000, a constant offset is below the tolerance of any relative comparison", "anchors": ["src/microjax/fastlens/mag_fft_jax.py:152-166", "src/microjax/fastlens/mag_fft_jax.py:176-192"]}
{"id": "C99", "title": "Gauss-Legendre quadrature of the limb-darkened contour integral", "statement": "With leggauss(n) as documented (n nodes, exact to degree 2n-1): the quadrature along a line from the base point to a contour point is exact for polynomial brightness of degree at most 2n-1 in either direction, has error at most 2 eps |b-a| for a brightness within eps of such a polynomial, and the limb-darkened contour integral of any closed polygon converges, as the number of points grows, to the trapezoidal rule for the exact Green primitives of the brightness. The brightness is sampled only between base point and contour point, half of the points within 2 rho of the contour point.", "quantifier": "all rules satisfying the documentation (which exist for every n), all intervals and orientations, all lens maps, sources and closed polygons with no lens on the integration lines", "why_tests_cant": "tests compare a few magnifications at one number of points; the placement of the nodes is not observable in them", "anchors": ["src/microjax/caustics/integrate.py:24-27", "src/microjax/caustics/integrate.py:53-127"]}
{"id": "C100", "title": "Every valid image of every limb sample is on exactly one track, invalid ones on none", "statement": "For two and three lenses mag_extended_source is the contour sum, over the source area, of as many tracks as the lens polynomial has roots; sample k of the tracks holds in some order exactly the images at the k-th limb angle that satisfy the lens equation, with the sign of their Jacobian, and nothing for the others; a track is integrated as a closed contour exactly if all its samples are real images and its ends are within 1e-5.", "quantifier": "all lens and source parameters, all numbers of limb samples, all root finders returning as many roots as the degree, both integrators", "why_tests_cant": "needs all source positions and root orderings; a dropped or spurious image changes the magnification only near caustics", "anchors": ["src/microjax/caustics/extended_source/mag.py:85-164", "src/microjax/caustics/extended_source/segments.py:140-185", "src/microjax/caustics/extended_source/limb.py:66-180"]}
{"id": "C101", "title": "Stitching joins the nearest pair of ends that passes the test", "statement": "One stitching step merges the active segment with the remaining segment, and by the connection type, whose ends pass the connection test and are nearest among all pairs that pass; the joined segment's slot is emptied and no other slot changes; if some pair passes, a merge takes place.", "quantifier": "all states of the stitching loop with any number of segments, any distance and any test", "why_tests_cant": "the order of candidates depends on all distances at once; empty slots only matter near the coordinate origin", "anchors": ["src/microjax/caustics/extended_source/segments.py:344-409"]}
{"id": "C102", "title": "Digamma function and derivative rule of the gamma function", "statement": "At every complex number that is not a pole, digamma_ (coefficients as written) differs from Gamma'/Gamma by at most 1.3e-15; wherever gamma_ returns a number, the tangent returned by its custom derivative rule differs from Gamma'(z) dz by at most 2e-15 (|Gamma'(z)| + |Gamma(z)|) |dz|.", "quantifier": "all complex arguments except the poles (for the derivative rule: except the vertical lines through the poles, on which gamma_ is NaN), all tangents", "why_tests_cant": "a wrong coefficient, shift or reflection shows only in parts of the complex plane; gradients of the FFT magnification use the rule at arguments no test lists", "anchors": ["src/microjax/fastlens/special.py:67-113", "src/microjax/fastlens/special.py:116-122"]}
{"id": "C103", "title": "Kernels of the transforms with derivatives and squares of spherical Bessel functions", "statement": "g_l_1, g_l_2 and h_l, the kernels of fftlog_dj, fftlog_ddj and fftlog_jsqr, equal the documented ratios of gamma functions with relative error below 6e-11 on both branches (direct and asymptotic); the kernels of the derivatives are the kernel of j_l at a shifted argument times the factor that integration by parts gives.", "quantifier": "all orders l >= 0 (second derivative: l >= 1), all complex z with real part between 1.1 and 2 (squares: between 1 and 1.9), all frequencies", "why_tests_cant": "the asymptotic branch is entered only beyond a cut in the frequency and a wrong sign in a correction term changes the fourth digit there; tests see one grid", "anchors": ["src/microjax/fastlens/fftlog_jax.py:72-109", "src/microjax/fastlens/fftlog_jax.py:208-276"]}
{"id": "C104", "title": "The numpy and the JAX implementation of the FFT magnification agree", "statement": "For the same special functions the numpy module fastlens/mag_fft.py returns at every u the magnification that the JAX module returns, for large sources (although one cuts and closes its table at u=100 and the other clamps it) and for small ones on the same grid; profiles and central values of orders 1 and 2 are the same; the numpy class raises for a large source at every u exactly when the order of limb darkening is not 1 or 2; its Hankel transform terminates the program exactly when n + nu = 1/2; its methods fftlog, fftlog_dj, fftlog_ddj and fftlog_jsqr return what the JAX methods return, except that they terminate the program exactly when the bias is -l, 1-l, 2-l, or one of -2l and 2.", "quantifier": "all u, all rho, all Hankel transforms returning an increasing grid of positive distances around 100, all orders of limb darkening", "why_tests_cant": "agreement of two programs at every argument, including the cell next to the cut, cannot be sampled", "anchors": ["src/microjax/fastlens/mag_fft.py:12-195", "src/microjax/fastlens/fftlog.py:130-228"]}
{"id": "C105", "title": "The uncalled helpers refine_final and distance_from_source_adaptive", "statement": "refine_final shrinks every region to the hull of the limb samples in it, widened by the margins, and loses no sample; distance_from_source_adaptive is distance_from_source at the angle that lies the given fraction of the way between the two bounds.", "quantifier": "all lists of limb samples, all regions, all margins; all lenses, radii and fractions", "why_tests_cant": "the package never calls these public functions, so no test of the magnification exercises them; a direct test would check some samples and regions, while the claim is about every list of samples and every region, those across angle zero included", "anchors": ["src/microjax/inverse_ray/merge_area.py:116-149", "src/microjax/inverse_ray/boundary.py:95-116"]}
{"id": "C106", "title": "The magnification counts true images only", "statement": "mag_point_source with two or three lenses returns the sum of 1/|det J| over the solutions of the lens equation at every source position, also next to a caustic: roots of the image polynomial that are not images contribute nothing.", "quantifier": "all lenses, all source positions, every complete root finder, no assumption on how close spurious roots come to solving the lens equation", "why_tests_cant": "the sources at which a spurious root passes the tolerance fill a thin strip along the caustics, which sampled source positions miss, and the error there has no bound", "anchors": ["src/microjax/point_source.py:325-355", "src/microjax/point_source.py:409-469"]}
{"id": "C107", "title": "The third lens is where the documentation puts it", "statement": "With nlenses=3, (r3, psi) is the position of lens 3 relative to lens 1 in polar coordinates (usage guide and mag_triple), respectively relative to the centre of mass of lenses 1 and 2 (usage guide, example).", "quantifier": "all triple lenses, every point of the lens plane", "why_tests_cant": "the triple-lens tests feed the same parameters to functions that share the convention, so they pass for any origin of r3; the geometric meaning of the parameters is a statement about the lens map for all parameters", "anchors": ["docs_src/usage.rst:53-56", "docs_src/usage.rst:140", "src/microjax/inverse_ray/lightcurve.py:292-297", "src/microjax/point_source.py:105-119"]}
{"id": "C108", "title": "A distant source is not magnified", "statement": "For a fixed lens system, mag_point_source tends to one as the source moves away: it is at least the true magnification, which is at least one, and exceeds one by at most a constant over the fourth power of the distance.", "quantifier": "all separations, mass ratios and third-lens positions with distinct lenses, all sufficiently distant sources in all directions, every root finder that returns all roots", "why_tests_cant": "the tests evaluate one distance on one axis for one lens; the rate and the uniformity in the direction concern all sources, and the roots are not assumed distinct or the spurious ones absent", "anchors": ["src/microjax/point_source.py:409-469", "src/microjax/point_source.py:268-355", "src/microjax/coeffs.py:53-148", "src/microjax/coeffs.py:150-193"]}
{"id": "C109", "title": "A distant source has one image more than there are lenses", "statement": "For sufficiently distant sources _images_point_source flags exactly nlenses+1 positions, without repetition, and they are exactly the images; no spurious root passes the mask.", "quantifier": "all two- and three-lens systems with positive masses, all sufficiently distant sources, every root finder that returns all roots", "why_tests_cant": "which of the n\u00b2+1 roots pass the mask depends on the residuals of the spurious ones, whose limit is the separation of two lenses; a test at given lenses cannot show this for all", "anchors": ["src/microjax/point_source.py:325-355"]}
{"id": "C110", "title": "Extended sources are averages of point sources", "statement": "As the resolutions grow, mag_uniform converges to the mean of the true point-source magnification over the disc of the source and mag_limb_dark to the mean weighted with the brightness; the magnification is integrable over every disc, caustics included. Hence the limits never exceed a bound on mag_point_source over the disc, and for discs far from the lenses they are between 1 and 1 + C/d^4.", "quantifier": "all binary and triple lenses, all source positions, radii and limb-darkening coefficients, every list of ring regions that covers the images once", "why_tests_cant": "the point-source function solves a polynomial and the extended-source functions count rays in the image plane; that the one is the average of the other is an identity between integrals over all points of the disc, with singularities along the caustics", "anchors": ["src/microjax/inverse_ray/extended_source.py:41-330", "src/microjax/point_source.py:409-469"]}
{"id": "C111", "title": "The three magnification functions agree for small sources", "statement": "Off the caustics, as the radius rho of the source tends to zero, the (converged) values of mag_uniform and mag_limb_dark differ from the multipole value of mag_binary at the same position by at most a constant times rho^5 and from mag_point_source by at most a constant times rho^2.", "quantifier": "all binaries, all source positions at which the roots are distinct and no spurious root comes within the tolerance of the mask, all limb-darkening coefficients in [0,1), all sufficiently small radii, all lists of ring regions that cover the images once", "why_tests_cant": "the tests compare the functions at given radii and tolerances; the orders of agreement are limits in the radius and in the resolutions", "anchors": ["src/microjax/multipole.py:237-316", "src/microjax/inverse_ray/extended_source.py:41-330", "src/microjax/inverse_ray/lightcurve.py:150-190", "src/microjax/point_source.py:409-469"]}
{"id": "C112", "title": "Between the caustics and at the caustics", "statement": "On the source positions at which the roots are distinct and no spurious root comes within the tolerance, an open set, mag_point_source is continuous, and on every connected set of such positions the number of images flagged by _images_point_source is the same. In every neighbourhood of every caustic point returned by critical_and_caustic_curves mag_point_source takes values above any given bound.", "quantifier": "all binaries and all triples with distinct lenses, all source positions, all connected sets of regular positions, all sampled caustic points, all bounds and neighbourhoods", "why_tests_cant": "continuity, constancy along arbitrary paths and divergence at the caustics are statements about infinitely many source positions", "anchors": ["src/microjax/point_source.py:409-469", "src/microjax/point_source.py:269-355", "src/microjax/point_source.py:180-266"]}
{"id": "C113", "title": "Moderate point-source magnifications are exact", "statement": "A value returned by mag_point_source below an explicit limit, computed from the tolerance of the image mask (1e-6 for two lenses, 1e-3 for three), the smallest lens distance and the smallest mass fraction, is the exact magnification, and the positions flagged by _images_point_source are then exactly the images, each once: roots that pass the mask without being images, and repeated roots, can only occur in values above the limit.", "quantifier": "all binaries and triples with positive masses whose tolerance is small against the lens distances and Einstein radii, all source positions off the lenses, all returned values below the limit", "why_tests_cant": "whether a spurious root passed the mask cannot be seen in the returned value; the limit is a statement about all source positions next to caustics", "anchors": ["src/microjax/point_source.py:409-469", "src/microjax/point_source.py:269-355"]}
{"id": "C114", "title": "The light curve of mag_binary from end to end", "statement": "Every entry of the light curve of mag_binary converges as the ray-shooting resolutions grow: to the exact finite-source magnification of its own point at the first MAX_FULL_CALLS rejected points, to the multipole value elsewhere, which at accepted points is within 0.01 of mag_point_source. For sources smaller than a radius that depends on the light curve only, every entry is within K rho^5 of the exact finite-source magnification, whatever the tests decide and however small MAX_FULL_CALLS is.", "quantifier": "all binaries, all light curves, all limb-darkening coefficients below one, all radii, all MAX_FULL_CALLS and chunk sizes, all region lists that cover the images once; for the second part all lists of regular source positions", "why_tests_cant": "the tests compare single values with tolerances; the statement is about limits and about every combination of tests and budgets", "anchors": ["src/microjax/inverse_ray/lightcurve.py:65-219", "src/microjax/inverse_ray/extended_source.py:41-330", "src/microjax/multipole.py:237-316"]}
{"id": "C115", "title": "Lens parameters given as arrays are swept element by element", "statement": "mag_point_source follows NumPy's broadcasting rules for the sources and all lens parameters: the result has the broadcast shape and each element is the magnification the scalar call returns for the elements that meet there. Two lenses: proved for arrays of every rank and shape, and incompatible shapes raise. Three lenses: holds for scalar lens parameters; otherwise false, because the centre-of-mass shift is added while the roots are on the trailing axis: a parameter array whose trailing axis is not of length 1 or 10 raises, and N separations in a column against N sources in a row silently return wrong values.", "quantifier": "all shapes of any rank, all parameter values, all root finders that return as many roots as the degree", "why_tests_cant": "the tests call with scalar lens parameters; shapes and ranks are unbounded", "anchors": ["src/microjax/point_source.py:268-355", "src/microjax/point_source.py:409-469", "docs/_sources/usage.rst.txt:52-58"]}
{"id": "C116", "title": "The light curve of mag_triple is the finite-source magnification at every point", "statement": "Every value of the light curve that mag_triple returns converges, as the resolutions grow, to the exact (uniform or limb-darkened) finite-source magnification of its point, up to the fifth order in the source radius. Holds at the first MAX_FULL_CALLS points for every triple lens, and at all points, however many full evaluations are allowed, if the third lens is on the axis of the other two (psi = 0). False at the points after the first MAX_FULL_CALLS if the third lens is off the axis: the value there exceeds the magnification by an amount that depends on the lens only, for every sufficiently distant and sufficiently small source, although the README says that triple lenses fall back to the full integration everywhere.", "quantifier": "all triple lenses, limb darkenings, light curves of any length, values of MAX_FULL_CALLS and chunk sizes, complete root finders, lists of regions that cover the images once", "why_tests_cant": "the tests evaluate fewer points than MAX_FULL_CALLS; convergence and the behaviour for all distant sources are limits", "anchors": ["src/microjax/inverse_ray/lightcurve.py:217-360", "src/microjax/multipole.py:237-316", "README.md:118"]}
{"id": "C117", "title": "The FFT-based magnification of a linearly limb-darkened source is the mean over that source", "statement": "mag_limb(...).A(u, rho, a1) and mag_limb1(a1)(...).A(u, rho), which transform the brightness profile numerically, return the mean over the source with linear limb-darkening coefficient a1 of the single-lens magnification, blurred by 0.011 rho, up to the error of the transform and a relative normalisation error (k0 rho)^2/3. Holds for mag_limb and, for rho >= rho_switch, for mag_limb1. False for mag_limb1 and smaller sources: sk ignores the wavenumbers it is asked for, so the table is that of a source 10^-(logumin+logumax)/2 times larger (500 times by default) and near the lens less than a quarter of the magnification is returned.", "quantifier": "all coefficients in [0, 1], source radii, grids, transforms that are exact in the first two calls and have error delta in the last, all distances of the output grid below 100", "why_tests_cant": "integrals over the source for all radii; the package has no test of these classes below rho_switch", "anchors": ["src/microjax/fastlens/mag_fft_jax.py:44-74", "src/microjax/fastlens/mag_fft_jax.py:87-111", "src/microjax/fastlens/mag_fft_jax.py:152-166", "src/microjax/fastlens/mag_fft_jax.py:257-275"]}
{"id": "C118", "title": "A companion of vanishing mass drops out of the point-source magnification", "statement": "As q tends to zero, mag_point_source(w, nlenses=2, s, q) tends to Paczynski's magnification of a single lens at the origin; as q3 tends to zero, mag_point_source(w, nlenses=3, s, q, q3, r3, psi) tends to mag_point_source(w, nlenses=2, s, q). The roots that the vanishing body leaves behind in the image polynomial (three at the body, one or two that are mapped as if the massless body were an image) contribute nothing in the limit. False where such a stray root misses the source by less than the tolerance of the mask (a disc around s - 1/s for the binary): the limit then exceeds the magnification by 1/|1 - |w-s|^4|. The limit q -> 0 is not what nlenses=1 returns (C02).", "quantifier": "all separations, mass ratios, positions of the third body, sources off the lenses with distinct image-polynomial roots; every root finder that returns all roots", "why_tests_cant": "a limit over the mass ratio, for all sources and whatever order the root finder returns the roots in", "anchors": ["src/microjax/point_source.py:409-469", "src/microjax/point_source.py:268-355", "src/microjax/coeffs.py:53-148", "src/microjax/coeffs.py:150-193"]}
{"id": "C119", "title": "mag_point_source returns a number off the caustics, inf on them, and never nan", "statement": "mag_point_source evaluates sum((1/|det|)*mask) over the roots of the image polynomial, where a vanishing det gives inf and inf*0 gives nan. Property: the value is a number if no image of the source is critical, and inf if one is; it is never nan. The code does not have this: the value is nan exactly if a root that the mask rejects is a zero of the determinant (or lies on a lens and the quotient there is nan), inf exactly if no such root exists and an accepted root is a zero of the determinant, and otherwise a number, the sum over the accepted roots. At s=2, q=1, w=-sqrt(3) no image is critical and the value is nan; for nlenses=1 the source behind the lens gives nan instead of inf.", "quantifier": "all separations, mass ratios, third-body positions and sources off the lenses; every root finder that returns all roots; whatever the 1/0 convention gives for a complex quotient", "why_tests_cant": "the failing sources are a curve in the source plane: a random test has probability zero of meeting it, and a test that meets it cannot show which sources are concerned", "anchors": ["src/microjax/point_source.py:98-177", "src/microjax/point_source.py:317-355", "src/microjax/point_source.py:466-469"]}
{"id": "C120", "title": "value_and_grad returns the value of the plain call of mag_uniform and mag_limb_dark", "statement": "in_source, Is_limb_1st and calc_facB have custom_jvp rules that return their own primal. Property: the value that jax.value_and_grad (or jvp) reports for mag_uniform and mag_limb_dark is the value of the plain call. The code does not have this: under differentiation the hard edge of the disc is replaced by sigmoid(100 (1 - d/rho)). At fine grids the reported value tends to the magnification, over the regions, of that soft-edged disc. It differs from the finite-source magnification by at most the weight exp(-100 |d/rho - 1|) of a layer at the limb, and it depends on the regions: for every lens and source there is an annulus that covers the images for which the plain call tends to the magnification and the value under differentiation to another number. Rays of regions that miss the source contribute nothing to the plain value and a positive amount under differentiation, for both functions and at every resolution.", "quantifier": "all binary and triple lenses, source positions and radii, all tangents, all lists of proper regions, all resolutions (limits over both), u1 in [0,1]", "why_tests_cant": "a test compares the two values for some lenses at finite resolution, where the gap is mixed with the discretisation error; that the limits themselves differ, and by how much at most, is a statement about all grids", "anchors": ["src/microjax/inverse_ray/boundary.py:16-93", "src/microjax/inverse_ray/limb_darkening.py:36-57", "src/microjax/inverse_ray/extended_source.py:41-330"]}
{"id": "C121", "title": "The gradient of mag_uniform is the derivative of the value reported with it", "statement": "jax.value_and_grad / jvp of mag_uniform returns a value and a tangent. Along every path of the lens parameters (s, q, q3, r3, psi), the source position, the source radius and the bounds of the regions, the tangent is the derivative of that value, through the custom rule of in_source, the cubic interpolation of the crossing angle (with its global minimum and maximum), the clipping, the grid and the lens equation. Conditions: no ray of the grid hits a lens or the source centre, each ring has one smallest and one largest distance that differ by more than 1e-10, the denominators of the interpolation do not vanish and no estimated crossing is exactly at a sample.", "quantifier": "all differentiable paths of parameters and regions, two or three lenses, all resolutions N >= 2, M >= 4, all numbers of regions", "why_tests_cant": "finite-difference tests compare at some points and cannot tell a small systematic error of a custom rule from discretisation", "anchors": ["src/microjax/inverse_ray/extended_source.py:192-389", "src/microjax/inverse_ray/boundary.py:69-132", "src/microjax/point_source.py:98-119"]}
{"id": "C122", "title": "The gradient of mag_limb_dark with respect to u1 is the derivative of its value", "statement": "Property: differentiating mag_limb_dark with respect to the limb-darkening coefficient u1 gives the derivative of the value. The code does not have this: the rule of Is_limb_1st differentiates the normalisation 3/pi/(3-u1) with the wrong sign. For every lens, source, list of regions and resolution the reported tangent in the direction of u1 is the derivative of the value reported with it minus 2/(3-u1) times that value; it is strictly smaller than the derivative as soon as there is a region of positive size.", "quantifier": "all lens parameters, sources, radii, lists of regions, resolutions, u1 in [0,1]", "why_tests_cant": "that the error is exactly 2/(3-u1) times the magnification for all inputs is not visible from samples; a finite-difference test with a tolerance relative to other gradients can miss it", "anchors": ["src/microjax/inverse_ray/limb_darkening.py:36-57", "src/microjax/inverse_ray/extended_source.py:41-189"]}
{"id": "C123", "title": "The gradient of mag_limb_dark with respect to lens, source position, radius and regions is the derivative of its value", "statement": "Property: for a fixed u1, jax.value_and_grad / jvp of mag_limb_dark reports the derivative of the value reported with it along every path of the lens parameters, the source position, the source radius and the bounds of the regions. The code does not have this: the rule of Is_limb_1st holds mu fixed beyond sqrt(0.999) radii but keeps its derivative, and the rule of calc_facB has slope 2/3 for every gap. The derivative is exactly the tangent plus the sum of these two errors over the cells of the grid. Both vanish, and the tangent is the derivative, for u1 = 0 and a threshold delta_c above every gap; in the direction of the radius with u1 > 0 (and such a threshold) the tangent is strictly larger than the derivative as soon as one interior ray misses the source.", "quantifier": "all differentiable paths of parameters and regions, two or three lenses, all resolutions N >= 2, M >= 5, all numbers of regions, all u1 and delta_c, grids without ties", "why_tests_cant": "the errors come from cells at and outside the limb and are of the size of the discretisation error in any sample; that they are exactly these terms for all inputs needs a proof", "anchors": ["src/microjax/inverse_ray/extended_source.py:41-189", "src/microjax/inverse_ray/limb_darkening.py:36-57", "src/microjax/inverse_ray/boundary.py:16-44"]}
{"id": "C124", "title": "What the inverse-ray magnification tends to for arbitrary regions", "statement": "For every list of polar regions with ordered bounds -- overlapping, incomplete, or wider than a full turn -- mag_uniform and mag_limb_dark tend, as both resolutions grow, to the integral over the images of the number of times the regions pass over each point (times the brightness for mag_limb_dark), divided by the same integral over the source. If every image point is passed over at least once, the limit is the magnification exactly when almost every image point is passed over exactly once.", "quantifier": "all binary and triple lenses, source positions, radii, coefficients u1 < 3, thresholds delta_c, all finite lists of ordered regions", "why_tests_cant": "an integral limit over every list of regions; a finite resolution shows neither the limit nor double counting below the discretisation error", "anchors": ["src/microjax/inverse_ray/extended_source.py:41-330"]}
{"id": "C125", "title": "The regions of define_regions pass over each ray at most once", "statement": "Property: the regions that define_regions returns do not overlap each other or themselves, so that no part of an image is integrated twice. The code does not have this for complete rings: if the limb images occupy every angular bin, every returned non-empty region runs from -margin_th to 2*pi + margin_th, and mag_uniform tends to the magnification plus the area of the images within margin_th of the positive axis over the area of the source; for a source centred behind a single lens this is (1 + margin_th/pi) times the magnification, 361/360 with the default half degree. If some angular bin is free and the margin is at most half a bin, the regions do not overlap and the limit is at most the magnification.", "quantifier": "all limbs meeting the stated conditions, all margins, numbers of bins and slots, all binary and triple lenses; for the exact factor all source radii and margins", "why_tests_cant": "the excess is independent of the resolution and of the order of a tenth of a per cent; absence of overlap is a statement about every limb", "anchors": ["src/microjax/inverse_ray/merge_area.py:17-113", "src/microjax/inverse_ray/extended_source.py:192-330"]}
{"id": "C126", "title": "The regions of define_regions cover the images, not only their boundary", "statement": "Property: the regions that mag_uniform and mag_limb_dark integrate over cover the images of the source. The code does not have this for an image that contains the origin of the coordinates: define_regions takes its radial ranges from the radii of the images of the limb alone, so if the disc of radius a about the origin is mapped into the source (to within rho - 1e-3 of its centre), then for every root finder no region passes over the points closer than a - margin_r*rho, and mag_uniform tends to a value that is too small by the share of that disc. Two equal masses at separation 4 or more with the source in the middle are such a case: a disc of radius rho/10 is always left out with the default margin_r. If some angular bin is free of limb images (so that no image surrounds the origin), the tables have room and every image of the source limb has a sampled image within the margins, the regions contain every image of the whole source exactly once and mag_uniform and mag_limb_dark tend to the magnification: it is enough that the regions do not overlap and contain the images of the limb.", "quantifier": "all root finders, binary and triple lenses, source positions and radii, resolutions, numbers of limb points and bins, margins", "why_tests_cant": "the absence of the rays holds for every root finder, every resolution and every number of limb points; test cases happen to have no image at the origin", "anchors": ["src/microjax/inverse_ray/merge_area.py:17-113", "src/microjax/inverse_ray/extended_source.py:41-330"]}
{"id": "C127", "title": "With enough limb points the whole of mag_uniform tends to the magnification", "statement": "calc_source_limb samples the images of the whole source limb: if the limb avoids the lenses and does not merely touch a caustic, then for every distance there is a number of limb points from which on every image of every point of the limb has a valid sampled image within that distance (two and three lenses). If further no image of the limb is at the origin, then from some Nlimb on, whenever the sampled limb fits the tables of define_regions (room in the tables, one angular bin free, samples at the ends of runs have a neighbour inside within half the margins), mag_uniform - limb images, regions and quadrature together - tends to the magnification of a uniform source as r_resolution and th_resolution grow, and mag_limb_dark for two lenses to that of the limb-darkened source. There are a lens and source for which these conditions hold for every Nlimb from four on.", "quantifier": "all complete root finders, binary and triple lenses of positive mass, sources whose limb does not touch caustics, bins, margins, all large enough numbers of limb points, resolutions tending to infinity independently", "why_tests_cant": "a statement about the limit of the complete calculation for arbitrary lenses and sources; tests compare single values at fixed resolution", "anchors": ["src/microjax/inverse_ray/merge_area.py:17-113", "src/microjax/inverse_ray/merge_area.py:260-297", "src/microjax/inverse_ray/extended_source.py:41-330"]}
{"id": "C128", "title": "Away from the caustics the contours of mag_extended_source give the magnification of the disc", "statement": "For a uniform source whose closed disc meets no caustic and whose limb passes through no lens, mag_extended_source returns the area of the images over the area of the source up to an explicit error: five (triple: ten) times pi Lambda^2 h + N (Z nu + nu^2/2), over pi rho^2, where Lambda bounds the speed of the images along the limb, h is the initial spacing of the limb angles, N the number of samples, Z bounds the positions and nu the random shifts. This holds whatever the order in which the root finder returns the roots: the assignment to tracks, the masks, the closing of the segments, the signs from the parity and the trapezoidal areas together give it. In particular at every position with distinct roots, none of them spurious within the tolerance, there is a radius below which the error without shifts is a constant over the number of samples, uniformly in the radius. For three lenses the magnification is that of the lenses the code really uses.", "quantifier": "all complete root finders (any order, any starting values), random shifts bounded by nu, binary lenses of positive mass ratio and triples with 0 < q3 < 1, sources off the caustics, 4 <= npts <= 2e8", "why_tests_cant": "the bound is for all lenses, sources, root orders and random shifts; tests compare a few values with another code", "anchors": ["src/microjax/caustics/extended_source/mag.py:36-164", "src/microjax/caustics/extended_source/limb.py:66-180", "src/microjax/caustics/extended_source/segments.py:1-170", "src/microjax/caustics/extended_source/contours.py:21-78", "src/microjax/caustics/integrate.py:28-43"]}
{"id": "C129", "title": "mag_point_source tolerates inexact roots away from the caustics", "statement": "On every compact set of positions at which the roots of the lens polynomial are distinct, none of them spurious within the acceptance tolerance and none at a lens, and for every accuracy eta there is one epsilon such that with any root finder whose values are, in whatever order, within epsilon of the roots, mag_point_source is within eta of the magnification at every position of the set: the masks are the right ones and the sum depends continuously on the roots.", "quantifier": "all binaries with s != 0 and q > 0, all triples with positive masses and distinct lenses (as the code places them), all compact sets of regular positions, all eta, all root finders", "why_tests_cant": "the statement ranges over all root finders with a given error and is uniform over a continuum of positions; the masks are discontinuous, so samples do not bound the effect of small root errors", "anchors": ["src/microjax/point_source.py:300-352", "src/microjax/point_source.py:430-470", "src/microjax/poly_solver.py:289-321"]}
{"id": "C130", "title": "poly_roots finds the roots from its own starting circle", "statement": "Called without starting values, poly_roots returns values close to all roots of the polynomial. The code does not have this property when the coefficients are real: the starting circle is symmetric about the real axis and the simultaneous update preserves the symmetry, so (in exact arithmetic) the values at the places k and n - k stay complex conjugates of each other, exactly one value (odd degree) or two values (even degree) are real, and a polynomial with a different number of real roots is never solved, whatever the tolerance and the number of iterations. This happens for every source on the axis of a binary (three real images) and at the first and last phase of the critical curves of every binary (no real root).", "quantifier": "all polynomials with real coefficients and distinct roots, all tolerances and iteration limits; all binaries with s > 0 and q > 0", "why_tests_cant": "in floating point only rounding errors break the symmetry, so whether a test passes depends on them; the statement is about all real polynomials and all numbers of iterations", "anchors": ["src/microjax/poly_solver.py:193-199", "src/microjax/poly_solver.py:112-151", "src/microjax/poly_solver.py:204-232", "src/microjax/point_source.py:216-254", "src/microjax/point_source.py:334-347"]}
{"id": "C131", "title": "Away from the caustics mag_extended_source with limb darkening gives the magnification of the limb-darkened disc", "statement": "For a linearly limb-darkened source whose closed disc meets no caustic and whose limb passes through no lens, mag_extended_source converges as the number of Gauss-Legendre points grows, and the limit differs from the flux of the images over the flux of the source by at most five (triple: ten) times 4 N A nu + 2 pi Lambda (3/2 (Lambda h + nu) + 2 (2 pi Lambda + nu) omega), over pi rho^2, where Lambda bounds the speed of the images along the limb, h is the initial spacing of the limb angles, N the number of samples, nu the random shifts, A = 3/2 (2 pi Lambda + nu), and omega the variation of the profile over a step. In particular at every position with distinct roots, none of them spurious within the tolerance, there are a constant and a radius such that for all smaller sources, all limb-darkening coefficients in [0, 1] and all shifts up to the radius the error is at most the constant times sqrt(1/(npts/2 - 1) + nu/rho) + N nu/rho. The values that the profile takes outside the disc (an artificial continuation), the choice of the base point of the primitives and lenses on the lines of integration have no influence on the limit. For three lenses the magnification is that of the lenses the code really uses.", "quantifier": "all complete root finders (any order, any starting values), the documented Gauss-Legendre rules, random shifts bounded by nu, 0 <= u1 <= 1, binary lenses of positive mass ratio and triples with 0 < q3 < 1, sources off the caustics, 4 <= npts <= 2e8", "why_tests_cant": "the bound is for all lenses, sources, limb darkenings, root orders and random shifts, and about a limit in the number of quadrature points; tests compare a few values with another code", "anchors": ["src/microjax/caustics/extended_source/mag.py:36-164", "src/microjax/caustics/integrate.py:35-127", "src/microjax/caustics/extended_source/limb.py:66-180", "src/microjax/caustics/extended_source/segments.py:1-170", "src/microjax/caustics/extended_source/contours.py:21-78"]}
{"id": "C132", "title": "For a single lens mag_extended_source is accurate for every source whose limb does not pass through the lens, including sources in front of the lens", "statement": "mag_extended_source with nlenses = 1 and a uniform source of radius rho at w: let eta = ||w| - rho| > 0 be the distance of the lens from the limb, M = |w| + rho, kappa = 1 + sqrt(M^2 + 4)/eta and h = 2 pi/(npts_limb/2 - 1). If kappa rho h < 1, the call returns a value, and it differs from the magnification of the disc (area of its images over its area) by at most 2 kappa^2 h + (M + sqrt(M^2 + 4)) kappa / (2 pi rho 10^8). The second term is the closing edge that the code omits (C78). There is no condition on the position of the lens other than that it is not on the limb: the lens may be behind the disc, where the caustic (a point) lies inside the source and the images of the disc form a ring. The random shifts that separate coincident images are never used.", "quantifier": "all positions w and radii rho with |w| /= rho, 4 <= npts_limb <= 2e8, all random numbers", "why_tests_cant": "the bound is for all positions and radii, including those arbitrarily close to touching the lens; tests compare a few values with another code", "anchors": ["src/microjax/caustics/extended_source/mag.py:36-164", "src/microjax/caustics/extended_source/limb.py:66-180", "src/microjax/caustics/extended_source/contours.py:21-78", "src/microjax/caustics/integrate.py:19-33", "src/microjax/point_source.py:269-407"]}
{"id": "C133", "title": "For a single lens mag_extended_source is accurate for every limb-darkened source whose limb does not pass through the lens, with an explicit rate", "statement": "mag_extended_source with nlenses = 1, limb_darkening = True, 0 <= u1 <= 1, a source of radius rho at w, and leggauss rules as documented: with eta = ||w| - rho| > 0, M = |w| + rho, kappa = 1 + sqrt(M^2 + 4)/eta, Z = (M + sqrt(M^2 + 4))/2 and h = 2 pi/(npts_limb/2 - 1), if kappa rho h < 1, every call returns a value, the values converge as npts_ld grows, and the limit differs from the limb-darkened magnification (flux of the images over flux of the source) by at most 6 kappa^2 h + 288 kappa Z (M + 2) sqrt(kappa h) / rho + 12 kappa Z / (pi rho 10^8). The last term is the closing edge that the code omits (C78). The lens may be behind the disc.", "quantifier": "all positions w and radii rho with |w| /= rho, all u1 in [0, 1], 4 <= npts_limb <= 2e8, all random numbers", "why_tests_cant": "the bound is for all positions, radii and limb-darkening coefficients; the brightness has infinite slope on the limb and is extended to the whole lens plane by a formula that is singular at the lens, so that sampling cannot establish a rate", "anchors": ["src/microjax/caustics/extended_source/mag.py:36-164", "src/microjax/caustics/extended_source/limb.py:66-180", "src/microjax/caustics/extended_source/contours.py:21-78", "src/microjax/caustics/integrate.py:35-127", "src/microjax/utils.py:194-223"]}
{"id": "C134", "title": "The single-lens light curve of magnifications is accurate at every point; the multipole values in it are exact as documented", "statement": "caustics/lightcurve.py magnifications with nlenses = 1 and a uniform source of radius rho: the call returns one value per point of w_points. Where the multipole value is used (w > 2 rho in the complex ordering of the code) it equals the magnification of the disc (docstring: 'for nlenses == 1 the multipole approximation is exact'); elsewhere it differs from it by at most the bound of C132 for mag_extended_source.", "quantifier": "all lists of positions, all rho > 0, all u1, 4 <= npts_limb <= 2e8, all random numbers, all root finders", "why_tests_cant": "whether a truncated expansion is exact, and how large its remainder is for all positions and radii, cannot be read off from samples: at small rho the remainder is below rounding, at rho = |w|/2 it is not", "anchors": ["src/microjax/caustics/lightcurve.py:132-293", "src/microjax/multipole.py:24-316", "src/microjax/point_source.py:269-407", "src/microjax/caustics/extended_source/mag.py:36-164"]}
{"id": "C135", "title": "mag_hexadecapole for a single lens and a limb-darkened source has an explicit error bound, and always errs low", "statement": "mag_hexadecapole with nlenses = 1 on the images of a source at w with radius rho and linear limb-darkening coefficient u1 returns a value m with m <= A <= m + rho^6 / (9 (|w| - rho)^7), where A is the limb-darkened magnification (flux of the images over flux of the source).", "quantifier": "all positions w and radii 0 < rho < |w|, all u1 in [0, 1]", "why_tests_cant": "the remainder of a truncated expansion over all positions, radii and coefficients, and its sign, cannot be sampled", "anchors": ["src/microjax/multipole.py:24-316", "src/microjax/point_source.py:269-323"]}
{"id": "C136", "title": "Source profile of magnification_log", "statement": "magnification_log.su(u, rho) returns the logarithmic limb-darkening profile mu log mu, mu = sqrt(1 - (u/rho)^2), that it computes: zero outside the disc u >= rho, nonpositive inside.", "quantifier": "all rho > 0, all u > 0", "why_tests_cant": "the two profiles agree at the limb and at u = rho/sqrt 2 and have the same range inside the disc; how they differ at all other radii is a statement about a continuum", "anchors": ["src/microjax/fastlens/mag_fft_jax.py:336-343", "src/microjax/fastlens/mag_fft.py:197-208"]}
{"id": "C137", "title": "Base point and reach of the limb-darkened contour integral", "statement": "The base point from which _integrate_ld integrates lies in the convex hull of the closed contour, whatever the padding of the buffer; the result depends on the lens map only through its values on the bounding rectangle of the contour, extended upwards and to the right by half of its size, so that what the lens map does elsewhere (other lenses included) has no effect.", "quantifier": "all closed polygons, all paddings, all lens maps, all sources, all numbers of quadrature points >= 2, all rules satisfying the documentation of leggauss", "why_tests_cant": "independence of all values of a function outside a set cannot be sampled", "anchors": ["src/microjax/caustics/integrate.py:24-127"]}
