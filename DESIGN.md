# Formal model of microjax in Lean 4

## What is modelled

The Python sources in `/repo/src/microjax` are modelled function by function as
total Lean definitions under `lean/Verif/Model/`.  Every definition cites the
file and lines it models and says where it simplifies.  Theorems about the model
live in `lean/Verif/Props/` (one file per subject, theorem names start with the
property id, e.g. `C12_...`).  Independent specifications (plain mathematics that
does not mention the model) live in `lean/Verif/Spec/`.  Helper lemmas live in
`lean/Verif/Lemmas/`.

### Common modelling decisions

* **Numbers.** JAX float64/complex128 values are modelled by exact real and
  complex numbers (`ℝ`, `ℂ`) or by an arbitrary linearly ordered field when the
  code only compares and adds.  Rounding, overflow, NaN propagation are outside
  the model; every theorem whose code path divides by, or takes the root of, a
  quantity that can vanish has the corresponding non-degeneracy hypothesis, and
  comments say what the real code does at the excluded points.
* **Arrays** are `List`s (or functions on `Fin n` for matrix algebra).  Out of
  range indexing follows JAX: reads clamp to the last element, out-of-range
  scatter writes are dropped.
* **jit, vmap, lax.map, lax.scan, lax.cond, lax.while_loop** are modelled by their
  functional meaning (`map`, folds, `if`, bounded recursion).
* **Exceptions** (`ValueError` for an unsupported number of lenses) are values of
  `Except`.
* **Stable argsort.** `jnp.argsort` is stable by default; it is modelled by a
  stable insertion/merge sort of indices.
* **External parts as parameters.** The polynomial root finder is modelled
  exactly in its own module; in the modules that only use it, it is a parameter
  `roots`, so that theorems hold for every behaviour of the root finder, or under
  the explicit hypothesis that it returns all roots.

### Trusted base

* Lean 4.33.0 kernel and elaborator, Mathlib (compiled, unmodified).
* Axioms: at most `propext`, `Classical.choice`, `Quot.sound` (checked with
  `#print axioms`, see `lean/Verif/Audit.lean`).  No axioms of our own, no `sorry`, no
  `native_decide`, no `bv_decide`.
* The hand translation Python -> Lean in `Model/`, including the meaning given to
  the jnp primitives in `Model/Jnp.lean`.
* The English reading of the specifications in `Spec/`.

### Not modelled

Floating point error, performance, device placement, jit caching, static-argument
hashing, example scripts, the methods `sk` and `A0` of the unfinished class `magnification_log` (their body is `pass`; its profile is C136).

### Modules of the model

| Lean module | Python source | notes |
|---|---|---|
| `Model/Jnp` | jax.numpy primitives used everywhere | clamped reads, stable sorts |
| `Model/Utils` | `utils.py` | complete |
| `Model/PointSource` | `point_source.py`, `coeffs.py` 1-208 | complete; root finder is a parameter |
| `Model/TripleDirect` | `coeffs.py` 210-1600 | the uncalled `_poly_coeffs_triple`, transcribed mechanically |
| `Model/Broadcast` | `point_source.py` 268-355, 409-469, `coeffs.py` 53-193, `poly_solver.py` 315-325 for array arguments | shapes, broadcasting, `moveaxis`, `sum(axis=0)`, `reshape` of `mag_point_source`; per-element arithmetic from `Model/PointSource`; an elementwise expression is one elementwise operation |
| `Model/NonFinite` | `point_source.py` 98-177, 317-355, 466-469 | the sum `sum((1/abs(det))*mask)` with IEEE-like values number / `inf` / `nan`; what a complex quotient by zero gives (`inf` or `nan`) is a parameter; arithmetic on numbers stays exact, no overflow |
| `Model/Differentiated` | `extended_source.py` 41-389, `boundary.py` 16-132, `limb_darkening.py` 36-57, `point_source.py` 98-119 | `mag_uniform` and `mag_limb_dark` from line 126 / 273 on, evaluated on pairs (value, tangent) with JAX's rules of the primitives and the `custom_jvp` rules; the tangents of the regions are arguments |
| `Model/PointSourceJvp` | `poly_solver.py` 235-251, `point_source.py` 409-469, `coeffs.py` 53-208 under `jax.jvp` | forward-mode tangent of `mag_point_source` for two and three lenses: dual-number arithmetic in the coefficients, the custom rule for the roots, chain rule for the determinant. That JAX differentiates its primitives by the usual rules is assumed |
| `Model/PolySolver` | `poly_solver.py` | Ehrlich-Aberth iteration with fuel, implicit derivative rule |
| `Model/Multipole` | `multipole.py` | complete |
| `Model/Likelihood` | `likelihood.py` | complete |
| `Model/Tests`, `Model/Lightcurve` | `inverse_ray/cond_extended.py`, `inverse_ray/lightcurve.py`, `caustics/lightcurve.py` | drivers with the full solver as a parameter |
| `Model/Boundary` | `inverse_ray/boundary.py`, `inverse_ray/limb_darkening.py` | values and derivative rules |
| `Model/ExtendedSource` | `inverse_ray/extended_source.py` | quadrature; regions are an argument |
| `Model/MergeArea` | `inverse_ray/merge_area.py` | `define_regions` and what it calls; ties the regions to the quadrature (`magUniformFull`, `magLimbDarkFull`) |
| `Model/Uncalled` | `merge_area.py` 116-149, `boundary.py` 95-116 | public functions nothing calls |
| `Model/Parallax` | `trajectory/parallax.py` | complete; tables of epochs are data |
| `Model/Special` | `fastlens/special.py` | gamma and digamma with the derivative rule, AGM elliptic integrals with derivative rules, Bessel functions with the fitted tables as data |
| `Model/BesselTables` | `special.py` 236-400 | the coefficient tables, read as exact decimals |
| `Model/FftLog` | `fastlens/fftlog_jax.py` | the transform `fftlog`, `hankel`, window, extrapolation, kernels `g_l`, `g_l_1`, `g_l_2`, `h_l`; the three variants 72-109 are the same transform with another kernel |
| `Model/MagFft` | `fastlens/mag_fft_jax.py` | dispatch and tables for an arbitrary Hankel transform, source profiles, central values |
| `Model/FastLensNumpy` | `fastlens/mag_fft.py`, `fastlens/fftlog.py` | numpy implementation; what `fftlog.py` shares line by line with `fftlog_jax.py` is not repeated |
| `Model/FftLogNumpy` | `fastlens/fftlog.py` | the four spherical Bessel transforms with the checks of their kernels |
| `Model/ContourIntegrate` | `caustics/integrate.py` | contour integrals, uniform and limb darkened |
| `Model/Segments` | `caustics/extended_source/segments.py` | splitting, processing, joining; the while loops of `_merge_open_segments` with fuel |
| `Model/Limb` | `caustics/extended_source/limb.py` | sampling, refinement, de-duplication, tracking; random numbers are parameters |
| `Model/Contours` | `caustics/extended_source/contours.py`, `mag.py` | `mag_extended_source` end to end |

### Places where the code does not have the property (proved)

Each is a theorem whose name contains `violated`.

* One lens: `lens_eq_det_jac` is `1 - 1/|z|^2` instead of `1 - 1/|z|^4` (the modulus of the shear is not squared), hence the magnification differs from Paczynski's
  formula at every source position (C02, C03).
* `mag_extended_source`, triple: masses `q : 1-q3 : 2 q3` instead of `q : 1 : q3` (C08).
* `mag_extended_source`, one lens: the contour is integrated only up to the last sample, the edge back to the first is
  missing (C78); for a centred source that costs one part in 10^8, for an off-centre contour it is one triangle.
* `mag_hexadecapole`, triple: ignores `psi` (C24).  `linear_chi2`: scalar error (C26).
* `test_full`/planetary-caustic and proximity tests (C48, C49); `magnifications` does not pass `u1` (C70).
* `magnifications`, one lens: the docstring says that the multipole approximation is exact; it is below the magnification at
  every point where it is used (`C134_exact_violated`), by at most `rho^6/(12 (|w|-rho)^7)`.
* `magnification_log.su` discards the profile it computes and returns `x log x` (`C136_log_violated`).
* Derivative rules: `in_source` value changes under differentiation (C33), `Is_limb_1st` and `calc_facB` tangents (C35), `j1_` is NaN at zero (C91).
* `_merge_final`: a sector ending at `2*pi` disappears when an unrelated ring has a sector starting at 0 (C39).
* `_refine_addmargin_merge_r`: an isolated outermost limb image empties the preceding radial range; all regions
  can be empty and the magnification 0 (C38).  Even without that, the image at the largest radius can lie
  outside every region (`C38_end_point_violated`; the strict inequalities exclude it and only the margin may
  bring it back).
* `mag_limb_dark` with three lenses builds its regions from the binary lens (C41).
* `peri_vernal` returns the equinox of the table row of the nearest perihelion, which is not the nearest equinox for
  part of every year (C56).
* `mag_limb.A0`, `mag_limb1.A0`: wrong weights of the linear law; negative magnification at `rho = 1`, `a1 = 0.9`
  (C60).  `gamma_` is NaN on whole vertical lines (C65).
* `magnification_limb1.sk`, `magnification_limb2.sk` are 1/3 and 1/4 at `k rho = 0` instead of 1; `magnification_limb2.sk`
  grows like `1/(k rho)^2` towards zero because `j2_` does not vanish there; `mag_limb1.sk_`, `sk__` subtract the
  square-root profile instead of adding it (C92).
* FFTLog with an odd number of samples and no padding drops the sample of the largest `x` (`C62_odd_length`).  Between
  8 and 15 samples the taper divides 0 by 0 (outside the model: the theorems require 16 samples).
* `magnification._A_for_small_rho` adds one to the source average of `1/|w|`, whereas the magnification is `1/|w| + O(|w|)`: below `rho_switch` and
  inside `u_switch * rho` the value is too large by one (`C98_small_violated`), after subtraction of one it is right (`C98_small_partial`).
* `_integrate_ld`: for a contour point below the base point by at most `4 rho` the split point is `a + |b - a|/2` instead of `a - |b - a|/2`: the first half of the
  quadrature points lies outside the interval (`C99_split_violated`); the integral is still exact for polynomials, only the accuracy suffers.
* `merge_with_another_segment`: empty slots of the segment array count as segments at the coordinate origin; with two of them, an end that is nearer to the
  origin than to its partner is never joined (`C101_complete_violated`).
* `refine_final` (uncalled): a region across angle 0 whose samples are stored between π and 2π gets an empty radial range
  (`C105_wrap_violated`).
* `mag_point_source`: the mask accepts roots that are not images when they map to within 1e-6 (two lenses) or 1e-3 (three lenses) of the source.
  Just outside a caustic this adds an error without bound: three equal masses, source of magnification at most 2, value above any given number
  (`C106_triple_violated`, `C106_binary_violated`).
* `r3`, `psi` are documented as the position of lens 3 relative to lens 1 (`usage.rst` 53-56, `mag_triple`) and, elsewhere, relative to the centre of
  mass of lenses 1 and 2 (`usage.rst` 140); the code measures from their mid-point (`C107_violated`, conversion in `C107_partial`).
* `mag_point_source(nlenses=1)` of a distant source exceeds one by the order of `|w|⁻²`, not `|w|⁻⁴` (`C108_single_violated`; the cause is the missing
  factor of C02).
* The mask of `_images_point_source` passes spurious roots for every distant source if two lenses are closer than 1e-6 (two lenses) or 1e-3 (three
  lenses) (`C109_binary_violated`, `C109_triple_violated`); the magnification is not affected in the limit (C108).
* `mag_point_source(nlenses=3)` with array-valued lens parameters (documented as "fully broadcastable"): `z += shift_cm` in
  `_images_point_source` line 335 comes before `moveaxis`, so the parameter axes meet the axis of the roots. Parameter arrays whose
  trailing axis is not of length 1 or 10 raise; a column of N separations against a row of N sources gives images displaced by the
  centre of mass of another lens, magnification 0 instead of at least 1 (C115).
* `mag_triple` beyond the first `MAX_FULL_CALLS` points with `psi` such that `r3 e^{i psi}` is not `r3`: the multipole value stays
  above the magnification by a fixed amount for all distant small sources (the misplaced third lens of `mag_hexadecapole`, C24,
  seen in the light curve; C116).
* `mag_limb1` for sources below `rho_switch`: `sk(k, rho)` ignores `k`, so `init_Aext0` multiplies `x` by the profile at
  `κ x`, `κ = 10^-(logumin+logumax)/2 = 500`; the magnification is that of a source 500 times larger (C117).
* `mag_point_source(nlenses=2)` as `q` tends to zero, for sources within the tolerance of the caustic `s - 1/s` of the
  planet: the mask accepts a root that is not an image, the limit exceeds the single-lens magnification by
  `1/|1 - |w-s|⁴|` (C118).
* `mag_point_source` is `nan` at sources no image of which is critical, where the determinant vanishes at a root that the
  mask rejects (`inf * 0`), e.g. `s = 2, q = 1, w = -√3`; `nlenses=1` at the origin is `nan` (C119).
* `value_and_grad` of `mag_uniform` and `mag_limb_dark` reports another value than the plain call: the `custom_jvp` rules
  replace the hard edge by a sigmoid also in the primal output (C120).
* The derivative of `mag_limb_dark` with respect to `u1` is reported too small by `2/(3-u1)` times the magnification (sign of
  `dI0_du1` in the rule of `Is_limb_1st`; C122).
* The other gradients of `mag_limb_dark` are not derivatives either: the rules of `Is_limb_1st` (beyond `sqrt 0.999` radii) and
  `calc_facB` (gaps above `delta_c`) are not the derivatives of the values that they return (C123 gives the exact difference).
* `_refine_final` widens a complete ring `[0, 2π]` to `[-margin_th, 2π + margin_th]`, so the rays within `margin_th` of the
  positive axis are counted twice: a source behind a single lens comes out `1 + margin_th/π` times too bright (C125).
* `define_regions` uses only the radii of limb images, so an image that contains the origin loses the disc inside
  its boundary by more than the margin, for example the middle image of a wide equal-mass binary (C126).
* `poly_roots` without starting values and with real coefficients: the iterates stay symmetric about the real axis, so in
  exact arithmetic a polynomial whose number of real roots is not 1 (odd degree) or 2 (even degree) is never solved; this is
  so for every source on the axis of a binary and for the end phases of the critical curves (C130).  In floating point the
  symmetry is broken only by rounding (`exp(2j*pi*k/n)` is not exactly symmetric), which the model does not contain: the
  theorem says that the code relies on rounding errors there, not that a given run fails.
* `_split_single_segment`: runs beyond `2 * n_parts` are lost (`C44_split_overflow`); `_concatenate_segments`: if the
  joined points do not fit in the buffer the second segment is laid over the first (`C43_overflow`).
* The derivative rules of `ellipk_`, `ellipe_` are 0/0 at `m = 0` (outside the model, hypothesis `m ≠ 0`).
* Documentation: the parallax "Earth position" is the position of the Sun seen from the Earth.
* Documentation: `margin_th` is described in radians but converted with `deg2rad`.

## Plan per property

| id | property | model / proof |
|---|---|---|
| C01 | Single-lens images are exactly the solutions of the lens equation | Model `_images_point_source` (n=1) over ℂ. Prove both satisfy the lens equation by field algebra with conj; converse: solution z of z-1/conj z=w is t*w with t real solving the quadratic. |
| C02 | Single-lens point-source magnification is the Paczynski formula | Prove closed form of the code, prove it differs from Paczynski for every w (negation), `_partial`: monotone and limit facts the code does satisfy. |
| C03 | lens_eq_det_jac is the Jacobian determinant of lens_eq | `HasFDerivAt` over ℝ of the lens map, determinant of the derivative as a real linear map of ℂ; n=2,3 equality, n=1 negation with a witness. |
| C04 | Binary image polynomial misses no image | Polynomial identity via `field_simp`/`linear_combination` after substituting conj z from the conjugated lens equation. |
| C05 | Triple image polynomial misses no image | Same with three lenses; identity organised by powers of the common denominator. |
| C06 | Binary point-source magnification sums 1/\|det J\| over exactly the true images | Root-finder oracle hypothesis: product form of the polynomial; masks select the solutions; list sum = finset sum. |
| C07 | Valid images solve the lens equation within tolerance, and exact images are never masked out | Direct from the mask, for an arbitrary root list. |
| C08 | Frame and mass conventions of the binary and triple entry points agree | Field algebra; negation with witness for `mag_extended_source`. |
| C09 | Reflection and lens-swap symmetry of the point-source magnification | Bijection of solution sets by conj / by z -> -z; equality of the sums via C06's characterisation. |
| C10 | Critical curves consist exactly of the points where det J vanishes | Field algebra both ways; phase from the argument of a unit complex number. |
| C11 | Returned caustics are the lens-map image of the returned critical curves | Scan modelled as a fold; induction on number of phases; uses C12. |
| C12 | match_points is an injective greedy nearest-neighbour matching | Loop invariant: used indices are distinct, greedy minimality from stable argsort. |
| C13 | Sequential tracking returns one column per source position | Induction on the path. |
| C14 | Derivative coefficients | Compare with `Polynomial.derivative` for all lists. |
| C15 | Starting circle contains all roots | Standard Cauchy bound, triangle inequality + geometric sum; negation with a witness below the floor. |
| C16 | Root iteration stops, and freezes converged roots | Fuel-indexed loop; invariants by induction on iterations. |
| C17 | Exact simple roots are a fixed point of the solver | Direct evaluation of one sweep. |
| C18 | Root derivatives obey the implicit function theorem | Chain rule with `HasDerivAt`. |
| C19 | Real-root cleaning moves a root by less than ten tolerances and only for real polynomials | Direct case analysis. |
| C20 | Batching does not mix polynomials | `map` after reshape; list algebra of reshape/flatten. |
| C21 | Hexadecapole magnification reduces to the point-source magnification | Algebra. |
| C22 | Multipole terms are the disc-averaged Taylor terms of the image magnification | Abstract differential algebra: commuting derivations Dx, Dy, conjugation; recurrences in the code equal iterated derivations; then limb-darkening moments by interval integrals. |
| C23 | The multipole error estimate bounds the correction | Triangle inequality. |
| C24 | The multipole and the point-source entry points describe the same lens | Algebra; negation with a witness for psi ≠ 0. |
| C25 | linear_chi2 minimises the weighted chi-square | Completion of squares for all n, uniqueness from det>0. |
| C26 | linear_chi2 treats a scalar error as the same error for every datum | Negation with a witness; characterisation of what the code computes; `_partial` for array err. |
| C27 | nll_ulens is the negative log of the flux-marginalised Gaussian likelihood | Woodbury and matrix determinant lemma for all n. |
| C28 | nll_ulens agrees with nll_ulens_general | Matrix algebra. |
| C29 | Chunking does not change results | List induction: pad, reshape, map, flatten, take. |
| C30 | mag_binary uses the full solver exactly on the first MAX_FULL_CALLS rejected points | Stable argsort of booleans; scatter; rank characterisation. |
| C31 | mag_triple evaluates the first MAX_FULL_CALLS points in full | As C30 with the all-False test. |
| C32 | Sub-cell boundary interpolation is the four-point Lagrange interpolant | Algebra over a field. |
| C33 | Differentiating does not change the value of the source indicator | Negation with witness; partial: limit/threshold agreement. |
| C34 | The limb-darkening profile is a non-negative profile with unit flux | Interval integral of the profile; pointwise algebra. |
| C35 | Derivative rules of the profile are the derivatives of the smoothed profile | `HasDerivAt`; negation with a witness for u1. |
| C36 | Limb-cell weight is the exact square-root-profile quadrature | `integral_rpow`/sqrt integral. |
| C37 | Ray-shooting magnification is a non-negative, bounded quadrature over the regions | Bounds on each cell weight, list sums. |
| C38 | Region construction covers every valid limb image | Coverage under conditions (`_partial`), negation with a witness. |
| C39 | Merging angular sectors across theta = 0 never discards area of an unrelated ring | Negation with witness; partial: what is true. |
| C40 | One-dimensional clustering brackets every occupied bin | Run/edge pairing on boolean lists by induction. |
| C41 | Extended-source entry points trace the limb through the lens the user specified | Model passes the number of lenses explicitly; negation: region builder for limb darkening does not depend on third lens. |
| C42 | The uniform contour integral is the signed polygon area | Telescoping list induction. |
| C43 | Merging contour segments loses and duplicates no point | Roll/concat on zero padded buffers. |
| C44 | Splitting an image track partitions it | Run decomposition by induction on the track. |
| C45 | Limb refinement keeps angles sorted and images aligned with their angles | Sortedness invariant of insertion of midpoint values. |
| C46 | Image tracking along the limb permutes, never loses, images | Uses C12. |
| C47 | Hybrid light curve returns one value per source point chosen by its own test | List map; lexicographic complex comparison. |
| C48 | The planetary-caustic test rejects sources at the planetary caustic | Negation with witness (s,q,rho); characterisation. |
| C49 | The proximity tests differentiate the deflection field correctly | `HasDerivAt`; negation with witness for three lenses. |
| C50 | Limb-darkened contour integrand reduces to the uniform one | Algebra + list induction. |
| C51 | Parallax offsets vanish at the reference time | Direct (exact cancellation). |
| C52 | Parallax offsets are linear in piE and rotate the projected offset | Algebra. |
| C53 | The projection basis is orthonormal and perpendicular to the line of sight | Trigonometric algebra; derivative with respect to RA/Dec. |
| C54 | Kepler's equation is solved to a known accuracy | Newton error recurrence by the mean value theorem; induction on 5 steps (general n). |
| C55 | Earth's projected position lies on the orbit and is periodic | Algebra, periodicity from C54 equivariance. |
| C56 | peri_vernal returns the tabulated epochs nearest to the reference time | argmin specification; negation with witness. |
| C57 | set_parallax infers both epochs when either is missing | Case analysis. |
| C73 | Parallax offsets have no linear part at the reference time | Derivative of the offsets at the reference time. |
| C58 | Point-lens magnification of the FFT module exceeds one and decreases | Real analysis. |
| C59 | Central finite-source magnification of a uniform disc is exact | Fundamental theorem of calculus. |
| C60 | Central finite-source magnification of limb-darkened discs is exact | FTC for limb2, elliptic reduction for limb1; negation with a witness for mag_limb. |
| C61 | Elliptic integrals are accurate for every m < 1 | Landen/Gauss transformation of both integrals, AGM invariants by induction on the number of steps, quadratic convergence of the gap. |
| C62 | FFTLog returns samples on the reciprocal grid of the input | Index arithmetic on lists. |
| C63 | Window and extrapolation helpers | Bounds on sine; geometric lists. |
| C64 | FFT-based magnification dispatch | Case analysis, interpolation model. |
| C65 | Gamma function is finite wherever the mathematical function is | Case analysis; NaN as `none`. |
| C74 | Derivative rules of the elliptic integrals | Differentiation under the integral, reduction of Δ⁻³. |
| C75 | FFTLog is exact on resolved log-periodic modes and linear | Orthogonality of discrete exponentials. |
| C76 | Every run of two or more samples becomes one contour row | Runs as an independent recursive spec; index lists of run starts and ends; stable sort of row lengths. |
| C77 | The contour sum is a sum of polygon areas | C42 + C43 + C76, invariant of the stitching loop: used + remaining runs are a permutation of the input. |
| C78 | Contour magnification of a source behind a single lens | Composition of C45, C46 and C42 with explicit circles; sine bounds for the chord error. |
| C79 | No source is ever demagnified | The arrival-time surface (half squared distance minus logarithms) has a minimum, found by coercivity; second-order condition gives 0 <= det J <= 1 there; the area formula transfers this to finite sources and C71/C72 to the code. |
| C80 | The root solver converges near simple roots | One Ehrlich-Aberth sweep maps an error d to at most 4 (n-1) e d^2/delta^2, hence d/2; invariant of the loop carries closeness, termination test gives the 2/3 tol bound, cleaning adds 10 tol. |
| C81 | Image tracking never exchanges images | Induction along the path: the previous column is in the basin of C80 for the next polynomial; for continuous paths a Lebesgue-number argument and continuity of roots give the labelled roots. |
| C82 | Critical curves are complete | The critical polynomial at a critical point changes by at most the phase step times prod (z-z_i)^2; the product form of the polynomial turns a small value into a near root; phases cover [-pi, pi] in equal steps. |
| C83 | Acceptance of the quick value | The test is rewritten as two strict inequalities; non-negativity of the cusp terms and C23/C24 bound the correction; each compared quantity is a monotone, continuous function of the radius; C49 gives the derivatives. |
| C84 | Accuracy of the angular sum | Rolle's theorem gives the error of cubic interpolation; inverse function along a monotone crossing; the regularisation in the divided differences is bounded separately; cells telescope to the measure of the inside set; C36 for the limb-darkened cell. |
| C85 | Number and parities of the images | `Lemmas/ImageIndex`: the complexified lens equation has `n²+1` solutions; their rank-one matrices are orthogonal for a bilinear form whose signature is fixed, and conjugation pairs the solutions that are not images, so the parities of the images are determined up to the number of pairs. `Lemmas/DualSolutions`: the code's roots are exactly these solutions, with nonzero determinant when simple. At least one positive image from C79. |
| C86 | Signed sum and lower bound | The same orthogonal expansion applied to the constant entry gives `Σ 1/det = 1`; positive images have `0 < det ≤ 1`. |
| C87 | The two triple-lens polynomials are interchangeable | The eleven coefficients are transcribed by `tools/transcribe_triple.py` (parses the file, does not run it) as lists of monomials; each equals the coefficient of the product form by `ring`; the product form is that of C05 shifted. |
| C88 | Regions depend only on the set of valid images | `amin`, `amax`, bin occupancy and the window test only look at membership, so the pipeline is a function of the set of polar points; masked candidates all become `(0, 0)`. |
| C89 | Gradients of `mag_point_source` are derivatives of the magnification | Coefficients: ring homomorphism from functions differentiable at `t₀` to dual numbers. Roots: continuous branches of simple roots (Rouché-free: separation and continuity of roots), implicit derivative. Mask: image branches stay images near `t₀` because dual solutions are conserved. |
| C90 | Bessel functions accurate on the whole line | Small arguments: rational function against the truncated series, polynomial inequality certified by Taylor coefficients on subintervals (kernel evaluation of rational arithmetic). Large arguments: the modulus-phase form satisfies Bessel's equation up to a residual `5e-14 · 25/x²` (certified likewise), matched at 5, propagated by an energy estimate to all `x ≥ 5`. |
| C91 | Derivative rules of `j0`, `j1` | Follows from C90; violated for `j1` at zero (NaN). |
| C92 | Fourier profiles of the sources | Spec: double integral in polar coordinates, no Bessel function. Bessel's integral and the moments by termwise integration, antiderivatives `r J1(xr)/x` and `r² J2`; `j1`, `j2` error from C90. Violated at and near the origin for the limb profiles and for `mag_limb1.sk_`, `sk__`. |
| C93 | Gamma function accurate everywhere | The defect of Stirling's series in the functional equation is a rational function plus the tail of `artanh`, of order `(2w+1)^-12`; summed to infinity with the complex Stirling limit (Euler's product and the real Stirling formula of Mathlib); C65 reduces the code to it. |
| C94 | FFTLog kernel | Same with three correction terms for the asymptotic branch, C93 for the other. |
| C95 | Hankel transform = Hankel integral | Weber's integral `∫ x^(s-1) J_0` (Gauss summed) from the Laplace transform of `J_0(√t)`, Fubini and dominated convergence (`Lemmas/MellinBessel.lean`); exactness on modes (C75, also at frequency zero) and linearity; kernel accuracy (C94). |
| C96 | interpolation, logarithmic grid | cell search on non-decreasing lists by induction; chord formula; geometric progression. |
| C97 | FFT magnification = source average | specification `blur` (Gaussian mean over the plane) and `profileMean` (polar mean over the source), `IsHankel` for the transforms; Hankel convolution theorem from the mean-value formula of `J_0` over a circle (`Lemmas/J0Addition.lean`), `∫ k exp(-σ²k²/2) J_0(ky)` from the Laplace transform, Fubini (`Lemmas/Blur.lean`); reading of the table by C96. |
| C98 | small sources | blur of `1/|w|` as Hankel integral (limit of damped kernels, Weber's integral at `s = 1`, `Lemmas/BlurInverse.lean`); `1/u <= A(u) <= 1/u + 3u/8`; the branch adds one (violated). |
| C99 | contour quadrature | specification `IsGauss` = numpy's documentation; positivity of the weights, nodes inside, and existence for every `n` are proved (`Lemmas/Quadrature.lean`: orthogonal polynomial by dimension count, sign-change argument, Lagrange interpolation); change of variables, Weierstrass; the split point for contour points below the base point is on the wrong side (violated). |
| C100 | tracks of the limb images | C46 through `dedupe`, permutation and transposition; specification `visible`, `ClosedTrack`. |
| C101 | nearest ends are joined | entries of the flattened distance array, sortedness of `argsort`; empty slots hide the partner (violated, with a general criterion). |
| C102 | digamma and derivative of gamma | telescoped defect of the functional equation through `s = 1/(2w+1)`, limit from C93 by Cauchy's estimate, reflection by differentiating `Γ(z)Γ(1-z)`; Mathlib's `digamma` is only used in the lemmas. |
| C103 | kernels of the other transforms | Stirling error with three terms (C94) for real parts ≥ 1/20 and `\|2w+1\| ≥ 99`; the errors are kept as exponentials so that products add them. |
| C104 | numpy twin | both interpolations reduce to the same chord; the clamped table is the cut table with its last pair repeated, and repeating the last pair changes nothing. |
| C105 | uncalled helpers | masked minimum and maximum are extrema over the selected samples; negation: regions across angle 0 lose the samples stored between π and 2π. |
| C106 | true images only | every image is in the summed list, so the value is never too small; negation by explicit families (equilateral triangle, equal masses at the splitting separation) in which a root that is no image maps to within the tolerance and sits next to the critical curve. |
| C107 | position of the third lens | moving one lens changes the lens map everywhere; the code measures from the mid-point of lenses 1 and 2, neither of the two documented origins; conversion formulas proved. |
| C108 | distant source, magnification → 1 | complexified solutions of a distant source are far or next to a lens, one of each kind (contraction), none degenerate; n²+1 of them; hence the roots are distinct and the sum is 1 + O(w⁻⁴). One lens: the code has only the rate w⁻² (proved). |
| C109 | distant source, n+1 images | a root next to lens k whose dual is next to lens j misses the lens equation by the separation of k and j, so the mask is exact if the separations exceed its tolerance, and not otherwise (both proved). |
| C110 | extended source = mean of point sources | area formula for the lens map: locally injective off the critical curves, critical curves and caustics have area zero (polynomial in one variable on every vertical line, Sard for null sets), finitely many images elsewhere (at most n²+1); with C71/C72, C106, C108. |
| C111 | small sources: ray shooting, multipole, point source | images of nearby sources are the continuous branches through the images (properness and inverse function theorem), so the mean of C110 is the sum of the disc means of C22. |
| C112 | between and at the caustics | continuous root branches and the inverse function theorem give an open set of regular positions; C06, C85 there; locally constant functions on connected sets; near a critical point the area formula's null sets leave regular images of small determinant, with C82 and C106. |
| C113 | certificate for point-source values | a complexified solution that is not an image but maps close to the source has a small Jacobian determinant (explicit estimate from the lens distances and masses), so that its term alone exceeds the limit; at an image with nonzero determinant the root is simple. |
| C114 | light curve end to end | C30 selects, C71/C72 give the limits of the full solver, C83 the distance of accepted values, C111 the expansion; one constant for a finite list of positions by induction. |
| C115 | lens parameters as arrays | characterise the broadcast of two shapes axis by axis; every array of the pipeline reads through its own shape; `moveaxis`, `sum`, `reshape` commute with reading. The three-lens failures follow from the shape of `z + shift_cm`. |
| C116 | light curve of `mag_triple` end to end | C31 for the selection, C71/C72 for the limits, the expansion of C111 with `wk3 = wSpec (midTriple p)` on the axis. Off the axis: for a far source one image sits next to the true third lens, where the determinant of the misplaced lens has a finite value, so its term does not vanish; the far image alone gives at least 1 (C108, C110). |
| C117 | linear limb darkening of the FFT classes | The Hankel transform of `v²` times the profile is `rho²` flux `discFT` (change of variable); normalising by the first value leaves the factor `1/discFT(k0 rho)`, within `(k0 rho)²/3` of one (`J0(x) >= 1 - x²/4`). Then C97 with that factor. Small sources: C98 with the profile at `κ x`; the grid of the transform (C62) gives `κ`; the blurred `1/|w|` is at most `6/|w|` and at least `1/(|w| + 2σ)`. |
| C118 | vanishing companions | Roots of a converging family of polynomials converge as lists (Cauchy bound, compactness along ultrafilters, uniqueness of the factorisation). The limit polynomial is the cube (square for the binary) of the distance to the body, times the polynomial of the remaining lens, times a stray factor whose roots have dual `conj r`. Near the body the magnification factor tends to zero (the dual equation forces `mass/(z - r)²` to infinity). |
| C119 | number, inf or nan | Model of the sum with the values number / inf / nan. Fold over the list of roots: nan as soon as one masked-out term is infinite, inf if a kept term is. With the root list of the image polynomial, the conditions become statements about critical points among images and stray roots. A source with a critical stray root and no critical image is exhibited by solving the quintic at `s = 2, q = 1, w = -√3`. |
| C120 | value under differentiation | Model of the two integrators on pairs (value, tangent) with the `custom_jvp` rules (`Model/Differentiated`). The value component is a Riemann-type sum of a convex combination of the soft indicator at neighbouring nodes; the convergence argument of C71 gives the integral of the soft disc (`Spec/SoftDisc`). The soft flux of an annulus grows strictly with its radius, so at most one radius can give the magnification. |
| C121 | gradient of `mag_uniform` | "Tangent = derivative of the value" is preserved by every operation of `Model/Differentiated` (a list of curves is evaluated at `t`); minimum and maximum over a ring by uniqueness of the extremal entry near `t₀`; then induction over cells, rings, regions. A concrete binary with rational nodes meets the hypotheses. |
| C122 | gradient of `mag_limb_dark` in `u1` | All other pairs have tangent zero; the defect `D' - tangent = 2/(3-u1) * value` of the brightness (C35) is linear and passes through the sums. |
| C123 | gradient of `mag_limb_dark` in everything else | "Derivative = tangent + e" is carried through sums and products (`Off`), starting from the errors of the two custom rules; the crossing estimates track as in C121, once for the first and once for the last `M-1` rays. The sign of the sum settles the direction of the radius. Cases in `Props/LimbGradientCase`. |
| C124 | limit for arbitrary regions | `passes R z` counts the polar coordinates of `z` in `R` (`Spec/Passes`). A wide region is cut into turns (rays are null sets); the polar integral over a narrow one is an integral over its sector. The rest is the convergence of C71. |
| C125 | regions pass at most once | Grid positions of the angular runs leave one free bin between rows of a ring, merging across the axis keeps that (`merged_apart`), and the final refinement stays inside the ring and within the margins (`refineFinalRow_within`); the real statement follows with C124. Complete rings: the table is computed exactly and the excess is the wedge around the axis (`Props/RegionRing`, `RegionRingMag`, `RegionOnce`). |
| C126 | regions cover the images | No row of the radius table, and so no merged or refined region, starts below the least limb radius minus the margin (`regions_beyond`, for every table and number of slots). A limb image is never inside a disc that the lens maps strictly into the source (residual cut), so the disc minus the margin is left out; the cost is C124 (`Props/RegionHole`). The part that holds: the complement of non-overlapping sectors is connected (`free_preconnected`, by removing one sector with connected boundary at a time), the boundary of the images maps to the source limb (`frontier_images`), so regions that contain the images of the limb contain everything (`filled`); density of the samples is turned into containment by the margins kept in C38 (`C38_margin_partial`, `Props/RegionFill`, case in `Props/RegionFillCase`). |
| C127 | end-to-end limit of `mag_uniform` | Limb images off the critical curve have a finite net; at each point of the net the lens map has a continuous local inverse, so images of limb samples close enough to the source point are close to the net (`limb_net`). Complete root lists contain those images (C41). Close samples are close in radius and angle away from the origin, which is the density that `C126_sampled_partial` needs (`Props/LimbDense`). `Props/LimbDenseCase` proves all conditions, for every number of limb points from four on, for a unit mass and a source of radius 3/20 at distance 33/20. |
| C128 | accuracy of the contour integration | The images of a disc off the caustics are the values of finitely many smooth sections of the lens map (`Lemmas/ImageSections`); Green's formula on the disc, transported by a section, gives the area of each image as a boundary integral with the sign of the parity (`GreenDisc`, `ContourGreen`); the trapezoidal sum over a closed polygon differs from it by at most `π Λ² h` (`PolygonContour`). The greedy assignment follows the branches of the roots when they move less than their distance (`Props/TrackOrder`), each track is one closed segment or entirely masked (`Props/ContourClosed`), so the sum over tracks is the sum over images (`Props/ContourAccuracy`). `Props/ContourEndToEnd` puts this together; `Props/ContourRegular` derives all conditions for small sources from distinct roots (Lipschitz dependence of simple roots on the coefficients). |
| C129 | inexact roots | `WithinPerm ε`: the returned list is within `ε` of some order of the roots. Near a regular position the mask and the determinant of each root are those of the exact root (openness of the strict conditions), the sum does not depend on the order; compactness gives one `ε` for the whole set (`Props/InexactRoots`). |
| C130 | roots from the starting circle | Invariant of the loop: `z_{n-k} = conj z_k` and equal `done` flags (`ConjState`, preserved by `bodyFun` for real coefficients; `_clean_real_roots` keeps it). If the output is within `ε` of roots that are more than `2ε` apart, conjugation of the roots is the negation of `Fin n`, whose fixed points are counted. Three real images on the axis by the intermediate value theorem. What remains true is C80 (convergence from nearby starting values). (`Props/ConjugateRoots`) |
| C131 | accuracy with limb darkening | The profile continued to the whole lens plane (`imageProfile`: at the lenses by its limit) is continuous and bounded by 3/2. Green's formula for continuous weights (`Lemmas/GreenWeight`: polynomials, then Stone-Weierstrass, with the primitives `P`, `Q` of the code from any base point), the error of the trapezoidal rule for them (`Lemmas/GreenTrapezoid`), the contour sum for any integrand (`Props/ContourLimb`), convergence of the quadratures although the model's value at a lens is arbitrary (`Props/ContourLimbDark`; in the code a node that hits a lens exactly gives NaN, which the model does not contain). `Props/ContourLimbEnd` puts this together; `Lemmas/ProfileModulus` shows that near the images of a small source the profile varies at most like the square root of distance over radius, from which `Props/ContourLimbSmall` gets the bound for small sources. |
| C132 | single lens, any position | The two images of the limb are two curves that stay at least 2 apart, so the matching of neighbouring columns never mixes them; they are injective, so no random shift is applied. `Lemmas/SingleGreen`: the area between the two curves equals the integral of the point-source magnification over the disc, also when the lens (where the magnification is infinite) lies inside: Green's formula for the regularised field `sqrt(s+4)/sqrt(s+eps)`, then `eps` to 0 by dominated convergence. The rest is the polygon error of C128. |
| C133 | single lens, limb darkening | `Lemmas/GreenCone`: the contour integral of the Green primitives of a continuous brightness along a star-shaped curve is its integral over the region swept by the rays. With the lens inside the disc both images of the limb are star-shaped about the lens and the images of the disc lie between them; with the lens outside, each image of the disc is a section (C131). The missing closing edge changes the base point of the primitives (sum of N+1 points over N) and leaves out an arc of length 1e-8. `single_modulus`: the profile of the code, extended to the whole plane, is Hölder 1/2 with constant `18 (M+2)/sqrt(rho)`; near the lens in terms of the inverse distance of the source point. |
| C134 | single-lens light curve | `Lemmas/RadialMean`: the mean `m` over a circle of a function of the distance from the lens satisfies `(r m')' = r M` with `M` the mean of its Laplacian; three applications give the disc mean up to the sixth power with a two-sided remainder. `Lemmas/PaczynskiRadial`: the Laplacian and its powers for Paczynski's function, the third positive and at most `768/u^7`. The terms of the code are identified with the Laplacians by uniqueness of the expansion (C22). Violated: the multipole value is below the magnification at every point where it is used; partial: explicit bounds at every point (`rho^6/(12 (|w|-rho)^7)` and a sixth of the magnification, or C132). |
| C135 | single-lens multipole, limb darkening | The circle means of C134 integrated against the brightness; the radial moments of C22. Consequence for C70: `C70_one_lens_violated`, the light curve of a limb-darkened source is too high at every point where the multipole value is used and the source is small. |
| C136 | profile of `magnification_log` | Compared with `mu log mu`. Violated: the computed array is discarded and `x log x` returned, positive and unbounded outside the disc, too low in the inner half, too high near the limb; partial: inside the disc it is the intended profile with `r` and `mu` exchanged. |
| C137 | base point and reach of `_integrate_ld` | Induction over the vertices for the convex hull; the nodes of a Gauss rule lie inside its interval (C99), hence two lens maps that agree on the extended rectangle give the same sum. |
| C66 | Index helpers | List induction. |
| C67 | Zero-avoiding minimum, maximum and mean | Sorted-list reasoning. |
| C68 | sparse_argsort sorts non-zero entries and puts zeros last | Permutation and sortedness. |
| C70 | `magnifications` passes its parameters on | Model comparison; negation with witness. |
| C71 | Uniform ray shooting converges to the finite-source magnification | Riemann sums of a.e. continuous functions on sectors; limb has measure zero. |
| C72 | Limb-darkened ray shooting converges | As C71. |
| C69 | trapz_zero_avoiding integrates up to the tail of a zero-padded buffer | Telescoping sum. |
