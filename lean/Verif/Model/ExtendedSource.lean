import Verif.Model.Boundary
import Verif.Model.Jnp

/-!
# Model of `inverse_ray/extended_source.py`

float64 is `ℝ`, `1e-10` is `1 / 10 ^ 10`.  The ring regions `(r_range, th_range)` that `define_regions` returns are an
argument here (`define_regions` is modelled in `MergeArea`).  `vmap`, `lax.scan` and `checkpoint` do not change
values: they are maps and left folds.
-/

noncomputable section

namespace Microjax.ExtendedSource

open Complex PointSource Boundary

/-- `extended_source.py` 378-389: the algebraic part of `cubic_interp`, with the given minimum and maximum of the
abscissae. -/
def cubicCore {K : Type*} [Field K] [LinearOrder K] (x_min x_max epsilon x x0 x1 x2 x3 y0 y1 y2 y3 : K) : K :=
  let scale := max (x_max - x_min) epsilon
  let x_hat := (x - x_min) / scale
  let x0_hat := (x0 - x_min) / scale
  let x1_hat := (x1 - x_min) / scale
  let x2_hat := (x2 - x_min) / scale
  let x3_hat := (x3 - x_min) / scale
  let L0 := ((x_hat - x1_hat) * (x_hat - x2_hat) * (x_hat - x3_hat)) /
    ((x0_hat - x1_hat + epsilon) * (x0_hat - x2_hat + epsilon) * (x0_hat - x3_hat + epsilon))
  let L1 := ((x_hat - x0_hat) * (x_hat - x2_hat) * (x_hat - x3_hat)) /
    ((x1_hat - x0_hat + epsilon) * (x1_hat - x2_hat + epsilon) * (x1_hat - x3_hat + epsilon))
  let L2 := ((x_hat - x0_hat) * (x_hat - x1_hat) * (x_hat - x3_hat)) /
    ((x2_hat - x0_hat + epsilon) * (x2_hat - x1_hat + epsilon) * (x2_hat - x3_hat + epsilon))
  let L3 := ((x_hat - x0_hat) * (x_hat - x1_hat) * (x_hat - x2_hat)) /
    ((x3_hat - x0_hat + epsilon) * (x3_hat - x1_hat + epsilon) * (x3_hat - x2_hat + epsilon))
  y0 * L0 + y1 * L1 + y2 * L2 + y3 * L3

/-- `extended_source.py` 332-389 `cubic_interp` with scalar abscissae. -/
def cubicInterp {K : Type*} [Field K] [LinearOrder K] (x x0 x1 x2 x3 y0 y1 y2 y3 epsilon : K) : K :=
  cubicCore (Jnp.amin [x0, x1, x2, x3]) (Jnp.amax [x0, x1, x2, x3]) epsilon x x0 x1 x2 x3 y0 y1 y2 y3

/-- `extended_source.py` 332-389 `cubic_interp` as `_process_r` calls it: `d0 … d3` are arrays, minimum and maximum
are taken over all their entries, the ordinates are the same for all cells. -/
def cubicInterpArray {K : Type*} [Field K] [LinearOrder K] (x : K) (d0 d1 d2 d3 : List K)
    (y0 y1 y2 y3 epsilon : K) : List K :=
  let all := d0 ++ d1 ++ d2 ++ d3
  ((d0.zip d1).zip (d2.zip d3)).map fun c =>
    cubicCore (Jnp.amin all) (Jnp.amax all) epsilon x c.1.1 c.1.2 c.2.1 c.2.2 y0 y1 y2 y3

/-- `jnp.clip`. -/
def clip {K : Type*} [LinearOrder K] (x lo hi : K) : K := min (max x lo) hi

/-- `jnp.linspace(a, b, n, endpoint=True)`. -/
def linspace {K : Type*} [Field K] (a b : K) (n : ℕ) : List K :=
  (List.range n).map fun i : ℕ => a + (i : K) * ((b - a) / ((n : K) - 1))

/-- The slice `x[i:n-j]` used as `x[:-3]` (`i = 0, j = 3`), `x[1:-2]`, … -/
def slice {α : Type*} (i j : ℕ) (x : List α) : List α := (x.drop i).take (x.length - i - j)

/-- The `zero_term` (`extended_source.py` 140, 285). -/
def zeroTerm : ℝ := 1 / 10 ^ 10

/-- `extended_source.py` 288-297: weight of one angular cell (without `r0 * dth`) of the uniform source, from the
source indicators of its two middle samples and the estimated crossing. -/
def cellWeight (in1 in2 th_est : ℝ) : ℝ :=
  let num_inside := in1 * in2
  let num_in2out := in1 * (1 - in2)
  let num_out2in := (1 - in1) * in2
  let frac_in2out := clip (th_est - 1) 0 1
  let frac_out2in := clip (2 - th_est) 0 1
  num_inside + (num_in2out * frac_in2out + num_out2in * frac_out2in)

/-- `extended_source.py` 274-297 `_process_r` of `mag_uniform`; `dist` is `distance_from_source` at radius `r0` as a
function of the angle. -/
def processR (dist : ℝ → ℝ) (rho r0 : ℝ) (th_values : List ℝ) : ℝ :=
  let dth := Jnp.get 0 th_values 1 - Jnp.get 0 th_values 0
  let distances := th_values.map dist
  let in_num := distances.map fun d => inSource d rho
  let th_est := cubicInterpArray rho (slice 0 3 distances) (slice 1 2 distances) (slice 2 1 distances)
    (slice 3 0 distances) 0 1 2 3 zeroTerm
  (((slice 1 2 in_num).zip (slice 2 1 in_num)).zip th_est).map
    (fun c => r0 * dth * cellWeight c.1.1 c.1.2 c.2) |>.sum

/-- `extended_source.py` 299-312 `_compute_for_range` of `mag_uniform`; `dist r th` is the distance. -/
def computeForRange (dist : ℝ → ℝ → ℝ) (rho : ℝ) (r_resolution th_resolution : ℕ) (region : (ℝ × ℝ) × (ℝ × ℝ)) : ℝ :=
  let r_values := linspace region.1.1 region.1.2 r_resolution
  let th_values := linspace region.2.1 region.2.2 th_resolution
  let area_r := r_values.map fun r => processR (dist r) rho r th_values
  let dr := Jnp.get 0 r_values 1 - Jnp.get 0 r_values 0
  dr * area_r.sum

/-- `lens_eq` of the mid-point frame for 2 or 3 lenses (`boundary.py` 130). -/
def lensEqN (nlenses : ℕ) (u : UserParams) : ℂ → ℂ :=
  if nlenses = 3 then lensEq3 (midParams3 u) else lensEq2 (midParams2 u)

/-- `extended_source.py` 267-268, 283: distance to the source centre of the ray through `(r, th)`. -/
def rayDistance (nlenses : ℕ) (u : UserParams) (w_center : ℂ) (r th : ℝ) : ℝ :=
  let shifted := xCM u
  distanceFromSource (lensEqN nlenses u) r th (w_center - shifted) shifted

/-- `extended_source.py` 192-330 `mag_uniform`, from line 273 on (`regions` is the output of `define_regions`). -/
def magUniform (nlenses : ℕ) (u : UserParams) (w_center : ℂ) (rho : ℝ) (r_resolution th_resolution : ℕ)
    (regions : List ((ℝ × ℝ) × (ℝ × ℝ))) : ℝ :=
  let magnification_unnorm := regions.foldl (fun carry region =>
    carry + computeForRange (rayDistance nlenses u w_center) rho r_resolution th_resolution region) 0
  magnification_unnorm / rho ^ 2 / Real.pi

/-- `extended_source.py` 143-155: weight of one angular cell (without `r0 * dth`) of the limb-darkened source. -/
def cellWeightLD (in1 in2 in3 th_est_B1 th_est_B2 brightness delta_c : ℝ) : ℝ :=
  let num_inside := in1 * in2 * in3
  let num_B1 := (1 - in1) * in2 * in3
  let num_B2 := in1 * in2 * (1 - in3)
  let delta_B1 := clip (2 - th_est_B1) 0 1 + zeroTerm
  let delta_B2 := clip (th_est_B2 - 1) 0 1 + zeroTerm
  let fac_B1 := calcFacB delta_B1 delta_c
  let fac_B2 := calcFacB delta_B2 delta_c
  brightness * num_inside + brightness * fac_B1 * num_B1 + brightness * fac_B2 * num_B2

/-- `extended_source.py` 126-156 `_process_r` of `mag_limb_dark`. -/
def processRLD (dist : ℝ → ℝ) (rho u1 delta_c r0 : ℝ) (th_values : List ℝ) : ℝ :=
  let dth := Jnp.get 0 th_values 1 - Jnp.get 0 th_values 0
  let distances := th_values.map dist
  let in_num := distances.map fun d => inSource d rho
  let Is := distances.map fun d => isLimb1st (d / rho) u1
  let th_est_B1 := cubicInterpArray rho (slice 0 4 distances) (slice 1 3 distances) (slice 2 2 distances)
    (slice 3 1 distances) 0 1 2 3 zeroTerm
  let th_est_B2 := cubicInterpArray rho (slice 1 3 distances) (slice 2 2 distances) (slice 3 1 distances)
    (slice 4 0 distances) 0 1 2 3 zeroTerm
  ((((slice 1 3 in_num).zip (slice 2 2 in_num)).zip ((slice 3 1 in_num).zip (slice 2 2 Is))).zip
    (th_est_B1.zip th_est_B2)).map
    (fun c => r0 * dth * cellWeightLD c.1.1.1 c.1.1.2 c.1.2.1 c.2.1 c.2.2 c.1.2.2 delta_c) |>.sum

/-- `extended_source.py` 159-175 `_compute_for_range` of `mag_limb_dark`. -/
def computeForRangeLD (dist : ℝ → ℝ → ℝ) (rho u1 delta_c : ℝ) (r_resolution th_resolution : ℕ)
    (region : (ℝ × ℝ) × (ℝ × ℝ)) : ℝ :=
  let r_values := linspace region.1.1 region.1.2 r_resolution
  let th_values := linspace region.2.1 region.2.2 th_resolution
  let area_r := r_values.map fun r => processRLD (dist r) rho u1 delta_c r th_values
  let dr := Jnp.get 0 r_values 1 - Jnp.get 0 r_values 0
  dr * area_r.sum

/-- `extended_source.py` 41-189 `mag_limb_dark`, from line 126 on. -/
def magLimbDark (nlenses : ℕ) (u : UserParams) (w_center : ℂ) (rho u1 delta_c : ℝ) (r_resolution th_resolution : ℕ)
    (regions : List ((ℝ × ℝ) × (ℝ × ℝ))) : ℝ :=
  let magnification_unnorm := regions.foldl (fun carry region =>
    carry + computeForRangeLD (rayDistance nlenses u w_center) rho u1 delta_c r_resolution th_resolution region) 0
  magnification_unnorm / rho ^ 2

end Microjax.ExtendedSource
