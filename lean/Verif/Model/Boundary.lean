import Verif.Model.PointSource
import Mathlib.Analysis.SpecialFunctions.Sigmoid
import Mathlib.Analysis.SpecialFunctions.Trigonometric.Basic

/-!
# Model of `inverse_ray/boundary.py`, `inverse_ray/limb_darkening.py` and `caustics/integrate.py` 35-50

float64 is `ℝ`.  A `custom_jvp` function is modelled by two definitions: the plain function and the pair
(primal, tangent) its rule returns under differentiation.  `jax.nn.sigmoid` is Mathlib's `Real.sigmoid`,
`x ↦ 1 / (1 + e^{-x})`.
-/

noncomputable section

namespace Microjax.Boundary

open Complex PointSource

/-- `boundary.py` 16-35 `calc_facB`. -/
def calcFacB (delta_B delta_c : ℝ) : ℝ :=
  if delta_B > delta_c then 2 / 3 * Real.sqrt (1 + 1 / 2 / delta_B) * (1 / 2 + delta_B)
  else 2 / 3 * delta_B + 1 / 2

/-- `boundary.py` 37-44 `calc_facB_jvp`. -/
def calcFacBJvp (primal tangent : ℝ × ℝ) : ℝ × ℝ :=
  (calcFacB primal.1 primal.2, 2 / 3 * tangent.1)

/-- `boundary.py` 46-53 `step_smooth` (the value ignores `fac`). -/
def stepSmooth (x : ℝ) : ℝ := if x > 0 then 1 else 0

/-- `boundary.py` 55-67 `step_smooth_jvp`. -/
def stepSmoothJvp (primal tangent : ℝ × ℝ) : ℝ × ℝ :=
  let (x, fac) := primal
  let (x_dot, fac_dot) := tangent
  let z := x * fac
  let sigmoid := Real.sigmoid z
  let dsig_dz := sigmoid * (1 - sigmoid)
  (stepSmooth x, x_dot * dsig_dz * fac + fac_dot * dsig_dz * x)

/-- `boundary.py` 69-76 `in_source` (elementwise). -/
def inSource (distances rho : ℝ) : ℝ := if distances - rho < 0 then 1 else 0

/-- `boundary.py` 78-93 `in_source_jvp`. -/
def inSourceJvp (primal tangent : ℝ × ℝ) : ℝ × ℝ :=
  let (distances, rho) := primal
  let (distances_dot, rho_dot) := tangent
  let z := (rho - distances) / rho
  let factor := 100
  let sigmoid := Real.sigmoid (factor * z)
  let sigmoid_derivative := sigmoid * (1 - sigmoid) * factor
  let dz_distances := -1 / rho
  let dz_rho := distances / rho ^ 2
  (sigmoid, sigmoid_derivative * (dz_distances * distances_dot + dz_rho * rho_dot))

/-- `boundary.py` 118-132 `distance_from_source` for one angle; `leq` is `lens_eq` with the lens parameters. -/
def distanceFromSource (leq : ℂ → ℂ) (r0 th : ℝ) (w_center_shifted : ℂ) (shifted : ℝ) : ℝ :=
  let z_th : ℂ := (r0 * Real.cos th : ℝ) + I * (r0 * Real.sin th : ℝ)
  ‖leq (z_th - shifted) - w_center_shifted‖

/-- `limb_darkening.py` 17-34 `Is_limb_1st` (for `d ≥ 1` the square root, NaN in the code for `d > 1`, is
discarded by `where`). -/
def isLimb1st (d u1 : ℝ) : ℝ :=
  let mu := Real.sqrt (1 - d ^ 2)
  let I0 := 3 / Real.pi / (3 - u1)
  let i := I0 * (1 - u1 * (1 - mu))
  if d < 1 then i else 0

/-- `limb_darkening.py` 36-57 `Is_limb_1st_jvp`. -/
def isLimb1stJvp (primals tangents : ℝ × ℝ) : ℝ × ℝ :=
  let (d, u1) := primals
  let (d_dot, u1_dot) := tangents
  let fac := 100
  let mu := Real.sqrt (max (1 / 1000) (1 - d ^ 2))
  let I0 := 3 / Real.pi / (3 - u1)
  let dI0_du1 := -3 / Real.pi / (3 - u1) ^ 2
  let prof := 1 - u1 * (1 - mu)
  let dprof_du1 := -(1 - mu)
  let dprof_dmu := u1
  let dmu_dd := -d / mu
  let z := 1 - d
  let sigmoid := Real.sigmoid (fac * z)
  let dsig_dz := fac * sigmoid * (1 - sigmoid)
  let dz_dd := -1
  (I0 * prof * sigmoid,
    u1_dot * (dI0_du1 * prof * sigmoid + I0 * dprof_du1 * sigmoid)
      + d_dot * (I0 * dprof_dmu * dmu_dd * sigmoid + I0 * prof * dsig_dz * dz_dd))

/-- `caustics/integrate.py` 35-50 `_brightness_profile` at one image point `z`; `leq` is `lens_eq` with the lens
parameters (`safe_for_grad_sqrt` is `x ↦ √(max x 0)`, which is Lean's `Real.sqrt`). -/
def brightnessProfile (leq : ℂ → ℂ) (z : ℂ) (rho : ℝ) (w0 : ℂ) (u1 : ℝ) : ℝ :=
  let r := ‖leq z - w0‖ / rho
  let B_r := if r ≤ 1 then 1 + Real.sqrt (1 - r ^ 2) else 1 - Real.sqrt (1 - 1 / r ^ 2)
  3 / (3 - u1) * (u1 * B_r + 1 - 2 * u1)

end Microjax.Boundary
