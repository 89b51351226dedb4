import Verif.Model.PointSource

/-!
# Model of the accuracy tests (`inverse_ray/cond_extended.py`, `caustics/lightcurve.py`)

The two files contain the same two tests (the binary branches are textually identical); the three-lens branch
differs in the value substituted for the third lens position.  complex128 is `ℂ`, float64 is `ℝ`.
A division by zero (inf/NaN in the code) is Lean's total division.
-/

noncomputable section

namespace Microjax.Tests

open Complex ComplexConjugate PointSource

/-- `f`, `f_p`, `f_pp` of the proximity test. -/
structure Field where
  f : ℂ → ℂ
  fp : ℂ → ℂ
  fpp : ℂ → ℂ

/-- `cond_extended.py` 61-67, `caustics/lightcurve.py` 68-74: `nlenses == 2`. -/
def field2 (p : MidParams) : Field :=
  let e2 : ℝ := 1 - p.e1
  { f := fun z => -(p.e1 / (z - p.a)) - e2 / (z + p.a)
    fp := fun z => p.e1 / (z - p.a) ^ 2 + e2 / (z + p.a) ^ 2
    fpp := fun z => 2 * (p.e1 / (p.a - z) ^ 3 - e2 / (p.a + z) ^ 3) }

/-- `cond_extended.py` 69-81 (`c3 = r3`), `caustics/lightcurve.py` 76-93 (`c3 = r3 * exp(1j*psi)`):
`nlenses == 3`. -/
def field3 (p : MidParams) (c3 : ℂ) : Field :=
  { f := fun z => -(p.e1 / (z - p.a)) - p.e2 / (z + p.a) - (1 - p.e1 - p.e2) / (z + c3)
    fp := fun z => p.e1 / (z - p.a) ^ 2 + p.e2 / (z + p.a) ^ 2 + (1 - p.e1 - p.e2) / (z + c3) ^ 2
    fpp := fun z => 2 * (p.e1 / (p.a - z) ^ 3 - p.e2 / (p.a + z) ^ 3) + (1 - p.e1 - p.e2) / (z + c3) ^ 3 }

/-- `cond_extended.py` 82-96: `|mu_cusp|` of one image. -/
def muCusp (F : Field) (rho rho_min : ℝ) (z : ℂ) : ℝ :=
  let J := 1 - ‖F.fp z * F.fp (conj z)‖
  |6 * (3 * F.fp (conj z) ^ 3 * F.fpp z ^ 2).im / J ^ 5 * (rho + rho_min) ^ 2|

/-- `cond_extended.py` 98-102: `factor` of one image (`Jhat` is real, so `conjugate(Jhat) = Jhat`). -/
def ghostFactor (F : Field) (w z : ℂ) : ℝ :=
  let zhat := conj w - F.f z
  let J : ℝ := 1 - ‖F.fp z * F.fp (conj z)‖
  let Jhat : ℝ := 1 - ‖F.fp z * F.fp zhat‖
  ‖(J : ℂ) * (Jhat : ℂ) ^ 2
    / ((Jhat : ℂ) * F.fpp (conj z) * F.fp z - (Jhat : ℂ) * F.fpp z * F.fp (conj z) * F.fp zhat)‖

/-- `cond_extended.py` 40-107, `caustics/lightcurve.py` 64-119 `_caustics_proximity_test` for one source
position with the default constants `c_m = 0.01, gamma = 0.02, c_f = 4, rho_min = 0.001`. -/
def proximityTest (F : Field) (w : ℂ) (zs : List (ℂ × Bool)) (rho delta_mu_multi : ℝ) : Bool :=
  let c_m : ℝ := 1 / 100
  let gamma : ℝ := 2 / 100
  let c_f : ℝ := 4
  let rho_min : ℝ := 1 / 1000
  let mu_cusp := (zs.map fun zm => muCusp F rho rho_min zm.1 * (if zm.2 then 1 else 0)).sum
  let test_multipole_and_cusp := decide (gamma * mu_cusp + delta_mu_multi < c_m)
  let ghosts := (zs.map fun zm => (if zm.2 then 0 else 1) * ghostFactor F w zm.1).sum
  let test_false_images :=
    if (zs.filter fun zm => !zm.2).length = 0 then true
    else decide (1 / 2 * ghosts > c_f * (rho + rho_min))
  test_false_images && test_multipole_and_cusp

/-- `cond_extended.py` 109-117, `caustics/lightcurve.py` 122-129 `_planetary_caustic_test`, `c_p = 2`.
(`x_cm` is computed by the code but not used.) -/
def planetaryTest (p : MidParams) (w : ℂ) (rho : ℝ) : Bool :=
  let c_p : ℝ := 2
  let s := 2 * p.a
  let q := p.e1 / (1 - p.e1)
  let w_pc : ℝ := -1 / s
  let delta_pc := 3 * Real.sqrt q / s
  decide (((w_pc : ℂ) - w).re ^ 2 + ((w_pc : ℂ) - w).im ^ 2 > c_p * (rho ^ 2 + delta_pc ^ 2))

end Microjax.Tests
