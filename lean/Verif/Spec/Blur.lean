import Mathlib.MeasureTheory.Measure.Lebesgue.Complex
import Mathlib.MeasureTheory.Integral.Bochner.Basic

/-!
# Independent specification: Gaussian blur of a function of the plane
-/

noncomputable section

namespace Microjax.Spec

open MeasureTheory

/-- Density of the isotropic normal distribution of the plane with standard deviation `σ` per coordinate. -/
def gauss2 (σ : ℝ) (z : ℂ) : ℝ := Real.exp (-(‖z‖ ^ 2 / (2 * σ ^ 2))) / (2 * Real.pi * σ ^ 2)

/-- Mean of `g` at a point displaced by a normal vector. -/
def blur (σ : ℝ) (g : ℂ → ℝ) (v : ℂ) : ℝ := ∫ z : ℂ, gauss2 σ z * g (v + z)

end Microjax.Spec
