import Mathlib.Analysis.Calculus.FDeriv.Basic
import Mathlib.Analysis.Complex.Basic
import Mathlib.Analysis.SpecialFunctions.Complex.Circle
import Mathlib.MeasureTheory.Integral.IntervalIntegral.Basic

/-!
# Independent specification: Laplacian and limb-darkened disc averages (no reference to the model)
-/

noncomputable section

namespace Microjax.Spec

open Complex

/-- Laplacian of a real function of the plane: second derivative along 1 plus second derivative along `i`. -/
def laplacian (g : ℂ → ℝ) (w : ℂ) : ℝ :=
  fderiv ℝ (fun w => fderiv ℝ g w 1) w 1 + fderiv ℝ (fun w => fderiv ℝ g w I) w I

/-- Linear limb-darkening law: surface brightness at the fraction `r` of the source radius. -/
def brightness (u1 r : ℝ) : ℝ := 1 - u1 * (1 - Real.sqrt (1 - r ^ 2))

/-- Brightness-weighted integral of `g` over the unit-scaled disc of radius `ρ` about `w`, in polar
coordinates. -/
def discIntegral (u1 : ℝ) (g : ℂ → ℝ) (w : ℂ) (ρ : ℝ) : ℝ :=
  ∫ r in (0 : ℝ)..1, ∫ θ in (0 : ℝ)..2 * Real.pi, g (w + ρ * r * exp (I * θ)) * (brightness u1 r * r)

/-- Brightness-weighted mean of `g` over the disc of radius `ρ` about `w`. -/
def discMean (u1 : ℝ) (g : ℂ → ℝ) (w : ℂ) (ρ : ℝ) : ℝ :=
  discIntegral u1 g w ρ / discIntegral u1 (fun _ => 1) w ρ

end Microjax.Spec
