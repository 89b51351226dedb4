import Verif.Spec.Lensing
import Verif.Spec.Calculus
import Mathlib.MeasureTheory.Measure.Lebesgue.Complex
import Mathlib.MeasureTheory.Integral.Bochner.Set

/-! # Independent specification of finite-source magnification and polar sectors -/

noncomputable section

namespace Microjax.Spec

open Complex MeasureTheory

/-- All points of the lens plane that the lens maps into the open disc of radius `rho` about `w`: the images of the
source disc. -/
def imageOfDisc (L : Lenses) (w : ℂ) (rho : ℝ) : Set ℂ :=
  {z | (∀ l ∈ L, z ≠ l.2) ∧ ‖lensMap L z - w‖ < rho}

/-- Magnification of a uniform disc: area of its images over its own area. -/
def uniformMag (L : Lenses) (w : ℂ) (rho : ℝ) : ℝ :=
  volume.real (imageOfDisc L w rho) / volume.real (Metric.ball w rho)

/-- Magnification of a linearly limb-darkened disc: flux of its images (surface brightness is conserved) over its
own flux. -/
def limbMag (L : Lenses) (w : ℂ) (rho u1 : ℝ) : ℝ :=
  (∫ z in imageOfDisc L w rho, brightness u1 (‖lensMap L z - w‖ / rho)) /
    ∫ y in Metric.ball w rho, brightness u1 (‖y - w‖ / rho)

/-- The open polar sector with radii in `(R.1.1, R.1.2)` and angles in `(R.2.1, R.2.2)`. -/
def sector (R : (ℝ × ℝ) × (ℝ × ℝ)) : Set ℂ :=
  {z | ∃ r θ : ℝ, R.1.1 < r ∧ r < R.1.2 ∧ R.2.1 < θ ∧ θ < R.2.2 ∧ z = r * exp (I * θ)}

end Microjax.Spec
