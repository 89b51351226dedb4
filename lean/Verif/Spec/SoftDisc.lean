import Verif.Spec.ExtendedSource

/-! # Independent specification of a source disc with a soft edge -/

noncomputable section

namespace Microjax.Spec

open Complex MeasureTheory

/-- A brightness profile that falls from one to zero within about a hundredth of the radius (`x` is the distance from the
centre in units of the radius). -/
def softDisc (x : ℝ) : ℝ := 1 / (1 + Real.exp (100 * (x - 1)))

/-- Flux of the part of the soft disc that is seen in a sector of the lens plane, over the area of the sharp disc. -/
def softFlux (L : Lenses) (w : ℂ) (rho : ℝ) (R : (ℝ × ℝ) × (ℝ × ℝ)) : ℝ :=
  (∫ z in sector R, softDisc (‖lensMap L z - w‖ / rho)) / volume.real (Metric.ball w rho)

/-- Weight, in the same units, of the layer around the limb in a sector of the lens plane. -/
def limbLayer (L : Lenses) (w : ℂ) (rho : ℝ) (R : (ℝ × ℝ) × (ℝ × ℝ)) : ℝ :=
  (∫ z in sector R, Real.exp (-(100 * |‖lensMap L z - w‖ / rho - 1|))) / volume.real (Metric.ball w rho)

end Microjax.Spec
