import Mathlib.Analysis.SpecialFunctions.Pow.Real
import Mathlib.Analysis.SpecialFunctions.Trigonometric.Basic

/-!
# Independent specification: Mellin modes

A function that oscillates in `log x` with a power-law envelope, and its image under a transform that is diagonal in
these modes (every Mellin convolution, in particular every Hankel-type transform): the mode `x^(ν + iη)` goes to
`G y^(-ν - iη)` with a complex number `G`.
-/

noncomputable section

namespace Microjax.Spec

open Complex

/-- Real part of `e^{iφ} x0^{-iη} x^{ν + iη}`. -/
def logMode (ν η x0 φ x : ℝ) : ℝ := x ^ ν * Real.cos (η * Real.log (x / x0) + φ)

/-- Real part of `e^{iφ} x0^{-iη} G y^{-ν - iη}`. -/
def logModeImage (G : ℂ) (ν η x0 φ y : ℝ) : ℝ :=
  y ^ (-ν) * (exp (I * φ) * exp (-(I * η) * (Real.log (x0 * y) : ℝ)) * G).re

end Microjax.Spec
