import Mathlib.MeasureTheory.Integral.IntervalIntegral.Basic
import Mathlib.Analysis.SpecialFunctions.Trigonometric.Basic

/-!
# Fourier transform of a radially symmetric source of unit radius, normalised to unit flux
-/

noncomputable section

namespace Microjax.Spec

open MeasureTheory

/-- Flux of the brightness profile `S` over the unit disc, in polar coordinates. -/
def discFlux (S : ℝ → ℝ) : ℝ := ∫ r in (0 : ℝ)..1, ∫ _θ in (0 : ℝ)..2 * Real.pi, S r * r

/-- Fourier transform `∫ S(|y|) cos(k y₁) d²y` over the unit disc divided by the flux (the sine part vanishes by
symmetry). -/
def discFT (S : ℝ → ℝ) (k : ℝ) : ℝ :=
  (∫ r in (0 : ℝ)..1, ∫ θ in (0 : ℝ)..2 * Real.pi, S r * Real.cos (k * (r * Real.cos θ)) * r) / discFlux S

end Microjax.Spec
