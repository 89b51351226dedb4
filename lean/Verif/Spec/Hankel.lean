import Verif.Spec.Bessel
import Mathlib.MeasureTheory.Integral.Bochner.Set
import Mathlib.MeasureTheory.Measure.Lebesgue.Basic

/-!
# Independent specification: the Hankel integral of order zero

`∫_0^∞ f(x) J_0(x y) dx / x`, with a Gaussian convergence factor that is then removed (the integrals of power laws only
converge conditionally, or in this summed sense).
-/

noncomputable section

namespace Microjax.Spec

open MeasureTheory Set Filter Topology

/-- `H` is the (Gauss-summed) value of `∫_0^∞ f(x) J_0(x y) dx / x`. -/
def IsHankel (f : ℝ → ℝ) (y H : ℝ) : Prop :=
  (∀ ε : ℝ, 0 < ε → IntegrableOn (fun x => f x / x * besselJ 0 (x * y) * Real.exp (-(ε * x ^ 2))) (Ioi 0)) ∧
    Tendsto (fun ε : ℝ => ∫ x in Ioi (0 : ℝ), f x / x * besselJ 0 (x * y) * Real.exp (-(ε * x ^ 2))) (𝓝[>] 0) (𝓝 H)

/-- Two-dimensional Fourier transform of the radial function `a(|w|)` of the plane:
`∫ a(|w|) exp(i k·w) d²w = 2π ∫_0^∞ r a(r) J_0(k r) dr`. -/
def radialFT (a : ℝ → ℝ) (k : ℝ) : ℝ := 2 * Real.pi * ∫ r in Ioi (0 : ℝ), r * a r * besselJ 0 (k * r)

/-- A table of abscissae and values is the Hankel transform of `f`, with error at most `δ`. -/
def SamplesHankel (out : List ℝ × List ℝ) (f : ℝ → ℝ) (δ : ℝ) : Prop :=
  out.2.length = out.1.length ∧
    ∀ j < out.1.length, 0 < out.1.getD j 0 ∧ ∃ H, IsHankel f (out.1.getD j 0) H ∧ |out.2.getD j 0 - H| ≤ δ

end Microjax.Spec
