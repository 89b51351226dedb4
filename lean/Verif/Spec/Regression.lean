import Mathlib.LinearAlgebra.Matrix.NonsingularInverse
import Mathlib.LinearAlgebra.Matrix.Notation
import Mathlib.Analysis.SpecialFunctions.Pow.Real
import Mathlib.MeasureTheory.Integral.Bochner.Basic
import Mathlib.MeasureTheory.Measure.Lebesgue.Basic

/-!
# Independent specification: weighted straight-line fits and Gaussian marginal likelihoods
-/

noncomputable section

namespace Microjax.Spec

open Matrix

variable {n : ℕ}

/-- Weighted sum of squared residuals of the straight line `a + b x`. -/
def chiSq (w x y : Fin n → ℝ) (a b : ℝ) : ℝ := ∑ i, w i * (y i - (a + b * x i)) ^ 2

/-- Design matrix of the straight line: columns 1 and `x`. -/
def lineDesign (x : Fin n → ℝ) : Matrix (Fin n) (Fin 2) ℝ := fun i k => if k = 0 then 1 else x i

/-- Normal matrix `Xᵀ W X` of the straight-line fit. -/
def normalMatrix (w x : Fin n → ℝ) : Matrix (Fin 2) (Fin 2) ℝ :=
  (lineDesign x)ᵀ * Matrix.diagonal w * lineDesign x

/-- Density of the normal distribution with mean `m` and covariance `C` at `x`. -/
def gaussDensity (m : Fin n → ℝ) (C : Matrix (Fin n) (Fin n) ℝ) (x : Fin n → ℝ) : ℝ :=
  (2 * Real.pi) ^ (-(n : ℝ) / 2) * (Real.sqrt C.det)⁻¹ * Real.exp (-(1 / 2) * ((x - m) ⬝ᵥ C⁻¹ *ᵥ (x - m)))

/-- Likelihood of the data after integrating out the two linear flux parameters: data `~ N(M f, C)`, prior
`f ~ N(mu, Lambda)`. -/
def marginalLikelihood (flux : Fin n → ℝ) (M : Matrix (Fin n) (Fin 2) ℝ) (C : Matrix (Fin n) (Fin n) ℝ)
    (mu : Fin 2 → ℝ) (Lambda : Matrix (Fin 2) (Fin 2) ℝ) : ℝ :=
  ∫ fs : ℝ, ∫ fb : ℝ, gaussDensity (M *ᵥ ![fs, fb]) C flux * gaussDensity mu Lambda ![fs, fb]

end Microjax.Spec
