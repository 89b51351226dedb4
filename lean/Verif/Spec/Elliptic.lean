import Mathlib.Analysis.SpecialFunctions.Integrals.Basic

/-!
# Independent specification: complete elliptic integrals (parameter convention `m = k²`, as in scipy)
-/

noncomputable section

namespace Microjax.Spec

/-- Complete elliptic integral of the first kind. -/
def ellipticK (m : ℝ) : ℝ := ∫ θ in (0 : ℝ)..Real.pi / 2, 1 / Real.sqrt (1 - m * Real.sin θ ^ 2)

/-- Complete elliptic integral of the second kind. -/
def ellipticE (m : ℝ) : ℝ := ∫ θ in (0 : ℝ)..Real.pi / 2, Real.sqrt (1 - m * Real.sin θ ^ 2)

end Microjax.Spec
