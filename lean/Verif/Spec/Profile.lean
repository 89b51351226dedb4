import Verif.Spec.Calculus

/-!
# Independent specification: averages over a radially symmetric source profile
-/

noncomputable section

namespace Microjax.Spec

open Complex

/-- Mean of `g` over the disc of radius `ρ` about `w` with the surface brightness `p(r)` at the fraction `r` of the
radius. -/
def profileMean (p : ℝ → ℝ) (g : ℂ → ℝ) (w : ℂ) (ρ : ℝ) : ℝ :=
  (∫ r in (0 : ℝ)..1, ∫ θ in (0 : ℝ)..2 * Real.pi, g (w + ρ * r * exp (I * θ)) * (p r * r)) /
    ∫ r in (0 : ℝ)..1, ∫ _θ in (0 : ℝ)..2 * Real.pi, (p r * r)

end Microjax.Spec
