import Verif.Spec.ExtendedSource

/-! # Specification: images of the limb of a source -/

noncomputable section

namespace Microjax.Spec

/-- The images of the circle with centre `w` and radius `rho`. -/
def limbImages (L : Lenses) (w : ℂ) (rho : ℝ) : Set ℂ := {z | (∀ l ∈ L, z ≠ l.2) ∧ ‖lensMap L z - w‖ = rho}

/-- The circle does not just touch a caustic: every image of it is a limit of images of it off the critical curve.  This is so
if the circle avoids the caustics; a circle that touches a fold from outside has an isolated image on the critical curve,
which samples of the circle can miss. -/
def NoTouch (L : Lenses) (w : ℂ) (rho : ℝ) : Prop :=
  limbImages L w rho ⊆ closure {z ∈ limbImages L w rho | jacDet (lensMap L) z ≠ 0}

end Microjax.Spec
