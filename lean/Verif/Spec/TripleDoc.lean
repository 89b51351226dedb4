import Verif.Spec.Lensing

/-!
# The triple lens as the documentation describes it (no reference to the model)
-/

noncomputable section

namespace Microjax.Spec

open Complex

/-- `docs_src/usage.rst` 53-56, `inverse_ray/lightcurve.py` 292-297: lens 1 (mass 1) and lens 2 (mass `q`) at
separation `s` along the real axis, their mid-point at the origin, and lens 3 (mass `q3`) at distance `r3` and polar angle
`psi` from **lens 1**. -/
def tripleFromFirst (s q q3 r3 psi : ℝ) : Lenses :=
  [(q / (1 + q + q3), ((s / 2 : ℝ) : ℂ)), (1 / (1 + q + q3), ((-(s / 2) : ℝ) : ℂ)),
   (q3 / (1 + q + q3), ((-(s / 2) : ℝ) : ℂ) + r3 * exp (I * psi))]

/-- `docs_src/usage.rst` 140: lens 3 at distance `r3` and polar angle `psi` from the **centre of mass** of lenses 1
and 2. -/
def tripleFromCentre (s q q3 r3 psi : ℝ) : Lenses :=
  [(q / (1 + q + q3), ((s / 2 : ℝ) : ℂ)), (1 / (1 + q + q3), ((-(s / 2) : ℝ) : ℂ)),
   (q3 / (1 + q + q3), ((-(s / 2) + q / (1 + q) * s : ℝ) : ℂ) + r3 * exp (I * psi))]

end Microjax.Spec
