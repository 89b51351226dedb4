import Mathlib.Analysis.Calculus.FDeriv.Basic
import Mathlib.Analysis.Complex.Basic
import Mathlib.Analysis.SpecialFunctions.Complex.Circle
import Mathlib.Algebra.BigOperators.Finprod
import Mathlib.LinearAlgebra.Determinant
import Mathlib.Topology.Algebra.Module.Determinant

/-!
# Independent specification of point-mass gravitational lensing (no reference to the model)
-/

noncomputable section

namespace Microjax.Spec

open Complex ComplexConjugate

/-- A system of point-mass lenses: mass fractions and positions in the lens plane. -/
abbrev Lenses := List (ℝ × ℂ)

/-- The lens map: image position to source position, `z - Σ mᵢ / (z̄ - z̄ᵢ)`. -/
def lensMap (L : Lenses) (z : ℂ) : ℂ :=
  z - (L.map fun l => (l.1 : ℂ) / (conj z - conj l.2)).sum

/-- `z` is an image of a point source at `w`. -/
def IsImage (L : Lenses) (w z : ℂ) : Prop := (∀ l ∈ L, z ≠ l.2) ∧ lensMap L z = w

/-- Jacobian determinant of a map of the plane at a point. -/
def jacDet (f : ℂ → ℂ) (z : ℂ) : ℝ := (fderiv ℝ f z).det

/-- Total point-source magnification: sum over all images of `1 / |det J|`. -/
def pointMag (L : Lenses) (w : ℂ) : ℝ :=
  ∑ᶠ z ∈ {z | IsImage L w z}, 1 / |jacDet (lensMap L) z|

/-- Sum of the masses. -/
def totalMass (L : Lenses) : ℝ := (L.map fun l => l.1).sum

/-- Mass-weighted sum of the positions (the centre of mass when the total mass is 1). -/
def massMoment (L : Lenses) : ℂ := (L.map fun l => (l.1 : ℂ) * l.2).sum

/-- A single lens of unit mass at the origin. -/
def single : Lenses := [(1, 0)]

/-- Binary with separation `s`, mass ratio `q` (secondary over primary), total mass one, centre of mass at
the origin, secondary on the positive real axis (for `s > 0`). -/
def binary (s q : ℝ) : Lenses :=
  [(q / (1 + q), ((s / (1 + q) : ℝ) : ℂ)), (1 / (1 + q), ((-(q * s / (1 + q)) : ℝ) : ℂ))]

/-- Triple: two lenses as in `binary` (their own centre of mass at the origin) with masses proportional to
`q` and `1`, and a third of mass proportional to `q3`, displaced by `r3 e^{iψ}` from the mid-point of the first
two. -/
def triple (s q q3 r3 psi : ℝ) : Lenses :=
  [(q / (1 + q + q3), ((s / (1 + q) : ℝ) : ℂ)),
   (1 / (1 + q + q3), ((-(q * s / (1 + q)) : ℝ) : ℂ)),
   (q3 / (1 + q + q3), r3 * exp (I * psi) + ((s / (1 + q) - s / 2 : ℝ) : ℂ))]

/-- Value at `x` of the polynomial with the given coefficients, highest power first. -/
def evalPoly (c : List ℂ) (x : ℂ) : ℂ := c.foldl (fun acc ck => acc * x + ck) 0

/-- `rs` is the list of all complex roots (with multiplicity) of the polynomial with coefficients `c`:
the polynomial factors as leading coefficient times `∏ (x - r)`. -/
def IsRootList (c rs : List ℂ) : Prop :=
  ∀ x, evalPoly c x = c.headD 0 * (rs.map fun r => x - r).prod

/-- Paczynski's point-source point-lens magnification. -/
def paczynski (u : ℝ) : ℝ := (u ^ 2 + 2) / (u * Real.sqrt (u ^ 2 + 4))

end Microjax.Spec
