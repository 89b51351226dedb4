import Verif.Spec.ExtendedSource

/-! # How often a polar region passes over a point -/

noncomputable section

namespace Microjax.Spec

open Complex MeasureTheory

/-- How many polar coordinates `(r, θ)` of the point `z` lie inside the region `R`: 0 outside the region, 1 at an ordinary
point of it, more where a region wider than a full turn overlaps itself. -/
def passes (R : (ℝ × ℝ) × (ℝ × ℝ)) (z : ℂ) : ℕ :=
  {p : ℝ × ℝ | R.1.1 < p.1 ∧ p.1 < R.1.2 ∧ R.2.1 < p.2 ∧ p.2 < R.2.2 ∧ z = p.1 * exp (I * p.2)}.ncard

/-- The same for a list of regions. -/
def passesAll (regions : List ((ℝ × ℝ) × (ℝ × ℝ))) (z : ℂ) : ℕ := (regions.map fun R => passes R z).sum

/-- Radii and angles in order, of any angular width (also several turns), or an empty slot of the table of regions. -/
def OrderedRegion (R : (ℝ × ℝ) × (ℝ × ℝ)) : Prop :=
  (0 ≤ R.1.1 ∧ R.1.1 < R.1.2 ∧ R.2.1 < R.2.2) ∨ R = ((0, 0), (0, 0))

end Microjax.Spec
