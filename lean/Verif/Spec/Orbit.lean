import Mathlib.LinearAlgebra.Matrix.Notation
import Mathlib.LinearAlgebra.Matrix.Determinant.Basic
import Mathlib.Analysis.SpecialFunctions.Trigonometric.Deriv

/-!
# Independent specification: Kepler orbits, sky directions and tables
-/

noncomputable section

namespace Microjax.Spec

open Matrix

/-- `E` is the eccentric anomaly for mean anomaly `M` on an orbit of eccentricity `e`. -/
def IsEccentricAnomaly (e M E : ℝ) : Prop := E - e * Real.sin E = M

/-- A plane curve `(x, y)` moves under gravity around the origin with mean motion `n` and unit semi-major axis:
Newton's law `r'' = - n² r / |r|³` (Kepler's third law puts `G M = n² a³` with `a = 1`). -/
def IsKeplerMotion (n : ℝ) (x y : ℝ → ℝ) : Prop :=
  ∃ vx vy : ℝ → ℝ, ∀ t,
    HasDerivAt x (vx t) t ∧ HasDerivAt y (vy t) t ∧
    HasDerivAt vx (-n ^ 2 * x t / (Real.sqrt (x t ^ 2 + y t ^ 2)) ^ 3) t ∧
    HasDerivAt vy (-n ^ 2 * y t / (Real.sqrt (x t ^ 2 + y t ^ 2)) ^ 3) t

/-- Unit vector towards right ascension `α`, declination `δ` (radians). -/
def skyDirection (α δ : ℝ) : Fin 3 → ℝ :=
  ![Real.cos δ * Real.cos α, Real.cos δ * Real.sin α, Real.sin δ]

/-- A proper rotation of space. -/
def IsRotation (R : Matrix (Fin 3) (Fin 3) ℝ) : Prop := Rᵀ * R = 1 ∧ R.det = 1

/-- `v` is an entry of the table nearest to `t`. -/
def IsNearest (table : List ℝ) (t v : ℝ) : Prop := v ∈ table ∧ ∀ w ∈ table, |v - t| ≤ |w - t|

end Microjax.Spec
