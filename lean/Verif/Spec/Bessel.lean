import Mathlib.Topology.Algebra.InfiniteSum.Basic
import Mathlib.Topology.Instances.Real.Lemmas
import Mathlib.Data.Nat.Factorial.Basic
import Mathlib.Analysis.SpecialFunctions.Gamma.Basic

/-!
# Bessel functions of the first kind of integer order, by their power series
-/

noncomputable section

namespace Microjax.Spec

open scoped Nat

/-- `J_n(x) = Σ_k (-1)^k / (k! (k+n)!) (x/2)^(2k+n)`. -/
def besselJ (n : ℕ) (x : ℝ) : ℝ := ∑' k : ℕ, (-1) ^ k / (k ! * (k + n)! : ℝ) * (x / 2) ^ (2 * k + n)

/-- `J_ν(x) = Σ_k (-1)^k / (k! Γ(k+ν+1)) (x/2)^(2k+ν)` for real order `ν` and `x > 0`. -/
def besselJr (ν x : ℝ) : ℝ := ∑' k : ℕ, (-1) ^ k / (k ! * Real.Gamma (k + ν + 1)) * (x / 2) ^ (2 * k + ν : ℝ)

end Microjax.Spec
