import Mathlib.Analysis.SpecialFunctions.Integrals.Basic
import Mathlib.Algebra.Polynomial.Eval.Degree

/-!
# What a Gauss-Legendre rule is

A quadrature rule on `[-1, 1]` is a list of (node, weight).  Its documented property is exactness on polynomials.
-/

namespace Microjax.Spec

/-- the rule integrates every polynomial of degree at most `d` over `[-1, 1]` exactly -/
def ExactTo (rule : List (ℝ × ℝ)) (d : ℕ) : Prop :=
  ∀ p : Polynomial ℝ, p.natDegree ≤ d →
    (rule.map fun q => q.2 * p.eval q.1).sum = ∫ x in (-1 : ℝ)..1, p.eval x

/-- `numpy.polynomial.legendre.leggauss(n)` as documented: `n` nodes and weights that "correctly integrate
polynomials of degree 2 n - 1 or less over the interval [-1, 1]" -/
def IsGauss (n : ℕ) (rule : List (ℝ × ℝ)) : Prop := rule.length = n ∧ ExactTo rule (2 * n - 1)

end Microjax.Spec
