import Verif.Model.TripleDirect
import Verif.Lemmas.Coeffs
import Mathlib.Tactic.Ring
import Mathlib.Tactic.LinearCombination

/-!
# The coefficients of `_poly_coeffs_triple`

Each coefficient is compared with the coefficient of the product form, expanded in powers of `z`.
-/

noncomputable section

namespace Microjax.Props

open Complex ComplexConjugate Spec PointSource

section
variable {K : Type*} [CommRing K]

set_option linter.unusedVariables false in
/-- Coefficient of `z^10` of the product form. -/
def tripleC0 (w s1 s2 s3 t1 t2 P2 P1 P0 Q1 Q0 : K) : K :=
    s3 * ((1) - w * (0)) + s2 * ((0) - w * (0)) + s1 * ((0) - w * (0)) + 1 * ((0) - w * (0)) - t2 * (0) - t1 * (0)
    - 1 * (0)

set_option linter.unusedVariables false in
/-- Coefficient of `z^9` of the product form. -/
def tripleC1 (w s1 s2 s3 t1 t2 P2 P1 P0 Q1 Q0 : K) : K :=
    s3 * ((3 * P2) - w * (1)) + s2 * ((1) - w * (0)) + s1 * ((0) - w * (0)) + 1 * ((0) - w * (0)) - t2 * (1)
    - t1 * (0) - 1 * (0)

set_option linter.unusedVariables false in
/-- Coefficient of `z^8` of the product form. -/
def tripleC2 (w s1 s2 s3 t1 t2 P2 P1 P0 Q1 Q0 : K) : K :=
    s3 * ((3 * P1 + 3 * P2 * P2) - w * (3 * P2)) + s2 * ((2 * P2 + Q1) - w * (1)) + s1 * ((1) - w * (0)) + 1 * ((0)
    - w * (0)) - t2 * (3 * P2) - t1 * (1) - 1 * (0)

set_option linter.unusedVariables false in
/-- Coefficient of `z^7` of the product form. -/
def tripleC3 (w s1 s2 s3 t1 t2 P2 P1 P0 Q1 Q0 : K) : K :=
    s3 * ((3 * P0 + 6 * P1 * P2 + P2 * P2 * P2) - w * (3 * P1 + 3 * P2 * P2)) + s2 * ((2 * P1 + Q0 + P2 * P2
    + 2 * P2 * Q1) - w * (2 * P2 + Q1)) + s1 * ((P2 + 2 * Q1) - w * (1)) + 1 * ((1) - w * (0)) - t2 * (3 * P1
    + 3 * P2 * P2) - t1 * (2 * P2 + Q1) - 1 * (1)

set_option linter.unusedVariables false in
/-- Coefficient of `z^6` of the product form. -/
def tripleC4 (w s1 s2 s3 t1 t2 P2 P1 P0 Q1 Q0 : K) : K :=
    s3 * ((6 * P0 * P2 + 3 * P1 * P1 + 3 * P1 * P2 * P2) - w * (3 * P0 + 6 * P1 * P2 + P2 * P2 * P2))
    + s2 * ((2 * P0 + 2 * P1 * P2 + 2 * P1 * Q1 + 2 * P2 * Q0 + P2 * P2 * Q1) - w * (2 * P1 + Q0 + P2 * P2
    + 2 * P2 * Q1)) + s1 * ((P1 + 2 * Q0 + 2 * P2 * Q1 + Q1 * Q1) - w * (P2 + 2 * Q1)) + 1 * ((3 * Q1) - w * (1))
    - t2 * (3 * P0 + 6 * P1 * P2 + P2 * P2 * P2) - t1 * (2 * P1 + Q0 + P2 * P2 + 2 * P2 * Q1) - 1 * (P2 + 2 * Q1)

set_option linter.unusedVariables false in
/-- Coefficient of `z^5` of the product form. -/
def tripleC5 (w s1 s2 s3 t1 t2 P2 P1 P0 Q1 Q0 : K) : K :=
    s3 * ((6 * P0 * P1 + 3 * P0 * P2 * P2 + 3 * P1 * P1 * P2) - w * (6 * P0 * P2 + 3 * P1 * P1 + 3 * P1 * P2 * P2))
    + s2 * ((2 * P0 * P2 + 2 * P0 * Q1 + P1 * P1 + 2 * P1 * Q0 + 2 * P1 * P2 * Q1 + P2 * P2 * Q0) - w * (2 * P0
    + 2 * P1 * P2 + 2 * P1 * Q1 + 2 * P2 * Q0 + P2 * P2 * Q1)) + s1 * ((P0 + 2 * P1 * Q1 + 2 * P2 * Q0 + 2 * Q0 * Q1
    + P2 * Q1 * Q1) - w * (P1 + 2 * Q0 + 2 * P2 * Q1 + Q1 * Q1)) + 1 * ((3 * Q0 + 3 * Q1 * Q1) - w * (3 * Q1))
    - t2 * (6 * P0 * P2 + 3 * P1 * P1 + 3 * P1 * P2 * P2) - t1 * (2 * P0 + 2 * P1 * P2 + 2 * P1 * Q1 + 2 * P2 * Q0
    + P2 * P2 * Q1) - 1 * (P1 + 2 * Q0 + 2 * P2 * Q1 + Q1 * Q1)

set_option linter.unusedVariables false in
/-- Coefficient of `z^4` of the product form. -/
def tripleC6 (w s1 s2 s3 t1 t2 P2 P1 P0 Q1 Q0 : K) : K :=
    s3 * ((3 * P0 * P0 + 6 * P0 * P1 * P2 + P1 * P1 * P1) - w * (6 * P0 * P1 + 3 * P0 * P2 * P2 + 3 * P1 * P1 * P2))
    + s2 * ((2 * P0 * P1 + 2 * P0 * Q0 + 2 * P0 * P2 * Q1 + P1 * P1 * Q1 + 2 * P1 * P2 * Q0) - w * (2 * P0 * P2
    + 2 * P0 * Q1 + P1 * P1 + 2 * P1 * Q0 + 2 * P1 * P2 * Q1 + P2 * P2 * Q0)) + s1 * ((2 * P0 * Q1 + 2 * P1 * Q0
    + Q0 * Q0 + P1 * Q1 * Q1 + 2 * P2 * Q0 * Q1) - w * (P0 + 2 * P1 * Q1 + 2 * P2 * Q0 + 2 * Q0 * Q1
    + P2 * Q1 * Q1)) + 1 * ((6 * Q0 * Q1 + Q1 * Q1 * Q1) - w * (3 * Q0 + 3 * Q1 * Q1)) - t2 * (6 * P0 * P1
    + 3 * P0 * P2 * P2 + 3 * P1 * P1 * P2) - t1 * (2 * P0 * P2 + 2 * P0 * Q1 + P1 * P1 + 2 * P1 * Q0
    + 2 * P1 * P2 * Q1 + P2 * P2 * Q0) - 1 * (P0 + 2 * P1 * Q1 + 2 * P2 * Q0 + 2 * Q0 * Q1 + P2 * Q1 * Q1)

set_option linter.unusedVariables false in
/-- Coefficient of `z^3` of the product form. -/
def tripleC7 (w s1 s2 s3 t1 t2 P2 P1 P0 Q1 Q0 : K) : K :=
    s3 * ((3 * P0 * P0 * P2 + 3 * P0 * P1 * P1) - w * (3 * P0 * P0 + 6 * P0 * P1 * P2 + P1 * P1 * P1))
    + s2 * ((P0 * P0 + 2 * P0 * P1 * Q1 + 2 * P0 * P2 * Q0 + P1 * P1 * Q0) - w * (2 * P0 * P1 + 2 * P0 * Q0
    + 2 * P0 * P2 * Q1 + P1 * P1 * Q1 + 2 * P1 * P2 * Q0)) + s1 * ((2 * P0 * Q0 + P0 * Q1 * Q1 + 2 * P1 * Q0 * Q1
    + P2 * Q0 * Q0) - w * (2 * P0 * Q1 + 2 * P1 * Q0 + Q0 * Q0 + P1 * Q1 * Q1 + 2 * P2 * Q0 * Q1))
    + 1 * ((3 * Q0 * Q0 + 3 * Q0 * Q1 * Q1) - w * (6 * Q0 * Q1 + Q1 * Q1 * Q1)) - t2 * (3 * P0 * P0
    + 6 * P0 * P1 * P2 + P1 * P1 * P1) - t1 * (2 * P0 * P1 + 2 * P0 * Q0 + 2 * P0 * P2 * Q1 + P1 * P1 * Q1
    + 2 * P1 * P2 * Q0) - 1 * (2 * P0 * Q1 + 2 * P1 * Q0 + Q0 * Q0 + P1 * Q1 * Q1 + 2 * P2 * Q0 * Q1)

set_option linter.unusedVariables false in
/-- Coefficient of `z^2` of the product form. -/
def tripleC8 (w s1 s2 s3 t1 t2 P2 P1 P0 Q1 Q0 : K) : K :=
    s3 * ((3 * P0 * P0 * P1) - w * (3 * P0 * P0 * P2 + 3 * P0 * P1 * P1)) + s2 * ((P0 * P0 * Q1 + 2 * P0 * P1 * Q0)
    - w * (P0 * P0 + 2 * P0 * P1 * Q1 + 2 * P0 * P2 * Q0 + P1 * P1 * Q0)) + s1 * ((2 * P0 * Q0 * Q1 + P1 * Q0 * Q0)
    - w * (2 * P0 * Q0 + P0 * Q1 * Q1 + 2 * P1 * Q0 * Q1 + P2 * Q0 * Q0)) + 1 * ((3 * Q0 * Q0 * Q1)
    - w * (3 * Q0 * Q0 + 3 * Q0 * Q1 * Q1)) - t2 * (3 * P0 * P0 * P2 + 3 * P0 * P1 * P1) - t1 * (P0 * P0
    + 2 * P0 * P1 * Q1 + 2 * P0 * P2 * Q0 + P1 * P1 * Q0) - 1 * (2 * P0 * Q0 + P0 * Q1 * Q1 + 2 * P1 * Q0 * Q1
    + P2 * Q0 * Q0)

set_option linter.unusedVariables false in
/-- Coefficient of `z^1` of the product form. -/
def tripleC9 (w s1 s2 s3 t1 t2 P2 P1 P0 Q1 Q0 : K) : K :=
    s3 * ((P0 * P0 * P0) - w * (3 * P0 * P0 * P1)) + s2 * ((P0 * P0 * Q0) - w * (P0 * P0 * Q1 + 2 * P0 * P1 * Q0))
    + s1 * ((P0 * Q0 * Q0) - w * (2 * P0 * Q0 * Q1 + P1 * Q0 * Q0)) + 1 * ((Q0 * Q0 * Q0) - w * (3 * Q0 * Q0 * Q1))
    - t2 * (3 * P0 * P0 * P1) - t1 * (P0 * P0 * Q1 + 2 * P0 * P1 * Q0) - 1 * (2 * P0 * Q0 * Q1 + P1 * Q0 * Q0)

set_option linter.unusedVariables false in
/-- Coefficient of `z^0` of the product form. -/
def tripleC10 (w s1 s2 s3 t1 t2 P2 P1 P0 Q1 Q0 : K) : K :=
    s3 * ((0) - w * (P0 * P0 * P0)) + s2 * ((0) - w * (P0 * P0 * Q0)) + s1 * ((0) - w * (P0 * Q0 * Q0)) + 1 * ((0)
    - w * (Q0 * Q0 * Q0)) - t2 * (P0 * P0 * P0) - t1 * (P0 * P0 * Q0) - 1 * (P0 * Q0 * Q0)

set_option linter.unusedVariables false in
theorem tripleC_sum (w s1 s2 s3 t1 t2 P2 P1 P0 Q1 Q0 z : K) :
    tripleC0 w s1 s2 s3 t1 t2 P2 P1 P0 Q1 Q0 * z ^ 10 + tripleC1 w s1 s2 s3 t1 t2 P2 P1 P0 Q1 Q0 * z ^ 9 + tripleC2 w s1 s2 s3 t1 t2 P2 P1 P0 Q1 Q0 * z ^ 8 + tripleC3 w s1 s2 s3 t1 t2 P2 P1 P0 Q1 Q0 * z ^ 7 + tripleC4 w s1 s2 s3 t1 t2 P2 P1 P0 Q1 Q0 * z ^ 6 + tripleC5 w s1 s2 s3 t1 t2 P2 P1 P0 Q1 Q0 * z ^ 5 + tripleC6 w s1 s2 s3 t1 t2 P2 P1 P0 Q1 Q0 * z ^ 4 + tripleC7 w s1 s2 s3 t1 t2 P2 P1 P0 Q1 Q0 * z ^ 3 + tripleC8 w s1 s2 s3 t1 t2 P2 P1 P0 Q1 Q0 * z ^ 2 + tripleC9 w s1 s2 s3 t1 t2 P2 P1 P0 Q1 Q0 * z ^ 1 + tripleC10 w s1 s2 s3 t1 t2 P2 P1 P0 Q1 Q0 * z ^ 0 =
    (s3 * (z ^ 3 + P2 * z ^ 2 + P1 * z + P0) ^ 3
      + s2 * (z ^ 3 + P2 * z ^ 2 + P1 * z + P0) ^ 2 * (z ^ 2 + Q1 * z + Q0)
      + s1 * (z ^ 3 + P2 * z ^ 2 + P1 * z + P0) * (z ^ 2 + Q1 * z + Q0) ^ 2 + (z ^ 2 + Q1 * z + Q0) ^ 3) * (z - w)
    - (z ^ 3 + P2 * z ^ 2 + P1 * z + P0) * (t2 * (z ^ 3 + P2 * z ^ 2 + P1 * z + P0) ^ 2
      + t1 * (z ^ 3 + P2 * z ^ 2 + P1 * z + P0) * (z ^ 2 + Q1 * z + Q0) + (z ^ 2 + Q1 * z + Q0) ^ 2) := by
  simp only [tripleC0, tripleC1, tripleC2, tripleC3, tripleC4, tripleC5, tripleC6, tripleC7, tripleC8, tripleC9, tripleC10]
  ring

variable (a w v r q e1 e2 : K)

/-- The coefficients of the product form with the symbols filled in; `v` stands for the conjugate of `w`, `q` for that of
`r`. -/
def tripleFill (f : K → K → K → K → K → K → K → K → K → K → K → K) : K :=
  f w ((v - a) + (v + a) + (v - q))
    ((v - a) * (v + a) + (v - a) * (v - q) + (v + a) * (v - q))
    ((v - a) * (v + a) * (v - q))
    ((v - a) + (v + a) + (v - q) - (e1 * (v - a) + e2 * (v + a) + (1 - e1 - e2) * (v - q)))
    (e1 * (v + a) * (v - q) + e2 * (v - a) * (v - q) + (1 - e1 - e2) * (v - a) * (v + a))
    (-r)
    (-a ^ 2)
    (a ^ 2 * r)
    (e1 * (a - r) + e2 * (-a - r))
    (e1 * (-(a * r)) + e2 * (a * r) - (1 - e1 - e2) * a ^ 2)

set_option maxRecDepth 100000 in
theorem tripleP0_eq : evalTerms a w v r q e1 e2 tripleP0 = tripleFill a w v r q e1 e2 tripleC0 := by
  simp only [tripleP0, evalTerms, Term7.eval, tripleFill, tripleC0, List.map_cons, List.map_nil, List.sum_cons,
    List.sum_nil, Int.cast_neg, Int.cast_one, pow_zero, pow_one, mul_one]
  ring

set_option maxRecDepth 100000 in
theorem tripleP1_eq : evalTerms a w v r q e1 e2 tripleP1 = tripleFill a w v r q e1 e2 tripleC1 := by
  simp only [tripleP1, evalTerms, Term7.eval, tripleFill, tripleC1, List.map_cons, List.map_nil, List.sum_cons,
    List.sum_nil, Int.cast_ofNat, Int.cast_neg, Int.cast_one, pow_zero, pow_one, mul_one]
  ring

set_option maxRecDepth 100000 in
theorem tripleP2_eq : evalTerms a w v r q e1 e2 tripleP2 = tripleFill a w v r q e1 e2 tripleC2 := by
  simp only [tripleP2, evalTerms, Term7.eval, tripleFill, tripleC2, List.map_cons, List.map_nil, List.sum_cons,
    List.sum_nil, Int.cast_ofNat, Int.cast_neg, Int.cast_one, pow_zero, pow_one, mul_one]
  ring

set_option maxRecDepth 100000 in
theorem tripleP3_eq : evalTerms a w v r q e1 e2 tripleP3 = tripleFill a w v r q e1 e2 tripleC3 := by
  simp only [tripleP3, evalTerms, Term7.eval, tripleFill, tripleC3, List.map_cons, List.map_nil, List.sum_cons,
    List.sum_nil, Int.cast_ofNat, Int.cast_neg, Int.cast_one, pow_zero, pow_one, mul_one]
  ring

set_option maxRecDepth 100000 in
theorem tripleP4_eq : evalTerms a w v r q e1 e2 tripleP4 = tripleFill a w v r q e1 e2 tripleC4 := by
  simp only [tripleP4, evalTerms, Term7.eval, tripleFill, tripleC4, List.map_cons, List.map_nil, List.sum_cons,
    List.sum_nil, Int.cast_ofNat, Int.cast_neg, Int.cast_one, pow_zero, pow_one, mul_one]
  ring

set_option maxRecDepth 100000 in
theorem tripleP5_eq : evalTerms a w v r q e1 e2 tripleP5 = tripleFill a w v r q e1 e2 tripleC5 := by
  simp only [tripleP5, evalTerms, Term7.eval, tripleFill, tripleC5, List.map_cons, List.map_nil, List.sum_cons,
    List.sum_nil, Int.cast_ofNat, Int.cast_neg, Int.cast_one, pow_zero, pow_one, mul_one]
  ring

set_option maxRecDepth 100000 in
theorem tripleP6_eq : evalTerms a w v r q e1 e2 tripleP6 = tripleFill a w v r q e1 e2 tripleC6 := by
  simp only [tripleP6, evalTerms, Term7.eval, tripleFill, tripleC6, List.map_cons, List.map_nil, List.sum_cons,
    List.sum_nil, Int.cast_ofNat, Int.cast_neg, Int.cast_one, pow_zero, pow_one, mul_one]
  ring

set_option maxRecDepth 100000 in
theorem tripleP7_eq : evalTerms a w v r q e1 e2 tripleP7 = tripleFill a w v r q e1 e2 tripleC7 := by
  simp only [tripleP7, evalTerms, Term7.eval, tripleFill, tripleC7, List.map_cons, List.map_nil, List.sum_cons,
    List.sum_nil, Int.cast_ofNat, Int.cast_neg, Int.cast_one, pow_zero, pow_one, mul_one]
  ring

set_option maxRecDepth 100000 in
theorem tripleP8_eq : evalTerms a w v r q e1 e2 tripleP8 = tripleFill a w v r q e1 e2 tripleC8 := by
  simp only [tripleP8, evalTerms, Term7.eval, tripleFill, tripleC8, List.map_cons, List.map_nil, List.sum_cons,
    List.sum_nil, Int.cast_ofNat, Int.cast_neg, Int.cast_one, pow_zero, pow_one, mul_one]
  ring

set_option maxRecDepth 100000 in
theorem tripleP9_eq : evalTerms a w v r q e1 e2 tripleP9 = tripleFill a w v r q e1 e2 tripleC9 := by
  simp only [tripleP9, evalTerms, Term7.eval, tripleFill, tripleC9, List.map_cons, List.map_nil, List.sum_cons,
    List.sum_nil, Int.cast_ofNat, Int.cast_neg, Int.cast_one, pow_zero, pow_one, mul_one]
  ring

set_option maxRecDepth 100000 in
theorem tripleP10_eq : evalTerms a w v r q e1 e2 tripleP10 = tripleFill a w v r q e1 e2 tripleC10 := by
  simp only [tripleP10, evalTerms, Term7.eval, tripleFill, tripleC10, List.map_cons, List.map_nil, List.sum_cons,
    List.sum_nil, Int.cast_ofNat, Int.cast_neg, Int.cast_one, pow_zero, pow_one, mul_one]
  ring

end

/-- The polynomial of `_poly_coeffs_triple` in product form. -/
theorem evalPoly_tripleDirect (w : ℂ) (a : ℝ) (r : ℂ) (e1 e2 : ℝ) (z : ℂ) :
    evalPoly (polyCoeffsTriple w a r e1 e2) z =
      (let P := (z - a) * (z + a) * (z - r)
       let Q := e1 * (z + a) * (z - r) + e2 * (z - a) * (z - r) + (1 - e1 - e2) * (z - a) * (z + a)
       let n1 := (conj w - a) * P + Q
       let n2 := (conj w + a) * P + Q
       let n3 := (conj w - conj r) * P + Q
       n1 * n2 * n3 * (z - w) - P * (e1 * n2 * n3 + e2 * n1 * n3 + (1 - e1 - e2) * n1 * n2)) := by
  have h := tripleC_sum (K := ℂ)
  have hh : evalPoly (polyCoeffsTriple w a r e1 e2) z =
      tripleFill (a : ℂ) w (conj w) r (conj r) e1 e2 tripleC0 * z ^ 10
        + tripleFill (a : ℂ) w (conj w) r (conj r) e1 e2 tripleC1 * z ^ 9
        + tripleFill (a : ℂ) w (conj w) r (conj r) e1 e2 tripleC2 * z ^ 8
        + tripleFill (a : ℂ) w (conj w) r (conj r) e1 e2 tripleC3 * z ^ 7
        + tripleFill (a : ℂ) w (conj w) r (conj r) e1 e2 tripleC4 * z ^ 6
        + tripleFill (a : ℂ) w (conj w) r (conj r) e1 e2 tripleC5 * z ^ 5
        + tripleFill (a : ℂ) w (conj w) r (conj r) e1 e2 tripleC6 * z ^ 4
        + tripleFill (a : ℂ) w (conj w) r (conj r) e1 e2 tripleC7 * z ^ 3
        + tripleFill (a : ℂ) w (conj w) r (conj r) e1 e2 tripleC8 * z ^ 2
        + tripleFill (a : ℂ) w (conj w) r (conj r) e1 e2 tripleC9 * z ^ 1
        + tripleFill (a : ℂ) w (conj w) r (conj r) e1 e2 tripleC10 * z ^ 0 := by
    simp only [polyCoeffsTriple, evalPoly, List.foldl_cons, List.foldl_nil, tripleP0_eq, tripleP1_eq, tripleP2_eq, tripleP3_eq, tripleP4_eq, tripleP5_eq, tripleP6_eq, tripleP7_eq, tripleP8_eq, tripleP9_eq, tripleP10_eq]
    ring
  rw [hh]
  simp only [tripleFill]
  rw [h]
  ring

end Microjax.Props
