import Mathlib.Data.Complex.Basic
import Mathlib.Algebra.BigOperators.Group.List.Defs

/-!
# The image polynomial of the triple lens in the frame of the mid-point

`coeffs.py` 210-1600, `_poly_coeffs_triple`.  The function is an alternative to `_poly_coeffs_triple_CM`; the call is
commented out in `point_source.py` 333.  The coefficients are transcribed mechanically from the source (same
monomials in the same order, `**` written `^`; the sum of the monomials is the sum of a list).
-/

noncomputable section

namespace Microjax.PointSource

open Complex ComplexConjugate

/-- A monomial `c * a**i0 * w**i1 * wbar**i2 * r3**i3 * r3bar**i4 * e1**i5 * e2**i6` (our encoding of a summand in
`coeffs.py` 231-1596). -/
inductive Term7
  | m (c : ℤ) (i0 i1 i2 i3 i4 i5 i6 : ℕ)

/-- Value of a summand (`coeffs.py` 231-1596). -/
def Term7.eval {K : Type*} [CommRing K] (a w wbar r3 r3bar e1 e2 : K) : Term7 → K
  | .m c i0 i1 i2 i3 i4 i5 i6 =>
    c * a ^ i0 * w ^ i1 * wbar ^ i2 * r3 ^ i3 * r3bar ^ i4 * e1 ^ i5 * e2 ^ i6

/-- Sum of the summands of a coefficient (`coeffs.py` 231-1596). -/
def evalTerms {K : Type*} [CommRing K] (a w wbar r3 r3bar e1 e2 : K) (ts : List Term7) : K :=
  (ts.map (Term7.eval a w wbar r3 r3bar e1 e2)).sum

/-- `coeffs.py` 231-231: `p_0`. -/
def tripleP0 : List Term7 := [
    .m (-1) 2 0 1 0 0 0 0, .m 1 2 0 0 0 1 0 0, .m 1 0 0 3 0 0 0 0, .m (-1) 0 0 2 0 1 0 0]

/-- `coeffs.py` 233-252: `p_1`. -/
def tripleP1 : List Term7 := [
    .m 1 2 1 1 0 0 0 0, .m (-1) 2 1 0 0 1 0 0, .m 3 2 0 1 1 0 0 0, .m (-3) 2 0 0 1 1 0 0, .m (-1) 2 0 0 0 0 1 0,
    .m (-1) 2 0 0 0 0 0 1, .m (-1) 1 0 1 0 0 1 0, .m 1 1 0 1 0 0 0 1, .m 1 1 0 0 0 1 1 0, .m (-1) 1 0 0 0 1 0 1,
    .m (-1) 0 1 3 0 0 0 0, .m 1 0 1 2 0 1 0 0, .m (-3) 0 0 3 1 0 0 0, .m 3 0 0 2 1 1 0 0, .m 2 0 0 2 0 0 0 0,
    .m 1 0 0 1 0 1 1 0, .m 1 0 0 1 0 1 0 1, .m (-2) 0 0 1 0 1 0 0]

/-- `coeffs.py` 254-295: `p_2`. -/
def tripleP2 : List Term7 := [
    .m 3 4 0 1 0 0 0 0, .m (-3) 4 0 0 0 1 0 0, .m (-1) 3 0 0 0 0 1 0, .m 1 3 0 0 0 0 0 1, .m (-3) 2 1 1 1 0 0 0,
    .m 3 2 1 0 1 1 0 0, .m 1 2 1 0 0 0 0 0, .m (-3) 2 0 3 0 0 0 0, .m 3 2 0 2 0 1 0 0, .m (-3) 2 0 1 2 0 0 0,
    .m 3 2 0 0 2 1 0 0, .m 4 2 0 0 1 0 1 0, .m 4 2 0 0 1 0 0 1, .m (-1) 2 0 0 1 0 0 0, .m 3 1 0 2 0 0 1 0,
    .m (-3) 1 0 2 0 0 0 1, .m (-2) 1 0 1 0 1 1 0, .m 2 1 0 1 0 1 0 1, .m 3 1 0 1 1 0 1 0, .m (-3) 1 0 1 1 0 0 1,
    .m (-3) 1 0 0 1 1 1 0, .m 3 1 0 0 1 1 0 1, .m (-1) 1 0 0 0 0 1 0, .m 1 1 0 0 0 0 0 1, .m 3 0 1 3 1 0 0 0,
    .m (-3) 0 1 2 1 1 0 0, .m (-3) 0 1 2 0 0 0 0, .m 2 0 1 1 0 1 0 0, .m 3 0 0 3 2 0 0 0, .m (-3) 0 0 2 2 1 0 0,
    .m (-3) 0 0 2 1 0 1 0, .m (-3) 0 0 2 1 0 0 1, .m (-3) 0 0 2 1 0 0 0, .m (-1) 0 0 1 1 1 1 0,
    .m (-1) 0 0 1 1 1 0 1, .m 4 0 0 1 1 1 0 0, .m 1 0 0 1 0 0 0 0, .m 1 0 0 0 0 1 1 0, .m 1 0 0 0 0 1 0 1,
    .m (-1) 0 0 0 0 1 0 0]

/-- `coeffs.py` 297-381: `p_3`. -/
def tripleP3 : List Term7 := [
    .m (-3) 4 1 1 0 0 0 0, .m 3 4 1 0 0 1 0 0, .m (-9) 4 0 1 1 0 0 0, .m 9 4 0 0 1 1 0 0, .m 2 4 0 0 0 0 1 0,
    .m 2 4 0 0 0 0 0 1, .m 1 3 1 0 0 0 1 0, .m (-1) 3 1 0 0 0 0 1, .m 3 3 0 1 0 0 1 0, .m (-3) 3 0 1 0 0 0 1,
    .m (-3) 3 0 0 0 1 1 0, .m 3 3 0 0 0 1 0 1, .m 3 3 0 0 1 0 1 0, .m (-3) 3 0 0 1 0 0 1, .m 3 2 1 3 0 0 0 0,
    .m (-3) 2 1 2 0 1 0 0, .m 3 2 1 1 2 0 0 0, .m (-3) 2 1 0 2 1 0 0, .m (-1) 2 1 0 1 0 1 0, .m (-1) 2 1 0 1 0 0 1,
    .m (-2) 2 1 0 1 0 0 0, .m 9 2 0 3 1 0 0 0, .m (-9) 2 0 2 1 1 0 0, .m 3 2 0 2 0 0 1 0, .m 3 2 0 2 0 0 0 1,
    .m (-6) 2 0 2 0 0 0 0, .m (-5) 2 0 1 0 1 1 0, .m (-5) 2 0 1 0 1 0 1, .m 6 2 0 1 0 1 0 0, .m 1 2 0 1 3 0 0 0,
    .m (-1) 2 0 0 3 1 0 0, .m (-1) 2 0 0 0 0 2 0, .m 2 2 0 0 0 0 1 1, .m (-5) 2 0 0 2 0 1 0, .m (-1) 2 0 0 0 0 0 2,
    .m (-5) 2 0 0 2 0 0 1, .m 2 2 0 0 2 0 0 0, .m (-3) 1 1 2 0 0 1 0, .m 3 1 1 2 0 0 0 1, .m 2 1 1 1 0 1 1 0,
    .m (-2) 1 1 1 0 1 0 1, .m (-9) 1 0 2 1 0 1 0, .m 9 1 0 2 1 0 0 1, .m 6 1 0 1 1 1 1 0, .m (-6) 1 0 1 1 1 0 1,
    .m (-3) 1 0 1 2 0 1 0, .m 4 1 0 1 0 0 1 0, .m 3 1 0 1 2 0 0 1, .m (-4) 1 0 1 0 0 0 1, .m 1 1 0 0 0 1 2 0,
    .m 3 1 0 0 2 1 1 0, .m (-2) 1 0 0 0 1 1 0, .m (-1) 1 0 0 0 1 0 2, .m (-3) 1 0 0 2 1 0 1, .m 2 1 0 0 0 1 0 1,
    .m 1 1 0 0 1 0 2 0, .m 2 1 0 0 1 0 1 0, .m (-1) 1 0 0 1 0 0 2, .m (-2) 1 0 0 1 0 0 1, .m (-3) 0 1 3 2 0 0 0,
    .m 3 0 1 2 2 1 0 0, .m 3 0 1 2 1 0 1 0, .m 3 0 1 2 1 0 0 1, .m 6 0 1 2 1 0 0 0, .m (-2) 0 1 1 1 1 1 0,
    .m (-2) 0 1 1 1 1 0 1, .m (-4) 0 1 1 1 1 0 0, .m (-3) 0 1 1 0 0 0 0, .m 1 0 1 0 0 1 0 0, .m (-1) 0 0 3 3 0 0 0,
    .m 1 0 0 2 3 1 0 0, .m 6 0 0 2 2 0 1 0, .m 6 0 0 2 2 0 0 1, .m (-1) 0 0 1 2 1 1 0, .m (-1) 0 0 1 2 1 0 1,
    .m (-2) 0 0 1 2 1 0 0, .m (-4) 0 0 1 1 0 1 0, .m (-4) 0 0 1 1 0 0 1, .m 1 0 0 1 1 0 0 0, .m (-1) 0 0 0 1 1 2 0,
    .m (-2) 0 0 0 1 1 1 1, .m (-1) 0 0 0 1 1 0 2, .m 1 0 0 0 1 1 0 0]

/-- `coeffs.py` 383-515: `p_4`. -/
def tripleP4 : List Term7 := [
    .m (-3) 6 0 1 0 0 0 0, .m 3 6 0 0 0 1 0 0, .m 2 5 0 0 0 0 1 0, .m (-2) 5 0 0 0 0 0 1, .m 9 4 1 1 1 0 0 0,
    .m (-9) 4 1 0 1 1 0 0, .m 1 4 1 0 0 0 1 0, .m 1 4 1 0 0 0 0 1, .m (-3) 4 1 0 0 0 0 0, .m 3 4 0 3 0 0 0 0,
    .m (-3) 4 0 2 0 1 0 0, .m 9 4 0 1 2 0 0 0, .m (-9) 4 0 0 2 1 0 0, .m (-9) 4 0 0 1 0 1 0, .m (-9) 4 0 0 1 0 0 1,
    .m 3 4 0 0 1 0 0 0, .m (-3) 3 1 0 1 0 1 0, .m 3 3 1 0 1 0 0 1, .m (-6) 3 0 2 0 0 1 0, .m 6 3 0 2 0 0 0 1,
    .m 4 3 0 1 0 1 1 0, .m (-4) 3 0 1 0 1 0 1, .m (-9) 3 0 1 1 0 1 0, .m 9 3 0 1 1 0 0 1, .m 9 3 0 0 1 1 1 0,
    .m (-9) 3 0 0 1 1 0 1, .m (-1) 3 0 0 0 0 2 0, .m (-3) 3 0 0 2 0 1 0, .m 3 3 0 0 0 0 1 0, .m 1 3 0 0 0 0 0 2,
    .m 3 3 0 0 2 0 0 1, .m (-3) 3 0 0 0 0 0 1, .m (-9) 2 1 3 1 0 0 0, .m 9 2 1 2 1 1 0 0, .m (-3) 2 1 2 0 0 1 0,
    .m (-3) 2 1 2 0 0 0 1, .m 9 2 1 2 0 0 0 0, .m 2 2 1 1 0 1 1 0, .m 2 2 1 1 0 1 0 1, .m (-6) 2 1 1 0 1 0 0,
    .m (-1) 2 1 1 3 0 0 0, .m 1 2 1 0 3 1 0 0, .m 2 2 1 0 2 0 1 0, .m 2 2 1 0 2 0 0 1, .m 1 2 1 0 2 0 0 0,
    .m (-9) 2 0 3 2 0 0 0, .m 9 2 0 2 2 1 0 0, .m 9 2 0 2 1 0 0 0, .m 9 2 0 1 1 1 1 0, .m 9 2 0 1 1 1 0 1,
    .m (-12) 2 0 1 1 1 0 0, .m 3 2 0 1 0 0 2 0, .m (-6) 2 0 1 0 0 1 1, .m 4 2 0 1 0 0 1 0, .m 3 2 0 1 0 0 0 2,
    .m 4 2 0 1 0 0 0 1, .m (-3) 2 0 1 0 0 0 0, .m 4 2 0 0 0 1 1 1, .m (-5) 2 0 0 0 1 1 0, .m (-5) 2 0 0 0 1 0 1,
    .m 3 2 0 0 0 1 0 0, .m 3 2 0 0 1 0 2 0, .m (-6) 2 0 0 1 0 1 1, .m 2 2 0 0 3 0 1 0, .m 3 2 0 0 1 0 0 2,
    .m 2 2 0 0 3 0 0 1, .m (-1) 2 0 0 3 0 0 0, .m 9 1 1 2 1 0 1 0, .m (-9) 1 1 2 1 0 0 1, .m (-6) 1 1 1 1 1 1 0,
    .m 6 1 1 1 1 1 0 1, .m (-6) 1 1 1 0 0 1 0, .m 6 1 1 1 0 0 0 1, .m 2 1 1 0 0 1 1 0, .m (-2) 1 1 0 0 1 0 1,
    .m 9 1 0 2 2 0 1 0, .m (-9) 1 0 2 2 0 0 1, .m (-6) 1 0 1 2 1 1 0, .m 6 1 0 1 2 1 0 1, .m (-6) 1 0 1 1 0 2 0,
    .m 1 1 0 1 3 0 1 0, .m (-6) 1 0 1 1 0 1 0, .m 6 1 0 1 1 0 0 2, .m (-1) 1 0 1 3 0 0 1, .m 6 1 0 1 1 0 0 1,
    .m (-1) 1 0 0 1 1 2 0, .m (-1) 1 0 0 3 1 1 0, .m 4 1 0 0 1 1 1 0, .m 1 1 0 0 1 1 0 2, .m 1 1 0 0 3 1 0 1,
    .m (-4) 1 0 0 1 1 0 1, .m (-2) 1 0 0 2 0 2 0, .m (-1) 1 0 0 2 0 1 0, .m 1 1 0 0 0 0 1 0, .m 2 1 0 0 2 0 0 2,
    .m 1 1 0 0 2 0 0 1, .m (-1) 1 0 0 0 0 0 1, .m 1 0 1 3 3 0 0 0, .m (-1) 0 1 2 3 1 0 0, .m (-6) 0 1 2 2 0 1 0,
    .m (-6) 0 1 2 2 0 0 1, .m (-3) 0 1 2 2 0 0 0, .m 4 0 1 1 2 1 1 0, .m 4 0 1 1 2 1 0 1, .m 2 0 1 1 2 1 0 0,
    .m 6 0 1 1 1 0 1 0, .m 6 0 1 1 1 0 0 1, .m 3 0 1 1 1 0 0 0, .m (-2) 0 1 0 1 1 1 0, .m (-2) 0 1 0 1 1 0 1,
    .m (-1) 0 1 0 1 1 0 0, .m (-1) 0 1 0 0 0 0 0, .m (-3) 0 0 2 3 0 1 0, .m (-3) 0 0 2 3 0 0 1, .m 1 0 0 2 3 0 0 0,
    .m 1 0 0 1 3 1 1 0, .m 1 0 0 1 3 1 0 1, .m 3 0 0 1 2 0 2 0, .m 6 0 0 1 2 0 1 1, .m 2 0 0 1 2 0 1 0,
    .m 3 0 0 1 2 0 0 2, .m 2 0 0 1 2 0 0 1, .m (-2) 0 0 1 2 0 0 0, .m 1 0 0 0 2 1 2 0, .m 2 0 0 0 2 1 1 1,
    .m (-1) 0 0 0 2 1 1 0, .m 1 0 0 0 2 1 0 2, .m (-1) 0 0 0 2 1 0 1, .m (-1) 0 0 0 1 0 1 0, .m (-1) 0 0 0 1 0 0 1,
    .m 1 0 0 0 1 0 0 0]

/-- `coeffs.py` 517-680: `p_5`. -/
def tripleP5 : List Term7 := [
    .m 3 6 1 1 0 0 0 0, .m (-3) 6 1 0 0 1 0 0, .m 9 6 0 1 1 0 0 0, .m (-9) 6 0 0 1 1 0 0, .m (-1) 6 0 0 0 0 1 0,
    .m (-1) 6 0 0 0 0 0 1, .m (-2) 5 1 0 0 0 1 0, .m 2 5 1 0 0 0 0 1, .m (-3) 5 0 1 0 0 1 0, .m 3 5 0 1 0 0 0 1,
    .m 3 5 0 0 0 1 1 0, .m (-3) 5 0 0 0 1 0 1, .m (-6) 5 0 0 1 0 1 0, .m 6 5 0 0 1 0 0 1, .m (-3) 4 1 3 0 0 0 0,
    .m 3 4 1 2 0 1 0 0, .m (-9) 4 1 1 2 0 0 0, .m 9 4 1 0 2 1 0 0, .m 6 4 1 0 1 0 0 0, .m (-9) 4 0 3 1 0 0 0,
    .m 9 4 0 2 1 1 0 0, .m (-6) 4 0 2 0 0 1 0, .m (-6) 4 0 2 0 0 0 1, .m 6 4 0 2 0 0 0 0, .m 7 4 0 1 0 1 1 0,
    .m 7 4 0 1 0 1 0 1, .m (-6) 4 0 1 0 1 0 0, .m (-3) 4 0 1 3 0 0 0, .m 3 4 0 0 3 1 0 0, .m 2 4 0 0 0 0 2 0,
    .m (-4) 4 0 0 0 0 1 1, .m 12 4 0 0 2 0 1 0, .m 2 4 0 0 0 0 0 2, .m 12 4 0 0 2 0 0 1, .m (-6) 4 0 0 2 0 0 0,
    .m 6 3 1 2 0 0 1 0, .m (-6) 3 1 2 0 0 0 1, .m (-4) 3 1 1 0 1 1 0, .m 4 3 1 1 0 1 0 1, .m 3 3 1 0 2 0 1 0,
    .m (-3) 3 1 0 2 0 0 1, .m 18 3 0 2 1 0 1 0, .m (-18) 3 0 2 1 0 0 1, .m (-12) 3 0 1 1 1 1 0, .m 12 3 0 1 1 1 0 1,
    .m 6 3 0 1 0 0 2 0, .m 9 3 0 1 2 0 1 0, .m (-8) 3 0 1 0 0 1 0, .m (-6) 3 0 1 0 0 0 2, .m (-9) 3 0 1 2 0 0 1,
    .m 8 3 0 1 0 0 0 1, .m (-4) 3 0 0 0 1 2 0, .m (-9) 3 0 0 2 1 1 0, .m 4 3 0 0 0 1 1 0, .m 4 3 0 0 0 1 0 2,
    .m 9 3 0 0 2 1 0 1, .m (-4) 3 0 0 0 1 0 1, .m 1 3 0 0 3 0 1 0, .m (-6) 3 0 0 1 0 1 0, .m (-1) 3 0 0 3 0 0 1,
    .m 6 3 0 0 1 0 0 1, .m 9 2 1 3 2 0 0 0, .m (-9) 2 1 2 2 1 0 0, .m (-18) 2 1 2 1 0 0 0, .m 12 2 1 1 1 1 0 0,
    .m (-3) 2 1 1 0 0 2 0, .m 6 2 1 1 0 0 1 1, .m (-6) 2 1 1 0 0 1 0, .m (-3) 2 1 1 0 0 0 2, .m (-6) 2 1 1 0 0 0 1,
    .m 9 2 1 1 0 0 0 0, .m 1 2 1 0 0 1 2 0, .m (-2) 2 1 0 0 1 1 1, .m 2 2 1 0 0 1 1 0, .m 1 2 1 0 0 1 0 2,
    .m 2 2 1 0 0 1 0 1, .m (-3) 2 1 0 0 1 0 0, .m (-1) 2 1 0 3 0 1 0, .m (-1) 2 1 0 3 0 0 1, .m 3 2 0 3 3 0 0 0,
    .m (-3) 2 0 2 3 1 0 0, .m (-9) 2 0 2 2 0 1 0, .m (-9) 2 0 2 2 0 0 1, .m (-3) 2 0 1 2 1 1 0,
    .m (-3) 2 0 1 2 1 0 1, .m 6 2 0 1 2 1 0 0, .m (-15) 2 0 1 1 0 2 0, .m 6 2 0 1 1 0 1 1, .m 6 2 0 1 1 0 1 0,
    .m (-15) 2 0 1 1 0 0 2, .m 6 2 0 1 1 0 0 1, .m (-3) 2 0 1 1 0 0 0, .m 5 2 0 0 1 1 2 0, .m (-2) 2 0 0 1 1 1 1,
    .m 4 2 0 0 1 1 1 0, .m 5 2 0 0 1 1 0 2, .m 4 2 0 0 1 1 0 1, .m (-3) 2 0 0 1 1 0 0, .m (-3) 2 0 0 2 0 2 0,
    .m 2 2 0 0 0 0 2 0, .m 6 2 0 0 2 0 1 1, .m (-4) 2 0 0 0 0 1 1, .m 1 2 0 0 0 0 1 0, .m (-3) 2 0 0 2 0 0 2,
    .m 2 2 0 0 0 0 0 2, .m 1 2 0 0 0 0 0 1, .m (-9) 1 1 2 2 0 1 0, .m 9 1 1 2 2 0 0 1, .m 6 1 1 1 2 1 1 0,
    .m (-6) 1 1 1 2 1 0 1, .m 6 1 1 1 1 0 2 0, .m 12 1 1 1 1 0 1 0, .m (-6) 1 1 1 1 0 0 2, .m (-12) 1 1 1 1 0 0 1,
    .m (-2) 1 1 0 1 1 2 0, .m (-4) 1 1 0 1 1 1 0, .m 2 1 1 0 1 1 0 2, .m 4 1 1 0 1 1 0 1, .m (-3) 1 1 0 0 0 1 0,
    .m 3 1 1 0 0 0 0 1, .m (-3) 1 0 2 3 0 1 0, .m 3 1 0 2 3 0 0 1, .m 2 1 0 1 3 1 1 0, .m (-2) 1 0 1 3 1 0 1,
    .m 12 1 0 1 2 0 2 0, .m (-12) 1 0 1 2 0 0 2, .m (-1) 1 0 0 2 1 2 0, .m (-2) 1 0 0 2 1 1 0, .m 1 1 0 0 2 1 0 2,
    .m 2 1 0 0 2 1 0 1, .m 1 1 0 0 3 0 2 0, .m (-4) 1 0 0 1 0 2 0, .m 1 1 0 0 1 0 1 0, .m (-1) 1 0 0 3 0 0 2,
    .m 4 1 0 0 1 0 0 2, .m (-1) 1 0 0 1 0 0 1, .m 3 0 1 2 3 0 1 0, .m 3 0 1 2 3 0 0 1, .m (-2) 0 1 1 3 1 1 0,
    .m (-2) 0 1 1 3 1 0 1, .m (-3) 0 1 1 2 0 2 0, .m (-6) 0 1 1 2 0 1 1, .m (-6) 0 1 1 2 0 1 0,
    .m (-3) 0 1 1 2 0 0 2, .m (-6) 0 1 1 2 0 0 1, .m 1 0 1 0 2 1 2 0, .m 2 0 1 0 2 1 1 1, .m 2 0 1 0 2 1 1 0,
    .m 1 0 1 0 2 1 0 2, .m 2 0 1 0 2 1 0 1, .m 3 0 1 0 1 0 1 0, .m 3 0 1 0 1 0 0 1, .m (-3) 0 0 1 3 0 2 0,
    .m (-6) 0 0 1 3 0 1 1, .m 2 0 0 1 3 0 1 0, .m (-3) 0 0 1 3 0 0 2, .m 2 0 0 1 3 0 0 1, .m 2 0 0 0 2 0 2 0,
    .m 4 0 0 0 2 0 1 1, .m (-2) 0 0 0 2 0 1 0, .m 2 0 0 0 2 0 0 2, .m (-2) 0 0 0 2 0 0 1]

/-- `coeffs.py` 682-895: `p_6`. -/
def tripleP6 : List Term7 := [
    .m 1 8 0 1 0 0 0 0, .m (-1) 8 0 0 0 1 0 0, .m (-1) 7 0 0 0 0 1 0, .m 1 7 0 0 0 0 0 1, .m (-9) 6 1 1 1 0 0 0,
    .m 9 6 1 0 1 1 0 0, .m (-2) 6 1 0 0 0 1 0, .m (-2) 6 1 0 0 0 0 1, .m 3 6 1 0 0 0 0 0, .m (-1) 6 0 3 0 0 0 0,
    .m 1 6 0 2 0 1 0 0, .m (-9) 6 0 1 2 0 0 0, .m 9 6 0 0 2 1 0 0, .m 6 6 0 0 1 0 1 0, .m 6 6 0 0 1 0 0 1,
    .m (-3) 6 0 0 1 0 0 0, .m 6 5 1 0 1 0 1 0, .m (-6) 5 1 0 1 0 0 1, .m 3 5 0 2 0 0 1 0, .m (-3) 5 0 2 0 0 0 1,
    .m (-2) 5 0 1 0 1 1 0, .m 2 5 0 1 0 1 0 1, .m 9 5 0 1 1 0 1 0, .m (-9) 5 0 1 1 0 0 1, .m (-9) 5 0 0 1 1 1 0,
    .m 9 5 0 0 1 1 0 1, .m 2 5 0 0 0 0 2 0, .m 6 5 0 0 2 0 1 0, .m (-3) 5 0 0 0 0 1 0, .m (-2) 5 0 0 0 0 0 2,
    .m (-6) 5 0 0 2 0 0 1, .m 3 5 0 0 0 0 0 1, .m 9 4 1 3 1 0 0 0, .m (-9) 4 1 2 1 1 0 0, .m 6 4 1 2 0 0 1 0,
    .m 6 4 1 2 0 0 0 1, .m (-9) 4 1 2 0 0 0 0, .m (-4) 4 1 1 0 1 1 0, .m (-4) 4 1 1 0 1 0 1, .m 6 4 1 1 0 1 0 0,
    .m 3 4 1 1 3 0 0 0, .m (-3) 4 1 0 3 1 0 0, .m (-3) 4 1 0 2 0 1 0, .m (-3) 4 1 0 2 0 0 1, .m (-3) 4 1 0 2 0 0 0,
    .m 9 4 0 3 2 0 0 0, .m (-9) 4 0 2 2 1 0 0, .m 9 4 0 2 1 0 1 0, .m 9 4 0 2 1 0 0 1, .m (-9) 4 0 2 1 0 0 0,
    .m (-15) 4 0 1 1 1 1 0, .m (-15) 4 0 1 1 1 0 1, .m 12 4 0 1 1 1 0 0, .m 12 4 0 1 0 0 1 1, .m (-8) 4 0 1 0 0 1 0,
    .m (-8) 4 0 1 0 0 0 1, .m 3 4 0 1 0 0 0 0, .m (-2) 4 0 0 0 1 2 0, .m (-8) 4 0 0 0 1 1 1, .m 7 4 0 0 0 1 1 0,
    .m (-2) 4 0 0 0 1 0 2, .m 7 4 0 0 0 1 0 1, .m (-3) 4 0 0 0 1 0 0, .m (-6) 4 0 0 1 0 2 0, .m 12 4 0 0 1 0 1 1,
    .m (-5) 4 0 0 3 0 1 0, .m (-6) 4 0 0 1 0 0 2, .m (-5) 4 0 0 3 0 0 1, .m 3 4 0 0 3 0 0 0, .m (-18) 3 1 2 1 0 1 0,
    .m 18 3 1 2 1 0 0 1, .m 12 3 1 1 1 1 1 0, .m (-12) 3 1 1 1 1 0 1, .m (-6) 3 1 1 0 0 2 0, .m 12 3 1 1 0 0 1 0,
    .m 6 3 1 1 0 0 0 2, .m (-12) 3 1 1 0 0 0 1, .m 2 3 1 0 0 1 2 0, .m (-4) 3 1 0 0 1 1 0, .m (-2) 3 1 0 0 1 0 2,
    .m 4 3 1 0 0 1 0 1, .m (-1) 3 1 0 3 0 1 0, .m 1 3 1 0 3 0 0 1, .m (-18) 3 0 2 2 0 1 0, .m 18 3 0 2 2 0 0 1,
    .m 12 3 0 1 2 1 1 0, .m (-12) 3 0 1 2 1 0 1, .m (-6) 3 0 1 1 0 2 0, .m (-3) 3 0 1 3 0 1 0, .m 12 3 0 1 1 0 1 0,
    .m 6 3 0 1 1 0 0 2, .m 3 3 0 1 3 0 0 1, .m (-12) 3 0 1 1 0 0 1, .m 8 3 0 0 1 1 2 0, .m 3 3 0 0 3 1 1 0,
    .m (-8) 3 0 0 1 1 1 0, .m (-8) 3 0 0 1 1 0 2, .m (-3) 3 0 0 3 1 0 1, .m 8 3 0 0 1 1 0 1, .m 1 3 0 0 0 0 3 0,
    .m (-3) 3 0 0 0 0 2 1, .m 3 3 0 0 2 0 2 0, .m 4 3 0 0 0 0 2 0, .m 3 3 0 0 0 0 1 2, .m 3 3 0 0 2 0 1 0,
    .m (-2) 3 0 0 0 0 1 0, .m (-1) 3 0 0 0 0 0 3, .m (-3) 3 0 0 2 0 0 2, .m (-4) 3 0 0 0 0 0 2,
    .m (-3) 3 0 0 2 0 0 1, .m 2 3 0 0 0 0 0 1, .m (-3) 2 1 3 3 0 0 0, .m 3 2 1 2 3 1 0 0, .m 9 2 1 2 2 0 1 0,
    .m 9 2 1 2 2 0 0 1, .m 9 2 1 2 2 0 0 0, .m (-6) 2 1 1 2 1 1 0, .m (-6) 2 1 1 2 1 0 1, .m (-6) 2 1 1 2 1 0 0,
    .m 15 2 1 1 1 0 2 0, .m (-6) 2 1 1 1 0 1 1, .m (-6) 2 1 1 1 0 1 0, .m 15 2 1 1 1 0 0 2, .m (-6) 2 1 1 1 0 0 1,
    .m (-9) 2 1 1 1 0 0 0, .m (-5) 2 1 0 1 1 2 0, .m 2 2 1 0 1 1 1 1, .m 2 2 1 0 1 1 1 0, .m (-5) 2 1 0 1 1 0 2,
    .m 2 2 1 0 1 1 0 1, .m 3 2 1 0 1 1 0 0, .m (-3) 2 1 0 0 0 2 0, .m 6 2 1 0 0 0 1 1, .m (-3) 2 1 0 0 0 1 0,
    .m (-3) 2 1 0 0 0 0 2, .m (-3) 2 1 0 0 0 0 1, .m 3 2 1 0 0 0 0 0, .m 6 2 0 2 3 0 1 0, .m 6 2 0 2 3 0 0 1,
    .m (-3) 2 0 2 3 0 0 0, .m (-1) 2 0 1 3 1 1 0, .m (-1) 2 0 1 3 1 0 1, .m 12 2 0 1 2 0 2 0,
    .m (-12) 2 0 1 2 0 1 1, .m (-6) 2 0 1 2 0 1 0, .m 12 2 0 1 2 0 0 2, .m (-6) 2 0 1 2 0 0 1, .m 6 2 0 1 2 0 0 0,
    .m (-7) 2 0 0 2 1 2 0, .m (-2) 2 0 0 2 1 1 1, .m 1 2 0 0 2 1 1 0, .m (-7) 2 0 0 2 1 0 2, .m 1 2 0 0 2 1 0 1,
    .m (-3) 2 0 0 1 0 3 0, .m 3 2 0 0 1 0 2 1, .m 1 2 0 0 3 0 2 0, .m (-7) 2 0 0 1 0 2 0, .m 3 2 0 0 1 0 1 2,
    .m (-2) 2 0 0 3 0 1 1, .m (-2) 2 0 0 1 0 1 1, .m 4 2 0 0 1 0 1 0, .m (-3) 2 0 0 1 0 0 3, .m 1 2 0 0 3 0 0 2,
    .m (-7) 2 0 0 1 0 0 2, .m 4 2 0 0 1 0 0 1, .m (-3) 2 0 0 1 0 0 0, .m 3 1 1 2 3 0 1 0, .m (-3) 1 1 2 3 0 0 1,
    .m (-2) 1 1 1 3 1 1 0, .m 2 1 1 1 3 1 0 1, .m (-12) 1 1 1 2 0 2 0, .m (-6) 1 1 1 2 0 1 0, .m 12 1 1 1 2 0 0 2,
    .m 6 1 1 1 2 0 0 1, .m 4 1 1 0 2 1 2 0, .m 2 1 1 0 2 1 1 0, .m (-4) 1 1 0 2 1 0 2, .m (-2) 1 1 0 2 1 0 1,
    .m 6 1 1 0 1 0 2 0, .m 3 1 1 0 1 0 1 0, .m (-6) 1 1 0 1 0 0 2, .m (-3) 1 1 0 1 0 0 1, .m (-6) 1 0 1 3 0 2 0,
    .m 2 1 0 1 3 0 1 0, .m 6 1 0 1 3 0 0 2, .m (-2) 1 0 1 3 0 0 1, .m 1 1 0 0 3 1 2 0, .m (-1) 1 0 0 3 1 0 2,
    .m 3 1 0 0 2 0 3 0, .m 3 1 0 0 2 0 2 1, .m 2 1 0 0 2 0 2 0, .m (-3) 1 0 0 2 0 1 2, .m (-2) 1 0 0 2 0 1 0,
    .m (-3) 1 0 0 2 0 0 3, .m (-2) 1 0 0 2 0 0 2, .m 2 1 0 0 2 0 0 1, .m 3 0 1 1 3 0 2 0, .m 6 0 1 1 3 0 1 1,
    .m 3 0 1 1 3 0 0 2, .m (-1) 0 1 0 3 1 2 0, .m (-2) 0 1 0 3 1 1 1, .m (-1) 0 1 0 3 1 0 2, .m (-3) 0 1 0 2 0 2 0,
    .m (-6) 0 1 0 2 0 1 1, .m (-3) 0 1 0 2 0 0 2, .m (-1) 0 0 0 3 0 3 0, .m (-3) 0 0 0 3 0 2 1, .m 1 0 0 0 3 0 2 0,
    .m (-3) 0 0 0 3 0 1 2, .m 2 0 0 0 3 0 1 1, .m (-1) 0 0 0 3 0 0 3, .m 1 0 0 0 3 0 0 2]

/-- `coeffs.py` 897-1100: `p_7`. -/
def tripleP7 : List Term7 := [
    .m (-1) 8 1 1 0 0 0 0, .m 1 8 1 0 0 1 0 0, .m (-3) 8 0 1 1 0 0 0, .m 3 8 0 0 1 1 0 0, .m 1 7 1 0 0 0 1 0,
    .m (-1) 7 1 0 0 0 0 1, .m 1 7 0 1 0 0 1 0, .m (-1) 7 0 1 0 0 0 1, .m (-1) 7 0 0 0 1 1 0, .m 1 7 0 0 0 1 0 1,
    .m 3 7 0 0 1 0 1 0, .m (-3) 7 0 0 1 0 0 1, .m 1 6 1 3 0 0 0 0, .m (-1) 6 1 2 0 1 0 0, .m 9 6 1 1 2 0 0 0,
    .m (-9) 6 1 0 2 1 0 0, .m 3 6 1 0 1 0 1 0, .m 3 6 1 0 1 0 0 1, .m (-6) 6 1 0 1 0 0 0, .m 3 6 0 3 1 0 0 0,
    .m (-3) 6 0 2 1 1 0 0, .m 3 6 0 2 0 0 1 0, .m 3 6 0 2 0 0 0 1, .m (-2) 6 0 2 0 0 0 0, .m (-3) 6 0 1 0 1 1 0,
    .m (-3) 6 0 1 0 1 0 1, .m 2 6 0 1 0 1 0 0, .m 3 6 0 1 3 0 0 0, .m (-3) 6 0 0 3 1 0 0, .m (-1) 6 0 0 0 0 2 0,
    .m 2 6 0 0 0 0 1 1, .m (-9) 6 0 0 2 0 1 0, .m (-1) 6 0 0 0 0 0 2, .m (-9) 6 0 0 2 0 0 1, .m 6 6 0 0 2 0 0 0,
    .m (-3) 5 1 2 0 0 1 0, .m 3 5 1 2 0 0 0 1, .m 2 5 1 1 0 1 1 0, .m (-2) 5 1 1 0 1 0 1, .m (-6) 5 1 0 2 0 1 0,
    .m 6 5 1 0 2 0 0 1, .m (-9) 5 0 2 1 0 1 0, .m 9 5 0 2 1 0 0 1, .m 6 5 0 1 1 1 1 0, .m (-6) 5 0 1 1 1 0 1,
    .m (-6) 5 0 1 0 0 2 0, .m (-9) 5 0 1 2 0 1 0, .m 4 5 0 1 0 0 1 0, .m 6 5 0 1 0 0 0 2, .m 9 5 0 1 2 0 0 1,
    .m (-4) 5 0 1 0 0 0 1, .m 3 5 0 0 0 1 2 0, .m 9 5 0 0 2 1 1 0, .m (-2) 5 0 0 0 1 1 0, .m (-3) 5 0 0 0 1 0 2,
    .m (-9) 5 0 0 2 1 0 1, .m 2 5 0 0 0 1 0 1, .m (-3) 5 0 0 1 0 2 0, .m (-2) 5 0 0 3 0 1 0, .m 6 5 0 0 1 0 1 0,
    .m 3 5 0 0 1 0 0 2, .m 2 5 0 0 3 0 0 1, .m (-6) 5 0 0 1 0 0 1, .m (-9) 4 1 3 2 0 0 0, .m 9 4 1 2 2 1 0 0,
    .m (-9) 4 1 2 1 0 1 0, .m (-9) 4 1 2 1 0 0 1, .m 18 4 1 2 1 0 0 0, .m 6 4 1 1 1 1 1 0, .m 6 4 1 1 1 1 0 1,
    .m (-12) 4 1 1 1 1 0 0, .m (-12) 4 1 1 0 0 1 1, .m 12 4 1 1 0 0 1 0, .m 12 4 1 1 0 0 0 1, .m (-9) 4 1 1 0 0 0 0,
    .m 4 4 1 0 0 1 1 1, .m (-4) 4 1 0 0 1 1 0, .m (-4) 4 1 0 0 1 0 1, .m 3 4 1 0 0 1 0 0, .m 2 4 1 0 3 0 1 0,
    .m 2 4 1 0 3 0 0 1, .m (-3) 4 0 3 3 0 0 0, .m 3 4 0 2 3 1 0 0, .m 9 4 0 1 2 1 1 0, .m 9 4 0 1 2 1 0 1,
    .m (-6) 4 0 1 2 1 0 0, .m 12 4 0 1 1 0 2 0, .m (-12) 4 0 1 1 0 1 1, .m 12 4 0 1 1 0 0 2, .m 3 4 0 1 1 0 0 0,
    .m (-1) 4 0 0 1 1 2 0, .m 10 4 0 0 1 1 1 1, .m (-8) 4 0 0 1 1 1 0, .m (-1) 4 0 0 1 1 0 2, .m (-8) 4 0 0 1 1 0 1,
    .m 3 4 0 0 1 1 0 0, .m 3 4 0 0 0 0 3 0, .m (-3) 4 0 0 0 0 2 1, .m 6 4 0 0 2 0 2 0, .m (-3) 4 0 0 0 0 1 2,
    .m (-12) 4 0 0 2 0 1 1, .m 8 4 0 0 0 0 1 1, .m (-2) 4 0 0 0 0 1 0, .m 3 4 0 0 0 0 0 3, .m 6 4 0 0 2 0 0 2,
    .m (-2) 4 0 0 0 0 0 1, .m 18 3 1 2 2 0 1 0, .m (-18) 3 1 2 2 0 0 1, .m (-12) 3 1 1 2 1 1 0, .m 12 3 1 1 2 1 0 1,
    .m 6 3 1 1 1 0 2 0, .m (-24) 3 1 1 1 0 1 0, .m (-6) 3 1 1 1 0 0 2, .m 24 3 1 1 1 0 0 1, .m (-2) 3 1 0 1 1 2 0,
    .m 8 3 1 0 1 1 1 0, .m 2 3 1 0 1 1 0 2, .m (-8) 3 1 0 1 1 0 1, .m (-1) 3 1 0 0 0 3 0, .m 3 3 1 0 0 0 2 1,
    .m (-6) 3 1 0 0 0 2 0, .m (-3) 3 1 0 0 0 1 2, .m 6 3 1 0 0 0 1 0, .m 1 3 1 0 0 0 0 3, .m 6 3 1 0 0 0 0 2,
    .m (-6) 3 1 0 0 0 0 1, .m 6 3 0 2 3 0 1 0, .m (-6) 3 0 2 3 0 0 1, .m (-4) 3 0 1 3 1 1 0, .m 4 3 0 1 3 1 0 1,
    .m (-6) 3 0 1 2 0 2 0, .m 6 3 0 1 2 0 0 2, .m (-4) 3 0 0 2 1 2 0, .m 4 3 0 0 2 1 1 0, .m 4 3 0 0 2 1 0 2,
    .m (-4) 3 0 0 2 1 0 1, .m (-9) 3 0 0 1 0 3 0, .m 3 3 0 0 1 0 2 1, .m (-2) 3 0 0 3 0 2 0, .m 2 3 0 0 1 0 2 0,
    .m (-3) 3 0 0 1 0 1 2, .m (-2) 3 0 0 1 0 1 0, .m 9 3 0 0 1 0 0 3, .m 2 3 0 0 3 0 0 2, .m (-2) 3 0 0 1 0 0 2,
    .m 2 3 0 0 1 0 0 1, .m (-6) 2 1 2 3 0 1 0, .m (-6) 2 1 2 3 0 0 1, .m 4 2 1 1 3 1 1 0, .m 4 2 1 1 3 1 0 1,
    .m (-12) 2 1 1 2 0 2 0, .m 12 2 1 1 2 0 1 1, .m 12 2 1 1 2 0 1 0, .m (-12) 2 1 1 2 0 0 2, .m 12 2 1 1 2 0 0 1,
    .m 4 2 1 0 2 1 2 0, .m (-4) 2 1 0 2 1 1 1, .m (-4) 2 1 0 2 1 1 0, .m 4 2 1 0 2 1 0 2, .m (-4) 2 1 0 2 1 0 1,
    .m 3 2 1 0 1 0 3 0, .m (-3) 2 1 0 1 0 2 1, .m 12 2 1 0 1 0 2 0, .m (-3) 2 1 0 1 0 1 2, .m (-6) 2 1 0 1 0 1 0,
    .m 3 2 1 0 1 0 0 3, .m 12 2 1 0 1 0 0 2, .m (-6) 2 1 0 1 0 0 1, .m 12 2 0 1 3 0 1 1, .m (-4) 2 0 1 3 0 1 0,
    .m (-4) 2 0 1 3 0 0 1, .m 2 2 0 0 3 1 2 0, .m 2 2 0 0 3 1 0 2, .m 9 2 0 0 2 0 3 0, .m 3 2 0 0 2 0 2 1,
    .m (-4) 2 0 0 2 0 2 0, .m 3 2 0 0 2 0 1 2, .m (-8) 2 0 0 2 0 1 1, .m 4 2 0 0 2 0 1 0, .m 9 2 0 0 2 0 0 3,
    .m (-4) 2 0 0 2 0 0 2, .m 4 2 0 0 2 0 0 1, .m 6 1 1 1 3 0 2 0, .m (-6) 1 1 1 3 0 0 2, .m (-2) 1 1 0 3 1 2 0,
    .m 2 1 1 0 3 1 0 2, .m (-3) 1 1 0 2 0 3 0, .m (-3) 1 1 0 2 0 2 1, .m (-6) 1 1 0 2 0 2 0, .m 3 1 1 0 2 0 1 2,
    .m 3 1 1 0 2 0 0 3, .m 6 1 1 0 2 0 0 2, .m (-3) 1 0 0 3 0 3 0, .m (-3) 1 0 0 3 0 2 1, .m 2 1 0 0 3 0 2 0,
    .m 3 1 0 0 3 0 1 2, .m 3 1 0 0 3 0 0 3, .m (-2) 1 0 0 3 0 0 2, .m 1 0 1 0 3 0 3 0, .m 3 0 1 0 3 0 2 1,
    .m 3 0 1 0 3 0 1 2, .m 1 0 1 0 3 0 0 3]

/-- `coeffs.py` 1102-1301: `p_8`. -/
def tripleP8 : List Term7 := [
    .m 3 8 1 1 1 0 0 0, .m (-3) 8 1 0 1 1 0 0, .m 1 8 1 0 0 0 1 0, .m 1 8 1 0 0 0 0 1, .m (-1) 8 1 0 0 0 0 0,
    .m 3 8 0 1 2 0 0 0, .m (-3) 8 0 0 2 1 0 0, .m (-1) 8 0 0 1 0 1 0, .m (-1) 8 0 0 1 0 0 1, .m 1 8 0 0 1 0 0 0,
    .m (-3) 7 1 0 1 0 1 0, .m 3 7 1 0 1 0 0 1, .m (-3) 7 0 1 1 0 1 0, .m 3 7 0 1 1 0 0 1, .m 3 7 0 0 1 1 1 0,
    .m (-3) 7 0 0 1 1 0 1, .m (-1) 7 0 0 0 0 2 0, .m (-3) 7 0 0 2 0 1 0, .m 1 7 0 0 0 0 1 0, .m 1 7 0 0 0 0 0 2,
    .m 3 7 0 0 2 0 0 1, .m (-1) 7 0 0 0 0 0 1, .m (-3) 6 1 3 1 0 0 0, .m 3 6 1 2 1 1 0 0, .m (-3) 6 1 2 0 0 1 0,
    .m (-3) 6 1 2 0 0 0 1, .m 3 6 1 2 0 0 0 0, .m 2 6 1 1 0 1 1 0, .m 2 6 1 1 0 1 0 1, .m (-2) 6 1 1 0 1 0 0,
    .m (-3) 6 1 1 3 0 0 0, .m 3 6 1 0 3 1 0 0, .m 3 6 1 0 2 0 0 0, .m (-3) 6 0 3 2 0 0 0, .m 3 6 0 2 2 1 0 0,
    .m (-6) 6 0 2 1 0 1 0, .m (-6) 6 0 2 1 0 0 1, .m 3 6 0 2 1 0 0 0, .m 7 6 0 1 1 1 1 0, .m 7 6 0 1 1 1 0 1,
    .m (-4) 6 0 1 1 1 0 0, .m (-3) 6 0 1 0 0 2 0, .m (-6) 6 0 1 0 0 1 1, .m 4 6 0 1 0 0 1 0, .m (-3) 6 0 1 0 0 0 2,
    .m 4 6 0 1 0 0 0 1, .m (-1) 6 0 1 0 0 0 0, .m 2 6 0 0 0 1 2 0, .m 4 6 0 0 0 1 1 1, .m (-3) 6 0 0 0 1 1 0,
    .m 2 6 0 0 0 1 0 2, .m (-3) 6 0 0 0 1 0 1, .m 1 6 0 0 0 1 0 0, .m 3 6 0 0 1 0 2 0, .m (-6) 6 0 0 1 0 1 1,
    .m 4 6 0 0 3 0 1 0, .m 3 6 0 0 1 0 0 2, .m 4 6 0 0 3 0 0 1, .m (-3) 6 0 0 3 0 0 0, .m 9 5 1 2 1 0 1 0,
    .m (-9) 5 1 2 1 0 0 1, .m (-6) 5 1 1 1 1 1 0, .m 6 5 1 1 1 1 0 1, .m 6 5 1 1 0 0 2 0, .m (-6) 5 1 1 0 0 1 0,
    .m (-6) 5 1 1 0 0 0 2, .m 6 5 1 1 0 0 0 1, .m (-2) 5 1 0 0 1 2 0, .m 2 5 1 0 0 1 1 0, .m 2 5 1 0 0 1 0 2,
    .m (-2) 5 1 0 0 1 0 1, .m 2 5 1 0 3 0 1 0, .m (-2) 5 1 0 3 0 0 1, .m 9 5 0 2 2 0 1 0, .m (-9) 5 0 2 2 0 0 1,
    .m (-6) 5 0 1 2 1 1 0, .m 6 5 0 1 2 1 0 1, .m 12 5 0 1 1 0 2 0, .m 3 5 0 1 3 0 1 0, .m (-6) 5 0 1 1 0 1 0,
    .m (-12) 5 0 1 1 0 0 2, .m (-3) 5 0 1 3 0 0 1, .m 6 5 0 1 1 0 0 1, .m (-7) 5 0 0 1 1 2 0, .m (-3) 5 0 0 3 1 1 0,
    .m 4 5 0 0 1 1 1 0, .m 7 5 0 0 1 1 0 2, .m 3 5 0 0 3 1 0 1, .m (-4) 5 0 0 1 1 0 1, .m 3 5 0 0 0 0 3 0,
    .m 3 5 0 0 0 0 2 1, .m (-4) 5 0 0 0 0 2 0, .m (-3) 5 0 0 0 0 1 2, .m (-3) 5 0 0 2 0 1 0, .m 1 5 0 0 0 0 1 0,
    .m (-3) 5 0 0 0 0 0 3, .m 4 5 0 0 0 0 0 2, .m 3 5 0 0 2 0 0 1, .m (-1) 5 0 0 0 0 0 1, .m 3 4 1 3 3 0 0 0,
    .m (-3) 4 1 2 3 1 0 0, .m (-9) 4 1 2 2 0 0 0, .m 6 4 1 1 2 1 0 0, .m (-12) 4 1 1 1 0 2 0, .m 12 4 1 1 1 0 1 1,
    .m (-6) 4 1 1 1 0 1 0, .m (-12) 4 1 1 1 0 0 2, .m (-6) 4 1 1 1 0 0 1, .m 9 4 1 1 1 0 0 0, .m 4 4 1 0 1 1 2 0,
    .m (-4) 4 1 0 1 1 1 1, .m 2 4 1 0 1 1 1 0, .m 4 4 1 0 1 1 0 2, .m 2 4 1 0 1 1 0 1, .m (-3) 4 1 0 1 1 0 0,
    .m (-3) 4 1 0 0 0 3 0, .m 3 4 1 0 0 0 2 1, .m 3 4 1 0 0 0 1 2, .m (-12) 4 1 0 0 0 1 1, .m 6 4 1 0 0 0 1 0,
    .m (-3) 4 1 0 0 0 0 3, .m 6 4 1 0 0 0 0 1, .m (-3) 4 1 0 0 0 0 0, .m (-3) 4 0 2 3 0 1 0, .m (-3) 4 0 2 3 0 0 1,
    .m 3 4 0 2 3 0 0 0, .m (-1) 4 0 1 3 1 1 0, .m (-1) 4 0 1 3 1 0 1, .m (-15) 4 0 1 2 0 2 0, .m 6 4 0 1 2 0 1 1,
    .m 6 4 0 1 2 0 1 0, .m (-15) 4 0 1 2 0 0 2, .m 6 4 0 1 2 0 0 1, .m (-6) 4 0 1 2 0 0 0, .m 5 4 0 0 2 1 2 0,
    .m (-2) 4 0 0 2 1 1 1, .m 1 4 0 0 2 1 1 0, .m 5 4 0 0 2 1 0 2, .m 1 4 0 0 2 1 0 1, .m (-9) 4 0 0 1 0 3 0,
    .m (-3) 4 0 0 1 0 2 1, .m (-2) 4 0 0 3 0 2 0, .m 8 4 0 0 1 0 2 0, .m (-3) 4 0 0 1 0 1 2, .m 4 4 0 0 3 0 1 1,
    .m 4 4 0 0 1 0 1 1, .m (-5) 4 0 0 1 0 1 0, .m (-9) 4 0 0 1 0 0 3, .m (-2) 4 0 0 3 0 0 2, .m 8 4 0 0 1 0 0 2,
    .m (-5) 4 0 0 1 0 0 1, .m 3 4 0 0 1 0 0 0, .m (-6) 3 1 2 3 0 1 0, .m 6 3 1 2 3 0 0 1, .m 4 3 1 1 3 1 1 0,
    .m (-4) 3 1 1 3 1 0 1, .m 6 3 1 1 2 0 2 0, .m 12 3 1 1 2 0 1 0, .m (-6) 3 1 1 2 0 0 2, .m (-12) 3 1 1 2 0 0 1,
    .m (-2) 3 1 0 2 1 2 0, .m (-4) 3 1 0 2 1 1 0, .m 2 3 1 0 2 1 0 2, .m 4 3 1 0 2 1 0 1, .m 9 3 1 0 1 0 3 0,
    .m (-3) 3 1 0 1 0 2 1, .m 3 3 1 0 1 0 1 2, .m (-6) 3 1 0 1 0 1 0, .m (-9) 3 1 0 1 0 0 3, .m 6 3 1 0 1 0 0 1,
    .m 6 3 0 1 3 0 2 0, .m (-4) 3 0 1 3 0 1 0, .m (-6) 3 0 1 3 0 0 2, .m 4 3 0 1 3 0 0 1, .m 9 3 0 0 2 0 3 0,
    .m (-3) 3 0 0 2 0 2 1, .m (-4) 3 0 0 2 0 2 0, .m 3 3 0 0 2 0 1 2, .m 4 3 0 0 2 0 1 0, .m (-9) 3 0 0 2 0 0 3,
    .m 4 3 0 0 2 0 0 2, .m (-4) 3 0 0 2 0 0 1, .m (-12) 2 1 1 3 0 1 1, .m 4 2 1 0 3 1 1 1, .m (-9) 2 1 0 2 0 3 0,
    .m (-3) 2 1 0 2 0 2 1, .m (-3) 2 1 0 2 0 1 2, .m 12 2 1 0 2 0 1 1, .m (-9) 2 1 0 2 0 0 3, .m (-3) 2 0 0 3 0 3 0,
    .m 3 2 0 0 3 0 2 1, .m 3 2 0 0 3 0 1 2, .m (-4) 2 0 0 3 0 1 1, .m (-3) 2 0 0 3 0 0 3, .m 3 1 1 0 3 0 3 0,
    .m 3 1 1 0 3 0 2 1, .m (-3) 1 1 0 3 0 1 2, .m (-3) 1 1 0 3 0 0 3]

/-- `coeffs.py` 1303-1477: `p_9`. -/
def tripleP9 : List Term7 := [
    .m (-3) 8 1 1 2 0 0 0, .m 3 8 1 0 2 1 0 0, .m (-2) 8 1 0 1 0 1 0, .m (-2) 8 1 0 1 0 0 1, .m 2 8 1 0 1 0 0 0,
    .m (-1) 8 0 1 3 0 0 0, .m 1 8 0 0 3 1 0 0, .m 2 8 0 0 2 0 1 0, .m 2 8 0 0 2 0 0 1, .m (-2) 8 0 0 2 0 0 0,
    .m 3 7 1 0 2 0 1 0, .m (-3) 7 1 0 2 0 0 1, .m 3 7 0 1 2 0 1 0, .m (-3) 7 0 1 2 0 0 1, .m (-3) 7 0 0 2 1 1 0,
    .m 3 7 0 0 2 1 0 1, .m 2 7 0 0 1 0 2 0, .m 1 7 0 0 3 0 1 0, .m (-2) 7 0 0 1 0 1 0, .m (-2) 7 0 0 1 0 0 2,
    .m (-1) 7 0 0 3 0 0 1, .m 2 7 0 0 1 0 0 1, .m 3 6 1 3 2 0 0 0, .m (-3) 6 1 2 2 1 0 0, .m 6 6 1 2 1 0 1 0,
    .m 6 6 1 2 1 0 0 1, .m (-6) 6 1 2 1 0 0 0, .m (-4) 6 1 1 1 1 1 0, .m (-4) 6 1 1 1 1 0 1, .m 4 6 1 1 1 1 0 0,
    .m 3 6 1 1 0 0 2 0, .m 6 6 1 1 0 0 1 1, .m (-6) 6 1 1 0 0 1 0, .m 3 6 1 1 0 0 0 2, .m (-6) 6 1 1 0 0 0 1,
    .m 3 6 1 1 0 0 0 0, .m (-1) 6 1 0 0 1 2 0, .m (-2) 6 1 0 0 1 1 1, .m 2 6 1 0 0 1 1 0, .m (-1) 6 1 0 0 1 0 2,
    .m 2 6 1 0 0 1 0 1, .m (-1) 6 1 0 0 1 0 0, .m (-1) 6 1 0 3 0 1 0, .m (-1) 6 1 0 3 0 0 1, .m 1 6 0 3 3 0 0 0,
    .m (-1) 6 0 2 3 1 0 0, .m 3 6 0 2 2 0 1 0, .m 3 6 0 2 2 0 0 1, .m (-5) 6 0 1 2 1 1 0, .m (-5) 6 0 1 2 1 0 1,
    .m 2 6 0 1 2 1 0 0, .m 3 6 0 1 1 0 2 0, .m 6 6 0 1 1 0 1 1, .m (-2) 6 0 1 1 0 1 0, .m 3 6 0 1 1 0 0 2,
    .m (-2) 6 0 1 1 0 0 1, .m (-1) 6 0 1 1 0 0 0, .m (-3) 6 0 0 1 1 2 0, .m (-6) 6 0 0 1 1 1 1, .m 4 6 0 0 1 1 1 0,
    .m (-3) 6 0 0 1 1 0 2, .m 4 6 0 0 1 1 0 1, .m (-1) 6 0 0 1 1 0 0, .m 1 6 0 0 0 0 3 0, .m 3 6 0 0 0 0 2 1,
    .m (-3) 6 0 0 2 0 2 0, .m (-2) 6 0 0 0 0 2 0, .m 3 6 0 0 0 0 1 2, .m 6 6 0 0 2 0 1 1, .m (-4) 6 0 0 0 0 1 1,
    .m 1 6 0 0 0 0 1 0, .m 1 6 0 0 0 0 0 3, .m (-3) 6 0 0 2 0 0 2, .m (-2) 6 0 0 0 0 0 2, .m 1 6 0 0 0 0 0 1,
    .m (-9) 5 1 2 2 0 1 0, .m 9 5 1 2 2 0 0 1, .m 6 5 1 1 2 1 1 0, .m (-6) 5 1 1 2 1 0 1, .m (-12) 5 1 1 1 0 2 0,
    .m 12 5 1 1 1 0 1 0, .m 12 5 1 1 1 0 0 2, .m (-12) 5 1 1 1 0 0 1, .m 4 5 1 0 1 1 2 0, .m (-4) 5 1 0 1 1 1 0,
    .m (-4) 5 1 0 1 1 0 2, .m 4 5 1 0 1 1 0 1, .m (-3) 5 1 0 0 0 3 0, .m (-3) 5 1 0 0 0 2 1, .m 6 5 1 0 0 0 2 0,
    .m 3 5 1 0 0 0 1 2, .m (-3) 5 1 0 0 0 1 0, .m 3 5 1 0 0 0 0 3, .m (-6) 5 1 0 0 0 0 2, .m 3 5 1 0 0 0 0 1,
    .m (-3) 5 0 2 3 0 1 0, .m 3 5 0 2 3 0 0 1, .m 2 5 0 1 3 1 1 0, .m (-2) 5 0 1 3 1 0 1, .m (-6) 5 0 1 2 0 2 0,
    .m 6 5 0 1 2 0 0 2, .m 5 5 0 0 2 1 2 0, .m (-2) 5 0 0 2 1 1 0, .m (-5) 5 0 0 2 1 0 2, .m 2 5 0 0 2 1 0 1,
    .m (-3) 5 0 0 1 0 3 0, .m (-3) 5 0 0 1 0 2 1, .m 1 5 0 0 3 0 2 0, .m 2 5 0 0 1 0 2 0, .m 3 5 0 0 1 0 1 2,
    .m 1 5 0 0 1 0 1 0, .m 3 5 0 0 1 0 0 3, .m (-1) 5 0 0 3 0 0 2, .m (-2) 5 0 0 1 0 0 2, .m (-1) 5 0 0 1 0 0 1,
    .m 3 4 1 2 3 0 1 0, .m 3 4 1 2 3 0 0 1, .m (-2) 4 1 1 3 1 1 0, .m (-2) 4 1 1 3 1 0 1, .m 15 4 1 1 2 0 2 0,
    .m (-6) 4 1 1 2 0 1 1, .m (-6) 4 1 1 2 0 1 0, .m 15 4 1 1 2 0 0 2, .m (-6) 4 1 1 2 0 0 1, .m (-5) 4 1 0 2 1 2 0,
    .m 2 4 1 0 2 1 1 1, .m 2 4 1 0 2 1 1 0, .m (-5) 4 1 0 2 1 0 2, .m 2 4 1 0 2 1 0 1, .m 9 4 1 0 1 0 3 0,
    .m 3 4 1 0 1 0 2 1, .m (-12) 4 1 0 1 0 2 0, .m 3 4 1 0 1 0 1 2, .m 3 4 1 0 1 0 1 0, .m 9 4 1 0 1 0 0 3,
    .m (-12) 4 1 0 1 0 0 2, .m 3 4 1 0 1 0 0 1, .m 3 4 0 1 3 0 2 0, .m (-6) 4 0 1 3 0 1 1, .m 2 4 0 1 3 0 1 0,
    .m 3 4 0 1 3 0 0 2, .m 2 4 0 1 3 0 0 1, .m (-2) 4 0 0 3 1 2 0, .m (-2) 4 0 0 3 1 0 2, .m 3 4 0 0 2 0 3 0,
    .m (-3) 4 0 0 2 0 2 1, .m 2 4 0 0 2 0 2 0, .m (-3) 4 0 0 2 0 1 2, .m 4 4 0 0 2 0 1 1, .m (-2) 4 0 0 2 0 1 0,
    .m 3 4 0 0 2 0 0 3, .m 2 4 0 0 2 0 0 2, .m (-2) 4 0 0 2 0 0 1, .m (-6) 3 1 1 3 0 2 0, .m 6 3 1 1 3 0 0 2,
    .m 2 3 1 0 3 1 2 0, .m (-2) 3 1 0 3 1 0 2, .m (-9) 3 1 0 2 0 3 0, .m 3 3 1 0 2 0 2 1, .m 6 3 1 0 2 0 2 0,
    .m (-3) 3 1 0 2 0 1 2, .m 9 3 1 0 2 0 0 3, .m (-6) 3 1 0 2 0 0 2, .m (-1) 3 0 0 3 0 3 0, .m 3 3 0 0 3 0 2 1,
    .m (-2) 3 0 0 3 0 2 0, .m (-3) 3 0 0 3 0 1 2, .m 1 3 0 0 3 0 0 3, .m 2 3 0 0 3 0 0 2, .m 3 2 1 0 3 0 3 0,
    .m (-3) 2 1 0 3 0 2 1, .m (-3) 2 1 0 3 0 1 2, .m 3 2 1 0 3 0 0 3]

/-- `coeffs.py` 1479-1596: `p_10`. -/
def tripleP10 : List Term7 := [
    .m 1 8 1 1 3 0 0 0, .m (-1) 8 1 0 3 1 0 0, .m 1 8 1 0 2 0 1 0, .m 1 8 1 0 2 0 0 1, .m (-1) 8 1 0 2 0 0 0,
    .m (-1) 8 0 0 3 0 1 0, .m (-1) 8 0 0 3 0 0 1, .m 1 8 0 0 3 0 0 0, .m (-1) 7 1 0 3 0 1 0, .m 1 7 1 0 3 0 0 1,
    .m (-1) 7 0 1 3 0 1 0, .m 1 7 0 1 3 0 0 1, .m 1 7 0 0 3 1 1 0, .m (-1) 7 0 0 3 1 0 1, .m (-1) 7 0 0 2 0 2 0,
    .m 1 7 0 0 2 0 1 0, .m 1 7 0 0 2 0 0 2, .m (-1) 7 0 0 2 0 0 1, .m (-1) 6 1 3 3 0 0 0, .m 1 6 1 2 3 1 0 0,
    .m (-3) 6 1 2 2 0 1 0, .m (-3) 6 1 2 2 0 0 1, .m 3 6 1 2 2 0 0 0, .m 2 6 1 1 2 1 1 0, .m 2 6 1 1 2 1 0 1,
    .m (-2) 6 1 1 2 1 0 0, .m (-3) 6 1 1 1 0 2 0, .m (-6) 6 1 1 1 0 1 1, .m 6 6 1 1 1 0 1 0, .m (-3) 6 1 1 1 0 0 2,
    .m 6 6 1 1 1 0 0 1, .m (-3) 6 1 1 1 0 0 0, .m 1 6 1 0 1 1 2 0, .m 2 6 1 0 1 1 1 1, .m (-2) 6 1 0 1 1 1 0,
    .m 1 6 1 0 1 1 0 2, .m (-2) 6 1 0 1 1 0 1, .m 1 6 1 0 1 1 0 0, .m (-1) 6 1 0 0 0 3 0, .m (-3) 6 1 0 0 0 2 1,
    .m 3 6 1 0 0 0 2 0, .m (-3) 6 1 0 0 0 1 2, .m 6 6 1 0 0 0 1 1, .m (-3) 6 1 0 0 0 1 0, .m (-1) 6 1 0 0 0 0 3,
    .m 3 6 1 0 0 0 0 2, .m (-3) 6 1 0 0 0 0 1, .m 1 6 1 0 0 0 0 0, .m (-1) 6 0 2 3 0 0 0, .m 1 6 0 1 3 1 1 0,
    .m 1 6 0 1 3 1 0 1, .m (-2) 6 0 1 2 0 1 0, .m (-2) 6 0 1 2 0 0 1, .m 2 6 0 1 2 0 0 0, .m 1 6 0 0 2 1 2 0,
    .m 2 6 0 0 2 1 1 1, .m (-1) 6 0 0 2 1 1 0, .m 1 6 0 0 2 1 0 2, .m (-1) 6 0 0 2 1 0 1, .m 1 6 0 0 3 0 2 0,
    .m (-1) 6 0 0 1 0 2 0, .m (-2) 6 0 0 3 0 1 1, .m (-2) 6 0 0 1 0 1 1, .m 2 6 0 0 1 0 1 0, .m 1 6 0 0 3 0 0 2,
    .m (-1) 6 0 0 1 0 0 2, .m 2 6 0 0 1 0 0 1, .m (-1) 6 0 0 1 0 0 0, .m 3 5 1 2 3 0 1 0, .m (-3) 5 1 2 3 0 0 1,
    .m (-2) 5 1 1 3 1 1 0, .m 2 5 1 1 3 1 0 1, .m 6 5 1 1 2 0 2 0, .m (-6) 5 1 1 2 0 1 0, .m (-6) 5 1 1 2 0 0 2,
    .m 6 5 1 1 2 0 0 1, .m (-2) 5 1 0 2 1 2 0, .m 2 5 1 0 2 1 1 0, .m 2 5 1 0 2 1 0 2, .m (-2) 5 1 0 2 1 0 1,
    .m 3 5 1 0 1 0 3 0, .m 3 5 1 0 1 0 2 1, .m (-6) 5 1 0 1 0 2 0, .m (-3) 5 1 0 1 0 1 2, .m 3 5 1 0 1 0 1 0,
    .m (-3) 5 1 0 1 0 0 3, .m 6 5 1 0 1 0 0 2, .m (-3) 5 1 0 1 0 0 1, .m 2 5 0 1 3 0 1 0, .m (-2) 5 0 1 3 0 0 1,
    .m (-1) 5 0 0 3 1 2 0, .m 1 5 0 0 3 1 0 2, .m 2 5 0 0 2 0 2 0, .m (-2) 5 0 0 2 0 1 0, .m (-2) 5 0 0 2 0 0 2,
    .m 2 5 0 0 2 0 0 1, .m (-3) 4 1 1 3 0 2 0, .m 6 4 1 1 3 0 1 1, .m (-3) 4 1 1 3 0 0 2, .m 1 4 1 0 3 1 2 0,
    .m (-2) 4 1 0 3 1 1 1, .m 1 4 1 0 3 1 0 2, .m (-3) 4 1 0 2 0 3 0, .m 3 4 1 0 2 0 2 1, .m 3 4 1 0 2 0 2 0,
    .m 3 4 1 0 2 0 1 2, .m (-6) 4 1 0 2 0 1 1, .m (-3) 4 1 0 2 0 0 3, .m 3 4 1 0 2 0 0 2, .m (-1) 4 0 0 3 0 2 0,
    .m 2 4 0 0 3 0 1 1, .m (-1) 4 0 0 3 0 0 2, .m 1 3 1 0 3 0 3 0, .m (-3) 3 1 0 3 0 2 1, .m 3 3 1 0 3 0 1 2,
    .m (-1) 3 1 0 3 0 0 3]

/-- `coeffs.py` 210-1600 `_poly_coeffs_triple`: the coefficients, highest order first. -/
def polyCoeffsTriple (w : ℂ) (a : ℝ) (r3 : ℂ) (e1 e2 : ℝ) : List ℂ :=
  [evalTerms (a : ℂ) w (conj w) r3 (conj r3) e1 e2 tripleP0,
   evalTerms (a : ℂ) w (conj w) r3 (conj r3) e1 e2 tripleP1,
   evalTerms (a : ℂ) w (conj w) r3 (conj r3) e1 e2 tripleP2,
   evalTerms (a : ℂ) w (conj w) r3 (conj r3) e1 e2 tripleP3,
   evalTerms (a : ℂ) w (conj w) r3 (conj r3) e1 e2 tripleP4,
   evalTerms (a : ℂ) w (conj w) r3 (conj r3) e1 e2 tripleP5,
   evalTerms (a : ℂ) w (conj w) r3 (conj r3) e1 e2 tripleP6,
   evalTerms (a : ℂ) w (conj w) r3 (conj r3) e1 e2 tripleP7,
   evalTerms (a : ℂ) w (conj w) r3 (conj r3) e1 e2 tripleP8,
   evalTerms (a : ℂ) w (conj w) r3 (conj r3) e1 e2 tripleP9,
   evalTerms (a : ℂ) w (conj w) r3 (conj r3) e1 e2 tripleP10]

end Microjax.PointSource
