import Verif.Model.PointSource
import Verif.Model.PolySolver
import Mathlib.Algebra.DualNumber
import Mathlib.Data.Complex.Basic
import Mathlib.Data.Sign.Basic

/-!
# Model of the forward-mode derivative (`jax.jvp`) of `mag_point_source`

JAX differentiates the arithmetic of the code primitive by primitive and uses the custom rule
`_poly_roots_EA_jvp` (`poly_solver.py` 235-251) at the root finder.  The polynomial arithmetic is modelled by
evaluating the same expressions on dual numbers; the remaining steps are written out.  Comparisons (the validity
mask) carry no tangent.
-/

noncomputable section

namespace Microjax.PointSource

open Complex ComplexConjugate

/-- A value and its tangent as a dual number (what a JAX tracer carries). -/
def dual (x dx : ℂ) : DualNumber ℂ := TrivSqZeroExt.inl x + TrivSqZeroExt.inr dx

/-- `jnp.conjugate` on dual numbers (its JVP conjugates the tangent); used in `coeffs.py` 53-208. -/
def dualConjugate (x : DualNumber ℂ) : DualNumber ℂ := dual (conj x.fst) (conj x.snd)

/-- `coeffs.py` 150-193: the arithmetic of `_poly_coeffs_binary` in any commutative ring (the same text as
`polyCoeffsBinary`, with `wbar` given). -/
def coeffsBinaryIn {R : Type*} [CommRing R] (w wbar a e1 : R) : List R :=
  let a2 := a * a
  let a3 := a2 * a
  let a4 := a2 * a2
  let a5 := a3 * a2
  let a6 := a3 * a3
  let e1sq := e1 * e1
  let wbar2 := wbar * wbar
  let w_wbar := w * wbar
  let w_wbar2 := w * wbar2
  let p_0 := -a2 + wbar2
  let p_1 := a2 * w + a * (1 - 2 * e1) - w_wbar2 + wbar
  let p_2 := 2 * a2 * (a2 - wbar2) + 2 * a * wbar * (2 * e1 - 1) - 2 * w_wbar
  let p_3 := 2 * a2 * w_wbar2 - 2 * a4 * w + 2 * a3 * (2 * e1 - 1)
    + 2 * a * w * wbar * (1 - 2 * e1) + a * (2 * e1 - 1) - w
  let p_4 := -a6 + a4 * wbar2 + 2 * a3 * wbar * (1 - 2 * e1) + 2 * a2 * w * wbar
    + 2 * a2 * (2 * e1sq - 2 * e1 + 1) + 2 * a * w * (1 - 2 * e1)
  let p_5 := a6 * w + a5 * (1 - 2 * e1) - a4 * (w * wbar2 + wbar)
    + 2 * a3 * w * wbar * (2 * e1 - 1) + a3 * (2 * e1 - 1)
    + a2 * w * (-4 * e1sq + 4 * e1 - 1)
  [p_0, p_1, p_2, p_3, p_4, p_5]

/-- `coeffs.py` 150-193: tangents of the coefficients of `_poly_coeffs_binary`. -/
def coeffsBinaryTangent (w dw : ℂ) (a da e1 de1 : ℝ) : List ℂ :=
  (coeffsBinaryIn (dual w dw) (dualConjugate (dual w dw)) (dual a da) (dual e1 de1)).map TrivSqZeroExt.snd

/-- `coeffs.py` 70-146: the `hh` constants and the coefficients. -/
def combineTriple {R : Type*} [CommRing R] (aa bb cc dd ww wwbar wwaa wwbb wwcc wwdd : R) : List R :=
  let hh39 := 1
  let hh38 := 3 * aa
  let hh37 := 3 * bb + 3 * aa * aa
  let hh36 := 3 * cc + 6 * aa * bb + aa * aa * aa
  let hh35 := 6 * aa * cc + 3 * bb * bb + 3 * aa * aa * bb
  let hh34 := 6 * bb * cc + 3 * aa * aa * cc + 3 * aa * bb * bb
  let hh33 := 3 * cc * cc + 6 * aa * bb * cc + bb * bb * bb
  let hh32 := 3 * aa * cc * cc + 3 * bb * bb * cc
  let hh31 := 3 * bb * cc * cc
  let hh30 := cc * cc * cc
  let hh28 := 1
  let hh27 := 3 * aa
  let hh26 := dd + 2 * bb + 3 * aa * aa
  let hh25 := 2 * aa * dd + 4 * aa * bb + aa * aa * aa + 2 * cc
  let hh24 := 2 * dd * bb + dd * aa * aa + 4 * aa * cc + 2 * aa * aa * bb + bb * bb
  let hh23 := 2 * dd * cc + 2 * dd * aa * bb + 2 * aa * aa * cc + aa * bb * bb + 2 * bb * cc
  let hh22 := 2 * cc * aa * dd + dd * bb * bb + 2 * aa * bb * cc + cc * cc
  let hh21 := 2 * bb * cc * dd + aa * cc * cc
  let hh20 := cc * cc * dd
  let hh17 := 1
  let hh16 := 3 * aa
  let hh15 := 2 * dd + 3 * aa * aa + bb
  let hh14 := 4 * aa * dd + aa * aa * aa + 2 * aa * bb + cc
  let hh13 := dd * dd + 2 * aa * aa * dd + 2 * bb * dd + bb * aa * aa + 2 * aa * cc
  let hh12 := aa * dd * dd + 2 * aa * bb * dd + 2 * cc * dd + cc * aa * aa
  let hh11 := bb * dd * dd + 2 * aa * cc * dd
  let hh10 := cc * dd * dd
  let hh06 := 1
  let hh05 := 3 * aa
  let hh04 := 3 * dd + 3 * aa * aa
  let hh03 := 6 * aa * dd + aa * aa * aa
  let hh02 := 3 * dd * dd + 3 * aa * aa * dd
  let hh01 := 3 * aa * dd * dd
  let hh00 := dd * dd * dd
  let p_10 := hh39 * wwcc
  let p_9 := hh38 * wwcc + hh28 * wwbb - (ww * wwcc + wwdd) * hh39
  let p_8 := hh37 * wwcc + hh27 * wwbb + hh17 * wwaa - (ww * wwcc + wwdd) * hh38
    - (ww * wwbb + wwaa - wwbar) * hh28
  let p_7 := hh36 * wwcc + hh26 * wwbb + hh16 * wwaa + hh06 - (ww * wwcc + wwdd) * hh37
    - (ww * wwbb + wwaa - wwbar) * hh27 - (ww * wwaa + 1) * hh17
  let p_6 := hh35 * wwcc + hh25 * wwbb + hh15 * wwaa + hh05 - (ww * wwcc + wwdd) * hh36
    - (ww * wwbb + wwaa - wwbar) * hh26 - (ww * wwaa + 1) * hh16 - ww * hh06
  let p_5 := hh34 * wwcc + hh24 * wwbb + hh14 * wwaa + hh04 - (ww * wwcc + wwdd) * hh35
    - (ww * wwbb + wwaa - wwbar) * hh25 - (ww * wwaa + 1) * hh15 - ww * hh05
  let p_4 := hh33 * wwcc + hh23 * wwbb + hh13 * wwaa + hh03 - (ww * wwcc + wwdd) * hh34
    - (ww * wwbb + wwaa - wwbar) * hh24 - (ww * wwaa + 1) * hh14 - ww * hh04
  let p_3 := hh32 * wwcc + hh22 * wwbb + hh12 * wwaa + hh02 - (ww * wwcc + wwdd) * hh33
    - (ww * wwbb + wwaa - wwbar) * hh23 - (ww * wwaa + 1) * hh13 - ww * hh03
  let p_2 := hh31 * wwcc + hh21 * wwbb + hh11 * wwaa + hh01 - (ww * wwcc + wwdd) * hh32
    - (ww * wwbb + wwaa - wwbar) * hh22 - (ww * wwaa + 1) * hh12 - ww * hh02
  let p_1 := hh30 * wwcc + hh20 * wwbb + hh10 * wwaa + hh00 - (ww * wwcc + wwdd) * hh31
    - (ww * wwbb + wwaa - wwbar) * hh21 - (ww * wwaa + 1) * hh11 - ww * hh01
  let p_0 := -(ww * wwcc + wwdd) * hh30 - (ww * wwbb + wwaa - wwbar) * hh20
    - (ww * wwaa + 1) * hh10 - ww * hh00
  [p_10, p_9, p_8, p_7, p_6, p_5, p_4, p_3, p_2, p_1, p_0]

/-- `coeffs.py` 53-148: the arithmetic of `_poly_coeffs_triple_CM` in any commutative ring with a conjugation
(the same text as `polyCoeffsTripleCM`; `eps1 = e2`, `eps2 = e1`, and `shift_cm` are arguments). -/
def coeffsTripleIn {R : Type*} [CommRing R] (cj : R → R) (shift_cm w a r3 eps1 eps2 eps3 : R) : List R :=
  let w_cm := w - shift_cm
  let r1 := -a - shift_cm
  let r2 := a - shift_cm
  let r3 := r3 - shift_cm
  let cc1 := r1
  let cc2 := r2
  let cc3 := r3
  let aa := -(cc1 + cc2 + cc3)
  let bb := cc1 * cc2 + cc1 * cc3 + cc2 * cc3
  let cc := -cc1 * cc2 * cc3
  let dd := eps1 * cc2 * cc3 + eps2 * cc1 * cc3 + eps3 * cc1 * cc2
  let ww := w_cm
  let ww1 := ww - cc1
  let ww2 := ww - cc2
  let ww3 := ww - cc3
  let wwbar := cj ww
  let ww1bar := cj ww1
  let ww2bar := cj ww2
  let ww3bar := cj ww3
  let wwaa := ww1bar + ww2bar + ww3bar
  let wwbb := ww1bar * ww2bar + ww2bar * ww3bar + ww1bar * ww3bar
  let wwcc := ww1bar * ww2bar * ww3bar
  let wwdd := eps1 * ww2bar * ww3bar + eps2 * ww1bar * ww3bar + eps3 * ww1bar * ww2bar
  combineTriple aa bb cc dd ww wwbar wwaa wwbb wwcc wwdd

/-- `point_source.py` 331: tangent of `r3_complex = r3 * exp(1j * psi)`. -/
def r3ComplexTangent (p dp : MidParams) : ℂ :=
  dp.r3 * exp (I * p.psi) + p.r3 * (exp (I * p.psi) * (I * dp.psi))

/-- `coeffs.py` 54-60: tangent of `shift_cm` (linear in the real and imaginary part of `r3`, product rule). -/
def shiftCMTangent (p dp : MidParams) : ℂ :=
  let r3 := r3Complex p
  let dr3 := r3ComplexTangent p dp
  let eps3 : ℝ := 1 - p.e1 - p.e2
  let deps3 : ℝ := -dp.e1 - dp.e2
  ((dp.e2 * (-p.a) + p.e2 * (-dp.a) + (dp.e1 * p.a + p.e1 * dp.a) + (deps3 * r3.re + eps3 * dr3.re) : ℝ) : ℂ)
    + I * ((dr3.im * eps3 + r3.im * deps3 : ℝ) : ℂ)

/-- `coeffs.py` 53-148: tangents of the coefficients of `_poly_coeffs_triple_CM`. -/
def coeffsTripleTangent (p dp : MidParams) (w dw : ℂ) : List ℂ :=
  (coeffsTripleIn dualConjugate (dual (shiftCM p.a (r3Complex p) p.e1 p.e2) (shiftCMTangent p dp)) (dual w dw)
    (dual p.a dp.a) (dual (r3Complex p) (r3ComplexTangent p dp)) (dual p.e2 dp.e2) (dual p.e1 dp.e1)
    (dual (1 - p.e1 - p.e2) (-dp.e1 - dp.e2))).map TrivSqZeroExt.snd

/-- `point_source.py` 155, 170-172: tangent of `m / x ** 2` (quotient rule). -/
def shearTermTangent (m dm x dx : ℂ) : ℂ := dm / x ^ 2 - m / (x ^ 2) ^ 2 * (2 * x * dx)

/-- `point_source.py` 156, 175: tangent of `1 - |g| ** 2`; JAX differentiates the modulus of a complex number as
`Re (conj g * dg) / |g|` (0 at 0). -/
def detTangent (g dg : ℂ) : ℝ := -(2 * ‖g‖ * ((conj g * dg).re / ‖g‖))

/-- `point_source.py` 152-156: tangent of `lens_eq_det_jac`, two lenses. -/
def detJac2Tangent (p dp : MidParams) (z dz : ℂ) : ℝ :=
  detTangent (p.e1 / (conj z - p.a) ^ 2 + (1 - p.e1) / (conj z + p.a) ^ 2)
    (shearTermTangent p.e1 dp.e1 (conj z - p.a) (conj dz - dp.a)
      + shearTermTangent (1 - p.e1) (-dp.e1) (conj z + p.a) (conj dz + dp.a))

/-- `point_source.py` 158-175: tangent of `lens_eq_det_jac`, three lenses. -/
def detJac3Tangent (p dp : MidParams) (z dz : ℂ) : ℝ :=
  detTangent (p.e1 / (conj z - p.a) ^ 2 + p.e2 / (conj z + p.a) ^ 2
      + (1 - p.e1 - p.e2) / (conj z - conj (r3Complex p)) ^ 2)
    (shearTermTangent p.e1 dp.e1 (conj z - p.a) (conj dz - dp.a)
      + shearTermTangent p.e2 dp.e2 (conj z + p.a) (conj dz + dp.a)
      + shearTermTangent (1 - p.e1 - p.e2) (-dp.e1 - dp.e2) (conj z - conj (r3Complex p))
          (conj dz - conj (r3ComplexTangent p dp)))

/-- `point_source.py` 443-446: tangent of the mid-point parameters of a binary. -/
def midParams2Tangent (u du : UserParams) : MidParams :=
  { a := (1 / 2) * du.s, e1 := du.q / (1 + u.q) - u.q / (1 + u.q) ^ 2 * du.q }

/-- `point_source.py` 457-460: tangent of the mid-point parameters of a triple. -/
def midParams3Tangent (u du : UserParams) : MidParams :=
  let m := 1 + u.q + u.q3
  let dm := du.q + du.q3
  { a := (1 / 2) * du.s, e1 := du.q / m - u.q / m ^ 2 * dm, e2 := -(1 / m ^ 2 * dm), r3 := du.r3, psi := du.psi }

/-- `point_source.py` 447, 461: tangent of `x_cm = a * (1 - q) / (1 + q)`. -/
def xCMTangent (u du : UserParams) : ℝ :=
  ((1 / 2) * du.s * (1 - u.q) + (1 / 2) * u.s * (-du.q)) / (1 + u.q)
    - (1 / 2) * u.s * (1 - u.q) / (1 + u.q) ^ 2 * du.q

/-- `point_source.py` 467-469: tangent of `((1 / |det|) * z_mask).sum()` for images `z` with tangents `dz`; JAX
differentiates `|x|` as `sign x`. -/
def sumMagTangent (det : ℂ → ℝ) (ddet : ℂ → ℂ → ℝ) (zs : List ((ℂ × ℂ) × Bool)) : ℝ :=
  (zs.map fun zm => (-(1 / |det zm.1.1|) / |det zm.1.1| * (SignType.sign (det zm.1.1) * ddet zm.1.1 zm.1.2))
    * (if zm.2 then 1 else 0)).sum

/-- `point_source.py` 344-355 with `poly_solver.py` 235-251: the roots with their tangents and flags, two lenses. -/
def images2Jvp (roots : Option (List ℂ) → List ℂ → List ℂ) (p dp : MidParams) (w dw : ℂ) :
    List ((ℂ × ℂ) × Bool) :=
  let coeffs := polyCoeffsBinary w p.a p.e1
  let dcoeffs := coeffsBinaryTangent w dw p.a dp.a p.e1 dp.e1
  (roots none coeffs).map fun z =>
    ((z, PolySolver.rootTangent coeffs dcoeffs z), decide (‖lensEq2 p z - w‖ < 1 / 10 ^ 6))

/-- `point_source.py` 329-339 with `poly_solver.py` 235-251: the roots with their tangents and flags, three lenses. -/
def images3Jvp (roots : Option (List ℂ) → List ℂ → List ℂ) (p dp : MidParams) (w dw : ℂ) :
    List ((ℂ × ℂ) × Bool) :=
  let coeffs := polyCoeffsTripleCM w p.a (r3Complex p) p.e1 p.e2
  let dcoeffs := coeffsTripleTangent p dp w dw
  let shift := shiftCM p.a (r3Complex p) p.e1 p.e2
  let dshift := shiftCMTangent p dp
  (roots none coeffs).map fun r =>
    ((r + shift, PolySolver.rootTangent coeffs dcoeffs r + dshift),
      decide (‖lensEq3 p (r + shift) - w‖ < 1 / 10 ^ 3))

/-- `jax.jvp` of `point_source.py` 409-469 `mag_point_source` (two or three lenses): the tangent. -/
def magPointSourceTangent (roots : Option (List ℂ) → List ℂ → List ℂ) (nlenses : ℕ) (u du : UserParams)
    (w dw : ℂ) : Except Err ℝ :=
  if nlenses = 2 then
    let p := midParams2 u
    let dp := midParams2Tangent u du
    .ok (sumMagTangent (detJac2 p) (detJac2Tangent p dp) (images2Jvp roots p dp (w - xCM u) (dw - xCMTangent u du)))
  else if nlenses = 3 then
    let p := midParams3 u
    let dp := midParams3Tangent u du
    .ok (sumMagTangent (detJac3 p) (detJac3Tangent p dp) (images3Jvp roots p dp (w - xCM u) (dw - xCMTangent u du)))
  else .error (.valueError "`nlenses` has to be set to be <= 3.")

end Microjax.PointSource
