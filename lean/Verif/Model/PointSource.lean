import Verif.Model.Utils
import Mathlib.Analysis.SpecialFunctions.Complex.Circle
import Mathlib.Analysis.Complex.Basic
import Mathlib.Analysis.SpecialFunctions.Pow.Real

/-!
# Model of `src/microjax/point_source.py` and of the polynomial coefficients in `coeffs.py`

Complex128 is modelled by `ℂ`, float64 by `ℝ` (exact arithmetic).  Division by zero, which gives
inf/NaN in the code, is Lean's total division here; theorems carry the corresponding hypotheses.
The root finder `poly_roots` is a parameter `roots : List ℂ → List ℂ` (coefficients from the highest
power down, to the list of roots); it is modelled exactly in `Verif.Model.PolySolver`.
-/

noncomputable section

namespace Microjax.PointSource

open Complex ComplexConjugate

/-- The exceptions raised by the modelled functions. -/
inductive Err
  | valueError (msg : String)

/-- Lens parameters of the mid-point frame, the keyword arguments `a, e1, e2, r3, psi` of `lens_eq`
(`e2, r3, psi` are only read for three lenses). A missing keyword (KeyError) is not modelled. -/
structure MidParams where
  a : ℝ
  e1 : ℝ
  e2 : ℝ := 0
  r3 : ℝ := 0
  psi : ℝ := 0

/-- Lens parameters given by the user: `s, q` and, for three lenses, `q3, r3, psi`. -/
structure UserParams where
  s : ℝ
  q : ℝ
  q3 : ℝ := 0
  r3 : ℝ := 0
  psi : ℝ := 0

/-- `point_source.py` 113, 166, 244, 331: `r3_complex = r3 * jnp.exp(1j * psi)`. -/
def r3Complex (p : MidParams) : ℂ := p.r3 * exp (I * p.psi)

/-- `point_source.py` 98-99: `lens_eq`, `nlenses == 1`. -/
def lensEq1 (z : ℂ) : ℂ := z - 1 / conj z

/-- `point_source.py` 101-103: `lens_eq`, `nlenses == 2`. -/
def lensEq2 (p : MidParams) (z : ℂ) : ℂ :=
  z - p.e1 / (conj z - p.a) - (1 - p.e1) / (conj z + p.a)

/-- `point_source.py` 105-119: `lens_eq`, `nlenses == 3`. -/
def lensEq3 (p : MidParams) (z : ℂ) : ℂ :=
  z - p.e1 / (conj z - p.a) - p.e2 / (conj z + p.a)
    - (1 - p.e1 - p.e2) / (conj z - conj (r3Complex p))

/-- `point_source.py` 72-121 `lens_eq`, dispatch on `nlenses`. -/
def lensEq (nlenses : ℕ) (p : MidParams) (z : ℂ) : Except Err ℂ :=
  if nlenses = 1 then .ok (lensEq1 z)
  else if nlenses = 2 then .ok (lensEq2 p z)
  else if nlenses = 3 then .ok (lensEq3 p z)
  else .error (.valueError "`nlenses` has to be set to be <= 3.")

/-- `point_source.py` 149-150: `lens_eq_det_jac`, `nlenses == 1`. -/
def detJac1 (z : ℂ) : ℝ := 1 - 1 / ‖conj z ^ 2‖

/-- `point_source.py` 152-156: `lens_eq_det_jac`, `nlenses == 2`. -/
def detJac2 (p : MidParams) (z : ℂ) : ℝ :=
  1 - ‖p.e1 / (conj z - p.a) ^ 2 + (1 - p.e1) / (conj z + p.a) ^ 2‖ ^ 2

/-- `point_source.py` 158-175: `lens_eq_det_jac`, `nlenses == 3`. -/
def detJac3 (p : MidParams) (z : ℂ) : ℝ :=
  1 - ‖p.e1 / (conj z - p.a) ^ 2 + p.e2 / (conj z + p.a) ^ 2
    + (1 - p.e1 - p.e2) / (conj z - conj (r3Complex p)) ^ 2‖ ^ 2

/-- `point_source.py` 125-177 `lens_eq_det_jac`, dispatch on `nlenses`. -/
def detJac (nlenses : ℕ) (p : MidParams) (z : ℂ) : Except Err ℝ :=
  if nlenses = 1 then .ok (detJac1 z)
  else if nlenses = 2 then .ok (detJac2 p z)
  else if nlenses = 3 then .ok (detJac3 p z)
  else .error (.valueError "`nlenses` has to be set to be <= 3.")

/-! ## Polynomial coefficients (`coeffs.py`), highest power first -/

/-- `coeffs.py` 150-193 `_poly_coeffs_binary`. -/
def polyCoeffsBinary (w : ℂ) (a e1 : ℝ) : List ℂ :=
  let wbar : ℂ := conj w
  let a : ℂ := a
  let e1 : ℂ := e1
  let a2 := a * a
  let a3 := a2 * a
  let a4 := a2 * a2
  let a5 := a3 * a2
  let a6 := a3 * a3
  let e1sq := e1 * e1
  let wbar2 := wbar * wbar
  let w_wbar := w * wbar
  let w_wbar2 := w * wbar2
  let p_0 := -a2 + wbar2
  let p_1 := a2 * w + a * (1 - 2 * e1) - w_wbar2 + wbar
  let p_2 := 2 * a2 * (a2 - wbar2) + 2 * a * wbar * (2 * e1 - 1) - 2 * w_wbar
  let p_3 := 2 * a2 * w_wbar2 - 2 * a4 * w + 2 * a3 * (2 * e1 - 1)
    + 2 * a * w * wbar * (1 - 2 * e1) + a * (2 * e1 - 1) - w
  let p_4 := -a6 + a4 * wbar2 + 2 * a3 * wbar * (1 - 2 * e1) + 2 * a2 * w * wbar
    + 2 * a2 * (2 * e1sq - 2 * e1 + 1) + 2 * a * w * (1 - 2 * e1)
  let p_5 := a6 * w + a5 * (1 - 2 * e1) - a4 * (w * wbar2 + wbar)
    + 2 * a3 * w * wbar * (2 * e1 - 1) + a3 * (2 * e1 - 1)
    + a2 * w * (-4 * e1sq + 4 * e1 - 1)
  [p_0, p_1, p_2, p_3, p_4, p_5]

/-- `coeffs.py` 195-208 `_poly_coeffs_critical_binary` (for one phase `phi`). -/
def polyCoeffsCriticalBinary (phi a e1 : ℝ) : List ℂ :=
  let x : ℂ := exp (-I * phi)
  let a : ℂ := a
  let e1 : ℂ := e1
  [x, 0, -2 * a ^ 2 * x - 1, -4 * a * e1 + 2 * a, a ^ 4 * x - a ^ 2]

/-- `coeffs.py` 15-51 `_poly_coeffs_critical_triple` (for one phase `phi`). -/
def polyCoeffsCriticalTriple (phi : ℝ) (a : ℝ) (r3 : ℂ) (e1 e2 : ℝ) : List ℂ :=
  let x : ℂ := exp (-I * phi)
  let a : ℂ := a
  let e1 : ℂ := e1
  let e2 : ℂ := e2
  let p_0 := x
  let p_1 := -2 * x * r3
  let p_2 := -2 * a ^ 2 * x - 1 + x * r3 ^ 2
  let p_3 := 4 * a ^ 2 * x * r3 - 2 * a * e1 + 2 * a * e2 + 2 * e1 * r3 + 2 * e2 * r3
  let p_4 := a ^ 4 * x - 3 * a ^ 2 * e1 - 3 * a ^ 2 * e2 + 2 * a ^ 2 - 2 * a ^ 2 * x * r3 ^ 2
    + 4 * a * e1 * r3 - 4 * a * e2 * r3 - e1 * r3 ^ 2 - e2 * r3 ^ 2
  let p_5 := -2 * a ^ 4 * x * r3 + 2 * a ^ 2 * e1 * r3 + 2 * a ^ 2 * e2 * r3
    - 2 * a * e1 * r3 ^ 2 + 2 * a * e2 * r3 ^ 2
  let p_6 := a ^ 4 * e1 + a ^ 4 * e2 - a ^ 4 + a ^ 4 * x * r3 ^ 2
    - a ^ 2 * e1 * r3 ^ 2 - a ^ 2 * e2 * r3 ^ 2
  [p_0, p_1, p_2, p_3, p_4, p_5, p_6]

/-- `coeffs.py` 54-60: `shift_cm`, mid-point to centre of mass of the three lenses. -/
def shiftCM (a : ℝ) (r3 : ℂ) (e1 e2 : ℝ) : ℂ :=
  let eps1 : ℝ := e2
  let eps2 : ℝ := e1
  let eps3 : ℝ := 1 - e1 - e2
  ((eps1 * (-a) + eps2 * a + eps3 * r3.re : ℝ) : ℂ) + I * ((r3.im * eps3 : ℝ) : ℂ)

/-- `coeffs.py` 53-148 `_poly_coeffs_triple_CM`, first component (the coefficients). -/
def polyCoeffsTripleCM (w : ℂ) (a : ℝ) (r3 : ℂ) (e1 e2 : ℝ) : List ℂ :=
  let eps1 : ℂ := e2
  let eps2 : ℂ := e1
  let eps3 : ℂ := 1 - e1 - e2
  let shift_cm := shiftCM a r3 e1 e2
  let w_cm := w - shift_cm
  let r1 := -a - shift_cm
  let r2 := a - shift_cm
  let r3 := r3 - shift_cm
  let cc1 := r1
  let cc2 := r2
  let cc3 := r3
  let aa := -(cc1 + cc2 + cc3)
  let bb := cc1 * cc2 + cc1 * cc3 + cc2 * cc3
  let cc := -cc1 * cc2 * cc3
  let dd := eps1 * cc2 * cc3 + eps2 * cc1 * cc3 + eps3 * cc1 * cc2
  let hh39 := 1
  let hh38 := 3 * aa
  let hh37 := 3 * bb + 3 * aa * aa
  let hh36 := 3 * cc + 6 * aa * bb + aa * aa * aa
  let hh35 := 6 * aa * cc + 3 * bb * bb + 3 * aa * aa * bb
  let hh34 := 6 * bb * cc + 3 * aa * aa * cc + 3 * aa * bb * bb
  let hh33 := 3 * cc * cc + 6 * aa * bb * cc + bb * bb * bb
  let hh32 := 3 * aa * cc * cc + 3 * bb * bb * cc
  let hh31 := 3 * bb * cc * cc
  let hh30 := cc * cc * cc
  let hh28 := 1
  let hh27 := 3 * aa
  let hh26 := dd + 2 * bb + 3 * aa * aa
  let hh25 := 2 * aa * dd + 4 * aa * bb + aa * aa * aa + 2 * cc
  let hh24 := 2 * dd * bb + dd * aa * aa + 4 * aa * cc + 2 * aa * aa * bb + bb * bb
  let hh23 := 2 * dd * cc + 2 * dd * aa * bb + 2 * aa * aa * cc + aa * bb * bb + 2 * bb * cc
  let hh22 := 2 * cc * aa * dd + dd * bb * bb + 2 * aa * bb * cc + cc * cc
  let hh21 := 2 * bb * cc * dd + aa * cc * cc
  let hh20 := cc * cc * dd
  let hh17 := 1
  let hh16 := 3 * aa
  let hh15 := 2 * dd + 3 * aa * aa + bb
  let hh14 := 4 * aa * dd + aa * aa * aa + 2 * aa * bb + cc
  let hh13 := dd * dd + 2 * aa * aa * dd + 2 * bb * dd + bb * aa * aa + 2 * aa * cc
  let hh12 := aa * dd * dd + 2 * aa * bb * dd + 2 * cc * dd + cc * aa * aa
  let hh11 := bb * dd * dd + 2 * aa * cc * dd
  let hh10 := cc * dd * dd
  let hh06 := 1
  let hh05 := 3 * aa
  let hh04 := 3 * dd + 3 * aa * aa
  let hh03 := 6 * aa * dd + aa * aa * aa
  let hh02 := 3 * dd * dd + 3 * aa * aa * dd
  let hh01 := 3 * aa * dd * dd
  let hh00 := dd * dd * dd
  let ww := w_cm
  let ww1 := ww - cc1
  let ww2 := ww - cc2
  let ww3 := ww - cc3
  let wwbar := conj ww
  let ww1bar := conj ww1
  let ww2bar := conj ww2
  let ww3bar := conj ww3
  let wwaa := ww1bar + ww2bar + ww3bar
  let wwbb := ww1bar * ww2bar + ww2bar * ww3bar + ww1bar * ww3bar
  let wwcc := ww1bar * ww2bar * ww3bar
  let wwdd := eps1 * ww2bar * ww3bar + eps2 * ww1bar * ww3bar + eps3 * ww1bar * ww2bar
  let p_10 := hh39 * wwcc
  let p_9 := hh38 * wwcc + hh28 * wwbb - (ww * wwcc + wwdd) * hh39
  let p_8 := hh37 * wwcc + hh27 * wwbb + hh17 * wwaa - (ww * wwcc + wwdd) * hh38
    - (ww * wwbb + wwaa - wwbar) * hh28
  let p_7 := hh36 * wwcc + hh26 * wwbb + hh16 * wwaa + hh06 - (ww * wwcc + wwdd) * hh37
    - (ww * wwbb + wwaa - wwbar) * hh27 - (ww * wwaa + 1) * hh17
  let p_6 := hh35 * wwcc + hh25 * wwbb + hh15 * wwaa + hh05 - (ww * wwcc + wwdd) * hh36
    - (ww * wwbb + wwaa - wwbar) * hh26 - (ww * wwaa + 1) * hh16 - ww * hh06
  let p_5 := hh34 * wwcc + hh24 * wwbb + hh14 * wwaa + hh04 - (ww * wwcc + wwdd) * hh35
    - (ww * wwbb + wwaa - wwbar) * hh25 - (ww * wwaa + 1) * hh15 - ww * hh05
  let p_4 := hh33 * wwcc + hh23 * wwbb + hh13 * wwaa + hh03 - (ww * wwcc + wwdd) * hh34
    - (ww * wwbb + wwaa - wwbar) * hh24 - (ww * wwaa + 1) * hh14 - ww * hh04
  let p_3 := hh32 * wwcc + hh22 * wwbb + hh12 * wwaa + hh02 - (ww * wwcc + wwdd) * hh33
    - (ww * wwbb + wwaa - wwbar) * hh23 - (ww * wwaa + 1) * hh13 - ww * hh03
  let p_2 := hh31 * wwcc + hh21 * wwbb + hh11 * wwaa + hh01 - (ww * wwcc + wwdd) * hh32
    - (ww * wwbb + wwaa - wwbar) * hh22 - (ww * wwaa + 1) * hh12 - ww * hh02
  let p_1 := hh30 * wwcc + hh20 * wwbb + hh10 * wwaa + hh00 - (ww * wwcc + wwdd) * hh31
    - (ww * wwbb + wwaa - wwbar) * hh21 - (ww * wwaa + 1) * hh11 - ww * hh01
  let p_0 := -(ww * wwcc + wwdd) * hh30 - (ww * wwbb + wwaa - wwbar) * hh20
    - (ww * wwaa + 1) * hh10 - ww * hh00
  [p_10, p_9, p_8, p_7, p_6, p_5, p_4, p_3, p_2, p_1, p_0]

/-! ## Images and magnification -/

/-- `point_source.py` 317-323: the two images of a single lens. -/
def images1 (w : ℂ) : List (ℂ × Bool) :=
  let w_abs_sq := w.re ^ 2 + w.im ^ 2
  let z1 := (1 / 2 : ℝ) * w * ((1 + Real.sqrt (1 + 4 / w_abs_sq) : ℝ) : ℂ)
  let z2 := (1 / 2 : ℝ) * w * ((1 - Real.sqrt (1 + 4 / w_abs_sq) : ℝ) : ℂ)
  [(z1, true), (z2, true)]

/-- `point_source.py` 350-353 (and 337-338): attach the validity mask
`|lens_eq(z) - w| < tol` to a list of roots. -/
def withMask (leq : ℂ → ℂ) (tol : ℝ) (w : ℂ) (zs : List ℂ) : List (ℂ × Bool) :=
  zs.map fun z => (z, decide (‖leq z - w‖ < tol))

/-- `point_source.py` 325-327, 344-355: binary branch.  `roots` is the root finder; its first
argument is the optional initial guess (`custom_init`/`z_init`, 344-347). -/
def images2 (roots : Option (List ℂ) → List ℂ → List ℂ) (init : Option (List ℂ))
    (p : MidParams) (w : ℂ) : List (ℂ × Bool) :=
  withMask (lensEq2 p) (1 / 10 ^ 6) w (roots init (polyCoeffsBinary w p.a p.e1))

/-- `point_source.py` 329-339: triple branch; the roots are shifted back by `shift_cm`; an initial
guess is ignored by the code in this branch. -/
def images3 (roots : Option (List ℂ) → List ℂ → List ℂ) (p : MidParams) (w : ℂ) :
    List (ℂ × Bool) :=
  let r3 := r3Complex p
  withMask (lensEq3 p) (1 / 10 ^ 3) w
    ((roots none (polyCoeffsTripleCM w p.a r3 p.e1 p.e2)).map (· + shiftCM p.a r3 p.e1 p.e2))

/-- `point_source.py` 268-355 `_images_point_source` for one source position. -/
def imagesPointSource (roots : Option (List ℂ) → List ℂ → List ℂ) (nlenses : ℕ)
    (init : Option (List ℂ)) (p : MidParams) (w : ℂ) : Except Err (List (ℂ × Bool)) :=
  if nlenses = 1 then .ok (images1 w)
  else if nlenses = 2 then .ok (images2 roots init p w)
  else if nlenses = 3 then .ok (images3 roots p w)
  else .error (.valueError "`nlenses` has to be set to be <= 3.")

/-- `point_source.py` 443-446: mid-point parameters of a binary. -/
def midParams2 (u : UserParams) : MidParams :=
  { a := (1 / 2) * u.s, e1 := u.q / (1 + u.q) }

/-- `point_source.py` 457-460: mid-point parameters of a triple. -/
def midParams3 (u : UserParams) : MidParams :=
  { a := (1 / 2) * u.s, e1 := u.q / (1 + u.q + u.q3), e2 := 1 / (1 + u.q + u.q3),
    r3 := u.r3, psi := u.psi }

/-- `point_source.py` 447, 461, 263: `x_cm = a * (1 - q) / (1 + q)`. -/
def xCM (u : UserParams) : ℝ := (1 / 2) * u.s * (1 - u.q) / (1 + u.q)

/-- `point_source.py` 467-469: `((1 / |det|) * z_mask).sum(axis=0)`. -/
def sumMag (det : ℂ → ℝ) (zs : List (ℂ × Bool)) : ℝ :=
  (zs.map fun zm => (1 / |det zm.1|) * (if zm.2 then 1 else 0)).sum

/-- `point_source.py` 409-469 `mag_point_source` for one source position. -/
def magPointSource (roots : Option (List ℂ) → List ℂ → List ℂ) (nlenses : ℕ) (u : UserParams)
    (w : ℂ) : Except Err ℝ :=
  if nlenses = 1 then .ok (sumMag detJac1 (images1 w))
  else if nlenses = 2 then
    let p := midParams2 u
    .ok (sumMag (detJac2 p) (images2 roots none p (w - xCM u)))
  else if nlenses = 3 then
    let p := midParams3 u
    .ok (sumMag (detJac3 p) (images3 roots p (w - xCM u)))
  else .error (.valueError "`nlenses` has to be set to be <= 3.")

/-- `point_source.py` 357-407 `_images_point_source_sequential`: `fn` is `_images_point_source` for
one source with an optional initial guess.  `lax.scan` carries the previous image vector. The result is
the list of columns (the code returns the transpose).  The path must be non-empty (`w[0]`). -/
def imagesSequential (fn : ℂ → Option (List ℂ) → List (ℂ × Bool)) :
    List ℂ → List (List (ℂ × Bool))
  | [] => []
  | w0 :: ws =>
    let first := fn w0 none
    first :: go (first.map Prod.fst) ws
where
  /-- the scan over `w[1:]` (396-400) -/
  go (z_prev : List ℂ) : List ℂ → List (List (ℂ × Bool))
    | [] => []
    | w :: ws =>
      let zm := fn w (some z_prev)
      zm :: go (zm.map Prod.fst) ws

/-! ## Critical curves and caustics -/

/-- `point_source.py` 219-221 `apply_match_points` with `dist = |b - a|`. -/
def applyMatchPoints (carry z : List ℂ) : List ℂ :=
  (Utils.matchPoints (fun a b : ℂ => ‖b - a‖) carry z).map fun i => Jnp.get 0 z i

/-- `point_source.py` 256-257: `init = z_cr[0]`, `lax.scan(apply_match_points, init, z_cr)`.
One row per phase. -/
def trackBranches (z_cr : List (List ℂ)) : List (List ℂ) :=
  go (z_cr.headD []) z_cr
where
  /-- the scan -/
  go (carry : List ℂ) : List (List ℂ) → List (List ℂ)
    | [] => []
    | z :: zs =>
      let r := applyMatchPoints carry z
      r :: go r zs

/-- `jnp.linspace(-π, π, npts)` (217); `npts = 1` gives `[-π]`. -/
def linspacePhi (npts : ℕ) : List ℝ :=
  (List.range npts).map fun i : ℕ => -Real.pi + (i : ℝ) * (2 * Real.pi / ((npts : ℝ) - 1))

/-- `point_source.py` 179-266 `critical_and_caustic_curves`: pairs `(z_cr, z_ca)` per phase (rows) and
branch (the code returns the transpose for 2 and 3 lenses, and single arrays for one lens, modelled as
one branch). -/
def criticalAndCaustic (roots : List ℂ → List ℂ) (npts nlenses : ℕ) (u : UserParams) :
    Except Err (List (List (ℂ × ℂ))) :=
  let phi := linspacePhi npts
  if nlenses = 1 then .ok (phi.map fun f : ℝ => [(exp (-I * f), 0)])
  else if nlenses = 2 then
    let p := midParams2 u
    let z_cr := phi.map fun f : ℝ => roots (polyCoeffsCriticalBinary f p.a p.e1)
    .ok ((trackBranches z_cr).map fun row =>
      row.map fun z => (z + xCM u, lensEq2 p z + xCM u))
  else if nlenses = 3 then
    let p := midParams3 u
    let z_cr := phi.map fun f : ℝ => roots (polyCoeffsCriticalTriple f p.a (r3Complex p) p.e1 p.e2)
    .ok ((trackBranches z_cr).map fun row =>
      row.map fun z => (z + xCM u, lensEq3 p z + xCM u))
  else .error (.valueError "`nlenses` has to be set to be <= 3.")

end Microjax.PointSource
