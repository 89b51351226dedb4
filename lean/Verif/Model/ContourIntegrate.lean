import Verif.Model.Utils
import Verif.Model.PointSource
import Verif.Model.Boundary

/-!
# Model of `src/microjax/caustics/integrate.py`

A contour (the code's complex array) is a list of points `(x, y)`; `_integrate_unif` is modelled over any
ordered field, `_integrate_ld` over `ℝ`.  `_brightness_profile` (35-50) is `Boundary.brightnessProfile`.
-/

namespace Microjax.Contour

open Utils PointSource

/-- `integrate.py` 29-33 `_integrate_unif`: `z` is the list of `(z.real, z.imag)`. -/
def integrateUnif {K : Type*} [Field K] [LinearOrder K] (z : List (K × K)) (tidx : ℕ) : K :=
  let I1 := trapzZeroAvoiding (z.map fun p => (1 / 2) * p.1) (z.map Prod.snd) tidx
  let I2 := trapzZeroAvoiding (z.map fun p => -(1 / 2) * p.2) (z.map Prod.fst) tidx
  I1 + I2

/-- `integrate.py` 24-27 `_integrate_gauss_legendre`: `rule` is the list of nodes and weights returned by
`np.polynomial.legendre.leggauss(n)` (a library call, hence a parameter). -/
noncomputable def integrateGaussLegendre (rule : List (ℝ × ℝ)) (f : ℝ → ℝ) (a b : ℝ) : ℝ :=
  (rule.map fun pw =>
    (1 / 2) * (b - a) * f ((1 / 2) * (b - a) * pw.1 + (1 / 2) * (b + a)) * pw.2).sum

/-- `integrate.py` 58-70 (and 89-101): the point at which the integral from `a` to `b` is split. -/
noncomputable def splitPoint (rho a b : ℝ) : ℝ :=
  let abs_delta := |b - a|
  let split_points := if b > a then b - 2 * rho else b + 2 * rho
  if (1 / 2) * abs_delta ≤ 2 * rho then a + (1 / 2) * abs_delta else split_points

/-- `integrate.py` 55-84 `P`, for one point of the contour.  `quad1`, `quad2` are the two quadratures
(`_integrate_gauss_legendre` with `npts1` and `npts2` points). -/
noncomputable def ldP (quad1 quad2 : (ℝ → ℝ) → ℝ → ℝ → ℝ) (B : ℂ → ℝ) (rho y0 xl yl : ℝ) : ℝ :=
  let a := y0
  let b := yl
  let f := fun y : ℝ => B ((xl : ℂ) + Complex.I * (y : ℂ))
  let I1 := quad1 f a (splitPoint rho a b)
  let I2 := quad2 f (splitPoint rho a b) b
  let I := I1 + I2;
  -(1 / 2) * I

/-- `integrate.py` 86-115 `Q`, for one point of the contour. -/
noncomputable def ldQ (quad1 quad2 : (ℝ → ℝ) → ℝ → ℝ → ℝ) (B : ℂ → ℝ) (rho x0 xl yl : ℝ) : ℝ :=
  let a := x0
  let b := xl
  let f := fun x : ℝ => B ((x : ℂ) + Complex.I * (yl : ℂ))
  let I1 := quad1 f a (splitPoint rho a b)
  let I2 := quad2 f (splitPoint rho a b) b
  let I := I1 + I2;
  (1 / 2) * I

/-- `integrate.py` 118: the centroid `z.sum() / (tidx + 1)`. -/
noncomputable def centroid (z : List (ℝ × ℝ)) (tidx : ℕ) : ℝ × ℝ :=
  ((z.map Prod.fst).sum / ((tidx : ℝ) + 1), (z.map Prod.snd).sum / ((tidx : ℝ) + 1))

/-- `integrate.py` 53-127 `_integrate_ld` with the brightness `B` and the two quadratures as parameters. -/
noncomputable def integrateLdWith (quad1 quad2 : (ℝ → ℝ) → ℝ → ℝ → ℝ) (B : ℂ → ℝ) (rho : ℝ)
    (z : List (ℝ × ℝ)) (tidx : ℕ) : ℝ :=
  let z0 := centroid z tidx
  let P := z.map fun p => ldP quad1 quad2 B rho z0.2 p.1 p.2
  let Q := z.map fun p => ldQ quad1 quad2 B rho z0.1 p.1 p.2
  let I1 := trapzZeroAvoiding P (z.map Prod.fst) tidx
  let I2 := trapzZeroAvoiding Q (z.map Prod.snd) tidx
  I1 + I2

/-- `integrate.py` 53-127 `_integrate_ld`: Gauss-Legendre rules with `npts1 = int(npts / 2)` and
`npts2 = npts - npts1` points (76-77, 107-108); `leggauss` is the library function. -/
noncomputable def integrateLd (leggauss : ℕ → List (ℝ × ℝ)) (leq : ℂ → ℂ) (w0 : ℂ) (rho u1 : ℝ)
    (npts : ℕ) (z : List (ℝ × ℝ)) (tidx : ℕ) : ℝ :=
  let npts1 := npts / 2
  let npts2 := npts - npts1
  integrateLdWith (integrateGaussLegendre (leggauss npts1)) (integrateGaussLegendre (leggauss npts2))
    (fun p => Boundary.brightnessProfile leq p rho w0 u1) rho z tidx

end Microjax.Contour
