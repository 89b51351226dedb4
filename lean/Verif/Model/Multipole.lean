import Verif.Model.PointSource
import Mathlib.Analysis.SpecialFunctions.Gamma.Basic

/-!
# Model of `src/microjax/multipole.py` (hexadecapole approximation)

complex128 is `ℂ`, float64 is `ℝ` (exact arithmetic).  The code works elementwise on arrays of images; the
model of `_mag_hexadecapole_cassan` is for one image.  A division by zero (an image on the critical curve or on
a lens), inf/NaN in the code, is Lean's total division.
-/

noncomputable section

namespace Microjax.Multipole

open Complex ComplexConjugate PointSource

/-- The stack `W = [W2, W3, W4, W5, W6]` (`multipole.py` 43). -/
structure WStack where
  W2 : ℂ
  W3 : ℂ
  W4 : ℂ
  W5 : ℂ
  W6 : ℂ

/-- `multipole.py` 46. -/
def gammaLD (u1 : ℝ) : ℝ := 2 * u1 / (3 - u1)

/-- `multipole.py` 52: monopole magnification. -/
def mu0 (W2 : ℂ) : ℝ := 1 / (1 - ‖W2‖ ^ 2)

/-- `multipole.py` 49 `akl` (always called with `mu0`). -/
def akl (W2 Q : ℂ) : ℂ := (mu0 W2 : ℂ) * (conj Q + conj W2 * Q)

/-- The values `a(p-n, n)` of order p = 1 (`multipole.py` 55-56). -/
structure Order1 where
  a10 : ℂ
  a01 : ℂ

/-- `multipole.py` 55-56. -/
def order1 (W : WStack) : Order1 :=
  { a10 := (mu0 W.W2 : ℂ) * (1 + conj W.W2)
    a01 := (mu0 W.W2 : ℂ) * I * (1 - conj W.W2) }

/-- The values `a(p-n, n)` of order p = 2 (`multipole.py` 58-64). -/
structure Order2 where
  a20 : ℂ
  a11 : ℂ
  a02 : ℂ

/-- `multipole.py` 58-64. -/
def order2 (W : WStack) (o1 : Order1) : Order2 :=
  let Q20 := W.W3 * o1.a10 * o1.a10
  let Q11 := W.W3 * o1.a10 * o1.a01
  let Q02 := W.W3 * o1.a01 * o1.a01
  { a20 := akl W.W2 Q20
    a11 := akl W.W2 Q11
    a02 := akl W.W2 Q02 }

/-- The values `a(p-n, n)` of order p = 3 (`multipole.py` 66-74). -/
structure Order3 where
  a30 : ℂ
  a21 : ℂ
  a12 : ℂ
  a03 : ℂ

/-- `multipole.py` 66-74. -/
def order3 (W : WStack) (o1 : Order1) (o2 : Order2) : Order3 :=
  let Q30 := W.W3 * 3 * o2.a20 * o1.a10 + W.W4 * o1.a10 * o1.a10 * o1.a10
  let Q21 := W.W3 * (2 * o2.a11 * o1.a10 + o1.a01 * o2.a20) + W.W4 * o1.a01 * o1.a10 * o1.a10
  let Q12 := W.W3 * (2 * o2.a11 * o1.a01 + o1.a10 * o2.a02) + W.W4 * o1.a10 * o1.a01 * o1.a01
  let Q03 := W.W3 * 3 * o2.a02 * o1.a01 + W.W4 * o1.a01 * o1.a01 * o1.a01
  { a30 := akl W.W2 Q30
    a21 := akl W.W2 Q21
    a12 := akl W.W2 Q12
    a03 := akl W.W2 Q03 }

/-- The values `a(p-n, n)` of order p = 4 (`multipole.py` 76-106). -/
structure Order4 where
  a40 : ℂ
  a31 : ℂ
  a22 : ℂ
  a13 : ℂ
  a04 : ℂ

/-- `multipole.py` 76-106. -/
def order4 (W : WStack) (o1 : Order1) (o2 : Order2) (o3 : Order3) : Order4 :=
  let Q40 := W.W3 * (4 * o3.a30 * o1.a10 + 3 * o2.a20 * o2.a20) + W.W4 * 6 * o2.a20 * o1.a10 * o1.a10 + W.W5 *
      o1.a10 * o1.a10 * o1.a10 * o1.a10
  let Q31 := W.W3 * (3 * o3.a21 * o1.a10 + 3 * o2.a11 * o2.a20 + o1.a01 * o3.a30) + W.W4 * 3 * (o2.a11 * o1.a10 *
      o1.a10 + o1.a01 * o2.a20 * o1.a10) + W.W5 * o1.a01 * o1.a10 * o1.a10 * o1.a10
  let Q22 := W.W3 * (2 * o3.a12 * o1.a10 + 2 * o2.a11 * o2.a11 + o2.a02 * o2.a20 + 2 * o3.a21 * o1.a01) + W.W4 *
      (o2.a02 * o1.a10 * o1.a10 + 4 * o2.a11 * o1.a01 * o1.a10 + o1.a01 * o1.a01 * o2.a20) + W.W5 * o1.a01
      * o1.a01 * o1.a10 * o1.a10
  let Q13 := W.W3 * (3 * o3.a12 * o1.a01 + 3 * o2.a11 * o2.a02 + o1.a10 * o3.a03) + W.W4 * 3 * (o2.a11 * o1.a01 *
      o1.a01 + o1.a10 * o2.a02 * o1.a01) + W.W5 * o1.a10 * o1.a01 * o1.a01 * o1.a01
  let Q04 := W.W3 * (4 * o3.a03 * o1.a01 + 3 * o2.a02 * o2.a02) + W.W4 * 6 * o2.a02 * o1.a01 * o1.a01 + W.W5 *
      o1.a01 * o1.a01 * o1.a01 * o1.a01
  { a40 := akl W.W2 Q40
    a31 := akl W.W2 Q31
    a22 := akl W.W2 Q22
    a13 := akl W.W2 Q13
    a04 := akl W.W2 Q04 }

/-- The values `a(p-n, n)` of order p = 5 (`multipole.py` 108-202). -/
structure Order5 where
  a50 : ℂ
  a41 : ℂ
  a32 : ℂ
  a23 : ℂ
  a14 : ℂ
  a05 : ℂ

/-- `multipole.py` 108-202. -/
def order5 (W : WStack) (o1 : Order1) (o2 : Order2) (o3 : Order3) (o4 : Order4) : Order5 :=
  let Q50 := W.W3 * (5 * o4.a40 * o1.a10 + 10 * o2.a20 * o3.a30) + W.W4 * (10 * o3.a30 * o1.a10 * o1.a10 + 15 *
      o2.a20 * o2.a20 * o1.a10) + W.W5 * 10 * o2.a20 * o1.a10 * o1.a10 * o1.a10 + W.W6 * o1.a10 * o1.a10 *
      o1.a10 * o1.a10 * o1.a10
  let Q41 := W.W3 * (4 * o4.a31 * o1.a10 + 4 * o2.a11 * o3.a30 + 6 * o3.a21 * o2.a20 + o1.a01 * o4.a40) + W.W4 *
      (6 * o3.a21 * o1.a10 * o1.a10 + 12 * o2.a11 * o2.a20 * o1.a10 + 3 * o1.a01 * o2.a20 * o2.a20 + 4 *
      o1.a01 * o1.a10 * o3.a30) + W.W5 * (4 * o2.a11 * o1.a10 * o1.a10 * o1.a10 + 6 * o1.a01 * o1.a10 *
      o1.a10 * o2.a20) + W.W6 * o1.a01 * o1.a10 * o1.a10 * o1.a10 * o1.a10
  let Q32 := W.W3 * (3 * o4.a22 * o1.a10 + 6 * o2.a11 * o3.a21 + 3 * o3.a12 * o2.a20 + o2.a02 * o3.a30 + 2 *
      o4.a31 * o1.a01) + W.W4 * (3 * o3.a12 * o1.a10 * o1.a10 + 6 * o2.a11 * o2.a11 * o1.a10 + 3 * o2.a02
      * o2.a20 * o1.a10 + 6 * o1.a01 * o2.a11 * o2.a20 + 6 * o1.a01 * o3.a21 * o1.a10 + o1.a01 * o1.a01 *
      o3.a30) + W.W5 * (o2.a02 * o1.a10 * o1.a10 * o1.a10 + 6 * o2.a11 * o1.a01 * o1.a10 * o1.a10 + 3 *
      o1.a01 * o1.a01 * o1.a10 * o2.a20) + W.W6 * o1.a01 * o1.a01 * o1.a10 * o1.a10 * o1.a10
  let Q23 := W.W3 * (3 * o4.a22 * o1.a01 + 6 * o2.a11 * o3.a12 + 3 * o3.a21 * o2.a02 + o2.a20 * o3.a03 + 2 *
      o4.a13 * o1.a10) + W.W4 * (3 * o3.a21 * o1.a01 * o1.a01 + 6 * o2.a11 * o2.a11 * o1.a01 + 3 * o2.a20
      * o2.a02 * o1.a01 + 6 * o1.a10 * o2.a11 * o2.a02 + 6 * o1.a10 * o3.a12 * o1.a01 + o1.a10 * o1.a10 *
      o3.a03) + W.W5 * (o2.a20 * o1.a01 * o1.a01 * o1.a01 + 6 * o2.a11 * o1.a10 * o1.a01 * o1.a01 + 3 *
      o1.a10 * o1.a10 * o1.a01 * o2.a02) + W.W6 * o1.a10 * o1.a10 * o1.a01 * o1.a01 * o1.a01
  let Q14 := W.W3 * (4 * o4.a13 * o1.a01 + 4 * o2.a11 * o3.a03 + 6 * o3.a12 * o2.a02 + o1.a10 * o4.a04) + W.W4 *
      (6 * o3.a12 * o1.a01 * o1.a01 + 12 * o2.a11 * o2.a02 * o1.a01 + 3 * o1.a10 * o2.a02 * o2.a02 + 4 *
      o1.a10 * o1.a01 * o3.a03) + W.W5 * (4 * o2.a11 * o1.a01 * o1.a01 * o1.a01 + 6 * o1.a10 * o1.a01 *
      o1.a01 * o2.a02) + W.W6 * o1.a10 * o1.a01 * o1.a01 * o1.a01 * o1.a01
  let Q05 := W.W3 * (5 * o4.a04 * o1.a01 + 10 * o2.a02 * o3.a03) + W.W4 * (10 * o3.a03 * o1.a01 * o1.a01 + 15 *
      o2.a02 * o2.a02 * o1.a01) + W.W5 * 10 * o2.a02 * o1.a01 * o1.a01 * o1.a01 + W.W6 * o1.a01 * o1.a01 *
      o1.a01 * o1.a01 * o1.a01
  { a50 := akl W.W2 Q50
    a41 := akl W.W2 Q41
    a32 := akl W.W2 Q32
    a23 := akl W.W2 Q23
    a14 := akl W.W2 Q14
    a05 := akl W.W2 Q05 }

/-- `multipole.py` 205-214. -/
def mu2 (o1 : Order1) (o2 : Order2) (o3 : Order3) : ℝ :=
  1 / 4 * (o1.a01 * conj (o3.a12 + o3.a30) + conj o1.a10 * (o3.a03 + o3.a21)
    + 2 * o2.a02 * conj o2.a11 + 2 * o2.a11 * conj o2.a20).im

/-- `multipole.py` 215-229. -/
def mu4 (o1 : Order1) (o2 : Order2) (o3 : Order3) (o4 : Order4) (o5 : Order5) : ℝ :=
  1 / 8 * ((o5.a05 + 2 * o5.a23 + o5.a41) * conj o1.a10
    + 4 * o4.a04 * conj o2.a11
    + 4 * (o4.a13 + o4.a31) * conj o2.a20
    + 6 * o3.a12 * conj o3.a21
    + 6 * o3.a21 * conj o3.a30
    + o3.a03 * (6 * conj o3.a12 + 2 * conj o3.a30)
    + 4 * o2.a02 * conj (o4.a13 + o4.a31)
    + 4 * o2.a11 * conj o4.a40
    + o1.a01 * conj (o5.a14 + 2 * o5.a32 + o5.a50)).im

/-- Per-image result `(mu_ps, delta_mu_quad, delta_mu_hex)`. -/
structure Terms where
  ps : ℝ
  quad : ℝ
  hex : ℝ

/-- `multipole.py` 24-235 `_mag_hexadecapole_cassan` for one image. -/
def cassan (W : WStack) (rho u1 : ℝ) : Terms :=
  let o1 := order1 W
  let o2 := order2 W o1
  let o3 := order3 W o1 o2
  let o4 := order4 W o1 o2 o3
  let o5 := order5 W o1 o2 o3 o4
  { ps := mu0 W.W2
    quad := 1 / 2 * mu2 o1 o2 o3 * (1 - 1 / 5 * gammaLD u1) * rho ^ 2
    hex := 1 / 24 * mu4 o1 o2 o3 o4 o5 * (1 - 11 / 35 * gammaLD u1) * rho ^ 4 }

/-- `multipole.py` 281: `factorial = exp(gammaln(n + 1))`. -/
def factorial (n : ℕ) : ℝ := Real.exp (Real.log (Real.Gamma (n + 1)))

/-- `multipole.py` 284: `W(k)` for one lens. -/
def wk1 (z : ℂ) (k : ℕ) : ℂ := (-1) ^ (k - 1) * (factorial (k - 1) : ℂ) * 1 / z ^ k

/-- `multipole.py` 286-291: `W(k)` for two lenses. -/
def wk2 (p : MidParams) (z : ℂ) (k : ℕ) : ℂ :=
  (-1) ^ (k - 1) * (factorial (k - 1) : ℂ) * (p.e1 / (z - p.a) ^ k + (1 - p.e1) / (z + p.a) ^ k)

/-- `multipole.py` 293-302: `W(k)` for three lenses.  The third lens is at the real number `r3`; `psi` is not
read. -/
def wk3 (p : MidParams) (z : ℂ) (k : ℕ) : ℂ :=
  (-1) ^ (k - 1) * (factorial (k - 1) : ℂ) *
    (p.e1 / (z - p.a) ^ k + p.e2 / (z + p.a) ^ k + (1 - p.e1 - p.e2) / (z - p.r3) ^ k)

/-- `multipole.py` 306: `Ws = vmap(W)(jnp.arange(2, 7))`. -/
def wStack (wk : ℕ → ℂ) : WStack :=
  { W2 := wk 2, W3 := wk 3, W4 := wk 4, W5 := wk 5, W6 := wk 6 }

/-- `multipole.py` 283-304: the branch on `nlenses`. -/
def wBranch (nlenses : ℕ) (p : MidParams) : Except Err (ℂ → ℕ → ℂ) :=
  if nlenses = 1 then .ok wk1
  else if nlenses = 2 then .ok (wk2 p)
  else if nlenses = 3 then .ok (wk3 p)
  else .error (.valueError "`nlenses` has to be set to be <= 3.")

/-- `multipole.py` 312-316: masked sums over the images. -/
def sumTerms (wk : ℂ → ℕ → ℂ) (zs : List (ℂ × Bool)) (rho u1 : ℝ) : ℝ × ℝ :=
  let ts := zs.map fun zm => ((if zm.2 then (1 : ℝ) else 0), cassan (wStack (wk zm.1)) rho u1)
  let mu_multi := (ts.map fun t => t.1 * |t.2.ps + t.2.quad + t.2.hex|).sum
  let mu_quad_abs := (ts.map fun t => t.1 * |t.2.quad|).sum
  let mu_hex_abs := (ts.map fun t => t.1 * |t.2.hex|).sum
  (mu_multi, mu_quad_abs + mu_hex_abs)

/-- `multipole.py` 237-316 `mag_hexadecapole` for the images of one source position. -/
def magHexadecapole (nlenses : ℕ) (p : MidParams) (zs : List (ℂ × Bool)) (rho u1 : ℝ) :
    Except Err (ℝ × ℝ) :=
  match wBranch nlenses p with
  | .error e => .error e
  | .ok wk => .ok (sumTerms wk zs rho u1)

end Microjax.Multipole
