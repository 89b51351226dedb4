import Verif.Model.Jnp
import Mathlib.Analysis.SpecialFunctions.Complex.Log
import Mathlib.Analysis.SpecialFunctions.Trigonometric.Basic
import Mathlib.Analysis.SpecialFunctions.Trigonometric.Deriv
import Mathlib.Data.Real.Sign

/-!
# Model of `fastlens/special.py`

float64 is `ℝ`, complex128 is `ℂ`.  The elementwise functions are modelled for one argument.  A NaN that the code
writes on purpose is `none`.
-/

noncomputable section

namespace Microjax.Special

open Complex

/-! ### Gamma function -/

/-- `special.py` 25: the Stirling coefficients. -/
def stirling : List ℝ := [1 / 12, -1 / 360, 1 / 1260, -1 / 1680, 1 / 1188]

/-- `special.py` 35-44 `compute_case` (one argument; `N = 16`, `K = 5`).  The loop variable `t` is multiplied by
`t²` each time, so it runs through the odd powers of `z + N`. -/
def gammaCase (z : ℂ) : ℂ :=
  let c : ℂ := (Real.log (2 * Real.pi) / 2 : ℝ)
  let t : ℂ := z + 16
  let gam : ℂ := ((List.range 5).map fun k : ℕ => ((stirling.getD k 0 : ℝ) : ℂ) / t ^ (2 * k + 1)).sum
  let u : ℂ := ((List.range 16).map fun k : ℕ => z + (k : ℂ)).prod
  let lg := c - (z + 16) + (z + 16 - 0.5) * Complex.log (z + 16) - Complex.log u + gam
  Complex.exp lg

/-- `special.py` 46-50 `compute_reflection`. -/
def gammaReflection (z : ℂ) : ℂ :=
  (Real.pi : ℂ) / (Complex.sin ((Real.pi : ℂ) * z) * gammaCase (1 - z))

/-- `special.py` 13-64 `gamma_`; `none` is NaN (line 62). -/
def gamma (z : ℂ) : Option ℂ :=
  if z.re ≤ 0 ∧ z.re = (⌊z.re⌋ : ℤ) then none
  else if z.re ≤ 0 then some (gammaReflection z) else some (gammaCase z)

/-- `special.py` 76-88: the coefficients of the asymptotic series of the digamma function, as written. -/
def digammaCoeffs : List ℝ :=
  [0.08333333333333333, -0.008333333333333333, 0.003968253968253968, -0.004166666666666667, 0.007575757575757576,
    -0.021092796092796094, 0.08333333333333333, -0.4432598039215686]

/-- `jnp.polyval` for a complex argument: Horner evaluation, highest power first (used in `special.py` 111). -/
def cpolyval (c : List ℝ) (x : ℂ) : ℂ := List.foldl (fun (acc : ℂ) (ck : ℝ) => acc * x + (ck : ℂ)) 0 c

/-- `special.py` 67-113 `digamma_` (one argument; the reshaping of 89-91 and 113 is dropped).  A division by zero is
`0` here and infinity or NaN in the code; it happens at the poles `0, -1, -2, …` of the digamma function, and in
`π / tan` at the negative half integers, where the code divides by a huge number. -/
def digamma (z : ℂ) : ℂ :=
  let negative_real := z.re < 0
  let reflection : ℂ := (Real.pi : ℂ) / Complex.tan ((Real.pi : ℂ) * z)
  let z1 : ℂ := if negative_real then 1 - z else z
  let psi1 : ℂ := if negative_real then -reflection else 0
  let small := z1.re < 8
  let n_add : ℂ := ((List.range 8).map fun j : ℕ => 1 / (z1 + (j : ℂ))).sum
  let z2 : ℂ := if small then z1 + 8 else z1
  let psi2 : ℂ := if small then psi1 - n_add else psi1
  let t : ℂ := 1 / z2
  let psi3 : ℂ := psi2 + (Complex.log z2 - 0.5 * t)
  let t2 : ℂ := t * t
  psi3 - t2 * cpolyval digammaCoeffs.reverse t2

/-- `special.py` 116-122 `gamma_jvp`: value and tangent; a NaN of `gamma_` makes both NaN. -/
def gammaJvp (x x_dot : ℂ) : Option (ℂ × ℂ) :=
  (gamma x).map fun primal_out => (primal_out, primal_out * digamma x * x_dot)

/-! ### Elliptic integrals -/

/-- `special.py` 129-131 `agm_step`. -/
def agmStep (p : ℝ × ℝ) : ℝ × ℝ := ((p.1 + p.2) / 2, Real.sqrt (p.1 * p.2))

/-- `special.py` 128-134 `agm`. -/
def agm (a b : ℝ) (num_iter : ℕ) : ℝ := (agmStep^[num_iter] (a, b)).1

/-- `special.py` 137-142 `ellipk_`. -/
def ellipk_ (m : ℝ) : ℝ := Real.pi / (2 * agm 1 (Real.sqrt (1 - m)) 5)

/-- `special.py` 158-163 `agm_step2` on `(a, b, s_sum, n)`. -/
def agmStep2 (p : ℝ × ℝ × ℝ × ℕ) : ℝ × ℝ × ℝ × ℕ :=
  let a := p.1
  let b := p.2.1
  let s_sum := p.2.2.1
  let n := p.2.2.2
  let c_next := 0.5 * (a - b)
  ((a + b) / 2, Real.sqrt (a * b), s_sum + 2 ^ (n - 1) * c_next ^ 2, n + 1)

/-- `special.py` 157-170 `agm2`: `(a, s_sum)`. -/
def agm2 (a0 b0 s_sum0 : ℝ) (num_iter : ℕ) : ℝ × ℝ :=
  let r := agmStep2^[num_iter] (a0, b0, s_sum0, 1)
  (r.1, r.2.2.1)

/-- `special.py` 173-181 `ellipe_`. -/
def ellipe_ (m : ℝ) : ℝ :=
  let a0 : ℝ := 1
  let b0 := Real.sqrt (1 - m)
  let c0 := Real.sqrt |a0 ^ 2 - b0 ^ 2|
  let r := agm2 a0 b0 (0.5 * c0 ^ 2) 5
  Real.pi / (2 * r.1) * (1 - r.2)

/-- `special.py` 211-217 `ellipk`. -/
def ellipk (m : ℝ) : ℝ :=
  if m > 0 then ellipk_ m else 1 / Real.sqrt (|m| + 1) * ellipk_ (|m| / (|m| + 1))

/-- `special.py` 220-226 `ellipe`. -/
def ellipe (m : ℝ) : ℝ :=
  if m > 0 then ellipe_ m else Real.sqrt (|m| + 1) * ellipe_ (|m| / (|m| + 1))

/-- `special.py` 145-154 `ellipk_jvp`: value and tangent. -/
def ellipkJvp (m m_dot : ℝ) : ℝ × ℝ :=
  (ellipk_ m, m_dot * ((ellipe_ m - (1 - m) * ellipk_ m) / (2 * m * (1 - m))))

/-- `special.py` 184-192 `ellipe_jvp`: value and tangent. -/
def ellipeJvp (m m_dot : ℝ) : ℝ × ℝ :=
  (ellipe_ m, m_dot * ((ellipe_ m - ellipk_ m) / (2 * m)))

/-! ### Bessel functions -/

/-- `jnp.polyval`: Horner evaluation, highest power first. -/
def polyval (c : List ℝ) (x : ℝ) : ℝ := c.foldl (fun acc ck => acc * x + ck) 0

/-- The Cephes coefficient tables and constants used by `j0_`, `j1_` (`special.py` 236-400); they enter the model as
data so that the theorems hold for every table. -/
structure BesselTables where
  /-- 236-241 -/ RP1 : List ℝ
  /-- 242-252 -/ RQ1 : List ℝ
  /-- 254-262 -/ PP1 : List ℝ
  /-- 263-271 -/ PQ1 : List ℝ
  /-- 273-282 -/ QP1 : List ℝ
  /-- 283-292 -/ QQ1 : List ℝ
  /-- 313 -/ Z1 : ℝ
  /-- 314 -/ Z2 : ℝ
  /-- 315 -/ PIO4 : ℝ
  /-- 316 -/ THPIO4 : ℝ
  /-- 317 -/ SQ2OPI : ℝ
  /-- 321-329 -/ PP0 : List ℝ
  /-- 330-338 -/ PQ0 : List ℝ
  /-- 340-349 -/ QP0 : List ℝ
  /-- 350-359 -/ QQ0 : List ℝ
  /-- 381 -/ DR10 : ℝ
  /-- 382 -/ DR20 : ℝ
  /-- 384-389 -/ RP0 : List ℝ
  /-- 390-400 -/ RQ0 : List ℝ

variable (T : BesselTables)

/-- `special.py` 403-412 `j0_small`. -/
def j0Small (x : ℝ) : ℝ :=
  let z := x * x
  let p := (z - T.DR10) * (z - T.DR20)
  let p := p * polyval T.RP0 z / polyval T.RQ0 z
  if x < 1e-5 then 1 - z / 4 else p

/-- `special.py` 415-426 `j0_large`. -/
def j0Large (x : ℝ) : ℝ :=
  let w := 5 / x
  let q := 25 / (x * x)
  let p := polyval T.PP0 q / polyval T.PQ0 q
  let q := polyval T.QP0 q / polyval T.QQ0 q
  let xn := x - T.PIO4
  let p := p * Real.cos xn - w * q * Real.sin xn
  p * T.SQ2OPI / Real.sqrt x

/-- `special.py` 429-443 `j0_`. -/
def j0 (z : ℝ) : ℝ := if |z| < 5 then j0Small T |z| else j0Large T |z|

/-- `special.py` 454-461 `j1_small`. -/
def j1Small (x : ℝ) : ℝ :=
  let z := x * x
  let w := polyval T.RP1 z / polyval T.RQ1 z
  w * x * (z - T.Z1) * (z - T.Z2)

/-- `special.py` 464-474 `j1_large`. -/
def j1Large (x : ℝ) : ℝ :=
  let w := 5 / x
  let z := w * w
  let p := polyval T.PP1 z / polyval T.PQ1 z
  let q := polyval T.QP1 z / polyval T.QQ1 z
  let xn := x - T.THPIO4
  let p := p * Real.cos xn - w * q * Real.sin xn
  p * T.SQ2OPI / Real.sqrt x

/-- `special.py` 477-494 `j1_`. -/
def j1 (z : ℝ) : ℝ := Real.sign z * (if |z| < 5 then j1Small T |z| else j1Large T |z|)

/-- `special.py` 446-451 `j0_jvp`: value and tangent. -/
def j0Jvp (m m_dot : ℝ) : ℝ × ℝ := (j0 T m, -1 * m_dot * j1 T m)

/-- `special.py` 497-503 `j1_jvp`: value and tangent; the tangent is NaN (`none`) at zero, where line 501 divides
zero by zero. -/
def j1Jvp (m m_dot : ℝ) : ℝ × Option ℝ :=
  (j1 T m, if m = 0 then none else some (j0 T m * m_dot - j1 T m * m_dot / m))

/-- `special.py` 511-512 `j2_`. -/
def j2 (x : ℝ) : ℝ := 2 / x * j1 T x - j0 T x

/-- `special.py` 518-519 `j1p5_`. -/
def j1p5 (x : ℝ) : ℝ := Real.sqrt (2 / (Real.pi * x)) * (Real.sin x / x - Real.cos x)

end Microjax.Special
