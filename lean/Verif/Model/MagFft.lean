import Verif.Model.Special
import Verif.Model.FftLog
import Mathlib.Analysis.SpecialFunctions.Arsinh

/-!
# Model of `fastlens/mag_fft_jax.py`

float64 is `ℝ`.  The Hankel transform used by the classes is a parameter `hk` of type
`List ℝ → List ℝ → ℕ → List ℝ × List ℝ` (abscissae, samples, padding; bias 1.5 and order 0 as in all calls), so that
the theorems hold for every transform; the code's own is `FftLog.hankel _ · · 1.5 · 0`.  The Fourier profile `sk` and
the central value `A0` are the methods that the subclasses supply.
-/

noncomputable section

namespace Microjax.MagFft

open Special

/-- The type of the Hankel transform used (`hankel(x, fx, nu=1.5, N_pad=n).hankel(0)`). -/
abbrev Hankel := List ℝ → List ℝ → ℕ → List ℝ × List ℝ

/-- `mag_fft_jax.py` 8-9 `A_point`. -/
def aPoint (u : ℝ) : ℝ := (u ^ 2 + 2) / |u| / Real.sqrt (u ^ 2 + 4)

/-- `jnp.logspace(lo, hi, n)`. -/
def logspace (lo hi : ℝ) (n : ℕ) : List ℝ :=
  (List.range n).map fun i : ℕ => (10 : ℝ) ^ (lo + (hi - lo) * i / ((n : ℝ) - 1))

/-- `jnp.log10`. -/
def log10 (x : ℝ) : ℝ := Real.log x / Real.log 10

/-- `jnp.interp(x, xp, fp)` for one `x`, with `right = none` meaning the last sample
(`jnp.interp`: `i = clip(searchsorted(xp, x, side='right'), 1, len(xp) - 1)`, linear in the cell, the left sample where
the cell is empty; the code's test `|dx| ≤ tiny` for an empty cell is `dx = 0` here). -/
def interp (x : ℝ) (xp fp : List ℝ) (right : Option ℝ) : ℝ :=
  let ss := (xp.takeWhile fun v => decide (v ≤ x)).length
  let i := min (max ss 1) (xp.length - 1)
  let df := fp.getD i 0 - fp.getD (i - 1) 0
  let dx := xp.getD i 0 - xp.getD (i - 1) 0
  let f := if dx = 0 then fp.getD (i - 1) 0 else fp.getD (i - 1) 0 + (x - xp.getD (i - 1) 0) / dx * df
  if x < xp.getD 0 0 then fp.getD 0 0
  else if x > xp.getD (xp.length - 1) 0 then right.getD (fp.getD (fp.length - 1) 0)
  else f

/-- Constructor arguments of `mag_` / `magnification` (`mag_fft_jax.py` 12-23, 115-139). -/
structure Cfg where
  /-- `fft_logumin` -/
  logumin : ℝ
  /-- `fft_logumax` -/
  logumax : ℝ
  /-- `N_fft` -/
  N : ℕ
  /-- `rho_switch` -/
  rhoSwitch : ℝ
  /-- `u_switch` -/
  uSwitch : ℝ

/-- `mag_fft_jax.py` 25-34, 141-150 `init_Apk`: the pair `(k, apk)`. -/
def initApk (hk : Hankel) (c : Cfg) : List ℝ × List ℝ :=
  let u := logspace c.logumin c.logumax c.N
  let u2Au := u.map fun v => ((v ^ 2 + 2) / Real.sqrt (v ^ 2 + 4) / v - 1) * v ^ 2
  let r := hk u u2Au 0
  (r.1, r.2.map fun a => a * 2 * Real.pi)

/-- `mag_fft_jax.py` 152-166 `init_Aext0`: the table behind `self.Aext0`. -/
def initAext0 (hk : Hankel) (c : Cfg) (sk : List ℝ → ℝ → List ℝ) : List ℝ × List ℝ :=
  let x := logspace c.logumin c.logumax c.N
  let fx := List.zipWith (fun xv s => xv * s * Real.exp (-(xv / 100) ^ 2)) x (sk x 1)
  hk x fx c.N

/-- `mag_fft_jax.py` 52-68, 203-220: the table (log10 u, A) from which `A` interpolates. -/
def table (hk : Hankel) (c : Cfg) (sk : List ℝ → ℝ → List ℝ) (rho : ℝ) : List ℝ × List ℝ :=
  let ka := initApk hk c
  let k := ka.1
  let k_rho := 2 * Real.pi / rho
  let dump := k.map fun kv => Real.exp (-(kv / k_rho / 20) ^ 2)
  let cj := List.zipWith (fun (p : ℝ × ℝ) (q : ℝ × ℝ) => p.2 * p.1 ^ 2 * q.1 * q.2)
    (List.zip k ka.2) (List.zip (sk k rho) dump)
  let r := hk k cj 512
  let a := r.2.map fun v => v / 2 / Real.pi + 1
  (r.1.map fun v => log10 (if v < 100 then v else 100),
    List.zipWith (fun v av => if v < 100 then av else 1) r.1 a)

/-- `mag_fft_jax.py` 194-223 `_A_for_large_rho` for one `u` (also `mag_.A` 44-74 with `a1` in `sk`, `A0`). -/
def aLarge (hk : Hankel) (c : Cfg) (sk : List ℝ → ℝ → List ℝ) (A0 : ℝ → ℝ) (u rho : ℝ) : ℝ :=
  let u := |u|
  let t := table hk c sk rho
  if u > 0 then interp (log10 u) t.1 t.2 (some 1) else A0 rho

/-- `mag_fft_jax.py` 176-192 `_A_for_small_rho` for one `u`. -/
def aSmall (hk : Hankel) (c : Cfg) (sk : List ℝ → ℝ → List ℝ) (u rho : ℝ) : ℝ :=
  let u := |u|
  let t := initAext0 hk c sk
  if u < c.uSwitch * rho then interp (u / rho) t.1 t.2 none / rho + 1 else aPoint u

/-- `mag_fft_jax.py` 225-244 `magnification.A` for one `u`. -/
def aFft (hk : Hankel) (c : Cfg) (sk : List ℝ → ℝ → List ℝ) (A0 : ℝ → ℝ) (u rho : ℝ) : ℝ :=
  let u := |u|
  if rho < c.rhoSwitch then aSmall hk c sk u rho else aLarge hk c sk A0 u rho

/-! ### The source profiles -/

/-- `mag_fft_jax.py` 76-82, 246-252 `sk` of the uniform disc; `j1` is the Bessel function in use. -/
def skDisk (j1 : ℝ → ℝ) (k rho : ℝ) : ℝ :=
  let x := k * rho
  if x > 0 then 2 * j1 x / x else 1

/-- `mag_fft_jax.py` 84-85, 254-255 `A0` of the uniform disc. -/
def a0Disk (rho : ℝ) : ℝ := Real.sqrt (rho ^ 2 + 4) / rho

/-- `mag_fft_jax.py` 310-316 `magnification_limb1.sk`; `gam` is the gamma function in use. -/
def skLimb1 (gam : ℝ → ℝ) (k rho : ℝ) : ℝ :=
  let x := k * rho
  if x > 0 then 1.5 * (2 : ℝ) ^ (1.5 : ℝ) * gam 1.5 * j1p5 x / x ^ (1.5 : ℝ) else 1 / (1 + 2)

/-- `mag_fft_jax.py` 277-284 `mag_limb1.sk__`: closed form meant for the linear limb-darkening law with coefficient `a1`. -/
def skMixSin (j1 : ℝ → ℝ) (a1 k rho : ℝ) : ℝ :=
  let x := k * rho
  let sk_disk := 2 * j1 x / x
  let sk_term1 := 3 * (Real.sin x - x * Real.cos x) / x ^ 3
  let norm := 1 - a1
  if x > 0 then (sk_disk - a1 * sk_term1) / norm else 1

/-- `mag_fft_jax.py` 287-297 `mag_limb1.sk_`: the same through `j1p5` and the gamma function. -/
def skMixBessel (j1 gam : ℝ → ℝ) (a1 k rho : ℝ) : ℝ :=
  let x := k * rho
  let norm := 1 - a1
  let sk_disk := 2 * j1 x / x
  let sk_term1 := 1.5 * (2 : ℝ) ^ (1.5 : ℝ) * gam 1.5 * j1p5 x / x ^ (1.5 : ℝ)
  if x > 0 then (sk_disk - a1 * sk_term1) / norm else 1 / (1 + 2)

/-- `mag_fft_jax.py` 318-319 `magnification_limb1.A0`. -/
def a0Limb1 (rho : ℝ) : ℝ :=
  (2 + 1) * (2 * (rho ^ 2 + 2) * ellipe (-rho ^ 2 / 4) - (rho ^ 2 + 4) * ellipk (-rho ^ 2 / 4)) / 3 / rho ^ 3

/-- `mag_fft_jax.py` 325-331 `magnification_limb2.sk`. -/
def skLimb2 (gam : ℝ → ℝ) (j2 : ℝ → ℝ) (k rho : ℝ) : ℝ :=
  let x := k * rho
  if x > 0 then 2 ^ 2 * gam 2 * j2 x / x ^ 2 * 2 else 1 / (2 + 2)

/-- `mag_fft_jax.py` 333-334 `magnification_limb2.A0`. -/
def a0Limb2 (rho : ℝ) : ℝ :=
  (2 + 2) * (rho * (rho ^ 2 + 2) * Real.sqrt (rho ^ 2 + 4) - 8 * Real.arsinh (rho / 2)) / 4 / rho ^ 4

/-- `mag_fft_jax.py` 91-97 `mag_limb.su` for one `u`. -/
def suLimb (u rho a1 : ℝ) : ℝ :=
  let u_rho := if u < rho then u / rho else 1
  if u < rho then 1 - a1 * (1 - Real.sqrt (1 - u_rho ^ 2)) else 0

/-- `mag_fft_jax.py` 99-105 `mag_limb.sk` (the argument `k` is ignored, the transform is normalised to its first
value). -/
def skLimb (hk : Hankel) (c : Cfg) (rho a1 : ℝ) : List ℝ :=
  let u := logspace c.logumin c.logumax c.N
  let r := hk u (u.map fun v => v ^ 2 * suLimb v rho a1) 0
  r.2.map fun v => v / r.2.getD 0 0

/-- `mag_fft_jax.py` 262-266 `mag_limb1.su`: the profile at the abscissae `u`, divided by its first value. -/
def suLimb1 (u : List ℝ) (rho a1 : ℝ) : List ℝ :=
  let su := u.map fun v => if v < rho then 1 - a1 * (1 - Real.sqrt |1 - v ^ 2 / rho ^ 2|) else 0
  su.map fun s => s / su.getD 0 0

/-- `mag_fft_jax.py` 268-275 `mag_limb1.sk` (the argument `k` is ignored as in `mag_limb.sk`). -/
def skLimbN (hk : Hankel) (c : Cfg) (a1 : ℝ) (_k : List ℝ) (rho : ℝ) : List ℝ :=
  let u := logspace c.logumin c.logumax c.N
  let r := hk u (List.zipWith (fun v s => v ^ 2 * s) u (suLimb1 u rho a1)) 0
  r.2.map fun v => v / r.2.getD 0 0

/-- `mag_fft_jax.py` 107-111 `mag_limb.A0`, 299-303 `mag_limb1.A0`. -/
def a0Limb (rho a1 : ℝ) : ℝ := (a0Disk rho - a1 * a0Limb1 rho) / (1 - a1)

/-- `mag_fft_jax.py` 336-343, `mag_fft.py` 201-208 `magnification_log.su` for one `u`: the profile computed in lines 338-342 is discarded and
`x log x` returned. -/
def suLog (u rho : ℝ) : ℝ :=
  let x := u / rho
  x * Real.log x

end Microjax.MagFft
