import Verif.Model.Jnp
import Mathlib.Analysis.SpecialFunctions.Complex.Log
import Mathlib.Analysis.SpecialFunctions.Trigonometric.Basic
import Mathlib.Analysis.SpecialFunctions.Pow.Real

/-!
# Model of `fastlens/fftlog_jax.py`

float64 is `ℝ`, complex128 is `ℂ`, arrays are lists.  `rfft` and `irfft` are given by their defining sums (numpy
conventions, even length; `irfft` ignores the imaginary parts of the first and the last coefficient).  The ratio of
gamma functions `g_l` 238-247 is a parameter `gl : ℝ → ℂ → ℂ` (order, argument) of the transform; the variants
`fftlog_dj`, `fftlog_ddj`, `fftlog_jsqr` 72-109 are the same transform with the functions `gL1`, `gL2`, `hL`.  Powers of positive
reals are `Real.rpow`, `t ** (-1j * e)` for `t > 0` is `exp (-i e log t)`.
-/

noncomputable section

namespace Microjax.FftLog

open Complex

/-- `numpy.fft.rfft` of a real array of even length `N`: the coefficients `0 .. N/2`. -/
def rfft (f : List ℝ) : List ℂ :=
  let N := f.length
  (List.range (N / 2 + 1)).map fun m : ℕ =>
    ((List.range N).map fun n : ℕ =>
      ((f.getD n 0 : ℝ) : ℂ) * exp (-(2 * Real.pi * I * m * n / N))).sum

/-- `numpy.fft.irfft` of `N/2 + 1` coefficients: `N` real samples. -/
def irfft (c : List ℂ) : List ℝ :=
  let N := 2 * (c.length - 1)
  (List.range N).map fun n : ℕ =>
    (((c.getD 0 0).re + (c.getD (N / 2) 0 * exp (2 * Real.pi * I * (N / 2 : ℕ) * n / N)).re
      + 2 * ((List.range (N / 2 - 1)).map fun j : ℕ =>
          (c.getD (j + 1) 0 * exp (2 * Real.pi * I * ((j + 1 : ℕ) : ℂ) * n / N)).re).sum) / N)

/-- `fftlog_jax.py` 124-138 `log_extrap`: continue a sequence geometrically at both ends. -/
def logExtrap (x : List ℝ) (nLow nHigh : ℕ) : List ℝ :=
  let dLow := Real.log (x.getD 1 0 / x.getD 0 0)
  let low := (List.range nLow).map fun i : ℕ => x.getD 0 0 * Real.exp (dLow * ((i : ℝ) - nLow))
  let dHigh := Real.log (x.getD (x.length - 1) 0 / x.getD (x.length - 2) 0)
  let high := (List.range nHigh).map fun i : ℕ => x.getD (x.length - 1) 0 * Real.exp (dHigh * ((i : ℝ) + 1))
  low ++ x ++ high

/-- `fftlog_jax.py` 164-170 `c_window` for `n = [0, 1, .., M]` (its only use, line 54). -/
def cWindow (M nCut : ℕ) : List ℝ :=
  let nRight : ℤ := (M : ℤ) - nCut
  (List.range (M + 1)).map fun n : ℕ =>
    let theta : ℝ := ((M : ℝ) - n) / (((M : ℤ) - nRight - 1 : ℤ) : ℝ)
    if (n : ℤ) > nRight then theta - 1 / (2 * Real.pi) * Real.sin (2 * Real.pi * theta) else 1

/-- The attributes of the class `fftlog` that the transform uses. -/
structure Obj where
  /-- bias -/
  nu : ℝ
  /-- logarithmic step -/
  dlnx : ℝ
  /-- (extended) abscissae -/
  x : List ℝ
  /-- (extended) samples -/
  fx : List ℝ
  /-- number of samples -/
  N : ℕ
  /-- samples to cut at the low end -/
  nLow : ℕ
  /-- samples to cut at the high end -/
  nHigh : ℕ

/-- `fftlog_jax.py` 10-39 `fftlog.__init__` (without the coefficients of line 41). -/
def init (x fx : List ℝ) (nu : ℝ) (nExtrapLow nExtrapHigh nPad : ℕ) : Obj :=
  let dlnx := Real.log (x.getD 1 0 / x.getD 0 0)
  let x1 := logExtrap x nExtrapLow nExtrapHigh
  let fx1 := logExtrap fx nExtrapLow nExtrapHigh
  let N1 := x1.length
  let pad := List.replicate nPad (0 : ℝ)
  let x2 := if nPad ≠ 0 then logExtrap x1 nPad nPad else x1
  let fx2 := if nPad ≠ 0 then pad ++ fx1 ++ pad else fx1
  let N2 := if nPad ≠ 0 then N1 + 2 * nPad else N1
  let nHigh := if nPad ≠ 0 then nExtrapHigh + nPad else nExtrapHigh
  let nLow := if nPad ≠ 0 then nExtrapLow + nPad else nExtrapLow
  if N2 % 2 = 1 then
    ⟨nu, dlnx, x2.dropLast, fx2.dropLast, N2 - 1, nLow, if nPad ≠ 0 then nHigh - 1 else nHigh⟩
  else ⟨nu, dlnx, x2, fx2, N2, nLow, nHigh⟩

/-- `fftlog_jax.py` 42: the frequencies. -/
def eta (o : Obj) (m : ℕ) : ℝ := 2 * Real.pi / ((o.N : ℝ) * o.dlnx) * m

/-- `fftlog_jax.py` 44-56 `get_c_m`, with `c_window_width = 0.25` (the default, used throughout the package). -/
def cM (o : Obj) : List ℂ :=
  let fb := List.zipWith (fun f x => f * x ^ (-o.nu)) o.fx o.x
  let W := cWindow (o.N / 2) ⌊(0.25 : ℝ) * o.N / 2⌋₊
  List.zipWith (fun c w => c * ((w : ℝ) : ℂ)) (rfft fb) W

/-- `fftlog_jax.py` 58-70 `fftlog.fftlog`: abscissae and values. -/
def transform (gl : ℝ → ℂ → ℂ) (o : Obj) (ell : ℝ) : List ℝ × List ℝ :=
  let y := o.x.reverse.map fun v => (ell + 1) / v
  let h := (cM o).mapIdx fun m c =>
    c * exp (-(I * eta o m) * (Real.log (o.x.getD 0 0 * y.getD 0 0) : ℝ)) * gl ell (o.nu + I * eta o m)
  let F := List.zipWith (fun v yv => v * yv ^ (-o.nu) * Real.sqrt Real.pi / 4)
    (irfft (h.map (starRingEnd ℂ))) y
  let cut := fun l : List ℝ => (l.take (o.N - o.nLow)).drop o.nHigh
  (cut y, cut F)

/-- `fftlog_jax.py` 112-121 class `hankel`: the Hankel transform of order `n`. -/
def hankel (gl : ℝ → ℂ → ℂ) (x fx : List ℝ) (nu : ℝ) (nPad : ℕ) (n : ℝ) : List ℝ × List ℝ :=
  let o := init x (List.zipWith (fun xv fv => Real.sqrt xv * fv) x fx) nu 0 0 nPad
  let r := transform gl o (n - 0.5)
  (r.1, List.zipWith (fun F y => F * Real.sqrt (2 * y / Real.pi)) r.2 r.1)

/-- `fftlog_jax.py` 173-206 `g_m_vals` for one `q`; `gam` is the gamma function in use. -/
def gMVals (gam : ℂ → ℂ) (mu : ℝ) (q : ℂ) : ℂ :=
  let plus := (mu + 1 + q) / 2
  let minus := (mu + 1 - q) / 2
  if q = mu + 1 then 0
  else if |q.im| + |mu| > 200 then
    exp ((plus - 0.5) * log plus - (minus - 0.5) * log minus - q
      + 1 / 12 * (1 / plus - 1 / minus) + 1 / 360 * (1 / minus ^ 3 - 1 / plus ^ 3)
      + 1 / 1260 * (1 / plus ^ 5 - 1 / minus ^ 5))
  else gam plus / gam minus

/-- `fftlog_jax.py` 238-247 `g_l`. -/
def gL (gam : ℂ → ℂ) (l : ℝ) (z : ℂ) : ℂ := exp (z * Real.log 2) * gMVals gam (l + 0.5) (z - 1.5)

/-- `fftlog_jax.py` 249-257 `g_l_1`, the kernel of `fftlog_dj` 72-83. -/
def gL1 (gam : ℂ → ℂ) (l : ℝ) (z : ℂ) : ℂ :=
  -exp ((z - 1) * Real.log 2) * (z - 1) * gMVals gam (l + 0.5) (z - 2.5)

/-- `fftlog_jax.py` 259-267 `g_l_2`, the kernel of `fftlog_ddj` 85-96. -/
def gL2 (gam : ℂ → ℂ) (l : ℝ) (z : ℂ) : ℂ :=
  exp ((z - 2) * Real.log 2) * (z - 1) * (z - 2) * gMVals gam (l + 0.5) (z - 3.5)

/-- `fftlog_jax.py` 208-236 `g_m_ratio` for one `a`. -/
def gMRatio (gam : ℂ → ℂ) (a : ℂ) : ℂ :=
  let plus := a + 0.5
  if |a.im| > 100 then
    exp ((a - 0.5) * log a - a * log plus + 0.5 + 1 / 12 * (1 / a - 1 / plus)
      + 1 / 360 * (1 / plus ^ 3 - 1 / a ^ 3) + 1 / 1260 * (1 / a ^ 5 - 1 / plus ^ 5))
  else gam a / gam plus

/-- `fftlog_jax.py` 269-276 `h_l`, the kernel of `fftlog_jsqr` 98-109. -/
def hL (gam : ℂ → ℂ) (l : ℝ) (z : ℂ) : ℂ := gMVals gam (2 * l + 1) (z - 2) * gMRatio gam ((2 - z) / 2)

end Microjax.FftLog
