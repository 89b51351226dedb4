import Verif.Model.MagFft

/-!
# Model of the numpy implementation: `fastlens/mag_fft.py`, `fastlens/fftlog.py`

`fftlog.py` 16-152 (class `fftlog`, class `hankel`, `log_extrap`) and 154-170 (`c_window`) are line by line those of
`fftlog_jax.py` (`FftLog.init`, `FftLog.transform`, `FftLog.cWindow`); `g_m_vals` and `g_m_ratio` 172-228 add a check of the
first frequency and write the two branches by boolean indexing, which for one entry is the same case distinction.  The special functions of
scipy (`gamma`, `jn`, `j1`, `ellipk`, `ellipe`) are parameters or the functions of `Model/Special`.  float64 is `ℝ`, arrays are
lists; magnifications are given for one `u`.
-/

noncomputable section

namespace Microjax.FastLensNumpy

open FftLog MagFft Special

/-- What ends a call without a value. -/
inductive NpErr
  /-- `exit()` -/
  | systemExit
  /-- `raise NotImplementedError` -/
  | notImplemented
  /-- `np.ones(..) * None` -/
  | typeError
  deriving DecidableEq

/-- `np.interp(x, xp, fp, right=right)` for one `x` (numpy: binary search for the last `j` with `xp[j] ≤ x`; the first sample
below the grid, `right` or the last sample above it, the sample itself at a node and at the last abscissa). -/
def npInterp (x : ℝ) (xp fp : List ℝ) (right : Option ℝ) : ℝ :=
  let j := (xp.takeWhile fun v => decide (v ≤ x)).length - 1
  if x < xp.getD 0 0 then fp.getD 0 0
  else if x > xp.getD (xp.length - 1) 0 then right.getD (fp.getD (fp.length - 1) 0)
  else if j = xp.length - 1 then fp.getD j 0
  else if xp.getD j 0 = x then fp.getD j 0
  else (fp.getD (j + 1) 0 - fp.getD j 0) / (xp.getD (j + 1) 0 - xp.getD j 0) * (x - xp.getD j 0) + fp.getD j 0

/-- `fftlog.py` 172-203 `g_m_vals` for an array `q`. -/
def gMValsNp (gam : ℂ → ℂ) (mu : ℝ) (q : List ℂ) : Except NpErr (List ℂ) :=
  if mu + 1 + (q.getD 0 0).re = 0 then .error .systemExit else .ok (q.map (gMVals gam mu))

/-- `fftlog.py` 205-228 `g_m_ratio` for an array `a`. -/
def gMRatioNp (gam : ℂ → ℂ) (a : List ℂ) : Except NpErr (List ℂ) :=
  if (a.getD 0 0).re = 0 then .error .systemExit else .ok (a.map (gMRatio gam))

/-- `fftlog.py` 130-138 class `hankel` with all keyword arguments; the frequencies are those of `transform`. -/
def hankelNp (gam : ℂ → ℂ) (x fx : List ℝ) (nu : ℝ) (nLow nHigh nPad : ℕ) (n : ℝ) : Except NpErr (List ℝ × List ℝ) :=
  let o := init x (List.zipWith (fun xv fv => Real.sqrt xv * fv) x fx) nu nLow nHigh nPad
  let ell := n - 0.5
  let q : List ℂ := (List.range (o.N / 2 + 1)).map fun m : ℕ => (o.nu + Complex.I * eta o m) - 1.5
  match gMValsNp gam (ell + 0.5) q with
  | .error e => .error e
  | .ok _ =>
    let r := transform (gL gam) o ell
    .ok (r.1, List.zipWith (fun F y => F * Real.sqrt (2 * y / Real.pi)) r.2 r.1)

/-- The Hankel transform used by `mag_fft.py`: abscissae, samples, `N_extrap_low`, `N_extrap_high`, `N_pad` (bias 1.5 and order
0 in all calls). -/
abbrev HankelNp := List ℝ → List ℝ → ℕ → ℕ → ℕ → List ℝ × List ℝ

/-- `mag_fft.py` 44-52 `init_Apk`: the pair `(k, apk)`. -/
def initApkNp (hk : HankelNp) (c : Cfg) : List ℝ × List ℝ :=
  let u := logspace c.logumin c.logumax c.N
  let u2Au := u.map fun v => ((v ^ 2 + 2) / Real.sqrt (v ^ 2 + 4) / v - 1) * v ^ 2
  let r := hk u u2Au 512 512 0
  (r.1, r.2.map fun a => a * 2 * Real.pi)

/-- `mag_fft.py` 54-63 `init_Aext0`: the table behind `self.Aext0`. -/
def initAext0Np (hk : HankelNp) (sk : List ℝ → ℝ → List ℝ) : List ℝ × List ℝ :=
  let x := logspace (-5) 5 1024
  let dump := x.map fun v => Real.exp (-(v / 100) ^ 2)
  let fx := List.zipWith (fun (p : ℝ × ℝ) d => p.1 * p.2 * d) (List.zip x (sk x 1)) dump
  hk x fx 0 0 1024

/-- `mag_fft.py` 73-91 `_A_for_small_rho` for one `u`. -/
def aSmallNp (hk : HankelNp) (c : Cfg) (sk : List ℝ → ℝ → List ℝ) (u rho : ℝ) : ℝ :=
  let u := |u|
  let t := initAext0Np hk sk
  if u < c.uSwitch * rho then npInterp (u / rho) t.1 t.2 none / rho + 1 else aPoint u

/-- `mag_fft.py` 101-117: the pairs `(u, A)` from which `_A_for_large_rho` interpolates, cut at `u < 100` and closed by
`(100, 1)`. -/
def tableNp (hk : HankelNp) (c : Cfg) (sk : List ℝ → ℝ → List ℝ) (rho : ℝ) : List (ℝ × ℝ) :=
  let ka := initApkNp hk c
  let k := ka.1
  let k_rho := 2 * Real.pi / rho
  let dump := k.map fun kv => Real.exp (-(kv / k_rho / 20) ^ 2)
  let cj := List.zipWith (fun (p : ℝ × ℝ) (q : ℝ × ℝ) => p.2 * p.1 ^ 2 * q.1 * q.2)
    (List.zip k ka.2) (List.zip (sk k rho) dump)
  let r := hk k cj 0 0 512
  (List.zip r.1 (r.2.map fun v => v / 2 / Real.pi + 1)).filter (fun p => decide (p.1 < 100)) ++ [(100, 1)]

/-- `mag_fft.py` 93-124 `_A_for_large_rho` for one `u`; the central value is computed first (line 120). -/
def aLargeNp (hk : HankelNp) (c : Cfg) (sk : List ℝ → ℝ → List ℝ) (A0 : ℝ → Except NpErr ℝ) (u rho : ℝ) : Except NpErr ℝ :=
  let u := |u|
  let t := tableNp hk c sk rho
  match A0 rho with
  | .error e => .error e
  | .ok a0 => .ok (if u > 0 then npInterp (log10 u) (t.map fun p => log10 p.1) (t.map (·.2)) (some 1) else a0)

/-- `mag_fft.py` 126-142 `magnification.A` for one `u`. -/
def aNp (hk : HankelNp) (c : Cfg) (sk : List ℝ → ℝ → List ℝ) (A0 : ℝ → Except NpErr ℝ) (u rho : ℝ) : Except NpErr ℝ :=
  let u := |u|
  if rho < c.rhoSwitch then .ok (aSmallNp hk c sk u rho) else aLargeNp hk c sk A0 u rho

/-- `mag_fft.py` 146-155 `magnification_disk.sk` for one `k`. -/
def skDiskNp (j1 : ℝ → ℝ) (k rho : ℝ) : ℝ :=
  let x := k * rho
  if x > 0 then 2 * j1 x / x else 1

/-- `mag_fft.py` 157-161 `magnification_disk.A0`. -/
def a0DiskNp (rho : ℝ) : Except NpErr ℝ := .ok (Real.sqrt (rho ^ 2 + 4) / rho)

/-- `mag_fft.py` 174-184 `magnification_limb.sk` for one `k`, order `n` of limb darkening an integer. -/
def skLimbNp (gam : ℝ → ℝ) (jn : ℝ → ℝ → ℝ) (n : ℤ) (k rho : ℝ) : ℝ :=
  let x := k * rho
  let nu : ℝ := 1 + n / 2
  if x > 0 then (2 : ℝ) ^ nu * gam nu * jn nu x / x ^ nu * nu else 1 / (n + 2)

/-- `mag_fft.py` 186-195 `magnification_limb.A0`; for `n < 1` the method returns `None`, which line 120 multiplies into an
array. -/
def a0LimbNp (n : ℤ) (rho : ℝ) : Except NpErr ℝ :=
  if n = 1 then
    .ok ((2 + 1) * (2 * (rho ^ 2 + 2) * ellipe (-rho ^ 2 / 4) - (rho ^ 2 + 4) * ellipk (-rho ^ 2 / 4)) / 3 / rho ^ 3)
  else if n = 2 then
    .ok ((2 + 2) * (rho * (2 + rho ^ 2) * Real.sqrt (4 + rho ^ 2) - 8 * Real.arsinh (rho / 2)) / 4 / rho ^ 4)
  else if n ≥ 3 then .error .notImplemented
  else .error .typeError

end Microjax.FastLensNumpy
