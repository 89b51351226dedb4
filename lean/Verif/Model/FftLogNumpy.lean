import Verif.Model.FastLensNumpy

/-!
# Model of the transforms of `src/microjax/fastlens/fftlog.py`

The constructor (`fftlog.py` 18-53) does what that of the JAX module does (`FftLog.init`).  The kernels are computed from the whole
array of complex frequencies, because `g_m_vals` and `g_m_ratio` look at its first entry and may terminate the program.
-/

noncomputable section

namespace Microjax.FastLensNumpy

open FftLog Complex

/-- `fftlog.py` 77 (also 92, 106, 120): `z_ar = nu + 1j * eta_m`. -/
def zAr (o : Obj) : List ℂ := (List.range (o.N / 2 + 1)).map fun m : ℕ => (o.nu : ℂ) + I * eta o m

/-- `fftlog.py` 230-239 `g_l`. -/
def gLNp (gam : ℂ → ℂ) (l : ℝ) (z : List ℂ) : Except NpErr (List ℂ) :=
  match gMValsNp gam (l + 0.5) (z.map fun v => v - 1.5) with
  | .error e => .error e
  | .ok g => .ok (List.zipWith (fun v c => exp (v * Real.log 2) * c) z g)

/-- `fftlog.py` 241-249 `g_l_1`. -/
def gL1Np (gam : ℂ → ℂ) (l : ℝ) (z : List ℂ) : Except NpErr (List ℂ) :=
  match gMValsNp gam (l + 0.5) (z.map fun v => v - 2.5) with
  | .error e => .error e
  | .ok g => .ok (List.zipWith (fun v c => -exp ((v - 1) * Real.log 2) * (v - 1) * c) z g)

/-- `fftlog.py` 251-259 `g_l_2`. -/
def gL2Np (gam : ℂ → ℂ) (l : ℝ) (z : List ℂ) : Except NpErr (List ℂ) :=
  match gMValsNp gam (l + 0.5) (z.map fun v => v - 3.5) with
  | .error e => .error e
  | .ok g => .ok (List.zipWith (fun v c => exp ((v - 2) * Real.log 2) * (v - 1) * (v - 2) * c) z g)

/-- `fftlog.py` 261-268 `h_l`. -/
def hLNp (gam : ℂ → ℂ) (l : ℝ) (z : List ℂ) : Except NpErr (List ℂ) :=
  match gMValsNp gam (2 * l + 1) (z.map fun v => v - 2) with
  | .error e => .error e
  | .ok g =>
    match gMRatioNp gam (z.map fun v => (2 - v) / 2) with
    | .error e => .error e
    | .ok r => .ok (List.zipWith (fun c d => c * d) g r)

/-- `fftlog.py` 70-83 `fftlog`, 85-97 `fftlog_dj`, 99-111 `fftlog_ddj`, 113-126 `fftlog_jsqr`: the same code with the kernels
`g_l`, `g_l_1`, `g_l_2`, `h_l`. -/
def transformNp (kernel : ℝ → List ℂ → Except NpErr (List ℂ)) (o : Obj) (ell : ℝ) : Except NpErr (List ℝ × List ℝ) :=
  let y := o.x.reverse.map fun v => (ell + 1) / v
  match kernel ell (zAr o) with
  | .error e => .error e
  | .ok g =>
    let h := List.zipWith (fun c k => c * k)
      ((cM o).mapIdx fun m c => c * exp (-(I * eta o m) * (Real.log (o.x.getD 0 0 * y.getD 0 0) : ℝ))) g
    let F := List.zipWith (fun v yv => v * yv ^ (-o.nu) * Real.sqrt Real.pi / 4) (irfft (h.map (starRingEnd ℂ))) y
    let cut := fun l : List ℝ => (l.take (o.N - o.nLow)).drop o.nHigh
    .ok (cut y, cut F)

end Microjax.FastLensNumpy
