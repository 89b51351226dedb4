import Verif.Model.FftLogNumpy
import Mathlib.Data.List.GetD

/-!
# C104: the spherical Bessel transforms of the numpy module
-/

noncomputable section

namespace Microjax.Props

open FastLensNumpy FftLog Complex

/-- The first frequency is the bias. -/
theorem zAr_first (o : Obj) (f : ℂ → ℂ) : ((zAr o).map f).getD 0 0 = f o.nu := by
  rw [List.getD_eq_getElem _ _ (by simp [zAr])]
  simp [zAr, FftLog.eta]

/-- If the kernel of the numpy module is the one of the JAX module at every frequency, so is the transform. -/
theorem transformNp_eq (kernel : ℝ → List ℂ → Except NpErr (List ℂ)) (gl : ℝ → ℂ → ℂ) (o : Obj) (ell : ℝ)
    (h : kernel ell (zAr o) = .ok ((zAr o).map (gl ell))) : transformNp kernel o ell = .ok (transform gl o ell) := by
  unfold transformNp transform
  simp only [h]
  have hl : (cM o).length ≤ o.N / 2 + 1 := by
    unfold cM
    simp only [List.length_zipWith]
    exact (min_le_right _ _).trans (by simp [cWindow])
  have e : ∀ r : ℝ, List.zipWith (fun c k => c * k) ((cM o).mapIdx fun m c => c * exp (-(I * FftLog.eta o m) * r)) ((zAr o).map (gl ell))
      = (cM o).mapIdx fun m c => c * exp (-(I * FftLog.eta o m) * r) * gl ell (o.nu + I * FftLog.eta o m) := by
    intro r
    refine List.ext_getElem (by simp [zAr, hl]) fun i h1 h2 => ?_
    simp [zAr]
  rw [e]

/-- **C104, the spherical Bessel transforms.**  The methods `fftlog`, `fftlog_dj`, `fftlog_ddj` and `fftlog_jsqr` of the numpy
module terminate the program exactly when the bias `ν` is `-ℓ`, `1 - ℓ`, `2 - ℓ`, respectively one of `-2ℓ` and 2; for every other bias they
return what the methods of the JAX module return (with the gamma function of scipy), for all samples, extrapolations and paddings. -/
theorem C104_kernels (gam : ℂ → ℂ) (x fx : List ℝ) (nu : ℝ) (lo hi pad : ℕ) (ell : ℝ) :
    let o := init x fx nu lo hi pad
    (if nu = -ell then transformNp (gLNp gam) o ell = .error .systemExit
      else transformNp (gLNp gam) o ell = .ok (transform (gL gam) o ell)) ∧
    (if nu = 1 - ell then transformNp (gL1Np gam) o ell = .error .systemExit
      else transformNp (gL1Np gam) o ell = .ok (transform (gL1 gam) o ell)) ∧
    (if nu = 2 - ell then transformNp (gL2Np gam) o ell = .error .systemExit
      else transformNp (gL2Np gam) o ell = .ok (transform (gL2 gam) o ell)) ∧
    (if nu = -2 * ell ∨ nu = 2 then transformNp (hLNp gam) o ell = .error .systemExit
      else transformNp (hLNp gam) o ell = .ok (transform (hL gam) o ell)) := by
  intro o
  have hnu : o.nu = nu := by simp only [o, init]; split_ifs <;> rfl
  have guard : ∀ (mu s : ℝ), gMValsNp gam mu ((zAr o).map fun v => v - (s : ℂ))
      = if mu + 1 + (nu - s) = 0 then .error .systemExit else .ok (((zAr o).map fun v => v - (s : ℂ)).map (gMVals gam mu)) := by
    intro mu s
    unfold gMValsNp
    rw [zAr_first]
    simp [hnu]
  have zip : ∀ (f : ℂ → ℂ → ℂ) (g : ℂ → ℂ), List.zipWith f (zAr o) ((zAr o).map g) = (zAr o).map fun v => f v (g v) := by
    intro f g
    rw [List.zipWith_map_right, List.zipWith_self]
  have c15 : ((1.5 : ℝ) : ℂ) = 1.5 := by norm_num
  have c25 : ((2.5 : ℝ) : ℂ) = 2.5 := by norm_num
  have c35 : ((3.5 : ℝ) : ℂ) = 3.5 := by norm_num
  have g1 := guard (ell + 0.5) 1.5
  have g2 := guard (ell + 0.5) 2.5
  have g3 := guard (ell + 0.5) 3.5
  have g4 := guard (2 * ell + 1) 2
  rw [c15] at g1
  rw [c25] at g2
  rw [c35] at g3
  push_cast at g4
  refine ⟨?_, ?_, ?_, ?_⟩
  · split_ifs with h
    · rw [if_pos (by rw [h]; norm_num; ring)] at g1
      simp only [transformNp, gLNp, g1]
    · rw [if_neg (fun e => h (by norm_num at e; linarith))] at g1
      refine transformNp_eq _ _ _ _ ?_
      simp only [gLNp, g1, List.map_map, zip]
      rfl
  · split_ifs with h
    · rw [if_pos (by rw [h]; norm_num; ring)] at g2
      simp only [transformNp, gL1Np, g2]
    · rw [if_neg (fun e => h (by norm_num at e; linarith))] at g2
      refine transformNp_eq _ _ _ _ ?_
      simp only [gL1Np, g2, List.map_map, zip]
      rfl
  · split_ifs with h
    · rw [if_pos (by rw [h]; norm_num; ring)] at g3
      simp only [transformNp, gL2Np, g3]
    · rw [if_neg (fun e => h (by norm_num at e; linarith))] at g3
      refine transformNp_eq _ _ _ _ ?_
      simp only [gL2Np, g3, List.map_map, zip]
      rfl
  · have g5 : gMRatioNp gam ((zAr o).map fun v => (2 - v) / 2)
        = if nu = 2 then .error .systemExit else .ok (((zAr o).map fun v => (2 - v) / 2).map (gMRatio gam)) := by
      unfold gMRatioNp
      rw [zAr_first]
      have : ((2 - (o.nu : ℂ)) / 2).re = (2 - nu) / 2 := by
        rw [hnu, show (2 - (nu : ℂ)) / 2 = (((2 - nu) / 2 : ℝ) : ℂ) by push_cast; ring, ofReal_re]
      rw [this]
      by_cases h : nu = 2
      · rw [if_pos (by rw [h]; norm_num), if_pos h]
      · rw [if_neg (fun e => h (by linarith)), if_neg h]
    by_cases ha : nu = -2 * ell
    · rw [if_pos (Or.inl ha)]
      rw [if_pos (by rw [ha]; ring)] at g4
      simp only [transformNp, hLNp, g4]
    · rw [if_neg (fun e => ha (by linarith))] at g4
      by_cases hb : nu = 2
      · rw [if_pos (Or.inr hb)]
        rw [if_pos hb] at g5
        simp only [transformNp, hLNp, g4, g5]
      · rw [if_neg (not_or.mpr ⟨ha, hb⟩)]
        rw [if_neg hb] at g5
        refine transformNp_eq _ _ _ _ ?_
        simp only [hLNp, g4, g5, List.map_map]
        rw [List.zipWith_map, List.zipWith_self]
        rfl

/-- The squared Bessel function of order one with bias 1.1, four samples: the modules agree; with bias 2 the numpy one exits. -/
example (gam : ℂ → ℂ) :
    transformNp (hLNp gam) (init [1, 2, 4, 8] [3, 1, 4, 1] 1.1 0 0 2) 1
      = .ok (transform (hL gam) (init [1, 2, 4, 8] [3, 1, 4, 1] 1.1 0 0 2) 1) ∧
    transformNp (hLNp gam) (init [1, 2, 4, 8] [3, 1, 4, 1] 2 0 0 2) 1 = .error .systemExit := by
  refine ⟨?_, ?_⟩
  · have := (C104_kernels gam [1, 2, 4, 8] [3, 1, 4, 1] 1.1 0 0 2 1).2.2.2
    rwa [if_neg (by norm_num)] at this
  · have := (C104_kernels gam [1, 2, 4, 8] [3, 1, 4, 1] 2 0 0 2 1).2.2.2
    rwa [if_pos (by norm_num)] at this

end Microjax.Props
