import Verif.Lemmas.MellinBessel
import Mathlib.Analysis.SpecialFunctions.PolarCoord
import Mathlib.MeasureTheory.Constructions.HaarToSphere
import Mathlib.MeasureTheory.Integral.IntervalIntegral.Periodic

/-!
# Angular means of `J₀(k |·|)` and the two-dimensional Gaussian
-/

noncomputable section

namespace Microjax.Props

open Spec MeasureTheory Filter Set Topology
open scoped Nat

theorem periodic_shift (f : ℝ → ℝ) (hf : Function.Periodic f (2 * Real.pi)) (c : ℝ) :
    (∫ α in (0 : ℝ)..2 * Real.pi, f (α - c)) = ∫ α in (0 : ℝ)..2 * Real.pi, f α := by
  rw [intervalIntegral.integral_comp_sub_right f c]
  have := hf.intervalIntegral_add_eq (0 - c) 0
  rw [show 0 - c + 2 * Real.pi = 2 * Real.pi - c by ring, zero_add] at this
  exact this

theorem swap_continuous (F : ℝ → ℝ → ℝ) (hF : Continuous (Function.uncurry F)) (a b c d : ℝ) :
    (∫ x in a..b, ∫ y in c..d, F x y) = ∫ y in c..d, ∫ x in a..b, F x y := by
  refine intervalIntegral_intervalIntegral_swap ?_
  refine (hF.continuousOn.integrableOn_compact ((isCompact_uIcc (a := a) (b := b)).prod (isCompact_uIcc (a := c) (b := d)))).mono_set ?_
  exact Set.prod_mono uIoc_subset_uIcc uIoc_subset_uIcc

/-- `J₀(k|v|)` as the mean of the plane waves with wave numbers of modulus `k`. -/
theorem J0_plane (k : ℝ) (v : ℂ) :
    (∫ α in (0 : ℝ)..2 * Real.pi, Real.cos (k * (v * Complex.exp (-(Complex.I * α))).re)) = 2 * Real.pi * besselJ 0 (k * ‖v‖) := by
  have e : ∀ α : ℝ, (v * Complex.exp (-(Complex.I * α))).re = ‖v‖ * Real.cos (α - v.arg) := by
    intro α
    nth_rw 1 [← Complex.norm_mul_exp_arg_mul_I v]
    rw [mul_assoc, ← Complex.exp_add, show (v.arg : ℂ) * Complex.I + -(Complex.I * α) = ((v.arg - α : ℝ) : ℂ) * Complex.I by
      push_cast; ring, Complex.re_ofReal_mul, Complex.exp_ofReal_mul_I_re, ← Real.cos_neg, neg_sub]
  simp only [e]
  rw [← integral_cos_cos (k * ‖v‖),
    ← periodic_shift (fun t => Real.cos (k * ‖v‖ * Real.cos t)) (fun t => by simp only [Real.cos_add_two_pi]) v.arg]
  simp only [mul_assoc]

theorem integral_sin_cos (c : ℝ) : (∫ θ in (0 : ℝ)..2 * Real.pi, Real.sin (c * Real.cos θ)) = 0 := by
  have h := periodic_shift (fun t => Real.sin (c * Real.cos t)) (fun t => by simp only [Real.cos_add_two_pi]) Real.pi
  simp only [Real.cos_sub_pi, mul_neg, Real.sin_neg, intervalIntegral.integral_neg] at h
  linarith

/-- **Product formula**: the mean of `J₀(k |·|)` over a circle of radius `r` about `v` is `J₀(k|v|) J₀(kr)`. -/
theorem J0_mean (k r : ℝ) (v : ℂ) :
    (∫ θ in (0 : ℝ)..2 * Real.pi, besselJ 0 (k * ‖v + r * Complex.exp (Complex.I * θ)‖))
      = 2 * Real.pi * (besselJ 0 (k * ‖v‖) * besselJ 0 (k * r)) := by
  have hp : (2 * Real.pi : ℝ) ≠ 0 := by positivity
  set p : ℝ → ℝ := fun α => (v * Complex.exp (-(Complex.I * α))).re with hpdef
  have e : ∀ θ α : ℝ, ((v + r * Complex.exp (Complex.I * θ)) * Complex.exp (-(Complex.I * α))).re
      = p α + r * Real.cos (θ - α) := by
    intro θ α
    rw [add_mul, Complex.add_re, mul_assoc, ← Complex.exp_add,
      show Complex.I * (θ : ℂ) + -(Complex.I * α) = ((θ - α : ℝ) : ℂ) * Complex.I by push_cast; ring,
      Complex.re_ofReal_mul, Complex.exp_ofReal_mul_I_re]
  have h1 : ∀ θ : ℝ, 2 * Real.pi * besselJ 0 (k * ‖v + r * Complex.exp (Complex.I * θ)‖)
      = ∫ α in (0 : ℝ)..2 * Real.pi, Real.cos (k * (p α + r * Real.cos (θ - α))) := by
    intro θ
    rw [← J0_plane]
    simp only [e]
  have hpc : Continuous p := by
    simp only [hpdef]
    fun_prop
  have h2 : ∀ α : ℝ, (∫ θ in (0 : ℝ)..2 * Real.pi, Real.cos (k * (p α + r * Real.cos (θ - α))))
      = Real.cos (k * p α) * (2 * Real.pi * besselJ 0 (k * r)) := by
    intro α
    have ec : ∀ θ : ℝ, Real.cos (k * (p α + r * Real.cos (θ - α)))
        = Real.cos (k * p α) * Real.cos (k * r * Real.cos (θ - α)) - Real.sin (k * p α) * Real.sin (k * r * Real.cos (θ - α)) := by
      intro θ
      rw [mul_add, ← mul_assoc k r, Real.cos_add]
    simp only [ec]
    rw [intervalIntegral.integral_sub (Continuous.intervalIntegrable (by fun_prop) _ _)
      (Continuous.intervalIntegrable (by fun_prop) _ _), intervalIntegral.integral_const_mul,
      intervalIntegral.integral_const_mul,
      periodic_shift (fun t => Real.cos (k * r * Real.cos t)) (fun t => by simp only [Real.cos_add_two_pi]) α,
      periodic_shift (fun t => Real.sin (k * r * Real.cos t)) (fun t => by simp only [Real.cos_add_two_pi]) α,
      integral_cos_cos, integral_sin_cos]
    ring
  refine mul_left_cancel₀ hp ?_
  rw [← intervalIntegral.integral_const_mul]
  simp only [h1]
  rw [swap_continuous (fun θ α => Real.cos (k * (p α + r * Real.cos (θ - α)))) (by
    simp only [Function.uncurry_def]; fun_prop)]
  simp only [h2]
  rw [intervalIntegral.integral_mul_const]
  simp only [hpdef]
  rw [J0_plane]
  ring

theorem continuous_J0_norm (v : ℂ) : Continuous fun p : ℝ × ℂ => besselJ 0 (p.1 * ‖p.2 - v‖) :=
  (continuous_J 0).comp (by fun_prop)

/-- Convolution of a radial integrable function with `J₀(k |·|)`. -/
theorem radial_conv (a : ℝ → ℝ) (ha : IntegrableOn (fun r => r * a r) (Ioi 0)) (k : ℝ) (v : ℂ) :
    (∫ w : ℂ, a ‖w‖ * besselJ 0 (k * ‖w - v‖))
      = (2 * Real.pi * ∫ r in Ioi (0 : ℝ), r * a r * besselJ 0 (k * r)) * besselJ 0 (k * ‖v‖) := by
  rw [← Complex.integral_comp_polarCoord_symm, polarCoord_target, Measure.volume_eq_prod, setIntegral_prod]
  · have hin : ∀ r ∈ Ioi (0 : ℝ), (∫ θ in Ioo (-Real.pi) Real.pi,
        r • (a ‖Complex.polarCoord.symm (r, θ)‖ * besselJ 0 (k * ‖Complex.polarCoord.symm (r, θ) - v‖)))
        = (r * a r * besselJ 0 (k * r)) * (2 * Real.pi * besselJ 0 (k * ‖v‖)) := by
      intro r hr
      have hr0 : 0 < r := hr
      have e : ∀ θ : ℝ, r • (a ‖Complex.polarCoord.symm (r, θ)‖ * besselJ 0 (k * ‖Complex.polarCoord.symm (r, θ) - v‖))
          = r * a r * besselJ 0 (k * ‖-v + r * Complex.exp (Complex.I * θ)‖) := by
        intro θ
        rw [Complex.norm_polarCoord_symm, abs_of_pos hr0, Complex.polarCoord_symm_apply, smul_eq_mul, mul_comm Complex.I,
          Complex.exp_mul_I, sub_eq_add_neg, add_comm (-v), mul_assoc]
        push_cast
        rfl
      simp only [e]
      rw [integral_const_mul, ← integral_Ioc_eq_integral_Ioo, ← intervalIntegral.integral_of_le (by linarith [Real.pi_pos])]
      have hper : Function.Periodic (fun θ : ℝ => besselJ 0 (k * ‖-v + r * Complex.exp (Complex.I * θ)‖)) (2 * Real.pi) := by
        intro θ
        have : Complex.exp (Complex.I * ((θ + 2 * Real.pi : ℝ) : ℂ)) = Complex.exp (Complex.I * θ) := by
          push_cast
          rw [mul_add, Complex.exp_add, show Complex.I * (2 * (Real.pi : ℂ)) = 2 * Real.pi * Complex.I by ring,
            Complex.exp_two_pi_mul_I, mul_one]
        simp only [this]
      have hs := hper.intervalIntegral_add_eq (-Real.pi) 0
      rw [show -Real.pi + 2 * Real.pi = Real.pi by ring, zero_add] at hs
      rw [hs, J0_mean, norm_neg]
      ring
    rw [setIntegral_congr_fun measurableSet_Ioi hin, integral_mul_const]
    ring
  · have hb : Integrable (fun p : ℝ × ℝ => (p.1 * a p.1) * 1)
        ((volume.restrict (Ioi (0 : ℝ))).prod (volume.restrict (Ioo (-Real.pi) Real.pi))) :=
      Integrable.mul_prod (f := fun r : ℝ => r * a r) (g := fun _ : ℝ => (1 : ℝ)) ha (integrable_const _)
    rw [IntegrableOn, ← Measure.prod_restrict]
    have hcont : Continuous fun p : ℝ × ℝ => besselJ 0 (k * ‖Complex.polarCoord.symm p - v‖) := by
      refine (continuous_J 0).comp ?_
      simp only [Complex.polarCoord_symm_apply]
      fun_prop
    have h2 := hb.mul_bdd (c := 1) (g := fun p : ℝ × ℝ => besselJ 0 (k * ‖Complex.polarCoord.symm p - v‖))
      hcont.aestronglyMeasurable (ae_of_all _ fun p => by rw [Real.norm_eq_abs]; exact abs_J0_le _)
    refine h2.congr ?_
    rw [Measure.prod_restrict]
    refine (ae_restrict_mem (measurableSet_Ioi.prod measurableSet_Ioo)).mono fun p hp => ?_
    have hp0 : 0 < p.1 := hp.1
    simp only [mul_one, smul_eq_mul, Complex.norm_polarCoord_symm, abs_of_pos hp0]
    ring

/-- `∫_0^∞ k e^{-σ²k²/2} J₀(k y) dk`. -/
theorem gauss_hankel (σ : ℝ) (hσ : 0 < σ) (y : ℝ) :
    (∫ k in Ioi (0 : ℝ), k * Real.exp (-(σ ^ 2 * k ^ 2 / 2)) * besselJ 0 (k * y))
      = Real.exp (-(y ^ 2 / (2 * σ ^ 2))) / σ ^ 2 := by
  have h := laplace_J0 (σ ^ 2 / 2) y (by positivity)
  rw [← integral_comp_rpow_Ioi_of_pos (p := 2) two_pos] at h
  have e : ∀ k ∈ Ioi (0 : ℝ), (2 * k ^ ((2 : ℝ) - 1)) • (Real.exp (-(σ ^ 2 / 2 * k ^ (2 : ℝ))) * besselJ 0 (y * Real.sqrt (k ^ (2 : ℝ))))
      = 2 * (k * Real.exp (-(σ ^ 2 * k ^ 2 / 2)) * besselJ 0 (k * y)) := by
    intro k hk
    have hk0 : 0 < k := hk
    rw [show (2 : ℝ) - 1 = 1 by norm_num, Real.rpow_one, Real.rpow_two, Real.sqrt_sq hk0.le, smul_eq_mul, mul_comm y k,
      show σ ^ 2 / 2 * k ^ 2 = σ ^ 2 * k ^ 2 / 2 by ring]
    ring
  rw [setIntegral_congr_fun measurableSet_Ioi e, integral_const_mul] at h
  have e2 : y ^ 2 / (4 * (σ ^ 2 / 2)) = y ^ 2 / (2 * σ ^ 2) := by congr 1; ring
  rw [e2] at h
  have e3 : 1 / (σ ^ 2 / 2) * Real.exp (-(y ^ 2 / (2 * σ ^ 2))) = 2 * (Real.exp (-(y ^ 2 / (2 * σ ^ 2))) / σ ^ 2) := by
    field_simp
  linarith

theorem integrable_k_gauss (σ : ℝ) (hσ : 0 < σ) : IntegrableOn (fun k : ℝ => k * Real.exp (-(σ ^ 2 * k ^ 2 / 2))) (Ioi 0) := by
  have h := integrableOn_rpow_mul_exp_neg_mul_sq (b := σ ^ 2 / 2) (by positivity) (s := 1) (by norm_num)
  refine h.congr_fun (fun k _ => ?_) measurableSet_Ioi
  simp only [Real.rpow_one]
  congr 2
  ring

end Microjax.Props
