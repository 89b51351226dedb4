import Verif.Spec.Blur
import Verif.Spec.Profile
import Verif.Lemmas.J0Addition
import Mathlib.Analysis.SpecialFunctions.Gaussian.FourierTransform
import Mathlib.LinearAlgebra.Complex.FiniteDimensional

/-!
# Gaussian blur and source average in the Hankel domain
-/

noncomputable section

namespace Microjax.Props

open Spec MeasureTheory Filter Set Topology

theorem gauss2_eq (σ : ℝ) (hσ : 0 < σ) (v : ℂ) :
    gauss2 σ v = 1 / (2 * Real.pi) * ∫ k in Ioi (0 : ℝ), k * Real.exp (-(σ ^ 2 * k ^ 2 / 2)) * besselJ 0 (k * ‖v‖) := by
  rw [gauss_hankel σ hσ, gauss2]
  field_simp

theorem continuous_gauss2 (σ : ℝ) : Continuous (gauss2 σ) := by
  unfold gauss2
  fun_prop

theorem gauss2_nonneg (σ : ℝ) (v : ℂ) : 0 ≤ gauss2 σ v := by
  unfold gauss2
  positivity

theorem gauss2_neg (σ : ℝ) (v : ℂ) : gauss2 σ (-v) = gauss2 σ v := by
  simp [gauss2]

theorem gauss2_le (σ : ℝ) (v : ℂ) : gauss2 σ v ≤ 1 / (2 * Real.pi * σ ^ 2) := by
  unfold gauss2
  refine div_le_div_of_nonneg_right ?_ (by positivity)
  rw [Real.exp_le_one_iff]
  have : 0 ≤ ‖v‖ ^ 2 / (2 * σ ^ 2) := by positivity
  linarith

theorem integral_gauss2 (σ : ℝ) (hσ : 0 < σ) : (∫ z : ℂ, gauss2 σ z) = 1 := by
  have h := GaussianFourier.integral_rexp_neg_mul_sq_norm (V := ℂ) (b := 1 / (2 * σ ^ 2)) (by positivity)
  have e : ∀ z : ℂ, gauss2 σ z = Real.exp (-(1 / (2 * σ ^ 2)) * ‖z‖ ^ 2) * (1 / (2 * Real.pi * σ ^ 2)) := by
    intro z
    rw [gauss2, div_eq_mul_one_div (Real.exp _)]
    congr 2
    ring
  simp only [e]
  rw [integral_mul_const, h, Complex.finrank_real_complex]
  norm_num
  field_simp

theorem integrable_gauss2 (σ : ℝ) (hσ : 0 < σ) : Integrable (gauss2 σ) := by
  by_contra h
  have := integral_gauss2 σ hσ
  rw [integral_undef h] at this
  exact zero_ne_one this

/-- A radial function of the plane is integrable when `r a(r)` is. -/
theorem integrable_radial (a : ℝ → ℝ) (ha : IntegrableOn (fun r => r * a r) (Ioi 0)) : Integrable fun w : ℂ => a ‖w‖ := by
  rw [integrable_fun_norm_addHaar (E := ℂ) volume (f := a), Complex.finrank_real_complex]
  simpa using ha

theorem abs_J0_norm (x : ℝ) : ‖besselJ 0 x‖ ≤ 1 := by
  rw [Real.norm_eq_abs]
  exact abs_J0_le x

/-- The blur of a radial integrable function, in the Hankel domain. -/
theorem blur_radial (σ : ℝ) (hσ : 0 < σ) (a : ℝ → ℝ) (ha : IntegrableOn (fun r => r * a r) (Ioi 0)) (v : ℂ) :
    blur σ (fun w => a ‖w‖) v = 1 / (2 * Real.pi) * ∫ k in Ioi (0 : ℝ), (k * Real.exp (-(σ ^ 2 * k ^ 2 / 2))
      * (2 * Real.pi * ∫ r in Ioi (0 : ℝ), r * a r * besselJ 0 (k * r))) * besselJ 0 (k * ‖v‖) := by
  have hA := integrable_radial a ha
  have hG := integrable_k_gauss σ hσ
  rw [blur]
  have htr : (∫ z : ℂ, gauss2 σ z * a ‖v + z‖) = ∫ w : ℂ, gauss2 σ (w - v) * a ‖w‖ := by
    have := integral_add_left_eq_self (μ := (volume : Measure ℂ)) (fun w : ℂ => gauss2 σ (w - v) * a ‖w‖) v
    rw [← this]
    simp
  rw [htr]
  simp only [gauss2_eq σ hσ]
  have e : ∀ w : ℂ, 1 / (2 * Real.pi) * (∫ k in Ioi (0 : ℝ), k * Real.exp (-(σ ^ 2 * k ^ 2 / 2)) * besselJ 0 (k * ‖w - v‖)) * a ‖w‖
      = 1 / (2 * Real.pi) * ∫ k in Ioi (0 : ℝ), (k * Real.exp (-(σ ^ 2 * k ^ 2 / 2))) * (a ‖w‖ * besselJ 0 (k * ‖w - v‖)) := by
    intro w
    rw [mul_assoc, ← integral_mul_const]
    congr 2
    funext k
    ring
  simp only [e]
  rw [integral_const_mul]
  congr 1
  rw [integral_integral_swap]
  · refine integral_congr_ae (ae_of_all _ fun k => ?_)
    simp only
    rw [integral_const_mul, radial_conv a ha k v]
    ring
  · have h0 : Integrable (fun p : ℂ × ℝ => a ‖p.1‖ * (p.2 * Real.exp (-(σ ^ 2 * p.2 ^ 2 / 2))))
        (volume.prod (volume.restrict (Ioi (0 : ℝ)))) := Integrable.mul_prod hA hG
    have hc : Continuous fun p : ℂ × ℝ => besselJ 0 (p.2 * ‖p.1 - v‖) := (continuous_J 0).comp (by fun_prop)
    have h1 := h0.mul_bdd (c := 1) hc.aestronglyMeasurable (ae_of_all _ fun p => abs_J0_norm _)
    refine h1.congr (ae_of_all _ fun p => ?_)
    simp only [Function.uncurry]
    ring

/-- The mean over a source of a function given by its Hankel transform. -/
theorem profileMean_hankel (S : ℝ → ℝ) (hS : IntervalIntegrable (fun r => S r * r) volume 0 1)
    (hflux : (∫ r in (0 : ℝ)..1, S r * r) ≠ 0) (h : ℝ → ℝ) (hh : IntegrableOn h (Ioi 0)) (c : ℝ) (g : ℂ → ℝ)
    (hg : ∀ v, g v = c + ∫ k in Ioi (0 : ℝ), h k * besselJ 0 (k * ‖v‖)) (u : ℂ) (ρ : ℝ) :
    profileMean S g u ρ = c + ∫ k in Ioi (0 : ℝ), h k * discFT S (k * ρ) * besselJ 0 (k * ‖u‖) := by
  have hp : (2 * Real.pi : ℝ) ≠ 0 := by positivity
  have hJc : ∀ r : ℝ, Continuous fun p : ℝ × ℝ => besselJ 0 (p.2 * ‖u + ρ * r * Complex.exp (Complex.I * p.1)‖) := fun r =>
    (continuous_J 0).comp (by fun_prop)
  -- the angle
  have hθ : ∀ r : ℝ, (∫ θ in (0 : ℝ)..2 * Real.pi, g (u + ρ * r * Complex.exp (Complex.I * θ)) * (S r * r))
      = 2 * Real.pi * (c * (S r * r) + ∫ k in Ioi (0 : ℝ), (S r * r) * (h k * (besselJ 0 (k * ‖u‖) * besselJ 0 (k * (ρ * r))))) := by
    intro r
    have hone : IntegrableOn (fun _ : ℝ => (1 : ℝ)) (uIoc 0 (2 * Real.pi)) := by
      rw [uIoc_of_le (by positivity)]
      exact integrable_const (1 : ℝ)
    have hint : Integrable (fun p : ℝ × ℝ => (1 : ℝ) * h p.2)
        ((volume.restrict (uIoc 0 (2 * Real.pi))).prod (volume.restrict (Ioi (0 : ℝ)))) :=
      Integrable.mul_prod hone hh
    have hint2 := hint.mul_bdd (c := 1) (hJc r).aestronglyMeasurable (ae_of_all _ fun p => abs_J0_norm _)
    have hsw : (∫ θ in (0 : ℝ)..2 * Real.pi, ∫ k in Ioi (0 : ℝ), h k * besselJ 0 (k * ‖u + ρ * r * Complex.exp (Complex.I * θ)‖))
        = ∫ k in Ioi (0 : ℝ), ∫ θ in (0 : ℝ)..2 * Real.pi, h k * besselJ 0 (k * ‖u + ρ * r * Complex.exp (Complex.I * θ)‖) := by
      refine intervalIntegral_integral_swap (hint2.congr (ae_of_all _ fun p => ?_))
      simp only [Function.uncurry, one_mul]
    have hcont : IntervalIntegrable (fun θ : ℝ => ∫ k in Ioi (0 : ℝ),
        h k * besselJ 0 (k * ‖u + ρ * r * Complex.exp (Complex.I * θ)‖)) volume 0 (2 * Real.pi) := by
      rw [intervalIntegrable_iff]
      refine hint2.integral_prod_left.congr (ae_of_all _ fun θ => ?_)
      simp only [one_mul]
    simp only [hg]
    rw [intervalIntegral.integral_mul_const, intervalIntegral.integral_add (by simp) hcont, hsw]
    have hk : ∀ k : ℝ, (∫ θ in (0 : ℝ)..2 * Real.pi, h k * besselJ 0 (k * ‖u + ρ * r * Complex.exp (Complex.I * θ)‖))
        = 2 * Real.pi * (h k * (besselJ 0 (k * ‖u‖) * besselJ 0 (k * (ρ * r)))) := by
      intro k
      have := J0_mean k (ρ * r) u
      push_cast at this
      rw [intervalIntegral.integral_const_mul, this]
      ring
    simp only [hk]
    rw [integral_const_mul, integral_const_mul, intervalIntegral.integral_const, smul_eq_mul, sub_zero]
    ring
  rw [profileMean]
  simp only [hθ]
  have hden : (∫ r in (0 : ℝ)..1, ∫ _θ in (0 : ℝ)..2 * Real.pi, S r * r) = 2 * Real.pi * ∫ r in (0 : ℝ)..1, S r * r := by
    rw [← intervalIntegral.integral_const_mul]
    refine intervalIntegral.integral_congr fun r _ => ?_
    rw [intervalIntegral.integral_const, smul_eq_mul, sub_zero]
  -- the radius
  have hint : Integrable (fun p : ℝ × ℝ => (S p.1 * p.1) * h p.2)
      ((volume.restrict (uIoc 0 1)).prod (volume.restrict (Ioi (0 : ℝ)))) :=
    Integrable.mul_prod (intervalIntegrable_iff.mp hS) hh
  have hc2 : Continuous fun p : ℝ × ℝ => besselJ 0 (p.2 * ‖u‖) * besselJ 0 (p.2 * (ρ * p.1)) :=
    ((continuous_J 0).comp (by fun_prop)).mul ((continuous_J 0).comp (by fun_prop))
  have hint2 := hint.mul_bdd (c := 1) hc2.aestronglyMeasurable (ae_of_all _ fun p => by
    rw [norm_mul]
    exact mul_le_one₀ (abs_J0_norm _) (norm_nonneg _) (abs_J0_norm _))
  have hsw : (∫ r in (0 : ℝ)..1, ∫ k in Ioi (0 : ℝ), (S r * r) * (h k * (besselJ 0 (k * ‖u‖) * besselJ 0 (k * (ρ * r)))))
      = ∫ k in Ioi (0 : ℝ), ∫ r in (0 : ℝ)..1, (S r * r) * (h k * (besselJ 0 (k * ‖u‖) * besselJ 0 (k * (ρ * r)))) := by
    refine intervalIntegral_integral_swap (hint2.congr (ae_of_all _ fun p => ?_))
    simp only [Function.uncurry]
    ring
  have hcont : IntervalIntegrable (fun r : ℝ => ∫ k in Ioi (0 : ℝ),
      (S r * r) * (h k * (besselJ 0 (k * ‖u‖) * besselJ 0 (k * (ρ * r))))) volume 0 1 := by
    rw [intervalIntegrable_iff]
    refine hint2.integral_prod_left.congr (ae_of_all _ fun r => ?_)
    refine integral_congr_ae (ae_of_all _ fun k => ?_)
    simp only
    ring
  rw [intervalIntegral.integral_const_mul, intervalIntegral.integral_add (hS.const_mul c) hcont, hsw,
    intervalIntegral.integral_const_mul, hden, mul_div_mul_left _ _ hp, add_div, mul_div_cancel_right₀ _ hflux]
  congr 1
  rw [← integral_div]
  refine integral_congr_ae (ae_of_all _ fun k => ?_)
  simp only
  rw [discFT_eq]
  have e : ∀ r : ℝ, (S r * r) * (h k * (besselJ 0 (k * ‖u‖) * besselJ 0 (k * (ρ * r))))
      = (h k * besselJ 0 (k * ‖u‖)) * (S r * besselJ 0 (k * ρ * r) * r) := by
    intro r
    rw [mul_assoc k ρ r]
    ring
  simp only [e]
  rw [intervalIntegral.integral_const_mul]
  ring

end Microjax.Props
