import Verif.Props.Elliptic
import Verif.Props.PointSource
import Verif.Model.MagFft
import Verif.Spec.Profile
import Mathlib.Analysis.SpecialFunctions.Integrals.Basic
import Mathlib.Analysis.SpecialFunctions.Arsinh

/-!
# C58, C59, C60: point-lens magnification and central finite-source magnifications of `fastlens/mag_fft_jax.py`
-/

noncomputable section

open Microjax.MagFft Microjax.Special Microjax.Spec MeasureTheory

namespace Microjax.Props

/-! ### C58 -/

/-- **C58.**  `A_point` is the magnification of a point source by a single lens, at every position. -/
theorem C58_is_point_magnification (w : ℂ) (hw : w ≠ 0) : aPoint ‖w‖ = pointMag single w := by
  rw [C02_true_single_mag w hw, aPoint, paczynski, abs_of_nonneg (norm_nonneg w), div_div]

/-- **C58.**  `A_point` is even, greater than one, and strictly decreasing in the distance. -/
theorem C58_even_gt_one_decreasing :
    (∀ u, aPoint (-u) = aPoint u) ∧ (∀ u, u ≠ 0 → 1 < aPoint u) ∧
    (∀ u v : ℝ, 0 < u → u < v → aPoint v < aPoint u) := by
  have hsq : ∀ u : ℝ, u ≠ 0 → aPoint u = Real.sqrt (1 + 4 / (u ^ 2 * (u ^ 2 + 4))) := by
    intro u hu
    have hu2 : 0 < u ^ 2 := by positivity
    have ha : 0 < |u| := abs_pos.mpr hu
    have hs : 0 < Real.sqrt (u ^ 2 + 4) := by positivity
    rw [eq_comm, Real.sqrt_eq_iff_mul_self_eq (by positivity) (by unfold aPoint; positivity), aPoint]
    rw [div_div, div_mul_div_comm, show |u| * Real.sqrt (u ^ 2 + 4) * (|u| * Real.sqrt (u ^ 2 + 4))
      = (|u| * |u|) * (Real.sqrt (u ^ 2 + 4) * Real.sqrt (u ^ 2 + 4)) by ring, abs_mul_abs_self,
      Real.mul_self_sqrt (by positivity)]
    field_simp
    ring
  refine ⟨fun u => by simp [aPoint], fun u hu => ?_, fun u v hu huv => ?_⟩
  · rw [hsq u hu, Real.lt_sqrt (by norm_num)]
    have hu2 : 0 < u ^ 2 := by positivity
    have : 0 < 4 / (u ^ 2 * (u ^ 2 + 4)) := by positivity
    linarith
  · rw [hsq u hu.ne', hsq v (hu.trans huv).ne']
    refine Real.sqrt_lt_sqrt (by positivity) ?_
    have h2 : u ^ 2 < v ^ 2 := by nlinarith
    have hu2 : 0 < u ^ 2 := by positivity
    have : u ^ 2 * (u ^ 2 + 4) < v ^ 2 * (v ^ 2 + 4) := by nlinarith
    have := div_lt_div_of_pos_left (show (0:ℝ) < 4 by norm_num) (by positivity) this
    linarith

example : (1 / 2 : ℝ) < aPoint 0 + 1 ∧ aPoint 2 < aPoint 1 :=
  ⟨by simp [aPoint]; norm_num, C58_even_gt_one_decreasing.2.2 1 2 (by norm_num) (by norm_num)⟩

/-! ### Radial reduction of the averages -/

lemma discMean_eq_profileMean (u1 : ℝ) (g : ℂ → ℝ) (w : ℂ) (ρ : ℝ) :
    discMean u1 g w ρ = profileMean (brightness u1) g w ρ := by
  simp only [discMean, discIntegral, profileMean, one_mul]

lemma norm_polar {ρ r : ℝ} (hρ : 0 < ρ) (hr : 0 < r) (θ : ℝ) :
    ‖(0 : ℂ) + ρ * r * Complex.exp (Complex.I * θ)‖ = ρ * r := by
  rw [zero_add, norm_mul, norm_mul, Complex.norm_real, Complex.norm_real, mul_comm Complex.I,
    Complex.norm_exp_ofReal_mul_I, Real.norm_of_nonneg hρ.le, Real.norm_of_nonneg hr.le, mul_one]

/-- Radial integrand of the central average: `r A(ρ r)`, continued to `r = 0`. -/
def radial (ρ r : ℝ) : ℝ := (ρ ^ 2 * r ^ 2 + 2) / (ρ * Real.sqrt (ρ ^ 2 * r ^ 2 + 4))

lemma continuous_radial {ρ : ℝ} (hρ : 0 < ρ) : Continuous (radial ρ) := by
  unfold radial
  refine Continuous.div (by fun_prop) (by fun_prop) fun r => ?_
  have : 0 < Real.sqrt (ρ ^ 2 * r ^ 2 + 4) := by positivity
  positivity

lemma pointMag_polar {ρ r : ℝ} (hρ : 0 < ρ) (hr : 0 < r) (θ : ℝ) :
    pointMag single ((0 : ℂ) + ρ * r * Complex.exp (Complex.I * θ)) * r = radial ρ r := by
  have hn := norm_polar hρ hr θ
  have hne : (0 : ℂ) + ρ * r * Complex.exp (Complex.I * θ) ≠ 0 := by
    rw [← norm_pos_iff, hn]; positivity
  rw [C02_true_single_mag _ hne, hn, paczynski, radial, mul_pow]
  have : 0 < Real.sqrt (ρ ^ 2 * r ^ 2 + 4) := by positivity
  field_simp

/-- The central average over a profile is a quotient of one-dimensional integrals. -/
lemma profileMean_centre (p : ℝ → ℝ) {ρ : ℝ} (hρ : 0 < ρ) :
    profileMean p (pointMag single) 0 ρ
      = (∫ r in (0 : ℝ)..1, p r * radial ρ r) / ∫ r in (0 : ℝ)..1, p r * r := by
  unfold profileMean
  have hpi := Real.two_pi_pos
  have h1 : (∫ r in (0 : ℝ)..1, ∫ θ in (0 : ℝ)..2 * Real.pi,
      pointMag single ((0 : ℂ) + ρ * r * Complex.exp (Complex.I * θ)) * (p r * r))
      = 2 * Real.pi * ∫ r in (0 : ℝ)..1, p r * radial ρ r := by
    rw [← intervalIntegral.integral_const_mul]
    refine intervalIntegral.integral_congr_ae (Filter.Eventually.of_forall fun r hr => ?_)
    rw [Set.uIoc_of_le zero_le_one] at hr
    have : ∀ θ : ℝ, pointMag single ((0 : ℂ) + ρ * r * Complex.exp (Complex.I * θ)) * (p r * r)
        = p r * radial ρ r := fun θ => by rw [← pointMag_polar hρ hr.1 θ]; ring
    simp only [this, intervalIntegral.integral_const, smul_eq_mul, sub_zero]
  have h2 : (∫ r in (0 : ℝ)..1, ∫ _θ in (0 : ℝ)..2 * Real.pi, (p r * r))
      = 2 * Real.pi * ∫ r in (0 : ℝ)..1, p r * r := by
    rw [← intervalIntegral.integral_const_mul]
    simp only [intervalIntegral.integral_const, smul_eq_mul, sub_zero]
  rw [h1, h2, mul_div_mul_left _ _ hpi.ne']

/-! ### C59 -/

lemma integral_radial {ρ : ℝ} (hρ : 0 < ρ) :
    ∫ r in (0 : ℝ)..1, radial ρ r = Real.sqrt (ρ ^ 2 + 4) / (2 * ρ) := by
  have hd : ∀ r : ℝ, HasDerivAt (fun r : ℝ => r * Real.sqrt (ρ ^ 2 * r ^ 2 + 4) / (2 * ρ)) (radial ρ r) r := by
    intro r
    have hp : 0 < ρ ^ 2 * r ^ 2 + 4 := by positivity
    have hs := Real.sqrt_pos.mpr hp
    have h1 : HasDerivAt (fun r : ℝ => ρ ^ 2 * r ^ 2 + 4) (ρ ^ 2 * (2 * r)) r := by
      simpa using ((hasDerivAt_pow 2 r).const_mul (ρ ^ 2)).add_const 4
    have h2 := ((hasDerivAt_id' r).fun_mul (h1.sqrt hp.ne')).div_const (2 * ρ)
    refine h2.congr_deriv ?_
    have hr2 := Real.sq_sqrt hp.le
    unfold radial
    set s := Real.sqrt (ρ ^ 2 * r ^ 2 + 4)
    field_simp
    rw [hr2]
    ring
  rw [intervalIntegral.integral_eq_sub_of_hasDerivAt (fun r _ => hd r)
    ((continuous_radial hρ).intervalIntegrable _ _)]
  norm_num

/-- **C59.**  The value used at the centre of a uniform disc is exactly the average of the point-source magnification
over the disc, for every radius. -/
theorem C59_disc_centre {ρ : ℝ} (hρ : 0 < ρ) : a0Disk ρ = discMean 0 (pointMag single) 0 ρ := by
  rw [discMean_eq_profileMean, profileMean_centre _ hρ]
  have hb : brightness 0 = fun _ => 1 := by funext r; simp [brightness]
  simp only [hb, one_mul]
  rw [integral_radial hρ, integral_id, a0Disk]
  field_simp
  norm_num

example : a0Disk 1 = Real.sqrt 5 := by norm_num [a0Disk]

/-! ### C60 -/

lemma integral_radial_sq {ρ : ℝ} (hρ : 0 < ρ) :
    ∫ r in (0 : ℝ)..1, (1 - r ^ 2) * radial ρ r
      = (ρ * (ρ ^ 2 + 2) * Real.sqrt (ρ ^ 2 + 4) - 8 * Real.arsinh (ρ / 2)) / (4 * ρ ^ 4) := by
  -- antiderivative found by the ansatz (α r + β r³) √(ρ²r²+4) + γ arsinh(ρ r / 2)
  have hd : ∀ r : ℝ, HasDerivAt (fun r : ℝ => ((1 / (2 * ρ) + 1 / (2 * ρ ^ 3)) * r - 1 / (4 * ρ) * r ^ 3)
      * Real.sqrt (ρ ^ 2 * r ^ 2 + 4) - 2 / ρ ^ 4 * Real.arsinh (ρ * r / 2)) ((1 - r ^ 2) * radial ρ r) r := by
    intro r
    have hp : 0 < ρ ^ 2 * r ^ 2 + 4 := by positivity
    have hs := Real.sqrt_pos.mpr hp
    have h1 : HasDerivAt (fun r : ℝ => ρ ^ 2 * r ^ 2 + 4) (ρ ^ 2 * (2 * r)) r := by
      simpa using ((hasDerivAt_pow 2 r).const_mul (ρ ^ 2)).add_const 4
    have h2 : HasDerivAt (fun r : ℝ => (1 / (2 * ρ) + 1 / (2 * ρ ^ 3)) * r - 1 / (4 * ρ) * r ^ 3)
        ((1 / (2 * ρ) + 1 / (2 * ρ ^ 3)) - 1 / (4 * ρ) * (3 * r ^ 2)) r := by
      refine (((hasDerivAt_id' r).const_mul (1 / (2 * ρ) + 1 / (2 * ρ ^ 3))).fun_sub
        ((hasDerivAt_pow 3 r).const_mul (1 / (4 * ρ)))).congr_deriv ?_
      norm_num
    have h3 : HasDerivAt (fun r : ℝ => ρ * r / 2) (ρ / 2) r := by
      simpa using ((hasDerivAt_id' r).const_mul ρ).div_const 2
    have h4 := (h2.fun_mul (h1.sqrt hp.ne')).fun_sub (h3.arsinh.const_mul (2 / ρ ^ 4))
    refine h4.congr_deriv ?_
    have hsq : Real.sqrt (1 + (ρ * r / 2) ^ 2) = Real.sqrt (ρ ^ 2 * r ^ 2 + 4) / 2 := by
      rw [show 1 + (ρ * r / 2) ^ 2 = (ρ ^ 2 * r ^ 2 + 4) / 2 ^ 2 by ring, Real.sqrt_div hp.le,
        Real.sqrt_sq (by norm_num)]
    have hr2 := Real.sq_sqrt hp.le
    rw [hsq]
    unfold radial
    simp only [smul_eq_mul]
    set s := Real.sqrt (ρ ^ 2 * r ^ 2 + 4)
    field_simp
    rw [hr2]
    ring
  rw [intervalIntegral.integral_eq_sub_of_hasDerivAt (fun r _ => hd r)
    (((continuous_const.sub (continuous_pow 2)).mul (continuous_radial hρ)).intervalIntegrable _ _)]
  simp only [one_pow, mul_one, mul_zero, zero_div, Real.arsinh_zero, sub_zero, ne_eq, OfNat.ofNat_ne_zero,
    not_false_eq_true, zero_pow, zero_mul]
  field_simp
  ring

/-- **C60.**  The value used at the centre by `magnification_limb2` is exactly the average over the profile
`1 - r²`. -/
theorem C60_limb2_centre {ρ : ℝ} (hρ : 0 < ρ) :
    a0Limb2 ρ = profileMean (fun r => 1 - r ^ 2) (pointMag single) 0 ρ := by
  rw [profileMean_centre _ hρ, integral_radial_sq hρ]
  have : ∫ r in (0 : ℝ)..1, (1 - r ^ 2) * r = 1 / 4 := by
    have h : ∀ r : ℝ, (1 - r ^ 2) * r = r - r ^ 3 := fun r => by ring
    simp only [h]
    rw [intervalIntegral.integral_sub ((continuous_id' (X := ℝ)).intervalIntegrable _ _)
      ((continuous_pow 3).intervalIntegrable _ _), integral_id, integral_pow]
    norm_num
  rw [this, a0Limb2]
  field_simp
  norm_num

/-- `3 ∫ Δ³ = (4 - 2m) E - (1 - m) K`. -/
lemma integral_delta3 {m : ℝ} (hm : m < 1) :
    3 * ∫ θ in (0 : ℝ)..Real.pi / 2, (1 - m * Real.sin θ ^ 2) * Real.sqrt (1 - m * Real.sin θ ^ 2)
      = (4 - 2 * m) * ellipticE m - (1 - m) * ellipticK m := by
  have hd : ∀ θ : ℝ, HasDerivAt (fun θ : ℝ => m * (Real.sin θ * Real.cos θ) * Real.sqrt (1 - m * Real.sin θ ^ 2))
      (3 * ((1 - m * Real.sin θ ^ 2) * Real.sqrt (1 - m * Real.sin θ ^ 2))
        + (2 * m - 4) * Real.sqrt (1 - m * Real.sin θ ^ 2)
        + (1 - m) * (1 / Real.sqrt (1 - m * Real.sin θ ^ 2))) θ := by
    intro θ
    have hp := delta_pos hm θ
    have hq := Real.sqrt_pos.mpr hp
    have h1 : HasDerivAt (fun θ : ℝ => 1 - m * Real.sin θ ^ 2) (-(m * (2 * Real.sin θ * Real.cos θ))) θ := by
      simpa using (((Real.hasDerivAt_sin θ).pow 2).const_mul m).const_sub 1
    have h2 := (((Real.hasDerivAt_sin θ).fun_mul (Real.hasDerivAt_cos θ)).const_mul m).fun_mul (h1.sqrt hp.ne')
    refine h2.congr_deriv ?_
    have hr2 := Real.sq_sqrt hp.le
    set r := Real.sqrt (1 - m * Real.sin θ ^ 2)
    have hc2 : Real.cos θ ^ 2 = 1 - Real.sin θ ^ 2 := by linarith [Real.sin_sq_add_cos_sq θ]
    rw [← hr2]
    field_simp
    rw [hc2, hr2]
    ring
  have i1 : IntervalIntegrable (fun θ => 3 * ((1 - m * Real.sin θ ^ 2) * Real.sqrt (1 - m * Real.sin θ ^ 2)))
      volume 0 (Real.pi / 2) := Continuous.intervalIntegrable (by fun_prop) _ _
  have i2 := (intervalIntegrable_delta m).const_mul (2 * m - 4)
  have i3 := (intervalIntegrable_inv_delta hm).const_mul (1 - m)
  have h := intervalIntegral.integral_eq_sub_of_hasDerivAt (fun θ _ => hd θ) ((i1.add i2).add i3)
  rw [intervalIntegral.integral_add (i1.add i2) i3, intervalIntegral.integral_add i1 i2,
    intervalIntegral.integral_const_mul, intervalIntegral.integral_const_mul,
    intervalIntegral.integral_const_mul] at h
  simp only [Real.cos_pi_div_two, Real.sin_zero, mul_zero, zero_mul, sub_zero] at h
  unfold ellipticE ellipticK
  linarith

/-- The central integral of the profile `√(1-r²)`. -/
lemma integral_radial_sqrt {ρ : ℝ} (hρ : 0 < ρ) :
    ∫ r in (0 : ℝ)..1, Real.sqrt (1 - r ^ 2) * radial ρ r
      = (2 * (ρ ^ 2 + 2) * ellipticE (-ρ ^ 2 / 4) - (ρ ^ 2 + 4) * ellipticK (-ρ ^ 2 / 4)) / (3 * ρ ^ 3) := by
  set m := -ρ ^ 2 / 4 with hm
  have hm0 : m < 0 := by rw [hm]; have := pow_pos hρ 2; linarith
  have hm1 : m < 1 := by linarith
  have hcont : Continuous fun r => Real.sqrt (1 - r ^ 2) * radial ρ r := by
    have := continuous_radial hρ
    fun_prop
  have hsub := intervalIntegral.integral_comp_mul_deriv (a := 0) (b := Real.pi / 2) (f := Real.sin)
    (f' := Real.cos) (g := fun r => Real.sqrt (1 - r ^ 2) * radial ρ r)
    (fun θ _ => Real.hasDerivAt_sin θ) Real.continuous_cos.continuousOn hcont
  rw [Real.sin_zero, Real.sin_pi_div_two] at hsub
  rw [← hsub]
  have hint : ∀ θ ∈ Set.uIcc (0 : ℝ) (Real.pi / 2),
      ((fun r => Real.sqrt (1 - r ^ 2) * radial ρ r) ∘ Real.sin) θ * Real.cos θ
      = (2 / (m * ρ)) * ((1 - m * Real.sin θ ^ 2) * Real.sqrt (1 - m * Real.sin θ ^ 2))
        + ((2 * m - 3) / (m * ρ)) * Real.sqrt (1 - m * Real.sin θ ^ 2)
        + ((1 - m) / (m * ρ)) * (1 / Real.sqrt (1 - m * Real.sin θ ^ 2)) := by
    intro θ hθ
    rw [Set.uIcc_of_le (by positivity)] at hθ
    have hc : 0 ≤ Real.cos θ := Real.cos_nonneg_of_mem_Icc ⟨by linarith [hθ.1, Real.pi_pos], hθ.2⟩
    have hp := delta_pos hm1 θ
    have hq := Real.sqrt_pos.mpr hp
    simp only [Function.comp, radial]
    rw [← Real.cos_sq', Real.sqrt_sq hc,
      show ρ ^ 2 * Real.sin θ ^ 2 + 4 = 2 ^ 2 * (1 - m * Real.sin θ ^ 2) by rw [hm]; ring,
      Real.sqrt_mul (by norm_num), Real.sqrt_sq (by norm_num)]
    have hr2 := Real.sq_sqrt hp.le
    set r := Real.sqrt (1 - m * Real.sin θ ^ 2)
    have hc2 : Real.cos θ ^ 2 = 1 - Real.sin θ ^ 2 := by linarith [Real.sin_sq_add_cos_sq θ]
    have hρ2 : ρ ^ 2 = -4 * m := by rw [hm]; ring
    have hs2 : m * Real.sin θ ^ 2 = 1 - r ^ 2 := by linarith
    have hmc : m * Real.cos θ ^ 2 = m - 1 + r ^ 2 := by rw [hc2]; linarith
    rw [hρ2, ← hr2]
    have e1 : -4 * m * Real.sin θ ^ 2 + 2 = 2 * (2 * r ^ 2 - 1) := by linarith
    rw [e1]
    have hmne := hm0.ne
    field_simp
    linear_combination (2 * r ^ 2 - 1) * hmc
  rw [intervalIntegral.integral_congr hint]
  have i1 : IntervalIntegrable (fun θ => 2 / (m * ρ) * ((1 - m * Real.sin θ ^ 2) * Real.sqrt (1 - m * Real.sin θ ^ 2)))
      volume 0 (Real.pi / 2) := Continuous.intervalIntegrable (by fun_prop) _ _
  have i2 := (intervalIntegrable_delta m).const_mul ((2 * m - 3) / (m * ρ))
  have i3 := (intervalIntegrable_inv_delta hm1).const_mul ((1 - m) / (m * ρ))
  rw [intervalIntegral.integral_add (i1.add i2) i3, intervalIntegral.integral_add i1 i2,
    intervalIntegral.integral_const_mul, intervalIntegral.integral_const_mul,
    intervalIntegral.integral_const_mul]
  have h3 := integral_delta3 hm1
  have hI : (∫ θ in (0 : ℝ)..Real.pi / 2, (1 - m * Real.sin θ ^ 2) * Real.sqrt (1 - m * Real.sin θ ^ 2))
      = ((4 - 2 * m) * ellipticE m - (1 - m) * ellipticK m) / 3 := by linarith
  rw [hI]
  change _ + (2 * m - 3) / (m * ρ) * ellipticE m + (1 - m) / (m * ρ) * ellipticK m = _
  have hρ2 : ρ ^ 2 = -4 * m := by rw [hm]; ring
  rw [show ρ ^ 3 = ρ ^ 2 * ρ by ring, hρ2]
  have hmne := hm0.ne
  field_simp
  ring

lemma integral_sqrt_profile : ∫ r in (0 : ℝ)..1, Real.sqrt (1 - r ^ 2) * r = 1 / 3 := by
  have hd : ∀ r ∈ Set.Ioo (0 : ℝ) 1,
      HasDerivAt (fun r : ℝ => -((1 - r ^ 2) * Real.sqrt (1 - r ^ 2)) / 3) (Real.sqrt (1 - r ^ 2) * r) r := by
    intro r hr
    have hp : 0 < 1 - r ^ 2 := by nlinarith [hr.1, hr.2]
    have h1 : HasDerivAt (fun r : ℝ => 1 - r ^ 2) (-(2 * r)) r := by
      simpa using (hasDerivAt_pow 2 r).const_sub 1
    have h2 := (h1.fun_mul (h1.sqrt hp.ne')).fun_neg.div_const 3
    refine h2.congr_deriv ?_
    have hr2 := Real.sq_sqrt hp.le
    have hq := Real.sqrt_pos.mpr hp
    set s := Real.sqrt (1 - r ^ 2)
    rw [← hr2]
    field_simp
    ring
  rw [intervalIntegral.integral_eq_sub_of_hasDerivAt_of_le (by norm_num) (by fun_prop) hd
    (Continuous.intervalIntegrable (by fun_prop) _ _)]
  norm_num

/-- The exact central magnification of the profile `√(1-r²)` (full limb darkening). -/
theorem limb1_exact {ρ : ℝ} (hρ : 0 < ρ) :
    discMean 1 (pointMag single) 0 ρ
      = (2 * (ρ ^ 2 + 2) * ellipticE (-ρ ^ 2 / 4) - (ρ ^ 2 + 4) * ellipticK (-ρ ^ 2 / 4)) / ρ ^ 3 := by
  have hb : brightness 1 = fun r => Real.sqrt (1 - r ^ 2) := by funext r; simp [brightness]
  rw [discMean_eq_profileMean, profileMean_centre _ hρ, hb, integral_radial_sqrt hρ, integral_sqrt_profile]
  field_simp

/-- **C60.**  The value used at the centre by `magnification_limb1` is the average over the profile `√(1-r²)` (linear
law with coefficient one) up to the error of the elliptic integrals. -/
theorem C60_limb1_centre {ρ : ℝ} (hρ : 0 < ρ) :
    |a0Limb1 ρ - discMean 1 (pointMag single) 0 ρ| ≤
      (2 * (ρ ^ 2 + 2) * (ellipticGap (-ρ ^ 2 / 4) * ellipticE (-ρ ^ 2 / 4)
          + 16 * ellipticGap (-ρ ^ 2 / 4) ^ 2 * ((1 + ρ ^ 2 / 4) * ellipticK (-ρ ^ 2 / 4)))
        + (ρ ^ 2 + 4) * (ellipticGap (-ρ ^ 2 / 4) * ellipticK (-ρ ^ 2 / 4))) / ρ ^ 3 := by
  rw [limb1_exact hρ]
  have hm0 : -ρ ^ 2 / 4 ≤ 0 := by have := pow_pos hρ 2; linarith
  have hK := C61_ellipk_accuracy (m := -ρ ^ 2 / 4) (by linarith)
  have hE := C61_ellipe_accuracy (m := -ρ ^ 2 / 4) (by linarith)
  rw [max_eq_right (by linarith), show 1 - -ρ ^ 2 / 4 = 1 + ρ ^ 2 / 4 by ring] at hE
  have hK0 : 0 ≤ ellipticK (-ρ ^ 2 / 4) := intervalIntegral.integral_nonneg (by positivity)
    fun θ _ => by positivity
  have hE0 : 0 ≤ ellipticE (-ρ ^ 2 / 4) := intervalIntegral.integral_nonneg (by positivity)
    fun θ _ => by positivity
  have hg : 0 ≤ ellipticGap (-ρ ^ 2 / 4) := by
    rw [ellipticGap, ← Even.pow_abs (by decide)]; positivity
  rw [a0Limb1]
  set g := ellipticGap (-ρ ^ 2 / 4)
  set E := ellipticE (-ρ ^ 2 / 4)
  set K := ellipticK (-ρ ^ 2 / 4)
  set e := ellipe (-ρ ^ 2 / 4)
  set k := ellipk (-ρ ^ 2 / 4)
  have hq : 0 ≤ 16 * g ^ 2 * ((1 + ρ ^ 2 / 4) * K) := by positivity
  have eE : |e - E| ≤ g * E + 16 * g ^ 2 * ((1 + ρ ^ 2 / 4) * K) := by
    rw [abs_le]
    have : 0 ≤ g * E := mul_nonneg hg hE0
    constructor <;> linarith [hE.1, hE.2]
  have eK : |k - K| ≤ g * K := by
    rw [abs_le]
    have : 0 ≤ g * K := mul_nonneg hg hK0
    constructor <;> linarith [hK.1, hK.2]
  rw [show (2 + 1) * (2 * (ρ ^ 2 + 2) * e - (ρ ^ 2 + 4) * k) / 3 / ρ ^ 3
      - (2 * (ρ ^ 2 + 2) * E - (ρ ^ 2 + 4) * K) / ρ ^ 3
      = (2 * (ρ ^ 2 + 2) * (e - E) - (ρ ^ 2 + 4) * (k - K)) / ρ ^ 3 by field_simp; ring,
    abs_div, abs_of_pos (show 0 < ρ ^ 3 by positivity)]
  refine div_le_div_of_nonneg_right ?_ (by positivity)
  refine (abs_sub _ _).trans ?_
  rw [abs_mul (2 * (ρ ^ 2 + 2)), abs_mul (ρ ^ 2 + 4), abs_of_pos (show 0 < 2 * (ρ ^ 2 + 2) by positivity),
    abs_of_pos (show 0 < ρ ^ 2 + 4 by positivity)]
  exact add_le_add (mul_le_mul_of_nonneg_left eE (by positivity)) (mul_le_mul_of_nonneg_left eK (by positivity))

/-- The exact central magnification for the linear law: the weights are `1 - a1` and `2 a1 / 3`. -/
theorem limb_exact {ρ a1 : ℝ} (hρ : 0 < ρ) (h3 : a1 ≠ 3) :
    discMean a1 (pointMag single) 0 ρ
      = ((1 - a1) * discMean 0 (pointMag single) 0 ρ + 2 / 3 * a1 * discMean 1 (pointMag single) 0 ρ)
        / (1 - a1 / 3) := by
  have hb : ∀ a r, brightness a r = (1 - a) + a * Real.sqrt (1 - r ^ 2) := fun a r => by
    simp only [brightness]; ring
  have hc := continuous_radial hρ
  have hnum : ∀ a, ∫ r in (0 : ℝ)..1, brightness a r * radial ρ r
      = (1 - a) * (∫ r in (0 : ℝ)..1, radial ρ r) + a * ∫ r in (0 : ℝ)..1, Real.sqrt (1 - r ^ 2) * radial ρ r := by
    intro a
    have : ∀ r, brightness a r * radial ρ r = (1 - a) * radial ρ r + a * (Real.sqrt (1 - r ^ 2) * radial ρ r) :=
      fun r => by rw [hb]; ring
    simp only [this]
    rw [intervalIntegral.integral_add (Continuous.intervalIntegrable (by fun_prop) _ _)
      (Continuous.intervalIntegrable (by fun_prop) _ _), intervalIntegral.integral_const_mul,
      intervalIntegral.integral_const_mul]
  have hden : ∀ a, ∫ r in (0 : ℝ)..1, brightness a r * r = (1 - a / 3) / 2 := by
    intro a
    have : ∀ r : ℝ, brightness a r * r = (1 - a) * r + a * (Real.sqrt (1 - r ^ 2) * r) :=
      fun r => by rw [hb]; ring
    simp only [this]
    rw [intervalIntegral.integral_add (Continuous.intervalIntegrable (by fun_prop) _ _)
      (Continuous.intervalIntegrable (by fun_prop) _ _), intervalIntegral.integral_const_mul,
      intervalIntegral.integral_const_mul, integral_id, integral_sqrt_profile]
    ring
  have h1 : (1 - a1 / 3) ≠ 0 := fun h => h3 (by linarith)
  simp only [discMean_eq_profileMean, profileMean_centre _ hρ, hnum, hden]
  field_simp
  ring

/-- **C60 (violated).**  `mag_limb.A0` combines the two terms with the weights `1` and `-a1` over `1 - a1` instead of
`1 - a1` and `2 a1/3` over `1 - a1/3`: at `rho = 1`, `a1 = 0.9` it returns a negative magnification, whereas the
average over the linear law is positive (and so is every magnification). -/
theorem C60_mag_limb_violated : a0Limb 1 0.9 < 0 ∧ 0 < discMean 0.9 (pointMag single) 0 1 := by
  have hgap : ellipticGap (-1 ^ 2 / 4) ≤ 1 / 1000 := by
    rw [ellipticGap]
    have h1 : Real.sqrt (1 - -1 ^ 2 / 4) ≤ 5 / 4 := by
      rw [Real.sqrt_le_left (by norm_num)]; norm_num
    have h2 : 0 < Real.sqrt (1 - -1 ^ 2 / 4) := Real.sqrt_pos.mpr (by norm_num)
    have h3 : (5 / 4 : ℝ)⁻¹ ≤ (Real.sqrt (1 - -1 ^ 2 / 4))⁻¹ := inv_anti₀ h2 h1
    have h4 : 1 ≤ Real.sqrt (1 - -1 ^ 2 / 4) := Real.one_le_sqrt.mpr (by norm_num)
    have h5 : (Real.sqrt (1 - -1 ^ 2 / 4))⁻¹ ≤ 1 := inv_le_one_of_one_le₀ h4
    rw [min_eq_right (h5.trans h4)]
    refine (pow_le_pow_left₀ (b := 1 / 5) (by linarith) ?_ 32).trans (by norm_num)
    norm_num at h3 ⊢
    linarith
  have hm1 : (-1 ^ 2 / 4 : ℝ) < 1 := by norm_num
  have hK := C61_ellipk_accuracy hm1
  have hE := C61_ellipe_accuracy hm1
  -- crude bounds on K and E from one AGM step
  have hb : 0 < Real.sqrt (1 - -1 ^ 2 / 4) := Real.sqrt_pos.mpr (by norm_num)
  have hs2 : Real.sqrt (1 - -1 ^ 2 / 4) ^ 2 = 5 / 4 := by rw [Real.sq_sqrt (by norm_num)]; norm_num
  set s := Real.sqrt (1 - -1 ^ 2 / 4) with hs
  have hsl : 1.118 ≤ s := by nlinarith
  have hsu : s ≤ 1.1181 := by nlinarith
  have hKI := ellipticK_eq_gaussI hm1
  have hEJ := ellipticE_eq_gaussJ hm1
  rw [← hs] at hKI hEJ
  have hstep := gaussI_step one_pos hb
  have hJ := gaussJ_step one_pos hb
  have hle := agmStep_le (p := (1, s)) one_pos hb
  have hpos := agmStep_pos (p := (1, s)) one_pos hb
  simp only [agmStep] at hle hpos
  have hIb := (gaussI_bounds hpos.2 hle).1
  have hJb := (gaussJ_bounds hpos.2 hle).1
  rw [hstep] at hIb hJb
  rw [← hKI] at hIb hJb hJ
  rw [← hEJ] at hJ
  rw [Real.sq_sqrt (by positivity)] at hJb
  have hEK : 1.118 * ellipticK (-1 ^ 2 / 4) ≤ ellipticE (-1 ^ 2 / 4) := by
    have hK0 : 0 < ellipticK (-1 ^ 2 / 4) := lt_of_lt_of_le (by have := Real.pi_pos; positivity) hIb
    nlinarith
  have hKl : 1.48 ≤ ellipticK (-1 ^ 2 / 4) := by
    refine le_trans ?_ hIb
    rw [le_div_iff₀ (by positivity)]
    nlinarith [Real.pi_gt_d4]
  set K := ellipticK (-1 ^ 2 / 4)
  set E := ellipticE (-1 ^ 2 / 4)
  have hA1 : 2.5 ≤ a0Limb1 1 := by
    have h1 : 0.999 * E ≤ ellipe (-1 ^ 2 / 4) := by
      refine le_trans ?_ hE.2
      nlinarith
    have h2 := hK.1
    rw [a0Limb1]
    have : (2 + 1) * (2 * ((1:ℝ) ^ 2 + 2) * ellipe (-1 ^ 2 / 4) - (1 ^ 2 + 4) * ellipk (-1 ^ 2 / 4)) / 3 / 1 ^ 3
        = 6 * ellipe (-1 ^ 2 / 4) - 5 * ellipk (-1 ^ 2 / 4) := by ring
    rw [this]
    linarith
  have hD : a0Disk 1 ≤ 2.2361 := by
    rw [a0Disk, div_one, Real.sqrt_le_left (by norm_num)]; norm_num
  constructor
  · rw [a0Limb]
    refine div_neg_of_neg_of_pos ?_ (by norm_num)
    norm_num at hA1 hD ⊢
    linarith
  · rw [limb_exact one_pos (by norm_num), ← C59_disc_centre one_pos, limb1_exact one_pos]
    refine div_pos ?_ (by norm_num)
    have hD0 : 0 < a0Disk 1 := by rw [a0Disk]; positivity
    have : 0 < (2 * ((1:ℝ) ^ 2 + 2) * E - (1 ^ 2 + 4) * K) / 1 ^ 3 := by
      refine div_pos ?_ (by norm_num)
      linarith
    exact add_pos (mul_pos (by norm_num) hD0) (mul_pos (by norm_num) this)

/-- **C60 (what the method returns).**  For every coefficient below one the centre value is the mean over the uniform disc
minus `a1` times the mean over the fully darkened one, divided by `1 - a1`, up to `a1/(1 - a1)` times the error of
`C60_limb1_centre`; the mean over the linear law is `((1 - a1) D + (2 a1/3) L) / (1 - a1/3)` (`limb_exact`). -/
theorem C60_mag_limb_value {ρ : ℝ} (hρ : 0 < ρ) {a1 : ℝ} (h1 : a1 < 1) :
    |a0Limb ρ a1 - (discMean 0 (pointMag single) 0 ρ - a1 * discMean 1 (pointMag single) 0 ρ) / (1 - a1)| ≤
      |a1| / (1 - a1) * ((2 * (ρ ^ 2 + 2) * (ellipticGap (-ρ ^ 2 / 4) * ellipticE (-ρ ^ 2 / 4)
          + 16 * ellipticGap (-ρ ^ 2 / 4) ^ 2 * ((1 + ρ ^ 2 / 4) * ellipticK (-ρ ^ 2 / 4)))
        + (ρ ^ 2 + 4) * (ellipticGap (-ρ ^ 2 / 4) * ellipticK (-ρ ^ 2 / 4))) / ρ ^ 3) := by
  have hc := C60_limb1_centre hρ
  have h0 : 0 < 1 - a1 := by linarith
  have e : a0Limb ρ a1 - (discMean 0 (pointMag single) 0 ρ - a1 * discMean 1 (pointMag single) 0 ρ) / (1 - a1)
      = -(a1 / (1 - a1)) * (a0Limb1 ρ - discMean 1 (pointMag single) 0 ρ) := by
    rw [a0Limb, ← C59_disc_centre hρ]
    field_simp
    ring
  rw [e, abs_mul, abs_neg, abs_div, abs_of_pos h0]
  exact mul_le_mul_of_nonneg_left hc (by positivity)

/-- The hypotheses are met by the default coefficient and a source of radius one. -/
example : (0 : ℝ) < 1 ∧ (0.5 : ℝ) < 1 := by norm_num

end Microjax.Props
