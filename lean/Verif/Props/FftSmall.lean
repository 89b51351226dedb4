import Verif.Props.FftPipeline
import Verif.Lemmas.BlurInverse

/-!
# C98: the magnification of small sources is too large by one
-/

noncomputable section

set_option linter.unusedVariables false

namespace Microjax.Props

open Spec MagFft MeasureTheory Filter Set Topology

/-! ### Means over the source -/

theorem continuous_hankelInt (c : ℝ) (h : ℝ → ℝ) (hh : IntegrableOn h (Ioi 0)) :
    Continuous fun v : ℂ => c + ∫ k in Ioi (0 : ℝ), h k * besselJ 0 (k * ‖v‖) := by
  refine continuous_const.add (continuous_of_dominated (bound := fun k => |h k|) (fun v => ?_) (fun v => ae_of_all _ fun k => ?_)
    hh.abs (ae_of_all _ fun k => ?_))
  · exact hh.1.mul ((continuous_J 0).comp (by fun_prop : Continuous fun k : ℝ => k * ‖v‖)).aestronglyMeasurable
  · rw [norm_mul, Real.norm_eq_abs]
    exact mul_le_of_le_one_right (abs_nonneg _) (abs_J0_norm _)
  · exact continuous_const.mul ((continuous_J 0).comp (by fun_prop : Continuous fun v : ℂ => k * ‖v‖))

/-- Means of two functions over a source differ by no more than the functions do. -/
theorem profileMean_close (S : ℝ → ℝ) (hS : IntervalIntegrable (fun r => S r * r) volume 0 1)
    (hpos : ∀ r ∈ Icc (0 : ℝ) 1, 0 ≤ S r) (hflux : (∫ r in (0 : ℝ)..1, S r * r) ≠ 0) (g₁ g₂ : ℂ → ℝ) (hg₁ : Continuous g₁)
    (hg₂ : Continuous g₂) (w : ℂ) (rho : ℝ) (hrho : 0 ≤ rho) (lo hi : ℝ)
    (hb : ∀ v, ‖v - w‖ ≤ rho → lo ≤ g₁ v - g₂ v ∧ g₁ v - g₂ v ≤ hi) :
    lo ≤ profileMean S g₁ w rho - profileMean S g₂ w rho ∧ profileMean S g₁ w rho - profileMean S g₂ w rho ≤ hi := by
  have hp : (0 : ℝ) < 2 * Real.pi := by positivity
  set F : (ℂ → ℝ) → ℝ → ℝ := fun g r => ∫ θ in (0 : ℝ)..2 * Real.pi, g (w + rho * r * Complex.exp (Complex.I * θ)) with hF
  have hFc : ∀ g : ℂ → ℝ, Continuous g → Continuous (F g) := by
    intro g hg
    refine intervalIntegral.continuous_parametric_intervalIntegral_of_continuous' ?_ _ _
    exact hg.comp (by fun_prop)
  have hnum : ∀ g : ℂ → ℝ, (∫ r in (0 : ℝ)..1, ∫ θ in (0 : ℝ)..2 * Real.pi, g (w + rho * r * Complex.exp (Complex.I * θ)) * (S r * r))
      = ∫ r in (0 : ℝ)..1, (S r * r) * F g r := by
    intro g
    refine intervalIntegral.integral_congr fun r _ => ?_
    simp only [hF]
    rw [intervalIntegral.integral_mul_const]
    ring
  have hden : (∫ r in (0 : ℝ)..1, ∫ _θ in (0 : ℝ)..2 * Real.pi, S r * r) = 2 * Real.pi * ∫ r in (0 : ℝ)..1, S r * r := by
    rw [← intervalIntegral.integral_const_mul]
    refine intervalIntegral.integral_congr fun r _ => ?_
    rw [intervalIntegral.integral_const, smul_eq_mul, sub_zero]
  have hfl : 0 < ∫ r in (0 : ℝ)..1, S r * r := by
    refine lt_of_le_of_ne (intervalIntegral.integral_nonneg (by norm_num) fun r hr => ?_) hflux.symm
    exact mul_nonneg (hpos r hr) hr.1
  have hint : ∀ g : ℂ → ℝ, Continuous g → IntervalIntegrable (fun r => (S r * r) * F g r) volume 0 1 := fun g hg =>
    hS.mul_continuousOn (hFc g hg).continuousOn
  have hdiff : profileMean S g₁ w rho - profileMean S g₂ w rho
      = (∫ r in (0 : ℝ)..1, (S r * r) * (F g₁ r - F g₂ r)) / (2 * Real.pi * ∫ r in (0 : ℝ)..1, S r * r) := by
    rw [profileMean, profileMean, hnum, hnum, hden, ← sub_div, ← intervalIntegral.integral_sub (hint _ hg₁) (hint _ hg₂)]
    congr 2
    funext r
    ring
  have hFd : ∀ r ∈ Icc (0 : ℝ) 1, 2 * Real.pi * lo ≤ F g₁ r - F g₂ r ∧ F g₁ r - F g₂ r ≤ 2 * Real.pi * hi := by
    intro r hr
    have hc : ∀ g : ℂ → ℝ, Continuous g → Continuous fun θ : ℝ => g (w + rho * r * Complex.exp (Complex.I * θ)) := fun g hg =>
      hg.comp (by fun_prop)
    have hi1 := (hc g₁ hg₁).intervalIntegrable (μ := volume) 0 (2 * Real.pi)
    have hi2 := (hc g₂ hg₂).intervalIntegrable (μ := volume) 0 (2 * Real.pi)
    have e : F g₁ r - F g₂ r = ∫ θ in (0 : ℝ)..2 * Real.pi,
        (g₁ (w + rho * r * Complex.exp (Complex.I * θ)) - g₂ (w + rho * r * Complex.exp (Complex.I * θ))) := by
      rw [intervalIntegral.integral_sub hi1 hi2]
    have hin : ∀ θ : ℝ, ‖w + rho * r * Complex.exp (Complex.I * θ) - w‖ ≤ rho := by
      intro θ
      rw [add_sub_cancel_left, norm_mul, norm_mul, mul_comm Complex.I, Complex.norm_exp_ofReal_mul_I, mul_one, Complex.norm_real,
        Complex.norm_real, Real.norm_eq_abs, Real.norm_eq_abs, abs_of_nonneg hrho, abs_of_nonneg hr.1]
      exact mul_le_of_le_one_right hrho hr.2
    have hclo : (∫ _θ in (0 : ℝ)..2 * Real.pi, lo) = 2 * Real.pi * lo := by simp
    have hchi : (∫ _θ in (0 : ℝ)..2 * Real.pi, hi) = 2 * Real.pi * hi := by simp
    rw [e, ← hclo, ← hchi]
    exact ⟨intervalIntegral.integral_mono_on hp.le (by simp) (hi1.sub hi2) fun θ _ => (hb _ (hin θ)).1,
      intervalIntegral.integral_mono_on hp.le (hi1.sub hi2) (by simp) fun θ _ => (hb _ (hin θ)).2⟩
  have hi3 : IntervalIntegrable (fun r => (S r * r) * (F g₁ r - F g₂ r)) volume 0 1 :=
    hS.mul_continuousOn ((hFc g₁ hg₁).sub (hFc g₂ hg₂)).continuousOn
  have hlo : (∫ r in (0 : ℝ)..1, (S r * r) * (2 * Real.pi * lo)) ≤ ∫ r in (0 : ℝ)..1, (S r * r) * (F g₁ r - F g₂ r) :=
    intervalIntegral.integral_mono_on (by norm_num) (hS.mul_const _) hi3 fun r hr =>
      mul_le_mul_of_nonneg_left (hFd r hr).1 (mul_nonneg (hpos r hr) hr.1)
  have hhi : (∫ r in (0 : ℝ)..1, (S r * r) * (F g₁ r - F g₂ r)) ≤ ∫ r in (0 : ℝ)..1, (S r * r) * (2 * Real.pi * hi) :=
    intervalIntegral.integral_mono_on (by norm_num) hi3 (hS.mul_const _) fun r hr =>
      mul_le_mul_of_nonneg_left (hFd r hr).2 (mul_nonneg (hpos r hr) hr.1)
  rw [intervalIntegral.integral_mul_const] at hlo hhi
  rw [hdiff, le_div_iff₀ (by positivity), div_le_iff₀ (by positivity)]
  constructor <;> nlinarith

/-! ### The single lens near the origin -/

theorem paczynski_inv (u : ℝ) (hu : 0 < u) : 1 / u ≤ paczynski u ∧ paczynski u ≤ 1 / u + 3 / 8 * u := by
  have hs : 0 < Real.sqrt (u ^ 2 + 4) := by positivity
  have e : paczynski u = (u ^ 2 + 2) / Real.sqrt (u ^ 2 + 4) / u := by
    rw [paczynski, div_div, mul_comm]
  have e2 : 1 / u + 3 / 8 * u = (1 + 3 / 8 * u ^ 2) / u := by field_simp
  rw [e, e2]
  constructor
  · refine div_le_div_of_nonneg_right ?_ hu.le
    rw [le_div_iff₀ hs, one_mul, Real.sqrt_le_left (by positivity)]
    nlinarith [sq_nonneg (u ^ 2), sq_nonneg u]
  · refine div_le_div_of_nonneg_right ?_ hu.le
    rw [div_le_iff₀ hs]
    have h2 : Real.sqrt (u ^ 2 + 4) = Real.sqrt (u ^ 2 + 4) := rfl
    refine le_of_sq_le_sq ?_ (by positivity)
    rw [mul_pow, Real.sq_sqrt (by positivity)]
    nlinarith [sq_nonneg (u ^ 2), sq_nonneg u, mul_nonneg (sq_nonneg u) (sq_nonneg (u ^ 2))]

theorem gauss_norm_le (σ : ℝ) (hσ : 0 < σ) (z : ℂ) : gauss2 σ z * ‖z‖ ≤ 2 * σ * gauss2 (Real.sqrt 2 * σ) z := by
  have h2 : Real.sqrt 2 ^ 2 = 2 := Real.sq_sqrt (by norm_num)
  rw [gauss2, gauss2, mul_pow, h2]
  set t := ‖z‖ with ht
  have ht0 : 0 ≤ t := norm_nonneg z
  have key : t * Real.exp (-(t ^ 2 / (2 * σ ^ 2))) ≤ σ * Real.exp (-(t ^ 2 / (2 * (2 * σ ^ 2)))) := by
    have e : -(t ^ 2 / (2 * σ ^ 2)) = -(t ^ 2 / (2 * (2 * σ ^ 2))) + -(t ^ 2 / (2 * (2 * σ ^ 2))) := by
      field_simp
      ring
    rw [e, Real.exp_add, ← mul_assoc]
    refine mul_le_mul_of_nonneg_right ?_ (Real.exp_pos _).le
    rw [Real.exp_neg, ← div_eq_mul_inv, div_le_iff₀ (Real.exp_pos _)]
    have h := Real.add_one_le_exp (t ^ 2 / (2 * (2 * σ ^ 2)))
    have h3 : t ≤ σ * (t ^ 2 / (2 * (2 * σ ^ 2)) + 1) := by
      have e3 : σ * (t ^ 2 / (2 * (2 * σ ^ 2)) + 1) - t = (t - 2 * σ) ^ 2 / (4 * σ) := by
        field_simp
        ring
      have : 0 ≤ (t - 2 * σ) ^ 2 / (4 * σ) := by positivity
      linarith
    exact le_trans h3 (mul_le_mul_of_nonneg_left h hσ.le)
  have e4 : Real.exp (-(t ^ 2 / (2 * σ ^ 2))) / (2 * Real.pi * σ ^ 2) * t = t * Real.exp (-(t ^ 2 / (2 * σ ^ 2))) / (2 * Real.pi * σ ^ 2) := by
    ring
  have e5 : 2 * σ * (Real.exp (-(t ^ 2 / (2 * (2 * σ ^ 2)))) / (2 * Real.pi * (2 * σ ^ 2)))
      = σ * Real.exp (-(t ^ 2 / (2 * (2 * σ ^ 2)))) / (2 * Real.pi * σ ^ 2) := by
    field_simp
  rw [e4, e5]
  exact div_le_div_of_nonneg_right key (by positivity)

theorem integrable_gauss_norm (σ : ℝ) (hσ : 0 < σ) : Integrable fun z : ℂ => gauss2 σ z * ‖z‖ := by
  refine ((integrable_gauss2 (Real.sqrt 2 * σ) (by positivity)).const_mul (2 * σ)).mono' ?_ (ae_of_all _ fun z => ?_)
  · exact ((continuous_gauss2 σ).mul continuous_norm).aestronglyMeasurable
  · rw [Real.norm_eq_abs, abs_of_nonneg (mul_nonneg (gauss2_nonneg σ z) (norm_nonneg z))]
    exact gauss_norm_le σ hσ z

theorem gauss_moment (σ : ℝ) (hσ : 0 < σ) : (∫ z : ℂ, gauss2 σ z * ‖z‖) ≤ 2 * σ := by
  have h := integral_mono (integrable_gauss_norm σ hσ) ((integrable_gauss2 (Real.sqrt 2 * σ) (by positivity)).const_mul (2 * σ))
    fun z => gauss_norm_le σ hσ z
  rw [integral_const_mul, integral_gauss2 _ (by positivity), mul_one] at h
  exact h

/-- Blurred magnification against blurred `1/|w|`. -/
theorem blur_diff (σ : ℝ) (hσ : 0 < σ) (v : ℂ) :
    0 ≤ blur σ (pointMag single) v - blur σ (fun w => 1 / ‖w‖) v ∧
    blur σ (pointMag single) v - blur σ (fun w => 1 / ‖w‖) v ≤ 3 / 8 * (‖v‖ + 2 * σ) := by
  have hne : ∀ᵐ z : ℂ, z ≠ -v := by
    rw [ae_iff]
    simp
  have hne' : ∀ᵐ z : ℂ, v + z ≠ 0 := by
    filter_upwards [hne] with z hz h
    exact hz (by linear_combination h)
  have hA : Integrable fun z : ℂ => gauss2 σ z * pointMag single (v + z) := by
    have h := (integrable_gauss2 σ hσ).add (integrable_gauss_mul σ (fun r => paczynski r - 1) integrable_excess v)
    refine h.congr ?_
    filter_upwards [hne'] with z hz
    rw [C02_true_single_mag _ hz]
    simp only [Pi.add_apply]
    ring
  have hI := integrable_gauss_inv σ hσ v
  have e : blur σ (pointMag single) v - blur σ (fun w => 1 / ‖w‖) v
      = ∫ z : ℂ, (gauss2 σ z * pointMag single (v + z) - gauss2 σ z * (1 / ‖v + z‖)) := by
    rw [integral_sub hA hI]
    rfl
  rw [e]
  constructor
  · refine integral_nonneg_of_ae ?_
    filter_upwards [hne'] with z hz
    rw [C02_true_single_mag _ hz, ← mul_sub]
    have := (paczynski_inv ‖v + z‖ (norm_pos_iff.mpr hz)).1
    exact mul_nonneg (gauss2_nonneg σ z) (by linarith)
  · have hdom : Integrable fun z : ℂ => 3 / 8 * (‖v‖ * gauss2 σ z + gauss2 σ z * ‖z‖) :=
      (((integrable_gauss2 σ hσ).const_mul ‖v‖).add (integrable_gauss_norm σ hσ)).const_mul _
    have h1 := integral_mono_ae (hA.sub hI) hdom (by
      filter_upwards [hne'] with z hz
      simp only [Pi.sub_apply]
      rw [C02_true_single_mag _ hz, ← mul_sub]
      have h2 := (paczynski_inv ‖v + z‖ (norm_pos_iff.mpr hz)).2
      have h3 := norm_add_le v z
      have h4 := gauss2_nonneg σ z
      calc gauss2 σ z * (paczynski ‖v + z‖ - 1 / ‖v + z‖) ≤ gauss2 σ z * (3 / 8 * (‖v‖ + ‖z‖)) :=
            mul_le_mul_of_nonneg_left (by linarith) h4
        _ = _ := by ring)
    rw [integral_const_mul, integral_add ((integrable_gauss2 σ hσ).const_mul ‖v‖) (integrable_gauss_norm σ hσ), integral_const_mul,
      integral_gauss2 σ hσ, mul_one] at h1
    have h5 := gauss_moment σ hσ
    refine le_trans h1 ?_
    linarith

/-! ### The table of small sources -/

/-- The width of the Gaussian, in source radii. -/
def smoothingSmall : ℝ := Real.sqrt 2 / 100

theorem smoothingSmall_pos : 0 < smoothingSmall := by
  unfold smoothingSmall
  positivity

/-- What the transform of small sources is applied to. -/
def smallFn (S : ℝ → ℝ) (x : ℝ) : ℝ := x * discFT S x * Real.exp (-(smoothingSmall ^ 2 * x ^ 2 / 2))

theorem isHankel_small (S : ℝ → ℝ) (hS : IntervalIntegrable (fun r => S r * r) volume 0 1)
    (hflux : (∫ r in (0 : ℝ)..1, S r * r) ≠ 0) (rho : ℝ) (hrho : 0 < rho) (w : ℂ) :
    IsHankel (smallFn S) (‖w‖ / rho) (rho * profileMean S (blur (smoothingSmall * rho) fun v => 1 / ‖v‖) w rho) := by
  have hs := smoothingSmall_pos
  set y := ‖w‖ / rho with hy
  have hint : IntegrableOn (fun x => Real.exp (-(smoothingSmall ^ 2 * x ^ 2 / 2)) * discFT S x * besselJ 0 (x * y)) (Ioi 0) := by
    have h1 := (integrable_gauss_line smoothingSmall hs).mul_bdd (continuous_discFT S hS).aestronglyMeasurable
      (ae_of_all _ fun k => by rw [Real.norm_eq_abs]; exact abs_discFT S hS k)
    exact h1.mul_bdd (c := 1) ((continuous_J 0).comp (by fun_prop : Continuous fun x : ℝ => x * y)).aestronglyMeasurable
      (ae_of_all _ fun _ => abs_J0_norm _)
  have e : ∀ x ∈ Ioi (0 : ℝ), smallFn S x / x * besselJ 0 (x * y)
      = Real.exp (-(smoothingSmall ^ 2 * x ^ 2 / 2)) * discFT S x * besselJ 0 (x * y) := by
    intro x hx
    have : x ≠ 0 := ne_of_gt hx
    rw [smallFn]
    field_simp
  have h := isHankel_of_integrable (smallFn S) y (hint.congr_fun (fun x hx => (e x hx).symm) measurableSet_Ioi)
  rw [setIntegral_congr_fun measurableSet_Ioi e] at h
  have hm := profileMean_hankel S hS hflux _ (integrable_gauss_line (smoothingSmall * rho) (by positivity)) 0
    (blur (smoothingSmall * rho) fun v => 1 / ‖v‖) (fun v => by rw [blur_inv _ (by positivity), zero_add]) w rho
  rw [zero_add] at hm
  have hsub := integral_comp_mul_left_Ioi (fun x => Real.exp (-(smoothingSmall ^ 2 * x ^ 2 / 2)) * discFT S x * besselJ 0 (x * y)) 0 hrho
  rw [mul_zero, smul_eq_mul] at hsub
  have e2 : (∫ k in Ioi (0 : ℝ), Real.exp (-((smoothingSmall * rho) ^ 2 * k ^ 2 / 2)) * discFT S (k * rho) * besselJ 0 (k * ‖w‖))
      = ∫ k in Ioi (0 : ℝ), Real.exp (-(smoothingSmall ^ 2 * (rho * k) ^ 2 / 2)) * discFT S (rho * k) * besselJ 0 (rho * k * y) := by
    refine setIntegral_congr_fun measurableSet_Ioi fun k _ => ?_
    have e3 : rho * k * y = k * ‖w‖ := by
      rw [hy]
      field_simp
    simp only [e3, mul_comm k rho]
    congr 3
    ring
  rw [hm, e2, hsub, ← mul_assoc, mul_inv_cancel₀ hrho.ne', one_mul]
  exact h

theorem samples_small (S : ℝ → ℝ) (x : List ℝ) :
    List.zipWith (fun xv s => xv * s * Real.exp (-(xv / 100) ^ 2)) x (skExact S x 1) = x.map (smallFn S) := by
  refine List.ext_getElem (by simp [skExact]) fun j h1 h2 => ?_
  simp only [skExact, List.getElem_zipWith, List.getElem_map, mul_one, smallFn]
  congr 2
  have h2 : Real.sqrt 2 ^ 2 = 2 := Real.sq_sqrt (by norm_num)
  rw [smoothingSmall, div_pow (Real.sqrt 2), h2]
  ring

/-- **C98 (what the branch computes).**  For sources smaller than `rho_switch`, if the Hankel transform has error at most
`δ` on the function it is given, `A` at every distance `y rho` with `y < u_switch` on its output grid is, up to `δ/rho`, one plus
the mean over the source of `1/|w|` blurred by a Gaussian of width `√2 rho/100`. -/
theorem C98_small_value (hk : Hankel) (c : Cfg) (S : ℝ → ℝ) (hS : IntervalIntegrable (fun r => S r * r) volume 0 1)
    (hflux : (∫ r in (0 : ℝ)..1, S r * r) ≠ 0) (A0 : ℝ → ℝ) (rho : ℝ) (hrho : 0 < rho) (hsw : rho < c.rhoSwitch) (δ : ℝ) :
    let x := logspace c.logumin c.logumax c.N
    let out := hk x (x.map (smallFn S)) c.N
    SamplesHankel out (smallFn S) δ → out.1.Pairwise (· < ·) →
    ∀ w : ℂ, ‖w‖ / rho ∈ out.1 → ‖w‖ < c.uSwitch * rho →
      |aFft hk c (skExact S) A0 ‖w‖ rho - (1 + profileMean S (blur (smoothingSmall * rho) fun v => 1 / ‖v‖) w rho)| ≤ δ / rho := by
  intro x out h2 hinc w hw hu
  have ht : initAext0 hk c (skExact S) = out := by
    simp only [initAext0, out]
    rw [samples_small]
  obtain ⟨j, hj, hjy⟩ := List.getElem_of_mem hw
  have hlt : ∀ i i', (hi : i < out.1.length) → (hi' : i' < out.1.length) → i < i' → out.1[i] < out.1[i'] :=
    fun i i' hi hi' h => List.pairwise_iff_getElem.mp hinc i i' hi hi' h
  have hgd : ∀ i, (hi : i < out.1.length) → out.1.getD i 0 = out.1[i] := fun i hi => List.getD_eq_getElem _ _ hi
  have hnode := C96_node out.1 out.2 none (hinc.imp le_of_lt) j hj
    (fun hp => by rw [hgd j hj, hgd (j - 1) (by omega)]; exact hlt (j - 1) j (by omega) hj (by omega))
    (fun hn => by rw [hgd j hj, hgd (j + 1) hn]; exact hlt j (j + 1) hj hn (by omega))
  rw [hgd j hj, hjy] at hnode
  obtain ⟨-, H, hH, hd⟩ := h2.2 j hj
  rw [hgd j hj, hjy] at hH
  rw [isHankel_unique hH (isHankel_small S hS hflux rho hrho w)] at hd
  have ha : aFft hk c (skExact S) A0 ‖w‖ rho = out.2.getD j 0 / rho + 1 := by
    simp only [aFft, hsw, if_true, aSmall, abs_norm, if_pos hu, ht]
    rw [hnode]
  rw [ha]
  have e : out.2.getD j 0 / rho + 1 - (1 + profileMean S (blur (smoothingSmall * rho) fun v => 1 / ‖v‖) w rho)
      = (out.2.getD j 0 - rho * profileMean S (blur (smoothingSmall * rho) fun v => 1 / ‖v‖) w rho) / rho := by
    field_simp
    ring
  rw [e, abs_div, abs_of_pos hrho]
  exact div_le_div_of_nonneg_right hd hrho.le

theorem small_close (S : ℝ → ℝ) (hS : IntervalIntegrable (fun r => S r * r) volume 0 1) (hpos : ∀ r ∈ Icc (0 : ℝ) 1, 0 ≤ S r)
    (hflux : (∫ r in (0 : ℝ)..1, S r * r) ≠ 0) (rho : ℝ) (hrho : 0 < rho) (w : ℂ) :
    let σ := smoothingSmall * rho
    0 ≤ profileMean S (blur σ (pointMag single)) w rho - profileMean S (blur σ fun v => 1 / ‖v‖) w rho ∧
    profileMean S (blur σ (pointMag single)) w rho - profileMean S (blur σ fun v => 1 / ‖v‖) w rho ≤ 3 / 8 * (‖w‖ + rho + 2 * σ) := by
  intro σ
  have hσ : 0 < σ := mul_pos smoothingSmall_pos hrho
  have hh : IntegrableOn (fun k => 1 / (2 * Real.pi) * (k * Real.exp (-(σ ^ 2 * k ^ 2 / 2))
      * radialFT (fun r => paczynski r - 1) k)) (Ioi 0) :=
    ((integrable_k_gauss σ hσ).mul_bdd (continuous_radialFT _ integrable_excess).aestronglyMeasurable
      (ae_of_all _ fun k => by rw [Real.norm_eq_abs]; exact abs_radialFT _ integrable_excess k)).const_mul _
  have hc1 : Continuous (blur σ (pointMag single)) := by
    have := continuous_hankelInt 1 _ hh
    exact this.congr fun v => (blur_single σ hσ v).symm
  have hc2 : Continuous (blur σ fun v => 1 / ‖v‖) := by
    have := continuous_hankelInt 0 _ (integrable_gauss_line σ hσ)
    exact this.congr fun v => by rw [blur_inv σ hσ, zero_add]
  refine profileMean_close S hS hpos hflux _ _ hc1 hc2 w rho hrho.le 0 _ fun v hv => ?_
  obtain ⟨h1, h2⟩ := blur_diff σ hσ v
  refine ⟨h1, le_trans h2 ?_⟩
  have : ‖v‖ ≤ ‖w‖ + rho := by
    have := norm_add_le (v - w) w
    rw [sub_add_cancel] at this
    linarith
  linarith

/-- **C98 (violated).**  For sources smaller than `rho_switch` the magnification inside `u_switch` source radii exceeds the
mean of the single-lens magnification over the (slightly blurred) source by one, up to the error of the transform and
`(3/8)(|w| + rho + 2σ)`, at most `0.005` for the default settings: the branch adds one to `1/u`, the leading term of the
magnification, instead of correcting it by `O(u)`. -/
theorem C98_small_violated (hk : Hankel) (c : Cfg) (S : ℝ → ℝ) (hS : IntervalIntegrable (fun r => S r * r) volume 0 1)
    (hpos : ∀ r ∈ Icc (0 : ℝ) 1, 0 ≤ S r) (hflux : (∫ r in (0 : ℝ)..1, S r * r) ≠ 0) (A0 : ℝ → ℝ) (rho : ℝ) (hrho : 0 < rho)
    (hsw : rho < c.rhoSwitch) (δ : ℝ) :
    let x := logspace c.logumin c.logumax c.N
    let out := hk x (x.map (smallFn S)) c.N
    let σ := smoothingSmall * rho
    SamplesHankel out (smallFn S) δ → out.1.Pairwise (· < ·) →
    ∀ w : ℂ, ‖w‖ / rho ∈ out.1 → ‖w‖ < c.uSwitch * rho →
      1 - 3 / 8 * (‖w‖ + rho + 2 * σ) - δ / rho
        ≤ aFft hk c (skExact S) A0 ‖w‖ rho - profileMean S (blur σ (pointMag single)) w rho := by
  intro x out σ h2 hinc w hw hu
  have h := C98_small_value hk c S hS hflux A0 rho hrho hsw δ h2 hinc w hw hu
  have h3 := small_close S hS hpos hflux rho hrho w
  have h4 := (abs_le.mp h).1
  have h5 := h3.2
  linarith

/-- **C98 (what holds).**  After subtraction of one the value is the mean of the single-lens magnification over the (slightly
blurred) source, up to the error of the transform and `(3/8)(|w| + rho + 2σ)`. Missing: the value itself. -/
theorem C98_small_partial (hk : Hankel) (c : Cfg) (S : ℝ → ℝ) (hS : IntervalIntegrable (fun r => S r * r) volume 0 1)
    (hpos : ∀ r ∈ Icc (0 : ℝ) 1, 0 ≤ S r) (hflux : (∫ r in (0 : ℝ)..1, S r * r) ≠ 0) (A0 : ℝ → ℝ) (rho : ℝ) (hrho : 0 < rho)
    (hsw : rho < c.rhoSwitch) (δ : ℝ) :
    let x := logspace c.logumin c.logumax c.N
    let out := hk x (x.map (smallFn S)) c.N
    let σ := smoothingSmall * rho
    SamplesHankel out (smallFn S) δ → out.1.Pairwise (· < ·) →
    ∀ w : ℂ, ‖w‖ / rho ∈ out.1 → ‖w‖ < c.uSwitch * rho →
      |aFft hk c (skExact S) A0 ‖w‖ rho - 1 - profileMean S (blur σ (pointMag single)) w rho|
        ≤ 3 / 8 * (‖w‖ + rho + 2 * σ) + δ / rho := by
  intro x out σ h2 hinc w hw hu
  have h := C98_small_value hk c S hS hflux A0 rho hrho hsw δ h2 hinc w hw hu
  have h3 := small_close S hS hpos hflux rho hrho w
  obtain ⟨h4, h5⟩ := abs_le.mp h
  obtain ⟨h6, h7⟩ := h3
  rw [abs_le]
  constructor <;> linarith

/-- A transform that is exact at one output distance, a uniform source of radius `1e-5`, the default settings: the
magnification at one source radius is too large by more than 0.99. -/
example : ∃ hk : Hankel, ∃ c : Cfg, c = ⟨-6, 3, 1024, 1e-4, 10⟩ ∧
    (let x := logspace c.logumin c.logumax c.N
     let out := hk x (x.map (smallFn fun _ => 1)) c.N
     SamplesHankel out (smallFn fun _ => 1) 0 ∧ out.1.Pairwise (· < ·) ∧ (∀ w : ℂ, ‖w‖ = 1e-5 → ‖w‖ / 1e-5 ∈ out.1) ∧
     ∀ w : ℂ, ‖w‖ = 1e-5 → 0.99 ≤ aFft hk c (skExact fun _ => 1) a0Disk ‖w‖ 1e-5
       - profileMean (fun _ => 1) (blur (smoothingSmall * 1e-5) (pointMag single)) w 1e-5) := by
  have hS : IntervalIntegrable (fun r : ℝ => (1 : ℝ) * r) volume 0 1 := by simp
  have hf : (∫ r in (0 : ℝ)..1, (1 : ℝ) * r) ≠ 0 := by rw [flux_one]; norm_num
  have h2 := isHankel_small (fun _ => 1) hS hf 1e-5 (by norm_num) ((1e-5 : ℝ) : ℂ)
  rw [Complex.norm_real, Real.norm_eq_abs, abs_of_pos (by norm_num), div_self (by norm_num)] at h2
  obtain ⟨hk, hhk⟩ : ∃ hk : Hankel, hk = fun _ _ _ => ([1], [1e-5 * profileMean (fun _ => 1)
    (blur (smoothingSmall * 1e-5) fun v => 1 / ‖v‖) ((1e-5 : ℝ) : ℂ) 1e-5]) := ⟨_, rfl⟩
  have hsam : ∀ x f n, SamplesHankel (hk x f n) (smallFn fun _ => 1) 0 := by
    refine fun x f n => ⟨by simp [hhk], fun j hj => ?_⟩
    obtain rfl : j = 0 := by simpa [hhk] using hj
    exact ⟨by simp [hhk], _, by simpa [hhk] using h2, by simp [hhk]⟩
  have hpw : ∀ x f n, (hk x f n).1.Pairwise (· < ·) := by
    intro x f n
    simp [hhk]
  have hmem : ∀ x f n, ∀ w : ℂ, ‖w‖ = 1e-5 → ‖w‖ / 1e-5 ∈ (hk x f n).1 := by
    intro x f n w hw
    rw [hw, div_self (by norm_num)]
    simp [hhk]
  refine ⟨hk, ⟨-6, 3, 1024, 1e-4, 10⟩, rfl, ?_⟩
  refine ⟨hsam _ _ _, hpw _ _ _, hmem _ _ _, fun w hw => ?_⟩
  have h := C98_small_violated hk ⟨-6, 3, 1024, 1e-4, 10⟩ (fun _ => 1) hS (fun _ _ => by norm_num) hf a0Disk 1e-5 (by norm_num)
    (by norm_num) 0 (hsam _ _ _) (hpw _ _ _) w (hmem _ _ _ w hw) (by rw [hw]; norm_num)
  refine le_trans ?_ h
  have hs2 : Real.sqrt 2 ≤ 2 := by
    rw [Real.sqrt_le_left (by norm_num)]
    norm_num
  rw [hw, smoothingSmall]
  norm_num
  linarith

end Microjax.Props
