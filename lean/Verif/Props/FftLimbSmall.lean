import Verif.Props.FftLimb

/-!
# C117: linear limb darkening of the FFT-based magnification, small sources
-/

noncomputable section

set_option linter.unusedVariables false

namespace Microjax.Props

open Spec MagFft MeasureTheory Filter Set Topology

/-! ### What the table holds -/

/-- What the transform of small sources is applied to when the profile is sampled at `κ x` instead of `x`. -/
def smallFnAt (S : ℝ → ℝ) (κ x : ℝ) : ℝ := x * discFT S (κ * x) * Real.exp (-(smoothingSmall ^ 2 * x ^ 2 / 2))

theorem isHankel_smallAt (S : ℝ → ℝ) (hS : IntervalIntegrable (fun r => S r * r) volume 0 1)
    (hflux : (∫ r in (0 : ℝ)..1, S r * r) ≠ 0) (κ rho : ℝ) (hrho : 0 < rho) (w : ℂ) :
    IsHankel (smallFnAt S κ) (‖w‖ / rho) (rho * profileMean S (blur (smoothingSmall * rho) fun v => 1 / ‖v‖) w (κ * rho)) := by
  have hs := smoothingSmall_pos
  set y := ‖w‖ / rho with hy
  have hint : IntegrableOn (fun x => Real.exp (-(smoothingSmall ^ 2 * x ^ 2 / 2)) * discFT S (κ * x) * besselJ 0 (x * y)) (Ioi 0) := by
    have h1 := (integrable_gauss_line smoothingSmall hs).mul_bdd
      ((continuous_discFT S hS).comp (by fun_prop : Continuous fun x : ℝ => κ * x)).aestronglyMeasurable
      (ae_of_all _ fun k => by rw [Real.norm_eq_abs]; exact abs_discFT S hS (κ * k))
    exact h1.mul_bdd (c := 1) ((continuous_J 0).comp (by fun_prop : Continuous fun x : ℝ => x * y)).aestronglyMeasurable
      (ae_of_all _ fun _ => abs_J0_norm _)
  have e : ∀ x ∈ Ioi (0 : ℝ), smallFnAt S κ x / x * besselJ 0 (x * y)
      = Real.exp (-(smoothingSmall ^ 2 * x ^ 2 / 2)) * discFT S (κ * x) * besselJ 0 (x * y) := by
    intro x hx
    have : x ≠ 0 := ne_of_gt hx
    rw [smallFnAt]
    field_simp
  have h := isHankel_of_integrable (smallFnAt S κ) y (hint.congr_fun (fun x hx => (e x hx).symm) measurableSet_Ioi)
  rw [setIntegral_congr_fun measurableSet_Ioi e] at h
  have hm := profileMean_hankel S hS hflux _ (integrable_gauss_line (smoothingSmall * rho) (by positivity)) 0
    (blur (smoothingSmall * rho) fun v => 1 / ‖v‖) (fun v => by rw [blur_inv _ (by positivity), zero_add]) w (κ * rho)
  rw [zero_add] at hm
  have hsub := integral_comp_mul_left_Ioi
    (fun x => Real.exp (-(smoothingSmall ^ 2 * x ^ 2 / 2)) * discFT S (κ * x) * besselJ 0 (x * y)) 0 hrho
  rw [mul_zero, smul_eq_mul] at hsub
  have e2 : (∫ k in Ioi (0 : ℝ), Real.exp (-((smoothingSmall * rho) ^ 2 * k ^ 2 / 2)) * discFT S (k * (κ * rho)) * besselJ 0 (k * ‖w‖))
      = ∫ k in Ioi (0 : ℝ), Real.exp (-(smoothingSmall ^ 2 * (rho * k) ^ 2 / 2)) * discFT S (κ * (rho * k)) * besselJ 0 (rho * k * y) := by
    refine setIntegral_congr_fun measurableSet_Ioi fun k _ => ?_
    have e3 : rho * k * y = k * ‖w‖ := by
      rw [hy]
      field_simp
    have e4 : κ * (rho * k) = k * (κ * rho) := by ring
    simp only [e3, e4]
    congr 3
    ring
  rw [hm, e2, hsub, ← mul_assoc, mul_inv_cancel₀ hrho.ne', one_mul]
  exact h

theorem samples_smallAt (S : ℝ → ℝ) (κ D : ℝ) (x : List ℝ) :
    List.zipWith (fun xv s => xv * s * Real.exp (-(xv / 100) ^ 2)) x ((x.map fun v => κ * v).map fun k => discFT S (k * 1) / D)
      = x.map fun v => smallFnAt S κ v / D := by
  refine List.ext_getElem (by simp) fun j h1 h2 => ?_
  have hj : j < x.length := by simpa using h2
  simp only [List.getElem_zipWith, List.getElem_map, mul_one, smallFnAt]
  have h2 : Real.sqrt 2 ^ 2 = 2 := Real.sq_sqrt (by norm_num)
  have e : -(x[j] / 100) ^ 2 = -(smoothingSmall ^ 2 * x[j] ^ 2 / 2) := by
    rw [smoothingSmall, div_pow (Real.sqrt 2), h2]
    ring
  rw [e]
  ring

/-- **C117 (what `mag_limb1` computes for small sources).**  `sk(x, 1)` ignores `x` and returns the transform of the profile on
its own output grid, here `κ x`.  If that transform is exact and the second one has error at most `δ`, then `A` of a source
smaller than `rho_switch` at every distance `y rho`, `y < u_switch`, of the output grid is one plus the mean of (blurred)
`1/|w|` over a source of radius `κ rho`, not `rho`, up to `δ/rho` and the normalisation `D`. -/
theorem C117_small_value (hk : Hankel) (c : Cfg) (hN : 0 < c.N) (hlo : c.logumin < 0) (κ a1 : ℝ) (ha0 : 0 ≤ a1) (ha1 : a1 ≤ 1)
    (A0 : ℝ → ℝ) (rho : ℝ) (hrho : 0 < rho) (hsw : rho < c.rhoSwitch) (δ : ℝ) :
    let x := logspace c.logumin c.logumax c.N
    let third := hk x (x.map fun v => (firstVal x a1 1)⁻¹ * profFn a1 1 v) 0
    let D := discFT (brightness a1) (κ * (10 : ℝ) ^ c.logumin)
    let g := fun v => smallFnAt (brightness a1) κ v / D
    let out := hk x (x.map g) c.N
    SamplesHankel third (fun v => (firstVal x a1 1)⁻¹ * profFn a1 1 v) 0 → (third.1 = x.map fun v => κ * v) → D ≠ 0 →
    SamplesHankel out g δ → out.1.Pairwise (· < ·) →
    ∀ w : ℂ, ‖w‖ / rho ∈ out.1 → ‖w‖ < c.uSwitch * rho →
      |aFft hk c (skLimbN hk c a1) A0 ‖w‖ rho
        - (1 + discMean a1 (blur (smoothingSmall * rho) fun v => 1 / ‖v‖) w (κ * rho) / D)| ≤ δ / rho := by
  intro x third D g out h3 hgrid hD h2 hinc w hw hu
  have h10 : (10 : ℝ) ^ c.logumin < 1 := Real.rpow_lt_one_of_one_lt_of_neg (by norm_num) hlo
  have hk0 : third.1.getD 0 0 = κ * (10 : ℝ) ^ c.logumin := by
    have h0 : 0 < x.length := by simpa [x, logspace] using hN
    rw [hgrid, List.getD_eq_getElem _ _ (by simpa using h0), List.getElem_map, ← List.getD_eq_getElem x 0 h0,
      logspace_first _ _ _ hN]
  have hsk : skLimbN hk c a1 x 1 = (x.map fun v => κ * v).map fun k => discFT (brightness a1) (k * 1) / D := by
    have h := sk_normalised a1 1 ha1 one_pos _ (inv_ne_zero (firstVal_ne _ _ _ hN a1 1 ha0 ha1 h10)) third h3
    rw [hk0, hgrid, mul_one] at h
    rw [skLimbN]
    simp only [samples_profN _ (logspace_pos _ _ _) 1 a1 one_pos]
    exact h
  have ht : initAext0 hk c (skLimbN hk c a1) = out := by
    simp only [initAext0, out]
    rw [hsk, samples_smallAt]
  obtain ⟨j, hj, hjy⟩ := List.getElem_of_mem hw
  have hlt : ∀ i i', (hi : i < out.1.length) → (hi' : i' < out.1.length) → i < i' → out.1[i] < out.1[i'] :=
    fun i i' hi hi' h => List.pairwise_iff_getElem.mp hinc i i' hi hi' h
  have hgd : ∀ i, (hi : i < out.1.length) → out.1.getD i 0 = out.1[i] := fun i hi => List.getD_eq_getElem _ _ hi
  have hnode := C96_node out.1 out.2 none (hinc.imp le_of_lt) j hj
    (fun hp => by rw [hgd j hj, hgd (j - 1) (by omega)]; exact hlt (j - 1) j (by omega) hj (by omega))
    (fun hn => by rw [hgd j hj, hgd (j + 1) hn]; exact hlt j (j + 1) hj hn (by omega))
  rw [hgd j hj, hjy] at hnode
  obtain ⟨-, H, hH, hd⟩ := h2.2 j hj
  rw [hgd j hj, hjy] at hH
  have hfn : g = fun v => D⁻¹ * smallFnAt (brightness a1) κ v := by
    funext v
    simp only [g]
    ring
  rw [hfn] at hH
  rw [isHankel_unique hH (isHankel_scale D⁻¹ (isHankel_smallAt (brightness a1) (integrable_brightness a1) (flux_brightness_ne a1 ha1)
    κ rho hrho w))] at hd
  have ha : aFft hk c (skLimbN hk c a1) A0 ‖w‖ rho = out.2.getD j 0 / rho + 1 := by
    simp only [aFft, hsw, if_true, aSmall, abs_norm, if_pos hu, ht]
    rw [hnode]
  rw [ha, discMean_eq_profileMean]
  set M := profileMean (brightness a1) (blur (smoothingSmall * rho) fun v => 1 / ‖v‖) w (κ * rho)
  have e : out.2.getD j 0 / rho + 1 - (1 + M / D) = (out.2.getD j 0 - D⁻¹ * (rho * M)) / rho := by
    field_simp
    ring
  rw [e, abs_div, abs_of_pos hrho]
  exact div_le_div_of_nonneg_right hd hrho.le

/-! ### Bounds on the blurred `1/|w|` -/

theorem blur_inv_le (σ : ℝ) (hσ : 0 < σ) (v : ℂ) : blur σ (fun w => 1 / ‖w‖) v ≤ Real.sqrt (2 * Real.pi) / 2 / σ := by
  rw [blur_inv σ hσ]
  have h1 : (∫ k in Ioi (0 : ℝ), Real.exp (-(σ ^ 2 * k ^ 2 / 2)) * besselJ 0 (k * ‖v‖))
      ≤ ∫ k in Ioi (0 : ℝ), Real.exp (-(σ ^ 2 * k ^ 2 / 2)) := by
    refine integral_mono ((integrable_gauss_line σ hσ).mul_bdd (c := 1)
      ((continuous_J 0).comp (by fun_prop : Continuous fun x : ℝ => x * ‖v‖)).aestronglyMeasurable
      (ae_of_all _ fun _ => abs_J0_norm _)) (integrable_gauss_line σ hσ) fun k => ?_
    exact mul_le_of_le_one_right (Real.exp_pos _).le (le_of_abs_le (abs_J0_norm _))
  have h2 := integral_gaussian_Ioi (σ ^ 2 / 2)
  have e : (∫ k in Ioi (0 : ℝ), Real.exp (-(σ ^ 2 * k ^ 2 / 2))) = Real.sqrt (Real.pi / (σ ^ 2 / 2)) / 2 := by
    rw [← h2]
    congr 1
    funext k
    congr 1
    ring
  rw [e] at h1
  refine h1.trans (le_of_eq ?_)
  rw [show Real.pi / (σ ^ 2 / 2) = 2 * Real.pi / σ ^ 2 by field_simp, Real.sqrt_div (by positivity), Real.sqrt_sq hσ.le]
  ring

theorem sqrt_two_pi_le : Real.sqrt (2 * Real.pi) ≤ 2.507 := by
  rw [Real.sqrt_le_left (by norm_num)]
  nlinarith [Real.pi_lt_d4]

/-- Away from the origin. -/
theorem blur_inv_decay (σ : ℝ) (hσ : 0 < σ) (v : ℂ) (hv : v ≠ 0) : blur σ (fun w => 1 / ‖w‖) v ≤ 6 / ‖v‖ := by
  have hn : 0 < ‖v‖ := norm_pos_iff.mpr hv
  have hs2 : 0 < Real.sqrt 2 * σ := by positivity
  have hI := integrable_gauss_inv σ hσ v
  have hI2 := integrable_gauss_inv (Real.sqrt 2 * σ) hs2 v
  have hG := integrable_gauss2 σ hσ
  have hp : ∀ z : ℂ, gauss2 σ z * (1 / ‖v + z‖) ≤ 2 / ‖v‖ * gauss2 σ z
      + 4 * σ / ‖v‖ * (gauss2 (Real.sqrt 2 * σ) z * (1 / ‖v + z‖)) := by
    intro z
    have hg := gauss2_nonneg σ z
    have hg2 := gauss2_nonneg (Real.sqrt 2 * σ) z
    have hi : 0 ≤ 1 / ‖v + z‖ := by positivity
    rcases le_or_gt ‖z‖ (‖v‖ / 2) with h | h
    · have h1 : ‖v‖ / 2 ≤ ‖v + z‖ := by
        have := norm_sub_le (v + z) z
        rw [add_sub_cancel_right] at this
        linarith
      have h2 : 1 / ‖v + z‖ ≤ 2 / ‖v‖ := by
        rw [div_le_div_iff₀ (by linarith) hn]
        linarith
      have h3 : 0 ≤ 4 * σ / ‖v‖ * (gauss2 (Real.sqrt 2 * σ) z * (1 / ‖v + z‖)) := by positivity
      have h4 := mul_le_mul_of_nonneg_left h2 hg
      linarith
    · have h1 : gauss2 σ z ≤ 4 * σ / ‖v‖ * gauss2 (Real.sqrt 2 * σ) z := by
        have h2 := gauss_norm_le σ hσ z
        have h3 : gauss2 σ z * (‖v‖ / 2) ≤ gauss2 σ z * ‖z‖ := mul_le_mul_of_nonneg_left h.le hg
        rw [div_mul_eq_mul_div, le_div_iff₀ hn]
        linarith
      have h2 : 0 ≤ 2 / ‖v‖ * gauss2 σ z := by positivity
      have h3 := mul_le_mul_of_nonneg_right h1 hi
      linarith
  have hint := integral_mono hI ((hG.const_mul (2 / ‖v‖)).add (hI2.const_mul (4 * σ / ‖v‖))) hp
  have hadd : (∫ z : ℂ, ((fun z => 2 / ‖v‖ * gauss2 σ z) + fun z => 4 * σ / ‖v‖ * (gauss2 (Real.sqrt 2 * σ) z * (1 / ‖v + z‖))) z)
      = 2 / ‖v‖ + 4 * σ / ‖v‖ * blur (Real.sqrt 2 * σ) (fun w => 1 / ‖w‖) v := by
    rw [integral_add' (hG.const_mul (2 / ‖v‖)) (hI2.const_mul (4 * σ / ‖v‖)), integral_const_mul, integral_const_mul, integral_gauss2 σ hσ,
      mul_one]
    rfl
  have hb := blur_inv_le (Real.sqrt 2 * σ) hs2 v
  have h14 : (1.414 : ℝ) ≤ Real.sqrt 2 := Real.le_sqrt_of_sq_le (by norm_num)
  have hb2 : σ * blur (Real.sqrt 2 * σ) (fun w => 1 / ‖w‖) v ≤ 1 := by
    have h1 : σ * (Real.sqrt (2 * Real.pi) / 2 / (Real.sqrt 2 * σ)) = Real.sqrt (2 * Real.pi) / 2 / Real.sqrt 2 := by
      field_simp
    have h2 : Real.sqrt (2 * Real.pi) / 2 / Real.sqrt 2 ≤ 1 := by
      rw [div_le_one (by positivity)]
      have := sqrt_two_pi_le
      norm_num at this h14 ⊢
      linarith
    have h3 := mul_le_mul_of_nonneg_left hb hσ.le
    linarith
  calc blur σ (fun w => 1 / ‖w‖) v = ∫ z : ℂ, gauss2 σ z * (1 / ‖v + z‖) := rfl
    _ ≤ 2 / ‖v‖ + 4 * σ / ‖v‖ * blur (Real.sqrt 2 * σ) (fun w => 1 / ‖w‖) v := hint.trans_eq hadd
    _ = (2 + 4 * (σ * blur (Real.sqrt 2 * σ) (fun w => 1 / ‖w‖) v)) / ‖v‖ := by ring
    _ ≤ 6 / ‖v‖ := div_le_div_of_nonneg_right (by linarith) hn.le

/-- From below, by convexity. -/
theorem blur_inv_ge (σ : ℝ) (hσ : 0 < σ) (v : ℂ) : 1 / (‖v‖ + 2 * σ) ≤ blur σ (fun w => 1 / ‖w‖) v := by
  set T := ‖v‖ + 2 * σ with hT
  have hT0 : 0 < T := by positivity
  have hI := integrable_gauss_inv σ hσ v
  have hG := integrable_gauss2 σ hσ
  have hm := integrable_gauss_norm σ hσ
  have hne : ∀ᵐ z : ℂ, z ≠ -v := by
    rw [ae_iff]
    simp
  have hp : ∀ᵐ z : ℂ, (2 / T - ‖v‖ / T ^ 2) * gauss2 σ z - 1 / T ^ 2 * (gauss2 σ z * ‖z‖) ≤ gauss2 σ z * (1 / ‖v + z‖) := by
    filter_upwards [hne] with z hz
    have hvz : 0 < ‖v + z‖ := norm_pos_iff.mpr fun h => hz (by linear_combination h)
    have hg := gauss2_nonneg σ z
    have h1 : 2 / T - (‖v‖ + ‖z‖) / T ^ 2 ≤ 1 / ‖v + z‖ := by
      have h2 : 2 / T - ‖v + z‖ / T ^ 2 ≤ 1 / ‖v + z‖ := by
        have e : 1 / ‖v + z‖ - (2 / T - ‖v + z‖ / T ^ 2) = (T - ‖v + z‖) ^ 2 / (T ^ 2 * ‖v + z‖) := by
          field_simp
          ring
        have : 0 ≤ (T - ‖v + z‖) ^ 2 / (T ^ 2 * ‖v + z‖) := by positivity
        linarith
      have h3 : ‖v + z‖ / T ^ 2 ≤ (‖v‖ + ‖z‖) / T ^ 2 := div_le_div_of_nonneg_right (norm_add_le v z) (by positivity)
      linarith
    calc (2 / T - ‖v‖ / T ^ 2) * gauss2 σ z - 1 / T ^ 2 * (gauss2 σ z * ‖z‖) = gauss2 σ z * (2 / T - (‖v‖ + ‖z‖) / T ^ 2) := by ring
      _ ≤ _ := mul_le_mul_of_nonneg_left h1 hg
  have hint := integral_mono_ae ((hG.const_mul (2 / T - ‖v‖ / T ^ 2)).sub (hm.const_mul (1 / T ^ 2))) hI hp
  rw [integral_sub' (hG.const_mul _) (hm.const_mul _), integral_const_mul, integral_const_mul, integral_gauss2 σ hσ, mul_one] at hint
  have hmom := gauss_moment σ hσ
  have h4 : 1 / T ^ 2 * (∫ z : ℂ, gauss2 σ z * ‖z‖) ≤ 1 / T ^ 2 * (2 * σ) := mul_le_mul_of_nonneg_left hmom (by positivity)
  have e : 2 / T - ‖v‖ / T ^ 2 - 1 / T ^ 2 * (2 * σ) = 1 / T := by
    rw [hT]
    field_simp
    ring
  have : 1 / T ≤ ∫ z : ℂ, gauss2 σ z * (1 / ‖v + z‖) := by linarith
  exact this

theorem continuous_blur_inv (σ : ℝ) (hσ : 0 < σ) : Continuous (blur σ fun v => 1 / ‖v‖) :=
  (continuous_hankelInt 0 _ (integrable_gauss_line σ hσ)).congr fun v => by rw [blur_inv σ hσ, zero_add]

theorem continuous_blur_single (σ : ℝ) (hσ : 0 < σ) : Continuous (blur σ (pointMag single)) := by
  have hh : IntegrableOn (fun k => 1 / (2 * Real.pi) * (k * Real.exp (-(σ ^ 2 * k ^ 2 / 2))
      * radialFT (fun r => paczynski r - 1) k)) (Ioi 0) :=
    ((integrable_k_gauss σ hσ).mul_bdd (continuous_radialFT _ integrable_excess).aestronglyMeasurable
      (ae_of_all _ fun k => by rw [Real.norm_eq_abs]; exact abs_radialFT _ integrable_excess k)).const_mul _
  exact (continuous_hankelInt 1 _ hh).congr fun v => (blur_single σ hσ v).symm

/-- Mean of a function below `C/(ρ r)` over a source. -/
theorem profileMean_le (S : ℝ → ℝ) (hS : IntervalIntegrable (fun r => S r * r) volume 0 1)
    (hpos : ∀ r ∈ Icc (0 : ℝ) 1, 0 ≤ S r) (hone : ∀ r ∈ Icc (0 : ℝ) 1, S r ≤ 1) (hflux : 1 / 3 ≤ ∫ r in (0 : ℝ)..1, S r * r)
    (g : ℂ → ℝ) (hg : Continuous g) (w : ℂ) (R : ℝ) (hR : 0 < R) (C : ℝ) (hC : 0 ≤ C)
    (hb : ∀ r θ : ℝ, 0 < r → r ≤ 1 → g (w + R * r * Complex.exp (Complex.I * θ)) ≤ C / (R * r)) :
    profileMean S g w R ≤ 3 * C / R := by
  set F : ℝ → ℝ := fun r => ∫ θ in (0 : ℝ)..2 * Real.pi, g (w + R * r * Complex.exp (Complex.I * θ)) with hF
  have hFc : Continuous F := by
    refine intervalIntegral.continuous_parametric_intervalIntegral_of_continuous' ?_ _ _
    exact hg.comp (by fun_prop)
  have hnum : (∫ r in (0 : ℝ)..1, ∫ θ in (0 : ℝ)..2 * Real.pi, g (w + R * r * Complex.exp (Complex.I * θ)) * (S r * r))
      = ∫ r in (0 : ℝ)..1, (S r * r) * F r := by
    refine intervalIntegral.integral_congr fun r _ => ?_
    simp only [hF]
    rw [intervalIntegral.integral_mul_const]
    ring
  have hden : (∫ r in (0 : ℝ)..1, ∫ _θ in (0 : ℝ)..2 * Real.pi, S r * r) = 2 * Real.pi * ∫ r in (0 : ℝ)..1, S r * r := by
    rw [← intervalIntegral.integral_const_mul]
    refine intervalIntegral.integral_congr fun r _ => ?_
    rw [intervalIntegral.integral_const, smul_eq_mul, sub_zero]
  have hle : (∫ r in (0 : ℝ)..1, (S r * r) * F r) ≤ ∫ _r in (0 : ℝ)..1, 2 * Real.pi * (C / R) := by
    refine intervalIntegral.integral_mono_on (by norm_num) (hS.mul_continuousOn hFc.continuousOn) (by simp) fun r hr => ?_
    rcases hr.1.eq_or_lt with rfl | h0
    · rw [mul_zero, zero_mul]
      positivity
    · have hFr : F r ≤ 2 * Real.pi * (C / (R * r)) := by
        have h1 : F r ≤ ∫ _θ in (0 : ℝ)..2 * Real.pi, C / (R * r) :=
          intervalIntegral.integral_mono_on (by positivity) ((hg.comp (by fun_prop)).intervalIntegrable _ _) (by simp)
            fun θ _ => hb r θ h0 hr.2
        rw [intervalIntegral.integral_const, smul_eq_mul, sub_zero] at h1
        exact h1
      calc S r * r * F r ≤ S r * r * (2 * Real.pi * (C / (R * r))) :=
            mul_le_mul_of_nonneg_left hFr (mul_nonneg (hpos r hr) hr.1)
        _ = S r * (2 * Real.pi * (C / R)) := by field_simp
        _ ≤ 1 * (2 * Real.pi * (C / R)) := mul_le_mul_of_nonneg_right (hone r hr) (by positivity)
        _ = _ := one_mul _
  rw [intervalIntegral.integral_const, smul_eq_mul, sub_zero, one_mul] at hle
  rw [profileMean, hnum, hden, div_le_iff₀ (by positivity)]
  refine hle.trans ?_
  have : 3 * C / R * (2 * Real.pi * ∫ r in (0 : ℝ)..1, S r * r) = 2 * Real.pi * (C / R) * (3 * ∫ r in (0 : ℝ)..1, S r * r) := by ring
  rw [this]
  refine le_mul_of_one_le_right (by positivity) ?_
  linarith

/-- Mean of the blurred `1/|w|` over a large source near the origin. -/
theorem mean_large (a1 : ℝ) (ha0 : 0 ≤ a1) (ha1 : a1 ≤ 1) (rho R : ℝ) (hrho : 0 < rho) (hR : 0 < R) (w : ℂ) (hw : ‖w‖ ≤ rho / 10) :
    discMean a1 (blur (smoothingSmall * rho) fun v => 1 / ‖v‖) w R ≤ 90 / R := by
  have hσ : 0 < smoothingSmall * rho := mul_pos smoothingSmall_pos hrho
  rw [discMean_eq_profileMean]
  have h := profileMean_le (brightness a1) (integrable_brightness a1) (brightness_nonneg01 a1 ha0 ha1)
    (fun r hr => (brightness_lower a1 ha0 ha1 r hr.1 hr.2).2) (flux_brightness_pos a1 ha1) _ (continuous_blur_inv _ hσ) w R hR 30
    (by norm_num) fun r θ h0 h1 => ?_
  · refine h.trans (le_of_eq ?_)
    norm_num
  set v := w + R * r * Complex.exp (Complex.I * θ) with hv
  have hRr : 0 < R * r := mul_pos hR h0
  have hnv : R * r - ‖w‖ ≤ ‖v‖ := by
    have h1 : ‖(R : ℂ) * r * Complex.exp (Complex.I * θ)‖ = R * r := by
      rw [norm_mul, norm_mul, mul_comm Complex.I, Complex.norm_exp_ofReal_mul_I, mul_one, Complex.norm_real,
        Complex.norm_real, Real.norm_eq_abs, Real.norm_eq_abs, abs_of_pos hR, abs_of_pos h0]
    have h2 := norm_sub_le v w
    rw [hv, add_sub_cancel_left, h1, ← hv] at h2
    linarith
  rcases le_or_gt (2 * ‖w‖) (R * r) with h | h
  · have h2 : R * r / 2 ≤ ‖v‖ := by linarith
    have hv0 : v ≠ 0 := by
      intro h3
      rw [h3, norm_zero] at h2
      linarith
    refine (blur_inv_decay _ hσ v hv0).trans ?_
    rw [div_le_div_iff₀ (by linarith) hRr]
    linarith
  · refine (blur_inv_le _ hσ v).trans ?_
    have hs : (1.414 : ℝ) ≤ Real.sqrt 2 := Real.le_sqrt_of_sq_le (by norm_num)
    have h3 : Real.sqrt (2 * Real.pi) / 2 / (smoothingSmall * rho) ≤ 90 / rho := by
      rw [smoothingSmall, div_le_div_iff₀ (by positivity) hrho]
      have := sqrt_two_pi_le
      have h5 : Real.sqrt (2 * Real.pi) / 2 ≤ 90 * (Real.sqrt 2 / 100) := by
        norm_num at this hs ⊢
        linarith
      nlinarith
    refine h3.trans ?_
    rw [div_le_div_iff₀ hrho hRr]
    linarith

/-- The true mean over a small source near the origin. -/
theorem mean_small (a1 : ℝ) (ha0 : 0 ≤ a1) (ha1 : a1 ≤ 1) (rho : ℝ) (hrho : 0 < rho) (w : ℂ) (hw : ‖w‖ ≤ rho / 10) :
    0.88 / rho ≤ discMean a1 (blur (smoothingSmall * rho) (pointMag single)) w rho := by
  have hσ : 0 < smoothingSmall * rho := mul_pos smoothingSmall_pos hrho
  have hb : ∀ v, ‖v - w‖ ≤ rho → 0.88 / rho ≤ blur (smoothingSmall * rho) (pointMag single) v - 0 ∧
      blur (smoothingSmall * rho) (pointMag single) v - 0
        ≤ Real.sqrt (2 * Real.pi) / 2 / (smoothingSmall * rho) + 3 / 8 * (‖w‖ + rho + 2 * (smoothingSmall * rho)) := by
    intro v hv
    obtain ⟨h1, h2⟩ := blur_diff _ hσ v
    have h3 := blur_inv_ge _ hσ v
    have h4 := blur_inv_le _ hσ v
    have hn : ‖v‖ ≤ ‖w‖ + rho := by
      have := norm_add_le (v - w) w
      rw [sub_add_cancel] at this
      linarith
    have h5 : 0.88 / rho ≤ 1 / (‖v‖ + 2 * (smoothingSmall * rho)) := by
      rw [div_le_div_iff₀ hrho (by positivity)]
      have hs : Real.sqrt 2 ≤ 1.415 := by
        rw [Real.sqrt_le_left (by norm_num)]
        norm_num
      have h6 : smoothingSmall ≤ 0.01415 := by
        rw [smoothingSmall]
        norm_num at hs ⊢
        linarith
      have h7 : smoothingSmall * rho ≤ 0.01415 * rho := mul_le_mul_of_nonneg_right h6 hrho.le
      norm_num at h7 ⊢
      linarith
    constructor <;> linarith
  have h := (profileMean_close (brightness a1) (integrable_brightness a1) (brightness_nonneg01 a1 ha0 ha1) (flux_brightness_ne a1 ha1)
    (blur (smoothingSmall * rho) (pointMag single)) (fun _ => 0) (continuous_blur_single _ hσ) continuous_const w rho hrho.le _ _ hb).1
  have h0 : profileMean (brightness a1) (fun _ => 0) w rho = 0 := by
    simp [profileMean]
  rw [h0, sub_zero] at h
  rw [discMean_eq_profileMean]
  exact h

/-- **C117 (violated).**  For sources smaller than `rho_switch` (with radius at most 0.01) near the lens, `mag_limb1.A` returns
less than a quarter of the mean over the (slightly blurred) source, for every coefficient `a1`, if the wavenumbers at
which the transform returns the profile are at least 500 times those at which it is used (`C117_grid`: exactly 500 times for the
default settings). -/
theorem C117_small_violated (hk : Hankel) (c : Cfg) (hN : 0 < c.N) (hlo : c.logumin < 0) (κ : ℝ) (hκ : 500 ≤ κ)
    (hκ0 : κ * (10 : ℝ) ^ c.logumin ≤ 1 / 10) (a1 : ℝ) (ha0 : 0 ≤ a1) (ha1 : a1 ≤ 1)
    (A0 : ℝ → ℝ) (rho : ℝ) (hrho : 0 < rho) (hsw : rho < c.rhoSwitch) (hrho1 : rho ≤ 1 / 100) (δ : ℝ) (hδ : δ ≤ 1 / 100) :
    let x := logspace c.logumin c.logumax c.N
    let third := hk x (x.map fun v => (firstVal x a1 1)⁻¹ * profFn a1 1 v) 0
    let D := discFT (brightness a1) (κ * (10 : ℝ) ^ c.logumin)
    let g := fun v => smallFnAt (brightness a1) κ v / D
    let out := hk x (x.map g) c.N
    SamplesHankel third (fun v => (firstVal x a1 1)⁻¹ * profFn a1 1 v) 0 → (third.1 = x.map fun v => κ * v) →
    SamplesHankel out g δ → out.1.Pairwise (· < ·) →
    ∀ w : ℂ, ‖w‖ / rho ∈ out.1 → ‖w‖ < c.uSwitch * rho → ‖w‖ ≤ rho / 10 →
      aFft hk c (skLimbN hk c a1) A0 ‖w‖ rho < 1 / 4 * discMean a1 (blur (smoothingSmall * rho) (pointMag single)) w rho := by
  intro x third D g out h3 hgrid h2 hinc w hw hu hw1
  have hx0 : 0 ≤ κ * (10 : ℝ) ^ c.logumin := by positivity
  have hn := discFT_near_one (brightness a1) (integrable_brightness a1) (brightness_nonneg01 a1 ha0 ha1) (flux_brightness_ne a1 ha1)
    (κ * (10 : ℝ) ^ c.logumin)
  have hD : 399 / 400 ≤ D := by
    refine le_trans ?_ hn.1
    nlinarith
  have hD0 : 0 < D := by linarith
  have h := C117_small_value hk c hN hlo κ a1 ha0 ha1 A0 rho hrho hsw δ h3 hgrid hD0.ne' h2 hinc w hw hu
  have hm := mean_large a1 ha0 ha1 rho (κ * rho) hrho (by positivity) w hw1
  have ht := mean_small a1 ha0 ha1 rho hrho w hw1
  have h4 := (abs_le.mp h).2
  change _ ≤ δ / rho at h4
  set M := discMean a1 (blur (smoothingSmall * rho) fun v => 1 / ‖v‖) w (κ * rho) with hM
  have h5 : M / D ≤ 0.181 / rho := by
    rw [div_le_iff₀ hD0]
    have h6 : 90 / (κ * rho) ≤ 0.18 / rho := by
      rw [div_le_div_iff₀ (by positivity) hrho]
      nlinarith
    have h7 : 0.18 / rho ≤ 0.181 / rho * D := by
      rw [div_mul_eq_mul_div]
      refine div_le_div_of_nonneg_right ?_ hrho.le
      norm_num at hD ⊢
      linarith
    exact hm.trans (h6.trans h7)
  have h8 : 1 ≤ 0.01 / rho := by
    rw [le_div_iff₀ hrho]
    norm_num at hrho1 ⊢
    linarith
  have h9 : δ / rho ≤ 0.01 / rho := by
    refine div_le_div_of_nonneg_right ?_ hrho.le
    norm_num at hδ ⊢
    linarith
  have h10 : (0.201 : ℝ) / rho < 1 / 4 * (0.88 / rho) := by
    rw [← mul_div_assoc]
    exact div_lt_div_of_pos_right (by norm_num) hrho
  have h11 : (0.201 : ℝ) / rho = 0.01 / rho + 0.181 / rho + 0.01 / rho := by
    rw [← add_div, ← add_div]
    norm_num
  have h12 : aFft hk c (skLimbN hk c a1) A0 ‖w‖ rho ≤ 1 + M / D + δ / rho := by linarith
  have h13 : aFft hk c (skLimbN hk c a1) A0 ‖w‖ rho ≤ 0.201 / rho := by linarith
  linarith

/-- **C117 (the grid).**  On a logarithmic grid of even length the output grid of the code's own Hankel transform of order zero
is the input grid times `10^(-(lo+hi))/2`: 500 for the default range `10^-6 .. 10^3`. -/
theorem C117_grid (gl : ℝ → ℂ → ℂ) (lo hi : ℝ) (N : ℕ) (hN : N % 2 = 0) (f : List ℝ) (nu : ℝ) :
    (FftLog.hankel gl (logspace lo hi N) f nu 0 0).1 = (logspace lo hi N).map fun v => (10 : ℝ) ^ (-(lo + hi)) / 2 * v := by
  have hl : (logspace lo hi N).length = N := by simp [logspace]
  have h := C62_reciprocal_grid gl (logspace lo hi N) (List.zipWith (fun xv fv => Real.sqrt xv * fv) (logspace lo hi N) f) nu
    (0 - 0.5) 0 0 0 (Or.inr (by rw [hl]; omega))
  rw [FftLog.hankel]
  simp only
  rw [h]
  refine List.ext_getElem (by simp) fun j h1 h2 => ?_
  have hj : j < N := by simpa [hl] using h2
  have hN1 : (N : ℝ) - 1 ≠ 0 := by
    have h2 : 2 ≤ N := by omega
    have h3 : (2 : ℝ) ≤ N := by exact_mod_cast h2
    linarith
  simp only [List.getElem_map, List.getElem_reverse, logspace, List.getElem_range, List.length_map, List.length_range]
  have hc : ((N - 1 - j : ℕ) : ℝ) = (N : ℝ) - 1 - j := by
    have : j ≤ N - 1 := by omega
    rw [Nat.cast_sub this, Nat.cast_sub (by omega)]
    norm_num
  rw [hc]
  have e1 : lo + (hi - lo) * ((N : ℝ) - 1 - j) / ((N : ℝ) - 1) = (lo + hi) - (lo + (hi - lo) * j / ((N : ℝ) - 1)) := by
    field_simp
    ring
  rw [e1, Real.rpow_sub (by norm_num), Real.rpow_neg (by norm_num)]
  have ha : (0 : ℝ) < (10 : ℝ) ^ (lo + hi) := by positivity
  have hb : (0 : ℝ) < (10 : ℝ) ^ (lo + (hi - lo) * j / ((N : ℝ) - 1)) := by positivity
  field_simp
  norm_num

/-! ### The hypotheses can be met -/

/-- The default settings. -/
def defaultCfg : Cfg := ⟨-6, 3, 1024, 1e-4, 10⟩

theorem samples_exact (x : List ℝ) (hx : ∀ v ∈ x, 0 < v) (s : ℝ) : SamplesHankel (x.map (fun v => 500 * v),
    x.map fun v => s⁻¹ * ((1 : ℝ) ^ 2 * (1 / 2 - 1 / 2 / 6) * discFT (brightness (1 / 2)) (500 * v * 1)))
    (fun v => s⁻¹ * profFn (1 / 2) 1 v) 0 := by
  refine ⟨by simp, fun j hj => ?_⟩
  have hj' : j < x.length := by simpa using hj
  simp only
  rw [List.getD_eq_getElem _ _ hj, List.getD_eq_getElem _ _ (by simpa using hj'), List.getElem_map, List.getElem_map]
  have hpos := hx _ (List.getElem_mem hj')
  exact ⟨by positivity, _, isHankel_scale s⁻¹ (isHankel_prof (1 / 2) 1 (by norm_num) one_pos (500 * x[j])), by simp⟩

/-- A transform exact in both calls, the default settings and coefficient, a source of radius `1e-5`: at a twentieth of a source
radius from the lens less than a quarter of the magnification is returned. -/
example : ∃ hk : Hankel, 
    aFft hk defaultCfg (skLimbN hk defaultCfg (1 / 2)) (fun r => a0Limb r (1 / 2)) ‖((1e-5 / 20 : ℝ) : ℂ)‖ 1e-5
      < 1 / 4 * discMean (1 / 2) (blur (smoothingSmall * 1e-5) (pointMag single)) ((1e-5 / 20 : ℝ) : ℂ) 1e-5 := by
  set x := logspace defaultCfg.logumin defaultCfg.logumax defaultCfg.N with hx
  set s := firstVal x (1 / 2) 1
  set b := brightness (1 / 2)
  set D := discFT b (500 * (10 : ℝ) ^ defaultCfg.logumin)
  have hw : ‖((1e-5 / 20 : ℝ) : ℂ)‖ = 1e-5 / 20 := by
    rw [Complex.norm_real, Real.norm_eq_abs, abs_of_pos (by norm_num)]
  obtain ⟨hk, hhk⟩ : ∃ hk : Hankel, hk = fun x f n => if n = 0 then (x.map (fun v => 500 * v),
      x.map fun v => s⁻¹ * ((1 : ℝ) ^ 2 * (1 / 2 - 1 / 2 / 6) * discFT b (500 * v * 1))) else
      ([‖((1e-5 / 20 : ℝ) : ℂ)‖ / 1e-5], [D⁻¹ * (1e-5 * profileMean b (blur (smoothingSmall * 1e-5) fun v => 1 / ‖v‖) ((1e-5 / 20 : ℝ) : ℂ)
        (500 * 1e-5))]) := ⟨_, rfl⟩
  have h0 : ∀ f, hk x f 0 = (x.map (fun v => 500 * v),
      x.map fun v => s⁻¹ * ((1 : ℝ) ^ 2 * (1 / 2 - 1 / 2 / 6) * discFT b (500 * v * 1))) := fun f => by rw [hhk]; rfl
  have h1 : ∀ f, hk x f defaultCfg.N = ([‖((1e-5 / 20 : ℝ) : ℂ)‖ / 1e-5], [D⁻¹ * (1e-5 * profileMean b (blur (smoothingSmall * 1e-5)
      fun v => 1 / ‖v‖) ((1e-5 / 20 : ℝ) : ℂ) (500 * 1e-5))]) := fun f => by
    rw [hhk]
    exact if_neg (by simp [defaultCfg])
  refine ⟨hk, C117_small_violated hk defaultCfg (by simp [defaultCfg]) (by simp [defaultCfg]) 500 le_rfl ?_ (1 / 2) (by norm_num) (by norm_num) _
    1e-5 (by norm_num) (by simp only [defaultCfg]; norm_num) (by norm_num) 0 (by norm_num) ?_ ?_ ?_ ?_ _ ?_ ?_ ?_⟩
  · have : (10 : ℝ) ^ defaultCfg.logumin = 1e-6 := by
      simp only [defaultCfg]
      rw [show (-6 : ℝ) = ((-6 : ℤ) : ℝ) by norm_num, Real.rpow_intCast]
      norm_num
    rw [this]
    norm_num
  · rw [h0]
    exact samples_exact x (logspace_pos _ _ _) s
  · rw [h0]
  · rw [h1]
    refine ⟨by simp, fun j hj => ?_⟩
    obtain rfl : j = 0 := by simpa using hj
    have hs := isHankel_scale D⁻¹ (isHankel_smallAt b (integrable_brightness _) (flux_brightness_ne _ (by norm_num)) 500 1e-5 (by norm_num)
      ((1e-5 / 20 : ℝ) : ℂ))
    have hfn : (fun v => smallFnAt b 500 v / D) = fun v => D⁻¹ * smallFnAt b 500 v := by
      funext v
      ring
    refine ⟨by simp only [List.getD_cons_zero]; rw [hw]; norm_num, D⁻¹ * (1e-5 * profileMean b (blur (smoothingSmall * 1e-5)
      fun v => 1 / ‖v‖) ((1e-5 / 20 : ℝ) : ℂ) (500 * 1e-5)), ?_, ?_⟩
    · simp only [List.getD_cons_zero]
      change IsHankel (fun v => smallFnAt b 500 v / D) _ _
      rw [hfn]
      exact hs
    · simp
  · rw [h1]
    simp
  · rw [h1]
    simp
  · rw [hw]
    simp only [defaultCfg]
    norm_num
  · rw [hw]
    norm_num

/-- On the default grid the transform is handed different samples for the magnification and for the profile. -/
theorem samples_differ (s : ℝ) (hs : 9 / 10 ≤ s) :
    (logspace (-6) 3 1024).map firstFn ≠ (logspace (-6) 3 1024).map fun v => s⁻¹ * profFn (1 / 2) (1 / 10) v := by
  intro h
  have h0 := congrArg (fun l : List ℝ => l.getD 0 0) h
  have hl : 0 < (logspace (-6) 3 1024).length := by
    rw [logspace, List.length_map, List.length_range]
    norm_num
  rw [List.getD_eq_getElem _ _ (by simpa using hl), List.getD_eq_getElem _ _ (by simpa using hl), List.getElem_map, List.getElem_map,
    ← List.getD_eq_getElem _ 0 hl, logspace_first _ _ _ (by norm_num)] at h0
  have h10 : (10 : ℝ) ^ (-6 : ℝ) = 1e-6 := by
    rw [show (-6 : ℝ) = ((-6 : ℤ) : ℝ) by norm_num, Real.rpow_intCast]
    norm_num
  rw [h10] at h0
  have h1 := (paczynski_inv 1e-6 (by norm_num)).1
  have h2 := (brightness_lower (1 / 2) (by norm_num) (by norm_num) (1e-6 / (1 / 10)) (by norm_num) (by norm_num)).2
  rw [firstFn, profFn, if_pos (by norm_num)] at h0
  have h3 : s⁻¹ ≤ 2 := by
    rw [inv_le_comm₀ (by linarith) (by norm_num)]
    linarith
  have h4 : 0 ≤ s⁻¹ := by
    rw [inv_nonneg]
    linarith
  have h5 := brightness_nonneg01 (1 / 2) (by norm_num) (by norm_num) (1e-6 / (1 / 10)) ⟨by norm_num, by norm_num⟩
  have h6 : s⁻¹ * ((1e-6) ^ 2 * brightness (1 / 2) (1e-6 / (1 / 10))) ≤ 2 * ((1e-6) ^ 2 * 1) :=
    mul_le_mul h3 (mul_le_mul_of_nonneg_left h2 (by norm_num)) (by positivity) (by norm_num)
  rw [← h0] at h6
  norm_num at h1 h6
  linarith

/-- Transforms exact in all three calls: the hypotheses of `C117_mag_limb` (`s = 1`) and of `C117_mag_limb1_partial` (`s` the first
value of the profile) for the default settings and coefficient, a source of radius a tenth, at distance one. -/
theorem limb_hypotheses (s : ℝ) (hs : 9 / 10 ≤ s) : ∃ hk : Hankel,
    let u := logspace defaultCfg.logumin defaultCfg.logumax defaultCfg.N
    let first := hk u (u.map firstFn) 0
    let third := hk u (u.map fun v => s⁻¹ * profFn (1 / 2) (1 / 10) v) 0
    let k0 := first.1.getD 0 0
    let g := fun k => secondFn (brightness (1 / 2)) (1 / 10) (smoothing (1 / 10)) k / discFT (brightness (1 / 2)) (k0 * (1 / 10))
    let second := hk first.1 (first.1.map g) 512
    SamplesHankel first firstFn 0 ∧ SamplesHankel third (fun v => s⁻¹ * profFn (1 / 2) (1 / 10) v) 0 ∧ third.1 = first.1 ∧
    k0 * (1 / 10) ≤ 1 ∧ SamplesHankel second g 0 ∧ second.1.Pairwise (· < ·) ∧ ‖(Complex.I : ℂ)‖ ∈ second.1 ∧ ‖(Complex.I : ℂ)‖ < 100 := by
  classical
  set b := brightness (1 / 2)
  set u := logspace defaultCfg.logumin defaultCfg.logumax defaultCfg.N with hu
  set M := profileMean b (blur (smoothing (1 / 10)) (pointMag single)) Complex.I (1 / 10) with hM
  set D := discFT b (1 * (1 / 10)) with hD
  have hne : (u.map fun v => s⁻¹ * profFn (1 / 2) (1 / 10) v) ≠ u.map firstFn := (samples_differ s hs).symm
  obtain ⟨hk, hhk⟩ : ∃ hk : Hankel, hk = fun x f n => ([1], [if n = 512 then D⁻¹ * (2 * Real.pi * (M - 1)) else
      if f = u.map firstFn then radialFT (fun r => paczynski r - 1) 1 / (2 * Real.pi) else
      s⁻¹ * ((1 / 10) ^ 2 * (1 / 2 - 1 / 2 / 6) * discFT b (1 * (1 / 10)))]) := ⟨_, rfl⟩
  have h1 : hk u (u.map firstFn) 0 = ([1], [radialFT (fun r => paczynski r - 1) 1 / (2 * Real.pi)]) := by
    rw [hhk]
    simp
  have h3 : hk u (u.map fun v => s⁻¹ * profFn (1 / 2) (1 / 10) v) 0
      = ([1], [s⁻¹ * ((1 / 10) ^ 2 * (1 / 2 - 1 / 2 / 6) * discFT b (1 * (1 / 10)))]) := by
    rw [hhk]
    simp only [if_neg hne]
    simp
  have h2 : ∀ x f, hk x f 512 = ([1], [D⁻¹ * (2 * Real.pi * (M - 1))]) := by
    intro x f
    rw [hhk]
    simp
  refine ⟨hk, ?_⟩
  intro u' first third k0 g second
  have e1 : first = ([1], [radialFT (fun r => paczynski r - 1) 1 / (2 * Real.pi)]) := h1
  have e3 : third = ([1], [s⁻¹ * ((1 / 10) ^ 2 * (1 / 2 - 1 / 2 / 6) * discFT b (1 * (1 / 10)))]) := h3
  have e2 : second = ([1], [D⁻¹ * (2 * Real.pi * (M - 1))]) := h2 _ _
  have ek : k0 = 1 := by simp only [k0, e1, List.getD_cons_zero]
  rw [e1, e3, e2, ek]
  refine ⟨⟨rfl, fun j hj => ?_⟩, ⟨rfl, fun j hj => ?_⟩, rfl, by norm_num, ⟨rfl, fun j hj => ?_⟩, by simp, by simp, by simp⟩
  · obtain rfl : j = 0 := by simpa using hj
    exact ⟨by simp, _, by simpa using isHankel_first 1, by simp⟩
  · obtain rfl : j = 0 := by simpa using hj
    refine ⟨by simp, _, isHankel_scale s⁻¹ (isHankel_prof (1 / 2) (1 / 10) (by norm_num) (by norm_num) 1), ?_⟩
    simp only [List.getD_cons_zero]
    rw [sub_self, abs_zero]
  · obtain rfl : j = 0 := by simpa using hj
    have hi := isHankel_scale D⁻¹ (isHankel_second b (integrable_brightness _) (flux_brightness_ne _ (by norm_num)) (1 / 10) (smoothing (1 / 10))
      (smoothing_pos _ (by norm_num)) Complex.I)
    rw [Complex.norm_I] at hi
    have hfn : g
        = fun k => D⁻¹ * secondFn b (1 / 10) (smoothing (1 / 10)) k := by
      funext k
      simp only [g, ek]
      rw [← hD]
      ring
    refine ⟨by simp, D⁻¹ * (2 * Real.pi * (M - 1)), ?_, by simp⟩
    rw [hfn]
    exact hi

example : ∃ hk : Hankel,
    |aLarge hk defaultCfg (fun _ r => skLimb hk defaultCfg r (1 / 2)) (fun r => a0Limb r (1 / 2)) ‖(Complex.I : ℂ)‖ (1 / 10)
      - discMean (1 / 2) (blur (smoothing (1 / 10)) (pointMag single)) Complex.I (1 / 10)|
        ≤ 0 / (2 * Real.pi) + ((hk (logspace (-6) 3 1024) ((logspace (-6) 3 1024).map firstFn) 0).1.getD 0 0 * (1 / 10)) ^ 2 / 3
          * |discMean (1 / 2) (blur (smoothing (1 / 10)) (pointMag single)) Complex.I (1 / 10) - 1| := by
  obtain ⟨hk, h1, h3, hg, hk0, h2, hinc, hw, h100⟩ := limb_hypotheses 1 (by norm_num)
  simp only [inv_one, one_mul] at h3 hg
  exact ⟨hk, C117_mag_limb hk defaultCfg (1 / 2) (by norm_num) (by norm_num) _ (1 / 10) (by norm_num) 0 h1 h3 hg hk0 h2 hinc _ hw h100⟩

example : ∃ hk : Hankel,
    |aFft hk defaultCfg (skLimbN hk defaultCfg (1 / 2)) (fun r => a0Limb r (1 / 2)) ‖(Complex.I : ℂ)‖ (1 / 10)
      - discMean (1 / 2) (blur (smoothing (1 / 10)) (pointMag single)) Complex.I (1 / 10)|
        ≤ 0 / (2 * Real.pi) + ((hk (logspace (-6) 3 1024) ((logspace (-6) 3 1024).map firstFn) 0).1.getD 0 0 * (1 / 10)) ^ 2 / 3
          * |discMean (1 / 2) (blur (smoothing (1 / 10)) (pointMag single)) Complex.I (1 / 10) - 1| := by
  have h10 : (10 : ℝ) ^ (-6 : ℝ) = 1e-6 := by
    rw [show (-6 : ℝ) = ((-6 : ℤ) : ℝ) by norm_num, Real.rpow_intCast]
    norm_num
  have hs : 9 / 10 ≤ firstVal (logspace (-6) 3 1024) (1 / 2) (1 / 10) := by
    rw [firstVal, logspace_first _ _ _ (by norm_num), h10, if_pos (by norm_num)]
    refine le_trans ?_ (brightness_lower (1 / 2) (by norm_num) (by norm_num) _ (by norm_num) (by norm_num)).1
    exact Real.le_sqrt_of_sq_le (by norm_num)
  obtain ⟨hk, h1, h3, hg, hk0, h2, hinc, hw, h100⟩ := limb_hypotheses _ hs
  refine ⟨hk, C117_mag_limb1_partial hk defaultCfg (by simp [defaultCfg]) (1 / 2) (by norm_num) (by norm_num) _ (1 / 10) ?_ ?_ 0 h1 h3 hg hk0
    h2 hinc _ hw h100⟩
  · simp only [defaultCfg]
    rw [h10]
    norm_num
  · simp only [defaultCfg]
    norm_num

/-- The grid of the default settings: even length, factor 500. -/
example : (1024 : ℕ) % 2 = 0 ∧ (10 : ℝ) ^ (-((-6 : ℝ) + 3)) / 2 = 500 := by
  refine ⟨rfl, ?_⟩
  rw [show (-((-6 : ℝ) + 3)) = ((3 : ℕ) : ℝ) by norm_num, Real.rpow_natCast]
  norm_num

end Microjax.Props
