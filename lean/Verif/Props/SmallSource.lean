import Verif.Lemmas.SmallSource
import Verif.Props.DiscAverage
import Verif.Props.Multipole
import Verif.Props.Acceptance

/-!
# C111: small sources

Off the caustics the ray-shooting value, the multipole value and the point-source value agree in the limit of small
radius, with rates: the first two up to the fifth power of the radius, both with the third up to the square.
-/

noncomputable section

namespace Microjax.Props

open Complex ComplexConjugate Microjax.PointSource Microjax.ExtendedSource Microjax.Multipole Microjax.Spec Filter
  MeasureTheory Asymptotics
open scoped Topology

/-! ### Polar coordinates in the disc -/

theorem ball_ae_sector (ρ : ℝ) : ∀ᵐ z : ℂ, (z ∈ Metric.closedBall (0 : ℂ) ρ ↔ z ∈ sector ((0, ρ), (0, 2 * Real.pi))) := by
  have hp := Real.pi_pos
  have h1 := measure_eq_zero_iff_ae_notMem.mp slit_null
  have h2 : volume (Metric.sphere (0 : ℂ) ρ) = 0 := by
    rcases eq_or_ne ρ 0 with rfl | h
    · simp
    · exact Measure.addHaar_sphere_of_ne_zero volume 0 h
  filter_upwards [h1, measure_eq_zero_iff_ae_notMem.mp h2] with z hz hs
  have hz0 : z ≠ 0 := fun h => hz (by simp [h])
  have hs' : ‖z‖ ≠ ρ := by simpa using hs
  rw [mem_closedBall_zero_iff]
  constructor
  · intro h
    have hlt : ‖z‖ < ρ := lt_of_le_of_ne h hs'
    have hrep : z = ‖z‖ * exp (I * arg z) := by rw [mul_comm I]; exact (norm_mul_exp_arg_mul_I z).symm
    have hne : arg z ≠ 0 := fun h => hz (by rw [arg_eq_zero_iff] at h; exact h.2)
    rcases lt_or_gt_of_ne hne with h | h
    · refine ⟨‖z‖, arg z + 2 * Real.pi, norm_pos_iff.mpr hz0, hlt, ?_, ?_, ?_⟩
      · simp only; linarith [neg_pi_lt_arg z]
      · simp only; linarith
      · conv_lhs => rw [hrep]
        congr 1
        push_cast
        rw [mul_add, exp_add, show I * (2 * (Real.pi : ℂ)) = 2 * Real.pi * I by ring, exp_two_pi_mul_I, mul_one]
    · exact ⟨‖z‖, arg z, norm_pos_iff.mpr hz0, hlt, h, by simp only; linarith [arg_le_pi z], hrep⟩
  · rintro ⟨r, θ, hr, hr', -, -, rfl⟩
    simp only at hr hr'
    rw [norm_mul, mul_comm I, norm_exp_ofReal_mul_I, mul_one, Complex.norm_of_nonneg hr.le]
    exact hr'.le

/-- The integral over the disc in polar coordinates. -/
theorem disc_polar (g : ℂ → ℝ) (w : ℂ) (ρ u1 : ℝ) (hρ : 0 < ρ) (hg : ContinuousOn g (Metric.closedBall w ρ)) :
    ∫ y in Metric.ball w ρ, g y * brightness u1 (‖y - w‖ / ρ) = ρ ^ 2 * discIntegral u1 g w ρ := by
  classical
  have hp := Real.pi_pos
  set F : ℂ → ℝ := (Metric.closedBall (0 : ℂ) ρ).indicator fun z => g (w + z) * brightness u1 (‖z‖ / ρ) with hF
  have hbc : Continuous (brightness u1) := by unfold brightness; fun_prop
  have hcont : ContinuousOn (fun z => g (w + z) * brightness u1 (‖z‖ / ρ)) (Metric.closedBall (0 : ℂ) ρ) := by
    refine ContinuousOn.mul (hg.comp (continuous_const.add continuous_id).continuousOn ?_) ?_
    · intro z hz
      simpa [dist_eq_norm] using hz
    · exact (hbc.comp (continuous_norm.div_const ρ)).continuousOn
  have hFm : Measurable F := by
    rw [hF, ← Set.piecewise_eq_indicator]
    exact hcont.measurable_piecewise continuousOn_const measurableSet_closedBall
  obtain ⟨C, hC⟩ := (isCompact_closedBall (0 : ℂ) ρ).exists_bound_of_continuousOn hcont
  have hFb : ∀ z, |F z| ≤ |C| := by
    intro z
    by_cases hz : z ∈ Metric.closedBall (0 : ℂ) ρ
    · rw [hF, Set.indicator_of_mem hz]; exact (hC z hz).trans (le_abs_self C)
    · rw [hF, Set.indicator_of_notMem hz, abs_zero]; exact abs_nonneg C
  have h1 : ∫ y in Metric.ball w ρ, g y * brightness u1 (‖y - w‖ / ρ) = ∫ z, F z := by
    have hball : (Metric.ball w ρ : Set ℂ) =ᵐ[volume] Metric.closedBall w ρ := by
      have h2 : volume (Metric.sphere w ρ) = 0 := Measure.addHaar_sphere_of_ne_zero volume w hρ.ne'
      filter_upwards [measure_eq_zero_iff_ae_notMem.mp h2] with y hy
      refine propext ⟨fun h => Metric.ball_subset_closedBall h, fun h => ?_⟩
      exact lt_of_le_of_ne h hy
    rw [setIntegral_congr_set hball, ← integral_indicator measurableSet_closedBall,
      ← integral_add_left_eq_self (fun y => (Metric.closedBall w ρ).indicator
        (fun y => g y * brightness u1 (‖y - w‖ / ρ)) y) w]
    refine integral_congr_ae (Eventually.of_forall fun z => ?_)
    have : w + z ∈ Metric.closedBall w ρ ↔ z ∈ Metric.closedBall (0 : ℂ) ρ := by simp [dist_eq_norm]
    by_cases hz : z ∈ Metric.closedBall (0 : ℂ) ρ
    · simp only [hF]
      rw [Set.indicator_of_mem hz, Set.indicator_of_mem (this.mpr hz), add_sub_cancel_left]
    · simp only [hF]
      rw [Set.indicator_of_notMem hz, Set.indicator_of_notMem (fun h => hz (this.mp h))]
  have h2 : ∫ z, F z = ∫ z in sector ((0, ρ), (0, 2 * Real.pi)), F z := by
    rw [← integral_indicator (measurableSet_sector 0 ρ 0 (2 * Real.pi) le_rfl (by simp))]
    refine integral_congr_ae ?_
    filter_upwards [ball_ae_sector ρ] with z hz
    by_cases hs : z ∈ sector ((0, ρ), (0, 2 * Real.pi))
    · rw [Set.indicator_of_mem hs]
    · rw [Set.indicator_of_notMem hs, hF, Set.indicator_of_notMem fun h => hs (hz.mp h)]
  rw [h1, h2, ← sector_integral F hFm |C| hFb 0 ρ 0 (2 * Real.pi) le_rfl hρ.le (by positivity) (by simp)]
  have h3 := intervalIntegral.integral_comp_mul_left
    (fun r => ∫ θ in (0 : ℝ)..2 * Real.pi, r * F (r * exp (I * θ))) hρ.ne' (a := 0) (b := 1)
  rw [mul_zero, mul_one, smul_eq_mul] at h3
  have h4 : ∫ r in (0 : ℝ)..ρ, ∫ θ in (0 : ℝ)..2 * Real.pi, r * F (r * exp (I * θ))
      = ρ * ∫ x in (0 : ℝ)..1, ∫ θ in (0 : ℝ)..2 * Real.pi, (ρ * x) * F ((ρ * x : ℝ) * exp (I * θ)) := by
    rw [h3]; field_simp
  rw [h4, discIntegral, sq, mul_assoc]
  congr 1
  rw [← intervalIntegral.integral_const_mul]
  refine intervalIntegral.integral_congr fun x hx => ?_
  rw [Set.uIcc_of_le zero_le_one] at hx
  rw [← intervalIntegral.integral_const_mul]
  refine intervalIntegral.integral_congr fun θ _ => ?_
  have hn : ‖((ρ * x : ℝ) : ℂ) * exp (I * θ)‖ = ρ * x := by
    rw [norm_mul, mul_comm I, norm_exp_ofReal_mul_I, mul_one, Complex.norm_of_nonneg (mul_nonneg hρ.le hx.1)]
  rw [hF, Set.indicator_of_mem (by rw [mem_closedBall_zero_iff, hn]; nlinarith [hx.2]), hn,
    mul_div_cancel_left₀ _ hρ.ne', Complex.ofReal_mul]
  ring

/-! ### The finite source as a sum over image branches -/

theorem limbMag_zero (L : Lenses) (w : ℂ) (rho : ℝ) : limbMag L w rho 0 = uniformMag L w rho := by
  simp [limbMag, uniformMag, brightness]

theorem disc_integral_pos (w : ℂ) (rho u1 : ℝ) (hrho : 0 < rho) (h0 : 0 ≤ u1) (h1 : u1 < 1) :
    0 < ∫ y in Metric.ball w rho, brightness u1 (‖y - w‖ / rho) := by
  have h := disc_polar (fun _ => 1) w rho u1 hrho continuousOn_const
  simp only [one_mul] at h
  rw [h, discIntegral_one]
  have := Real.pi_pos
  have : 0 < (1 - u1) / 2 + u1 / 3 := by linarith
  positivity

/-- Off the caustics, for small radius, the magnification of the limb-darkened disc is the sum over the images of the
moduli of the disc means of the signed magnifications. -/
theorem limb_branches (L : Lenses) (w : ℂ) (u1 : ℝ) (h0 : 0 ≤ u1) (h1 : u1 < 1) (S : Finset ℂ) (g : ℂ → ℂ → ℂ)
    (hB : ∀ z ∈ S, Branch L w (g z))
    (hval : ∀ᶠ y in 𝓝 w, pointMag L y = ∑ z ∈ S, |branchMag L (g z) y|) :
    ∀ᶠ ρ in 𝓝[>] (0 : ℝ), limbMag L w ρ u1 = ∑ z ∈ S, |discMean u1 (branchMag L (g z)) w ρ| := by
  have hloc : ∀ᶠ y in 𝓝 w, pointMag L y = ∑ z ∈ S, |branchMag L (g z) y| ∧
      ∀ z ∈ S, ContinuousAt (branchMag L (g z)) y ∧ 0 ≤ SignType.sign (branchMag L (g z) w) * branchMag L (g z) y := by
    refine hval.and ?_
    rw [Filter.eventually_all_finset]
    intro z hz
    have hA : AnalyticAt ℝ (branchMag L (g z)) w :=
      (lens_terms (hB z hz).analytic (hB z hz).off (hB z hz).reg (hB z hz).inv 0 0).1
    have hne : branchMag L (g z) w ≠ 0 := one_div_ne_zero (hB z hz).reg
    have hs : ∀ᶠ y in 𝓝 w, 0 < SignType.sign (branchMag L (g z) w) * branchMag L (g z) y := by
      have hc : ContinuousAt (fun y => ((SignType.sign (branchMag L (g z) w) : SignType) : ℝ) * branchMag L (g z) y) w :=
        continuousAt_const.mul hA.continuousAt
      refine hc.eventually_const_lt ?_
      beta_reduce
      rw [sign_mul_self]
      exact abs_pos.mpr hne
    filter_upwards [hA.eventually_analyticAt, hs] with y k1 k2
    exact ⟨k1.continuousAt, k2.le⟩
  obtain ⟨ε, hε, hb⟩ := Metric.eventually_nhds_iff_ball.mp hloc
  filter_upwards [Ioo_mem_nhdsGT hε] with ρ hρ
  have hρ0 : 0 < ρ := hρ.1
  have hsub : Metric.closedBall w ρ ⊆ Metric.ball w ε := Metric.closedBall_subset_ball hρ.2
  have hpos := disc_integral_pos w ρ u1 hρ0 h0 h1
  have hcont : ∀ z ∈ S, ContinuousOn (branchMag L (g z)) (Metric.closedBall w ρ) := fun z hz y hy =>
    ((hb y (hsub hy)).2 z hz).1.continuousWithinAt
  have hbc : Continuous fun y : ℂ => brightness u1 (‖y - w‖ / ρ) := by unfold brightness; fun_prop
  have hint : ∀ z ∈ S, IntegrableOn (fun y => |branchMag L (g z) y| * brightness u1 (‖y - w‖ / ρ)) (Metric.ball w ρ) := by
    intro z hz
    refine IntegrableOn.mono_set ?_ Metric.ball_subset_closedBall
    exact ContinuousOn.integrableOn_compact (isCompact_closedBall w ρ) (((hcont z hz).abs).mul hbc.continuousOn)
  rw [limbMag_eq_average]
  have e1 : ∫ y in Metric.ball w ρ, pointMag L y * brightness u1 (‖y - w‖ / ρ)
      = ∑ z ∈ S, ∫ y in Metric.ball w ρ, |branchMag L (g z) y| * brightness u1 (‖y - w‖ / ρ) := by
    rw [← integral_finsetSum _ hint]
    refine setIntegral_congr_fun measurableSet_ball fun y hy => ?_
    rw [(hb y (hsub (Metric.ball_subset_closedBall hy))).1, Finset.sum_mul]
  rw [e1, Finset.sum_div]
  refine Finset.sum_congr rfl fun z hz => ?_
  have e2 : ∫ y in Metric.ball w ρ, |branchMag L (g z) y| * brightness u1 (‖y - w‖ / ρ)
      = |∫ y in Metric.ball w ρ, branchMag L (g z) y * brightness u1 (‖y - w‖ / ρ)| := by
    have hne : branchMag L (g z) w ≠ 0 := one_div_ne_zero (hB z hz).reg
    have hsg : |((SignType.sign (branchMag L (g z) w) : SignType) : ℝ)| = 1 := by
      rcases lt_or_gt_of_ne hne with h | h
      · simp [sign_neg h]
      · simp [sign_pos h]
    have e3 : ∫ y in Metric.ball w ρ, |branchMag L (g z) y| * brightness u1 (‖y - w‖ / ρ)
        = SignType.sign (branchMag L (g z) w) * ∫ y in Metric.ball w ρ, branchMag L (g z) y * brightness u1 (‖y - w‖ / ρ) := by
      rw [← integral_const_mul]
      refine setIntegral_congr_fun measurableSet_ball fun y hy => ?_
      have := ((hb y (hsub (Metric.ball_subset_closedBall hy))).2 z hz).2
      rw [← mul_assoc, ← abs_of_nonneg this, abs_mul, hsg, one_mul]
    have e4 : 0 ≤ ∫ y in Metric.ball w ρ, |branchMag L (g z) y| * brightness u1 (‖y - w‖ / ρ) :=
      integral_nonneg fun y => mul_nonneg (abs_nonneg _) (brightness_pos u1 h0 h1 _).le
    rw [← abs_of_nonneg e4, e3, abs_mul, hsg, one_mul]
  rw [e2, disc_polar _ w ρ u1 hρ0 (hcont z hz), discMean]
  have e5 := disc_polar (fun _ => 1) w ρ u1 hρ0 continuousOn_const
  simp only [one_mul] at e5
  have h2 : 0 < ρ ^ 2 := by positivity
  rw [e5] at hpos ⊢
  have h3 : 0 < discIntegral u1 (fun _ => 1) w ρ := by
    by_contra h
    nlinarith
  rw [abs_mul, abs_of_pos h2, mul_div_mul_left _ _ h2.ne', abs_div, abs_of_pos h3]

/-- Branches through the images of a source off the caustics. -/
theorem exists_branches (L : Lenses) (hm : ∀ l ∈ L, l.1 ≠ 0) (hL : (L.map Prod.snd).Nodup) (w : ℂ)
    (hw : ∀ z, IsImage L w z → jacDet (lensMap L) z ≠ 0) :
    ∃ (S : Finset ℂ) (g : ℂ → ℂ → ℂ), (∀ z, z ∈ S ↔ IsImage L w z) ∧ (∀ z ∈ S, Branch L w (g z) ∧ g z w = z) ∧
      ∀ᶠ y in 𝓝 w, pointMag L y = ∑ z ∈ S, |branchMag L (g z) y| := by
  classical
  obtain ⟨S, g, hS, hg, hev⟩ := images_continuous L hm hL w (fun z hz h => hw z hz (by
    have h1 : shear L z = (L.map fun l => (l.1 : ℂ) / (conj z - conj l.2) ^ 2).sum := rfl
    rw [(jacDet_lensMap L z hz.1).2, ← h1, h]; norm_num))
  refine ⟨S, g, hS, fun z hz => ⟨⟨(hg z hz).1, ?_, ?_, ?_⟩, (hg z hz).2⟩, ?_⟩
  · filter_upwards [hev] with y hy
    exact ((hy.2 _).mpr ⟨z, hz, rfl⟩).2
  · rw [(hg z hz).2]; exact ((hS z).mp hz).1
  · rw [(hg z hz).2]; exact hw z ((hS z).mp hz)
  · filter_upwards [hev] with y hy
    have hset : {z | IsImage L y z} = ((S.image fun z => g z y : Finset ℂ) : Set ℂ) := by
      ext x
      simp [hy.2 x]
    rw [pointMag, hset, finsum_mem_coe_finset, Finset.sum_image (by exact hy.1)]
    refine Finset.sum_congr rfl fun z hz => ?_
    rw [branchMag, abs_div, abs_one]

/-- The masked sum of `mag_hexadecapole` as a sum over the images. -/
theorem sumTerms_flagged (wk : ℂ → ℕ → ℂ) (zs : List (ℂ × Bool)) (rho u1 : ℝ) (S : Finset ℂ)
    (hnd : (flagged zs).Nodup) (hmem : ∀ z, z ∈ flagged zs ↔ z ∈ S) :
    (sumTerms wk zs rho u1).1 = ∑ z ∈ S, |(cassan (wStack (wk z)) rho u1).ps + (cassan (wStack (wk z)) rho u1).quad
      + (cassan (wStack (wk z)) rho u1).hex| := by
  classical
  have h1 : ∀ f : ℂ → ℝ, (zs.map fun zm => (if zm.2 then (1 : ℝ) else 0) * f zm.1).sum = ((flagged zs).map f).sum := by
    intro f
    clear hnd hmem
    induction zs with
    | nil => rfl
    | cons a zs ih =>
      rw [List.map_cons, List.sum_cons, ih]
      by_cases ha : a.2 = true
      · simp [flagged, ha]
      · simp [flagged, ha]
  have h2 : (flagged zs).toFinset = S := by ext z; simp [hmem]
  rw [← h2, List.sum_toFinset _ hnd, ← h1]
  simp only [sumTerms, List.map_map, Function.comp_def]

/-- The comparison for any lens system: the magnification of the disc and the sum of the multipole terms over the images
differ by a term of fifth order. -/
theorem limb_multipole (L : Lenses) (hm : ∀ l ∈ L, l.1 ≠ 0) (hL : (L.map Prod.snd).Nodup) (w : ℂ)
    (hw : ∀ z, IsImage L w z → jacDet (lensMap L) z ≠ 0) (u1 : ℝ) (h0 : 0 ≤ u1) (h1 : u1 < 1)
    (zs : List (ℂ × Bool)) (hnd : (flagged zs).Nodup) (hmem : ∀ z, z ∈ flagged zs ↔ IsImage L w z) :
    ∃ K ρ₀ : ℝ, 0 < ρ₀ ∧ ∀ ρ, 0 < ρ → ρ < ρ₀ →
      |limbMag L w ρ u1 - (sumTerms (wSpec L) zs ρ u1).1| ≤ K * ρ ^ 5 ∧ |limbMag L w ρ u1 - pointMag L w| ≤ K * ρ ^ 2 := by
  obtain ⟨S, g, hS, hg, hev⟩ := exists_branches L hm hL w hw
  have hb := limb_branches L w u1 h0 h1 S g (fun z hz => (hg z hz).1) hev
  have hO : (fun ρ : ℝ => ∑ z ∈ S, (|discMean u1 (branchMag L (g z)) w ρ|
      - |(cassan (wStack (wSpec L z)) ρ u1).ps + (cassan (wStack (wSpec L z)) ρ u1).quad
        + (cassan (wStack (wSpec L z)) ρ u1).hex|)) =O[𝓝 0] fun ρ => ρ ^ 5 := by
    refine IsBigO.fun_sum fun z hz => ?_
    have h2 := C22_expansion L w (g z) (hg z hz).1 u1 (by linarith)
    rw [(hg z hz).2] at h2
    exact IsBigO.trans (IsBigO.of_bound 1 (Eventually.of_forall fun rho => by
      rw [one_mul, Real.norm_eq_abs, Real.norm_eq_abs]; exact abs_abs_sub_abs_le_abs_sub _ _)) h2
  have hsum : ∀ ρ, (sumTerms (wSpec L) zs ρ u1).1 = ∑ z ∈ S, |(cassan (wStack (wSpec L z)) ρ u1).ps
      + (cassan (wStack (wSpec L z)) ρ u1).quad + (cassan (wStack (wSpec L z)) ρ u1).hex| := fun ρ =>
    sumTerms_flagged _ zs ρ u1 S hnd fun z => by rw [hmem, hS]
  have hquad : (fun ρ : ℝ => ∑ z ∈ S, (|(cassan (wStack (wSpec L z)) ρ u1).ps + (cassan (wStack (wSpec L z)) ρ u1).quad
        + (cassan (wStack (wSpec L z)) ρ u1).hex| - |(cassan (wStack (wSpec L z)) ρ u1).ps|)) =O[𝓝 0] fun ρ => ρ ^ 2 := by
    refine IsBigO.fun_sum fun z hz => ?_
    refine IsBigO.trans (g := fun ρ : ℝ => (cassan (wStack (wSpec L z)) ρ u1).quad + (cassan (wStack (wSpec L z)) ρ u1).hex)
      (IsBigO.of_bound 1 (Eventually.of_forall fun rho => by
        rw [one_mul, Real.norm_eq_abs, Real.norm_eq_abs]
        refine (abs_abs_sub_abs_le_abs_sub _ _).trans (le_of_eq ?_)
        congr 1; ring)) ?_
    have hq : ∀ ρ, (cassan (wStack (wSpec L z)) ρ u1).quad + (cassan (wStack (wSpec L z)) ρ u1).hex
        = (1 / 2 * (1 / 4 * laplacian (branchMag L (g z)) w) * (1 - 1 / 5 * (2 * u1 / (3 - u1)))
          + 1 / 24 * (1 / 8 * laplacian (laplacian (branchMag L (g z))) w)
          * (1 - 11 / 35 * (2 * u1 / (3 - u1))) * ρ ^ 2) * ρ ^ 2 := by
      intro ρ
      obtain ⟨-, k2, k3⟩ := C22_terms L w (g z) (hg z hz).1 ρ u1
      rw [(hg z hz).2] at k2 k3
      rw [k2, k3]; ring
    simp only [hq]
    set A := 1 / 2 * (1 / 4 * laplacian (branchMag L (g z)) w) * (1 - 1 / 5 * (2 * u1 / (3 - u1)))
    set B := 1 / 24 * (1 / 8 * laplacian (laplacian (branchMag L (g z))) w) * (1 - 11 / 35 * (2 * u1 / (3 - u1)))
    have hbd : (fun ρ : ℝ => A + B * ρ ^ 2) =O[𝓝 0] fun _ => (1 : ℝ) := by
      have hc : ContinuousAt (fun ρ : ℝ => A + B * ρ ^ 2) 0 := by fun_prop
      exact hc.isBigO_one ℝ
    simpa using hbd.mul (isBigO_refl (fun ρ : ℝ => ρ ^ 2) (𝓝 0))
  have hps : ∀ ρ, ∑ z ∈ S, |(cassan (wStack (wSpec L z)) ρ u1).ps| = pointMag L w := by
    intro ρ
    rw [hev.self_of_nhds]
    refine Finset.sum_congr rfl fun z hz => ?_
    have := (C22_terms L w (g z) (hg z hz).1 ρ u1).1
    rw [(hg z hz).2] at this
    rw [this]
  obtain ⟨K1, hK1⟩ := hO.bound
  obtain ⟨K2, hK2⟩ := hquad.bound
  have hall : ∀ᶠ ρ in 𝓝[>] (0 : ℝ), |limbMag L w ρ u1 - (sumTerms (wSpec L) zs ρ u1).1| ≤ (|K1| + |K2|) * ρ ^ 5 ∧
      |limbMag L w ρ u1 - pointMag L w| ≤ (|K1| + |K2|) * ρ ^ 2 := by
    filter_upwards [hb, hK1.filter_mono nhdsWithin_le_nhds, hK2.filter_mono nhdsWithin_le_nhds,
      Ioo_mem_nhdsGT one_pos] with ρ e1 e2 e3 e4
    have hρ : 0 < ρ := e4.1
    have hρ1 : ρ < 1 := e4.2
    rw [Finset.sum_sub_distrib, ← e1, ← hsum, Real.norm_eq_abs, Real.norm_eq_abs, abs_of_pos (pow_pos hρ 5)] at e2
    rw [Finset.sum_sub_distrib, ← hsum, hps, Real.norm_eq_abs, Real.norm_eq_abs, abs_of_pos (pow_pos hρ 2)] at e3
    have f2 : |limbMag L w ρ u1 - (sumTerms (wSpec L) zs ρ u1).1| ≤ |K1| * ρ ^ 5 :=
      e2.trans (mul_le_mul_of_nonneg_right (le_abs_self _) (by positivity))
    have f3 : |(sumTerms (wSpec L) zs ρ u1).1 - pointMag L w| ≤ |K2| * ρ ^ 2 :=
      e3.trans (mul_le_mul_of_nonneg_right (le_abs_self _) (by positivity))
    have f4 : ρ ^ 5 ≤ ρ ^ 2 := pow_le_pow_of_le_one hρ.le hρ1.le (by norm_num)
    constructor
    · nlinarith [mul_nonneg (abs_nonneg K2) (pow_pos hρ 5).le]
    · calc |limbMag L w ρ u1 - pointMag L w| ≤ _ := abs_sub_le _ (sumTerms (wSpec L) zs ρ u1).1 _
        _ ≤ |K1| * ρ ^ 5 + |K2| * ρ ^ 2 := add_le_add f2 f3
        _ ≤ |K1| * ρ ^ 2 + |K2| * ρ ^ 2 := by gcongr
        _ = _ := by ring
  obtain ⟨ρ₀, hρ₀, h⟩ := (mem_nhdsGT_iff_exists_Ioo_subset).mp hall
  exact ⟨|K1| + |K2|, ρ₀, hρ₀, fun ρ h1 h2 => h ⟨h1, h2⟩⟩

theorem setIntegral_ball_translate (f : ℂ → ℝ) (w c : ℂ) (rho : ℝ) :
    ∫ y in Metric.ball (w + c) rho, f y = ∫ y in Metric.ball w rho, f (y + c) := by
  rw [← integral_indicator measurableSet_ball, ← integral_indicator measurableSet_ball,
    ← integral_add_right_eq_self (fun y => (Metric.ball (w + c) rho).indicator f y) c]
  refine integral_congr_ae (Eventually.of_forall fun y => ?_)
  have : y + c ∈ Metric.ball (w + c) rho ↔ y ∈ Metric.ball w rho := by simp [dist_eq_norm]
  by_cases hy : y ∈ Metric.ball w rho
  · simp only
    rw [Set.indicator_of_mem hy, Set.indicator_of_mem (this.mpr hy)]
  · simp only
    rw [Set.indicator_of_notMem hy, Set.indicator_of_notMem fun h => hy (this.mp h)]

theorem limbMag_translate (L : Lenses) (c w : ℂ) (rho u1 : ℝ) :
    limbMag (L.map fun l => (l.1, l.2 + c)) (w + c) rho u1 = limbMag L w rho u1 := by
  rw [limbMag_eq_average, limbMag_eq_average, setIntegral_ball_translate, setIntegral_ball_translate]
  simp only [pointMag_translate, add_sub_add_right_eq_sub]

/-- **C111**: a binary and a source that is not at a lens, a root finder that returns all roots, distinct, none of which
comes within the tolerance without being a solution.  For all small radii and all lists of regions that cover the images
once, the limit `A` of `mag_limb_dark` (of `mag_uniform` for `u1 = 0`, see `C111_uniform`) differs from the multipole value
that `mag_binary` would use by at most `K ρ⁵`, and from the value of `mag_point_source` by at most `K ρ²`. -/
theorem C111_binary (roots : Option (List ℂ) → List ℂ → List ℂ) (s q u1 : ℝ) (w : ℂ) (hs : s ≠ 0) (hq : 0 < q)
    (h0 : 0 ≤ u1) (h1 : u1 < 1) (u : UserParams) (hu : u = binParams s q) (cs : List ℂ)
    (hcs : cs = polyCoeffsBinary (w - xCM u) (midParams2 u).a (midParams2 u).e1)
    (hroots : IsRootList cs (roots none cs)) (hw1 : w - xCM u ≠ (midParams2 u).a) (hw2 : w - xCM u ≠ -(midParams2 u).a)
    (hsimple : (roots none cs).Nodup)
    (hsep : ∀ r ∈ roots none cs, ‖lensEq2 (midParams2 u) r - (w - xCM u)‖ < 1e-6 →
      lensEq2 (midParams2 u) r = w - xCM u) :
    ∃ (K ρ₀ pm : ℝ), 0 < ρ₀ ∧ magPointSource roots 2 u w = .ok pm ∧
      ∀ (ρ delta_c : ℝ), 0 < ρ → ρ < ρ₀ → ∀ regions : List ((ℝ × ℝ) × (ℝ × ℝ)), (∀ R ∈ regions, ProperRegion R) →
        CoversOnce regions (imageOfDisc (binary s q) w ρ) →
        ∃ mu err A, binaryMulti roots ρ u1 s q w = .ok (mu, err) ∧
          Tendsto (fun n : ℕ × ℕ => magLimbDark 2 u w ρ u1 delta_c n.1 n.2 regions) (atTop ×ˢ atTop) (𝓝 A) ∧
          |A - mu| ≤ K * ρ ^ 5 ∧ |A - pm| ≤ K * ρ ^ 2 := by
  subst hcs
  have hus : u.s = s := by rw [hu]; rfl
  have huq : u.q = q := by rw [hu]; rfl
  have hq1 : 1 + u.q ≠ 0 := by rw [huq]; positivity
  set p := midParams2 u with hp
  have ha : p.a ≠ 0 := by simp [hp, midParams2, hus, hs]
  obtain ⟨⟨he, he'⟩, hmass, -⟩ := mass2_pos u (by rw [huq]; exact hq)
  have hdeg : conj (w - xCM u) ^ 2 ≠ (p.a : ℂ) ^ 2 := by
    intro h
    have h2 : (w - xCM u) ^ 2 = (p.a : ℂ) ^ 2 := by
      have := congrArg (starRingEnd ℂ) h
      simpa using this
    rcases sq_eq_sq_iff_eq_or_eq_neg.mp h2 with h3 | h3
    · exact hw1 h3
    · exact hw2 h3
  obtain ⟨c1, c2, -⟩ := binary_count roots none p (w - xCM u) ha he he' hroots hw1 hw2 hsimple hsep _ rfl
  obtain ⟨b1, b2, -⟩ := binary_roots p (w - xCM u) _ ha he he' hroots hdeg hsimple
  have hcrit : ∀ z, IsImage (midBinary p) (w - xCM u) z → jacDet (lensMap (midBinary p)) z ≠ 0 := by
    intro z hz hdet
    have hz' := hz
    rw [← lensList2] at hz'
    obtain ⟨d1, d2⟩ := (isImage_iff_dual _ _ _ _).mp hz'
    apply (b1 z (b2 z d1)).2
    rw [dualDet_image _ _ _ z d2, lensList2]
    have h3 : detFormula (midBinary p) z = 0 := by rw [← hdet, (jacDet_lensMap _ z hz.1).2]; rfl
    rw [h3]; simp
  have hac : (p.a : ℂ) ≠ 0 := by exact_mod_cast ha
  have hnd : ((midBinary p).map Prod.snd).Nodup := by
    simp only [midBinary, List.map_cons, List.map_nil, List.nodup_cons, List.mem_singleton, List.not_mem_nil,
      not_false_eq_true, List.nodup_nil, and_true]
    exact fun h => hac (by linear_combination h / 2)
  have hm0 : ∀ l ∈ midBinary p, l.1 ≠ 0 := by
    intro l hl
    simp only [midBinary, List.mem_cons, List.not_mem_nil, or_false] at hl
    rcases hl with rfl | rfl
    · exact he.ne'
    · simp only; linarith
  obtain ⟨K, ρ₀, hρ₀, hK⟩ := limb_multipole (midBinary p) hm0 hnd (w - xCM u) hcrit u1 h0 h1
    (images2 roots none p (w - xCM u)) c2 c1
  have hframe := (C08_binary_frame u hq1).1
  have hlm : ∀ ρ, limbMag (binary s q) w ρ u1 = limbMag (midBinary p) (w - xCM u) ρ u1 := by
    intro ρ
    rw [← hus, ← huq, ← hframe]
    conv_lhs => rw [show w = (w - xCM u) + xCM u by ring]
    exact limbMag_translate _ _ _ _ _
  have hpm : magPointSource roots 2 u w = .ok (pointMag (binary u.s u.q) w) := by
    refine C06_binary_mag roots u w hq1 hroots hdeg hsimple fun r hr hlt => ?_
    obtain ⟨d1, -⟩ := b1 r hr
    refine ⟨hsep r hr hlt, ?_, ?_⟩
    · exact d1.hz 0
    · exact d1.hz 1
  have hpt : pointMag (binary u.s u.q) w = pointMag (midBinary p) (w - xCM u) := by
    rw [← hframe]
    conv_lhs => rw [show w = (w - xCM u) + xCM u by ring]
    exact pointMag_translate _ _ _
  refine ⟨K, ρ₀, _, hρ₀, hpm, fun ρ delta_c hρ hρ' regions hreg hcov => ?_⟩
  have hul : userLens 2 u = binary s q := by simp [userLens, hus, huq]
  obtain ⟨k1, k2⟩ := hK ρ hρ hρ'
  have hT := C72_limb_converges 2 u w ρ u1 delta_c hρ (by linarith) hq1 (by norm_num) regions hreg (by rw [hul]; exact hcov)
  rw [hul] at hT
  refine ⟨_, _, _, binaryMulti_ok roots ρ u1 s q w, hT, ?_, ?_⟩
  · rw [hlm]
    have : wk2 p = wSpec (midBinary p) := by funext z k; exact wk2_eq p z k
    rw [← this] at k1
    have hu' : ({ s := s, q := q, q3 := 0, r3 := 0, psi := 0 } : UserParams) = u := hu.symm
    rw [hp] at k1
    rw [hp]
    subst hu'
    exact k1
  · rw [hlm, hpt]; exact k2

/-- **C111, uniform disc**: the same for `mag_uniform`. -/
theorem C111_uniform (roots : Option (List ℂ) → List ℂ → List ℂ) (s q : ℝ) (w : ℂ) (hs : s ≠ 0) (hq : 0 < q)
    (u : UserParams) (hu : u = binParams s q) (cs : List ℂ)
    (hcs : cs = polyCoeffsBinary (w - xCM u) (midParams2 u).a (midParams2 u).e1)
    (hroots : IsRootList cs (roots none cs)) (hw1 : w - xCM u ≠ (midParams2 u).a) (hw2 : w - xCM u ≠ -(midParams2 u).a)
    (hsimple : (roots none cs).Nodup)
    (hsep : ∀ r ∈ roots none cs, ‖lensEq2 (midParams2 u) r - (w - xCM u)‖ < 1e-6 →
      lensEq2 (midParams2 u) r = w - xCM u) :
    ∃ (K ρ₀ pm : ℝ), 0 < ρ₀ ∧ magPointSource roots 2 u w = .ok pm ∧
      ∀ ρ : ℝ, 0 < ρ → ρ < ρ₀ → ∀ regions : List ((ℝ × ℝ) × (ℝ × ℝ)), (∀ R ∈ regions, ProperRegion R) →
        CoversOnce regions (imageOfDisc (binary s q) w ρ) →
        ∃ mu err A, binaryMulti roots ρ 0 s q w = .ok (mu, err) ∧
          Tendsto (fun n : ℕ × ℕ => magUniform 2 u w ρ n.1 n.2 regions) (atTop ×ˢ atTop) (𝓝 A) ∧
          |A - mu| ≤ K * ρ ^ 5 ∧ |A - pm| ≤ K * ρ ^ 2 := by
  obtain ⟨K, ρ₀, pm, h1, h2, h3⟩ := C111_binary roots s q 0 w hs hq le_rfl one_pos u hu cs hcs hroots hw1 hw2 hsimple hsep
  have hus : u.s = s := by rw [hu]; rfl
  have huq : u.q = q := by rw [hu]; rfl
  have hq1 : 1 + u.q ≠ 0 := by rw [huq]; positivity
  have hul : userLens 2 u = binary s q := by simp [userLens, hus, huq]
  refine ⟨K, ρ₀, pm, h1, h2, fun ρ hρ hρ' regions hreg hcov => ?_⟩
  obtain ⟨mu, err, A, k1, k2, k3, k4⟩ := h3 ρ 0 hρ hρ' regions hreg hcov
  have hcov' : CoversOnce regions (imageOfDisc (userLens 2 u) w ρ) := by rw [hul]; exact hcov
  have hT := C72_limb_converges 2 u w ρ 0 0 hρ (by norm_num) hq1 (by norm_num) regions hreg hcov'
  have hU := C71_uniform_converges 2 u w ρ hρ hq1 (by norm_num) regions hreg hcov'
  have : A = uniformMag (userLens 2 u) w ρ := by
    rw [← limbMag_zero]; exact tendsto_nhds_unique k2 hT
  exact ⟨mu, err, A, k1, by rw [this]; exact hU, k3, k4⟩

/-- The hypotheses of C111 are met: the centre of the equal-mass binary, with its five images. -/
example (u1 : ℝ) (h0 : 0 ≤ u1) (h1 : u1 < 1) : ∃ (K ρ₀ pm : ℝ), 0 < ρ₀ ∧ magPointSource exFinder 2 exU 0 = .ok pm ∧
    ∀ (ρ delta_c : ℝ), 0 < ρ → ρ < ρ₀ → ∀ regions : List ((ℝ × ℝ) × (ℝ × ℝ)), (∀ R ∈ regions, ProperRegion R) →
      CoversOnce regions (imageOfDisc (binary 1 1) 0 ρ) →
      ∃ mu err A, binaryMulti exFinder ρ u1 1 1 0 = .ok (mu, err) ∧
        Tendsto (fun n : ℕ × ℕ => magLimbDark 2 exU 0 ρ u1 delta_c n.1 n.2 regions) (atTop ×ˢ atTop) (𝓝 A) ∧
        |A - mu| ≤ K * ρ ^ 5 ∧ |A - pm| ≤ K * ρ ^ 2 := by
  have hx : (0 : ℂ) - (xCM exU : ℂ) = 0 := by rw [exU_x]; simp
  refine C111_binary exFinder 1 1 u1 0 one_ne_zero one_pos h0 h1 exU rfl _ rfl ?_ ?_ ?_ ?_ ?_
  · rw [hx]; exact exRoots_isRootList
  · rw [hx, exU_a]; norm_num
  · rw [hx, exU_a]; norm_num
  · exact exRoots_nodup
  · intro r hr _
    rw [hx]; exact (exRoots_images r hr).1

end Microjax.Props
