import Mathlib.MeasureTheory.Integral.DivergenceTheorem
import Mathlib.Analysis.SpecialFunctions.PolarCoord
import Mathlib.MeasureTheory.Function.Jacobian
import Mathlib.MeasureTheory.Group.Integral
import Mathlib.Analysis.Calculus.FDeriv.Symmetric
import Mathlib.Analysis.Complex.RealDeriv
import Mathlib.MeasureTheory.Integral.Prod
import Mathlib.Analysis.Calculus.ContDiff.Operations
import Mathlib.Analysis.SpecialFunctions.ExpDeriv

/-!
# Green's theorem for the image of a disc

The area of the image of a disc under an orientation preserving (or reversing) injection is (minus) one half of the
integral of `Im (conj z dz)` over the image of the circle.
-/

noncomputable section

namespace Microjax.Props

open Complex ComplexConjugate MeasureTheory Set Filter
open scoped Topology

theorem det_complex (A : ℂ →L[ℝ] ℂ) : A.det = (conj (A 1) * A I).im := by
  rw [ContinuousLinearMap.det, ← LinearMap.det_toMatrix basisOneI, Matrix.det_fin_two]
  simp only [LinearMap.toMatrix_apply, coe_basisOneI, ContinuousLinearMap.coe_coe, coe_basisOneI_repr]
  simp
  ring

theorem cross_complex (A : ℂ →L[ℝ] ℂ) (u v : ℂ) : (conj (A u) * A v).im = A.det * (conj u * v).im := by
  have h : ∀ u : ℂ, A u = u.re * A 1 + u.im * A I := by
    intro u
    conv_lhs => rw [← re_add_im u, show (u.re : ℂ) + u.im * I = u.re • (1 : ℂ) + u.im • I by simp]
    rw [map_add, map_smul, map_smul]
    simp
  rw [h u, h v, det_complex]
  simp
  ring

/-- Polar coordinates about `w`. -/
def polarAt (w : ℂ) (p : ℝ × ℝ) : ℂ := w + p.1 * exp (p.2 * I)

theorem contDiff_polarAt (w : ℂ) : ContDiff ℝ 2 (polarAt w) := by
  unfold polarAt
  have h1 : ContDiff ℝ 2 fun p : ℝ × ℝ => (p.1 : ℂ) := ofRealCLM.contDiff.comp contDiff_fst
  have h2 : ContDiff ℝ 2 fun p : ℝ × ℝ => (p.2 : ℂ) := ofRealCLM.contDiff.comp contDiff_snd
  exact contDiff_const.add (h1.mul (h2.mul contDiff_const).cexp)

theorem polarAt_mem (w : ℂ) (R : ℝ) (p : ℝ × ℝ) (hp : |p.1| < R) : polarAt w p ∈ Metric.ball w R := by
  rw [Metric.mem_ball, dist_eq_norm, polarAt, add_sub_cancel_left, norm_mul, norm_exp_ofReal_mul_I, mul_one, norm_real]
  exact hp

theorem fderiv_polarAt (w : ℂ) (p : ℝ × ℝ) : fderiv ℝ (polarAt w) p (1, 0) = exp (p.2 * I) ∧
    fderiv ℝ (polarAt w) p (0, 1) = p.1 * exp (p.2 * I) * I := by
  have hd : HasFDerivAt (polarAt w) (fderiv ℝ (polarAt w) p) p :=
    ((contDiff_polarAt w).differentiable (by norm_num) p).hasFDerivAt
  constructor
  · have h1 : HasDerivAt (fun t : ℝ => polarAt w (t, p.2)) (fderiv ℝ (polarAt w) p (1, 0)) p.1 := by
      have hl : HasDerivAt (fun t : ℝ => ((t, p.2) : ℝ × ℝ)) (1, 0) p.1 :=
        (hasDerivAt_id p.1).prodMk (hasDerivAt_const p.1 p.2)
      exact HasFDerivAt.comp_hasDerivAt (f := fun t : ℝ => ((t, p.2) : ℝ × ℝ)) p.1 hd hl
    have h2 : HasDerivAt (fun t : ℝ => polarAt w (t, p.2)) (exp (p.2 * I)) p.1 := by
      have := ((ofRealCLM.hasDerivAt (x := p.1)).mul_const (exp (p.2 * I))).const_add w
      simpa [polarAt] using this
    exact h1.unique h2
  · have h1 : HasDerivAt (fun t : ℝ => polarAt w (p.1, t)) (fderiv ℝ (polarAt w) p (0, 1)) p.2 := by
      have hl : HasDerivAt (fun t : ℝ => ((p.1, t) : ℝ × ℝ)) (0, 1) p.2 :=
        (hasDerivAt_const p.2 p.1).prodMk (hasDerivAt_id p.2)
      exact HasFDerivAt.comp_hasDerivAt (f := fun t : ℝ => ((p.1, t) : ℝ × ℝ)) p.2 hd hl
    have h2 : HasDerivAt (fun t : ℝ => polarAt w (p.1, t)) (p.1 * exp (p.2 * I) * I) p.2 := by
      have := ((((ofRealCLM.hasDerivAt (x := p.2)).mul_const I).cexp).const_mul (p.1 : ℂ)).const_add w
      simpa [polarAt, mul_assoc] using this
    exact h1.unique h2

/-- The form integrated along the circles. -/
def crossForm (G : ℝ × ℝ → ℂ) (v p : ℝ × ℝ) : ℝ := (conj (G p) * fderiv ℝ G p v).im

theorem crossForm_deriv (G : ℝ × ℝ → ℂ) (p v : ℝ × ℝ) (hG : ContDiffAt ℝ 2 G p) : ContDiffAt ℝ 1 (crossForm G v) p ∧
    ∀ u, fderiv ℝ (crossForm G v) p u = (conj (fderiv ℝ G p u) * fderiv ℝ G p v).im
      + (conj (G p) * fderiv ℝ (fderiv ℝ G) p u v).im := by
  have h1 : ContDiffAt ℝ 1 (fderiv ℝ G) p := hG.fderiv_right (by norm_num)
  have h2 : ContDiffAt ℝ 1 (fun p => fderiv ℝ G p v) p := h1.clm_apply contDiffAt_const
  have h3 : ContDiffAt ℝ 1 (fun p => conj (G p)) p :=
    (conjCLE.contDiff.contDiffAt (x := G p)).comp p (hG.of_le (by norm_num))
  have h4 : ContDiffAt ℝ 1 (fun p => conj (G p) * fderiv ℝ G p v) p := h3.mul h2
  refine ⟨(imCLM.contDiff.contDiffAt).comp p h4, fun u => ?_⟩
  have d1 : HasFDerivAt G (fderiv ℝ G p) p := (hG.differentiableAt (by norm_num)).hasFDerivAt
  have d2 : HasFDerivAt (fderiv ℝ G) (fderiv ℝ (fderiv ℝ G) p) p := (h1.differentiableAt (by norm_num)).hasFDerivAt
  have d3 : HasFDerivAt (fun p => fderiv ℝ G p v) ((ContinuousLinearMap.apply ℝ ℂ v).comp (fderiv ℝ (fderiv ℝ G) p)) p :=
    (ContinuousLinearMap.apply ℝ ℂ v).hasFDerivAt.comp p d2
  have d4 : HasFDerivAt (fun p => conj (G p)) ((conjCLE : ℂ →L[ℝ] ℂ).comp (fderiv ℝ G p)) p :=
    (conjCLE : ℂ →L[ℝ] ℂ).hasFDerivAt.comp p d1
  have d5 := imCLM.hasFDerivAt.comp p (d4.mul' d3)
  have d6 : fderiv ℝ (crossForm G v) p = _ := d5.fderiv
  rw [d6]
  simp
  ring

/-- Integral over a disc in polar coordinates. -/
theorem integral_disc_polar (w : ℂ) (r : ℝ) (hr : 0 < r) (φ : ℂ → ℝ) (hφ : ContinuousOn φ (Metric.closedBall w r)) :
    ∫ y in Metric.ball w r, φ y = ∫ ρ in (0 : ℝ)..r, ∫ θ in (-Real.pi)..Real.pi, ρ * φ (polarAt w (ρ, θ)) := by
  have hp := Real.pi_pos
  have h1 : ∫ y in Metric.ball w r, φ y = ∫ y, (Metric.ball (0 : ℂ) r).indicator (fun y => φ (w + y)) y := by
    rw [← integral_indicator Metric.isOpen_ball.measurableSet, ← integral_add_left_eq_self _ w]
    congr 1
    ext y
    by_cases h : y ∈ Metric.ball (0 : ℂ) r
    · rw [indicator_of_mem h, indicator_of_mem (by simpa using h)]
    · rw [indicator_of_notMem h, indicator_of_notMem (by simpa using h)]
  have hpol : ∀ p : ℝ × ℝ, Complex.polarCoord.symm p = p.1 * exp (p.2 * I) := by
    intro p
    rw [Complex.polarCoord_symm_apply, ofReal_cos, ofReal_sin, ← exp_mul_I]
  have h2 : ∫ y, (Metric.ball (0 : ℂ) r).indicator (fun y => φ (w + y)) y
      = ∫ p in Ioc 0 r ×ˢ Ioc (-Real.pi) Real.pi, p.1 * φ (polarAt w p) := by
    rw [← Complex.integral_comp_polarCoord_symm, polarCoord_target]
    have hae : (Ioc 0 r ×ˢ Ioc (-Real.pi) Real.pi : Set (ℝ × ℝ)) =ᵐ[volume] (Ioo 0 r ×ˢ Ioo (-Real.pi) Real.pi : Set (ℝ × ℝ)) :=
      (Measure.set_prod_ae_eq Ioo_ae_eq_Ioc Ioo_ae_eq_Ioc).symm
    rw [setIntegral_congr_set hae, ← integral_indicator (measurableSet_Ioi.prod measurableSet_Ioo),
      ← integral_indicator (measurableSet_Ioo.prod measurableSet_Ioo)]
    congr 1
    ext p
    by_cases hp1 : p ∈ Ioo 0 r ×ˢ Ioo (-Real.pi) Real.pi
    · have hp2 : p ∈ Ioi (0 : ℝ) ×ˢ Ioo (-Real.pi) Real.pi := ⟨hp1.1.1, hp1.2⟩
      rw [indicator_of_mem hp1, indicator_of_mem hp2, indicator_of_mem, hpol, smul_eq_mul, polarAt]
      rw [mem_ball_zero_iff, Complex.norm_polarCoord_symm, abs_of_pos hp1.1.1]
      exact hp1.1.2
    · rw [indicator_of_notMem hp1]
      by_cases hp2 : p ∈ Ioi (0 : ℝ) ×ˢ Ioo (-Real.pi) Real.pi
      · rw [indicator_of_mem hp2, indicator_of_notMem, smul_zero]
        rw [mem_ball_zero_iff, Complex.norm_polarCoord_symm, abs_of_pos hp2.1]
        exact fun h => hp1 ⟨⟨hp2.1, h⟩, hp2.2⟩
      · rw [indicator_of_notMem hp2]
  rw [h1, h2, Measure.volume_eq_prod, setIntegral_prod]
  · rw [intervalIntegral.integral_of_le hr.le]
    congr 1
    ext ρ
    rw [intervalIntegral.integral_of_le (by linarith)]
  · have hc : ContinuousOn (fun p : ℝ × ℝ => p.1 * φ (polarAt w p)) (Icc 0 r ×ˢ Icc (-Real.pi) Real.pi) := by
      refine continuous_fst.continuousOn.mul (hφ.comp (contDiff_polarAt w).continuous.continuousOn fun p hp => ?_)
      rw [Metric.mem_closedBall, dist_eq_norm, polarAt, add_sub_cancel_left, norm_mul, norm_exp_ofReal_mul_I, mul_one, norm_real,
        Real.norm_of_nonneg hp.1.1]
      exact hp.1.2
    exact (hc.integrableOn_compact (isCompact_Icc.prod isCompact_Icc)).mono_set
      (prod_mono Ioc_subset_Icc_self Ioc_subset_Icc_self)

/-- Green's theorem for the image of a circle. -/
theorem green_disc (g : ℂ → ℂ) (w : ℂ) (r R : ℝ) (hr : 0 < r) (hrR : r < R) (hg : ∀ y ∈ Metric.ball w R, ContDiffAt ℝ 2 g y) :
    ∫ θ in (-Real.pi)..Real.pi, (conj (g (polarAt w (r, θ))) * deriv (fun t : ℝ => g (polarAt w (r, t))) θ).im
      = 2 * ∫ y in Metric.ball w r, (fderiv ℝ g y).det := by
  have hp := Real.pi_pos
  set G : ℝ × ℝ → ℂ := fun p => g (polarAt w p) with hG
  have hsm : ∀ p : ℝ × ℝ, |p.1| < R → ContDiffAt ℝ 2 G p := fun p hp =>
    ContDiffAt.comp (g := g) p (hg _ (polarAt_mem w R p hp)) (contDiff_polarAt w).contDiffAt
  have hfd : ∀ p : ℝ × ℝ, |p.1| < R → ∀ v, fderiv ℝ G p v = fderiv ℝ g (polarAt w p) (fderiv ℝ (polarAt w) p v) := by
    intro p hp v
    have h1 : HasFDerivAt G ((fderiv ℝ g (polarAt w p)).comp (fderiv ℝ (polarAt w) p)) p :=
      HasFDerivAt.comp (g := g) p ((hg _ (polarAt_mem w R p hp)).differentiableAt (by norm_num)).hasFDerivAt
        ((contDiff_polarAt w).differentiable (by norm_num) p).hasFDerivAt
    rw [h1.fderiv]; rfl
  have hrect : ∀ p : ℝ × ℝ, p ∈ uIcc (0 : ℝ) r ×ˢ uIcc (-Real.pi) Real.pi → |p.1| < R := by
    intro p hp
    rw [uIcc_of_le hr.le] at hp
    rw [abs_of_nonneg hp.1.1]; exact hp.1.2.trans_lt hrR
  have hrect' : ∀ p : ℝ × ℝ, p ∈ Ioo (min 0 r) (max 0 r) ×ˢ Ioo (min (-Real.pi) Real.pi) (max (-Real.pi) Real.pi) → |p.1| < R := by
    intro p hp
    rw [min_eq_left hr.le, max_eq_right hr.le] at hp
    rw [abs_of_pos hp.1.1]; exact hp.1.2.trans hrR
  -- the divergence
  have hdiv : ∀ p : ℝ × ℝ, |p.1| < R → fderiv ℝ (crossForm G (0, 1)) p (1, 0) + (-fderiv ℝ (crossForm G (1, 0)) p) (0, 1)
      = 2 * (p.1 * (fderiv ℝ g (polarAt w p)).det) := by
    intro p hp
    have hsym : fderiv ℝ (fderiv ℝ G) p (1, 0) (0, 1) = fderiv ℝ (fderiv ℝ G) p (0, 1) (1, 0) :=
      ((hsm p hp).isSymmSndFDerivAt (by simp)).eq (1, 0) (0, 1)
    rw [neg_apply, (crossForm_deriv G p _ (hsm p hp)).2, (crossForm_deriv G p _ (hsm p hp)).2, hsym,
      hfd p hp, hfd p hp, cross_complex, cross_complex, (fderiv_polarAt w p).1, (fderiv_polarAt w p).2]
    have e1 : (conj (exp (p.2 * I)) * (p.1 * exp (p.2 * I) * I)).im = p.1 := by
      have : conj (exp (p.2 * I)) * (p.1 * exp (p.2 * I) * I) = p.1 * (conj (exp (p.2 * I)) * exp (p.2 * I)) * I := by ring
      rw [this, conj_mul', norm_exp_ofReal_mul_I]; simp
    have e2 : (conj (p.1 * exp (p.2 * I) * I) * exp (p.2 * I)).im = -p.1 := by
      have : conj (p.1 * exp (p.2 * I) * I) * exp (p.2 * I) = -(p.1 * (conj (exp (p.2 * I)) * exp (p.2 * I)) * I) := by
        simp only [map_mul, conj_ofReal, conj_I]; ring
      rw [this, conj_mul', norm_exp_ofReal_mul_I]; simp
    rw [e1, e2]; ring
  have hdc : ContinuousOn (fun y => (fderiv ℝ g y).det) (Metric.ball w R) := by
    intro y hy
    have h1 : ContinuousAt (fderiv ℝ g) y := ((hg y hy).fderiv_right (m := 1) (by norm_num)).continuousAt
    have h2 : (fun y => (fderiv ℝ g y).det) = fun y => (conj (fderiv ℝ g y 1) * fderiv ℝ g y I).im := by
      ext y; exact det_complex _
    rw [h2]
    have h3 : ∀ v : ℂ, ContinuousAt (fun y => fderiv ℝ g y v) y := fun v => h1.clm_apply continuousAt_const
    exact (continuous_im.continuousAt.comp (((continuous_conj.continuousAt).comp (h3 1)).mul (h3 I))).continuousWithinAt
  have hgreen := integral2_divergence_prod_of_hasFDerivAt (crossForm G (0, 1)) (fun p => -crossForm G (1, 0) p)
    (fun p => fderiv ℝ (crossForm G (0, 1)) p) (fun p => -fderiv ℝ (crossForm G (1, 0)) p) 0 (-Real.pi) r Real.pi
    (fun p hp => (crossForm_deriv G p _ (hsm p (hrect p hp))).1.continuousAt.continuousWithinAt)
    (fun p hp => (crossForm_deriv G p _ (hsm p (hrect p hp))).1.continuousAt.neg.continuousWithinAt)
    (fun p hp => ((crossForm_deriv G p _ (hsm p (hrect' p hp))).1.differentiableAt (by norm_num)).hasFDerivAt)
    (fun p hp => ((crossForm_deriv G p _ (hsm p (hrect' p hp))).1.differentiableAt (by norm_num)).hasFDerivAt.neg)
    (by
      have hc : ContinuousOn (fun p : ℝ × ℝ => 2 * (p.1 * (fderiv ℝ g (polarAt w p)).det)) (uIcc (0 : ℝ) r ×ˢ uIcc (-Real.pi) Real.pi) :=
        continuousOn_const.mul (continuous_fst.continuousOn.mul
          (hdc.comp (contDiff_polarAt w).continuous.continuousOn fun p hp => polarAt_mem w R p (hrect p hp)))
      have hc' := hc.congr fun p hp => hdiv p (hrect p hp)
      exact hc'.integrableOn_compact (isCompact_uIcc.prod isCompact_uIcc))
  -- the boundary terms
  have hper : ∀ ρ : ℝ, |ρ| < R → crossForm G (1, 0) (ρ, Real.pi) = crossForm G (1, 0) (ρ, -Real.pi) := by
    intro ρ hρ
    have e : polarAt w (ρ, Real.pi) = polarAt w (ρ, -Real.pi) := by
      simp only [polarAt]
      congr 2
      rw [exp_eq_exp_iff_exists_int]
      exact ⟨1, by push_cast; ring⟩
    have e' : exp ((Real.pi : ℂ) * I) = exp (((-Real.pi : ℝ) : ℂ) * I) := by
      rw [exp_eq_exp_iff_exists_int]
      exact ⟨1, by push_cast; ring⟩
    unfold crossForm
    rw [hfd _ hρ, hfd _ hρ, (fderiv_polarAt w _).1, (fderiv_polarAt w _).1, hG]
    simp only [e, e']
  have hzero : ∀ θ : ℝ, crossForm G (0, 1) (0, θ) = 0 := by
    intro θ
    unfold crossForm
    rw [hfd _ (by simpa using hr.trans hrR), (fderiv_polarAt w _).2]
    simp
  have hder : ∀ θ : ℝ, crossForm G (0, 1) (r, θ)
      = (conj (g (polarAt w (r, θ))) * deriv (fun t : ℝ => g (polarAt w (r, t))) θ).im := by
    intro θ
    have hr' : |r| < R := by rw [abs_of_pos hr]; exact hrR
    have hd : HasFDerivAt G (fderiv ℝ G (r, θ)) (r, θ) := ((hsm (r, θ) hr').differentiableAt (by norm_num)).hasFDerivAt
    have hl : HasDerivAt (fun t : ℝ => ((r, t) : ℝ × ℝ)) (0, 1) θ := (hasDerivAt_const θ r).prodMk (hasDerivAt_id θ)
    have h1 := HasFDerivAt.comp_hasDerivAt (f := fun t : ℝ => ((r, t) : ℝ × ℝ)) θ hd hl
    have h2 : deriv (fun t : ℝ => g (polarAt w (r, t))) θ = fderiv ℝ G (r, θ) (0, 1) := h1.deriv
    rw [h2]; rfl
  have hleft : (∫ x in (0 : ℝ)..r, ∫ y in (-Real.pi)..Real.pi, fderiv ℝ (crossForm G (0, 1)) (x, y) (1, 0)
      + (-fderiv ℝ (crossForm G (1, 0)) (x, y)) (0, 1)) = 2 * ∫ y in Metric.ball w r, (fderiv ℝ g y).det := by
    rw [integral_disc_polar w r hr _ (hdc.mono (Metric.closedBall_subset_ball hrR)), ← intervalIntegral.integral_const_mul]
    refine intervalIntegral.integral_congr fun ρ hρ => ?_
    rw [uIcc_of_le hr.le] at hρ
    rw [← intervalIntegral.integral_const_mul]
    refine intervalIntegral.integral_congr fun θ _ => ?_
    exact hdiv (ρ, θ) (by rw [abs_of_nonneg hρ.1]; exact hρ.2.trans_lt hrR)
  rw [hleft] at hgreen
  rw [hgreen]
  have e1 : (∫ x in (0 : ℝ)..r, -crossForm G (1, 0) (x, Real.pi)) = ∫ x in (0 : ℝ)..r, -crossForm G (1, 0) (x, -Real.pi) := by
    refine intervalIntegral.integral_congr fun ρ hρ => ?_
    rw [uIcc_of_le hr.le] at hρ
    rw [hper ρ (by rw [abs_of_nonneg hρ.1]; exact hρ.2.trans_lt hrR)]
  rw [e1, sub_self, zero_add]
  simp only [hzero, intervalIntegral.integral_zero, sub_zero, hder]

end Microjax.Props
