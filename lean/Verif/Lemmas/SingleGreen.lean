import Verif.Lemmas.GreenWeight
import Verif.Props.DiscAverage
import Verif.Props.PointSource
import Mathlib.Analysis.SpecialFunctions.Pow.Deriv

/-!
# The magnification of a disc behind a single lens as an integral along its limb

The field `sqrt(1 + 4/|y|²) y / 2` has the point-source magnification as its divergence.  It is singular at the lens; the
regularised fields `sqrt((s + 4)/(s + ε)) y / 2`, `s = |y|²`, are smooth, and the integrals over the disc converge because
the magnification is integrable.  The lens may lie inside or outside the disc.
-/

noncomputable section

namespace Microjax.Spec

open Complex ComplexConjugate MeasureTheory Set Filter Topology Microjax.Props

/-- `sqrt((s + 4)/(s + ε))` -/
def regGain (ε s : ℝ) : ℝ := Real.sqrt (s + 4) / Real.sqrt (s + ε)

/-- the divergence of the regularised field -/
def regMag (ε s : ℝ) : ℝ := regGain ε s * (1 + s / 2 * (1 / (s + 4) - 1 / (s + ε)))

theorem hasDerivAt_regGain (ε s : ℝ) (hs : 0 ≤ s) (hε : 0 < ε) :
    HasDerivAt (regGain ε) (regGain ε s * (1 / 2 * (1 / (s + 4) - 1 / (s + ε)))) s := by
  have h4 : 0 < s + 4 := by linarith
  have he : 0 < s + ε := by linarith
  have d4 : HasDerivAt (fun s : ℝ => Real.sqrt (s + 4)) (1 / (2 * Real.sqrt (s + 4))) s :=
    ((hasDerivAt_id s).add_const 4).sqrt h4.ne'
  have de : HasDerivAt (fun s : ℝ => Real.sqrt (s + ε)) (1 / (2 * Real.sqrt (s + ε))) s :=
    ((hasDerivAt_id s).add_const ε).sqrt he.ne'
  have p4 : 0 < Real.sqrt (s + 4) := Real.sqrt_pos.mpr h4
  have pe : 0 < Real.sqrt (s + ε) := Real.sqrt_pos.mpr he
  refine (d4.fun_div de pe.ne').congr_deriv ?_
  unfold regGain
  have e4 : s + 4 = Real.sqrt (s + 4) ^ 2 := (Real.sq_sqrt h4.le).symm
  have ee : s + ε = Real.sqrt (s + ε) ^ 2 := (Real.sq_sqrt he.le).symm
  rw [show (1 : ℝ) / (s + 4) = 1 / Real.sqrt (s + 4) ^ 2 by rw [← e4],
    show (1 : ℝ) / (s + ε) = 1 / Real.sqrt (s + ε) ^ 2 by rw [← ee]]
  field_simp

theorem hasFDerivAt_normsq (z : ℂ) :
    HasFDerivAt (fun z : ℂ => z.re ^ 2 + z.im ^ 2) ((2 * z.re) • reCLM + (2 * z.im) • imCLM) z := by
  have h1 : HasFDerivAt (fun z : ℂ => z.re) reCLM z := reCLM.hasFDerivAt
  have h2 : HasFDerivAt (fun z : ℂ => z.im) imCLM z := imCLM.hasFDerivAt
  refine ((h1.pow 2).add (h2.pow 2)).congr_fderiv ?_
  simp

theorem normsq_nonneg (z : ℂ) : 0 ≤ z.re ^ 2 + z.im ^ 2 := by positivity

theorem contDiff_regGain (ε : ℝ) (hε : 0 < ε) : ContDiff ℝ 1 fun z : ℂ => regGain ε (z.re ^ 2 + z.im ^ 2) := by
  unfold regGain
  have hn : ContDiff ℝ 1 fun z : ℂ => z.re ^ 2 + z.im ^ 2 := (contDiff_re'.pow 2).add (contDiff_im'.pow 2)
  refine ContDiff.div ((hn.add contDiff_const).sqrt fun z => ?_) ((hn.add contDiff_const).sqrt fun z => ?_) fun z => ?_
  · have := normsq_nonneg z; positivity
  · have := normsq_nonneg z; positivity
  · have := normsq_nonneg z
    exact (Real.sqrt_pos.mpr (by linarith)).ne'

theorem curl_regGain (ε : ℝ) (hε : 0 < ε) (z : ℂ) :
    curl (fun z : ℂ => -(1 / 2) * (regGain ε (z.re ^ 2 + z.im ^ 2) * z.im))
      (fun z : ℂ => (1 / 2) * (regGain ε (z.re ^ 2 + z.im ^ 2) * z.re)) z = regMag ε (z.re ^ 2 + z.im ^ 2) := by
  have hG := (hasDerivAt_regGain ε _ (normsq_nonneg z) hε).comp_hasFDerivAt z (hasFDerivAt_normsq z)
  have h1 : HasFDerivAt (fun z : ℂ => z.re) reCLM z := reCLM.hasFDerivAt
  have h2 : HasFDerivAt (fun z : ℂ => z.im) imCLM z := imCLM.hasFDerivAt
  have hQ := (hG.mul h1).const_mul (1 / 2 : ℝ)
  have hP := (hG.mul h2).const_mul (-(1 / 2) : ℝ)
  unfold curl
  have eQ : fderiv ℝ (fun z : ℂ => (1 / 2) * (regGain ε (z.re ^ 2 + z.im ^ 2) * z.re)) z = _ := hQ.fderiv
  have eP : fderiv ℝ (fun z : ℂ => -(1 / 2) * (regGain ε (z.re ^ 2 + z.im ^ 2) * z.im)) z = _ := hP.fderiv
  rw [eQ, eP]
  simp [regMag]
  ring

theorem regMag_zero (z : ℂ) (hz : z ≠ 0) : regMag 0 (z.re ^ 2 + z.im ^ 2) = pointMag single z := by
  rw [C02_true_single_mag z hz]
  have hn : z.re ^ 2 + z.im ^ 2 = ‖z‖ ^ 2 := by rw [← normSq_eq_norm_sq, normSq_apply]; ring
  rw [hn]
  have hp : 0 < ‖z‖ := norm_pos_iff.mpr hz
  unfold regMag regGain paczynski
  rw [add_zero, Real.sqrt_sq hp.le]
  have h4 : 0 < Real.sqrt (‖z‖ ^ 2 + 4) := Real.sqrt_pos.mpr (by positivity)
  have e4 : ‖z‖ ^ 2 + 4 = Real.sqrt (‖z‖ ^ 2 + 4) ^ 2 := (Real.sq_sqrt (by positivity)).symm
  set q := Real.sqrt (‖z‖ ^ 2 + 4) with hq
  rw [e4]
  have e2 : ‖z‖ ^ 2 = q ^ 2 - 4 := by linarith
  field_simp
  nlinarith

theorem regMag_le (ε s : ℝ) (hs : 0 < s) (h0 : 0 < ε) (h1 : ε ≤ 1) : |regMag ε s| ≤ 2 * regMag 0 s := by
  have p4 : 0 < Real.sqrt (s + 4) := Real.sqrt_pos.mpr (by linarith)
  have pe : 0 < Real.sqrt (s + ε) := Real.sqrt_pos.mpr (by linarith)
  have p0 : 0 < Real.sqrt (s + 0) := Real.sqrt_pos.mpr (by linarith)
  have g0 : 0 < regGain ε s := div_pos p4 pe
  have g1 : regGain ε s ≤ regGain 0 s := by
    unfold regGain
    exact div_le_div_of_nonneg_left p4.le p0 (Real.sqrt_le_sqrt (by linarith))
  have b0 : 0 ≤ 1 + s / 2 * (1 / (s + 4) - 1 / (s + ε)) := by
    have : s / 2 * (1 / (s + ε)) ≤ 1 / 2 := by
      rw [mul_one_div, div_le_div_iff₀ (by linarith) (by norm_num)]; linarith
    have : 0 ≤ s / 2 * (1 / (s + 4)) := by positivity
    nlinarith
  have b1 : 1 + s / 2 * (1 / (s + 4) - 1 / (s + ε)) ≤ 1 := by
    have : 1 / (s + 4) ≤ 1 / (s + ε) := one_div_le_one_div_of_le (by linarith) (by linarith)
    nlinarith
  have b2 : 1 / 2 ≤ 1 + s / 2 * (1 / (s + 4) - 1 / (s + 0)) := by
    have : s / 2 * (1 / (s + 0)) = 1 / 2 := by rw [add_zero]; field_simp
    have : 0 ≤ s / 2 * (1 / (s + 4)) := by positivity
    nlinarith
  unfold regMag
  rw [abs_of_nonneg (mul_nonneg g0.le b0)]
  nlinarith [mul_le_mul_of_nonneg_left b1 g0.le, mul_le_mul_of_nonneg_left b2 (g0.trans_le g1).le]

theorem tendsto_regMag (s : ℝ) (hs : 0 < s) : Tendsto (fun n : ℕ => regMag (1 / ((n : ℝ) + 1)) s) atTop (𝓝 (regMag 0 s)) := by
  have hc : ContinuousAt (fun ε : ℝ => regMag ε s) 0 := by
    unfold regMag regGain
    have h1 : Real.sqrt (s + 0) ≠ 0 := (Real.sqrt_pos.mpr (by linarith)).ne'
    have h2 : s + 0 ≠ 0 := by linarith
    fun_prop (disch := assumption)
  exact hc.tendsto.comp tendsto_one_div_add_atTop_nhds_zero_nat

/-- The images of a disc behind a single lens, as an integral along the limb. -/
theorem single_limb_integral (w : ℂ) (rho : ℝ) (hrho : 0 < rho) (hw : ‖w‖ ≠ rho) (v : ℝ → ℂ)
    (hv : v = fun t => polarAt w (rho, t)) :
    (1 / 2) * ∫ t in (-Real.pi)..Real.pi, regGain 0 ((v t).re ^ 2 + (v t).im ^ 2) * (conj (v t) * deriv v t).im
      = ∫ y in Metric.ball w rho, pointMag single y := by
  have hvs : ContDiff ℝ 2 v := by
    rw [hv]; exact (contDiff_polarAt w).comp (contDiff_const.prodMk contDiff_id)
  have hv0 : ∀ t, 0 < (v t).re ^ 2 + (v t).im ^ 2 := by
    intro t
    have hne : v t ≠ 0 := by
      intro h
      apply hw
      rw [hv] at h
      simp only [polarAt] at h
      have : w = -(rho * exp (t * I)) := eq_neg_of_add_eq_zero_left h
      rw [this, norm_neg, norm_mul, norm_exp_ofReal_mul_I, norm_real, Real.norm_eq_abs, abs_of_pos hrho, mul_one]
    have := normSq_pos.mpr hne
    rw [normSq_apply] at this
    nlinarith
  set F : ℝ → ℝ → ℝ := fun ε t => regGain ε ((v t).re ^ 2 + (v t).im ^ 2) * (conj (v t) * deriv v t).im with hF
  -- the limit of the limb integrals
  have hcont : Continuous fun ε : ℝ => ∫ t in (-Real.pi)..Real.pi, F |ε| t := by
    refine intervalIntegral.continuous_parametric_intervalIntegral_of_continuous' ?_ _ _
    have hvc := hvs.continuous
    have hdc : Continuous (deriv v) := hvs.continuous_deriv (by norm_num)
    have hre : Continuous fun p : ℝ × ℝ => (v p.2).re ^ 2 + (v p.2).im ^ 2 := by fun_prop
    have him : Continuous fun p : ℝ × ℝ => (conj (v p.2) * deriv v p.2).im := by fun_prop
    simp only [Function.uncurry_def, hF, regGain]
    refine Continuous.mul (Continuous.div ?_ ?_ fun p => ?_) him
    · exact (hre.add continuous_const).sqrt
    · exact (hre.add continuous_fst.abs).sqrt
    · exact (Real.sqrt_pos.mpr (by have := hv0 p.2; have := abs_nonneg p.1; linarith)).ne'
  have hlim1 : Tendsto (fun n : ℕ => ∫ t in (-Real.pi)..Real.pi, F (1 / ((n : ℝ) + 1)) t) atTop
      (𝓝 (∫ t in (-Real.pi)..Real.pi, F 0 t)) := by
    have h := (hcont.tendsto 0).comp tendsto_one_div_add_atTop_nhds_zero_nat
    simp only [abs_zero] at h
    refine h.congr fun n => ?_
    simp only [Function.comp]
    rw [abs_of_pos (by positivity)]
  -- the limit of the disc integrals
  have hint := integrableOn_pointMag single w rho
  have hlim2 : Tendsto (fun n : ℕ => ∫ y in Metric.ball w rho, regMag (1 / ((n : ℝ) + 1)) (y.re ^ 2 + y.im ^ 2)) atTop
      (𝓝 (∫ y in Metric.ball w rho, pointMag single y)) := by
    have hae : ∀ᵐ y : ℂ, y ≠ 0 := by
      rw [ae_iff]
      simp
    refine tendsto_integral_of_dominated_convergence (fun y => 2 * pointMag single y) ?_ (hint.const_mul 2) ?_ ?_
    · intro n
      have : Measurable fun y : ℂ => regMag (1 / ((n : ℝ) + 1)) (y.re ^ 2 + y.im ^ 2) := by
        unfold regMag regGain
        fun_prop
      exact this.aestronglyMeasurable
    · intro n
      filter_upwards [ae_restrict_of_ae hae] with y hy
      have hs : 0 < y.re ^ 2 + y.im ^ 2 := by
        have := normSq_pos.mpr hy
        rw [normSq_apply] at this
        nlinarith
      rw [Real.norm_eq_abs, ← regMag_zero y hy]
      refine regMag_le _ _ hs (by positivity) ?_
      rw [div_le_one (by positivity)]
      have : (0 : ℝ) ≤ n := by positivity
      linarith
    · filter_upwards [ae_restrict_of_ae hae] with y hy
      have hs : 0 < y.re ^ 2 + y.im ^ 2 := by
        have := normSq_pos.mpr hy
        rw [normSq_apply] at this
        nlinarith
      rw [← regMag_zero y hy]
      exact tendsto_regMag _ hs
  -- Green
  have hgreen : ∀ n : ℕ, (1 / 2) * ∫ t in (-Real.pi)..Real.pi, F (1 / ((n : ℝ) + 1)) t
      = ∫ y in Metric.ball w rho, regMag (1 / ((n : ℝ) + 1)) (y.re ^ 2 + y.im ^ 2) := by
    intro n
    have hε : 0 < 1 / ((n : ℝ) + 1) := by positivity
    set ε := 1 / ((n : ℝ) + 1) with hεd
    have h := green_form (fun z : ℂ => -(1 / 2) * (regGain ε (z.re ^ 2 + z.im ^ 2) * z.im))
      (fun z : ℂ => (1 / 2) * (regGain ε (z.re ^ 2 + z.im ^ 2) * z.re))
      (contDiff_const.mul ((contDiff_regGain ε hε).mul contDiff_im'))
      (contDiff_const.mul ((contDiff_regGain ε hε).mul contDiff_re')) id w rho (rho + 1) hrho (by linarith)
      (fun y _ => contDiffAt_id)
    simp only [id, curl_regGain ε hε] at h
    have hfd : ∀ y : ℂ, (fderiv ℝ (id : ℂ → ℂ) y).det = 1 := by
      intro y
      rw [fderiv_id]
      simp [ContinuousLinearMap.det]
    simp only [hfd, mul_one] at h
    rw [← h, ← intervalIntegral.integral_const_mul]
    refine intervalIntegral.integral_congr fun t _ => ?_
    simp only [hF, hv, mul_im, conj_re, conj_im]
    ring
  have h3 := (hlim1.const_mul (1 / 2))
  simp only [hgreen] at h3
  exact tendsto_nhds_unique h3 hlim2

end Microjax.Spec
