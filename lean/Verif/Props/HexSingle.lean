import Verif.Lemmas.PaczynskiRadial
import Verif.Props.ContourSingleDark
import Verif.Props.SmallSource
import Verif.Props.Lightcurve

/-!
# C134: the single-lens light curve of `caustics/lightcurve.py`
-/

noncomputable section

namespace Microjax.Props

open Complex ComplexConjugate Microjax.Spec Microjax.PointSource Microjax.Multipole Microjax.Lightcurve Contour MeasureTheory Set
  Filter
open scoped Topology

/-! ### The disc mean of Paczynski's magnification -/

theorem ringSq_norm (w : ℂ) (r θ : ℝ) : ringSq w.re w.im r θ = ‖w + r * exp (I * θ)‖ ^ 2 := by
  rw [← normSq_eq_norm_sq, normSq_apply, mul_comm I, exp_mul_I]
  simp [ringSq, ← ofReal_cos, ← ofReal_sin]
  ring

theorem ringSq_ge (w : ℂ) (ρ r θ : ℝ) (h : ρ < ‖w‖) (hr : r ∈ Icc 0 ρ) : (‖w‖ - ρ) ^ 2 ≤ ringSq w.re w.im r θ := by
  rw [ringSq_norm]
  have h1 : ‖w‖ - ‖(r : ℂ) * exp (I * θ)‖ ≤ ‖w + r * exp (I * θ)‖ := by
    have := norm_sub_norm_le w (-((r : ℂ) * exp (I * θ)))
    rwa [norm_neg, sub_neg_eq_add] at this
  rw [norm_mul, mul_comm I, norm_exp_ofReal_mul_I, mul_one, Complex.norm_of_nonneg hr.1, mul_comm (θ : ℂ)] at h1
  exact pow_le_pow_left₀ (by linarith) (by linarith [hr.2]) 2

/-- The fourth-order expansion of the mean of Paczynski's magnification over the disc of radius `ρ` about `w`. -/
def hexValue (w : ℂ) (ρ : ℝ) : ℝ := pacz (‖w‖ ^ 2) + lap1 (‖w‖ ^ 2) / 8 * ρ ^ 2 + lap2 (‖w‖ ^ 2) / 192 * ρ ^ 4

theorem disc_circ (w : ℂ) (ρ : ℝ) (h0 : 0 ≤ ρ) (h : ρ < ‖w‖) :
    discIntegral 0 (fun y => paczynski ‖y‖) w ρ = ∫ r in (0 : ℝ)..1, r * circ pacz w.re w.im (ρ * r) := by
  unfold discIntegral
  refine intervalIntegral.integral_congr fun r hr => ?_
  rw [uIcc_of_le zero_le_one] at hr
  simp only [brightness, zero_mul, sub_zero, one_mul]
  rw [intervalIntegral.integral_mul_const, mul_comm]
  congr 1
  unfold circ
  refine intervalIntegral.integral_congr fun θ _ => ?_
  have h1 := ringSq_ge w ρ (ρ * r) θ h ⟨mul_nonneg h0 hr.1, by nlinarith [hr.2]⟩
  rw [ringSq_norm, ofReal_mul] at h1
  rw [ringSq_norm, ofReal_mul, pacz_norm]
  refine norm_pos_iff.mpr fun hz => ?_
  rw [hz, norm_zero] at h1
  have : 0 < ‖w‖ - ρ := by linarith
  nlinarith

theorem disc_sandwich (w : ℂ) (ρ k K : ℝ) (h0 : 0 ≤ ρ) (h : ρ < ‖w‖)
    (hk : ∀ r ∈ Icc 0 ρ, ∀ θ, k ≤ radLap lap21 lap22 (ringSq w.re w.im r θ))
    (hK : ∀ r ∈ Icc 0 ρ, ∀ θ, radLap lap21 lap22 (ringSq w.re w.im r θ) ≤ K) :
    Real.pi * (k / 9216 * ρ ^ 6) ≤ discIntegral 0 (fun y => paczynski ‖y‖) w ρ - Real.pi * hexValue w ρ ∧
      discIntegral 0 (fun y => paczynski ‖y‖) w ρ - Real.pi * hexValue w ρ ≤ Real.pi * (K / 9216 * ρ ^ 6) := by
  have hw : w.re ^ 2 + w.im ^ 2 = ‖w‖ ^ 2 := normsq_eq w
  have hw0 : 0 < ‖w‖ ^ 2 := by have : 0 < ‖w‖ := by linarith
                               positivity
  have hexp := ring_expansion pacz pacz1 pacz2 lap11 lap12 lap21 lap22 pacz_twice lap1_twice lap2_twice w.re w.im ‖w‖ ρ k K h h0
    hw.ge hk hK
  rw [hw, lap1_eq _ hw0, lap2_eq _ hw0] at hexp
  have hcc : ContinuousOn (fun r => r * circ pacz w.re w.im (ρ * r)) (uIcc 0 1) := by
    rw [uIcc_of_le zero_le_one]
    intro r hr
    have hd := (ring_deriv pacz_twice w.re w.im ‖w‖ (norm_nonneg w) hw.ge (ρ * r)
      ⟨by nlinarith [hr.1, norm_nonneg w], by nlinarith [hr.2]⟩).continuousAt
    exact (continuousAt_id.mul (ContinuousAt.comp (g := circ pacz w.re w.im) hd (by fun_prop))).continuousWithinAt
  have hpoly : ∀ c : ℝ, (∫ r in (0 : ℝ)..1, r * (2 * Real.pi * (pacz (‖w‖ ^ 2) + lap1 (‖w‖ ^ 2) / 4 * (ρ * r) ^ 2
      + lap2 (‖w‖ ^ 2) / 64 * (ρ * r) ^ 4 + c / 2304 * (ρ * r) ^ 6))) = Real.pi * hexValue w ρ + Real.pi * (c / 9216 * ρ ^ 6) := by
    intro c
    have e : ∀ r : ℝ, r * (2 * Real.pi * (pacz (‖w‖ ^ 2) + lap1 (‖w‖ ^ 2) / 4 * (ρ * r) ^ 2
      + lap2 (‖w‖ ^ 2) / 64 * (ρ * r) ^ 4 + c / 2304 * (ρ * r) ^ 6)) = 2 * Real.pi * pacz (‖w‖ ^ 2) * r ^ 1
      + 2 * Real.pi * (lap1 (‖w‖ ^ 2) / 4) * ρ ^ 2 * r ^ 3 + 2 * Real.pi * (lap2 (‖w‖ ^ 2) / 64) * ρ ^ 4 * r ^ 5
      + 2 * Real.pi * (c / 2304) * ρ ^ 6 * r ^ 7 := fun r => by ring
    simp only [e]
    have hi : ∀ (b : ℝ) (n : ℕ), IntervalIntegrable (fun r : ℝ => b * r ^ n) volume 0 1 := fun b n =>
      Continuous.intervalIntegrable (by fun_prop) _ _
    rw [intervalIntegral.integral_add (((hi _ _).add (hi _ _)).add (hi _ _)) (hi _ _),
      intervalIntegral.integral_add ((hi _ _).add (hi _ _)) (hi _ _), intervalIntegral.integral_add (hi _ _) (hi _ _)]
    simp only [intervalIntegral.integral_const_mul, integral_pow]
    unfold hexValue
    push_cast
    ring
  have hpi : ∀ c : ℝ, IntervalIntegrable (fun r => r * (2 * Real.pi * (pacz (‖w‖ ^ 2) + lap1 (‖w‖ ^ 2) / 4 * (ρ * r) ^ 2
      + lap2 (‖w‖ ^ 2) / 64 * (ρ * r) ^ 4 + c / 2304 * (ρ * r) ^ 6))) volume 0 1 := fun c =>
    Continuous.intervalIntegrable (by fun_prop) _ _
  have hin : ∀ r ∈ Icc (0 : ℝ) 1, ρ * r ∈ Icc 0 ρ := fun r hr => ⟨mul_nonneg h0 hr.1, by nlinarith [hr.2]⟩
  rw [disc_circ w ρ h0 h]
  have u := intervalIntegral.integral_mono_on zero_le_one hcc.intervalIntegrable (hpi K) fun r hr => by
    have := (hexp (ρ * r) (hin r hr)).2
    exact mul_le_mul_of_nonneg_left (by linarith) hr.1
  have l := intervalIntegral.integral_mono_on zero_le_one (hpi k) hcc.intervalIntegrable fun r hr => by
    have := (hexp (ρ * r) (hin r hr)).1
    exact mul_le_mul_of_nonneg_left (by linarith) hr.1
  rw [hpoly] at u l
  constructor <;> linarith

/-- The finite-source magnification exceeds its fourth-order expansion, by at most `ρ⁶ / (12 (|w| - ρ)⁷)`. -/
theorem disc_hex (w : ℂ) (ρ : ℝ) (h0 : 0 < ρ) (h : ρ < ‖w‖) :
    Real.pi * hexValue w ρ < discIntegral 0 (fun y => paczynski ‖y‖) w ρ ∧
      discIntegral 0 (fun y => paczynski ‖y‖) w ρ - Real.pi * hexValue w ρ ≤ Real.pi * (ρ ^ 6 / (12 * (‖w‖ - ρ) ^ 7)) := by
  have hη : 0 < ‖w‖ - ρ := by linarith
  have hK : ∀ r ∈ Icc 0 ρ, ∀ θ, radLap lap21 lap22 (ringSq w.re w.im r θ) ≤ 768 / (‖w‖ - ρ) ^ 7 := fun r hr θ =>
    lap3_le _ _ hη (ringSq_ge w ρ r θ h hr)
  have hub : ∀ r ∈ Icc 0 ρ, ∀ θ, ringSq w.re w.im r θ ≤ (‖w‖ + ρ) ^ 2 := by
    intro r hr θ
    rw [ringSq_norm]
    refine pow_le_pow_left₀ (norm_nonneg _) ((norm_add_le _ _).trans ?_) 2
    rw [norm_mul, mul_comm I, norm_exp_ofReal_mul_I, mul_one, Complex.norm_of_nonneg hr.1]
    linarith [hr.2]
  have hsub : Icc ((‖w‖ - ρ) ^ 2) ((‖w‖ + ρ) ^ 2) ⊆ Ioi 0 := fun s hs => lt_of_lt_of_le (by positivity) hs.1
  obtain ⟨s0, hs0, hmin⟩ := (isCompact_Icc (a := (‖w‖ - ρ) ^ 2) (b := (‖w‖ + ρ) ^ 2)).exists_isMinOn
    ⟨(‖w‖ - ρ) ^ 2, le_rfl, by nlinarith⟩
    (f := radLap lap21 lap22) (by
      have e1 := lap2_twice.c1
      have e2 := lap2_twice.cont
      refine ContinuousOn.mono (s := Ioi 0) ?_ hsub
      unfold radLap
      fun_prop)
  have hk : ∀ r ∈ Icc 0 ρ, ∀ θ, radLap lap21 lap22 s0 ≤ radLap lap21 lap22 (ringSq w.re w.im r θ) := fun r hr θ =>
    hmin ⟨ringSq_ge w ρ r θ h hr, hub r hr θ⟩
  have hpos := lap3_pos s0 (hsub hs0)
  obtain ⟨l, u⟩ := disc_sandwich w ρ _ _ h0.le h hk hK
  have hp := Real.pi_pos
  have : 0 < Real.pi * (radLap lap21 lap22 s0 / 9216 * ρ ^ 6) := by positivity
  refine ⟨by linarith, u.trans_eq ?_⟩
  field_simp
  norm_num

theorem uniform_disc (w : ℂ) (ρ : ℝ) (h0 : 0 < ρ) (h : ρ < ‖w‖) :
    uniformMag single w ρ = discIntegral 0 (fun y => paczynski ‖y‖) w ρ / Real.pi := by
  have hne : ∀ y ∈ Metric.closedBall w ρ, y ≠ 0 := by
    rintro y hy rfl
    rw [Metric.mem_closedBall, dist_eq_norm, zero_sub, norm_neg] at hy
    linarith
  have hc : ContinuousOn (fun y : ℂ => paczynski ‖y‖) (Metric.closedBall w ρ) := by
    unfold paczynski
    refine ContinuousOn.div (by fun_prop) (by fun_prop) fun y hy => ?_
    have := norm_pos_iff.mpr (hne y hy)
    positivity
  have hd := disc_polar (fun y => paczynski ‖y‖) w ρ 0 h0 hc
  have hb : ∀ t, brightness 0 t = 1 := fun t => by simp [brightness]
  simp only [hb, mul_one] at hd
  have hI : ∫ y in Metric.ball w ρ, pointMag single y = ∫ y in Metric.ball w ρ, paczynski ‖y‖ :=
    setIntegral_congr_fun Metric.isOpen_ball.measurableSet fun y hy =>
      C02_true_single_mag y (hne y (Metric.ball_subset_closedBall hy))
  rw [uniformMag_eq_average, setAverage_eq, smul_eq_mul, hI, hd]
  have hv : volume.real (Metric.ball w ρ) = Real.pi * ρ ^ 2 := by
    rw [Measure.real, Complex.volume_ball]
    simp [h0.le]
    ring
  rw [hv]
  have := Real.pi_pos
  field_simp

/-! ### The terms of the code for a single lens -/

theorem single_branch (σ : ℝ) (hσ : σ = 1 ∨ σ = -1) (w : ℂ) (hw : w ≠ 0) : Branch single w (singleBranch σ) := by
  obtain ⟨hs, -⟩ := branch_section σ hσ w
  have hp := norm_pos_iff.mpr hw
  have hmem : w ∈ Metric.ball w ‖w‖ := Metric.mem_ball_self hp
  refine ⟨hs.cont.continuousAt (Metric.ball_mem_nhds w hp), ?_, (hs.img w hmem).1, ?_⟩
  · filter_upwards [Metric.ball_mem_nhds w hp] with y hy
    exact (hs.img y hy).2
  · rw [(jacDet_lensMap single _ (hs.img w hmem).1).2]
    have hr := hs.reg w hmem
    have hz : singleBranch σ w ≠ 0 := norm_pos_iff.mp (branch_radius σ hσ w hw).1
    rw [shear_single _ hz] at hr
    intro hc
    apply hr
    simp [single, norm_pow] at hc
    have h1 : 0 < 1 / ‖singleBranch σ w‖ ^ 2 := by positivity
    have h2 : (1 / ‖singleBranch σ w‖ ^ 2) ^ 2 = 1 := by
      rw [one_div, inv_pow]; linarith
    nlinarith

theorem single_branchMag (σ : ℝ) (hσ : σ = 1 ∨ σ = -1) (y : ℂ) (hy : y ≠ 0) :
    branchMag single (singleBranch σ) y = (σ * paczynski ‖y‖ + 1) / 2 := by
  have hB := single_branch σ hσ y hy
  have hp := norm_pos_iff.mpr hy
  unfold branchMag
  rw [(jacDet_lensMap single _ hB.off).2]
  have hn := norm_branch σ y hy
  obtain ⟨g1, g2, -, g4⟩ := gain_facts y hy
  have e : ‖(single.map fun l => (l.1 : ℂ) / (conj (singleBranch σ y) - conj l.2) ^ 2).sum‖ ^ 2
      = 1 / (‖singleBranch σ y‖ ^ 2) ^ 2 := by simp [single, norm_pow]
  rw [e, hn, sq_abs]
  unfold paczynski
  obtain ⟨u, hu⟩ : ∃ u, u = ‖y‖ := ⟨_, rfl⟩
  obtain ⟨β, hβ⟩ : ∃ β, β = Real.sqrt (‖y‖ ^ 2 + 4) := ⟨_, rfl⟩
  rw [← hβ] at g1 g2 g4 ⊢
  rw [← hu] at g1 g4 hp ⊢
  have hβ0 : 0 < β := by linarith
  have hss : σ * σ = 1 := by rcases hσ with rfl | rfl <;> norm_num
  have hσ0 : σ ≠ 0 := by rcases hσ with rfl | rfl <;> norm_num
  obtain ⟨q, hq⟩ : ∃ q, q = (1 / 2 * (u + σ * β)) ^ 2 := ⟨_, rfl⟩
  have q1 : q = 1 / 2 * (u ^ 2 + 2 + σ * u * β) := by
    rw [hq]; linear_combination (1 / 4) * β ^ 2 * hss + 1 / 4 * g4
  have q2 : q ^ 2 - 1 = q * (σ * u * β) := by
    rw [q1]; linear_combination (-(1 / 4)) * u ^ 2 * β ^ 2 * hss + (-(1 / 4)) * u ^ 2 * g4
  rw [← hq]
  have hq0 : q ≠ 0 := by
    intro h0
    rw [h0] at q2; norm_num at q2
  have hq1 : q ^ 2 - 1 ≠ 0 := by
    rw [q2]
    exact mul_ne_zero hq0 (mul_ne_zero (mul_ne_zero hσ0 hp.ne') hβ0.ne')
  have e2 : 1 / (1 - 1 / q ^ 2) = q ^ 2 / (q ^ 2 - 1) := by
    have : 1 - 1 / q ^ 2 = (q ^ 2 - 1) / q ^ 2 := by field_simp
    rw [this, one_div_div]
  rw [e2, q2, show q ^ 2 / (q * (σ * u * β)) = q / (σ * u * β) by field_simp, q1]
  have : σ⁻¹ = σ := inv_eq_of_mul_eq_one_right hss
  rw [div_eq_div_iff (by positivity) two_ne_zero]
  field_simp
  linear_combination (-(u ^ 2 + 2)) * hss

theorem poly4_eq_zero (α β γ C : ℝ) (h : ∀ᶠ x in 𝓝[>] (0 : ℝ), |α + β * x ^ 2 + γ * x ^ 4| ≤ C * x ^ 5) :
    α = 0 ∧ β = 0 ∧ γ = 0 := by
  have key : ∀ (f g : ℝ → ℝ), Continuous f → Continuous g → g 0 = 0 → (∀ᶠ x in 𝓝[>] (0 : ℝ), |f x| ≤ g x) → f 0 = 0 := by
    intro f g hf hg hg0 hfg
    have h1 : Tendsto (fun x => |f x|) (𝓝[>] 0) (𝓝 |f 0|) := (hf.abs.tendsto 0).mono_left nhdsWithin_le_nhds
    have h2 : Tendsto g (𝓝[>] 0) (𝓝 (g 0)) := (hg.tendsto 0).mono_left nhdsWithin_le_nhds
    have := le_of_tendsto_of_tendsto h1 h2 hfg
    rw [hg0] at this
    exact abs_nonpos_iff.mp this
  have h1 : α = 0 := by
    have := key (fun x => α + β * x ^ 2 + γ * x ^ 4) (fun x => C * x ^ 5) (by fun_prop) (by fun_prop) (by norm_num) h
    simpa using this
  subst h1
  have h2 : β = 0 := by
    have := key (fun x => β + γ * x ^ 2) (fun x => C * x ^ 3) (by fun_prop) (by fun_prop) (by norm_num) (by
      filter_upwards [h, self_mem_nhdsWithin] with x hx hpos
      have hpos' : (0 : ℝ) < x := hpos
      have e : |0 + β * x ^ 2 + γ * x ^ 4| = |β + γ * x ^ 2| * x ^ 2 := by
        rw [← abs_of_pos (pow_pos hpos' 2), ← abs_mul, abs_of_pos (pow_pos hpos' 2)]; congr 1; ring
      rw [e, show C * x ^ 5 = C * x ^ 3 * x ^ 2 by ring] at hx
      exact le_of_mul_le_mul_right hx (pow_pos hpos' 2))
    simpa using this
  subst h2
  refine ⟨rfl, rfl, ?_⟩
  have := key (fun _ => γ) (fun x => C * x) (by fun_prop) (by fun_prop) (by norm_num) (by
    filter_upwards [h, self_mem_nhdsWithin] with x hx hpos
    have hpos' : (0 : ℝ) < x := hpos
    have e : |0 + 0 * x ^ 2 + γ * x ^ 4| = |γ| * x ^ 4 := by
      rw [← abs_of_pos (pow_pos hpos' 4), ← abs_mul, abs_of_pos (pow_pos hpos' 4)]; congr 1; ring
    rw [e, show C * x ^ 5 = C * x * x ^ 4 by ring] at hx
    exact le_of_mul_le_mul_right hx (pow_pos hpos' 4))
  simpa using this

theorem single_discMean (σ : ℝ) (hσ : σ = 1 ∨ σ = -1) (w : ℂ) (ρ : ℝ) (h0 : 0 < ρ) (h : ρ < ‖w‖) :
    discMean 0 (branchMag single (singleBranch σ)) w ρ
      = (σ * (discIntegral 0 (fun y => paczynski ‖y‖) w ρ / Real.pi) + 1) / 2 := by
  have hp := Real.pi_pos
  have hw : w.re ^ 2 + w.im ^ 2 = ‖w‖ ^ 2 := normsq_eq w
  have e : discIntegral 0 (branchMag single (singleBranch σ)) w ρ
      = (σ * discIntegral 0 (fun y => paczynski ‖y‖) w ρ + Real.pi) / 2 := by
    have hin : ∀ r ∈ Icc (0 : ℝ) 1, ρ * r ∈ Icc 0 ρ := fun r hr => ⟨mul_nonneg h0.le hr.1, by nlinarith [hr.2]⟩
    have hcc : ContinuousOn (fun r => r * circ pacz w.re w.im (ρ * r)) (uIcc 0 1) := by
      rw [uIcc_of_le zero_le_one]
      intro r hr
      have hd := (ring_deriv pacz_twice w.re w.im ‖w‖ (norm_nonneg w) hw.ge (ρ * r)
        ⟨by nlinarith [hr.1, norm_nonneg w], by nlinarith [hr.2]⟩).continuousAt
      exact (continuousAt_id.mul (ContinuousAt.comp (g := circ pacz w.re w.im) hd (by fun_prop))).continuousWithinAt
    have e1 : discIntegral 0 (branchMag single (singleBranch σ)) w ρ
        = ∫ r in (0 : ℝ)..1, (σ / 2 * (r * circ pacz w.re w.im (ρ * r)) + Real.pi * r) := by
      unfold discIntegral
      refine intervalIntegral.integral_congr fun r hr => ?_
      rw [uIcc_of_le zero_le_one] at hr
      simp only [brightness, zero_mul, sub_zero, one_mul]
      have e2 : ∀ θ : ℝ, branchMag single (singleBranch σ) (w + ρ * r * exp (I * θ)) * r
          = (σ / 2 * pacz (ringSq w.re w.im (ρ * r) θ) + 1 / 2) * r := by
        intro θ
        have h1 := ringSq_ge w ρ (ρ * r) θ h (hin r hr)
        rw [ringSq_norm, ofReal_mul] at h1
        have hne : w + ρ * r * exp (I * θ) ≠ 0 := by
          intro hz
          rw [hz, norm_zero] at h1
          have : 0 < ‖w‖ - ρ := by linarith
          nlinarith
        rw [single_branchMag σ hσ _ hne, ringSq_norm, ofReal_mul, pacz_norm _ (norm_pos_iff.mpr hne)]
        ring
      simp only [e2]
      have hci : Continuous fun θ => pacz (ringSq w.re w.im (ρ * r) θ) :=
        ring_cont w.re w.im ‖w‖ (norm_nonneg w) hw.ge pacz_twice.c0 (ρ * r)
          ⟨by nlinarith [hr.1, norm_nonneg w], by nlinarith [hr.2]⟩
      rw [intervalIntegral.integral_mul_const, intervalIntegral.integral_add
        ((hci.intervalIntegrable _ _).const_mul (σ / 2)) intervalIntegrable_const, intervalIntegral.integral_const_mul,
        intervalIntegral.integral_const]
      unfold circ
      simp
      ring
    rw [e1, intervalIntegral.integral_add ((hcc.intervalIntegrable).const_mul _)
      (Continuous.intervalIntegrable (by fun_prop) _ _), intervalIntegral.integral_const_mul, ← disc_circ w ρ h0.le h,
      intervalIntegral.integral_const_mul, integral_id]
    ring
  unfold discMean
  rw [discIntegral_one, e]
  field_simp
  ring

/-- The three terms of the code at the two images of a single lens. -/
theorem single_terms (σ : ℝ) (hσ : σ = 1 ∨ σ = -1) (w : ℂ) (hw : w ≠ 0) (rho : ℝ) :
    (cassan (wStack (wSpec single (singleBranch σ w))) rho 0).ps + (cassan (wStack (wSpec single (singleBranch σ w))) rho 0).quad
      + (cassan (wStack (wSpec single (singleBranch σ w))) rho 0).hex = (σ * hexValue w rho + 1) / 2 := by
  obtain ⟨A, B, C, habc⟩ := C21_even_polynomial single (singleBranch σ w) 0
  have hO := C22_expansion single w (singleBranch σ) (single_branch σ hσ w hw) 0 (by norm_num)
  have hp := Real.pi_pos
  have hn := norm_pos_iff.mpr hw
  obtain ⟨D, hD⟩ := hO.bound
  have hs1 : |σ| = 1 := by rcases hσ with rfl | rfl <;> norm_num
  have hfin : ∀ᶠ x in 𝓝[>] (0 : ℝ), |((σ * pacz (‖w‖ ^ 2) + 1) / 2 - A) + (σ * lap1 (‖w‖ ^ 2) / 16 - B) * x ^ 2
      + (σ * lap2 (‖w‖ ^ 2) / 384 - C) * x ^ 4| ≤ (D + 1 / (12 * (‖w‖ / 2) ^ 7)) * x ^ 5 := by
    filter_upwards [hD.filter_mono nhdsWithin_le_nhds, self_mem_nhdsWithin,
      Ioo_mem_nhdsGT (show (0 : ℝ) < min (‖w‖ / 2) 1 by positivity)] with x hx hpos hlt
    have hx0 : (0 : ℝ) < x := hpos
    have hx1 : x < ‖w‖ / 2 := lt_of_lt_of_le hlt.2 (min_le_left _ _)
    have hx2 : x < 1 := lt_of_lt_of_le hlt.2 (min_le_right _ _)
    rw [habc, single_discMean σ hσ w x hx0 (by linarith), Real.norm_eq_abs, Real.norm_eq_abs, abs_of_pos (pow_pos hx0 5)] at hx
    obtain ⟨l, u⟩ := disc_hex w x hx0 (by linarith)
    obtain ⟨d, hd⟩ : ∃ d, d = discIntegral 0 (fun y => paczynski ‖y‖) w x / Real.pi := ⟨_, rfl⟩
    rw [← hd] at hx
    have ed : discIntegral 0 (fun y => paczynski ‖y‖) w x = Real.pi * d := by rw [hd]; field_simp
    rw [ed] at l u
    have l' : hexValue w x < d := lt_of_mul_lt_mul_left l hp.le
    have u' : d - hexValue w x ≤ x ^ 6 / (12 * (‖w‖ - x) ^ 7) := by
      rw [← mul_sub] at u
      exact le_of_mul_le_mul_left u hp
    have u'' : x ^ 6 / (12 * (‖w‖ - x) ^ 7) ≤ 1 / (12 * (‖w‖ / 2) ^ 7) * x ^ 5 := by
      have p7 : (‖w‖ / 2) ^ 7 ≤ (‖w‖ - x) ^ 7 := pow_le_pow_left₀ (by positivity) (by linarith) 7
      have q7 : 0 < (‖w‖ / 2) ^ 7 := by positivity
      calc x ^ 6 / (12 * (‖w‖ - x) ^ 7) ≤ x ^ 6 / (12 * (‖w‖ / 2) ^ 7) :=
            div_le_div_of_nonneg_left (by positivity) (by positivity) (by linarith)
        _ ≤ x ^ 5 / (12 * (‖w‖ / 2) ^ 7) := by
            refine div_le_div_of_nonneg_right ?_ (by positivity)
            have : 0 < x ^ 5 := by positivity
            nlinarith
        _ = _ := by ring
    have e1 : ((σ * pacz (‖w‖ ^ 2) + 1) / 2 - A) + (σ * lap1 (‖w‖ ^ 2) / 16 - B) * x ^ 2
        + (σ * lap2 (‖w‖ ^ 2) / 384 - C) * x ^ 4
        = ((σ * d + 1) / 2 - (A + B * x ^ 2 + C * x ^ 4)) + σ * ((hexValue w x - d) / 2) := by
      unfold hexValue; ring
    rw [e1]
    refine (abs_add_le _ _).trans ?_
    rw [abs_mul σ, hs1, one_mul, add_mul]
    refine add_le_add hx ?_
    rw [abs_le]
    constructor <;> linarith
  obtain ⟨z0, z1, z2⟩ := poly4_eq_zero _ _ _ _ hfin
  rw [habc]
  unfold hexValue
  linear_combination -z0 - rho ^ 2 * z1 - rho ^ 4 * z2

theorem pacz_ge (w : ℂ) (hw : w ≠ 0) : 1 ≤ pacz (‖w‖ ^ 2) := by
  have hp := norm_pos_iff.mpr hw
  obtain ⟨g1, g2, -, g4⟩ := gain_facts w hw
  rw [pacz_norm _ hp, paczynski, le_div_iff₀ (by positivity)]
  nlinarith [sq_nonneg (‖w‖ - Real.sqrt (‖w‖ ^ 2 + 4))]

/-- The value of `mag_hexadecapole` for a single lens. -/
theorem single_hex (w : ℂ) (hw : w ≠ 0) (rho : ℝ) : (sumTerms wk1 (images1 w) rho 0).1 = hexValue w rho := by
  have hp := norm_pos_iff.mpr hw
  have h1 : 1 ≤ hexValue w rho := by
    unfold hexValue
    have := pacz_ge w hw
    have := lap1_nonneg (‖w‖ ^ 2) (by positivity)
    have := lap2_nonneg (‖w‖ ^ 2) (by positivity)
    have : 0 ≤ lap1 (‖w‖ ^ 2) / 8 * rho ^ 2 := by positivity
    have : 0 ≤ lap2 (‖w‖ ^ 2) / 192 * rho ^ 4 := by positivity
    linarith
  have e : ∀ z, wStack (wk1 z) = wStack (wSpec single z) := fun z => by
    have : wk1 z = wSpec single z := funext fun k => wk1_eq z k
    rw [this]
  rw [images1_branches w hw]
  unfold sumTerms
  simp only [List.map_cons, List.map_nil, List.sum_cons, List.sum_nil, if_true, one_mul, add_zero, e]
  rw [single_terms 1 (Or.inl rfl) w hw, single_terms (-1) (Or.inr rfl) w hw, abs_of_pos (by linarith), abs_of_nonpos (by linarith)]
  ring

/-! ### C134 -/

/-- C134: for a single lens the value of `mag_hexadecapole` is below the magnification of the uniform disc, by at most
`rho⁶ / (12 (|w| - rho)⁷)`, wherever the lens is outside of the disc. -/
theorem C134_multipole_error (p : MidParams) (w : ℂ) (rho : ℝ) (h0 : 0 < rho) (h : rho < ‖w‖) :
    ∃ m err, magHexadecapole 1 p (images1 w) rho 0 = .ok (m, err) ∧ m < uniformMag single w rho ∧
      uniformMag single w rho - m ≤ rho ^ 6 / (12 * (‖w‖ - rho) ^ 7) := by
  have hw : w ≠ 0 := norm_pos_iff.mp (by linarith)
  have hp := Real.pi_pos
  obtain ⟨l, u⟩ := disc_hex w rho h0 h
  refine ⟨(sumTerms wk1 (images1 w) rho 0).1, _, rfl, ?_, ?_⟩
  · rw [single_hex w hw, uniform_disc w rho h0 h, lt_div_iff₀ hp]
    linarith
  · rw [single_hex w hw, uniform_disc w rho h0 h]
    rw [div_sub' hp.ne', div_le_iff₀ hp]
    linarith

/-- `mag_extended_source` as `magnifications` calls it for a uniform source behind a single lens. -/
def fullSingle (lib : Lib) (npts npts_ld : ℕ) (u : UserParams) (rho u1 : ℝ) (w : ℂ) : ℝ :=
  match magExtendedSource lib 1 npts npts_ld false u u1 rho w with
  | .ok m => m
  | .error _ => 0

/-- C134: the docstring says that the multipole approximation is exact for one lens.  It is not: at every point of every light
curve at which it is used, the returned value is smaller than the magnification of the source. -/
theorem C134_exact_violated (roots : Option (List ℂ) → List ℂ → List ℂ) (full : ℝ → ℂ → ℝ) (ws : List ℂ) (rho u1 : ℝ)
    (u : UserParams) (h0 : 0 < rho) :
    ∃ out, magnifications roots full 1 ws rho u1 u = .ok out ∧
      ∀ i (h : i < ws.length) (h' : i < out.length), oneLensAccepts rho ws[i] → out[i] < uniformMag single ws[i] rho := by
  obtain ⟨hacc, mu, hmu, hout⟩ := C47_one_lens roots full ws rho u1 u
  refine ⟨_, hout, fun i h h' ha => ?_⟩
  have hn := hacc _ ha
  obtain ⟨m, err, e1, e2, -⟩ := C134_multipole_error (midParams2 u) ws[i] rho h0 (by linarith)
  obtain ⟨err', e3⟩ := hmu ws[i]
  rw [e1] at e3
  have : mu ws[i] = m := by
    have := congrArg Prod.fst (Except.ok.inj e3); exact this.symm
  simp only [List.getElem_map]
  rw [if_pos ha, this]
  exact e2

/-- C134: the light curve of a uniform source behind a single lens.  Every value has an explicit error bound: where the multipole
value is used, `rho⁶ / (12 (|w| - rho)⁷)` and a sixth of the magnification; elsewhere that of the contour method (C132). -/
theorem C134_lightcurve_partial (roots : Option (List ℂ) → List ℂ → List ℂ) (lib : Lib) (npts npts_ld : ℕ) (ws : List ℂ) (rho u1 : ℝ)
    (u : UserParams) (h0 : 0 < rho) (hnpts : 4 ≤ npts) (hmax : npts ≤ 2 * 10 ^ 8) (h : ℝ)
    (hh : h = 2 * Real.pi / ((npts / 2 - 1 : ℕ) : ℝ)) :
    ∃ out, magnifications roots (fullSingle lib npts npts_ld u rho) 1 ws rho u1 u = .ok out ∧ out.length = ws.length ∧
      ∀ i (hi : i < ws.length) (hi' : i < out.length),
        (oneLensAccepts rho ws[i] →
          |out[i] - uniformMag single ws[i] rho| ≤ rho ^ 6 / (12 * (‖ws[i]‖ - rho) ^ 7) ∧
          |out[i] - uniformMag single ws[i] rho| ≤ 1 / 6 * uniformMag single ws[i] rho) ∧
        (¬ oneLensAccepts rho ws[i] → ∀ η M κ : ℝ, η = |‖ws[i]‖ - rho| → 0 < η → M = ‖ws[i]‖ + rho →
          κ = 1 + Real.sqrt (M ^ 2 + 4) / η → κ * rho * h < 1 →
          |out[i] - uniformMag single ws[i] rho| ≤ 2 * κ ^ 2 * h
            + (M + Real.sqrt (M ^ 2 + 4)) / 2 * κ / (Real.pi * rho * 10 ^ 8)) := by
  obtain ⟨hacc, mu, hmu, hout⟩ := C47_one_lens roots (fullSingle lib npts npts_ld u rho) ws rho u1 u
  refine ⟨_, hout, by simp, fun i hi hi' => ⟨fun ha => ?_, fun ha η M κ hη hη0 hM hκ hsmall => ?_⟩⟩
  · have hn := hacc _ ha
    obtain ⟨m, err, e1, e2, e4⟩ := C134_multipole_error (midParams2 u) ws[i] rho h0 (by linarith)
    obtain ⟨err', e3⟩ := hmu ws[i]
    have hm : m = hexValue ws[i] rho := by
      have hw : ws[i] ≠ 0 := norm_pos_iff.mp (by linarith)
      have e5 : magHexadecapole 1 (midParams2 u) (images1 ws[i]) rho 0 = .ok (sumTerms wk1 (images1 ws[i]) rho 0) := rfl
      rw [e5] at e1
      rw [← single_hex _ hw, Except.ok.inj e1]
    rw [e1] at e3
    have : mu ws[i] = m := by
      have := congrArg Prod.fst (Except.ok.inj e3); exact this.symm
    simp only [List.getElem_map]
    rw [if_pos ha, this, abs_sub_comm, abs_of_pos (by linarith)]
    refine ⟨e4, e4.trans ?_⟩
    generalize ws[i] = w at *
    have hw0 : 0 < ‖w‖ := by linarith
    have hw : w ≠ 0 := norm_pos_iff.mp hw0
    have k1 : rho ^ 6 / (12 * (‖w‖ - rho) ^ 7) ≤ 1 / (6 * ‖w‖) := by
      have a1 : rho ^ 6 ≤ (‖w‖ - rho) ^ 6 := pow_le_pow_left₀ h0.le (by linarith) 6
      have a2 : 0 < ‖w‖ - rho := by linarith
      have a3 : 0 < (‖w‖ - rho) ^ 6 := by positivity
      rw [div_le_div_iff₀ (by positivity) (by positivity), show 12 * (‖w‖ - rho) ^ 7 = (‖w‖ - rho) ^ 6 * (12 * (‖w‖ - rho)) by ring]
      calc rho ^ 6 * (6 * ‖w‖) ≤ (‖w‖ - rho) ^ 6 * (6 * ‖w‖) := mul_le_mul_of_nonneg_right a1 (by positivity)
        _ ≤ 1 * ((‖w‖ - rho) ^ 6 * (12 * (‖w‖ - rho))) := by
            rw [one_mul]; exact mul_le_mul_of_nonneg_left (by linarith) a3.le
    have k2 : 1 / ‖w‖ ≤ m := by
      have b1 : 1 / ‖w‖ ≤ pacz (‖w‖ ^ 2) := by
        obtain ⟨g1, g2, -, g4⟩ := gain_facts w hw
        rw [pacz_norm _ hw0, paczynski, div_le_div_iff₀ hw0 (by positivity)]
        nlinarith [sq_nonneg (Real.sqrt (‖w‖ ^ 2 + 4) - 2)]
      have b2 := lap1_nonneg (‖w‖ ^ 2) (by positivity)
      have b3 := lap2_nonneg (‖w‖ ^ 2) (by positivity)
      have b4 : 0 ≤ lap1 (‖w‖ ^ 2) / 8 * rho ^ 2 := by positivity
      have b5 : 0 ≤ lap2 (‖w‖ ^ 2) / 192 * rho ^ 4 := by positivity
      rw [hm, hexValue]
      linarith
    have k3 : 1 / (6 * ‖w‖) = 1 / 6 * (1 / ‖w‖) := by field_simp
    rw [k3] at k1
    linarith
  · simp only [List.getElem_map]
    rw [if_neg ha]
    obtain ⟨m, e1, e2⟩ := C132_single lib npts npts_ld u u1 rho ws[i] h0 hnpts hmax η M κ h hη hη0 hM hκ hh hsmall
    unfold fullSingle
    rw [e1]
    exact e2

/-- A source of radius 0.1: at separation 1 the multipole value is used and is too small by less than `2e-7`; at separation 0.5
before the lens (negative abscissa) with 20000 samples of the limb the contour method is used. -/
example (roots : Option (List ℂ) → List ℂ → List ℂ) (lib : Lib) (u : UserParams) :
    ∃ a b, magnifications roots (fullSingle lib 20000 100 u (1 / 10)) 1 [1, -(1 / 2)] (1 / 10) 0 u = .ok [a, b] ∧
      a < uniformMag single 1 (1 / 10) ∧ |a - uniformMag single 1 (1 / 10)| ≤ 2 / 10 ^ 7 ∧
      |b - uniformMag single (-(1 / 2)) (1 / 10)| ≤ 1 / 15 := by
  obtain ⟨out, h1, h2, h3⟩ := C134_lightcurve_partial roots lib 20000 100 [1, -(1 / 2)] (1 / 10) 0 u (by norm_num) (by norm_num)
    (by norm_num) _ rfl
  obtain ⟨out', h1', h4⟩ := C134_exact_violated roots (fullSingle lib 20000 100 u (1 / 10)) [1, -(1 / 2)] (1 / 10) 0 u (by norm_num)
  rw [h1] at h1'
  obtain rfl : out = out' := Except.ok.inj h1'
  match out, h2 with
  | [a, b], _ =>
    have hacc : oneLensAccepts (1 / 10) 1 := Or.inl (by norm_num)
    have hrej : ¬ oneLensAccepts (1 / 10) (-(1 / 2)) := by norm_num [oneLensAccepts]
    have e1 := ((h3 0 (by simp) (by simp)).1 hacc).1
    have e2 := (h3 1 (by simp) (by simp)).2 hrej
    have e3 := h4 0 (by simp) (by simp) hacc
    simp only [List.getElem_cons_zero, List.getElem_cons_succ, norm_one] at e1 e2 e3
    have hn : ‖(-(1 / 2) : ℂ)‖ = 1 / 2 := by rw [norm_neg]; norm_num
    rw [hn] at e2
    refine ⟨a, b, h1, e3, e1.trans (by norm_num), ?_⟩
    have hs : Real.sqrt ((1 / 2 + 1 / 10) ^ 2 + 4) ≤ 209 / 100 := Real.sqrt_le_iff.mpr (by norm_num)
    have hs0 := Real.sqrt_nonneg ((1 / 2 + 1 / 10 : ℝ) ^ 2 + 4)
    have hp1 := Real.pi_gt_three
    have hp2 := Real.pi_le_four
    obtain ⟨s, hsd⟩ : ∃ s, s = Real.sqrt ((1 / 2 + 1 / 10 : ℝ) ^ 2 + 4) := ⟨_, rfl⟩
    rw [← hsd] at hs hs0
    obtain ⟨k, hk⟩ : ∃ k : ℝ, k = 1 + s / (2 / 5) := ⟨_, rfl⟩
    have hk1 : k ≤ 63 / 10 := by rw [hk]; linarith
    have hk0 : 0 ≤ k := by rw [hk]; positivity
    have hh : ((20000 / 2 - 1 : ℕ) : ℝ) = 9999 := by norm_num
    rw [hh] at e2
    obtain ⟨g, hg⟩ : ∃ g : ℝ, g = 2 * Real.pi / 9999 := ⟨_, rfl⟩
    rw [← hg] at e2
    have hg1 : g ≤ 8 / 9999 := by rw [hg]; linarith
    have hg0 : 0 ≤ g := by rw [hg]; positivity
    have hk2 : k ^ 2 ≤ 40 := by nlinarith
    have e4 := e2 (2 / 5) (1 / 2 + 1 / 10) k (by rw [abs_of_pos (by norm_num)]; norm_num) (by norm_num) rfl (by rw [hk, hsd])
      (by nlinarith)
    refine e4.trans ?_
    rw [← hsd]
    have e5 : (1 / 2 + 1 / 10 + s) / 2 * k / (Real.pi * (1 / 10) * 10 ^ 8) ≤ 1 / 10000 := by
      rw [div_le_div_iff₀ (by positivity) (by norm_num)]
      nlinarith
    nlinarith

end Microjax.Props
