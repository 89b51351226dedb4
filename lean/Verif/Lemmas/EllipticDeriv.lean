import Verif.Lemmas.Agm
import Mathlib.Analysis.Calculus.ParametricIntervalIntegral

/-!
# Derivatives of the complete elliptic integrals with respect to the parameter
-/

noncomputable section

open MeasureTheory Microjax.Spec

namespace Microjax.Props

lemma delta_ge {m : ℝ} (θ : ℝ) : min 1 (1 - m) ≤ 1 - m * Real.sin θ ^ 2 := by
  have h1 := Real.sin_sq_le_one θ
  have h0 := sq_nonneg (Real.sin θ)
  rcases le_total 0 m with h | h
  · exact (min_le_right _ _).trans (by nlinarith)
  · exact (min_le_left _ _).trans (by nlinarith)

lemma delta_pos {m : ℝ} (hm : m < 1) (θ : ℝ) : 0 < 1 - m * Real.sin θ ^ 2 :=
  lt_of_lt_of_le (lt_min one_pos (by linarith)) (delta_ge θ)

lemma delta_ge_ball {m x : ℝ} (_hm : m < 1) (hx : x ∈ Metric.ball m ((1 - m) / 2)) (θ : ℝ) :
    min 1 ((1 - m) / 2) ≤ 1 - x * Real.sin θ ^ 2 := by
  rw [Metric.mem_ball, Real.dist_eq, abs_lt] at hx
  refine le_trans (min_le_min le_rfl ?_) (delta_ge θ)
  linarith

/-- `dE/dm` as an integral. -/
lemma hasDerivAt_ellipticE_int {m : ℝ} (hm : m < 1) :
    HasDerivAt ellipticE
      (∫ θ in (0 : ℝ)..Real.pi / 2, -Real.sin θ ^ 2 / (2 * Real.sqrt (1 - m * Real.sin θ ^ 2))) m := by
  set c := min 1 ((1 - m) / 2) with hc
  have hc0 : 0 < c := lt_min one_pos (by linarith)
  have key := intervalIntegral.hasDerivAt_integral_of_dominated_loc_of_deriv_le
    (μ := volume) (a := 0) (b := Real.pi / 2) (x₀ := m) (s := Metric.ball m ((1 - m) / 2))
    (F := fun x θ => Real.sqrt (1 - x * Real.sin θ ^ 2))
    (F' := fun x θ => -Real.sin θ ^ 2 / (2 * Real.sqrt (1 - x * Real.sin θ ^ 2)))
    (bound := fun _ => 1 / (2 * Real.sqrt c))
    (Metric.ball_mem_nhds m (by linarith))
    (Filter.Eventually.of_forall fun x => (Continuous.aestronglyMeasurable (by fun_prop)))
    (Continuous.intervalIntegrable (by fun_prop) _ _)
    ?_ ?_ intervalIntegrable_const ?_
  · exact key.2
  · refine Continuous.aestronglyMeasurable ?_
    exact Continuous.div (by fun_prop) (by fun_prop) fun θ =>
      (mul_pos two_pos (Real.sqrt_pos.mpr (delta_pos hm θ))).ne'
  · refine Filter.Eventually.of_forall fun θ _ x hx => ?_
    have h1 := delta_ge_ball hm hx θ
    have h2 : Real.sqrt c ≤ Real.sqrt (1 - x * Real.sin θ ^ 2) := Real.sqrt_le_sqrt h1
    have h3 := Real.sqrt_pos.mpr hc0
    rw [Real.norm_eq_abs, abs_div, abs_neg, abs_of_nonneg (sq_nonneg (Real.sin θ)),
      abs_of_pos (show (0:ℝ) < 2 * Real.sqrt (1 - x * Real.sin θ ^ 2) by linarith)]
    exact div_le_div₀ zero_le_one (Real.sin_sq_le_one θ) (by linarith) (by linarith)
  · refine Filter.Eventually.of_forall fun θ _ x hx => ?_
    have h1 : 0 < 1 - x * Real.sin θ ^ 2 := lt_of_lt_of_le hc0 (delta_ge_ball hm hx θ)
    have h2 : HasDerivAt (fun x : ℝ => 1 - x * Real.sin θ ^ 2) (-Real.sin θ ^ 2) x := by
      simpa using ((hasDerivAt_id x).mul_const (Real.sin θ ^ 2)).const_sub 1
    exact h2.sqrt h1.ne'

/-- `dK/dm` as an integral. -/
lemma hasDerivAt_ellipticK_int {m : ℝ} (hm : m < 1) :
    HasDerivAt ellipticK
      (∫ θ in (0 : ℝ)..Real.pi / 2, Real.sin θ ^ 2 /
        (2 * (1 - m * Real.sin θ ^ 2) * Real.sqrt (1 - m * Real.sin θ ^ 2))) m := by
  set c := min 1 ((1 - m) / 2) with hc
  have hc0 : 0 < c := lt_min one_pos (by linarith)
  have key := intervalIntegral.hasDerivAt_integral_of_dominated_loc_of_deriv_le
    (μ := volume) (a := 0) (b := Real.pi / 2) (x₀ := m) (s := Metric.ball m ((1 - m) / 2))
    (F := fun x θ => 1 / Real.sqrt (1 - x * Real.sin θ ^ 2))
    (F' := fun x θ => Real.sin θ ^ 2 / (2 * (1 - x * Real.sin θ ^ 2) * Real.sqrt (1 - x * Real.sin θ ^ 2)))
    (bound := fun _ => 1 / (2 * c * Real.sqrt c))
    (Metric.ball_mem_nhds m (by linarith))
    ?_ ?_ ?_ ?_ intervalIntegrable_const ?_
  · exact key.2
  · filter_upwards [Metric.ball_mem_nhds m (show 0 < (1 - m) / 2 by linarith)] with x hx
    refine Continuous.aestronglyMeasurable ?_
    exact Continuous.div (by fun_prop) (by fun_prop) fun θ =>
      (Real.sqrt_pos.mpr (lt_of_lt_of_le hc0 (delta_ge_ball hm hx θ))).ne'
  · refine Continuous.intervalIntegrable ?_ _ _
    exact Continuous.div (by fun_prop) (by fun_prop) fun θ =>
      (Real.sqrt_pos.mpr (delta_pos hm θ)).ne'
  · refine Continuous.aestronglyMeasurable ?_
    exact Continuous.div (by fun_prop) (by fun_prop) fun θ =>
      (mul_pos (mul_pos two_pos (delta_pos hm θ)) (Real.sqrt_pos.mpr (delta_pos hm θ))).ne'
  · refine Filter.Eventually.of_forall fun θ _ x hx => ?_
    have h1 := delta_ge_ball hm hx θ
    have h2 : Real.sqrt c ≤ Real.sqrt (1 - x * Real.sin θ ^ 2) := Real.sqrt_le_sqrt h1
    have h3 := Real.sqrt_pos.mpr hc0
    have h4 : 0 < 1 - x * Real.sin θ ^ 2 := lt_of_lt_of_le hc0 h1
    rw [Real.norm_eq_abs, abs_div, abs_of_nonneg (sq_nonneg (Real.sin θ)),
      abs_of_pos (show (0:ℝ) < 2 * (1 - x * Real.sin θ ^ 2) * Real.sqrt (1 - x * Real.sin θ ^ 2) from
        mul_pos (by linarith) (by linarith))]
    refine div_le_div₀ zero_le_one (Real.sin_sq_le_one θ) (by positivity) ?_
    exact mul_le_mul (by linarith) h2 h3.le (by linarith)
  · refine Filter.Eventually.of_forall fun θ _ x hx => ?_
    have h1 : 0 < 1 - x * Real.sin θ ^ 2 := lt_of_lt_of_le hc0 (delta_ge_ball hm hx θ)
    have h2 : HasDerivAt (fun x : ℝ => 1 - x * Real.sin θ ^ 2) (-Real.sin θ ^ 2) x := by
      simpa using ((hasDerivAt_id x).mul_const (Real.sin θ ^ 2)).const_sub 1
    have h3 := (h2.sqrt h1.ne').inv (Real.sqrt_pos.mpr h1).ne'
    simp only [one_div]
    refine h3.congr_deriv ?_
    rw [Real.sq_sqrt h1.le]
    have h4 := (Real.sqrt_pos.mpr h1).ne'
    field_simp

lemma intervalIntegrable_inv_delta {m : ℝ} (hm : m < 1) :
    IntervalIntegrable (fun θ => 1 / Real.sqrt (1 - m * Real.sin θ ^ 2)) volume 0 (Real.pi / 2) :=
  (Continuous.div (by fun_prop) (by fun_prop) fun θ =>
    (Real.sqrt_pos.mpr (delta_pos hm θ)).ne').intervalIntegrable _ _

lemma intervalIntegrable_delta (m : ℝ) :
    IntervalIntegrable (fun θ => Real.sqrt (1 - m * Real.sin θ ^ 2)) volume 0 (Real.pi / 2) :=
  Continuous.intervalIntegrable (by fun_prop) _ _

lemma intervalIntegrable_inv_delta3 {m : ℝ} (hm : m < 1) :
    IntervalIntegrable (fun θ => 1 / ((1 - m * Real.sin θ ^ 2) * Real.sqrt (1 - m * Real.sin θ ^ 2)))
      volume 0 (Real.pi / 2) :=
  (Continuous.div (by fun_prop) (by fun_prop) fun θ =>
    (mul_pos (delta_pos hm θ) (Real.sqrt_pos.mpr (delta_pos hm θ))).ne').intervalIntegrable _ _

/-- `∫ Δ⁻³ = E / (1 - m)`. -/
lemma integral_inv_delta3 {m : ℝ} (hm : m < 1) :
    (1 - m) * ∫ θ in (0 : ℝ)..Real.pi / 2, 1 / ((1 - m * Real.sin θ ^ 2) * Real.sqrt (1 - m * Real.sin θ ^ 2))
      = ellipticE m := by
  have hd : ∀ θ : ℝ, HasDerivAt (fun θ : ℝ => m * (Real.sin θ * Real.cos θ) / Real.sqrt (1 - m * Real.sin θ ^ 2))
      (Real.sqrt (1 - m * Real.sin θ ^ 2) -
        (1 - m) * (1 / ((1 - m * Real.sin θ ^ 2) * Real.sqrt (1 - m * Real.sin θ ^ 2)))) θ := by
    intro θ
    have hp := delta_pos hm θ
    have hq := Real.sqrt_pos.mpr hp
    have h1 : HasDerivAt (fun θ : ℝ => 1 - m * Real.sin θ ^ 2) (-(m * (2 * Real.sin θ * Real.cos θ))) θ := by
      simpa using (((Real.hasDerivAt_sin θ).pow 2).const_mul m).const_sub 1
    have h2 := (((Real.hasDerivAt_sin θ).fun_mul (Real.hasDerivAt_cos θ)).const_mul m).fun_div
      (h1.sqrt hp.ne') hq.ne'
    refine h2.congr_deriv ?_
    have hr2 := Real.sq_sqrt hp.le
    set r := Real.sqrt (1 - m * Real.sin θ ^ 2)
    have hs2 : Real.sin θ ^ 2 = 1 - Real.cos θ ^ 2 := by linarith [Real.sin_sq_add_cos_sq θ]
    rw [← hr2]
    rw [hs2] at hr2
    field_simp
    rw [show r ^ 4 = (r ^ 2) ^ 2 by ring, hs2, hr2]
    ring
  have hi := (intervalIntegrable_delta m).sub ((intervalIntegrable_inv_delta3 hm).const_mul (1 - m))
  have h := intervalIntegral.integral_eq_sub_of_hasDerivAt (fun θ _ => hd θ) hi
  rw [intervalIntegral.integral_sub (intervalIntegrable_delta m)
    ((intervalIntegrable_inv_delta3 hm).const_mul (1 - m)), intervalIntegral.integral_const_mul] at h
  simp only [Real.sin_pi_div_two, Real.cos_pi_div_two, Real.sin_zero, mul_zero, zero_mul, zero_div, sub_zero] at h
  unfold ellipticE
  linarith

theorem hasDerivAt_ellipticE {m : ℝ} (hm : m < 1) (h0 : m ≠ 0) :
    HasDerivAt ellipticE ((ellipticE m - ellipticK m) / (2 * m)) m := by
  refine (hasDerivAt_ellipticE_int hm).congr_deriv ?_
  unfold ellipticE ellipticK
  rw [← intervalIntegral.integral_sub (intervalIntegrable_delta m) (intervalIntegrable_inv_delta hm),
    ← intervalIntegral.integral_div]
  refine intervalIntegral.integral_congr fun θ _ => ?_
  have hp := delta_pos hm θ
  have hq := Real.sqrt_pos.mpr hp
  have hr2 := Real.sq_sqrt hp.le
  set r := Real.sqrt (1 - m * Real.sin θ ^ 2)
  have hs : m * Real.sin θ ^ 2 = 1 - r ^ 2 := by linarith
  field_simp
  linarith

theorem hasDerivAt_ellipticK {m : ℝ} (hm : m < 1) (h0 : m ≠ 0) :
    HasDerivAt ellipticK ((ellipticE m - (1 - m) * ellipticK m) / (2 * m * (1 - m))) m := by
  refine (hasDerivAt_ellipticK_int hm).congr_deriv ?_
  have h1 : (1 - m) ≠ 0 := by linarith
  rw [← integral_inv_delta3 hm, ← mul_sub, show ∀ x : ℝ, (1 - m) * x / (2 * m * (1 - m)) = x / (2 * m) by
    intro x; field_simp]
  unfold ellipticK
  rw [← intervalIntegral.integral_sub (intervalIntegrable_inv_delta3 hm) (intervalIntegrable_inv_delta hm),
    ← intervalIntegral.integral_div]
  refine intervalIntegral.integral_congr fun θ _ => ?_
  have hp := delta_pos hm θ
  have hq := Real.sqrt_pos.mpr hp
  have hr2 := Real.sq_sqrt hp.le
  set r := Real.sqrt (1 - m * Real.sin θ ^ 2)
  rw [← hr2]
  have hs : m * Real.sin θ ^ 2 = 1 - r ^ 2 := by linarith
  field_simp
  linarith

end Microjax.Props
