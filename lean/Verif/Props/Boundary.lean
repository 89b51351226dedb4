import Verif.Model.Boundary
import Verif.Lemmas.DiscMean
import Mathlib.MeasureTheory.Constructions.HaarToSphere
import Mathlib.MeasureTheory.Measure.Lebesgue.VolumeOfBalls
import Mathlib.Analysis.SpecialFunctions.Integrals.Basic

/-! # C33–C36: source indicator, limb profile and boundary weights -/

noncomputable section

namespace Microjax.Props

open Complex Spec Boundary MeasureTheory

/-! ## C33 -/

/-- **C33** in part: the value under differentiation equals the plain value for `step_smooth` and `calc_facB`, and
for `in_source` it is within `exp (-100 |rho - d| / rho)` of it.  Missing: equality for `in_source` and
`Is_limb_1st`, which fails (`C33_in_source_violated`, `C33_profile_violated`). -/
theorem C33_primal_partial (x fac d rho delta delta_c : ℝ) (t : ℝ × ℝ) :
    (stepSmoothJvp (x, fac) t).1 = stepSmooth x ∧
    (calcFacBJvp (delta, delta_c) t).1 = calcFacB delta delta_c ∧
    |(inSourceJvp (d, rho) t).1 - inSource d rho| ≤ Real.exp (-(100 * (|rho - d| / rho))) := by
  refine ⟨rfl, rfl, ?_⟩
  have hs : ∀ y : ℝ, Real.sigmoid y ≤ Real.exp y := by
    intro y
    rw [Real.sigmoid_def, inv_le_comm₀ (by positivity) (Real.exp_pos y), ← Real.exp_neg]
    linarith
  simp only [inSourceJvp, inSource]
  by_cases h : d - rho < 0
  · rw [if_pos h, abs_of_pos (show 0 < rho - d by linarith), abs_sub_comm,
      abs_of_nonneg (by linarith [Real.sigmoid_le_one (100 * ((rho - d) / rho))]), ← Real.sigmoid_neg]
    exact hs _
  · rw [if_neg h, sub_zero, abs_of_nonneg (Real.sigmoid_nonneg _), abs_of_nonpos (show rho - d ≤ 0 by linarith)]
    refine (hs _).trans (Real.exp_le_exp.mpr ?_)
    rw [neg_div]; linarith

/-- **C33** fails for `in_source`: under differentiation its value is never the plain value, which is 0 or 1. -/
theorem C33_in_source_violated (d rho : ℝ) (t : ℝ × ℝ) : (inSourceJvp (d, rho) t).1 ≠ inSource d rho := by
  simp only [inSourceJvp, inSource]
  split_ifs
  · exact (Real.sigmoid_lt_one _).ne
  · exact (Real.sigmoid_pos _).ne'

theorem prof_pos (u m : ℝ) (hu : 0 ≤ u) (hu1 : u ≤ 1) (hm : 0 < m) : 0 < 1 - u * (1 - m) := by
  rcases hu.eq_or_lt with h | h
  · rw [← h]; norm_num
  · nlinarith [mul_pos h hm]

/-- **C33** fails for `Is_limb_1st`: under differentiation its value is too small everywhere well inside the
disc, and positive instead of zero everywhere outside. -/
theorem C33_profile_violated (d u1 : ℝ) (t : ℝ × ℝ) (hu : 0 ≤ u1) (hu1 : u1 ≤ 1) (hd0 : 0 ≤ d) :
    (d ^ 2 ≤ 999 / 1000 → (isLimb1stJvp (d, u1) t).1 < isLimb1st d u1) ∧
    (1 ≤ d → isLimb1st d u1 = 0 ∧ 0 < (isLimb1stJvp (d, u1) t).1) := by
  have hI0 : 0 < 3 / Real.pi / (3 - u1) := div_pos (div_pos (by norm_num) Real.pi_pos) (by linarith)
  constructor
  · intro hd
    have hd1 : d < 1 := by nlinarith
    simp only [isLimb1stJvp, isLimb1st, if_pos hd1]
    rw [max_eq_right (by linarith)]
    have hmu : 0 < Real.sqrt (1 - d ^ 2) := Real.sqrt_pos.mpr (by linarith)
    have hp := prof_pos u1 _ hu hu1 hmu
    have := mul_pos hI0 hp
    exact mul_lt_of_lt_one_right this (Real.sigmoid_lt_one _)
  · intro hd
    simp only [isLimb1stJvp, isLimb1st, if_neg (not_lt.mpr hd), true_and]
    exact mul_pos (mul_pos hI0 (prof_pos u1 _ hu hu1 (Real.sqrt_pos.mpr (by positivity)))) (Real.sigmoid_pos _)

/-- On the limb the plain indicator is 0 and the differentiated one is 1/2. -/
example : inSource 1 1 = 0 ∧ (inSourceJvp (1, 1) (0, 0)).1 = 1 / 2 := by
  constructor
  · simp [inSource]
  · simp [inSourceJvp, Real.sigmoid_zero]

/-! ## C34 -/

/-- **C34**: the profile is non-negative, and zero from the limb outwards. -/
theorem C34_nonneg (d u1 : ℝ) (hu : 0 ≤ u1) (hu1 : u1 ≤ 1) :
    0 ≤ isLimb1st d u1 ∧ (1 ≤ d → isLimb1st d u1 = 0) := by
  have hI0 : 0 < 3 / Real.pi / (3 - u1) := div_pos (div_pos (by norm_num) Real.pi_pos) (by linarith)
  simp only [isLimb1st]
  refine ⟨?_, fun h => if_neg (not_lt.mpr h)⟩
  split_ifs
  · refine mul_nonneg hI0.le ?_
    have := Real.sqrt_nonneg (1 - d ^ 2)
    nlinarith
  · exact le_rfl

/-- **C34**: the flux of the unit disc is one: the profile integrates to one over the plane. -/
theorem C34_unit_flux (u1 : ℝ) (hu1 : u1 < 3) : ∫ z : ℂ, isLimb1st ‖z‖ u1 = 1 := by
  have h := integral_fun_norm_addHaar (volume : Measure ℂ) (fun d => isLimb1st d u1)
  rw [h, Complex.finrank_real_complex]
  have hb : (volume : Measure ℂ).real (Metric.ball 0 1) = Real.pi := by
    rw [Measure.real, Complex.volume_ball]
    simp
  have hi : ∫ y in Set.Ioi (0 : ℝ), y ^ (2 - 1) • isLimb1st y u1
      = 3 / Real.pi / (3 - u1) * ∫ r in (0 : ℝ)..1, (1 + 0 * r ^ 2 + 0 * r ^ 4) * (brightness u1 r * r) := by
    rw [← intervalIntegral.integral_const_mul, intervalIntegral.integral_of_le zero_le_one,
      integral_Ioc_eq_integral_Ioo, ← integral_indicator measurableSet_Ioi, ← integral_indicator measurableSet_Ioo]
    congr 1
    funext y
    by_cases h0 : 0 < y
    · by_cases h1 : y < 1
      · rw [Set.indicator_of_mem (by exact h0), Set.indicator_of_mem (by exact ⟨h0, h1⟩)]
        simp only [isLimb1st, if_pos h1, brightness, smul_eq_mul]
        ring
      · rw [Set.indicator_of_mem (by exact h0), Set.indicator_of_notMem (fun hm => h1 hm.2)]
        simp [isLimb1st, h1]
    · rw [Set.indicator_of_notMem (by simpa using h0), Set.indicator_of_notMem (fun hm => h0 hm.1)]
  rw [hb, hi, radial_moment]
  have : 3 - u1 ≠ 0 := by linarith
  have := Real.pi_pos.ne'
  simp only [nsmul_eq_mul, smul_eq_mul]
  field_simp
  push_cast
  ring

/-- **C34**: inside the source the contour code's profile is `π` times this one. -/
theorem C34_contour_profile (leq : ℂ → ℂ) (z : ℂ) (rho : ℝ) (w0 : ℂ) (u1 : ℝ) (h : ‖leq z - w0‖ / rho < 1) :
    brightnessProfile leq z rho w0 u1 = Real.pi * isLimb1st (‖leq z - w0‖ / rho) u1 := by
  simp only [brightnessProfile, isLimb1st, if_pos h, if_pos h.le]
  have := Real.pi_pos.ne'
  field_simp
  ring

example : (0 : ℝ) ≤ 1 / 2 ∧ (1 / 2 : ℝ) ≤ 1 ∧ isLimb1st 0 (1 / 2) = 6 / (5 * Real.pi) := by
  refine ⟨by norm_num, by norm_num, ?_⟩
  simp [isLimb1st]; ring

/-! ## C35 -/

/-- **C35**: the tangent of `in_source` is the derivative of its differentiated value along any motion of the
distance and of the radius. -/
theorem C35_in_source (D R : ℝ → ℝ) (D' R' s : ℝ) (hD : HasDerivAt D D' s) (hR : HasDerivAt R R' s)
    (hR0 : R s ≠ 0) (t : ℝ × ℝ) :
    HasDerivAt (fun s => (inSourceJvp (D s, R s) t).1) (inSourceJvp (D s, R s) (D', R')).2 s := by
  have h1 := ((hR.fun_sub hD).fun_div hR hR0).const_mul 100
  have h2 := (Real.hasDerivAt_sigmoid (100 * ((R s - D s) / R s))).comp s h1
  refine h2.congr_deriv ?_
  simp only [inSourceJvp]
  field_simp
  ring

/-- **C35**: the tangent of `step_smooth` is the derivative of the steep sigmoid `sigmoid (x fac)`. -/
theorem C35_step_smooth (X F : ℝ → ℝ) (X' F' s : ℝ) (hX : HasDerivAt X X' s) (hF : HasDerivAt F F' s) :
    HasDerivAt (fun s => 1 / (1 + Real.exp (-(X s * F s)))) (stepSmoothJvp (X s, F s) (X', F')).2 s := by
  have h2 := (Real.hasDerivAt_sigmoid (X s * F s)).comp s (hX.fun_mul hF)
  have e : (fun s => 1 / (1 + Real.exp (-(X s * F s)))) = Real.sigmoid ∘ fun s => X s * F s := by
    funext s; simp [Real.sigmoid_def]
  rw [e]
  refine h2.congr_deriv ?_
  simp only [stepSmoothJvp]
  ring

/-- **C35**: `step_smooth` is the pointwise limit of the steep sigmoids whose derivative it reports, except at zero, where
it is zero. -/
theorem C35_step_limit (x : ℝ) : (x ≠ 0 → Filter.Tendsto (fun fac : ℝ => 1 / (1 + Real.exp (-(x * fac)))) Filter.atTop
    (nhds (stepSmooth x))) ∧ stepSmooth 0 = 0 := by
  refine ⟨fun hx => ?_, by simp [stepSmooth]⟩
  rcases lt_or_gt_of_ne hx with h | h
  · have e : stepSmooth x = 0 := by simp [stepSmooth, h.le]
    rw [e]
    have h1 : Filter.Tendsto (fun fac : ℝ => -(x * fac)) Filter.atTop Filter.atTop := by
      simp only [← neg_mul]
      exact Filter.Tendsto.const_mul_atTop (by linarith) Filter.tendsto_id
    have h2 := Filter.tendsto_atTop_add_const_left Filter.atTop (1 : ℝ) (Real.tendsto_exp_atTop.comp h1)
    simp only [one_div]
    exact h2.inv_tendsto_atTop
  · have e : stepSmooth x = 1 := by simp [stepSmooth, h]
    rw [e]
    have h1 : Filter.Tendsto (fun fac : ℝ => -(x * fac)) Filter.atTop Filter.atBot :=
      Filter.tendsto_neg_atTop_atBot.comp (Filter.Tendsto.const_mul_atTop h Filter.tendsto_id)
    have h2 := (Real.tendsto_exp_atBot.comp h1).const_add 1
    have h3 := h2.inv₀ (by norm_num)
    simpa [Function.comp_def] using h3

/-- **C35**, in part: for a fixed `u1` the tangent of `Is_limb_1st` is the derivative of its differentiated value
along any motion of the distance, where `1 - d² > 1/1000`.  Missing: the derivative in `u1`
(`C35_profile_u1_violated`) and the two circles where the rule's clamp has a corner. -/
theorem C35_profile_distance_partial (D : ℝ → ℝ) (D' s u1 : ℝ) (hD : HasDerivAt D D' s)
    (hd : 1 / 1000 < 1 - D s ^ 2) (t : ℝ × ℝ) :
    HasDerivAt (fun s => (isLimb1stJvp (D s, u1) t).1) (isLimb1stJvp (D s, u1) (D', 0)).2 s := by
  have hpos : 0 < 1 - D s ^ 2 := by linarith
  have hsq : HasDerivAt (fun s => 1 - D s ^ 2) (-(2 * D s * D')) s := by
    simpa using (hD.fun_pow 2).const_sub 1
  have hmu := hsq.sqrt hpos.ne'
  have hev : ∀ᶠ x in nhds s, 1 / 1000 < 1 - D x ^ 2 := hsq.continuousAt.eventually (lt_mem_nhds hd)
  have hsig := (Real.hasDerivAt_sigmoid (100 * (1 - D s))).comp s ((hD.const_sub 1).const_mul 100)
  have hall := ((((hmu.const_sub 1).const_mul u1).const_sub 1).const_mul (3 / Real.pi / (3 - u1))).fun_mul hsig
  have hmu0 : Real.sqrt (1 - D s ^ 2) ≠ 0 := (Real.sqrt_pos.mpr hpos).ne'
  refine (hall.congr_of_eventuallyEq ?_).congr_deriv ?_
  · filter_upwards [hev] with x hx
    simp only [isLimb1stJvp, max_eq_right hx.le, Function.comp_apply]
  · simp only [isLimb1stJvp, max_eq_right hd.le, Function.comp_apply, zero_mul, zero_add]
    generalize 3 / Real.pi / (3 - u1) = c
    field_simp

/-- **C35** fails for `u1`: at every distance and every `0 ≤ u1 ≤ 1` the tangent in the direction of `u1` is not the
derivative in `u1` of the differentiated value; it is too small by `6 / π / (3 - u1)²` times the smoothed
profile. -/
theorem C35_profile_u1_violated (d u1 : ℝ) (hu : 0 ≤ u1) (hu1 : u1 ≤ 1) (t : ℝ × ℝ) :
    ∃ D' : ℝ, HasDerivAt (fun u1 => (isLimb1stJvp (d, u1) t).1) D' u1 ∧
      D' - (isLimb1stJvp (d, u1) (0, 1)).2 = 6 / Real.pi / (3 - u1) ^ 2
        * (1 - u1 * (1 - Real.sqrt (max (1 / 1000) (1 - d ^ 2)))) * Real.sigmoid (100 * (1 - d)) ∧
      D' ≠ (isLimb1stJvp (d, u1) (0, 1)).2 := by
  have h3 : 3 - u1 ≠ 0 := by linarith
  have hpi := Real.pi_pos.ne'
  set m := Real.sqrt (max (1 / 1000) (1 - d ^ 2)) with hm
  have hm0 : 0 < m := Real.sqrt_pos.mpr (by positivity)
  have hi := hasDerivAt_id' u1
  have h1 := (hasDerivAt_const u1 (3 / Real.pi)).fun_div (hi.const_sub 3) h3
  have h2 := (hi.mul_const (1 - m)).const_sub 1
  have h := (h1.fun_mul h2).mul_const (Real.sigmoid (100 * (1 - d)))
  have hdiff : ((0 * (3 - u1) - 3 / Real.pi * -1) / (3 - u1) ^ 2 * (1 - u1 * (1 - m))
      + 3 / Real.pi / (3 - u1) * -(1 * (1 - m))) * Real.sigmoid (100 * (1 - d))
      - (isLimb1stJvp (d, u1) (0, 1)).2 = 6 / Real.pi / (3 - u1) ^ 2
        * (1 - u1 * (1 - m)) * Real.sigmoid (100 * (1 - d)) := by
    simp only [isLimb1stJvp, ← hm]
    field_simp
    ring
  refine ⟨_, h, hdiff, fun heq => ?_⟩
  rw [heq, sub_self] at hdiff
  have : 0 < 6 / Real.pi / (3 - u1) ^ 2 * (1 - u1 * (1 - m)) * Real.sigmoid (100 * (1 - d)) := by
    have := prof_pos u1 m hu hu1 hm0
    have := Real.sigmoid_pos (100 * (1 - d))
    have : 0 < (3 - u1) ^ 2 := by positivity
    have := Real.pi_pos
    positivity
  linarith

/-- **C35**, in part, for `calc_facB`: below the threshold the tangent is the derivative of the weight along any
motion of the gap.  Missing: above the threshold (`C35_facB_violated`). -/
theorem C35_facB_partial (X : ℝ → ℝ) (X' s delta_c : ℝ) (hX : HasDerivAt X X' s) (h : X s < delta_c) :
    HasDerivAt (fun s => calcFacB (X s) delta_c) (calcFacBJvp (X s, delta_c) (X', 0)).2 s := by
  have h1 := (hX.const_mul (2 / 3)).add_const (1 / 2)
  refine h1.congr_of_eventuallyEq ?_
  filter_upwards [hX.continuousAt.eventually (gt_mem_nhds h)] with x hx
  simp [calcFacB, not_lt.mpr hx.le]

/-- **C35** fails for `calc_facB` at every gap above the threshold: the true derivative of the weight is strictly
smaller than the tangent 2/3. -/
theorem C35_facB_violated (delta delta_c : ℝ) (h0 : 0 < delta) (h : delta_c < delta) :
    ∃ D' : ℝ, HasDerivAt (fun d => calcFacB d delta_c) D' delta ∧ D' < (calcFacBJvp (delta, delta_c) (1, 0)).2 := by
  have hi := hasDerivAt_id' delta
  have hpos : 0 < 1 + 1 / 2 / delta := by positivity
  have h1 : HasDerivAt (fun d : ℝ => 1 + 1 / 2 / d) (-(1 / 2 / delta ^ 2)) delta := by
    have := ((hasDerivAt_const delta (1 / 2 : ℝ)).fun_div hi h0.ne').const_add 1
    refine this.congr_deriv ?_
    field_simp
    ring
  have h2 := ((h1.sqrt hpos.ne').const_mul (2 / 3)).fun_mul (hi.const_add (1 / 2))
  refine ⟨_, h2.congr_of_eventuallyEq ?_, ?_⟩
  · filter_upwards [lt_mem_nhds h] with x hx
    simp only [calcFacB, gt_iff_lt, if_pos hx]
  · simp only [calcFacBJvp]
    set s := Real.sqrt (1 + 1 / 2 / delta) with hs
    have hs1 : 1 < s := by
      rw [hs, Real.lt_sqrt (by norm_num)]
      have : 0 < 1 / 2 / delta := by positivity
      linarith
    have hs2 : s ^ 2 = 1 + 1 / 2 / delta := Real.sq_sqrt hpos.le
    have hd : delta = 1 / 2 / (s ^ 2 - 1) := by rw [hs2]; field_simp; ring
    have hne : s ^ 2 - 1 ≠ 0 := by nlinarith
    have e : 2 / 3 * (-(1 / 2 / delta ^ 2) / (2 * s)) * (1 / 2 + delta) + 2 / 3 * s * 1 = s * (3 - s ^ 2) / 3 := by
      rw [hd]
      have : s ≠ 0 := by linarith
      field_simp
      ring
    rw [e]
    have : 0 < (s - 1) ^ 2 * (s + 2) := mul_pos (pow_pos (by linarith) 2) (by linarith)
    nlinarith

/-- The hypotheses of the partial statement at a point half way to the limb. -/
example : (1 : ℝ) / 1000 < 1 - (1 / 2) ^ 2 := by norm_num

/-! ## C36 -/

/-- **C36**: above the threshold the weight times `√δ` is the exact integral of `√x` over `[0, δ + 1/2]`. -/
theorem C36_quadrature (delta delta_c : ℝ) (h0 : 0 < delta) (h : delta_c < delta) :
    calcFacB delta delta_c * Real.sqrt delta = ∫ x in (0 : ℝ)..(delta + 1 / 2), Real.sqrt x := by
  have hint : ∫ x in (0 : ℝ)..(delta + 1 / 2), Real.sqrt x
      = 2 / 3 * ((delta + 1 / 2) * Real.sqrt (delta + 1 / 2)) := by
    simp only [Real.sqrt_eq_rpow]
    rw [integral_rpow (Or.inl (by norm_num)), Real.zero_rpow (by norm_num), sub_zero]
    rw [show (1 : ℝ) / 2 + 1 = 1 + 1 / 2 by norm_num, Real.rpow_add (by linarith), Real.rpow_one]
    ring
  rw [hint, calcFacB, if_pos h]
  have : Real.sqrt (1 + 1 / 2 / delta) * Real.sqrt delta = Real.sqrt (delta + 1 / 2) := by
    rw [← Real.sqrt_mul (by positivity)]
    congr 1
    field_simp
  rw [← this]; ring

/-- **C36**: the weight is at least 1/2 at every positive gap, on either side of the threshold. -/
theorem C36_lower_bound (delta delta_c : ℝ) (h0 : 0 < delta) : 1 / 2 ≤ calcFacB delta delta_c := by
  unfold calcFacB
  split_ifs
  · have h1 : (1 : ℝ) / 2 ≤ 2 / 3 * Real.sqrt (1 + 1 / 2 / delta) * (1 / 2 + delta) := by
      apply le_of_sq_le_sq _ (by positivity)
      rw [mul_pow, mul_pow, Real.sq_sqrt (by positivity)]
      have e : (2 / 3 : ℝ) ^ 2 * (1 + 1 / 2 / delta) * (1 / 2 + delta) ^ 2
          = 4 / 9 * (delta + 1 / 2) ^ 3 / delta := by field_simp; ring
      rw [e, le_div_iff₀ h0]
      nlinarith [sq_nonneg (delta - 1 / 4), sq_nonneg (delta + 1)]
    exact h1
  · linarith

example : (0 : ℝ) < 1 / 2 ∧ (1 / 100 : ℝ) < 1 / 2 ∧ calcFacB (1 / 2) (1 / 100) = 2 / 3 * Real.sqrt 2 := by
  refine ⟨by norm_num, by norm_num, ?_⟩
  norm_num [calcFacB]

end Microjax.Props
