import Verif.Model.MagFft
import Mathlib.Analysis.Complex.ExponentialBounds

/-!
# C136: the logarithmic profile of `magnification_log`
-/

noncomputable section

namespace Microjax.Props

open MagFft Filter

/-- The logarithmic limb-darkening term `μ log μ` with `μ = sqrt(1 - r²)`, zero outside the disc: what the method `su` of
`magnification_log` computes into the array `ans` before its return statement (`mag_fft_jax.py` 338-342). -/
def logProfile (r : ℝ) : ℝ := if r < 1 then Real.sqrt (1 - r ^ 2) * Real.log (Real.sqrt (1 - r ^ 2)) else 0

/-- `y log y` is far above `x log x` when `x` is small and `x² + y² = 1`. -/
theorem xlogx_lt (x y : ℝ) (hx : 0 < x) (hx2 : x ≤ 1 / 2) (hy : 0 ≤ y) (h : x ^ 2 + y ^ 2 = 1) :
    x * Real.log x < y * Real.log y := by
  have hy0 : 0 < y := lt_of_le_of_ne hy fun e => by rw [← e] at h; nlinarith
  have hy1 : y ≤ 1 := by nlinarith
  have l1 : 1 - y⁻¹ ≤ Real.log y := Real.one_sub_inv_le_log_of_pos hy0
  have l2 : y - 1 ≤ y * Real.log y := by
    have := mul_le_mul_of_nonneg_left l1 hy
    rwa [mul_sub, mul_inv_cancel₀ hy0.ne', mul_one] at this
  have l3 : -x ^ 2 ≤ y - 1 := by nlinarith
  have l4 : Real.log x ≤ -(0.69 : ℝ) := by
    have h1 : Real.log x ≤ Real.log (1 / 2) := Real.log_le_log hx hx2
    have h2 : Real.log (1 / 2) = -Real.log 2 := by rw [one_div, Real.log_inv]
    have := Real.log_two_gt_d9
    rw [h2] at h1
    norm_num at this ⊢
    linarith
  have l5 : x * Real.log x ≤ x * -(0.69 : ℝ) := mul_le_mul_of_nonneg_left l4 hx.le
  nlinarith

/-- **C136 (violated).**  `magnification_log.su` does not return the profile it computes: outside the disc, where the source is
dark, its value is positive and grows without bound; in the inner half of the disc it is too low and near the limb too high. -/
theorem C136_log_violated (rho : ℝ) (hrho : 0 < rho) :
    (∀ u, rho < u → 0 < suLog u rho ∧ logProfile (u / rho) = 0) ∧
    Tendsto (fun u => suLog u rho) atTop atTop ∧
    (∀ u, 0 < u → u ≤ rho / 2 → suLog u rho < logProfile (u / rho)) ∧
    ∀ u, u < rho → Real.sqrt (3 / 4) * rho ≤ u → logProfile (u / rho) < suLog u rho := by
  have hpos : ∀ u, u < rho → u / rho < 1 := fun u hu => (div_lt_one hrho).mpr hu
  refine ⟨fun u hu => ?_, ?_, fun u h0 h1 => ?_, fun u h1 h2 => ?_⟩
  · have h1 : 1 < u / rho := (one_lt_div hrho).mpr hu
    exact ⟨mul_pos (by linarith) (Real.log_pos h1), if_neg h1.not_gt⟩
  · have h1 : Tendsto (fun u : ℝ => u / rho) atTop atTop := tendsto_id.atTop_div_const hrho
    exact h1.atTop_mul_atTop₀ (Real.tendsto_log_atTop.comp h1)
  · have hx : 0 < u / rho := div_pos h0 hrho
    have hx2 : u / rho ≤ 1 / 2 := by rw [div_le_iff₀ hrho]; linarith
    rw [logProfile, if_pos (by linarith)]
    refine xlogx_lt (u / rho) _ hx hx2 (Real.sqrt_nonneg _) ?_
    rw [Real.sq_sqrt (by nlinarith)]
    ring
  · have h3 : Real.sqrt (3 / 4) ≤ u / rho := by rwa [le_div_iff₀ hrho]
    have hx1 := hpos u h1
    have h4 : 3 / 4 ≤ (u / rho) ^ 2 := by
      have := mul_self_le_mul_self (Real.sqrt_nonneg _) h3
      rw [Real.mul_self_sqrt (by norm_num)] at this
      linarith [sq (u / rho)]
    have hx0 : 0 ≤ u / rho := (Real.sqrt_nonneg _).trans h3
    have h5 : 0 < 1 - (u / rho) ^ 2 := by nlinarith
    rw [logProfile, if_pos hx1]
    refine xlogx_lt _ (u / rho) (Real.sqrt_pos.mpr h5) ?_ hx0 ?_
    · rw [Real.sqrt_le_left (by norm_num)]
      norm_num
      linarith
    · rw [Real.sq_sqrt h5.le]
      ring

/-- **C136 (partial).**  Inside the disc the returned value is the intended profile with the radius `r` and `μ = sqrt(1 - r²)`
exchanged; so the two agree at `r = μ = 1/√2`, and at the limb. -/
theorem C136_log_partial (rho u : ℝ) (hrho : 0 < rho) (h0 : 0 < u) (h1 : u ≤ rho) :
    suLog u rho = logProfile (Real.sqrt (1 - (u / rho) ^ 2)) ∧ suLog u rho ≤ 0 ∧
    (2 * u ^ 2 = rho ^ 2 ∨ u = rho → suLog u rho = logProfile (u / rho)) := by
  have hx : 0 < u / rho := div_pos h0 hrho
  have hx1 : u / rho ≤ 1 := (div_le_one hrho).mpr h1
  have h2 : (0 : ℝ) ≤ 1 - (u / rho) ^ 2 := by nlinarith
  have e : suLog u rho = logProfile (Real.sqrt (1 - (u / rho) ^ 2)) := by
    rw [logProfile, if_pos, Real.sq_sqrt h2]
    · rw [sub_sub_cancel, Real.sqrt_sq hx.le]
      rfl
    · rw [Real.sqrt_lt' one_pos]
      nlinarith [pow_pos hx 2]
  refine ⟨e, mul_nonpos_of_nonneg_of_nonpos hx.le (Real.log_nonpos hx.le hx1), ?_⟩
  rintro (h | rfl)
  · rw [e]
    congr 1
    have h3 : (u / rho) ^ 2 = 1 / 2 := by
      rw [div_pow, ← h]
      field_simp
    rw [show 1 - (u / rho) ^ 2 = (u / rho) ^ 2 by rw [h3]; norm_num, Real.sqrt_sq hx.le]
  · simp [suLog, logProfile, div_self hrho.ne']

/-- A source of radius 0.1: at twice the radius the code's profile is positive, at a quarter of it too low. -/
example : 0 < suLog (1 / 5) (1 / 10) ∧ suLog (1 / 40) (1 / 10) < logProfile (1 / 40 / (1 / 10)) :=
  ⟨((C136_log_violated (1 / 10) (by norm_num)).1 (1 / 5) (by norm_num)).1,
    (C136_log_violated (1 / 10) (by norm_num)).2.2.1 (1 / 40) (by norm_num) (by norm_num)⟩

end Microjax.Props
