import Verif.Model.Special
import Mathlib.Analysis.SpecialFunctions.Stirling
import Mathlib.Analysis.SpecialFunctions.Gamma.Beta
import Mathlib.Analysis.SpecialFunctions.Complex.LogBounds
import Mathlib.Analysis.SpecialFunctions.Complex.Arg
import Mathlib.Analysis.SpecificLimits.Normed
import Mathlib.Tactic.LinearCombination

/-!
# Error of the truncated Stirling series in the right half plane
-/

noncomputable section

namespace Microjax.Props

open Special Filter Topology
open scoped Nat

/-- Logarithm of Stirling's approximation with `K` correction terms. -/
def logS (K : ℕ) (w : ℂ) : ℂ :=
  (Real.log (2 * Real.pi) / 2 : ℝ) - w + (w - 1 / 2) * Complex.log w
    + ∑ k ∈ Finset.range K, ((stirling.getD k 0 : ℝ) : ℂ) / w ^ (2 * k + 1)

/-- The defect of the functional equation. -/
def defect (K : ℕ) (w : ℂ) : ℂ := logS K (w + 1) - logS K w - Complex.log w

theorem log_add_one_sub (w : ℂ) (hw : 0 < w.re) (s : ℂ) (hs : s = (2 * w + 1)⁻¹) (hs1 : ‖s‖ < 1) :
    Complex.log (w + 1) - Complex.log w = Complex.log (1 + s) - Complex.log (1 + -s) := by
  have h2 : (2 * w + 1) ≠ 0 := by
    intro h
    have := congrArg Complex.re h
    simp at this
    linarith
  have hw0 : w ≠ 0 := by intro h; rw [h] at hw; simp at hw
  have hw1 : w + 1 ≠ 0 := by
    intro h
    have := congrArg Complex.re h
    simp at this
    linarith
  have hre : |s.re| < 1 := (Complex.abs_re_le_norm s).trans_lt hs1
  rw [abs_lt] at hre
  have p1 : 0 < (1 + s).re := by simp; linarith
  have p2 : 0 < (1 + -s).re := by simp; linarith
  have p3 : 0 < (w + 1).re := by simp; linarith
  have a1 := abs_lt.mp (Complex.abs_arg_lt_pi_div_two_iff.mpr (Or.inl p1))
  have a2 := abs_lt.mp (Complex.abs_arg_lt_pi_div_two_iff.mpr (Or.inl p2))
  have a3 := abs_lt.mp (Complex.abs_arg_lt_pi_div_two_iff.mpr (Or.inl p3))
  have a4 := abs_lt.mp (Complex.abs_arg_lt_pi_div_two_iff.mpr (Or.inl hw))
  have n1 : 1 + s ≠ 0 := by intro h; rw [h] at p1; simp at p1
  have n2 : 1 + -s ≠ 0 := by intro h; rw [h] at p2; simp at p2
  refine Complex.exp_inj_of_neg_pi_lt_of_le_pi ?_ ?_ ?_ ?_ ?_
  · rw [Complex.sub_im, Complex.log_im, Complex.log_im]; linarith [a3.1, a4.2]
  · rw [Complex.sub_im, Complex.log_im, Complex.log_im]; linarith [a3.2, a4.1]
  · rw [Complex.sub_im, Complex.log_im, Complex.log_im]; linarith [a1.1, a2.2]
  · rw [Complex.sub_im, Complex.log_im, Complex.log_im]; linarith [a1.2, a2.1]
  · rw [Complex.exp_sub, Complex.exp_sub, Complex.exp_log hw1, Complex.exp_log hw0, Complex.exp_log n1,
      Complex.exp_log n2, div_eq_div_iff hw0 n2]
    have hsw : s * (2 * w + 1) = 1 := by rw [hs]; exact inv_mul_cancel₀ h2
    linear_combination -hsw

/-- The defect through `s = 1/(2w+1)`: a truncated logarithm and a rational function. -/
theorem defect_eq (K : ℕ) (w : ℂ) (hw : 0 < w.re) (s : ℂ) (hs : s = (2 * w + 1)⁻¹) (hs1 : ‖s‖ < 1) :
    defect K w = (Complex.log (1 + s) - Complex.log (1 + -s)) / (2 * s) - 1
      + ∑ k ∈ Finset.range K, ((stirling.getD k 0 : ℝ) : ℂ)
        * ((2 * s / (1 + s)) ^ (2 * k + 1) - (2 * s / (1 + -s)) ^ (2 * k + 1)) := by
  have h2 : (2 * w + 1) ≠ 0 := by
    intro h
    have := congrArg Complex.re h
    simp at this
    linarith
  have hw0 : w ≠ 0 := by intro h; rw [h] at hw; simp at hw
  have hw1 : w + 1 ≠ 0 := by
    intro h
    have := congrArg Complex.re h
    simp at this
    linarith
  have e1 : 2 * s / (1 + s) = (w + 1)⁻¹ := by
    have : 1 + s = (2 * (w + 1)) * s := by rw [hs]; field_simp; ring
    rw [this, hs]; field_simp
  have e2 : 2 * s / (1 + -s) = w⁻¹ := by
    have : 1 + -s = (2 * w) * s := by rw [hs]; field_simp; ring
    rw [this, hs]; field_simp
  have e3 : (Complex.log (1 + s) - Complex.log (1 + -s)) / (2 * s) = (w + 1 / 2) * (Complex.log (w + 1) - Complex.log w) := by
    rw [log_add_one_sub w hw s hs hs1, hs]; field_simp
  rw [e1, e2, e3, defect, logS, logS]
  simp only [inv_pow, mul_sub, Finset.sum_sub_distrib, ← div_eq_mul_inv]
  ring

theorem log_trunc (K : ℕ) (s : ℂ) (hs0 : s ≠ 0) (hs : ‖s‖ ≤ 1 / 30) :
    ‖(Complex.log (1 + s) - Complex.log (1 + -s)) / (2 * s)
      - (Complex.logTaylor (2 * K + 3) s - Complex.logTaylor (2 * K + 3) (-s)) / (2 * s)‖ ≤ 30 / 29 / (2 * K + 3) * ‖s‖ ^ (2 * K + 2) := by
  have hs1 : ‖s‖ < 1 := by linarith
  have h1 := Complex.norm_log_sub_logTaylor_le (2 * K + 2) hs1
  have h2 := Complex.norm_log_sub_logTaylor_le (2 * K + 2) (z := -s) (by rwa [norm_neg])
  rw [norm_neg] at h2
  have hp : 0 < ‖s‖ := norm_pos_iff.mpr hs0
  rw [← sub_div, norm_div, norm_mul, Complex.norm_two, div_le_iff₀ (by positivity)]
  have e : Complex.log (1 + s) - Complex.log (1 + -s) - (Complex.logTaylor (2 * K + 3) s - Complex.logTaylor (2 * K + 3) (-s))
      = (Complex.log (1 + s) - Complex.logTaylor (2 * K + 2 + 1) s) - (Complex.log (1 + -s) - Complex.logTaylor (2 * K + 2 + 1) (-s)) := by
    ring
  rw [e]
  refine (norm_sub_le _ _).trans ((add_le_add h1 h2).trans ?_)
  have hi : (1 - ‖s‖)⁻¹ ≤ 30 / 29 := by
    rw [inv_le_comm₀ (by linarith) (by norm_num)]
    linarith
  push_cast
  have hk : (0 : ℝ) < 2 * K + 3 := by positivity
  calc ‖s‖ ^ (2 * K + 2 + 1) * (1 - ‖s‖)⁻¹ / (2 * K + 2 + 1) + ‖s‖ ^ (2 * K + 2 + 1) * (1 - ‖s‖)⁻¹ / (2 * K + 2 + 1)
      ≤ ‖s‖ ^ (2 * K + 2 + 1) * (30 / 29) / (2 * K + 2 + 1) + ‖s‖ ^ (2 * K + 2 + 1) * (30 / 29) / (2 * K + 2 + 1) := by gcongr
    _ = 30 / 29 / (2 * K + 3) * ‖s‖ ^ (2 * K + 2) * (2 * ‖s‖) := by
      rw [pow_succ ‖s‖ (2 * K + 2), show (2 * (K : ℝ) + 2 + 1) = 2 * K + 3 by ring]
      ring

theorem one_sub_sq_lower (s : ℂ) (hs : ‖s‖ ≤ 1 / 30) : 1 - 1 / 900 ≤ ‖1 - s ^ 2‖ := by
  have h := norm_sub_norm_le (1 : ℂ) (s ^ 2)
  rw [norm_one, norm_pow] at h
  have : ‖s‖ ^ 2 ≤ (1 / 30) ^ 2 := by gcongr
  norm_num at this ⊢
  linarith

/-- Five correction terms. -/
theorem defect_five (w : ℂ) (hw : 0 < w.re) (hs : ‖(2 * w + 1)⁻¹‖ ≤ 1 / 30) :
    ‖defect 5 w‖ ≤ 88 * ‖(2 * w + 1)⁻¹‖ ^ 12 := by
  have h2 : (2 * w + 1) ≠ 0 := by
    intro h
    have := congrArg Complex.re h
    simp at this
    linarith
  have hs0 : (2 * w + 1)⁻¹ ≠ 0 := inv_ne_zero h2
  rw [defect_eq 5 w hw _ rfl (by linarith)]
  generalize (2 * w + 1)⁻¹ = s at *
  have ht := log_trunc 5 s hs0 hs
  have hl := one_sub_sq_lower s hs
  have hsq : 1 - s ^ 2 ≠ 0 := by
    intro h; rw [h, norm_zero] at hl; norm_num at hl
  have n1 : 1 + s ≠ 0 := by intro h; exact hsq (by linear_combination (1 - s) * h)
  have n2 : 1 + -s ≠ 0 := by intro h; exact hsq (by linear_combination (1 + s) * h)
  have hl' : (Complex.logTaylor (2 * 5 + 3) s - Complex.logTaylor (2 * 5 + 3) (-s)) / (2 * s) - 1
      = s ^ 2 / 3 + s ^ 4 / 5 + s ^ 6 / 7 + s ^ 8 / 9 + s ^ 10 / 11 := by
    simp only [Complex.logTaylor, Finset.sum_range_succ, Finset.sum_range_zero]
    push_cast
    field_simp
    ring
  have ht' : ∀ m : ℕ, m ≤ 9 → (2 * s / (1 + s)) ^ m - (2 * s / (1 + -s)) ^ m
      = (2 * s) ^ m * ((1 + -s) ^ m - (1 + s) ^ m) * (1 - s ^ 2) ^ (9 - m) / (1 - s ^ 2) ^ 9 := by
    intro m hm
    have e : (1 - s ^ 2) ^ 9 = (1 + s) ^ m * (1 + -s) ^ m * (1 - s ^ 2) ^ (9 - m) := by
      rw [← mul_pow, show (1 + s) * (1 + -s) = 1 - s ^ 2 by ring, ← pow_add, Nat.add_sub_cancel' hm]
    rw [e, div_pow, div_pow]
    field_simp
  have key : (Complex.logTaylor (2 * 5 + 3) s - Complex.logTaylor (2 * 5 + 3) (-s)) / (2 * s) - 1
      + ∑ k ∈ Finset.range 5, ((stirling.getD k 0 : ℝ) : ℂ)
        * ((2 * s / (1 + s)) ^ (2 * k + 1) - (2 * s / (1 + -s)) ^ (2 * k + 1))
      = s ^ 12 * (-27239 / 315 - 32374 / 315 * s ^ 2 - 1146 / 35 * s ^ 4 + 3974 / 945 * s ^ 6 - 2232 / 385 * s ^ 8 + 1818 / 385 * s ^ 10 - 186 / 77 * s ^ 12 + 70 / 99 * s ^ 14 - 1 / 11 * s ^ 16) / (1 - s ^ 2) ^ 9 := by
    rw [hl', eq_div_iff (pow_ne_zero _ hsq), add_mul, Finset.sum_mul]
    have e : ∀ k ∈ Finset.range 5, ((stirling.getD k 0 : ℝ) : ℂ)
        * ((2 * s / (1 + s)) ^ (2 * k + 1) - (2 * s / (1 + -s)) ^ (2 * k + 1)) * (1 - s ^ 2) ^ 9
        = ((stirling.getD k 0 : ℝ) : ℂ)
          * ((2 * s) ^ (2 * k + 1) * ((1 + -s) ^ (2 * k + 1) - (1 + s) ^ (2 * k + 1)) * (1 - s ^ 2) ^ (9 - (2 * k + 1))) := by
      intro k hk
      have hk' := Finset.mem_range.mp hk
      rw [ht' _ (by omega), mul_assoc, div_mul_cancel₀ _ (pow_ne_zero _ hsq)]
    rw [Finset.sum_congr rfl e]
    simp only [Finset.sum_range_succ, Finset.sum_range_zero, stirling, List.getD_cons_zero, List.getD_cons_succ]
    push_cast
    ring
  have hpw : ∀ m : ℕ, ‖s ^ m‖ ≤ (1 / 30) ^ m := by
    intro m; rw [norm_pow]; gcongr
  have hq : ‖-27239 / 315 - 32374 / 315 * s ^ 2 - 1146 / 35 * s ^ 4 + 3974 / 945 * s ^ 6 - 2232 / 385 * s ^ 8 + 1818 / 385 * s ^ 10 - 186 / 77 * s ^ 12 + 70 / 99 * s ^ 14 - 1 / 11 * s ^ 16‖ ≤ 86.7 := by
    have hq1 : ‖-27239 / 315 - 32374 / 315 * s ^ 2 - 1146 / 35 * s ^ 4 + 3974 / 945 * s ^ 6 - 2232 / 385 * s ^ 8 + 1818 / 385 * s ^ 10 - 186 / 77 * s ^ 12 + 70 / 99 * s ^ 14 - 1 / 11 * s ^ 16‖
        ≤ ‖(-27239 / 315 : ℂ)‖ + ‖(32374 / 315 : ℂ)‖ * (1 / 30) ^ 2 + ‖(1146 / 35 : ℂ)‖ * (1 / 30) ^ 4 + ‖(3974 / 945 : ℂ)‖ * (1 / 30) ^ 6 + ‖(2232 / 385 : ℂ)‖ * (1 / 30) ^ 8 + ‖(1818 / 385 : ℂ)‖ * (1 / 30) ^ 10 + ‖(186 / 77 : ℂ)‖ * (1 / 30) ^ 12 + ‖(70 / 99 : ℂ)‖ * (1 / 30) ^ 14 + ‖(1 / 11 : ℂ)‖ * (1 / 30) ^ 16 := by
      repeat'
        first
        | refine (norm_sub_le _ _).trans (add_le_add ?_ ?_)
        | refine (norm_add_le _ _).trans (add_le_add ?_ ?_)
        | exact le_rfl
        | (rw [norm_mul]; exact mul_le_mul_of_nonneg_left (hpw _) (norm_nonneg _))
    refine hq1.trans ?_
    simp only [norm_div, norm_neg, RCLike.norm_ofNat, norm_one]
    norm_num
  rw [show (Complex.log (1 + s) - Complex.log (1 + -s)) / (2 * s) - 1
      + ∑ k ∈ Finset.range 5, ((stirling.getD k 0 : ℝ) : ℂ)
        * ((2 * s / (1 + s)) ^ (2 * k + 1) - (2 * s / (1 + -s)) ^ (2 * k + 1))
      = ((Complex.log (1 + s) - Complex.log (1 + -s)) / (2 * s)
        - (Complex.logTaylor (2 * 5 + 3) s - Complex.logTaylor (2 * 5 + 3) (-s)) / (2 * s))
      + ((Complex.logTaylor (2 * 5 + 3) s - Complex.logTaylor (2 * 5 + 3) (-s)) / (2 * s) - 1
      + ∑ k ∈ Finset.range 5, ((stirling.getD k 0 : ℝ) : ℂ)
        * ((2 * s / (1 + s)) ^ (2 * k + 1) - (2 * s / (1 + -s)) ^ (2 * k + 1))) by ring, key]
  refine (norm_add_le _ _).trans ?_
  rw [norm_div, norm_mul, norm_pow, norm_pow]
  have hb : ‖s‖ ^ 12 * ‖-27239 / 315 - 32374 / 315 * s ^ 2 - 1146 / 35 * s ^ 4 + 3974 / 945 * s ^ 6 - 2232 / 385 * s ^ 8 + 1818 / 385 * s ^ 10 - 186 / 77 * s ^ 12 + 70 / 99 * s ^ 14 - 1 / 11 * s ^ 16‖ / ‖1 - s ^ 2‖ ^ 9
      ≤ ‖s‖ ^ 12 * 86.7 / (1 - 1 / 900) ^ 9 := by gcongr
  have hn : 0 ≤ ‖s‖ ^ 12 := by positivity
  norm_num at ht hb ⊢
  linarith

/-- Three correction terms. -/
theorem defect_three (w : ℂ) (hw : 0 < w.re) (hs : ‖(2 * w + 1)⁻¹‖ ≤ 1 / 30) :
    ‖defect 3 w‖ ≤ 1.4 * ‖(2 * w + 1)⁻¹‖ ^ 8 := by
  have h2 : (2 * w + 1) ≠ 0 := by
    intro h
    have := congrArg Complex.re h
    simp at this
    linarith
  have hs0 : (2 * w + 1)⁻¹ ≠ 0 := inv_ne_zero h2
  rw [defect_eq 3 w hw _ rfl (by linarith)]
  generalize (2 * w + 1)⁻¹ = s at *
  have ht := log_trunc 3 s hs0 hs
  have hl := one_sub_sq_lower s hs
  have hsq : 1 - s ^ 2 ≠ 0 := by
    intro h; rw [h, norm_zero] at hl; norm_num at hl
  have n1 : 1 + s ≠ 0 := by intro h; exact hsq (by linear_combination (1 - s) * h)
  have n2 : 1 + -s ≠ 0 := by intro h; exact hsq (by linear_combination (1 + s) * h)
  have hl' : (Complex.logTaylor (2 * 3 + 3) s - Complex.logTaylor (2 * 3 + 3) (-s)) / (2 * s) - 1
      = s ^ 2 / 3 + s ^ 4 / 5 + s ^ 6 / 7 := by
    simp only [Complex.logTaylor, Finset.sum_range_succ, Finset.sum_range_zero]
    push_cast
    field_simp
    ring
  have ht' : ∀ m : ℕ, m ≤ 5 → (2 * s / (1 + s)) ^ m - (2 * s / (1 + -s)) ^ m
      = (2 * s) ^ m * ((1 + -s) ^ m - (1 + s) ^ m) * (1 - s ^ 2) ^ (5 - m) / (1 - s ^ 2) ^ 5 := by
    intro m hm
    have e : (1 - s ^ 2) ^ 5 = (1 + s) ^ m * (1 + -s) ^ m * (1 - s ^ 2) ^ (5 - m) := by
      rw [← mul_pow, show (1 + s) * (1 + -s) = 1 - s ^ 2 by ring, ← pow_add, Nat.add_sub_cancel' hm]
    rw [e, div_pow, div_pow]
    field_simp
  have key : (Complex.logTaylor (2 * 3 + 3) s - Complex.logTaylor (2 * 3 + 3) (-s)) / (2 * s) - 1
      + ∑ k ∈ Finset.range 3, ((stirling.getD k 0 : ℝ) : ℂ)
        * ((2 * s / (1 + s)) ^ (2 * k + 1) - (2 * s / (1 + -s)) ^ (2 * k + 1))
      = s ^ 8 * (-53 / 45 + 34 / 45 * s ^ 2 - 16 / 21 * s ^ 4 + 18 / 35 * s ^ 6 - 1 / 7 * s ^ 8) / (1 - s ^ 2) ^ 5 := by
    rw [hl', eq_div_iff (pow_ne_zero _ hsq), add_mul, Finset.sum_mul]
    have e : ∀ k ∈ Finset.range 3, ((stirling.getD k 0 : ℝ) : ℂ)
        * ((2 * s / (1 + s)) ^ (2 * k + 1) - (2 * s / (1 + -s)) ^ (2 * k + 1)) * (1 - s ^ 2) ^ 5
        = ((stirling.getD k 0 : ℝ) : ℂ)
          * ((2 * s) ^ (2 * k + 1) * ((1 + -s) ^ (2 * k + 1) - (1 + s) ^ (2 * k + 1)) * (1 - s ^ 2) ^ (5 - (2 * k + 1))) := by
      intro k hk
      have hk' := Finset.mem_range.mp hk
      rw [ht' _ (by omega), mul_assoc, div_mul_cancel₀ _ (pow_ne_zero _ hsq)]
    rw [Finset.sum_congr rfl e]
    simp only [Finset.sum_range_succ, Finset.sum_range_zero, stirling, List.getD_cons_zero, List.getD_cons_succ]
    push_cast
    ring
  have hpw : ∀ m : ℕ, ‖s ^ m‖ ≤ (1 / 30) ^ m := by
    intro m; rw [norm_pow]; gcongr
  have hq : ‖-53 / 45 + 34 / 45 * s ^ 2 - 16 / 21 * s ^ 4 + 18 / 35 * s ^ 6 - 1 / 7 * s ^ 8‖ ≤ 1.18 := by
    have hq1 : ‖-53 / 45 + 34 / 45 * s ^ 2 - 16 / 21 * s ^ 4 + 18 / 35 * s ^ 6 - 1 / 7 * s ^ 8‖
        ≤ ‖(-53 / 45 : ℂ)‖ + ‖(34 / 45 : ℂ)‖ * (1 / 30) ^ 2 + ‖(16 / 21 : ℂ)‖ * (1 / 30) ^ 4 + ‖(18 / 35 : ℂ)‖ * (1 / 30) ^ 6 + ‖(1 / 7 : ℂ)‖ * (1 / 30) ^ 8 := by
      repeat'
        first
        | refine (norm_sub_le _ _).trans (add_le_add ?_ ?_)
        | refine (norm_add_le _ _).trans (add_le_add ?_ ?_)
        | exact le_rfl
        | (rw [norm_mul]; exact mul_le_mul_of_nonneg_left (hpw _) (norm_nonneg _))
    refine hq1.trans ?_
    simp only [norm_div, norm_neg, RCLike.norm_ofNat, norm_one]
    norm_num
  rw [show (Complex.log (1 + s) - Complex.log (1 + -s)) / (2 * s) - 1
      + ∑ k ∈ Finset.range 3, ((stirling.getD k 0 : ℝ) : ℂ)
        * ((2 * s / (1 + s)) ^ (2 * k + 1) - (2 * s / (1 + -s)) ^ (2 * k + 1))
      = ((Complex.log (1 + s) - Complex.log (1 + -s)) / (2 * s)
        - (Complex.logTaylor (2 * 3 + 3) s - Complex.logTaylor (2 * 3 + 3) (-s)) / (2 * s))
      + ((Complex.logTaylor (2 * 3 + 3) s - Complex.logTaylor (2 * 3 + 3) (-s)) / (2 * s) - 1
      + ∑ k ∈ Finset.range 3, ((stirling.getD k 0 : ℝ) : ℂ)
        * ((2 * s / (1 + s)) ^ (2 * k + 1) - (2 * s / (1 + -s)) ^ (2 * k + 1))) by ring, key]
  refine (norm_add_le _ _).trans ?_
  rw [norm_div, norm_mul, norm_pow, norm_pow]
  have hb : ‖s‖ ^ 8 * ‖-53 / 45 + 34 / 45 * s ^ 2 - 16 / 21 * s ^ 4 + 18 / 35 * s ^ 6 - 1 / 7 * s ^ 8‖ / ‖1 - s ^ 2‖ ^ 5
      ≤ ‖s‖ ^ 8 * 1.18 / (1 - 1 / 900) ^ 5 := by gcongr
  have hn : 0 ≤ ‖s‖ ^ 8 := by positivity
  norm_num at ht hb ⊢
  linarith

/-! ### The limit -/

theorem tendsto_inv_add (w : ℂ) : Tendsto (fun n : ℕ => (w + n + 1)⁻¹) atTop (𝓝 0) := by
  have h : Tendsto (fun n : ℕ => ‖w + n + 1‖) atTop atTop := by
    refine tendsto_atTop_mono (f := fun n : ℕ => (n : ℝ) + (-‖w + 1‖)) (fun n => ?_)
      (tendsto_atTop_add_const_right _ _ tendsto_natCast_atTop_atTop)
    have := norm_sub_norm_le (n : ℂ) (-(w + 1))
    rw [norm_neg, Complex.norm_natCast, sub_neg_eq_add] at this
    rw [show w + n + 1 = n + (w + 1) by ring]
    linarith
  exact tendsto_inv₀_cobounded.comp (tendsto_norm_atTop_iff_cobounded.mp h)

theorem tendsto_corr (K : ℕ) (w : ℂ) :
    Tendsto (fun n : ℕ => ∑ k ∈ Finset.range K, ((stirling.getD k 0 : ℝ) : ℂ) / (w + n + 1) ^ (2 * k + 1)) atTop (𝓝 0) := by
  have h : Tendsto (fun n : ℕ => ∑ k ∈ Finset.range K, ((stirling.getD k 0 : ℝ) : ℂ) / (w + n + 1) ^ (2 * k + 1)) atTop
      (𝓝 (∑ k ∈ Finset.range K, (0 : ℂ))) := by
    refine tendsto_finsetSum _ fun k _ => ?_
    have := ((tendsto_inv_add w).pow (2 * k + 1)).const_mul ((stirling.getD k 0 : ℝ) : ℂ)
    rw [zero_pow (by omega), mul_zero] at this
    refine this.congr fun n => ?_
    rw [inv_pow, div_eq_mul_inv]
  simpa using h

/-- The exponent that remains after the factors of `n^w n!` are taken out. -/
theorem tendsto_exponent (K : ℕ) (w : ℂ) :
    Tendsto (fun n : ℕ => ((Real.log (2 * Real.pi) / 2 : ℝ) : ℂ) - (Real.log 2 / 2 : ℝ) - (w + 1)
      + (w + n + 1 / 2) * Complex.log (1 + (w + 1) / n)
      + ∑ k ∈ Finset.range K, ((stirling.getD k 0 : ℝ) : ℂ) / (w + n + 1) ^ (2 * k + 1)) atTop (𝓝 (Real.log Real.pi / 2 : ℝ)) := by
  have hg : Tendsto (fun n : ℕ => (n : ℂ) * ((w + 1) / n)) atTop (𝓝 (w + 1)) := by
    refine tendsto_const_nhds.congr' ?_
    filter_upwards [eventually_ne_atTop 0] with n hn
    have : (n : ℂ) ≠ 0 := by exact_mod_cast hn
    field_simp
  have h1 := Complex.tendsto_nat_mul_log_one_add_of_tendsto hg
  have h0 : Tendsto (fun n : ℕ => (w + 1 / 2) * Complex.log (1 + (w + 1) / n)) atTop (𝓝 0) := by
    have := (h1.mul (tendsto_inv_atTop_nhds_zero_nat (𝕜 := ℂ))).const_mul (w + 1 / 2)
    rw [mul_zero, mul_zero] at this
    refine this.congr' ?_
    filter_upwards [eventually_ne_atTop 0] with n hn
    have : (n : ℂ) ≠ 0 := by exact_mod_cast hn
    field_simp
  have h := ((tendsto_const_nhds (x := ((Real.log (2 * Real.pi) / 2 : ℝ) : ℂ) - (Real.log 2 / 2 : ℝ) - (w + 1))).add
    (h1.add h0)).add (tendsto_corr K w)
  have e : ((Real.log (2 * Real.pi) / 2 : ℝ) : ℂ) - (Real.log 2 / 2 : ℝ) - (w + 1) + (w + 1 + 0) + 0 = (Real.log Real.pi / 2 : ℝ) := by
    rw [Real.log_mul two_ne_zero Real.pi_ne_zero]
    push_cast
    ring
  rw [e] at h
  refine h.congr fun n => ?_
  ring

theorem Gamma_shift' (w : ℂ) (hw : 0 < w.re) (n : ℕ) :
    Complex.Gamma (w + n) = Complex.Gamma w * ∏ j ∈ Finset.range n, (w + j) := by
  induction n with
  | zero => simp
  | succ n ih =>
    have hne : w + n ≠ 0 := by
      intro h
      have := congrArg Complex.re h
      simp at this
      have hn : (0 : ℝ) ≤ n := Nat.cast_nonneg n
      linarith
    rw [Finset.prod_range_succ, ← mul_assoc, ← ih, Nat.cast_succ, ← add_assoc, Complex.Gamma_add_one _ hne, mul_comm]

/-- Stirling's formula for complex arguments going to infinity to the right. -/
theorem tendsto_stirling (K : ℕ) (w : ℂ) (hw : 0 < w.re) :
    Tendsto (fun n : ℕ => Complex.exp (logS K (w + n + 1)) / Complex.Gamma (w + n + 1)) atTop (𝓝 1) := by
  have hG := Complex.GammaSeq_tendsto_Gamma w
  have hG0 : Complex.Gamma w ≠ 0 := Complex.Gamma_ne_zero_of_re_pos hw
  have hS : Tendsto (fun n : ℕ => ((Stirling.stirlingSeq n : ℝ) : ℂ)) atTop (𝓝 ((Real.sqrt Real.pi : ℝ) : ℂ)) :=
    (Complex.continuous_ofReal.tendsto _).comp Stirling.tendsto_stirlingSeq_sqrt_pi
  have hE := (Complex.continuous_exp.tendsto _).comp (tendsto_exponent K w)
  have hpi : Complex.exp ((Real.log Real.pi / 2 : ℝ) : ℂ) = ((Real.sqrt Real.pi : ℝ) : ℂ) := by
    rw [← Complex.ofReal_exp, Real.sqrt_eq_rpow, Real.rpow_def_of_pos Real.pi_pos]
    congr 2
    ring
  rw [hpi] at hE
  have hp : ((Real.sqrt Real.pi : ℝ) : ℂ) ≠ 0 := by
    exact_mod_cast (Real.sqrt_pos.mpr Real.pi_pos).ne'
  have h := (hE.mul (hG.div_const (Complex.Gamma w))).div hS hp
  rw [div_self hG0, mul_one, div_self hp] at h
  refine h.congr' ?_
  filter_upwards [eventually_gt_atTop 0] with n hn
  have hn0 : (0 : ℝ) < n := by exact_mod_cast hn
  have hnC : (n : ℂ) ≠ 0 := by exact_mod_cast hn.ne'
  have hprod : ∏ j ∈ Finset.range (n + 1), (w + j) ≠ 0 := by
    rw [Finset.prod_ne_zero_iff]
    intro j _ h
    have := congrArg Complex.re h
    simp at this
    have hj : (0 : ℝ) ≤ j := Nat.cast_nonneg j
    linarith
  have hgam : Complex.Gamma (w + n + 1) = Complex.Gamma w * ∏ j ∈ Finset.range (n + 1), (w + j) := by
    rw [← Gamma_shift' w hw (n + 1)]
    congr 1
    push_cast
    ring
  have hlog : Complex.log (w + n + 1) = (Real.log n : ℝ) + Complex.log (1 + (w + 1) / n) := by
    have hne : 1 + (w + 1) / (n : ℂ) ≠ 0 := by
      intro h
      have h1 : w + n + 1 = 0 := by
        have : (n : ℂ) * (1 + (w + 1) / n) = 0 := by rw [h, mul_zero]
        field_simp at this
        linear_combination this
      have := congrArg Complex.re h1
      simp at this
      linarith
    rw [← Complex.log_ofReal_mul hn0 hne]
    congr 1
    push_cast
    field_simp
    ring
  have hseq : ((Stirling.stirlingSeq n : ℝ) : ℂ) = (n ! : ℂ)
      / Complex.exp (((Real.log 2 + Real.log n) / 2 + (n * Real.log n - n) : ℝ)) := by
    have e1 : Real.sqrt (2 * n : ℝ) = Real.exp ((Real.log 2 + Real.log n) / 2) := by
      rw [Real.sqrt_eq_rpow, Real.rpow_def_of_pos (by positivity), Real.log_mul two_ne_zero hn0.ne']
      congr 1
      ring
    have e2 : ((n : ℝ) / Real.exp 1) ^ n = Real.exp (n * Real.log n - n) := by
      rw [div_pow, ← Real.exp_nat_mul, mul_one, Real.exp_sub, mul_comm (n : ℝ), Real.exp_mul, Real.exp_log hn0,
        Real.rpow_natCast]
    rw [Stirling.stirlingSeq, e1, e2, ← Real.exp_add]
    push_cast
    rfl
  have hpow : (n : ℂ) ^ w = Complex.exp (w * (Real.log n : ℝ)) := by
    rw [Complex.cpow_def_of_ne_zero hnC, ← Complex.natCast_log, mul_comm]
  simp only [Function.comp, Pi.div_apply, Complex.GammaSeq]
  rw [hgam, hseq, hpow, logS, hlog]
  have hf : (n ! : ℂ) ≠ 0 := by exact_mod_cast Nat.factorial_ne_zero n
  have hx : Complex.exp (((Real.log (2 * Real.pi) / 2 : ℝ) : ℂ) - (w + n + 1) + (w + n + 1 - 1 / 2) * ((Real.log n : ℝ)
        + Complex.log (1 + (w + 1) / n))
      + ∑ k ∈ Finset.range K, ((stirling.getD k 0 : ℝ) : ℂ) / (w + n + 1) ^ (2 * k + 1))
      = Complex.exp (((Real.log (2 * Real.pi) / 2 : ℝ) : ℂ) - (Real.log 2 / 2 : ℝ) - (w + 1)
      + (w + n + 1 / 2) * Complex.log (1 + (w + 1) / n)
      + ∑ k ∈ Finset.range K, ((stirling.getD k 0 : ℝ) : ℂ) / (w + n + 1) ^ (2 * k + 1))
      * (Complex.exp (w * (Real.log n : ℝ)) * Complex.exp (((Real.log 2 + Real.log n) / 2 + (n * Real.log n - n) : ℝ))) := by
    rw [← Complex.exp_add, ← Complex.exp_add]
    congr 1
    push_cast
    ring
  rw [hx]
  field_simp

/-! ### The error -/

theorem defect_sum (K : ℕ) (w : ℂ) (hw : 0 < w.re) (M : ℕ) :
    Complex.exp (logS K (w + M)) / Complex.Gamma (w + M)
      = Complex.exp (logS K w) / Complex.Gamma w * Complex.exp (∑ n ∈ Finset.range M, defect K (w + n)) := by
  induction M with
  | zero => simp
  | succ M ih =>
    have hM : (0 : ℝ) ≤ M := Nat.cast_nonneg M
    have hne : w + M ≠ 0 := by
      intro h
      have := congrArg Complex.re h
      simp at this
      linarith
    rw [Finset.sum_range_succ, Complex.exp_add, ← mul_assoc, ← ih, Nat.cast_succ, ← add_assoc, Complex.Gamma_add_one _ hne]
    have e : logS K (w + M + 1) = logS K (w + M) + Complex.log (w + M) + defect K (w + M) := by rw [defect]; ring
    rw [e, Complex.exp_add, Complex.exp_add, Complex.exp_log hne]
    field_simp

theorem sum_inv_sq_le (a : ℝ) (ha : 1 < a) (M : ℕ) :
    ∑ n ∈ Finset.range M, 1 / (a + 2 * n) ^ 2 ≤ 1 / (2 * (a - 1)) - 1 / (2 * (a + 2 * M - 1)) := by
  induction M with
  | zero => simp
  | succ M ih =>
    have hM : (0 : ℝ) ≤ M := Nat.cast_nonneg M
    rw [Finset.sum_range_succ]
    have h1 : 0 < a + 2 * M - 1 := by linarith
    have h2 : 1 / (a + 2 * (M : ℝ)) ^ 2 ≤ 1 / (2 * (a + 2 * M - 1)) - 1 / (2 * (a + 2 * (M + 1) - 1)) := by
      have e : 1 / (2 * (a + 2 * (M : ℝ) - 1)) - 1 / (2 * (a + 2 * (M + 1) - 1)) = 1 / ((a + 2 * M) ^ 2 - 1) := by
        have h3 : (a + 2 * (M : ℝ)) ^ 2 - 1 = (a + 2 * M - 1) * (a + 2 * (M + 1) - 1) := by ring
        have h4 : 0 < a + 2 * (M + 1 : ℝ) - 1 := by linarith
        rw [h3]
        field_simp
        ring
      rw [e]
      apply one_div_le_one_div_of_le
      · nlinarith
      · linarith
    push_cast
    linarith

/-- Summing the defects to infinity. -/
theorem stirling_error (K : ℕ) (C : ℝ) (hC : 0 ≤ C)
    (hd : ∀ w : ℂ, 0 < w.re → ‖(2 * w + 1)⁻¹‖ ≤ 1 / 30 → ‖defect K w‖ ≤ C * ‖(2 * w + 1)⁻¹‖ ^ (2 * K + 2))
    (w : ℂ) (hw : 0 < w.re) (h30 : 30 ≤ ‖2 * w + 1‖) :
    ∃ E : ℂ, Complex.exp (logS K w) = Complex.Gamma w * Complex.exp E ∧ ‖E‖ ≤ C / (4 * w.re * ‖2 * w + 1‖ ^ (2 * K)) := by
  have hR : 0 < ‖2 * w + 1‖ := by linarith
  have hre : ∀ n : ℕ, (2 * (w + n) + 1).re = (2 * w.re + 1) + 2 * n := by
    intro n; simp; ring
  have hnorm : ∀ n : ℕ, ‖2 * w + 1‖ ≤ ‖2 * (w + n) + 1‖ := by
    intro n
    have hn : (0 : ℝ) ≤ n := Nat.cast_nonneg n
    rw [← sq_le_sq₀ (norm_nonneg _) (norm_nonneg _), ← Complex.normSq_eq_norm_sq, ← Complex.normSq_eq_norm_sq,
      Complex.normSq_apply, Complex.normSq_apply, hre]
    have : (2 * (w + (n : ℂ)) + 1).im = (2 * w + 1).im := by simp
    rw [this]
    have h2 : (2 * w + 1).re = 2 * w.re + 1 := by simp
    rw [h2]
    nlinarith
  have hterm : ∀ n : ℕ, ‖defect K (w + n)‖ ≤ C / ‖2 * w + 1‖ ^ (2 * K) * (1 / ((2 * w.re + 1) + 2 * n) ^ 2) := by
    intro n
    have hn : (0 : ℝ) ≤ n := Nat.cast_nonneg n
    have hpos : 0 < (2 * w.re + 1) + 2 * (n : ℝ) := by linarith
    have h1 := hd (w + n) (by simp; linarith) (by
      rw [norm_inv, inv_le_comm₀ (hR.trans_le (hnorm n)) (by norm_num)]
      norm_num
      linarith [hnorm n])
    refine h1.trans ?_
    have h2 : (2 * w.re + 1) + 2 * (n : ℝ) ≤ ‖2 * (w + n) + 1‖ := by
      rw [← hre]; exact (le_abs_self _).trans (Complex.abs_re_le_norm _)
    rw [norm_inv, inv_pow, pow_add, mul_inv, ← mul_assoc, div_eq_mul_inv, one_div]
    gcongr
    exact hnorm n
  have hpart : ∀ M : ℕ, ∑ n ∈ Finset.range M, ‖defect K (w + n)‖ ≤ C / (4 * w.re * ‖2 * w + 1‖ ^ (2 * K)) := by
    intro M
    have hM : (0 : ℝ) ≤ M := Nat.cast_nonneg M
    refine (Finset.sum_le_sum fun n _ => hterm n).trans ?_
    rw [← Finset.mul_sum]
    have h1 := sum_inv_sq_le (2 * w.re + 1) (by linarith) M
    have h2 : 0 ≤ 1 / (2 * (2 * w.re + 1 + 2 * (M : ℝ) - 1)) := by
      apply one_div_nonneg.mpr; linarith
    calc C / ‖2 * w + 1‖ ^ (2 * K) * ∑ n ∈ Finset.range M, 1 / ((2 * w.re + 1) + 2 * (n : ℝ)) ^ 2
        ≤ C / ‖2 * w + 1‖ ^ (2 * K) * (1 / (2 * (2 * w.re + 1 - 1))) := by
          gcongr; linarith
      _ = C / (4 * w.re * ‖2 * w + 1‖ ^ (2 * K)) := by
          rw [show 2 * (2 * w.re + 1 - 1) = 4 * w.re by ring]
          field_simp
  have hsum : Summable fun n : ℕ => ‖defect K (w + n)‖ :=
    summable_of_sum_range_le (fun _ => norm_nonneg _) hpart
  have hS := hsum.of_norm.hasSum.tendsto_sum_nat
  set T := ∑' n : ℕ, defect K (w + n)
  have hlim : Tendsto (fun n : ℕ => Complex.exp (logS K w) / Complex.Gamma w
      * Complex.exp (∑ m ∈ Finset.range (n + 1), defect K (w + m))) atTop (𝓝 1) := by
    refine (tendsto_stirling K w hw).congr fun n => ?_
    rw [← defect_sum K w hw (n + 1), Nat.cast_succ, ← add_assoc]
  have hlim2 := (((Complex.continuous_exp.tendsto T).comp (hS.comp (tendsto_add_atTop_nat 1))).const_mul
    (Complex.exp (logS K w) / Complex.Gamma w))
  have heq := tendsto_nhds_unique hlim2 hlim
  have hG0 : Complex.Gamma w ≠ 0 := Complex.Gamma_ne_zero_of_re_pos hw
  refine ⟨-T, ?_, ?_⟩
  · rw [Complex.exp_neg, eq_comm, mul_inv_eq_iff_eq_mul₀ (Complex.exp_ne_zero _)]
    field_simp at heq
    exact heq.symm
  · rw [norm_neg]
    exact (norm_tsum_le_tsum_norm hsum).trans (Real.tsum_le_of_sum_range_le (fun _ => norm_nonneg _) hpart)

end Microjax.Props
