import Verif.Lemmas.BesselAccuracy
import Mathlib.Analysis.SpecialFunctions.Gaussian.GaussianIntegral
import Mathlib.Analysis.SpecialFunctions.Trigonometric.Series

/-!
# C90, C91: the Bessel functions are accurate for every real argument

`j0`, `j1` with the tables of the source against the power series of `J_0`, `J_1` (exact arithmetic).
-/

noncomputable section

namespace Microjax.Props

open Spec Special
open scoped Nat

theorem hasDerivAt_sqrtJ0 (x : ℝ) (hx : 0 < x) :
    HasDerivAt (fun x => Real.sqrt x * besselJ 0 x) (besselJ 0 x / (2 * Real.sqrt x) - Real.sqrt x * besselJ 1 x) x := by
  have h := (Real.hasDerivAt_sqrt hx.ne').fun_mul (hasDerivAt_J0 x)
  exact h.congr_deriv (by ring)

theorem hasDerivAt_sqrtJ0' (x : ℝ) (hx : 0 < x) :
    HasDerivAt (fun x => besselJ 0 x / (2 * Real.sqrt x) - Real.sqrt x * besselJ 1 x)
      (-(1 + ((1 / 100 : ℚ) : ℝ) * (25 / (x * x))) * (Real.sqrt x * besselJ 0 x)) x := by
  have hs := Real.hasDerivAt_sqrt hx.ne'
  have hp := Real.sqrt_pos.mpr hx
  have h := ((hasDerivAt_J0 x).fun_div (hs.const_mul 2) (by positivity)).fun_sub (hs.fun_mul (hasDerivAt_J1' x hx.ne'))
  refine h.congr_deriv ?_
  have hx2 : x = Real.sqrt x * Real.sqrt x := (Real.mul_self_sqrt hx.le).symm
  generalize besselJ 0 x = a
  generalize besselJ 1 x = b
  set s := Real.sqrt x
  push_cast
  rw [hx2]
  field_simp
  ring

theorem hasDerivAt_sqrtJ1 (x : ℝ) (hx : 0 < x) :
    HasDerivAt (fun x => Real.sqrt x * besselJ 1 x) (Real.sqrt x * besselJ 0 x - besselJ 1 x / (2 * Real.sqrt x)) x := by
  have h := (Real.hasDerivAt_sqrt hx.ne').fun_mul (hasDerivAt_J1' x hx.ne')
  refine h.congr_deriv ?_
  have hp := Real.sqrt_pos.mpr hx
  have hx2 : x = Real.sqrt x * Real.sqrt x := (Real.mul_self_sqrt hx.le).symm
  generalize besselJ 0 x = a
  generalize besselJ 1 x = b
  set s := Real.sqrt x
  rw [hx2]
  field_simp
  ring

theorem hasDerivAt_sqrtJ1' (x : ℝ) (hx : 0 < x) :
    HasDerivAt (fun x => Real.sqrt x * besselJ 0 x - besselJ 1 x / (2 * Real.sqrt x))
      (-(1 + ((-3 / 100 : ℚ) : ℝ) * (25 / (x * x))) * (Real.sqrt x * besselJ 1 x)) x := by
  have hs := Real.hasDerivAt_sqrt hx.ne'
  have hp := Real.sqrt_pos.mpr hx
  have h := (hs.fun_mul (hasDerivAt_J0 x)).fun_sub ((hasDerivAt_J1' x hx.ne').fun_div (hs.const_mul 2) (by positivity))
  refine h.congr_deriv ?_
  have hx2 : x = Real.sqrt x * Real.sqrt x := (Real.mul_self_sqrt hx.le).symm
  generalize besselJ 0 x = a
  generalize besselJ 1 x = b
  set s := Real.sqrt x
  push_cast
  rw [hx2]
  field_simp
  ring

theorem J0_five : |besselJ 0 5 - evQ (serL 0 25) 25| ≤ 1e-25 := by
  have h := J_at_five 0
  rw [besselJ_zero]
  norm_num at h ⊢
  exact h

theorem J1_five : |besselJ 1 5 - 5 / 2 * evQ (serL 1 25) 25| ≤ 3e-25 := by
  have h := J_at_five 1
  rw [besselJ_one, show (5 : ℝ) ^ 2 / 4 = 25 / 4 by norm_num, ← mul_sub, abs_mul]
  rw [abs_of_pos (by norm_num : (0 : ℝ) < 5 / 2)]
  calc (5 : ℝ) / 2 * |clifford 1 (25 / 4) - evQ (serL 1 25) 25| ≤ 5 / 2 * 1e-25 := by gcongr
    _ ≤ 3e-25 := by norm_num

theorem sqrt_five_div : besselJ 0 5 / (2 * Real.sqrt 5) = Real.sqrt 5 * (besselJ 0 5 / 10) := by
  have hp : 0 < Real.sqrt 5 := Real.sqrt_pos.mpr (by norm_num)
  have h2 : Real.sqrt 5 ^ 2 = 5 := Real.sq_sqrt (by norm_num)
  rw [div_eq_iff (by positivity)]
  linear_combination -besselJ 0 5 / 5 * h2

theorem sqrt_five_div' : besselJ 1 5 / (2 * Real.sqrt 5) = Real.sqrt 5 * (besselJ 1 5 / 10) := by
  have hp : 0 < Real.sqrt 5 := Real.sqrt_pos.mpr (by norm_num)
  have h2 : Real.sqrt 5 ^ 2 = 5 := Real.sq_sqrt (by norm_num)
  rw [div_eq_iff (by positivity)]
  linear_combination -besselJ 1 5 / 5 * h2

/-- From the scaled error to the error. -/
theorem unscale (V P K x : ℝ) (hx : 5 ≤ x) (h : |Real.sqrt x * V - K * P| ≤ 2e-12) : |P * K / Real.sqrt x - V| ≤ 1e-12 := by
  have hx0 : 0 < x := by linarith
  have hp := Real.sqrt_pos.mpr hx0
  have h2 : 2 ≤ Real.sqrt x := Real.le_sqrt_of_sq_le (by linarith)
  rw [show P * K / Real.sqrt x - V = -(Real.sqrt x * V - K * P) / Real.sqrt x by field_simp; ring, abs_div, abs_neg,
    abs_of_pos hp, div_le_iff₀ hp]
  linarith

theorem j0Large_accurate (x : ℝ) (hx : 5 ≤ x) : |j0Large cephes x - besselJ 0 x| ≤ 1e-12 := by
  have h := certLarge_sound _ _ _ _ _ _ _ _ _ cert_J0 (by norm_num [abs_of_pos]) (fun x => Real.sqrt x * besselJ 0 x)
    (fun x => besselJ 0 x / (2 * Real.sqrt x) - Real.sqrt x * besselJ 1 x) (besselJ 0 5) (besselJ 0 5 / 10 - besselJ 1 5)
    (J0_five.trans (by norm_num))
    (by
      have h0 := J0_five
      have h1 := J1_five
      push_cast
      rw [abs_le] at h0 h1 ⊢
      norm_num at h0 h1 ⊢
      constructor <;> linarith [h0.1, h0.2, h1.1, h1.2])
    (fun y hy => hasDerivAt_sqrtJ0 y (by linarith)) (fun y hy => hasDerivAt_sqrtJ0' y (by linarith))
    rfl (by rw [sqrt_five_div]; ring) x hx
  have h2 := unscale _ _ _ x hx h
  refine le_trans (le_of_eq ?_) h2
  congr 2
  simp only [j0Large, modPhase, rat0, cephes, polyval_eq_ev]

theorem j1Large_accurate (x : ℝ) (hx : 5 ≤ x) : |j1Large cephes x - besselJ 1 x| ≤ 1e-12 := by
  have h := certLarge_sound _ _ _ _ _ _ _ _ _ cert_J1 (by norm_num [abs_of_pos]) (fun x => Real.sqrt x * besselJ 1 x)
    (fun x => Real.sqrt x * besselJ 0 x - besselJ 1 x / (2 * Real.sqrt x)) (besselJ 1 5) (besselJ 0 5 - besselJ 1 5 / 10)
    (by
      have h1 := J1_five
      push_cast
      exact h1.trans (by norm_num))
    (by
      have h0 := J0_five
      have h1 := J1_five
      push_cast
      rw [abs_le] at h0 h1 ⊢
      norm_num at h0 h1 ⊢
      constructor <;> linarith [h0.1, h0.2, h1.1, h1.2])
    (fun y hy => hasDerivAt_sqrtJ1 y (by linarith)) (fun y hy => hasDerivAt_sqrtJ1' y (by linarith))
    rfl (by rw [sqrt_five_div']; ring) x hx
  have h2 := unscale _ _ _ x hx h
  refine le_trans (le_of_eq ?_) h2
  congr 2
  have e : 5 / x * (5 / x) = 25 / (x * x) := by
    rw [div_mul_div_comm]; norm_num
  simp only [j1Large, modPhase, rat0, cephes, polyval_eq_ev, e]

theorem besselJ0_neg (x : ℝ) : besselJ 0 (-x) = besselJ 0 x := by rw [besselJ_zero, besselJ_zero, neg_sq]
theorem besselJ1_neg (x : ℝ) : besselJ 1 (-x) = -besselJ 1 x := by
  rw [besselJ_one, besselJ_one, neg_sq]; ring
theorem besselJ0_abs (x : ℝ) : besselJ 0 |x| = besselJ 0 x := by
  rcases abs_choice x with h | h <;> rw [h]
  exact besselJ0_neg x

/-- The two-term series near zero. -/
theorem J0_near_zero (x : ℝ) (h0 : 0 ≤ x) (h : x < 1e-5) : |1 - x * x / 4 - besselJ 0 x| ≤ 5e-15 := by
  have hz0 : 0 ≤ x * x := by positivity
  have hz : x * x ≤ 1e-10 := by
    calc x * x ≤ 1e-5 * 1e-5 := by gcongr
      _ = 1e-10 := by norm_num
  have hs := clifford_serL 0 (x * x) (by rw [abs_of_nonneg hz0]; linarith [show (1e-10 : ℝ) ≤ 25 by norm_num])
  rw [besselJ_zero, show x ^ 2 = x * x by ring]
  have e : ev (serL 0 25) (x * x) = 1 - x * x / 4 + (x * x) ^ 2 * ev ((serL 0 25).drop 2) (x * x) := by
    have : serL 0 25 = 1 :: (-1 / 4) :: (serL 0 25).drop 2 := by decide +kernel
    conv_lhs => rw [this]
    rw [ev_cons, ev_cons]
    push_cast
    ring
  have hb := abs_ev_le ((serL 0 25).drop 2) 1 (x * x) (by
    rw [abs_of_nonneg hz0]; push_cast; linarith [show (1e-10 : ℝ) ≤ 1 by norm_num])
  have hb2 : ((absSum ((serL 0 25).drop 2) 1 : ℚ) : ℝ) ≤ 1 := by
    have : absSum ((serL 0 25).drop 2) 1 ≤ 1 := by decide +kernel
    exact_mod_cast this
  have hb3 : |(x * x) ^ 2 * ev ((serL 0 25).drop 2) (x * x)| ≤ (1e-10) ^ 2 * 1 := by
    rw [abs_mul, abs_of_nonneg (by positivity)]
    gcongr
    exact hb.trans hb2
  rw [e] at hs
  rw [abs_le] at hs hb3 ⊢
  norm_num at hs hb3 ⊢
  constructor <;> linarith [hs.1, hs.2, hb3.1, hb3.2]

/-- The small-argument branch of `j0_`. -/
theorem j0_small (x : ℝ) (h : |x| < 5) : |j0 cephes x - besselJ 0 x| ≤ 5e-15 := by
  rw [← besselJ0_abs x, j0, if_pos h, j0Small]
  split_ifs with h1
  · exact J0_near_zero _ (abs_nonneg x) h1
  · exact small0 |x| (abs_nonneg x) h.le

/-- **C90, `J_0`**: `j0_` is within `1e-12` of the Bessel function for every real argument. -/
theorem C90_j0 (x : ℝ) : |j0 cephes x - besselJ 0 x| ≤ 1e-12 := by
  by_cases h : |x| < 5
  · exact (j0_small x h).trans (by norm_num)
  · rw [← besselJ0_abs x, j0, if_neg h]
    exact j0Large_accurate |x| (not_lt.mp h)

/-- The error of `j1_` vanishes with the argument. -/
theorem j1_rel (x : ℝ) : |j1 cephes x - besselJ 1 x| ≤ (if |x| < 5 then 5e-15 * |x| else 1e-12) := by
  have key : ∀ y : ℝ, 0 ≤ y → |(if y < 5 then j1Small cephes y else j1Large cephes y) - besselJ 1 y|
      ≤ (if y < 5 then 5e-15 * y else 1e-12) := by
    intro y hy
    split_ifs with h
    · exact small1 y hy h.le
    · exact j1Large_accurate y (not_lt.mp h)
  rw [j1]
  rcases lt_trichotomy x 0 with h | h | h
  · rw [Real.sign_of_neg h, abs_of_neg h]
    have := key (-x) (by linarith)
    rw [besselJ1_neg] at this
    rw [← abs_neg]
    refine le_trans (le_of_eq ?_) this
    congr 1
    ring
  · subst h
    rw [Real.sign_zero, zero_mul, besselJ_one]
    norm_num
  · rw [Real.sign_of_pos h, abs_of_pos h, one_mul]
    exact key x h.le

/-- **C90, `J_1`**: `j1_` is within `1e-12` of the Bessel function for every real argument. -/
theorem C90_j1 (x : ℝ) : |j1 cephes x - besselJ 1 x| ≤ 1e-12 := by
  refine (j1_rel x).trans ?_
  split_ifs with h
  · norm_num at h ⊢
    linarith
  · exact le_rfl

/-- **C90, parity**: `j0_` is even and `j1_` is odd, exactly and for every table. -/
theorem C90_parity (T : BesselTables) (x : ℝ) : j0 T (-x) = j0 T x ∧ j1 T (-x) = -j1 T x := by
  refine ⟨by rw [j0, j0, abs_neg], ?_⟩
  rw [j1, j1, abs_neg]
  have : Real.sign (-x) = -Real.sign x := Real.sign_neg
  rw [this]; ring

theorem besselJ_two (x : ℝ) (hx : x ≠ 0) : besselJ 2 x = 2 / x * besselJ 1 x - besselJ 0 x := by
  rw [besselJ_eq, besselJ_one, besselJ_zero, clifford_rec]
  field_simp
  ring

/-- The error of `j1_` divided by the argument. -/
theorem j1_div (x : ℝ) (hx : x ≠ 0) : |j1 cephes x - besselJ 1 x| / |x| ≤ 2e-13 := by
  have hp : 0 < |x| := abs_pos.mpr hx
  have h := j1_rel x
  rw [div_le_iff₀ hp]
  refine h.trans ?_
  split_ifs with h5
  · gcongr
    norm_num
  · norm_num at h5 ⊢
    linarith

/-- **C90, `J_2`**: `j2_`, which divides `j1_` by the argument, is within `2e-12` of the Bessel function for every nonzero
argument. -/
theorem C90_j2 (x : ℝ) (hx : x ≠ 0) : |j2 cephes x - besselJ 2 x| ≤ 2e-12 := by
  have h0 := C90_j0 x
  have h1 := j1_div x hx
  rw [j2, besselJ_two x hx, show 2 / x * j1 cephes x - j0 cephes x - (2 / x * besselJ 1 x - besselJ 0 x)
    = 2 / x * (j1 cephes x - besselJ 1 x) - (j0 cephes x - besselJ 0 x) by ring]
  refine (abs_sub _ _).trans ?_
  rw [abs_mul, abs_div, abs_two, div_mul_eq_mul_div, mul_div_assoc]
  norm_num at h0 h1 ⊢
  linarith

/-- **C91, derivative rules**: the tangents of `j0_` (everywhere) and of `j1_` (away from zero) are the derivatives of the
Bessel functions up to the accuracy of the values. -/
theorem C91_jvp_partial (x d : ℝ) :
    (∃ D0, HasDerivAt (besselJ 0) D0 x ∧ |(j0Jvp cephes x d).2 - D0 * d| ≤ 1e-12 * |d|) ∧
    (x ≠ 0 → ∃ D1 t, HasDerivAt (besselJ 1) D1 x ∧ (j1Jvp cephes x d).2 = some t ∧
      |t - D1 * d| ≤ 2e-12 * |d|) := by
  have h0 := C90_j0 x
  have h1 := C90_j1 x
  constructor
  · refine ⟨_, hasDerivAt_J0 x, ?_⟩
    rw [j0Jvp, show -1 * d * j1 cephes x - -besselJ 1 x * d = -((j1 cephes x - besselJ 1 x) * d) by ring, abs_neg, abs_mul]
    gcongr
  · intro hx
    refine ⟨_, _, hasDerivAt_J1' x hx, by simp only [j1Jvp, if_neg hx]; rfl, ?_⟩
    rw [show j0 cephes x * d - j1 cephes x * d / x - (besselJ 0 x - besselJ 1 x / x) * d
      = ((j0 cephes x - besselJ 0 x) - (j1 cephes x - besselJ 1 x) / x) * d by ring, abs_mul]
    gcongr
    refine (abs_sub _ _).trans ?_
    rw [abs_div]
    have h2 := j1_div x hx
    norm_num at h0 h2 ⊢
    linarith

/-- **C91, the derivative of `j1_` at zero is violated**: `J_1` has derivative one half there, the rule of the code gives
NaN. -/
theorem C91_jvp_violated (d : ℝ) : HasDerivAt (besselJ 1) (1 / 2) 0 ∧ (j1Jvp cephes 0 d).2 = none := by
  refine ⟨?_, by simp [j1Jvp]⟩
  refine (hasDerivAt_J1 0).congr_deriv ?_
  have h : ∀ n : ℕ, clifford n 0 = 1 / (n ! : ℝ) := by
    intro n
    rw [clifford, tsum_eq_single 0]
    · simp [cliffordC]
    · intro k hk
      rw [zero_pow hk, mul_zero]
  have e : (0 : ℝ) ^ 2 / 4 = 0 := by norm_num
  rw [besselJ_zero, e, h, h]
  norm_num

/-- The series for real order extends the one for integer order. -/
theorem besselJr_nat (n : ℕ) (x : ℝ) : besselJr n x = besselJ n x := by
  rw [besselJr, besselJ]
  refine tsum_congr fun k => ?_
  rw [show ((k : ℝ) + n + 1) = ((k + n : ℕ) : ℝ) + 1 by push_cast; ring, Real.Gamma_nat_eq_factorial,
    show (2 * (k : ℝ) + n) = ((2 * k + n : ℕ) : ℝ) by push_cast; ring, Real.rpow_natCast]

theorem gamma_five_halves (k : ℕ) :
    (k ! : ℝ) * Real.Gamma (k + 3 / 2 + 1) * 4 ^ k = ((2 * k + 3)! : ℝ) / (2 * k + 2) * (Real.sqrt Real.pi / 4) := by
  induction k with
  | zero =>
    have h1 : Real.Gamma (3 / 2 + 1) = 3 / 2 * Real.Gamma (3 / 2) := Real.Gamma_add_one (by norm_num)
    have h2 : Real.Gamma (3 / 2) = 1 / 2 * Real.Gamma (1 / 2) := by
      rw [show (3 / 2 : ℝ) = 1 / 2 + 1 by norm_num, Real.Gamma_add_one (by norm_num)]
    rw [Nat.cast_zero, zero_add, h1, h2, Real.Gamma_one_half_eq]
    norm_num [Nat.factorial]
    ring
  | succ k ih =>
    have h1 : Real.Gamma (((k + 1 : ℕ) : ℝ) + 3 / 2 + 1) = ((k : ℝ) + 3 / 2 + 1) * Real.Gamma (k + 3 / 2 + 1) := by
      rw [← Real.Gamma_add_one (by positivity)]
      congr 1
      push_cast; ring
    have h2 : ((2 * (k + 1) + 3)! : ℝ) = (2 * k + 5) * (2 * k + 4) * (2 * k + 3)! := by
      rw [show 2 * (k + 1) + 3 = (2 * k + 3) + 1 + 1 by ring, Nat.factorial_succ, Nat.factorial_succ]
      push_cast; ring
    rw [h1, h2, Nat.factorial_succ, pow_succ]
    push_cast
    have e : ((k : ℝ) + 1) * (k ! : ℝ) * (((k : ℝ) + 3 / 2 + 1) * Real.Gamma (k + 3 / 2 + 1)) * (4 ^ k * 4)
        = ((k : ℝ) + 1) * ((k : ℝ) + 5 / 2) * 4 * ((k ! : ℝ) * Real.Gamma (k + 3 / 2 + 1) * 4 ^ k) := by ring
    rw [e, ih]
    have p1 : (2 * (k : ℝ) + 2) ≠ 0 := by positivity
    have p2 : (2 * ((k : ℝ) + 1) + 2) ≠ 0 := by positivity
    field_simp
    ring

/-- **C90, `J_{3/2}`**: `j1p5_` is exactly the Bessel function of order three halves. -/
theorem C90_j1p5 (x : ℝ) (hx : 0 < x) : j1p5 x = besselJr (3 / 2) x := by
  have h := hasSum_sin_sub_cos x hx.ne'
  rw [j1p5, besselJr, ← h.tsum_eq, ← tsum_mul_left]
  refine tsum_congr fun k => ?_
  have g := gamma_five_halves k
  have hg : 0 < Real.Gamma (k + 3 / 2 + 1) := Real.Gamma_pos_of_pos (by positivity)
  have hk : (0 : ℝ) < k ! := by positivity
  have hpi := Real.sqrt_pos.mpr Real.pi_pos
  have hs2 : 0 < Real.sqrt (x / 2) := Real.sqrt_pos.mpr (by positivity)
  have hsq : Real.sqrt (x / 2) ^ 2 = x / 2 := Real.sq_sqrt (by positivity)
  have e1 : Real.sqrt (2 / (Real.pi * x)) = 1 / (Real.sqrt Real.pi * Real.sqrt (x / 2)) := by
    rw [show 2 / (Real.pi * x) = 1 / (Real.pi * (x / 2)) by field_simp, Real.sqrt_div zero_le_one, Real.sqrt_one,
      Real.sqrt_mul Real.pi_pos.le]
  have e2 : (x / 2) ^ (2 * (k : ℝ) + 3 / 2) = (x / 2) ^ (2 * k) * ((x / 2) * Real.sqrt (x / 2)) := by
    have hx2 : 0 < x / 2 := by positivity
    rw [Real.rpow_add hx2, show (2 * (k : ℝ)) = ((2 * k : ℕ) : ℝ) by push_cast; ring, Real.rpow_natCast,
      show (3 / 2 : ℝ) = 1 + 1 / 2 by norm_num, Real.rpow_add hx2, Real.rpow_one, Real.sqrt_eq_rpow]
  have e3 : (1 : ℝ) / ((k ! : ℝ) * Real.Gamma (k + 3 / 2 + 1))
      = 4 ^ k * (2 * k + 2) / ((2 * k + 3)! : ℝ) * (4 / Real.sqrt Real.pi) := by
    have hf : (0 : ℝ) < ((2 * k + 3)! : ℝ) := by positivity
    rw [div_eq_iff (by positivity)]
    have e : (k ! : ℝ) * Real.Gamma (k + 3 / 2 + 1) = ((2 * k + 3)! : ℝ) / (2 * k + 2) * (Real.sqrt Real.pi / 4) / 4 ^ k := by
      rw [eq_div_iff (by positivity)]; exact g
    rw [e]
    field_simp
  rw [e1, e2, show (-1 : ℝ) ^ k / ((k ! : ℝ) * Real.Gamma (k + 3 / 2 + 1))
    = (-1) ^ k * (1 / ((k ! : ℝ) * Real.Gamma (k + 3 / 2 + 1))) by ring, e3, div_pow x, pow_mul 2, pow_add]
  have h4 : (2 : ℝ) ^ 2 = 4 := by norm_num
  rw [h4]
  have hx4 : x = 2 * Real.sqrt (x / 2) ^ 2 := by rw [hsq]; ring
  field_simp
  rw [hsq]
  ring

/-! ## Concrete cases -/

/-- The tables are those of a genuine oscillating function: at 5 the value is near -0.1776, at 0 it is 1. -/
example : j0 cephes 0 = 1 ∧ |j0 cephes 5 + 0.177596771314338| ≤ 1e-11 ∧ |j1 cephes 5 + 0.327579137591465| ≤ 1e-11 := by
  have q0 : |evQ (serL 0 25) 25 + 0.177596771314338| ≤ 1e-12 := by decide +kernel
  have q1 : |5 / 2 * evQ (serL 1 25) 25 + 0.327579137591465| ≤ 1e-12 := by decide +kernel
  have r0 := (Rat.cast_le (K := ℝ)).mpr q0
  have r1 := (Rat.cast_le (K := ℝ)).mpr q1
  push_cast at r0 r1
  refine ⟨?_, ?_, ?_⟩
  · norm_num [j0, j0Small]
  · have h1 := C90_j0 5
    have h2 := J0_five
    rw [abs_le] at r0 h1 h2 ⊢
    norm_num at r0 h1 h2 ⊢
    constructor <;> linarith [r0.1, r0.2, h1.1, h1.2, h2.1, h2.2]
  · have h1 := C90_j1 5
    have h2 := J1_five
    rw [abs_le] at r1 h1 h2 ⊢
    norm_num at r1 h1 h2 ⊢
    constructor <;> linarith [r1.1, r1.2, h1.1, h1.2, h2.1, h2.2]

end Microjax.Props
