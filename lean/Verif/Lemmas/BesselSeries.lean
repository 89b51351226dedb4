import Verif.Spec.Bessel
import Mathlib.Analysis.Calculus.SmoothSeries
import Mathlib.Analysis.SpecialFunctions.Exponential
import Mathlib.Analysis.SpecialFunctions.Pow.Deriv
import Mathlib.Analysis.SpecialFunctions.Sqrt
import Mathlib.Analysis.Calculus.Deriv.Inv
import Mathlib.Analysis.SpecialFunctions.Trigonometric.Series
import Mathlib.Tactic.FieldSimp

/-!
# Derivatives, differential equation and truncation of the Bessel series
-/

noncomputable section

namespace Microjax.Props

open Spec
open scoped Nat

/-- The coefficient of `y^k` in the Bessel-Clifford function. -/
def cliffordC (n k : ℕ) : ℝ := (-1) ^ k / (k ! * (k + n)! : ℝ)

/-- The Bessel-Clifford function: `J_n(x) = (x/2)^n C_n(x²/4)`. -/
def clifford (n : ℕ) (y : ℝ) : ℝ := ∑' k : ℕ, cliffordC n k * y ^ k

theorem cliffordC_abs_le (n k : ℕ) : |cliffordC n k| ≤ 1 / (k ! : ℝ) := by
  rw [cliffordC, abs_div, abs_pow, abs_neg, abs_one, one_pow, abs_of_pos (by positivity)]
  apply one_div_le_one_div_of_le (by positivity)
  have : (1 : ℝ) ≤ ((k + n)! : ℝ) := by exact_mod_cast Nat.succ_le_of_lt (Nat.factorial_pos _)
  nlinarith [show (0 : ℝ) < (k ! : ℝ) by positivity]

theorem summable_clifford (n : ℕ) (y : ℝ) : Summable fun k : ℕ => cliffordC n k * y ^ k := by
  refine Summable.of_norm_bounded (g := fun k : ℕ => |y| ^ k / k !) (Real.summable_pow_div_factorial _) fun k => ?_
  rw [Real.norm_eq_abs, abs_mul, abs_pow]
  calc |cliffordC n k| * |y| ^ k ≤ 1 / (k ! : ℝ) * |y| ^ k := by gcongr; exact cliffordC_abs_le n k
    _ = |y| ^ k / k ! := by ring

theorem besselJ_eq (n : ℕ) (x : ℝ) : besselJ n x = (x / 2) ^ n * clifford n (x ^ 2 / 4) := by
  rw [besselJ, clifford, ← tsum_mul_left]
  refine tsum_congr fun k => ?_
  rw [cliffordC, pow_add, pow_mul, show (x / 2) ^ 2 = x ^ 2 / 4 by ring]; ring

theorem cliffordC_succ (n k : ℕ) : cliffordC n (k + 1) * (k + 1 : ℕ) = -cliffordC (n + 1) k := by
  have h1 : (k + 1 + n)! = (k + (n + 1))! := by congr 1; ring
  simp only [cliffordC, h1, Nat.factorial_succ k]
  push_cast
  have h2 : ((k : ℝ) + 1) ≠ 0 := by positivity
  field_simp
  ring

/-- `C_n' = -C_{n+1}`. -/
theorem hasDerivAt_clifford (n : ℕ) (y : ℝ) : HasDerivAt (clifford n) (-clifford (n + 1) y) y := by
  have hu : Summable fun k : ℕ => (k : ℝ) * (|y| + 1) ^ (k - 1) / k ! := by
    rw [← summable_nat_add_iff 1]
    refine (Real.summable_pow_div_factorial (|y| + 1)).congr fun k => ?_
    rw [Nat.factorial_succ]
    push_cast
    field_simp
  have h := hasDerivAt_tsum_of_isPreconnected (g := fun k (x : ℝ) => cliffordC n k * x ^ k)
    (g' := fun k x => cliffordC n k * (k * x ^ (k - 1))) (t := Metric.ball 0 (|y| + 1)) (y₀ := y) (y := y) hu
    Metric.isOpen_ball (convex_ball _ _).isPreconnected
    (fun k x _ => (hasDerivAt_pow k x).const_mul _)
    (fun k x hx => by
      have hx' : |x| ≤ |y| + 1 := by
        have := Metric.mem_ball.mp hx
        rw [dist_zero_right, Real.norm_eq_abs] at this
        exact this.le
      rw [Real.norm_eq_abs, abs_mul, abs_mul, abs_pow, Nat.abs_cast]
      calc |cliffordC n k| * (k * |x| ^ (k - 1)) ≤ 1 / (k ! : ℝ) * (k * (|y| + 1) ^ (k - 1)) := by
            gcongr; exact cliffordC_abs_le n k
        _ = _ := by ring)
    (by simp) (summable_clifford n y) (by simp)
  refine h.congr_deriv ?_
  have hs : Summable fun k : ℕ => cliffordC n k * ((k : ℝ) * y ^ (k - 1)) := by
    rw [← summable_nat_add_iff 1]
    refine (summable_clifford (n + 1) y).neg.congr fun k => ?_
    rw [Nat.add_sub_cancel, ← mul_assoc, cliffordC_succ]; ring
  rw [hs.tsum_eq_zero_add, clifford, ← tsum_neg]
  simp only [Nat.cast_zero, zero_mul, mul_zero, zero_add]
  refine tsum_congr fun k => ?_
  rw [Nat.add_sub_cancel, ← mul_assoc, cliffordC_succ]; ring

/-- `C_0 = C_1 - y C_2`. -/
theorem clifford_rec (y : ℝ) : clifford 0 y = clifford 1 y - y * clifford 2 y := by
  rw [eq_sub_iff_add_eq]
  have h2 : y * clifford 2 y = ∑' k : ℕ, cliffordC 2 k * y ^ (k + 1) := by
    rw [clifford, ← tsum_mul_left]
    exact tsum_congr fun k => by rw [pow_succ]; ring
  have hs2 : Summable fun k : ℕ => cliffordC 2 k * y ^ (k + 1) :=
    ((summable_clifford 2 y).mul_left y).congr fun k => by rw [pow_succ]; ring
  rw [h2, clifford, clifford, (summable_clifford 0 y).tsum_eq_zero_add, (summable_clifford 1 y).tsum_eq_zero_add,
    add_assoc, ← Summable.tsum_add ((summable_nat_add_iff 1).mpr (summable_clifford 0 y)) hs2]
  have e0 : cliffordC 0 0 * y ^ 0 = cliffordC 1 0 * y ^ 0 := by simp [cliffordC]
  rw [e0]
  congr 1
  refine tsum_congr fun k => ?_
  simp only [cliffordC, Nat.factorial_succ, Nat.add_zero]
  push_cast
  field_simp
  ring

theorem besselJ_zero (x : ℝ) : besselJ 0 x = clifford 0 (x ^ 2 / 4) := by rw [besselJ_eq]; simp
theorem besselJ_one (x : ℝ) : besselJ 1 x = x / 2 * clifford 1 (x ^ 2 / 4) := by rw [besselJ_eq]; simp

/-- `J_0' = -J_1`. -/
theorem hasDerivAt_J0 (x : ℝ) : HasDerivAt (besselJ 0) (-besselJ 1 x) x := by
  have h : HasDerivAt (fun x : ℝ => x ^ 2 / 4) (x / 2) x :=
    ((hasDerivAt_pow 2 x).div_const 4).congr_deriv (by push_cast; ring)
  have h2 := (hasDerivAt_clifford 0 (x ^ 2 / 4)).comp x h
  have e : besselJ 0 = clifford 0 ∘ fun x : ℝ => x ^ 2 / 4 := funext besselJ_zero
  rw [e]
  refine h2.congr_deriv ?_
  rw [besselJ_one]; ring

/-- `x J_1' = x J_0 - J_1`, in the form that also holds at zero. -/
theorem hasDerivAt_J1 (x : ℝ) : HasDerivAt (besselJ 1) (besselJ 0 x - clifford 1 (x ^ 2 / 4) / 2) x := by
  have h : HasDerivAt (fun x : ℝ => x ^ 2 / 4) (x / 2) x :=
    ((hasDerivAt_pow 2 x).div_const 4).congr_deriv (by push_cast; ring)
  have h2 := ((hasDerivAt_id x).div_const 2).fun_mul ((hasDerivAt_clifford 1 (x ^ 2 / 4)).comp x h)
  have e : besselJ 1 = fun x : ℝ => x / 2 * (clifford 1 ∘ fun x : ℝ => x ^ 2 / 4) x := funext besselJ_one
  rw [e]
  refine h2.congr_deriv ?_
  rw [besselJ_zero, clifford_rec]
  simp only [Function.comp, id]
  ring

theorem hasDerivAt_J1' (x : ℝ) (hx : x ≠ 0) : HasDerivAt (besselJ 1) (besselJ 0 x - besselJ 1 x / x) x := by
  refine (hasDerivAt_J1 x).congr_deriv ?_
  rw [besselJ_one]
  field_simp

/-- Truncation after `N` terms, for `|y| ≤ N/2`. -/
theorem clifford_trunc (n N : ℕ) (hN : 0 < N) (y : ℝ) (hy : |y| ≤ (N : ℝ) / 2) :
    |clifford n y - ∑ k ∈ Finset.range N, cliffordC n k * y ^ k| ≤ 2 * |y| ^ N / ((N ! : ℝ) * ((N + n)! : ℝ)) := by
  have hsum := (summable_clifford n y).sum_add_tsum_nat_add N
  rw [show clifford n y - ∑ k ∈ Finset.range N, cliffordC n k * y ^ k = ∑' k : ℕ, cliffordC n (k + N) * y ^ (k + N) by
    rw [clifford, ← hsum]; ring]
  have hN' : (0 : ℝ) < N := by exact_mod_cast hN
  have hterm : ∀ k : ℕ, ‖cliffordC n (k + N) * y ^ (k + N)‖
      ≤ |y| ^ N / (N ! : ℝ) / ((N + n)! : ℝ) * (1 / 2 : ℝ) ^ k := by
    intro k
    rw [Real.norm_eq_abs, abs_mul, abs_pow, cliffordC, abs_div, abs_pow, abs_neg, abs_one, one_pow,
      abs_of_pos (by positivity)]
    have f1 : (N ! : ℝ) * (N : ℝ) ^ k ≤ ((k + N)! : ℝ) := by
      have := Nat.factorial_mul_pow_le_factorial (m := N) (n := k)
      have h2 : N ! * N ^ k ≤ (k + N)! := by
        rw [add_comm k N]
        exact (Nat.mul_le_mul_left _ (Nat.pow_le_pow_left (Nat.le_succ N) k)).trans this
      exact_mod_cast h2
    have f2 : ((N + n)! : ℝ) ≤ ((k + N + n)! : ℝ) := by
      exact_mod_cast Nat.factorial_le (by omega)
    calc 1 / (((k + N)! : ℝ) * ((k + N + n)! : ℝ)) * |y| ^ (k + N)
        ≤ 1 / (((N ! : ℝ) * (N : ℝ) ^ k) * ((N + n)! : ℝ)) * (((N : ℝ) / 2) ^ k * |y| ^ N) := by
          rw [pow_add]
          gcongr
      _ = _ := by
          rw [div_pow, div_pow, one_pow]
          field_simp
  have hg : Summable fun k : ℕ => |y| ^ N / (N ! : ℝ) / ((N + n)! : ℝ) * (1 / 2 : ℝ) ^ k :=
    summable_geometric_two.mul_left _
  have h := tsum_of_norm_bounded (hg.hasSum) hterm
  rw [Real.norm_eq_abs, tsum_mul_left, tsum_geometric_two] at h
  refine h.trans (le_of_eq ?_)
  field_simp

/-- `sin x / x - cos x` as a power series. -/
theorem hasSum_sin_sub_cos (x : ℝ) (hx : x ≠ 0) :
    HasSum (fun k : ℕ => (-1) ^ k * x ^ (2 * k + 2) * (2 * k + 2) / ((2 * k + 3)! : ℝ)) (Real.sin x / x - Real.cos x) := by
  have h := ((Real.hasSum_sin x).div_const x).sub (Real.hasSum_cos x)
  rw [← hasSum_nat_add_iff' 1] at h
  simp only [Finset.range_one, Finset.sum_singleton, pow_zero, mul_zero, Nat.factorial_zero, Nat.factorial_one, zero_add,
    pow_one, Nat.cast_one, one_mul, div_one, div_self hx, sub_self, sub_zero] at h
  refine Eq.mp (congrArg (fun f => HasSum f (Real.sin x / x - Real.cos x)) (funext fun k => ?_)) h
  symm
  have h2 : ((2 * (k + 1) + 1)! : ℝ) = (2 * k + 3) * ((2 * (k + 1))! : ℝ) := by
    rw [Nat.factorial_succ]; push_cast; ring
  have h3 : ((2 * k + 3)! : ℝ) = (2 * k + 3) * ((2 * (k + 1))! : ℝ) := by
    rw [show 2 * k + 3 = 2 * (k + 1) + 1 by ring, h2]
  have hf : (0 : ℝ) < ((2 * (k + 1))! : ℝ) := by positivity
  have h4 : (2 * (k : ℝ) + 3) ≠ 0 := by positivity
  rw [h2, h3]
  field_simp
  ring

end Microjax.Props
