import Verif.Spec.DiscTransform
import Verif.Lemmas.BesselSeries
import Mathlib.Analysis.SpecialFunctions.Integrals.Basic
import Mathlib.Analysis.SpecialFunctions.Trigonometric.Series
import Mathlib.MeasureTheory.Integral.IntervalIntegral.FundThmCalculus
import Mathlib.MeasureTheory.Integral.DominatedConvergence

/-!
# Hankel transforms of the source profiles
-/

noncomputable section

namespace Microjax.Props

open Spec MeasureTheory
open scoped Nat

/-- Termwise integration of a uniformly dominated series of continuous functions. -/
theorem hasSum_integral_of_bound (F : ℕ → ℝ → ℝ) (f : ℝ → ℝ) (a b : ℝ) (u : ℕ → ℝ) (hu : Summable u)
    (hc : ∀ n, Continuous (F n)) (hb : ∀ n : ℕ, ∀ t : ℝ, t ∈ Set.uIoc a b → |F n t| ≤ u n)
    (hs : ∀ t : ℝ, t ∈ Set.uIoc a b → HasSum (fun n => F n t) (f t)) :
    HasSum (fun n => ∫ t in a..b, F n t) (∫ t in a..b, f t) :=
  intervalIntegral.hasSum_integral_of_dominated_convergence (fun n _ => u n)
    (fun n => (hc n).aestronglyMeasurable) (fun n => Filter.Eventually.of_forall fun t ht => hb n t ht)
    (Filter.Eventually.of_forall fun _ _ => hu) intervalIntegrable_const
    (Filter.Eventually.of_forall fun t ht => hs t ht)

theorem integral_cos_even (n : ℕ) :
    (∫ θ in (0 : ℝ)..2 * Real.pi, Real.cos θ ^ (2 * n)) = 2 * Real.pi * (((2 * n)! : ℝ) / (4 ^ n * (n ! : ℝ) ^ 2)) := by
  induction n with
  | zero => simp
  | succ n ih =>
    rw [show 2 * (n + 1) = 2 * n + 2 by ring, integral_cos_pow, ih, Real.sin_two_pi, Real.sin_zero, Nat.factorial_succ,
      Nat.factorial_succ (2 * n), Nat.factorial_succ n]
    push_cast
    have h1 : (2 * (n : ℝ) + 2) ≠ 0 := by positivity
    have h2 : ((n : ℝ) + 1) ≠ 0 := by positivity
    field_simp
    ring

/-- Bessel's integral for order zero. -/
theorem integral_cos_cos (y : ℝ) : (∫ θ in (0 : ℝ)..2 * Real.pi, Real.cos (y * Real.cos θ)) = 2 * Real.pi * besselJ 0 y := by
  have h := hasSum_integral_of_bound (fun n θ => (-1) ^ n * (y * Real.cos θ) ^ (2 * n) / ((2 * n)! : ℝ))
    (fun θ => Real.cos (y * Real.cos θ)) 0 (2 * Real.pi) (fun n => |y| ^ (2 * n) / ((2 * n)! : ℝ))
    ((Real.summable_pow_div_factorial |y|).comp_injective (fun a b h => by simpa using h))
    (fun n => by fun_prop)
    (fun n θ _ => by
      rw [abs_div, abs_mul, abs_pow, abs_pow, abs_neg, abs_one, one_pow, one_mul, abs_mul, Nat.abs_cast]
      gcongr
      have := Real.abs_cos_le_one θ
      nlinarith [abs_nonneg y])
    (fun θ _ => Real.hasSum_cos _)
  have e : ∀ n : ℕ, (∫ θ in (0 : ℝ)..2 * Real.pi, (-1) ^ n * (y * Real.cos θ) ^ (2 * n) / ((2 * n)! : ℝ))
      = 2 * Real.pi * ((-1) ^ n / (n ! * (n + 0)! : ℝ) * (y / 2) ^ (2 * n + 0)) := by
    intro n
    have e1 : ∀ θ : ℝ, (-1 : ℝ) ^ n * (y * Real.cos θ) ^ (2 * n) / ((2 * n)! : ℝ)
        = (-1) ^ n * y ^ (2 * n) / ((2 * n)! : ℝ) * Real.cos θ ^ (2 * n) := by intro θ; rw [mul_pow]; ring
    simp only [e1]
    rw [intervalIntegral.integral_const_mul, integral_cos_even, add_zero, add_zero, div_pow, pow_mul 2]
    have hf : ((2 * n)! : ℝ) ≠ 0 := by positivity
    field_simp
    norm_num
  simp only [e] at h
  rw [← h.tsum_eq, tsum_mul_left, besselJ]

theorem continuous_J (n : ℕ) : Continuous (besselJ n) := by
  have hc : Continuous (clifford n) := continuous_iff_continuousAt.mpr fun y => (hasDerivAt_clifford n y).continuousAt
  have e : besselJ n = fun x => (x / 2) ^ n * clifford n (x ^ 2 / 4) := funext (besselJ_eq n)
  rw [e]
  fun_prop

/-- The transform of a profile is its Hankel transform. -/
theorem discFT_eq (S : ℝ → ℝ) (k : ℝ) :
    discFT S k = (∫ r in (0 : ℝ)..1, S r * besselJ 0 (k * r) * r) / (∫ r in (0 : ℝ)..1, S r * r) := by
  have h1 : ∀ r : ℝ, (∫ θ in (0 : ℝ)..2 * Real.pi, S r * Real.cos (k * (r * Real.cos θ)) * r)
      = 2 * Real.pi * (S r * besselJ 0 (k * r) * r) := by
    intro r
    have e : ∀ θ : ℝ, S r * Real.cos (k * (r * Real.cos θ)) * r = (S r * r) * Real.cos (k * r * Real.cos θ) := by
      intro θ; rw [← mul_assoc k]; ring
    simp only [e]
    rw [intervalIntegral.integral_const_mul, integral_cos_cos]; ring
  have h2 : ∀ r : ℝ, (∫ _θ in (0 : ℝ)..2 * Real.pi, S r * r) = 2 * Real.pi * (S r * r) := by
    intro r
    rw [intervalIntegral.integral_const, smul_eq_mul, sub_zero]
  rw [discFT, discFlux]
  simp only [h1, h2]
  rw [intervalIntegral.integral_const_mul, intervalIntegral.integral_const_mul,
    mul_div_mul_left _ _ (by positivity : (2 * Real.pi) ≠ 0)]

/-- `(y J_1)' = y J_0`. -/
theorem hasDerivAt_yJ1 (y : ℝ) : HasDerivAt (fun y => y * besselJ 1 y) (y * besselJ 0 y) y := by
  have h := (hasDerivAt_id y).fun_mul (hasDerivAt_J1 y)
  refine h.congr_deriv ?_
  rw [besselJ_one]
  simp only [id]
  ring

/-- `(y² J_2)' = y² J_1`. -/
theorem hasDerivAt_yyJ2 (y : ℝ) : HasDerivAt (fun y => y ^ 2 * besselJ 2 y) (y ^ 2 * besselJ 1 y) y := by
  have e : (fun y => y ^ 2 * besselJ 2 y) = fun y => 2 * (y * besselJ 1 y) - y ^ 2 * besselJ 0 y := by
    funext y
    rw [besselJ_eq 2, besselJ_one, besselJ_zero, clifford_rec]
    ring
  rw [e]
  have h := ((hasDerivAt_yJ1 y).const_mul 2).fun_sub ((hasDerivAt_pow 2 y).fun_mul (hasDerivAt_J0 y))
  refine h.congr_deriv ?_
  push_cast
  ring

theorem integral_rJ0 (x : ℝ) (hx : x ≠ 0) : (∫ r in (0 : ℝ)..1, r * besselJ 0 (x * r)) = besselJ 1 x / x := by
  have hd : ∀ r : ℝ, HasDerivAt (fun r => (x * r) * besselJ 1 (x * r) / x ^ 2) (r * besselJ 0 (x * r)) r := by
    intro r
    have hl : HasDerivAt (fun r : ℝ => x * r) x r := by simpa using (hasDerivAt_id r).const_mul x
    have h := (HasDerivAt.comp r (hasDerivAt_yJ1 (x * r)) hl).div_const (x ^ 2)
    refine h.congr_deriv ?_
    field_simp
  have hc : Continuous fun r : ℝ => r * besselJ 0 (x * r) := by
    have := continuous_J 0
    fun_prop
  rw [intervalIntegral.integral_eq_sub_of_hasDerivAt (fun r _ => hd r) (hc.intervalIntegrable _ _)]
  simp only [mul_one, mul_zero, zero_mul, zero_div, sub_zero]
  field_simp

theorem integral_limb2 (x : ℝ) (hx : x ≠ 0) :
    (∫ r in (0 : ℝ)..1, (1 - r ^ 2) * besselJ 0 (x * r) * r) = 2 * besselJ 2 x / x ^ 2 := by
  have hd : ∀ r : ℝ, HasDerivAt (fun r => (1 - r ^ 2) * ((x * r) * besselJ 1 (x * r)) / x ^ 2
      + 2 * ((x * r) ^ 2 * besselJ 2 (x * r)) / x ^ 4) ((1 - r ^ 2) * besselJ 0 (x * r) * r) r := by
    intro r
    have hl : HasDerivAt (fun r : ℝ => x * r) x r := by simpa using (hasDerivAt_id r).const_mul x
    have h1 := HasDerivAt.comp r (hasDerivAt_yJ1 (x * r)) hl
    have h2 := HasDerivAt.comp r (hasDerivAt_yyJ2 (x * r)) hl
    have h := ((((hasDerivAt_pow 2 r).const_sub 1).fun_mul h1).div_const (x ^ 2)).fun_add
      ((h2.const_mul 2).div_const (x ^ 4))
    refine h.congr_deriv ?_
    simp only [Function.comp]
    push_cast
    field_simp
    ring
  have hc : Continuous fun r : ℝ => (1 - r ^ 2) * besselJ 0 (x * r) * r := by
    have := continuous_J 0
    fun_prop
  rw [intervalIntegral.integral_eq_sub_of_hasDerivAt (fun r _ => hd r) (hc.intervalIntegrable _ _)]
  field_simp
  ring

/-- Moments of the linear limb-darkening profile. -/
theorem integral_sqrt_moment (m : ℕ) :
    (∫ r in (0 : ℝ)..1, r ^ (2 * m + 1) * Real.sqrt (1 - r ^ 2)) = 4 ^ m * (m ! : ℝ) ^ 2 * (2 * m + 2) / ((2 * m + 3)! : ℝ) := by
  have hderiv : ∀ m : ℕ, ∀ r : ℝ, r ∈ Set.Ioo (0 : ℝ) 1 → HasDerivAt (fun r => r ^ (2 * m) * ((1 - r ^ 2) * Real.sqrt (1 - r ^ 2)))
      (2 * m * r ^ (2 * m - 1) * ((1 - r ^ 2) * Real.sqrt (1 - r ^ 2)) - 3 * (r ^ (2 * m + 1) * Real.sqrt (1 - r ^ 2))) r := by
    intro m r hr
    have hpos : 0 < 1 - r ^ 2 := by nlinarith [hr.1, hr.2]
    have hs := Real.sqrt_pos.mpr hpos
    have hsq : Real.sqrt (1 - r ^ 2) ^ 2 = 1 - r ^ 2 := Real.sq_sqrt hpos.le
    have h1 : HasDerivAt (fun r : ℝ => 1 - r ^ 2) (-(2 * r)) r := by
      have := (hasDerivAt_pow 2 r).const_sub 1
      exact this.congr_deriv (by push_cast; ring)
    have h := (hasDerivAt_pow (2 * m) r).fun_mul (h1.fun_mul (h1.sqrt hpos.ne'))
    refine h.congr_deriv ?_
    push_cast
    rw [pow_succ r (2 * m)]
    have : (1 - r ^ 2) * (-(2 * r) / (2 * Real.sqrt (1 - r ^ 2))) = -(r * Real.sqrt (1 - r ^ 2)) := by
      have h3 : (1 - r ^ 2) * (-(2 * r) / (2 * Real.sqrt (1 - r ^ 2)))
          = Real.sqrt (1 - r ^ 2) ^ 2 * (-(2 * r) / (2 * Real.sqrt (1 - r ^ 2))) := by rw [hsq]
      rw [h3]; field_simp
    rw [this]
    ring
  have hI : ∀ m : ℕ, (∫ r in (0 : ℝ)..1, (2 * m * r ^ (2 * m - 1) * ((1 - r ^ 2) * Real.sqrt (1 - r ^ 2))
      - 3 * (r ^ (2 * m + 1) * Real.sqrt (1 - r ^ 2)))) = 0 - (0 : ℝ) ^ (2 * m) := by
    intro m
    rw [intervalIntegral.integral_eq_sub_of_hasDerivAt_of_le zero_le_one (f := fun r => r ^ (2 * m) * ((1 - r ^ 2) * Real.sqrt (1 - r ^ 2)))
      (by fun_prop) (hderiv m) (Continuous.intervalIntegrable (by fun_prop) _ _)]
    simp
  induction m with
  | zero =>
    have h := hI 0
    simp only [Nat.cast_zero, mul_zero, zero_mul, zero_sub, pow_zero, zero_add, pow_one] at h
    rw [intervalIntegral.integral_neg, intervalIntegral.integral_const_mul] at h
    norm_num [Nat.factorial] at h ⊢
    linarith
  | succ m ih =>
    have h := hI (m + 1)
    rw [zero_pow (by omega), sub_zero] at h
    have e : ∀ r : ℝ, 2 * ((m + 1 : ℕ) : ℝ) * r ^ (2 * (m + 1) - 1) * ((1 - r ^ 2) * Real.sqrt (1 - r ^ 2))
        - 3 * (r ^ (2 * (m + 1) + 1) * Real.sqrt (1 - r ^ 2))
        = (2 * m + 2) * (r ^ (2 * m + 1) * Real.sqrt (1 - r ^ 2)) - (2 * m + 5) * (r ^ (2 * (m + 1) + 1) * Real.sqrt (1 - r ^ 2)) := by
      intro r
      rw [show 2 * (m + 1) - 1 = 2 * m + 1 by omega, show 2 * (m + 1) + 1 = 2 * m + 1 + 2 by ring, pow_add r (2 * m + 1) 2]
      push_cast
      ring
    simp only [e] at h
    rw [intervalIntegral.integral_sub (Continuous.intervalIntegrable (by fun_prop) _ _)
      (Continuous.intervalIntegrable (by fun_prop) _ _), intervalIntegral.integral_const_mul,
      intervalIntegral.integral_const_mul, ih] at h
    have p5 : (0 : ℝ) < 2 * m + 5 := by positivity
    have h2 : ((2 * (m + 1) + 3)! : ℝ) = (2 * m + 5) * (2 * m + 4) * (2 * m + 3)! := by
      rw [show 2 * (m + 1) + 3 = (2 * m + 3) + 1 + 1 by ring, Nat.factorial_succ, Nat.factorial_succ]
      push_cast; ring
    have hf : (0 : ℝ) < ((2 * m + 3)! : ℝ) := by positivity
    have key : (∫ r in (0 : ℝ)..1, r ^ (2 * (m + 1) + 1) * Real.sqrt (1 - r ^ 2))
        = (2 * m + 2) * (4 ^ m * (m ! : ℝ) ^ 2 * (2 * m + 2) / ((2 * m + 3)! : ℝ)) / (2 * m + 5) := by
      rw [eq_div_iff p5.ne']; linarith
    rw [key, h2, Nat.factorial_succ m]
    push_cast
    have p4 : (0 : ℝ) < 2 * m + 4 := by positivity
    field_simp
    ring

theorem integral_limb1 (x : ℝ) (hx : x ≠ 0) :
    (∫ r in (0 : ℝ)..1, Real.sqrt (1 - r ^ 2) * besselJ 0 (x * r) * r) = (Real.sin x / x - Real.cos x) / x ^ 2 := by
  have h := hasSum_integral_of_bound
    (fun m r => (-1) ^ m * x ^ (2 * m) / (4 ^ m * (m ! : ℝ) ^ 2) * (r ^ (2 * m + 1) * Real.sqrt (1 - r ^ 2)))
    (fun r => Real.sqrt (1 - r ^ 2) * besselJ 0 (x * r) * r) 0 1 (fun m => |x| ^ (2 * m) / (m ! : ℝ))
    ?_ (fun m => by fun_prop) ?_ ?_
  · have h' := (hasSum_sin_sub_cos x hx).div_const (x ^ 2)
    refine HasSum.unique ?_ h'
    refine Eq.mp (congrArg (fun f => HasSum f _) (funext fun m => ?_)) h
    rw [intervalIntegral.integral_const_mul, integral_sqrt_moment, pow_add]
    have hf : (0 : ℝ) < ((2 * m + 3)! : ℝ) := by positivity
    have hm : (0 : ℝ) < (m ! : ℝ) := by positivity
    field_simp
  · have := Real.summable_pow_div_factorial (|x| ^ 2)
    simpa only [← pow_mul] using this
  · intro m r hr
    rw [Set.uIoc_of_le zero_le_one] at hr
    have hs1 : Real.sqrt (1 - r ^ 2) ≤ 1 := by
      rw [Real.sqrt_le_iff]; constructor <;> nlinarith [sq_nonneg r]
    have hs0 := Real.sqrt_nonneg (1 - r ^ 2)
    have hr1 : r ^ (2 * m + 1) ≤ 1 := pow_le_one₀ hr.1.le hr.2
    have hr0 : 0 ≤ r ^ (2 * m + 1) := pow_nonneg hr.1.le _
    have hf : (1 : ℝ) ≤ (m ! : ℝ) := by exact_mod_cast Nat.one_le_iff_ne_zero.mpr (Nat.factorial_ne_zero m)
    have h4 : (1 : ℝ) ≤ 4 ^ m := one_le_pow₀ (by norm_num)
    rw [abs_mul, abs_div, abs_mul, abs_pow, abs_pow, abs_neg, abs_one, one_pow, one_mul,
      abs_of_nonneg (mul_nonneg hr0 hs0), abs_of_pos (by positivity : (0 : ℝ) < 4 ^ m * (m ! : ℝ) ^ 2)]
    calc |x| ^ (2 * m) / (4 ^ m * (m ! : ℝ) ^ 2) * (r ^ (2 * m + 1) * Real.sqrt (1 - r ^ 2))
        ≤ |x| ^ (2 * m) / (4 ^ m * (m ! : ℝ) ^ 2) * 1 := by
          gcongr
          nlinarith
      _ ≤ |x| ^ (2 * m) / (m ! : ℝ) := by
          rw [mul_one]
          gcongr
          nlinarith
  · intro r _
    have hs := (summable_clifford 0 ((x * r) ^ 2 / 4)).hasSum.mul_left (Real.sqrt (1 - r ^ 2) * r)
    rw [← clifford, ← besselJ_zero, show Real.sqrt (1 - r ^ 2) * r * besselJ 0 (x * r)
      = Real.sqrt (1 - r ^ 2) * besselJ 0 (x * r) * r by ring] at hs
    refine Eq.mp (congrArg (fun f => HasSum f _) (funext fun m => ?_)) hs
    rw [cliffordC, add_zero, div_pow, ← pow_mul, mul_pow, pow_succ]
    have hm : (0 : ℝ) < (m ! : ℝ) := by positivity
    field_simp
    ring

end Microjax.Props
