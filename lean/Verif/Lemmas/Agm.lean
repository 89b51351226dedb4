import Verif.Lemmas.Landen
import Verif.Model.Special
import Verif.Spec.Elliptic
import Mathlib.Tactic.LinearCombination

/-!
# The AGM iteration of `special.py` and the Gauss integrals
-/

noncomputable section

open MeasureTheory Microjax.Special Microjax.Spec

namespace Microjax.Props

lemma agmStep_pos {p : ℝ × ℝ} (h1 : 0 < p.1) (h2 : 0 < p.2) :
    0 < (agmStep p).1 ∧ 0 < (agmStep p).2 :=
  ⟨by simp only [agmStep]; linarith, Real.sqrt_pos.mpr (mul_pos h1 h2)⟩

lemma agmStep_le {p : ℝ × ℝ} (h1 : 0 < p.1) (h2 : 0 < p.2) : (agmStep p).2 ≤ (agmStep p).1 := by
  simp only [agmStep]
  rw [Real.sqrt_le_left (by linarith)]
  nlinarith [sq_nonneg (p.1 - p.2)]

lemma agm_iter_pos {p : ℝ × ℝ} (h1 : 0 < p.1) (h2 : 0 < p.2) (n : ℕ) :
    0 < (agmStep^[n] p).1 ∧ 0 < (agmStep^[n] p).2 := by
  induction n with
  | zero => exact ⟨h1, h2⟩
  | succ n ih => rw [Function.iterate_succ_apply']; exact agmStep_pos ih.1 ih.2

lemma agm_iter_le {p : ℝ × ℝ} (h1 : 0 < p.1) (h2 : 0 < p.2) (hle : p.2 ≤ p.1) (n : ℕ) :
    (agmStep^[n] p).2 ≤ (agmStep^[n] p).1 := by
  cases n with
  | zero => exact hle
  | succ n =>
    rw [Function.iterate_succ_apply']
    have := agm_iter_pos h1 h2 n
    exact agmStep_le this.1 this.2

lemma agm_iter_gaussI {p : ℝ × ℝ} (h1 : 0 < p.1) (h2 : 0 < p.2) (n : ℕ) :
    gaussI (agmStep^[n] p).1 (agmStep^[n] p).2 = gaussI p.1 p.2 := by
  induction n with
  | zero => rfl
  | succ n ih =>
    have := agm_iter_pos h1 h2 n
    rw [Function.iterate_succ_apply', ← ih]
    exact gaussI_step this.1 this.2

/-- First component between the smaller and the larger start value. -/
lemma agm_iter_between {p : ℝ × ℝ} (h1 : 0 < p.1) (h2 : 0 < p.2) (n : ℕ) :
    (min p.1 p.2 ≤ (agmStep^[n] p).1 ∧ (agmStep^[n] p).1 ≤ max p.1 p.2) ∧
    (min p.1 p.2 ≤ (agmStep^[n] p).2 ∧ (agmStep^[n] p).2 ≤ max p.1 p.2) := by
  induction n with
  | zero => exact ⟨⟨min_le_left _ _, le_max_left _ _⟩, ⟨min_le_right _ _, le_max_right _ _⟩⟩
  | succ n ih =>
    rw [Function.iterate_succ_apply']
    set q := agmStep^[n] p
    have hm : 0 < min p.1 p.2 := lt_min h1 h2
    have hM : 0 < max p.1 p.2 := lt_of_lt_of_le h1 (le_max_left _ _)
    obtain ⟨⟨a1, a2⟩, b1, b2⟩ := ih
    refine ⟨⟨?_, ?_⟩, ?_, ?_⟩ <;> simp only [agmStep]
    · linarith
    · linarith
    · refine Real.le_sqrt_of_sq_le ?_
      nlinarith
    · rw [Real.sqrt_le_left hM.le]
      nlinarith

/-- Quadratic convergence of the relative gap. -/
lemma agmStep_gap {p : ℝ × ℝ} (h2 : 0 < p.2) (hle : p.2 ≤ p.1) :
    ((agmStep p).1 - (agmStep p).2) / (agmStep p).1 ≤ ((p.1 - p.2) / p.1) ^ 2 := by
  have h1 : 0 < p.1 := h2.trans_le hle
  simp only [agmStep]
  rw [Real.sqrt_mul h1.le]
  set x := Real.sqrt p.1
  set y := Real.sqrt p.2
  have hx : p.1 = x ^ 2 := (Real.sq_sqrt h1.le).symm
  have hy : p.2 = y ^ 2 := (Real.sq_sqrt h2.le).symm
  have hx0 : 0 < x := Real.sqrt_pos.mpr h1
  have hy0 : 0 < y := Real.sqrt_pos.mpr h2
  rw [hx, hy, div_pow, div_le_div_iff₀ (by positivity) (by positivity)]
  have h : (x ^ 2) ^ 2 ≤ (x ^ 2 + y ^ 2) * (x + y) ^ 2 := by
    nlinarith [mul_pos hx0 hy0, mul_pos (mul_pos hx0 hy0) (mul_pos hx0 hy0), sq_nonneg (x*y),
      mul_pos (pow_pos hx0 3) hy0, mul_pos (pow_pos hy0 3) hx0, pow_pos hy0 4]
  nlinarith [mul_le_mul_of_nonneg_left h (sq_nonneg (x - y))]

lemma agm_iter_gap {p : ℝ × ℝ} (h2 : 0 < p.2) (hle : p.2 ≤ p.1) (n : ℕ) :
    ((agmStep^[n] p).1 - (agmStep^[n] p).2) / (agmStep^[n] p).1 ≤ ((p.1 - p.2) / p.1) ^ (2 ^ n) := by
  have h1 : 0 < p.1 := h2.trans_le hle
  induction n with
  | zero => simp
  | succ n ih =>
    rw [Function.iterate_succ_apply']
    have hp := agm_iter_pos h1 h2 n
    have hl := agm_iter_le h1 h2 hle n
    refine (agmStep_gap hp.2 hl).trans ?_
    rw [pow_succ 2 n, pow_mul]
    exact pow_le_pow_left₀ (div_nonneg (by linarith) hp.1.le) ih 2

lemma agm_iter_swap (a b : ℝ) (n : ℕ) (hn : 0 < n) : agmStep^[n] (a, b) = agmStep^[n] (b, a) := by
  obtain ⟨k, rfl⟩ := Nat.exists_eq_succ_of_ne_zero hn.ne'
  rw [Function.iterate_succ_apply, Function.iterate_succ_apply]
  congr 1
  simp only [agmStep, add_comm, mul_comm]

lemma agm_iter_scale {k : ℝ} (hk : 0 ≤ k) (a b : ℝ) (n : ℕ) :
    agmStep^[n] (k * a, k * b) = (k * (agmStep^[n] (a, b)).1, k * (agmStep^[n] (a, b)).2) := by
  induction n with
  | zero => rfl
  | succ n ih =>
    rw [Function.iterate_succ_apply', ih, Function.iterate_succ_apply']
    simp only [agmStep]
    refine Prod.ext ?_ ?_
    · simp only; ring
    · simp only
      rw [show ∀ x y : ℝ, k * x * (k * y) = k ^ 2 * (x * y) by intros; ring,
        Real.sqrt_mul (sq_nonneg k), Real.sqrt_sq hk]

/-- The first two components of the loop of `agm2` are the AGM iterates, the counter counts. -/
lemma agmStep2_iter (a b s : ℝ) (n : ℕ) :
    (agmStep2^[n] (a, b, s, 1)).1 = (agmStep^[n] (a, b)).1 ∧
    (agmStep2^[n] (a, b, s, 1)).2.1 = (agmStep^[n] (a, b)).2 ∧
    (agmStep2^[n] (a, b, s, 1)).2.2.2 = n + 1 := by
  induction n with
  | zero => exact ⟨rfl, rfl, rfl⟩
  | succ n ih =>
    rw [Function.iterate_succ_apply', Function.iterate_succ_apply']
    obtain ⟨h1, h2, h3⟩ := ih
    simp only [agmStep2, agmStep, h1, h2, h3, and_self]

/-- Invariant of the loop of `agm2`: the integral of the second kind is recovered from the running sum and the
integral of the next iterate. -/
lemma agm2_invariant {a b : ℝ} (ha : 0 < a) (hb : 0 < b) (n : ℕ) :
    gaussJ a b = gaussI a b * (a ^ 2 - (agmStep2^[n] (a, b, 0.5 * (a ^ 2 - b ^ 2), 1)).2.2.1)
      + 2 ^ (n + 1) * (gaussJ (agmStep^[n + 1] (a, b)).1 (agmStep^[n + 1] (a, b)).2
        - (agmStep^[n + 1] (a, b)).1 ^ 2 * gaussI a b) := by
  induction n with
  | zero =>
    have := gaussJ_step ha hb
    simp only [Function.iterate_zero, id, zero_add, Function.iterate_one, agmStep, pow_one]
    rw [this]
    ring
  | succ n ih =>
    have hp := agm_iter_pos (p := (a, b)) ha hb (n + 1)
    have hp0 := agm_iter_pos (p := (a, b)) ha hb n
    have hI := agm_iter_gaussI (p := (a, b)) ha hb (n + 1)
    obtain ⟨e1, e2, e3⟩ := agmStep2_iter a b (0.5 * (a ^ 2 - b ^ 2)) n
    rw [ih, Function.iterate_succ_apply' agmStep2 n, Function.iterate_succ_apply' agmStep (n + 1)]
    have hJ := gaussJ_step hp.1 hp.2
    rw [hI] at hJ
    rw [hJ]
    have hs : (agmStep2 (agmStep2^[n] (a, b, 0.5 * (a ^ 2 - b ^ 2), 1))).2.2.1
        = (agmStep2^[n] (a, b, 0.5 * (a ^ 2 - b ^ 2), 1)).2.2.1
          + 2 ^ n * (0.5 * ((agmStep^[n] (a, b)).1 - (agmStep^[n] (a, b)).2)) ^ 2 := by
      simp only [agmStep2, e1, e2, e3, Nat.add_sub_cancel]
    rw [hs]
    have hA : (agmStep^[n + 1] (a, b)).1 = ((agmStep^[n] (a, b)).1 + (agmStep^[n] (a, b)).2) / 2 := by
      rw [Function.iterate_succ_apply']; rfl
    have hB : (agmStep^[n + 1] (a, b)).2 ^ 2 = (agmStep^[n] (a, b)).1 * (agmStep^[n] (a, b)).2 := by
      rw [Function.iterate_succ_apply']
      exact Real.sq_sqrt (mul_pos hp0.1 hp0.2).le
    set A := (agmStep^[n + 1] (a, b)).1
    set B := (agmStep^[n + 1] (a, b)).2
    set x := (agmStep^[n] (a, b)).1
    set y := (agmStep^[n] (a, b)).2
    set J := gaussJ ((A + B) / 2) (Real.sqrt (A * B))
    simp only [agmStep]
    have hc : (0.5 * (x - y)) ^ 2 = A ^ 2 - B ^ 2 := by rw [hB, hA]; ring
    rw [hc]
    ring

/-! ### The elliptic integrals -/

lemma ellipticK_eq_gaussI {m : ℝ} (hm : m < 1) : ellipticK m = gaussI 1 (Real.sqrt (1 - m)) := by
  unfold ellipticK gaussI
  refine intervalIntegral.integral_congr fun θ _ => ?_
  simp only [quadD]
  rw [Real.sq_sqrt (by linarith)]
  congr 2
  linear_combination (-1 : ℝ) * Real.sin_sq_add_cos_sq θ

lemma ellipticE_eq_gaussJ {m : ℝ} (hm : m < 1) : ellipticE m = gaussJ 1 (Real.sqrt (1 - m)) := by
  unfold ellipticE gaussJ
  refine intervalIntegral.integral_congr fun θ _ => ?_
  simp only [quadD]
  rw [Real.sq_sqrt (by linarith)]
  congr 1
  linear_combination (-1 : ℝ) * Real.sin_sq_add_cos_sq θ

/-- `1 - m' = 1 / (1 - m)` for `m' = |m| / (|m| + 1)`, `m ≤ 0`. -/
lemma sqrt_reflect {m : ℝ} (hm : m ≤ 0) :
    Real.sqrt (1 - |m| / (|m| + 1)) = (Real.sqrt (1 - m))⁻¹ := by
  rw [abs_of_nonpos hm, ← Real.sqrt_inv]
  congr 1
  have : (0 : ℝ) < 1 - m := by linarith
  rw [show -m + 1 = 1 - m by ring]
  field_simp
  ring

lemma ellipticK_reflect {m : ℝ} (hm : m ≤ 0) :
    1 / Real.sqrt (|m| + 1) * ellipticK (|m| / (|m| + 1)) = ellipticK m := by
  have h1 : |m| / (|m| + 1) < 1 := by
    rw [div_lt_one (by positivity)]; linarith
  have hr : 0 < Real.sqrt (1 - m) := Real.sqrt_pos.mpr (by linarith)
  rw [ellipticK_eq_gaussI h1, ellipticK_eq_gaussI (by linarith), sqrt_reflect hm,
    show |m| + 1 = 1 - m by rw [abs_of_nonpos hm]; ring, one_div, ← gaussI_scale hr,
    mul_inv_cancel₀ hr.ne', mul_one, gaussI_symm]

lemma ellipticE_reflect {m : ℝ} (hm : m ≤ 0) :
    Real.sqrt (|m| + 1) * ellipticE (|m| / (|m| + 1)) = ellipticE m := by
  have h1 : |m| / (|m| + 1) < 1 := by
    rw [div_lt_one (by positivity)]; linarith
  have hr : 0 < Real.sqrt (1 - m) := Real.sqrt_pos.mpr (by linarith)
  rw [ellipticE_eq_gaussJ h1, ellipticE_eq_gaussJ (by linarith), sqrt_reflect hm,
    show |m| + 1 = 1 - m by rw [abs_of_nonpos hm]; ring, ← gaussJ_scale hr,
    mul_inv_cancel₀ hr.ne', mul_one, gaussJ_symm]

lemma sqrt_le_one_of {m : ℝ} (h0 : 0 ≤ m) : Real.sqrt (1 - m) ≤ 1 := by
  rw [Real.sqrt_le_left one_pos.le]
  linarith

/-- The relative gap after five steps from `(1, √(1-m))`. -/
lemma gap5 {m : ℝ} (h0 : 0 ≤ m) (h1 : m < 1) :
    ((agmStep^[5] (1, Real.sqrt (1 - m))).1 - (agmStep^[5] (1, Real.sqrt (1 - m))).2)
      / (agmStep^[5] (1, Real.sqrt (1 - m))).1 ≤ (1 - Real.sqrt (1 - m)) ^ 32 := by
  have := agm_iter_gap (p := (1, Real.sqrt (1 - m))) (Real.sqrt_pos.mpr (by linarith))
    (by
      change Real.sqrt (1 - m) ≤ 1
      exact sqrt_le_one_of h0) 5
  simpa using this

lemma ellipk_dir_accuracy {m : ℝ} (h0 : 0 ≤ m) (h1 : m < 1) :
    ellipk_ m ≤ ellipticK m ∧
    ellipticK m * (1 - (1 - Real.sqrt (1 - m)) ^ 32) ≤ ellipk_ m := by
  have hb : 0 < Real.sqrt (1 - m) := Real.sqrt_pos.mpr (by linarith)
  have hle : Real.sqrt (1 - m) ≤ 1 := sqrt_le_one_of h0
  have hp := agm_iter_pos (p := (1, Real.sqrt (1 - m))) one_pos hb 5
  have hl := agm_iter_le (p := (1, Real.sqrt (1 - m))) one_pos hb hle 5
  have hI := agm_iter_gaussI (p := (1, Real.sqrt (1 - m))) one_pos hb 5
  have hg := gap5 h0 h1
  have hB := gaussI_bounds hp.2 hl
  rw [hI] at hB
  rw [ellipticK_eq_gaussI h1]
  unfold ellipk_ agm
  set A := (agmStep^[5] (1, Real.sqrt (1 - m))).1
  set B := (agmStep^[5] (1, Real.sqrt (1 - m))).2
  set I := gaussI 1 (Real.sqrt (1 - m))
  refine ⟨hB.1, ?_⟩
  have hpi := Real.pi_pos
  have hI0 : 0 ≤ I := le_trans (by have := hp.1; positivity) hB.1
  have h2 : 1 - (1 - Real.sqrt (1 - m)) ^ 32 ≤ B / A := by
    have : (A - B) / A = 1 - B / A := by rw [sub_div, div_self hp.1.ne']
    linarith
  calc I * (1 - (1 - Real.sqrt (1 - m)) ^ 32) ≤ I * (B / A) := mul_le_mul_of_nonneg_left h2 hI0
    _ ≤ Real.pi / (2 * B) * (B / A) := mul_le_mul_of_nonneg_right hB.2 (div_pos hp.2 hp.1).le
    _ = Real.pi / (2 * A) := by
      have h3 := hp.1.ne'
      have h4 := hp.2.ne'
      field_simp

lemma ellipe_dir_accuracy {m : ℝ} (h0 : 0 ≤ m) (h1 : m < 1) :
    ellipe_ m ≤ ellipticE m + 16 * ((1 - Real.sqrt (1 - m)) ^ 32) ^ 2 * ellipticK m ∧
    ellipticE m * (1 - (1 - Real.sqrt (1 - m)) ^ 32) ≤ ellipe_ m := by
  have hb : 0 < Real.sqrt (1 - m) := Real.sqrt_pos.mpr (by linarith)
  have hle : Real.sqrt (1 - m) ≤ 1 := sqrt_le_one_of h0
  have hp := agm_iter_pos (p := (1, Real.sqrt (1 - m))) one_pos hb 5
  have hl := agm_iter_le (p := (1, Real.sqrt (1 - m))) one_pos hb hle 5
  have hI := agm_iter_gaussI (p := (1, Real.sqrt (1 - m))) one_pos hb 5
  have hbt := agm_iter_between (p := (1, Real.sqrt (1 - m))) one_pos hb 5
  have hp6 := agm_iter_pos (p := (1, Real.sqrt (1 - m))) one_pos hb 6
  have hl6 := agm_iter_le (p := (1, Real.sqrt (1 - m))) one_pos hb hle 6
  have hI6 := agm_iter_gaussI (p := (1, Real.sqrt (1 - m))) one_pos hb 6
  have hJ6 := gaussJ_bounds hp6.2 hl6
  rw [hI6] at hJ6
  have hg := gap5 h0 h1
  have hB := gaussI_bounds hp.2 hl
  rw [hI] at hB
  have hinv := agm2_invariant (a := 1) (b := Real.sqrt (1 - m)) one_pos hb 5
  rw [ellipticK_eq_gaussI h1, ellipticE_eq_gaussJ h1]
  have hc : (0.5 : ℝ) * Real.sqrt |(1 : ℝ) ^ 2 - Real.sqrt (1 - m) ^ 2| ^ 2
      = 0.5 * ((1 : ℝ) ^ 2 - Real.sqrt (1 - m) ^ 2) := by
    rw [Real.sq_sqrt (abs_nonneg _), abs_of_nonneg]
    rw [Real.sq_sqrt (by linarith)]
    linarith
  have hdef : ellipe_ m = Real.pi / (2 * (agmStep^[5] (1, Real.sqrt (1 - m))).1)
      * (1 - (agmStep2^[5] (1, Real.sqrt (1 - m), 0.5 * ((1 : ℝ) ^ 2 - Real.sqrt (1 - m) ^ 2), 1)).2.2.1) := by
    simp only [ellipe_, agm2]
    rw [hc, (agmStep2_iter _ _ _ 5).1]
  rw [hdef]
  have hA6 : (agmStep^[6] (1, Real.sqrt (1 - m))).1
      = ((agmStep^[5] (1, Real.sqrt (1 - m))).1 + (agmStep^[5] (1, Real.sqrt (1 - m))).2) / 2 := by
    rw [Function.iterate_succ_apply' agmStep 5]; rfl
  have hB6 : (agmStep^[6] (1, Real.sqrt (1 - m))).2 ^ 2
      = (agmStep^[5] (1, Real.sqrt (1 - m))).1 * (agmStep^[5] (1, Real.sqrt (1 - m))).2 := by
    rw [Function.iterate_succ_apply' agmStep 5]
    exact Real.sq_sqrt (mul_pos hp.1 hp.2).le
  have hA1 : (agmStep^[5] (1, Real.sqrt (1 - m))).1 ≤ 1 := by
    have := hbt.1.2
    rwa [max_eq_left hle] at this
  have hJ0 := gaussJ_nonneg 1 (Real.sqrt (1 - m))
  set s := (agmStep2^[5] (1, Real.sqrt (1 - m), 0.5 * ((1 : ℝ) ^ 2 - Real.sqrt (1 - m) ^ 2), 1)).2.2.1
  set A6 := (agmStep^[6] (1, Real.sqrt (1 - m))).1
  set B6 := (agmStep^[6] (1, Real.sqrt (1 - m))).2
  set A := (agmStep^[5] (1, Real.sqrt (1 - m))).1
  set B := (agmStep^[5] (1, Real.sqrt (1 - m))).2
  set I := gaussI 1 (Real.sqrt (1 - m))
  set J := gaussJ 1 (Real.sqrt (1 - m))
  set J6 := gaussJ A6 B6
  set d := (1 - Real.sqrt (1 - m)) ^ 32
  have hpi := Real.pi_pos
  have hA0 := hp.1
  have hB0 := hp.2
  have hI0 : 0 < I := lt_of_lt_of_le (by positivity) hB.1
  have hinv' : J = I * (1 - s) + 64 * (J6 - A6 ^ 2 * I) := by
    have h := hinv
    norm_num at h
    exact h
  -- the remainder is non-positive and small
  have hr : 64 * (A6 ^ 2 * I - J6) ≤ 16 * (A - B) ^ 2 * I := by
    have h := hJ6.1
    have h2 : A6 ^ 2 - B6 ^ 2 = (A - B) ^ 2 / 4 := by rw [hA6, hB6]; ring
    have h3 : A6 ^ 2 * I - J6 ≤ (A6 ^ 2 - B6 ^ 2) * I := by
      have : B6 ^ 2 * I ≤ J6 := h
      rw [sub_mul]
      linarith
    rw [h2] at h3
    linarith
  have hd0 : 0 ≤ d := pow_nonneg (by linarith) 32
  have hAB : A - B ≤ d := by
    rw [div_le_iff₀ hp.1] at hg
    exact hg.trans (mul_le_of_le_one_right hd0 hA1)
  have hsq : (A - B) ^ 2 ≤ d ^ 2 := pow_le_pow_left₀ (by linarith) hAB 2
  have hs : I * (1 - s) = J + 64 * (A6 ^ 2 * I - J6) := by rw [hinv']; ring
  have hJ6u : J6 ≤ A6 ^ 2 * I := hJ6.2
  have hs0 : 0 ≤ 1 - s := by
    have : 0 ≤ I * (1 - s) := by rw [hs]; linarith
    exact nonneg_of_mul_nonneg_right this hI0
  constructor
  · calc Real.pi / (2 * A) * (1 - s) ≤ I * (1 - s) := mul_le_mul_of_nonneg_right hB.1 hs0
      _ = J + 64 * (A6 ^ 2 * I - J6) := hs
      _ ≤ J + 16 * (A - B) ^ 2 * I := by linarith
      _ ≤ J + 16 * d ^ 2 * I := by
        have := mul_le_mul_of_nonneg_right hsq hI0.le
        linarith
  · have h2 : 1 - d ≤ B / A := by
      have : (A - B) / A = 1 - B / A := by rw [sub_div, div_self hp.1.ne']
      linarith
    have h5 : I * (B / A) ≤ Real.pi / (2 * A) := by
      refine (mul_le_mul_of_nonneg_right hB.2 (div_pos hp.2 hp.1).le).trans (le_of_eq ?_)
      field_simp
    calc J * (1 - d) ≤ J * (B / A) := mul_le_mul_of_nonneg_left h2 hJ0
      _ ≤ I * (1 - s) * (B / A) := by
        refine mul_le_mul_of_nonneg_right ?_ (div_pos hp.2 hp.1).le
        rw [hs]; linarith
      _ = I * (B / A) * (1 - s) := by ring
      _ ≤ Real.pi / (2 * A) * (1 - s) := mul_le_mul_of_nonneg_right h5 hs0

end Microjax.Props
