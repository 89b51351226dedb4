import Verif.Lemmas.EllipticDeriv
import Mathlib.Analysis.Real.Pi.Bounds

/-!
# C61, C74: the elliptic integrals of `fastlens/special.py`
-/

noncomputable section

open Microjax.Special Microjax.Spec

namespace Microjax.Props

/-- Bound on the relative gap of the AGM iteration after five steps: `(1 - r)³²` with `r ≤ 1` the ratio of the two
start values.  For `m = -ρ²/4` and `ρ ≤ 1` it is below `10⁻³¹`. -/
def ellipticGap (m : ℝ) : ℝ := (1 - min (Real.sqrt (1 - m)) (Real.sqrt (1 - m))⁻¹) ^ 32

lemma ellipticGap_pos_branch {m : ℝ} (h0 : 0 ≤ m) (h1 : m < 1) :
    ellipticGap m = (1 - Real.sqrt (1 - m)) ^ 32 := by
  have hp : 0 < Real.sqrt (1 - m) := Real.sqrt_pos.mpr (by linarith)
  have hle := sqrt_le_one_of h0
  rw [ellipticGap, min_eq_left]
  exact hle.trans (one_le_inv_iff₀.mpr ⟨hp, hle⟩)

lemma ellipticGap_neg_branch {m : ℝ} (h0 : m ≤ 0) :
    ellipticGap m = (1 - Real.sqrt (1 - |m| / (|m| + 1))) ^ 32 := by
  have hge : 1 ≤ Real.sqrt (1 - m) := Real.one_le_sqrt.mpr (by linarith)
  rw [sqrt_reflect h0, ellipticGap, min_eq_right]
  exact (inv_le_one_of_one_le₀ hge).trans hge

lemma reflect_mem {m : ℝ} : 0 ≤ |m| / (|m| + 1) ∧ |m| / (|m| + 1) < 1 :=
  ⟨by positivity, by rw [div_lt_one (by positivity)]; linarith⟩

/-- **C61.**  For every `m < 1`, positive or negative, `ellipk(m)` is the complete elliptic integral of the first
kind up to the relative error `ellipticGap m`, and never above it. -/
theorem C61_ellipk_accuracy {m : ℝ} (hm : m < 1) :
    ellipk m ≤ ellipticK m ∧ ellipticK m * (1 - ellipticGap m) ≤ ellipk m := by
  rcases lt_or_ge 0 m with h | h
  · rw [ellipticGap_pos_branch h.le hm, ellipk, if_pos h]
    exact ellipk_dir_accuracy h.le hm
  · have := ellipk_dir_accuracy (reflect_mem (m := m)).1 reflect_mem.2
    have hp : (0 : ℝ) < 1 / Real.sqrt (|m| + 1) := by positivity
    rw [ellipticGap_neg_branch h, ellipk, if_neg (not_lt.mpr h), ← ellipticK_reflect h]
    exact ⟨mul_le_mul_of_nonneg_left this.1 hp.le, by
      rw [mul_assoc]; exact mul_le_mul_of_nonneg_left this.2 hp.le⟩

/-- **C61.**  For every `m < 1`, `ellipe(m)` is the complete elliptic integral of the second kind with a relative
defect of at most `ellipticGap m` and an excess of at most `16 ellipticGap(m)² max(1, 1 - m) K(m)`. -/
theorem C61_ellipe_accuracy {m : ℝ} (hm : m < 1) :
    ellipe m ≤ ellipticE m + 16 * ellipticGap m ^ 2 * (max 1 (1 - m) * ellipticK m) ∧
    ellipticE m * (1 - ellipticGap m) ≤ ellipe m := by
  rcases lt_or_ge 0 m with h | h
  · rw [ellipticGap_pos_branch h.le hm, ellipe, if_pos h, max_eq_left (by linarith), one_mul]
    exact ellipe_dir_accuracy h.le hm
  · have := ellipe_dir_accuracy (reflect_mem (m := m)).1 reflect_mem.2
    have hp : (0 : ℝ) < Real.sqrt (|m| + 1) := by positivity
    rw [ellipticGap_neg_branch h, ellipe, if_neg (not_lt.mpr h), ← ellipticK_reflect h, ← ellipticE_reflect h,
      max_eq_right (by linarith)]
    have hs : Real.sqrt (|m| + 1) ^ 2 = 1 - m := by
      rw [Real.sq_sqrt (by positivity), abs_of_nonpos h]; ring
    refine ⟨?_, ?_⟩
    · refine (mul_le_mul_of_nonneg_left this.1 hp.le).trans (le_of_eq ?_)
      rw [← hs]
      field_simp
    · rw [mul_assoc]; exact mul_le_mul_of_nonneg_left this.2 hp.le

/-- **C61.**  The branch used for negative `m` is not an approximation of its own: it returns exactly the value of the
direct AGM formula `π / (2 agm(1, √(1-m)))`. -/
theorem C61_branches_agree {m : ℝ} (hm : m < 1) : ellipk m = ellipk_ m := by
  rcases lt_or_ge 0 m with h | h
  · rw [ellipk, if_pos h]
  · rw [ellipk, if_neg (not_lt.mpr h), ellipk_, ellipk_, sqrt_reflect h, agm, agm]
    have hp : 0 < Real.sqrt (1 - m) := Real.sqrt_pos.mpr (by linarith)
    have h1 := agm_iter_scale hp.le 1 (Real.sqrt (1 - m))⁻¹ 5
    rw [mul_one, mul_inv_cancel₀ hp.ne', agm_iter_swap _ _ 5 (by norm_num)] at h1
    rw [h1, show |m| + 1 = 1 - m by rw [abs_of_nonpos h]; ring]
    have := (agm_iter_pos (p := (1, (Real.sqrt (1 - m))⁻¹)) one_pos (inv_pos.mpr hp) 5).1
    field_simp

/-- **C61.**  Every number of AGM iterations stays between the two arguments, and from the first step on it is an upper
bound for the value after any further steps. -/
theorem C61_agm_between {a b : ℝ} (ha : 0 < a) (hb : 0 < b) (n k : ℕ) :
    min a b ≤ agm a b n ∧ agm a b n ≤ max a b ∧ agm a b (n + 1 + k) ≤ agm a b (n + 1) := by
  have h := agm_iter_between (p := (a, b)) ha hb n
  refine ⟨h.1.1, h.1.2, ?_⟩
  induction k with
  | zero => exact le_rfl
  | succ k ih =>
    refine le_trans ?_ ih
    have hp := agm_iter_pos (p := (a, b)) ha hb (n + k)
    have hl := agmStep_le hp.1 hp.2
    rw [agm, agm, show n + 1 + (k + 1) = (n + k + 1) + 1 by ring, show n + 1 + k = n + k + 1 by ring,
      Function.iterate_succ_apply' agmStep (n + k + 1)]
    rw [← Function.iterate_succ_apply' agmStep (n + k)] at hl
    simp only [agmStep] at hl ⊢
    linarith

/-- **C61.**  At `m = 0` both integrals are exactly `π/2`. -/
theorem C61_at_zero : ellipk 0 = Real.pi / 2 ∧ ellipe 0 = Real.pi / 2 := by
  have hit : ∀ n, agmStep^[n] ((1 : ℝ), (1 : ℝ)) = (1, 1) := by
    intro n
    induction n with
    | zero => rfl
    | succ n ih => rw [Function.iterate_succ_apply', ih]; simp [agmStep]
  have hit2 : ∀ n, (agmStep2^[n] ((1 : ℝ), (1 : ℝ), (0 : ℝ), 1)) = (1, 1, 0, n + 1) := by
    intro n
    induction n with
    | zero => rfl
    | succ n ih => rw [Function.iterate_succ_apply', ih]; simp [agmStep2]
  constructor
  · simp [ellipk, ellipk_, agm, hit]
  · simp [ellipe, ellipe_, agm2, hit2]

example : ellipticGap (-1 / 4) ≤ (1 / 5) ^ 32 := by
  rw [ellipticGap]
  have h1 : Real.sqrt (1 - -1 / 4) ≤ 5 / 4 := by
    rw [Real.sqrt_le_left (by norm_num)]; norm_num
  have h2 : 0 < Real.sqrt (1 - -1 / 4) := by positivity
  have h3 : (5 / 4 : ℝ)⁻¹ ≤ (Real.sqrt (1 - -1 / 4))⁻¹ := inv_anti₀ h2 h1
  have h4 : 1 ≤ Real.sqrt (1 - -1 / 4) := Real.one_le_sqrt.mpr (by norm_num)
  have h5 : (Real.sqrt (1 - -1 / 4))⁻¹ ≤ 1 := inv_le_one_of_one_le₀ h4
  rw [min_eq_right (h5.trans h4)]
  refine pow_le_pow_left₀ (by linarith) ?_ 32
  norm_num at h3 ⊢
  linarith

example : (-1 / 4 : ℝ) < 1 ∧ (1 / 2 : ℝ) < 1 := by norm_num

/-! ### C74: derivative rules -/


/-- **C74.**  The custom derivative rules of `ellipk_` and `ellipe_`, fed with exact values, are the derivatives of the
complete elliptic integrals: with `K` and `E` the exact values at `m`, the rules' formulas are `dK/dm` and `dE/dm`. -/
theorem C74_rules_exact {m : ℝ} (hm : m < 1) (h0 : m ≠ 0) :
    HasDerivAt ellipticK ((ellipticE m - (1 - m) * ellipticK m) / (2 * m * (1 - m))) m ∧
    HasDerivAt ellipticE ((ellipticE m - ellipticK m) / (2 * m)) m :=
  ⟨hasDerivAt_ellipticK hm h0, hasDerivAt_ellipticE hm h0⟩

/-- **C74.**  For `0 < m < 1` the tangents returned by `ellipk_jvp` and `ellipe_jvp` differ from the derivatives of
the mathematical functions at most by the propagated AGM error. -/
theorem C74_rules_accuracy {m : ℝ} (h0 : 0 < m) (hm : m < 1) (t : ℝ) :
    |(ellipkJvp m t).2 - deriv ellipticK m * t| ≤
      |t| * (ellipticGap m * (ellipticE m + (1 - m) * ellipticK m) + 16 * ellipticGap m ^ 2 * ellipticK m)
        / (2 * m * (1 - m)) ∧
    |(ellipeJvp m t).2 - deriv ellipticE m * t| ≤
      |t| * (ellipticGap m * (ellipticE m + ellipticK m) + 16 * ellipticGap m ^ 2 * ellipticK m) / (2 * m) := by
  have hK := ellipk_dir_accuracy h0.le hm
  have hE := ellipe_dir_accuracy h0.le hm
  rw [← ellipticGap_pos_branch h0.le hm] at hK hE
  have hg : 0 ≤ ellipticGap m := by
    rw [ellipticGap_pos_branch h0.le hm]
    exact pow_nonneg (by linarith [sqrt_le_one_of h0.le]) 32
  have hE0 : 0 ≤ ellipticE m := by rw [ellipticE_eq_gaussJ hm]; exact gaussJ_nonneg _ _
  have hK0 : 0 ≤ ellipticK m := by
    have h : 0 ≤ ellipk_ m := by
      unfold ellipk_ agm
      have := (agm_iter_pos (p := (1, Real.sqrt (1 - m))) one_pos (Real.sqrt_pos.mpr (by linarith)) 5).1
      have hpi := Real.pi_pos
      positivity
    exact h.trans hK.1
  obtain ⟨dK, dE⟩ := C74_rules_exact hm h0.ne'
  rw [dK.deriv, dE.deriv]
  set g := ellipticGap m
  set E := ellipticE m
  set K := ellipticK m
  have hm1 : 0 < 1 - m := by linarith
  have hg2 : 0 ≤ 16 * g ^ 2 * K := by positivity
  have eE : |ellipe_ m - E| ≤ g * E + 16 * g ^ 2 * K := by
    rw [abs_le]
    have : 0 ≤ g * E := mul_nonneg hg hE0
    constructor <;> nlinarith [hE.1, hE.2]
  have eK : |ellipk_ m - K| ≤ g * K := by
    rw [abs_le]
    have : 0 ≤ g * K := mul_nonneg hg hK0
    constructor <;> nlinarith [hK.1, hK.2]
  constructor
  · rw [show (ellipkJvp m t).2 - (E - (1 - m) * K) / (2 * m * (1 - m)) * t
        = t * ((ellipe_ m - E) - (1 - m) * (ellipk_ m - K)) / (2 * m * (1 - m)) by
        simp only [ellipkJvp]; ring, abs_div, abs_mul, abs_of_pos (show 0 < 2 * m * (1 - m) by positivity)]
    refine div_le_div_of_nonneg_right (mul_le_mul_of_nonneg_left ?_ (abs_nonneg t)) (by positivity)
    refine (abs_sub _ _).trans ?_
    rw [abs_mul, abs_of_pos hm1]
    have := mul_le_mul_of_nonneg_left eK hm1.le
    linarith
  · rw [show (ellipeJvp m t).2 - (E - K) / (2 * m) * t
        = t * ((ellipe_ m - E) - (ellipk_ m - K)) / (2 * m) by
        simp only [ellipeJvp]; ring, abs_div, abs_mul, abs_of_pos (show 0 < 2 * m by positivity)]
    refine div_le_div_of_nonneg_right (mul_le_mul_of_nonneg_left ?_ (abs_nonneg t)) (by positivity)
    refine (abs_sub _ _).trans ?_
    linarith

example : (0 : ℝ) < 1 / 2 ∧ (1 / 2 : ℝ) < 1 ∧ (-1 / 4 : ℝ) < 1 ∧ (-1 / 4 : ℝ) ≠ 0 := by norm_num

end Microjax.Props
