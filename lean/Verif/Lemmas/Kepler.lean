import Verif.Model.Parallax
import Verif.Spec.Orbit
import Mathlib.Analysis.SpecialFunctions.Trigonometric.Bounds
import Mathlib.Analysis.Calculus.MeanValue
import Mathlib.Analysis.Calculus.Deriv.Inverse
import Mathlib.Topology.Order.IntermediateValue

/-!
# Kepler's equation: existence, uniqueness, smooth dependence, and the Newton iteration
-/

noncomputable section

namespace Microjax.Props

open Parallax Spec

/-! ### The exact solution -/

lemma kepler_unique {e M E E' : ℝ} (he0 : 0 ≤ e) (he1 : e < 1) (h : IsEccentricAnomaly e M E)
    (h' : IsEccentricAnomaly e M E') : E = E' := by
  unfold IsEccentricAnomaly at h h'
  have h1 : E - E' = e * (Real.sin E - Real.sin E') := by linarith
  have h2 : |E - E'| ≤ e * |E - E'| := by
    calc |E - E'| = e * |Real.sin E - Real.sin E'| := by
          rw [h1, abs_mul, abs_of_nonneg he0]
      _ ≤ _ := mul_le_mul_of_nonneg_left (Real.abs_sin_sub_sin_le _ _) he0
  have h3 : |E - E'| = 0 := by
    have := abs_nonneg (E - E')
    nlinarith
  linarith [abs_eq_zero.mp h3]

lemma kepler_exists {e : ℝ} (he0 : 0 ≤ e) (he1 : e < 1) (M : ℝ) : ∃ E, IsEccentricAnomaly e M E := by
  have hc : ContinuousOn (fun E : ℝ => E - e * Real.sin E) (Set.Icc (M - 1) (M + 1)) := by fun_prop
  have hmem : M ∈ Set.Icc ((fun E : ℝ => E - e * Real.sin E) (M - 1))
      ((fun E : ℝ => E - e * Real.sin E) (M + 1)) := by
    have h1 := Real.neg_one_le_sin (M - 1)
    have h2 := Real.sin_le_one (M + 1)
    constructor
    · show M - 1 - e * Real.sin (M - 1) ≤ M
      nlinarith
    · show M ≤ M + 1 - e * Real.sin (M + 1)
      nlinarith
  obtain ⟨E, -, hE⟩ := intermediate_value_Icc (by linarith) hc hmem
  exact ⟨E, hE⟩

open Classical in
/-- Eccentric anomaly as a function of the mean anomaly. -/
def eccAnomaly (e : ℝ) (M : ℝ) : ℝ :=
  if h : ∃ E, IsEccentricAnomaly e M E then h.choose else 0

lemma eccAnomaly_spec {e : ℝ} (he0 : 0 ≤ e) (he1 : e < 1) (M : ℝ) :
    IsEccentricAnomaly e M (eccAnomaly e M) := by
  have h := kepler_exists he0 he1 M
  unfold eccAnomaly
  rw [dif_pos h]
  exact h.choose_spec

lemma eccAnomaly_lipschitz {e : ℝ} (he0 : 0 ≤ e) (he1 : e < 1) (M M' : ℝ) :
    |eccAnomaly e M - eccAnomaly e M'| ≤ (1 - e)⁻¹ * |M - M'| := by
  have h := eccAnomaly_spec he0 he1 M
  have h' := eccAnomaly_spec he0 he1 M'
  unfold IsEccentricAnomaly at h h'
  set E := eccAnomaly e M
  set E' := eccAnomaly e M'
  have h1 : E - E' = (M - M') + e * (Real.sin E - Real.sin E') := by linarith
  have h2 : |E - E'| ≤ |M - M'| + e * |E - E'| := by
    calc |E - E'| ≤ |M - M'| + |e * (Real.sin E - Real.sin E')| := by
          rw [h1]; exact abs_add_le _ _
      _ = |M - M'| + e * |Real.sin E - Real.sin E'| := by rw [abs_mul, abs_of_nonneg he0]
      _ ≤ _ := by
          have := mul_le_mul_of_nonneg_left (Real.abs_sin_sub_sin_le E E') he0
          linarith
  rw [inv_mul_eq_div, le_div_iff₀ (by linarith)]
  linarith

lemma eccAnomaly_continuous {e : ℝ} (he0 : 0 ≤ e) (he1 : e < 1) : Continuous (eccAnomaly e) := by
  have : LipschitzWith (Real.toNNReal (1 - e)⁻¹) (eccAnomaly e) := by
    refine LipschitzWith.of_dist_le_mul fun M M' => ?_
    rw [Real.dist_eq, Real.dist_eq, Real.coe_toNNReal _ (inv_nonneg.mpr (by linarith))]
    exact eccAnomaly_lipschitz he0 he1 M M'
  exact this.continuous

lemma one_sub_mul_cos_pos {e : ℝ} (he0 : 0 ≤ e) (he1 : e < 1) (x : ℝ) : 0 < 1 - e * Real.cos x := by
  have := Real.cos_le_one x
  nlinarith

lemma eccAnomaly_hasDerivAt {e : ℝ} (he0 : 0 ≤ e) (he1 : e < 1) (M : ℝ) :
    HasDerivAt (eccAnomaly e) (1 - e * Real.cos (eccAnomaly e M))⁻¹ M := by
  have hf : HasDerivAt (fun E : ℝ => E - e * Real.sin E) (1 - e * Real.cos (eccAnomaly e M))
      (eccAnomaly e M) :=
    (hasDerivAt_id _).sub ((Real.hasDerivAt_sin _).const_mul e)
  refine HasDerivAt.of_local_left_inverse (eccAnomaly_continuous he0 he1).continuousAt hf
    (one_sub_mul_cos_pos he0 he1 _).ne' (Filter.Eventually.of_forall fun M' => ?_)
  exact eccAnomaly_spec he0 he1 M'

/-! ### Newton's iteration -/

lemma sin_taylor_nonneg (x : ℝ) {h : ℝ} (hh : 0 ≤ h) :
    |Real.sin (x + h) - Real.sin x - h * Real.cos x| ≤ h ^ 2 / 2 := by
  have key := image_norm_le_of_norm_deriv_right_le_deriv_boundary (a := 0) (b := h)
    (f := fun k : ℝ => Real.sin (x + k) - Real.sin x - k * Real.cos x)
    (f' := fun k => Real.cos (x + k) - Real.cos x) (B := fun k => k ^ 2 / 2) (B' := fun k => k)
    (by fun_prop)
    (fun k _ => by
      have h1 : HasDerivAt (fun k : ℝ => Real.sin (x + k)) (Real.cos (x + k) * 1) k :=
        ((hasDerivAt_id k).const_add x).sin
      have h2 : HasDerivAt (fun k : ℝ => k * Real.cos x) (1 * Real.cos x) k :=
        (hasDerivAt_id k).mul_const _
      have := (h1.sub_const (Real.sin x)).sub h2
      simp only [mul_one, one_mul] at this
      exact this.hasDerivWithinAt)
    (by simp)
    (fun k => by
      have := (hasDerivAt_pow 2 k).div_const 2
      refine this.congr_deriv ?_
      simp)
    (fun k hk => by
      rw [Real.norm_eq_abs]
      have := Real.abs_cos_sub_cos_le (x + k) x
      rwa [add_sub_cancel_left, abs_of_nonneg hk.1] at this)
    (Set.right_mem_Icc.mpr hh)
  simpa [Real.norm_eq_abs] using key

lemma sin_taylor (x h : ℝ) : |Real.sin (x + h) - Real.sin x - h * Real.cos x| ≤ h ^ 2 / 2 := by
  rcases le_total 0 h with hh | hh
  · exact sin_taylor_nonneg x hh
  · have := sin_taylor_nonneg (-x) (neg_nonneg.mpr hh)
    rw [show -x + -h = -(x + h) by ring, Real.sin_neg, Real.sin_neg, Real.cos_neg] at this
    rw [← abs_neg]
    calc _ = |-Real.sin (x + h) - -Real.sin x - -h * Real.cos x| := by congr 1; ring
      _ ≤ _ := this
      _ = _ := by ring

/-- One Newton step squares the error. -/
lemma newtonStep_error {e M E : ℝ} (he0 : 0 ≤ e) (he1 : e < 1) (hE : IsEccentricAnomaly e M E) (x : ℝ) :
    |newtonStep e M x - E| ≤ e / (2 * (1 - e)) * |x - E| ^ 2 := by
  unfold IsEccentricAnomaly at hE
  have hp := one_sub_mul_cos_pos he0 he1 x
  have hge : 1 - e ≤ 1 - e * Real.cos x := by
    have := Real.cos_le_one x
    nlinarith
  have h1 : newtonStep e M x - E
      = -(e * (Real.sin (x + (E - x)) - Real.sin x - (E - x) * Real.cos x)) / (1 - e * Real.cos x) := by
    unfold newtonStep
    rw [add_sub_cancel, ← hE]
    field_simp
    ring
  rw [h1, abs_div, abs_neg, abs_mul, abs_of_nonneg he0, abs_of_pos hp, div_le_iff₀ hp]
  have h2 := sin_taylor x (E - x)
  have h3 : |x - E| ^ 2 = (E - x) ^ 2 := by rw [sq_abs]; ring
  rw [h3]
  calc e * |Real.sin (x + (E - x)) - Real.sin x - (E - x) * Real.cos x|
      ≤ e * ((E - x) ^ 2 / 2) := mul_le_mul_of_nonneg_left h2 he0
    _ = e / (2 * (1 - e)) * (E - x) ^ 2 * (1 - e) := by
        have : 1 - e ≠ 0 := by linarith
        field_simp
    _ ≤ _ := by
        refine mul_le_mul_of_nonneg_left hge ?_
        have : 0 ≤ e / (2 * (1 - e)) := div_nonneg he0 (by linarith)
        positivity

lemma newton_iterate_error {e M E : ℝ} (he0 : 0 ≤ e) (he1 : e < 1) (hE : IsEccentricAnomaly e M E) (x : ℝ)
    (n : ℕ) :
    |(newtonStep e M)^[n] x - E| ≤ (e / (2 * (1 - e))) ^ (2 ^ n - 1) * |x - E| ^ (2 ^ n) := by
  have hC : 0 ≤ e / (2 * (1 - e)) := div_nonneg he0 (by linarith)
  induction n with
  | zero => simp
  | succ n ih =>
    rw [Function.iterate_succ_apply']
    refine (newtonStep_error he0 he1 hE _).trans ?_
    have h1 : |(newtonStep e M)^[n] x - E| ^ 2
        ≤ ((e / (2 * (1 - e))) ^ (2 ^ n - 1) * |x - E| ^ (2 ^ n)) ^ 2 :=
      pow_le_pow_left₀ (abs_nonneg _) ih 2
    refine (mul_le_mul_of_nonneg_left h1 hC).trans (le_of_eq ?_)
    rw [mul_pow, ← pow_mul, ← pow_mul, ← mul_assoc, ← pow_succ']
    have h2 : 1 ≤ 2 ^ n := Nat.one_le_two_pow
    congr 2
    · rw [pow_succ]; omega

/-- The sine of the eccentric anomaly has the sign of the sine of the mean anomaly. -/
lemma sign_sin_mean {e M E : ℝ} (he0 : 0 ≤ e) (he1 : e < 1) (hE : IsEccentricAnomaly e M E) :
    Real.sign (Real.sin M) = Real.sign (Real.sin E) := by
  unfold IsEccentricAnomaly at hE
  have hl := Real.abs_sin_sub_sin_le M E
  rw [show M - E = -(e * Real.sin E) by linarith, abs_neg, abs_mul, abs_of_nonneg he0] at hl
  rcases lt_trichotomy (Real.sin E) 0 with h | h | h
  · rw [abs_of_neg h] at hl
    have := (abs_le.mp hl).2
    rw [Real.sign_of_neg h, Real.sign_of_neg (by nlinarith)]
  · rw [h] at hE
    rw [show M = E by linarith]
  · rw [abs_of_pos h] at hl
    have := (abs_le.mp hl).1
    rw [Real.sign_of_pos h, Real.sign_of_pos (by nlinarith)]

lemma getpsi_start_error {e M E : ℝ} (he0 : 0 ≤ e) (he1 : e < 1) (hE : IsEccentricAnomaly e M E) :
    |M + Real.sign (Real.sin M) * 0.85 * e - E| ≤ 0.85 * e := by
  rw [sign_sin_mean he0 he1 hE]
  unfold IsEccentricAnomaly at hE
  have h1 := Real.neg_one_le_sin E
  have h2 := Real.sin_le_one E
  rw [abs_le]
  rcases lt_trichotomy (Real.sin E) 0 with h | h | h
  · rw [Real.sign_of_neg h]
    constructor <;> nlinarith
  · rw [h, Real.sign_zero]
    rw [h] at hE
    constructor <;> nlinarith
  · rw [Real.sign_of_pos h]
    constructor <;> nlinarith

/-- The bound of C54. -/
lemma getpsi_error {e M E : ℝ} (he0 : 0 ≤ e) (he1 : e < 1) (hE : IsEccentricAnomaly e M E) :
    |getpsi M e - E| ≤ (e / (2 * (1 - e))) ^ 31 * (0.85 * e) ^ 32 := by
  have h := newton_iterate_error he0 he1 hE (M + Real.sign (Real.sin M) * 0.85 * e) 5
  have hC : 0 ≤ e / (2 * (1 - e)) := div_nonneg he0 (by linarith)
  refine h.trans ?_
  norm_num only at h ⊢
  refine mul_le_mul_of_nonneg_left (pow_le_pow_left₀ (abs_nonneg _) ?_ _) (pow_nonneg hC _)
  have := getpsi_start_error he0 he1 hE
  norm_num only at this ⊢
  exact this

lemma newtonStep_neg (e M x : ℝ) : newtonStep e (-M) (-x) = -newtonStep e M x := by
  unfold newtonStep
  rw [Real.sin_neg, Real.cos_neg]
  ring

lemma newtonStep_add (e M x : ℝ) (k : ℤ) :
    newtonStep e (M + k * (2 * Real.pi)) (x + k * (2 * Real.pi)) = newtonStep e M x + k * (2 * Real.pi) := by
  unfold newtonStep
  rw [Real.sin_add_int_mul_two_pi, Real.cos_add_int_mul_two_pi]
  ring

lemma getpsi_neg (M e : ℝ) : getpsi (-M) e = -getpsi M e := by
  unfold getpsi
  rw [Real.sin_neg, Real.sign_neg]
  rw [show -M + -Real.sign (Real.sin M) * 0.85 * e = -(M + Real.sign (Real.sin M) * 0.85 * e) by ring]
  generalize M + Real.sign (Real.sin M) * 0.85 * e = x
  generalize 5 = n
  induction n with
  | zero => rfl
  | succ n ih => rw [Function.iterate_succ_apply', Function.iterate_succ_apply', ih, newtonStep_neg]

lemma getpsi_add (M e : ℝ) (k : ℤ) : getpsi (M + k * (2 * Real.pi)) e = getpsi M e + k * (2 * Real.pi) := by
  unfold getpsi
  rw [Real.sin_add_int_mul_two_pi]
  rw [show M + k * (2 * Real.pi) + Real.sign (Real.sin M) * 0.85 * e
    = (M + Real.sign (Real.sin M) * 0.85 * e) + k * (2 * Real.pi) by ring]
  generalize M + Real.sign (Real.sin M) * 0.85 * e = x
  generalize 5 = n
  induction n with
  | zero => rfl
  | succ n ih => rw [Function.iterate_succ_apply', Function.iterate_succ_apply', ih, newtonStep_add]

/-! ### The exact orbit obeys Newton's law -/

lemma kepler_motion {e n t0 : ℝ} (he0 : 0 ≤ e) (he1 : e < 1) :
    IsKeplerMotion n (fun t => Real.cos (eccAnomaly e (n * (t - t0))) - e)
      (fun t => Real.sin (eccAnomaly e (n * (t - t0))) * Real.sqrt (1 - e ^ 2)) := by
  have hs : (0 : ℝ) ≤ 1 - e ^ 2 := by nlinarith
  set b := Real.sqrt (1 - e ^ 2) with hb
  have hb2 : b ^ 2 = 1 - e ^ 2 := Real.sq_sqrt hs
  refine ⟨fun t => -Real.sin (eccAnomaly e (n * (t - t0))) * (n * (1 - e * Real.cos (eccAnomaly e (n * (t - t0))))⁻¹),
    fun t => Real.cos (eccAnomaly e (n * (t - t0))) * (n * (1 - e * Real.cos (eccAnomaly e (n * (t - t0))))⁻¹) * b,
    fun t => ?_⟩
  set E : ℝ → ℝ := fun s => eccAnomaly e (n * (s - t0)) with hEdef
  have hpos := one_sub_mul_cos_pos he0 he1 (E t)
  have hE : HasDerivAt E (n * (1 - e * Real.cos (E t))⁻¹) t := by
    have h1 : HasDerivAt (fun s : ℝ => n * (s - t0)) (n * 1) t :=
      ((hasDerivAt_id t).sub_const t0).const_mul n
    have h2 := (eccAnomaly_hasDerivAt he0 he1 (n * (t - t0))).comp t h1
    refine h2.congr_deriv ?_
    rw [mul_one, mul_comm]
  have hr : Real.sqrt ((Real.cos (E t) - e) ^ 2 + (Real.sin (E t) * b) ^ 2) = 1 - e * Real.cos (E t) := by
    rw [show (Real.cos (E t) - e) ^ 2 + (Real.sin (E t) * b) ^ 2 = (1 - e * Real.cos (E t)) ^ 2 by
      rw [mul_pow, hb2, Real.sin_sq]; ring]
    exact Real.sqrt_sq hpos.le
  have hinv : HasDerivAt (fun s => (1 - e * Real.cos (E s))⁻¹)
      (-(-(e * (-Real.sin (E t) * (n * (1 - e * Real.cos (E t))⁻¹)))) / (1 - e * Real.cos (E t)) ^ 2) t :=
    ((hE.cos.const_mul e).const_sub 1).inv hpos.ne'
  refine ⟨?_, ?_, ?_, ?_⟩
  · exact hE.cos.sub_const e
  · have := hE.sin.mul_const b
    exact this
  · show HasDerivAt (fun s => -Real.sin (E s) * (n * (1 - e * Real.cos (E s))⁻¹)) _ t
    have := hE.sin.fun_neg.fun_mul (hinv.const_mul n)
    refine this.congr_deriv ?_
    show _ = -n ^ 2 * (Real.cos (E t) - e) / Real.sqrt ((Real.cos (E t) - e) ^ 2 + (Real.sin (E t) * b) ^ 2) ^ 3
    rw [hr]
    have hsc := Real.sin_sq_add_cos_sq (E t)
    generalize Real.sin (E t) = s at *
    generalize Real.cos (E t) = c at *
    have hs2 : s ^ 2 = 1 - c ^ 2 := by linarith
    field_simp
    rw [hs2]
    ring
  · show HasDerivAt (fun s => Real.cos (E s) * (n * (1 - e * Real.cos (E s))⁻¹) * b) _ t
    have := (hE.cos.fun_mul (hinv.const_mul n)).mul_const b
    refine this.congr_deriv ?_
    show _ = -n ^ 2 * (Real.sin (E t) * b) / Real.sqrt ((Real.cos (E t) - e) ^ 2 + (Real.sin (E t) * b) ^ 2) ^ 3
    rw [hr]
    generalize Real.sin (E t) = s at *
    generalize Real.cos (E t) = c at *
    field_simp
    ring

end Microjax.Props
