import Verif.Spec.Elliptic
import Mathlib.MeasureTheory.Function.JacobianOneDim
import Mathlib.MeasureTheory.Integral.IntegralEqImproper
import Mathlib.Analysis.SpecialFunctions.Trigonometric.Arctan
import Mathlib.Analysis.SpecialFunctions.Trigonometric.ArctanDeriv
import Mathlib.MeasureTheory.Measure.Lebesgue.Integral
import Mathlib.Tactic.LinearCombination

/-!
# Gauss' transformation of the complete elliptic integrals

`I(a, b) = ∫ dθ / √(a² cos² θ + b² sin² θ)` and `J(a, b) = ∫ √(a² cos² θ + b² sin² θ) dθ` over `[0, π/2]` satisfy
`I(a, b) = I(a₁, b₁)` and `J(a, b) = 2 J(a₁, b₁) - a b I(a, b)` where `a₁`, `b₁` are the arithmetic and the geometric
mean.
-/

noncomputable section

namespace Microjax.Props

open MeasureTheory Set

/-- `a² cos² θ + b² sin² θ`. -/
def quadD (a b θ : ℝ) : ℝ := a ^ 2 * Real.cos θ ^ 2 + b ^ 2 * Real.sin θ ^ 2

/-- First integral. -/
def gaussI (a b : ℝ) : ℝ := ∫ θ in (0 : ℝ)..Real.pi / 2, 1 / Real.sqrt (quadD a b θ)

/-- Second integral. -/
def gaussJ (a b : ℝ) : ℝ := ∫ θ in (0 : ℝ)..Real.pi / 2, Real.sqrt (quadD a b θ)

lemma quadD_ge {a b : ℝ} (hb : 0 < b) (hab : b ≤ a) (θ : ℝ) : b ^ 2 ≤ quadD a b θ := by
  unfold quadD
  have h := Real.sin_sq_add_cos_sq θ
  have h1 : b ^ 2 ≤ a ^ 2 := pow_le_pow_left₀ hb.le hab 2
  nlinarith [sq_nonneg (Real.cos θ)]

lemma quadD_le {a b : ℝ} (hb : 0 < b) (hab : b ≤ a) (θ : ℝ) : quadD a b θ ≤ a ^ 2 := by
  unfold quadD
  have h := Real.sin_sq_add_cos_sq θ
  have h1 : b ^ 2 ≤ a ^ 2 := pow_le_pow_left₀ hb.le hab 2
  nlinarith [sq_nonneg (Real.sin θ)]

lemma quadD_pos {a b : ℝ} (ha : 0 < a) (hb : 0 < b) (θ : ℝ) : 0 < quadD a b θ := by
  unfold quadD
  have h := Real.sin_sq_add_cos_sq θ
  rcases eq_or_ne (Real.sin θ) 0 with h0 | h0
  · rw [h0] at h ⊢
    have : Real.cos θ ^ 2 = 1 := by linarith
    rw [this]; positivity
  · have := sq_pos_of_ne_zero h0
    positivity

lemma continuous_quadD (a b : ℝ) : Continuous (quadD a b) := by unfold quadD; fun_prop

/-- Substitution `x = b tan θ`. -/
lemma integral_tan {b : ℝ} (hb : 0 < b) (G : ℝ → ℝ) :
    ∫ x in Ioi (0 : ℝ), G x
      = ∫ θ in Ioo (0 : ℝ) (Real.pi / 2), b / Real.cos θ ^ 2 * G (b * Real.tan θ) := by
  have hpi := Real.pi_pos
  have himg : (fun θ => b * Real.tan θ) '' Ioo (0 : ℝ) (Real.pi / 2) = Ioi 0 := by
    ext x
    constructor
    · rintro ⟨θ, hθ, rfl⟩
      exact mul_pos hb (Real.tan_pos_of_pos_of_lt_pi_div_two hθ.1 hθ.2)
    · intro hx
      refine ⟨Real.arctan (x / b), ⟨?_, Real.arctan_lt_pi_div_two _⟩, ?_⟩
      · exact Real.arctan_pos.mpr (div_pos hx hb)
      · show b * Real.tan (Real.arctan (x / b)) = x
        rw [Real.tan_arctan]; field_simp
  have hcos : ∀ θ ∈ Ioo (0 : ℝ) (Real.pi / 2), 0 < Real.cos θ := fun θ hθ =>
    Real.cos_pos_of_mem_Ioo ⟨by linarith [hθ.1], hθ.2⟩
  rw [← himg, integral_image_eq_integral_abs_deriv_smul (f' := fun θ => b / Real.cos θ ^ 2) measurableSet_Ioo]
  · refine setIntegral_congr_fun measurableSet_Ioo fun θ hθ => ?_
    have := hcos θ hθ
    show |b / Real.cos θ ^ 2| • G (b * Real.tan θ) = _
    rw [abs_of_pos (by positivity), smul_eq_mul]
  · intro θ hθ
    have := (Real.hasDerivAt_tan (hcos θ hθ).ne').const_mul b
    refine (this.congr_deriv ?_).hasDerivWithinAt
    rw [mul_one_div]
  · intro θ hθ θ' hθ' h
    have h' : Real.tan θ = Real.tan θ' := by
      have : b * Real.tan θ = b * Real.tan θ' := h
      exact mul_left_cancel₀ hb.ne' this
    exact Real.injOn_tan ⟨by linarith [hθ.1], hθ.2⟩ ⟨by linarith [hθ'.1], hθ'.2⟩ h'

/-- Substitution `u = (x - p / x) / 2`. -/
lemma integral_gauss {p : ℝ} (hp : 0 < p) (G : ℝ → ℝ) :
    2 * ∫ u in Ioi (0 : ℝ), G u = ∫ x in Ioi (0 : ℝ), (1 + p / x ^ 2) / 2 * G |(x - p / x) / 2| := by
  rw [← integral_comp_abs, ← setIntegral_univ]
  have himg : (fun x => (x - p / x) / 2) '' Ioi (0 : ℝ) = univ := by
    refine eq_univ_of_forall fun u => ?_
    have hs : 0 ≤ u ^ 2 + p := by positivity
    have hlt : -u < Real.sqrt (u ^ 2 + p) := by
      refine lt_of_le_of_lt (neg_le_abs u) ?_
      rw [← Real.sqrt_sq_eq_abs]
      exact Real.sqrt_lt_sqrt (sq_nonneg u) (by linarith)
    have hx : 0 < u + Real.sqrt (u ^ 2 + p) := by linarith
    refine ⟨u + Real.sqrt (u ^ 2 + p), hx, ?_⟩
    have hsq := Real.sq_sqrt hs
    show (u + Real.sqrt (u ^ 2 + p) - p / (u + Real.sqrt (u ^ 2 + p))) / 2 = u
    field_simp
    linear_combination hsq
  rw [← himg, integral_image_eq_integral_abs_deriv_smul (f' := fun x => (1 + p / x ^ 2) / 2) measurableSet_Ioi]
  · refine setIntegral_congr_fun measurableSet_Ioi fun x hx => ?_
    have hx : 0 < x := hx
    show |(1 + p / x ^ 2) / 2| • G |(x - p / x) / 2| = _
    rw [abs_of_pos (by positivity), smul_eq_mul]
  · intro x hx
    have hx : x ≠ 0 := (show (0 : ℝ) < x from hx).ne'
    have h1 : HasDerivAt (fun x : ℝ => p / x) (-(p / x ^ 2)) x := by
      have := (hasDerivAt_inv hx).const_mul p
      simp only [div_eq_mul_inv]
      refine this.congr_deriv ?_
      ring
    have := ((hasDerivAt_id x).sub h1).div_const 2
    refine (this.congr_deriv ?_).hasDerivWithinAt
    ring
  · intro x hx y hy h
    have hx : 0 < x := hx
    have hy : 0 < y := hy
    have h' : (x - p / x) / 2 = (y - p / y) / 2 := h
    have h2 : (x - y) * (1 + p / (x * y)) = 0 := by
      field_simp at h' ⊢
      linear_combination h'
    rcases mul_eq_zero.mp h2 with h3 | h3
    · linarith
    · have : 0 < 1 + p / (x * y) := by positivity
      linarith

/-- Both substitutions together: an integral over angles for the means `a₁, b₁` becomes one for `a, b`. -/
lemma integral_landen {a b : ℝ} (ha : 0 < a) (hb : 0 < b) (H : ℝ → ℝ) :
    ∫ φ in (0 : ℝ)..Real.pi / 2,
        H (Real.tan φ ^ 2) / Real.sqrt (quadD ((a + b) / 2) (Real.sqrt (a * b)) φ)
      = ∫ θ in (0 : ℝ)..Real.pi / 2,
        H ((b * Real.tan θ - a / Real.tan θ) ^ 2 / (4 * (a * b))) / Real.sqrt (quadD a b θ) := by
  have hpi := Real.pi_pos
  have hcos : ∀ θ ∈ Ioo (0 : ℝ) (Real.pi / 2), 0 < Real.cos θ := fun θ hθ =>
    Real.cos_pos_of_mem_Ioo ⟨by linarith [hθ.1], hθ.2⟩
  have hab : 0 < a * b := mul_pos ha hb
  set c := Real.sqrt (a * b) with hc
  have hc0 : 0 < c := Real.sqrt_pos.mpr hab
  have hc2 : c ^ 2 = a * b := Real.sq_sqrt hab.le
  rw [intervalIntegral.integral_of_le (by linarith), intervalIntegral.integral_of_le (by linarith),
    integral_Ioc_eq_integral_Ioo, integral_Ioc_eq_integral_Ioo]
  -- the integrand on the half line
  have e1 : ∫ φ in Ioo (0 : ℝ) (Real.pi / 2), H (Real.tan φ ^ 2) / Real.sqrt (quadD ((a + b) / 2) c φ)
      = ∫ u in Ioi (0 : ℝ), H (u ^ 2 / c ^ 2) / Real.sqrt ((u ^ 2 + ((a + b) / 2) ^ 2) * (u ^ 2 + c ^ 2)) := by
    rw [integral_tan hc0]
    refine setIntegral_congr_fun measurableSet_Ioo fun φ hφ => ?_
    have hp := hcos φ hφ
    have ht : Real.tan φ = Real.sin φ / Real.cos φ := Real.tan_eq_sin_div_cos φ
    have hsc := Real.sin_sq_add_cos_sq φ
    have hq : (( c * Real.tan φ) ^ 2 + ((a + b) / 2) ^ 2) * ((c * Real.tan φ) ^ 2 + c ^ 2)
        = (c / Real.cos φ ^ 2) ^ 2 * quadD ((a + b) / 2) c φ := by
      unfold quadD
      rw [ht]
      have : Real.sin φ ^ 2 = 1 - Real.cos φ ^ 2 := by linarith
      field_simp
      rw [this]
      ring
    show _ = c / Real.cos φ ^ 2 * (H ((c * Real.tan φ) ^ 2 / c ^ 2) / Real.sqrt _)
    rw [hq, Real.sqrt_mul (sq_nonneg _), Real.sqrt_sq (by positivity)]
    rw [show (c * Real.tan φ) ^ 2 / c ^ 2 = Real.tan φ ^ 2 by field_simp]
    have hQ := Real.sqrt_pos.mpr (quadD_pos (show 0 < (a + b) / 2 by positivity) hc0 φ)
    field_simp
  have e2 : ∫ θ in Ioo (0 : ℝ) (Real.pi / 2),
        H ((b * Real.tan θ - a / Real.tan θ) ^ 2 / (4 * (a * b))) / Real.sqrt (quadD a b θ)
      = ∫ x in Ioi (0 : ℝ), H ((x - a * b / x) ^ 2 / (4 * (a * b)))
          / Real.sqrt ((x ^ 2 + a ^ 2) * (x ^ 2 + b ^ 2)) := by
    rw [integral_tan hb]
    refine setIntegral_congr_fun measurableSet_Ioo fun φ hφ => ?_
    have hp := hcos φ hφ
    have htp : 0 < Real.tan φ := Real.tan_pos_of_pos_of_lt_pi_div_two hφ.1 hφ.2
    have ht : Real.tan φ = Real.sin φ / Real.cos φ := Real.tan_eq_sin_div_cos φ
    have hsc := Real.sin_sq_add_cos_sq φ
    have hq : ((b * Real.tan φ) ^ 2 + a ^ 2) * ((b * Real.tan φ) ^ 2 + b ^ 2)
        = (b / Real.cos φ ^ 2) ^ 2 * quadD a b φ := by
      unfold quadD
      rw [ht]
      have : Real.sin φ ^ 2 = 1 - Real.cos φ ^ 2 := by linarith
      field_simp
      rw [this]
      ring
    show _ = b / Real.cos φ ^ 2 * (H ((b * Real.tan φ - a * b / (b * Real.tan φ)) ^ 2 / (4 * (a * b))) / Real.sqrt _)
    rw [hq, Real.sqrt_mul (sq_nonneg _), Real.sqrt_sq (by positivity)]
    rw [show a * b / (b * Real.tan φ) = a / Real.tan φ by field_simp]
    have hQ := Real.sqrt_pos.mpr (quadD_pos ha hb φ)
    field_simp
  rw [e1, e2]
  have h2 := integral_gauss hab
    (fun u => H (u ^ 2 / c ^ 2) / Real.sqrt ((u ^ 2 + ((a + b) / 2) ^ 2) * (u ^ 2 + c ^ 2)))
  have e3 : ∫ x in Ioi (0 : ℝ), (1 + a * b / x ^ 2) / 2 *
        (H (|(x - a * b / x) / 2| ^ 2 / c ^ 2)
          / Real.sqrt ((|(x - a * b / x) / 2| ^ 2 + ((a + b) / 2) ^ 2) * (|(x - a * b / x) / 2| ^ 2 + c ^ 2)))
      = ∫ x in Ioi (0 : ℝ), 2 * (H ((x - a * b / x) ^ 2 / (4 * (a * b)))
          / Real.sqrt ((x ^ 2 + a ^ 2) * (x ^ 2 + b ^ 2))) := by
    refine setIntegral_congr_fun measurableSet_Ioi fun x hx => ?_
    have hx : 0 < x := hx
    have hQ : 0 < Real.sqrt ((x ^ 2 + a ^ 2) * (x ^ 2 + b ^ 2)) := Real.sqrt_pos.mpr (by positivity)
    have hq : (|(x - a * b / x) / 2| ^ 2 + ((a + b) / 2) ^ 2) * (|(x - a * b / x) / 2| ^ 2 + c ^ 2)
        = ((x ^ 2 + a * b) / (4 * x ^ 2)) ^ 2 * ((x ^ 2 + a ^ 2) * (x ^ 2 + b ^ 2)) := by
      rw [sq_abs, hc2]
      field_simp
      ring
    show (1 + a * b / x ^ 2) / 2 * (H (|(x - a * b / x) / 2| ^ 2 / c ^ 2) / Real.sqrt _) = _
    rw [hq, Real.sqrt_mul (sq_nonneg _), Real.sqrt_sq (by positivity), sq_abs, hc2]
    rw [show ((x - a * b / x) / 2) ^ 2 / (a * b) = (x - a * b / x) ^ 2 / (4 * (a * b)) by field_simp; ring]
    field_simp
    ring
  rw [e3, integral_const_mul] at h2
  linarith

lemma gaussI_step {a b : ℝ} (ha : 0 < a) (hb : 0 < b) :
    gaussI ((a + b) / 2) (Real.sqrt (a * b)) = gaussI a b := by
  have := integral_landen ha hb (fun _ => 1)
  exact this

lemma integral_eq_Ioo (f : ℝ → ℝ) :
    ∫ θ in (0 : ℝ)..Real.pi / 2, f θ = ∫ θ in Ioo (0 : ℝ) (Real.pi / 2), f θ := by
  rw [intervalIntegral.integral_of_le (by linarith [Real.pi_pos]), integral_Ioc_eq_integral_Ioo]

lemma denom_pos {a b : ℝ} (ha : 0 < a) (hb : 0 < b) (θ : ℝ) :
    0 < a * Real.cos θ ^ 2 + b * Real.sin θ ^ 2 := by
  have h := Real.sin_sq_add_cos_sq θ
  rcases eq_or_ne (Real.sin θ) 0 with h0 | h0
  · rw [h0] at h ⊢
    have : Real.cos θ ^ 2 = 1 := by linarith
    rw [this]; simpa using ha
  · have := sq_pos_of_ne_zero h0
    positivity

lemma gaussJ_mean {a b : ℝ} (ha : 0 < a) (hb : 0 < b) :
    gaussJ ((a + b) / 2) (Real.sqrt (a * b))
      = ∫ θ in (0 : ℝ)..Real.pi / 2, (a * b + a * b * (a - b) ^ 2 * (Real.sin θ ^ 2 * Real.cos θ ^ 2)
          / (a * Real.cos θ ^ 2 + b * Real.sin θ ^ 2) ^ 2) / Real.sqrt (quadD a b θ) := by
  have hpi := Real.pi_pos
  have hcos : ∀ θ ∈ Ioo (0 : ℝ) (Real.pi / 2), 0 < Real.cos θ := fun θ hθ =>
    Real.cos_pos_of_mem_Ioo ⟨by linarith [hθ.1], hθ.2⟩
  have hsin : ∀ θ ∈ Ioo (0 : ℝ) (Real.pi / 2), 0 < Real.sin θ := fun θ hθ =>
    Real.sin_pos_of_pos_of_lt_pi hθ.1 (by linarith [hθ.2])
  have hab : 0 < a * b := mul_pos ha hb
  have hc2 : Real.sqrt (a * b) ^ 2 = a * b := Real.sq_sqrt hab.le
  have h := integral_landen ha hb (fun t => (((a + b) / 2) ^ 2 + a * b * t) / (1 + t))
  rw [integral_eq_Ioo, integral_eq_Ioo] at h
  unfold gaussJ
  rw [integral_eq_Ioo, integral_eq_Ioo]
  refine Eq.trans ?_ (h.trans ?_)
  · refine setIntegral_congr_fun measurableSet_Ioo fun θ hθ => ?_
    have hp := hcos θ hθ
    have hQ := quadD_pos (show 0 < (a + b) / 2 by positivity) (Real.sqrt_pos.mpr hab) θ
    have hH : (((a + b) / 2) ^ 2 + a * b * Real.tan θ ^ 2) / (1 + Real.tan θ ^ 2)
        = quadD ((a + b) / 2) (Real.sqrt (a * b)) θ := by
      unfold quadD
      rw [hc2, Real.tan_eq_sin_div_cos]
      have hsc := Real.sin_sq_add_cos_sq θ
      rw [show 1 + (Real.sin θ / Real.cos θ) ^ 2 = 1 / Real.cos θ ^ 2 by
        field_simp; linarith]
      field_simp
    show Real.sqrt _ = (((a + b) / 2) ^ 2 + a * b * Real.tan θ ^ 2) / (1 + Real.tan θ ^ 2) / Real.sqrt _
    rw [hH, eq_div_iff (Real.sqrt_pos.mpr hQ).ne', Real.mul_self_sqrt hQ.le]
  · refine setIntegral_congr_fun measurableSet_Ioo fun θ hθ => ?_
    have hp := hcos θ hθ
    have hs := hsin θ hθ
    have hD := denom_pos ha hb θ
    show (((a + b) / 2) ^ 2 + a * b * ((b * Real.tan θ - a / Real.tan θ) ^ 2 / (4 * (a * b))))
      / (1 + (b * Real.tan θ - a / Real.tan θ) ^ 2 / (4 * (a * b))) / _ = _ / _
    congr 1
    rw [Real.tan_eq_sin_div_cos]
    have h1 : 1 + (b * (Real.sin θ / Real.cos θ) - a / (Real.sin θ / Real.cos θ)) ^ 2 / (4 * (a * b))
        = (a * Real.cos θ ^ 2 + b * Real.sin θ ^ 2) ^ 2
          / (4 * (a * b) * (Real.sin θ ^ 2 * Real.cos θ ^ 2)) := by
      field_simp
      ring
    rw [h1]
    field_simp
    ring

/-- Derivative behind the second recursion. -/
lemma hasDerivAt_landen {a b : ℝ} (ha : 0 < a) (hb : 0 < b) (θ : ℝ) :
    HasDerivAt (fun θ => (a - b) * (Real.sin θ * Real.cos θ) * Real.sqrt (quadD a b θ)
        / (a * Real.cos θ ^ 2 + b * Real.sin θ ^ 2))
      ((quadD a b θ - a * b - 2 * (a * b * (a - b) ^ 2 * (Real.sin θ ^ 2 * Real.cos θ ^ 2)
          / (a * Real.cos θ ^ 2 + b * Real.sin θ ^ 2) ^ 2)) / Real.sqrt (quadD a b θ)) θ := by
  have hQ := quadD_pos ha hb θ
  have hD := denom_pos ha hb θ
  have hs := Real.hasDerivAt_sin θ
  have hc := Real.hasDerivAt_cos θ
  have hq : HasDerivAt (quadD a b) (a ^ 2 * (2 * Real.cos θ * -Real.sin θ)
      + b ^ 2 * (2 * Real.sin θ * Real.cos θ)) θ := by
    have := ((hc.pow 2).const_mul (a ^ 2)).add ((hs.pow 2).const_mul (b ^ 2))
    refine this.congr_deriv ?_
    norm_num
  have hd : HasDerivAt (fun θ => a * Real.cos θ ^ 2 + b * Real.sin θ ^ 2)
      (a * (2 * Real.cos θ * -Real.sin θ) + b * (2 * Real.sin θ * Real.cos θ)) θ := by
    have := ((hc.pow 2).const_mul a).add ((hs.pow 2).const_mul b)
    refine this.congr_deriv ?_
    norm_num
  have h := ((((hs.fun_mul hc).const_mul (a - b)).fun_mul (hq.sqrt hQ.ne'))).fun_div hd hD.ne'
  refine h.congr_deriv ?_
  have hsq := Real.sq_sqrt hQ.le
  have hpos := Real.sqrt_pos.mpr hQ
  have hsc := Real.sin_sq_add_cos_sq θ
  set r := Real.sqrt (quadD a b θ) with hr
  have hr2 : r ^ 2 = a ^ 2 * Real.cos θ ^ 2 + b ^ 2 * Real.sin θ ^ 2 := hsq
  rw [show quadD a b θ = r ^ 2 from hsq.symm]
  generalize Real.sin θ = s at *
  generalize Real.cos θ = c at *
  have hs2 : s ^ 2 = 1 - c ^ 2 := by linarith
  field_simp
  rw [hr2, hs2]
  ring

lemma gaussJ_step {a b : ℝ} (ha : 0 < a) (hb : 0 < b) :
    gaussJ a b = 2 * gaussJ ((a + b) / 2) (Real.sqrt (a * b)) - a * b * gaussI a b := by
  have hQ : ∀ θ, quadD a b θ ≠ 0 := fun θ => (quadD_pos ha hb θ).ne'
  have hQs : ∀ θ, Real.sqrt (quadD a b θ) ≠ 0 := fun θ => (Real.sqrt_pos.mpr (quadD_pos ha hb θ)).ne'
  have hD : ∀ θ, (a * Real.cos θ ^ 2 + b * Real.sin θ ^ 2) ^ 2 ≠ 0 := fun θ =>
    (pow_pos (denom_pos ha hb θ) 2).ne'
  have hcq := continuous_quadD a b
  set P : ℝ → ℝ := fun θ => a * b * (a - b) ^ 2 * (Real.sin θ ^ 2 * Real.cos θ ^ 2)
    / (a * Real.cos θ ^ 2 + b * Real.sin θ ^ 2) ^ 2 with hP
  have hPc : Continuous P := by
    refine Continuous.div (by fun_prop) (by fun_prop) hD
  have hcont : Continuous fun θ => (quadD a b θ - a * b - 2 * P θ) / Real.sqrt (quadD a b θ) :=
    Continuous.div (by fun_prop) (by fun_prop) hQs
  have h0 : ∫ θ in (0 : ℝ)..Real.pi / 2, (quadD a b θ - a * b - 2 * P θ) / Real.sqrt (quadD a b θ) = 0 := by
    rw [intervalIntegral.integral_eq_sub_of_hasDerivAt (fun θ _ => hasDerivAt_landen ha hb θ)
      (hcont.intervalIntegrable _ _)]
    simp
  have i1 : IntervalIntegrable (fun θ => Real.sqrt (quadD a b θ)) volume 0 (Real.pi / 2) :=
    (show Continuous _ by fun_prop).intervalIntegrable _ _
  have i2 : IntervalIntegrable (fun θ => 1 / Real.sqrt (quadD a b θ)) volume 0 (Real.pi / 2) :=
    (Continuous.div continuous_const (by fun_prop) hQs).intervalIntegrable _ _
  have i3 : IntervalIntegrable (fun θ => (a * b + P θ) / Real.sqrt (quadD a b θ)) volume 0 (Real.pi / 2) :=
    (Continuous.div (by fun_prop) (by fun_prop) hQs).intervalIntegrable _ _
  have hsplit : ∀ θ, (quadD a b θ - a * b - 2 * P θ) / Real.sqrt (quadD a b θ)
      = Real.sqrt (quadD a b θ) + a * b * (1 / Real.sqrt (quadD a b θ))
        - 2 * ((a * b + P θ) / Real.sqrt (quadD a b θ)) := by
    intro θ
    have h1 := Real.sq_sqrt (quadD_pos ha hb θ).le
    have h2 := hQs θ
    rw [show quadD a b θ - a * b - 2 * P θ = Real.sqrt (quadD a b θ) ^ 2 - a * b - 2 * P θ by rw [h1]]
    field_simp
    ring
  rw [gaussJ_mean ha hb]
  simp only [hsplit] at h0
  rw [intervalIntegral.integral_sub (i1.add (i2.const_mul _)) (i3.const_mul _),
    intervalIntegral.integral_add i1 (i2.const_mul _), intervalIntegral.integral_const_mul,
    intervalIntegral.integral_const_mul] at h0
  unfold gaussJ gaussI
  linarith

/-! ### Symmetry, scaling and elementary bounds -/

lemma gaussI_symm (a b : ℝ) : gaussI a b = gaussI b a := by
  unfold gaussI
  have h := intervalIntegral.integral_comp_sub_left (a := 0) (b := Real.pi / 2)
    (fun θ => 1 / Real.sqrt (quadD b a θ)) (Real.pi / 2)
  rw [sub_self, sub_zero] at h
  rw [← h]
  refine intervalIntegral.integral_congr fun θ _ => ?_
  simp only [quadD, Real.cos_pi_div_two_sub, Real.sin_pi_div_two_sub]
  rw [add_comm]

lemma gaussJ_symm (a b : ℝ) : gaussJ a b = gaussJ b a := by
  unfold gaussJ
  have h := intervalIntegral.integral_comp_sub_left (a := 0) (b := Real.pi / 2)
    (fun θ => Real.sqrt (quadD b a θ)) (Real.pi / 2)
  rw [sub_self, sub_zero] at h
  rw [← h]
  refine intervalIntegral.integral_congr fun θ _ => ?_
  simp only [quadD, Real.cos_pi_div_two_sub, Real.sin_pi_div_two_sub]
  rw [add_comm]

lemma quadD_scale (k a b θ : ℝ) : quadD (k * a) (k * b) θ = k ^ 2 * quadD a b θ := by
  unfold quadD; ring

lemma gaussI_scale {k : ℝ} (hk : 0 < k) (a b : ℝ) : gaussI (k * a) (k * b) = k⁻¹ * gaussI a b := by
  unfold gaussI
  rw [← intervalIntegral.integral_const_mul]
  refine intervalIntegral.integral_congr fun θ _ => ?_
  simp only [quadD_scale]
  rw [Real.sqrt_mul (sq_nonneg k), Real.sqrt_sq hk.le, one_div, mul_inv, one_div]

lemma gaussJ_scale {k : ℝ} (hk : 0 < k) (a b : ℝ) : gaussJ (k * a) (k * b) = k * gaussJ a b := by
  unfold gaussJ
  rw [← intervalIntegral.integral_const_mul]
  refine intervalIntegral.integral_congr fun θ _ => ?_
  simp only [quadD_scale]
  rw [Real.sqrt_mul (sq_nonneg k), Real.sqrt_sq hk.le]

lemma intervalIntegrable_inv_sqrt {a b : ℝ} (ha : 0 < a) (hb : 0 < b) :
    IntervalIntegrable (fun θ => 1 / Real.sqrt (quadD a b θ)) volume 0 (Real.pi / 2) :=
  (Continuous.div continuous_const (continuous_quadD a b).sqrt
    (fun θ => (Real.sqrt_pos.mpr (quadD_pos ha hb θ)).ne')).intervalIntegrable _ _

lemma gaussI_bounds {a b : ℝ} (hb : 0 < b) (hab : b ≤ a) :
    Real.pi / (2 * a) ≤ gaussI a b ∧ gaussI a b ≤ Real.pi / (2 * b) := by
  have ha : 0 < a := hb.trans_le hab
  have hpi := Real.pi_pos
  have hi := intervalIntegrable_inv_sqrt ha hb
  constructor
  · have := intervalIntegral.integral_mono_on (a := 0) (b := Real.pi / 2) (by linarith)
      (intervalIntegrable_const (c := 1 / a)) hi (fun θ _ => by
        refine one_div_le_one_div_of_le (Real.sqrt_pos.mpr (quadD_pos ha hb θ)) ?_
        exact (Real.sqrt_le_sqrt (quadD_le hb hab θ)).trans (Real.sqrt_sq ha.le).le)
    rw [intervalIntegral.integral_const] at this
    refine le_trans (le_of_eq ?_) this
    rw [sub_zero, smul_eq_mul]
    field_simp
  · have := intervalIntegral.integral_mono_on (a := 0) (b := Real.pi / 2) (by linarith)
      hi (intervalIntegrable_const (c := 1 / b)) (fun θ _ => by
        refine one_div_le_one_div_of_le hb ?_
        conv_lhs => rw [← Real.sqrt_sq hb.le]
        exact Real.sqrt_le_sqrt (quadD_ge hb hab θ))
    rw [intervalIntegral.integral_const] at this
    refine this.trans (le_of_eq ?_)
    rw [sub_zero, smul_eq_mul]
    field_simp

lemma gaussJ_bounds {a b : ℝ} (hb : 0 < b) (hab : b ≤ a) :
    b ^ 2 * gaussI a b ≤ gaussJ a b ∧ gaussJ a b ≤ a ^ 2 * gaussI a b := by
  have ha : 0 < a := hb.trans_le hab
  have hpi := Real.pi_pos
  have hi := intervalIntegrable_inv_sqrt ha hb
  have hj : IntervalIntegrable (fun θ => Real.sqrt (quadD a b θ)) volume 0 (Real.pi / 2) :=
    ((continuous_quadD a b).sqrt).intervalIntegrable _ _
  have hs : ∀ θ, Real.sqrt (quadD a b θ) = quadD a b θ * (1 / Real.sqrt (quadD a b θ)) := by
    intro θ
    have := Real.sqrt_pos.mpr (quadD_pos ha hb θ)
    rw [mul_one_div, eq_div_iff this.ne', Real.mul_self_sqrt (quadD_pos ha hb θ).le]
  unfold gaussI gaussJ
  rw [← intervalIntegral.integral_const_mul, ← intervalIntegral.integral_const_mul]
  constructor
  · refine intervalIntegral.integral_mono_on (by linarith) (hi.const_mul _) hj fun θ _ => ?_
    exact (mul_le_mul_of_nonneg_right (quadD_ge hb hab θ) (by positivity)).trans (hs θ).ge
  · refine intervalIntegral.integral_mono_on (by linarith) hj (hi.const_mul _) fun θ _ => ?_
    exact (hs θ).le.trans (mul_le_mul_of_nonneg_right (quadD_le hb hab θ) (by positivity))

lemma gaussJ_nonneg (a b : ℝ) : 0 ≤ gaussJ a b :=
  intervalIntegral.integral_nonneg (by linarith [Real.pi_pos]) fun _ _ => Real.sqrt_nonneg _

end Microjax.Props
