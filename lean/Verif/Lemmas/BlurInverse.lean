import Verif.Lemmas.Blur
import Verif.Lemmas.MellinBessel
import Mathlib.Analysis.SpecialFunctions.Gamma.Beta

/-!
# The blur of `1/|w|` in the Hankel domain
-/

noncomputable section

namespace Microjax.Props

open Spec MeasureTheory Filter Set Topology

/-- The damped integral of `J₀(k x)`. -/
def dampJ (ε k : ℝ) : ℝ := ∫ x in Ioi (0 : ℝ), Real.exp (-(ε * x ^ 2)) * besselJ 0 (k * x)

theorem integrable_damp (ε : ℝ) (hε : 0 < ε) : IntegrableOn (fun x : ℝ => Real.exp (-(ε * x ^ 2))) (Ioi 0) := by
  have h := (integrable_exp_neg_mul_sq hε).integrableOn (s := Ioi 0)
  refine h.congr (ae_of_all _ fun x => ?_)
  simp only [neg_mul]

theorem continuous_J0_mul (k : ℝ) : Continuous fun x : ℝ => besselJ 0 (k * x) :=
  (continuous_J 0).comp (by fun_prop : Continuous fun x : ℝ => k * x)

theorem integrable_dampJ (ε : ℝ) (hε : 0 < ε) (k : ℝ) :
    IntegrableOn (fun x : ℝ => Real.exp (-(ε * x ^ 2)) * besselJ 0 (k * x)) (Ioi 0) :=
  Integrable.mul_bdd (c := 1) (integrable_damp ε hε) (continuous_J0_mul k).aestronglyMeasurable (ae_of_all _ fun _ => abs_J0_norm _)

theorem dampJ_scale (ε k : ℝ) (hk : 0 < k) : dampJ ε k = 1 / k * dampJ (ε / k ^ 2) 1 := by
  have h := integral_comp_mul_left_Ioi (fun x => Real.exp (-(ε / k ^ 2 * x ^ 2)) * besselJ 0 (1 * x)) 0 hk
  rw [mul_zero, smul_eq_mul] at h
  rw [dampJ, dampJ, one_div, ← h]
  refine setIntegral_congr_fun measurableSet_Ioi fun x _ => ?_
  congr 2
  · field_simp
  · ring

theorem dampJ_lim (k : ℝ) (hk : 0 < k) : Tendsto (fun ε => dampJ ε k) (𝓝[>] 0) (𝓝 (1 / k)) := by
  have h := mellin_J0 1 (by simp) (by norm_num) k hk
  have hv : (2 : ℂ) ^ ((1 : ℂ) - 1) * (Complex.Gamma (1 / 2) / Complex.Gamma (1 - 1 / 2)) * (k : ℂ) ^ (-(1 : ℂ)) = ((1 / k : ℝ) : ℂ) := by
    have hG : Complex.Gamma (1 / 2) ≠ 0 := Complex.Gamma_ne_zero_of_re_pos (by norm_num)
    rw [show (1 : ℂ) - 1 / 2 = 1 / 2 by norm_num, div_self hG, sub_self, Complex.cpow_zero, Complex.cpow_neg_one]
    push_cast
    ring
  rw [hv] at h
  have e : ∀ ε : ℝ, (∫ x in Ioi (0 : ℝ), (x : ℂ) ^ ((1 : ℂ) - 1) * ((besselJ 0 (x * k) * Real.exp (-(ε * x ^ 2)) : ℝ) : ℂ))
      = ((dampJ ε k : ℝ) : ℂ) := by
    intro ε
    rw [dampJ, ← integral_complex_ofReal]
    refine setIntegral_congr_fun measurableSet_Ioi fun x _ => ?_
    simp only [sub_self, Complex.cpow_zero, one_mul]
    rw [mul_comm x k, mul_comm (besselJ 0 _)]
  simp only [e] at h
  have h2 := (Complex.continuous_re.tendsto _).comp h
  simpa [Function.comp_def] using h2

theorem dampJ_bound : ∃ C : ℝ, ∀ ε k : ℝ, 0 < ε → 0 < k → |dampJ ε k| ≤ C / k := by
  have h := dampJ_lim 1 one_pos
  have hb : ∀ᶠ ε in 𝓝[>] (0 : ℝ), |dampJ ε 1| ≤ 2 := by
    have h2 := h.eventually (Metric.ball_mem_nhds (1 / 1 : ℝ) one_pos)
    filter_upwards [h2] with ε hε
    rw [Real.dist_eq] at hε
    have := abs_sub_abs_le_abs_sub (dampJ ε 1) (1 / 1)
    rw [div_one, abs_one] at this
    rw [div_one] at hε
    linarith
  rw [eventually_nhdsWithin_iff, Metric.eventually_nhds_iff] at hb
  obtain ⟨e0, he0, hb⟩ := hb
  set C := max 2 (∫ x in Ioi (0 : ℝ), Real.exp (-(e0 * x ^ 2))) with hC
  have h1 : ∀ ε : ℝ, 0 < ε → |dampJ ε 1| ≤ C := by
    intro ε hε
    rcases lt_or_ge ε e0 with hl | hl
    · refine le_trans (hb ?_ hε) (le_max_left _ _)
      rw [Real.dist_eq, sub_zero, abs_of_pos hε]
      exact hl
    · refine le_trans ?_ (le_max_right _ _)
      rw [dampJ, ← Real.norm_eq_abs]
      refine norm_integral_le_of_norm_le (integrable_damp e0 he0) (ae_of_all _ fun x => ?_)
      rw [norm_mul, Real.norm_eq_abs, Real.abs_exp]
      refine le_trans (mul_le_of_le_one_right (Real.exp_pos _).le (abs_J0_norm _)) ?_
      rw [Real.exp_le_exp, neg_le_neg_iff]
      exact mul_le_mul_of_nonneg_right hl (sq_nonneg _)
  refine ⟨C, fun ε k hε hk => ?_⟩
  rw [dampJ_scale ε k hk, abs_mul, abs_of_pos (by positivity : 0 < 1 / k), one_div, inv_mul_eq_div]
  exact div_le_div_of_nonneg_right (h1 _ (by positivity)) hk.le

/-! ### Integrability -/

theorem integrable_gauss_mul (σ : ℝ) (a : ℝ → ℝ) (ha : IntegrableOn (fun r => r * a r) (Ioi 0)) (v : ℂ) :
    Integrable fun z : ℂ => gauss2 σ z * a ‖v + z‖ := by
  have hA : Integrable fun z : ℂ => a ‖v + z‖ := (integrable_radial a ha).comp_add_left v
  have := hA.mul_bdd (c := 1 / (2 * Real.pi * σ ^ 2)) (g := gauss2 σ)
    (continuous_gauss2 σ).aestronglyMeasurable (ae_of_all _ fun z => by
      rw [Real.norm_eq_abs, abs_of_nonneg (gauss2_nonneg σ z)]
      exact gauss2_le σ z)
  exact this.congr (ae_of_all _ fun z => mul_comm _ _)

theorem integrable_gauss_inv (σ : ℝ) (hσ : 0 < σ) (v : ℂ) : Integrable fun z : ℂ => gauss2 σ z * (1 / ‖v + z‖) := by
  set b : ℝ → ℝ := fun r => if r ≤ 1 then 1 / r else 0 with hb
  have hbi : IntegrableOn (fun r => r * b r) (Ioi 0) := by
    have h1 : IntegrableOn (fun _ : ℝ => (1 : ℝ)) (Ioc 0 1) := integrable_const (1 : ℝ)
    have h2 : IntegrableOn ((Ioc (0 : ℝ) 1).indicator fun _ => (1 : ℝ)) (Ioi 0) :=
      ((integrable_indicator_iff measurableSet_Ioc).mpr h1).integrableOn
    refine h2.congr_fun (fun r hr => ?_) measurableSet_Ioi
    have hr0 : 0 < r := hr
    by_cases h : r ≤ 1
    · simp only [hb, h, if_true]
      rw [indicator_of_mem (show r ∈ Ioc (0 : ℝ) 1 from ⟨hr0, h⟩)]
      field_simp
    · simp only [hb, h, if_false, mul_zero]
      rw [indicator_of_notMem (fun h' => h h'.2)]
  have hdom := (integrable_gauss2 σ hσ).add (integrable_gauss_mul σ b hbi v)
  refine hdom.mono' ?_ (ae_of_all _ fun z => ?_)
  · refine (continuous_gauss2 σ).aestronglyMeasurable.mul (Measurable.aestronglyMeasurable ?_)
    fun_prop
  · have h0 := gauss2_nonneg σ z
    rw [Real.norm_eq_abs, abs_of_nonneg (by positivity)]
    simp only [Pi.add_apply]
    have : 1 / ‖v + z‖ ≤ 1 + b ‖v + z‖ := by
      by_cases h : ‖v + z‖ ≤ 1
      · simp only [hb, h, if_true]
        linarith
      · simp only [hb, h, if_false, add_zero]
        rw [div_le_one (by linarith)]
        linarith
    calc gauss2 σ z * (1 / ‖v + z‖) ≤ gauss2 σ z * (1 + b ‖v + z‖) := mul_le_mul_of_nonneg_left this h0
      _ = _ := by ring

theorem integrable_gauss_line (σ : ℝ) (hσ : 0 < σ) : IntegrableOn (fun k : ℝ => Real.exp (-(σ ^ 2 * k ^ 2 / 2))) (Ioi 0) := by
  refine (integrable_damp (σ ^ 2 / 2) (by positivity)).congr (ae_of_all _ fun k => ?_)
  simp only
  congr 1
  ring

/-- The blur of `1/|w|`. -/
theorem blur_inv (σ : ℝ) (hσ : 0 < σ) (v : ℂ) :
    blur σ (fun w => 1 / ‖w‖) v = ∫ k in Ioi (0 : ℝ), Real.exp (-(σ ^ 2 * k ^ 2 / 2)) * besselJ 0 (k * ‖v‖) := by
  obtain ⟨C, hC⟩ := dampJ_bound
  -- both sides as limits
  have heq : ∀ ε : ℝ, 0 < ε → (∫ z : ℂ, gauss2 σ z * (Real.exp (-(ε * ‖v + z‖ ^ 2)) / ‖v + z‖))
      = ∫ k in Ioi (0 : ℝ), k * Real.exp (-(σ ^ 2 * k ^ 2 / 2)) * dampJ ε k * besselJ 0 (k * ‖v‖) := by
    intro ε hε
    have ha : IntegrableOn (fun r : ℝ => r * (Real.exp (-(ε * r ^ 2)) / r)) (Ioi 0) := by
      refine (integrable_damp ε hε).congr_fun (fun r hr => ?_) measurableSet_Ioi
      have : r ≠ 0 := ne_of_gt hr
      simp only
      field_simp
    have h := blur_radial σ hσ (fun r => Real.exp (-(ε * r ^ 2)) / r) ha v
    rw [blur] at h
    rw [h, ← integral_const_mul]
    refine setIntegral_congr_fun measurableSet_Ioi fun k _ => ?_
    have hin : (∫ r in Ioi (0 : ℝ), r * (Real.exp (-(ε * r ^ 2)) / r) * besselJ 0 (k * r)) = dampJ ε k := by
      rw [dampJ]
      refine setIntegral_congr_fun measurableSet_Ioi fun r hr => ?_
      have : r ≠ 0 := ne_of_gt hr
      field_simp
    rw [hin]
    field_simp
  have hL : Tendsto (fun ε : ℝ => ∫ z : ℂ, gauss2 σ z * (Real.exp (-(ε * ‖v + z‖ ^ 2)) / ‖v + z‖)) (𝓝[>] 0)
      (𝓝 (∫ z : ℂ, gauss2 σ z * (1 / ‖v + z‖))) := by
    refine tendsto_integral_filter_of_dominated_convergence (fun z => gauss2 σ z * (1 / ‖v + z‖)) ?_ ?_
      (integrable_gauss_inv σ hσ v) (ae_of_all _ fun z => ?_)
    · refine Eventually.of_forall fun ε => (continuous_gauss2 σ).aestronglyMeasurable.mul (Measurable.aestronglyMeasurable ?_)
      fun_prop
    · refine eventually_nhdsWithin_of_forall fun ε hε => ae_of_all _ fun z => ?_
      have hε0 : 0 < ε := hε
      have h0 := gauss2_nonneg σ z
      rw [Real.norm_eq_abs, abs_of_nonneg (by positivity)]
      refine mul_le_mul_of_nonneg_left (div_le_div_of_nonneg_right ?_ (norm_nonneg _)) h0
      rw [Real.exp_le_one_iff]
      have : 0 ≤ ε * ‖v + z‖ ^ 2 := by positivity
      linarith
    · have hc : Continuous fun ε : ℝ => gauss2 σ z * (Real.exp (-(ε * ‖v + z‖ ^ 2)) / ‖v + z‖) := by fun_prop
      have := (hc.tendsto 0).mono_left (nhdsWithin_le_nhds (s := Ioi 0))
      simpa using this
  have hR : Tendsto (fun ε : ℝ => ∫ k in Ioi (0 : ℝ), k * Real.exp (-(σ ^ 2 * k ^ 2 / 2)) * dampJ ε k * besselJ 0 (k * ‖v‖)) (𝓝[>] 0)
      (𝓝 (∫ k in Ioi (0 : ℝ), Real.exp (-(σ ^ 2 * k ^ 2 / 2)) * besselJ 0 (k * ‖v‖))) := by
    refine tendsto_integral_filter_of_dominated_convergence (fun k => C * Real.exp (-(σ ^ 2 * k ^ 2 / 2))) ?_ ?_
      ((integrable_gauss_line σ hσ).const_mul C) ((ae_restrict_mem measurableSet_Ioi).mono fun k hk => ?_)
    · refine eventually_nhdsWithin_of_forall fun ε hε => ?_
      have hcont : Continuous fun k => dampJ ε k := by
        unfold dampJ
        refine continuous_of_dominated (bound := fun x => Real.exp (-(ε * x ^ 2))) (fun k => ?_) (fun k => ae_of_all _ fun x => ?_)
          (integrable_damp ε hε) (ae_of_all _ fun x => ?_)
        · exact (integrable_dampJ ε hε k).1
        · rw [norm_mul, Real.norm_eq_abs, Real.abs_exp]
          exact mul_le_of_le_one_right (Real.exp_pos _).le (abs_J0_norm _)
        · exact continuous_const.mul ((continuous_J 0).comp (by fun_prop : Continuous fun k : ℝ => k * x))
      refine Continuous.aestronglyMeasurable (Continuous.mul (Continuous.mul (by fun_prop) hcont) ?_)
      exact (continuous_J 0).comp (by fun_prop : Continuous fun k : ℝ => k * ‖v‖)
    · refine eventually_nhdsWithin_of_forall fun ε hε => (ae_restrict_mem measurableSet_Ioi).mono fun k hk => ?_
      have hk0 : 0 < k := hk
      have hd := hC ε k hε hk0
      rw [norm_mul, norm_mul, Real.norm_eq_abs (k * _), abs_of_pos (by positivity), Real.norm_eq_abs (dampJ ε k)]
      calc k * Real.exp (-(σ ^ 2 * k ^ 2 / 2)) * |dampJ ε k| * ‖besselJ 0 (k * ‖v‖)‖
          ≤ k * Real.exp (-(σ ^ 2 * k ^ 2 / 2)) * |dampJ ε k| * 1 := by
            refine mul_le_mul_of_nonneg_left (abs_J0_norm _) (by positivity)
        _ ≤ k * Real.exp (-(σ ^ 2 * k ^ 2 / 2)) * (C / k) := by
            rw [mul_one]
            exact mul_le_mul_of_nonneg_left hd (by positivity)
        _ = C * Real.exp (-(σ ^ 2 * k ^ 2 / 2)) := by field_simp
    · have hk0 : 0 < k := hk
      have h := ((dampJ_lim k hk0).const_mul (k * Real.exp (-(σ ^ 2 * k ^ 2 / 2)))).mul_const (besselJ 0 (k * ‖v‖))
      have e : k * Real.exp (-(σ ^ 2 * k ^ 2 / 2)) * (1 / k) = Real.exp (-(σ ^ 2 * k ^ 2 / 2)) := by field_simp
      rw [e] at h
      exact h
  rw [blur]
  have hL' : Tendsto (fun ε : ℝ => ∫ k in Ioi (0 : ℝ), k * Real.exp (-(σ ^ 2 * k ^ 2 / 2)) * dampJ ε k * besselJ 0 (k * ‖v‖)) (𝓝[>] 0)
      (𝓝 (∫ z : ℂ, gauss2 σ z * (1 / ‖v + z‖))) := hL.congr' (eventually_nhdsWithin_of_forall fun ε hε => heq ε hε)
  exact tendsto_nhds_unique hL' hR

end Microjax.Props
