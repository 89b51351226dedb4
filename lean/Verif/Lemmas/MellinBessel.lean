import Verif.Lemmas.DiscTransform
import Mathlib.Analysis.SpecialFunctions.Gamma.Beta
import Mathlib.Analysis.SpecialFunctions.ImproperIntegrals
import Mathlib.Analysis.SpecialFunctions.Gaussian.GaussianIntegral
import Mathlib.MeasureTheory.Integral.Prod
import Mathlib.MeasureTheory.Integral.IntegralEqImproper
import Mathlib.MeasureTheory.Integral.DominatedConvergence

/-!
# The Mellin transform of `J₀` (Abel–Gauss summed)
-/

noncomputable section

namespace Microjax.Props

open Spec MeasureTheory Filter Set Topology
open scoped Nat

theorem abs_J0_le (x : ℝ) : |besselJ 0 x| ≤ 1 := by
  have h := integral_cos_cos x
  have hb : |∫ θ in (0 : ℝ)..2 * Real.pi, Real.cos (x * Real.cos θ)| ≤ 1 * |2 * Real.pi - 0| := by
    have := intervalIntegral.norm_integral_le_of_norm_le_const (a := 0) (b := 2 * Real.pi) (C := 1)
      (f := fun θ => Real.cos (x * Real.cos θ)) (fun θ _ => by rw [Real.norm_eq_abs]; exact Real.abs_cos_le_one _)
    simpa [Real.norm_eq_abs] using this
  have hp : 0 < 2 * Real.pi := by positivity
  rw [h, sub_zero, one_mul, abs_mul, abs_of_pos hp] at hb
  nlinarith

/-- The Laplace transform of `J₀(y√t)`. -/
theorem laplace_J0 (p y : ℝ) (hp : 0 < p) :
    (∫ t in Ioi (0 : ℝ), Real.exp (-(p * t)) * besselJ 0 (y * Real.sqrt t)) = 1 / p * Real.exp (-(y ^ 2 / (4 * p))) := by
  have hint : ∀ k : ℕ, IntegrableOn (fun t : ℝ => t ^ k * Real.exp (-(p * t))) (Ioi 0) := by
    intro k
    by_contra hc
    have h := Real.integral_rpow_mul_exp_neg_mul_Ioi (a := k + 1) (r := p) (by positivity) hp
    simp only [add_sub_cancel_right, Real.rpow_natCast] at h
    rw [integral_undef hc] at h
    have : 0 < (1 / p) ^ ((k : ℝ) + 1) * Real.Gamma (k + 1) :=
      mul_pos (Real.rpow_pos_of_pos (by positivity) _) (Real.Gamma_pos_of_pos (by positivity))
    linarith
  have hval : ∀ k : ℕ, (∫ t in Ioi (0 : ℝ), t ^ k * Real.exp (-(p * t))) = (1 / p) ^ (k + 1) * k ! := by
    intro k
    have h := Real.integral_rpow_mul_exp_neg_mul_Ioi (a := k + 1) (r := p) (by positivity) hp
    simp only [add_sub_cancel_right, Real.rpow_natCast] at h
    rw [h, Real.Gamma_nat_eq_factorial]
    congr 1
    rw [← Real.rpow_natCast]
    push_cast
    rfl
  set F : ℕ → ℝ → ℝ := fun k t => cliffordC 0 k * (y ^ 2 / 4) ^ k * (t ^ k * Real.exp (-(p * t))) with hF
  have hnorm : ∀ k, (∫ t in Ioi (0 : ℝ), ‖F k t‖) = |cliffordC 0 k| * (y ^ 2 / 4) ^ k * ((1 / p) ^ (k + 1) * k !) := by
    intro k
    rw [← hval k, ← integral_const_mul]
    refine setIntegral_congr_fun measurableSet_Ioi fun t ht => ?_
    have ht' : 0 < t := ht
    have hy4 : |y ^ 2 / 4| = y ^ 2 / 4 := abs_of_nonneg (by positivity)
    simp only [hF, norm_mul, Real.norm_eq_abs, abs_pow, hy4, abs_of_pos ht', Real.abs_exp]
  have hc : ∀ k : ℕ, cliffordC 0 k = (-1) ^ k / ((k ! : ℝ) * k !) := fun k => by simp [cliffordC]
  have habs : ∀ k, |cliffordC 0 k| * (y ^ 2 / 4) ^ k * ((1 / p) ^ (k + 1) * k !) = 1 / p * ((y ^ 2 / (4 * p)) ^ k / k !) := by
    intro k
    have hk : (k ! : ℝ) ≠ 0 := by exact_mod_cast Nat.factorial_ne_zero k
    rw [hc, abs_div, abs_pow, abs_neg, abs_one, one_pow, abs_of_nonneg (by positivity),
      div_pow, div_pow, div_pow, mul_pow, one_pow, pow_succ p k]
    field_simp
  have hs := hasSum_integral_of_summable_integral_norm (μ := volume.restrict (Ioi (0 : ℝ))) (F := F)
    (fun k => (hint k).const_mul _) (by
      simp only [hnorm, habs]
      exact (Real.summable_pow_div_factorial _).mul_left _)
  have hpt : ∀ t ∈ Ioi (0 : ℝ), (∑' k, F k t) = Real.exp (-(p * t)) * besselJ 0 (y * Real.sqrt t) := by
    intro t ht
    have ht' : 0 < t := ht
    rw [besselJ_zero, mul_pow, Real.sq_sqrt ht'.le, clifford, ← tsum_mul_left]
    refine tsum_congr fun k => ?_
    simp only [hF]
    rw [show y ^ 2 * t / 4 = y ^ 2 / 4 * t by ring, mul_pow (y ^ 2 / 4) t k]
    ring
  rw [setIntegral_congr_fun measurableSet_Ioi hpt] at hs
  have hterm : ∀ k, (∫ t in Ioi (0 : ℝ), F k t) = 1 / p * ((-(y ^ 2 / (4 * p))) ^ k / k !) := by
    intro k
    have hk : (k ! : ℝ) ≠ 0 := by exact_mod_cast Nat.factorial_ne_zero k
    simp only [hF]
    rw [integral_const_mul, hval, hc, neg_pow (y ^ 2 / (4 * p)), div_pow, div_pow, div_pow, mul_pow, one_pow, pow_succ p k]
    field_simp
  simp only [hterm] at hs
  have he := (NormedSpace.expSeries_div_hasSum_exp (-(y ^ 2 / (4 * p)) : ℝ)).mul_left (1 / p)
  rw [← Real.exp_eq_exp_ℝ] at he
  exact hs.unique he

/-- The envelope that dominates the integrands below. -/
theorem integrable_env (α : ℝ) (h0 : 0 < α) (h1 : α < 1) (C : ℝ) (hC : 0 < C) :
    IntegrableOn (fun u : ℝ => u ^ (-α) * min C (1 / u)) (Ioi 0) := by
  rw [← Ioc_union_Ioi_eq_Ioi zero_le_one, integrableOn_union]
  have hm : Measurable fun u : ℝ => u ^ (-α) * min C (1 / u) := by fun_prop
  constructor
  · have h : IntegrableOn (fun u : ℝ => C * u ^ (-α)) (Ioc 0 1) :=
      ((intervalIntegrable_iff_integrableOn_Ioc_of_le zero_le_one).mp
        (intervalIntegral.intervalIntegrable_rpow' (by linarith))).const_mul C
    refine h.mono' hm.aestronglyMeasurable ((ae_restrict_mem measurableSet_Ioc).mono fun u hu => ?_)
    have hu0 : 0 < u := hu.1
    have hr := Real.rpow_nonneg hu0.le (-α)
    rw [Real.norm_eq_abs, abs_of_nonneg (by positivity), mul_comm]
    gcongr
    exact min_le_left _ _
  · have h : IntegrableOn (fun u : ℝ => u ^ (-α - 1)) (Ioi 1) := integrableOn_Ioi_rpow_of_lt (by linarith) one_pos
    refine h.mono' hm.aestronglyMeasurable ((ae_restrict_mem measurableSet_Ioi).mono fun u hu => ?_)
    have hu0 : 0 < u := lt_trans one_pos hu
    have hr := Real.rpow_nonneg hu0.le (-α)
    rw [Real.norm_eq_abs, abs_of_nonneg (by positivity), Real.rpow_sub_one hu0.ne', div_eq_mul_one_div (u ^ (-α)) u]
    exact mul_le_mul_of_nonneg_left (min_le_right _ _) hr

theorem norm_cpow_real (u : ℝ) (hu : 0 < u) (a : ℂ) : ‖(u : ℂ) ^ a‖ = u ^ a.re :=
  Complex.norm_cpow_eq_rpow_re_of_pos hu a

/-- The Gauss-damped moment of `J₀(√t)` as a Stieltjes-type integral. -/
theorem damped_moment (a : ℂ) (h0 : 0 < a.re) (h1 : a.re < 1) (ε : ℝ) (hε : 0 < ε) :
    (∫ t in Ioi (0 : ℝ), (t : ℂ) ^ (a - 1) * ((Real.exp (-(ε * t)) * besselJ 0 (Real.sqrt t) : ℝ) : ℂ))
      = 1 / Complex.Gamma (1 - a) *
        ∫ u in Ioi (0 : ℝ), (u : ℂ) ^ (-a) * ((1 / (ε + u) * Real.exp (-(1 / (4 * (ε + u)))) : ℝ) : ℂ) := by
  have hG : Complex.Gamma (1 - a) ≠ 0 := Complex.Gamma_ne_zero_of_re_pos (by simp; linarith)
  set f : ℝ → ℝ → ℂ := fun t u => (u : ℂ) ^ (-a) * ((Real.exp (-((ε + u) * t)) * besselJ 0 (Real.sqrt t) : ℝ) : ℂ) with hf
  have hJ : Measurable fun t : ℝ => besselJ 0 (Real.sqrt t) :=
    ((continuous_J 0).comp Real.continuous_sqrt).measurable
  have hexpint : ∀ c : ℝ, 0 < c → IntegrableOn (fun t : ℝ => Real.exp (-(c * t))) (Ioi 0) := by
    intro c hc
    simpa [neg_mul] using integrableOn_exp_mul_Ioi (neg_neg_of_pos hc) 0
  have hexpval : ∀ c : ℝ, 0 < c → (∫ t in Ioi (0 : ℝ), Real.exp (-(c * t))) = 1 / c := by
    intro c hc
    have := integral_exp_mul_Ioi (neg_neg_of_pos hc) 0
    simp only [neg_mul, mul_zero, Real.exp_zero] at this
    rw [this]
    simp
  have hmeas : Measurable (Function.uncurry f) := by
    simp only [hf, Function.uncurry_def]
    refine Measurable.mul ?_ ?_
    · exact (Complex.measurable_ofReal.comp measurable_snd).pow_const _
    · refine Complex.measurable_ofReal.comp (Measurable.mul ?_ (hJ.comp measurable_fst))
      fun_prop
  have hfn : ∀ t u : ℝ, 0 < u → ‖f t u‖ ≤ u ^ (-a.re) * Real.exp (-((ε + u) * t)) := by
    intro t u hu
    simp only [hf, norm_mul, norm_cpow_real u hu, Complex.neg_re, Complex.norm_real, Real.norm_eq_abs, Real.abs_exp]
    have hr := Real.rpow_nonneg hu.le (-a.re)
    have := abs_J0_le (Real.sqrt t)
    calc u ^ (-a.re) * (Real.exp (-((ε + u) * t)) * |besselJ 0 (Real.sqrt t)|)
        ≤ u ^ (-a.re) * (Real.exp (-((ε + u) * t)) * 1) := by gcongr
      _ = _ := by ring
  have hft : ∀ u : ℝ, 0 < u → IntegrableOn (fun t => f t u) (Ioi 0) := by
    intro u hu
    refine ((hexpint (ε + u) (by positivity)).const_mul (u ^ (-a.re))).mono' ?_ (ae_of_all _ fun t => hfn t u hu)
    exact (hmeas.comp (measurable_id.prodMk measurable_const)).aestronglyMeasurable
  have hprod : Integrable (Function.uncurry f)
      ((volume.restrict (Ioi (0 : ℝ))).prod (volume.restrict (Ioi (0 : ℝ)))) := by
    rw [integrable_prod_iff' hmeas.aestronglyMeasurable]
    refine ⟨(ae_restrict_mem measurableSet_Ioi).mono fun u hu => hft u hu, ?_⟩
    refine (integrable_env a.re h0 h1 (1 / ε) (by positivity)).mono' ?_
      ((ae_restrict_mem measurableSet_Ioi).mono fun u hu => ?_)
    · exact (hmeas.norm.stronglyMeasurable.integral_prod_left' (μ := volume.restrict (Ioi (0 : ℝ)))).aestronglyMeasurable
    · have hu0 : 0 < u := hu
      have hr := Real.rpow_nonneg hu0.le (-a.re)
      rw [Real.norm_eq_abs, abs_of_nonneg (integral_nonneg fun t => norm_nonneg _)]
      calc (∫ t in Ioi (0 : ℝ), ‖Function.uncurry f (t, u)‖)
          ≤ ∫ t in Ioi (0 : ℝ), u ^ (-a.re) * Real.exp (-((ε + u) * t)) :=
            integral_mono (hft u hu0).norm ((hexpint (ε + u) (by positivity)).const_mul _) fun t => hfn t u hu0
        _ = u ^ (-a.re) * (1 / (ε + u)) := by rw [integral_const_mul, hexpval _ (by positivity)]
        _ ≤ _ := by
            gcongr
            refine le_min ?_ ?_
            · exact one_div_le_one_div_of_le hε (by linarith)
            · exact one_div_le_one_div_of_le hu0 (by linarith)
  have hswap := integral_integral_swap hprod
  have hleft : (∫ t in Ioi (0 : ℝ), ∫ u in Ioi (0 : ℝ), f t u) = Complex.Gamma (1 - a) *
      ∫ t in Ioi (0 : ℝ), (t : ℂ) ^ (a - 1) * ((Real.exp (-(ε * t)) * besselJ 0 (Real.sqrt t) : ℝ) : ℂ) := by
    rw [← integral_const_mul]
    refine setIntegral_congr_fun measurableSet_Ioi fun t ht => ?_
    have ht0 : 0 < t := ht
    have h := Complex.integral_cpow_mul_exp_neg_mul_Ioi (a := 1 - a) (r := t) (by simp; linarith) (by simpa using ht0)
    have e1 : ∀ u : ℝ, f t u = ((Real.exp (-(ε * t)) * besselJ 0 (Real.sqrt t) : ℝ) : ℂ)
        * ((u : ℂ) ^ (1 - a - 1) * Complex.exp (-(t * u))) := by
      intro u
      simp only [hf]
      rw [show (1 : ℂ) - a - 1 = -a by ring, show -((ε + u) * t) = -(ε * t) + -(t * u) by ring, Real.exp_add]
      push_cast
      ring
    simp only [e1]
    rw [integral_const_mul, h]
    have e2 : (1 / (t : ℂ)) ^ (1 - a) = (t : ℂ) ^ (a - 1) := by
      rw [one_div, Complex.inv_cpow _ _ (by rw [Complex.arg_ofReal_of_nonneg ht0.le]; exact Real.pi_ne_zero.symm),
        ← Complex.cpow_neg]
      congr 1
      ring
    rw [e2]
    ring
  have hright : (∫ u in Ioi (0 : ℝ), ∫ t in Ioi (0 : ℝ), f t u)
      = ∫ u in Ioi (0 : ℝ), (u : ℂ) ^ (-a) * ((1 / (ε + u) * Real.exp (-(1 / (4 * (ε + u)))) : ℝ) : ℂ) := by
    refine setIntegral_congr_fun measurableSet_Ioi fun u hu => ?_
    have hu0 : 0 < u := hu
    simp only [hf]
    have hl := laplace_J0 (ε + u) 1 (by positivity)
    simp only [one_mul, one_pow] at hl
    rw [integral_const_mul, integral_complex_ofReal, hl]
  rw [← hright, ← hswap, hleft, ← mul_assoc, one_div, inv_mul_cancel₀ hG, one_mul]

theorem mul_exp_le (v : ℝ) (hv : 0 < v) : 1 / v * Real.exp (-(1 / (4 * v))) ≤ 4 := by
  have h := Real.add_one_le_exp (1 / (4 * v))
  rw [Real.exp_neg, ← div_eq_mul_inv, div_le_iff₀ (Real.exp_pos _)]
  have : 1 / v = 4 * (1 / (4 * v)) := by field_simp
  linarith

/-- The limit of the damped moments. -/
theorem tendsto_damped (a : ℂ) (h0 : 0 < a.re) (h1 : a.re < 1) :
    Tendsto (fun ε : ℝ => ∫ t in Ioi (0 : ℝ),
        (t : ℂ) ^ (a - 1) * ((Real.exp (-(ε * t)) * besselJ 0 (Real.sqrt t) : ℝ) : ℂ))
      (𝓝[>] 0) (𝓝 (4 ^ a * (Complex.Gamma a / Complex.Gamma (1 - a)))) := by
  have hlim : Tendsto (fun ε : ℝ => ∫ u in Ioi (0 : ℝ),
        (u : ℂ) ^ (-a) * ((1 / (ε + u) * Real.exp (-(1 / (4 * (ε + u)))) : ℝ) : ℂ)) (𝓝[>] 0)
      (𝓝 (∫ u in Ioi (0 : ℝ), (u : ℂ) ^ (-a) * ((1 / u * Real.exp (-(1 / (4 * u))) : ℝ) : ℂ))) := by
    refine tendsto_integral_filter_of_dominated_convergence (fun u : ℝ => u ^ (-a.re) * min 4 (1 / u)) ?_ ?_
      (integrable_env a.re h0 h1 4 (by norm_num)) ?_
    · refine Eventually.of_forall fun ε => Measurable.aestronglyMeasurable ?_
      refine Measurable.mul (Complex.measurable_ofReal.pow_const _) (Complex.measurable_ofReal.comp ?_)
      fun_prop
    · refine eventually_nhdsWithin_of_forall fun ε hε => (ae_restrict_mem measurableSet_Ioi).mono fun u hu => ?_
      have hε0 : 0 < ε := hε
      have hu0 : 0 < u := hu
      have hv : 0 < ε + u := by positivity
      have hr := Real.rpow_nonneg hu0.le (-a.re)
      rw [norm_mul, norm_cpow_real u hu0, Complex.neg_re, Complex.norm_real, Real.norm_eq_abs, abs_of_nonneg (by positivity)]
      gcongr
      refine le_min (mul_exp_le _ hv) ?_
      calc 1 / (ε + u) * Real.exp (-(1 / (4 * (ε + u)))) ≤ 1 / (ε + u) * 1 := by
            gcongr
            rw [Real.exp_le_one_iff]
            have : 0 < 1 / (4 * (ε + u)) := by positivity
            linarith
        _ ≤ 1 / u := by rw [mul_one]; exact one_div_le_one_div_of_le hu0 (by linarith)
    · refine (ae_restrict_mem measurableSet_Ioi).mono fun u hu => ?_
      have hu0 : 0 < u := hu
      refine Tendsto.const_mul _ ((Complex.continuous_ofReal.tendsto _).comp ?_)
      have hc : ContinuousAt (fun ε : ℝ => 1 / (ε + u) * Real.exp (-(1 / (4 * (ε + u))))) 0 := by
        have h2 : (0 : ℝ) + u ≠ 0 := by simpa using hu0.ne'
        have h3 : 4 * ((0 : ℝ) + u) ≠ 0 := by simpa using hu0.ne'
        fun_prop (disch := assumption)
      have := hc.tendsto.mono_left (nhdsWithin_le_nhds (s := Ioi 0))
      simpa using this
  have hval : (∫ u in Ioi (0 : ℝ), (u : ℂ) ^ (-a) * ((1 / u * Real.exp (-(1 / (4 * u))) : ℝ) : ℂ))
      = 4 ^ a * Complex.Gamma a := by
    have h := Complex.integral_cpow_mul_exp_neg_mul_Ioi (a := a) (r := 1 / 4) h0 (by norm_num)
    rw [show (1 : ℂ) / ((1 / 4 : ℝ) : ℂ) = 4 by norm_num] at h
    have hsub := integral_comp_rpow_Ioi (fun t : ℝ => (t : ℂ) ^ (a - 1) * Complex.exp (-(((1 / 4 : ℝ) : ℂ) * t)))
      (show (-1 : ℝ) ≠ 0 by norm_num)
    rw [← h, ← hsub]
    refine setIntegral_congr_fun measurableSet_Ioi fun u hu => ?_
    have hu0 : 0 < u := hu
    have hne : (u : ℂ) ≠ 0 := by exact_mod_cast hu0.ne'
    have e1 : ((u ^ (-1 : ℝ) : ℝ) : ℂ) ^ (a - 1) = (u : ℂ) ^ (1 - a) := by
      rw [Real.rpow_neg_one, Complex.ofReal_inv,
        Complex.inv_cpow _ _ (by rw [Complex.arg_ofReal_of_nonneg hu0.le]; exact Real.pi_ne_zero.symm), ← Complex.cpow_neg]
      congr 1
      ring
    have e2 : u ^ ((-1 : ℝ) - 1) = (u ^ 2)⁻¹ := by
      rw [show (-1 : ℝ) - 1 = -(2 : ℕ) by norm_num, Real.rpow_neg hu0.le, Real.rpow_natCast]
    have e3 : (u : ℂ) ^ (1 - a) = u * (u : ℂ) ^ (-a) := by
      rw [sub_eq_add_neg, Complex.cpow_add _ _ hne, Complex.cpow_one]
    rw [e1, e2, e3, Real.rpow_neg_one, Complex.real_smul]
    have e4 : Complex.exp (-(((1 / 4 : ℝ) : ℂ) * ((u⁻¹ : ℝ) : ℂ))) = ((Real.exp (-(1 / (4 * u))) : ℝ) : ℂ) := by
      rw [Complex.ofReal_exp]
      congr 1
      push_cast
      field_simp
    rw [e4]
    push_cast
    norm_num
    field_simp
  have h := hlim.const_mul (1 / Complex.Gamma (1 - a))
  rw [hval] at h
  have e : 1 / Complex.Gamma (1 - a) * (4 ^ a * Complex.Gamma a) = 4 ^ a * (Complex.Gamma a / Complex.Gamma (1 - a)) := by ring
  rw [e] at h
  refine h.congr' (eventually_nhdsWithin_of_forall fun ε hε => ?_)
  exact (damped_moment a h0 h1 ε hε).symm

/-- **Weber's integral**, Gauss summed: the Mellin transform of `J₀`. -/
theorem mellin_J0 (s : ℂ) (h0 : 0 < s.re) (h2 : s.re < 2) (y : ℝ) (hy : 0 < y) :
    Tendsto (fun ε : ℝ => ∫ x in Ioi (0 : ℝ),
        (x : ℂ) ^ (s - 1) * ((besselJ 0 (x * y) * Real.exp (-(ε * x ^ 2)) : ℝ) : ℂ))
      (𝓝[>] 0) (𝓝 (2 ^ (s - 1) * (Complex.Gamma (s / 2) / Complex.Gamma (1 - s / 2)) * (y : ℂ) ^ (-s))) := by
  have hyc : (y : ℂ) ≠ 0 := by exact_mod_cast hy.ne'
  have hre : (s / 2).re = s.re / 2 := by simp
  have hD := tendsto_damped (s / 2) (by rw [hre]; linarith) (by rw [hre]; linarith)
  have hscale : Tendsto (fun ε : ℝ => ε / y ^ 2) (𝓝[>] 0) (𝓝[>] 0) := by
    refine tendsto_nhdsWithin_iff.mpr ⟨?_, eventually_nhdsWithin_of_forall fun ε hε => ?_⟩
    · have : Tendsto (fun ε : ℝ => ε / y ^ 2) (𝓝 0) (𝓝 (0 / y ^ 2)) := tendsto_id.div_const _
      rw [zero_div] at this
      exact this.mono_left nhdsWithin_le_nhds
    · have hε0 : 0 < ε := hε
      exact div_pos hε0 (by positivity)
  have h := ((hD.comp hscale).const_mul (1 / 2 * (y : ℂ) ^ (-s)))
  have e : 1 / 2 * (y : ℂ) ^ (-s) * (4 ^ (s / 2) * (Complex.Gamma (s / 2) / Complex.Gamma (1 - s / 2)))
      = 2 ^ (s - 1) * (Complex.Gamma (s / 2) / Complex.Gamma (1 - s / 2)) * (y : ℂ) ^ (-s) := by
    have e4 : (4 : ℂ) ^ (s / 2) = 2 * 2 ^ (s - 1) := by
      rw [Complex.cpow_sub _ _ two_ne_zero, Complex.cpow_one]
      have : (4 : ℂ) ^ (s / 2) = 2 ^ s := by
        have h4 : (4 : ℂ) = ((4 : ℝ) : ℂ) := by norm_num
        have h22 : (2 : ℂ) = ((2 : ℝ) : ℂ) := by norm_num
        rw [h4, Complex.cpow_def_of_ne_zero (by norm_num), h22, Complex.cpow_def_of_ne_zero (by norm_num),
          ← Complex.ofReal_log (by norm_num), ← Complex.ofReal_log (by norm_num),
          show (4 : ℝ) = 2 ^ 2 by norm_num, Real.log_pow]
        congr 1
        push_cast
        ring
      rw [this]
      field_simp
    rw [e4]
    ring
  rw [e] at h
  refine h.congr' (Eventually.of_forall fun ε => ?_)
  simp only [Function.comp_apply]
  set g : ℝ → ℂ := fun t => (t : ℂ) ^ (s / 2 - 1) * ((Real.exp (-(ε / y ^ 2 * t)) * besselJ 0 (Real.sqrt t) : ℝ) : ℂ) with hg
  change 1 / 2 * (y : ℂ) ^ (-s) * (∫ t in Ioi (0 : ℝ), g t) = _
  rw [← integral_comp_rpow_Ioi_of_pos (g := g) (p := 2) two_pos]
  have hmul := integral_comp_mul_left_Ioi (fun x => (2 * x ^ ((2 : ℝ) - 1)) • g (x ^ (2 : ℝ))) 0 hy
  rw [mul_zero] at hmul
  have hmul2 : (∫ x in Ioi (0 : ℝ), (2 * x ^ ((2 : ℝ) - 1)) • g (x ^ (2 : ℝ)))
      = y • ∫ x in Ioi (0 : ℝ), (2 * (y * x) ^ ((2 : ℝ) - 1)) • g ((y * x) ^ (2 : ℝ)) := by
    rw [hmul, smul_smul, mul_inv_cancel₀ hy.ne', one_smul]
  rw [hmul2, Complex.real_smul, ← mul_assoc, ← integral_const_mul]
  refine setIntegral_congr_fun measurableSet_Ioi fun x hx => ?_
  have hx0 : 0 < x := hx
  have hxy : 0 < y * x := by positivity
  have hxc : (x : ℂ) ≠ 0 := by exact_mod_cast hx0.ne'
  simp only [hg, Real.rpow_two, Real.sqrt_sq hxy.le]
  rw [show (2 : ℝ) - 1 = 1 by norm_num, Real.rpow_one, Complex.real_smul]
  have e1 : (((y * x) ^ 2 : ℝ) : ℂ) ^ (s / 2 - 1) = (y : ℂ) ^ (s - 2) * (x : ℂ) ^ (s - 2) := by
    rw [← Complex.mul_cpow_ofReal_nonneg hy.le hx0.le, ← Complex.ofReal_mul]
    rw [show (((y * x) ^ 2 : ℝ) : ℂ) = ((y * x : ℝ) : ℂ) ^ (2 : ℕ) by push_cast; ring, ← Complex.cpow_natCast,
      ← Complex.ofReal_natCast, ← Complex.ofReal_cpow hxy.le]
    have hh : (((y * x) ^ ((2 : ℕ) : ℝ) : ℝ) : ℂ) ^ (s / 2 - 1) = ((y * x : ℝ) : ℂ) ^ (((2 : ℕ) : ℝ) * (s / 2 - 1)) := by
      rw [Complex.ofReal_cpow hxy.le, ← Complex.cpow_mul]
      all_goals
        rw [← Complex.ofReal_log hxy.le, ← Complex.ofReal_mul, Complex.ofReal_im]
      · exact neg_lt_zero.mpr Real.pi_pos
      · exact Real.pi_pos.le
    rw [hh]
    congr 1
    push_cast
    ring
  have e2 : (y : ℂ) ^ (s - 2) = (y : ℂ) ^ s / y ^ 2 := by
    rw [Complex.cpow_sub _ _ hyc]
    norm_num
  have e3 : (x : ℂ) ^ (s - 1) = x * (x : ℂ) ^ (s - 2) := by
    rw [show s - 1 = 1 + (s - 2) by ring, Complex.cpow_add _ _ hxc, Complex.cpow_one]
  have e5 : -(ε / y ^ 2 * (y * x) ^ 2) = -(ε * x ^ 2) := by field_simp
  rw [e1, e2, e3, e5, Complex.cpow_neg, mul_comm x y]
  have hys : (y : ℂ) ^ s ≠ 0 := by rw [Complex.cpow_def_of_ne_zero hyc]; exact Complex.exp_ne_zero _
  push_cast
  field_simp

theorem integrable_mellin (s : ℂ) (h0 : 0 < s.re) (y ε : ℝ) (hε : 0 < ε) :
    IntegrableOn (fun x : ℝ => (x : ℂ) ^ (s - 1) * ((besselJ 0 (x * y) * Real.exp (-(ε * x ^ 2)) : ℝ) : ℂ)) (Ioi 0) := by
  have hint := integrableOn_rpow_mul_exp_neg_mul_sq hε (s := s.re - 1) (by linarith)
  refine hint.mono' ?_ ((ae_restrict_mem measurableSet_Ioi).mono fun x hx => ?_)
  · refine Measurable.aestronglyMeasurable ?_
    refine Measurable.mul (Complex.measurable_ofReal.pow_const _) (Complex.measurable_ofReal.comp ?_)
    exact Measurable.mul ((continuous_J 0).comp (continuous_mul_const y)).measurable (by fun_prop)
  · have hx0 : 0 < x := hx
    have hr := Real.rpow_nonneg hx0.le (s.re - 1)
    rw [norm_mul, norm_cpow_real x hx0, Complex.norm_real, Real.norm_eq_abs, abs_mul, Real.abs_exp, Complex.sub_re,
      Complex.one_re]
    have := abs_J0_le (x * y)
    calc x ^ (s.re - 1) * (|besselJ 0 (x * y)| * Real.exp (-(ε * x ^ 2)))
        ≤ x ^ (s.re - 1) * (1 * Real.exp (-(ε * x ^ 2))) := by gcongr
      _ = _ := by rw [one_mul, neg_mul]

end Microjax.Props
