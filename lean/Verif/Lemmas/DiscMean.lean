import Verif.Lemmas.MultipoleLens
import Mathlib.Analysis.SpecialFunctions.Integrals.Basic
import Mathlib.MeasureTheory.Integral.DominatedConvergence
import Mathlib.Analysis.Calculus.ContDiff.Operations
import Mathlib.Analysis.SpecialFunctions.Sqrt
import Mathlib.MeasureTheory.Integral.IntervalIntegral.DerivIntegrable

/-!
# Expansion of limb-darkened disc averages of a real-analytic function
-/

noncomputable section

namespace Microjax.Props

open Complex ComplexConjugate Filter Topology Spec Asymptotics

/-- Directional derivative of a real function. -/
def dirR (h : ℂ) (g : ℂ → ℝ) : ℂ → ℝ := fun w => fderiv ℝ g w h

theorem iter_dirR_analytic {w₀ : ℂ} (h : ℂ) (k : ℕ) {g : ℂ → ℝ} (hg : AnalyticAt ℝ g w₀) :
    AnalyticAt ℝ ((dirR h)^[k] g) w₀ := by
  induction k generalizing g with
  | zero => exact hg
  | succ k ih => rw [Function.iterate_succ_apply]; exact ih (dirR_analytic h hg)

theorem iteratedFDeriv_diag {w₀ : ℂ} (h : ℂ) (k : ℕ) (g : ℂ → ℝ) (hg : AnalyticAt ℝ g w₀) :
    iteratedFDeriv ℝ k g w₀ (fun _ => h) = (dirR h)^[k] g w₀ := by
  induction k generalizing g with
  | zero => simp
  | succ k ih =>
    rw [iteratedFDeriv_succ_apply_right, Function.iterate_succ_apply,
      ← ih (dirR h g) (dirR_analytic h hg)]
    have hf : ContDiffAt ℝ k (fun y => fderiv ℝ g y) w₀ := hg.fderiv.contDiffAt
    have := ContinuousLinearMap.iteratedFDeriv_comp_left (ContinuousLinearMap.apply ℝ ℝ h) hf
      (i := k) le_rfl
    have h2 : dirR h g = (ContinuousLinearMap.apply ℝ ℝ h) ∘ (fun y => fderiv ℝ g y) := rfl
    rw [h2, this]
    rfl

/-- Partial derivatives at the base point. -/
def pd (g : ℂ → ℝ) (w₀ : ℂ) (k l : ℕ) : ℝ := (dirR 1)^[k] ((dirR I)^[l] g) w₀

theorem realG_iter {w₀ : ℂ} (h : ℂ) (k : ℕ) (g : ℂ → ℝ) (hg : AnalyticAt ℝ g w₀) :
    (dirD h)^[k] (realG g hg) = realG ((dirR h)^[k] g) (iter_dirR_analytic h k hg) := by
  induction k generalizing g with
  | zero => rfl
  | succ k ih =>
    rw [Function.iterate_succ_apply, realG_dir, ih]
    rfl

/-- Taylor polynomial of order four in Cartesian coordinates. -/
def taylor4 (c : ℕ → ℕ → ℝ) (x y : ℝ) : ℝ :=
  c 0 0 + (x * c 1 0 + y * c 0 1) + (x ^ 2 * c 2 0 + 2 * x * y * c 1 1 + y ^ 2 * c 0 2) / 2
    + (x ^ 3 * c 3 0 + 3 * x ^ 2 * y * c 2 1 + 3 * x * y ^ 2 * c 1 2 + y ^ 3 * c 0 3) / 6
    + (x ^ 4 * c 4 0 + 4 * x ^ 3 * y * c 3 1 + 6 * x ^ 2 * y ^ 2 * c 2 2 + 4 * x * y ^ 3 * c 1 3
        + y ^ 4 * c 0 4) / 24

theorem dirD_lin {w₀ : ℂ} (x y : ℝ) (F : AnGerm w₀) :
    dirD ((x : ℂ) + y * I) F = mkA (fun _ => (x : ℂ)) analyticAt_const * dirD 1 F
      + mkA (fun _ => (y : ℂ)) analyticAt_const * dirD I F := by
  obtain ⟨f, hf, rfl⟩ := exists_mkA F
  rw [dirD_mk, dirD_mk, dirD_mk, mkA_mul, mkA_mul, mkA_add, mkA_eq_iff]
  refine Eventually.of_forall fun w => ?_
  simp only [dirFun]
  have : ((x : ℂ) + y * I) = x • (1 : ℂ) + y • I := by simp
  rw [this, map_add, map_smul, map_smul]
  simp

theorem dirD_const {w₀ : ℂ} (d x : ℂ) : dirD d (mkA (w₀ := w₀) (fun _ => x) analyticAt_const) = 0 := by
  rw [dirD_mk]
  have : (0 : AnGerm w₀) = mkA (fun _ => 0) analyticAt_const := rfl
  rw [this, mkA_eq_iff]
  exact Eventually.of_forall fun w => by simp [dirFun]

theorem taylor_terms {w₀ : ℂ} (g : ℂ → ℝ) (hg : AnalyticAt ℝ g w₀) (x y : ℝ) :
    (dirR (x + y * I))^[0] g w₀ + (dirR (x + y * I))^[1] g w₀ + (dirR (x + y * I))^[2] g w₀ / 2
      + (dirR (x + y * I))^[3] g w₀ / 6 + (dirR (x + y * I))^[4] g w₀ / 24 = taylor4 (pd g w₀) x y := by
  have hev : ∀ k, ((((dirR (x + y * I))^[k] g w₀ : ℝ)) : ℂ) = evG ((dirD ((x : ℂ) + y * I))^[k] (realG g hg)) := by
    intro k; rw [realG_iter]; rfl
  have hpd : ∀ k l, ((pd g w₀ k l : ℝ) : ℂ) = evG ((dirD 1)^[k] ((dirD I)^[l] (realG g hg))) := by
    intro k l; rw [realG_iter, realG_iter]; rfl
  set b : ℕ → ℕ → AnGerm w₀ := fun k l => (dirD 1)^[k] ((dirD I)^[l] (realG g hg)) with hb
  have hX : ∀ k l, dirD 1 (b k l) = b (k + 1) l := fun k l => by
    simp only [hb]; rw [Function.iterate_succ_apply']
  have hY : ∀ k l, dirD I (b k l) = b k (l + 1) := fun k l => by
    simp only [hb]; rw [iter_comm, Function.iterate_succ_apply']
  have h0 : realG g hg = b 0 0 := rfl
  apply Complex.ofReal_injective
  unfold taylor4
  push_cast
  rw [hev, hev, hev, hev, hev]
  simp only [hpd]
  simp only [Function.iterate_succ_apply', Function.iterate_zero, id_eq, h0]
  simp only [dirD_lin, map_add, Derivation.leibniz, dirD_const, smul_eq_mul, hX, hY, mul_zero, add_zero,
    Nat.reduceAdd, map_mul, zero_add]
  have hx : evG (mkA (w₀ := w₀) (fun _ => (x : ℂ)) analyticAt_const) = x := rfl
  have hy : evG (mkA (w₀ := w₀) (fun _ => (y : ℂ)) analyticAt_const) = y := rfl
  simp only [hx, hy]
  ring_nf

theorem taylor4_remainder {w₀ : ℂ} (g : ℂ → ℝ) (hg : AnalyticAt ℝ g w₀) :
    ∃ C δ : ℝ, 0 < δ ∧ 0 ≤ C ∧ ContinuousOn g (Metric.ball w₀ δ) ∧ ∀ x y : ℝ, ‖(x : ℂ) + y * I‖ < δ →
      |g (w₀ + (x + y * I)) - taylor4 (pd g w₀) x y| ≤ C * ‖(x : ℂ) + y * I‖ ^ 5 := by
  obtain ⟨p, r, hp⟩ := hg
  have hO := hp.hasFPowerSeriesAt.isBigO_sub_partialSum_pow 5
  obtain ⟨C, hC⟩ := hO.bound
  have hcont : ∀ᶠ w in 𝓝 w₀, ContinuousAt g w :=
    (hp.analyticAt.eventually_analyticAt).mono fun w h => h.continuousAt
  obtain ⟨δ₁, hδ₁, h₁⟩ := Metric.eventually_nhds_iff_ball.mp hcont
  obtain ⟨δ₂, hδ₂, h₂⟩ := Metric.eventually_nhds_iff_ball.mp hC
  refine ⟨max C 0, min δ₁ δ₂, lt_min hδ₁ hδ₂, le_max_right _ _,
    fun w hw => (h₁ w (Metric.ball_subset_ball (min_le_left _ _) hw)).continuousWithinAt, fun x y hxy => ?_⟩
  have h3 := h₂ (x + y * I) (by
    rw [Metric.mem_ball, dist_zero_right]; exact lt_of_lt_of_le hxy (min_le_right _ _))
  have hps : p.partialSum 5 ((x : ℂ) + y * I) = taylor4 (pd g w₀) x y := by
    rw [← taylor_terms g hp.analyticAt x y]
    have hk : ∀ k : ℕ, p k (fun _ => (x : ℂ) + y * I) = (dirR (x + y * I))^[k] g w₀ / (k.factorial : ℝ) := by
      intro k
      have := hp.factorial_smul ((x : ℂ) + y * I) k
      rw [iteratedFDeriv_diag _ _ _ hp.analyticAt] at this
      rw [← this, nsmul_eq_mul]
      field_simp [Nat.factorial_ne_zero]
    rw [FormalMultilinearSeries.partialSum]
    simp only [Finset.sum_range_succ, Finset.sum_range_zero, hk]
    norm_num [Nat.factorial]
  rw [hps, Real.norm_eq_abs, Real.norm_eq_abs, abs_of_nonneg (by positivity : (0:ℝ) ≤ ‖(x : ℂ) + y * I‖ ^ 5)] at h3
  exact h3.trans (mul_le_mul_of_nonneg_right (le_max_left _ _) (by positivity))

theorem angular_mean (c : ℕ → ℕ → ℝ) (t : ℝ) :
    ∫ θ in (0 : ℝ)..2 * Real.pi, taylor4 c (t * Real.cos θ) (t * Real.sin θ)
      = 2 * Real.pi * (c 0 0 + t ^ 2 / 4 * (c 2 0 + c 0 2)
          + t ^ 4 / 64 * (c 4 0 + 2 * c 2 2 + c 0 4)) := by
  set F : ℝ → ℝ := fun θ =>
    c 0 0 * θ + t * (Real.sin θ * c 1 0 - Real.cos θ * c 0 1)
      + t ^ 2 / 2 * ((θ + Real.sin θ * Real.cos θ) / 2 * c 2 0 + Real.sin θ ^ 2 * c 1 1
          + (θ - Real.sin θ * Real.cos θ) / 2 * c 0 2)
      + t ^ 3 / 6 * ((Real.sin θ - Real.sin θ ^ 3 / 3) * c 3 0 - Real.cos θ ^ 3 * c 2 1
          + Real.sin θ ^ 3 * c 1 2 + (-Real.cos θ + Real.cos θ ^ 3 / 3) * c 0 3)
      + t ^ 4 / 24 * ((3 * θ / 8 + 3 * (Real.sin θ * Real.cos θ) / 8 + Real.sin θ * Real.cos θ ^ 3 / 4) * c 4 0
          - Real.cos θ ^ 4 * c 3 1
          + 6 * (θ / 8 + Real.sin θ * Real.cos θ / 8 - Real.sin θ * Real.cos θ ^ 3 / 4) * c 2 2
          + Real.sin θ ^ 4 * c 1 3
          + (3 * θ / 8 - 3 * (Real.sin θ * Real.cos θ) / 8 - Real.sin θ ^ 3 * Real.cos θ / 4) * c 0 4) with hF
  have hd : ∀ θ : ℝ, HasDerivAt F (taylor4 c (t * Real.cos θ) (t * Real.sin θ)) θ := by
    intro θ
    have hs := Real.hasDerivAt_sin θ
    have hc := Real.hasDerivAt_cos θ
    have hi := hasDerivAt_id' θ
    have hsc := hs.fun_mul hc
    have h0 := hi.const_mul (c 0 0)
    have h1 := ((hs.mul_const (c 1 0)).fun_sub (hc.mul_const (c 0 1))).const_mul t
    have h2 := (((((hi.fun_add hsc).div_const 2).mul_const (c 2 0)).fun_add ((hs.fun_pow 2).mul_const (c 1 1))).fun_add
      (((hi.fun_sub hsc).div_const 2).mul_const (c 0 2))).const_mul (t ^ 2 / 2)
    have h3 := ((((((hs.fun_sub ((hs.fun_pow 3).div_const 3)).mul_const (c 3 0)).fun_sub
      ((hc.fun_pow 3).mul_const (c 2 1))).fun_add ((hs.fun_pow 3).mul_const (c 1 2))).fun_add
      ((hc.fun_neg.fun_add ((hc.fun_pow 3).div_const 3)).mul_const (c 0 3)))).const_mul (t ^ 3 / 6)
    have h4 := (((((((((hi.const_mul 3).div_const 8).fun_add ((hsc.const_mul 3).div_const 8)).fun_add
      ((hs.fun_mul (hc.fun_pow 3)).div_const 4)).mul_const (c 4 0)).fun_sub ((hc.fun_pow 4).mul_const (c 3 1))).fun_add
      (((((hi.div_const 8).fun_add (hsc.div_const 8)).fun_sub
        ((hs.fun_mul (hc.fun_pow 3)).div_const 4)).const_mul 6).mul_const (c 2 2))).fun_add
      ((hs.fun_pow 4).mul_const (c 1 3))).fun_add
      (((((hi.const_mul 3).div_const 8).fun_sub ((hsc.const_mul 3).div_const 8)).fun_sub
        (((hs.fun_pow 3).fun_mul hc).div_const 4)).mul_const (c 0 4))).const_mul (t ^ 4 / 24)
    refine ((((h0.fun_add h1).fun_add h2).fun_add h3).fun_add h4).congr_deriv ?_
    have hs2 : Real.sin θ ^ 2 = 1 - Real.cos θ ^ 2 := by
      have := Real.sin_sq_add_cos_sq θ; linarith
    unfold taylor4
    set S := Real.sin θ
    set K := Real.cos θ
    have hs3 : S ^ 3 = S * (1 - K ^ 2) := by rw [← hs2]; ring
    have hs4 : S ^ 4 = (1 - K ^ 2) ^ 2 := by rw [← hs2]; ring
    norm_num
    ring_nf
    rw [hs4, hs3, hs2]
    ring
  rw [intervalIntegral.integral_eq_sub_of_hasDerivAt (fun θ _ => hd θ)]
  · simp only [hF, Real.sin_two_pi, Real.cos_two_pi, Real.sin_zero, Real.cos_zero]
    ring
  · apply Continuous.intervalIntegrable
    unfold taylor4
    fun_prop

theorem radial_moment (u a b d : ℝ) :
    ∫ r in (0 : ℝ)..1, (a + b * r ^ 2 + d * r ^ 4) * (brightness u r * r)
      = a * ((1 - u) / 2 + u / 3) + b * ((1 - u) / 4 + 2 * u / 15) + d * ((1 - u) / 6 + 8 * u / 105) := by
  have hcb : Continuous (fun r => brightness u r) := by unfold brightness; fun_prop
  set F : ℝ → ℝ := fun r => (1 - u) * (a * (r ^ 2 / 2) + b * (r ^ 4 / 4) + d * (r ^ 6 / 6))
    + u * (a * (-(Real.sqrt (1 - r ^ 2) ^ 3 / 3))
      + b * (-(Real.sqrt (1 - r ^ 2) ^ 3 / 3) + Real.sqrt (1 - r ^ 2) ^ 5 / 5)
      + d * (-(Real.sqrt (1 - r ^ 2) ^ 3 / 3) + 2 * (Real.sqrt (1 - r ^ 2) ^ 5 / 5)
          - Real.sqrt (1 - r ^ 2) ^ 7 / 7)) with hF
  have hd : ∀ r ∈ Set.Ioo (0 : ℝ) 1, HasDerivAt F ((a + b * r ^ 2 + d * r ^ 4) * (brightness u r * r)) r := by
    intro r hr
    have hpos : 0 < 1 - r ^ 2 := by nlinarith [hr.1, hr.2]
    have hi := hasDerivAt_id' r
    have hs : HasDerivAt (fun r : ℝ => Real.sqrt (1 - r ^ 2)) (-(r / Real.sqrt (1 - r ^ 2))) r := by
      have := ((hi.fun_pow 2).const_sub 1).sqrt hpos.ne'
      refine this.congr_deriv ?_
      field_simp
      norm_num
    have h1 := ((((hi.fun_pow 2).div_const 2).const_mul a).fun_add (((hi.fun_pow 4).div_const 4).const_mul b)).fun_add
      (((hi.fun_pow 6).div_const 6).const_mul d) |>.const_mul (1 - u)
    have s3 := ((hs.fun_pow 3).div_const 3).fun_neg
    have s5 := (hs.fun_pow 5).div_const 5
    have s7 := (hs.fun_pow 7).div_const 7
    have h2 := (((s3.const_mul a).fun_add ((s3.fun_add s5).const_mul b)).fun_add
      (((s3.fun_add (s5.const_mul 2)).fun_sub s7).const_mul d)).const_mul u
    refine (h1.fun_add h2).congr_deriv ?_
    unfold brightness
    have hS : Real.sqrt (1 - r ^ 2) ^ 2 = 1 - r ^ 2 := Real.sq_sqrt hpos.le
    have hS0 : Real.sqrt (1 - r ^ 2) ≠ 0 := (Real.sqrt_pos.mpr hpos).ne'
    set S := Real.sqrt (1 - r ^ 2)
    have hr2 : r ^ 2 = 1 - S ^ 2 := by linarith
    have hr4 : r ^ 4 = (1 - S ^ 2) ^ 2 := by rw [← hr2]; ring
    norm_num
    field_simp
    ring_nf
    have hr3 : r ^ 3 = r * (1 - S ^ 2) := by rw [← hr2]; ring
    have hr5 : r ^ 5 = r * (1 - S ^ 2) ^ 2 := by rw [← hr2]; ring
    rw [hr5, hr3]
    ring
  rw [intervalIntegral.integral_eq_sub_of_hasDerivAt_of_le zero_le_one (by fun_prop) hd]
  · simp only [hF]
    norm_num
    ring
  · apply Continuous.intervalIntegrable
    fun_prop

theorem brightness_bound (u r : ℝ) : |brightness u r| ≤ 1 + |u| := by
  unfold brightness
  have h1 : Real.sqrt (1 - r ^ 2) ≤ 1 := by
    rw [Real.sqrt_le_one]; nlinarith [sq_nonneg r]
  have h0 := Real.sqrt_nonneg (1 - r ^ 2)
  calc |1 - u * (1 - Real.sqrt (1 - r ^ 2))| ≤ |(1 : ℝ)| + |u * (1 - Real.sqrt (1 - r ^ 2))| := abs_sub _ _
    _ ≤ 1 + |u| := by
      rw [abs_one, abs_mul, abs_of_nonneg (sub_nonneg.mpr h1)]
      nlinarith [abs_nonneg u]

theorem discIntegral_one (u : ℝ) (w : ℂ) (ρ : ℝ) :
    discIntegral u (fun _ => 1) w ρ = 2 * Real.pi * ((1 - u) / 2 + u / 3) := by
  unfold discIntegral
  have h := radial_moment u (2 * Real.pi) 0 0
  have : (fun r : ℝ => ∫ θ in (0 : ℝ)..2 * Real.pi, (1 : ℝ) * (brightness u r * r))
      = fun r => (2 * Real.pi + 0 * r ^ 2 + 0 * r ^ 4) * (brightness u r * r) := by
    funext r
    rw [intervalIntegral.integral_const, smul_eq_mul]
    ring
  rw [this, h]
  ring

/-- The disc integral of an analytic function up to fifth order in the radius. -/
theorem discIntegral_expansion {w₀ : ℂ} (g : ℂ → ℝ) (hg : AnalyticAt ℝ g w₀) (u : ℝ) :
    ∃ C δ : ℝ, 0 < δ ∧ ∀ ρ : ℝ, |ρ| < δ →
      |discIntegral u g w₀ ρ - 2 * Real.pi * (pd g w₀ 0 0 * ((1 - u) / 2 + u / 3)
        + ρ ^ 2 / 4 * (pd g w₀ 2 0 + pd g w₀ 0 2) * ((1 - u) / 4 + 2 * u / 15)
        + ρ ^ 4 / 64 * (pd g w₀ 4 0 + 2 * pd g w₀ 2 2 + pd g w₀ 0 4) * ((1 - u) / 6 + 8 * u / 105))|
        ≤ C * |ρ| ^ 5 := by
  obtain ⟨C, δ, hδ, hC, hcont, hrem⟩ := taylor4_remainder g hg
  refine ⟨C * (2 * Real.pi) * (1 + |u|), δ, hδ, fun ρ hρ => ?_⟩
  set c := pd g w₀
  set cl : ℝ → ℝ := fun r => max 0 (min 1 r) with hcl
  have hcl0 : ∀ r, 0 ≤ cl r := fun r => le_max_left _ _
  have hcl1 : ∀ r, cl r ≤ 1 := fun r => max_le zero_le_one (min_le_left _ _)
  have hclid : ∀ r ∈ Set.Icc (0 : ℝ) 1, cl r = r := fun r hr => by
    simp only [hcl, min_eq_right hr.2, max_eq_right hr.1]
  have hclc : Continuous cl := by fun_prop
  have hpt : ∀ r θ : ℝ, (ρ : ℂ) * cl r * exp (I * θ)
      = ((ρ * cl r * Real.cos θ : ℝ) : ℂ) + ((ρ * cl r * Real.sin θ : ℝ) : ℂ) * I := by
    intro r θ
    rw [mul_comm I, Complex.exp_mul_I]
    push_cast
    ring
  have hnorm : ∀ r θ : ℝ, ‖(ρ : ℂ) * cl r * exp (I * θ)‖ = |ρ| * cl r := by
    intro r θ
    rw [mul_comm I, norm_mul, norm_mul, Complex.norm_exp_ofReal_mul_I, Complex.norm_real, Complex.norm_real,
      Real.norm_eq_abs, Real.norm_eq_abs, abs_of_nonneg (hcl0 r), mul_one]
  have hle : ∀ r θ : ℝ, ‖(ρ : ℂ) * cl r * exp (I * θ)‖ ≤ |ρ| := fun r θ => by
    rw [hnorm]; exact mul_le_of_le_one_right (abs_nonneg _) (hcl1 r)
  have hG : Continuous (fun q : ℝ × ℝ => g (w₀ + ρ * cl q.1 * exp (I * q.2))) := by
    refine hcont.comp_continuous (by fun_prop) fun q => ?_
    rw [Metric.mem_ball, dist_eq_norm, add_sub_cancel_left]
    exact lt_of_le_of_lt (hle _ _) hρ
  have hP : Continuous (fun q : ℝ × ℝ => taylor4 c (ρ * cl q.1 * Real.cos q.2) (ρ * cl q.1 * Real.sin q.2)) := by
    unfold taylor4; fun_prop
  have hcb : Continuous (fun r => brightness u r) := by unfold brightness; fun_prop
  have hA : Continuous (fun r => ∫ θ in (0 : ℝ)..2 * Real.pi, g (w₀ + ρ * cl r * exp (I * θ))) :=
    intervalIntegral.continuous_parametric_intervalIntegral_of_continuous'
      (f := fun r θ => g (w₀ + ρ * cl r * exp (I * θ))) hG _ _
  have hB : Continuous (fun r => ∫ θ in (0 : ℝ)..2 * Real.pi,
      taylor4 c (ρ * cl r * Real.cos θ) (ρ * cl r * Real.sin θ)) :=
    intervalIntegral.continuous_parametric_intervalIntegral_of_continuous'
      (f := fun r θ => taylor4 c (ρ * cl r * Real.cos θ) (ρ * cl r * Real.sin θ)) hP _ _
  have h1 : discIntegral u g w₀ ρ = ∫ r in (0 : ℝ)..1,
      (∫ θ in (0 : ℝ)..2 * Real.pi, g (w₀ + ρ * cl r * exp (I * θ))) * (brightness u r * r) := by
    unfold discIntegral
    refine intervalIntegral.integral_congr fun r hr => ?_
    rw [Set.uIcc_of_le zero_le_one] at hr
    simp only [hclid r hr]
    rw [intervalIntegral.integral_mul_const]
  have h2 : 2 * Real.pi * (c 0 0 * ((1 - u) / 2 + u / 3)
        + ρ ^ 2 / 4 * (c 2 0 + c 0 2) * ((1 - u) / 4 + 2 * u / 15)
        + ρ ^ 4 / 64 * (c 4 0 + 2 * c 2 2 + c 0 4) * ((1 - u) / 6 + 8 * u / 105))
      = ∫ r in (0 : ℝ)..1, (∫ θ in (0 : ℝ)..2 * Real.pi,
        taylor4 c (ρ * cl r * Real.cos θ) (ρ * cl r * Real.sin θ)) * (brightness u r * r) := by
    have := radial_moment u (2 * Real.pi * c 0 0) (2 * Real.pi * (ρ ^ 2 / 4 * (c 2 0 + c 0 2)))
      (2 * Real.pi * (ρ ^ 4 / 64 * (c 4 0 + 2 * c 2 2 + c 0 4)))
    refine Eq.trans ?_ (this.symm.trans ?_)
    · ring
    · refine intervalIntegral.integral_congr fun r hr => ?_
      rw [Set.uIcc_of_le zero_le_one] at hr
      simp only [hclid r hr]
      rw [angular_mean]
      ring
  rw [h1, h2, ← intervalIntegral.integral_sub
    ((hA.fun_mul (hcb.fun_mul continuous_id')).intervalIntegrable _ _)
    ((hB.fun_mul (hcb.fun_mul continuous_id')).intervalIntegrable _ _)]
  have hbd : ∀ r ∈ Set.uIoc (0 : ℝ) 1,
      ‖(∫ θ in (0 : ℝ)..2 * Real.pi, g (w₀ + ρ * cl r * exp (I * θ))) * (brightness u r * r)
        - (∫ θ in (0 : ℝ)..2 * Real.pi,
          taylor4 c (ρ * cl r * Real.cos θ) (ρ * cl r * Real.sin θ)) * (brightness u r * r)‖
      ≤ C * (2 * Real.pi) * (1 + |u|) * |ρ| ^ 5 := by
    intro r hr
    rw [Set.uIoc_of_le zero_le_one] at hr
    have hGr : Continuous (fun θ : ℝ => g (w₀ + ρ * cl r * exp (I * θ))) :=
      hG.comp (Continuous.prodMk_right r)
    have hPr : Continuous (fun θ : ℝ => taylor4 c (ρ * cl r * Real.cos θ) (ρ * cl r * Real.sin θ)) :=
      hP.comp (Continuous.prodMk_right r)
    rw [← sub_mul, ← intervalIntegral.integral_sub (hGr.intervalIntegrable _ _) (hPr.intervalIntegrable _ _),
      norm_mul]
    have hin : ‖∫ θ in (0 : ℝ)..2 * Real.pi, (g (w₀ + ρ * cl r * exp (I * θ))
        - taylor4 c (ρ * cl r * Real.cos θ) (ρ * cl r * Real.sin θ))‖ ≤ C * |ρ| ^ 5 * |2 * Real.pi - 0| := by
      refine intervalIntegral.norm_integral_le_of_norm_le_const fun θ _ => ?_
      have h3 := hrem (ρ * cl r * Real.cos θ) (ρ * cl r * Real.sin θ) (by
        rw [← hpt]; exact lt_of_le_of_lt (hle _ _) hρ)
      rw [← hpt] at h3
      rw [Real.norm_eq_abs]
      refine h3.trans (mul_le_mul_of_nonneg_left ?_ hC)
      exact pow_le_pow_left₀ (norm_nonneg _) (hle r θ) 5
    have hout : ‖brightness u r * r‖ ≤ 1 + |u| := by
      rw [norm_mul, Real.norm_eq_abs, Real.norm_eq_abs, abs_of_pos hr.1]
      calc |brightness u r| * r ≤ |brightness u r| * 1 :=
            mul_le_mul_of_nonneg_left hr.2 (abs_nonneg _)
        _ ≤ 1 + |u| := by rw [mul_one]; exact brightness_bound u r
    calc _ ≤ (C * |ρ| ^ 5 * |2 * Real.pi - 0|) * (1 + |u|) :=
          mul_le_mul hin hout (norm_nonneg _) (by positivity)
      _ = _ := by rw [sub_zero, abs_of_pos Real.two_pi_pos]; ring
  have := intervalIntegral.norm_integral_le_of_norm_le_const hbd
  rw [Real.norm_eq_abs] at this
  simpa using this

theorem laplacian_pd {w₀ : ℂ} (g : ℂ → ℝ) : laplacian g w₀ = pd g w₀ 2 0 + pd g w₀ 0 2 := rfl

theorem laplacian2_pd {w₀ : ℂ} (g : ℂ → ℝ) (hg : AnalyticAt ℝ g w₀) :
    laplacian (laplacian g) w₀ = pd g w₀ 4 0 + 2 * pd g w₀ 2 2 + pd g w₀ 0 4 := by
  have hl := lapA_realG g hg
  have hl2 := lapA_realG (laplacian g) (laplacian_analytic g hg)
  have hpd : ∀ k l, ((pd g w₀ k l : ℝ) : ℂ) = evG ((dirD 1)^[k] ((dirD I)^[l] (realG g hg))) := by
    intro k l; rw [realG_iter, realG_iter]; rfl
  have hev : ((laplacian (laplacian g) w₀ : ℝ) : ℂ)
      = evG (realG (laplacian (laplacian g)) (laplacian_analytic _ (laplacian_analytic g hg))) := rfl
  apply Complex.ofReal_injective
  rw [hev, ← hl2, ← hl]
  unfold lapA
  push_cast
  simp only [hpd, map_add, Function.iterate_succ_apply', Function.iterate_zero, id_eq]
  have hc : ∀ F : AnGerm w₀, dirD I (dirD 1 F) = dirD 1 (dirD I F) := fun F => dirD_comm _ _ F
  simp only [hc]
  ring

/-- Expansion of the limb-darkened disc average of a real-analytic function. -/
theorem discMean_expansion {w₀ : ℂ} (g : ℂ → ℝ) (hg : AnalyticAt ℝ g w₀) (u : ℝ) (hu : u ≠ 3) :
    (fun ρ => discMean u g w₀ ρ - (g w₀
      + laplacian g w₀ / 8 * (1 - 1 / 5 * (2 * u / (3 - u))) * ρ ^ 2
      + laplacian (laplacian g) w₀ / 192 * (1 - 11 / 35 * (2 * u / (3 - u))) * ρ ^ 4))
      =O[𝓝 0] fun ρ => ρ ^ 5 := by
  obtain ⟨C, δ, hδ, h⟩ := discIntegral_expansion g hg u
  have hu3 : 3 - u ≠ 0 := fun h => hu (by linarith)
  have hN : 2 * Real.pi * ((1 - u) / 2 + u / 3) ≠ 0 := by
    have : (1 - u) / 2 + u / 3 = (3 - u) / 6 := by ring
    rw [this]
    positivity
  refine IsBigO.of_bound (C / |2 * Real.pi * ((1 - u) / 2 + u / 3)|) ?_
  filter_upwards [Metric.ball_mem_nhds (0 : ℝ) hδ] with ρ hρ
  rw [Metric.mem_ball, dist_zero_right, Real.norm_eq_abs] at hρ
  have h1 := h ρ hρ
  rw [Real.norm_eq_abs, Real.norm_eq_abs, abs_pow, div_mul_eq_mul_div C, le_div_iff₀ (abs_pos.mpr hN), ← abs_mul]
  refine le_trans (le_of_eq (congrArg abs ?_)) h1
  rw [← laplacian_pd, ← laplacian2_pd g hg]
  unfold discMean
  rw [discIntegral_one, sub_mul, div_mul_cancel₀ _ hN]
  have : pd g w₀ 0 0 = g w₀ := rfl
  rw [this]
  field_simp
  ring

end Microjax.Props
