import Verif.Lemmas.StirlingBound
import Mathlib.Analysis.SpecialFunctions.Gamma.Digamma
import Mathlib.Analysis.Complex.Liouville

/-!
# Error of the truncated asymptotic series of the digamma function
-/

noncomputable section

namespace Microjax.Props

open Special Filter Topology

/-- The exact coefficients `B_{2k} / (2k)`. -/
def psiCoeff : List ℝ := [1 / 12, -1 / 120, 1 / 252, -1 / 240, 1 / 132, -691 / 32760, 1 / 12, -3617 / 8160]

/-- The asymptotic series with eight terms. -/
def psiS (w : ℂ) : ℂ :=
  Complex.log w - 1 / 2 * w⁻¹ - ∑ k ∈ Finset.range 8, ((psiCoeff.getD k 0 : ℝ) : ℂ) * (w⁻¹) ^ (2 * k + 2)

/-- The defect of the functional equation. -/
def psiDefect (w : ℂ) : ℂ := psiS (w + 1) - psiS w - w⁻¹

theorem psiDefect_eq (w : ℂ) (hw : 0 < w.re) (s : ℂ) (hs : s = (2 * w + 1)⁻¹) (hs1 : ‖s‖ < 1) :
    psiDefect w = Complex.log (1 + s) - Complex.log (1 + -s) - 1 / 2 * (2 * s / (1 + s) + 2 * s / (1 + -s))
      - ∑ k ∈ Finset.range 8, ((psiCoeff.getD k 0 : ℝ) : ℂ)
        * ((2 * s / (1 + s)) ^ (2 * k + 2) - (2 * s / (1 + -s)) ^ (2 * k + 2)) := by
  have h2 : (2 * w + 1) ≠ 0 := by
    intro h
    have := congrArg Complex.re h
    simp at this
    linarith
  have hw0 : w ≠ 0 := by intro h; rw [h] at hw; simp at hw
  have hw1 : w + 1 ≠ 0 := by
    intro h
    have := congrArg Complex.re h
    simp at this
    linarith
  have e1 : 2 * s / (1 + s) = (w + 1)⁻¹ := by
    have : 1 + s = (2 * (w + 1)) * s := by rw [hs]; field_simp; ring
    rw [this, hs]; field_simp
  have e2 : 2 * s / (1 + -s) = w⁻¹ := by
    have : 1 + -s = (2 * w) * s := by rw [hs]; field_simp; ring
    rw [this, hs]; field_simp
  rw [e1, e2, psiDefect, psiS, psiS, ← log_add_one_sub w hw s hs hs1]
  simp only [mul_sub, Finset.sum_sub_distrib]
  ring

theorem psi_odd_part (s : ℂ) : Complex.logTaylor (18 + 1) s - Complex.logTaylor (18 + 1) (-s)
    = 2 * (s + s ^ 3 / 3 + s ^ 5 / 5 + s ^ 7 / 7 + s ^ 9 / 9 + s ^ 11 / 11 + s ^ 13 / 13 + s ^ 15 / 15 + s ^ 17 / 17) := by
  simp only [Complex.logTaylor, Finset.sum_range_succ, Finset.sum_range_zero]
  push_cast
  ring

/-- Numerator of the truncated defect. -/
def psiQ (s : ℂ) : ℂ :=
  -605235310 / 21 - 881936765674 / 3465 * s ^ 2 - 2330596961774 / 3465 * s ^ 4
      - 1426481370946 / 2145 * s ^ 6 - 2254604802110 / 9009 * s ^ 8 - 1425507312122 / 45045 * s ^ 10
      - 4473691758 / 5005 * s ^ 12 + 1195570 / 1683 * s ^ 14 - 8424970 / 11781 * s ^ 16 + 2200670 / 3927 * s ^ 18
      - 51891482 / 153153 * s ^ 20 + 3396182 / 21879 * s ^ 22 - 126806 / 2431 * s ^ 24 + 40238 / 3315 * s ^ 26
      - 446 / 255 * s ^ 28 + 2 / 17 * s ^ 30

theorem psi_identity (s : ℂ) :
    2 * (s + s ^ 3 / 3 + s ^ 5 / 5 + s ^ 7 / 7 + s ^ 9 / 9 + s ^ 11 / 11 + s ^ 13 / 13 + s ^ 15 / 15 + s ^ 17 / 17) * (1 - s ^ 2) ^ 16
      - 2 * s * (1 - s ^ 2) ^ 15
      - ∑ k ∈ Finset.range 8, ((psiCoeff.getD k 0 : ℝ) : ℂ)
          * ((2 * s) ^ (2 * k + 2) * ((1 + -s) ^ (2 * k + 2) - (1 + s) ^ (2 * k + 2)) * (1 - s ^ 2) ^ (16 - (2 * k + 2)))
      = s ^ 19 * psiQ s := by
  simp only [Finset.sum_range_succ, Finset.sum_range_zero, psiCoeff, List.getD_cons_zero, List.getD_cons_succ, psiQ]
  push_cast
  ring

theorem psiQ_bound (s : ℂ) (hs : ‖s‖ ≤ 1 / 17) : ‖psiQ s‖ ≤ 29709600 := by
  have hpw : ∀ m : ℕ, ‖s ^ m‖ ≤ (1 / 17) ^ m := by
    intro m; rw [norm_pow]; gcongr
  have hq1 : ‖psiQ s‖ ≤ ‖(-605235310 / 21 : ℂ)‖ + ‖(881936765674 / 3465 : ℂ)‖ * (1 / 17) ^ 2
        + ‖(2330596961774 / 3465 : ℂ)‖ * (1 / 17) ^ 4 + ‖(1426481370946 / 2145 : ℂ)‖ * (1 / 17) ^ 6
        + ‖(2254604802110 / 9009 : ℂ)‖ * (1 / 17) ^ 8 + ‖(1425507312122 / 45045 : ℂ)‖ * (1 / 17) ^ 10
        + ‖(4473691758 / 5005 : ℂ)‖ * (1 / 17) ^ 12 + ‖(1195570 / 1683 : ℂ)‖ * (1 / 17) ^ 14
        + ‖(8424970 / 11781 : ℂ)‖ * (1 / 17) ^ 16 + ‖(2200670 / 3927 : ℂ)‖ * (1 / 17) ^ 18
        + ‖(51891482 / 153153 : ℂ)‖ * (1 / 17) ^ 20 + ‖(3396182 / 21879 : ℂ)‖ * (1 / 17) ^ 22
        + ‖(126806 / 2431 : ℂ)‖ * (1 / 17) ^ 24 + ‖(40238 / 3315 : ℂ)‖ * (1 / 17) ^ 26
        + ‖(446 / 255 : ℂ)‖ * (1 / 17) ^ 28 + ‖(2 / 17 : ℂ)‖ * (1 / 17) ^ 30 := by
    rw [psiQ]
    repeat'
      first
      | refine (norm_sub_le _ _).trans (add_le_add ?_ ?_)
      | refine (norm_add_le _ _).trans (add_le_add ?_ ?_)
      | exact le_rfl
      | (rw [norm_mul]; exact mul_le_mul_of_nonneg_left (hpw _) (norm_nonneg _))
  refine hq1.trans ?_
  simp only [norm_div, norm_neg, RCLike.norm_ofNat]
  norm_num

theorem psi_key (s : ℂ) (hsq : 1 - s ^ 2 ≠ 0) :
    Complex.logTaylor (18 + 1) s - Complex.logTaylor (18 + 1) (-s)
      - 1 / 2 * (2 * s / (1 + s) + 2 * s / (1 + -s))
      - ∑ k ∈ Finset.range 8, ((psiCoeff.getD k 0 : ℝ) : ℂ)
        * ((2 * s / (1 + s)) ^ (2 * k + 2) - (2 * s / (1 + -s)) ^ (2 * k + 2))
      = s ^ 19 * psiQ s / (1 - s ^ 2) ^ 16 := by
  have n1 : 1 + s ≠ 0 := by intro h; exact hsq (by linear_combination (1 - s) * h)
  have n2 : 1 + -s ≠ 0 := by intro h; exact hsq (by linear_combination (1 + s) * h)
  have hf : (1 + s) * (1 + -s) = 1 - s ^ 2 := by ring
  have ht' : ∀ m : ℕ, m ≤ 16 → ((2 * s / (1 + s)) ^ m - (2 * s / (1 + -s)) ^ m) * (1 - s ^ 2) ^ 16
      = (2 * s) ^ m * ((1 + -s) ^ m - (1 + s) ^ m) * (1 - s ^ 2) ^ (16 - m) := by
    intro m hm
    have e : (1 - s ^ 2) ^ 16 = (1 + s) ^ m * (1 + -s) ^ m * (1 - s ^ 2) ^ (16 - m) := by
      rw [← mul_pow, hf, ← pow_add, Nat.add_sub_cancel' hm]
    rw [e, div_pow, div_pow]
    generalize (1 - s ^ 2) ^ (16 - m) = D
    have m1 := pow_ne_zero m n1
    have m2 := pow_ne_zero m n2
    generalize (1 + s) ^ m = A at *
    generalize (1 + -s) ^ m = B at *
    generalize (2 * s) ^ m = G at *
    field_simp
  have hone : 1 / 2 * (2 * s / (1 + s) + 2 * s / (1 + -s)) * (1 - s ^ 2) ^ 16 = 2 * s * (1 - s ^ 2) ^ 15 := by
    rw [pow_succ (1 - s ^ 2) 15]
    generalize (1 - s ^ 2) ^ 15 = D
    rw [← hf]
    field_simp
    ring
  rw [eq_div_iff (pow_ne_zero _ hsq), sub_mul, sub_mul, hone, Finset.sum_mul, psi_odd_part, ← psi_identity]
  congr 1
  refine Finset.sum_congr rfl fun k hk => ?_
  have hk' := Finset.mem_range.mp hk
  rw [mul_assoc, ht' _ (by omega)]

theorem psi_log_part (s : ℂ) (hs : ‖s‖ ≤ 1 / 17) :
    ‖(Complex.log (1 + s) - Complex.logTaylor (18 + 1) s) - (Complex.log (1 + -s) - Complex.logTaylor (18 + 1) (-s))‖
      ≤ ‖s‖ ^ 19 * (17 / 16) := by
  have hs1 : ‖s‖ < 1 := by linarith
  have h1 := Complex.norm_log_sub_logTaylor_le 18 hs1
  have h2 := Complex.norm_log_sub_logTaylor_le 18 (z := -s) (by rwa [norm_neg])
  rw [norm_neg] at h2
  have hi : (1 - ‖s‖)⁻¹ ≤ 17 / 16 := by
    rw [inv_le_comm₀ (by linarith) (by norm_num)]
    linarith
  refine (norm_sub_le _ _).trans ((add_le_add h1 h2).trans ?_)
  have h3 : ‖s‖ ^ (18 + 1) * (1 - ‖s‖)⁻¹ / ((18 : ℕ) + 1) ≤ ‖s‖ ^ (18 + 1) * (17 / 16) / ((18 : ℕ) + 1) := by gcongr
  have hn : 0 ≤ ‖s‖ ^ 19 := by positivity
  norm_num at h3 ⊢
  linarith

theorem psiDefect_bound (w : ℂ) (hw : 0 < w.re) (hs : ‖(2 * w + 1)⁻¹‖ ≤ 1 / 17) :
    ‖psiDefect w‖ ≤ 3.15e7 * ‖(2 * w + 1)⁻¹‖ ^ 19 := by
  rw [psiDefect_eq w hw _ rfl (by linarith)]
  generalize (2 * w + 1)⁻¹ = s at hs ⊢
  have hl : 1 - 1 / 289 ≤ ‖1 - s ^ 2‖ := by
    have h := norm_sub_norm_le (1 : ℂ) (s ^ 2)
    rw [norm_one, norm_pow] at h
    have : ‖s‖ ^ 2 ≤ (1 / 17) ^ 2 := by gcongr
    norm_num at this ⊢
    linarith
  have hsq : 1 - s ^ 2 ≠ 0 := by
    intro h; rw [h, norm_zero] at hl; norm_num at hl
  have key := psi_key s hsq
  have hlog := psi_log_part s hs
  have hb : ‖s ^ 19 * psiQ s / (1 - s ^ 2) ^ 16‖ ≤ ‖s‖ ^ 19 * (29709600 / (1 - 1 / 289) ^ 16) := by
    rw [norm_div, norm_mul, norm_pow, norm_pow, mul_div_assoc]
    have := psiQ_bound s hs
    gcongr
  rw [← key] at hb
  have hnum : (29709600 : ℝ) / (1 - 1 / 289) ^ 16 ≤ 3.149e7 := by norm_num
  have hn : 0 ≤ ‖s‖ ^ 19 := by positivity
  have hb' := hb.trans (mul_le_mul_of_nonneg_left hnum hn)
  refine le_trans (le_trans (le_of_eq ?_) ((norm_add_le _ _).trans (add_le_add hlog hb'))) ?_
  · congr 1
    ring
  · generalize ‖s‖ ^ 19 = x at *
    norm_num
    linarith

/-! ### The limit -/

/-- The derivative of the logarithm of Stirling's approximation. -/
def dlogS (w : ℂ) : ℂ :=
  Complex.log w - 1 / 2 * w⁻¹ - ∑ k ∈ Finset.range 5, ((psiCoeff.getD k 0 : ℝ) : ℂ) * (w⁻¹) ^ (2 * k + 2)

theorem hasDerivAt_logS (w : ℂ) (hw : 0 < w.re) : HasDerivAt (logS 5) (dlogS w) w := by
  have hw0 : w ≠ 0 := by intro h; rw [h] at hw; simp at hw
  have hlog := Complex.hasDerivAt_log (Complex.mem_slitPlane_iff.mpr (Or.inl hw))
  have h1 : HasDerivAt (fun v : ℂ => (v - 1 / 2) * Complex.log v) (1 * Complex.log w + (w - 1 / 2) * w⁻¹) w :=
    ((hasDerivAt_id w).sub_const (1 / 2 : ℂ)).mul hlog
  have hp : ∀ k : ℕ, HasDerivAt (fun v : ℂ => ((stirling.getD k 0 : ℝ) : ℂ) / v ^ (2 * k + 1))
      (-((2 * k + 1 : ℕ) : ℂ) * ((stirling.getD k 0 : ℝ) : ℂ) * (w⁻¹) ^ (2 * k + 2)) w := by
    intro k
    have h := (((hasDerivAt_id w).fun_pow (2 * k + 1)).fun_inv (pow_ne_zero _ hw0)).const_mul ((stirling.getD k 0 : ℝ) : ℂ)
    simp only [id] at h
    refine (h.congr_of_eventuallyEq (Eventually.of_forall fun v => by simp [div_eq_mul_inv])).congr_deriv ?_
    rw [inv_pow, Nat.add_sub_cancel]
    field_simp
    ring
  have hs := HasDerivAt.fun_sum (u := Finset.range 5) fun k _ => hp k
  have h := ((((hasDerivAt_const w (((Real.log (2 * Real.pi) / 2 : ℝ)) : ℂ)).sub (hasDerivAt_id w)).add h1).add hs)
  refine (h.congr_of_eventuallyEq (Eventually.of_forall fun v => by simp [logS])).congr_deriv ?_
  rw [dlogS]
  simp only [Finset.sum_range_succ, Finset.sum_range_zero, psiCoeff, stirling, List.getD_cons_zero, List.getD_cons_succ]
  push_cast
  field_simp
  ring

theorem dlogS_error (w : ℂ) (hw : 16 ≤ w.re) : ‖dlogS w - Complex.digamma w‖ ≤ 4 / (w.re - 1) := by
  set f : ℂ → ℂ := fun v => Complex.exp (logS 5 v) / Complex.Gamma v - 1 with hf
  have hE : ∀ v : ℂ, w.re - 1 ≤ v.re → ‖f v‖ ≤ 1 / (w.re - 1) * (1 / 4) := by
    intro v hv
    have h15 : 15 ≤ v.re := by linarith
    have hv0 : 0 < v.re := by linarith
    have h30 : 30 ≤ ‖2 * v + 1‖ := by
      refine le_trans ?_ ((le_abs_self _).trans (Complex.abs_re_le_norm _))
      simp
      linarith
    obtain ⟨E, hE, hb⟩ := stirling_error 5 88 (by norm_num) defect_five v hv0 h30
    have hb' : ‖E‖ ≤ 1 / (w.re - 1) * (1 / 8) := by
      refine hb.trans ?_
      rw [div_le_iff₀ (by positivity)]
      have h1 : (1 : ℝ) ≤ 1 / (w.re - 1) * v.re := by
        rw [one_div, inv_mul_eq_div, le_div_iff₀ (by linarith)]; linarith
      have h2 : (30 : ℝ) ^ (2 * 5) ≤ ‖2 * v + 1‖ ^ (2 * 5) := by gcongr
      calc (88 : ℝ) ≤ 1 * (1 / 8) * 4 * 30 ^ (2 * 5) := by norm_num
        _ ≤ (1 / (w.re - 1) * v.re) * (1 / 8) * 4 * ‖2 * v + 1‖ ^ (2 * 5) := by gcongr
        _ = _ := by ring
    have h1 : 1 / (w.re - 1) ≤ 1 := by
      rw [div_le_one (by linarith)]; linarith
    have hG := Complex.Gamma_ne_zero_of_re_pos hv0
    rw [hf]
    simp only
    rw [hE, mul_div_cancel_left₀ _ hG]
    refine (Complex.norm_exp_sub_one_le (by linarith)).trans ?_
    linarith
  have hdiff : ∀ v : ℂ, 0 < v.re → HasDerivAt f ((f v + 1) * (dlogS v - Complex.digamma v)) v := by
    intro v hv
    have hG := Complex.Gamma_ne_zero_of_re_pos hv
    have hGd : DifferentiableAt ℂ Complex.Gamma v := Complex.differentiableAt_Gamma v fun m hm => by
      rw [hm] at hv
      simp at hv
      have : (0 : ℝ) ≤ m := Nat.cast_nonneg m
      linarith
    have h := (((hasDerivAt_logS v hv).cexp).div hGd.hasDerivAt hG).sub_const 1
    refine h.congr_deriv ?_
    rw [hf, Complex.digamma_def, logDeriv_apply]
    field_simp
    ring
  have hw0 : 0 < w.re := by linarith
  have hball : ∀ v : ℂ, v ∈ Metric.closedBall w 1 → w.re - 1 ≤ v.re := by
    intro v hv
    have h1 := Complex.abs_re_le_norm (v - w)
    rw [← dist_eq_norm] at h1
    have h2 := Metric.mem_closedBall.mp hv
    have h3 := abs_le.mp (h1.trans h2)
    rw [Complex.sub_re] at h3
    linarith
  have hcl : DiffContOnCl ℂ f (Metric.ball w 1) := by
    refine DifferentiableOn.diffContOnCl fun v hv => ?_
    have := hball v (Metric.closure_ball_subset_closedBall hv)
    exact (hdiff v (by linarith)).differentiableAt.differentiableWithinAt
  have hc := Complex.norm_deriv_le_of_forall_mem_sphere_norm_le one_pos hcl
    fun v hv => hE v (hball v (Metric.sphere_subset_closedBall hv))
  rw [(hdiff w hw0).deriv, norm_mul, div_one] at hc
  have hfw := hE w (by linarith)
  have h1 : 1 / (w.re - 1) ≤ 1 := by
    rw [div_le_one (by linarith)]; linarith
  have hlow : 1 / 2 ≤ ‖f w + 1‖ := by
    have := norm_sub_norm_le (1 : ℂ) (-f w)
    rw [norm_one, norm_neg, sub_neg_eq_add, add_comm (1 : ℂ)] at this
    linarith
  have hpos : 0 < 1 / (w.re - 1) := by
    apply one_div_pos.mpr; linarith
  have h4 : 4 / (w.re - 1) = 4 * (1 / (w.re - 1)) := by ring
  rw [h4]
  have h5 : 1 / 2 * ‖dlogS w - Complex.digamma w‖ ≤ ‖f w + 1‖ * ‖dlogS w - Complex.digamma w‖ := by gcongr
  linarith

theorem tendsto_psi (w : ℂ) : Tendsto (fun n : ℕ => psiS (w + n) - Complex.digamma (w + n)) atTop (𝓝 0) := by
  have hinv : Tendsto (fun n : ℕ => (w + n)⁻¹) atTop (𝓝 0) := by
    have h := tendsto_inv_add (w - 1)
    refine h.congr fun n => ?_
    congr 1
    ring
  have h1 : Tendsto (fun n : ℕ => psiS (w + n) - dlogS (w + n)) atTop (𝓝 0) := by
    have h : Tendsto (fun n : ℕ => -(((psiCoeff.getD 5 0 : ℝ) : ℂ) * ((w + n)⁻¹) ^ 12 + ((psiCoeff.getD 6 0 : ℝ) : ℂ) * ((w + n)⁻¹) ^ 14
        + ((psiCoeff.getD 7 0 : ℝ) : ℂ) * ((w + n)⁻¹) ^ 16)) atTop
        (𝓝 (-(((psiCoeff.getD 5 0 : ℝ) : ℂ) * 0 ^ 12 + ((psiCoeff.getD 6 0 : ℝ) : ℂ) * 0 ^ 14
        + ((psiCoeff.getD 7 0 : ℝ) : ℂ) * 0 ^ 16))) :=
      ((((hinv.pow 12).const_mul _).add ((hinv.pow 14).const_mul _)).add ((hinv.pow 16).const_mul _)).neg
    norm_num at h
    refine h.congr fun n => ?_
    rw [psiS, dlogS]
    simp only [Finset.sum_range_succ, Finset.sum_range_zero]
    norm_num
    ring
  have h2 : Tendsto (fun n : ℕ => dlogS (w + n) - Complex.digamma (w + n)) atTop (𝓝 0) := by
    have hlim : Tendsto (fun n : ℕ => 4 / ((w.re + n) - 1)) atTop (𝓝 0) := by
      refine Tendsto.div_atTop tendsto_const_nhds ?_
      have : Tendsto (fun n : ℕ => (n : ℝ) + (w.re - 1)) atTop atTop :=
        tendsto_atTop_add_const_right _ _ tendsto_natCast_atTop_atTop
      exact this.congr fun n => by ring
    refine squeeze_zero_norm' ?_ hlim
    have hev : ∀ᶠ n : ℕ in atTop, 16 - w.re ≤ (n : ℝ) := tendsto_natCast_atTop_atTop.eventually_ge_atTop _
    filter_upwards [hev] with n hn
    have h := dlogS_error (w + n) (by simp; linarith)
    simpa using h
  have h := h1.add h2
  rw [add_zero] at h
  exact h.congr fun n => by ring

/-! ### The error -/

theorem psi_sum (w : ℂ) (hw : 0 < w.re) (M : ℕ) :
    psiS (w + M) - Complex.digamma (w + M) = psiS w - Complex.digamma w + ∑ n ∈ Finset.range M, psiDefect (w + n) := by
  induction M with
  | zero => simp
  | succ M ih =>
    have hM : (0 : ℝ) ≤ M := Nat.cast_nonneg M
    have hne : ∀ m : ℕ, w + M ≠ -m := by
      intro m h
      have := congrArg Complex.re h
      simp at this
      have hm : (0 : ℝ) ≤ m := Nat.cast_nonneg m
      linarith
    rw [Finset.sum_range_succ, ← add_assoc, ← ih, Nat.cast_succ, ← add_assoc, Complex.digamma_apply_add_one _ hne, psiDefect]
    ring

theorem psi_error (w : ℂ) (hw : 8 ≤ w.re) : ‖psiS w - Complex.digamma w‖ ≤ 1.2e-15 := by
  have hw0 : 0 < w.re := by linarith
  have hre : ∀ n : ℕ, (2 * (w + n) + 1).re = (2 * w.re + 1) + 2 * n := by
    intro n; simp; ring
  have hterm : ∀ n : ℕ, ‖psiDefect (w + n)‖ ≤ 3.15e7 / 17 ^ 17 * (1 / ((2 * w.re + 1) + 2 * n) ^ 2) := by
    intro n
    have hn : (0 : ℝ) ≤ n := Nat.cast_nonneg n
    have hpos : 0 < (2 * w.re + 1) + 2 * (n : ℝ) := by linarith
    have h2 : (2 * w.re + 1) + 2 * (n : ℝ) ≤ ‖2 * (w + n) + 1‖ := by
      rw [← hre]; exact (le_abs_self _).trans (Complex.abs_re_le_norm _)
    have h17 : 17 ≤ ‖2 * (w + n) + 1‖ := by linarith
    have h1 := psiDefect_bound (w + n) (by simp; linarith) (by
      rw [norm_inv, inv_le_comm₀ (by linarith) (by norm_num)]
      norm_num
      linarith)
    refine h1.trans ?_
    rw [norm_inv, inv_pow, show (19 : ℕ) = 17 + 2 from rfl, pow_add, mul_inv, ← mul_assoc, div_eq_mul_inv, one_div]
    gcongr
  have hpart : ∀ M : ℕ, ∑ n ∈ Finset.range M, ‖psiDefect (w + n)‖ ≤ 1.2e-15 := by
    intro M
    have hM : (0 : ℝ) ≤ M := Nat.cast_nonneg M
    refine (Finset.sum_le_sum fun n _ => hterm n).trans ?_
    rw [← Finset.mul_sum]
    have h1 := sum_inv_sq_le (2 * w.re + 1) (by linarith) M
    have h2 : 0 ≤ 1 / (2 * (2 * w.re + 1 + 2 * (M : ℝ) - 1)) := by
      apply one_div_nonneg.mpr; linarith
    have h3 : 1 / (2 * (2 * w.re + 1 - 1)) ≤ (1 : ℝ) / 32 := by
      apply one_div_le_one_div_of_le <;> linarith
    calc (3.15e7 : ℝ) / 17 ^ 17 * ∑ n ∈ Finset.range M, 1 / ((2 * w.re + 1) + 2 * (n : ℝ)) ^ 2
        ≤ 3.15e7 / 17 ^ 17 * (1 / 32) := by gcongr; linarith
      _ ≤ 1.2e-15 := by norm_num
  have hlim := (tendsto_psi w).norm
  rw [norm_zero] at hlim
  have hge : ∀ M : ℕ, ‖psiS w - Complex.digamma w‖ - 1.2e-15 ≤ ‖psiS (w + M) - Complex.digamma (w + M)‖ := by
    intro M
    have h := psi_sum w hw0 M
    have h1 := norm_sum_le (Finset.range M) fun n => psiDefect (w + n)
    have h2 : psiS w - Complex.digamma w = (psiS (w + M) - Complex.digamma (w + M)) - ∑ n ∈ Finset.range M, psiDefect (w + n) := by
      rw [h]; ring
    have h3 := norm_sub_le (psiS (w + M) - Complex.digamma (w + M)) (∑ n ∈ Finset.range M, psiDefect (w + n))
    rw [← h2] at h3
    linarith [hpart M]
  have := ge_of_tendsto' hlim hge
  linarith

end Microjax.Props
