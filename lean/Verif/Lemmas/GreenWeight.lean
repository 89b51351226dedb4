import Verif.Lemmas.ContourGreen
import Mathlib.Topology.ContinuousMap.StoneWeierstrass
import Mathlib.Algebra.MvPolynomial.Eval
import Mathlib.Topology.Algebra.MvPolynomial
import Mathlib.MeasureTheory.Integral.DominatedConvergence
import Mathlib.Analysis.SpecialFunctions.Integrals.Basic

/-!
# Green's theorem with a weight

The integral of a continuous function over the image of a disc as the contour integral of its Green primitives.
-/

noncomputable section

namespace Microjax.Props

open Complex ComplexConjugate MeasureTheory Set Filter Microjax.Spec
open scoped Topology

/-- The form `P dx + Q dy` pulled back. -/
def pullForm (P Q : ℂ → ℝ) (G : ℝ × ℝ → ℂ) (v p : ℝ × ℝ) : ℝ :=
  P (G p) * (fderiv ℝ G p v).re + Q (G p) * (fderiv ℝ G p v).im

theorem pullForm_deriv (P Q : ℂ → ℝ) (hP : ContDiff ℝ 1 P) (hQ : ContDiff ℝ 1 Q) (G : ℝ × ℝ → ℂ) (p v : ℝ × ℝ)
    (hG : ContDiffAt ℝ 2 G p) : ContDiffAt ℝ 1 (pullForm P Q G v) p ∧
    ∀ u, fderiv ℝ (pullForm P Q G v) p u
      = fderiv ℝ P (G p) (fderiv ℝ G p u) * (fderiv ℝ G p v).re + P (G p) * (fderiv ℝ (fderiv ℝ G) p u v).re
        + (fderiv ℝ Q (G p) (fderiv ℝ G p u) * (fderiv ℝ G p v).im + Q (G p) * (fderiv ℝ (fderiv ℝ G) p u v).im) := by
  have h1 : ContDiffAt ℝ 1 (fderiv ℝ G) p := hG.fderiv_right (by norm_num)
  have h2 : ContDiffAt ℝ 1 (fun p => fderiv ℝ G p v) p := h1.clm_apply contDiffAt_const
  have hGp : ContDiffAt ℝ 1 G p := hG.of_le (by norm_num)
  have hPG : ContDiffAt ℝ 1 (fun p => P (G p)) p := hP.contDiffAt.comp p hGp
  have hQG : ContDiffAt ℝ 1 (fun p => Q (G p)) p := hQ.contDiffAt.comp p hGp
  have hre : ContDiffAt ℝ 1 (fun p => (fderiv ℝ G p v).re) p :=
    (reCLM.contDiff.contDiffAt (x := fderiv ℝ G p v)).comp p h2
  have him : ContDiffAt ℝ 1 (fun p => (fderiv ℝ G p v).im) p :=
    (imCLM.contDiff.contDiffAt (x := fderiv ℝ G p v)).comp p h2
  refine ⟨(hPG.mul hre).add (hQG.mul him), fun u => ?_⟩
  have d1 : HasFDerivAt G (fderiv ℝ G p) p := (hG.differentiableAt (by norm_num)).hasFDerivAt
  have d2 : HasFDerivAt (fderiv ℝ G) (fderiv ℝ (fderiv ℝ G) p) p := (h1.differentiableAt (by norm_num)).hasFDerivAt
  have d3 : HasFDerivAt (fun p => fderiv ℝ G p v) ((ContinuousLinearMap.apply ℝ ℂ v).comp (fderiv ℝ (fderiv ℝ G) p)) p :=
    (ContinuousLinearMap.apply ℝ ℂ v).hasFDerivAt.comp p d2
  have dre := reCLM.hasFDerivAt.comp p d3
  have dim := imCLM.hasFDerivAt.comp p d3
  have dP : HasFDerivAt (fun p => P (G p)) ((fderiv ℝ P (G p)).comp (fderiv ℝ G p)) p :=
    HasFDerivAt.comp (g := P) p (hP.differentiable one_ne_zero _).hasFDerivAt d1
  have dQ : HasFDerivAt (fun p => Q (G p)) ((fderiv ℝ Q (G p)).comp (fderiv ℝ G p)) p :=
    HasFDerivAt.comp (g := Q) p (hQ.differentiable one_ne_zero _).hasFDerivAt d1
  have d6 : fderiv ℝ (pullForm P Q G v) p = _ := ((dP.mul dre).add (dQ.mul dim)).fderiv
  rw [d6]
  simp
  ring

/-- The exterior derivative of `P dx + Q dy` at `z`. -/
def curl (P Q : ℂ → ℝ) (z : ℂ) : ℝ := fderiv ℝ Q z 1 - fderiv ℝ P z I

theorem curl_pull (P Q : ℂ → ℝ) (z a b : ℂ) :
    fderiv ℝ P z a * b.re + fderiv ℝ Q z a * b.im - (fderiv ℝ P z b * a.re + fderiv ℝ Q z b * a.im)
      = curl P Q z * (conj a * b).im := by
  have h : ∀ (A : ℂ →L[ℝ] ℝ) (u : ℂ), A u = u.re * A 1 + u.im * A I := by
    intro A u
    conv_lhs => rw [← re_add_im u, show (u.re : ℂ) + u.im * I = u.re • (1 : ℂ) + u.im • I by simp]
    rw [map_add, map_smul, map_smul]
    simp
  unfold curl
  rw [h (fderiv ℝ P z) a, h (fderiv ℝ P z) b, h (fderiv ℝ Q z) a, h (fderiv ℝ Q z) b]
  simp
  ring

/-- Green's theorem for a form along the image of a circle. -/
theorem green_form (P Q : ℂ → ℝ) (hP : ContDiff ℝ 1 P) (hQ : ContDiff ℝ 1 Q) (g : ℂ → ℂ) (w : ℂ) (r R : ℝ) (hr : 0 < r)
    (hrR : r < R) (hg : ∀ y ∈ Metric.ball w R, ContDiffAt ℝ 2 g y) :
    ∫ θ in (-Real.pi)..Real.pi, (P (g (polarAt w (r, θ))) * (deriv (fun t : ℝ => g (polarAt w (r, t))) θ).re
        + Q (g (polarAt w (r, θ))) * (deriv (fun t : ℝ => g (polarAt w (r, t))) θ).im)
      = ∫ y in Metric.ball w r, curl P Q (g y) * (fderiv ℝ g y).det := by
  have hp := Real.pi_pos
  set G : ℝ × ℝ → ℂ := fun p => g (polarAt w p) with hG
  have hsm : ∀ p : ℝ × ℝ, |p.1| < R → ContDiffAt ℝ 2 G p := fun p hp =>
    ContDiffAt.comp (g := g) p (hg _ (polarAt_mem w R p hp)) (contDiff_polarAt w).contDiffAt
  have hfd : ∀ p : ℝ × ℝ, |p.1| < R → ∀ v, fderiv ℝ G p v = fderiv ℝ g (polarAt w p) (fderiv ℝ (polarAt w) p v) := by
    intro p hp v
    have h1 : HasFDerivAt G ((fderiv ℝ g (polarAt w p)).comp (fderiv ℝ (polarAt w) p)) p :=
      HasFDerivAt.comp (g := g) p ((hg _ (polarAt_mem w R p hp)).differentiableAt (by norm_num)).hasFDerivAt
        ((contDiff_polarAt w).differentiable (by norm_num) p).hasFDerivAt
    rw [h1.fderiv]; rfl
  have hrect : ∀ p : ℝ × ℝ, p ∈ uIcc (0 : ℝ) r ×ˢ uIcc (-Real.pi) Real.pi → |p.1| < R := by
    intro p hp
    rw [uIcc_of_le hr.le] at hp
    rw [abs_of_nonneg hp.1.1]; exact hp.1.2.trans_lt hrR
  have hrect' : ∀ p : ℝ × ℝ, p ∈ Ioo (min 0 r) (max 0 r) ×ˢ Ioo (min (-Real.pi) Real.pi) (max (-Real.pi) Real.pi) → |p.1| < R := by
    intro p hp
    rw [min_eq_left hr.le, max_eq_right hr.le] at hp
    rw [abs_of_pos hp.1.1]; exact hp.1.2.trans hrR
  -- the divergence
  have hdiv : ∀ p : ℝ × ℝ, |p.1| < R → fderiv ℝ (pullForm P Q G (0, 1)) p (1, 0) + (-fderiv ℝ (pullForm P Q G (1, 0)) p) (0, 1)
      = p.1 * (curl P Q (g (polarAt w p)) * (fderiv ℝ g (polarAt w p)).det) := by
    intro p hp
    have hsym : fderiv ℝ (fderiv ℝ G) p (1, 0) (0, 1) = fderiv ℝ (fderiv ℝ G) p (0, 1) (1, 0) :=
      ((hsm p hp).isSymmSndFDerivAt (by simp)).eq (1, 0) (0, 1)
    have hc := curl_pull P Q (G p) (fderiv ℝ G p (1, 0)) (fderiv ℝ G p (0, 1))
    have e1 : (conj (fderiv ℝ G p (1, 0)) * fderiv ℝ G p (0, 1)).im = p.1 * (fderiv ℝ g (polarAt w p)).det := by
      rw [hfd p hp, hfd p hp, cross_complex, (fderiv_polarAt w p).1, (fderiv_polarAt w p).2]
      have : conj (exp (p.2 * I)) * (p.1 * exp (p.2 * I) * I) = p.1 * (conj (exp (p.2 * I)) * exp (p.2 * I)) * I := by ring
      rw [this, conj_mul', norm_exp_ofReal_mul_I]; simp [mul_comm]
    rw [e1] at hc
    rw [neg_apply, (pullForm_deriv P Q hP hQ G p _ (hsm p hp)).2, (pullForm_deriv P Q hP hQ G p _ (hsm p hp)).2, hsym]
    have hGp : G p = g (polarAt w p) := rfl
    rw [← hGp]
    linarith
  have hcc : Continuous (curl P Q) := by
    unfold curl
    exact ((hQ.continuous_fderiv one_ne_zero).clm_apply continuous_const).sub
      ((hP.continuous_fderiv one_ne_zero).clm_apply continuous_const)
  have hdc : ContinuousOn (fun y => curl P Q (g y) * (fderiv ℝ g y).det) (Metric.ball w R) := by
    intro y hy
    have h1 : ContinuousAt (fderiv ℝ g) y := ((hg y hy).fderiv_right (m := 1) (by norm_num)).continuousAt
    have h2 : (fun y => (fderiv ℝ g y).det) = fun y => (conj (fderiv ℝ g y 1) * fderiv ℝ g y I).im := by
      ext y; exact det_complex _
    have h3 : ∀ v : ℂ, ContinuousAt (fun y => fderiv ℝ g y v) y := fun v => h1.clm_apply continuousAt_const
    have h4 : ContinuousAt (fun y => (fderiv ℝ g y).det) y := by
      rw [h2]
      exact continuous_im.continuousAt.comp (((continuous_conj.continuousAt).comp (h3 1)).mul (h3 I))
    have h5 : ContinuousAt (fun y => curl P Q (g y)) y :=
      ContinuousAt.comp (g := curl P Q) hcc.continuousAt (hg y hy).continuousAt
    exact (h5.mul h4).continuousWithinAt
  have hgreen := integral2_divergence_prod_of_hasFDerivAt (pullForm P Q G (0, 1)) (fun p => -pullForm P Q G (1, 0) p)
    (fun p => fderiv ℝ (pullForm P Q G (0, 1)) p) (fun p => -fderiv ℝ (pullForm P Q G (1, 0)) p) 0 (-Real.pi) r Real.pi
    (fun p hp => (pullForm_deriv P Q hP hQ G p _ (hsm p (hrect p hp))).1.continuousAt.continuousWithinAt)
    (fun p hp => (pullForm_deriv P Q hP hQ G p _ (hsm p (hrect p hp))).1.continuousAt.neg.continuousWithinAt)
    (fun p hp => ((pullForm_deriv P Q hP hQ G p _ (hsm p (hrect' p hp))).1.differentiableAt (by norm_num)).hasFDerivAt)
    (fun p hp => ((pullForm_deriv P Q hP hQ G p _ (hsm p (hrect' p hp))).1.differentiableAt (by norm_num)).hasFDerivAt.neg)
    (by
      have hc : ContinuousOn (fun p : ℝ × ℝ => p.1 * (curl P Q (g (polarAt w p)) * (fderiv ℝ g (polarAt w p)).det))
          (uIcc (0 : ℝ) r ×ˢ uIcc (-Real.pi) Real.pi) :=
        continuous_fst.continuousOn.mul
          (hdc.comp (contDiff_polarAt w).continuous.continuousOn fun p hp => polarAt_mem w R p (hrect p hp))
      have hc' := hc.congr fun p hp => hdiv p (hrect p hp)
      exact hc'.integrableOn_compact (isCompact_uIcc.prod isCompact_uIcc))
  -- the boundary terms
  have hper : ∀ ρ : ℝ, |ρ| < R → pullForm P Q G (1, 0) (ρ, Real.pi) = pullForm P Q G (1, 0) (ρ, -Real.pi) := by
    intro ρ hρ
    have e : polarAt w (ρ, Real.pi) = polarAt w (ρ, -Real.pi) := by
      simp only [polarAt]
      congr 2
      rw [exp_eq_exp_iff_exists_int]
      exact ⟨1, by push_cast; ring⟩
    have e' : exp ((Real.pi : ℂ) * I) = exp (((-Real.pi : ℝ) : ℂ) * I) := by
      rw [exp_eq_exp_iff_exists_int]
      exact ⟨1, by push_cast; ring⟩
    unfold pullForm
    rw [hfd _ hρ, hfd _ hρ, (fderiv_polarAt w _).1, (fderiv_polarAt w _).1, hG]
    simp only [e, e']
  have hzero : ∀ θ : ℝ, pullForm P Q G (0, 1) (0, θ) = 0 := by
    intro θ
    unfold pullForm
    rw [hfd _ (by simpa using hr.trans hrR), (fderiv_polarAt w _).2]
    simp
  have hder : ∀ θ : ℝ, pullForm P Q G (0, 1) (r, θ)
      = P (g (polarAt w (r, θ))) * (deriv (fun t : ℝ => g (polarAt w (r, t))) θ).re
        + Q (g (polarAt w (r, θ))) * (deriv (fun t : ℝ => g (polarAt w (r, t))) θ).im := by
    intro θ
    have hr' : |r| < R := by rw [abs_of_pos hr]; exact hrR
    have hd : HasFDerivAt G (fderiv ℝ G (r, θ)) (r, θ) := ((hsm (r, θ) hr').differentiableAt (by norm_num)).hasFDerivAt
    have hl : HasDerivAt (fun t : ℝ => ((r, t) : ℝ × ℝ)) (0, 1) θ := (hasDerivAt_const θ r).prodMk (hasDerivAt_id θ)
    have h1 := HasFDerivAt.comp_hasDerivAt (f := fun t : ℝ => ((r, t) : ℝ × ℝ)) θ hd hl
    have h2 : deriv (fun t : ℝ => g (polarAt w (r, t))) θ = fderiv ℝ G (r, θ) (0, 1) := h1.deriv
    rw [h2]; rfl
  have hleft : (∫ x in (0 : ℝ)..r, ∫ y in (-Real.pi)..Real.pi, fderiv ℝ (pullForm P Q G (0, 1)) (x, y) (1, 0)
      + (-fderiv ℝ (pullForm P Q G (1, 0)) (x, y)) (0, 1)) = ∫ y in Metric.ball w r, curl P Q (g y) * (fderiv ℝ g y).det := by
    rw [integral_disc_polar w r hr _ (hdc.mono (Metric.closedBall_subset_ball hrR))]
    refine intervalIntegral.integral_congr fun ρ hρ => ?_
    rw [uIcc_of_le hr.le] at hρ
    refine intervalIntegral.integral_congr fun θ _ => ?_
    exact hdiv (ρ, θ) (by rw [abs_of_nonneg hρ.1]; exact hρ.2.trans_lt hrR)
  rw [hleft] at hgreen
  rw [hgreen]
  have e1 : (∫ x in (0 : ℝ)..r, -pullForm P Q G (1, 0) (x, Real.pi)) = ∫ x in (0 : ℝ)..r, -pullForm P Q G (1, 0) (x, -Real.pi) := by
    refine intervalIntegral.integral_congr fun ρ hρ => ?_
    rw [uIcc_of_le hr.le] at hρ
    rw [hper ρ (by rw [abs_of_nonneg hρ.1]; exact hρ.2.trans_lt hrR)]
  rw [e1, sub_self, zero_add]
  simp only [hzero, intervalIntegral.integral_zero, sub_zero, hder]

/-- The primitive `-½ ∫ B dy` along the vertical line from the height of the base point. -/
def greenP (B : ℂ → ℝ) (o : ℝ × ℝ) (z : ℂ) : ℝ := -(1 / 2) * ∫ y in o.2..z.im, B (z.re + I * y)

/-- The primitive `½ ∫ B dx` along the horizontal line from the abscissa of the base point. -/
def greenQ (B : ℂ → ℝ) (o : ℝ × ℝ) (z : ℂ) : ℝ := (1 / 2) * ∫ x in o.1..z.re, B (x + I * z.im)

theorem continuous_greenP (B : ℂ → ℝ) (hB : Continuous B) (o : ℝ × ℝ) : Continuous (greenP B o) := by
  unfold greenP
  refine continuous_const.mul ?_
  refine intervalIntegral.continuous_parametric_intervalIntegral_of_continuous (f := fun (z : ℂ) (y : ℝ) => B (z.re + I * y)) ?_
    continuous_im
  show Continuous fun q : ℂ × ℝ => B ((q.1.re : ℂ) + I * q.2)
  fun_prop

theorem continuous_greenQ (B : ℂ → ℝ) (hB : Continuous B) (o : ℝ × ℝ) : Continuous (greenQ B o) := by
  unfold greenQ
  refine continuous_const.mul ?_
  refine intervalIntegral.continuous_parametric_intervalIntegral_of_continuous (f := fun (z : ℂ) (x : ℝ) => B (x + I * z.im)) ?_
    continuous_re
  show Continuous fun q : ℂ × ℝ => B ((q.2 : ℂ) + I * q.1.im)
  fun_prop

/-- The primitives have the weight as their exterior derivative. -/
theorem curl_green (B : ℂ → ℝ) (hB : Continuous B) (o : ℝ × ℝ) (hP : ContDiff ℝ 1 (greenP B o)) (hQ : ContDiff ℝ 1 (greenQ B o))
    (z : ℂ) : curl (greenP B o) (greenQ B o) z = B z := by
  have hz : (z.re : ℂ) + I * z.im = z := by rw [mul_comm]; exact re_add_im z
  have e1 : fderiv ℝ (greenQ B o) z 1 = (1 / 2) * B z := by
    have hl : HasDerivAt (fun t : ℝ => z + ((t : ℂ) - z.re)) 1 z.re := by
      have := ((ofRealCLM.hasDerivAt (x := z.re)).sub_const (z.re : ℂ)).const_add z
      simpa using this
    have hd : HasFDerivAt (greenQ B o) (fderiv ℝ (greenQ B o) z) (z + ((z.re : ℂ) - z.re)) := by
      rw [sub_self, add_zero]
      exact (hQ.differentiable one_ne_zero z).hasFDerivAt
    have h1 := HasFDerivAt.comp_hasDerivAt (f := fun t : ℝ => z + ((t : ℂ) - z.re)) z.re hd hl
    have h2 : HasDerivAt (fun t : ℝ => (1 / 2) * ∫ x in o.1..t, B (x + I * z.im)) ((1 / 2) * B (z.re + I * z.im)) z.re := by
      have hc : Continuous fun x : ℝ => B ((x : ℂ) + I * z.im) := by fun_prop
      exact (intervalIntegral.integral_hasDerivAt_right (hc.intervalIntegrable _ _)
        (hc.stronglyMeasurableAtFilter _ _) hc.continuousAt).const_mul _
    have e : (greenQ B o ∘ fun t : ℝ => z + ((t : ℂ) - z.re)) = fun t : ℝ => (1 / 2) * ∫ x in o.1..t, B (x + I * z.im) := by
      funext t
      simp [greenQ]
    rw [e] at h1
    rw [h1.unique h2, hz]
  have e2 : fderiv ℝ (greenP B o) z I = -(1 / 2) * B z := by
    have hl : HasDerivAt (fun t : ℝ => z + ((t : ℂ) - z.im) * I) I z.im := by
      have := (((ofRealCLM.hasDerivAt (x := z.im)).sub_const (z.im : ℂ)).mul_const I).const_add z
      simpa using this
    have hd : HasFDerivAt (greenP B o) (fderiv ℝ (greenP B o) z) (z + ((z.im : ℂ) - z.im) * I) := by
      rw [sub_self, zero_mul, add_zero]
      exact (hP.differentiable one_ne_zero z).hasFDerivAt
    have h1 := HasFDerivAt.comp_hasDerivAt (f := fun t : ℝ => z + ((t : ℂ) - z.im) * I) z.im hd hl
    have h2 : HasDerivAt (fun t : ℝ => -(1 / 2) * ∫ y in o.2..t, B (z.re + I * y)) (-(1 / 2) * B (z.re + I * z.im)) z.im := by
      have hc : Continuous fun y : ℝ => B ((z.re : ℂ) + I * y) := by fun_prop
      exact (intervalIntegral.integral_hasDerivAt_right (hc.intervalIntegrable _ _)
        (hc.stronglyMeasurableAtFilter _ _) hc.continuousAt).const_mul _
    have e : (greenP B o ∘ fun t : ℝ => z + ((t : ℂ) - z.im) * I) = fun t : ℝ => -(1 / 2) * ∫ y in o.2..t, B (z.re + I * y) := by
      funext t
      simp [greenP]
    rw [e] at h1
    rw [h1.unique h2, hz]
  unfold curl
  rw [e1, e2]
  ring

/-- Polynomials of the coordinates. -/
def polyFn (p : MvPolynomial (Fin 2) ℝ) (z : ℂ) : ℝ := MvPolynomial.eval ![z.re, z.im] p

theorem continuous_polyFn (p : MvPolynomial (Fin 2) ℝ) : Continuous (polyFn p) := by
  unfold polyFn
  refine (MvPolynomial.continuous_eval p).comp ?_
  rw [continuous_pi_iff]
  intro i
  fin_cases i
  · exact continuous_re
  · exact continuous_im

theorem polyFn_add (p q : MvPolynomial (Fin 2) ℝ) (z : ℂ) : polyFn (p + q) z = polyFn p z + polyFn q z := by
  simp [polyFn]

theorem polyFn_monomial (s : Fin 2 →₀ ℕ) (a : ℝ) (z : ℂ) :
    polyFn (MvPolynomial.monomial s a) z = a * (z.re ^ s 0 * z.im ^ s 1) := by
  unfold polyFn
  rw [MvPolynomial.eval_monomial, Finsupp.prod_fintype _ _ (by simp), Fin.prod_univ_two]
  rfl

theorem contDiff_re' : ContDiff ℝ 1 fun z : ℂ => z.re := reCLM.contDiff
theorem contDiff_im' : ContDiff ℝ 1 fun z : ℂ => z.im := imCLM.contDiff

theorem contDiff_green_poly (o : ℝ × ℝ) (p : MvPolynomial (Fin 2) ℝ) :
    ContDiff ℝ 1 (greenP (polyFn p) o) ∧ ContDiff ℝ 1 (greenQ (polyFn p) o) := by
  induction p using MvPolynomial.induction_on' with
  | monomial s a =>
    constructor
    · have e : greenP (polyFn (MvPolynomial.monomial s a)) o = fun z : ℂ =>
          -(1 / 2) * (a * (z.re ^ s 0 * ((z.im ^ (s 1 + 1) - o.2 ^ (s 1 + 1)) / ((s 1 : ℝ) + 1)))) := by
        funext z
        unfold greenP
        simp only [polyFn_monomial]
        rw [intervalIntegral.integral_const_mul]
        simp only [add_re, ofReal_re, mul_re, I_re, zero_mul, I_im, one_mul, ofReal_im, mul_zero, sub_zero, add_zero, add_im,
          mul_im, zero_add]
        rw [intervalIntegral.integral_const_mul, integral_pow]
      rw [e]
      exact contDiff_const.mul (contDiff_const.mul ((contDiff_re'.pow _).mul (((contDiff_im'.pow _).sub contDiff_const).div_const _)))
    · have e : greenQ (polyFn (MvPolynomial.monomial s a)) o = fun z : ℂ =>
          (1 / 2) * (a * (((z.re ^ (s 0 + 1) - o.1 ^ (s 0 + 1)) / ((s 0 : ℝ) + 1)) * z.im ^ s 1)) := by
        funext z
        unfold greenQ
        simp only [polyFn_monomial]
        rw [intervalIntegral.integral_const_mul]
        simp only [add_re, ofReal_re, mul_re, I_re, zero_mul, I_im, one_mul, ofReal_im, mul_zero, sub_zero, add_zero, add_im,
          mul_im, zero_add]
        rw [intervalIntegral.integral_mul_const, integral_pow]
      rw [e]
      exact contDiff_const.mul (contDiff_const.mul ((((contDiff_re'.pow _).sub contDiff_const).div_const _).mul (contDiff_im'.pow _)))
  | add p q hp hq =>
    constructor
    · have e : greenP (polyFn (p + q)) o = fun z => greenP (polyFn p) o z + greenP (polyFn q) o z := by
        funext z
        unfold greenP
        simp only [polyFn_add]
        rw [intervalIntegral.integral_add]
        · ring
        · exact Continuous.intervalIntegrable (by have := continuous_polyFn p; fun_prop) _ _
        · exact Continuous.intervalIntegrable (by have := continuous_polyFn q; fun_prop) _ _
      rw [e]; exact hp.1.add hq.1
    · have e : greenQ (polyFn (p + q)) o = fun z => greenQ (polyFn p) o z + greenQ (polyFn q) o z := by
        funext z
        unfold greenQ
        simp only [polyFn_add]
        rw [intervalIntegral.integral_add]
        · ring
        · exact Continuous.intervalIntegrable (by have := continuous_polyFn p; fun_prop) _ _
        · exact Continuous.intervalIntegrable (by have := continuous_polyFn q; fun_prop) _ _
      rw [e]; exact hp.2.add hq.2

/-- Continuous functions are uniform limits of polynomials on discs. -/
theorem exists_poly_near (B : ℂ → ℝ) (hB : Continuous B) (Y ε : ℝ) (hε : 0 < ε) :
    ∃ p : MvPolynomial (Fin 2) ℝ, ∀ z, ‖z‖ ≤ Y → |B z - polyFn p z| ≤ ε := by
  set K : Set ℂ := Metric.closedBall 0 Y with hK
  have hKc : CompactSpace K := isCompact_iff_compactSpace.mp (isCompact_closedBall 0 Y)
  set x : C(K, ℝ) := ⟨fun z => (z : ℂ).re, by fun_prop⟩ with hx
  set y : C(K, ℝ) := ⟨fun z => (z : ℂ).im, by fun_prop⟩ with hy
  set A : Subalgebra ℝ C(K, ℝ) := (MvPolynomial.aeval (![x, y] : Fin 2 → C(K, ℝ))).range with hA
  have hsep : A.SeparatesPoints := by
    intro a b hab
    by_cases hre : (a : ℂ).re = (b : ℂ).re
    · refine ⟨_, ⟨y, ⟨MvPolynomial.X 1, by simp⟩, rfl⟩, fun h => hab ?_⟩
      exact Subtype.ext (Complex.ext hre h)
    · exact ⟨_, ⟨x, ⟨MvPolynomial.X 0, by simp⟩, rfl⟩, hre⟩
  obtain ⟨⟨f, p, hp⟩, hf⟩ := ContinuousMap.exists_mem_subalgebra_near_continuous_of_separatesPoints A hsep
    (fun z : K => B z) (by fun_prop) ε hε
  refine ⟨p, fun z hz => ?_⟩
  have h := hf ⟨z, by simpa [hK] using hz⟩
  have e : ∀ (p : MvPolynomial (Fin 2) ℝ) (z : K), (MvPolynomial.aeval (![x, y] : Fin 2 → C(K, ℝ)) p) z = polyFn p z := by
    intro p z
    unfold polyFn
    induction p using MvPolynomial.induction_on with
    | C a => simp
    | add p q hp hq => simp only [map_add, ContinuousMap.add_apply, hp, hq]
    | mul_X p i hp =>
      simp only [map_mul, ContinuousMap.mul_apply, hp, MvPolynomial.aeval_X, MvPolynomial.eval_X]
      fin_cases i <;> simp [hx, hy]
  simp only at h
  have hp' : MvPolynomial.aeval (![x, y] : Fin 2 → C(K, ℝ)) p = f := hp
  rw [← hp', e] at h
  rw [abs_sub_comm, ← Real.norm_eq_abs]
  exact h.le

/-- The primitives depend continuously on the weight. -/
theorem greenP_near (B C : ℂ → ℝ) (hB : Continuous B) (hC : Continuous C) (o : ℝ × ℝ) (z : ℂ) (Y ε : ℝ) (hz : ‖z‖ ≤ Y)
    (ho : |o.2| ≤ Y) (h : ∀ z, ‖z‖ ≤ 2 * Y → |B z - C z| ≤ ε) : |greenP B o z - greenP C o z| ≤ ε * Y := by
  have hc : ∀ F : ℂ → ℝ, Continuous F → IntervalIntegrable (fun y : ℝ => F ((z.re : ℂ) + I * y)) volume o.2 z.im := fun F hF =>
    Continuous.intervalIntegrable (by fun_prop) _ _
  have hzr := (abs_re_le_norm z).trans hz
  have hzi := (abs_im_le_norm z).trans hz
  have hε : 0 ≤ ε := (abs_nonneg _).trans (h 0 (by rw [norm_zero]; linarith [abs_nonneg o.2]))
  unfold greenP
  rw [← mul_sub, ← intervalIntegral.integral_sub (hc B hB) (hc C hC), abs_mul]
  have h1 : ‖∫ y in o.2..z.im, (B (z.re + I * y) - C (z.re + I * y))‖ ≤ ε * |z.im - o.2| := by
    refine intervalIntegral.norm_integral_le_of_norm_le_const fun y hy => ?_
    rw [Real.norm_eq_abs]
    refine h _ ((norm_add_le _ _).trans ?_)
    rw [norm_mul, norm_I, one_mul, norm_real, norm_real, Real.norm_eq_abs, Real.norm_eq_abs]
    have hy' : |y| ≤ Y := by
      have := uIoc_subset_uIcc hy
      rw [abs_le] at ho hzi ⊢
      rcases le_total o.2 z.im with h | h
      · rw [uIcc_of_le h] at this; exact ⟨by linarith [this.1], by linarith [this.2]⟩
      · rw [uIcc_of_ge h] at this; exact ⟨by linarith [this.1], by linarith [this.2]⟩
    linarith
  rw [Real.norm_eq_abs] at h1
  have h2 : |z.im - o.2| ≤ 2 * Y := by
    have := abs_sub z.im o.2
    linarith
  have h3 := mul_le_mul_of_nonneg_left h2 hε
  rw [abs_neg, abs_of_pos (by norm_num : (0 : ℝ) < 1 / 2)]
  linarith

theorem greenQ_near (B C : ℂ → ℝ) (hB : Continuous B) (hC : Continuous C) (o : ℝ × ℝ) (z : ℂ) (Y ε : ℝ) (hz : ‖z‖ ≤ Y)
    (ho : |o.1| ≤ Y) (h : ∀ z, ‖z‖ ≤ 2 * Y → |B z - C z| ≤ ε) : |greenQ B o z - greenQ C o z| ≤ ε * Y := by
  have hc : ∀ F : ℂ → ℝ, Continuous F → IntervalIntegrable (fun x : ℝ => F ((x : ℂ) + I * z.im)) volume o.1 z.re := fun F hF =>
    Continuous.intervalIntegrable (by fun_prop) _ _
  have hzr := (abs_re_le_norm z).trans hz
  have hzi := (abs_im_le_norm z).trans hz
  have hε : 0 ≤ ε := (abs_nonneg _).trans (h 0 (by rw [norm_zero]; linarith [abs_nonneg o.1]))
  unfold greenQ
  rw [← mul_sub, ← intervalIntegral.integral_sub (hc B hB) (hc C hC), abs_mul]
  have h1 : ‖∫ x in o.1..z.re, (B (x + I * z.im) - C (x + I * z.im))‖ ≤ ε * |z.re - o.1| := by
    refine intervalIntegral.norm_integral_le_of_norm_le_const fun x hx => ?_
    rw [Real.norm_eq_abs]
    refine h _ ((norm_add_le _ _).trans ?_)
    rw [norm_mul, norm_I, one_mul, norm_real, norm_real, Real.norm_eq_abs, Real.norm_eq_abs]
    have hx' : |x| ≤ Y := by
      have := uIoc_subset_uIcc hx
      rw [abs_le] at ho hzr ⊢
      rcases le_total o.1 z.re with h | h
      · rw [uIcc_of_le h] at this; exact ⟨by linarith [this.1], by linarith [this.2]⟩
      · rw [uIcc_of_ge h] at this; exact ⟨by linarith [this.1], by linarith [this.2]⟩
    linarith
  rw [Real.norm_eq_abs] at h1
  have h2 : |z.re - o.1| ≤ 2 * Y := by
    have := abs_sub z.re o.1
    linarith
  have h3 := mul_le_mul_of_nonneg_left h2 hε
  rw [abs_of_pos (by norm_num : (0 : ℝ) < 1 / 2)]
  linarith

/-- Green's theorem with a continuous weight: the contour integral of the primitives along the image of the circle. -/
theorem green_weight (B : ℂ → ℝ) (hB : Continuous B) (o : ℝ × ℝ) (g : ℂ → ℂ) (w : ℂ) (r R : ℝ) (hr : 0 < r) (hrR : r < R)
    (hg : ∀ y ∈ Metric.ball w R, ContDiffAt ℝ 2 g y) :
    ∫ θ in (-Real.pi)..Real.pi, (greenP B o (g (polarAt w (r, θ))) * (deriv (fun t : ℝ => g (polarAt w (r, t))) θ).re
        + greenQ B o (g (polarAt w (r, θ))) * (deriv (fun t : ℝ => g (polarAt w (r, t))) θ).im)
      = ∫ y in Metric.ball w r, B (g y) * (fderiv ℝ g y).det := by
  have hpi := Real.pi_pos
  have hcb : Metric.closedBall w r ⊆ Metric.ball w R := Metric.closedBall_subset_ball hrR
  have hgc : ContinuousOn g (Metric.closedBall w r) := fun y hy => (hg y (hcb hy)).continuousAt.continuousWithinAt
  set z : ℝ → ℂ := fun t : ℝ => g (polarAt w (r, t)) with hz
  have hmem : ∀ t : ℝ, polarAt w (r, t) ∈ Metric.ball w R := fun t => polarAt_mem w R _ (by simpa [abs_of_pos hr] using hrR)
  have hmem' : ∀ t : ℝ, polarAt w (r, t) ∈ Metric.closedBall w r := fun t => by
    rw [Metric.mem_closedBall, dist_eq_norm, polarAt, add_sub_cancel_left, norm_mul, norm_exp_ofReal_mul_I, mul_one, norm_real]
    simp [abs_of_pos hr]
  have hzd : ContDiff ℝ 1 z := by
    rw [contDiff_iff_contDiffAt]
    intro t
    have h2 : ContDiffAt ℝ 2 (fun t : ℝ => polarAt w (r, t)) t :=
      ((contDiff_polarAt w).comp (contDiff_const.prodMk contDiff_id)).contDiffAt
    exact ((hg _ (hmem t)).comp t h2).of_le (by norm_num)
  have hz' : Continuous (deriv z) := hzd.continuous_deriv le_rfl
  have hdc : ContinuousOn (fun y => (fderiv ℝ g y).det) (Metric.closedBall w r) := by
    intro y hy
    have h1 : ContinuousAt (fderiv ℝ g) y := ((hg y (hcb hy)).fderiv_right (m := 1) (by norm_num)).continuousAt
    have h2 : (fun y => (fderiv ℝ g y).det) = fun y => (conj (fderiv ℝ g y 1) * fderiv ℝ g y I).im := by
      ext y; exact det_complex _
    have h3 : ∀ v : ℂ, ContinuousAt (fun y => fderiv ℝ g y v) y := fun v => h1.clm_apply continuousAt_const
    rw [h2]
    exact (continuous_im.continuousAt.comp (((continuous_conj.continuousAt).comp (h3 1)).mul (h3 I))).continuousWithinAt
  obtain ⟨Y0, hY0⟩ := (isCompact_closedBall w r).exists_bound_of_continuousOn hgc
  obtain ⟨D, hD⟩ := (isCompact_closedBall w r).exists_bound_of_continuousOn hdc
  obtain ⟨E, hE⟩ := (isCompact_Icc (a := -Real.pi) (b := Real.pi)).exists_bound_of_continuousOn hz'.continuousOn
  set Y := max Y0 (max |o.1| |o.2|) with hY
  have hY1 : |o.1| ≤ Y := (le_max_left _ _).trans (le_max_right _ _)
  have hY2 : |o.2| ≤ Y := (le_max_right _ _).trans (le_max_right _ _)
  have hYg : ∀ y ∈ Metric.closedBall w r, ‖g y‖ ≤ Y := fun y hy => (hY0 y hy).trans (le_max_left _ _)
  have hYpos : 0 ≤ Y := (abs_nonneg _).trans hY1
  have hE0 : 0 ≤ E := (norm_nonneg _).trans (hE 0 ⟨by linarith, by linarith⟩)
  have hD0 : 0 ≤ D := (norm_nonneg _).trans (hD w (Metric.mem_closedBall_self hr.le))
  set V := volume.real (Metric.ball w r) with hV
  have hV0 : 0 ≤ V := measureReal_nonneg
  set C := 2 * Y * E * (2 * Real.pi) + D * V with hC
  have hC0 : 0 ≤ C := by positivity
  have hci : ∀ F : ℂ → ℝ, Continuous F → Continuous fun θ => greenP F o (z θ) * (deriv z θ).re + greenQ F o (z θ) * (deriv z θ).im :=
    fun F hF => (((continuous_greenP F hF o).comp hzd.continuous).mul (continuous_re.comp hz')).add
      (((continuous_greenQ F hF o).comp hzd.continuous).mul (continuous_im.comp hz'))
  have hint : ∀ F : ℂ → ℝ, Continuous F → IntegrableOn (fun y => F (g y) * (fderiv ℝ g y).det) (Metric.ball w r) := fun F hF =>
    (((hF.comp_continuousOn hgc).mul hdc).integrableOn_compact (isCompact_closedBall w r)).mono_set Metric.ball_subset_closedBall
  have key : ∀ ε > 0, |(∫ θ in (-Real.pi)..Real.pi, (greenP B o (z θ) * (deriv z θ).re + greenQ B o (z θ) * (deriv z θ).im))
      - ∫ y in Metric.ball w r, B (g y) * (fderiv ℝ g y).det| ≤ ε * C := by
    intro ε hε
    obtain ⟨p, hp⟩ := exists_poly_near B hB (2 * Y) ε hε
    have hpc := continuous_polyFn p
    have hgr := green_form (greenP (polyFn p) o) (greenQ (polyFn p) o) (contDiff_green_poly o p).1 (contDiff_green_poly o p).2
      g w r R hr hrR hg
    simp only [curl_green (polyFn p) hpc o (contDiff_green_poly o p).1 (contDiff_green_poly o p).2] at hgr
    have h1 : |(∫ θ in (-Real.pi)..Real.pi, (greenP B o (z θ) * (deriv z θ).re + greenQ B o (z θ) * (deriv z θ).im))
        - ∫ θ in (-Real.pi)..Real.pi, (greenP (polyFn p) o (z θ) * (deriv z θ).re + greenQ (polyFn p) o (z θ) * (deriv z θ).im)|
        ≤ (2 * (ε * Y) * E) * (2 * Real.pi) := by
      rw [← intervalIntegral.integral_sub ((hci B hB).intervalIntegrable _ _) ((hci _ hpc).intervalIntegrable _ _), ← Real.norm_eq_abs]
      have := intervalIntegral.norm_integral_le_of_norm_le_const (a := -Real.pi) (b := Real.pi) (C := 2 * (ε * Y) * E)
        (f := fun θ => greenP B o (z θ) * (deriv z θ).re + greenQ B o (z θ) * (deriv z θ).im
          - (greenP (polyFn p) o (z θ) * (deriv z θ).re + greenQ (polyFn p) o (z θ) * (deriv z θ).im)) (by
        intro θ hθ
        rw [uIoc_of_le (by linarith)] at hθ
        have k1 := greenP_near B (polyFn p) hB hpc o (z θ) Y ε (hYg _ (hmem' θ)) hY2 hp
        have k2 := greenQ_near B (polyFn p) hB hpc o (z θ) Y ε (hYg _ (hmem' θ)) hY1 hp
        have k3 := hE θ ⟨hθ.1.le, hθ.2⟩
        have k4 := (abs_re_le_norm _).trans k3
        have k5 := (abs_im_le_norm _).trans k3
        rw [show greenP B o (z θ) * (deriv z θ).re + greenQ B o (z θ) * (deriv z θ).im
          - (greenP (polyFn p) o (z θ) * (deriv z θ).re + greenQ (polyFn p) o (z θ) * (deriv z θ).im)
          = (greenP B o (z θ) - greenP (polyFn p) o (z θ)) * (deriv z θ).re
            + (greenQ B o (z θ) - greenQ (polyFn p) o (z θ)) * (deriv z θ).im by ring, Real.norm_eq_abs]
        refine (abs_add_le _ _).trans ?_
        rw [abs_mul, abs_mul]
        have m1 := mul_le_mul k1 k4 (abs_nonneg _) (by positivity)
        have m2 := mul_le_mul k2 k5 (abs_nonneg _) (by positivity)
        linarith)
      rw [show |Real.pi - -Real.pi| = 2 * Real.pi by rw [abs_of_pos (by linarith)]; ring] at this
      exact this
    have h2 : |(∫ y in Metric.ball w r, B (g y) * (fderiv ℝ g y).det) - ∫ y in Metric.ball w r, polyFn p (g y) * (fderiv ℝ g y).det|
        ≤ (ε * D) * V := by
      rw [← integral_sub (hint B hB) (hint _ hpc), ← Real.norm_eq_abs]
      refine norm_setIntegral_le_of_norm_le_const measure_ball_lt_top fun y hy => ?_
      have hy' := Metric.ball_subset_closedBall hy
      rw [← sub_mul, norm_mul]
      refine mul_le_mul ?_ (hD y hy') (norm_nonneg _) hε.le
      rw [Real.norm_eq_abs]
      exact hp _ ((hYg y hy').trans (by linarith))
    rw [hgr] at h1
    rw [abs_sub_comm] at h2
    have h3 := abs_sub_le (∫ θ in (-Real.pi)..Real.pi, (greenP B o (z θ) * (deriv z θ).re + greenQ B o (z θ) * (deriv z θ).im))
      (∫ y in Metric.ball w r, polyFn p (g y) * (fderiv ℝ g y).det) (∫ y in Metric.ball w r, B (g y) * (fderiv ℝ g y).det)
    refine h3.trans ((add_le_add h1 h2).trans (le_of_eq ?_))
    rw [hC]; ring
  rw [← sub_eq_zero, ← abs_eq_zero]
  refine le_antisymm (le_of_forall_pos_le_add fun δ hδ => ?_) (abs_nonneg _)
  rw [zero_add]
  refine (key (δ / (C + 1)) (by positivity)).trans ?_
  rw [div_mul_eq_mul_div, div_le_iff₀ (by positivity)]
  nlinarith

/-- The integral of a continuous function over one image of the disc. -/
theorem DiscSection.weight {L : Lenses} {w : ℂ} {R : ℝ} {g : ℂ → ℂ} (h : DiscSection L w R g) (B : ℂ → ℝ) (hB : Continuous B)
    (o : ℝ × ℝ) (r : ℝ) (hr : 0 < r) (hrR : r < R) (σ : ℝ) (hσ : σ = (SignType.sign (jacDet (lensMap L) (g w)) : ℝ)) :
    ∫ z in g '' Metric.ball w r, B z = σ * ∫ θ in (-Real.pi)..Real.pi,
      (greenP B o (g (polarAt w (r, θ))) * (deriv (fun t : ℝ => g (polarAt w (r, t))) θ).re
        + greenQ B o (g (polarAt w (r, θ))) * (deriv (fun t : ℝ => g (polarAt w (r, t))) θ).im) := by
  have hsub : Metric.ball w r ⊆ Metric.ball w R := Metric.ball_subset_ball hrR.le
  have hw : w ∈ Metric.ball w R := Metric.mem_ball_self (hr.trans hrR)
  rw [green_weight B hB o g w r R hr hrR fun y hy => (h.smooth y hy).1]
  have h1 := integral_image_eq_integral_abs_det_fderiv_smul volume (s := Metric.ball w r) (f := g)
    (f' := fun y => fderiv ℝ g y) Metric.isOpen_ball.measurableSet
    (fun y hy => (((h.smooth y (hsub hy)).1.differentiableAt (by norm_num)).hasFDerivAt).hasFDerivWithinAt)
    (h.injOn.mono hsub) B
  rw [h1, ← integral_const_mul]
  refine setIntegral_congr_fun Metric.isOpen_ball.measurableSet fun y hy => ?_
  have e := h.parity w y hw (hsub hy)
  simp only [smul_eq_mul]
  rw [hσ, e, (h.smooth y (hsub hy)).2.1]
  rcases lt_or_gt_of_ne (h.det_ne y (hsub hy)) with k | k
  · rw [sign_neg k, abs_of_neg (one_div_neg.mpr k)]; simp; ring
  · rw [sign_pos k, abs_of_pos (one_div_pos.mpr k)]; simp; ring

/-- The images of a disc without caustics: the integral of a continuous function over all of them is the sum, over the images
of the centre, of the contour integrals of its Green primitives, each with the parity of the image. -/
theorem imageIntegral_contours (L : Lenses) (hm : ∀ l ∈ L, l.1 ≠ 0) (hL : (L.map Prod.snd).Nodup) (w : ℂ) (r R : ℝ) (hr : 0 < r)
    (hrR : r < R) (hS : ∀ y ∈ Metric.ball w R, ∀ z, IsImage L y z → ‖shear L z‖ ≠ 1) :
    ∃ (I : Finset ℂ) (g : ℂ → ℂ → ℂ), (∀ z, z ∈ I ↔ IsImage L w z) ∧ (∀ z0 ∈ I, g z0 w = z0 ∧ DiscSection L w R (g z0)) ∧
      (∀ y ∈ Metric.ball w R, ∀ z, IsImage L y z → ∃! z0, z0 ∈ I ∧ g z0 y = z) ∧
      ∀ (B : ℂ → ℝ), Continuous B → ∀ o : ℂ → ℝ × ℝ, ∫ z in imageOfDisc L w r, B z
        = ∑ z0 ∈ I, (SignType.sign (jacDet (lensMap L) z0) : ℝ) * ∫ θ in (-Real.pi)..Real.pi,
          (greenP B (o z0) (g z0 (polarAt w (r, θ))) * (deriv (fun t : ℝ => g z0 (polarAt w (r, t))) θ).re
            + greenQ B (o z0) (g z0 (polarAt w (r, θ))) * (deriv (fun t : ℝ => g z0 (polarAt w (r, t))) θ).im) := by
  obtain ⟨S, g, hI, hsec, huniq, -⟩ := imageArea_contours L hm hL w r R hr hrR hS
  refine ⟨S, g, hI, hsec, huniq, fun B hB o => ?_⟩
  have hsub : Metric.ball w r ⊆ Metric.ball w R := Metric.ball_subset_ball hrR.le
  have hset : imageOfDisc L w r = ⋃ z0 ∈ S, g z0 '' Metric.ball w r := by
    ext z
    constructor
    · rintro ⟨h1, h2⟩
      have hy : lensMap L z ∈ Metric.ball w r := by rwa [Metric.mem_ball, dist_eq_norm]
      obtain ⟨z0, ⟨k1, k2⟩, -⟩ := huniq _ (hsub hy) z ⟨h1, rfl⟩
      exact mem_iUnion₂.mpr ⟨z0, k1, _, hy, k2⟩
    · intro hz
      obtain ⟨z0, k1, y, hy, rfl⟩ := mem_iUnion₂.mp hz
      have := (hsec z0 k1).2.img y (hsub hy)
      refine ⟨this.1, ?_⟩
      rw [this.2, ← dist_eq_norm]; exact hy
  have hmeas : ∀ z0 ∈ S, MeasurableSet (g z0 '' Metric.ball w r) := fun z0 hz0 =>
    measurable_image_of_fderivWithin Metric.isOpen_ball.measurableSet
      (fun y hy => ((((hsec z0 hz0).2.smooth y (hsub hy)).1.differentiableAt (by norm_num)).hasFDerivAt).hasFDerivWithinAt)
      ((hsec z0 hz0).2.injOn.mono hsub)
  have hdisj : (S : Set ℂ).Pairwise (Function.onFun Disjoint fun z0 => g z0 '' Metric.ball w r) := by
    intro a ha b hb hab
    rw [Function.onFun, Set.disjoint_left]
    rintro _ ⟨x, hx, rfl⟩ ⟨y, hy, hxy⟩
    have h1 := ((hsec a ha).2.img x (hsub hx))
    have h2 := ((hsec b hb).2.img y (hsub hy))
    have hxy' : y = x := by rw [← h2.2, hxy, h1.2]
    subst hxy'
    exact hab ((huniq y (hsub hx) (g a y) h1).unique ⟨ha, rfl⟩ ⟨hb, hxy⟩)
  rw [hset, integral_biUnion_finset S hmeas hdisj (fun z0 hz0 => ?_)]
  · refine Finset.sum_congr rfl fun z0 hz0 => ?_
    refine (hsec z0 hz0).2.weight B hB (o z0) r hr hrR _ ?_
    rw [(hsec z0 hz0).1]
  · have := (hsec z0 hz0).2
    have hc : IsCompact (g z0 '' Metric.closedBall w r) := (isCompact_closedBall w r).image_of_continuousOn
      (this.cont.mono (Metric.closedBall_subset_ball hrR))
    exact (hB.continuousOn.integrableOn_compact hc).mono_set (image_mono Metric.ball_subset_closedBall)

end Microjax.Props
