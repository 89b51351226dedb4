import Verif.Lemmas.GreenWeight

/-!
# Green's theorem for the cone over a closed curve

The contour integral of the Green primitives of a continuous function along a closed curve is the integral of the function over
the cone `s γ(t)`, `0 ≤ s ≤ 1`, and so, for a curve that is star-shaped around the origin, over the region that it encloses.
-/

noncomputable section

namespace Microjax.Props

open Complex ComplexConjugate MeasureTheory Set Filter Microjax.Spec
open scoped Topology

/-- The cone over a curve. -/
def cone (γ : ℝ → ℂ) (p : ℝ × ℝ) : ℂ := (p.1 : ℂ) * γ p.2

theorem contDiff_cone (γ : ℝ → ℂ) (hγ : ContDiff ℝ 2 γ) : ContDiff ℝ 2 (cone γ) := by
  have h1 : ContDiff ℝ 2 fun p : ℝ × ℝ => (p.1 : ℂ) := ofRealCLM.contDiff.comp contDiff_fst
  exact h1.mul (hγ.comp contDiff_snd)

theorem fderiv_cone (γ : ℝ → ℂ) (hγ : ContDiff ℝ 2 γ) (p : ℝ × ℝ) :
    fderiv ℝ (cone γ) p (1, 0) = γ p.2 ∧ fderiv ℝ (cone γ) p (0, 1) = p.1 * deriv γ p.2 := by
  have hd : HasFDerivAt (cone γ) (fderiv ℝ (cone γ) p) (p.1, p.2) :=
    ((contDiff_cone γ hγ).differentiable (by norm_num) p).hasFDerivAt
  have l1 : HasDerivAt (fun x : ℝ => ((x, p.2) : ℝ × ℝ)) (1, 0) p.1 := (hasDerivAt_id p.1).prodMk (hasDerivAt_const p.1 p.2)
  have l2 : HasDerivAt (fun y : ℝ => ((p.1, y) : ℝ × ℝ)) (0, 1) p.2 := (hasDerivAt_const p.2 p.1).prodMk (hasDerivAt_id p.2)
  have h1 := HasFDerivAt.comp_hasDerivAt (f := fun x : ℝ => ((x, p.2) : ℝ × ℝ)) p.1 hd l1
  have h2 := HasFDerivAt.comp_hasDerivAt (f := fun y : ℝ => ((p.1, y) : ℝ × ℝ)) p.2 hd l2
  have k1 : HasDerivAt (fun x : ℝ => (x : ℂ) * γ p.2) (1 * γ p.2) p.1 := (ofRealCLM.hasDerivAt (x := p.1)).mul_const (γ p.2)
  have k2 : HasDerivAt (fun y : ℝ => (p.1 : ℂ) * γ y) (p.1 * deriv γ p.2) p.2 :=
    ((hγ.differentiable (by norm_num) p.2).hasDerivAt).const_mul (p.1 : ℂ)
  rw [one_mul] at k1
  exact ⟨h1.unique k1, h2.unique k2⟩

/-- Green's formula for a smooth form. -/
theorem green_cone_form (P Q : ℂ → ℝ) (hP : ContDiff ℝ 1 P) (hQ : ContDiff ℝ 1 Q) (γ : ℝ → ℂ) (hγ : ContDiff ℝ 2 γ)
    (hper : γ Real.pi = γ (-Real.pi)) :
    ∫ θ in (-Real.pi)..Real.pi, (P (γ θ) * (deriv γ θ).re + Q (γ θ) * (deriv γ θ).im)
      = ∫ p in Icc ((0 : ℝ), -Real.pi) (1, Real.pi), curl P Q (cone γ p) * (p.1 * (conj (γ p.2) * deriv γ p.2).im) := by
  have hpi := Real.pi_pos
  have hsm : ∀ p : ℝ × ℝ, ContDiffAt ℝ 2 (cone γ) p := fun p => (contDiff_cone γ hγ).contDiffAt
  have hγ' : Continuous (deriv γ) := hγ.continuous_deriv (by norm_num)
  have hcc : Continuous (curl P Q) := by
    unfold curl
    exact ((hQ.continuous_fderiv one_ne_zero).clm_apply continuous_const).sub
      ((hP.continuous_fderiv one_ne_zero).clm_apply continuous_const)
  have hdiv : ∀ p : ℝ × ℝ, fderiv ℝ (pullForm P Q (cone γ) (0, 1)) p (1, 0)
      + (-fderiv ℝ (pullForm P Q (cone γ) (1, 0)) p) (0, 1)
      = curl P Q (cone γ p) * (p.1 * (conj (γ p.2) * deriv γ p.2).im) := by
    intro p
    have hsym : fderiv ℝ (fderiv ℝ (cone γ)) p (1, 0) (0, 1) = fderiv ℝ (fderiv ℝ (cone γ)) p (0, 1) (1, 0) :=
      ((hsm p).isSymmSndFDerivAt (by simp)).eq (1, 0) (0, 1)
    have hc := curl_pull P Q (cone γ p) (fderiv ℝ (cone γ) p (1, 0)) (fderiv ℝ (cone γ) p (0, 1))
    have e1 : (conj (fderiv ℝ (cone γ) p (1, 0)) * fderiv ℝ (cone γ) p (0, 1)).im = p.1 * (conj (γ p.2) * deriv γ p.2).im := by
      rw [(fderiv_cone γ hγ p).1, (fderiv_cone γ hγ p).2]
      rw [show conj (γ p.2) * (p.1 * deriv γ p.2) = (p.1 : ℂ) * (conj (γ p.2) * deriv γ p.2) by ring]; simp
    rw [e1] at hc
    rw [neg_apply, (pullForm_deriv P Q hP hQ (cone γ) p _ (hsm p)).2, (pullForm_deriv P Q hP hQ (cone γ) p _ (hsm p)).2, hsym]
    linarith
  have hcont : Continuous fun p : ℝ × ℝ => curl P Q (cone γ p) * (p.1 * (conj (γ p.2) * deriv γ p.2).im) := by
    have h1 := (contDiff_cone γ hγ).continuous
    have h2 := hγ.continuous
    exact (hcc.comp h1).mul (continuous_fst.mul (continuous_im.comp ((continuous_conj.comp (h2.comp continuous_snd)).mul
      (hγ'.comp continuous_snd))))
  have hgreen := integral_divergence_prod_Icc_of_hasFDerivAt_of_le (pullForm P Q (cone γ) (0, 1))
    (fun p => -pullForm P Q (cone γ) (1, 0) p)
    (fun p => fderiv ℝ (pullForm P Q (cone γ) (0, 1)) p) (fun p => -fderiv ℝ (pullForm P Q (cone γ) (1, 0)) p)
    ((0 : ℝ), -Real.pi) (1, Real.pi) ⟨zero_le_one, by simp only; linarith⟩
    (fun p _ => (pullForm_deriv P Q hP hQ (cone γ) p _ (hsm p)).1.continuousAt.continuousWithinAt)
    (fun p _ => (pullForm_deriv P Q hP hQ (cone γ) p _ (hsm p)).1.continuousAt.neg.continuousWithinAt)
    (fun p _ => ((pullForm_deriv P Q hP hQ (cone γ) p _ (hsm p)).1.differentiableAt (by norm_num)).hasFDerivAt)
    (fun p _ => ((pullForm_deriv P Q hP hQ (cone γ) p _ (hsm p)).1.differentiableAt (by norm_num)).hasFDerivAt.neg)
    (by
      simp only [hdiv]
      exact hcont.continuousOn.integrableOn_compact isCompact_Icc)
  simp only [hdiv] at hgreen
  rw [hgreen]
  have e1 : ∀ x : ℝ, pullForm P Q (cone γ) (1, 0) (x, Real.pi) = pullForm P Q (cone γ) (1, 0) (x, -Real.pi) := by
    intro x
    unfold pullForm
    rw [(fderiv_cone γ hγ _).1, (fderiv_cone γ hγ _).1]
    simp only [cone, hper]
  have e0 : ∀ θ : ℝ, pullForm P Q (cone γ) (0, 1) (0, θ) = 0 := by
    intro θ
    unfold pullForm
    rw [(fderiv_cone γ hγ _).2]
    simp
  have e2 : ∀ θ : ℝ, pullForm P Q (cone γ) (0, 1) (1, θ) = P (γ θ) * (deriv γ θ).re + Q (γ θ) * (deriv γ θ).im := by
    intro θ
    unfold pullForm
    rw [(fderiv_cone γ hγ _).2]
    simp only [cone, ofReal_one, one_mul]
  simp only [e1, e0, e2, sub_self, zero_add, intervalIntegral.integral_zero, sub_zero]

/-- Green's formula for the primitives of a continuous function. -/
theorem green_cone (B : ℂ → ℝ) (hB : Continuous B) (o : ℝ × ℝ) (γ : ℝ → ℂ) (hγ : ContDiff ℝ 2 γ)
    (hper : γ Real.pi = γ (-Real.pi)) :
    ∫ θ in (-Real.pi)..Real.pi, (greenP B o (γ θ) * (deriv γ θ).re + greenQ B o (γ θ) * (deriv γ θ).im)
      = ∫ p in Icc ((0 : ℝ), -Real.pi) (1, Real.pi), B (cone γ p) * (p.1 * (conj (γ p.2) * deriv γ p.2).im) := by
  have hpi := Real.pi_pos
  have hγc := hγ.continuous
  have hγ' : Continuous (deriv γ) := hγ.continuous_deriv (by norm_num)
  have hcc := (contDiff_cone γ hγ).continuous
  have hdc : Continuous fun p : ℝ × ℝ => p.1 * (conj (γ p.2) * deriv γ p.2).im :=
    continuous_fst.mul (continuous_im.comp ((continuous_conj.comp (hγc.comp continuous_snd)).mul (hγ'.comp continuous_snd)))
  obtain ⟨Y0, hY0⟩ := (isCompact_Icc (a := ((0 : ℝ), -Real.pi)) (b := ((1 : ℝ), Real.pi))).exists_bound_of_continuousOn
    hcc.continuousOn
  obtain ⟨D, hD⟩ := (isCompact_Icc (a := ((0 : ℝ), -Real.pi)) (b := ((1 : ℝ), Real.pi))).exists_bound_of_continuousOn
    hdc.continuousOn
  obtain ⟨E, hE⟩ := (isCompact_Icc (a := -Real.pi) (b := Real.pi)).exists_bound_of_continuousOn hγ'.continuousOn
  obtain ⟨Y, hY⟩ : ∃ Y, Y = max Y0 (max |o.1| |o.2|) := ⟨_, rfl⟩
  have hY1 : |o.1| ≤ Y := hY ▸ (le_max_left _ _).trans (le_max_right _ _)
  have hY2 : |o.2| ≤ Y := hY ▸ (le_max_right _ _).trans (le_max_right _ _)
  have hYp : 0 ≤ Y := (abs_nonneg _).trans hY1
  have hYg : ∀ p ∈ Icc ((0 : ℝ), -Real.pi) (1, Real.pi), ‖cone γ p‖ ≤ Y := fun p hp => (hY0 p hp).trans (hY ▸ le_max_left _ _)
  have hYc : ∀ t ∈ Icc (-Real.pi) Real.pi, ‖γ t‖ ≤ Y := fun t ht => by
    have := hYg (1, t) ⟨⟨zero_le_one, ht.1⟩, ⟨le_rfl, ht.2⟩⟩
    simpa [cone] using this
  have hE0 : 0 ≤ E := (norm_nonneg _).trans (hE 0 ⟨by linarith, by linarith⟩)
  have hD0 : 0 ≤ D := (norm_nonneg _).trans (hD (0, 0) ⟨⟨le_rfl, by simp only; linarith⟩, ⟨zero_le_one, by simp only; linarith⟩⟩)
  obtain ⟨V, hV⟩ : ∃ V, V = volume.real (Icc ((0 : ℝ), -Real.pi) (1, Real.pi)) := ⟨_, rfl⟩
  have hV0 : 0 ≤ V := hV ▸ measureReal_nonneg
  obtain ⟨C, hC⟩ : ∃ C, C = 2 * Y * E * (2 * Real.pi) + D * V := ⟨_, rfl⟩
  have hC0 : 0 ≤ C := by rw [hC]; positivity
  have hci : ∀ F : ℂ → ℝ, Continuous F → Continuous fun θ => greenP F o (γ θ) * (deriv γ θ).re + greenQ F o (γ θ) * (deriv γ θ).im :=
    fun F hF => (((continuous_greenP F hF o).comp hγc).mul (continuous_re.comp hγ')).add
      (((continuous_greenQ F hF o).comp hγc).mul (continuous_im.comp hγ'))
  have hint : ∀ F : ℂ → ℝ, Continuous F → IntegrableOn (fun p : ℝ × ℝ => F (cone γ p) * (p.1 * (conj (γ p.2) * deriv γ p.2).im))
      (Icc ((0 : ℝ), -Real.pi) (1, Real.pi)) := fun F hF =>
    ((hF.comp hcc).mul hdc).continuousOn.integrableOn_compact isCompact_Icc
  have key : ∀ ε > 0, |(∫ θ in (-Real.pi)..Real.pi, (greenP B o (γ θ) * (deriv γ θ).re + greenQ B o (γ θ) * (deriv γ θ).im))
      - ∫ p in Icc ((0 : ℝ), -Real.pi) (1, Real.pi), B (cone γ p) * (p.1 * (conj (γ p.2) * deriv γ p.2).im)| ≤ ε * C := by
    intro ε hε
    obtain ⟨p, hp⟩ := exists_poly_near B hB (2 * Y) ε hε
    have hpc := continuous_polyFn p
    have hgr := green_cone_form (greenP (polyFn p) o) (greenQ (polyFn p) o) (contDiff_green_poly o p).1 (contDiff_green_poly o p).2
      γ hγ hper
    simp only [curl_green (polyFn p) hpc o (contDiff_green_poly o p).1 (contDiff_green_poly o p).2] at hgr
    have h1 : |(∫ θ in (-Real.pi)..Real.pi, (greenP B o (γ θ) * (deriv γ θ).re + greenQ B o (γ θ) * (deriv γ θ).im))
        - ∫ θ in (-Real.pi)..Real.pi, (greenP (polyFn p) o (γ θ) * (deriv γ θ).re + greenQ (polyFn p) o (γ θ) * (deriv γ θ).im)|
        ≤ (2 * (ε * Y) * E) * (2 * Real.pi) := by
      rw [← intervalIntegral.integral_sub ((hci B hB).intervalIntegrable _ _) ((hci _ hpc).intervalIntegrable _ _), ← Real.norm_eq_abs]
      have := intervalIntegral.norm_integral_le_of_norm_le_const (a := -Real.pi) (b := Real.pi) (C := 2 * (ε * Y) * E)
        (f := fun θ => greenP B o (γ θ) * (deriv γ θ).re + greenQ B o (γ θ) * (deriv γ θ).im
          - (greenP (polyFn p) o (γ θ) * (deriv γ θ).re + greenQ (polyFn p) o (γ θ) * (deriv γ θ).im)) (by
        intro θ hθ
        rw [uIoc_of_le (by linarith)] at hθ
        have hθ' : θ ∈ Icc (-Real.pi) Real.pi := ⟨hθ.1.le, hθ.2⟩
        have k1 := greenP_near B (polyFn p) hB hpc o (γ θ) Y ε (hYc θ hθ') hY2 hp
        have k2 := greenQ_near B (polyFn p) hB hpc o (γ θ) Y ε (hYc θ hθ') hY1 hp
        have k3 := hE θ hθ'
        have k4 := (abs_re_le_norm _).trans k3
        have k5 := (abs_im_le_norm _).trans k3
        rw [show greenP B o (γ θ) * (deriv γ θ).re + greenQ B o (γ θ) * (deriv γ θ).im
          - (greenP (polyFn p) o (γ θ) * (deriv γ θ).re + greenQ (polyFn p) o (γ θ) * (deriv γ θ).im)
          = (greenP B o (γ θ) - greenP (polyFn p) o (γ θ)) * (deriv γ θ).re
            + (greenQ B o (γ θ) - greenQ (polyFn p) o (γ θ)) * (deriv γ θ).im by ring, Real.norm_eq_abs]
        refine (abs_add_le _ _).trans ?_
        rw [abs_mul, abs_mul]
        have m1 := mul_le_mul k1 k4 (abs_nonneg _) (by positivity)
        have m2 := mul_le_mul k2 k5 (abs_nonneg _) (by positivity)
        linarith)
      rw [show |Real.pi - -Real.pi| = 2 * Real.pi by rw [abs_of_pos (by linarith)]; ring] at this
      exact this
    have h2 : |(∫ p in Icc ((0 : ℝ), -Real.pi) (1, Real.pi), B (cone γ p) * (p.1 * (conj (γ p.2) * deriv γ p.2).im))
        - ∫ q in Icc ((0 : ℝ), -Real.pi) (1, Real.pi), polyFn p (cone γ q) * (q.1 * (conj (γ q.2) * deriv γ q.2).im)|
        ≤ (ε * D) * V := by
      rw [← integral_sub (hint B hB) (hint _ hpc), ← Real.norm_eq_abs, hV]
      refine norm_setIntegral_le_of_norm_le_const isCompact_Icc.measure_lt_top fun y hy => ?_
      rw [← sub_mul, norm_mul]
      refine mul_le_mul ?_ (hD y hy) (norm_nonneg _) hε.le
      rw [Real.norm_eq_abs]
      exact hp _ ((hYg y hy).trans (by linarith))
    rw [hgr] at h1
    rw [abs_sub_comm] at h2
    refine (abs_sub_le _ _ _).trans ((add_le_add h1 h2).trans (le_of_eq ?_))
    rw [hC]; ring
  rw [← sub_eq_zero, ← abs_eq_zero]
  refine le_antisymm (le_of_forall_pos_le_add fun δ hδ => ?_) (abs_nonneg _)
  rw [zero_add]
  refine (key (δ / (C + 1)) (by positivity)).trans ?_
  rw [div_mul_eq_mul_div, div_le_iff₀ (by positivity)]
  nlinarith

theorem fderiv_cone_complex (γ : ℝ → ℂ) (hγ : ContDiff ℝ 2 γ) (c : ℂ) :
    HasFDerivAt (fun c : ℂ => cone γ (c.re, c.im)) ((fderiv ℝ (cone γ) (c.re, c.im)).comp (equivRealProdCLM : ℂ →L[ℝ] ℝ × ℝ)) c ∧
    ((fderiv ℝ (cone γ) (c.re, c.im)).comp (equivRealProdCLM : ℂ →L[ℝ] ℝ × ℝ)).det = c.re * (conj (γ c.im) * deriv γ c.im).im := by
  have hd : HasFDerivAt (cone γ) (fderiv ℝ (cone γ) (equivRealProdCLM c)) (equivRealProdCLM c) :=
    ((contDiff_cone γ hγ).differentiable (by norm_num) _).hasFDerivAt
  refine ⟨hd.comp c (equivRealProdCLM : ℂ →L[ℝ] ℝ × ℝ).hasFDerivAt, ?_⟩
  rw [det_complex]
  have e1 : ((fderiv ℝ (cone γ) (c.re, c.im)).comp (equivRealProdCLM : ℂ →L[ℝ] ℝ × ℝ)) 1 = γ c.im := by
    have := (fderiv_cone γ hγ (c.re, c.im)).1
    simpa using this
  have e2 : ((fderiv ℝ (cone γ) (c.re, c.im)).comp (equivRealProdCLM : ℂ →L[ℝ] ℝ × ℝ)) I = c.re * deriv γ c.im := by
    have := (fderiv_cone γ hγ (c.re, c.im)).2
    simpa using this
  rw [e1, e2, show conj (γ c.im) * (c.re * deriv γ c.im) = (c.re : ℂ) * (conj (γ c.im) * deriv γ c.im) by ring]
  simp

theorem measurable_cone (γ : ℝ → ℂ) (hγ : ContDiff ℝ 2 γ) (S T : Set ℝ) (hSm : MeasurableSet S) (hTm : MeasurableSet T)
    (hinj : InjOn (cone γ) (S ×ˢ T)) : MeasurableSet (cone γ '' (S ×ˢ T)) := by
  obtain ⟨R, hR⟩ : ∃ R : Set ℂ, R = measurableEquivRealProd ⁻¹' (S ×ˢ T) := ⟨_, rfl⟩
  have hRm : MeasurableSet R := hR ▸ measurableEquivRealProd.measurable (hSm.prod hTm)
  have hmem : ∀ c : ℂ, c ∈ R ↔ c.re ∈ S ∧ c.im ∈ T := fun c => by rw [hR]; exact Iff.rfl
  have himg : cone γ '' (S ×ˢ T) = (fun c : ℂ => cone γ (c.re, c.im)) '' R := by
    ext z
    constructor
    · rintro ⟨p, hp, rfl⟩
      exact ⟨⟨p.1, p.2⟩, (hmem _).mpr hp, rfl⟩
    · rintro ⟨c, hc, rfl⟩
      exact ⟨(c.re, c.im), (hmem c).mp hc, rfl⟩
  rw [himg]
  refine measurable_image_of_fderivWithin hRm (fun c _ => (fderiv_cone_complex γ hγ c).1.hasFDerivWithinAt) ?_
  intro c hc c' hc' h
  have := hinj ((hmem c).mp hc) ((hmem c').mp hc') h
  exact Complex.ext (congrArg Prod.fst this) (congrArg Prod.snd this)

/-- The contour integral along a curve that is star-shaped around the origin. -/
theorem green_star (B : ℂ → ℝ) (hB : Continuous B) (o : ℝ × ℝ) (γ : ℝ → ℂ) (hγ : ContDiff ℝ 2 γ)
    (hper : γ Real.pi = γ (-Real.pi)) (hpos : ∀ t, 0 < (conj (γ t) * deriv γ t).im) (S : Set ℝ) (hSm : MeasurableSet S)
    (hS : S ⊆ Ioc 0 1) (hae : S =ᵐ[volume] Icc (0 : ℝ) 1) (hinj : InjOn (cone γ) (S ×ˢ Ioc (-Real.pi) Real.pi)) :
    ∫ θ in (-Real.pi)..Real.pi, (greenP B o (γ θ) * (deriv γ θ).re + greenQ B o (γ θ) * (deriv γ θ).im)
      = ∫ z in cone γ '' (S ×ˢ Ioc (-Real.pi) Real.pi), B z := by
  rw [green_cone B hB o γ hγ hper, Icc_prod_eq]
  have hset : (S ×ˢ Ioc (-Real.pi) Real.pi : Set (ℝ × ℝ)) =ᵐ[volume] Icc (0 : ℝ) 1 ×ˢ Icc (-Real.pi) Real.pi :=
    Measure.set_prod_ae_eq hae Ioc_ae_eq_Icc
  simp only
  rw [← setIntegral_congr_set hset, ← volume_preserving_equiv_real_prod.setIntegral_preimage_emb
    measurableEquivRealProd.measurableEmbedding]
  obtain ⟨R, hR⟩ : ∃ R : Set ℂ, R = measurableEquivRealProd ⁻¹' (S ×ˢ Ioc (-Real.pi) Real.pi) := ⟨_, rfl⟩
  have hRm : MeasurableSet R := hR ▸ measurableEquivRealProd.measurable (hSm.prod measurableSet_Ioc)
  have hmem : ∀ c : ℂ, c ∈ R ↔ c.re ∈ S ∧ c.im ∈ Ioc (-Real.pi) Real.pi := fun c => by rw [hR]; exact Iff.rfl
  have himg : cone γ '' (S ×ˢ Ioc (-Real.pi) Real.pi) = (fun c : ℂ => cone γ (c.re, c.im)) '' R := by
    ext z
    constructor
    · rintro ⟨p, hp, rfl⟩
      exact ⟨⟨p.1, p.2⟩, (hmem _).mpr hp, rfl⟩
    · rintro ⟨c, hc, rfl⟩
      exact ⟨(c.re, c.im), (hmem c).mp hc, rfl⟩
  have hinj' : InjOn (fun c : ℂ => cone γ (c.re, c.im)) R := by
    intro c hc c' hc' h
    have := hinj ((hmem c).mp hc) ((hmem c').mp hc') h
    exact Complex.ext (congrArg Prod.fst this) (congrArg Prod.snd this)
  rw [himg, ← hR, integral_image_eq_integral_abs_det_fderiv_smul volume hRm
    (fun c _ => (fderiv_cone_complex γ hγ c).1.hasFDerivWithinAt) hinj' B]
  refine setIntegral_congr_fun hRm fun c hc => ?_
  have hs := hS ((hmem c).mp hc).1
  simp only [smul_eq_mul]
  rw [(fderiv_cone_complex γ hγ c).2, abs_of_pos (mul_pos hs.1 (hpos _))]
  show B (cone γ (c.re, c.im)) * (c.re * (conj (γ c.im) * deriv γ c.im).im) = _
  ring

end Microjax.Props
