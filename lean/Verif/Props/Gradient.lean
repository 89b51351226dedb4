import Verif.Lemmas.ImagePersist
import Verif.Props.ImageCount
import Verif.Props.CriticalDense

/-!
# C89: gradients of the point-source magnification

The tangent that forward-mode differentiation of `mag_point_source` produces (dual-number arithmetic for the polynomial
coefficients, the custom rule at the root finder, the chain rule elsewhere, no tangent for the mask) is the derivative of
the physical magnification along every path of lens and source parameters.
-/

noncomputable section

namespace Microjax.Props

open Complex ComplexConjugate Spec PointSource PolySolver Filter
open scoped Topology

variable {t₀ : ℝ}

theorem midParams2_deriv (u : ℝ → UserParams) (du : UserParams) (hs : HasDerivAt (fun t => (u t).s) du.s t₀)
    (hq : HasDerivAt (fun t => (u t).q) du.q t₀) (h1 : 1 + (u t₀).q ≠ 0) :
    HasDerivAt (fun t => (midParams2 (u t)).a) (midParams2Tangent (u t₀) du).a t₀ ∧
    HasDerivAt (fun t => (midParams2 (u t)).e1) (midParams2Tangent (u t₀) du).e1 t₀ ∧
    HasDerivAt (fun t => xCM (u t)) (xCMTangent (u t₀) du) t₀ := by
  have hq1 : HasDerivAt (fun t => 1 + (u t).q) du.q t₀ := hq.const_add 1
  refine ⟨hs.const_mul (1 / 2), ?_, ?_⟩
  · refine (hq.fun_div hq1 h1).congr_deriv ?_
    simp only [midParams2Tangent]
    field_simp
  · have h2 := ((hs.const_mul (1 / 2)).fun_mul (hq.const_sub 1)).fun_div hq1 h1
    refine h2.congr_deriv ?_
    simp only [xCMTangent]
    field_simp

theorem detJac2_deriv (p : ℝ → MidParams) (dp : MidParams) (z : ℝ → ℂ) (dz : ℂ)
    (ha : HasDerivAt (fun t => (p t).a) dp.a t₀) (he : HasDerivAt (fun t => (p t).e1) dp.e1 t₀)
    (hz : HasDerivAt z dz t₀) (h1 : z t₀ ≠ (p t₀).a) (h2 : z t₀ ≠ -(p t₀).a) :
    HasDerivAt (fun t => detJac2 (p t) (z t)) (detJac2Tangent (p t₀) dp (z t₀) dz) t₀ := by
  have hc := hasDerivAt_conj hz
  have n1 : conj (z t₀) - (p t₀).a ≠ 0 := by
    intro h
    apply h1
    have := congrArg conj (sub_eq_zero.mp h)
    simpa using this
  have n2 : conj (z t₀) + (p t₀).a ≠ 0 := by
    intro h
    apply h2
    have := congrArg conj (eq_neg_of_add_eq_zero_left h)
    simpa using this
  have t1 := hasDerivAt_shearTerm _ _ _ _ (hasDerivAt_ofReal he) (hc.fun_sub (hasDerivAt_ofReal ha)) n1
  have t2 := hasDerivAt_shearTerm _ _ _ _ ((hasDerivAt_ofReal he).const_sub 1) (hc.fun_add (hasDerivAt_ofReal ha)) n2
  exact hasDerivAt_det _ _ (t1.fun_add t2)

/-- **C89, binary**: along every path of `s`, `q` and source position that is differentiable at `t₀`, if at `t₀` the
source is not at a lens, the roots are distinct (the source is not on a caustic) and every root that is not an image
misses the lens equation by more than the tolerance, then the physical magnification is differentiable at `t₀`,
`mag_point_source` returns it near `t₀`, and the tangent computed by forward-mode differentiation of the code is its
derivative. -/
theorem C89_binary (roots : Option (List ℂ) → List ℂ → List ℂ) (u : ℝ → UserParams) (du : UserParams) (w : ℝ → ℂ)
    (dw : ℂ) (hsd : HasDerivAt (fun t => (u t).s) du.s t₀) (hqd : HasDerivAt (fun t => (u t).q) du.q t₀)
    (hwd : HasDerivAt w dw t₀) (hs : (u t₀).s ≠ 0) (hq : 0 < (u t₀).q)
    (c : ℝ → List ℂ) (hc : ∀ t, c t = polyCoeffsBinary (w t - xCM (u t)) (midParams2 (u t)).a (midParams2 (u t)).e1)
    (hroots : ∀ᶠ t in 𝓝 t₀, IsRootList (c t) (roots none (c t)))
    (hw1 : w t₀ - xCM (u t₀) ≠ (midParams2 (u t₀)).a) (hw2 : w t₀ - xCM (u t₀) ≠ -(midParams2 (u t₀)).a)
    (hsimple : (roots none (c t₀)).Nodup)
    (hsep : ∀ r ∈ roots none (c t₀), ‖lensEq2 (midParams2 (u t₀)) r - (w t₀ - xCM (u t₀))‖ ≤ 1e-6 →
      lensEq2 (midParams2 (u t₀)) r = w t₀ - xCM (u t₀)) :
    ∃ T, magPointSourceTangent roots 2 (u t₀) du (w t₀) dw = .ok T ∧
      HasDerivAt (fun t => pointMag (binary (u t).s (u t).q) (w t)) T t₀ ∧
      ∀ᶠ t in 𝓝 t₀, magPointSource roots 2 (u t) (w t) = .ok (pointMag (binary (u t).s (u t).q) (w t)) := by
  refine ⟨_, by simp only [magPointSourceTangent]; rfl, ?_⟩
  have h1q : 1 + (u t₀).q ≠ 0 := by positivity
  obtain ⟨had, hed, hxd⟩ := midParams2_deriv u du hsd hqd h1q
  set p : ℝ → MidParams := fun t => midParams2 (u t) with hp
  set dp := midParams2Tangent (u t₀) du with hdp
  set w' : ℝ → ℂ := fun t => w t - xCM (u t) with hw'
  have hwd' : HasDerivAt w' (dw - xCMTangent (u t₀) du) t₀ := hwd.fun_sub (hasDerivAt_ofReal hxd)
  set dw' : ℂ := dw - xCMTangent (u t₀) du with hdw'
  have hc' : c = fun t => polyCoeffsBinary (w' t) (p t).a (p t).e1 := funext hc
  have ha0 : (p t₀).a ≠ 0 := by simp [hp, midParams2, hs]
  have he0 : 0 < (p t₀).e1 := by simp only [hp, midParams2]; positivity
  have he1 : (p t₀).e1 < 1 := by
    simp only [hp, midParams2]
    rw [div_lt_one (by positivity)]; linarith
  have hdeg0 : conj (w' t₀) ^ 2 ≠ ((p t₀).a : ℂ) ^ 2 := by
    intro h
    have h' := congrArg conj h
    simp only [map_pow, conj_conj, conj_ofReal] at h'
    rcases sq_eq_sq_iff_eq_or_eq_neg.mp h' with h1 | h1
    · exact hw1 h1
    · exact hw2 h1
  have hlead : ∀ t, conj (w' t) ^ 2 ≠ ((p t).a : ℂ) ^ 2 → (c t).headD 0 ≠ 0 := by
    intro t h
    rw [hc, (C04_binary_leading _ _ _).2]; exact sub_ne_zero.mpr h
  have hcd : ∀ k : ℕ, HasDerivAt (fun t => (c t).getD k 0)
      ((coeffsBinaryTangent (w' t₀) dw' (p t₀).a dp.a (p t₀).e1 dp.e1).getD k 0) t₀ := by
    intro k
    rw [hc']
    exact coeffsBinary_deriv w' dw' (fun t => (p t).a) (fun t => (p t).e1) dp.a dp.e1 hwd' had hed k
  have hlen : ∀ t, (c t).length = 5 + 1 := fun t => by rw [hc]; exact (C04_binary_leading _ _ _).1
  obtain ⟨r, hrc, hr0, hrp⟩ := root_branches c (fun t => roots none (c t)) 5 t₀ hlen (by norm_num)
    (fun k => (hcd k).continuousAt) (hlead t₀ hdeg0) hroots hsimple
  -- eventually everything is as at `t₀`
  have ev_a : ∀ᶠ t in 𝓝 t₀, (p t).a ≠ 0 := had.continuousAt.eventually_ne ha0
  have ev_e0 : ∀ᶠ t in 𝓝 t₀, 0 < (p t).e1 := hed.continuousAt.eventually (lt_mem_nhds he0)
  have ev_e1 : ∀ᶠ t in 𝓝 t₀, (p t).e1 < 1 := hed.continuousAt.eventually (gt_mem_nhds he1)
  have ev_deg : ∀ᶠ t in 𝓝 t₀, conj (w' t) ^ 2 ≠ ((p t).a : ℂ) ^ 2 := by
    have h1 : ContinuousAt (fun t => conj (w' t) ^ 2 - ((p t).a : ℂ) ^ 2) t₀ :=
      ((hasDerivAt_conj hwd').continuousAt.pow 2).sub ((hasDerivAt_ofReal had).continuousAt.pow 2)
    filter_upwards [h1.eventually_ne (sub_ne_zero.mpr hdeg0)] with t ht
    exact sub_ne_zero.mp ht
  have ev_q : ∀ᶠ t in 𝓝 t₀, 0 < (u t).q := hqd.continuousAt.eventually (lt_mem_nhds hq)
  have ev_dual : ∀ᶠ t in 𝓝 t₀, (∀ i, DualSol (mass2 (p t)) (pos2 (p t)) (w' t) (r i t)) ∧
      ∀ ζ, DualSol (mass2 (p t)) (pos2 (p t)) (w' t) ζ → ∃ i, ζ = r i t := by
    filter_upwards [ev_a, ev_e0, ev_e1, ev_deg, hroots, hrp] with t k1 k2 k3 k4 k5 k6
    rw [hc t] at k5
    obtain ⟨b1, b2, -⟩ := binary_roots (p t) (w' t) _ k1 k2 k3 k5 k4
      (by rw [← hc t]; exact k6.1.nodup_iff.mpr k6.2)
    rw [← hc t] at b1 b2
    refine ⟨fun i => (b1 _ (k6.1.mem_iff.mpr (List.mem_ofFn.mpr ⟨i, rfl⟩))).1, fun ζ hζ => ?_⟩
    obtain ⟨i, hi⟩ := List.mem_ofFn.mp (k6.1.mem_iff.mp (b2 ζ hζ))
    exact ⟨i, hi.symm⟩
  have hmem0 : ∀ i, r i t₀ ∈ roots none (c t₀) := fun i => by
    rw [hr0]; exact List.mem_ofFn.mpr ⟨i, rfl⟩
  have hinj : Function.Injective fun i => r i t₀ := by
    rw [← List.nodup_ofFn, ← hr0]; exact hsimple
  have hpersist := images_persist (fun t => mass2 (p t)) (fun t => pos2 (p t)) w'
    (by
      rw [Fin.forall_fin_two]
      exact ⟨hed.continuousAt, continuousAt_const.sub hed.continuousAt⟩)
    (by
      rw [Fin.forall_fin_two]
      exact ⟨(hasDerivAt_ofReal had).continuousAt, (hasDerivAt_ofReal had).continuousAt.neg⟩)
    hwd'.continuousAt r hrc hinj (ev_dual.mono fun t h => h.1) (ev_dual.mono fun t h => h.2)
    (fun t => lensEq2 (p t)) (fun t x => by rw [lensEq2_eq, lensList2]) (1 / 10 ^ 6)
    (fun i h => hsep _ (hmem0 i) (by norm_num at h ⊢; exact h)) (by norm_num)
  -- the derivative of the branches
  have hbr : ∀ i, HasDerivAt (r i) (rootTangent (c t₀)
      (coeffsBinaryTangent (w' t₀) dw' (p t₀).a dp.a (p t₀).e1 dp.e1) (r i t₀)) t₀ := by
    intro i
    refine C18_root_tangent c _ 5 t₀ (r i) hlen (fun k _ => hcd k) (hrc i) ?_
      (deriv_ne_zero_of_nodup _ _ hroots.self_of_nhds (hlead t₀ hdeg0) hsimple _ (hmem0 i))
    filter_upwards [hroots, hrp] with t k1 k2
    exact IsRootList.eval_zero_of_mem k1 (k2.1.mem_iff.mpr (List.mem_ofFn.mpr ⟨i, rfl⟩))
  have hdual0 := ev_dual.self_of_nhds.1
  have hrt0 : IsRootList (polyCoeffsBinary (w' t₀) (p t₀).a (p t₀).e1) (roots none (c t₀)) := by
    rw [← hc t₀]; exact hroots.self_of_nhds
  have hmain := sumMag_hasDerivAt (fun t => detJac2 (p t)) (detJac2Tangent (p t₀) dp) (fun t => lensEq2 (p t))
    (1 / 10 ^ 6) w' (fun t => roots none (c t)) r _ (hrp.mono fun t h => h.1)
    (hpersist.mono fun t h i => (h i).1) (fun i hi => by
      obtain ⟨n1, n2⟩ := (forall2 (p t₀) fun x => r i t₀ ≠ x).mp (hdual0 i).hz
      refine ⟨detJac2_deriv p dp (r i) _ had hed (hbr i) n1 n2, ?_⟩
      have hl : lensEq2 (p t₀) (r i t₀) = w' t₀ := hsep _ (hmem0 i) (by norm_num at hi ⊢; exact hi.le)
      have himg : IsImage (midBinary (p t₀)) (w' t₀) (r i t₀) := by
        refine ⟨by simp [midBinary, n1, n2], by rw [← lensEq2_eq]; exact hl⟩
      rw [← lensList2] at himg
      have hfix := ((isImage_iff_dual _ _ _ _).mp himg).2
      have hd := ((binary_roots (p t₀) (w' t₀) _ ha0 he0 he1 hrt0 hdeg0 hsimple).1 _ (hmem0 i)).2
      rw [dualDet_image _ _ _ _ hfix, lensList2] at hd
      have e : detJac2 (p t₀) (r i t₀) = detFormula (midBinary (p t₀)) (r i t₀) := detJac2_eq _ _
      rw [e]
      exact_mod_cast hd)
  have hphys : ∀ᶠ t in 𝓝 t₀, magPointSource roots 2 (u t) (w t)
      = .ok (pointMag (binary (u t).s (u t).q) (w t)) := by
    filter_upwards [ev_q, ev_deg, hroots, hrp, hpersist, ev_dual] with t k1 k2 k3 k4 k5 k6
    refine C06_binary_mag roots (u t) (w t) (by positivity) (by rw [← hc t]; exact k3) k2
      (by rw [← hc t]; exact k4.1.nodup_iff.mpr k4.2) ?_
    rw [← hc t]
    intro x hx hlt
    obtain ⟨i, rfl⟩ := List.mem_ofFn.mp (k4.1.mem_iff.mp hx)
    obtain ⟨n1, n2⟩ := (forall2 (p t) fun y => r i t ≠ y).mp (k6.1 i).hz
    exact ⟨(k5 i).2 (by norm_num at hlt ⊢; exact hlt), n1, n2⟩
  refine ⟨?_, hphys⟩
  have heq : (fun t => pointMag (binary (u t).s (u t).q) (w t)) =ᶠ[𝓝 t₀]
      fun t => sumMag (detJac2 (p t)) (withMask (lensEq2 (p t)) (1 / 10 ^ 6) (w' t) (roots none (c t))) := by
    filter_upwards [hphys] with t ht
    have e : magPointSource roots 2 (u t) (w t)
        = .ok (sumMag (detJac2 (p t)) (withMask (lensEq2 (p t)) (1 / 10 ^ 6) (w' t) (roots none (c t)))) := by
      simp [magPointSource, images2, hp, hw', hc]
    rw [e] at ht
    exact (Except.ok.inj ht).symm
  refine (hmain.congr_of_eventuallyEq heq).congr_deriv ?_
  unfold images2Jvp
  simp only
  rw [← hc t₀, hr0, List.map_ofFn]
  rfl

theorem midParams3_deriv (u : ℝ → UserParams) (du : UserParams) (hs : HasDerivAt (fun t => (u t).s) du.s t₀)
    (hq : HasDerivAt (fun t => (u t).q) du.q t₀) (hq3 : HasDerivAt (fun t => (u t).q3) du.q3 t₀)
    (h1 : 1 + (u t₀).q + (u t₀).q3 ≠ 0) :
    HasDerivAt (fun t => (midParams3 (u t)).a) (midParams3Tangent (u t₀) du).a t₀ ∧
    HasDerivAt (fun t => (midParams3 (u t)).e1) (midParams3Tangent (u t₀) du).e1 t₀ ∧
    HasDerivAt (fun t => (midParams3 (u t)).e2) (midParams3Tangent (u t₀) du).e2 t₀ := by
  have hq1 : HasDerivAt (fun t => 1 + (u t).q + (u t).q3) (du.q + du.q3) t₀ := (hq.const_add 1).fun_add hq3
  refine ⟨hs.const_mul (1 / 2), ?_, ?_⟩
  · refine (hq.fun_div hq1 h1).congr_deriv ?_
    simp only [midParams3Tangent]
    field_simp
  · refine ((hasDerivAt_const t₀ (1 : ℝ)).fun_div hq1 h1).congr_deriv ?_
    simp only [midParams3Tangent]
    field_simp
    ring

theorem detJac3_deriv (p : ℝ → MidParams) (dp : MidParams) (z : ℝ → ℂ) (dz : ℂ)
    (ha : HasDerivAt (fun t => (p t).a) dp.a t₀) (he : HasDerivAt (fun t => (p t).e1) dp.e1 t₀)
    (he2 : HasDerivAt (fun t => (p t).e2) dp.e2 t₀)
    (hr : HasDerivAt (fun t => r3Complex (p t)) (r3ComplexTangent (p t₀) dp) t₀)
    (hz : HasDerivAt z dz t₀) (h1 : z t₀ ≠ (p t₀).a) (h2 : z t₀ ≠ -(p t₀).a) (h3 : z t₀ ≠ r3Complex (p t₀)) :
    HasDerivAt (fun t => detJac3 (p t) (z t)) (detJac3Tangent (p t₀) dp (z t₀) dz) t₀ := by
  have hc := hasDerivAt_conj hz
  have n1 : conj (z t₀) - (p t₀).a ≠ 0 := by
    intro h
    apply h1
    have := congrArg conj (sub_eq_zero.mp h)
    simpa using this
  have n2 : conj (z t₀) + (p t₀).a ≠ 0 := by
    intro h
    apply h2
    have := congrArg conj (eq_neg_of_add_eq_zero_left h)
    simpa using this
  have n3 : conj (z t₀) - conj (r3Complex (p t₀)) ≠ 0 :=
    fun h => h3 ((starRingEnd ℂ).injective (sub_eq_zero.mp h))
  have t1 := hasDerivAt_shearTerm _ _ _ _ (hasDerivAt_ofReal he) (hc.fun_sub (hasDerivAt_ofReal ha)) n1
  have t2 := hasDerivAt_shearTerm _ _ _ _ (hasDerivAt_ofReal he2) (hc.fun_add (hasDerivAt_ofReal ha)) n2
  have t3 := hasDerivAt_shearTerm _ _ _ _ (((hasDerivAt_ofReal he).const_sub 1).fun_sub (hasDerivAt_ofReal he2))
    (hc.fun_sub (hasDerivAt_conj hr)) n3
  exact hasDerivAt_det _ _ ((t1.fun_add t2).fun_add t3)

/-- **C89, triple**: the same for three lenses, along every path of `s`, `q`, `q3`, `r3`, `psi` and the source. -/
theorem C89_triple (roots : Option (List ℂ) → List ℂ → List ℂ) (u : ℝ → UserParams) (du : UserParams) (w : ℝ → ℂ)
    (dw : ℂ) (hsd : HasDerivAt (fun t => (u t).s) du.s t₀) (hqd : HasDerivAt (fun t => (u t).q) du.q t₀)
    (hq3d : HasDerivAt (fun t => (u t).q3) du.q3 t₀) (hr3d : HasDerivAt (fun t => (u t).r3) du.r3 t₀)
    (hpsid : HasDerivAt (fun t => (u t).psi) du.psi t₀)
    (hwd : HasDerivAt w dw t₀) (hs : (u t₀).s ≠ 0) (hq : 0 < (u t₀).q) (hq3 : 0 < (u t₀).q3)
    (hl1 : r3Complex (midParams3 (u t₀)) ≠ (midParams3 (u t₀)).a)
    (hl2 : r3Complex (midParams3 (u t₀)) ≠ -(midParams3 (u t₀)).a)
    (c : ℝ → List ℂ) (hc : ∀ t, c t = polyCoeffsTripleCM (w t - xCM (u t)) (midParams3 (u t)).a
      (r3Complex (midParams3 (u t))) (midParams3 (u t)).e1 (midParams3 (u t)).e2)
    (S : ℂ) (hS : S = shiftCM (midParams3 (u t₀)).a (r3Complex (midParams3 (u t₀))) (midParams3 (u t₀)).e1
      (midParams3 (u t₀)).e2)
    (hroots : ∀ᶠ t in 𝓝 t₀, IsRootList (c t) (roots none (c t)))
    (hw1 : w t₀ - xCM (u t₀) ≠ (midParams3 (u t₀)).a) (hw2 : w t₀ - xCM (u t₀) ≠ -(midParams3 (u t₀)).a)
    (hw3 : w t₀ - xCM (u t₀) ≠ r3Complex (midParams3 (u t₀)))
    (hsimple : (roots none (c t₀)).Nodup)
    (hsep : ∀ r ∈ roots none (c t₀), ‖lensEq3 (midParams3 (u t₀)) (r + S) - (w t₀ - xCM (u t₀))‖ ≤ 1e-3 →
      lensEq3 (midParams3 (u t₀)) (r + S) = w t₀ - xCM (u t₀)) :
    ∃ T, magPointSourceTangent roots 3 (u t₀) du (w t₀) dw = .ok T ∧
      HasDerivAt (fun t => pointMag (triple (u t).s (u t).q (u t).q3 (u t).r3 (u t).psi) (w t)) T t₀ ∧
      ∀ᶠ t in 𝓝 t₀, magPointSource roots 3 (u t) (w t)
        = .ok (pointMag (triple (u t).s (u t).q (u t).q3 (u t).r3 (u t).psi) (w t)) := by
  refine ⟨_, by simp only [magPointSourceTangent]; rfl, ?_⟩
  have h1q : 1 + (u t₀).q ≠ 0 := by positivity
  have h1q3 : 1 + (u t₀).q + (u t₀).q3 ≠ 0 := by positivity
  obtain ⟨-, -, hxd⟩ := midParams2_deriv u du hsd hqd h1q
  obtain ⟨had, hed, he2d⟩ := midParams3_deriv u du hsd hqd hq3d h1q3
  set p : ℝ → MidParams := fun t => midParams3 (u t) with hp
  set dp := midParams3Tangent (u t₀) du with hdp
  have hrd : HasDerivAt (fun t => r3Complex (p t)) (r3ComplexTangent (p t₀) dp) t₀ :=
    hasDerivAt_r3Complex p dp hr3d hpsid
  set shift : ℝ → ℂ := fun t => shiftCM (p t).a (r3Complex (p t)) (p t).e1 (p t).e2 with hshift
  have hshd : HasDerivAt shift (shiftCMTangent (p t₀) dp) t₀ := hasDerivAt_shiftCM p dp had hed he2d hr3d hpsid
  have hS0 : S = shift t₀ := hS
  set w' : ℝ → ℂ := fun t => w t - xCM (u t) with hw'
  have hwd' : HasDerivAt w' (dw - xCMTangent (u t₀) du) t₀ := hwd.fun_sub (hasDerivAt_ofReal hxd)
  set dw' : ℂ := dw - xCMTangent (u t₀) du with hdw'
  have hc' : c = fun t => polyCoeffsTripleCM (w' t) (p t).a (r3Complex (p t)) (p t).e1 (p t).e2 := funext hc
  have ha0 : (p t₀).a ≠ 0 := by simp [hp, midParams3, hs]
  have he0 : (p t₀).e1 ≠ 0 := by simp only [hp, midParams3]; positivity
  have he20 : (p t₀).e2 ≠ 0 := by simp only [hp, midParams3]; positivity
  have he30 : 1 - (p t₀).e1 - (p t₀).e2 ≠ 0 := by
    have : 1 - (p t₀).e1 - (p t₀).e2 = (u t₀).q3 / (1 + (u t₀).q + (u t₀).q3) := by
      simp only [hp, midParams3]
      field_simp
      ring
    rw [this]; positivity
  have hlead : ∀ t, w' t ≠ (p t).a → w' t ≠ -(p t).a → w' t ≠ r3Complex (p t) → (c t).headD 0 ≠ 0 := by
    intro t k1 k2 k3
    rw [hc, (triple_head _ _ _ _ _).2]
    have hi : ∀ x : ℂ, x ≠ 0 → conj x ≠ 0 := fun x hx => by simpa using hx
    refine mul_ne_zero (mul_ne_zero (hi _ (sub_ne_zero.mpr k1)) (hi _ ?_)) (hi _ (sub_ne_zero.mpr k3))
    exact fun hc => k2 (by linear_combination hc)
  have hlead0 := hlead t₀ hw1 hw2 hw3
  have hcd : ∀ k : ℕ, HasDerivAt (fun t => (c t).getD k 0)
      ((coeffsTripleTangent (p t₀) dp (w' t₀) dw').getD k 0) t₀ := by
    intro k
    rw [hc']
    exact coeffsTriple_deriv w' dw' p dp hwd' had hed he2d hr3d hpsid k
  have hlen : ∀ t, (c t).length = 10 + 1 := fun t => by rw [hc]; exact (triple_head _ _ _ _ _).1
  obtain ⟨r, hrc, hr0, hrp⟩ := root_branches c (fun t => roots none (c t)) 10 t₀ hlen (by norm_num)
    (fun k => (hcd k).continuousAt) hlead0 hroots hsimple
  have ne_ev : ∀ (f g : ℝ → ℂ), ContinuousAt f t₀ → ContinuousAt g t₀ → f t₀ ≠ g t₀ → ∀ᶠ t in 𝓝 t₀, f t ≠ g t := by
    intro f g hf hg h
    filter_upwards [(hf.sub hg).eventually_ne (sub_ne_zero.mpr h)] with t ht
    exact sub_ne_zero.mp ht
  have cA : ContinuousAt (fun t => ((p t).a : ℂ)) t₀ := (hasDerivAt_ofReal had).continuousAt
  have cR := hrd.continuousAt
  have cW := hwd'.continuousAt
  have ev_a : ∀ᶠ t in 𝓝 t₀, (p t).a ≠ 0 := had.continuousAt.eventually_ne ha0
  have ev_e0 : ∀ᶠ t in 𝓝 t₀, (p t).e1 ≠ 0 := hed.continuousAt.eventually_ne he0
  have ev_e2 : ∀ᶠ t in 𝓝 t₀, (p t).e2 ≠ 0 := he2d.continuousAt.eventually_ne he20
  have ev_e3 : ∀ᶠ t in 𝓝 t₀, 1 - (p t).e1 - (p t).e2 ≠ 0 :=
    ((hed.const_sub 1).fun_sub he2d).continuousAt.eventually_ne he30
  have ev_r1 := ne_ev _ _ cR cA hl1
  have ev_r2 := ne_ev _ _ cR cA.neg hl2
  have ev_w1 := ne_ev _ _ cW cA hw1
  have ev_w2 := ne_ev _ _ cW cA.neg hw2
  have ev_w3 := ne_ev _ _ cW cR hw3
  have ev_q : ∀ᶠ t in 𝓝 t₀, 0 < (u t).q := hqd.continuousAt.eventually (lt_mem_nhds hq)
  have ev_q3 : ∀ᶠ t in 𝓝 t₀, 0 < (u t).q3 := hq3d.continuousAt.eventually (lt_mem_nhds hq3)
  set z : Fin 10 → ℝ → ℂ := fun i t => r i t + shift t with hz
  have ev_dual : ∀ᶠ t in 𝓝 t₀, (∀ i, DualSol (mass3 (p t)) (pos3 (p t)) (w' t) (z i t)) ∧
      ∀ ζ, DualSol (mass3 (p t)) (pos3 (p t)) (w' t) ζ → ∃ i, ζ = z i t := by
    filter_upwards [ev_a, ev_e0, ev_e2, ev_e3, ev_r1, ev_r2, ev_w1, ev_w2, ev_w3, hroots, hrp]
      with t k1 k2 k3 k4 k5 k6 k7 k8 k9 k10 k11
    rw [hc t] at k10
    obtain ⟨b1, b2, -⟩ := triple_roots (p t) (w' t) _ k1 k5 k6 k2 k3 k4 k10 k7 k8 k9
      (by rw [← hc t]; exact k11.1.nodup_iff.mpr k11.2)
    rw [← hc t] at b1 b2
    refine ⟨fun i => (b1 _ (k11.1.mem_iff.mpr (List.mem_ofFn.mpr ⟨i, rfl⟩))).1, fun ζ hζ => ?_⟩
    obtain ⟨i, hi⟩ := List.mem_ofFn.mp (k11.1.mem_iff.mp (b2 ζ hζ))
    exact ⟨i, by simp only [hz, hi, hshift]; ring⟩
  have hmem0 : ∀ i, r i t₀ ∈ roots none (c t₀) := fun i => by
    rw [hr0]; exact List.mem_ofFn.mpr ⟨i, rfl⟩
  have hinj : Function.Injective fun i => z i t₀ := by
    have h : Function.Injective fun i => r i t₀ := by rw [← List.nodup_ofFn, ← hr0]; exact hsimple
    exact fun i j hij => h (add_right_cancel hij)
  have hpersist := images_persist (fun t => mass3 (p t)) (fun t => pos3 (p t)) w'
    (by
      intro k
      fin_cases k
      · exact hed.continuousAt
      · exact he2d.continuousAt
      · exact ((hed.const_sub 1).fun_sub he2d).continuousAt)
    (by
      intro k
      fin_cases k
      · exact cA
      · exact cA.neg
      · exact cR)
    hwd'.continuousAt z (fun i => (hrc i).add hshd.continuousAt) hinj (ev_dual.mono fun t h => h.1)
    (ev_dual.mono fun t h => h.2)
    (fun t => lensEq3 (p t)) (fun t x => by rw [lensEq3_eq, lensList3]) (1 / 10 ^ 3)
    (fun i h => by
      have := hsep _ (hmem0 i) (by rw [hS0]; norm_num at h ⊢; exact h)
      rw [hS0] at this
      exact this) (by norm_num)
  have hbr : ∀ i, HasDerivAt (r i) (rootTangent (c t₀) (coeffsTripleTangent (p t₀) dp (w' t₀) dw') (r i t₀)) t₀ := by
    intro i
    refine C18_root_tangent c _ 10 t₀ (r i) hlen (fun k _ => hcd k) (hrc i) ?_
      (deriv_ne_zero_of_nodup _ _ hroots.self_of_nhds hlead0 hsimple _ (hmem0 i))
    filter_upwards [hroots, hrp] with t k1 k2
    exact IsRootList.eval_zero_of_mem k1 (k2.1.mem_iff.mpr (List.mem_ofFn.mpr ⟨i, rfl⟩))
  have hdual0 := ev_dual.self_of_nhds.1
  have hrt0 : IsRootList (polyCoeffsTripleCM (w' t₀) (p t₀).a (r3Complex (p t₀)) (p t₀).e1 (p t₀).e2)
      (roots none (c t₀)) := by
    rw [← hc t₀]; exact hroots.self_of_nhds
  have hmain := sumMag_hasDerivAt (fun t => detJac3 (p t)) (detJac3Tangent (p t₀) dp) (fun t => lensEq3 (p t))
    (1 / 10 ^ 3) w' (fun t => (roots none (c t)).map (· + shift t)) z
    (fun i => rootTangent (c t₀) (coeffsTripleTangent (p t₀) dp (w' t₀) dw') (r i t₀) + shiftCMTangent (p t₀) dp)
    (hrp.mono fun t h => by
      have := h.1.map (· + shift t)
      rw [List.map_ofFn] at this
      exact this)
    (hpersist.mono fun t h i => (h i).1) (fun i hi => by
      obtain ⟨n1, n2, n3⟩ := (forall3 (p t₀) fun x => z i t₀ ≠ x).mp (hdual0 i).hz
      refine ⟨detJac3_deriv p dp (z i) _ had hed he2d hrd ((hbr i).fun_add hshd) n1 n2 n3, ?_⟩
      have hl : lensEq3 (p t₀) (z i t₀) = w' t₀ := by
        have := hsep _ (hmem0 i) (by rw [hS0]; norm_num at hi ⊢; exact hi.le)
        rw [hS0] at this
        exact this
      have himg : IsImage (midTriple (p t₀)) (w' t₀) (z i t₀) := by
        refine ⟨by simp [midTriple, n1, n2, n3], by rw [← lensEq3_eq]; exact hl⟩
      rw [← lensList3] at himg
      have hfix := ((isImage_iff_dual _ _ _ _).mp himg).2
      have hd := ((triple_roots (p t₀) (w' t₀) _ ha0 hl1 hl2 he0 he20 he30 hrt0 hw1 hw2 hw3 hsimple).1 _ (hmem0 i)).2
      change dualDet (mass3 (p t₀)) (pos3 (p t₀)) (w' t₀) (z i t₀) ≠ 0 at hd
      rw [dualDet_image _ _ _ _ hfix, lensList3] at hd
      have e : detJac3 (p t₀) (z i t₀) = detFormula (midTriple (p t₀)) (z i t₀) := detJac3_eq _ _
      rw [e]
      exact_mod_cast hd)
  have hphys : ∀ᶠ t in 𝓝 t₀, magPointSource roots 3 (u t) (w t)
      = .ok (pointMag (triple (u t).s (u t).q (u t).q3 (u t).r3 (u t).psi) (w t)) := by
    filter_upwards [ev_q, ev_q3, ev_w1, ev_w2, ev_w3, hroots, hrp, hpersist, ev_dual] with t k1 k1' k2 k2' k2'' k3 k4 k5 k6
    refine C06_triple_mag roots (u t) (w t) (by positivity) (by positivity) (c t) (hc t) (shift t) rfl k3
      (hlead t k2 k2' k2'') (k4.1.nodup_iff.mpr k4.2) ?_
    intro x hx hlt
    obtain ⟨i, rfl⟩ := List.mem_ofFn.mp (k4.1.mem_iff.mp hx)
    obtain ⟨n1, n2, n3⟩ := (forall3 (p t) fun y => z i t ≠ y).mp (k6.1 i).hz
    exact ⟨(k5 i).2 (by norm_num at hlt ⊢; exact hlt), n1, n2, n3⟩
  refine ⟨?_, hphys⟩
  have heq : (fun t => pointMag (triple (u t).s (u t).q (u t).q3 (u t).r3 (u t).psi) (w t)) =ᶠ[𝓝 t₀]
      fun t => sumMag (detJac3 (p t)) (withMask (lensEq3 (p t)) (1 / 10 ^ 3) (w' t)
        ((roots none (c t)).map (· + shift t))) := by
    filter_upwards [hphys] with t ht
    have e : magPointSource roots 3 (u t) (w t)
        = .ok (sumMag (detJac3 (p t)) (withMask (lensEq3 (p t)) (1 / 10 ^ 3) (w' t)
          ((roots none (c t)).map (· + shift t)))) := by
      simp [magPointSource, images3, hp, hw', hc, hshift]
    rw [e] at ht
    exact (Except.ok.inj ht).symm
  refine (hmain.congr_of_eventuallyEq heq).congr_deriv ?_
  unfold images3Jvp
  simp only
  rw [← hc t₀, hr0, List.map_ofFn]
  rfl

/-! ## Concrete cases -/

/-- The line through `u` in the direction `du`. -/
def lineU (u du : UserParams) (t : ℝ) : UserParams :=
  { s := u.s + t * du.s, q := u.q + t * du.q, q3 := u.q3 + t * du.q3, r3 := u.r3 + t * du.r3, psi := u.psi + t * du.psi }

theorem lineU_zero (u du : UserParams) : lineU u du 0 = u := by simp [lineU]

theorem line_deriv (x d : ℝ) : HasDerivAt (fun t : ℝ => x + t * d) d 0 := by
  simpa using ((hasDerivAt_id (0 : ℝ)).mul_const d).const_add x

theorem line_derivC (x d : ℂ) : HasDerivAt (fun t : ℝ => x + t * d) d 0 := by
  have h := (hasDerivAt_ofReal (hasDerivAt_id (0 : ℝ))).mul_const d
  simpa using h.const_add x

theorem perm_of_isRootList {c rs rs' : List ℂ} (h : IsRootList c rs) (h' : IsRootList c rs') (h0 : c.headD 0 ≠ 0) :
    rs.Perm rs' :=
  perm_of_prod_eq fun x => mul_left_cancel₀ h0 ((h x).symm.trans (h' x))

theorem eventually_rootList {F : List ℂ → List ℂ} (hF : ∀ c : List ℂ, c.headD 0 ≠ 0 → IsRootList c (F c))
    (c : ℝ → List ℂ) (hc : ContinuousAt (fun t => (c t).getD 0 0) t₀) (h0 : (c t₀).headD 0 ≠ 0) :
    ∀ᶠ t in 𝓝 t₀, IsRootList (c t) (F (c t)) := by
  have e : ∀ l : List ℂ, l.headD 0 = l.getD 0 0 := fun l => by cases l <;> rfl
  rw [e] at h0
  filter_upwards [hc.eventually_ne h0] with t ht
  exact hF _ (by rw [e]; exact ht)

/-- Equal-mass binary of unit separation, source at the centre: the gradient in every direction of `s`, `q` and source
position is the derivative of the magnification. -/
example : ∃ F : List ℂ → List ℂ, ∀ (du : UserParams) (dw : ℂ),
    ∃ T, magPointSourceTangent (fun _ => F) 2 exU du 0 dw = .ok T ∧
      HasDerivAt (fun t : ℝ => pointMag (binary (1 + t * du.s) (1 + t * du.q)) (t * dw)) T 0 := by
  obtain ⟨F, hF⟩ := exists_finder
  refine ⟨F, fun du dw => ?_⟩
  have hz := lineU_zero exU du
  have hx : ((0 : ℝ) : ℂ) * dw - (xCM (lineU exU du 0) : ℂ) = 0 := by rw [hz, exU_x]; simp
  have hsd := line_deriv exU.s du.s
  have hqd := line_deriv exU.q du.q
  have hwd : HasDerivAt (fun t : ℝ => (t : ℂ) * dw) dw 0 := by simpa using line_derivC 0 dw
  obtain ⟨had, hed, hxd⟩ := midParams2_deriv (t₀ := 0) (lineU exU du) du hsd hqd (by rw [hz]; norm_num [exU])
  have hcd := coeffsBinary_deriv (t₀ := 0) _ _ _ _ _ _ (hwd.fun_sub (hasDerivAt_ofReal hxd)) had hed 0
  have hhead : (polyCoeffsBinary (((0 : ℝ) : ℂ) * dw - (xCM (lineU exU du 0) : ℂ)) (midParams2 (lineU exU du 0)).a
      (midParams2 (lineU exU du 0)).e1).headD 0 ≠ 0 := by
    rw [(C04_binary_leading _ _ _).2, hx, hz, exU_a]; norm_num
  have hperm : (F (polyCoeffsBinary (((0 : ℝ) : ℂ) * dw - (xCM (lineU exU du 0) : ℂ)) (midParams2 (lineU exU du 0)).a
      (midParams2 (lineU exU du 0)).e1)).Perm exRoots := by
    refine perm_of_isRootList (hF _ hhead) ?_ hhead
    rw [hx, hz]; exact exRoots_isRootList
  obtain ⟨T, h1, h2, -⟩ := C89_binary (t₀ := 0) (fun _ => F) (lineU exU du) du (fun t => t * dw) dw hsd hqd hwd
    (by rw [hz]; norm_num [exU]) (by rw [hz]; norm_num [exU]) _ (fun t => rfl)
    (eventually_rootList hF _ hcd.continuousAt hhead)
    (by rw [hx, hz]; exact exU_lens.1) (by rw [hx, hz]; exact exU_lens.2)
    (hperm.nodup_iff.mpr exRoots_nodup)
    (fun r hr _ => by rw [hx, hz]; exact (exRoots_images r (hperm.mem_iff.mp hr)).1)
  refine ⟨T, ?_, h2⟩
  rw [hz] at h1
  simpa using h1

/-- Equilateral equal-mass triple, source at the centroid: the gradient in every direction. -/
example : ∃ F : List ℂ → List ℂ, ∀ (du : UserParams) (dw : ℂ),
    ∃ T, magPointSourceTangent (fun _ => F) 3 exT du exTw dw = .ok T ∧
      HasDerivAt (fun t : ℝ => pointMag (triple (exT.s + t * du.s) (1 + t * du.q) (1 + t * du.q3) (exT.r3 + t * du.r3)
        (exT.psi + t * du.psi)) (exTw + t * dw)) T 0 := by
  obtain ⟨F, hF⟩ := exists_finder
  refine ⟨F, fun du dw => ?_⟩
  obtain ⟨d1, d2, d3, d4, d5⟩ := exT_points
  have hs : exT.s ≠ 0 := by
    have : 0 < Real.sqrt 3 * (tm * tk) := mul_pos (Real.sqrt_pos.mpr (by norm_num)) (mul_pos tm_pos tk_pos)
    exact this.ne'
  have hz := lineU_zero exT du
  have hx : (exTw + ((0 : ℝ) : ℂ) * dw) - (xCM (lineU exT du 0) : ℂ) = exTw := by rw [hz, exT_x]; simp
  have hsd := line_deriv exT.s du.s
  have hqd := line_deriv exT.q du.q
  have hwd := line_derivC exTw dw
  obtain ⟨-, -, hxd⟩ := midParams2_deriv (t₀ := 0) (lineU exT du) du hsd hqd (by rw [hz]; norm_num [exT])
  obtain ⟨had, hed, he2d⟩ := midParams3_deriv (t₀ := 0) (lineU exT du) du hsd hqd (line_deriv exT.q3 du.q3)
    (by rw [hz]; norm_num [exT])
  have hcd := coeffsTriple_deriv (t₀ := 0) _ _ (fun t => midParams3 (lineU exT du t)) _
    (hwd.fun_sub (hasDerivAt_ofReal hxd)) had hed he2d (line_deriv exT.r3 du.r3) (line_deriv exT.psi du.psi) 0
  have hc0 : polyCoeffsTripleCM ((exTw + ((0 : ℝ) : ℂ) * dw) - (xCM (lineU exT du 0) : ℂ)) (midParams3 (lineU exT du 0)).a
      (r3Complex (midParams3 (lineU exT du 0))) (midParams3 (lineU exT du 0)).e1 (midParams3 (lineU exT du 0)).e2 = exTc := by
    rw [hx, hz]
  have hhead : exTc.headD 0 ≠ 0 := by
    rw [exTc_head]
    have : (tm : ℂ) ≠ 0 := by exact_mod_cast tm_pos.ne'
    simp [this]
  have hperm : (F exTc).Perm exRootsT := perm_of_isRootList (hF _ hhead) exRootsT_isRootList hhead
  obtain ⟨T, h1, h2, -⟩ := C89_triple (t₀ := 0) (fun _ => F) (lineU exT du) du (fun t => exTw + t * dw) dw hsd hqd
    (line_deriv exT.q3 du.q3) (line_deriv exT.r3 du.r3) (line_deriv exT.psi du.psi) hwd
    (by rw [hz]; exact hs) (by rw [hz]; norm_num [exT]) (by rw [hz]; norm_num [exT]) (by rw [hz]; exact d1)
    (by rw [hz]; exact d2) _ (fun t => rfl) _ rfl
    (eventually_rootList hF _ hcd.continuousAt (by rw [hc0]; exact hhead))
    (by rw [hx, hz]; exact d3) (by rw [hx, hz]; exact d4) (by rw [hx, hz]; exact d5)
    (by rw [hc0]; exact hperm.nodup_iff.mpr exRootsT_nodup)
    (fun r hr _ => by
      rw [hc0] at hr
      rw [hx, hz, exT_S]; exact (exRootsT_images r (hperm.mem_iff.mp hr)).1)
  refine ⟨T, ?_, h2⟩
  rw [hz] at h1
  simpa using h1

end Microjax.Props
