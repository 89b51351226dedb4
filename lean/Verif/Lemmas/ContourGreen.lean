import Verif.Lemmas.ImageSections
import Verif.Lemmas.GreenDisc
import Verif.Spec.ExtendedSource

/-!
# The image area of a disc without caustics as a sum of contour integrals
-/

noncomputable section

namespace Microjax.Props

open Complex ComplexConjugate Microjax.Spec MeasureTheory Filter Set
open scoped Topology

/-- A continuous function without zeros on a disc has the same sign everywhere. -/
theorem sign_const (w : ℂ) (R : ℝ) (f : ℂ → ℝ) (hf : ContinuousOn f (Metric.ball w R)) (h0 : ∀ y ∈ Metric.ball w R, f y ≠ 0)
    (x y : ℂ) (hx : x ∈ Metric.ball w R) (hy : y ∈ Metric.ball w R) : SignType.sign (f x) = SignType.sign (f y) := by
  have hc : IsPreconnected (Metric.ball w R) := (convex_ball w R).isPreconnected
  have key : ∀ a b, a ∈ Metric.ball w R → b ∈ Metric.ball w R → 0 < f a → f b < 0 → False := by
    intro a b ha hb h1 h2
    obtain ⟨c, hc1, hc2⟩ := hc.intermediate_value hb ha hf ⟨h2.le, h1.le⟩
    exact h0 c hc1 hc2
  rcases lt_or_gt_of_ne (h0 x hx) with h1 | h1 <;> rcases lt_or_gt_of_ne (h0 y hy) with h2 | h2
  · rw [sign_neg h1, sign_neg h2]
  · exact (key y x hy hx h2 h1).elim
  · exact (key x y hx hy h1 h2).elim
  · rw [sign_pos h1, sign_pos h2]

/-- A continuous choice of images of the sources of a disc. -/
structure DiscSection (L : Lenses) (w : ℂ) (R : ℝ) (g : ℂ → ℂ) : Prop where
  cont : ContinuousOn g (Metric.ball w R)
  img : ∀ x ∈ Metric.ball w R, IsImage L x (g x)
  reg : ∀ x ∈ Metric.ball w R, ‖shear L (g x)‖ ≠ 1

namespace DiscSection

variable {L : Lenses} {w : ℂ} {R : ℝ} {g : ℂ → ℂ}

theorem smooth (h : DiscSection L w R g) (y : ℂ) (hy : y ∈ Metric.ball w R) : ContDiffAt ℝ 2 g y ∧
    (fderiv ℝ g y).det = 1 / jacDet (lensMap L) (g y) ∧ ‖fderiv ℝ g y‖ ≤ 1 / |1 - ‖shear L (g y)‖| :=
  section_smooth L g y (h.cont.continuousAt (Metric.isOpen_ball.mem_nhds hy))
    (eventually_of_mem (Metric.isOpen_ball.mem_nhds hy) h.img) (h.reg y hy)

theorem det_ne (h : DiscSection L w R g) (y : ℂ) (hy : y ∈ Metric.ball w R) : jacDet (lensMap L) (g y) ≠ 0 := by
  rw [jacDet, (hasFDerivAt_lensMap L _ (h.img y hy).1).fderiv, antiLin_det, norm_neg]
  intro h0
  exact h.reg y hy ((pow_eq_one_iff_of_nonneg (norm_nonneg _) two_ne_zero).mp (by linarith))

theorem injOn (h : DiscSection L w R g) : InjOn g (Metric.ball w R) := by
  intro x hx y hy hxy
  rw [← (h.img x hx).2, ← (h.img y hy).2, hxy]

/-- The parity of the image is the same for all sources of the disc. -/
theorem parity (h : DiscSection L w R g) (x y : ℂ) (hx : x ∈ Metric.ball w R) (hy : y ∈ Metric.ball w R) :
    SignType.sign (jacDet (lensMap L) (g x)) = SignType.sign (jacDet (lensMap L) (g y)) := by
  refine sign_const w R (fun x => jacDet (lensMap L) (g x)) ?_ (fun y hy => h.det_ne y hy) x y hx hy
  have e : ∀ y ∈ Metric.ball w R, jacDet (lensMap L) (g y) = 1 - ‖shear L (g y)‖ ^ 2 := fun y hy => by
    rw [jacDet, (hasFDerivAt_lensMap L _ (h.img y hy).1).fderiv, antiLin_det, norm_neg]
  refine ContinuousOn.congr (f := fun y => 1 - ‖shear L (g y)‖ ^ 2) ?_ e
  intro y hy
  have h1 : ContinuousAt (fun y => shear L (g y)) y :=
    ContinuousAt.comp (g := shear L) (continuousAt_shear L (g y) (h.img y hy).1)
      (h.cont.continuousAt (Metric.isOpen_ball.mem_nhds hy))
  exact (continuousAt_const.sub (h1.norm.pow 2)).continuousWithinAt

/-- The area of one image of the disc. -/
theorem area (h : DiscSection L w R g) (r : ℝ) (hr : 0 < r) (hrR : r < R) (σ : ℝ)
    (hσ : σ = (SignType.sign (jacDet (lensMap L) (g w)) : ℝ)) :
    volume.real (g '' Metric.ball w r) = σ * ((1 / 2) * ∫ θ in (-Real.pi)..Real.pi,
      (conj (g (polarAt w (r, θ))) * deriv (fun t : ℝ => g (polarAt w (r, t))) θ).im) := by
  have hsub : Metric.ball w r ⊆ Metric.ball w R := Metric.ball_subset_ball hrR.le
  have hw : w ∈ Metric.ball w R := Metric.mem_ball_self (hr.trans hrR)
  rw [green_disc g w r R hr hrR fun y hy => (h.smooth y hy).1]
  have h1 := integral_image_eq_integral_abs_det_fderiv_smul volume (s := Metric.ball w r) (f := g)
    (f' := fun y => fderiv ℝ g y) Metric.isOpen_ball.measurableSet
    (fun y hy => (((h.smooth y (hsub hy)).1.differentiableAt (by norm_num)).hasFDerivAt).hasFDerivWithinAt)
    (h.injOn.mono hsub) (fun _ => (1 : ℝ))
  rw [setIntegral_const, smul_eq_mul, mul_one] at h1
  rw [h1]
  have h2 : ∫ y in Metric.ball w r, |(fderiv ℝ g y).det| • (1 : ℝ) = ∫ y in Metric.ball w r, σ * (fderiv ℝ g y).det := by
    refine setIntegral_congr_fun Metric.isOpen_ball.measurableSet fun y hy => ?_
    have e := h.parity w y hw (hsub hy)
    simp only [smul_eq_mul, mul_one]
    rw [hσ, e, (h.smooth y (hsub hy)).2.1]
    rcases lt_or_gt_of_ne (h.det_ne y (hsub hy)) with k | k
    · rw [sign_neg k, abs_of_neg (one_div_neg.mpr k)]; simp
    · rw [sign_pos k, abs_of_pos (one_div_pos.mpr k)]; simp
  rw [h2, integral_const_mul]
  ring

end DiscSection

/-- The images of a disc without caustics: their total area is the sum, over the images of the centre, of the contour
integrals along the images of the circle, each with the parity of the image. -/
theorem imageArea_contours (L : Lenses) (hm : ∀ l ∈ L, l.1 ≠ 0) (hL : (L.map Prod.snd).Nodup) (w : ℂ) (r R : ℝ) (hr : 0 < r)
    (hrR : r < R) (hS : ∀ y ∈ Metric.ball w R, ∀ z, IsImage L y z → ‖shear L z‖ ≠ 1) :
    ∃ (I : Finset ℂ) (g : ℂ → ℂ → ℂ), (∀ z, z ∈ I ↔ IsImage L w z) ∧ (∀ z0 ∈ I, g z0 w = z0 ∧ DiscSection L w R (g z0)) ∧
      (∀ y ∈ Metric.ball w R, ∀ z, IsImage L y z → ∃! z0, z0 ∈ I ∧ g z0 y = z) ∧
      volume.real (imageOfDisc L w r) = ∑ z0 ∈ I, (SignType.sign (jacDet (lensMap L) z0) : ℝ) *
        ((1 / 2) * ∫ θ in (-Real.pi)..Real.pi,
          (conj (g z0 (polarAt w (r, θ))) * deriv (fun t : ℝ => g z0 (polarAt w (r, t))) θ).im) := by
  have hR := hr.trans hrR
  have hw : w ∈ Metric.ball w R := Metric.mem_ball_self hR
  obtain ⟨g, hg1, hg2⟩ := disc_sections L hm hL w R hR hS
  have hfin := images_finite L w (hS w hw)
  have hI : ∀ z, z ∈ hfin.toFinset ↔ IsImage L w z := fun z => by simp
  have hsec : ∀ z0 ∈ hfin.toFinset, g z0 w = z0 ∧ DiscSection L w R (g z0) := fun z0 hz0 => by
    obtain ⟨k1, k2, k3⟩ := hg1 z0 ((hI z0).mp hz0)
    exact ⟨k1, k2, k3, fun x hx => hS x hx _ (k3 x hx)⟩
  have huniq : ∀ y ∈ Metric.ball w R, ∀ z, IsImage L y z → ∃! z0, z0 ∈ hfin.toFinset ∧ g z0 y = z := by
    intro y hy z hz
    simpa only [hI] using hg2 y hy z hz
  refine ⟨hfin.toFinset, g, hI, hsec, huniq, ?_⟩
  have hsub : Metric.ball w r ⊆ Metric.ball w R := Metric.ball_subset_ball hrR.le
  have hset : imageOfDisc L w r = ⋃ z0 ∈ hfin.toFinset, g z0 '' Metric.ball w r := by
    ext z
    constructor
    · rintro ⟨h1, h2⟩
      have hy : lensMap L z ∈ Metric.ball w r := by rwa [Metric.mem_ball, dist_eq_norm]
      obtain ⟨z0, ⟨k1, k2⟩, -⟩ := huniq _ (hsub hy) z ⟨h1, rfl⟩
      exact mem_iUnion₂.mpr ⟨z0, k1, _, hy, k2⟩
    · intro hz
      obtain ⟨z0, k1, y, hy, rfl⟩ := mem_iUnion₂.mp hz
      have := (hsec z0 k1).2.img y (hsub hy)
      refine ⟨this.1, ?_⟩
      rw [this.2, ← dist_eq_norm]; exact hy
  have hmeas : ∀ z0 ∈ hfin.toFinset, MeasurableSet (g z0 '' Metric.ball w r) := fun z0 hz0 =>
    measurable_image_of_fderivWithin Metric.isOpen_ball.measurableSet
      (fun y hy => ((((hsec z0 hz0).2.smooth y (hsub hy)).1.differentiableAt (by norm_num)).hasFDerivAt).hasFDerivWithinAt)
      ((hsec z0 hz0).2.injOn.mono hsub)
  have hdisj : (hfin.toFinset : Set ℂ).PairwiseDisjoint fun z0 => g z0 '' Metric.ball w r := by
    intro a ha b hb hab
    rw [Function.onFun, Set.disjoint_left]
    rintro _ ⟨x, hx, rfl⟩ ⟨y, hy, hxy⟩
    have h1 := ((hsec a ha).2.img x (hsub hx))
    have h2 := ((hsec b hb).2.img y (hsub hy))
    have hxy' : y = x := by rw [← h2.2, hxy, h1.2]
    subst hxy'
    exact hab ((huniq y (hsub hx) (g a y) h1).unique ⟨ha, rfl⟩ ⟨hb, hxy⟩)
  rw [hset, measureReal_biUnion_finset hdisj hmeas (fun z0 hz0 => ?_)]
  · refine Finset.sum_congr rfl fun z0 hz0 => ?_
    refine (hsec z0 hz0).2.area r hr hrR _ ?_
    rw [(hsec z0 hz0).1]
  · have := (hsec z0 hz0).2
    have hc : IsCompact (g z0 '' Metric.closedBall w r) := (isCompact_closedBall w r).image_of_continuousOn
      (this.cont.mono (Metric.closedBall_subset_ball hrR))
    exact ((measure_mono (image_mono Metric.ball_subset_closedBall)).trans_lt hc.measure_lt_top).ne

end Microjax.Props
