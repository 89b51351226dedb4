import Verif.Lemmas.SmallSource
import Mathlib.Topology.Homotopy.Lifting
import Mathlib.Topology.Maps.Proper.CompactlyGenerated
import Mathlib.Analysis.Convex.Contractible
import Mathlib.Analysis.Calculus.InverseFunctionTheorem.ContDiff
import Mathlib.Analysis.Normed.Module.Convex

/-!
# The images of a disc of sources without caustics

Over a disc that no caustic meets, the images are smooth functions of the source position: one function for each image of
the centre, with pairwise disjoint values, and together they are all the images.
-/

noncomputable section

namespace Microjax.Props

open Complex ComplexConjugate Microjax.Spec Filter Set
open scoped Topology

/-- The plane without the lenses. -/
abbrev OffLens (L : Lenses) := {z : ℂ // ∀ l ∈ L, z ≠ l.2}

/-- The lens map on the plane without the lenses. -/
def lensOff (L : Lenses) (z : OffLens L) : ℂ := lensMap L z.1

theorem continuous_lensOff (L : Lenses) : Continuous (lensOff L) := by
  rw [continuous_iff_continuousAt]
  intro z
  exact (contDiffAt_lensMap L z.1 z.2).continuousAt.comp continuous_subtype_val.continuousAt

theorem isClosedMap_lensOff (L : Lenses) (hm : ∀ l ∈ L, l.1 ≠ 0) (hL : (L.map Prod.snd).Nodup) : IsClosedMap (lensOff L) := by
  refine IsProperMap.isClosedMap (isProperMap_iff_isCompact_preimage.mpr ⟨continuous_lensOff L, fun T hT => ?_⟩)
  choose K hK1 hK2 hK3 using preimage_compact L hm hL
  obtain ⟨F, hF, hFT⟩ := hT.elim_nhds_subcover (fun w => Metric.ball w 1) fun w _ => Metric.ball_mem_nhds w one_pos
  have hc : IsCompact (⋃ w ∈ F, ((Subtype.val : OffLens L → ℂ) ⁻¹' K w)) := by
    refine F.isCompact_biUnion fun w _ => ?_
    rw [Subtype.isCompact_iff]
    have : (Subtype.val : OffLens L → ℂ) '' (Subtype.val ⁻¹' K w) = K w := by
      ext z
      constructor
      · rintro ⟨x, hx, rfl⟩; exact hx
      · intro hz; exact ⟨⟨z, hK2 w z hz⟩, hz, rfl⟩
    rw [this]; exact hK1 w
  refine hc.of_isClosed_subset (hT.isClosed.preimage (continuous_lensOff L)) fun z hz => ?_
  obtain ⟨w, hw, hzw⟩ := mem_iUnion₂.mp (hFT hz)
  refine mem_iUnion₂.mpr ⟨w, hw, hK3 w z.1 z.2 ?_⟩
  rw [Metric.mem_ball, dist_eq_norm] at hzw
  exact hzw

theorem isLocalHomeomorphOn_lensOff (L : Lenses) (S : Set ℂ) (hS : ∀ w ∈ S, ∀ z, IsImage L w z → ‖shear L z‖ ≠ 1) :
    IsLocalHomeomorphOn (lensOff L) (lensOff L ⁻¹' S) := by
  intro z hz
  have hs := (contDiffAt_lensMap L z.1 z.2).hasStrictFDerivAt one_ne_zero
  rw [(hasFDerivAt_lensMap L z.1 z.2).fderiv] at hs
  have hdet : (antiLin (-shear L z.1)).det ≠ 0 := by
    rw [antiLin_det, norm_neg]
    intro h0
    exact hS _ hz z.1 ⟨z.2, rfl⟩ ((pow_eq_one_iff_of_nonneg (norm_nonneg _) two_ne_zero).mp (by linarith))
  rw [← ContinuousLinearMap.coe_toContinuousLinearEquivOfDetNeZero _ hdet] at hs
  have : Nonempty (OffLens L) := ⟨z⟩
  set e := (isOpen_offLens L).isOpenEmbedding_subtypeVal.toOpenPartialHomeomorph (Subtype.val : OffLens L → ℂ) with he
  refine ⟨e.trans (hs.toOpenPartialHomeomorph _), ?_, ?_⟩
  · simp [he, hs.mem_toOpenPartialHomeomorph_source]
  · ext x; simp [he, lensOff]

theorem covering_lensOff (L : Lenses) (hm : ∀ l ∈ L, l.1 ≠ 0) (hL : (L.map Prod.snd).Nodup) (S : Set ℂ)
    (hS : ∀ w ∈ S, ∀ z, IsImage L w z → ‖shear L z‖ ≠ 1) : IsCoveringMapOn (lensOff L) S := by
  refine (isClosedMap_lensOff L hm hL).isCoveringMapOn_of_isLocalHomeomorphOn (fun w hw => ?_)
    (isLocalHomeomorphOn_lensOff L S hS)
  refine Finite.of_finite_image ((images_finite L w (hS w hw)).subset ?_) Subtype.val_injective.injOn
  rintro _ ⟨z, hz, rfl⟩
  exact ⟨z.2, hz⟩

/-- A disc of sources without caustics: through every image of every source of the disc passes exactly one continuous choice
of an image of all sources of the disc. -/
theorem exists_section (L : Lenses) (hm : ∀ l ∈ L, l.1 ≠ 0) (hL : (L.map Prod.snd).Nodup) (w : ℂ) (R : ℝ)
    (hS : ∀ y ∈ Metric.ball w R, ∀ z, IsImage L y z → ‖shear L z‖ ≠ 1) (y z : ℂ) (hy : y ∈ Metric.ball w R) (hz : IsImage L y z) :
    ∃ g : ℂ → ℂ, g y = z ∧ ContinuousOn g (Metric.ball w R) ∧ (∀ x ∈ Metric.ball w R, IsImage L x (g x)) ∧
      ∀ g' : ℂ → ℂ, g' y = z → ContinuousOn g' (Metric.ball w R) → (∀ x ∈ Metric.ball w R, IsImage L x (g' x)) →
        ∀ x ∈ Metric.ball w R, g' x = g x := by
  classical
  set B := Metric.ball w R with hB
  have : ContractibleSpace B := (convex_ball w R).contractibleSpace ⟨y, hy⟩
  have : LocallyPathConnectedSpace B := Metric.isOpen_ball.locallyPathConnectedSpace
  have hcov := covering_lensOff L hm hL B hS
  obtain ⟨F, ⟨hF1, hF2⟩, hF3⟩ := hcov.existsUnique_continuousMap_lifts (A := B) ⟨Subtype.val, continuous_subtype_val⟩
    (a₀ := ⟨y, hy⟩) (e₀ := ⟨z, hz.1⟩) hz.2 fun a => a.2
  refine ⟨fun x => if h : x ∈ B then (F ⟨x, h⟩).1 else 0, by simp [hy, hF1], ?_, ?_, ?_⟩
  · rw [continuousOn_iff_continuous_domRestrict]
    have : B.domRestrict (fun x => if h : x ∈ B then (F ⟨x, h⟩).1 else 0) = fun x : B => (F x).1 := by
      ext x; simp [Set.domRestrict]
    rw [this]
    exact continuous_subtype_val.comp F.continuous
  · intro x hx
    simp only [hx, dif_pos]
    refine ⟨(F ⟨x, hx⟩).2, ?_⟩
    exact congrFun hF2 ⟨x, hx⟩
  · intro g' h1 h2 h3 x hx
    have := hF3 ⟨fun a => ⟨g' a.1, (h3 a.1 a.2).1⟩, by
      refine Continuous.subtype_mk ?_ _
      exact continuousOn_iff_continuous_domRestrict.mp h2⟩ ⟨by ext; simp [h1], by
        ext a; exact (h3 a.1 a.2).2⟩
    simp only [hx, dif_pos, ← this]
    rfl

theorem contDiffAt_lensMap_two (L : Lenses) (z : ℂ) (h : ∀ l ∈ L, z ≠ l.2) : ContDiffAt ℝ 2 (lensMap L) z := by
  unfold lensMap
  refine contDiffAt_id.sub ?_
  induction L with
  | nil => simpa using contDiffAt_const
  | cons l L ih =>
    simp only [List.map_cons, List.sum_cons]
    refine ContDiffAt.add ?_ (ih fun k hk => h k (List.mem_cons_of_mem _ hk))
    have h1 : ContDiffAt ℝ 2 (fun x : ℂ => conj x - conj l.2) z := by
      have : ContDiff ℝ 2 fun x : ℂ => conj x := Complex.conjCLE.contDiff
      exact this.contDiffAt.sub contDiffAt_const
    have h2 : conj z - conj l.2 ≠ 0 := by
      rw [← map_sub, ne_eq, map_eq_zero]
      exact sub_ne_zero.mpr (h l List.mem_cons_self)
    simp only [div_eq_mul_inv]
    exact contDiffAt_const.mul (h1.inv h2)

/-- A continuous choice of images of sources near a regular one is twice continuously differentiable, and its Jacobian
determinant is the reciprocal of that of the lens map. -/
theorem section_smooth (L : Lenses) (g : ℂ → ℂ) (y : ℂ) (hc : ContinuousAt g y) (hg : ∀ᶠ x in 𝓝 y, IsImage L x (g x))
    (hd : ‖shear L (g y)‖ ≠ 1) : ContDiffAt ℝ 2 g y ∧ (fderiv ℝ g y).det = 1 / jacDet (lensMap L) (g y) ∧
      ‖fderiv ℝ g y‖ ≤ 1 / |1 - ‖shear L (g y)‖| := by
  have hy := hg.self_of_nhds
  have hs := (contDiffAt_lensMap_two L (g y) hy.1)
  have hF := hasFDerivAt_lensMap L (g y) hy.1
  have hdet : (antiLin (-shear L (g y))).det ≠ 0 := by
    rw [antiLin_det, norm_neg]
    intro h0
    exact hd ((pow_eq_one_iff_of_nonneg (norm_nonneg _) two_ne_zero).mp (by linarith))
  rw [← ContinuousLinearMap.coe_toContinuousLinearEquivOfDetNeZero _ hdet] at hF
  have hinv := hs.to_localInverse hF (by norm_num)
  have hst := hs.hasStrictFDerivAt' hF (by norm_num)
  have hev : ∀ᶠ x in 𝓝 y, g x = hst.localInverse _ _ _ x := by
    have h1 := hc.eventually hst.eventually_left_inverse
    filter_upwards [h1, hg] with x h2 h3
    rw [h3.2] at h2
    exact h2.symm
  rw [hy.2] at hinv
  have hsm : ContDiffAt ℝ 2 g y := hinv.congr_of_eventuallyEq hev
  have hdg : HasFDerivAt g (fderiv ℝ g y) y := (hsm.differentiableAt (by norm_num)).hasFDerivAt
  -- the derivative of the composition is the identity
  have hF' := hasFDerivAt_lensMap L (g y) hy.1
  have hcomp : (antiLin (-shear L (g y))).comp (fderiv ℝ g y) = ContinuousLinearMap.id ℝ ℂ := by
    refine (hF'.comp y hdg).unique ((hasFDerivAt_id y).congr_of_eventuallyEq ?_)
    filter_upwards [hg] with x hx
    exact hx.2
  refine ⟨hsm, ?_, ?_⟩
  · have h1 : (antiLin (-shear L (g y))).det * (fderiv ℝ g y).det = 1 := by
      have := congrArg (fun A : ℂ →L[ℝ] ℂ => A.det) hcomp
      simp only [ContinuousLinearMap.det, ContinuousLinearMap.coe_id, LinearMap.det_id] at this
      rw [← this]
      exact (LinearMap.det_comp _ _).symm
    rw [jacDet, hF'.fderiv, eq_div_iff hdet, mul_comm]
    exact h1
  · refine ContinuousLinearMap.opNorm_le_bound _ (by positivity) fun v => ?_
    have h1 : antiLin (-shear L (g y)) (fderiv ℝ g y v) = v := congrArg (fun A : ℂ →L[ℝ] ℂ => A v) hcomp
    rw [antiLin_apply] at h1
    set x := fderiv ℝ g y v
    set c := shear L (g y)
    have hpos : 0 < |1 - ‖c‖| := abs_pos.mpr (sub_ne_zero.mpr (Ne.symm hd))
    have h2 : |1 - ‖c‖| * ‖x‖ ≤ ‖v‖ := by
      have h3 := abs_norm_sub_norm_le x (-c * conj x)
      rw [h1, norm_mul, norm_neg, norm_conj] at h3
      have : |‖x‖ - ‖c‖ * ‖x‖| = |1 - ‖c‖| * ‖x‖ := by
        rw [← one_sub_mul, abs_mul, abs_norm]
      linarith
    rw [one_div, inv_mul_eq_div, le_div_iff₀ hpos, mul_comm]
    exact h2

/-- The images of a disc without caustics are the disjoint union of the values of the continuous choices through the images
of the centre. -/
theorem disc_sections (L : Lenses) (hm : ∀ l ∈ L, l.1 ≠ 0) (hL : (L.map Prod.snd).Nodup) (w : ℂ) (R : ℝ) (hR : 0 < R)
    (hS : ∀ y ∈ Metric.ball w R, ∀ z, IsImage L y z → ‖shear L z‖ ≠ 1) :
    ∃ g : ℂ → ℂ → ℂ, (∀ z0, IsImage L w z0 → g z0 w = z0 ∧ ContinuousOn (g z0) (Metric.ball w R) ∧
        ∀ x ∈ Metric.ball w R, IsImage L x (g z0 x)) ∧
      ∀ y ∈ Metric.ball w R, ∀ z, IsImage L y z → ∃! z0, IsImage L w z0 ∧ g z0 y = z := by
  classical
  have hw : w ∈ Metric.ball w R := Metric.mem_ball_self hR
  have h : ∀ z0, ∃ g : ℂ → ℂ, IsImage L w z0 → g w = z0 ∧ ContinuousOn g (Metric.ball w R) ∧
      (∀ x ∈ Metric.ball w R, IsImage L x (g x)) ∧
      ∀ g' : ℂ → ℂ, g' w = z0 → ContinuousOn g' (Metric.ball w R) → (∀ x ∈ Metric.ball w R, IsImage L x (g' x)) →
        ∀ x ∈ Metric.ball w R, g' x = g x := by
    intro z0
    by_cases hz0 : IsImage L w z0
    · obtain ⟨g, hg⟩ := exists_section L hm hL w R hS w z0 hw hz0
      exact ⟨g, fun _ => hg⟩
    · exact ⟨id, fun h => absurd h hz0⟩
  choose g hg using h
  refine ⟨g, fun z0 hz0 => ⟨(hg z0 hz0).1, (hg z0 hz0).2.1, (hg z0 hz0).2.2.1⟩, fun y hy z hz => ?_⟩
  obtain ⟨f, f1, f2, f3, f4⟩ := exists_section L hm hL w R hS y z hy hz
  refine ⟨f w, ⟨f3 w hw, ?_⟩, ?_⟩
  · rw [← (hg (f w) (f3 w hw)).2.2.2 f rfl f2 f3 y hy, f1]
  · rintro z0 ⟨k1, k2⟩
    obtain ⟨g1, g2, g3, -⟩ := hg z0 k1
    rw [← f4 (g z0) k2 g2 g3 w hw, g1]

end Microjax.Props
