import Verif.Lemmas.AreaFormula
import Verif.Props.FarField
import Mathlib.MeasureTheory.Integral.Average

/-!
# C110: extended sources are averages of point sources

`mag_uniform` and `mag_limb_dark` shoot rays from the image plane and never look at point sources;
`mag_point_source` solves a polynomial for one position.  The limits of the former are the means of the true
point-source magnification over the disc, and hence bounded by the values of the latter.
-/

noncomputable section

namespace Microjax.Props

open Complex ComplexConjugate Microjax.PointSource Microjax.ExtendedSource Microjax.Spec Filter MeasureTheory
open scoped Topology ENNReal

theorem pointMag_nonneg (L : Lenses) (w : ℂ) : 0 ≤ pointMag L w :=
  finsum_nonneg fun z => finsum_nonneg fun _ => by positivity

/-- The distribution of the lens map has the point-source magnification as its density. -/
theorem map_lensMap (L : Lenses) : ∃ M : ℂ → ℝ≥0∞, Measurable M ∧ (∀ᵐ y, M y = ENNReal.ofReal (pointMag L y)) ∧
    Measure.map (lensMap L) volume = volume.withDensity M := by
  obtain ⟨M, hM, hae, hint⟩ := flux_images L
  refine ⟨M, hM, hae, Measure.ext fun s hs => ?_⟩
  rw [← lintegral_indicator_one hs, lintegral_map (measurable_one.indicator hs) (measurable_lensMap L),
    hint _ (measurable_one.indicator hs), withDensity_apply _ hs, ← lintegral_indicator hs]
  refine lintegral_congr fun y => ?_
  by_cases h : y ∈ s <;> simp [h]

/-- The flux of the images of a source of brightness `g` is the flux of the source weighted with the magnification. -/
theorem integral_lensMap (L : Lenses) (g : ℂ → ℝ) (hg : Measurable g) :
    ∫ z, g (lensMap L z) = ∫ y, pointMag L y * g y := by
  obtain ⟨M, hM, hae, hmap⟩ := map_lensMap L
  rw [← integral_map (measurable_lensMap L).aemeasurable hg.aestronglyMeasurable, hmap,
    integral_withDensity_eq_integral_toReal_smul hM (by
      filter_upwards [hae] with y hy
      rw [hy]; exact ENNReal.ofReal_lt_top)]
  refine integral_congr_ae ?_
  filter_upwards [hae] with y hy
  rw [hy, ENNReal.toReal_ofReal (pointMag_nonneg L y), smul_eq_mul]

theorem setIntegral_lensMap (L : Lenses) (g : ℂ → ℝ) (hg : Measurable g) (w : ℂ) (rho : ℝ) :
    ∫ z in imageOfDisc L w rho, g (lensMap L z) = ∫ y in Metric.ball w rho, pointMag L y * g y := by
  have h := integral_lensMap L ((Metric.ball w rho).indicator g) (hg.indicator measurableSet_ball)
  rw [← integral_indicator measurableSet_ball, ← integral_indicator (measurableSet_imageOfDisc L w rho)]
  refine Eq.trans (integral_congr_ae ?_) (h.trans (integral_congr_ae (Eventually.of_forall fun y => ?_)))
  · filter_upwards [lenses_null L] with z hz
    by_cases hb : lensMap L z ∈ Metric.ball w rho
    · rw [Set.indicator_of_mem hb, Set.indicator_of_mem]
      exact ⟨hz, by simpa [dist_eq_norm] using hb⟩
    · rw [Set.indicator_of_notMem hb, Set.indicator_of_notMem]
      exact fun h => hb (by simpa [dist_eq_norm] using h.2)
  · by_cases hb : y ∈ Metric.ball w rho <;> simp [hb]

/-- The magnification is integrable over every disc, in particular across the caustics. -/
theorem integrableOn_pointMag (L : Lenses) (w : ℂ) (rho : ℝ) : IntegrableOn (pointMag L) (Metric.ball w rho) := by
  obtain ⟨M, hM, hae, hint⟩ := flux_images L
  have hmeas : AEStronglyMeasurable (pointMag L) (volume.restrict (Metric.ball w rho)) := by
    refine AEStronglyMeasurable.congr (f := fun y => (M y).toReal) hM.ennreal_toReal.aestronglyMeasurable ?_
    filter_upwards [ae_restrict_of_ae hae] with y hy
    rw [hy, ENNReal.toReal_ofReal (pointMag_nonneg L y)]
  refine ⟨hmeas, ?_⟩
  rw [hasFiniteIntegral_iff_ofReal (Eventually.of_forall fun y => pointMag_nonneg L y)]
  have h1 := hint ((Metric.ball w rho).indicator 1) (measurable_one.indicator measurableSet_ball)
  have h2 : ∫⁻ y in Metric.ball w rho, ENNReal.ofReal (pointMag L y)
      = ∫⁻ y, (Metric.ball w rho).indicator 1 y * M y := by
    rw [← lintegral_indicator measurableSet_ball]
    refine lintegral_congr_ae ?_
    filter_upwards [hae] with y hy
    by_cases hb : y ∈ Metric.ball w rho <;> simp [hb, hy]
  rw [h2, ← h1]
  refine lt_of_le_of_lt ?_ (volume_imageOfDisc_ne_top L w rho).lt_top
  rw [← lintegral_indicator_one (measurableSet_imageOfDisc L w rho)]
  refine le_of_eq (lintegral_congr_ae ?_)
  filter_upwards [lenses_null L] with z hz
  by_cases hb : lensMap L z ∈ Metric.ball w rho
  · rw [Set.indicator_of_mem hb, Set.indicator_of_mem]
    · rfl
    · exact ⟨hz, by simpa [dist_eq_norm] using hb⟩
  · rw [Set.indicator_of_notMem hb, Set.indicator_of_notMem]
    exact fun h => hb (by simpa [dist_eq_norm] using h.2)

/-- The magnification of a uniform disc is the mean of the point-source magnification over the disc. -/
theorem uniformMag_eq_average (L : Lenses) (w : ℂ) (rho : ℝ) :
    uniformMag L w rho = ⨍ y in Metric.ball w rho, pointMag L y := by
  have h := setIntegral_lensMap L (fun _ => 1) measurable_const w rho
  rw [setAverage_eq, smul_eq_mul, uniformMag]
  simp only [integral_const, smul_eq_mul, mul_one, measureReal_restrict_apply_univ] at h
  rw [h, div_eq_inv_mul]

/-- The magnification of a limb-darkened disc is the mean weighted with the brightness. -/
theorem limbMag_eq_average (L : Lenses) (w : ℂ) (rho u1 : ℝ) :
    limbMag L w rho u1 = (∫ y in Metric.ball w rho, pointMag L y * brightness u1 (‖y - w‖ / rho)) /
      ∫ y in Metric.ball w rho, brightness u1 (‖y - w‖ / rho) := by
  have h := setIntegral_lensMap L (fun y => brightness u1 (‖y - w‖ / rho))
    ((measurable_brightness u1).comp (((measurable_id.sub_const w).norm).div_const rho)) w rho
  rw [limbMag, h]

theorem volume_ball_real_pos (w : ℂ) (rho : ℝ) (hrho : 0 < rho) : 0 < volume.real (Metric.ball w rho) := by
  rw [measureReal_def]
  exact ENNReal.toReal_pos (Metric.measure_ball_pos _ _ hrho).ne' measure_ball_lt_top.ne

theorem uniformMag_le (L : Lenses) (w : ℂ) (rho B : ℝ) (hrho : 0 < rho)
    (h : ∀ᵐ y, y ∈ Metric.ball w rho → pointMag L y ≤ B) : uniformMag L w rho ≤ B := by
  have hv := volume_ball_real_pos w rho hrho
  rw [uniformMag_eq_average, setAverage_eq, smul_eq_mul, inv_mul_le_iff₀ hv]
  have h1 : ∫ y in Metric.ball w rho, pointMag L y ≤ ∫ _ in Metric.ball w rho, B :=
    setIntegral_mono_on_ae (integrableOn_pointMag L w rho) (integrableOn_const measure_ball_lt_top.ne) measurableSet_ball h
  rwa [setIntegral_const, smul_eq_mul] at h1

theorem limbMag_le (L : Lenses) (w : ℂ) (rho u1 B : ℝ) (hrho : 0 < rho) (h0 : 0 ≤ u1) (h1 : u1 < 1)
    (h : ∀ᵐ y, y ∈ Metric.ball w rho → pointMag L y ≤ B) : limbMag L w rho u1 ≤ B := by
  have hb0 := fun r => brightness_pos u1 h0 h1 r
  have hb1 := brightness_le_one u1 h0
  have hmeas : Measurable fun y : ℂ => brightness u1 (‖y - w‖ / rho) :=
    (measurable_brightness u1).comp (((measurable_id.sub_const w).norm).div_const rho)
  have hint : IntegrableOn (fun y : ℂ => brightness u1 (‖y - w‖ / rho)) (Metric.ball w rho) :=
    Measure.integrableOn_of_bounded (M := 1) measure_ball_lt_top.ne hmeas.aestronglyMeasurable
      (Eventually.of_forall fun z => by rw [Real.norm_eq_abs, abs_of_pos (hb0 _)]; exact hb1 _)
  have hpos : 0 < ∫ y in Metric.ball w rho, brightness u1 (‖y - w‖ / rho) := by
    rw [setIntegral_pos_iff_support_of_nonneg_ae (Eventually.of_forall fun y => (hb0 _).le) hint]
    have : Function.support (fun y : ℂ => brightness u1 (‖y - w‖ / rho)) ∩ Metric.ball w rho = Metric.ball w rho := by
      ext y
      simp only [Set.mem_inter_iff, Function.mem_support, and_iff_right_iff_imp]
      exact fun _ => (hb0 _).ne'
    rw [this]; exact Metric.measure_ball_pos _ _ hrho
  rw [limbMag_eq_average, div_le_iff₀ hpos, ← integral_const_mul]
  refine setIntegral_mono_on_ae ?_ (hint.const_mul B) measurableSet_ball ?_
  · refine (integrableOn_pointMag L w rho).mul_bdd (c := 1) hmeas.aestronglyMeasurable ?_
    exact Eventually.of_forall fun z => by rw [Real.norm_eq_abs, abs_of_pos (hb0 _)]; exact hb1 _
  · filter_upwards [h] with y hy hyb
    exact mul_le_mul_of_nonneg_right (hy hyb) (hb0 _).le

/-! ### C110 -/

/-- **C110, uniform disc**: as the two resolutions grow, `mag_uniform` converges to the mean, over the disc of the source,
of the true point-source magnification (which is integrable, also if caustics cross the disc). -/
theorem C110_uniform (nlenses : ℕ) (u : UserParams) (w : ℂ) (rho : ℝ) (hrho : 0 < rho) (hq : 1 + u.q ≠ 0)
    (hq3 : nlenses = 3 → 1 + u.q + u.q3 ≠ 0) (regions : List ((ℝ × ℝ) × (ℝ × ℝ)))
    (hreg : ∀ R ∈ regions, ProperRegion R)
    (hcov : CoversOnce regions (imageOfDisc (userLens nlenses u) w rho)) :
    IntegrableOn (pointMag (userLens nlenses u)) (Metric.ball w rho) ∧
    Tendsto (fun n : ℕ × ℕ => magUniform nlenses u w rho n.1 n.2 regions) (atTop ×ˢ atTop)
      (𝓝 (⨍ y in Metric.ball w rho, pointMag (userLens nlenses u) y)) := by
  refine ⟨integrableOn_pointMag _ _ _, ?_⟩
  rw [← uniformMag_eq_average]
  exact C71_uniform_converges nlenses u w rho hrho hq hq3 regions hreg hcov

/-- **C110, limb-darkened disc**: `mag_limb_dark` converges to the mean weighted with the brightness of the disc. -/
theorem C110_limb (nlenses : ℕ) (u : UserParams) (w : ℂ) (rho u1 delta_c : ℝ) (hrho : 0 < rho)
    (hu1 : u1 < 3) (hq : 1 + u.q ≠ 0) (hq3 : nlenses = 3 → 1 + u.q + u.q3 ≠ 0)
    (regions : List ((ℝ × ℝ) × (ℝ × ℝ))) (hreg : ∀ R ∈ regions, ProperRegion R)
    (hcov : CoversOnce regions (imageOfDisc (userLens nlenses u) w rho)) :
    Tendsto (fun n : ℕ × ℕ => magLimbDark nlenses u w rho u1 delta_c n.1 n.2 regions) (atTop ×ˢ atTop)
      (𝓝 ((∫ y in Metric.ball w rho, pointMag (userLens nlenses u) y * brightness u1 (‖y - w‖ / rho)) /
        ∫ y in Metric.ball w rho, brightness u1 (‖y - w‖ / rho))) := by
  rw [← limbMag_eq_average]
  exact C72_limb_converges nlenses u w rho u1 delta_c hrho hu1 hq hq3 regions hreg hcov

theorem ae_ne_point (a : ℂ) : ∀ᵐ y : ℂ, y ≠ a := by
  rw [ae_iff]; simp

theorem binary_headD (w : ℂ) (a e : ℝ) : (polyCoeffsBinary w a e).headD 0 = conj w ^ 2 - (a : ℂ) ^ 2 := by
  simp only [polyCoeffsBinary, List.headD_cons]
  ring

/-- **C110, two lenses**: if `mag_point_source` (with a root finder that returns all roots) never exceeds `B` at the
points of the disc, then the limits of `mag_uniform` and `mag_limb_dark` do not exceed `B`. -/
theorem C110_binary_bound (u : UserParams) (w : ℂ) (rho u1 delta_c B : ℝ) (hrho : 0 < rho) (h0 : 0 ≤ u1) (h1 : u1 < 1)
    (hq : 1 + u.q ≠ 0) (regions : List ((ℝ × ℝ) × (ℝ × ℝ))) (hreg : ∀ R ∈ regions, ProperRegion R)
    (hcov : CoversOnce regions (imageOfDisc (userLens 2 u) w rho))
    (roots : Option (List ℂ) → List ℂ → List ℂ)
    (hroots : ∀ cs : List ℂ, cs.headD 0 ≠ 0 → IsRootList cs (roots none cs))
    (hB : ∀ y ∈ Metric.ball w rho, ∀ A, magPointSource roots 2 u y = .ok A → A ≤ B) :
    ∃ A A', Tendsto (fun n : ℕ × ℕ => magUniform 2 u w rho n.1 n.2 regions) (atTop ×ˢ atTop) (𝓝 A) ∧ A ≤ B ∧
      Tendsto (fun n : ℕ × ℕ => magLimbDark 2 u w rho u1 delta_c n.1 n.2 regions) (atTop ×ˢ atTop) (𝓝 A') ∧ A' ≤ B := by
  have hae : ∀ᵐ y, y ∈ Metric.ball w rho → pointMag (userLens 2 u) y ≤ B := by
    filter_upwards [ae_ne_point (xCM u + (midParams2 u).a), ae_ne_point (xCM u - (midParams2 u).a)] with y hy1 hy2 hyb
    have hdeg : conj (y - xCM u) ^ 2 ≠ ((midParams2 u).a : ℂ) ^ 2 := by
      intro h
      have h2 : (y - xCM u) ^ 2 = ((midParams2 u).a : ℂ) ^ 2 := by
        have := congrArg (starRingEnd ℂ) h
        simpa using this
      rcases sq_eq_sq_iff_eq_or_eq_neg.mp h2 with h3 | h3
      · exact hy1 (by linear_combination h3)
      · exact hy2 (by linear_combination h3)
    obtain ⟨m, hm, hle⟩ := C106_binary_partial roots u y hq (hroots _ (by
      rw [binary_headD]; exact sub_ne_zero.mpr hdeg)) hdeg
    exact hle.trans (hB y hyb m hm)
  exact ⟨_, _, C71_uniform_converges 2 u w rho hrho hq (by norm_num) regions hreg hcov, uniformMag_le _ _ _ _ hrho hae,
    C72_limb_converges 2 u w rho u1 delta_c hrho (by linarith) hq (by norm_num) regions hreg hcov,
    limbMag_le _ _ _ _ _ hrho h0 h1 hae⟩

/-- **C110, three lenses**: the same bound. -/
theorem C110_triple_bound (u : UserParams) (w : ℂ) (rho u1 delta_c B : ℝ) (hrho : 0 < rho) (h0 : 0 ≤ u1) (h1 : u1 < 1)
    (hq : 1 + u.q ≠ 0) (hq3 : 1 + u.q + u.q3 ≠ 0) (regions : List ((ℝ × ℝ) × (ℝ × ℝ)))
    (hreg : ∀ R ∈ regions, ProperRegion R) (hcov : CoversOnce regions (imageOfDisc (userLens 3 u) w rho))
    (roots : Option (List ℂ) → List ℂ → List ℂ)
    (hroots : ∀ cs : List ℂ, cs.headD 0 ≠ 0 → IsRootList cs (roots none cs))
    (hB : ∀ y ∈ Metric.ball w rho, ∀ A, magPointSource roots 3 u y = .ok A → A ≤ B) :
    ∃ A A', Tendsto (fun n : ℕ × ℕ => magUniform 3 u w rho n.1 n.2 regions) (atTop ×ˢ atTop) (𝓝 A) ∧ A ≤ B ∧
      Tendsto (fun n : ℕ × ℕ => magLimbDark 3 u w rho u1 delta_c n.1 n.2 regions) (atTop ×ˢ atTop) (𝓝 A') ∧ A' ≤ B := by
  have hae : ∀ᵐ y, y ∈ Metric.ball w rho → pointMag (userLens 3 u) y ≤ B := by
    filter_upwards [ae_ne_point (xCM u + (midParams3 u).a), ae_ne_point (xCM u - (midParams3 u).a),
      ae_ne_point (xCM u + r3Complex (midParams3 u))] with y hy1 hy2 hy3 hyb
    have hi : ∀ x : ℂ, x ≠ 0 → conj x ≠ 0 := fun x hx => by simpa using hx
    have hdeg : (polyCoeffsTripleCM (y - xCM u) (midParams3 u).a (r3Complex (midParams3 u))
        (midParams3 u).e1 (midParams3 u).e2).headD 0 ≠ 0 := by
      rw [(triple_head _ _ _ _ _).2]
      refine mul_ne_zero (mul_ne_zero (hi _ ?_) (hi _ ?_)) (hi _ ?_)
      · exact fun h => hy1 (by linear_combination h)
      · exact fun h => hy2 (by linear_combination h)
      · exact fun h => hy3 (by linear_combination h)
    obtain ⟨m, hm, hle⟩ := C106_triple_partial roots u y hq hq3 _ rfl (hroots _ hdeg) hdeg
    exact hle.trans (hB y hyb m hm)
  exact ⟨_, _, C71_uniform_converges 3 u w rho hrho hq (fun _ => hq3) regions hreg hcov, uniformMag_le _ _ _ _ hrho hae,
    C72_limb_converges 3 u w rho u1 delta_c hrho (by linarith) hq (fun _ => hq3) regions hreg hcov,
    limbMag_le _ _ _ _ _ hrho h0 h1 hae⟩

/-- A disc at distance has the magnification of a distant point. -/
theorem far_disc (L : Lenses) (hm : ∀ l ∈ L, 0 < l.1) (C W : ℝ) (hW : 0 < W)
    (h : ∀ y : ℂ, W ≤ ‖y‖ → pointMag L y ≤ 1 + C / ‖y‖ ^ 4) (w : ℂ) (rho u1 : ℝ) (hrho : 0 < rho) (h0 : 0 ≤ u1)
    (h1 : u1 < 1) (hw : W + rho ≤ ‖w‖) :
    (1 ≤ uniformMag L w rho ∧ uniformMag L w rho ≤ 1 + |C| / (‖w‖ - rho) ^ 4) ∧
      1 ≤ limbMag L w rho u1 ∧ limbMag L w rho u1 ≤ 1 + |C| / (‖w‖ - rho) ^ 4 := by
  have hB : ∀ᵐ y, y ∈ Metric.ball w rho → pointMag L y ≤ 1 + |C| / (‖w‖ - rho) ^ 4 := by
    refine Eventually.of_forall fun y hy => ?_
    have h2 : ‖w‖ - ‖y‖ ≤ ‖y - w‖ := by rw [norm_sub_rev]; exact norm_sub_norm_le _ _
    have h3 : ‖y - w‖ < rho := by simpa [dist_eq_norm] using hy
    have h4 : ‖w‖ - rho ≤ ‖y‖ := by linarith
    have h5 : 0 < ‖w‖ - rho := by linarith
    refine (h y (by linarith)).trans ?_
    have h6 : C / ‖y‖ ^ 4 ≤ |C| / ‖y‖ ^ 4 := by gcongr; exact le_abs_self C
    have h7 : |C| / ‖y‖ ^ 4 ≤ |C| / (‖w‖ - rho) ^ 4 := by gcongr
    linarith
  exact ⟨⟨uniformMag_ge_one L hm w rho hrho, uniformMag_le L w rho _ hrho hB⟩,
    limbMag_ge_one L hm w rho u1 hrho h0 h1, limbMag_le L w rho u1 _ hrho h0 h1 hB⟩

/-- **C110, distant discs, two lenses**: for discs of any radius all of whose points are far from the lenses the limits
of `mag_uniform` and `mag_limb_dark` are between `1` and `1 + C / d⁴`, with `d` the distance of the nearest point. -/
theorem C110_binary_far (u : UserParams) (hs : u.s ≠ 0) (hq : 0 < u.q) :
    ∃ C W : ℝ, 0 < W ∧ ∀ (w : ℂ) (rho u1 delta_c : ℝ), 0 < rho → 0 ≤ u1 → u1 < 1 → W + rho ≤ ‖w‖ →
      ∀ regions : List ((ℝ × ℝ) × (ℝ × ℝ)), (∀ R ∈ regions, ProperRegion R) →
      CoversOnce regions (imageOfDisc (userLens 2 u) w rho) →
      ∃ A A', Tendsto (fun n : ℕ × ℕ => magUniform 2 u w rho n.1 n.2 regions) (atTop ×ˢ atTop) (𝓝 A) ∧
        1 ≤ A ∧ A ≤ 1 + C / (‖w‖ - rho) ^ 4 ∧
        Tendsto (fun n : ℕ × ℕ => magLimbDark 2 u w rho u1 delta_c n.1 n.2 regions) (atTop ×ˢ atTop) (𝓝 A') ∧
        1 ≤ A' ∧ A' ≤ 1 + C / (‖w‖ - rho) ^ 4 := by
  obtain ⟨C, W, hW, h⟩ := C108_binary u hs hq
  obtain ⟨roots, hroots⟩ := exists_exact_roots
  obtain ⟨⟨e1, e2⟩, -, -⟩ := mass2_pos u hq
  have hq' : 1 + u.q ≠ 0 := by positivity
  obtain ⟨W', hW'⟩ : ∃ W', W' = max W (‖(xCM u : ℂ) + (midParams2 u).a‖ + ‖(xCM u : ℂ) - (midParams2 u).a‖ + 1) := ⟨_, rfl⟩
  have hpos : 0 < W' := by rw [hW']; exact lt_of_lt_of_le hW (le_max_left _ _)
  have hpt : ∀ y : ℂ, W' ≤ ‖y‖ →
      pointMag (userLens 2 u) y ≤ 1 + C / ‖y‖ ^ 4 := by
    intro y hy
    rw [hW'] at hy
    obtain ⟨hy1, hy2⟩ := max_le_iff.mp hy
    obtain ⟨A, -, -, h2, h3⟩ := h y hy1 roots _ rfl (hroots _ _ (by
      rw [binary_headD]
      refine sub_ne_zero.mpr fun hc => ?_
      have h2 : (y - xCM u) ^ 2 = ((midParams2 u).a : ℂ) ^ 2 := by
        have := congrArg (starRingEnd ℂ) hc
        simpa using this
      rcases sq_eq_sq_iff_eq_or_eq_neg.mp h2 with h3 | h3
      · rw [show y = xCM u + (midParams2 u).a by linear_combination h3] at hy2
        linarith [norm_nonneg ((xCM u : ℂ) - (midParams2 u).a)]
      · rw [show y = xCM u - (midParams2 u).a by linear_combination h3] at hy2
        linarith [norm_nonneg ((xCM u : ℂ) + (midParams2 u).a)]))
    exact h2.trans h3
  refine ⟨|C|, W', hpos, fun w rho u1 delta_c hrho h0 h1 hw regions hreg hcov => ?_⟩
  obtain ⟨⟨a1, a2⟩, a3, a4⟩ := far_disc (userLens 2 u) (by
      intro l hl
      simp only [userLens, binary] at hl
      norm_num at hl
      rcases hl with rfl | rfl
      · positivity
      · positivity) C W' hpos hpt w rho u1 hrho h0 h1 hw
  exact ⟨_, _, C71_uniform_converges 2 u w rho hrho hq' (by norm_num) regions hreg hcov, a1, a2,
    C72_limb_converges 2 u w rho u1 delta_c hrho (by linarith) hq' (by norm_num) regions hreg hcov, a3, a4⟩

/-- **C110, distant discs, three lenses**. -/
theorem C110_triple_far (u : UserParams) (hs : u.s ≠ 0) (hq : 0 < u.q) (hq3 : 0 < u.q3)
    (hr1 : r3Complex (midParams3 u) ≠ (midParams3 u).a) (hr2 : r3Complex (midParams3 u) ≠ -(midParams3 u).a) :
    ∃ C W : ℝ, 0 < W ∧ ∀ (w : ℂ) (rho u1 delta_c : ℝ), 0 < rho → 0 ≤ u1 → u1 < 1 → W + rho ≤ ‖w‖ →
      ∀ regions : List ((ℝ × ℝ) × (ℝ × ℝ)), (∀ R ∈ regions, ProperRegion R) →
      CoversOnce regions (imageOfDisc (userLens 3 u) w rho) →
      ∃ A A', Tendsto (fun n : ℕ × ℕ => magUniform 3 u w rho n.1 n.2 regions) (atTop ×ˢ atTop) (𝓝 A) ∧
        1 ≤ A ∧ A ≤ 1 + C / (‖w‖ - rho) ^ 4 ∧
        Tendsto (fun n : ℕ × ℕ => magLimbDark 3 u w rho u1 delta_c n.1 n.2 regions) (atTop ×ˢ atTop) (𝓝 A') ∧
        1 ≤ A' ∧ A' ≤ 1 + C / (‖w‖ - rho) ^ 4 := by
  obtain ⟨C, W, hW, h⟩ := C108_triple u hs hq hq3 hr1 hr2
  obtain ⟨roots, hroots⟩ := exists_exact_roots
  have hq' : 1 + u.q ≠ 0 := by positivity
  have hq3' : 1 + u.q + u.q3 ≠ 0 := by positivity
  have hi : ∀ x : ℂ, x ≠ 0 → conj x ≠ 0 := fun x hx => by simpa using hx
  obtain ⟨W', hW'⟩ : ∃ W', W' = max W (‖(xCM u : ℂ) + (midParams3 u).a‖ + ‖(xCM u : ℂ) - (midParams3 u).a‖
      + ‖(xCM u : ℂ) + r3Complex (midParams3 u)‖ + 1) := ⟨_, rfl⟩
  have hpos : 0 < W' := by rw [hW']; exact lt_of_lt_of_le hW (le_max_left _ _)
  have hpt : ∀ y : ℂ, W' ≤ ‖y‖ →
      pointMag (userLens 3 u) y ≤ 1 + C / ‖y‖ ^ 4 := by
    intro y hy
    rw [hW'] at hy
    obtain ⟨hy1, hy2⟩ := max_le_iff.mp hy
    have b1 := norm_nonneg ((xCM u : ℂ) - (midParams3 u).a)
    have b2 := norm_nonneg ((xCM u : ℂ) + (midParams3 u).a)
    have b3 := norm_nonneg ((xCM u : ℂ) + r3Complex (midParams3 u))
    obtain ⟨A, -, -, h2, h3⟩ := h y hy1 roots _ rfl (hroots _ _ (by
      rw [(triple_head _ _ _ _ _).2]
      refine mul_ne_zero (mul_ne_zero (hi _ ?_) (hi _ ?_)) (hi _ ?_)
      · intro h
        rw [show y = xCM u + (midParams3 u).a by linear_combination h] at hy2
        linarith
      · intro h
        rw [show y = xCM u - (midParams3 u).a by linear_combination h] at hy2
        linarith
      · intro h
        rw [show y = xCM u + r3Complex (midParams3 u) by linear_combination h] at hy2
        linarith))
    exact h2.trans h3
  refine ⟨|C|, W', hpos, fun w rho u1 delta_c hrho h0 h1 hw regions hreg hcov => ?_⟩
  obtain ⟨⟨a1, a2⟩, a3, a4⟩ := far_disc (userLens 3 u) (by
      intro l hl
      simp only [userLens, triple] at hl
      norm_num at hl
      rcases hl with rfl | rfl | rfl
      · positivity
      · positivity
      · positivity) C W' hpos hpt w rho u1 hrho h0 h1 hw
  exact ⟨_, _, C71_uniform_converges 3 u w rho hrho hq' (fun _ => hq3') regions hreg hcov, a1, a2,
    C72_limb_converges 3 u w rho u1 delta_c hrho (by linarith) hq' (fun _ => hq3') regions hreg hcov, a3, a4⟩

/-- The hypotheses of `C110_uniform` and `C110_limb` can be met for every lens and source: a large annulus covers the
images once; here a unit disc over the caustics of a binary. -/
example : ∃ B > 0, Tendsto (fun n : ℕ × ℕ => magUniform 2 ⟨1, 1, 0, 0, 0⟩ 0 1 n.1 n.2 [((0, B), (0, 2 * Real.pi))])
    (atTop ×ˢ atTop) (𝓝 (⨍ y in Metric.ball (0 : ℂ) 1, pointMag (binary 1 1) y)) := by
  obtain ⟨B, hB, hp, hc⟩ := annulus_covers (userLens 2 ⟨1, 1, 0, 0, 0⟩) 0 1
  exact ⟨B, hB, (C110_uniform 2 ⟨1, 1, 0, 0, 0⟩ 0 1 one_pos (by norm_num) (by norm_num) _ (by simpa using hp) hc).2⟩

/-- A disc, regions and a bound as in `C110_binary_far`: a disc of radius `2`, at the distance that the theorem asks for. -/
example : ∃ (w : ℂ) (B C : ℝ), 0 < B ∧ ∃ A, Tendsto (fun n : ℕ × ℕ => magUniform 2 ⟨1, 1, 0, 0, 0⟩ w 2 n.1 n.2
    [((0, B), (0, 2 * Real.pi))]) (atTop ×ˢ atTop) (𝓝 A) ∧ 1 ≤ A ∧ A ≤ 1 + C / (‖w‖ - 2) ^ 4 := by
  obtain ⟨C, W, hW, h⟩ := C110_binary_far ⟨1, 1, 0, 0, 0⟩ one_ne_zero one_pos
  have hn : ‖((W + 2 : ℝ) : ℂ)‖ = W + 2 := Complex.norm_of_nonneg (by linarith)
  obtain ⟨B, hB, hp, hc⟩ := annulus_covers (userLens 2 ⟨1, 1, 0, 0, 0⟩) ((W + 2 : ℝ) : ℂ) 2
  obtain ⟨A, -, h1, h2, h3, -⟩ := h ((W + 2 : ℝ) : ℂ) 2 0 0 two_pos le_rfl one_pos hn.ge _ (by simpa using hp) hc
  exact ⟨_, B, C, hB, A, h1, h2, h3⟩

/-- A disc on which `mag_point_source` is bounded, as in `C110_binary_bound`. -/
example : ∃ (roots : Option (List ℂ) → List ℂ → List ℂ) (w : ℂ) (B : ℝ),
    (∀ cs : List ℂ, cs.headD 0 ≠ 0 → IsRootList cs (roots none cs)) ∧
    ∀ y ∈ Metric.ball w 1, ∀ A, magPointSource roots 2 ⟨1, 1, 0, 0, 0⟩ y = .ok A → A ≤ B := by
  obtain ⟨roots, hroots⟩ := exists_exact_roots
  obtain ⟨C, W, hW, h⟩ := C108_binary ⟨1, 1, 0, 0, 0⟩ one_ne_zero one_pos
  refine ⟨roots, ((W + 11 : ℝ) : ℂ), 1 + |C|, hroots none, fun y hy A hA => ?_⟩
  have hn : ‖((W + 11 : ℝ) : ℂ)‖ = W + 11 := Complex.norm_of_nonneg (by linarith)
  have h2 := norm_sub_norm_le ((W + 11 : ℝ) : ℂ) y
  have h3 : ‖y - ((W + 11 : ℝ) : ℂ)‖ < 1 := by simpa [dist_eq_norm] using hy
  rw [norm_sub_rev, hn] at h2
  have h4 : W + 10 ≤ ‖y‖ := by linarith
  have hx : xCM ⟨1, 1, 0, 0, 0⟩ = 0 := by simp [xCM]
  obtain ⟨A', hA', -, -, h5⟩ := h y (by linarith) roots _ rfl (hroots none _ (by
    rw [binary_headD, hx]
    refine sub_ne_zero.mpr fun hc => ?_
    have h6 := congrArg norm hc
    rw [norm_pow, norm_pow, Complex.norm_conj, Complex.ofReal_zero, sub_zero] at h6
    have h7 : ‖((midParams2 ⟨1, 1, 0, 0, 0⟩).a : ℂ)‖ = 1 / 2 := by simp [midParams2]
    rw [h7] at h6
    nlinarith))
  rw [hA] at hA'
  injection hA' with e
  subst e
  refine h5.trans ?_
  have h8 : C / ‖y‖ ^ 4 ≤ |C| / 1 := by
    refine (div_le_div_of_nonneg_right (le_abs_self C) (by positivity)).trans ?_
    refine div_le_div_of_nonneg_left (abs_nonneg C) one_pos (one_le_pow₀ (by linarith))
  rw [div_one] at h8
  linarith

end Microjax.Props
