import Verif.Lemmas.Fermat
import Verif.Props.PointSourceExamples
import Verif.Props.RayShooting
import Mathlib.MeasureTheory.Function.Jacobian

/-!
# C79: no lens demagnifies

Point-source and finite-source magnifications of two and three lenses are at least one, at every source position.
-/

noncomputable section

namespace Microjax.Props

open Complex ComplexConjugate Spec PointSource ExtendedSource Boundary MeasureTheory Filter Topology

/-! ## Point sources -/

/-- The code's sum over a list of candidate images is at least one as soon as the list contains all images. -/
theorem sum_ge_one (L : Lenses) (w : ℂ) (hm : ∀ l ∈ L, 0 < l.1) (det : ℂ → ℝ) (leq : ℂ → ℂ) (tol : ℝ) (htol : 0 < tol)
    (hleq : ∀ z, leq z = lensMap L z)
    (hdet : ∀ z, (∀ l ∈ L, z ≠ l.2) → det z = jacDet (lensMap L) z) (rs : List ℂ)
    (hrs : ∀ z, IsImage L w z → z ∈ rs) (hreg : ∀ z, IsImage L w z → jacDet (lensMap L) z ≠ 0) :
    1 ≤ sumMag det (withMask leq tol w rs) := by
  obtain ⟨z, hz, h0, h1⟩ := exists_minimum_image L w hm
  rw [sumMag_withMask]
  have hmem : 1 / |det z| ∈ (rs.filter fun z => decide (‖leq z - w‖ < tol)).map fun z => 1 / |det z| := by
    refine List.mem_map.mpr ⟨z, List.mem_filter.mpr ⟨hrs z hz, ?_⟩, rfl⟩
    rw [hleq, hz.2]; simpa using htol
  have hsum := List.single_le_sum (l := (rs.filter fun z => decide (‖leq z - w‖ < tol)).map fun z => 1 / |det z|)
    (by intro x hx; obtain ⟨y, -, rfl⟩ := List.mem_map.mp hx; positivity) _ hmem
  refine le_trans ?_ hsum
  have hp : 0 < jacDet (lensMap L) z := lt_of_le_of_ne h0 (hreg z hz).symm
  rw [hdet z hz.1, abs_of_pos hp, le_div_iff₀ hp, one_mul]
  exact h1

/-- **C79, single lens**: the code's value exceeds one at every source position (although it is not the right
value, C02). -/
theorem C79_point_single (roots) (u : UserParams) (w : ℂ) (hw : w ≠ 0) :
    ∃ A, magPointSource roots 1 u w = .ok A ∧ 1 < A := by
  refine ⟨_, C02_single_mag_value roots u w hw, ?_⟩
  have hn : 0 < ‖w‖ := norm_pos_iff.mpr hw
  rw [lt_div_iff₀ hn, one_mul]
  exact Real.lt_sqrt_of_sq_lt (by linarith)

example : ∃ A, magPointSource (fun _ _ => []) 1 exU (3 + I) = .ok A ∧ 1 < A :=
  C79_point_single _ _ _ (by intro h; have := congrArg Complex.im h; norm_num at this)

/-- Masses of the binary are positive for `q > 0`. -/
theorem midBinary_pos (u : UserParams) (hq : 0 < u.q) : ∀ l ∈ midBinary (midParams2 u), 0 < l.1 := by
  intro l hl
  have h1 : 0 < u.q / (1 + u.q) := by positivity
  have h2 : 0 < 1 - u.q / (1 + u.q) := by
    rw [sub_pos, div_lt_one (by positivity)]; linarith
  simp only [midBinary, midParams2, List.mem_cons, List.not_mem_nil, or_false] at hl
  rcases hl with rfl | rfl
  · exact h1
  · exact h2

/-- Masses of the triple are positive for `q > 0`, `q3 > 0`. -/
theorem midTriple_pos (u : UserParams) (hq : 0 < u.q) (hq3 : 0 < u.q3) : ∀ l ∈ midTriple (midParams3 u), 0 < l.1 := by
  intro l hl
  have hs : 0 < 1 + u.q + u.q3 := by positivity
  have h1 : 0 < u.q / (1 + u.q + u.q3) := by positivity
  have h2 : 0 < 1 / (1 + u.q + u.q3) := by positivity
  have h3 : 0 < 1 - u.q / (1 + u.q + u.q3) - 1 / (1 + u.q + u.q3) := by
    have : 1 - u.q / (1 + u.q + u.q3) - 1 / (1 + u.q + u.q3) = u.q3 / (1 + u.q + u.q3) := by field_simp; ring
    rw [this]; positivity
  simp only [midTriple, midParams3, List.mem_cons, List.not_mem_nil, or_false] at hl
  rcases hl with rfl | rfl | rfl
  · exact h1
  · exact h2
  · exact h3

/-- **C79, binary**: if the root finder returns all roots of the image polynomial and the source is not on a caustic,
`mag_point_source(w, nlenses=2, s, q)` returns a value of at least one, for every separation and every `q > 0`. -/
theorem C79_point_binary (roots : Option (List ℂ) → List ℂ → List ℂ) (u : UserParams) (w : ℂ) (hq : 0 < u.q)
    (hroots : IsRootList (polyCoeffsBinary (w - xCM u) (midParams2 u).a (midParams2 u).e1)
      (roots none (polyCoeffsBinary (w - xCM u) (midParams2 u).a (midParams2 u).e1)))
    (hdeg : conj (w - xCM u) ^ 2 ≠ ((midParams2 u).a : ℂ) ^ 2)
    (hcaustic : ∀ z, IsImage (binary u.s u.q) w z → jacDet (lensMap (binary u.s u.q)) z ≠ 0) :
    ∃ A, magPointSource roots 2 u w = .ok A ∧ 1 ≤ A := by
  have hq' : 1 + u.q ≠ 0 := by positivity
  set p := midParams2 u with hp
  refine ⟨sumMag (detJac2 p) (withMask (lensEq2 p) (1 / 10 ^ 6) (w - xCM u)
    (roots none (polyCoeffsBinary (w - xCM u) p.a p.e1))), by simp [magPointSource, images2, hp], ?_⟩
  have hframe := (C08_binary_frame u hq').1
  refine sum_ge_one (midBinary p) (w - xCM u) (midBinary_pos u hq) _ _ _ (by norm_num) (lensEq2_eq p) ?_ _
    (images_mem_roots_binary p _ _ hroots hdeg) ?_
  · intro z hz
    rw [detJac2_eq, (jacDet_lensMap _ z hz).2]
  · intro z hz
    have h1 : IsImage (binary u.s u.q) w (z + xCM u) := by
      rw [← hframe]
      refine ⟨?_, ?_⟩
      · intro l hl e
        obtain ⟨k, hk, rfl⟩ := List.mem_map.mp hl
        exact hz.1 k hk (add_right_cancel e)
      · rw [lensMap_translate, hz.2]; ring
    have h2 := hcaustic _ h1
    rw [(jacDet_lensMap _ _ h1.1).2, ← hframe] at h2
    rw [(jacDet_lensMap _ z hz.1).2]
    simpa [List.map_map, Function.comp_def] using h2

/-- **C79, triple**: the same for three lenses with positive masses. -/
theorem C79_point_triple (roots : Option (List ℂ) → List ℂ → List ℂ) (u : UserParams) (w : ℂ) (hq : 0 < u.q)
    (hq3 : 0 < u.q3)
    (c : List ℂ) (hc : c = polyCoeffsTripleCM (w - xCM u) (midParams3 u).a (r3Complex (midParams3 u))
      (midParams3 u).e1 (midParams3 u).e2)
    (hroots : IsRootList c (roots none c)) (hdeg : c.headD 0 ≠ 0)
    (hcaustic : ∀ z, IsImage (triple u.s u.q u.q3 u.r3 u.psi) w z →
      jacDet (lensMap (triple u.s u.q u.q3 u.r3 u.psi)) z ≠ 0) :
    ∃ A, magPointSource roots 3 u w = .ok A ∧ 1 ≤ A := by
  have hq' : 1 + u.q ≠ 0 := by positivity
  have hq3' : 1 + u.q + u.q3 ≠ 0 := by positivity
  set p := midParams3 u with hp
  set S := shiftCM p.a (r3Complex p) p.e1 p.e2 with hS
  refine ⟨sumMag (detJac3 p) (withMask (lensEq3 p) (1 / 10 ^ 3) (w - xCM u)
    ((roots none c).map (· + S))), by simp [magPointSource, images3, hp, hc, hS], ?_⟩
  have hframe := (C08_triple_frame u hq' hq3').1
  refine sum_ge_one (midTriple p) (w - xCM u) (midTriple_pos u hq hq3) _ _ _ (by norm_num) (lensEq3_eq p) ?_ _ ?_ ?_
  · intro z hz
    rw [detJac3_eq, (jacDet_lensMap _ z hz).2]
  · intro z hz
    refine List.mem_map.mpr ⟨z - S, IsRootList.mem_of_eval_zero hroots hdeg ?_, by ring⟩
    rw [hc]
    refine C05_triple_complete p _ z (hz.1 (p.e1, (p.a : ℂ)) (by simp [midTriple]))
      (hz.1 (p.e2, -(p.a : ℂ)) (by simp [midTriple]))
      (hz.1 (1 - p.e1 - p.e2, r3Complex p) (by simp [midTriple])) ?_
    rw [lensEq3_eq]; exact hz.2
  · intro z hz
    have h1 : IsImage (triple u.s u.q u.q3 u.r3 u.psi) w (z + xCM u) := by
      rw [← hframe]
      refine ⟨?_, ?_⟩
      · intro l hl e
        obtain ⟨k, hk, rfl⟩ := List.mem_map.mp hl
        exact hz.1 k hk (add_right_cancel e)
      · rw [lensMap_translate, hz.2]; ring
    have h2 := hcaustic _ h1
    rw [(jacDet_lensMap _ _ h1.1).2, ← hframe] at h2
    rw [(jacDet_lensMap _ z hz.1).2]
    simpa [List.map_map, Function.comp_def] using h2

/-! ## Finite sources -/

theorem measurable_shear (L : Lenses) : Measurable (shear L) := by
  unfold shear
  induction L with
  | nil => simp
  | cons l L ih =>
    simp only [List.map_cons, List.sum_cons]
    exact (measurable_const.div (((continuous_conj.measurable).sub measurable_const).pow_const 2)).add ih

/-- The images of any measurable set have at least its area. -/
theorem volume_le_images (L : Lenses) (hm : ∀ l ∈ L, 0 < l.1) (B : Set ℂ) (hB : MeasurableSet B) :
    volume B ≤ volume {z : ℂ | (∀ l ∈ L, z ≠ l.2) ∧ lensMap L z ∈ B} := by
  set S : Set ℂ := {z | (∀ l ∈ L, z ≠ l.2)} ∩ ({z | ‖shear L z‖ ≤ 1} ∩ lensMap L ⁻¹' B) with hS
  have hSm : MeasurableSet S := (measurableSet_offLens L).inter
    ((measurableSet_le (measurable_shear L).norm measurable_const).inter (measurable_lensMap L hB))
  have hsub : B ⊆ lensMap L '' S := by
    intro w hw
    obtain ⟨z, hz, h0, -⟩ := exists_minimum_image L w hm
    refine ⟨z, ⟨hz.1, ?_, by simpa [hz.2] using hw⟩, hz.2⟩
    rw [(jacDet_lensMap L z hz.1).2] at h0
    have : ‖shear L z‖ ^ 2 ≤ 1 := by simpa [shear] using h0
    exact (sq_le_one_iff₀ (norm_nonneg _)).mp this
  calc volume B ≤ volume (lensMap L '' S) := measure_mono hsub
    _ ≤ ∫⁻ z in S, ENNReal.ofReal |(antiLin (-shear L z)).det| :=
        addHaar_image_le_lintegral_abs_det_fderiv volume hSm fun z hz =>
          (hasFDerivAt_lensMap L z hz.1).hasFDerivWithinAt
    _ ≤ ∫⁻ _ in S, 1 := by
        refine setLIntegral_mono measurable_const fun z hz => ?_
        rw [antiLin_det, norm_neg]
        have h1 := hz.2.1
        have h2 : ‖shear L z‖ ^ 2 ≤ 1 := (sq_le_one_iff₀ (norm_nonneg _)).mpr h1
        rw [abs_of_nonneg (by linarith)]
        exact ENNReal.ofReal_le_one.mpr (by nlinarith [sq_nonneg ‖shear L z‖])
    _ = volume S := by simp
    _ ≤ volume {z : ℂ | (∀ l ∈ L, z ≠ l.2) ∧ lensMap L z ∈ B} := measure_mono fun z hz => ⟨hz.1, hz.2.2⟩

/-- Flux form: whatever the brightness distribution of the source, its images carry at least its flux. -/
theorem flux_le_images (L : Lenses) (hm : ∀ l ∈ L, 0 < l.1) (g : ℂ → ENNReal) (hg : Measurable g) :
    ∫⁻ y, g y ≤ ∫⁻ z, g (lensMap L z) := by
  have hle : (volume : Measure ℂ) ≤ (volume : Measure ℂ).map (lensMap L) := by
    refine Measure.le_iff.mpr fun B hB => ?_
    rw [Measure.map_apply (measurable_lensMap L) hB]
    exact (volume_le_images L hm B hB).trans (measure_mono fun z hz => hz.2)
  calc ∫⁻ y, g y ≤ ∫⁻ y, g y ∂((volume : Measure ℂ).map (lensMap L)) := lintegral_mono' hle le_rfl
    _ = _ := lintegral_map hg (measurable_lensMap L)

theorem volume_imageOfDisc_ne_top (L : Lenses) (w : ℂ) (rho : ℝ) : volume (imageOfDisc L w rho) ≠ ⊤ := by
  obtain ⟨B, -, hp, hc⟩ := annulus_covers L w rho
  have hle : volume (imageOfDisc L w rho) ≤ volume (sector ((0, B), (0, 2 * Real.pi))) := by
    refine measure_mono_ae ?_
    filter_upwards [hc] with z hz hzD
    by_contra h
    have := hz hzD
    rw [List.countP_cons, List.countP_nil] at this
    simp [show z ∉ sector ((0, B), (0, 2 * Real.pi)) from h] at this
  exact ne_top_of_le_ne_top (volume_sector_ne_top _ hp) hle

/-- The true finite-source magnification of a uniform disc is at least one. -/
theorem uniformMag_ge_one (L : Lenses) (hm : ∀ l ∈ L, 0 < l.1) (w : ℂ) (rho : ℝ) (hrho : 0 < rho) :
    1 ≤ uniformMag L w rho := by
  have hb : 0 < volume.real (Metric.ball w rho) := by
    rw [measureReal_def]
    exact ENNReal.toReal_pos (Metric.measure_ball_pos _ _ hrho).ne' measure_ball_lt_top.ne
  rw [uniformMag, le_div_iff₀ hb, one_mul]
  refine ENNReal.toReal_mono (volume_imageOfDisc_ne_top L w rho) ?_
  refine (volume_le_images L hm (Metric.ball w rho) measurableSet_ball).trans (measure_mono ?_)
  rintro z ⟨h1, h2⟩
  exact ⟨h1, by simpa [Metric.mem_ball, dist_eq_norm] using h2⟩

theorem brightness_pos (u1 : ℝ) (h0 : 0 ≤ u1) (h1 : u1 < 1) (r : ℝ) : 0 < brightness u1 r := by
  unfold brightness
  nlinarith [Real.sqrt_nonneg (1 - r ^ 2)]

theorem brightness_le_one (u1 : ℝ) (h0 : 0 ≤ u1) (r : ℝ) : brightness u1 r ≤ 1 := by
  unfold brightness
  have : Real.sqrt (1 - r ^ 2) ≤ 1 := Real.sqrt_le_one.mpr (by nlinarith [sq_nonneg r])
  nlinarith

theorem measurable_brightness (u1 : ℝ) : Measurable (brightness u1) := by
  unfold brightness; fun_prop

/-- The true magnification of a limb-darkened disc is at least one. -/
theorem limbMag_ge_one (L : Lenses) (hm : ∀ l ∈ L, 0 < l.1) (w : ℂ) (rho u1 : ℝ) (hrho : 0 < rho) (h0 : 0 ≤ u1)
    (h1 : u1 < 1) : 1 ≤ limbMag L w rho u1 := by
  have hmeas : Measurable fun y : ℂ => brightness u1 (‖y - w‖ / rho) :=
    (measurable_brightness u1).comp (((measurable_id.sub_const w).norm).div_const rho)
  have hb0 := fun r => (brightness_pos u1 h0 h1 r).le
  have hb1 := brightness_le_one u1 h0
  have hint : ∀ (s : Set ℂ) (_ : volume s ≠ ⊤) (f : ℂ → ℂ) (_ : Measurable f),
      IntegrableOn (fun z => brightness u1 (‖f z - w‖ / rho)) s := by
    intro s hs f hf
    refine Measure.integrableOn_of_bounded (M := 1) hs (hmeas.comp hf).aestronglyMeasurable ?_
    exact Eventually.of_forall fun z => by
      rw [Real.norm_eq_abs, abs_of_nonneg (hb0 _)]; exact hb1 _
  have hball : volume (Metric.ball w rho) ≠ ⊤ := measure_ball_lt_top.ne
  have hpos : 0 < ∫ y in Metric.ball w rho, brightness u1 (‖y - w‖ / rho) := by
    rw [setIntegral_pos_iff_support_of_nonneg_ae (Eventually.of_forall fun y => hb0 _) (by simpa using hint _ hball id measurable_id)]
    have : Function.support (fun y : ℂ => brightness u1 (‖y - w‖ / rho)) ∩ Metric.ball w rho = Metric.ball w rho := by
      ext y
      simp only [Set.mem_inter_iff, Function.mem_support, and_iff_right_iff_imp]
      exact fun _ => (brightness_pos u1 h0 h1 _).ne'
    rw [this]; exact Metric.measure_ball_pos _ _ hrho
  rw [limbMag, le_div_iff₀ hpos, one_mul]
  rw [integral_eq_lintegral_of_nonneg_ae (Eventually.of_forall fun y => hb0 _) hmeas.aestronglyMeasurable,
    integral_eq_lintegral_of_nonneg_ae (Eventually.of_forall fun y => hb0 _)
      (hmeas.comp (measurable_lensMap L)).aestronglyMeasurable]
  refine ENNReal.toReal_mono ?_ ?_
  · have := (hint _ (volume_imageOfDisc_ne_top L w rho) (lensMap L) (measurable_lensMap L)).lintegral_lt_top
    exact this.ne
  · have hg : Measurable ((Metric.ball w rho).indicator fun y : ℂ => ENNReal.ofReal (brightness u1 (‖y - w‖ / rho))) :=
      (ENNReal.measurable_ofReal.comp hmeas).indicator measurableSet_ball
    have := flux_le_images L hm _ hg
    rw [lintegral_indicator measurableSet_ball] at this
    refine this.trans ?_
    rw [← lintegral_indicator (measurableSet_imageOfDisc L w rho)]
    refine lintegral_mono_ae ?_
    filter_upwards [lenses_null L] with z hz
    by_cases hzb : lensMap L z ∈ Metric.ball w rho
    · have : z ∈ imageOfDisc L w rho := ⟨hz, by simpa [Metric.mem_ball, dist_eq_norm] using hzb⟩
      rw [Set.indicator_of_mem hzb, Set.indicator_of_mem this]
    · rw [Set.indicator_of_notMem hzb]; exact bot_le

theorem userLens_pos (nlenses : ℕ) (u : UserParams) (hq : 0 < u.q) (hq3 : nlenses = 3 → 0 < u.q3) :
    ∀ l ∈ userLens nlenses u, 0 < l.1 := by
  have hq' : 1 + u.q ≠ 0 := by positivity
  unfold userLens
  split_ifs with h
  · have h3 := hq3 h
    have hs : 1 + u.q + u.q3 ≠ 0 := by positivity
    rw [← (C08_triple_frame u hq' hs).1]
    intro l hl
    obtain ⟨k, hk, rfl⟩ := List.mem_map.mp hl
    exact midTriple_pos u hq h3 k hk
  · rw [← (C08_binary_frame u hq').1]
    intro l hl
    obtain ⟨k, hk, rfl⟩ := List.mem_map.mp hl
    exact midBinary_pos u hq k hk

/-- **C79, finite sources**: with regions that cover the images once, the values of `mag_uniform` and
`mag_limb_dark` (two or three lenses of positive mass, any position, any source radius, linear coefficient in
`[0, 1)`) eventually exceed `1 - ε` as the grid is refined, for every `ε > 0`. -/
theorem C79_finite (nlenses : ℕ) (u : UserParams) (w : ℂ) (rho u1 delta_c : ℝ) (hrho : 0 < rho) (h0 : 0 ≤ u1)
    (h1 : u1 < 1) (hq : 0 < u.q) (hq3 : nlenses = 3 → 0 < u.q3) (regions : List ((ℝ × ℝ) × (ℝ × ℝ)))
    (hreg : ∀ R ∈ regions, ProperRegion R)
    (hcov : CoversOnce regions (imageOfDisc (userLens nlenses u) w rho)) (ε : ℝ) (hε : 0 < ε) :
    ∀ᶠ n : ℕ × ℕ in atTop ×ˢ atTop,
      1 - ε < magUniform nlenses u w rho n.1 n.2 regions ∧
      1 - ε < magLimbDark nlenses u w rho u1 delta_c n.1 n.2 regions := by
  have hq' : 1 + u.q ≠ 0 := by positivity
  have hq3' : nlenses = 3 → 1 + u.q + u.q3 ≠ 0 := fun h => by have := hq3 h; positivity
  have hm := userLens_pos nlenses u hq hq3
  have a := C71_uniform_converges nlenses u w rho hrho hq' hq3' regions hreg hcov
  have b := C72_limb_converges nlenses u w rho u1 delta_c hrho (by linarith) hq' hq3' regions hreg hcov
  have ha := uniformMag_ge_one _ hm w rho hrho
  have hb := limbMag_ge_one _ hm w rho u1 hrho h0 h1
  filter_upwards [a.eventually (lt_mem_nhds (show 1 - ε < _ by linarith)),
    b.eventually (lt_mem_nhds (show 1 - ε < _ by linarith))] with n x y using ⟨x, y⟩

/-! ## Concrete cases -/

/-- Determinants at the five images of the equal-mass binary are not zero. -/
theorem exU_regular (z : ℂ) (hz : IsImage (binary exU.s exU.q) 0 z) : jacDet (lensMap (binary exU.s exU.q)) z ≠ 0 := by
  have hf := (C08_binary_frame exU (by norm_num [exU])).1
  have hx : (0 : ℂ) - (xCM exU : ℂ) = 0 := by rw [exU_x]; simp
  have hb : binary exU.s exU.q = midBinary (midParams2 exU) := by
    rw [← hf, exU_x]; simp
  rw [hb] at hz ⊢
  have hmem := images_mem_roots_binary (midParams2 exU) 0 exRoots exRoots_isRootList (by rw [exU_a]; norm_num) z hz
  rw [(jacDet_lensMap _ z hz.1).2]
  have h5 := sq5
  have h3 := sq3
  have hsq : (conj z) ^ 2 = 0 ∨ (conj z) ^ 2 = 5 / 4 ∨ (conj z) ^ 2 = -3 / 4 := by
    simp only [exRoots, List.mem_cons, List.not_mem_nil, or_false] at hmem
    rcases hmem with rfl | rfl | rfl | rfl | rfl
    · simp
    · right; left; rw [conj_ofReal]; push_cast; rw [div_pow, h5]; norm_num
    · right; left; rw [conj_ofReal]; push_cast; rw [neg_sq, div_pow, h5]; norm_num
    · right; right; rw [map_mul, conj_ofReal, conj_I]; push_cast; rw [mul_pow, div_pow, h3, neg_sq, I_sq]; norm_num
    · right; right; rw [map_mul, conj_ofReal, conj_I]; push_cast
      rw [mul_pow, neg_sq, div_pow, h3, neg_sq, I_sq]; norm_num
  have hval : ((midBinary (midParams2 exU)).map fun l => (l.1 : ℂ) / (conj z - conj l.2) ^ 2).sum
      = ((conj z) ^ 2 + 1 / 4) / ((conj z) ^ 2 - 1 / 4) ^ 2 := by
    simp only [midBinary, exU_a, exU_e1, List.map_cons, List.map_nil, List.sum_cons, List.sum_nil, conj_ofReal, map_neg,
      add_zero]
    have k : (conj z) ^ 2 - 1 / 4 ≠ 0 := by rcases hsq with h | h | h <;> rw [h] <;> norm_num
    have k1 : conj z - 1 / 2 ≠ 0 := by intro h; apply k; rw [sub_eq_zero.mp h]; norm_num
    have k2 : conj z + 1 / 2 ≠ 0 := by intro h; apply k; rw [eq_neg_of_add_eq_zero_left h]; norm_num
    have e : (conj z) ^ 2 - 1 / 4 = (conj z - 1 / 2) * (conj z + 1 / 2) := by ring
    rw [e]
    push_cast
    rw [sub_neg_eq_add, show (1 : ℂ) - 1 / 2 = 1 / 2 by norm_num, div_add_div _ _ (pow_ne_zero 2 k1) (pow_ne_zero 2 k2),
      mul_pow]
    congr 1
    ring
  rw [hval]
  rcases hsq with h | h | h <;> rw [h] <;> norm_num

/-- C79 applies to the equal-mass binary with the source at the centre of mass. -/
example : ∃ A, magPointSource exFinder 2 exU 0 = .ok A ∧ 1 ≤ A := by
  have hx : (0 : ℂ) - (xCM exU : ℂ) = 0 := by rw [exU_x]; simp
  refine C79_point_binary exFinder exU 0 (by norm_num [exU]) ?_ ?_ exU_regular
  · rw [hx]; exact exRoots_isRootList
  · rw [hx, exU_a]; norm_num

/-- Determinants at the ten images of the equilateral triple are not zero. -/
theorem exT_regular (z : ℂ) (hz : IsImage (triple exT.s exT.q exT.q3 exT.r3 exT.psi) exTw z) :
    jacDet (lensMap (triple exT.s exT.q exT.q3 exT.r3 exT.psi)) z ≠ 0 := by
  have hf := (C08_triple_frame exT (by norm_num [exT]) (by norm_num [exT])).1
  have hb : triple exT.s exT.q exT.q3 exT.r3 exT.psi = midTriple (midParams3 exT) := by
    rw [← hf, exT_x]; simp
  rw [hb] at hz ⊢
  have hm0 : (tm : ℂ) ≠ 0 := by exact_mod_cast tm_pos.ne'
  have hd1 := hz.1 ((midParams3 exT).e1, ((midParams3 exT).a : ℂ)) (by simp [midTriple])
  have hd2 := hz.1 ((midParams3 exT).e2, -((midParams3 exT).a : ℂ)) (by simp [midTriple])
  have hd3 := hz.1 (1 - (midParams3 exT).e1 - (midParams3 exT).e2, r3Complex (midParams3 exT)) (by simp [midTriple])
  have hmem : z - exTw ∈ exRootsT := by
    refine IsRootList.mem_of_eval_zero exRootsT_isRootList (by rw [exTc_head]; simp [hm0]) ?_
    have := C05_triple_complete (midParams3 exT) exTw z hd1 hd2 hd3 (by rw [lensEq3_eq]; exact hz.2)
    rw [exT_S] at this
    exact this
  rw [(jacDet_lensMap _ z hz.1).2]
  set r := z - exTw with hr
  have hI3 : I ^ 3 = -I := by rw [pow_succ, I_sq]; ring
  have hcz : conj z = conj r - 1 / 2 * (tm * tk) * I := by
    rw [hr, exTw]
    simp only [map_mul, map_sub, conj_I, conj_ofReal, map_ofNat, map_div₀, map_one]; ring
  have h3 := sq3
  have hk := tk_cube'
  have k1 : conj z - (midParams3 exT).a ≠ 0 := by
    intro h; apply hd1; apply (starRingEnd ℂ).injective; rw [conj_ofReal]; exact sub_eq_zero.mp h
  have k2 : conj z + (midParams3 exT).a ≠ 0 := by
    intro h; apply hd2; apply (starRingEnd ℂ).injective; rw [map_neg, conj_ofReal]; exact eq_neg_of_add_eq_zero_left h
  have k3 : conj z - conj (r3Complex (midParams3 exT)) ≠ 0 := by
    intro h; apply hd3; apply (starRingEnd ℂ).injective; exact sub_eq_zero.mp h
  have hP : (conj z - (midParams3 exT).a) * (conj z + (midParams3 exT).a) *
      (conj z - conj (r3Complex (midParams3 exT))) = conj r ^ 3 - 6 * tm ^ 3 * I := by
    rw [hcz, exT_a, exT_r3]
    simp only [map_mul, conj_I, conj_ofReal, map_ofNat, map_div₀]
    push_cast
    set y : ℂ := conj r
    set k : ℂ := (tk : ℂ)
    set m : ℂ := (tm : ℂ)
    set t : ℂ := ((Real.sqrt 3 : ℝ) : ℂ)
    linear_combination (-(1 / 4) * (m * k) ^ 2 * (y + m * k * I)) * h3
      + (-(3 / 4) * (m * k) ^ 2 * y + 1 / 4 * (m * k) ^ 3 * I) * I_sq - m ^ 3 * I * hk
  have hQ : (conj z + (midParams3 exT).a) * (conj z - conj (r3Complex (midParams3 exT)))
      + (conj z - (midParams3 exT).a) * (conj z - conj (r3Complex (midParams3 exT)))
      + (conj z - (midParams3 exT).a) * (conj z + (midParams3 exT).a) = 3 * conj r ^ 2 := by
    rw [hcz, exT_a, exT_r3]
    simp only [map_mul, conj_I, conj_ofReal, map_ofNat, map_div₀]
    push_cast
    set y : ℂ := conj r
    set k : ℂ := (tk : ℂ)
    set m : ℂ := (tm : ℂ)
    set t : ℂ := ((Real.sqrt 3 : ℝ) : ℂ)
    linear_combination (-(1 / 4) * (m * k) ^ 2) * h3 - 3 / 4 * (m * k) ^ 2 * I_sq
  have hR : (conj z - (midParams3 exT).a) + (conj z + (midParams3 exT).a)
      + (conj z - conj (r3Complex (midParams3 exT))) = 3 * conj r := by
    rw [hcz, exT_r3]
    simp only [map_mul, conj_I, conj_ofReal, map_ofNat, map_div₀]
    ring
  have hval : ((midTriple (midParams3 exT)).map fun l => (l.1 : ℂ) / (conj z - conj l.2) ^ 2).sum
      = (conj r ^ 4 + 12 * tm ^ 3 * I * conj r) / (conj r ^ 3 - 6 * tm ^ 3 * I) ^ 2 := by
    simp only [midTriple, exT_e1, exT_e2, List.map_cons, List.map_nil, List.sum_cons, List.sum_nil, conj_ofReal, map_neg,
      add_zero, sub_neg_eq_add]
    rw [← hP]
    set D1 := conj z - ((midParams3 exT).a : ℂ)
    set D2 := conj z + ((midParams3 exT).a : ℂ)
    set D3 := conj z - conj (r3Complex (midParams3 exT))
    push_cast
    rw [eq_div_iff (pow_ne_zero 2 (mul_ne_zero (mul_ne_zero k1 k2) k3))]
    have : (1 / 3 / D1 ^ 2 + (1 / 3 / D2 ^ 2 + (1 - 1 / 3 - 1 / 3) / D3 ^ 2)) * (D1 * D2 * D3) ^ 2
        = 1 / 3 * ((D2 * D3 + D1 * D3 + D1 * D2) ^ 2 - 2 * (D1 * D2 * D3) * (D1 + D2 + D3)) := by
      field_simp; ring
    rw [this, hP, hQ, hR]
    ring
  rw [hval]
  have hc : r = 0 ∨ ∃ (c : ℝ) (w : ℂ), (c = -1 ∨ c = -2 ∨ c = 3) ∧ conj w ^ 3 = 1 ∧ ‖w‖ = 1 ∧ r = I * tm * c * w := by
    simp only [exRootsT, List.flatMap_cons, List.flatMap_nil, List.append_nil, List.cons_append,
      List.nil_append, List.mem_cons, List.not_mem_nil, or_false] at hmem
    have nrm : ∀ w : ℂ, w ^ 3 = 1 → conj w ^ 3 = 1 ∧ ‖w‖ = 1 := fun w hw =>
      ⟨by rw [← map_pow, hw, map_one],
        (pow_eq_one_iff_of_nonneg (norm_nonneg w) three_ne_zero).mp (by rw [← norm_pow, hw, norm_one])⟩
    have w1 := nrm 1 (one_pow 3)
    have w2 := nrm tω tω_cube
    have w3 := nrm (tω ^ 2) (by rw [← pow_mul, mul_comm, pow_mul, tω_cube, one_pow])
    rcases hmem with h | h | h | h | h | h | h | h | h | h
    · exact Or.inl h
    · exact Or.inr ⟨-1, 1, by simp, w1.1, w1.2, by rw [h]; ring⟩
    · exact Or.inr ⟨-1, tω, by simp, w2.1, w2.2, h⟩
    · exact Or.inr ⟨-1, tω ^ 2, by simp, w3.1, w3.2, h⟩
    · exact Or.inr ⟨-2, 1, by simp, w1.1, w1.2, by rw [h]; ring⟩
    · exact Or.inr ⟨-2, tω, by simp, w2.1, w2.2, h⟩
    · exact Or.inr ⟨-2, tω ^ 2, by simp, w3.1, w3.2, h⟩
    · exact Or.inr ⟨3, 1, by simp, w1.1, w1.2, by rw [h]; ring⟩
    · exact Or.inr ⟨3, tω, by simp, w2.1, w2.2, h⟩
    · exact Or.inr ⟨3, tω ^ 2, by simp, w3.1, w3.2, h⟩
  clear_value r
  rcases hc with rfl | ⟨c, w, hc, hw3, hwn, rfl⟩
  · simp
  · have hy : conj (I * tm * c * w) = -(I * tm * c * conj w) := by
      simp only [map_mul, conj_I, conj_ofReal]; ring
    have hy3 : conj (I * tm * c * w) ^ 3 = I * tm ^ 3 * c ^ 3 := by
      rw [hy, neg_pow, mul_pow, mul_pow, mul_pow, hI3, hw3]; ring
    have hn : ‖conj (I * tm * c * w)‖ = tm * |c| := by
      rw [RCLike.norm_conj, norm_mul, norm_mul, norm_mul, norm_I, norm_real, norm_real, hwn, Real.norm_of_nonneg tm_pos.le,
        Real.norm_eq_abs]; ring
    rw [show conj (I * tm * c * w) ^ 4 + 12 * tm ^ 3 * I * conj (I * tm * c * w)
      = conj (I * tm * c * w) * (conj (I * tm * c * w) ^ 3 + 12 * tm ^ 3 * I) by ring, hy3,
      show I * (tm : ℂ) ^ 3 * c ^ 3 + 12 * tm ^ 3 * I = I * ((tm ^ 3 * (c ^ 3 + 12) : ℝ) : ℂ) by push_cast; ring,
      show I * (tm : ℂ) ^ 3 * c ^ 3 - 6 * tm ^ 3 * I = I * ((tm ^ 3 * (c ^ 3 - 6) : ℝ) : ℂ) by push_cast; ring,
      norm_div, norm_mul, norm_pow, norm_mul, norm_mul, hn, norm_I, norm_real, norm_real, Real.norm_eq_abs, Real.norm_eq_abs,
      abs_mul, abs_mul, abs_of_pos (pow_pos tm_pos 3)]
    have hm := tm_sq
    have hmp := tm_pos
    have e : (tm * |c| * (1 * (tm ^ 3 * |c ^ 3 + 12|)) / (1 * (tm ^ 3 * |c ^ 3 - 6|)) ^ 2) ^ 2
        = 49 * (|c| * |c ^ 3 + 12| / |c ^ 3 - 6| ^ 2) ^ 2 := by
      have : tm * |c| * (1 * (tm ^ 3 * |c ^ 3 + 12|)) / (1 * (tm ^ 3 * |c ^ 3 - 6|)) ^ 2
          = (1 / tm ^ 2) * (|c| * |c ^ 3 + 12| / |c ^ 3 - 6| ^ 2) := by
        rcases hc with rfl | rfl | rfl <;> norm_num <;> field_simp <;> norm_num
      rw [this, hm]; ring
    rw [e]
    rcases hc with rfl | rfl | rfl <;> norm_num

/-- C79 applies to the equilateral triple with the source at the centroid (ten images). -/
example : ∃ A, magPointSource (fun _ _ => exRootsT) 3 exT exTw = .ok A ∧ 1 ≤ A := by
  have hx : exTw - (xCM exT : ℂ) = exTw := by rw [exT_x]; simp
  have hm0 : (tm : ℂ) ≠ 0 := by exact_mod_cast tm_pos.ne'
  exact C79_point_triple _ exT exTw (by norm_num [exT]) (by norm_num [exT]) exTc (by rw [hx]) exRootsT_isRootList
    (by rw [exTc_head]; simp [hm0]) exT_regular

/-- C79 for finite sources: the equal-mass triple with the single region found by `annulus_covers`. -/
example : ∃ R : (ℝ × ℝ) × (ℝ × ℝ), ∀ᶠ n : ℕ × ℕ in atTop ×ˢ atTop,
    9 / 10 < magUniform 3 { s := 1, q := 1, q3 := 1, r3 := 1, psi := 1 } (1 / 10) (1 / 10) n.1 n.2 [R] ∧
    9 / 10 < magLimbDark 3 { s := 1, q := 1, q3 := 1, r3 := 1, psi := 1 } (1 / 10) (1 / 10) (1 / 2) (1 / 100) n.1 n.2 [R] := by
  obtain ⟨B, -, hp, hc⟩ := annulus_covers (userLens 3 { s := 1, q := 1, q3 := 1, r3 := 1, psi := 1 }) (1 / 10) (1 / 10)
  refine ⟨((0, B), (0, 2 * Real.pi)), ?_⟩
  have := C79_finite 3 { s := 1, q := 1, q3 := 1, r3 := 1, psi := 1 } (1 / 10) (1 / 10) (1 / 2) (1 / 100) (by norm_num)
    (by norm_num) (by norm_num) (by norm_num) (by norm_num) [((0, B), (0, 2 * Real.pi))] (by simpa using hp) hc (1 / 10)
    (by norm_num)
  norm_num at this ⊢
  exact this

end Microjax.Props
