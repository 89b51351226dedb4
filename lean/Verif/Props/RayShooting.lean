import Verif.Props.ExtendedSource

/-! # C71, C72: as the grid is refined, ray shooting converges to the finite-source magnification -/

noncomputable section

namespace Microjax.Props

open Complex ComplexConjugate PointSource ExtendedSource Boundary Spec MeasureTheory Filter Topology Set

/-- A region list `define_regions` may return: proper sectors spanning at most one turn, and zero rows. -/
def ProperRegion (R : (ℝ × ℝ) × (ℝ × ℝ)) : Prop :=
  (0 ≤ R.1.1 ∧ R.1.1 < R.1.2 ∧ R.2.1 < R.2.2 ∧ R.2.2 ≤ R.2.1 + 2 * Real.pi) ∨ R = ((0, 0), (0, 0))

open scoped Classical in
/-- Almost every point of `D` lies in exactly one of the sectors. -/
def CoversOnce (regions : List ((ℝ × ℝ) × (ℝ × ℝ))) (D : Set ℂ) : Prop :=
  ∀ᵐ z : ℂ, z ∈ D → regions.countP (fun R => decide (z ∈ sector R)) = 1

theorem sector_zero : sector ((0, 0), (0, 0)) = ∅ := by
  ext z
  simp only [sector, Set.mem_ofPred_eq, Set.mem_empty_iff_false, iff_false]
  rintro ⟨r, θ, h1, h2, _⟩
  linarith

theorem measurableSet_proper (R : (ℝ × ℝ) × (ℝ × ℝ)) (hR : ProperRegion R) : MeasurableSet (sector R) := by
  rcases hR with ⟨h0, _, _, h3⟩ | rfl
  · exact measurableSet_sector _ _ _ _ h0 h3
  · rw [sector_zero]; exact MeasurableSet.empty

theorem volume_sector_ne_top (R : (ℝ × ℝ) × (ℝ × ℝ)) (hR : ProperRegion R) : volume (sector R) ≠ ⊤ := by
  rcases hR with ⟨h0, _, _, _⟩ | rfl
  · refine ne_top_of_le_ne_top (measure_ball_lt_top (x := (0 : ℂ)) (r := R.1.2)).ne (measure_mono ?_)
    rintro z ⟨r, θ, h1, h2, _, _, rfl⟩
    rw [mem_ball_zero_iff, norm_mul, mul_comm I, norm_exp_ofReal_mul_I, mul_one, norm_real,
      Real.norm_of_nonneg (h0.trans h1.le)]
    exact h2
  · rw [sector_zero]; simp

open scoped Classical in
theorem regions_integral (F : ℂ → ℝ) (hF : Measurable F) (C : ℝ) (hC : ∀ z, |F z| ≤ C)
    (regions : List ((ℝ × ℝ) × (ℝ × ℝ))) (hreg : ∀ R ∈ regions, ProperRegion R) :
    (regions.map fun R => ∫ z in sector R, F z).sum =
        ∫ z, (regions.countP (fun R => decide (z ∈ sector R)) : ℝ) * F z ∧
      Integrable fun z => (regions.countP (fun R => decide (z ∈ sector R)) : ℝ) * F z := by
  induction regions with
  | nil => simp
  | cons R l ih =>
    obtain ⟨ih1, ih2⟩ := ih fun R hR => hreg R (by simp [hR])
    have hR := hreg R (by simp)
    have hm := measurableSet_proper R hR
    have hi : Integrable ((sector R).indicator F) := by
      rw [integrable_indicator_iff hm]
      exact Measure.integrableOn_of_bounded (M := C) (volume_sector_ne_top R hR) hF.aestronglyMeasurable
        (Eventually.of_forall fun z => hC z)
    have hsplit : (fun z => ((R :: l).countP (fun R => decide (z ∈ sector R)) : ℝ) * F z)
        = fun z => (sector R).indicator F z + (l.countP (fun R => decide (z ∈ sector R)) : ℝ) * F z := by
      funext z
      rw [List.countP_cons]
      by_cases h : z ∈ sector R
      · simp [h]; ring
      · simp [h]
    rw [hsplit]
    refine ⟨?_, hi.add ih2⟩
    rw [List.map_cons, List.sum_cons, ih1, integral_add hi ih2, integral_indicator hm]

theorem regions_integral_eq (F : ℂ → ℝ) (hF : Measurable F) (C : ℝ) (hC : ∀ z, |F z| ≤ C) (D : Set ℂ)
    (hD : ∀ᵐ z, z ∉ D → F z = 0) (regions : List ((ℝ × ℝ) × (ℝ × ℝ))) (hreg : ∀ R ∈ regions, ProperRegion R)
    (hcov : CoversOnce regions D) : (regions.map fun R => ∫ z in sector R, F z).sum = ∫ z, F z := by
  rw [(regions_integral F hF C hC regions hreg).1]
  refine integral_congr_ae ?_
  filter_upwards [hcov, hD] with z hz hz'
  by_cases h : z ∈ D
  · rw [hz h]; simp
  · rw [hz' h]; simp

theorem lenses_null (L : Lenses) : ∀ᵐ z : ℂ, ∀ l ∈ L, z ≠ l.2 := by
  induction L with
  | nil => simp
  | cons l L ih =>
    filter_upwards [ih, (measure_singleton l.2 : volume {l.2} = 0) |> measure_eq_zero_iff_ae_notMem.mp] with z h1 h2
    intro l' hl'
    rcases List.mem_cons.mp hl' with rfl | h
    · exact h2
    · exact h1 l' h

/-- The lenses of the user's system in the user's frame. -/
def userLens (nlenses : ℕ) (u : UserParams) : Lenses :=
  if nlenses = 3 then triple u.s u.q u.q3 u.r3 u.psi else binary u.s u.q

theorem rayDistance_user (nlenses : ℕ) (u : UserParams) (w : ℂ) (hq : 1 + u.q ≠ 0)
    (hq3 : nlenses = 3 → 1 + u.q + u.q3 ≠ 0) (r th : ℝ) :
    rayDistance nlenses u w r th = ‖lensMap (userLens nlenses u) (r * exp (I * th)) - w‖ := by
  apply rayDistance_eq
  by_cases h : nlenses = 3
  · left; exact ⟨h, by rw [userLens, if_pos h, (C08_triple_frame u hq (hq3 h)).1]⟩
  · right; exact ⟨h, by rw [userLens, if_neg h, (C08_binary_frame u hq).1]⟩

theorem list_sum_tendsto {ι α : Type*} (l : Filter ι) (xs : List α) (f : α → ι → ℝ) (g : α → ℝ)
    (h : ∀ x ∈ xs, Tendsto (f x) l (𝓝 (g x))) :
    Tendsto (fun i => (xs.map fun x => f x i).sum) l (𝓝 (xs.map g).sum) := by
  induction xs with
  | nil => simpa using tendsto_const_nhds
  | cons x xs ih =>
    simp only [List.map_cons, List.sum_cons]
    exact (h x (by simp)).add (ih fun y hy => h y (by simp [hy]))

theorem computeForRange_zero (dist : ℝ → ℝ → ℝ) (rho : ℝ) (N M : ℕ) :
    computeForRange dist rho N M ((0, 0), (0, 0)) = 0 := by
  have hc : linspace (0 : ℝ) 0 N = List.replicate N 0 := by
    apply List.ext_getElem
    · simp [linspace]
    · intro i h1 h2
      simp [linspace]
  have hget : ∀ i, Jnp.get 0 (List.replicate N (0 : ℝ)) i = 0 := by
    intro i
    simp only [Jnp.get, List.getD_eq_getElem?_getD, List.getElem?_replicate]
    split_ifs <;> rfl
  simp only [computeForRange, hc, hget, sub_self, zero_mul]

theorem computeForRangeLD_zero (dist : ℝ → ℝ → ℝ) (rho u1 dc : ℝ) (N M : ℕ) :
    computeForRangeLD dist rho u1 dc N M ((0, 0), (0, 0)) = 0 := by
  have hc : linspace (0 : ℝ) 0 N = List.replicate N 0 := by
    apply List.ext_getElem
    · simp [linspace]
    · intro i h1 h2
      simp [linspace]
  have hget : ∀ i, Jnp.get 0 (List.replicate N (0 : ℝ)) i = 0 := by
    intro i
    simp only [Jnp.get, List.getD_eq_getElem?_getD, List.getElem?_replicate]
    split_ifs <;> rfl
  simp only [computeForRangeLD, hc, hget, sub_self, zero_mul]

/-! ## C71 -/

/-- **C71**: for every binary or triple lens, source position and radius, and every list of regions that covers the
images of the source disc once, `mag_uniform` tends, as the two resolutions go to infinity independently, to the area
of the images over the area of the source. -/
theorem C71_uniform_converges (nlenses : ℕ) (u : UserParams) (w : ℂ) (rho : ℝ) (hrho : 0 < rho) (hq : 1 + u.q ≠ 0)
    (hq3 : nlenses = 3 → 1 + u.q + u.q3 ≠ 0) (regions : List ((ℝ × ℝ) × (ℝ × ℝ)))
    (hreg : ∀ R ∈ regions, ProperRegion R)
    (hcov : CoversOnce regions (imageOfDisc (userLens nlenses u) w rho)) :
    Tendsto (fun n : ℕ × ℕ => magUniform nlenses u w rho n.1 n.2 regions) (atTop ×ˢ atTop)
      (𝓝 (uniformMag (userLens nlenses u) w rho)) := by
  set L := userLens nlenses u with hL
  set D := imageOfDisc L w rho with hD
  have hDm := measurableSet_imageOfDisc L w rho
  set F : ℂ → ℝ := fun z => if ‖lensMap L z - w‖ < rho then (1 : ℝ) else 0 with hF
  have hFm : Measurable F :=
    Measurable.ite (measurableSet_lt (((measurable_lensMap L).sub_const w).norm) measurable_const)
      measurable_const measurable_const
  have hFb : ∀ z, |F z| ≤ 1 := by
    intro z; simp only [hF]; split_ifs <;> simp
  have hlim : ∀ R ∈ regions, Tendsto (fun n : ℕ × ℕ => computeForRange (rayDistance nlenses u w) rho n.1 n.2 R)
      (atTop ×ˢ atTop) (𝓝 (∫ z in sector R, F z)) := by
    intro R hR
    rcases hreg R hR with ⟨h0, h1, h2, h3⟩ | rfl
    · obtain ⟨⟨a, b⟩, α, β⟩ := R
      simp only at h0 h1 h2 h3
      rw [← sector_integral F hFm 1 hFb a b α β h0 h1.le h2.le h3]
      exact computeForRange_tendsto L w rho a b α β h1 h2 _ (rayDistance_user nlenses u w hq hq3)
    · simp only [computeForRange_zero, sector_zero, Measure.restrict_empty, integral_zero_measure]
      exact tendsto_const_nhds
  have hsum := list_sum_tendsto _ regions _ _ hlim
  have hval : (regions.map fun R => ∫ z in sector R, F z).sum = volume.real D := by
    rw [regions_integral_eq F hFm 1 hFb D ?_ regions hreg hcov]
    · have : F =ᵐ[volume] D.indicator fun _ => (1 : ℝ) := by
        filter_upwards [lenses_null L] with z hz
        simp only [hF]
        by_cases h : ‖lensMap L z - w‖ < rho
        · rw [if_pos h, indicator_of_mem (show z ∈ D from ⟨hz, h⟩)]
        · rw [if_neg h, indicator_of_notMem fun h' : z ∈ D => h h'.2]
      rw [integral_congr_ae this, integral_indicator hDm]
      simp [hD]
    · filter_upwards [lenses_null L] with z hz hzD
      simp only [hF]
      rw [if_neg fun h => hzD ⟨hz, h⟩]
  rw [hval] at hsum
  have hball : volume.real (Metric.ball w rho) = Real.pi * rho ^ 2 := by
    rw [Measure.real, Complex.volume_ball]
    simp [hrho.le]; ring
  rw [uniformMag, hball]
  refine (hsum.div_const _).congr fun n => ?_
  rw [magUniform_eq]

/-! ## C72 -/

theorem isLimb1st_eq_brightness (d u1 : ℝ) (hd : d < 1) :
    isLimb1st d u1 = 3 / Real.pi / (3 - u1) * brightness u1 d := by
  simp only [isLimb1st, if_pos hd, brightness]

theorem brightness_flux (w : ℂ) (rho u1 : ℝ) (hrho : 0 < rho) (hu1 : u1 < 3) :
    3 / Real.pi / (3 - u1) * ∫ y in Metric.ball w rho, brightness u1 (‖y - w‖ / rho) = rho ^ 2 := by
  have h1 : 3 / Real.pi / (3 - u1) * ∫ y in Metric.ball w rho, brightness u1 (‖y - w‖ / rho)
      = ∫ y : ℂ, isLimb1st (‖y - w‖ / rho) u1 := by
    rw [← integral_const_mul, ← integral_indicator Metric.isOpen_ball.measurableSet]
    congr 1; funext y
    by_cases h : y ∈ Metric.ball w rho
    · have h' := h
      rw [mem_ball_iff_norm] at h'
      rw [indicator_of_mem h, isLimb1st_eq_brightness _ _ ((div_lt_one hrho).mpr h')]
    · have h' := h
      rw [mem_ball_iff_norm] at h'
      rw [indicator_of_notMem h]
      simp only [isLimb1st, if_neg fun hh => h' ((div_lt_one hrho).mp hh)]
  rw [h1, integral_sub_right_eq_self (fun y : ℂ => isLimb1st (‖y‖ / rho) u1) w]
  have h2 := Measure.integral_comp_inv_smul (volume : Measure ℂ) (fun y : ℂ => isLimb1st ‖y‖ u1) rho
  rw [C34_unit_flux u1 hu1, Complex.finrank_real_complex] at h2
  have h3 : ∀ y : ℂ, ‖rho⁻¹ • y‖ = ‖y‖ / rho := by
    intro y
    rw [norm_smul, Real.norm_of_nonneg (by positivity)]; field_simp
  simp only [h3] at h2
  rw [h2, abs_of_nonneg (by positivity)]
  simp

theorem measurable_isLimb1st (u1 : ℝ) : Measurable fun d => isLimb1st d u1 := by
  unfold isLimb1st
  exact Measurable.ite measurableSet_Iio (by fun_prop) measurable_const

/-- **C72**: likewise `mag_limb_dark` tends to the flux of the images over the flux of the source, for the linear
limb-darkening law; in particular the boundary weights and their transition parameter `delta_c` do not bias the
limit. -/
theorem C72_limb_converges (nlenses : ℕ) (u : UserParams) (w : ℂ) (rho u1 delta_c : ℝ) (hrho : 0 < rho)
    (hu1 : u1 < 3) (hq : 1 + u.q ≠ 0) (hq3 : nlenses = 3 → 1 + u.q + u.q3 ≠ 0)
    (regions : List ((ℝ × ℝ) × (ℝ × ℝ))) (hreg : ∀ R ∈ regions, ProperRegion R)
    (hcov : CoversOnce regions (imageOfDisc (userLens nlenses u) w rho)) :
    Tendsto (fun n : ℕ × ℕ => magLimbDark nlenses u w rho u1 delta_c n.1 n.2 regions) (atTop ×ˢ atTop)
      (𝓝 (limbMag (userLens nlenses u) w rho u1)) := by
  set L := userLens nlenses u with hL
  set D := imageOfDisc L w rho with hD
  have hDm := measurableSet_imageOfDisc L w rho
  set F : ℂ → ℝ := fun z => isLimb1st (‖lensMap L z - w‖ / rho) u1 with hF
  have hFm : Measurable F :=
    (measurable_isLimb1st u1).comp ((((measurable_lensMap L).sub_const w).norm).div_const rho)
  have hFb : ∀ z, |F z| ≤ |3 / Real.pi / (3 - u1)| * (1 + |u1|) := fun z => isLimb1st_bound _ _
  have hF0 : ∀ z, ¬ ‖lensMap L z - w‖ < rho → F z = 0 := by
    intro z hz
    simp only [hF, isLimb1st, if_neg fun h => hz ((div_lt_one hrho).mp h)]
  have hlim : ∀ R ∈ regions, Tendsto (fun n : ℕ × ℕ =>
      computeForRangeLD (rayDistance nlenses u w) rho u1 delta_c n.1 n.2 R)
      (atTop ×ˢ atTop) (𝓝 (∫ z in sector R, F z)) := by
    intro R hR
    rcases hreg R hR with ⟨h0, h1, h2, h3⟩ | rfl
    · obtain ⟨⟨a, b⟩, α, β⟩ := R
      simp only at h0 h1 h2 h3
      rw [← sector_integral F hFm _ hFb a b α β h0 h1.le h2.le h3]
      exact computeForRangeLD_tendsto L w rho u1 delta_c a b α β hrho h1 h2 _ (rayDistance_user nlenses u w hq hq3)
    · simp only [computeForRangeLD_zero, sector_zero, Measure.restrict_empty, integral_zero_measure]
      exact tendsto_const_nhds
  have hsum := list_sum_tendsto _ regions _ _ hlim
  have hval : (regions.map fun R => ∫ z in sector R, F z).sum
      = 3 / Real.pi / (3 - u1) * ∫ z in D, brightness u1 (‖lensMap L z - w‖ / rho) := by
    rw [regions_integral_eq F hFm _ hFb D ?_ regions hreg hcov]
    · rw [← integral_const_mul, ← integral_indicator hDm]
      refine integral_congr_ae ?_
      filter_upwards [lenses_null L] with z hz
      by_cases h : ‖lensMap L z - w‖ < rho
      · rw [indicator_of_mem (show z ∈ D from ⟨hz, h⟩)]
        exact isLimb1st_eq_brightness _ _ ((div_lt_one hrho).mpr h)
      · rw [indicator_of_notMem fun h' : z ∈ D => h h'.2]
        exact hF0 z h
    · filter_upwards [lenses_null L] with z hz hzD
      exact hF0 z fun h => hzD ⟨hz, h⟩
  rw [hval] at hsum
  have hflux := brightness_flux w rho u1 hrho hu1
  have hI0 : 3 / Real.pi / (3 - u1) ≠ 0 := by
    have := Real.pi_pos
    have : 0 < 3 - u1 := by linarith
    positivity
  have hgoal : limbMag L w rho u1
      = (3 / Real.pi / (3 - u1) * ∫ z in D, brightness u1 (‖lensMap L z - w‖ / rho)) / rho ^ 2 := by
    rw [limbMag, ← hflux, mul_div_mul_left _ _ hI0]
  rw [hgoal]
  refine (hsum.div_const _).congr fun n => ?_
  simp only [magLimbDark, foldl_add_sum, zero_add]

/-! ### The hypotheses can be met for every lens and source -/

theorem slit_null : volume {z : ℂ | z.im = 0} = 0 := by
  have h : (volume : Measure (ℝ × ℝ)) {p | p.2 = 0} = 0 := by
    have : {p : ℝ × ℝ | p.2 = 0} = Set.univ ×ˢ {0} := by ext p; simp
    rw [this, Measure.volume_eq_prod, Measure.prod_prod]
    simp
  rw [← Complex.volume_preserving_equiv_real_prod.measure_preimage_equiv] at h
  exact h

/-- Some annulus covers all images of the disc once. -/
theorem annulus_covers (L : Lenses) (w : ℂ) (rho : ℝ) :
    ∃ B > 0, ProperRegion ((0, B), (0, 2 * Real.pi)) ∧ CoversOnce [((0, B), (0, 2 * Real.pi))] (imageOfDisc L w rho) := by
  have hp := Real.pi_pos
  obtain ⟨B0, hB0⟩ := lenses_bdd L
  obtain ⟨m, hm⟩ : ∃ m : ℝ, 0 ≤ m ∧ (L.map fun l => |l.1|).sum ≤ m :=
    ⟨(L.map fun l => |l.1|).sum, sum_map_nonneg _ _ fun _ _ => abs_nonneg _, le_rfl⟩
  have hB : 0 < |B0| + 1 + m + ‖w‖ + |rho| + 1 := by
    linarith [abs_nonneg B0, hm.1, norm_nonneg w, abs_nonneg rho]
  refine ⟨|B0| + 1 + m + ‖w‖ + |rho| + 1, hB, Or.inl ⟨le_rfl, hB, by simp only; positivity, by simp⟩, ?_⟩
  have hnull := measure_eq_zero_iff_ae_notMem.mp slit_null
  filter_upwards [hnull] with z hz hzD
  have hz0 : z ≠ 0 := fun h => hz (by simp [h])
  -- far away the map is nearly the identity
  have hbound : ‖z‖ < |B0| + 1 + m + ‖w‖ + |rho| + 1 := by
    by_contra hge
    push Not at hge
    have hdef : ‖(L.map fun l => (l.1 : ℂ) / (conj z - conj l.2)).sum‖ ≤ (L.map fun l => |l.1|).sum := by
      have h1 : ∀ l ∈ L, 1 ≤ ‖conj z - conj l.2‖ := by
        intro l hl
        rw [← map_sub, RCLike.norm_conj]
        have h2 : ‖z‖ ≤ ‖z - l.2‖ + ‖l.2‖ := by
          calc ‖z‖ = ‖z - l.2 + l.2‖ := by rw [sub_add_cancel]
            _ ≤ _ := norm_add_le _ _
        have := hB0 l hl
        have := le_abs_self B0
        have := norm_nonneg w
        have := abs_nonneg rho
        linarith [hm.1]
      clear hB0 hm hzD
      induction L with
      | nil => simp
      | cons l L ih =>
        simp only [List.map_cons, List.sum_cons]
        refine (norm_add_le _ _).trans (add_le_add ?_ (ih fun l hl => h1 l (by simp [hl])))
        rw [norm_div, norm_real, Real.norm_eq_abs]
        exact div_le_self (abs_nonneg _) (h1 l (by simp))
    have h3 := hzD.2
    have h4 : ‖z‖ ≤ ‖lensMap L z - w‖ + ‖w‖ + ‖(L.map fun l => (l.1 : ℂ) / (conj z - conj l.2)).sum‖ := by
      calc ‖z‖ = ‖(lensMap L z - w) + w + (L.map fun l => (l.1 : ℂ) / (conj z - conj l.2)).sum‖ := by
            congr 1; simp only [lensMap]; ring
        _ ≤ _ := (norm_add_le _ _).trans (by gcongr; exact norm_add_le _ _)
    linarith [hm.2, le_abs_self rho, abs_nonneg B0]
  have hmem : z ∈ sector ((0, |B0| + 1 + m + ‖w‖ + |rho| + 1), (0, 2 * Real.pi)) := by
    have hrep : z = ‖z‖ * exp (I * arg z) := by rw [mul_comm I]; exact (norm_mul_exp_arg_mul_I z).symm
    have hne : arg z ≠ 0 := fun h => hz (by
      rw [arg_eq_zero_iff] at h; exact h.2)
    rcases lt_or_gt_of_ne hne with h | h
    · refine ⟨‖z‖, arg z + 2 * Real.pi, norm_pos_iff.mpr hz0, hbound, ?_, ?_, ?_⟩
      · simp only; linarith [neg_pi_lt_arg z]
      · simp only; linarith
      · conv_lhs => rw [hrep]
        congr 1
        push_cast
        rw [mul_add, exp_add, show I * (2 * (Real.pi : ℂ)) = 2 * Real.pi * I by ring, exp_two_pi_mul_I, mul_one]
    · exact ⟨‖z‖, arg z, norm_pos_iff.mpr hz0, hbound, h, by simp only; linarith [arg_le_pi z], hrep⟩
  simp [hmem]

/-- **C71, C72**: no covering hypothesis is needed for a large enough annulus: with it both functions converge to the
true magnification, for every lens and source. -/
theorem C71_annulus (nlenses : ℕ) (u : UserParams) (w : ℂ) (rho u1 delta_c : ℝ) (hrho : 0 < rho)
    (hu1 : u1 < 3) (hq : 1 + u.q ≠ 0) (hq3 : nlenses = 3 → 1 + u.q + u.q3 ≠ 0) :
    ∃ B > 0,
      Tendsto (fun n : ℕ × ℕ => magUniform nlenses u w rho n.1 n.2 [((0, B), (0, 2 * Real.pi))]) (atTop ×ˢ atTop)
        (𝓝 (uniformMag (userLens nlenses u) w rho)) ∧
      Tendsto (fun n : ℕ × ℕ => magLimbDark nlenses u w rho u1 delta_c n.1 n.2 [((0, B), (0, 2 * Real.pi))])
        (atTop ×ˢ atTop) (𝓝 (limbMag (userLens nlenses u) w rho u1)) := by
  obtain ⟨B, hB, hp, hc⟩ := annulus_covers (userLens nlenses u) w rho
  have hreg : ∀ R ∈ [(((0 : ℝ), B), ((0 : ℝ), 2 * Real.pi))], ProperRegion R := by
    intro R hR
    rw [List.mem_singleton.mp hR]; exact hp
  exact ⟨B, hB, C71_uniform_converges nlenses u w rho hrho hq hq3 _ hreg hc,
    C72_limb_converges nlenses u w rho u1 delta_c hrho hu1 hq hq3 _ hreg hc⟩

/-- Parameters meeting the hypotheses: an equal-mass triple. -/
example : (0 : ℝ) < 1 / 10 ∧ (1 / 2 : ℝ) < 3 ∧ (1 : ℝ) + 1 ≠ 0 ∧ ((3 : ℕ) = 3 → (1 : ℝ) + 1 + 1 ≠ 0) := by norm_num

end Microjax.Props
