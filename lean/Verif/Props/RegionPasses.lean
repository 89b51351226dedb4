import Verif.Props.RayShooting
import Verif.Spec.Passes
import Mathlib.MeasureTheory.Measure.Lebesgue.EqHaar
import Mathlib.MeasureTheory.Integral.IntervalIntegral.Basic

/-! # C124: the limit of the magnification for arbitrary regions -/

noncomputable section

namespace Microjax.Props

open Complex Spec MeasureTheory Set Filter Topology ExtendedSource PointSource Boundary

/-- The polar coordinates of `z` inside the region. -/
def coords (R : (ℝ × ℝ) × (ℝ × ℝ)) (z : ℂ) : Set (ℝ × ℝ) :=
  {p : ℝ × ℝ | R.1.1 < p.1 ∧ p.1 < R.1.2 ∧ R.2.1 < p.2 ∧ p.2 < R.2.2 ∧ z = p.1 * exp (I * p.2)}

theorem passes_eq (R : (ℝ × ℝ) × (ℝ × ℝ)) (z : ℂ) : passes R z = (coords R z).ncard := rfl

theorem polar_unique (r r' θ θ' : ℝ) (hr : 0 < r) (hr' : 0 < r') (h : (r : ℂ) * exp (I * θ) = r' * exp (I * θ')) :
    r = r' ∧ ∃ k : ℤ, θ = θ' + k * (2 * Real.pi) := by
  have hn : ∀ x : ℝ, ‖exp (I * x)‖ = 1 := fun x => by rw [mul_comm]; exact norm_exp_ofReal_mul_I x
  have hnorm := congrArg norm h
  rw [norm_mul, norm_mul, hn, hn, mul_one, mul_one, norm_real, norm_real, Real.norm_of_nonneg hr.le,
    Real.norm_of_nonneg hr'.le] at hnorm
  subst hnorm
  refine ⟨rfl, ?_⟩
  have hne : (r : ℂ) ≠ 0 := by exact_mod_cast hr.ne'
  have he2 := mul_left_cancel₀ hne h
  rw [exp_eq_exp_iff_exists_int] at he2
  obtain ⟨k, hk⟩ := he2
  refine ⟨k, ?_⟩
  have : I * ((θ : ℝ) : ℂ) = I * ((θ' + k * (2 * Real.pi) : ℝ) : ℂ) := by
    rw [hk]; push_cast; ring
  exact_mod_cast mul_left_cancel₀ I_ne_zero this

theorem int_zero_of_small (k : ℤ) (h1 : (k : ℝ) * (2 * Real.pi) < 2 * Real.pi) (h2 : -(2 * Real.pi) < k * (2 * Real.pi)) :
    k = 0 := by
  have hp := Real.pi_pos
  have e1 : (k : ℝ) < 1 := lt_of_mul_lt_mul_right (by linarith) (by positivity : (0 : ℝ) ≤ 2 * Real.pi)
  have e2 : (-1 : ℝ) < k := lt_of_mul_lt_mul_right (by linarith) (by positivity : (0 : ℝ) ≤ 2 * Real.pi)
  have a1 : k < 1 := by exact_mod_cast e1
  have a2 : -1 < k := by exact_mod_cast e2
  omega

open scoped Classical in
/-- A region not wider than a turn passes once over its points. -/
theorem coords_narrow (a b α β : ℝ) (ha : 0 ≤ a) (hβ : β ≤ α + 2 * Real.pi) (z : ℂ) :
    (coords ((a, b), (α, β)) z).Finite ∧
      (coords ((a, b), (α, β)) z).ncard = if z ∈ sector ((a, b), (α, β)) then 1 else 0 := by
  by_cases h : z ∈ sector ((a, b), (α, β))
  · obtain ⟨r, θ, h1, h2, h3, h4, hz⟩ := h
    simp only at h1 h2 h3 h4
    have hs : coords ((a, b), (α, β)) z = {(r, θ)} := by
      ext ⟨r', θ'⟩
      simp only [coords, mem_ofPred_eq, mem_singleton_iff, Prod.mk.injEq]
      constructor
      · rintro ⟨g1, g2, g3, g4, gz⟩
        obtain ⟨e1, k, e2⟩ := polar_unique r' r θ' θ (ha.trans_lt g1) (ha.trans_lt h1) (by rw [← gz, hz])
        have hk := int_zero_of_small k (by linarith) (by linarith)
        subst hk
        exact ⟨e1, by simpa using e2⟩
      · rintro ⟨rfl, rfl⟩
        exact ⟨h1, h2, h3, h4, hz⟩
    rw [hs, if_pos ⟨r, θ, h1, h2, h3, h4, hz⟩]
    simp
  · have hs : coords ((a, b), (α, β)) z = ∅ := by
      ext ⟨r', θ'⟩
      simp only [coords, mem_ofPred_eq, mem_empty_iff_false, iff_false]
      rintro ⟨g1, g2, g3, g4, gz⟩
      exact h ⟨r', θ', g1, g2, g3, g4, gz⟩
    rw [hs, if_neg h]
    simp

/-- A ray is a null set. -/
theorem ray_null (γ : ℝ) : ∀ᵐ z : ℂ, ∀ r : ℝ, z ≠ r * exp (I * γ) := by
  have hne : (Submodule.span ℝ {exp (I * (γ : ℂ))}) ≠ ⊤ := by
    intro h
    have h1 : Module.finrank ℝ (Submodule.span ℝ {exp (I * (γ : ℂ))}) = 1 :=
      finrank_span_singleton (exp_ne_zero _)
    rw [h, finrank_top, Complex.finrank_real_complex] at h1
    omega
  have h0 := Measure.addHaar_submodule (volume : Measure ℂ) _ hne
  filter_upwards [measure_eq_zero_iff_ae_notMem.mp h0] with z hz r hr
  apply hz
  rw [hr]
  have : (r : ℂ) * exp (I * γ) = r • exp (I * (γ : ℂ)) := by simp
  rw [this]
  exact Submodule.smul_mem _ _ (Submodule.mem_span_singleton_self _)

/-- Cutting a region at the angle `γ`. -/
theorem coords_cut (a b α γ β : ℝ) (h1 : α ≤ γ) (h2 : γ ≤ β) (z : ℂ) (hz : ∀ r : ℝ, z ≠ r * exp (I * γ)) :
    coords ((a, b), (α, β)) z = coords ((a, b), (α, γ)) z ∪ coords ((a, b), (γ, β)) z := by
  ext ⟨r, θ⟩
  simp only [coords, mem_ofPred_eq, mem_union]
  constructor
  · rintro ⟨g1, g2, g3, g4, gz⟩
    rcases lt_trichotomy θ γ with h | h | h
    · exact Or.inl ⟨g1, g2, g3, h, gz⟩
    · subst h; exact absurd gz (hz r)
    · exact Or.inr ⟨g1, g2, h, g4, gz⟩
  · rintro (⟨g1, g2, g3, g4, gz⟩ | ⟨g1, g2, g3, g4, gz⟩)
    · exact ⟨g1, g2, g3, g4.trans_le h2, gz⟩
    · exact ⟨g1, g2, h1.trans_lt g3, g4, gz⟩

theorem coords_cut_disjoint (a b α γ β : ℝ) (z : ℂ) :
    Disjoint (coords ((a, b), (α, γ)) z) (coords ((a, b), (γ, β)) z) := by
  rw [Set.disjoint_left]
  rintro ⟨r, θ⟩ ⟨_, _, _, h, _⟩ ⟨_, _, h', _, _⟩
  simp only at h h'
  linarith

theorem inner_integrable (F : ℂ → ℝ) (hF : Measurable F) (C : ℝ) (hC : ∀ z, |F z| ≤ C) (a b α β : ℝ) (hab : a ≤ b)
    (hαβ : α ≤ β) : IntervalIntegrable (fun r : ℝ => ∫ θ in α..β, r * F (r * exp (I * θ))) volume a b := by
  rw [intervalIntegrable_iff_integrableOn_Ioc_of_le hab]
  have hmeas : StronglyMeasurable (fun r : ℝ => ∫ θ in α..β, r * F (r * exp (I * θ))) := by
    simp only [intervalIntegral.integral_of_le hαβ]
    have : StronglyMeasurable (fun p : ℝ × ℝ => p.1 * F (p.1 * exp (I * p.2))) :=
      (by fun_prop : Measurable fun p : ℝ × ℝ => p.1 * F (p.1 * exp (I * p.2))).stronglyMeasurable
    exact this.integral_prod_right'
  refine Measure.integrableOn_of_bounded (M := max |a| |b| * C * |β - α|) measure_Ioc_lt_top.ne
    hmeas.aestronglyMeasurable ?_
  refine (ae_restrict_iff' measurableSet_Ioc).mpr (Eventually.of_forall fun r hr => ?_)
  refine intervalIntegral.norm_integral_le_of_norm_le_const fun θ _ => ?_
  rw [norm_mul, Real.norm_eq_abs, Real.norm_eq_abs]
  refine mul_le_mul ?_ (hC _) (abs_nonneg _) (le_max_of_le_left (abs_nonneg a))
  rw [abs_le]
  constructor
  · linarith [neg_abs_le a, le_max_left |a| |b|, hr.1]
  · linarith [le_abs_self b, le_max_right |a| |b|, hr.2]

theorem polar_integral_cut (F : ℂ → ℝ) (hF : Measurable F) (C : ℝ) (hC : ∀ z, |F z| ≤ C) (a b α γ β : ℝ) (hab : a ≤ b)
    (h1 : α ≤ γ) (h2 : γ ≤ β) :
    ∫ r in a..b, ∫ θ in α..β, r * F (r * exp (I * θ)) =
      (∫ r in a..b, ∫ θ in α..γ, r * F (r * exp (I * θ))) + ∫ r in a..b, ∫ θ in γ..β, r * F (r * exp (I * θ)) := by
  rw [← intervalIntegral.integral_add (inner_integrable F hF C hC a b α γ hab h1)
    (inner_integrable F hF C hC a b γ β hab h2)]
  congr 1
  funext r
  have hi : ∀ x y : ℝ, x ≤ y → IntervalIntegrable (fun θ : ℝ => r * F (r * exp (I * θ))) volume x y := by
    intro x y hxy
    rw [intervalIntegrable_iff_integrableOn_Ioc_of_le hxy]
    refine Measure.integrableOn_of_bounded (M := |r| * C) measure_Ioc_lt_top.ne
      (by fun_prop : Measurable fun θ : ℝ => r * F (r * exp (I * θ))).aestronglyMeasurable ?_
    refine Eventually.of_forall fun θ => ?_
    rw [norm_mul, Real.norm_eq_abs, Real.norm_eq_abs]
    exact mul_le_mul_of_nonneg_left (hC _) (abs_nonneg _)
  exact (intervalIntegral.integral_add_adjacent_intervals (hi _ _ h1) (hi _ _ h2)).symm

/-- The polar integral over a region of any width counts every point as often as the region passes over it. -/
theorem passes_integral_aux (F : ℂ → ℝ) (hF : Measurable F) (C : ℝ) (hC : ∀ z, |F z| ≤ C) (a b : ℝ) (ha : 0 ≤ a)
    (hab : a ≤ b) (n : ℕ) : ∀ α β : ℝ, α ≤ β → β ≤ α + n * (2 * Real.pi) →
      (∀ᵐ z : ℂ, (coords ((a, b), (α, β)) z).Finite) ∧ Integrable (fun z => (passes ((a, b), (α, β)) z : ℝ) * F z) ∧
      ∫ r in a..b, ∫ θ in α..β, r * F (r * exp (I * θ)) = ∫ z, (passes ((a, b), (α, β)) z : ℝ) * F z := by
  classical
  have hp := Real.pi_pos
  have hnarrow : ∀ α β : ℝ, α ≤ β → β ≤ α + 2 * Real.pi →
      (∀ᵐ z : ℂ, (coords ((a, b), (α, β)) z).Finite) ∧ Integrable (fun z => (passes ((a, b), (α, β)) z : ℝ) * F z) ∧
      ∫ r in a..b, ∫ θ in α..β, r * F (r * exp (I * θ)) = ∫ z, (passes ((a, b), (α, β)) z : ℝ) * F z := by
    intro α β h1 h2
    have hm := measurableSet_sector a b α β ha h2
    have heq : (fun z => (passes ((a, b), (α, β)) z : ℝ) * F z) = (sector ((a, b), (α, β))).indicator F := by
      funext z
      rw [passes_eq, (coords_narrow a b α β ha h2 z).2]
      by_cases h : z ∈ sector ((a, b), (α, β))
      · simp [h]
      · simp [h]
    refine ⟨Eventually.of_forall fun z => (coords_narrow a b α β ha h2 z).1, ?_, ?_⟩
    · rw [heq, integrable_indicator_iff hm]
      refine Measure.integrableOn_of_bounded (M := C) ?_ hF.aestronglyMeasurable (Eventually.of_forall fun z => hC z)
      refine ne_top_of_le_ne_top (measure_ball_lt_top (x := (0 : ℂ)) (r := b)).ne (measure_mono ?_)
      rintro z ⟨r, θ, g1, g2, _, _, rfl⟩
      simp only at g1 g2
      rw [mem_ball_zero_iff, norm_mul, mul_comm I, norm_exp_ofReal_mul_I, mul_one, norm_real,
        Real.norm_of_nonneg (ha.trans g1.le)]
      exact g2
    · rw [heq, integral_indicator hm, sector_integral F hF C hC a b α β ha hab h1 h2]
  induction n with
  | zero =>
    intro α β h1 h2
    exact hnarrow α β h1 (by push_cast at h2; linarith)
  | succ n ih =>
    intro α β h1 h2
    by_cases hw : β ≤ α + 2 * Real.pi
    · exact hnarrow α β h1 hw
    · push Not at hw
      obtain ⟨f1, i1, e1⟩ := hnarrow α (α + 2 * Real.pi) (by linarith) le_rfl
      obtain ⟨f2, i2, e2⟩ := ih (α + 2 * Real.pi) β hw.le (by push_cast at h2; linarith)
      have hcut : ∀ᵐ z : ℂ, coords ((a, b), (α, β)) z
          = coords ((a, b), (α, α + 2 * Real.pi)) z ∪ coords ((a, b), (α + 2 * Real.pi, β)) z := by
        filter_upwards [ray_null (α + 2 * Real.pi)] with z hz
        exact coords_cut a b α _ β (by linarith) hw.le z hz
      have hae : (fun z => (passes ((a, b), (α, β)) z : ℝ) * F z) =ᵐ[volume]
          fun z => (passes ((a, b), (α, α + 2 * Real.pi)) z : ℝ) * F z
            + (passes ((a, b), (α + 2 * Real.pi, β)) z : ℝ) * F z := by
        filter_upwards [hcut, f1, f2] with z hz h3 h4
        rw [passes_eq, passes_eq, passes_eq, hz, Set.ncard_union_eq (coords_cut_disjoint _ _ _ _ _ _) h3 h4]
        push_cast; ring
      refine ⟨?_, (i1.add i2).congr hae.symm, ?_⟩
      · filter_upwards [hcut, f1, f2] with z hz h3 h4
        rw [hz]; exact h3.union h4
      · rw [polar_integral_cut F hF C hC a b α (α + 2 * Real.pi) β hab (by linarith) hw.le, e1, e2,
          ← integral_add i1 i2]
        exact integral_congr_ae hae.symm

theorem passes_zero (z : ℂ) : passes ((0, 0), (0, 0)) z = 0 := by
  have : coords ((0, 0), (0, 0)) z = ∅ := by
    ext ⟨r, θ⟩
    simp only [coords, mem_ofPred_eq, mem_empty_iff_false, iff_false]
    rintro ⟨g1, g2, _⟩
    linarith
  rw [passes_eq, this, Set.ncard_empty]

theorem passes_integral (F : ℂ → ℝ) (hF : Measurable F) (C : ℝ) (hC : ∀ z, |F z| ≤ C) (R : (ℝ × ℝ) × (ℝ × ℝ))
    (hR : OrderedRegion R) : Integrable (fun z => (passes R z : ℝ) * F z) ∧
      ∫ r in R.1.1..R.1.2, ∫ θ in R.2.1..R.2.2, r * F (r * exp (I * θ)) = ∫ z, (passes R z : ℝ) * F z := by
  rcases hR with ⟨h0, h1, h2⟩ | rfl
  · obtain ⟨⟨a, b⟩, α, β⟩ := R
    simp only at h0 h1 h2 ⊢
    have hp := Real.pi_pos
    obtain ⟨n, hn⟩ := exists_nat_gt ((β - α) / (2 * Real.pi))
    rw [div_lt_iff₀ (by positivity)] at hn
    exact (passes_integral_aux F hF C hC a b h0 h1.le n α β h2.le (by linarith)).2
  · simp [passes_zero]

theorem passesAll_integral (F : ℂ → ℝ) (hF : Measurable F) (C : ℝ) (hC : ∀ z, |F z| ≤ C)
    (regions : List ((ℝ × ℝ) × (ℝ × ℝ))) (hreg : ∀ R ∈ regions, OrderedRegion R) :
    Integrable (fun z => (passesAll regions z : ℝ) * F z) ∧
      (regions.map fun R => ∫ r in R.1.1..R.1.2, ∫ θ in R.2.1..R.2.2, r * F (r * exp (I * θ))).sum
        = ∫ z, (passesAll regions z : ℝ) * F z := by
  induction regions with
  | nil => simp [passesAll]
  | cons R l ih =>
    obtain ⟨ih1, ih2⟩ := ih fun R hR => hreg R (by simp [hR])
    obtain ⟨h1, h2⟩ := passes_integral F hF C hC R (hreg R (by simp))
    have hs : (fun z => (passesAll (R :: l) z : ℝ) * F z)
        = fun z => (passes R z : ℝ) * F z + (passesAll l z : ℝ) * F z := by
      funext z
      simp only [passesAll, List.map_cons, List.sum_cons]
      push_cast; ring
    rw [hs]
    refine ⟨h1.add ih1, ?_⟩
    rw [List.map_cons, List.sum_cons, ih2, h2, integral_add h1 ih1]

/-! ## C124 -/

/-- The integral over the images, as an integral over the plane. -/
theorem images_integral (L : Lenses) (w : ℂ) (rho : ℝ) (G : ℂ → ℝ) (F : ℂ → ℝ)
    (hin : ∀ z, ‖lensMap L z - w‖ < rho → F z = G z) (hout : ∀ z, ¬ ‖lensMap L z - w‖ < rho → F z = 0) :
    ∫ z, F z = ∫ z in imageOfDisc L w rho, G z := by
  rw [← integral_indicator (measurableSet_imageOfDisc L w rho)]
  refine integral_congr_ae ?_
  filter_upwards [lenses_null L] with z hz
  by_cases h : ‖lensMap L z - w‖ < rho
  · rw [indicator_of_mem (show z ∈ imageOfDisc L w rho from ⟨hz, h⟩), hin z h]
  · rw [indicator_of_notMem fun h' : z ∈ imageOfDisc L w rho => h h'.2, hout z h]

/-- **C124**: for every binary or triple lens, source position and radius, and *every* list of ordered regions -- covering
the images or not, overlapping or not, of any angular width -- `mag_uniform` tends to the area of the images, each point
counted as often as the regions pass over it, over the area of the source. -/
theorem C124_uniform (nlenses : ℕ) (u : UserParams) (w : ℂ) (rho : ℝ) (hrho : 0 < rho) (hq : 1 + u.q ≠ 0)
    (hq3 : nlenses = 3 → 1 + u.q + u.q3 ≠ 0) (regions : List ((ℝ × ℝ) × (ℝ × ℝ)))
    (hreg : ∀ R ∈ regions, OrderedRegion R) :
    Tendsto (fun n : ℕ × ℕ => magUniform nlenses u w rho n.1 n.2 regions) (atTop ×ˢ atTop)
      (𝓝 ((∫ z in imageOfDisc (userLens nlenses u) w rho, (passesAll regions z : ℝ)) /
        volume.real (Metric.ball w rho))) := by
  set L := userLens nlenses u with hL
  set F : ℂ → ℝ := fun z => if ‖lensMap L z - w‖ < rho then (1 : ℝ) else 0 with hF
  have hFm : Measurable F :=
    Measurable.ite (measurableSet_lt (((measurable_lensMap L).sub_const w).norm) measurable_const)
      measurable_const measurable_const
  have hFb : ∀ z, |F z| ≤ 1 := by
    intro z; simp only [hF]; split_ifs <;> simp
  have hlim : ∀ R ∈ regions, Tendsto (fun n : ℕ × ℕ => computeForRange (rayDistance nlenses u w) rho n.1 n.2 R)
      (atTop ×ˢ atTop) (𝓝 (∫ r in R.1.1..R.1.2, ∫ θ in R.2.1..R.2.2, r * F (r * exp (I * θ)))) := by
    intro R hR
    rcases hreg R hR with ⟨h0, h1, h2⟩ | rfl
    · obtain ⟨⟨a, b⟩, α, β⟩ := R
      exact computeForRange_tendsto L w rho a b α β h1 h2 _ (rayDistance_user nlenses u w hq hq3)
    · simp only [computeForRange_zero, intervalIntegral.integral_same]
      exact tendsto_const_nhds
  have hsum := list_sum_tendsto _ regions _ _ hlim
  rw [(passesAll_integral F hFm 1 hFb regions hreg).2,
    images_integral L w rho (fun z => (passesAll regions z : ℝ)) _
      (fun z h => by simp only [hF, if_pos h, mul_one]) (fun z h => by simp only [hF, if_neg h, mul_zero])] at hsum
  have hball : volume.real (Metric.ball w rho) = Real.pi * rho ^ 2 := by
    rw [Measure.real, Complex.volume_ball]
    simp [hrho.le]; ring
  rw [hball]
  refine (hsum.div_const _).congr fun n => ?_
  rw [magUniform_eq]

/-- **C124**, limb darkening. -/
theorem C124_limb (nlenses : ℕ) (u : UserParams) (w : ℂ) (rho u1 delta_c : ℝ) (hrho : 0 < rho) (hu1 : u1 < 3)
    (hq : 1 + u.q ≠ 0) (hq3 : nlenses = 3 → 1 + u.q + u.q3 ≠ 0) (regions : List ((ℝ × ℝ) × (ℝ × ℝ)))
    (hreg : ∀ R ∈ regions, OrderedRegion R) :
    Tendsto (fun n : ℕ × ℕ => magLimbDark nlenses u w rho u1 delta_c n.1 n.2 regions) (atTop ×ˢ atTop)
      (𝓝 ((∫ z in imageOfDisc (userLens nlenses u) w rho,
          (passesAll regions z : ℝ) * brightness u1 (‖lensMap (userLens nlenses u) z - w‖ / rho)) /
        ∫ y in Metric.ball w rho, brightness u1 (‖y - w‖ / rho))) := by
  set L := userLens nlenses u with hL
  set F : ℂ → ℝ := fun z => isLimb1st (‖lensMap L z - w‖ / rho) u1 with hF
  have hFm : Measurable F :=
    (measurable_isLimb1st u1).comp ((((measurable_lensMap L).sub_const w).norm).div_const rho)
  have hFb : ∀ z, |F z| ≤ |3 / Real.pi / (3 - u1)| * (1 + |u1|) := fun z => isLimb1st_bound _ _
  have hlim : ∀ R ∈ regions, Tendsto (fun n : ℕ × ℕ =>
      computeForRangeLD (rayDistance nlenses u w) rho u1 delta_c n.1 n.2 R)
      (atTop ×ˢ atTop) (𝓝 (∫ r in R.1.1..R.1.2, ∫ θ in R.2.1..R.2.2, r * F (r * exp (I * θ)))) := by
    intro R hR
    rcases hreg R hR with ⟨h0, h1, h2⟩ | rfl
    · obtain ⟨⟨a, b⟩, α, β⟩ := R
      exact computeForRangeLD_tendsto L w rho u1 delta_c a b α β hrho h1 h2 _ (rayDistance_user nlenses u w hq hq3)
    · simp only [computeForRangeLD_zero, intervalIntegral.integral_same]
      exact tendsto_const_nhds
  have hsum := list_sum_tendsto _ regions _ _ hlim
  rw [(passesAll_integral F hFm _ hFb regions hreg).2,
    images_integral L w rho (fun z => 3 / Real.pi / (3 - u1) *
        ((passesAll regions z : ℝ) * brightness u1 (‖lensMap L z - w‖ / rho))) _
      (fun z h => by
        simp only [hF]
        rw [isLimb1st_eq_brightness _ _ ((div_lt_one hrho).mpr h)]; ring)
      (fun z h => by
        simp only [hF, isLimb1st, if_neg fun hh => h ((div_lt_one hrho).mp hh), mul_zero]), integral_const_mul] at hsum
  have hflux := brightness_flux w rho u1 hrho hu1
  have hI0 : 3 / Real.pi / (3 - u1) ≠ 0 := by
    have := Real.pi_pos
    have : 0 < 3 - u1 := by linarith
    positivity
  have hgoal : (∫ z in imageOfDisc L w rho, (passesAll regions z : ℝ) * brightness u1 (‖lensMap L z - w‖ / rho)) /
        (∫ y in Metric.ball w rho, brightness u1 (‖y - w‖ / rho))
      = (3 / Real.pi / (3 - u1) * ∫ z in imageOfDisc L w rho,
          (passesAll regions z : ℝ) * brightness u1 (‖lensMap L z - w‖ / rho)) / rho ^ 2 := by
    rw [← hflux, mul_div_mul_left _ _ hI0]
  rw [hgoal]
  refine (hsum.div_const _).congr fun n => ?_
  simp only [magLimbDark, foldl_add_sum, zero_add]

theorem passesAll_integrableOn (L : Lenses) (w : ℂ) (rho : ℝ) (regions : List ((ℝ × ℝ) × (ℝ × ℝ)))
    (hreg : ∀ R ∈ regions, OrderedRegion R) :
    IntegrableOn (fun z => (passesAll regions z : ℝ)) (imageOfDisc L w rho) := by
  have h := (passesAll_integral (fun _ => 1) measurable_const 1 (fun _ => by simp) regions hreg).1
  simp only [mul_one] at h
  exact h.integrableOn

/-- **C124**, the converse of C71: if the regions miss no image, `mag_uniform` tends to the magnification *only if* almost
every image point is passed over exactly once. -/
theorem C124_once_iff (nlenses : ℕ) (u : UserParams) (w : ℂ) (rho : ℝ) (hrho : 0 < rho) (hq : 1 + u.q ≠ 0)
    (hq3 : nlenses = 3 → 1 + u.q + u.q3 ≠ 0) (regions : List ((ℝ × ℝ) × (ℝ × ℝ)))
    (hreg : ∀ R ∈ regions, OrderedRegion R)
    (hcov : ∀ᵐ z : ℂ, z ∈ imageOfDisc (userLens nlenses u) w rho → 1 ≤ passesAll regions z) :
    Tendsto (fun n : ℕ × ℕ => magUniform nlenses u w rho n.1 n.2 regions) (atTop ×ˢ atTop)
      (𝓝 (uniformMag (userLens nlenses u) w rho)) ↔
    ∀ᵐ z : ℂ, z ∈ imageOfDisc (userLens nlenses u) w rho → passesAll regions z = 1 := by
  set L := userLens nlenses u with hL
  set D := imageOfDisc L w rho with hD
  have hDm := measurableSet_imageOfDisc L w rho
  have hlim := C124_uniform nlenses u w rho hrho hq hq3 regions hreg
  have hball : 0 < volume.real (Metric.ball w rho) := by
    rw [Measure.real, Complex.volume_ball]
    have := Real.pi_pos
    simp [hrho.le]; positivity
  have hfin : volume D ≠ ⊤ := by
    obtain ⟨B, hB, hP, hC⟩ := annulus_covers L w rho
    refine ne_top_of_le_ne_top (volume_sector_ne_top _ hP) (measure_mono_ae ?_)
    filter_upwards [hC] with z hz hzD
    have := hz hzD
    by_contra hn
    have hn' : z ∉ sector ((0, B), (0, 2 * Real.pi)) := hn
    simp [hn'] at this
  have hi1 : IntegrableOn (fun z => (passesAll regions z : ℝ)) D := passesAll_integrableOn L w rho regions hreg
  have hi2 : IntegrableOn (fun _ : ℂ => (1 : ℝ)) D := integrableOn_const hfin
  have hone : volume.real D = ∫ _ in D, (1 : ℝ) := by simp
  have hiff : (∫ z in D, (passesAll regions z : ℝ)) = volume.real D ↔ ∀ᵐ z : ℂ, z ∈ D → passesAll regions z = 1 := by
    have hsub := integral_eq_zero_iff_of_nonneg_ae (μ := volume.restrict D)
      (f := fun z => (passesAll regions z : ℝ) - 1) ?_ (hi1.sub hi2)
    · rw [hone, ← sub_eq_zero, ← integral_sub hi1 hi2, hsub, Filter.EventuallyEq, ae_restrict_iff' hDm]
      refine eventually_congr (Eventually.of_forall fun z => ?_)
      refine imp_congr_right fun _ => ?_
      simp only [Pi.zero_apply, sub_eq_zero]
      exact_mod_cast Iff.rfl
    · rw [Filter.EventuallyLE, ae_restrict_iff' hDm]
      filter_upwards [hcov] with z hz hzD
      have : (1 : ℝ) ≤ passesAll regions z := by exact_mod_cast hz hzD
      simpa using this
  rw [← hiff]
  constructor
  · intro h
    have he := tendsto_nhds_unique hlim h
    rw [uniformMag, div_left_inj' hball.ne'] at he
    exact he
  · intro h
    rw [h] at hlim
    exact hlim

/-- `C124_uniform` with one disc that contains all images listed twice: every point is passed over twice and the limit is
twice the magnification. So the hypotheses hold for regions that are neither disjoint nor missing anything. -/
theorem disc_twice (nlenses : ℕ) (u : UserParams) (w : ℂ) (rho : ℝ) (hrho : 0 < rho) (hq : 1 + u.q ≠ 0)
    (hq3 : nlenses = 3 → 1 + u.q + u.q3 ≠ 0) :
    ∃ B > 0, Tendsto (fun n : ℕ × ℕ => magUniform nlenses u w rho n.1 n.2
        [((0, B), (0, 2 * Real.pi)), ((0, B), (0, 2 * Real.pi))]) (atTop ×ˢ atTop)
      (𝓝 (2 * uniformMag (userLens nlenses u) w rho)) := by
  have hp := Real.pi_pos
  obtain ⟨B, hB, hP, hC⟩ := annulus_covers (userLens nlenses u) w rho
  refine ⟨B, hB, ?_⟩
  have hlim := C124_uniform nlenses u w rho hrho hq hq3 [((0, B), (0, 2 * Real.pi)), ((0, B), (0, 2 * Real.pi))] ?_
  · convert hlim using 2
    rw [uniformMag, ← mul_div_assoc]
    congr 1
    have hae : ∀ᵐ z : ℂ, z ∈ imageOfDisc (userLens nlenses u) w rho →
        (passesAll [((0, B), (0, 2 * Real.pi)), ((0, B), (0, 2 * Real.pi))] z : ℝ) = 2 := by
      filter_upwards [hC] with z hz hzD
      have h1 := hz hzD
      have hmem : z ∈ sector ((0, B), (0, 2 * Real.pi)) := by
        by_contra hn
        simp [hn] at h1
      simp only [passesAll, List.map_cons, List.map_nil, List.sum_cons, List.sum_nil]
      rw [passes_eq, (coords_narrow 0 B 0 (2 * Real.pi) le_rfl (by linarith) z).2, if_pos hmem]
      norm_num
    rw [setIntegral_congr_ae (measurableSet_imageOfDisc _ w rho) hae, setIntegral_const, smul_eq_mul, mul_comm]
  · intro R hR
    have : R = ((0, B), (0, 2 * Real.pi)) := by simpa using hR
    subst this
    exact Or.inl ⟨le_rfl, hB, by simp only; positivity⟩

end Microjax.Props
