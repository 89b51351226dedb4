import Verif.Props.RegionRingMag
import Verif.Props.RegionApart

/-! # C125: how often the regions of `define_regions` pass over a ray -/

noncomputable section

namespace Microjax.Props

open Complex Spec MeasureTheory Set Filter Topology ExtendedSource PointSource MergeArea Jnp

/-- A region at most a turn wide passes at most once over every point. -/
theorem passes_le_one (R : (ℝ × ℝ) × (ℝ × ℝ)) (h0 : 0 ≤ R.1.1) (h : R.2.2 ≤ R.2.1 + 2 * Real.pi) (z : ℂ) : passes R z ≤ 1 := by
  obtain ⟨⟨a, b⟩, α, β⟩ := R
  rw [passes_eq, (coords_narrow a b α β h0 h z).2]
  split_ifs <;> simp

/-- A region that passes over a point contains polar coordinates of it. -/
theorem coords_of_passes (R : (ℝ × ℝ) × (ℝ × ℝ)) (z : ℂ) (h : passes R z ≠ 0) : ∃ p, p ∈ coords R z := by
  rw [passes_eq] at h
  exact Set.nonempty_of_ncard_ne_zero h

/-- Of two regions that do not overlap at most one passes over a given point. -/
theorem noOverlap_passes (R S : (ℝ × ℝ) × (ℝ × ℝ)) (hR : R = ((0, 0), (0, 0)) ∨ 0 ≤ R.1.1) (hS : S = ((0, 0), (0, 0)) ∨ 0 ≤ S.1.1)
    (h : NoOverlap (2 * Real.pi) R S) (z : ℂ) : passes R z = 0 ∨ passes S z = 0 := by
  have hp := Real.pi_pos
  by_contra hcon
  push Not at hcon
  obtain ⟨⟨r, θ⟩, a1, a2, a3, a4, a5⟩ := coords_of_passes R z hcon.1
  obtain ⟨⟨r', θ'⟩, b1, b2, b3, b4, b5⟩ := coords_of_passes S z hcon.2
  simp only at a1 a2 a3 a4 a5 b1 b2 b3 b4 b5
  have hr : 0 < r := by
    rcases hR with rfl | h
    · exact a1
    · linarith
  have hr' : 0 < r' := by
    rcases hS with rfl | h
    · exact b1
    · linarith
  obtain ⟨e1, k, e2⟩ := polar_unique r r' θ θ' hr hr' (by rw [← a5, b5])
  subst e1
  rcases h with rfl | rfl | h | h | ⟨h, h'⟩ | ⟨h, h'⟩
  · simp only at a1 a2; linarith
  · simp only at b1 b2; linarith
  · linarith
  · linarith
  · have hk := int_zero_of_small k (by linarith) (by linarith)
    subst hk
    simp only [Int.cast_zero, zero_mul, add_zero] at e2
    linarith
  · have hk := int_zero_of_small k (by linarith) (by linarith)
    subst hk
    simp only [Int.cast_zero, zero_mul, add_zero] at e2
    linarith

theorem passesAll_le_one (regions : List ((ℝ × ℝ) × (ℝ × ℝ)))
    (h1 : ∀ R ∈ regions, R = ((0, 0), (0, 0)) ∨ (0 ≤ R.1.1 ∧ R.2.2 ≤ R.2.1 + 2 * Real.pi))
    (h2 : regions.Pairwise (NoOverlap (2 * Real.pi))) (z : ℂ) : passesAll regions z ≤ 1 := by
  induction regions with
  | nil => simp [passesAll]
  | cons R l ih =>
    obtain ⟨g1, g2⟩ := List.pairwise_cons.mp h2
    have hl := ih (fun S hS => h1 S (by simp [hS])) g2
    have hz : ∀ S ∈ R :: l, S = ((0, 0), (0, 0)) ∨ 0 ≤ S.1.1 := fun S hS => (h1 S hS).imp id fun h => h.1
    simp only [passesAll, List.map_cons, List.sum_cons] at hl ⊢
    by_cases hR : passes R z = 0
    · rw [hR, zero_add]; exact hl
    · have h0 : (l.map fun R => passes R z).sum = 0 := by
        apply List.sum_eq_zero
        intro y hy
        obtain ⟨S, hS, rfl⟩ := List.mem_map.mp hy
        exact (noOverlap_passes R S (hz R (by simp)) (hz S (by simp [hS])) (g1 S hS) z).resolve_left hR
      rw [h0, add_zero]
      rcases h1 R (by simp) with rfl | ⟨e1, e2⟩
      · rw [passes_zero]; norm_num
      · exact passes_le_one R e1 e2 z

/-- `C125_apart_partial` for `define_regions`. -/
theorem apart_regions (nlenses : ℕ) (limb : List (ℂ × Bool)) (rho : ℝ) (bins_r bins_th : ℕ)
    (margin_r margin_th : ℝ) (regions : List ((ℝ × ℝ) × (ℝ × ℝ)))
    (hdef : defineRegions limb rho bins_r bins_th margin_r margin_th nlenses = .ok regions)
    (hc : LimbConditions (2 * Real.pi) (if nlenses = 2 then 10 else 18) (limb.map limbPolar) bins_r bins_th (margin_r * rho))
    (he : EdgesFree (limb.map limbPolar) bins_r (if nlenses = 2 then 10 else 18))
    (hbigr : ∀ z ∈ limb, z.2 = true → ‖z.1‖ ≤ 10 ^ 5)
    (hfree : ∃ k < bins_th, ¬ Occupied ((limb.map limbPolar).map Prod.snd) 0 (2 * Real.pi) bins_th k)
    (hmt : 0 < margin_th) (hmt2 : 2 * margin_th ≤ 360 / bins_th) :
    (∀ R ∈ regions, R = ((0, 0), (0, 0)) ∨ (0 ≤ R.1.1 ∧ R.1.1 < R.1.2 ∧ R.2.1 < R.2.2 ∧ R.2.2 ≤ R.2.1 + 2 * Real.pi)) ∧
    regions.Pairwise (NoOverlap (2 * Real.pi)) := by
  have hp := Real.pi_pos
  have hbK : (0 : ℝ) < bins_th := by exact_mod_cast hc.bins_th_pos
  have hpi5 : 2 * Real.pi ≤ 10 ^ 5 := by have := Real.pi_le_four; linarith
  have hbig : ∀ p ∈ limb.map limbPolar, p.1 ≤ 10 ^ 5 := by
    intro p hp'
    obtain ⟨z, hz, rfl⟩ := List.mem_map.mp hp'
    unfold limbPolar
    split_ifs with hb
    · simpa using hbigr z hz hb
    · simp only [mul_zero, norm_zero]; positivity
  have hmtp : 0 < margin_th * (Real.pi / 180) := by positivity
  have hmt2p : 2 * (margin_th * (Real.pi / 180)) ≤ 2 * Real.pi / bins_th := by
    have h := mul_le_mul_of_nonneg_right hmt2 (by positivity : (0 : ℝ) ≤ Real.pi / 180)
    calc 2 * (margin_th * (Real.pi / 180)) = 2 * margin_th * (Real.pi / 180) := by ring
      _ ≤ 360 / bins_th * (Real.pi / 180) := h
      _ = 2 * Real.pi / bins_th := by ring
  obtain ⟨nreal, hreg⟩ : ∃ nreal, regions = regionsOfLimb (2 * Real.pi) (if nlenses = 2 then 10 else 18) nreal
      (limb.map limbPolar) bins_r bins_th (margin_r * rho) (margin_th * (Real.pi / 180)) := by
    unfold defineRegions at hdef
    by_cases h2 : nlenses = 2
    · rw [if_pos h2] at hdef ⊢
      exact ⟨5, (Except.ok.inj hdef).symm⟩
    · rw [if_neg h2] at hdef ⊢
      by_cases h3 : nlenses = 3
      · rw [if_pos h3] at hdef
        exact ⟨9, (Except.ok.inj hdef).symm⟩
      · rw [if_neg h3] at hdef
        exact absurd hdef (by simp)
  obtain ⟨h1, h2⟩ := C125_apart_partial hc he hpi5 hbig hfree nreal _ hmtp hmt2p
  rw [← hreg] at h1 h2
  exact ⟨h1, h2⟩

/-- **C125 (part that holds)**, for `define_regions` and `mag_uniform`: if some angular bin holds no image of the source
limb and the angular margin is at most half a bin, the returned regions pass over every point of the image plane at most
once. So `mag_uniform` tends to a value that is at most the magnification, and it is the magnification exactly when the
regions contain almost every image point. Holds for binary and triple lenses and every limb that meets the conditions. -/
theorem C125_once_partial (nlenses : ℕ) (limb : List (ℂ × Bool)) (rho : ℝ) (hrho : 0 < rho) (bins_r bins_th : ℕ)
    (margin_r margin_th : ℝ) (regions : List ((ℝ × ℝ) × (ℝ × ℝ)))
    (hdef : defineRegions limb rho bins_r bins_th margin_r margin_th nlenses = .ok regions)
    (hc : LimbConditions (2 * Real.pi) (if nlenses = 2 then 10 else 18) (limb.map limbPolar) bins_r bins_th (margin_r * rho))
    (he : EdgesFree (limb.map limbPolar) bins_r (if nlenses = 2 then 10 else 18))
    (hbigr : ∀ z ∈ limb, z.2 = true → ‖z.1‖ ≤ 10 ^ 5)
    (hfree : ∃ k < bins_th, ¬ Occupied ((limb.map limbPolar).map Prod.snd) 0 (2 * Real.pi) bins_th k)
    (hmt : 0 < margin_th) (hmt2 : 2 * margin_th ≤ 360 / bins_th) :
    (∀ R ∈ regions, OrderedRegion R) ∧ (∀ z, passesAll regions z ≤ 1) ∧
    ∀ (u : UserParams) (w : ℂ), 1 + u.q ≠ 0 → (nlenses = 3 → 1 + u.q + u.q3 ≠ 0) →
      ∃ A, Tendsto (fun n : ℕ × ℕ => magUniform nlenses u w rho n.1 n.2 regions) (atTop ×ˢ atTop) (𝓝 A) ∧
        A ≤ uniformMag (userLens nlenses u) w rho ∧
        (A = uniformMag (userLens nlenses u) w rho ↔
          ∀ᵐ z : ℂ, z ∈ imageOfDisc (userLens nlenses u) w rho → passesAll regions z = 1) := by
  have hp := Real.pi_pos
  obtain ⟨h1, h2⟩ := apart_regions nlenses limb rho bins_r bins_th margin_r margin_th regions hdef hc he hbigr hfree hmt hmt2
  have hord : ∀ R ∈ regions, OrderedRegion R := fun R hR => by
    rcases h1 R hR with h | ⟨g1, g2, g3, _⟩
    · exact Or.inr h
    · exact Or.inl ⟨g1, g2, g3⟩
  have hone : ∀ z, passesAll regions z ≤ 1 := fun z =>
    passesAll_le_one regions (fun R hR => (h1 R hR).imp id fun h => ⟨h.1, h.2.2.2⟩) h2 z
  refine ⟨hord, hone, fun u w hq hq3 => ⟨_, C124_uniform nlenses u w rho hrho hq hq3 regions hord, ?_⟩⟩
  set L := userLens nlenses u with hL
  set D := imageOfDisc L w rho with hD
  have hDm : MeasurableSet D := measurableSet_imageOfDisc L w rho
  have hball : 0 < volume.real (Metric.ball w rho) := by
    rw [Measure.real, Complex.volume_ball]
    simp [hrho.le]; positivity
  have hfin : volume D ≠ ⊤ := by
    obtain ⟨B, hB, hP, hC⟩ := annulus_covers L w rho
    refine ne_top_of_le_ne_top (volume_sector_ne_top _ hP) (measure_mono_ae ?_)
    filter_upwards [hC] with z hz hzD
    have := hz hzD
    by_contra hn
    have hn' : z ∉ sector ((0, B), (0, 2 * Real.pi)) := hn
    simp [hn'] at this
  have hi1 : IntegrableOn (fun z => (passesAll regions z : ℝ)) D := passesAll_integrableOn L w rho regions hord
  have hi2 : IntegrableOn (fun _ : ℂ => (1 : ℝ)) D := integrableOn_const hfin
  have hvol : volume.real D = ∫ _ in D, (1 : ℝ) := by simp
  have hle : ∀ z, (0 : ℝ) ≤ 1 - (passesAll regions z : ℝ) := by
    intro z
    have : (passesAll regions z : ℝ) ≤ 1 := by exact_mod_cast hone z
    linarith
  constructor
  · unfold uniformMag
    refine div_le_div_of_nonneg_right ?_ hball.le
    rw [hvol]
    exact integral_mono hi1 hi2 fun z => by have := hle z; simp only; linarith
  · unfold uniformMag
    rw [div_left_inj' hball.ne', hvol]
    have hsub := integral_eq_zero_iff_of_nonneg_ae (μ := volume.restrict D)
      (f := fun z => 1 - (passesAll regions z : ℝ)) (Eventually.of_forall fun z => hle z) (hi2.sub hi1)
    rw [eq_comm, ← sub_eq_zero, ← integral_sub hi2 hi1, hsub, Filter.EventuallyEq, ae_restrict_iff' hDm]
    refine eventually_congr (Eventually.of_forall fun z => ?_)
    refine imp_congr_right fun _ => ?_
    simp only [Pi.zero_apply]
    constructor
    · intro h
      have : (passesAll regions z : ℝ) = 1 := by linarith
      exact_mod_cast this
    · intro h
      rw [h]; norm_num

/-! ## Complete rings -/

open scoped Classical in
/-- The regions of a complete ring: rings with angles from `-margin_th` to `2π + margin_th`, no two at the same radius. -/
theorem ring_regions (nlenses : ℕ) (limb : List (ℂ × Bool)) (rho : ℝ) (bins_r bins_th : ℕ)
    (margin_r margin_th : ℝ) (regions : List ((ℝ × ℝ) × (ℝ × ℝ)))
    (hdef : defineRegions limb rho bins_r bins_th margin_r margin_th nlenses = .ok regions)
    (hc : LimbConditions (2 * Real.pi) (if nlenses = 2 then 10 else 18) (limb.map limbPolar) bins_r bins_th (margin_r * rho))
    (hfull : ∀ k < bins_th, Occupied ((limb.map limbPolar).map Prod.snd) 0 (2 * Real.pi) bins_th k) :
    (∀ R ∈ regions, R = ((0, 0), (0, 0)) ∨ (0 ≤ R.1.1 ∧ R.1.1 < R.1.2 ∧
      R.2 = (-(margin_th * (Real.pi / 180)), 2 * Real.pi + margin_th * (Real.pi / 180)))) ∧
    ∀ z, regions.countP (fun R => decide (AtRadius R z)) ≤ 1 := by
  have hp := Real.pi_pos
  obtain ⟨nreal, hreg⟩ : ∃ nreal, regions = regionsOfLimb (2 * Real.pi) (if nlenses = 2 then 10 else 18) nreal
      (limb.map limbPolar) bins_r bins_th (margin_r * rho) (margin_th * (Real.pi / 180)) := by
    unfold defineRegions at hdef
    by_cases h2 : nlenses = 2
    · rw [if_pos h2] at hdef ⊢
      exact ⟨5, (Except.ok.inj hdef).symm⟩
    · rw [if_neg h2] at hdef ⊢
      by_cases h3 : nlenses = 3
      · rw [if_pos h3] at hdef
        exact ⟨9, (Except.ok.inj hdef).symm⟩
      · rw [if_neg h3] at hdef
        exact absurd hdef (by simp)
  have hn : 1 ≤ (if nlenses = 2 then 10 else 18) := by split_ifs <;> norm_num
  generalize (if nlenses = 2 then 10 else 18) = n at hc hreg hn
  obtain ⟨E, hE, hA, hEreg⟩ := table_facts _ n _ bins_r bins_th _ hc
  have hthb : ∀ x ∈ (limb.map limbPolar).map Prod.snd, 0 ≤ x ∧ x ≤ 2 * Real.pi := by
    intro x hx; obtain ⟨p, hp', rfl⟩ := List.mem_map.mp hx
    exact ⟨(hc.polar p hp').2.1, (hc.polar p hp').2.2.le⟩
  obtain ⟨hf, _⟩ := cluster_full _ hc.hpi _ bins_th n hc.bins_th_pos hn hthb hfull
  have hEform : ∀ row ∈ E, row = ((0, 0), (0, 0)) ∨ (0 ≤ row.1.1 ∧ row.1.1 < row.1.2 ∧ row.2 = (0, 2 * Real.pi)) := by
    intro row h
    rcases hE row h with h | ⟨_, k2, k3, k4, p, _, g1, g2, g3, g4⟩
    · exact Or.inl h
    · refine Or.inr ⟨ringTable_nonneg _ _ _ _ _ k2, g1.trans g2, (hf _ k4).resolve_left fun h0 => ?_⟩
      rw [h0] at g3 g4
      exact absurd (g3.trans g4) (lt_irrefl _)
  have hmem := mergeFinal_rings E (2 * Real.pi) fun row h => (hEform row h).imp id fun h => ⟨h.1.trans_lt h.2.1, h.2.2⟩
  have hrow : ∀ m ∈ mergeFinal (2 * Real.pi) E, m = ((0, 0), (0, 0)) ∨
      (0 ≤ m.1.1 ∧ m.1.1 < m.1.2 ∧ m.2 = (0, 2 * Real.pi) ∧
        refineFinalRow (2 * Real.pi) (limb.map limbPolar) (margin_r * rho) (margin_th * (Real.pi / 180)) m
          = (m.1, (-(margin_th * (Real.pi / 180)), 2 * Real.pi + margin_th * (Real.pi / 180)))) := by
    intro m hm
    rcases hEform m ((hmem m).mp hm) with h | ⟨h0, h1, h2⟩
    · exact Or.inl h
    · refine Or.inr ⟨h0, h1, h2, ?_⟩
      obtain ⟨r, th⟩ := m
      simp only at h0 h1 h2
      subst h2
      exact refineFinalRow_ring _ _ _ _ _ (h0.trans_lt h1).ne'
  rw [hEreg] at hreg
  have hform : ∀ R ∈ regions, R = ((0, 0), (0, 0)) ∨ (0 ≤ R.1.1 ∧ R.1.1 < R.1.2 ∧
      R.2 = (-(margin_th * (Real.pi / 180)), 2 * Real.pi + margin_th * (Real.pi / 180))) := by
    intro R hR
    rw [hreg] at hR
    obtain ⟨m, hm, rfl⟩ := List.mem_map.mp hR
    rcases hrow m (List.mem_of_mem_take hm) with rfl | ⟨h0, h1, _, h3⟩
    · exact Or.inl (refineFinalRow_zero _ _ _ _)
    · rw [h3]; exact Or.inr ⟨h0, h1, rfl⟩
  have hsep : regions.Pairwise (fun R S => R = ((0, 0), (0, 0)) ∨ S = ((0, 0), (0, 0)) ∨ R.1.2 ≤ S.1.1 ∨ S.1.2 ≤ R.1.1) := by
    rw [hreg, List.pairwise_map]
    refine List.Pairwise.imp_of_mem ?_ ((merged_apart hc.hpi hc.bins_th_pos hE hA).sublist (List.take_sublist nreal _))
    intro x y hx hy hxy
    rcases hrow x (List.mem_of_mem_take hx) with rfl | ⟨x0, x1, x2, x3⟩
    · exact Or.inl (refineFinalRow_zero _ _ _ _)
    rcases hrow y (List.mem_of_mem_take hy) with rfl | ⟨y0, y1, y2, y3⟩
    · exact Or.inr (Or.inl (refineFinalRow_zero _ _ _ _))
    rw [x3, y3]
    right; right
    have hbK : (0 : ℝ) < bins_th := by exact_mod_cast hc.bins_th_pos
    have hw : 0 < 2 * Real.pi / bins_th := by positivity
    rcases hxy with h | h | h | h | ⟨_, h⟩
    · rw [h] at x1; exact absurd x1 (lt_irrefl _)
    · rw [h] at y1; exact absurd y1 (lt_irrefl _)
    · exact Or.inl h
    · exact Or.inr h
    · exfalso
      rw [x2, y2] at h
      rcases h with ⟨h, _⟩ | ⟨h, _⟩ <;> simp only at h <;> linarith
  refine ⟨hform, fun z => ?_⟩
  apply countP_le_one_of_pairwise
  refine hsep.imp ?_
  rintro S T hST ⟨h1, h2⟩
  simp only [decide_eq_true_eq] at h1 h2
  obtain ⟨a1, a2⟩ := h1
  obtain ⟨b1, b2⟩ := h2
  rcases hST with rfl | rfl | h | h
  · exact absurd (a1.trans a2) (lt_irrefl _)
  · exact absurd (b1.trans b2) (lt_irrefl _)
  · linarith
  · linarith

open scoped Classical in
/-- **C125 (violated)** for `define_regions` and `mag_uniform`: if the limb images occupy every angular bin and the radii
of the returned regions cover the images, `mag_uniform` tends to the magnification *plus* the area of the images within
`margin_th` degrees of the positive axis over the area of the source. -/
theorem C125_ring_regions_violated (nlenses : ℕ) (limb : List (ℂ × Bool)) (rho : ℝ) (hrho : 0 < rho) (bins_r bins_th : ℕ)
    (margin_r margin_th : ℝ) (regions : List ((ℝ × ℝ) × (ℝ × ℝ)))
    (hdef : defineRegions limb rho bins_r bins_th margin_r margin_th nlenses = .ok regions)
    (hc : LimbConditions (2 * Real.pi) (if nlenses = 2 then 10 else 18) (limb.map limbPolar) bins_r bins_th (margin_r * rho))
    (hfull : ∀ k < bins_th, Occupied ((limb.map limbPolar).map Prod.snd) 0 (2 * Real.pi) bins_th k)
    (hmt : 0 < margin_th) (hmt2 : margin_th ≤ 180) (u : UserParams) (w : ℂ) (hq : 1 + u.q ≠ 0)
    (hq3 : nlenses = 3 → 1 + u.q + u.q3 ≠ 0)
    (hcov : ∀ᵐ z : ℂ, z ∈ imageOfDisc (userLens nlenses u) w rho → ∃ R ∈ regions, AtRadius R z) :
    Tendsto (fun n : ℕ × ℕ => magUniform nlenses u w rho n.1 n.2 regions) (atTop ×ˢ atTop)
      (𝓝 (uniformMag (userLens nlenses u) w rho +
        volume.real (imageOfDisc (userLens nlenses u) w rho ∩ wedge (margin_th * (Real.pi / 180))) /
          volume.real (Metric.ball w rho))) := by
  obtain ⟨hform, hcnt⟩ := ring_regions nlenses limb rho bins_r bins_th margin_r margin_th regions hdef hc hfull
  have hp := Real.pi_pos
  refine C125_ring_excess_violated nlenses u w rho hrho hq hq3 (margin_th * (Real.pi / 180)) (by positivity) ?_ regions hform ?_
  · calc margin_th * (Real.pi / 180) ≤ 180 * (Real.pi / 180) := by gcongr
      _ = Real.pi := by ring
  · filter_upwards [hcov] with z hz hzD
    obtain ⟨R, hR, hRz⟩ := hz hzD
    exact le_antisymm (hcnt z) (List.countP_pos_iff.mpr ⟨R, hR, by simpa using hRz⟩)

/-! ## The hypotheses hold: three images of the limb above the origin -/

theorem limbPolar_up (r : ℝ) (hr : 0 < r) : limbPolar (r * I, true) = (r, Real.pi / 2) := by
  have hp := Real.pi_pos
  have harg : arg ((r : ℂ) * I) = Real.pi / 2 := by rw [arg_real_mul I hr, arg_I]
  have hfl : ⌊arg ((r : ℂ) * I) / (2 * Real.pi)⌋ = 0 := by
    rw [harg, Int.floor_eq_zero_iff]
    constructor
    · positivity
    · rw [div_lt_one (by positivity)]; linarith
  unfold limbPolar
  rw [if_pos rfl]
  simp only [hfl]
  simp [harg, abs_of_pos hr]

def upLimb : List (ℂ × Bool) := [(((1 : ℝ) : ℂ) * I, true), (((3/2 : ℝ) : ℂ) * I, true), (((2 : ℝ) : ℂ) * I, true)]

theorem upLimb_polar : upLimb.map limbPolar = [(1, Real.pi / 2), (3/2, Real.pi / 2), (2, Real.pi / 2)] := by
  simp only [upLimb, List.map_cons, List.map_nil]
  rw [limbPolar_up 1 (by norm_num), limbPolar_up (3/2) (by norm_num), limbPolar_up 2 (by norm_num)]

theorem runCount_le_bins (arr : List ℝ) (lo hi : ℝ) (n : ℕ) : runCount arr lo hi n ≤ n := by
  classical
  unfold runCount
  exact (Finset.card_filter_le _ _).trans (by simp)

theorem upLimb_radii : nzMin ([1, 3/2, 2] : List ℝ) = 1 ∧ nzMax ([1, 3/2, 2] : List ℝ) = 2 := by
  constructor
  · norm_num [nzMin, amin]
  · norm_num [nzMax, amax]

theorem upLimb_cluster : (∀ x ∈ ([1, 3/2, 2] : List ℝ), x ≠ 0 → ∃ row ∈ cluster1dR ([1, 3/2, 2] : List ℝ) 1 10, row.1 ≤ x ∧ x ≤ row.2) ∧
    ∀ row ∈ cluster1dR ([1, 3/2, 2] : List ℝ) 1 10, row = (0, 0) ∨ row = (1, 2) := by
  have hm : ∀ x ∈ ([1, 3/2, 2] : List ℝ), 0 ≤ x := by
    intro x hx
    simp only [List.mem_cons, List.not_mem_nil, or_false] at hx
    rcases hx with rfl | rfl | rfl <;> norm_num
  obtain ⟨h1, h2, _⟩ := C40_cluster_radii ([1, 3/2, 2] : List ℝ) 1 10 (by norm_num) hm 1 2 (by simp) (by simp) (by norm_num)
    (by norm_num) ((runCount_le_bins _ _ _ _).trans (by norm_num))
  refine ⟨h1, fun row hrow => ?_⟩
  rcases h2 row hrow with h | ⟨i, j, hij, h⟩
  · exact Or.inl h
  · right
    obtain ⟨g1, g2, _⟩ := hij
    have hi : i = 0 := by omega
    have hj : j = 1 := by omega
    rw [h, hi, hj, upLimb_radii.1, upLimb_radii.2]
    norm_num

theorem upLimb_conditions (mr : ℝ) (hmr : 1 / 10 ^ 8 < mr) : LimbConditions (2 * Real.pi) 10 (upLimb.map limbPolar) 1 3 mr := by
  have hp := Real.pi_pos
  have hp3 := Real.two_le_pi
  rw [upLimb_polar]
  refine ⟨by positivity, by norm_num, by norm_num, ?_, ⟨1, by simp, 2, by simp, by norm_num, by norm_num⟩, ?_, hmr,
    (runCount_le_bins _ _ _ _).trans (by norm_num), (runCount_le_bins _ _ _ _).trans (by norm_num), ?_⟩
  · intro p hp'
    simp only [List.mem_cons, List.not_mem_nil, or_false] at hp'
    rcases hp' with rfl | rfl | rfl <;> refine ⟨by norm_num, by positivity, ?_⟩ <;> simp only <;> linarith
  · push_cast; linarith
  · intro row hrow
    simp only [List.map_cons, List.map_nil] at hrow ⊢
    rcases upLimb_cluster.2 row hrow with h | rfl
    · exact Or.inl h
    · right; exact ⟨3/2, by simp, by norm_num, by norm_num⟩

theorem upLimb_edges : EdgesFree (upLimb.map limbPolar) 1 10 := by
  rw [upLimb_polar]
  intro x hx hx0
  simp only [List.map_cons, List.map_nil] at hx ⊢
  rw [upLimb_radii.1, upLimb_radii.2]
  obtain ⟨row, hrow, h1, h2⟩ := upLimb_cluster.1 x hx hx0
  simp only [List.mem_cons, List.not_mem_nil, or_false] at hx
  rcases hx with rfl | rfl | rfl
  · exact Or.inl rfl
  · right; right
    refine ⟨row, hrow, ?_⟩
    rcases upLimb_cluster.2 row hrow with rfl | rfl
    · simp only at h2; norm_num at h2
    · norm_num
  · exact Or.inr (Or.inl rfl)

/-- `C125_once_partial` applies to these images with source radius 1/10, margins 1 and half a degree. -/
example : ∃ regions, defineRegions upLimb (1/10) 1 3 1 (1/2) 2 = .ok regions ∧ ∀ z, passesAll regions z ≤ 1 := by
  have hp := Real.pi_pos
  refine ⟨_, rfl, (C125_once_partial 2 upLimb (1/10) (by norm_num) 1 3 1 (1/2) _ rfl ?_ ?_ ?_ ⟨2, by norm_num, ?_⟩ (by norm_num)
    (by norm_num)).2.1⟩
  · exact upLimb_conditions _ (by norm_num)
  · exact upLimb_edges
  · intro z hz
    simp only [upLimb, List.mem_cons, List.not_mem_nil, or_false] at hz
    rcases hz with rfl | rfl | rfl <;> norm_num
  · rw [upLimb_polar]
    rintro ⟨_, x, hx, h1, _⟩
    simp only [List.map_cons, List.map_nil, List.mem_cons, List.not_mem_nil, or_false, or_self] at hx
    subst hx
    push_cast at h1
    linarith

theorem ring4_table (limb : List (ℝ × ℝ)) (h : limb.map Prod.fst = [1/2, 1, 2, 1]) :
    ringTable limb 1 10 1 = [(0, 0), (0, 2)] ∧ cluster1dR (limb.map Prod.fst) 1 10 = [(0, 0), (1/2, 2)] := by
  have hcl : cluster1dR (limb.map Prod.fst) 1 10 = [(0, 0), (1/2, 2)] := by
    rw [h]
    norm_num [cluster1dR, cluster1dRange, amin, amax, binEdges, linspace, List.range, List.range.loop, binMask, binIndex,
      slice, startMask, endMask, mulBool, sort, lastN, List.insertionSort, List.orderedInsert]
  refine ⟨?_, hcl⟩
  unfold ringTable refineAddmarginMergeR
  rw [hcl, h]
  norm_num [refineAddMargin, amin, amax, mergeRows_cons, mergeRows_one]

theorem limbPolar_down (r : ℝ) (hr : 0 < r) : limbPolar (r * -I, true) = (r, 3 * Real.pi / 2) := by
  have hp := Real.pi_pos
  have harg : arg ((r : ℂ) * -I) = -(Real.pi / 2) := by rw [arg_real_mul (-I) hr, arg_neg_I]
  have hfl : ⌊arg ((r : ℂ) * -I) / (2 * Real.pi)⌋ = -1 := by
    rw [harg, Int.floor_eq_iff]
    constructor
    · rw [le_div_iff₀ (by positivity)]; push_cast; linarith
    · rw [div_lt_iff₀ (by positivity)]; push_cast; linarith
  unfold limbPolar
  rw [if_pos rfl]
  simp only [hfl]
  refine Prod.ext ?_ ?_
  · simp [abs_of_pos hr]
  · simp only [harg]; push_cast; ring

def ring4Limb : List (ℂ × Bool) :=
  [(((1/2 : ℝ) : ℂ) * I, true), (((1 : ℝ) : ℂ) * I, true), (((2 : ℝ) : ℂ) * I, true), (((1 : ℝ) : ℂ) * -I, true)]

theorem ring4_polar : ring4Limb.map limbPolar
    = [(1/2, Real.pi / 2), (1, Real.pi / 2), (2, Real.pi / 2), (1, 3 * Real.pi / 2)] := by
  simp only [ring4Limb, List.map_cons, List.map_nil]
  rw [limbPolar_up (1/2) (by norm_num), limbPolar_up 1 (by norm_num), limbPolar_up 2 (by norm_num),
    limbPolar_down 1 (by norm_num)]

theorem ring4_pol : ∀ p ∈ ring4Limb.map limbPolar, (p.1 = 0 ∨ 1 / 10 ^ 8 < p.1) ∧ 0 ≤ p.2 ∧ p.2 < 2 * Real.pi := by
  have hp := Real.pi_pos
  rw [ring4_polar]
  intro p hp'
  simp only [List.mem_cons, List.not_mem_nil, or_false] at hp'
  rcases hp' with rfl | rfl | rfl | rfl <;> refine ⟨Or.inr (by norm_num), by positivity, ?_⟩ <;> simp only <;> linarith

theorem ring4_tol : 1 / 10 ^ 8 + 1 / 10 ^ 5 * (2 * Real.pi) < 2 * Real.pi / ((2 : ℕ) : ℝ) := by
  have hp2 := Real.two_le_pi
  push_cast; linarith

theorem ring4_full : ∀ k < 2, Occupied ((ring4Limb.map limbPolar).map Prod.snd) 0 (2 * Real.pi) 2 k := by
  have hp := Real.pi_pos
  rw [ring4_polar]
  intro k hk
  refine ⟨hk, ?_⟩
  interval_cases k
  · refine ⟨Real.pi / 2, by simp, ?_, Or.inl ?_⟩ <;> push_cast <;> linarith
  · refine ⟨3 * Real.pi / 2, by simp, ?_, Or.inl ?_⟩ <;> push_cast <;> linarith

theorem ring4_conditions (mr : ℝ) (hmr : 1 / 10 ^ 8 < mr) : LimbConditions (2 * Real.pi) 10 (ring4Limb.map limbPolar) 1 2 mr := by
  have hp := Real.pi_pos
  have hrad : (ring4Limb.map limbPolar).map Prod.fst = [1/2, 1, 2, 1] := by rw [ring4_polar]; simp
  obtain ⟨htab, hcl⟩ := ring4_table (ring4Limb.map limbPolar) hrad
  refine ⟨by positivity, by norm_num, by norm_num, fun p hp => ?_, ?_, ring4_tol, hmr,
    (runCount_le_bins _ _ _ _).trans (by norm_num), (runCount_le_bins _ _ _ _).trans (by norm_num), ?_⟩
  · obtain ⟨h, h2⟩ := ring4_pol p hp
    refine ⟨?_, h2⟩
    rcases h with h | h
    · exact h.ge
    · exact le_trans (by norm_num) h.le
  · rw [hrad]; exact ⟨1, by simp, 2, by simp, by norm_num, by norm_num⟩
  · rw [hcl, hrad]
    intro row hrow
    simp only [List.mem_cons, List.not_mem_nil, or_false] at hrow
    rcases hrow with rfl | rfl
    · exact Or.inl rfl
    · right; exact ⟨1, by simp, by norm_num, by norm_num⟩

/-- `C125_ring_regions_violated` applies to a source of radius 3/2 centred behind a single lens, whose image is the ring
between 1/2 and 2, with limb images on both sides of the lens. -/
example (u : UserParams) (hu : u.q = 0) : ∃ regions, defineRegions ring4Limb (3/2) 1 2 (2/3) (1/2) 2 = .ok regions ∧
    Tendsto (fun n : ℕ × ℕ => magUniform 2 u 0 (3/2) n.1 n.2 regions) (atTop ×ˢ atTop)
      (𝓝 (uniformMag (userLens 2 u) 0 (3/2) +
        volume.real (imageOfDisc (userLens 2 u) 0 (3/2) ∩ wedge (1/2 * (Real.pi / 180))) /
          volume.real (Metric.ball (0 : ℂ) (3/2)))) := by
  have hp := Real.pi_pos
  have hp2 := Real.two_le_pi
  have hrad : (ring4Limb.map limbPolar).map Prod.fst = [1/2, 1, 2, 1] := by rw [ring4_polar]; simp
  obtain ⟨htab, hcl⟩ := ring4_table (ring4Limb.map limbPolar) hrad
  refine ⟨_, rfl, C125_ring_regions_violated 2 ring4Limb (3/2) (by norm_num) 1 2 (2/3) (1/2) _ rfl
    (ring4_conditions _ (by norm_num)) ring4_full (by norm_num)
    (by norm_num) u 0 (by rw [hu]; norm_num) (by norm_num) ?_⟩
  have hlimb : ∃ ring ∈ ringTable (ring4Limb.map limbPolar) 1 10 (2/3 * (3/2)), ∃ p ∈ ring4Limb.map limbPolar,
      ring.1 < p.1 ∧ p.1 < ring.2 ∧ 0 < p.2 := by
    rw [show (2/3 * (3/2) : ℝ) = 1 by norm_num, htab, ring4_polar]
    exact ⟨(0, 2), by simp, (1, Real.pi / 2), by simp, by norm_num, by norm_num, by simp only; positivity⟩
  obtain ⟨h1, h2⟩ := C125_ring_violated (2 * Real.pi) 10 5 (ring4Limb.map limbPolar) 1 2 (2/3 * (3/2)) (1/2 * (Real.pi / 180))
    (by norm_num) (by norm_num) ⟨by positivity, by norm_num, ring4_pol, ring4_tol, ring4_full⟩
  obtain ⟨R, hR, hR1, hR2⟩ := h2 hlimb
  have hR3 : R.1 = (0, 2) := by
    rcases h1 R hR with rfl | ⟨h, _⟩
    · exact absurd hR1 (lt_irrefl _)
    · rw [show (2/3 * (3/2) : ℝ) = 1 by norm_num, htab] at h
      simp only [List.mem_cons, List.not_mem_nil, or_false] at h
      rcases h with h | h
      · rw [h] at hR1; exact absurd hR1 (lt_irrefl _)
      · exact h
  have hL : userLens 2 u = binary u.s 0 := by simp [userLens, hu]
  have hs : Real.sqrt ((3/2) ^ 2 + 4) = 5/2 := by
    rw [show ((3/2) ^ 2 + 4 : ℝ) = (5/2) ^ 2 by norm_num]
    exact Real.sqrt_sq (by norm_num)
  have hnull : ∀ x : ℂ, ∀ᵐ z : ℂ, z ≠ x := fun x =>
    measure_eq_zero_iff_ae_notMem.mp (measure_singleton x : volume {x} = 0)
  filter_upwards [hnull 0, hnull u.s] with z z0 zs hz
  rw [hL, single_lens_ring u.s (3/2) (by norm_num) z z0 zs, hs] at hz
  refine ⟨R, hR, ?_⟩
  unfold AtRadius
  rw [hR3]
  exact ⟨by simpa using z0, by simp only; linarith [hz.2]⟩

end Microjax.Props
