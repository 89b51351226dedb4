import Verif.Props.RegionOnce
import Verif.Props.LimbTrace

/-! # C126: an image that contains the origin -/

set_option linter.unusedSectionVars false

namespace Microjax.Props

open Jnp ExtendedSource MergeArea Spec

section
variable {K : Type*} [Field K] [LinearOrder K] [IsStrictOrderedRing K]

theorem cluster_start_nonneg (arr : List K) (bins mc : ℕ) (hb : 0 < bins) (h0 : ∀ x ∈ arr, 0 ≤ x) :
    ∀ row ∈ cluster1dR arr bins mc, 0 ≤ row.1 := by
  intro row hrow
  unfold cluster1dR cluster1dRange at hrow
  simp only at hrow
  set nz := arr.filter fun x => decide (x ≠ 0) with hnz
  have hnn : ∀ x ∈ nz, 0 ≤ x := fun x hx => h0 x (List.mem_of_mem_filter hx)
  have hlo : 0 ≤ amin nz ∧ amin nz ≤ amax nz := by
    by_cases h : nz = []
    · rw [h]; simp [amin, amax]
    · exact ⟨hnn _ (amin_mem _ h), amin_le' _ _ (amax_mem _ h)⟩
  have hm := (List.of_mem_zip hrow).1
  have hm2 := mem_sort.mp (List.mem_of_mem_drop hm)
  rw [inner_eq _ _ bins hb] at hm2
  obtain ⟨i, hi, he⟩ := List.mem_iff_getElem.mp hm2
  rw [List.getElem_zipWith] at he
  rw [← he]
  simp only [List.getElem_map, List.getElem_range, mulBool]
  have h1 : 0 ≤ edge (amin nz) (amax nz) bins (i + 1) := by
    refine hlo.1.trans ?_
    conv_lhs => rw [← edge_one (amin nz) (amax nz) bins]
    exact edge_mono _ _ bins hlo.2 (by omega)
  split_ifs
  · rw [mul_one]; exact h1
  · rw [mul_zero]

/-- A radial range that stays away from the origin by `b`, or is empty. -/
def Beyond (b : K) (row : K × K) : Prop := 0 ≤ row.1 ∧ (b ≤ row.1 ∨ row.2 ≤ 0)

theorem mergeRows_beyond (b : K) (l : List (K × K)) (a : K × K) (h : ∀ row ∈ a :: l, Beyond b row) :
    ∀ m ∈ mergeRows (a :: l), Beyond b m := by
  induction l generalizing a with
  | nil => rw [mergeRows_one]; exact h
  | cons c l ih =>
    rw [mergeRows_cons]
    have ha := h a (by simp)
    have hc := h c (by simp)
    split_ifs with hcond
    · intro m hm
      rcases List.mem_cons.mp hm with rfl | hm
      · exact ⟨le_rfl, Or.inr le_rfl⟩
      · refine ih (a.1, c.2) (fun row hrow => ?_) m hm
        rcases List.mem_cons.mp hrow with rfl | hrow
        · refine ⟨ha.1, Or.inl (ha.2.resolve_right fun h' => ?_)⟩
          have := hc.1
          linarith
        · exact h row (by simp [hrow])
    · intro m hm
      rcases List.mem_cons.mp hm with rfl | hm
      · exact ha
      · exact ih c (fun row hrow => h row (List.mem_cons_of_mem _ hrow)) m hm

/-- **C126**, the regions stay away from the origin: whatever the limb, the numbers of bins and slots, if no valid limb
image is closer to the origin than `a`, no returned region reaches below `a - margin_r`. -/
theorem regions_beyond (twoPi : K) (n nreal : ℕ) (limb : List (K × K)) (bins_r bins_th : ℕ) (hb : 0 < bins_r)
    (margin_r margin_th a : K) (ha : 0 < a) (ha5 : a ≤ 10 ^ 5)
    (hl : ∀ p ∈ limb, p.1 = 0 ∨ a ≤ p.1) :
    ∀ R ∈ regionsOfLimb twoPi n nreal limb bins_r bins_th margin_r margin_th, Beyond (a - margin_r) R.1 := by
  have hnn : ∀ x ∈ limb.map Prod.fst, 0 ≤ x := by
    intro x hx
    obtain ⟨p, hp, rfl⟩ := List.mem_map.mp hx
    rcases hl p hp with h | h
    · exact h.ge
    · exact ha.le.trans h
  have hfar : ∀ x ∈ limb.map Prod.fst, 0 < x → a ≤ x := by
    intro x hx hx0
    obtain ⟨p, hp, rfl⟩ := List.mem_map.mp hx
    rcases hl p hp with h | h
    · exact absurd h hx0.ne'
    · exact h
  have hring : ∀ ring ∈ ringTable limb bins_r n margin_r, Beyond (a - margin_r) ring := by
    intro ring hring
    unfold ringTable refineAddmarginMergeR at hring
    rw [refineAddMargin_eq] at hring
    have hrows : ∀ row ∈ (cluster1dR (limb.map Prod.fst) bins_r n).map (refineOne (limb.map Prod.fst) margin_r),
        Beyond (a - margin_r) row := by
      intro row hrow
      obtain ⟨c, hc, rfl⟩ := List.mem_map.mp hrow
      have hc0 := cluster_start_nonneg _ bins_r n hb hnn c hc
      unfold refineOne
      simp only
      set inside := (limb.map Prod.fst).filter fun r => decide (c.1 < r) && decide (r < c.2) with hin
      refine ⟨le_max_left _ _, ?_⟩
      by_cases he : inside = []
      · right; rw [he]; simp [amax]
      · left
        have hm := amin_mem inside he
        rw [hin, List.mem_filter] at hm
        simp only [Bool.and_eq_true, decide_eq_true_eq] at hm
        have := hfar _ hm.1 (hc0.trans_lt hm.2.1)
        exact le_trans (by linarith) (le_max_right _ _)
    cases hcl : (cluster1dR (limb.map Prod.fst) bins_r n).map (refineOne (limb.map Prod.fst) margin_r) with
    | nil => rw [hcl, mergeRows_nil] at hring; simp at hring
    | cons x l =>
      rw [hcl] at hring hrows
      exact mergeRows_beyond _ l x hrows ring hring
  have hz : Beyond (a - margin_r) ((0 : K), (0 : K)) := ⟨le_rfl, Or.inr le_rfl⟩
  intro R hR
  unfold regionsOfLimb at hR
  simp only at hR
  obtain ⟨m, hm, rfl⟩ := List.mem_map.mp hR
  obtain ⟨e, he, hme⟩ := (mem_mergeFinal _ _ _).mp (List.mem_of_mem_take hm)
  have he1 : Beyond (a - margin_r) e.1 := by
    unfold excessRows at he
    have h1 := List.mem_of_mem_take (List.of_mem_zip he).1
    rw [mem_sortFlag] at h1
    obtain ⟨row, hrow, hre⟩ := List.mem_map.mp h1
    obtain ⟨r, hr, th, _, ⟨_, rfl⟩ | ⟨_, rfl⟩⟩ := (mem_maskedRows _ _ _ _).mp hrow
    · rw [← hre]; exact hring r hr
    · rw [← hre]; exact hz
  have hm1 : Beyond (a - margin_r) m.1 := by
    rw [hme]
    split_ifs
    · exact hz
    · exact he1
  obtain ⟨r, th⟩ := m
  unfold refineFinalRow
  simp only at hm1 ⊢
  set flip := condFlip twoPi th
  by_cases horg : (decide (th.1 > 0) || flip) = true
  · simp only [horg, if_true]
    refine ⟨le_max_left _ _, ?_⟩
    by_cases hne : limb = []
    · right; simp [hne, amax]
    · left
      refine le_trans ?_ (le_max_right _ _)
      refine sub_le_sub_right ?_ _
      refine le_amin' _ _ ?_ ?_
      · simpa using hne
      · intro y hy
        obtain ⟨q, hq, rfl⟩ := List.mem_map.mp hy
        split_ifs with h
        · obtain ⟨p, hp, rfl⟩ := List.mem_map.mp hq
          simp only [Bool.and_eq_true, decide_eq_true_eq] at h
          exact (hl p hp).resolve_left h.2
        · exact ha5
  · simp only [horg, Bool.false_eq_true, if_false]
    exact hm1

end

noncomputable section

open Complex MeasureTheory Set Filter Topology PointSource

/-- A region that stays away from the origin does not pass over the points near it. -/
theorem passes_near (b : ℝ) (R : (ℝ × ℝ) × (ℝ × ℝ)) (hR : Beyond b R.1) (z : ℂ) (hz : ‖z‖ ≤ b) : passes R z = 0 := by
  by_contra hne
  obtain ⟨⟨r, θ⟩, a1, a2, _, _, a5⟩ := coords_of_passes R z hne
  simp only at a1 a2 a5
  have hn : ‖z‖ = r := by
    rw [a5, norm_mul, mul_comm I, norm_exp_ofReal_mul_I, mul_one, norm_real, Real.norm_of_nonneg (hR.1.trans a1.le)]
  rcases hR.2 with h | h
  · linarith
  · have := hR.1
    linarith

/-- **C126 (violated)**: let the disc of radius `a` about the origin belong to the images, more than the tolerance of the
image finder inside the source. Then for every root finder, number of limb points, number of bins and margin, the regions
that `mag_uniform` integrates over leave out every point of the image closer to the origin than `a - margin_r * rho`. -/
theorem C126_hole_violated (roots : Option (List ℂ) → List ℂ → List ℂ) (w : ℂ) (rho : ℝ) (hrho : 0 < rho) (nlenses : ℕ)
    (hn : nlenses = 2 ∨ nlenses = 3) (N M Nlimb br bt : ℕ) (hb : 0 < br) (mr mt : ℝ) (u : UserParams)
    (hq : 1 + u.q ≠ 0) (hq3 : nlenses = 3 → 1 + u.q + u.q3 ≠ 0) (a : ℝ) (ha : 0 < a) (ha5 : a ≤ 10 ^ 5)
    (hdisc : ∀ z, ‖z‖ < a → (∀ l ∈ userLens nlenses u, z ≠ l.2) ∧ ‖lensMap (userLens nlenses u) z - w‖ ≤ rho - 1e-3) :
    ∃ limb regions, calcSourceLimb roots w rho Nlimb nlenses u = .ok limb ∧
      defineRegions limb rho br bt mr mt nlenses = .ok regions ∧
      magUniformFull roots w rho nlenses N M Nlimb br bt mr mt u = .ok (magUniform nlenses u w rho N M regions) ∧
      (∀ z ∈ Metric.ball (0 : ℂ) a, z ∈ imageOfDisc (userLens nlenses u) w rho) ∧
      ∀ z, ‖z‖ ≤ a - mr * rho → passesAll regions z = 0 := by
  obtain ⟨limb, regions, h1, h2, h3, h4⟩ := C41_uniform_limb roots w rho nlenses hn N M Nlimb br bt mr mt u hq hq3
  refine ⟨limb, regions, h1, h2, h3, ?_, ?_⟩
  · intro z hz
    obtain ⟨g1, g2⟩ := hdisc z (by simpa using hz)
    exact ⟨g1, lt_of_le_of_lt g2 (by norm_num)⟩
  · intro z hz
    have hl : ∀ p ∈ limb.map limbPolar, p.1 = 0 ∨ a ≤ p.1 := by
      intro p hp
      obtain ⟨⟨x, b⟩, hx, rfl⟩ := List.mem_map.mp hp
      cases b
      · left; simp [limbPolar]
      · right
        by_contra hlt
        push Not at hlt
        have hx' : ‖x‖ < a := by simpa [limbPolar] using hlt
        obtain ⟨t, ht⟩ := h4 x hx
        have hg := (hdisc x hx').2
        have : rho ≤ ‖lensMap (userLens nlenses u) x - w‖ + ‖lensMap (userLens nlenses u) x - (w + rho * exp (I * t))‖ := by
          calc rho = ‖(rho : ℂ) * exp (I * t)‖ := by
                rw [norm_mul, mul_comm I, norm_exp_ofReal_mul_I, mul_one, norm_real, Real.norm_of_nonneg hrho.le]
            _ = ‖(lensMap (userLens nlenses u) x - w) - (lensMap (userLens nlenses u) x - (w + rho * exp (I * t)))‖ := by
                congr 1; ring
            _ ≤ _ := norm_sub_le _ _
        linarith
    have hbey : ∀ R ∈ regions, Beyond (a - mr * rho) R.1 := by
      unfold defineRegions at h2
      rcases hn with rfl | rfl
      · rw [if_pos rfl] at h2
        rw [← Except.ok.inj h2]
        exact regions_beyond _ _ _ _ _ _ hb _ _ a ha ha5 hl
      · rw [if_neg (by norm_num), if_pos rfl] at h2
        rw [← Except.ok.inj h2]
        exact regions_beyond _ _ _ _ _ _ hb _ _ a ha ha5 hl
    unfold passesAll
    apply List.sum_eq_zero
    intro y hy
    obtain ⟨R, hR, rfl⟩ := List.mem_map.mp hy
    exact passes_near _ R (hbey R hR) z hz

/-- **C126 (violated)**, what the missing part costs: if the regions pass over almost every point at most once, twice on the set `E`, and not
at all over the points of the images within `b` of the origin, the limit of `mag_uniform` is at most the magnification plus
the area of the images in `E` minus the area of that disc, over the area of the source. -/
theorem C126_deficit_violated (nlenses : ℕ) (u : UserParams) (w : ℂ) (rho : ℝ) (hrho : 0 < rho) (hq : 1 + u.q ≠ 0)
    (hq3 : nlenses = 3 → 1 + u.q + u.q3 ≠ 0) (regions : List ((ℝ × ℝ) × (ℝ × ℝ))) (hreg : ∀ R ∈ regions, OrderedRegion R)
    (E : Set ℂ) (hE : MeasurableSet E) (hle : ∀ᵐ z : ℂ, passesAll regions z ≤ 1 ∨ (z ∈ E ∧ passesAll regions z ≤ 2))
    (b : ℝ) (hb : 0 ≤ b) (hin : ∀ z ∈ Metric.ball (0 : ℂ) b, z ∈ imageOfDisc (userLens nlenses u) w rho)
    (hout : ∀ z ∈ Metric.ball (0 : ℂ) b, passesAll regions z = 0) :
    ∃ A, Tendsto (fun n : ℕ × ℕ => magUniform nlenses u w rho n.1 n.2 regions) (atTop ×ˢ atTop) (𝓝 A) ∧
      A ≤ uniformMag (userLens nlenses u) w rho +
        volume.real (imageOfDisc (userLens nlenses u) w rho ∩ E) / volume.real (Metric.ball w rho) - (b / rho) ^ 2 := by
  refine ⟨_, C124_uniform nlenses u w rho hrho hq hq3 regions hreg, ?_⟩
  have hp := Real.pi_pos
  set L := userLens nlenses u with hL
  set D := imageOfDisc L w rho with hD
  have hDm : MeasurableSet D := measurableSet_imageOfDisc L w rho
  have harea : ∀ (c : ℂ) (r : ℝ), 0 ≤ r → volume.real (Metric.ball c r) = Real.pi * r ^ 2 := by
    intro c r hr
    rw [Measure.real, Complex.volume_ball]
    simp [hr]; ring
  have hfin : volume D ≠ ⊤ := by
    obtain ⟨B, hB, hP, hC⟩ := annulus_covers L w rho
    refine ne_top_of_le_ne_top (volume_sector_ne_top _ hP) (measure_mono_ae ?_)
    filter_upwards [hC] with z hz hzD
    have := hz hzD
    by_contra hn
    have hn' : z ∉ sector ((0, B), (0, 2 * Real.pi)) := hn
    simp [hn'] at this
  have hi1 : IntegrableOn (fun z => (passesAll regions z : ℝ)) D := passesAll_integrableOn L w rho regions hreg
  have hind : ∀ S : Set ℂ, MeasurableSet S → IntegrableOn (S.indicator fun _ => (1 : ℝ)) D ∧
      ∫ z in D, S.indicator (fun _ => (1 : ℝ)) z = volume.real (D ∩ S) := by
    intro S hS
    refine ⟨(integrableOn_const hfin).indicator hS, ?_⟩
    rw [setIntegral_indicator hS]
    simp
  have hone : IntegrableOn (fun _ : ℂ => (1 : ℝ)) D := integrableOn_const hfin
  have hBm : MeasurableSet (Metric.ball (0 : ℂ) b) := Metric.isOpen_ball.measurableSet
  obtain ⟨e1, e2⟩ := hind E hE
  obtain ⟨b1, b2⟩ := hind _ hBm
  have hDB : D ∩ Metric.ball (0 : ℂ) b = Metric.ball 0 b := inter_eq_right.mpr hin
  have key : ∫ z in D, (passesAll regions z : ℝ) ≤ volume.real D + volume.real (D ∩ E) - Real.pi * b ^ 2 := by
    have h1 : ∫ z in D, (passesAll regions z : ℝ)
        ≤ ∫ z in D, (1 + E.indicator (fun _ => (1 : ℝ)) z - (Metric.ball (0 : ℂ) b).indicator (fun _ => (1 : ℝ)) z) := by
      refine integral_mono_ae hi1 ((hone.add e1).sub b1) ?_
      filter_upwards [ae_restrict_of_ae hle] with z hz
      have hE0 : 0 ≤ E.indicator (fun _ => (1 : ℝ)) z := indicator_nonneg (fun _ _ => zero_le_one) z
      by_cases hzb : z ∈ Metric.ball (0 : ℂ) b
      · simp only [hout z hzb, indicator_of_mem hzb, Nat.cast_zero]
        linarith
      · simp only [indicator_of_notMem hzb, sub_zero]
        rcases hz with h | ⟨h, h'⟩
        · have : (passesAll regions z : ℝ) ≤ 1 := by exact_mod_cast h
          linarith
        · rw [indicator_of_mem h]
          have : (passesAll regions z : ℝ) ≤ 2 := by exact_mod_cast h'
          linarith
    have h12 : IntegrableOn (fun z => 1 + E.indicator (fun _ => (1 : ℝ)) z) D := hone.add e1
    rw [integral_sub h12 b1, integral_add hone e1, e2, b2, hDB, harea 0 b hb] at h1
    simpa using h1
  have hball : 0 < volume.real (Metric.ball w rho) := by rw [harea w rho hrho.le]; positivity
  unfold uniformMag
  rw [div_le_iff₀ hball, sub_mul, add_mul, div_mul_cancel₀ _ hball.ne', div_mul_cancel₀ _ hball.ne']
  refine key.trans (le_of_eq ?_)
  rw [harea w rho hrho.le, div_pow, mul_comm Real.pi (rho ^ 2), ← mul_assoc, div_mul_cancel₀ _ (by positivity), mul_comm _ Real.pi]

open scoped Classical in
/-- **C126 (violated)**, complete rings: if the limb images occupy every angular bin, are at least `a` from the origin, and
the disc of radius `a - margin_r * rho` belongs to the images -- the source has an image around the origin -- then
`mag_uniform` tends to at most the magnification plus the share of the axis (C125) minus the share of that disc. -/
theorem C126_ring_deficit_violated (nlenses : ℕ) (limb : List (ℂ × Bool)) (rho : ℝ) (hrho : 0 < rho) (bins_r bins_th : ℕ)
    (margin_r margin_th : ℝ) (regions : List ((ℝ × ℝ) × (ℝ × ℝ)))
    (hdef : defineRegions limb rho bins_r bins_th margin_r margin_th nlenses = .ok regions)
    (hc : LimbConditions (2 * Real.pi) (if nlenses = 2 then 10 else 18) (limb.map limbPolar) bins_r bins_th (margin_r * rho))
    (hfull : ∀ k < bins_th, Occupied ((limb.map limbPolar).map Prod.snd) 0 (2 * Real.pi) bins_th k)
    (hmt : 0 < margin_th) (hmt2 : margin_th ≤ 180) (u : UserParams) (w : ℂ) (hq : 1 + u.q ≠ 0)
    (hq3 : nlenses = 3 → 1 + u.q + u.q3 ≠ 0) (a : ℝ) (ha : margin_r * rho ≤ a) (ha5 : a ≤ 10 ^ 5)
    (hl : ∀ x ∈ limb, x.2 = true → a ≤ ‖x.1‖)
    (hin : ∀ z ∈ Metric.ball (0 : ℂ) (a - margin_r * rho), z ∈ imageOfDisc (userLens nlenses u) w rho) :
    ∃ A, Tendsto (fun n : ℕ × ℕ => magUniform nlenses u w rho n.1 n.2 regions) (atTop ×ˢ atTop) (𝓝 A) ∧
      A ≤ uniformMag (userLens nlenses u) w rho +
        volume.real (imageOfDisc (userLens nlenses u) w rho ∩ wedge (margin_th * (Real.pi / 180))) /
          volume.real (Metric.ball w rho) - ((a - margin_r * rho) / rho) ^ 2 := by
  obtain ⟨hform, hcnt⟩ := ring_regions nlenses limb rho bins_r bins_th margin_r margin_th regions hdef hc hfull
  have hp := Real.pi_pos
  have hm0 : 0 < margin_r * rho := lt_trans (by positivity) hc.margin
  have hmt3 : margin_th * (Real.pi / 180) ≤ Real.pi := by
    calc margin_th * (Real.pi / 180) ≤ 180 * (Real.pi / 180) := by gcongr
      _ = Real.pi := by ring
  have hmp : 0 < margin_th * (Real.pi / 180) := by positivity
  have hord : ∀ R ∈ regions, OrderedRegion R := by
    intro R hR
    rcases hform R hR with h | ⟨h0, h1, h2⟩
    · exact Or.inr h
    · exact Or.inl ⟨h0, h1, by rw [h2]; simp only; linarith⟩
  have hl' : ∀ p ∈ limb.map limbPolar, p.1 = 0 ∨ a ≤ p.1 := by
    intro p hp
    obtain ⟨⟨x, b⟩, hx, rfl⟩ := List.mem_map.mp hp
    cases b
    · left; simp [limbPolar]
    · right; simpa [limbPolar] using hl _ hx rfl
  have hbey : ∀ R ∈ regions, Beyond (a - margin_r * rho) R.1 := by
    unfold defineRegions at hdef
    by_cases h2 : nlenses = 2
    · rw [if_pos h2] at hdef
      rw [← Except.ok.inj hdef]
      exact regions_beyond _ _ _ _ _ _ hc.bins_r_pos _ _ a (by linarith) ha5 hl'
    · rw [if_neg h2] at hdef
      by_cases h3 : nlenses = 3
      · rw [if_pos h3] at hdef
        rw [← Except.ok.inj hdef]
        exact regions_beyond _ _ _ _ _ _ hc.bins_r_pos _ _ a (by linarith) ha5 hl'
      · rw [if_neg h3] at hdef
        exact absurd hdef (by simp)
  refine C126_deficit_violated nlenses u w rho hrho hq hq3 regions hord (wedge (margin_th * (Real.pi / 180)))
    (measurableSet_lt (_root_.continuous_abs.measurable.comp measurable_arg) measurable_const) ?_ _ (by linarith) hin ?_
  · filter_upwards [rings_passesAll _ hmp hmt3 regions fun R hR => (hform R hR).imp id fun h => ⟨h.1, h.2.2⟩] with z hz
    have := hcnt z
    rw [hz]
    by_cases hw : |arg z| < margin_th * (Real.pi / 180)
    · right
      refine ⟨hw, ?_⟩
      rw [if_pos hw]
      omega
    · left
      rw [if_neg hw]
      omega
  · intro z hz
    unfold passesAll
    apply List.sum_eq_zero
    intro y hy
    obtain ⟨R, hR, rfl⟩ := List.mem_map.mp hy
    exact passes_near _ R (hbey R hR) z (by rw [mem_ball_zero_iff] at hz; exact hz.le)

/-! ## Equal masses -/

theorem two_poles (c t : ℂ) (h1 : c - t ≠ 0) (h2 : c + t ≠ 0) : 1 / 2 / (c - t) + 1 / 2 / (c + t) = c / (c ^ 2 - t ^ 2) := by
  have h3 : c ^ 2 - t ^ 2 ≠ 0 := by rw [sq_sub_sq]; exact mul_ne_zero h2 h1
  rw [sq_sub_sq]
  field_simp
  ring

theorem equal_mass_map (u : UserParams) (hu : u.q = 1) (s : ℝ) (hs : u.s = s) (hs4 : 4 ≤ s) (z : ℂ) (hz : ‖z‖ ≤ 1) :
    (∀ l ∈ userLens 2 u, z ≠ l.2) ∧ ‖lensMap (userLens 2 u) z - 0‖ ≤ 4 / 3 * ‖z‖ := by
  have hL : userLens 2 u = [(1/2, ((s / 2 : ℝ) : ℂ)), (1/2, ((-(s / 2) : ℝ) : ℂ))] := by
    simp [userLens, binary, hu, hs]; norm_num
  have hne : ∀ x : ℝ, 2 ≤ |x| → z ≠ (x : ℂ) := by
    rintro x hx rfl
    rw [norm_real, Real.norm_eq_abs] at hz
    linarith
  have h1 : z ≠ ((s / 2 : ℝ) : ℂ) := hne _ (by rw [abs_of_pos (by linarith)]; linarith)
  have h2 : z ≠ ((-(s / 2) : ℝ) : ℂ) := hne _ (by rw [abs_neg, abs_of_pos (by linarith)]; linarith)
  refine ⟨?_, ?_⟩
  · rw [hL]
    intro l hl
    simp only [List.mem_cons, List.not_mem_nil, or_false] at hl
    rcases hl with rfl | rfl
    · exact h1
    · exact h2
  · have hc1 : (starRingEnd ℂ) z - ((s / 2 : ℝ) : ℂ) ≠ 0 := by
      intro h
      apply h1
      have := congrArg (starRingEnd ℂ) (sub_eq_zero.mp h)
      rwa [Complex.conj_conj, conj_ofReal] at this
    have hc2 : (starRingEnd ℂ) z + ((s / 2 : ℝ) : ℂ) ≠ 0 := by
      intro h
      apply h2
      have := congrArg (starRingEnd ℂ) (eq_neg_of_add_eq_zero_left h)
      rwa [Complex.conj_conj, map_neg, conj_ofReal, ← ofReal_neg] at this
    have hmap : lensMap (userLens 2 u) z = z - (starRingEnd ℂ) z / (((starRingEnd ℂ) z) ^ 2 - ((s / 2 : ℝ) : ℂ) ^ 2) := by
      rw [hL]
      rw [← two_poles _ _ hc1 hc2]
      simp only [lensMap, List.map_cons, List.map_nil, List.sum_cons, List.sum_nil, conj_ofReal, ofReal_neg, map_neg,
        sub_neg_eq_add, add_zero]
      push_cast
      rfl
    have hden : 3 ≤ ‖((starRingEnd ℂ) z) ^ 2 - ((s / 2 : ℝ) : ℂ) ^ 2‖ := by
      have h5 := norm_sub_norm_le (((s / 2 : ℝ) : ℂ) ^ 2) (((starRingEnd ℂ) z) ^ 2)
      rw [norm_sub_rev] at h5
      rw [norm_pow, norm_pow, RCLike.norm_conj, norm_real, Real.norm_of_nonneg (by linarith)] at h5
      nlinarith [norm_nonneg z]
    rw [sub_zero, hmap]
    have h6 : ‖(starRingEnd ℂ) z / (((starRingEnd ℂ) z) ^ 2 - ((s / 2 : ℝ) : ℂ) ^ 2)‖ ≤ ‖z‖ / 3 := by
      rw [norm_div, RCLike.norm_conj]
      exact div_le_div_of_nonneg_left (norm_nonneg _) (by norm_num) hden
    calc _ ≤ ‖z‖ + ‖(starRingEnd ℂ) z / (((starRingEnd ℂ) z) ^ 2 - ((s / 2 : ℝ) : ℂ) ^ 2)‖ := norm_sub_le _ _
      _ ≤ 4 / 3 * ‖z‖ := by linarith

/-- **C126 (violated)**, two equal masses: for every separation `s ≥ 4`, source radius between 0.01 and 1 and centre of the
source at the origin, and for any root finder, number of limb points and bins, with the default margin of half a source
radius, the regions of `mag_uniform` leave out a disc of radius at least `rho / 10` in the middle of the main image. -/
theorem C126_equal_masses_violated (roots : Option (List ℂ) → List ℂ → List ℂ) (u : UserParams) (hu : u.q = 1) (hs : 4 ≤ u.s)
    (rho : ℝ) (hrho : 1 / 100 ≤ rho) (hrho1 : rho ≤ 1) (N M Nlimb br bt : ℕ) (hb : 0 < br) (mt : ℝ) :
    ∃ limb regions, calcSourceLimb roots 0 rho Nlimb 2 u = .ok limb ∧
      defineRegions limb rho br bt (1/2) mt 2 = .ok regions ∧
      magUniformFull roots 0 rho 2 N M Nlimb br bt (1/2) mt u = .ok (magUniform 2 u 0 rho N M regions) ∧
      ∀ z : ℂ, ‖z‖ ≤ rho / 10 → z ∈ imageOfDisc (userLens 2 u) 0 rho ∧ passesAll regions z = 0 := by
  obtain ⟨limb, regions, h1, h2, h3, h4, h5⟩ := C126_hole_violated roots 0 rho (by linarith) 2 (Or.inl rfl) N M Nlimb br bt hb
    (1/2) mt u (by rw [hu]; norm_num) (by norm_num) (3 / 4 * (rho - 1e-3)) (by norm_num; linarith) (by norm_num; linarith)
    (fun z hz => by
      obtain ⟨g1, g2⟩ := equal_mass_map u hu u.s rfl hs z (by norm_num at hz ⊢; linarith)
      exact ⟨g1, g2.trans (by norm_num at hz ⊢; linarith)⟩)
  refine ⟨limb, regions, h1, h2, h3, fun z hz => ⟨h4 z ?_, h5 z ?_⟩⟩
  · rw [mem_ball_zero_iff]; norm_num; linarith
  · norm_num; linarith

/-- `C126_ring_deficit_violated` applies to two equal masses at separation 4 or more, a source of radius 3/2 in the middle,
margin 1/4 of the Einstein radius and limb images on both sides of the origin: the share of a disc of radius 1/4 is lost. -/
example (u : UserParams) (hu : u.q = 1) (hs : 4 ≤ u.s) :
    ∃ regions, defineRegions ring4Limb (3/2) 1 2 (1/6) (1/2) 2 = .ok regions ∧
    ∃ A, Tendsto (fun n : ℕ × ℕ => magUniform 2 u 0 (3/2) n.1 n.2 regions) (atTop ×ˢ atTop) (𝓝 A) ∧
      A ≤ uniformMag (userLens 2 u) 0 (3/2) +
        volume.real (imageOfDisc (userLens 2 u) 0 (3/2) ∩ wedge (1/2 * (Real.pi / 180))) /
          volume.real (Metric.ball (0 : ℂ) (3/2)) - 1 / 36 := by
  have hc := ring4_conditions (1/4) (by norm_num)
  refine ⟨_, rfl, ?_⟩
  obtain ⟨A, h1, h2⟩ := C126_ring_deficit_violated 2 ring4Limb (3/2) (by norm_num) 1 2 (1/6) (1/2) _ rfl
    (by norm_num at hc ⊢; exact hc) ring4_full (by norm_num) (by norm_num) u 0 (by rw [hu]; norm_num) (by norm_num) (1/2)
    (by norm_num) (by norm_num) (by
      intro x hx _
      simp only [ring4Limb, List.mem_cons, List.not_mem_nil, or_false] at hx
      rcases hx with rfl | rfl | rfl | rfl <;> norm_num) (by
      intro z hz
      rw [mem_ball_zero_iff] at hz
      norm_num at hz
      obtain ⟨g1, g2⟩ := equal_mass_map u hu u.s rfl hs z (by linarith)
      exact ⟨g1, lt_of_le_of_lt g2 (by linarith)⟩)
  refine ⟨A, h1, h2.trans (le_of_eq ?_)⟩
  norm_num

end

end Microjax.Props
