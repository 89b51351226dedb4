import Verif.Props.RegionPasses
import Verif.Props.RegionRing

/-! # C125: the magnification of a source whose image is a complete ring -/

noncomputable section

namespace Microjax.Props

open Complex Spec MeasureTheory Set Filter Topology ExtendedSource PointSource MergeArea

/-- The directions within `m` of the positive real axis. -/
def wedge (m : ℝ) : Set ℂ := {z | |arg z| < m}

theorem polar_self (z : ℂ) : z = ‖z‖ * exp (I * arg z) := by
  rw [mul_comm I]; exact (norm_mul_exp_arg_mul_I z).symm

/-- A ring with angles from `-m` to `2π + m` passes once over its points, and once more near the positive axis. -/
theorem ring_passes (a b m : ℝ) (ha : 0 ≤ a) (hm : 0 < m) (hmpi : m ≤ Real.pi) :
    ∀ᵐ z : ℂ, passes ((a, b), (-m, 2 * Real.pi + m)) z =
      (if a < ‖z‖ ∧ ‖z‖ < b then (if |arg z| < m then 2 else 1) else 0) := by
  classical
  have hp := Real.pi_pos
  filter_upwards [ray_null (2 * Real.pi - m)] with z hz
  have hnn : ∀ r θ : ℝ, a < r → z = r * exp (I * θ) → r = ‖z‖ := by
    intro r θ hr h
    rw [h, norm_mul, mul_comm I, norm_exp_ofReal_mul_I, mul_one, norm_real, Real.norm_of_nonneg (ha.trans hr.le)]
  rw [passes_eq, coords_cut a b (-m) (2 * Real.pi - m) _ (by linarith) (by linarith) z hz]
  obtain ⟨f1, e1⟩ := coords_narrow a b (-m) (2 * Real.pi - m) ha (by linarith) z
  obtain ⟨f2, e2⟩ := coords_narrow a b (2 * Real.pi - m) (2 * Real.pi + m) ha (by linarith) z
  rw [ncard_union_eq (coords_cut_disjoint _ _ _ _ _ _) f1 f2, e1, e2]
  by_cases hr : a < ‖z‖ ∧ ‖z‖ < b
  · have hself := polar_self z
    have h2pi : ∀ θ : ℝ, exp (I * ((θ + 2 * Real.pi : ℝ) : ℂ)) = exp (I * θ) := by
      intro θ
      push_cast
      rw [mul_add, exp_add, show I * (2 * (Real.pi : ℂ)) = 2 * Real.pi * I by ring, exp_two_pi_mul_I, mul_one]
    have hpos : 0 < ‖z‖ := ha.trans_lt hr.1
    have hin1 : z ∈ sector ((a, b), (-m, 2 * Real.pi - m)) := by
      by_cases h : -m < arg z
      · rcases lt_or_ge (arg z) (2 * Real.pi - m) with h' | h'
        · exact ⟨‖z‖, arg z, hr.1, hr.2, h, h', hself⟩
        · have h1 := arg_le_pi z
          have h2 : arg z = 2 * Real.pi - m := by linarith
          exact absurd (by rw [← h2]; exact hself) (hz ‖z‖)
      · push Not at h
        have hne : arg z ≠ -m := by
          intro h'
          refine hz ‖z‖ ?_
          have := h2pi (-m)
          rw [show -m + 2 * Real.pi = 2 * Real.pi - m by ring] at this
          rw [this, ← h']
          exact hself
        have hlt := lt_of_le_of_ne h hne
        have h1 := neg_pi_lt_arg z
        refine ⟨‖z‖, arg z + 2 * Real.pi, hr.1, hr.2, by simp only; linarith, by simp only; linarith, ?_⟩
        rw [h2pi]; exact hself
    have hin2 : z ∈ sector ((a, b), (2 * Real.pi - m, 2 * Real.pi + m)) ↔ |arg z| < m := by
      constructor
      · rintro ⟨r, θ, h1, h2, h3, h4, he⟩
        simp only at h1 h2 h3 h4
        obtain ⟨_, k, hk⟩ := polar_unique ‖z‖ r (arg z) θ hpos (ha.trans_lt h1) (by rw [← he]; exact hself.symm)
        have b1 := neg_pi_lt_arg z
        have b2 := arg_le_pi z
        have hk1 : k + 1 = 0 := by
          apply int_zero_of_small
          · push_cast; linarith
          · push_cast; linarith
        have hk2 : k = -1 := by omega
        rw [hk2] at hk
        push_cast at hk
        rw [abs_lt]
        constructor <;> linarith
      · intro h
        rw [abs_lt] at h
        refine ⟨‖z‖, arg z + 2 * Real.pi, hr.1, hr.2, by simp only; linarith, by simp only; linarith, ?_⟩
        rw [h2pi]; exact hself
    rw [if_pos hin1, if_pos hr]
    by_cases hw : |arg z| < m
    · rw [if_pos (hin2.mpr hw), if_pos hw]
    · rw [if_neg fun h => hw (hin2.mp h), if_neg hw]
  · have hno : ∀ α β : ℝ, z ∉ sector ((a, b), (α, β)) := by
      rintro α β ⟨r, θ, h1, h2, _, _, he⟩
      simp only at h1 h2
      have hrz := hnn r θ h1 he
      exact hr ⟨hrz ▸ h1, hrz ▸ h2⟩
    rw [if_neg (hno _ _), if_neg (hno _ _), if_neg hr]

/-- Whether the point is at a radius of the region. -/
def AtRadius (R : (ℝ × ℝ) × (ℝ × ℝ)) (z : ℂ) : Prop := R.1.1 < ‖z‖ ∧ ‖z‖ < R.1.2

open scoped Classical in
/-- What a list of such rings counts. -/
theorem rings_passesAll (m : ℝ) (hm : 0 < m) (hmpi : m ≤ Real.pi) (regions : List ((ℝ × ℝ) × (ℝ × ℝ)))
    (hreg : ∀ R ∈ regions, R = ((0, 0), (0, 0)) ∨ (0 ≤ R.1.1 ∧ R.2 = (-m, 2 * Real.pi + m))) :
    ∀ᵐ z : ℂ, passesAll regions z =
      regions.countP (fun R => decide (AtRadius R z)) * (if |arg z| < m then 2 else 1) := by
  induction regions with
  | nil => simp [passesAll]
  | cons R l ih =>
    have h1 : ∀ᵐ z : ℂ, passes R z = if AtRadius R z then (if |arg z| < m then 2 else 1) else 0 := by
      rcases hreg R (by simp) with rfl | ⟨h0, h2⟩
      · refine Eventually.of_forall fun z => ?_
        have : ¬ AtRadius ((0, 0), (0, 0)) z := by
          rintro ⟨g1, g2⟩
          simp only at g1 g2
          linarith
        rw [passes_zero, if_neg this]
      · obtain ⟨⟨a, b⟩, th⟩ := R
        simp only at h0 h2
        subst h2
        filter_upwards [ring_passes a b m h0 hm hmpi] with z hz
        rw [hz]
        by_cases h : AtRadius ((a, b), (-m, 2 * Real.pi + m)) z
        · rw [if_pos h, if_pos (show a < ‖z‖ ∧ ‖z‖ < b from h)]
        · rw [if_neg h, if_neg (show ¬ (a < ‖z‖ ∧ ‖z‖ < b) from h)]
    filter_upwards [ih fun R hR => hreg R (by simp [hR]), h1] with z hz h1
    simp only [passesAll, List.map_cons, List.sum_cons] at hz ⊢
    rw [hz, h1, List.countP_cons]
    by_cases h : AtRadius R z
    · simp only [h, if_true, decide_true]; ring
    · simp [h]

open scoped Classical in
/-- **C125 (violated)**, the magnification of a complete ring: if the regions are rings as `C125_ring_violated` says, and
their radii cover the images once, then `mag_uniform` tends to the magnification *plus* the area of the images within
`margin_th` of the positive axis over the area of the source, however fine the resolution. -/
theorem C125_ring_excess_violated (nlenses : ℕ) (u : UserParams) (w : ℂ) (rho : ℝ) (hrho : 0 < rho) (hq : 1 + u.q ≠ 0)
    (hq3 : nlenses = 3 → 1 + u.q + u.q3 ≠ 0) (m : ℝ) (hm : 0 < m) (hmpi : m ≤ Real.pi)
    (regions : List ((ℝ × ℝ) × (ℝ × ℝ)))
    (hreg : ∀ R ∈ regions, R = ((0, 0), (0, 0)) ∨ (0 ≤ R.1.1 ∧ R.1.1 < R.1.2 ∧ R.2 = (-m, 2 * Real.pi + m)))
    (hcov : ∀ᵐ z : ℂ, z ∈ imageOfDisc (userLens nlenses u) w rho → regions.countP (fun R => decide (AtRadius R z)) = 1) :
    Tendsto (fun n : ℕ × ℕ => magUniform nlenses u w rho n.1 n.2 regions) (atTop ×ˢ atTop)
      (𝓝 (uniformMag (userLens nlenses u) w rho +
        volume.real (imageOfDisc (userLens nlenses u) w rho ∩ wedge m) / volume.real (Metric.ball w rho))) := by
  set L := userLens nlenses u with hL
  set D := imageOfDisc L w rho with hD
  have hp := Real.pi_pos
  have hDm : MeasurableSet D := measurableSet_imageOfDisc L w rho
  have hWm : MeasurableSet (wedge m) := measurableSet_lt (_root_.continuous_abs.measurable.comp measurable_arg) measurable_const
  have hord : ∀ R ∈ regions, OrderedRegion R := by
    intro R hR
    rcases hreg R hR with h | ⟨h0, h1, h2⟩
    · exact Or.inr h
    · exact Or.inl ⟨h0, h1, by rw [h2]; simp only; linarith⟩
  have hlim := C124_uniform nlenses u w rho hrho hq hq3 regions hord
  have hfin : volume D ≠ ⊤ := by
    obtain ⟨B, hB, hP, hC⟩ := annulus_covers L w rho
    refine ne_top_of_le_ne_top (volume_sector_ne_top _ hP) (measure_mono_ae ?_)
    filter_upwards [hC] with z hz hzD
    have := hz hzD
    by_contra hn
    have hn' : z ∉ sector ((0, B), (0, 2 * Real.pi)) := hn
    simp [hn'] at this
  have hpass := rings_passesAll m hm hmpi regions fun R hR => by
    rcases hreg R hR with h | ⟨h0, _, h2⟩
    · exact Or.inl h
    · exact Or.inr ⟨h0, h2⟩
  have hval : ∫ z in D, (passesAll regions z : ℝ) = volume.real D + volume.real (D ∩ wedge m) := by
    have h1 : ∫ z in D, (passesAll regions z : ℝ) = ∫ z in D, ((1 : ℝ) + (wedge m).indicator (fun _ => (1 : ℝ)) z) := by
      refine setIntegral_congr_ae hDm ?_
      filter_upwards [hpass, hcov] with z hz hc hzD
      rw [hz, hc hzD]
      by_cases hw : z ∈ wedge m
      · have hw' : |arg z| < m := hw
        simp [hw, hw']; norm_num
      · have hw' : ¬ |arg z| < m := hw
        simp [hw, hw']
    have hi : IntegrableOn (fun _ : ℂ => (1 : ℝ)) D := integrableOn_const hfin
    rw [h1, integral_add hi (hi.indicator hWm), setIntegral_indicator hWm]
    simp
  rw [hval, add_div] at hlim
  exact hlim

/-! ### A single lens (companion of mass zero) in front of the centre of the source -/

theorem volume_wedge (c d m : ℝ) (hc : 0 ≤ c) (hcd : c ≤ d) (hm : 0 < m) (hmpi : m ≤ Real.pi) :
    volume.real ({z : ℂ | c < ‖z‖ ∧ ‖z‖ < d} ∩ wedge m) = (d ^ 2 - c ^ 2) * m := by
  have hset : {z : ℂ | c < ‖z‖ ∧ ‖z‖ < d} ∩ wedge m = sector ((c, d), (-m, m)) := by
    ext z
    simp only [mem_inter_iff, mem_ofPred_eq, wedge]
    constructor
    · rintro ⟨⟨h1, h2⟩, h3⟩
      rw [abs_lt] at h3
      exact ⟨‖z‖, arg z, h1, h2, h3.1, h3.2, polar_self z⟩
    · rintro ⟨r, θ, h1, h2, h3, h4, rfl⟩
      simp only at h1 h2 h3 h4
      have hr : 0 < r := hc.trans_lt h1
      have harg : arg ((r : ℂ) * exp (I * θ)) = θ := by
        rw [mul_comm I, exp_mul_I]
        exact arg_mul_cos_add_sin_mul_I hr ⟨by linarith, by linarith⟩
      rw [harg, norm_mul, mul_comm I, norm_exp_ofReal_mul_I, mul_one, norm_real, Real.norm_of_nonneg hr.le, abs_lt]
      exact ⟨⟨h1, h2⟩, h3, h4⟩
  have hi := sector_integral (fun _ => 1) measurable_const 1 (fun _ => by simp) c d (-m) m hc hcd (by linarith)
    (by linarith)
  rw [setIntegral_const, smul_eq_mul, mul_one] at hi
  rw [hset, ← hi]
  simp only [mul_one, intervalIntegral.integral_const, smul_eq_mul]
  rw [intervalIntegral.integral_const_mul, integral_id]
  ring

/-- The ring that a source disc of radius `rho` behind a point lens is imaged to. -/
theorem single_lens_ring (s rho : ℝ) (hrho : 0 < rho) (z : ℂ) (hz : z ≠ 0) (hzs : z ≠ s) :
    z ∈ imageOfDisc (binary s 0) 0 rho ↔
      (Real.sqrt (rho ^ 2 + 4) - rho) / 2 < ‖z‖ ∧ ‖z‖ < (Real.sqrt (rho ^ 2 + 4) + rho) / 2 := by
  have hmap : lensMap (binary s 0) z = z - 1 / (starRingEnd ℂ) z := by
    simp [lensMap, binary]
  have hnpos : 0 < ‖z‖ := norm_pos_iff.mpr hz
  have hnorm : ‖lensMap (binary s 0) z - 0‖ = |‖z‖ - 1 / ‖z‖| := by
    have hcz : (starRingEnd ℂ) z ≠ 0 := by simpa using hz
    have h1 : z - 1 / (starRingEnd ℂ) z = ((‖z‖ - 1 / ‖z‖ : ℝ) : ℂ) * (z / (‖z‖ : ℂ)) := by
      have hn : (‖z‖ : ℂ) ≠ 0 := by exact_mod_cast hnpos.ne'
      have hm : z * (starRingEnd ℂ) z = (‖z‖ : ℂ) ^ 2 := by rw [mul_conj, normSq_eq_norm_sq]; push_cast; rfl
      push_cast
      field_simp
      linear_combination hm
    rw [hmap, sub_zero, h1, norm_mul, norm_div, norm_real, norm_real, Real.norm_eq_abs, norm_norm, div_self hnpos.ne',
      mul_one]
  have hmem : z ∈ imageOfDisc (binary s 0) 0 rho ↔ ‖lensMap (binary s 0) z - 0‖ < rho := by
    constructor
    · exact fun h => h.2
    · intro h
      refine ⟨?_, h⟩
      intro l hl
      simp only [binary, List.mem_cons, List.not_mem_nil, or_false] at hl
      rcases hl with rfl | rfl
      · simpa using hzs
      · simpa using hz
  rw [hmem, hnorm, abs_lt]
  set t := ‖z‖
  set Q := Real.sqrt (rho ^ 2 + 4) with hQ
  have hQ2 : Q ^ 2 = rho ^ 2 + 4 := Real.sq_sqrt (by positivity)
  have hQ0 : 0 ≤ Q := Real.sqrt_nonneg _
  have hQr : rho < Q := by nlinarith
  have e1 : (-rho < t - 1 / t) ↔ (Q - rho) / 2 < t := by
    rw [lt_sub_iff_add_lt, neg_add_eq_sub, sub_lt_iff_lt_add, div_lt_iff₀ hnpos]
    constructor
    · intro h; nlinarith
    · intro h; nlinarith
  have e2 : (t - 1 / t < rho) ↔ t < (Q + rho) / 2 := by
    rw [sub_lt_iff_lt_add, ← sub_lt_iff_lt_add', lt_div_iff₀ hnpos]
    constructor
    · intro h; nlinarith
    · intro h; nlinarith
  rw [e1, e2]

/-- **C125 (violated)**, exact size for a single lens in front of the centre of the source: with one ring that contains
the image, `mag_uniform` tends to `1 + margin_th/π` times the magnification. With the default margin of half a degree
the excess is 1/360. -/
theorem C125_single_lens_violated (s : ℝ) (u : UserParams) (hu : u.q = 0) (hs : u.s = s) (rho : ℝ) (hrho : 0 < rho)
    (m : ℝ) (hm : 0 < m) (hmpi : m ≤ Real.pi) (a b : ℝ) (ha : 0 ≤ a) (ha' : a ≤ (Real.sqrt (rho ^ 2 + 4) - rho) / 2)
    (hb : (Real.sqrt (rho ^ 2 + 4) + rho) / 2 ≤ b) (k : ℕ) :
    Tendsto (fun n : ℕ × ℕ => magUniform 2 u 0 rho n.1 n.2
        (((a, b), (-m, 2 * Real.pi + m)) :: List.replicate k ((0, 0), (0, 0)))) (atTop ×ˢ atTop)
      (𝓝 ((1 + m / Real.pi) * uniformMag (userLens 2 u) 0 rho)) := by
  classical
  have hp := Real.pi_pos
  set c := (Real.sqrt (rho ^ 2 + 4) - rho) / 2 with hc
  set d := (Real.sqrt (rho ^ 2 + 4) + rho) / 2 with hd
  have hQ2 : Real.sqrt (rho ^ 2 + 4) ^ 2 = rho ^ 2 + 4 := Real.sq_sqrt (by positivity)
  have hQ0 : 0 ≤ Real.sqrt (rho ^ 2 + 4) := Real.sqrt_nonneg _
  have hcd : c < d := by rw [hc, hd]; linarith
  have hc0 : 0 ≤ c := by
    rw [hc]
    have : rho ≤ Real.sqrt (rho ^ 2 + 4) := by nlinarith
    linarith
  have hL : userLens 2 u = binary s 0 := by simp [userLens, hu, hs]
  have hnull : ∀ x : ℂ, ∀ᵐ z : ℂ, z ≠ x := fun x =>
    measure_eq_zero_iff_ae_notMem.mp (measure_singleton x : volume {x} = 0)
  have hDae : ∀ᵐ z : ℂ, z ∈ imageOfDisc (userLens 2 u) 0 rho ↔ z ∈ {z : ℂ | c < ‖z‖ ∧ ‖z‖ < d} := by
    filter_upwards [hnull 0, hnull s] with z h1 h2
    rw [hL]
    exact single_lens_ring s rho hrho z h1 h2
  have hlim := C125_ring_excess_violated 2 u 0 rho hrho (by rw [hu]; norm_num) (by norm_num) m hm hmpi
    (((a, b), (-m, 2 * Real.pi + m)) :: List.replicate k ((0, 0), (0, 0))) ?_ ?_
  · have hw : volume.real (imageOfDisc (userLens 2 u) 0 rho ∩ wedge m) = (d ^ 2 - c ^ 2) * m := by
      rw [← volume_wedge c d m hc0 hcd.le hm hmpi]
      refine measureReal_congr (Filter.eventuallyEq_set.mpr ?_)
      filter_upwards [hDae] with z hz
      exact and_congr_left fun _ => hz
    have hfull : volume.real (imageOfDisc (userLens 2 u) 0 rho) = (d ^ 2 - c ^ 2) * Real.pi := by
      rw [← volume_wedge c d Real.pi hc0 hcd.le hp le_rfl]
      refine measureReal_congr (Filter.eventuallyEq_set.mpr ?_)
      filter_upwards [hDae, ray_null Real.pi] with z hz hr
      have hne : |arg z| < Real.pi := by
        rw [abs_lt]
        refine ⟨neg_pi_lt_arg z, lt_of_le_of_ne (arg_le_pi z) fun h => hr ‖z‖ ?_⟩
        rw [← h]; exact polar_self z
      exact hz.trans ⟨fun h => ⟨h, hne⟩, fun h => h.1⟩
    convert hlim using 2
    rw [uniformMag, hw, hfull]
    field_simp
  · intro R hR
    rcases List.mem_cons.mp hR with rfl | hR
    · exact Or.inr ⟨ha, by simp only; linarith, rfl⟩
    · exact Or.inl (List.eq_of_mem_replicate hR)
  · filter_upwards [hDae] with z hz hzD
    obtain ⟨h1, h2⟩ := hz.mp hzD
    rw [List.countP_cons]
    have h0 : (List.replicate k (((0, 0), (0, 0)) : (ℝ × ℝ) × (ℝ × ℝ))).countP (fun R => decide (AtRadius R z)) = 0 := by
      rw [List.countP_eq_zero]
      intro R hR
      rw [List.eq_of_mem_replicate hR]
      have : ¬ AtRadius (((0, 0), (0, 0)) : (ℝ × ℝ) × (ℝ × ℝ)) z := fun h => absurd (h.1.trans h.2) (lt_irrefl _)
      simp [this]
    have h1' : AtRadius ((a, b), (-m, 2 * Real.pi + m)) z := ⟨by simp only; linarith, by simp only; linarith⟩
    rw [h0]
    simp [h1']

end Microjax.Props
