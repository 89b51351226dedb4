import Verif.Props.HexSingle

/-!
# C135: the multipole value of a limb-darkened source behind a single lens
-/

noncomputable section

namespace Microjax.Props

open Complex ComplexConjugate Microjax.Spec Microjax.PointSource Microjax.Multipole Microjax.Lightcurve Contour MeasureTheory Set
  Filter
open scoped Topology

/-- The fourth-order expansion with the limb-darkening factors. -/
def hexValueLd (w : ℂ) (ρ u : ℝ) : ℝ := pacz (‖w‖ ^ 2) + lap1 (‖w‖ ^ 2) / 8 * (1 - 1 / 5 * (2 * u / (3 - u))) * ρ ^ 2
  + lap2 (‖w‖ ^ 2) / 192 * (1 - 11 / 35 * (2 * u / (3 - u))) * ρ ^ 4

theorem disc_circ_ld (w : ℂ) (ρ u : ℝ) (h0 : 0 ≤ ρ) (h : ρ < ‖w‖) :
    discIntegral u (fun y => paczynski ‖y‖) w ρ
      = ∫ r in (0 : ℝ)..1, circ pacz w.re w.im (ρ * r) * (brightness u r * r) := by
  unfold discIntegral
  refine intervalIntegral.integral_congr fun r hr => ?_
  rw [uIcc_of_le zero_le_one] at hr
  simp only
  rw [intervalIntegral.integral_mul_const]
  congr 1
  unfold circ
  refine intervalIntegral.integral_congr fun θ _ => ?_
  have h1 := ringSq_ge w ρ (ρ * r) θ h ⟨mul_nonneg h0 hr.1, by nlinarith [hr.2]⟩
  rw [ringSq_norm, ofReal_mul] at h1
  rw [ringSq_norm, ofReal_mul, pacz_norm]
  refine norm_pos_iff.mpr fun hz => ?_
  rw [hz, norm_zero] at h1
  have : 0 < ‖w‖ - ρ := by linarith
  nlinarith

theorem brightness_range (u r : ℝ) (h0 : 0 ≤ u) (h1 : u ≤ 1) : 0 ≤ brightness u r := by
  unfold brightness
  have := Real.sqrt_nonneg (1 - r ^ 2)
  have : Real.sqrt (1 - r ^ 2) ≤ 1 := by rw [Real.sqrt_le_one]; nlinarith [sq_nonneg r]
  nlinarith

theorem disc_hex_ld (w : ℂ) (ρ u : ℝ) (h0 : 0 < ρ) (h : ρ < ‖w‖) (hu0 : 0 ≤ u) (hu1 : u ≤ 1) :
    2 * Real.pi * ((1 - u) / 2 + u / 3) * hexValueLd w ρ u ≤ discIntegral u (fun y => paczynski ‖y‖) w ρ ∧
      discIntegral u (fun y => paczynski ‖y‖) w ρ - 2 * Real.pi * ((1 - u) / 2 + u / 3) * hexValueLd w ρ u
        ≤ 2 * Real.pi * ((1 - u) / 2 + u / 3) * (ρ ^ 6 / (9 * (‖w‖ - ρ) ^ 7)) := by
  have hη : 0 < ‖w‖ - ρ := by linarith
  have hp := Real.pi_pos
  have hw : w.re ^ 2 + w.im ^ 2 = ‖w‖ ^ 2 := normsq_eq w
  have hw0 : 0 < ‖w‖ ^ 2 := by have : 0 < ‖w‖ := by linarith
                               positivity
  have h3 : (3 : ℝ) - u ≠ 0 := by linarith
  have hexp := ring_expansion pacz pacz1 pacz2 lap11 lap12 lap21 lap22 pacz_twice lap1_twice lap2_twice w.re w.im ‖w‖ ρ 0
    (768 / (‖w‖ - ρ) ^ 7) h h0.le hw.ge
    (fun r hr θ => (lap3_pos _ (lt_of_lt_of_le (by positivity) (ringSq_ge w ρ r θ h hr))).le)
    (fun r hr θ => lap3_le _ _ hη (ringSq_ge w ρ r θ h hr))
  rw [hw, lap1_eq _ hw0, lap2_eq _ hw0] at hexp
  have hbc : Continuous (brightness u) := by unfold brightness; fun_prop
  have hcc : ContinuousOn (fun r => circ pacz w.re w.im (ρ * r) * (brightness u r * r)) (uIcc 0 1) := by
    rw [uIcc_of_le zero_le_one]
    intro r hr
    have hd := (ring_deriv pacz_twice w.re w.im ‖w‖ (norm_nonneg w) hw.ge (ρ * r)
      ⟨by nlinarith [hr.1, norm_nonneg w], by nlinarith [hr.2]⟩).continuousAt
    exact ((ContinuousAt.comp (g := circ pacz w.re w.im) hd (by fun_prop)).mul
      (hbc.continuousAt.mul continuousAt_id)).continuousWithinAt
  have hpi : ∀ a b d : ℝ, IntervalIntegrable (fun r => (a + b * r ^ 2 + d * r ^ 4) * (brightness u r * r)) volume 0 1 :=
    fun a b d => Continuous.intervalIntegrable (by fun_prop) _ _
  have hin : ∀ r ∈ Icc (0 : ℝ) 1, ρ * r ∈ Icc 0 ρ := fun r hr => ⟨mul_nonneg h0.le hr.1, by nlinarith [hr.2]⟩
  obtain ⟨K, hK⟩ : ∃ K, K = 768 / (‖w‖ - ρ) ^ 7 := ⟨_, rfl⟩
  have hK0 : 0 ≤ K := by rw [hK]; positivity
  rw [← hK] at hexp
  have hv : 2 * Real.pi * ((1 - u) / 2 + u / 3) * hexValueLd w ρ u = 2 * Real.pi * pacz (‖w‖ ^ 2) * ((1 - u) / 2 + u / 3)
      + 2 * Real.pi * (lap1 (‖w‖ ^ 2) / 4) * ρ ^ 2 * ((1 - u) / 4 + 2 * u / 15)
      + 2 * Real.pi * (lap2 (‖w‖ ^ 2) / 64) * ρ ^ 4 * ((1 - u) / 6 + 8 * u / 105) := by
    unfold hexValueLd
    field_simp
    ring
  have hb : ∀ r ∈ Icc (0 : ℝ) 1, 0 ≤ brightness u r * r := fun r hr => mul_nonneg (brightness_range u r hu0 hu1) hr.1
  have l := intervalIntegral.integral_mono_on zero_le_one (hpi (2 * Real.pi * pacz (‖w‖ ^ 2))
    (2 * Real.pi * (lap1 (‖w‖ ^ 2) / 4) * ρ ^ 2) (2 * Real.pi * (lap2 (‖w‖ ^ 2) / 64) * ρ ^ 4)) hcc.intervalIntegrable fun r hr => by
      have := (hexp (ρ * r) (hin r hr)).1
      refine mul_le_mul_of_nonneg_right ?_ (hb r hr)
      nlinarith
  have up := intervalIntegral.integral_mono_on zero_le_one hcc.intervalIntegrable (hpi (2 * Real.pi * pacz (‖w‖ ^ 2))
    (2 * Real.pi * (lap1 (‖w‖ ^ 2) / 4) * ρ ^ 2)
    (2 * Real.pi * (lap2 (‖w‖ ^ 2) / 64) * ρ ^ 4 + 2 * Real.pi * (K / 2304 * ρ ^ 6))) fun r hr => by
      have h1 := (hexp (ρ * r) (hin r hr)).2
      refine mul_le_mul_of_nonneg_right ?_ (hb r hr)
      have h2 : 2 * Real.pi * (K / 2304 * (ρ * r) ^ 6) ≤ 2 * Real.pi * (K / 2304 * ρ ^ 6) * r ^ 4 := by
        have h4 : r ^ 6 ≤ r ^ 4 := pow_le_pow_of_le_one hr.1 hr.2 (by norm_num)
        have h5 : 0 ≤ 2 * Real.pi * (K / 2304 * ρ ^ 6) := by positivity
        calc 2 * Real.pi * (K / 2304 * (ρ * r) ^ 6) = 2 * Real.pi * (K / 2304 * ρ ^ 6) * r ^ 6 := by ring
          _ ≤ _ := mul_le_mul_of_nonneg_left h4 h5
      have h6 : ∀ x : ℝ, 2 * Real.pi * (pacz (‖w‖ ^ 2) + lap1 (‖w‖ ^ 2) / 4 * (ρ * x) ^ 2 + lap2 (‖w‖ ^ 2) / 64 * (ρ * x) ^ 4)
          = 2 * Real.pi * pacz (‖w‖ ^ 2) + 2 * Real.pi * (lap1 (‖w‖ ^ 2) / 4) * ρ ^ 2 * x ^ 2
            + 2 * Real.pi * (lap2 (‖w‖ ^ 2) / 64) * ρ ^ 4 * x ^ 4 := fun x => by ring
      rw [h6 r] at h1
      linarith
  rw [← disc_circ_ld w ρ u h0.le h, radial_moment] at l up
  rw [hv]
  refine ⟨l, ?_⟩
  have hlast : 2 * Real.pi * (K / 2304 * ρ ^ 6) * ((1 - u) / 6 + 8 * u / 105)
      ≤ 2 * Real.pi * ((1 - u) / 2 + u / 3) * (ρ ^ 6 / (9 * (‖w‖ - ρ) ^ 7)) := by
    have e : ρ ^ 6 / (9 * (‖w‖ - ρ) ^ 7) = K / 2304 * ρ ^ 6 / 3 := by rw [hK]; field_simp; norm_num
    rw [e]
    have h5 : 0 ≤ 2 * Real.pi * (K / 2304 * ρ ^ 6) := by positivity
    calc 2 * Real.pi * (K / 2304 * ρ ^ 6) * ((1 - u) / 6 + 8 * u / 105)
        ≤ 2 * Real.pi * (K / 2304 * ρ ^ 6) * (((1 - u) / 2 + u / 3) / 3) := mul_le_mul_of_nonneg_left (by linarith) h5
      _ = _ := by ring
  linarith

theorem limb_disc (w : ℂ) (ρ u : ℝ) (h0 : 0 < ρ) (h : ρ < ‖w‖) :
    limbMag single w ρ u = discIntegral u (fun y => paczynski ‖y‖) w ρ / (2 * Real.pi * ((1 - u) / 2 + u / 3)) := by
  have hne : ∀ y ∈ Metric.closedBall w ρ, y ≠ 0 := by
    rintro y hy rfl
    rw [Metric.mem_closedBall, dist_eq_norm, zero_sub, norm_neg] at hy
    linarith
  have hc : ContinuousOn (fun y : ℂ => paczynski ‖y‖) (Metric.closedBall w ρ) := by
    unfold paczynski
    refine ContinuousOn.div (by fun_prop) (by fun_prop) fun y hy => ?_
    have := norm_pos_iff.mpr (hne y hy)
    positivity
  have hd := disc_polar (fun y => paczynski ‖y‖) w ρ u h0 hc
  have h1 := disc_polar (fun _ => 1) w ρ u h0 continuousOn_const
  simp only [one_mul] at h1
  have hI : ∫ y in Metric.ball w ρ, pointMag single y * brightness u (‖y - w‖ / ρ)
      = ∫ y in Metric.ball w ρ, paczynski ‖y‖ * brightness u (‖y - w‖ / ρ) :=
    setIntegral_congr_fun Metric.isOpen_ball.measurableSet fun y hy => by
      simp only [C02_true_single_mag y (hne y (Metric.ball_subset_closedBall hy))]
  rw [limbMag_eq_average, hI, hd, h1, discIntegral_one]
  rw [mul_div_mul_left _ _ (by positivity)]

/-- The terms of the code with limb darkening. -/
theorem single_terms_ld (σ : ℝ) (hσ : σ = 1 ∨ σ = -1) (w : ℂ) (hw : w ≠ 0) (rho u : ℝ) :
    (cassan (wStack (wSpec single (singleBranch σ w))) rho u).ps + (cassan (wStack (wSpec single (singleBranch σ w))) rho u).quad
      + (cassan (wStack (wSpec single (singleBranch σ w))) rho u).hex = (σ * hexValueLd w rho u + 1) / 2 := by
  obtain ⟨h1, h2, h3⟩ := C22_terms single w (singleBranch σ) (single_branch σ hσ w hw) rho u
  have key : ∀ r : ℝ, branchMag single (singleBranch σ) w
      + 1 / 2 * (1 / 4 * laplacian (branchMag single (singleBranch σ)) w) * r ^ 2
      + 1 / 24 * (1 / 8 * laplacian (laplacian (branchMag single (singleBranch σ))) w) * r ^ 4 = (σ * hexValue w r + 1) / 2 := by
    intro r
    rw [← single_terms σ hσ w hw r]
    obtain ⟨e1, e2, e3⟩ := C22_terms single w (singleBranch σ) (single_branch σ hσ w hw) r 0
    rw [e1, e2, e3]
    ring
  have k0 := key 0
  have k1 := key 1
  have k2 := key 2
  rw [h1, h2, h3]
  unfold hexValue at k0 k1 k2
  unfold hexValueLd
  obtain ⟨g, hg⟩ : ∃ g, g = 2 * u / (3 - u) := ⟨_, rfl⟩
  rw [← hg]
  have q0 : branchMag single (singleBranch σ) w = (σ * pacz (‖w‖ ^ 2) + 1) / 2 := by linarith
  have q1 : laplacian (branchMag single (singleBranch σ)) w = σ * lap1 (‖w‖ ^ 2) / 2 := by linarith
  have q2 : laplacian (laplacian (branchMag single (singleBranch σ))) w = σ * lap2 (‖w‖ ^ 2) / 2 := by linarith
  rw [q0, q1, q2]
  ring

theorem single_hex_ld (w : ℂ) (hw : w ≠ 0) (rho u : ℝ) (hu0 : 0 ≤ u) (hu1 : u ≤ 1) :
    (sumTerms wk1 (images1 w) rho u).1 = hexValueLd w rho u := by
  have hp := norm_pos_iff.mpr hw
  have hg : 2 * u / (3 - u) ≤ 1 := by rw [div_le_one (by linarith)]; linarith
  have h1 : 1 ≤ hexValueLd w rho u := by
    unfold hexValueLd
    have := pacz_ge w hw
    have a1 := lap1_nonneg (‖w‖ ^ 2) (by positivity)
    have a2 := lap2_nonneg (‖w‖ ^ 2) (by positivity)
    have b1 : 0 ≤ 1 - 1 / 5 * (2 * u / (3 - u)) := by linarith
    have b2 : 0 ≤ 1 - 11 / 35 * (2 * u / (3 - u)) := by linarith
    have : 0 ≤ lap1 (‖w‖ ^ 2) / 8 * (1 - 1 / 5 * (2 * u / (3 - u))) * rho ^ 2 := by positivity
    have : 0 ≤ lap2 (‖w‖ ^ 2) / 192 * (1 - 11 / 35 * (2 * u / (3 - u))) * rho ^ 4 := by positivity
    linarith
  have e : ∀ z, wStack (wk1 z) = wStack (wSpec single z) := fun z => by
    have : wk1 z = wSpec single z := funext fun k => wk1_eq z k
    rw [this]
  rw [images1_branches w hw]
  unfold sumTerms
  simp only [List.map_cons, List.map_nil, List.sum_cons, List.sum_nil, if_true, one_mul, add_zero, e]
  rw [single_terms_ld 1 (Or.inl rfl) w hw, single_terms_ld (-1) (Or.inr rfl) w hw, abs_of_pos (by linarith),
    abs_of_nonpos (by linarith)]
  ring

/-- C135: for a single lens and a linearly limb-darkened source the value of `mag_hexadecapole` never exceeds the magnification
of the source, and falls short of it by at most `rho⁶ / (9 (|w| - rho)⁷)`, wherever the lens is outside of the disc. -/
theorem C135_multipole_limb (p : MidParams) (w : ℂ) (rho u1 : ℝ) (h0 : 0 < rho) (h : rho < ‖w‖) (hu0 : 0 ≤ u1) (hu1 : u1 ≤ 1) :
    ∃ m err, magHexadecapole 1 p (images1 w) rho u1 = .ok (m, err) ∧ m ≤ limbMag single w rho u1 ∧
      limbMag single w rho u1 - m ≤ rho ^ 6 / (9 * (‖w‖ - rho) ^ 7) := by
  have hw : w ≠ 0 := norm_pos_iff.mp (by linarith)
  have hN : 0 < 2 * Real.pi * ((1 - u1) / 2 + u1 / 3) := mul_pos (by positivity) (by linarith)
  obtain ⟨l, up⟩ := disc_hex_ld w rho u1 h0 h hu0 hu1
  refine ⟨(sumTerms wk1 (images1 w) rho u1).1, _, rfl, ?_, ?_⟩
  · rw [single_hex_ld w hw rho u1 hu0 hu1, limb_disc w rho u1 h0 h, le_div_iff₀ hN]
    linarith
  · rw [single_hex_ld w hw rho u1 hu0 hu1, limb_disc w rho u1 h0 h, div_sub' hN.ne', div_le_iff₀ hN]
    linarith

/-- A lower bound on the Laplacian of Paczynski's magnification. -/
theorem lap1_ge (W : ℝ) (hW : 0 < W) : 64 * (W ^ 2 + 1) / (W ^ 3 * (W ^ 2 + 4) ^ 3) ≤ lap1 (W ^ 2) := by
  have h4 : 0 < W ^ 2 + 4 := by positivity
  have e1 : (W ^ 2 : ℝ) ^ (-3 / 2 : ℝ) = 1 / W ^ 3 := by
    rw [← Real.rpow_natCast W 2, ← Real.rpow_mul hW.le, show ((2 : ℕ) : ℝ) * (-3 / 2) = -((3 : ℕ) : ℝ) by norm_num,
      Real.rpow_neg hW.le, Real.rpow_natCast, one_div]
  have e2 : 2 / (W ^ 2 + 4) ^ 3 ≤ (W ^ 2 + 4) ^ (-5 / 2 : ℝ) := by
    have h2 : (2 : ℝ) ≤ Real.sqrt (W ^ 2 + 4) := Real.le_sqrt_of_sq_le (by nlinarith)
    rw [show (-5 / 2 : ℝ) = 1 / 2 - ((3 : ℕ) : ℝ) by norm_num, Real.rpow_sub h4, Real.rpow_natCast, ← Real.sqrt_eq_rpow]
    exact div_le_div_of_nonneg_right h2 (by positivity)
  have eq : quart coefC1 (W ^ 2) = 32 * (W ^ 2 + 1) := by simp [quart, coefC1]; ring
  unfold lap1 shell
  rw [e1, eq]
  calc 64 * (W ^ 2 + 1) / (W ^ 3 * (W ^ 2 + 4) ^ 3) = 32 * (W ^ 2 + 1) * (1 / W ^ 3 * (2 / (W ^ 2 + 4) ^ 3)) := by
        field_simp; norm_num
    _ ≤ _ := mul_le_mul_of_nonneg_left (mul_le_mul_of_nonneg_left e2 (by positivity)) (by positivity)

/-- What the missing `u1` costs at one position. -/
theorem limb_below (w : ℂ) (rho u1 : ℝ) (h0 : 0 < rho) (hu0 : 0 < u1) (hu1 : u1 ≤ 1) (hw : 2 * rho ≤ ‖w‖)
    (hs : 14 * rho ^ 4 * (‖w‖ ^ 2 + 4) ^ 3 ≤ u1 * ‖w‖ ^ 4 * (‖w‖ ^ 2 + 1)) : limbMag single w rho u1 < hexValue w rho := by
  have hN : 0 < 2 * Real.pi * ((1 - u1) / 2 + u1 / 3) := mul_pos (by have := Real.pi_pos; positivity) (by linarith)
  obtain ⟨-, up⟩ := disc_hex_ld w rho u1 h0 (by linarith) hu0.le hu1
  have hup : limbMag single w rho u1 - hexValueLd w rho u1 ≤ rho ^ 6 / (9 * (‖w‖ - rho) ^ 7) := by
    rw [limb_disc w rho u1 h0 (by linarith), div_sub' hN.ne', div_le_iff₀ hN]
    linarith
  obtain ⟨W, hW⟩ : ∃ W, W = ‖w‖ := ⟨_, rfl⟩
  have hW0 : 0 < W := by rw [hW]; linarith
  have hlap := lap1_ge W hW0
  have hlap2 := lap2_nonneg (W ^ 2) (by positivity)
  unfold hexValueLd at hup
  unfold hexValue
  rw [← hW] at hs hw hup ⊢
  obtain ⟨g, hg⟩ : ∃ g, g = 2 * u1 / (3 - u1) := ⟨_, rfl⟩
  rw [← hg] at hup
  have hg0 : 2 / 3 * u1 ≤ g := by
    rw [hg, le_div_iff₀ (by linarith)]; nlinarith
  have hrem : rho ^ 6 / (9 * (W - rho) ^ 7) ≤ 128 * rho ^ 6 / (9 * W ^ 7) := by
    have h7 : (W / 2) ^ 7 ≤ (W - rho) ^ 7 := pow_le_pow_left₀ (by positivity) (by linarith) 7
    have h8 : 0 < (W / 2) ^ 7 := by positivity
    calc rho ^ 6 / (9 * (W - rho) ^ 7) ≤ rho ^ 6 / (9 * (W / 2) ^ 7) :=
          div_le_div_of_nonneg_left (by positivity) (by positivity) (by linarith)
      _ = _ := by field_simp; norm_num
  have hmain : 128 * rho ^ 6 / (9 * W ^ 7) < 64 * (W ^ 2 + 1) / (W ^ 3 * (W ^ 2 + 4) ^ 3) / 8 * (1 / 5 * (2 / 3 * u1)) * rho ^ 2 := by
    have e : 64 * (W ^ 2 + 1) / (W ^ 3 * (W ^ 2 + 4) ^ 3) / 8 * (1 / 5 * (2 / 3 * u1)) * rho ^ 2
        = 16 * (W ^ 2 + 1) * u1 * rho ^ 2 / (15 * (W ^ 3 * (W ^ 2 + 4) ^ 3)) := by field_simp; norm_num
    rw [e, div_lt_div_iff₀ (by positivity) (by positivity)]
    have hpos : 0 < u1 * W ^ 4 * (W ^ 2 + 1) := by positivity
    have hc : 0 < rho ^ 2 * W ^ 3 := by positivity
    have h1 : 1920 * rho ^ 4 * (W ^ 2 + 4) ^ 3 < 144 * (u1 * W ^ 4 * (W ^ 2 + 1)) := by nlinarith
    calc 128 * rho ^ 6 * (15 * (W ^ 3 * (W ^ 2 + 4) ^ 3)) = rho ^ 2 * W ^ 3 * (1920 * rho ^ 4 * (W ^ 2 + 4) ^ 3) := by ring
      _ < rho ^ 2 * W ^ 3 * (144 * (u1 * W ^ 4 * (W ^ 2 + 1))) := mul_lt_mul_of_pos_left h1 hc
      _ = _ := by ring
  have hq : 64 * (W ^ 2 + 1) / (W ^ 3 * (W ^ 2 + 4) ^ 3) / 8 * (1 / 5 * (2 / 3 * u1)) * rho ^ 2
      ≤ lap1 (W ^ 2) / 8 * (1 / 5 * g) * rho ^ 2 := by
    refine mul_le_mul_of_nonneg_right (mul_le_mul (by linarith) (by linarith) (by positivity) ?_) (by positivity)
    have := lap1_nonneg (W ^ 2) (by positivity)
    positivity
  have hx : 0 ≤ lap2 (W ^ 2) / 192 * (11 / 35 * g) * rho ^ 4 := by
    have : 0 ≤ g := by linarith
    positivity
  linarith

/-- **C70**, one lens: `magnifications` does not pass `u1` to the multipole solver.  Where the multipole value is used, the light
curve of a limb-darkened source is too high whenever the source is small compared with its separation from the lens. -/
theorem C70_one_lens_violated (roots : Option (List ℂ) → List ℂ → List ℂ) (full : ℝ → ℂ → ℝ) (ws : List ℂ) (rho u1 : ℝ)
    (u : UserParams) (h0 : 0 < rho) (hu0 : 0 < u1) (hu1 : u1 ≤ 1) :
    ∃ out, magnifications roots full 1 ws rho u1 u = .ok out ∧
      ∀ i (h : i < ws.length) (h' : i < out.length), oneLensAccepts rho ws[i] →
        14 * rho ^ 4 * (‖ws[i]‖ ^ 2 + 4) ^ 3 ≤ u1 * ‖ws[i]‖ ^ 4 * (‖ws[i]‖ ^ 2 + 1) →
        limbMag single ws[i] rho u1 < out[i] := by
  obtain ⟨hacc, mu, hmu, hout⟩ := C47_one_lens roots full ws rho u1 u
  refine ⟨_, hout, fun i h h' ha hs => ?_⟩
  have hn := hacc _ ha
  have hw : ws[i] ≠ 0 := norm_pos_iff.mp (by linarith)
  obtain ⟨err', e3⟩ := hmu ws[i]
  have e5 : magHexadecapole 1 (midParams2 u) (images1 ws[i]) rho 0 = .ok (sumTerms wk1 (images1 ws[i]) rho 0) := rfl
  rw [e5] at e3
  have e6 : mu ws[i] = hexValue ws[i] rho := by
    rw [← single_hex _ hw, Except.ok.inj e3]
  simp only [List.getElem_map]
  rw [if_pos ha, e6]
  exact limb_below ws[i] rho u1 h0 hu0 hu1 hn hs

/-- A source of radius 0.1 with `u1 = 0.6` at unit separation: the multipole value with `u1` is within `3e-7` of the magnification,
the one in the light curve, without `u1`, is too high. -/
example (p : MidParams) (roots : Option (List ℂ) → List ℂ → List ℂ) (full : ℝ → ℂ → ℝ) (u : UserParams) :
    (∃ m err, magHexadecapole 1 p (images1 1) (1 / 10) (3 / 5) = .ok (m, err) ∧
      |limbMag single 1 (1 / 10) (3 / 5) - m| ≤ 3 / 10 ^ 7) ∧
    ∃ a, magnifications roots full 1 [1] (1 / 10) (3 / 5) u = .ok [a] ∧ limbMag single 1 (1 / 10) (3 / 5) < a := by
  constructor
  · obtain ⟨m, err, h1, h2, h3⟩ := C135_multipole_limb p 1 (1 / 10) (3 / 5) (by norm_num) (by norm_num) (by norm_num) (by norm_num)
    refine ⟨m, err, h1, ?_⟩
    rw [abs_of_nonneg (by linarith)]
    refine h3.trans ?_
    rw [norm_one]
    norm_num
  · obtain ⟨out, h1, h2⟩ := C70_one_lens_violated roots full [1] (1 / 10) (3 / 5) u (by norm_num) (by norm_num) (by norm_num)
    have hl : out.length = 1 := by
      obtain ⟨-, mu, -, hout⟩ := C47_one_lens roots full [1] (1 / 10) (3 / 5) u
      rw [h1] at hout
      rw [Except.ok.inj hout]
      simp
    match out, hl with
    | [a], _ =>
      refine ⟨a, h1, h2 0 (by simp) (by simp) (Or.inl (by norm_num)) ?_⟩
      simp only [List.getElem_cons_zero, norm_one]
      norm_num

end Microjax.Props
