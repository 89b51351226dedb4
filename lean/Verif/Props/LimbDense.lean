import Verif.Spec.LimbImages
import Verif.Props.RegionFillCase
import Verif.Props.LimbTrace
import Verif.Lemmas.SmallSource
import Mathlib.Analysis.SpecialFunctions.Trigonometric.Bounds

/-! # C127: the sampled limb images fill the images of the limb -/

noncomputable section

namespace Microjax.Props

open Complex ComplexConjugate Spec MeasureTheory Set Filter Topology ExtendedSource PointSource MergeArea Jnp

/-- A limb that avoids the caustics. -/
theorem noTouch_of_regular (L : Lenses) (w : ℂ) (rho : ℝ) (h : ∀ z ∈ limbImages L w rho, jacDet (lensMap L) z ≠ 0) :
    NoTouch L w rho := fun z hz => subset_closure ⟨hz, h z hz⟩

/-- Images of points close to all points of the limb are close to all images of the limb. -/
theorem limb_net (L : Lenses) (w : ℂ) (rho : ℝ) (hL : NoTouch L w rho) (ε : ℝ) (hε : 0 < ε) :
    ∃ δ > 0, ∀ Y : Set ℂ, (∀ v : ℂ, ‖v - w‖ = rho → ∃ y ∈ Y, ‖y - v‖ < δ) →
      ∀ z ∈ limbImages L w rho, ∃ x, ∃ y ∈ Y, IsImage L y x ∧ ‖x - z‖ < ε := by
  set K := {z ∈ limbImages L w rho | jacDet (lensMap L) z ≠ 0} with hK
  have hbd : TotallyBounded K := by
    obtain ⟨B, hB⟩ := imageOfDisc_bounded L w (rho + 1)
    have hsub : K ⊆ Metric.closedBall 0 B := fun z hz => by
      rw [mem_closedBall_zero_iff]
      refine hB z ⟨hz.1.1, ?_⟩
      have := hz.1.2
      linarith
    exact (isCompact_closedBall (0 : ℂ) B).totallyBounded.subset hsub
  obtain ⟨T, hTK, hTf, hT⟩ := Metric.finite_approx_of_totallyBounded hbd (ε / 3) (by positivity)
  -- near each point of the net there are images of all nearby sources
  have hloc : ∀ z0 ∈ T, ∀ᶠ d in 𝓝[>] (0 : ℝ), ∀ y : ℂ, ‖y - lensMap L z0‖ < d → ∃ x, IsImage L y x ∧ ‖x - z0‖ < ε / 3 := by
    intro z0 hz0
    obtain ⟨⟨h1, h2⟩, h3⟩ := hTK hz0
    obtain ⟨g, g1, g2, g3, -⟩ := image_local_inverse L (lensMap L z0) z0 ⟨h1, rfl⟩ fun hs => h3 (by
      rw [jacDet, (hasFDerivAt_lensMap L z0 h1).fderiv, antiLin_det, norm_neg, hs]; norm_num)
    have ho : ∀ᶠ x in 𝓝 z0, ∀ l ∈ L, x ≠ l.2 :=
      (Filter.eventually_all_finite L.finite_toSet).mpr fun l hl => isOpen_ne.mem_nhds (h1 l hl)
    have hb : ∀ᶠ x in 𝓝 z0, ‖x - z0‖ < ε / 3 := by
      have := Metric.ball_mem_nhds z0 (show 0 < ε / 3 by positivity)
      filter_upwards [this] with x hx
      simpa [dist_eq_norm] using hx
    rw [ContinuousAt, g2] at g1
    obtain ⟨d, hd, hball⟩ := Metric.eventually_nhds_iff.mp ((g3.and (g1.eventually (ho.and hb))))
    filter_upwards [Ioo_mem_nhdsGT hd] with d' hd' y hy
    obtain ⟨e1, e2, e3⟩ := hball (show dist y (lensMap L z0) < d by rw [dist_eq_norm]; exact hy.trans hd'.2)
    exact ⟨g y, ⟨e2, e1⟩, e3⟩
  have hall : ∀ᶠ d in 𝓝[>] (0 : ℝ), ∀ z0 ∈ T, ∀ y : ℂ, ‖y - lensMap L z0‖ < d → ∃ x, IsImage L y x ∧ ‖x - z0‖ < ε / 3 :=
    (Filter.eventually_all_finite hTf).mpr hloc
  obtain ⟨δ, hδ, hδ0⟩ := (hall.and self_mem_nhdsWithin).exists
  refine ⟨δ, hδ0, fun Y hY z hz => ?_⟩
  obtain ⟨z1, hz1, hd1⟩ := Metric.mem_closure_iff.mp (hL hz) (ε / 3) (by positivity)
  obtain ⟨z0, hz0, hd0⟩ := mem_iUnion₂.mp (hT hz1)
  obtain ⟨y, hy, hyd⟩ := hY (lensMap L z0) (hTK hz0).1.2
  obtain ⟨x, hx, hxd⟩ := hδ z0 hz0 y hyd
  refine ⟨x, y, hy, hx, ?_⟩
  rw [Metric.mem_ball, dist_eq_norm] at hd0
  rw [dist_eq_norm] at hd1
  calc ‖x - z‖ = ‖(x - z0) - (z1 - z0) - (z - z1)‖ := by congr 1; ring
    _ ≤ ‖x - z0‖ + ‖z1 - z0‖ + ‖z - z1‖ := (norm_sub_le _ _).trans (add_le_add_left (norm_sub_le _ _) _)
    _ < ε := by linarith

/-- The points of the source limb come arbitrarily close to every point of the circle. -/
theorem sourceLimb_net (w : ℂ) (rho : ℝ) (δ : ℝ) (hδ : 0 < δ) : ∃ N0 : ℕ, ∀ N ≥ N0, ∀ v : ℂ, ‖v - w‖ = rho →
    ∃ y ∈ sourceLimb w rho N, ‖y - v‖ < δ := by
  have hp := Real.pi_pos
  obtain ⟨N0, hN0⟩ := exists_nat_gt (rho * (2 * Real.pi) / δ)
  refine ⟨N0 + 2, fun N hN v hv => ?_⟩
  have hrho : 0 ≤ rho := by rw [← hv]; exact norm_nonneg _
  -- the angle of the point
  obtain ⟨t, ht0, ht1, ht⟩ : ∃ t : ℝ, 0 ≤ t ∧ t < 2 * Real.pi ∧ v = w + rho * exp (I * t) := by
    refine ⟨toIcoMod (show 0 < 2 * Real.pi by positivity) 0 (arg (v - w)), ?_, ?_, ?_⟩
    · exact (toIcoMod_mem_Ico _ 0 _).1
    · simpa using (toIcoMod_mem_Ico (show 0 < 2 * Real.pi by positivity) 0 (arg (v - w))).2
    · have h := norm_mul_exp_arg_mul_I (v - w)
      rw [hv] at h
      have he : exp (I * (toIcoMod (show 0 < 2 * Real.pi by positivity) 0 (arg (v - w)) : ℝ)) = exp (arg (v - w) * I) := by
        rw [exp_eq_exp_iff_exists_int]
        refine ⟨-toIcoDiv (show 0 < 2 * Real.pi by positivity) 0 (arg (v - w)), ?_⟩
        rw [toIcoMod]
        push_cast [zsmul_eq_mul]
        ring
      rw [he, h]; ring
  have hN1 : (0 : ℝ) < (N : ℝ) - 1 := by
    have : ((N0 + 2 : ℕ) : ℝ) ≤ N := by exact_mod_cast hN
    push_cast at this
    have := Nat.cast_nonneg (α := ℝ) N0
    linarith
  set h : ℝ := 2 * Real.pi / ((N : ℝ) - 1) with hh
  have hh0 : 0 < h := by positivity
  set i := ⌊t / h⌋₊ with hi
  have hi1 : (i : ℝ) * h ≤ t := by
    rw [← le_div_iff₀ hh0]; exact Nat.floor_le (by positivity)
  have hi2 : t < (i + 1 : ℝ) * h := by
    rw [← div_lt_iff₀ hh0]; exact Nat.lt_floor_add_one _
  have hiN : i < N := by
    have h1 : (i : ℝ) * h < ((N : ℝ) - 1) * h := by
      rw [hh, mul_div_cancel₀ _ hN1.ne']; rw [← hh]; linarith
    have h2 : (i : ℝ) < (N : ℝ) - 1 := lt_of_mul_lt_mul_right h1 hh0.le
    have : (i : ℝ) < N := by linarith
    exact_mod_cast this
  refine ⟨w + rho * exp (I * ((i * h : ℝ) : ℂ)), ?_, ?_⟩
  · refine List.mem_map.mpr ⟨(i : ℝ) * h, List.mem_map.mpr ⟨i, List.mem_range.mpr hiN, ?_⟩, rfl⟩
    rw [hh]; ring
  · rw [ht]
    have e1 : w + rho * exp (I * ((i * h : ℝ) : ℂ)) - (w + rho * exp (I * t))
        = rho * (exp (I * t) * (exp (I * ((i * h - t : ℝ) : ℂ)) - 1)) := by
      rw [mul_sub, ← exp_add, ← mul_add, mul_one]
      push_cast
      rw [add_sub_cancel]; ring
    rw [e1, norm_mul, norm_mul, mul_comm I (t : ℂ), norm_exp_ofReal_mul_I, one_mul, norm_real, Real.norm_of_nonneg hrho]
    have h1 := Real.norm_exp_I_mul_ofReal_sub_one_le (x := i * h - t)
    have h2 : ‖(i * h - t : ℝ)‖ ≤ h := by
      rw [Real.norm_eq_abs, abs_le]; constructor <;> linarith
    have h3 : rho * h < δ := by
      rw [hh, ← mul_div_assoc, div_lt_iff₀ hN1]
      have h4 : ((N0 + 2 : ℕ) : ℝ) ≤ N := by exact_mod_cast hN
      push_cast at h4
      rw [div_lt_iff₀ hδ] at hN0
      nlinarith
    calc rho * _ ≤ rho * h := mul_le_mul_of_nonneg_left (h1.trans h2) hrho
      _ < δ := h3

/-- The limb avoids the lenses. -/
def LimbOffLenses (L : Lenses) (w : ℂ) (rho : ℝ) : Prop := ∀ l ∈ L, ‖l.2 - w‖ ≠ rho

theorem norm_of_mem_sourceLimb (w : ℂ) (rho : ℝ) (hrho : 0 ≤ rho) (N : ℕ) (x : ℂ) (hx : x ∈ sourceLimb w rho N) :
    ‖x - w‖ = rho := by
  obtain ⟨t, rfl⟩ := mem_sourceLimb w rho N x hx
  rw [add_sub_cancel_left, norm_mul, mul_comm I, norm_exp_ofReal_mul_I, mul_one, norm_real, Real.norm_of_nonneg hrho]

/-- **C127**: with a complete root finder the valid sampled limb images fill the images of the limb as `Nlimb` grows: for
every distance `ε` there is a number of limb points from which on every image of every point of the limb has a valid sampled
image within `ε`.  Two and three lenses. -/
theorem C127_limb_dense (roots) (hroots : ∀ c, c.headD 0 ≠ 0 → IsRootList c (roots none c)) (nlenses : ℕ)
    (hn : nlenses = 2 ∨ nlenses = 3) (u : UserParams) (hq : 1 + u.q ≠ 0) (hq3 : nlenses = 3 → 1 + u.q + u.q3 ≠ 0) (w : ℂ)
    (rho : ℝ) (hoff : LimbOffLenses (userLens nlenses u) w rho) (hL : NoTouch (userLens nlenses u) w rho)
    (ε : ℝ) (hε : 0 < ε) :
    ∃ N0 : ℕ, ∀ N ≥ N0, ∀ limb, calcSourceLimb roots w rho N nlenses u = .ok limb →
      ∀ z ∈ limbImages (userLens nlenses u) w rho, ∃ x, (x, true) ∈ limb ∧ ‖x - z‖ < ε := by
  obtain ⟨δ, hδ, hnet⟩ := limb_net _ w rho hL ε hε
  obtain ⟨N0, hN0⟩ := sourceLimb_net w rho δ hδ
  refine ⟨N0, fun N hN limb hlimb z hz => ?_⟩
  obtain ⟨x, y, hy, hx, hd⟩ := hnet {y | y ∈ sourceLimb w rho N} (hN0 N hN) z hz
  have hrho : 0 ≤ rho := by rw [← hz.2]; exact norm_nonneg _
  have hyn := norm_of_mem_sourceLimb w rho hrho N y hy
  have hne : ∀ l ∈ userLens nlenses u, y ≠ l.2 := fun l hl h => hoff l hl (by rw [← h]; exact hyn)
  refine ⟨x, ?_, hd⟩
  rcases hn with rfl | rfl
  · rw [userLens, if_neg (by norm_num)] at hx hne
    refine C41_binary_limb_complete roots w rho N u hq hroots limb hlimb y hy ?_ x hx
    intro hc
    rw [← (C08_binary_frame u hq).1] at hne
    have h2 : (y - xCM u) ^ 2 = ((midParams2 u).a : ℂ) ^ 2 := by
      have := congrArg conj hc
      simpa using this
    rcases sq_eq_sq_iff_eq_or_eq_neg.mp h2 with h3 | h3
    · exact hne ((midParams2 u).e1, (midParams2 u).a + xCM u) (by simp [midBinary]) (by
        simp only; linear_combination h3)
    · exact hne (1 - (midParams2 u).e1, -(midParams2 u).a + xCM u) (by simp [midBinary]) (by
        simp only; linear_combination h3)
  · rw [userLens, if_pos rfl] at hx hne
    refine C41_triple_limb_complete roots w rho N u hq (hq3 rfl) hroots limb hlimb y hy ?_ x hx
    rw [← (C08_triple_frame u hq (hq3 rfl)).1] at hne
    rw [(triple_head _ _ _ _ _).2]
    have hi : ∀ x : ℂ, x ≠ 0 → conj x ≠ 0 := fun x hx => by simpa using hx
    refine mul_ne_zero (mul_ne_zero (hi _ fun hc => ?_) (hi _ fun hc => ?_)) (hi _ fun hc => ?_)
    · exact hne ((midParams3 u).e1, (midParams3 u).a + xCM u) (by simp [midTriple]) (by
        simp only; linear_combination hc)
    · exact hne ((midParams3 u).e2, -(midParams3 u).a + xCM u) (by simp [midTriple]) (by
        simp only; linear_combination hc)
    · exact hne (1 - (midParams3 u).e1 - (midParams3 u).e2, r3Complex (midParams3 u) + xCM u) (by simp [midTriple]) (by
        simp only; linear_combination hc)

/-- Polar form of a valid limb image. -/
theorem limbPolar_polar (x : ℂ) : x = (limbPolar (x, true)).1 * exp (I * (limbPolar (x, true)).2) := by
  have h := norm_mul_exp_arg_mul_I x
  simp only [limbPolar, if_true, mul_one]
  have he : exp (I * ((arg x - 2 * Real.pi * ⌊arg x / (2 * Real.pi)⌋ : ℝ) : ℂ)) = exp (arg x * I) := by
    rw [exp_eq_exp_iff_exists_int]
    refine ⟨-⌊arg x / (2 * Real.pi)⌋, ?_⟩
    push_cast
    ring
  rw [he]
  exact h.symm

/-- **C127**, in polar coordinates: if the origin is neither a lens nor an image of the limb, every image of the limb has a
valid sampled image close in radius and in angle as soon as `Nlimb` is large enough. -/
theorem C127_limb_polar (roots) (hroots : ∀ c, c.headD 0 ≠ 0 → IsRootList c (roots none c)) (nlenses : ℕ)
    (hn : nlenses = 2 ∨ nlenses = 3) (u : UserParams) (hq : 1 + u.q ≠ 0) (hq3 : nlenses = 3 → 1 + u.q + u.q3 ≠ 0) (w : ℂ)
    (rho : ℝ) (hoff : LimbOffLenses (userLens nlenses u) w rho) (hL : NoTouch (userLens nlenses u) w rho)
    (d : ℝ) (hd : 0 < d) (h0 : ∀ z ∈ limbImages (userLens nlenses u) w rho, d ≤ ‖z‖) (mr mt : ℝ) (hmr : 0 < mr) (hmt : 0 < mt) :
    ∃ N0 : ℕ, ∀ N ≥ N0, ∀ limb, calcSourceLimb roots w rho N nlenses u = .ok limb →
      ∀ z ∈ limbImages (userLens nlenses u) w rho, ∃ x, (x, true) ∈ limb ∧ x ≠ 0 ∧ ∃ r θ : ℝ, z = r * exp (I * θ) ∧ 0 < r ∧
        |r - (limbPolar (x, true)).1| < mr ∧ |θ - (limbPolar (x, true)).2| < mt := by
  -- close to one the argument is small
  obtain ⟨η, hη, harg⟩ : ∃ η > 0, ∀ v : ℂ, ‖v - 1‖ < η → |arg v| < mt := by
    have hc : ContinuousAt arg 1 := continuousAt_arg (by simp)
    obtain ⟨η, hη, h⟩ := Metric.continuousAt_iff.mp hc mt hmt
    refine ⟨η, hη, fun v hv => ?_⟩
    have := h (show dist v 1 < η by rw [dist_eq_norm]; exact hv)
    simpa [Real.dist_eq] using this
  obtain ⟨N0, hN0⟩ := C127_limb_dense roots hroots nlenses hn u hq hq3 w rho hoff hL (min mr (min (d / 2) (η * d / 2)))
    (lt_min hmr (lt_min (by positivity) (by positivity)))
  refine ⟨N0, fun N hN limb hlimb z hz => ?_⟩
  obtain ⟨x, hx, hxz⟩ := hN0 N hN limb hlimb z hz
  obtain ⟨h1, h2, h3⟩ := (lt_min_iff.mp hxz).imp id lt_min_iff.mp
  have hzd := h0 z hz
  have hxd : d / 2 < ‖x‖ := by
    have := norm_sub_norm_le z x
    rw [norm_sub_rev] at this
    linarith
  have hx0 : x ≠ 0 := by rw [← norm_pos_iff]; linarith
  have hz0 : z ≠ 0 := by rw [← norm_pos_iff]; linarith
  refine ⟨x, hx, hx0, ‖z‖, (limbPolar (x, true)).2 + arg (z / x), ?_, by linarith, ?_, ?_⟩
  · have e1 := limbPolar_polar x
    have e2 : (limbPolar (x, true)).1 = ‖x‖ := by simp [limbPolar]
    have e3 := norm_mul_exp_arg_mul_I (z / x)
    rw [e2] at e1
    rw [ofReal_add, mul_add, exp_add, mul_comm I (arg (z / x) : ℂ)]
    have hxn : (‖x‖ : ℂ) ≠ 0 := by simpa using hx0
    have e4 : z = (z / x) * x := by field_simp
    have e5 : (‖z‖ : ℂ) = (‖z / x‖ : ℂ) * ‖x‖ := by
      rw [norm_div]; push_cast; field_simp
    calc z = (z / x) * x := e4
      _ = (‖z / x‖ * exp (arg (z / x) * I)) * (‖x‖ * exp (I * (limbPolar (x, true)).2)) := by rw [e3, ← e1]
      _ = _ := by rw [e5]; ring
  · have e2 : (limbPolar (x, true)).1 = ‖x‖ := by simp [limbPolar]
    rw [e2]
    refine (abs_norm_sub_norm_le z x).trans_lt ?_
    rw [norm_sub_rev]; exact h1
  · rw [add_sub_cancel_left]
    apply harg
    have : z / x - 1 = (z - x) / x := by field_simp
    rw [this, norm_div, div_lt_iff₀ (by linarith), norm_sub_rev]
    have : η * (d / 2) < η * ‖x‖ := mul_lt_mul_of_pos_left hxd hη
    linarith

/-- The limb has no image close to the origin, if the origin is neither a lens nor an image of the limb. -/
theorem limb_away (L : Lenses) (w : ℂ) (rho : ℝ) (h1 : ∀ l ∈ L, (0 : ℂ) ≠ l.2) (h2 : ‖lensMap L 0 - w‖ ≠ rho) :
    ∃ d > 0, ∀ z ∈ limbImages L w rho, d ≤ ‖z‖ := by
  have hc : ContinuousAt (fun z => ‖lensMap L z - w‖) 0 :=
    (((contDiffAt_lensMap L 0 h1).continuousAt).sub continuousAt_const).norm
  obtain ⟨d, hd, h⟩ := Metric.eventually_nhds_iff.mp (hc.eventually_ne h2)
  refine ⟨d, hd, fun z hz => ?_⟩
  by_contra hlt
  push Not at hlt
  exact h (show dist z 0 < d by simpa using hlt) hz.2

/-- What the pipeline needs of one sampled limb: the tables have room (C38, C125), some angular bin is free, and samples on the
ends of the runs of occupied bins have a neighbour inside, within half the margins. -/
structure GoodLimb (limb : List (ℂ × Bool)) (nlenses bins_r bins_th : ℕ) (rho margin_r margin_th : ℝ) : Prop where
  cover : CoverConditions (2 * Real.pi) (if nlenses = 2 then 10 else 18) (if nlenses = 2 then 5 else 9) (limb.map limbPolar)
    bins_r bins_th (margin_r * rho)
  edges : EdgesFree (limb.map limbPolar) bins_r (if nlenses = 2 then 10 else 18)
  big : ∀ z ∈ limb, z.2 = true → ‖z.1‖ ≤ 10 ^ 5
  free : ∃ k < bins_th, ¬ Occupied ((limb.map limbPolar).map Prod.snd) 0 (2 * Real.pi) bins_th k
  ends : ∀ x, (x, true) ∈ limb → x ≠ 0 → ∃ y, (y, true) ∈ limb ∧ y ≠ 0 ∧
    InsideRuns limb (if nlenses = 2 then 10 else 18) bins_r bins_th (limbPolar (y, true)) ∧
    |(limbPolar (x, true)).1 - (limbPolar (y, true)).1| ≤ margin_r * rho / 2 ∧
    |(limbPolar (x, true)).2 - (limbPolar (y, true)).2| ≤ margin_th * (Real.pi / 180) / 2

/-- A good limb with enough points: `define_regions` returns regions over which both quadratures tend to the magnification. -/
theorem good_limb_regions (roots) (hroots : ∀ c, c.headD 0 ≠ 0 → IsRootList c (roots none c)) (nlenses : ℕ)
    (hn : nlenses = 2 ∨ nlenses = 3) (u : UserParams) (hq : 0 < u.q) (hq3 : nlenses = 3 → 0 < u.q3) (w : ℂ)
    (rho : ℝ) (hrho : 0 < rho) (hoff : LimbOffLenses (userLens nlenses u) w rho) (hL : NoTouch (userLens nlenses u) w rho)
    (d : ℝ) (hd : 0 < d) (h0 : ∀ z ∈ limbImages (userLens nlenses u) w rho, d ≤ ‖z‖) (bins_r bins_th : ℕ)
    (margin_r margin_th : ℝ) (hmr : 0 < margin_r) (hmt : 0 < margin_th) (hmt2 : 2 * margin_th ≤ 360 / bins_th) :
    ∃ N0 : ℕ, ∀ Nlimb ≥ N0, ∀ limb regions, calcSourceLimb roots w rho Nlimb nlenses u = .ok limb →
      defineRegions limb rho bins_r bins_th margin_r margin_th nlenses = .ok regions →
      GoodLimb limb nlenses bins_r bins_th rho margin_r margin_th →
      Tendsto (fun n : ℕ × ℕ => magUniform nlenses u w rho n.1 n.2 regions) (atTop ×ˢ atTop)
        (𝓝 (uniformMag (userLens nlenses u) w rho)) ∧
      ∀ u1 delta_c : ℝ, u1 < 3 → Tendsto (fun n : ℕ × ℕ => magLimbDark nlenses u w rho u1 delta_c n.1 n.2 regions)
        (atTop ×ˢ atTop) (𝓝 (limbMag (userLens nlenses u) w rho u1)) := by
  have hp := Real.pi_pos
  have h1 : 1 + u.q ≠ 0 := by positivity
  have h2 : nlenses = 3 → 1 + u.q + u.q3 ≠ 0 := fun h => by have := hq3 h; positivity
  obtain ⟨N0, hN0⟩ := C127_limb_polar roots hroots nlenses hn u h1 h2 w rho hoff hL d hd h0 (margin_r * rho / 2)
    (margin_th * (Real.pi / 180) / 2) (by positivity) (by positivity)
  refine ⟨N0, fun Nlimb hN limb regions a1 a2 hg => ?_⟩
  refine (C126_sampled_partial nlenses limb rho hrho bins_r bins_th margin_r margin_th regions a2 hg.cover hg.edges
    hg.big hg.free hmt hmt2 u hq hq3 w ?_).2
  intro z hz1 hz2
  obtain ⟨x, hx, hx0, r, θ, e1, e2, e3, e4⟩ := hN0 Nlimb hN limb a1 z ⟨hz1, hz2⟩
  obtain ⟨y, hy, hy0, hin, f1, f2⟩ := hg.ends x hx hx0
  refine ⟨(y, true), hy, rfl, hy0, hin, r, θ, e1, e2, ?_, ?_⟩
  · calc |r - (limbPolar (y, true)).1| ≤ |r - (limbPolar (x, true)).1| + |(limbPolar (x, true)).1 - (limbPolar (y, true)).1| :=
        abs_sub_le _ _ _
      _ < margin_r * rho := by linarith
  · calc |θ - (limbPolar (y, true)).2| ≤ |θ - (limbPolar (x, true)).2| + |(limbPolar (x, true)).2 - (limbPolar (y, true)).2| :=
        abs_sub_le _ _ _
      _ < margin_th * (Real.pi / 180) := by linarith

/-- **C127**, the whole of `mag_uniform`: there is a number of limb points from which on, whenever the sampled limb fits the
tables, the value of `mag_uniform` - limb images, regions and quadrature - tends to the magnification of the source by the
lens the user specified. -/
theorem C127_uniform_pipeline (roots) (hroots : ∀ c, c.headD 0 ≠ 0 → IsRootList c (roots none c)) (nlenses : ℕ)
    (hn : nlenses = 2 ∨ nlenses = 3) (u : UserParams) (hq : 0 < u.q) (hq3 : nlenses = 3 → 0 < u.q3) (w : ℂ)
    (rho : ℝ) (hrho : 0 < rho) (hoff : LimbOffLenses (userLens nlenses u) w rho) (hL : NoTouch (userLens nlenses u) w rho)
    (d : ℝ) (hd : 0 < d) (h0 : ∀ z ∈ limbImages (userLens nlenses u) w rho, d ≤ ‖z‖) (bins_r bins_th : ℕ)
    (margin_r margin_th : ℝ) (hmr : 0 < margin_r) (hmt : 0 < margin_th) (hmt2 : 2 * margin_th ≤ 360 / bins_th) :
    ∃ N0 : ℕ, ∀ Nlimb ≥ N0, (∀ limb, calcSourceLimb roots w rho Nlimb nlenses u = .ok limb →
        GoodLimb limb nlenses bins_r bins_th rho margin_r margin_th) →
      ∃ f : ℕ × ℕ → ℝ, (∀ n : ℕ × ℕ, magUniformFull roots w rho nlenses n.1 n.2 Nlimb bins_r bins_th margin_r margin_th u = .ok (f n)) ∧
        Tendsto f (atTop ×ˢ atTop) (𝓝 (uniformMag (userLens nlenses u) w rho)) := by
  have h1 : 1 + u.q ≠ 0 := by positivity
  have h2 : nlenses = 3 → 1 + u.q + u.q3 ≠ 0 := fun h => by have := hq3 h; positivity
  obtain ⟨N0, hN0⟩ := good_limb_regions roots hroots nlenses hn u hq hq3 w rho hrho hoff hL d hd h0 bins_r bins_th margin_r
    margin_th hmr hmt hmt2
  refine ⟨N0, fun Nlimb hN hgood => ?_⟩
  obtain ⟨limb, regions, a1, a2, -, -⟩ := C41_uniform_limb roots w rho nlenses hn 0 0 Nlimb bins_r bins_th margin_r margin_th u h1 h2
  refine ⟨_, fun n => ?_, (hN0 Nlimb hN limb regions a1 a2 (hgood limb a1)).1⟩
  obtain ⟨limb', regions', b1, b2, b3, -⟩ := C41_uniform_limb roots w rho nlenses hn n.1 n.2 Nlimb bins_r bins_th margin_r
    margin_th u h1 h2
  obtain rfl : limb = limb' := Except.ok.inj (a1.symm.trans b1)
  obtain rfl : regions = regions' := Except.ok.inj (a2.symm.trans b2)
  exact b3

/-- **C127**, the whole of `mag_limb_dark` for two lenses (for three lenses see `C41_limb_dark_violated`). -/
theorem C127_limb_dark_pipeline (roots) (hroots : ∀ c, c.headD 0 ≠ 0 → IsRootList c (roots none c))
    (u : UserParams) (hq : 0 < u.q) (w : ℂ)
    (rho : ℝ) (hrho : 0 < rho) (hoff : LimbOffLenses (userLens 2 u) w rho) (hL : NoTouch (userLens 2 u) w rho)
    (d : ℝ) (hd : 0 < d) (h0 : ∀ z ∈ limbImages (userLens 2 u) w rho, d ≤ ‖z‖) (bins_r bins_th : ℕ)
    (margin_r margin_th : ℝ) (hmr : 0 < margin_r) (hmt : 0 < margin_th) (hmt2 : 2 * margin_th ≤ 360 / bins_th) :
    ∃ N0 : ℕ, ∀ Nlimb ≥ N0, (∀ limb, calcSourceLimb roots w rho Nlimb 2 u = .ok limb →
        GoodLimb limb 2 bins_r bins_th rho margin_r margin_th) → ∀ u1 delta_c : ℝ, u1 < 3 →
      ∃ f : ℕ × ℕ → ℝ, (∀ n : ℕ × ℕ, magLimbDarkFull roots w rho 2 u1 n.1 n.2 Nlimb bins_r bins_th margin_r margin_th delta_c u
          = .ok (f n)) ∧
        Tendsto f (atTop ×ˢ atTop) (𝓝 (limbMag (userLens 2 u) w rho u1)) := by
  have h1 : 1 + u.q ≠ 0 := by positivity
  obtain ⟨N0, hN0⟩ := good_limb_regions roots hroots 2 (Or.inl rfl) u hq (by norm_num) w rho hrho hoff hL d hd h0 bins_r bins_th
    margin_r margin_th hmr hmt hmt2
  refine ⟨N0, fun Nlimb hN hgood u1 delta_c hu1 => ?_⟩
  obtain ⟨limb, regions, a1, a2, -, -⟩ := C41_limb_dark_partial roots w rho u1 delta_c 0 0 Nlimb bins_r bins_th margin_r margin_th u h1
  refine ⟨_, fun n => ?_, (hN0 Nlimb hN limb regions a1 a2 (hgood limb a1)).2 u1 delta_c hu1⟩
  obtain ⟨limb', regions', b1, b2, b3, -⟩ := C41_limb_dark_partial roots w rho u1 delta_c n.1 n.2 Nlimb bins_r bins_th margin_r
    margin_th u h1
  obtain rfl : limb = limb' := Except.ok.inj (a1.symm.trans b1)
  obtain rfl : regions = regions' := Except.ok.inj (a2.symm.trans b2)
  exact b3

end Microjax.Props
