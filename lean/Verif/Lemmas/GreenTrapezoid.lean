import Verif.Lemmas.GreenWeight
import Verif.Lemmas.PolygonContour

/-!
# The trapezoidal rule for the Green primitives along a sampled curve
-/

noncomputable section

namespace Microjax.Props

open Complex ComplexConjugate MeasureTheory Set Filter Microjax.Spec
open scoped Topology

/-- One edge, one coordinate. -/
theorem edge_trapezoid (f : ℝ → ℝ) (x x' : ℝ → ℝ) (Λ ν A κ s t : ℝ) (hst : s ≤ t) (hx : ∀ u ∈ Icc s t, HasDerivAt x (x' u) u)
    (hx' : ContinuousOn x' (Icc s t)) (hf : ContinuousOn f (Icc s t)) (hΛ : ∀ u ∈ Icc s t, |x' u| ≤ Λ) (fa fb a b : ℝ)
    (ha : |a - x s| ≤ ν) (hb : |b - x t| ≤ ν) (hfa : |fa| ≤ A) (hfb : |fb| ≤ A) (hka : ∀ u ∈ Icc s t, |fa - f u| ≤ κ)
    (hkb : ∀ u ∈ Icc s t, |fb - f u| ≤ κ) :
    |(fa + fb) / 2 * (b - a) - ∫ u in s..t, f u * x' u| ≤ 2 * A * ν + κ * Λ * (t - s) := by
  have hu : uIcc s t = Icc s t := uIcc_of_le hst
  have hs : s ∈ Icc s t := ⟨le_rfl, hst⟩
  have hΛ0 : 0 ≤ Λ := (abs_nonneg _).trans (hΛ s hs)
  have hκ0 : 0 ≤ κ := (abs_nonneg _).trans (hka s hs)
  have hA0 : 0 ≤ A := (abs_nonneg _).trans hfa
  have hint : IntervalIntegrable x' volume s t := (hu ▸ hx').intervalIntegrable
  have h1 : x t - x s = ∫ u in s..t, x' u :=
    (intervalIntegral.integral_eq_sub_of_hasDerivAt (fun u hu' => hx u (hu ▸ hu')) hint).symm
  have h2 : (fa + fb) / 2 * (x t - x s) - ∫ u in s..t, f u * x' u = ∫ u in s..t, ((fa + fb) / 2 - f u) * x' u := by
    have hi2 : IntervalIntegrable (fun u => f u * x' u) volume s t := (hu ▸ (hf.mul hx') : ContinuousOn _ (uIcc s t)).intervalIntegrable
    rw [h1, ← intervalIntegral.integral_const_mul, ← intervalIntegral.integral_sub (hint.const_mul _) hi2]
    refine intervalIntegral.integral_congr fun u _ => ?_
    ring
  have h3 : ‖∫ u in s..t, ((fa + fb) / 2 - f u) * x' u‖ ≤ (κ * Λ) * |t - s| := by
    refine intervalIntegral.norm_integral_le_of_norm_le_const fun u hu' => ?_
    rw [uIoc_of_le hst] at hu'
    have hu1 : u ∈ Icc s t := ⟨hu'.1.le, hu'.2⟩
    rw [norm_mul]
    refine mul_le_mul ?_ (hΛ u hu1) (norm_nonneg _) hκ0
    rw [Real.norm_eq_abs, show (fa + fb) / 2 - f u = (fa - f u) / 2 + (fb - f u) / 2 by ring]
    refine (abs_add_le _ _).trans ?_
    rw [abs_div, abs_div, abs_of_pos (by norm_num : (0 : ℝ) < 2)]
    linarith [hka u hu1, hkb u hu1]
  rw [Real.norm_eq_abs, abs_of_nonneg (sub_nonneg.mpr hst), ← h2] at h3
  have h4 : |(fa + fb) / 2 * (b - a) - (fa + fb) / 2 * (x t - x s)| ≤ 2 * A * ν := by
    rw [← mul_sub, abs_mul]
    have k1 : |(fa + fb) / 2| ≤ A := by
      rw [abs_div, abs_of_pos (by norm_num : (0 : ℝ) < 2)]
      have := abs_add_le fa fb
      linarith
    have k2 : |b - a - (x t - x s)| ≤ 2 * ν := by
      rw [show b - a - (x t - x s) = (b - x t) - (a - x s) by ring]
      have := abs_sub (b - x t) (a - x s)
      linarith
    have := mul_le_mul k1 k2 (abs_nonneg _) hA0
    linarith
  have := abs_sub_le ((fa + fb) / 2 * (b - a)) ((fa + fb) / 2 * (x t - x s)) (∫ u in s..t, f u * x' u)
  linarith

/-- The trapezoidal rule for a form over displaced samples of a curve. -/
theorem trapezoid_contour (z z' : ℝ → ℂ) (P Q : ℂ → ℝ) (hP : Continuous P) (hQ : Continuous Q) (Λ ν h A κ a b : ℝ) (n : ℕ)
    (θ : ℕ → ℝ) (c : ℕ → ℂ) (h0 : θ 0 = a) (h1 : θ n = b) (hθ : ∀ i < n, θ i ≤ θ (i + 1) ∧ θ (i + 1) - θ i ≤ h)
    (hz : ∀ u ∈ Icc a b, HasDerivAt z (z' u) u) (hc : ContinuousOn z' (Icc a b)) (hΛ : ∀ u ∈ Icc a b, ‖z' u‖ ≤ Λ)
    (hcz : ∀ i ≤ n, ‖c i - z (θ i)‖ ≤ ν) (hA : ∀ i ≤ n, |P (c i)| ≤ A ∧ |Q (c i)| ≤ A)
    (hκ : ∀ i ≤ n, ∀ u ∈ Icc a b, ‖c i - z u‖ ≤ Λ * h + ν → |P (c i) - P (z u)| ≤ κ ∧ |Q (c i) - Q (z u)| ≤ κ) :
    |(∑ i ∈ Finset.range n, ((P (c i) + P (c (i + 1))) / 2 * ((c (i + 1)).re - (c i).re)
        + (Q (c i) + Q (c (i + 1))) / 2 * ((c (i + 1)).im - (c i).im)))
      - ∫ u in a..b, (P (z u) * (z' u).re + Q (z u) * (z' u).im)| ≤ 4 * n * A * ν + 2 * κ * Λ * (b - a) := by
  have hmono : ∀ i ≤ n, ∀ j ≤ i, θ j ≤ θ i := by
    intro i hi
    induction i with
    | zero => intro j hj; rw [Nat.le_zero.mp hj]
    | succ i ih =>
      intro j hj
      rcases Nat.lt_or_ge j (i + 1) with h | h
      · exact (ih (by omega) j (by omega)).trans (hθ i (by omega)).1
      · rw [le_antisymm hj h]
  have hin : ∀ i ≤ n, θ i ∈ Icc a b := fun i hi => ⟨h0 ▸ hmono i hi 0 (Nat.zero_le _), h1 ▸ hmono n le_rfl i hi⟩
  have hzc : ContinuousOn z (Icc a b) := fun u hu => (hz u hu).continuousAt.continuousWithinAt
  have hint : ContinuousOn (fun u => P (z u) * (z' u).re + Q (z u) * (z' u).im) (Icc a b) :=
    ((hP.comp_continuousOn hzc).mul (continuous_re.comp_continuousOn hc)).add
      ((hQ.comp_continuousOn hzc).mul (continuous_im.comp_continuousOn hc))
  have hsubI : ∀ i < n, Icc (θ i) (θ (i + 1)) ⊆ Icc a b := fun i hi => Icc_subset_Icc (hin i hi.le).1 (hin (i + 1) hi).2
  have hsplit : ∫ u in a..b, (P (z u) * (z' u).re + Q (z u) * (z' u).im)
      = ∑ i ∈ Finset.range n, ∫ u in (θ i)..(θ (i + 1)), (P (z u) * (z' u).re + Q (z u) * (z' u).im) := by
    rw [intervalIntegral.sum_integral_adjacent_intervals, h0, h1]
    intro i hi
    exact (hint.mono (by rw [uIcc_of_le (hθ i hi).1]; exact hsubI i hi)).intervalIntegrable
  have hterm : ∀ i ∈ Finset.range n, |((P (c i) + P (c (i + 1))) / 2 * ((c (i + 1)).re - (c i).re)
        + (Q (c i) + Q (c (i + 1))) / 2 * ((c (i + 1)).im - (c i).im))
      - ∫ u in (θ i)..(θ (i + 1)), (P (z u) * (z' u).re + Q (z u) * (z' u).im)|
      ≤ 4 * A * ν + 2 * κ * Λ * (θ (i + 1) - θ i) := by
    intro i hi
    have hi' := Finset.mem_range.mp hi
    have hsub := hsubI i hi'
    obtain ⟨g1, g2⟩ := hθ i hi'
    have hΛ0 : 0 ≤ Λ := (norm_nonneg _).trans (hΛ _ (hin i hi'.le))
    have near : ∀ j, (j = i ∨ j = i + 1) → ∀ u ∈ Icc (θ i) (θ (i + 1)), ‖c j - z u‖ ≤ Λ * h + ν := by
      intro j hj u hu
      have hjn : j ≤ n := by omega
      have hjI : θ j ∈ Icc (θ i) (θ (i + 1)) := by
        rcases hj with rfl | rfl
        · exact ⟨le_rfl, g1⟩
        · exact ⟨g1, le_rfl⟩
      have hm : ‖z (θ j) - z u‖ ≤ Λ * ‖θ j - u‖ :=
        (convex_Icc (θ i) (θ (i + 1))).norm_image_sub_le_of_norm_hasDerivWithin_le (f := z) (f' := z') (C := Λ)
          (fun x hx => (hz x (hsub hx)).hasDerivWithinAt) (fun x hx => hΛ x (hsub hx)) hu hjI
      have hd : ‖θ j - u‖ ≤ h := by
        rw [Real.norm_eq_abs, abs_le]
        constructor <;> linarith [hjI.1, hjI.2, hu.1, hu.2]
      have h2 := norm_add_le (c j - z (θ j)) (z (θ j) - z u)
      rw [sub_add_sub_cancel] at h2
      have h3 := mul_le_mul_of_nonneg_left hd hΛ0
      linarith [hcz j hjn]
    have hre : ∀ u ∈ Icc (θ i) (θ (i + 1)), HasDerivAt (fun u => (z u).re) (z' u).re u := fun u hu => by
      have := reCLM.hasFDerivAt.comp_hasDerivAt u (hz u (hsub hu))
      exact this
    have him : ∀ u ∈ Icc (θ i) (θ (i + 1)), HasDerivAt (fun u => (z u).im) (z' u).im u := fun u hu => by
      have := imCLM.hasFDerivAt.comp_hasDerivAt u (hz u (hsub hu))
      exact this
    have b1 := edge_trapezoid (fun u => P (z u)) (fun u => (z u).re) (fun u => (z' u).re) Λ ν A κ (θ i) (θ (i + 1)) g1 hre
      ((continuous_re.comp_continuousOn hc).mono hsub) ((hP.comp_continuousOn hzc).mono hsub)
      (fun u hu => (abs_re_le_norm _).trans (hΛ u (hsub hu))) (P (c i)) (P (c (i + 1))) (c i).re (c (i + 1)).re
      (by rw [← sub_re]; exact (abs_re_le_norm _).trans (hcz i hi'.le))
      (by rw [← sub_re]; exact (abs_re_le_norm _).trans (hcz (i + 1) hi')) (hA i hi'.le).1 (hA (i + 1) hi').1
      (fun u hu => (hκ i hi'.le u (hsub hu) (near i (Or.inl rfl) u hu)).1)
      (fun u hu => (hκ (i + 1) hi' u (hsub hu) (near (i + 1) (Or.inr rfl) u hu)).1)
    have b2 := edge_trapezoid (fun u => Q (z u)) (fun u => (z u).im) (fun u => (z' u).im) Λ ν A κ (θ i) (θ (i + 1)) g1 him
      ((continuous_im.comp_continuousOn hc).mono hsub) ((hQ.comp_continuousOn hzc).mono hsub)
      (fun u hu => (abs_im_le_norm _).trans (hΛ u (hsub hu))) (Q (c i)) (Q (c (i + 1))) (c i).im (c (i + 1)).im
      (by rw [← sub_im]; exact (abs_im_le_norm _).trans (hcz i hi'.le))
      (by rw [← sub_im]; exact (abs_im_le_norm _).trans (hcz (i + 1) hi')) (hA i hi'.le).2 (hA (i + 1) hi').2
      (fun u hu => (hκ i hi'.le u (hsub hu) (near i (Or.inl rfl) u hu)).2)
      (fun u hu => (hκ (i + 1) hi' u (hsub hu) (near (i + 1) (Or.inr rfl) u hu)).2)
    have i1 : IntervalIntegrable (fun u => P (z u) * (z' u).re) volume (θ i) (θ (i + 1)) :=
      ((((hP.comp_continuousOn hzc).mul (continuous_re.comp_continuousOn hc))).mono
        (by rw [uIcc_of_le g1]; exact hsub)).intervalIntegrable
    have i2 : IntervalIntegrable (fun u => Q (z u) * (z' u).im) volume (θ i) (θ (i + 1)) :=
      ((((hQ.comp_continuousOn hzc).mul (continuous_im.comp_continuousOn hc))).mono
        (by rw [uIcc_of_le g1]; exact hsub)).intervalIntegrable
    rw [intervalIntegral.integral_add i1 i2, add_sub_add_comm]
    refine (abs_add_le _ _).trans ?_
    linarith
  rw [hsplit, ← Finset.sum_sub_distrib]
  refine (Finset.abs_sum_le_sum_abs _ _).trans ((Finset.sum_le_sum hterm).trans (le_of_eq ?_))
  rw [Finset.sum_add_distrib, Finset.sum_const, Finset.card_range, nsmul_eq_mul, ← Finset.mul_sum, Finset.sum_range_sub θ n,
    h0, h1]
  ring

/-- Size and oscillation of the primitive `P` in a disc that contains the base point. -/
theorem greenP_bounds (B : ℂ → ℝ) (hB : Continuous B) (o : ℝ × ℝ) (Y M η ω : ℝ) (ho : |o.2| ≤ Y)
    (hM : ∀ z, |B z| ≤ M) (hω : ∀ z z', ‖z‖ ≤ 2 * Y → ‖z'‖ ≤ 2 * Y → ‖z - z'‖ ≤ η → |B z - B z'| ≤ ω) :
    (∀ z, ‖z‖ ≤ Y → |greenP B o z| ≤ M * Y) ∧
    ∀ z z', ‖z‖ ≤ Y → ‖z'‖ ≤ Y → ‖z - z'‖ ≤ η → |greenP B o z - greenP B o z'| ≤ (1 / 2) * (M * η + 2 * Y * ω) := by
  have hM0 : 0 ≤ M := (abs_nonneg _).trans (hM 0)
  have hY0 : 0 ≤ Y := (abs_nonneg _).trans ho
  have hlen : ∀ z : ℂ, ‖z‖ ≤ Y → |z.im - o.2| ≤ 2 * Y := fun z hz => by
    have := abs_sub z.im o.2
    have := (abs_im_le_norm z).trans hz
    linarith
  constructor
  · intro z hz
    unfold greenP
    rw [abs_mul, abs_neg, abs_of_pos (by norm_num : (0 : ℝ) < 1 / 2)]
    have h1 : ‖∫ y in o.2..z.im, B (z.re + I * y)‖ ≤ M * |z.im - o.2| :=
      intervalIntegral.norm_integral_le_of_norm_le_const fun y _ => by rw [Real.norm_eq_abs]; exact hM _
    rw [Real.norm_eq_abs] at h1
    have := mul_le_mul_of_nonneg_left (hlen z hz) hM0
    linarith
  · intro z z' hz hz' hzz
    have hω0 : 0 ≤ ω := by
      refine (abs_nonneg _).trans (hω z z' (by linarith) (by linarith) hzz)
    have hc : ∀ (w : ℂ) (a b : ℝ), IntervalIntegrable (fun y : ℝ => B ((w.re : ℂ) + I * y)) volume a b := fun w a b =>
      Continuous.intervalIntegrable (by fun_prop) _ _
    have e : greenP B o z - greenP B o z' = -(1 / 2) * ((∫ y in o.2..z'.im, (B (z.re + I * y) - B (z'.re + I * y)))
        + ∫ y in z'.im..z.im, B (z.re + I * y)) := by
      unfold greenP
      rw [intervalIntegral.integral_sub (hc z _ _) (hc z' _ _),
        ← intervalIntegral.integral_add_adjacent_intervals (hc z o.2 z'.im) (hc z z'.im z.im)]
      ring
    have h1 : ‖∫ y in o.2..z'.im, (B (z.re + I * y) - B (z'.re + I * y))‖ ≤ ω * |z'.im - o.2| := by
      refine intervalIntegral.norm_integral_le_of_norm_le_const fun y hy => ?_
      have hzi := (abs_im_le_norm z').trans hz'
      have hy' : |y| ≤ Y := by
        have := uIoc_subset_uIcc hy
        rw [abs_le] at ho hzi ⊢
        rcases le_total o.2 z'.im with h | h
        · rw [uIcc_of_le h] at this; exact ⟨by linarith [this.1], by linarith [this.2]⟩
        · rw [uIcc_of_ge h] at this; exact ⟨by linarith [this.1], by linarith [this.2]⟩
      have hn : ∀ w : ℂ, ‖w‖ ≤ Y → ‖(w.re : ℂ) + I * y‖ ≤ 2 * Y := fun w hw => by
        refine (norm_add_le _ _).trans ?_
        rw [norm_mul, norm_I, one_mul, norm_real, norm_real, Real.norm_eq_abs, Real.norm_eq_abs]
        have := (abs_re_le_norm w).trans hw
        linarith
      rw [Real.norm_eq_abs]
      refine hω _ _ (hn z hz) (hn z' hz') ?_
      rw [add_sub_add_right_eq_sub, ← ofReal_sub, norm_real, Real.norm_eq_abs, ← sub_re]
      exact (abs_re_le_norm _).trans hzz
    have h2 : ‖∫ y in z'.im..z.im, B (z.re + I * y)‖ ≤ M * |z.im - z'.im| :=
      intervalIntegral.norm_integral_le_of_norm_le_const fun y _ => by rw [Real.norm_eq_abs]; exact hM _
    rw [Real.norm_eq_abs] at h1 h2
    rw [e, abs_mul, abs_neg, abs_of_pos (by norm_num : (0 : ℝ) < 1 / 2)]
    have h3 := abs_add_le (∫ y in o.2..z'.im, (B (z.re + I * y) - B (z'.re + I * y))) (∫ y in z'.im..z.im, B (z.re + I * y))
    have h4 : |z.im - z'.im| ≤ η := by rw [← sub_im]; exact (abs_im_le_norm _).trans hzz
    have h5 := mul_le_mul_of_nonneg_left h4 hM0
    have h6 := mul_le_mul_of_nonneg_left (hlen z' hz') hω0
    linarith

theorem greenQ_bounds (B : ℂ → ℝ) (hB : Continuous B) (o : ℝ × ℝ) (Y M η ω : ℝ) (ho : |o.1| ≤ Y)
    (hM : ∀ z, |B z| ≤ M) (hω : ∀ z z', ‖z‖ ≤ 2 * Y → ‖z'‖ ≤ 2 * Y → ‖z - z'‖ ≤ η → |B z - B z'| ≤ ω) :
    (∀ z, ‖z‖ ≤ Y → |greenQ B o z| ≤ M * Y) ∧
    ∀ z z', ‖z‖ ≤ Y → ‖z'‖ ≤ Y → ‖z - z'‖ ≤ η → |greenQ B o z - greenQ B o z'| ≤ (1 / 2) * (M * η + 2 * Y * ω) := by
  have hM0 : 0 ≤ M := (abs_nonneg _).trans (hM 0)
  have hY0 : 0 ≤ Y := (abs_nonneg _).trans ho
  have hlen : ∀ z : ℂ, ‖z‖ ≤ Y → |z.re - o.1| ≤ 2 * Y := fun z hz => by
    have := abs_sub z.re o.1
    have := (abs_re_le_norm z).trans hz
    linarith
  constructor
  · intro z hz
    unfold greenQ
    rw [abs_mul, abs_of_pos (by norm_num : (0 : ℝ) < 1 / 2)]
    have h1 : ‖∫ x in o.1..z.re, B (x + I * z.im)‖ ≤ M * |z.re - o.1| :=
      intervalIntegral.norm_integral_le_of_norm_le_const fun y _ => by rw [Real.norm_eq_abs]; exact hM _
    rw [Real.norm_eq_abs] at h1
    have := mul_le_mul_of_nonneg_left (hlen z hz) hM0
    linarith
  · intro z z' hz hz' hzz
    have hω0 : 0 ≤ ω := by
      refine (abs_nonneg _).trans (hω z z' (by linarith) (by linarith) hzz)
    have hc : ∀ (w : ℂ) (a b : ℝ), IntervalIntegrable (fun x : ℝ => B ((x : ℂ) + I * w.im)) volume a b := fun w a b =>
      Continuous.intervalIntegrable (by fun_prop) _ _
    have e : greenQ B o z - greenQ B o z' = (1 / 2) * ((∫ x in o.1..z'.re, (B (x + I * z.im) - B (x + I * z'.im)))
        + ∫ x in z'.re..z.re, B (x + I * z.im)) := by
      unfold greenQ
      rw [intervalIntegral.integral_sub (hc z _ _) (hc z' _ _),
        ← intervalIntegral.integral_add_adjacent_intervals (hc z o.1 z'.re) (hc z z'.re z.re)]
      ring
    have h1 : ‖∫ x in o.1..z'.re, (B (x + I * z.im) - B (x + I * z'.im))‖ ≤ ω * |z'.re - o.1| := by
      refine intervalIntegral.norm_integral_le_of_norm_le_const fun x hx => ?_
      have hzi := (abs_re_le_norm z').trans hz'
      have hx' : |x| ≤ Y := by
        have := uIoc_subset_uIcc hx
        rw [abs_le] at ho hzi ⊢
        rcases le_total o.1 z'.re with h | h
        · rw [uIcc_of_le h] at this; exact ⟨by linarith [this.1], by linarith [this.2]⟩
        · rw [uIcc_of_ge h] at this; exact ⟨by linarith [this.1], by linarith [this.2]⟩
      have hn : ∀ w : ℂ, ‖w‖ ≤ Y → ‖(x : ℂ) + I * w.im‖ ≤ 2 * Y := fun w hw => by
        refine (norm_add_le _ _).trans ?_
        rw [norm_mul, norm_I, one_mul, norm_real, norm_real, Real.norm_eq_abs, Real.norm_eq_abs]
        have := (abs_im_le_norm w).trans hw
        linarith
      rw [Real.norm_eq_abs]
      refine hω _ _ (hn z hz) (hn z' hz') ?_
      rw [add_sub_add_left_eq_sub, ← mul_sub, norm_mul, norm_I, one_mul, ← ofReal_sub, norm_real, Real.norm_eq_abs, ← sub_im]
      exact (abs_im_le_norm _).trans hzz
    have h2 : ‖∫ x in z'.re..z.re, B (x + I * z.im)‖ ≤ M * |z.re - z'.re| :=
      intervalIntegral.norm_integral_le_of_norm_le_const fun y _ => by rw [Real.norm_eq_abs]; exact hM _
    rw [Real.norm_eq_abs] at h1 h2
    rw [e, abs_mul, abs_of_pos (by norm_num : (0 : ℝ) < 1 / 2)]
    have h3 := abs_add_le (∫ x in o.1..z'.re, (B (x + I * z.im) - B (x + I * z'.im))) (∫ x in z'.re..z.re, B (x + I * z.im))
    have h4 : |z.re - z'.re| ≤ η := by rw [← sub_re]; exact (abs_re_le_norm _).trans hzz
    have h5 := mul_le_mul_of_nonneg_left h4 hM0
    have h6 := mul_le_mul_of_nonneg_left (hlen z' hz') hω0
    linarith

theorem greenP_shift (B : ℂ → ℝ) (o : ℝ × ℝ) (p z : ℂ) :
    greenP (fun z => B (z + p)) (o.1 - p.re, o.2 - p.im) (z - p) = greenP B o z := by
  unfold greenP
  have h := intervalIntegral.integral_comp_add_right (a := o.2 - p.im) (b := (z - p).im) (fun y : ℝ => B (z.re + I * y)) p.im
  rw [sub_add_cancel, sub_im, sub_add_cancel] at h
  rw [← h, sub_im]
  congr 2
  funext y
  show B _ = B _
  congr 1
  apply Complex.ext <;> simp

theorem greenQ_shift (B : ℂ → ℝ) (o : ℝ × ℝ) (p z : ℂ) :
    greenQ (fun z => B (z + p)) (o.1 - p.re, o.2 - p.im) (z - p) = greenQ B o z := by
  unfold greenQ
  have h := intervalIntegral.integral_comp_add_right (a := o.1 - p.re) (b := (z - p).re) (fun x : ℝ => B (x + I * z.im)) p.re
  rw [sub_add_cancel, sub_re, sub_add_cancel] at h
  rw [← h, sub_re]
  congr 2
  funext y
  show B _ = B _
  congr 1
  apply Complex.ext <;> simp

/-- The same in a disc about any point. -/
theorem green_bounds_at (B : ℂ → ℝ) (hB : Continuous B) (o : ℝ × ℝ) (p : ℂ) (Y M η ω : ℝ) (ho1 : |o.1 - p.re| ≤ Y)
    (ho2 : |o.2 - p.im| ≤ Y) (hM : ∀ z, |B z| ≤ M)
    (hω : ∀ z z', ‖z - p‖ ≤ 2 * Y → ‖z' - p‖ ≤ 2 * Y → ‖z - z'‖ ≤ η → |B z - B z'| ≤ ω) :
    (∀ z, ‖z - p‖ ≤ Y → |greenP B o z| ≤ M * Y ∧ |greenQ B o z| ≤ M * Y) ∧
    ∀ z z', ‖z - p‖ ≤ Y → ‖z' - p‖ ≤ Y → ‖z - z'‖ ≤ η →
      |greenP B o z - greenP B o z'| ≤ (1 / 2) * (M * η + 2 * Y * ω) ∧
      |greenQ B o z - greenQ B o z'| ≤ (1 / 2) * (M * η + 2 * Y * ω) := by
  have hB' : Continuous fun z => B (z + p) := by fun_prop
  have hω' : ∀ z z', ‖z‖ ≤ 2 * Y → ‖z'‖ ≤ 2 * Y → ‖z - z'‖ ≤ η → |B (z + p) - B (z' + p)| ≤ ω := fun z z' h1 h2 h3 =>
    hω _ _ (by simpa using h1) (by simpa using h2) (by simpa using h3)
  obtain ⟨a1, a2⟩ := greenP_bounds (fun z => B (z + p)) hB' (o.1 - p.re, o.2 - p.im) Y M η ω ho2 (fun z => hM _) hω'
  obtain ⟨b1, b2⟩ := greenQ_bounds (fun z => B (z + p)) hB' (o.1 - p.re, o.2 - p.im) Y M η ω ho1 (fun z => hM _) hω'
  refine ⟨fun z hz => ?_, fun z z' hz hz' hd => ?_⟩
  · rw [← greenP_shift B o p z, ← greenQ_shift B o p z]
    exact ⟨a1 _ hz, b1 _ hz⟩
  · rw [← greenP_shift B o p z, ← greenQ_shift B o p z, ← greenP_shift B o p z', ← greenQ_shift B o p z']
    have : ‖(z - p) - (z' - p)‖ ≤ η := by rwa [sub_sub_sub_cancel_right]
    exact ⟨a2 _ _ hz hz' this, b2 _ _ hz hz' this⟩

end Microjax.Props
