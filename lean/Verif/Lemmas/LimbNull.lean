import Verif.Spec.Lensing
import Mathlib.Algebra.Polynomial.Roots
import Mathlib.Analysis.Complex.Basic
import Mathlib.Topology.Instances.Real.Lemmas
import Mathlib.Analysis.Normed.Field.Lemmas

/-! # The image of the source limb meets every ray in finitely many points -/

noncomputable section

namespace Microjax.Props

open Complex ComplexConjugate Spec Polynomial Filter Topology

/-- Position on the ray of direction `e` shifted by `-c`. -/
def rayPt (e c : ℂ) (r : ℝ) : ℂ := r * e - c

/-- `Π (p - lᵢ)` for positions mapped by `f`. -/
def polyD (f : ℂ → ℂ) (p : ℂ[X]) : Lenses → ℂ[X]
  | [] => 1
  | l :: L => polyD f p L * (p - C (f l.2))

/-- Numerator of `Σ mᵢ / (p - lᵢ)` over the common denominator. -/
def polyN (f : ℂ → ℂ) (p : ℂ[X]) : Lenses → ℂ[X]
  | [] => 0
  | l :: L => polyN f p L * (p - C (f l.2)) + C (l.1 : ℂ) * polyD f p L

theorem polyD_ne (f : ℂ → ℂ) (p : ℂ[X]) (L : Lenses) (x : ℂ) (h : ∀ l ∈ L, p.eval x ≠ f l.2) :
    (polyD f p L).eval x ≠ 0 := by
  induction L with
  | nil => simp [polyD]
  | cons l L ih =>
    simp only [polyD, eval_mul, eval_sub, eval_C]
    exact mul_ne_zero (ih fun l hl => h l (by simp [hl])) (sub_ne_zero.mpr (h l (by simp)))

theorem polyN_div (f : ℂ → ℂ) (p : ℂ[X]) (L : Lenses) (x : ℂ) (h : ∀ l ∈ L, p.eval x ≠ f l.2) :
    (L.map fun l => (l.1 : ℂ) / (p.eval x - f l.2)).sum = (polyN f p L).eval x / (polyD f p L).eval x := by
  induction L with
  | nil => simp [polyN]
  | cons l L ih =>
    have h1 := polyD_ne f p L x fun l hl => h l (by simp [hl])
    have h2 : p.eval x - f l.2 ≠ 0 := sub_ne_zero.mpr (h l (by simp))
    simp only [List.map_cons, List.sum_cons, ih fun l hl => h l (by simp [hl]), polyN, polyD, eval_mul, eval_sub,
      eval_C, eval_add]
    field_simp
    ring

theorem deflection_tendsto (L : Lenses) (e c : ℂ) (he : ‖e‖ = 1) :
    Tendsto (fun r : ℝ => (L.map fun l => (l.1 : ℂ) / (conj (rayPt e c r) - conj l.2)).sum) atTop (𝓝 0) := by
  induction L with
  | nil => simp
  | cons l L ih =>
    simp only [List.map_cons, List.sum_cons]
    have hn : Tendsto (fun r : ℝ => ‖conj (rayPt e c r) - conj l.2‖) atTop atTop := by
      refine tendsto_atTop_mono (f := fun r : ℝ => r + -(‖c‖ + ‖l.2‖)) ?_
        (tendsto_atTop_add_const_right _ _ tendsto_id)
      intro r
      rw [← map_sub, RCLike.norm_conj, rayPt]
      have h1 : ‖(r : ℂ) * e‖ = |r| := by rw [norm_mul, he, mul_one, Complex.norm_real, Real.norm_eq_abs]
      have h2 : ‖(r : ℂ) * e‖ ≤ ‖(r : ℂ) * e - c - l.2‖ + (‖c‖ + ‖l.2‖) := by
        calc ‖(r : ℂ) * e‖ = ‖((r : ℂ) * e - c - l.2) + (c + l.2)‖ := by congr 1; ring
          _ ≤ _ := (norm_add_le _ _).trans (by gcongr; exact norm_add_le _ _)
      rw [h1] at h2
      linarith [le_abs_self r]
    have h0 : Tendsto (fun r : ℝ => (l.1 : ℂ) / (conj (rayPt e c r) - conj l.2)) atTop (𝓝 0) := by
      rw [tendsto_zero_iff_norm_tendsto_zero]
      simp only [norm_div]
      exact Tendsto.div_atTop tendsto_const_nhds hn
    simpa using h0.add ih

theorem lenses_bdd (L : Lenses) : ∃ B : ℝ, ∀ l ∈ L, ‖l.2‖ ≤ B := by
  induction L with
  | nil => exact ⟨0, by simp⟩
  | cons l L ih =>
    obtain ⟨B, hB⟩ := ih
    refine ⟨max ‖l.2‖ B, ?_⟩
    intro l' hl'
    rcases List.mem_cons.mp hl' with rfl | h
    · exact le_max_left _ _
    · exact (hB l' h).trans (le_max_right _ _)

theorem lens_far (L : Lenses) (w : ℂ) (rho : ℝ) (e c : ℂ) (he : ‖e‖ = 1) :
    ∀ᶠ r : ℝ in atTop, (∀ l ∈ L, rayPt e c r ≠ l.2) ∧ rho < ‖lensMap L (rayPt e c r) - w‖ := by
  have h1 := (deflection_tendsto L e c he).norm
  rw [norm_zero] at h1
  have h2 := h1.eventually (gt_mem_nhds one_pos)
  have hnorm : ∀ r : ℝ, 0 ≤ r → r ≤ ‖rayPt e c r‖ + ‖c‖ := by
    intro r hr
    have h3 : ‖(r : ℂ) * e‖ = r := by rw [norm_mul, he, mul_one, Complex.norm_real, Real.norm_of_nonneg hr]
    calc r = ‖(r : ℂ) * e - c + c‖ := by rw [sub_add_cancel, h3]
      _ ≤ _ := norm_add_le _ _
  obtain ⟨B, hB⟩ := lenses_bdd L
  filter_upwards [h2, eventually_gt_atTop (|B| + ‖c‖ + ‖w‖ + |rho| + 1), eventually_ge_atTop 0] with r h2 h3 h4
  have h5 := hnorm r h4
  have hc := norm_nonneg c
  have hw := norm_nonneg w
  have hr0 := abs_nonneg rho
  constructor
  · intro l hl heq
    have h6 := hB l hl
    rw [← heq] at h6
    linarith [le_abs_self B]
  · have h7 : ‖rayPt e c r‖ ≤ ‖lensMap L (rayPt e c r) - w‖ + ‖w‖
        + ‖(L.map fun l => (l.1 : ℂ) / (conj (rayPt e c r) - conj l.2)).sum‖ := by
      calc ‖rayPt e c r‖ = ‖(lensMap L (rayPt e c r) - w) + w
            + (L.map fun l => (l.1 : ℂ) / (conj (rayPt e c r) - conj l.2)).sum‖ := by
            congr 1; simp only [lensMap]; ring
        _ ≤ _ := (norm_add_le _ _).trans (by gcongr; exact norm_add_le _ _)
    linarith [le_abs_self rho, abs_nonneg B]

/-- On every ray only finitely many points off the lenses are mapped onto the circle of radius `rho` about `w`. -/
theorem limb_finite (L : Lenses) (w : ℂ) (rho : ℝ) (e c : ℂ) (he : ‖e‖ = 1) :
    {r : ℝ | (∀ l ∈ L, rayPt e c r ≠ l.2) ∧ ‖lensMap L (rayPt e c r) - w‖ = rho}.Finite := by
  set Z : ℂ[X] := C e * X - C c with hZ
  set Zb : ℂ[X] := C (conj e) * X - C (conj c) with hZb
  have eZ : ∀ r : ℝ, Z.eval (r : ℂ) = rayPt e c r := by intro r; simp [hZ, rayPt]; ring
  have eZb : ∀ r : ℝ, Zb.eval (r : ℂ) = conj (rayPt e c r) := by intro r; simp [hZb, rayPt]; ring
  set D := polyD conj Zb L
  set N := polyN conj Zb L
  set D' := polyD id Z L
  set N' := polyN id Z L
  set Q : ℂ[X] := ((Z - C w) * D - N) * ((Zb - C (conj w)) * D' - N') - C ((rho : ℂ) ^ 2) * (D * D') with hQ
  have hsum : ∀ r : ℝ, (∀ l ∈ L, rayPt e c r ≠ l.2) →
      D.eval (r : ℂ) ≠ 0 ∧ D'.eval (r : ℂ) ≠ 0 ∧
      ((‖lensMap L (rayPt e c r) - w‖ ^ 2 : ℝ) : ℂ) * (D.eval (r : ℂ) * D'.eval (r : ℂ)) =
        ((Z - C w) * D - N).eval (r : ℂ) * ((Zb - C (conj w)) * D' - N').eval (r : ℂ) := by
    intro r hr
    have hb : ∀ l ∈ L, Zb.eval (r : ℂ) ≠ conj l.2 := by
      intro l hl h
      rw [eZb] at h
      exact hr l hl ((starRingEnd ℂ).injective h)
    have ha : ∀ l ∈ L, Z.eval (r : ℂ) ≠ id l.2 := by
      intro l hl h; rw [eZ] at h; exact hr l hl h
    have d1 : D.eval (r : ℂ) ≠ 0 := polyD_ne conj Zb L r hb
    have d2 : D'.eval (r : ℂ) ≠ 0 := polyD_ne id Z L r ha
    have s1 : (L.map fun l => (l.1 : ℂ) / (Zb.eval (r : ℂ) - conj l.2)).sum = N.eval (r : ℂ) / D.eval (r : ℂ) :=
      polyN_div conj Zb L r hb
    have s2 : (L.map fun l => (l.1 : ℂ) / (Z.eval (r : ℂ) - l.2)).sum = N'.eval (r : ℂ) / D'.eval (r : ℂ) :=
      polyN_div id Z L r ha
    refine ⟨d1, d2, ?_⟩
    have e1 : lensMap L (rayPt e c r) - w = ((Z - C w) * D - N).eval (r : ℂ) / D.eval (r : ℂ) := by
      rw [eZb] at s1
      simp only [lensMap, s1, eval_sub, eval_mul, eval_C, eZ]
      field_simp
      ring
    have e2 : conj (lensMap L (rayPt e c r) - w) = ((Zb - C (conj w)) * D' - N').eval (r : ℂ) / D'.eval (r : ℂ) := by
      have : conj ((L.map fun l => (l.1 : ℂ) / (conj (rayPt e c r) - conj l.2)).sum)
          = (L.map fun l => (l.1 : ℂ) / (rayPt e c r - l.2)).sum := by
        rw [map_list_sum, List.map_map]
        congr 1
        apply List.map_congr_left
        intro l _
        simp
      rw [eZ] at s2
      simp only [lensMap, map_sub, this, s2, eval_sub, eval_mul, eval_C, eZb]
      field_simp
      ring
    have e3 : ((‖lensMap L (rayPt e c r) - w‖ ^ 2 : ℝ) : ℂ)
        = (lensMap L (rayPt e c r) - w) * conj (lensMap L (rayPt e c r) - w) := by
      rw [Complex.mul_conj, Complex.normSq_eq_norm_sq]
    rw [e3, e2, e1]
    field_simp
  have hQ0 : Q ≠ 0 := by
    intro h0
    obtain ⟨r, hr, hfar⟩ := (lens_far L w |rho| e c he).exists
    obtain ⟨d1, d2, hs⟩ := hsum r hr
    have := congrArg (Polynomial.eval (r : ℂ)) h0
    rw [hQ, eval_sub, eval_mul, ← hs, eval_mul, eval_mul, eval_C, eval_zero, ← sub_mul] at this
    rcases mul_eq_zero.mp this with h | h
    · have h2 : ‖lensMap L (rayPt e c r) - w‖ ^ 2 = rho ^ 2 := by
        have := sub_eq_zero.mp h
        exact_mod_cast this
      rw [← sq_abs rho] at h2
      nlinarith [abs_nonneg rho]
    · exact (mul_ne_zero d1 d2) h
  have hfin : {x : ℂ | Q.IsRoot x}.Finite := Polynomial.finite_setOfPred_isRoot hQ0
  refine (hfin.preimage (f := fun r : ℝ => (r : ℂ)) (Complex.ofReal_injective.injOn)).subset ?_
  rintro r ⟨hr, hlimb⟩
  obtain ⟨d1, d2, hs⟩ := hsum r hr
  change Q.eval (r : ℂ) = 0
  rw [hQ, eval_sub, eval_mul, ← hs, eval_mul, eval_mul, eval_C, hlimb]
  push_cast
  ring

end Microjax.Props
