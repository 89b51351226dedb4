import Verif.Lemmas.VanishingLens
import Verif.Props.FarField
import Verif.Props.Caustics
import Verif.Props.CriticalDense

/-!
# C118: a planet of vanishing mass

As the mass ratio tends to zero, `mag_point_source(w, nlenses=2, s, q)` tends to the magnification of a single lens at
the origin, provided that the source is not so near the position of the caustic of the planet that the mask of
`_images_point_source` accepts one of the two roots that do not solve the lens equation.
-/

noncomputable section

namespace Microjax.Props

open Complex ComplexConjugate Microjax.PointSource Microjax.Spec Filter
open scoped Topology

/-- The roots of the binary polynomial are the complexified solutions. -/
theorem binary_mem_iff (p : MidParams) (w : ℂ) (rs : List ℂ) (ha : p.a ≠ 0) (he : 0 < p.e1) (he' : p.e1 < 1)
    (hr : IsRootList (polyCoeffsBinary w p.a p.e1) rs) (hw : conj w ^ 2 ≠ (p.a : ℂ) ^ 2) (z : ℂ) :
    z ∈ rs ↔ DualSol (mass2 p) (pos2 p) w z := by
  have hhead : (polyCoeffsBinary w p.a p.e1).headD 0 ≠ 0 := by
    rw [(C04_binary_leading w p.a p.e1).2]; exact sub_ne_zero.mpr hw
  constructor
  · intro hz
    exact (binary_local p w ha he he' hw z (IsRootList.eval_zero_of_mem hr hz)).1
  · intro hz
    obtain ⟨h1, h2⟩ := (forall2 p _).mp hz.hz
    have hy := (forall2 p fun c => dualOf (mass2 p) (pos2 p) w z ≠ conj c).mp hz.hy
    simp only [conj_ofReal, map_neg] at hy
    refine IsRootList.mem_of_eval_zero hr hhead ?_
    rw [evalPoly_binary_res p w z h1 h2 hy.1 hy.2, (dualSol_iff _ _ w z hz.hz hz.hy).mp hz, mul_zero]

theorem continuous_coeffsBinary2 (a : ℝ) (k : ℕ) :
    Continuous fun y : ℂ × ℝ => (polyCoeffsBinary y.1 a y.2).getD k 0 := by
  rcases k with _ | _ | _ | _ | _ | _ | k <;> simp only [polyCoeffsBinary, List.getD_cons_zero, List.getD_cons_succ,
    List.getD_nil] <;> fun_prop

/-- The position, relative to the host, of the root that maps to the planet. -/
def strayRoot (s : ℝ) (w : ℂ) : ℂ := -1 / (conj w - s)

/-- The five roots of the binary polynomial in the limit of a massless planet. -/
def planetRoots (s : ℝ) (w : ℂ) : List ℂ :=
  [((1 / 2 * s : ℝ) : ℂ), ((1 / 2 * s : ℝ) : ℂ), strayRoot s w - ((1 / 2 * s : ℝ) : ℂ)] ++
    (images1 w).map fun zm => zm.1 - ((1 / 2 * s : ℝ) : ℂ)

theorem single_sum_prod (w : ℂ) (hw : w ≠ 0) : ∃ y1 y2 : ℂ, images1 w = [(y1, true), (y2, true)] ∧ y1 ≠ y2 ∧
    (∀ z, IsImage single w z ↔ z = y1 ∨ z = y2) ∧ y1 + y2 = w ∧ y1 * y2 * conj w = -w := by
  obtain ⟨y1, y2, h1, h2, h3, -, -⟩ := C01_single_images w hw
  refine ⟨y1, y2, h1, h2, h3, ?_⟩
  simp only [images1, List.cons.injEq, Prod.mk.injEq, and_true] at h1
  obtain ⟨rfl, rfl⟩ := h1
  have hS := sqrt_sq_single w
  have hn := normSq_pos' hw
  set S := Real.sqrt (1 + 4 / (w.re ^ 2 + w.im ^ 2))
  constructor
  · push_cast; ring
  · have hw2 : w * conj w = ((w.re ^ 2 + w.im ^ 2 : ℝ) : ℂ) := by
      rw [Complex.mul_conj, Complex.normSq_apply]; push_cast; ring
    have e : ((1 / 2 : ℝ) * w * ((1 + S : ℝ) : ℂ)) * ((1 / 2 : ℝ) * w * ((1 - S : ℝ) : ℂ)) * conj w
        = w * (w * conj w) * (((1 - S ^ 2) / 4 : ℝ) : ℂ) := by push_cast; ring
    rw [e, hw2, hS, mul_assoc, ← ofReal_mul]
    have : (w.re ^ 2 + w.im ^ 2) * ((1 - (1 + 4 / (w.re ^ 2 + w.im ^ 2))) / 4) = -1 := by field_simp; ring
    rw [this]; simp

theorem planet_roots (s : ℝ) (w : ℂ) (hw : w ≠ 0) (hws : w ≠ s) :
    (polyCoeffsBinary (w - ((1 / 2 * s : ℝ) : ℂ)) (1 / 2 * s) 0).headD 0 ≠ 0 ∧
    IsRootList (polyCoeffsBinary (w - ((1 / 2 * s : ℝ) : ℂ)) (1 / 2 * s) 0) (planetRoots s w) := by
  have hcw : conj w ≠ 0 := (map_ne_zero (starRingEnd ℂ)).mpr hw
  have hcs : conj w - s ≠ 0 := by
    intro h
    apply hws
    have := congrArg conj (sub_eq_zero.mp h)
    simpa using this
  have hhead : (polyCoeffsBinary (w - ((1 / 2 * s : ℝ) : ℂ)) (1 / 2 * s) 0).headD 0 = (conj w - s) * conj w := by
    rw [(C04_binary_leading _ _ _).2]
    simp only [map_sub, conj_ofReal]
    push_cast; ring
  refine ⟨by rw [hhead]; exact mul_ne_zero hcs hcw, fun x => ?_⟩
  obtain ⟨y1, y2, h1, -, -, h2, h3⟩ := single_sum_prod w hw
  rw [hhead, evalPoly_binary, planetRoots, h1]
  simp only [List.map_cons, List.map_nil, List.cons_append, List.nil_append, List.prod_cons, List.prod_nil, mul_one,
    map_sub, conj_ofReal, strayRoot]
  set a : ℂ := ((1 / 2 * s : ℝ) : ℂ) with ha
  have hsa : (s : ℂ) = 2 * a := by rw [ha]; push_cast; ring
  rw [hsa] at hcs ⊢
  have e : (conj w - 2 * a) * (x - (-1 / (conj w - 2 * a) - a)) = (conj w - 2 * a) * (x + a) + 1 := by
    field_simp; ring
  have e2 : conj w * ((x - (y1 - a)) * (x - (y2 - a))) = conj w * (x + a) ^ 2 - w * conj w * (x + a) - w := by
    linear_combination (-(conj w) * (x + a)) * h2 + h3
  calc _ = (x - a) ^ 2 * ((conj w - 2 * a) * (x + a) + 1) * (conj w * (x + a) ^ 2 - w * conj w * (x + a) - w) := by
        push_cast; ring
    _ = _ := by rw [← e, ← e2]; ring

/-- Masses in the limit. -/
def hostMass : Fin 2 → ℝ := ![0, 1]

/-- Positions of planet and host. -/
def hostPos (s : ℝ) : Fin 2 → ℂ := ![((1 / 2 * s : ℝ) : ℂ), -((1 / 2 * s : ℝ) : ℂ)]

theorem hostPos_eq (u : UserParams) (q : ℝ) : pos2 (midParams2 { u with q := q }) = hostPos u.s := rfl

theorem lensMap_host (s : ℝ) (z : ℂ) :
    lensMap (lensList hostMass (hostPos s)) (z - ((1 / 2 * s : ℝ) : ℂ)) = z - 1 / conj z - ((1 / 2 * s : ℝ) : ℂ) := by
  rw [lensMap_lensList]
  simp only [Fin.sum_univ_two, hostMass, hostPos, Matrix.cons_val_zero, Matrix.cons_val_one, map_sub, map_neg,
    conj_ofReal, ofReal_zero, ofReal_one, zero_div, zero_add]
  rw [sub_neg_eq_add, sub_add_cancel]; ring

theorem det_host (s : ℝ) (z : ℂ) :
    detFormula (lensList hostMass (hostPos s)) (z - ((1 / 2 * s : ℝ) : ℂ)) = 1 - 1 / (‖z‖ ^ 2) ^ 2 := by
  rw [detFormula_lensList]
  simp only [Fin.sum_univ_two, hostMass, hostPos, Matrix.cons_val_zero, Matrix.cons_val_one, map_sub, map_neg,
    conj_ofReal, ofReal_zero, ofReal_one, zero_div, zero_add]
  rw [sub_neg_eq_add, sub_add_cancel]
  simp

/-- The planet is not at a complexified image unless the source is at the position of its caustic. -/
theorem planet_nonres (s : ℝ) (hs : s ≠ 0) (w : ℂ) (hw : w ≠ 0) (hwc : w ≠ ((s - 1 / s : ℝ) : ℂ)) :
    dualOf hostMass (hostPos s) (w - ((1 / 2 * s : ℝ) : ℂ)) (hostPos s 0) ≠ conj (hostPos s 0) ∧
    hostPos s 0 ≠ (w - ((1 / 2 * s : ℝ) : ℂ)) + ∑ i, (hostMass i : ℂ) /
      (dualOf hostMass (hostPos s) (w - ((1 / 2 * s : ℝ) : ℂ)) (hostPos s 0) - conj (hostPos s i)) := by
  have hsc : (s : ℂ) ≠ 0 := by exact_mod_cast hs
  have hY : dualOf hostMass (hostPos s) (w - ((1 / 2 * s : ℝ) : ℂ)) (hostPos s 0)
      = conj w - ((1 / 2 * s : ℝ) : ℂ) + 1 / s := by
    simp only [dualOf, Fin.sum_univ_two, hostMass, hostPos, Matrix.cons_val_zero, Matrix.cons_val_one, map_sub,
      conj_ofReal, ofReal_zero, ofReal_one, zero_div, zero_add]
    congr 2
    push_cast; ring
  rw [hY]
  have e0 : hostPos s 0 = ((1 / 2 * s : ℝ) : ℂ) := rfl
  constructor
  · intro h
    rw [e0, conj_ofReal] at h
    apply hwc
    have h2 : conj w = ((s - 1 / s : ℝ) : ℂ) := by
      push_cast at h ⊢; linear_combination h
    have := congrArg conj h2
    simpa using this
  · simp only [Fin.sum_univ_two, hostMass, hostPos, Matrix.cons_val_zero, Matrix.cons_val_one, map_neg,
      conj_ofReal, ofReal_zero, ofReal_one, zero_div, zero_add]
    have e : conj w - ((1 / 2 * s : ℝ) : ℂ) + 1 / s - -((1 / 2 * s : ℝ) : ℂ) = conj w + 1 / s := by ring
    rw [e]
    intro h
    have h' : (s : ℂ) = w + 1 / (conj w + 1 / s) := by push_cast at h ⊢; linear_combination h
    by_cases hd : conj w + 1 / (s : ℂ) = 0
    · rw [hd, div_zero, add_zero] at h'
      rw [← h', conj_ofReal] at hd
      have : (s : ℝ) + 1 / s = 0 := by exact_mod_cast hd
      field_simp at this
      nlinarith [sq_nonneg s]
    · have h2 : (s : ℂ) * conj w - w / s = w * conj w := by
        have h3 : ((s : ℂ) - w) * (conj w + 1 / s) = 1 := by
          have : (s : ℂ) - w = 1 / (conj w + 1 / s) := by linear_combination h'
          rw [this, one_div_mul_cancel hd]
        field_simp at h3 ⊢
        linear_combination h3
      have him : w.im = 0 := by
        have := congrArg Complex.im h2
        rw [Complex.mul_conj] at this
        have e1 : ((s : ℂ) * conj w - w / s).im = -(s + 1 / s) * w.im := by
          rw [Complex.sub_im, Complex.im_ofReal_mul, Complex.div_ofReal_im, Complex.conj_im]
          field_simp; ring
        rw [e1, Complex.ofReal_im] at this
        have hn : -(s + 1 / s) ≠ 0 := by
          have : s + 1 / s = (s ^ 2 + 1) / s := by field_simp
          rw [this]
          exact neg_ne_zero.mpr (div_ne_zero (by positivity) hs)
        exact (mul_eq_zero.mp this).resolve_left hn
      have hwr : w = (w.re : ℂ) := Complex.ext rfl (by simpa using him)
      have hre : w.re ≠ 0 := fun h0 => hw (by rw [hwr, h0]; simp)
      rw [hwr, conj_ofReal] at h2
      have h4 : s * w.re - w.re / s = w.re * w.re := by exact_mod_cast h2
      apply hwc
      rw [hwr]
      congr 1
      have : w.re * (s - 1 / s) = w.re * w.re := by rw [← h4]; ring
      exact (mul_left_cancel₀ hre this).symm

/-- What the stray root misses the source by. -/
def strayMiss (s : ℝ) (w : ℂ) : ℝ := ‖(s : ℂ) + 1 / conj (w - s)‖

theorem strayMiss_pos (s : ℝ) (hs : s ≠ 0) (w : ℂ) (hws : w ≠ s) :
    0 < strayMiss s w ↔ w ≠ ((s - 1 / s : ℝ) : ℂ) := by
  have hsc : (s : ℂ) ≠ 0 := by exact_mod_cast hs
  have hd : w - s ≠ 0 := sub_ne_zero.mpr hws
  have hcd : conj (w - s) ≠ 0 := (map_ne_zero (starRingEnd ℂ)).mpr hd
  rw [strayMiss, norm_pos_iff, not_iff_not]
  constructor
  · intro h
    have h1 : conj (w - s) = -1 / s := by
      field_simp at h ⊢; linear_combination h
    have h2 := congrArg conj h1
    rw [Complex.conj_conj] at h2
    have h3 : conj (-1 / (s : ℂ)) = -1 / s := by simp
    rw [h3] at h2
    push_cast
    linear_combination h2
  · rintro rfl
    have : conj (((s - 1 / s : ℝ) : ℂ) - s) = -1 / s := by
      rw [← ofReal_sub, conj_ofReal]; push_cast; ring
    rw [this]
    field_simp; ring

/-- The roots of the limit that are not at the planet. -/
theorem planet_regular (s : ℝ) (hs : s ≠ 0) (w : ℂ) (hw : w ≠ 0) (hws : w ≠ s) (hwc : w ≠ ((s - 1 / s : ℝ) : ℂ)) :
    ∃ y1 y2 : ℂ, y1 ≠ y2 ∧ (∀ z, IsImage single w z ↔ z = y1 ∨ z = y2) ∧
      (planetRoots s w).filter (· ≠ hostPos s 0) = [strayRoot s w - ((1 / 2 * s : ℝ) : ℂ), y1 - ((1 / 2 * s : ℝ) : ℂ),
        y2 - ((1 / 2 * s : ℝ) : ℂ)] ∧
      (∀ y ∈ [strayRoot s w, y1, y2], ∀ i, y - ((1 / 2 * s : ℝ) : ℂ) ≠ hostPos s i) ∧
      (∀ y ∈ [y1, y2], lensMap (lensList hostMass (hostPos s)) (y - ((1 / 2 * s : ℝ) : ℂ)) = w - ((1 / 2 * s : ℝ) : ℂ)) ∧
      (∀ y ∈ [y1, y2], detFormula (lensList hostMass (hostPos s)) (y - ((1 / 2 * s : ℝ) : ℂ)) ≠ 0) ∧
      (1 / |detFormula (lensList hostMass (hostPos s)) (y1 - ((1 / 2 * s : ℝ) : ℂ))|
        + 1 / |detFormula (lensList hostMass (hostPos s)) (y2 - ((1 / 2 * s : ℝ) : ℂ))| = paczynski ‖w‖) ∧
      ‖lensMap (lensList hostMass (hostPos s)) (strayRoot s w - ((1 / 2 * s : ℝ) : ℂ)) - (w - ((1 / 2 * s : ℝ) : ℂ))‖
        = strayMiss s w ∧
      detFormula (lensList hostMass (hostPos s)) (strayRoot s w - ((1 / 2 * s : ℝ) : ℂ)) = 1 - ‖w - s‖ ^ 4 := by
  have hsc : (s : ℂ) ≠ 0 := by exact_mod_cast hs
  have hd : w - s ≠ 0 := sub_ne_zero.mpr hws
  have hcd : conj w - s ≠ 0 := by
    have := (map_ne_zero (starRingEnd ℂ)).mpr hd
    rwa [map_sub, conj_ofReal] at this
  obtain ⟨y1, y2, h1, h2, h3, h4, h5⟩ := single_sum_prod w hw
  have e0 : hostPos s 0 = ((1 / 2 * s : ℝ) : ℂ) := rfl
  have e1 : hostPos s 1 = -((1 / 2 * s : ℝ) : ℂ) := rfl
  have hne : ∀ y : ℂ, y ≠ 0 → y ≠ s → ∀ i, y - ((1 / 2 * s : ℝ) : ℂ) ≠ hostPos s i := by
    intro y hy0 hys i
    fin_cases i
    · intro h
      apply hys
      have : y - ((1 / 2 * s : ℝ) : ℂ) = ((1 / 2 * s : ℝ) : ℂ) := h
      push_cast at this; linear_combination this
    · intro h
      apply hy0
      have : y - ((1 / 2 * s : ℝ) : ℂ) = -((1 / 2 * s : ℝ) : ℂ) := h
      push_cast at this; linear_combination this
  have himg : ∀ y ∈ [y1, y2], y ≠ 0 ∧ y - 1 / conj y = w := by
    intro y hy
    have : IsImage single w y := (h3 y).mpr (by simpa using hy)
    refine ⟨by simpa using this.1 (1, 0) (by simp [single]), ?_⟩
    have := this.2
    simpa [lensMap, single] using this
  have hys : ∀ y ∈ [y1, y2], y ≠ s := by
    rintro y hy rfl
    have := (himg _ hy).2
    rw [conj_ofReal] at this
    exact hwc (by rw [← this]; push_cast; ring)
  have hst0 : strayRoot s w ≠ 0 := div_ne_zero (neg_ne_zero.mpr one_ne_zero) hcd
  have hsts : strayRoot s w ≠ s := by
    intro h
    rw [strayRoot, div_eq_iff hcd] at h
    apply hwc
    have h6 : conj w = s - 1 / s := by field_simp; linear_combination -h
    have := congrArg conj h6
    rw [Complex.conj_conj] at this
    rw [this]; simp
  have hall : ∀ y ∈ [strayRoot s w, y1, y2], ∀ i, y - ((1 / 2 * s : ℝ) : ℂ) ≠ hostPos s i := by
    intro y hy
    rcases List.mem_cons.mp hy with rfl | hy
    · exact hne _ hst0 hsts
    · exact hne y (himg y hy).1 (hys y hy)
  have hdet : ∀ y ∈ [y1, y2], detFormula (lensList hostMass (hostPos s)) (y - ((1 / 2 * s : ℝ) : ℂ)) ≠ 0 := by
    intro y hy h
    rw [det_host] at h
    have hyn : 0 < ‖y‖ := norm_pos_iff.mpr (himg y hy).1
    have h1 : (‖y‖ ^ 2) ^ 2 = 1 := by field_simp at h; linarith
    have h2 : ‖y‖ ^ 2 = 1 := by nlinarith [sq_nonneg (‖y‖ ^ 2 - 1), sq_nonneg ‖y‖]
    have h3 : y * conj y = 1 := by
      rw [Complex.mul_conj, Complex.normSq_eq_norm_sq, h2]; simp
    have hcy : conj y ≠ 0 := (map_ne_zero (starRingEnd ℂ)).mpr (himg y hy).1
    have h4 := (himg y hy).2
    apply hw
    rw [← h4, sub_eq_zero, eq_div_iff hcy, h3]
  refine ⟨y1, y2, h2, h3, ?_, hall, ?_, hdet, ?_, ?_, ?_⟩
  · have hm : ∀ y ∈ [strayRoot s w, y1, y2], y - ((1 / 2 * s : ℝ) : ℂ) ≠ ((1 / 2 * s : ℝ) : ℂ) := fun y hy => hall y hy 0
    have m1 := hm (strayRoot s w) (by simp)
    have m2 := hm y1 (by simp)
    have m3 := hm y2 (by simp)
    rw [planetRoots, h1, e0]
    simp only [List.map_cons, List.map_nil, List.cons_append, List.nil_append]
    rw [List.filter_cons_of_neg (by simp), List.filter_cons_of_neg (by simp),
      List.filter_cons_of_pos (by rw [decide_eq_true_eq]; exact m1),
      List.filter_cons_of_pos (by rw [decide_eq_true_eq]; exact m2),
      List.filter_cons_of_pos (by rw [decide_eq_true_eq]; exact m3), List.filter_nil]
  · intro y hy
    rw [lensMap_host, (himg y hy).2]
  · rw [det_host, det_host, ← C02_true_single_mag w hw,
      pointMag_of_list single w [y1, y2] (by simp [h2]) (by intro z; simp [h3])]
    simp [detFormula, single]
  · rw [lensMap_host, strayMiss, ← norm_neg]
    congr 1
    rw [strayRoot, map_div₀, map_neg, map_one, map_sub, map_sub, Complex.conj_conj, conj_ofReal]
    field_simp; ring
  · rw [det_host, strayRoot, norm_div, norm_neg, norm_one]
    have : ‖conj w - s‖ = ‖w - s‖ := by
      rw [← RCLike.norm_conj (w - s)]; simp
    rw [this]
    have hn : ‖w - s‖ ≠ 0 := norm_ne_zero_iff.mpr hd
    field_simp

theorem magPointSource_mask2 (roots) (u : UserParams) (w : ℂ) :
    magPointSource roots 2 u w = .ok (maskSum (lensList (mass2 (midParams2 u)) (pos2 (midParams2 u))) (1 / 10 ^ 6)
      (w - xCM u) (roots none (polyCoeffsBinary (w - xCM u) (midParams2 u).a (midParams2 u).e1))) := by
  rw [lensList2]
  simp only [magPointSource, if_neg (show ¬ (2 : ℕ) = 1 by norm_num), if_true, images2, withMask, sumMag, List.map_map,
    maskSum]
  congr 2
  refine List.map_congr_left fun z _ => ?_
  simp only [Function.comp, lensEq2_eq, detJac2_eq, detFormula, decide_eq_true_eq]

theorem planet_mem_iff (u : UserParams) (hs : u.s ≠ 0) (w : ℂ) (q : ℝ) (hq : 0 < q) (rs : List ℂ)
    (hr : IsRootList (polyCoeffsBinary (w - (xCM { u with q := q } : ℂ)) (1 / 2 * u.s) (q / (1 + q))) rs)
    (h1 : (polyCoeffsBinary (w - (xCM { u with q := q } : ℂ)) (1 / 2 * u.s) (q / (1 + q))).headD 0 ≠ 0) (z : ℂ) :
    z ∈ rs ↔ DualSol (mass2 (midParams2 { u with q := q })) (hostPos u.s) (w - (xCM { u with q := q } : ℂ)) z := by
  have ea : (midParams2 { u with q := q }).a = 1 / 2 * u.s := rfl
  have ee : (midParams2 { u with q := q }).e1 = q / (1 + q) := rfl
  rw [← hostPos_eq u q]
  refine binary_mem_iff (midParams2 { u with q := q }) (w - (xCM { u with q := q } : ℂ)) rs ?_ ?_ ?_ ?_ ?_ z
  · rw [ea]; simp [hs]
  · rw [ee]; positivity
  · rw [ee, div_lt_one (by positivity)]; linarith
  · rw [ea, ee]; exact hr
  · rw [(C04_binary_leading _ _ _).2] at h1
    rw [ea]
    exact sub_ne_zero.mp h1

theorem xCM_tendsto (u : UserParams) : Tendsto (fun q : ℝ => xCM { u with q := q }) (𝓝[>] 0) (𝓝 (1 / 2 * u.s)) := by
  have hq : Tendsto (fun q : ℝ => q) (𝓝[>] 0) (𝓝 0) := tendsto_nhdsWithin_of_tendsto_nhds tendsto_id
  have h1q : Tendsto (fun q : ℝ => 1 + q) (𝓝[>] 0) (𝓝 1) := by
    have := (tendsto_const_nhds (x := (1 : ℝ))).add hq
    rwa [add_zero] at this
  have h2 : Tendsto (fun q : ℝ => 1 / 2 * u.s * (1 - q) / (1 + q)) (𝓝[>] 0) (𝓝 (1 / 2 * u.s * (1 - 0) / 1)) :=
    (tendsto_const_nhds.mul (tendsto_const_nhds.sub hq)).div h1q one_ne_zero
  rw [sub_zero, mul_one, div_one] at h2
  exact h2

theorem e1_tendsto : Tendsto (fun q : ℝ => q / (1 + q)) (𝓝[>] 0) (𝓝 0) := by
  have hq : Tendsto (fun q : ℝ => q) (𝓝[>] 0) (𝓝 0) := tendsto_nhdsWithin_of_tendsto_nhds tendsto_id
  have h1q : Tendsto (fun q : ℝ => 1 + q) (𝓝[>] 0) (𝓝 1) := by
    have := (tendsto_const_nhds (x := (1 : ℝ))).add hq
    rwa [add_zero] at this
  have := hq.div h1q one_ne_zero
  rwa [zero_div] at this

theorem v_tendsto (u : UserParams) (w : ℂ) :
    Tendsto (fun q : ℝ => w - (xCM { u with q := q } : ℂ)) (𝓝[>] 0) (𝓝 (w - ((1 / 2 * u.s : ℝ) : ℂ))) :=
  tendsto_const_nhds.sub ((Complex.continuous_ofReal.tendsto _).comp (xCM_tendsto u))

/-- The coefficients given to the root finder as a function of the mass ratio. -/
def planetCoeffs (u : UserParams) (w : ℂ) (q : ℝ) : List ℂ :=
  polyCoeffsBinary (w - (xCM { u with q := q } : ℂ)) (1 / 2 * u.s) (q / (1 + q))

theorem planetCoeffs_tendsto (u : UserParams) (w : ℂ) (k : ℕ) :
    Tendsto (fun q : ℝ => (planetCoeffs u w q).getD k 0) (𝓝[>] 0)
      (𝓝 ((polyCoeffsBinary (w - ((1 / 2 * u.s : ℝ) : ℂ)) (1 / 2 * u.s) 0).getD k 0)) := by
  have h1 := (continuous_coeffsBinary2 (1 / 2 * u.s) k).tendsto ((w - ((1 / 2 * u.s : ℝ) : ℂ)), (0 : ℝ))
  have h2 := h1.comp ((v_tendsto u w).prodMk_nhds e1_tendsto)
  simp only [Function.comp_def] at h2
  simp only [planetCoeffs]
  exact h2

theorem planetCoeffs_length (u : UserParams) (w : ℂ) (q : ℝ) : (planetCoeffs u w q).length = 5 + 1 :=
  (C04_binary_leading _ _ _).1

/-- The limit of everything that enters the binary branch. -/
theorem planet_limit (u : UserParams) (hs : u.s ≠ 0) (w : ℂ) (hw : w ≠ 0) (hws : w ≠ u.s)
    (roots : Option (List ℂ) → List ℂ → List ℂ)
    (hroots : ∀ cs : List ℂ, cs.headD 0 ≠ 0 → IsRootList cs (roots none cs)) :
    (∀ i, Tendsto (fun q : ℝ => mass2 (midParams2 { u with q := q }) i) (𝓝[>] 0) (𝓝 (hostMass i))) ∧
    ListTendsto (𝓝[>] 0) (fun q : ℝ => roots none (planetCoeffs u w q)) (planetRoots u.s w) ∧
    ∀ᶠ q : ℝ in 𝓝[>] 0, ∀ z, z ∈ roots none (planetCoeffs u w q) ↔
      DualSol (mass2 (midParams2 { u with q := q })) (hostPos u.s) (w - (xCM { u with q := q } : ℂ)) z := by
  obtain ⟨hlead, hr0⟩ := planet_roots u.s w hw hws
  have hgh : ∀ l : List ℂ, l.getD 0 0 = l.headD 0 := fun l => by cases l <;> rfl
  have hheadq : ∀ᶠ q : ℝ in 𝓝[>] 0, (planetCoeffs u w q).headD 0 ≠ 0 := by
    have h0 := planetCoeffs_tendsto u w 0
    simp only [hgh] at h0
    exact h0.eventually_ne hlead
  refine ⟨fun i => ?_, ?_, ?_⟩
  · fin_cases i
    · exact e1_tendsto
    · have : Tendsto (fun q : ℝ => 1 - q / (1 + q)) (𝓝[>] 0) (𝓝 (1 - 0)) := tendsto_const_nhds.sub e1_tendsto
      rw [sub_zero] at this
      exact this
  · exact roots_listTendsto _ 5 _ _ _ _ (planetCoeffs_length u w) (C04_binary_leading _ _ _).1
      (planetCoeffs_tendsto u w) hlead (hheadq.mono fun q h => hroots _ h) hr0
  · filter_upwards [hheadq, self_mem_nhdsWithin] with q h1 h2
    exact planet_mem_iff u hs w q h2 _ (hroots _ h1) h1

/-- The limit of the value, whether or not the stray root is accepted. -/
theorem planet_value (u : UserParams) (hs : u.s ≠ 0) (w : ℂ) (hw : w ≠ 0) (hws : w ≠ u.s)
    (hwc : w ≠ ((u.s - 1 / u.s : ℝ) : ℂ))
    (htol : 1 / 10 ^ 6 < strayMiss u.s w ∨ strayMiss u.s w < 1 / 10 ^ 6 ∧ ‖w - u.s‖ ≠ 1)
    (roots : Option (List ℂ) → List ℂ → List ℂ)
    (hroots : ∀ cs : List ℂ, cs.headD 0 ≠ 0 → IsRootList cs (roots none cs)) :
    ∃ A : ℝ → ℝ, (∀ q, magPointSource roots 2 { u with q := q } w = .ok (A q)) ∧
      Tendsto A (𝓝[>] 0)
        (𝓝 (1 / |1 - ‖w - u.s‖ ^ 4| * (if strayMiss u.s w < 1 / 10 ^ 6 then 1 else 0) + paczynski ‖w‖)) := by
  have h2 := v_tendsto u w
  obtain ⟨h1, h3, h4⟩ := planet_limit u hs w hw hws roots hroots
  obtain ⟨n1, n2⟩ := planet_nonres u.s hs w hw hwc
  obtain ⟨y1, y2, -, -, r2, r3, r4, r5, r6, r7, r8⟩ := planet_regular u.s hs w hw hws hwc
  refine ⟨_, fun q => magPointSource_mask2 roots _ w, ?_⟩
  have hinj : Function.Injective (hostPos u.s) := pos2_inj { u with q := 1 } hs
  have key := vanishing_maskSum (𝓝[>] 0) _ hostMass h1 (hostPos u.s) hinj _ _ h2 0 rfl (by
    intro i hi; fin_cases i
    · exact absurd rfl hi
    · simp [hostMass]) n1 (fun _ => n2) _ _ h3 (h4.mono fun q hq z hz => (hq z).mp hz) (1 / 10 ^ 6) (by
    intro ρ hρ hne
    have hm : ρ ∈ (planetRoots u.s w).filter (· ≠ hostPos u.s 0) := by
      rw [List.mem_filter, decide_eq_true_eq]; exact ⟨hρ, hne⟩
    rw [r2] at hm
    simp only [List.mem_cons, List.not_mem_nil, or_false] at hm
    rcases hm with rfl | rfl | rfl
    · refine ⟨r3 _ (by simp), ?_⟩
      rw [r7, r8]
      refine htol.imp id fun h => ⟨h.1, fun h0 => h.2 ?_⟩
      have h5 : ‖w - u.s‖ ^ 4 = 1 := by linarith
      exact (pow_eq_one_iff_of_nonneg (norm_nonneg _) (by norm_num)).mp h5
    · exact ⟨r3 _ (by simp), Or.inr ⟨by rw [r4 _ (by simp)]; norm_num, r5 _ (by simp)⟩⟩
    · exact ⟨r3 _ (by simp), Or.inr ⟨by rw [r4 _ (by simp)]; norm_num, r5 _ (by simp)⟩⟩)
  rw [r2] at key
  have e : maskSum (lensList hostMass (hostPos u.s)) (1 / 10 ^ 6) (w - ((1 / 2 * u.s : ℝ) : ℂ))
      [strayRoot u.s w - ((1 / 2 * u.s : ℝ) : ℂ), y1 - ((1 / 2 * u.s : ℝ) : ℂ), y2 - ((1 / 2 * u.s : ℝ) : ℂ)]
      = 1 / |1 - ‖w - u.s‖ ^ 4| * (if strayMiss u.s w < 1 / 10 ^ 6 then 1 else 0) + paczynski ‖w‖ := by
    simp only [maskSum, List.map_cons, List.map_nil, List.sum_cons, List.sum_nil, add_zero]
    rw [r7, r8, r4 y1 (by simp), r4 y2 (by simp), sub_self, norm_zero, if_pos (by norm_num : (0 : ℝ) < 1 / 10 ^ 6),
      mul_one, mul_one, r6]
  rw [e] at key
  exact key

/-- **C118, binary**: for every separation `s ≠ 0` and every source `w` off the host and the planet, such that the one
root which maps to the planet misses the source by more than the tolerance `1e-6` of the mask, whatever the root finder
as long as it returns all roots, `mag_point_source(w, nlenses=2, s, q)` tends to Paczynski's magnification of a single
lens at the origin as the mass ratio `q` tends to zero.  `mag_point_source(w, nlenses=1)` is not that limit.
Missing for the full property: the sources within the tolerance, see `C118_tolerance_violated`. -/
theorem C118_binary_partial (u : UserParams) (hs : u.s ≠ 0) (w : ℂ) (hw : w ≠ 0) (hws : w ≠ u.s)
    (htol : 1 / 10 ^ 6 < ‖(u.s : ℂ) + 1 / conj (w - u.s)‖) (roots : Option (List ℂ) → List ℂ → List ℂ)
    (hroots : ∀ cs : List ℂ, cs.headD 0 ≠ 0 → IsRootList cs (roots none cs)) :
    (∃ A : ℝ → ℝ, (∀ q, magPointSource roots 2 { u with q := q } w = .ok (A q)) ∧
      Tendsto A (𝓝[>] 0) (𝓝 (paczynski ‖w‖))) ∧
    ∃ A1, magPointSource roots 1 u w = .ok A1 ∧ paczynski ‖w‖ < A1 := by
  have hwc := (strayMiss_pos u.s hs w hws).mp (lt_trans (by norm_num) htol)
  obtain ⟨A, h1, h2⟩ := planet_value u hs w hw hws hwc (Or.inl htol) roots hroots
  rw [if_neg (show ¬ strayMiss u.s w < 1 / 10 ^ 6 from not_lt.mpr htol.le), mul_zero, zero_add] at h2
  obtain ⟨B, hB, -, hlt⟩ := C02_violated roots u w hw
  rw [C02_true_single_mag w hw] at hlt
  exact ⟨⟨A, h1, h2⟩, B, hB, hlt⟩

/-- **C118, the true magnification**: for every separation `s ≠ 0` and every source that is neither at the host nor at
the planet nor at the position `s - 1/s` of the caustic of the planet, the magnification by the binary tends to that by
the single lens as `q` tends to zero. -/
theorem C118_true (s : ℝ) (hs : s ≠ 0) (w : ℂ) (hw : w ≠ 0) (hws : w ≠ s) (hwc : w ≠ ((s - 1 / s : ℝ) : ℂ)) :
    Tendsto (fun q : ℝ => pointMag (binary s q) w) (𝓝[>] 0) (𝓝 (pointMag single w)) := by
  obtain ⟨roots, hroots⟩ := exists_finder
  have h2 := v_tendsto { s := s, q := 1 } w
  obtain ⟨h1, h3, h4⟩ := planet_limit { s := s, q := 1 } hs w hw hws (fun _ => roots) hroots
  obtain ⟨n1, n2⟩ := planet_nonres s hs w hw hwc
  obtain ⟨y1, y2, r0, -, r2, r3, r4, r5, r6, r7, r8⟩ := planet_regular s hs w hw hws hwc
  have hinj : Function.Injective (hostPos s) := pos2_inj { s := s, q := 1 } hs
  set a : ℂ := ((1 / 2 * s : ℝ) : ℂ) with ha
  have hst : lensMap (lensList hostMass (hostPos s)) (strayRoot s w - a) ≠ w - a := by
    intro h
    rw [h, sub_self, norm_zero] at r7
    exact absurd r7.symm ((strayMiss_pos s hs w hws).mpr hwc).ne'
  have hfil : (planetRoots s w).filter (fun ρ => decide (ρ ≠ hostPos s 0 ∧
      lensMap (lensList hostMass (hostPos s)) ρ = w - a)) = [y1 - a, y2 - a] := by
    have e : ∀ l : List ℂ, l.filter (fun ρ => decide (ρ ≠ hostPos s 0 ∧ lensMap (lensList hostMass (hostPos s)) ρ = w - a))
        = (l.filter (· ≠ hostPos s 0)).filter (fun ρ => decide (lensMap (lensList hostMass (hostPos s)) ρ = w - a)) := by
      intro l
      rw [List.filter_filter]
      congr 1
      funext x
      rw [Bool.decide_and, Bool.and_comm]
    rw [e, r2, List.filter_cons_of_neg (by simpa using hst), List.filter_cons_of_pos (by simpa using r4 y1 (by simp)),
      List.filter_cons_of_pos (by simpa using r4 y2 (by simp)), List.filter_nil]
  have key := vanishing_pointMag (𝓝[>] 0) _ hostMass h1 (hostPos s) hinj _ _ h2 0 rfl (by
    intro i hi; fin_cases i
    · exact absurd rfl hi
    · simp [hostMass]) n1 (fun _ => n2) _ _ h3 h4 (by
    intro ρ hρ hne
    have hm : ρ ∈ (planetRoots s w).filter (· ≠ hostPos s 0) := by
      rw [List.mem_filter, decide_eq_true_eq]; exact ⟨hρ, hne⟩
    rw [r2] at hm
    simp only [List.mem_cons, List.not_mem_nil, or_false] at hm
    rcases hm with rfl | rfl | rfl
    · exact ⟨r3 _ (by simp), fun h => absurd h hst⟩
    · exact ⟨r3 _ (by simp), fun _ => r5 _ (by simp)⟩
    · exact ⟨r3 _ (by simp), fun _ => r5 _ (by simp)⟩) [y1 - a, y2 - a] (by rw [hfil]) (by simp [r0])
  simp only [List.map_cons, List.map_nil, List.sum_cons, List.sum_nil, add_zero] at key
  rw [r6, ← C02_true_single_mag w hw] at key
  refine key.congr' ?_
  filter_upwards [self_mem_nhdsWithin] with q hq
  have hq' : (0 : ℝ) < q := hq
  have e1 : lensList (mass2 (midParams2 { s := s, q := q })) (hostPos s) = midBinary (midParams2 { s := s, q := q }) :=
    lensList2 _
  have e2 : pointMag (binary s q) w = pointMag (midBinary (midParams2 { s := s, q := q })) (w - xCM { s := s, q := q }) := by
    have := (C08_binary_frame { s := s, q := q } (by positivity)).1
    rw [← this, show w = (w - xCM { s := s, q := q }) + xCM { s := s, q := q } by ring, pointMag_translate]
    simp
  rw [e2, ← e1]

/-- **C118 does not hold within the tolerance**: if the root that maps to the planet misses the source by less than the
tolerance `1e-6`, then, whatever the root finder as long as it returns all roots, the limit of
`mag_point_source(w, nlenses=2, s, q)` as `q` tends to zero exceeds the limit of the true magnification, by the
magnification `1 / |1 - |w - s|⁴|` that this root is given. -/
theorem C118_tolerance_violated (u : UserParams) (hs : u.s ≠ 0) (w : ℂ) (hw : w ≠ 0) (hws : w ≠ u.s)
    (hpos : 0 < ‖(u.s : ℂ) + 1 / conj (w - u.s)‖) (htol : ‖(u.s : ℂ) + 1 / conj (w - u.s)‖ < 1 / 10 ^ 6)
    (h1 : ‖w - u.s‖ ≠ 1) (roots : Option (List ℂ) → List ℂ → List ℂ)
    (hroots : ∀ cs : List ℂ, cs.headD 0 ≠ 0 → IsRootList cs (roots none cs)) :
    (∃ A : ℝ → ℝ, (∀ q, magPointSource roots 2 { u with q := q } w = .ok (A q)) ∧
      Tendsto A (𝓝[>] 0) (𝓝 (paczynski ‖w‖ + 1 / |1 - ‖w - u.s‖ ^ 4|))) ∧
    Tendsto (fun q : ℝ => pointMag (binary u.s q) w) (𝓝[>] 0) (𝓝 (paczynski ‖w‖)) ∧
    0 < 1 / |1 - ‖w - u.s‖ ^ 4| := by
  have hwc := (strayMiss_pos u.s hs w hws).mp hpos
  obtain ⟨A, h2, h3⟩ := planet_value u hs w hw hws hwc (Or.inr ⟨htol, h1⟩) roots hroots
  rw [if_pos (show strayMiss u.s w < 1 / 10 ^ 6 from htol), mul_one, add_comm] at h3
  refine ⟨⟨A, h2, h3⟩, ?_, ?_⟩
  · rw [← C02_true_single_mag w hw]; exact C118_true u.s hs w hw hws hwc
  · have : 1 - ‖w - u.s‖ ^ 4 ≠ 0 := fun h0 => h1
      ((pow_eq_one_iff_of_nonneg (norm_nonneg _) (by norm_num)).mp (by linarith : ‖w - u.s‖ ^ 4 = 1))
    positivity

/-- The hypotheses are met: a planet at distance two, source at distance one between the lenses. -/
example : ∃ (roots : Option (List ℂ) → List ℂ → List ℂ) (A : ℝ → ℝ),
    (∀ q, magPointSource roots 2 { s := 2, q := q } 1 = .ok (A q)) ∧ Tendsto A (𝓝[>] 0) (𝓝 (paczynski 1)) := by
  obtain ⟨roots, hroots⟩ := exists_finder
  obtain ⟨⟨A, h1, h2⟩, -⟩ := C118_binary_partial { s := 2, q := 1 } (by norm_num) 1 one_ne_zero (by norm_num)
    (by norm_num) (fun _ => roots) hroots
  rw [norm_one] at h2
  exact ⟨fun _ => roots, A, h1, h2⟩

example : Tendsto (fun q : ℝ => pointMag (binary 2 q) 1) (𝓝[>] 0) (𝓝 (pointMag single 1)) :=
  C118_true 2 (by norm_num) 1 one_ne_zero (by norm_num) (by norm_num)

/-- The hypotheses of the violation are met: the same planet, the source `1e-7` from the caustic of the planet. -/
example : ∃ (roots : Option (List ℂ) → List ℂ → List ℂ) (A : ℝ → ℝ) (l : ℝ),
    (∀ q, magPointSource roots 2 { s := 2, q := q } ((3 / 2 + 1 / 10 ^ 7 : ℝ) : ℂ) = .ok (A q)) ∧
      Tendsto A (𝓝[>] 0) (𝓝 l) ∧ paczynski (3 / 2 + 1 / 10 ^ 7) + 1 < l := by
  obtain ⟨roots, hroots⟩ := exists_finder
  have e : ((3 / 2 + 1 / 10 ^ 7 : ℝ) : ℂ) - ((2 : ℝ) : ℂ) = ((-(1 / 2 - 1 / 10 ^ 7) : ℝ) : ℂ) := by push_cast; ring
  have e2 : (((2 : ℝ) : ℂ) + 1 / conj (((3 / 2 + 1 / 10 ^ 7 : ℝ) : ℂ) - ((2 : ℝ) : ℂ))) =
      ((2 + 1 / (-(1 / 2 - 1 / 10 ^ 7)) : ℝ) : ℂ) := by
    rw [e, conj_ofReal]; push_cast; ring
  obtain ⟨⟨A, h1, h2⟩, -, -⟩ := C118_tolerance_violated { s := 2, q := 1 } (by norm_num) ((3 / 2 + 1 / 10 ^ 7 : ℝ) : ℂ)
    (by rw [Complex.ofReal_ne_zero]; norm_num) (by
      show _ ≠ ((2 : ℝ) : ℂ)
      rw [Ne, Complex.ofReal_inj]; norm_num) (by
      rw [e2, Complex.norm_real]; norm_num) (by
      rw [e2, Complex.norm_real]; norm_num [abs_lt]) (by
      rw [e, Complex.norm_real]; norm_num [abs_lt]) (fun _ => roots) hroots
  refine ⟨fun _ => roots, A, _, h1, h2, ?_⟩
  rw [Complex.norm_of_nonneg (by norm_num : (0 : ℝ) ≤ 3 / 2 + 1 / 10 ^ 7), e, Complex.norm_real]
  norm_num

end Microjax.Props
