import Verif.Props.LimbTrace
import Verif.Props.PointSource
import Verif.Lemmas.DualSolutions
import Mathlib.Analysis.SpecialFunctions.Pow.Real
import Mathlib.Algebra.Order.BigOperators.Group.List

/-!
# C106: what the tolerance of the image mask lets through

`_images_point_source` keeps every root of the image polynomial that maps to within 1e-6 (two lenses) or 1e-3
(three lenses) of the source.
-/

noncomputable section

namespace Microjax.Props

open Complex ComplexConjugate Microjax.PointSource Microjax.Spec

/-- The magnification over an exact image list is at most the sum over any longer list. -/
theorem pointMag_le_of_list (L : Lenses) (w : ℂ) (zs : List ℂ) (h : ∀ z, IsImage L w z → z ∈ zs) :
    pointMag L w ≤ (zs.map fun z => 1 / |detFormula L z|).sum := by
  classical
  rw [pointMag_of_list L w (zs.filter fun z => decide (IsImage L w z)).dedup (List.nodup_dedup _)
    (by intro z; simp only [List.mem_dedup, List.mem_filter, decide_eq_true_eq]
        exact ⟨fun a => a.2, fun a => ⟨h z a, a⟩⟩)]
  refine List.Sublist.sum_le_sum (((List.dedup_sublist _).trans List.filter_sublist).map _) ?_
  intro x hx
  obtain ⟨z, -, rfl⟩ := List.mem_map.mp hx
  positivity

/-- The list over which the binary magnification sums: it contains every image and every root within 1e-6. -/
theorem binary_list (roots : Option (List ℂ) → List ℂ → List ℂ) (u : UserParams) (w : ℂ)
    (hroots : IsRootList (polyCoeffsBinary (w - xCM u) (midParams2 u).a (midParams2 u).e1)
      (roots none (polyCoeffsBinary (w - xCM u) (midParams2 u).a (midParams2 u).e1)))
    (hdeg : conj (w - xCM u) ^ 2 ≠ ((midParams2 u).a : ℂ) ^ 2) :
    ∃ zs : List ℂ,
      magPointSource roots 2 u w = .ok (zs.map fun z => 1 / |detFormula (midBinary (midParams2 u)) z|).sum ∧
      (∀ z, IsImage (midBinary (midParams2 u)) (w - xCM u) z → z ∈ zs) ∧
      ∀ z, evalPoly (polyCoeffsBinary (w - xCM u) (midParams2 u).a (midParams2 u).e1) z = 0 →
        ‖lensMap (midBinary (midParams2 u)) z - (w - xCM u)‖ < 1 / 10 ^ 6 → z ∈ zs := by
  set p := midParams2 u with hp
  set w' := w - xCM u with hw'
  set rs := roots none (polyCoeffsBinary w' p.a p.e1) with hrs
  have h2 : magPointSource roots 2 u w = .ok (sumMag (detJac2 p) (withMask (lensEq2 p) (1 / 10 ^ 6) w' rs)) := by
    simp [magPointSource, images2, hp, hw', hrs]
  refine ⟨rs.filter fun z => decide (‖lensEq2 p z - w'‖ < 1 / 10 ^ 6), ?_, ?_, ?_⟩
  · rw [h2, sumMag_withMask]
    congr 2
    apply List.map_congr_left
    intro z _
    rw [detJac2_eq]; rfl
  · intro z hz
    rw [List.mem_filter, decide_eq_true_eq]
    refine ⟨images_mem_roots_binary p w' rs hroots hdeg z hz, ?_⟩
    rw [lensEq2_eq, hz.2]; simp
  · intro z hz hlt
    rw [List.mem_filter, decide_eq_true_eq, lensEq2_eq]
    refine ⟨IsRootList.mem_of_eval_zero hroots ?_ hz, hlt⟩
    rw [(C04_binary_leading w' p.a p.e1).2]; exact sub_ne_zero.mpr hdeg

/-- The list over which the triple magnification sums: it contains every image and every root within 1e-3. -/
theorem triple_list (roots : Option (List ℂ) → List ℂ → List ℂ) (u : UserParams) (w : ℂ)
    (c : List ℂ) (hc : c = polyCoeffsTripleCM (w - xCM u) (midParams3 u).a (r3Complex (midParams3 u))
      (midParams3 u).e1 (midParams3 u).e2)
    (S : ℂ) (hS : S = shiftCM (midParams3 u).a (r3Complex (midParams3 u)) (midParams3 u).e1 (midParams3 u).e2)
    (hroots : IsRootList c (roots none c)) (hdeg : c.headD 0 ≠ 0) :
    ∃ zs : List ℂ,
      magPointSource roots 3 u w = .ok (zs.map fun z => 1 / |detFormula (midTriple (midParams3 u)) z|).sum ∧
      (∀ z, IsImage (midTriple (midParams3 u)) (w - xCM u) z → z ∈ zs) ∧
      ∀ z, evalPoly c z = 0 → ‖lensMap (midTriple (midParams3 u)) (z + S) - (w - xCM u)‖ < 1 / 10 ^ 3 →
        z + S ∈ zs := by
  set p := midParams3 u with hp
  set w' := w - xCM u with hw'
  set rs := roots none c with hrs
  have h2 : magPointSource roots 3 u w
      = .ok (sumMag (detJac3 p) (withMask (lensEq3 p) (1 / 10 ^ 3) w' (rs.map (· + S)))) := by
    simp [magPointSource, images3, hp, hw', hrs, hc, hS]
  refine ⟨(rs.map (· + S)).filter fun z => decide (‖lensEq3 p z - w'‖ < 1 / 10 ^ 3), ?_, ?_, ?_⟩
  · rw [h2, sumMag_withMask]
    congr 2
    apply List.map_congr_left
    intro z _
    rw [detJac3_eq]; rfl
  · intro z hz
    rw [List.mem_filter, decide_eq_true_eq, List.mem_map]
    refine ⟨⟨z - S, ?_, by ring⟩, ?_⟩
    · refine IsRootList.mem_of_eval_zero hroots hdeg ?_
      rw [hc, hS]
      refine C05_triple_complete p w' z (hz.1 (p.e1, (p.a : ℂ)) (by simp [midTriple]))
        (hz.1 (p.e2, -(p.a : ℂ)) (by simp [midTriple]))
        (hz.1 (1 - p.e1 - p.e2, r3Complex p) (by simp [midTriple])) ?_
      rw [lensEq3_eq]; exact hz.2
    · rw [lensEq3_eq, hz.2]; simp
  · intro z hz hlt
    rw [List.mem_filter, decide_eq_true_eq, lensEq3_eq]
    exact ⟨List.mem_map_of_mem (IsRootList.mem_of_eval_zero hroots hdeg hz), hlt⟩

/-- C106: whatever the tolerance lets through, the value is never too small: if the root finder returns all roots,
the magnification of the binary is at least the sum over the true images (no hypothesis on multiplicities or on
spurious roots).  Missing for the full property: it can be too large, see `C106_binary_violated`; it is exact when no
spurious root is within the tolerance, see `C06_binary_mag`. -/
theorem C106_binary_partial (roots : Option (List ℂ) → List ℂ → List ℂ) (u : UserParams) (w : ℂ)
    (hq : 1 + u.q ≠ 0)
    (hroots : IsRootList (polyCoeffsBinary (w - xCM u) (midParams2 u).a (midParams2 u).e1)
      (roots none (polyCoeffsBinary (w - xCM u) (midParams2 u).a (midParams2 u).e1)))
    (hdeg : conj (w - xCM u) ^ 2 ≠ ((midParams2 u).a : ℂ) ^ 2) :
    ∃ m, magPointSource roots 2 u w = .ok m ∧ pointMag (binary u.s u.q) w ≤ m := by
  obtain ⟨zs, h1, h2, -⟩ := binary_list roots u w hroots hdeg
  refine ⟨_, h1, ?_⟩
  rw [← (C08_binary_frame u hq).1, show w = (w - xCM u) + xCM u by ring, pointMag_translate]
  exact pointMag_le_of_list _ _ _ h2

/-- C106, three lenses: the value is never too small. -/
theorem C106_triple_partial (roots : Option (List ℂ) → List ℂ → List ℂ) (u : UserParams) (w : ℂ)
    (hq : 1 + u.q ≠ 0) (hq3 : 1 + u.q + u.q3 ≠ 0)
    (c : List ℂ) (hc : c = polyCoeffsTripleCM (w - xCM u) (midParams3 u).a (r3Complex (midParams3 u))
      (midParams3 u).e1 (midParams3 u).e2)
    (hroots : IsRootList c (roots none c)) (hdeg : c.headD 0 ≠ 0) :
    ∃ m, magPointSource roots 3 u w = .ok m ∧ pointMag (triple u.s u.q u.q3 u.r3 u.psi) w ≤ m := by
  obtain ⟨zs, h1, h2, -⟩ := triple_list roots u w c hc _ rfl hroots hdeg
  refine ⟨_, h1, ?_⟩
  rw [← (C08_triple_frame u hq hq3).1, show w = (w - xCM u) + xCM u by ring, pointMag_translate]
  exact pointMag_le_of_list _ _ _ h2

/-! ### A spurious root within the tolerance -/

/-- A list that contains all images and one further point sums to at least that much more. -/
theorem pointMag_add_le_of_list (L : Lenses) (w : ℂ) (zs : List ℂ) (h : ∀ z, IsImage L w z → z ∈ zs) (z0 : ℂ)
    (h0 : z0 ∈ zs) (hn : ¬ IsImage L w z0) :
    pointMag L w + 1 / |detFormula L z0| ≤ (zs.map fun z => 1 / |detFormula L z|).sum := by
  classical
  rw [((List.perm_cons_erase h0).map _).sum_eq, List.map_cons, List.sum_cons, add_comm]
  gcongr
  refine pointMag_le_of_list L w _ fun z hz => ?_
  refine (List.mem_erase_of_ne ?_).mpr (h z hz)
  rintro rfl; exact hn hz

/-- Three points with vanishing sum and vanishing sum of pairwise products: partial fractions. -/
theorem three_fold (t d1 d2 d3 P : ℂ) (h1 : d1 + d2 + d3 = 0) (h2 : d1 * d2 + d1 * d3 + d2 * d3 = 0)
    (hP : d1 * d2 * d3 = P) (ht : t ^ 3 - P ≠ 0) :
    1 / (t - d1) + 1 / (t - d2) + 1 / (t - d3) = 3 * (t ^ 2 / (t ^ 3 - P)) ∧
    1 / (t - d1) ^ 2 + 1 / (t - d2) ^ 2 + 1 / (t - d3) ^ 2 = 3 * (t * (t ^ 3 + 2 * P) / (t ^ 3 - P) ^ 2) := by
  have hprod : (t - d1) * (t - d2) * (t - d3) = t ^ 3 - P := by
    linear_combination (-t ^ 2) * h1 + t * h2 - hP
  have hA : t - d1 ≠ 0 := fun h => ht (by rw [← hprod, h]; ring)
  have hB : t - d2 ≠ 0 := fun h => ht (by rw [← hprod, h]; ring)
  have hC : t - d3 ≠ 0 := fun h => ht (by rw [← hprod, h]; ring)
  have eN : (t - d2) * (t - d3) + (t - d1) * (t - d3) + (t - d1) * (t - d2) = 3 * t ^ 2 := by
    linear_combination (-2 * t) * h1 + h2
  have eS : (t - d1) + (t - d2) + (t - d3) = 3 * t := by linear_combination -h1
  constructor
  · rw [← hprod, ← mul_div_assoc, ← eN]; field_simp
  · have e2 : ((t - d2) * (t - d3)) ^ 2 + ((t - d1) * (t - d3)) ^ 2 + ((t - d1) * (t - d2)) ^ 2
        = 3 * (t * (t ^ 3 + 2 * P)) := by
      have : ((t - d2) * (t - d3)) ^ 2 + ((t - d1) * (t - d3)) ^ 2 + ((t - d1) * (t - d2)) ^ 2
          = ((t - d2) * (t - d3) + (t - d1) * (t - d3) + (t - d1) * (t - d2)) ^ 2
            - 2 * ((t - d1) * (t - d2) * (t - d3)) * ((t - d1) + (t - d2) + (t - d3)) := by ring
      rw [this, eN, eS, hprod]; ring
    rw [← mul_div_assoc, ← e2, ← hprod]; field_simp

/-- Three equal masses at the corners of an equilateral triangle with circumradius `R`. -/
def equilateral (R : ℝ) : UserParams :=
  { s := Real.sqrt 3 * R, q := 1, q3 := 1, r3 := 3 / 2 * R, psi := Real.pi / 2 }

theorem equilateral_xCM (R : ℝ) : xCM (equilateral R) = 0 := by simp [xCM, equilateral]

theorem equilateral_r3 (R : ℝ) : r3Complex (midParams3 (equilateral R)) = 3 / 2 * R * I := by
  have : exp (I * ((Real.pi / 2 : ℝ) : ℂ)) = I := by
    rw [mul_comm]; push_cast; exact exp_pi_div_two_mul_I
  simp only [r3Complex, midParams3, equilateral]
  rw [this]; push_cast; ring

theorem equilateral_mid (R : ℝ) :
    (midParams3 (equilateral R)).a = Real.sqrt 3 * R / 2 ∧ (midParams3 (equilateral R)).e1 = 1 / 3 ∧
    (midParams3 (equilateral R)).e2 = 1 / 3 := by
  refine ⟨?_, ?_, ?_⟩ <;> simp only [midParams3, equilateral] <;> norm_num
  ring

theorem equilateral_shift (R : ℝ) :
    shiftCM (midParams3 (equilateral R)).a (r3Complex (midParams3 (equilateral R)))
      (midParams3 (equilateral R)).e1 (midParams3 (equilateral R)).e2 = I * R / 2 := by
  rw [equilateral_r3]
  obtain ⟨-, h1, h2⟩ := equilateral_mid R
  have : (3 / 2 * R * I : ℂ) = ((3 / 2 * R : ℝ) : ℂ) * I := by push_cast; ring
  rw [this]
  simp only [shiftCM, h1, h2, re_ofReal_mul, im_ofReal_mul, I_re, I_im]
  push_cast; ring

theorem sqrt3_sq : ((Real.sqrt 3 : ℝ) : ℂ) ^ 2 = 3 := by
  rw [← ofReal_pow, Real.sq_sqrt (by norm_num)]; norm_num

/-- The lens map and the shear of the equilateral triangle in coordinates centred on it. -/
theorem equilateral_lens (R : ℝ) (y : ℂ) (hy : conj y ^ 3 - I * R ^ 3 ≠ 0) :
    lensMap (midTriple (midParams3 (equilateral R))) (I * R / 2 + y)
      = I * R / 2 + y - conj y ^ 2 / (conj y ^ 3 - I * R ^ 3) ∧
    detFormula (midTriple (midParams3 (equilateral R))) (I * R / 2 + y)
      = 1 - ‖conj y * (conj y ^ 3 + 2 * (I * R ^ 3)) / (conj y ^ 3 - I * R ^ 3) ^ 2‖ ^ 2 := by
  obtain ⟨ha, h1, h2⟩ := equilateral_mid R
  have h3 := equilateral_r3 R
  obtain ⟨k1, k2⟩ := three_fold (conj y) ((Real.sqrt 3 * R / 2 : ℝ) + I * R / 2) (-(Real.sqrt 3 * R / 2 : ℝ) + I * R / 2)
    (-(I * R)) (I * R ^ 3) (by ring)
    (by push_cast; linear_combination (R ^ 2 * (3 / 4) : ℂ) * I_sq * (-1) - (R ^ 2 / 4 : ℂ) * sqrt3_sq)
    (by push_cast; linear_combination (-(R ^ 3 / 4) * I : ℂ) * I_sq + (R ^ 3 * I / 4 : ℂ) * sqrt3_sq) hy
  have c3 : conj (3 / 2 * R * I : ℂ) = -(3 / 2 * R * I) := by simp [conj_ofNat]
  have e1 : conj (I * R / 2 + y) - conj ((Real.sqrt 3 * R / 2 : ℝ) : ℂ)
      = conj y - ((Real.sqrt 3 * R / 2 : ℝ) + I * R / 2) := by simp [conj_ofNat]; ring
  have e2 : conj (I * R / 2 + y) - conj (-((Real.sqrt 3 * R / 2 : ℝ) : ℂ))
      = conj y - (-(Real.sqrt 3 * R / 2 : ℝ) + I * R / 2) := by simp [conj_ofNat]; ring
  have e3 : conj (I * R / 2 + y) - conj (3 / 2 * R * I : ℂ) = conj y - (-(I * R)) := by
    rw [c3]; simp [conj_ofNat]; ring
  have hm : ((1 - 1 / 3 - 1 / 3 : ℝ) : ℂ) = 1 / 3 := by push_cast; norm_num
  have hm' : ((1 / 3 : ℝ) : ℂ) = 1 / 3 := by push_cast; norm_num
  simp only [lensMap, detFormula, midTriple, ha, h1, h2, h3, List.map_cons, List.map_nil, List.sum_cons,
    List.sum_nil, e1, e2, e3, hm, hm']
  constructor
  · linear_combination (-1 / 3 : ℂ) * k1
  · congr 3
    linear_combination (1 / 3 : ℂ) * k2

/-- The image polynomial of the equilateral triangle for a source at its centre. -/
theorem equilateral_poly (R : ℝ) (z : ℂ) :
    evalPoly (polyCoeffsTripleCM (I * R / 2) (midParams3 (equilateral R)).a
      (r3Complex (midParams3 (equilateral R))) (midParams3 (equilateral R)).e1 (midParams3 (equilateral R)).e2) z
      = z * (-(I * R ^ 3) * z ^ 3 - I * R ^ 3 * (z ^ 3 + I * R ^ 3) ^ 3) := by
  have key := evalPoly_tripleCM (I * R / 2) (midParams3 (equilateral R)).a
      (r3Complex (midParams3 (equilateral R))) (midParams3 (equilateral R)).e1 (midParams3 (equilateral R)).e2 z
  simp only [equilateral_r3] at key
  obtain ⟨ha, h1, h2⟩ := equilateral_mid R
  rw [equilateral_r3, key, ha, h1, h2]
  have generic : ∀ c1 c2 c3 D1 D2 D3 : ℂ, c1 + c2 + c3 = 0 → c1 * c2 + c1 * c3 + c2 * c3 = 0 →
      c1 * c2 * c3 = -(I * R ^ 3) → D1 + D2 + D3 = 0 → D1 * D2 + D1 * D3 + D2 * D3 = 0 →
      D1 * D2 * D3 = -(I * R ^ 3) → ∀ P Q : ℂ, P = (z - c1) * (z - c2) * (z - c3) →
      Q = 1 / 3 * (z - c2) * (z - c3) + 1 / 3 * (z - c1) * (z - c3) + 1 / 3 * (z - c1) * (z - c2) →
      (D1 * P + Q) * (D2 * P + Q) * (D3 * P + Q) * z
        - P * (1 / 3 * (D2 * P + Q) * (D3 * P + Q) + 1 / 3 * (D1 * P + Q) * (D3 * P + Q)
          + 1 / 3 * (D1 * P + Q) * (D2 * P + Q))
      = z * (-(I * R ^ 3) * z ^ 3 - I * R ^ 3 * (z ^ 3 + I * R ^ 3) ^ 3) := by
    intro c1 c2 c3 D1 D2 D3 a1 a2 a3 b1 b2 b3 P Q hP hQ
    have hP' : P = z ^ 3 + I * R ^ 3 := by
      rw [hP]; linear_combination (-z ^ 2) * a1 + z * a2 - a3
    have hQ' : Q = z ^ 2 := by rw [hQ]; linear_combination (-2 / 3 * z) * a1 + 1 / 3 * a2
    have e1 : (D1 * P + Q) * (D2 * P + Q) * (D3 * P + Q) = Q ^ 3 - I * R ^ 3 * P ^ 3 := by
      linear_combination (Q ^ 2 * P) * b1 + (Q * P ^ 2) * b2 + P ^ 3 * b3
    have e2 : 1 / 3 * (D2 * P + Q) * (D3 * P + Q) + 1 / 3 * (D1 * P + Q) * (D3 * P + Q)
          + 1 / 3 * (D1 * P + Q) * (D2 * P + Q) = Q ^ 2 := by
      linear_combination (2 / 3 * Q * P) * b1 + (1 / 3 * P ^ 2) * b2
    rw [e1, e2, hQ', hP']; ring
  have hm : (1 - (1 / 3 : ℝ) - (1 / 3 : ℝ) : ℂ) = 1 / 3 := by push_cast; norm_num
  have hm' : ((1 / 3 : ℝ) : ℂ) = 1 / 3 := by push_cast; norm_num
  have hS := equilateral_shift R
  rw [equilateral_r3, ha, h1, h2] at hS
  rw [hm, hm', hS, sub_self, sub_zero]
  refine generic _ _ _ _ _ _ (by ring) ?_ ?_ ?_ ?_ ?_ _ _ rfl rfl
  · push_cast; linear_combination (-(R ^ 2 * (3 / 4)) : ℂ) * I_sq - (R ^ 2 / 4 : ℂ) * sqrt3_sq
  · push_cast; linear_combination (R ^ 3 / 4 * I : ℂ) * I_sq - (R ^ 3 * I / 4 : ℂ) * sqrt3_sq
  · simp [conj_ofNat]; ring
  · simp [conj_ofNat]; linear_combination (-(R ^ 2 * (3 / 4)) : ℂ) * I_sq - (R ^ 2 / 4 : ℂ) * sqrt3_sq
  · simp [conj_ofNat]; linear_combination (R ^ 3 / 4 * I : ℂ) * I_sq - (R ^ 3 * I / 4 : ℂ) * sqrt3_sq

/-- Every image of the centre of the triangle other than the centre lies on three directions at distance `V`. -/
theorem equilateral_image_cube (R V : ℝ) (hV : 0 < V) (hR : R ^ 3 = V ^ 3 - V) (hV2 : 4 < 3 * V ^ 2) (y : ℂ)
    (h : IsImage (midTriple (midParams3 (equilateral R))) (I * R / 2) (I * R / 2 + y)) (hy0 : y ≠ 0) :
    conj y ^ 3 = I * V ^ 3 := by
  have hc : 0 < R ^ 3 := by rw [hR]; nlinarith
  have hne : conj y ^ 3 - I * R ^ 3 ≠ 0 := by
    obtain ⟨ha, -, -⟩ := equilateral_mid R
    have l1 := h.1 ((midParams3 (equilateral R)).e1, ((midParams3 (equilateral R)).a : ℂ)) (by simp [midTriple])
    have l2 := h.1 ((midParams3 (equilateral R)).e2, -((midParams3 (equilateral R)).a : ℂ)) (by simp [midTriple])
    have l3 := h.1 (1 - (midParams3 (equilateral R)).e1 - (midParams3 (equilateral R)).e2,
      r3Complex (midParams3 (equilateral R))) (by simp [midTriple])
    rw [ha] at l1 l2
    rw [equilateral_r3] at l3
    intro hz
    have hz' : y ^ 3 + I * R ^ 3 = 0 := by
      have := congrArg conj hz
      simpa using this
    have : (y - (Real.sqrt 3 * R / 2 - I * R / 2)) * (y - (-(Real.sqrt 3 * R / 2) - I * R / 2)) * (y - R * I) = 0 := by
      rw [← hz']
      linear_combination (-(R ^ 2 * y) * (1 / 4) + (R ^ 3 * I * (1 / 4)) : ℂ) * sqrt3_sq
        + (-(R ^ 2 * y) * (3 / 4) - (R ^ 3 * I * (1 / 4)) : ℂ) * I_sq
    rcases mul_eq_zero.mp this with h12 | h3
    · rcases mul_eq_zero.mp h12 with h1 | h2
      · exact l1 (by push_cast; linear_combination h1)
      · exact l2 (by push_cast; linear_combination h2)
    · exact l3 (by linear_combination h3)
  have hl := h.2
  rw [(equilateral_lens R y hne).1] at hl
  have h1 : y * (conj y ^ 3 - I * R ^ 3) = conj y ^ 2 := by
    have : y = conj y ^ 2 / (conj y ^ 3 - I * R ^ 3) := by linear_combination hl
    rw [eq_div_iff hne] at this; exact this
  obtain ⟨ρ, hρ⟩ : ∃ ρ, ρ = normSq y := ⟨_, rfl⟩
  have hρ0 : 0 < ρ := by rw [hρ]; exact normSq_pos.mpr hy0
  have hρc : y * conj y = (ρ : ℂ) := by rw [hρ]; exact mul_conj y
  have h2 : (ρ : ℂ) * (conj y ^ 3 - I * R ^ 3) = conj y ^ 3 := by
    rw [← hρc]; linear_combination conj y * h1
  have hρ1 : ρ ≠ 1 := by
    rintro rfl
    have : (I * R ^ 3 : ℂ) = 0 := by push_cast at h2; linear_combination -h2
    have h3 : ((R ^ 3 : ℝ) : ℂ) = 0 := by
      push_cast; exact (mul_eq_zero.mp this).resolve_left I_ne_zero
    have h4 : R ^ 3 = 0 := by exact_mod_cast h3
    linarith
  have hρ1' : ρ - 1 ≠ 0 := sub_ne_zero.mpr hρ1
  obtain ⟨v, hv⟩ : ∃ v, v = R ^ 3 / (ρ - 1) := ⟨_, rfl⟩
  have hρ1c : (ρ - 1 : ℂ) ≠ 0 := by exact_mod_cast hρ1'
  have h3 : conj y ^ 3 = I * (ρ * v : ℝ) := by
    rw [hv]; push_cast; field_simp
    linear_combination h2
  have hvK : v + R ^ 3 = ρ * v := by rw [hv]; field_simp; ring
  have h4 : ρ ^ 3 = (ρ * v) ^ 2 := by
    have := congrArg normSq h3
    rw [map_pow, normSq_conj, ← hρ, map_mul, normSq_I, one_mul, normSq_ofReal] at this
    rw [this]; ring
  have h5 : ρ = v ^ 2 := by
    have : ρ ^ 2 * (ρ - v ^ 2) = 0 := by linear_combination h4
    rcases mul_eq_zero.mp this with h | h
    · exact absurd (pow_eq_zero_iff (by norm_num) |>.mp h) hρ0.ne'
    · linarith
  have h6 : (v - V) * ((v + V / 2) ^ 2 + 3 * V ^ 2 / 4 - 1) = 0 := by
    have : v ^ 3 - v = V ^ 3 - V := by rw [← hR]; rw [h5] at hvK; linear_combination -hvK
    linear_combination this
  have h7 : v = V := by
    rcases mul_eq_zero.mp h6 with h | h
    · linarith
    · nlinarith [sq_nonneg (v + V / 2)]
  rw [h3, h5, h7]; push_cast; ring

/-- The magnification of such an image. -/
theorem equilateral_det (R V : ℝ) (hV : 0 < V) (hR : R ^ 3 = V ^ 3 - V) (hV2 : 4 < 3 * V ^ 2) (y : ℂ)
    (h : conj y ^ 3 = I * V ^ 3) :
    1 / |detFormula (midTriple (midParams3 (equilateral R))) (I * R / 2 + y)| ≤ 1 / 3 := by
  have hRc : (R : ℂ) ^ 3 = V ^ 3 - V := by exact_mod_cast hR
  have hVc : (V : ℂ) ≠ 0 := by exact_mod_cast hV.ne'
  have e1 : conj y ^ 3 - I * R ^ 3 = I * V := by rw [h, hRc]; ring
  have e2 : conj y ^ 3 + 2 * (I * R ^ 3) = I * (V * (3 * V ^ 2 - 2)) := by rw [h, hRc]; ring
  rw [(equilateral_lens R y (by rw [e1]; exact mul_ne_zero I_ne_zero hVc)).2, e1, e2]
  have hn : ‖conj y‖ = V := by
    have := congrArg norm h
    rw [norm_pow, norm_mul, norm_I, one_mul, norm_pow, norm_real, Real.norm_of_nonneg hV.le] at this
    exact (pow_left_inj₀ (norm_nonneg _) hV.le (by norm_num)).mp this
  have e3 : ‖conj y * (I * (V * (3 * V ^ 2 - 2))) / (I * V) ^ 2‖ = 3 * V ^ 2 - 2 := by
    have : ((V : ℂ) * (3 * V ^ 2 - 2)) = ((V * (3 * V ^ 2 - 2) : ℝ) : ℂ) := by push_cast; ring
    rw [this, norm_div, norm_mul, norm_mul, norm_pow, norm_mul, norm_I, hn, norm_real, norm_real,
      Real.norm_of_nonneg hV.le, Real.norm_of_nonneg (by nlinarith)]
    field_simp
  rw [e3, abs_of_neg (by nlinarith)]
  rw [div_le_div_iff₀ (by nlinarith) (by norm_num)]
  nlinarith

/-- A source at the centre of the triangle, when `R³ = V³ - V` with `3 V² > 4`, has magnification at most 2 (the
centre itself and three images at distance `V`). -/
theorem equilateral_images (R V : ℝ) (hV : 0 < V) (hR : R ^ 3 = V ^ 3 - V) (hV2 : 4 < 3 * V ^ 2) :
    pointMag (midTriple (midParams3 (equilateral R))) (I * R / 2) ≤ 2 := by
  have hc : 0 < R ^ 3 := by rw [hR]; nlinarith
  obtain ⟨o, ho⟩ : ∃ o : ℂ, o = (-1 + Real.sqrt 3 * I) / 2 := ⟨_, rfl⟩
  obtain ⟨o', ho'⟩ : ∃ o : ℂ, o = (-1 - Real.sqrt 3 * I) / 2 := ⟨_, rfl⟩
  have s1 : o + o' = -1 := by rw [ho, ho']; ring
  have s2 : o * o' = 1 := by
    rw [ho, ho']; linear_combination (-(1 / 4) * I ^ 2 : ℂ) * sqrt3_sq - (3 / 4 : ℂ) * I_sq
  have c1 : conj o = o' := by rw [ho, ho']; simp [conj_ofNat]; ring
  have c2 : conj o' = o := by rw [← c1]; simp
  have o3 : o ^ 3 = 1 := by linear_combination (o ^ 2 - o) * s1 + (1 - o) * s2
  have o3' : o' ^ 3 = 1 := by linear_combination (o' ^ 2 - o') * s1 + (1 - o') * s2
  have hall := pointMag_le_of_list (midTriple (midParams3 (equilateral R))) (I * R / 2)
    [I * R / 2 + 0, I * R / 2 + I * V, I * R / 2 + I * V * o, I * R / 2 + I * V * o'] (by
      intro z hz
      obtain ⟨y, rfl⟩ : ∃ y, z = I * R / 2 + y := ⟨z - I * R / 2, by ring⟩
      by_cases hy0 : y = 0
      · simp [hy0]
      have hcube := equilateral_image_cube R V hV hR hV2 y hz hy0
      have hcube' : y ^ 3 = -(I * V ^ 3) := by
        have := congrArg conj hcube
        simpa using this
      have hprod : (y - I * V) * ((y - I * V * o) * (y - I * V * o')) = 0 := by
        linear_combination hcube' + (-(y - I * V) * y * (I * V)) * s1 + ((y - I * V) * (I * V) ^ 2) * s2
          - (I * V ^ 3) * I_sq
      rcases mul_eq_zero.mp hprod with h | h
      · have : y = I * V := by linear_combination h
        simp [this]
      · rcases mul_eq_zero.mp h with h | h
        · have : y = I * V * o := by linear_combination h
          simp [this]
        · have : y = I * V * o' := by linear_combination h
          simp [this])
  refine hall.trans ?_
  have hRc : (R : ℂ) ^ 3 ≠ 0 := by exact_mod_cast hc.ne'
  have d0 : detFormula (midTriple (midParams3 (equilateral R))) (I * R / 2 + 0) = 1 := by
    rw [(equilateral_lens R 0 (by simp; intro h; exact hRc (by rw [h]; norm_num))).2]; simp
  have d1 := equilateral_det R V hV hR hV2 (I * V) (by
    simp only [map_mul, conj_I, conj_ofReal]; linear_combination (-(I * V ^ 3)) * I_sq)
  have d2 := equilateral_det R V hV hR hV2 (I * V * o) (by
    simp only [map_mul, conj_I, conj_ofReal, c1]
    linear_combination (-(I * V ^ 3)) * I_sq * o' ^ 3 + I * V ^ 3 * o3')
  have d3 := equilateral_det R V hV hR hV2 (I * V * o') (by
    simp only [map_mul, conj_I, conj_ofReal, c2]
    linear_combination (-(I * V ^ 3)) * I_sq * o ^ 3 + I * V ^ 3 * o3)
  simp only [List.map_cons, List.map_nil, List.sum_cons, List.sum_nil]
  rw [d0]
  norm_num at d1 d2 d3 ⊢
  linarith

/-- C106, the property fails for three lenses: however large `M` is, there are three equal masses at the corners of an
equilateral triangle and a source at the centre whose magnification is at most 2, for which the code returns more than
`M`, whatever (complete) root finder is used.  The source is just outside the caustic; the roots that have ceased to be
images still map to within 1e-3 of the source, and lie next to the critical curve. -/
theorem C106_triple_violated (M : ℝ) : ∃ (u : UserParams) (w : ℂ), 0 < u.s ∧ u.q = 1 ∧ u.q3 = 1 ∧
    pointMag (triple u.s u.q u.q3 u.r3 u.psi) w ≤ 2 ∧
    (polyCoeffsTripleCM (w - xCM u) (midParams3 u).a (r3Complex (midParams3 u)) (midParams3 u).e1
      (midParams3 u).e2).headD 0 ≠ 0 ∧
    ∀ (roots : Option (List ℂ) → List ℂ → List ℂ) (c : List ℂ),
      c = polyCoeffsTripleCM (w - xCM u) (midParams3 u).a (r3Complex (midParams3 u)) (midParams3 u).e1
        (midParams3 u).e2 →
      IsRootList c (roots none c) → ∃ m, magPointSource roots 3 u w = .ok m ∧ M < m := by
  obtain ⟨h, hh⟩ : ∃ h : ℝ, h = 1 / (4000 + |M|) := ⟨_, rfl⟩
  have hM : 0 ≤ |M| := abs_nonneg M
  have hpos : 0 < h := by rw [hh]; positivity
  have hsmall : h ≤ 1 / 4000 := by
    rw [hh]; exact one_div_le_one_div_of_le (by norm_num) (by linarith)
  have hbig : |M| * (16 * h ^ 2 * (1 + h ^ 2)) < 1 := by
    have e : h * (4000 + |M|) = 1 := by rw [hh]; field_simp
    have e1 : h * |M| ≤ 1 := by nlinarith
    have : |M| * (16 * h ^ 2 * (1 + h ^ 2)) = (h * |M|) * (16 * h * (1 + h ^ 2)) := by ring
    rw [this]
    have e2 : 16 * h * (1 + h ^ 2) < 1 := by nlinarith
    have e3 : 0 ≤ 16 * h * (1 + h ^ 2) := by positivity
    nlinarith [mul_nonneg hpos.le hM]
  obtain ⟨V, hV⟩ : ∃ V, V = Real.sqrt (4 * (1 + h ^ 2) / 3) := ⟨_, rfl⟩
  have hVp : 0 < V := by rw [hV]; apply Real.sqrt_pos.mpr; positivity
  have hV2 : 3 * V ^ 2 = 4 * (1 + h ^ 2) := by rw [hV, Real.sq_sqrt (by positivity)]; ring
  have hV2' : 4 < 3 * V ^ 2 := by rw [hV2]; nlinarith [sq_pos_of_pos hpos]
  have hc0 : 0 < V ^ 3 - V := by nlinarith
  obtain ⟨R, hR⟩ : ∃ R : ℝ, R = (V ^ 3 - V) ^ ((3 : ℕ) : ℝ)⁻¹ := ⟨_, rfl⟩
  have hRp : 0 < R := by rw [hR]; exact Real.rpow_pos_of_pos hc0 _
  have hR3 : R ^ 3 = V ^ 3 - V := by rw [hR]; exact Real.rpow_inv_natCast_pow hc0.le (by norm_num)
  have hx : xCM (equilateral R) = 0 := equilateral_xCM R
  have hw : (I * R / 2 : ℂ) - (xCM (equilateral R) : ℂ) = I * R / 2 := by rw [hx]; simp
  have hhead : (polyCoeffsTripleCM (I * R / 2 - xCM (equilateral R)) (midParams3 (equilateral R)).a
      (r3Complex (midParams3 (equilateral R))) (midParams3 (equilateral R)).e1
      (midParams3 (equilateral R)).e2).headD 0 ≠ 0 := by
    rw [(triple_head _ _ _ _ _).2, hw, equilateral_r3]
    obtain ⟨ha, -, -⟩ := equilateral_mid R
    rw [ha]
    refine mul_ne_zero (mul_ne_zero ?_ ?_) ?_ <;> rw [Ne, map_eq_zero] <;> intro h0
    · have := congrArg im h0; simp at this; exact hRp.ne' this
    · have := congrArg im h0; simp at this; exact hRp.ne' this
    · have := congrArg im h0; simp at this; linarith
  refine ⟨equilateral R, I * R / 2, ?_, rfl, rfl, ?_, hhead, ?_⟩
  · simp only [equilateral]; positivity
  · rw [← (C08_triple_frame (equilateral R) (by norm_num [equilateral]) (by norm_num [equilateral])).1,
      show (I * R / 2 : ℂ) = (I * R / 2 - xCM (equilateral R)) + xCM (equilateral R) by ring, pointMag_translate, hw]
    exact equilateral_images R V hVp hR3 hV2'
  · intro roots c hc hroots
    have hdeg : c.headD 0 ≠ 0 := by rw [hc]; exact hhead
    obtain ⟨zs, h1, h2, h3⟩ := triple_list roots (equilateral R) (I * R / 2) c hc (I * R / 2)
      (equilateral_shift R).symm hroots hdeg
    refine ⟨_, h1, ?_⟩
    rw [hw] at h2 h3
    -- the spurious root
    obtain ⟨b, hb⟩ : ∃ b : ℂ, b = -(V / 2) - h * I := ⟨_, rfl⟩
    have hbb : conj b = -(V / 2) + h * I := by rw [hb]; simp [conj_ofNat]
    have hV2c : 3 * (V : ℂ) ^ 2 = 4 * (1 + h ^ 2) := by exact_mod_cast hV2
    have hR3c : (R : ℂ) ^ 3 = V ^ 3 - V := by exact_mod_cast hR3
    have hb3 : b ^ 3 - b = R ^ 3 := by
      rw [hR3c]
      have : b ^ 2 + b * V + V ^ 2 - 1 = 0 := by
        rw [hb]; linear_combination (1 / 4 : ℂ) * hV2c + (h ^ 2 : ℂ) * I_sq
      linear_combination (b - V) * this
    have hb3' : conj b ^ 3 - conj b = R ^ 3 := by
      have := congrArg conj hb3; simpa using this
    have hb0 : b ≠ 0 := by
      intro h0; have := congrArg im (hb.symm.trans h0); simp at this; exact hpos.ne' this
    obtain ⟨y, hy⟩ : ∃ y : ℂ, y = I * conj b := ⟨_, rfl⟩
    have hyc : conj y = -I * b := by rw [hy]; simp
    have hyd : conj y ^ 3 - I * R ^ 3 = I * b := by
      rw [hyc]; linear_combination (-(I * b ^ 3)) * I_sq + I * hb3
    have hyd0 : conj y ^ 3 - I * R ^ 3 ≠ 0 := by rw [hyd]; exact mul_ne_zero I_ne_zero hb0
    obtain ⟨hl, hdet⟩ := equilateral_lens R y hyd0
    have hroot : evalPoly c y = 0 := by
      rw [hc, hw, equilateral_poly]
      have e1 : y ^ 3 = -I * conj b ^ 3 := by rw [hy]; linear_combination (I * conj b ^ 3) * I_sq
      have e2 : y ^ 3 + I * R ^ 3 = -I * conj b := by rw [e1]; linear_combination (-I) * hb3'
      rw [e2, e1]
      linear_combination y * I ^ 2 * R ^ 3 * conj b ^ 3 * I_sq
    have hres : lensMap (midTriple (midParams3 (equilateral R))) (I * R / 2 + y) - I * R / 2 = ((-2 * h : ℝ) : ℂ) := by
      rw [hl, hyd, hyc, hy, hbb]
      have : (-I * b) ^ 2 / (I * b) = I * b := by
        field_simp
      rw [this, hb]; push_cast; linear_combination (2 * h : ℂ) * I_sq
    have hmem : y + I * R / 2 ∈ zs := by
      refine h3 y hroot ?_
      rw [add_comm, hres, norm_real, Real.norm_eq_abs, abs_of_neg (by linarith)]
      norm_num at hsmall ⊢; linarith
    have hnot : ¬ IsImage (midTriple (midParams3 (equilateral R))) (I * R / 2) (y + I * R / 2) := by
      intro him
      have := him.2
      rw [add_comm] at this
      rw [this, sub_self] at hres
      have : (-2 * h : ℝ) = 0 := by exact_mod_cast hres.symm
      linarith
    have hdv : detFormula (midTriple (midParams3 (equilateral R))) (y + I * R / 2) = -(16 * h ^ 2 * (1 + h ^ 2)) := by
      rw [add_comm, hdet, hyd]
      have e1 : conj y * (conj y ^ 3 + 2 * (I * R ^ 3)) / (I * b) ^ 2 = 2 - 3 * b ^ 2 := by
        have e0 : conj y ^ 3 + 2 * (I * R ^ 3) = I * (3 * b ^ 3 - 2 * b) := by
          linear_combination hyd + 3 * I * (-hb3)
        rw [e0, hyc, div_eq_iff (pow_ne_zero _ (mul_ne_zero I_ne_zero hb0))]
        ring
      have e2 : 2 - 3 * b ^ 2 = ((1 + 2 * h ^ 2 : ℝ) : ℂ) + ((-(3 * V * h) : ℝ) : ℂ) * I := by
        rw [hb]; push_cast; linear_combination (-1 / 4 : ℂ) * hV2c - (3 * h ^ 2 : ℂ) * I_sq
      rw [e1, e2, ← normSq_eq_norm_sq, normSq_add_mul_I]
      linear_combination (-3 * h ^ 2) * hV2
    have hsum := pointMag_add_le_of_list _ _ zs h2 _ hmem hnot
    have hp0 : 0 ≤ pointMag (midTriple (midParams3 (equilateral R))) (I * R / 2) :=
      finsum_nonneg fun _ => finsum_nonneg fun _ => by positivity
    rw [hdv, abs_neg, abs_of_pos (by positivity)] at hsum
    have : |M| < 1 / (16 * h ^ 2 * (1 + h ^ 2)) := by rw [lt_div_iff₀ (by positivity)]; exact hbig
    linarith [le_abs_self M]

/-- The lens map and the shear of two equal masses in coordinates centred on them. -/
theorem equal_pair_lens (a : ℝ) (p : MidParams) (hp : p.a = a) (he : p.e1 = 1 / 2) (x : ℝ) (hx : x ^ 2 - a ^ 2 ≠ 0) :
    lensMap (midBinary p) x = ((x - x / (x ^ 2 - a ^ 2) : ℝ) : ℂ) ∧
    detFormula (midBinary p) x = 1 - ((x ^ 2 + a ^ 2) / (x ^ 2 - a ^ 2) ^ 2) ^ 2 := by
  have hx' : (x - a) * (x + a) ≠ 0 := by intro h; apply hx; linear_combination h
  have h1 : x - a ≠ 0 := left_ne_zero_of_mul hx'
  have h2 : x + a ≠ 0 := right_ne_zero_of_mul hx'
  have e : x ^ 2 - a ^ 2 = (x - a) * (x + a) := by ring
  constructor
  · have : lensMap (midBinary p) x = ((x - (1 / 2 / (x - a) + (1 - 1 / 2) / (x + a)) : ℝ) : ℂ) := by
      simp [lensMap, midBinary, hp, he]
    rw [this]; congr 1
    rw [e]; field_simp; ring
  · have : detFormula (midBinary p) x
        = 1 - ‖((1 / 2 / (x - a) ^ 2 + (1 - 1 / 2) / (x + a) ^ 2 : ℝ) : ℂ)‖ ^ 2 := by
      simp [detFormula, midBinary, hp, he]
    rw [this, norm_real, Real.norm_eq_abs, sq_abs]
    congr 2
    rw [e]; field_simp; ring

/-- C106, the property fails for two lenses: however large `M` is, there is a separation just above the one at which
the resonant caustic of two equal masses splits, for which the value at the centre of mass exceeds the true
magnification by more than `M`: the roots that have ceased to be images are within 1e-6 and are counted. -/
theorem C106_binary_violated (M : ℝ) : ∃ (u : UserParams), 2 < u.s ∧ u.s < 3 ∧ u.q = 1 ∧
    (polyCoeffsBinary (0 - xCM u) (midParams2 u).a (midParams2 u).e1).headD 0 ≠ 0 ∧
    ∀ (roots : Option (List ℂ) → List ℂ → List ℂ),
      IsRootList (polyCoeffsBinary (0 - xCM u) (midParams2 u).a (midParams2 u).e1)
        (roots none (polyCoeffsBinary (0 - xCM u) (midParams2 u).a (midParams2 u).e1)) →
      ∃ m, magPointSource roots 2 u 0 = .ok m ∧ pointMag (binary u.s u.q) 0 + M < m := by
  obtain ⟨h, hh⟩ : ∃ h : ℝ, h = 1 / (4000000 + |M|) := ⟨_, rfl⟩
  have hM : 0 ≤ |M| := abs_nonneg M
  have hpos : 0 < h := by rw [hh]; positivity
  have hsmall : h ≤ 1 / 4000000 := by
    rw [hh]; exact one_div_le_one_div_of_le (by norm_num) (by linarith)
  have hbig : |M| * (4 * h ^ 2 * (1 + h ^ 2)) < 1 := by
    have e : h * (4000000 + |M|) = 1 := by rw [hh]; field_simp
    have e1 : h * |M| ≤ 1 := by nlinarith
    have : |M| * (4 * h ^ 2 * (1 + h ^ 2)) = (h * |M|) * (4 * h * (1 + h ^ 2)) := by ring
    rw [this]
    have e2 : 4 * h * (1 + h ^ 2) < 1 := by nlinarith
    have e3 : 0 ≤ 4 * h * (1 + h ^ 2) := by positivity
    nlinarith [mul_nonneg hpos.le hM]
  obtain ⟨a, ha⟩ : ∃ a, a = Real.sqrt (1 + h ^ 2) := ⟨_, rfl⟩
  have ha2 : a ^ 2 = 1 + h ^ 2 := by rw [ha, Real.sq_sqrt (by positivity)]
  have hap : 0 < a := by rw [ha]; apply Real.sqrt_pos.mpr; positivity
  have ha1 : 1 < a := by nlinarith [sq_pos_of_pos hpos]
  obtain ⟨u, hu⟩ : ∃ u : UserParams, u = { s := 2 * a, q := 1 } := ⟨_, rfl⟩
  have hs : u.s = 2 * a := by rw [hu]
  have hq : u.q = 1 := by rw [hu]
  have hpa : (midParams2 u).a = a := by simp only [midParams2, hs]; ring
  have hpe : (midParams2 u).e1 = 1 / 2 := by simp only [midParams2, hq]; norm_num
  have hx : xCM u = 0 := by simp [xCM, hq]
  have hw : (0 : ℂ) - (xCM u : ℂ) = 0 := by rw [hx]; simp
  have hac : (a : ℂ) ≠ 0 := by exact_mod_cast hap.ne'
  have hdeg : conj (0 - xCM u : ℂ) ^ 2 ≠ ((midParams2 u).a : ℂ) ^ 2 := by
    rw [hw, hpa]; simpa using (pow_ne_zero 2 hac).symm
  refine ⟨u, by rw [hs]; linarith, by rw [hs]; nlinarith, hq, ?_, ?_⟩
  · rw [(C04_binary_leading _ _ _).2]; exact sub_ne_zero.mpr hdeg
  intro roots hroots
  obtain ⟨zs, h1, h2, h3⟩ := binary_list roots u 0 hroots hdeg
  refine ⟨_, h1, ?_⟩
  rw [hw] at h2 h3
  obtain ⟨hl, hd⟩ := equal_pair_lens a (midParams2 u) hpa hpe h (by rw [ha2]; norm_num)
  have hx2 : h ^ 2 - a ^ 2 = -1 := by rw [ha2]; ring
  rw [hx2] at hl hd
  have ha2c : (a : ℂ) ^ 2 = 1 + h ^ 2 := by exact_mod_cast ha2
  have hroot : evalPoly (polyCoeffsBinary 0 (midParams2 u).a (midParams2 u).e1) h = 0 := by
    rw [evalPoly_binary, hpa, hpe]
    push_cast
    simp only [map_zero, zero_mul, zero_add, sub_zero]
    have e1 : ((h : ℂ) - a) * (h + a) = -1 := by linear_combination -ha2c
    rw [e1]; linear_combination (-(h : ℂ)) * ha2c
  have hres : lensMap (midBinary (midParams2 u)) h - 0 = ((2 * h : ℝ) : ℂ) := by
    rw [hl, sub_zero]; congr 1; ring
  have hmem : (h : ℂ) ∈ zs := by
    refine h3 h hroot ?_
    rw [hres, norm_real, Real.norm_eq_abs, abs_of_pos (by linarith)]
    norm_num at hsmall ⊢; linarith
  have hnot : ¬ IsImage (midBinary (midParams2 u)) 0 (h : ℂ) := by
    intro him
    rw [him.2, sub_self] at hres
    have : (2 * h : ℝ) = 0 := by exact_mod_cast hres.symm
    linarith
  have hdv : detFormula (midBinary (midParams2 u)) (h : ℂ) = -(4 * h ^ 2 * (1 + h ^ 2)) := by
    rw [hd, ha2]; ring
  have hsum := pointMag_add_le_of_list _ _ zs h2 _ hmem hnot
  rw [hdv, abs_neg, abs_of_pos (by positivity)] at hsum
  have hM' : |M| < 1 / (4 * h ^ 2 * (1 + h ^ 2)) := by rw [lt_div_iff₀ (by positivity)]; exact hbig
  have hfr : pointMag (binary u.s u.q) 0 = pointMag (midBinary (midParams2 u)) 0 := by
    rw [← (C08_binary_frame u (by rw [hq]; norm_num)).1, show (0 : ℂ) = (0 - xCM u) + xCM u by ring,
      pointMag_translate, hw]
    simp [hx]
  rw [hfr]
  linarith [le_abs_self M]

/-- A complete root finder exists, so the hypotheses are met: it makes the code return more than a million for a source
of magnification at most 2. -/
example : ∃ (roots : Option (List ℂ) → List ℂ → List ℂ) (u : UserParams) (w : ℂ) (m : ℝ),
    magPointSource roots 3 u w = .ok m ∧ pointMag (triple u.s u.q u.q3 u.r3 u.psi) w ≤ 2 ∧ 1000000 < m := by
  obtain ⟨roots, hr⟩ := exists_exact_roots
  obtain ⟨u, w, -, -, -, h2, hd, h⟩ := C106_triple_violated 1000000
  obtain ⟨m, hm, hlt⟩ := h roots _ rfl (hr none _ hd)
  exact ⟨roots, u, w, m, hm, h2, hlt⟩

example : ∃ (roots : Option (List ℂ) → List ℂ → List ℂ) (u : UserParams) (m : ℝ), u.q = 1 ∧
    magPointSource roots 2 u 0 = .ok m ∧ pointMag (binary u.s u.q) 0 + 1000000 < m := by
  obtain ⟨roots, hr⟩ := exists_exact_roots
  obtain ⟨u, -, -, hq, hd, h⟩ := C106_binary_violated 1000000
  obtain ⟨m, hm, hlt⟩ := h roots (hr none _ hd)
  exact ⟨roots, u, m, hq, hm, hlt⟩

/-- The hypotheses of the lower bounds are met by the same root finder and, say, masses `1 : 2`. -/
example : ∃ (roots : Option (List ℂ) → List ℂ → List ℂ) (m : ℝ),
    magPointSource roots 2 { s := 1, q := 1 / 2 } I = .ok m ∧ pointMag (binary 1 (1 / 2)) I ≤ m := by
  obtain ⟨roots, hr⟩ := exists_exact_roots
  have hdeg : conj (I - xCM { s := 1, q := 1 / 2 } : ℂ) ^ 2
      ≠ ((midParams2 { s := 1, q := 1 / 2 }).a : ℂ) ^ 2 := by
    intro h
    have := congrArg im h
    norm_num [xCM, midParams2, sq] at this
  obtain ⟨m, hm⟩ := C106_binary_partial roots { s := 1, q := 1 / 2 } I (by norm_num)
    (hr none _ (by rw [(C04_binary_leading _ _ _).2]; exact sub_ne_zero.mpr hdeg)) hdeg
  exact ⟨roots, m, hm⟩

end Microjax.Props
