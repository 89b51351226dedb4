import Verif.Lemmas.AreaFormula

/-!
# A spurious root that almost solves the lens equation is almost critical

The roots of the image polynomial come as images or as pairs `z`, `z'` of points each of which is the deflected position
of the other; the residual of the lens equation at `z` is `z - z'`.  The divided difference of the deflection between the
two points of a pair has modulus one, so that a pair at small distance lies near the critical curve.
-/

noncomputable section

namespace Microjax.Props

open Complex ComplexConjugate Microjax.Spec

variable {n : ℕ} {m : Fin n → ℝ} {c : Fin n → ℂ} {w z : ℂ}

theorem dualConj_eq (m : Fin n → ℝ) (c : Fin n → ℂ) (w z : ℂ) :
    dualConj m c w z = z - (lensMap (lensList m c) z - w) := by
  rw [lensMap_lensList, dualConj, dualOf]
  simp only [map_add, conj_conj, map_sum, map_div₀, conj_ofReal, map_sub]
  ring

theorem dualSol_off (h : DualSol m c w z) : ∀ l ∈ lensList m c, z ≠ l.2 := by
  intro l hl
  obtain ⟨i, rfl⟩ := List.mem_ofFn.mp hl
  exact h.hz i

theorem shear2_lensList (m : Fin n → ℝ) (c : Fin n → ℂ) (z z' : ℂ) :
    shear2 (lensList m c) z z' = ∑ i, (m i : ℂ) / ((conj z - conj (c i)) * (conj z' - conj (c i))) := by
  simp [shear2, lensList, List.map_ofFn, List.sum_ofFn]

theorem shear_lensList (m : Fin n → ℝ) (c : Fin n → ℂ) (z : ℂ) :
    shear (lensList m c) z = ∑ i, (m i : ℂ) / (conj z - conj (c i)) ^ 2 := by
  simp [shear, lensList, List.map_ofFn, List.sum_ofFn]

/-- The two points of a spurious pair have a divided difference of modulus one. -/
theorem spurious_shear2 (h : DualSol m c w z) (hne : dualConj m c w z ≠ z) :
    ‖shear2 (lensList m c) z (dualConj m c w z)‖ = 1 := by
  set z' := dualConj m c w z with hz'
  have h' : DualSol m c w z' := dualSol_conj m c w z h
  have e1 : z' = z - (lensMap (lensList m c) z - w) := dualConj_eq m c w z
  have e2 : z = z' - (lensMap (lensList m c) z' - w) := by
    rw [← dualConj_eq m c w z', hz', dualConj_conj m c w z h]
  have e3 := lensMap_sub (lensList m c) z z' (dualSol_off h) (dualSol_off h')
  have e4 : z - z' = conj (z - z') * shear2 (lensList m c) z z' := by linear_combination e3 - e1 + e2
  have e5 := congrArg norm e4
  rw [norm_mul, Complex.norm_conj] at e5
  have hpos : 0 < ‖z - z'‖ := norm_pos_iff.mpr (sub_ne_zero.mpr (Ne.symm hne))
  exact mul_left_cancel₀ hpos.ne' (by rw [← e5, mul_one])

/-- A spurious root whose residual is at most `δ` has a Jacobian determinant of the order of `δ`. -/
theorem spurious_det (hm : ∀ i, 0 < m i) (hsum : ∑ i, m i = 1) (a M δ : ℝ) (ha : 0 < a)
    (hsep : ∀ i j, i ≠ j → 2 * a ≤ ‖c i - c j‖) (hM : 0 < M) (hMm : ∀ i, M ≤ m i) (T d ε : ℝ)
    (hT : T = 1 + 3 / a ^ 2) (hd : d = Real.sqrt (M / T) / 2) (hε : ε = T * δ / d) (hδa : δ ≤ a / 8) (hδd : δ ≤ d)
    (h : DualSol m c w z) (hne : dualConj m c w z ≠ z) (hres : ‖lensMap (lensList m c) z - w‖ ≤ δ) :
    |detFormula (lensList m c) z| ≤ ε * (2 + ε) := by
  classical
  have hS := spurious_shear2 h hne
  set z' := dualConj m c w z with hz'
  have h' : DualSol m c w z' := dualSol_conj m c w z h
  have hzz : ‖z' - z‖ ≤ δ := by
    rw [show z' - z = -(lensMap (lensList m c) z - w) by
      rw [hz', dualConj_eq]; ring, norm_neg]
    exact hres
  have hδ0 : 0 ≤ δ := (norm_nonneg _).trans hzz
  have hT0 : 0 < T := by rw [hT]; positivity
  have hd0 : 0 < d := by rw [hd]; positivity
  have hdsq : T * (d * (2 * d)) = M / 2 := by
    have := Real.sq_sqrt (show 0 ≤ M / T by positivity)
    rw [hd]
    have e : T * (Real.sqrt (M / T) / 2 * (2 * (Real.sqrt (M / T) / 2))) = T * Real.sqrt (M / T) ^ 2 / 2 := by ring
    rw [e, this]; field_simp
  set x : Fin n → ℝ := fun i => ‖z - c i‖ with hx
  set y : Fin n → ℝ := fun i => ‖z' - c i‖ with hy
  have hx0 : ∀ i, 0 < x i := fun i => norm_pos_iff.mpr (sub_ne_zero.mpr (h.hz i))
  have hy0 : ∀ i, 0 < y i := fun i => norm_pos_iff.mpr (sub_ne_zero.mpr (h'.hz i))
  have hxy : ∀ i, x i - δ ≤ y i := by
    intro i
    have : ‖z - c i‖ ≤ ‖z' - c i‖ + ‖z' - z‖ := by
      rw [show z - c i = (z' - c i) - (z' - z) by ring]; exact norm_sub_le _ _
    simp only [hx, hy]; linarith
  have hyx : ∀ i, y i ≤ x i + δ := by
    intro i
    have : ‖z' - c i‖ ≤ ‖z - c i‖ + ‖z' - z‖ := by
      rw [show z' - c i = (z - c i) + (z' - z) by ring]; exact norm_add_le _ _
    simp only [hx, hy]; linarith
  have hnx : ∀ i, ‖conj z - conj (c i)‖ = x i := fun i => by rw [← map_sub, Complex.norm_conj]
  have hny : ∀ i, ‖conj z' - conj (c i)‖ = y i := fun i => by rw [← map_sub, Complex.norm_conj]
  have hterm : ∀ i, ‖(m i : ℂ) / ((conj z - conj (c i)) * (conj z' - conj (c i)))‖ = m i / (x i * y i) := by
    intro i
    rw [norm_div, norm_mul, hnx, hny, norm_real, Real.norm_eq_abs, abs_of_pos (hm i)]
  rw [shear2_lensList] at hS
  -- terms of lenses at a distance
  have hfar : ∀ i, a ≤ x i → m i / (x i * y i) ≤ m i * (8 / (7 * a ^ 2)) := by
    intro i hi
    have h7 : 7 * a / 8 ≤ y i := by have := hxy i; linarith
    rw [div_eq_mul_inv, show 8 / (7 * a ^ 2) = (a * (7 * a / 8))⁻¹ by field_simp]
    have hpos := hm i
    gcongr
  have hsumle : ∀ s : Finset (Fin n), (∀ i ∈ s, a ≤ x i) → ∑ i ∈ s, m i / (x i * y i) ≤ 8 / (7 * a ^ 2) := by
    intro s hs
    calc ∑ i ∈ s, m i / (x i * y i) ≤ ∑ i ∈ s, m i * (8 / (7 * a ^ 2)) := Finset.sum_le_sum fun i hi => hfar i (hs i hi)
      _ = (∑ i ∈ s, m i) * (8 / (7 * a ^ 2)) := by rw [Finset.sum_mul]
      _ ≤ 1 * (8 / (7 * a ^ 2)) := by
          gcongr
          rw [← hsum]
          exact Finset.sum_le_sum_of_subset_of_nonneg (Finset.subset_univ s) fun i _ _ => (hm i).le
      _ = _ := one_mul _
  have hTbig : 1 + 2 * (8 / (7 * a ^ 2)) ≤ T := by
    rw [hT]
    have e : 2 * (8 / (7 * a ^ 2)) = 16 / 7 * (1 / a ^ 2) := by field_simp; ring
    have e' : 3 / a ^ 2 = 3 * (1 / a ^ 2) := by ring
    have : 0 < 1 / a ^ 2 := by positivity
    rw [e, e']; linarith
  have h8 : 0 < 8 / (7 * a ^ 2) := by positivity
  have hQ : ∑ i, m i / (x i * y i) ≤ T := by
    by_cases hnear : ∃ i, x i < a
    · obtain ⟨i, hi⟩ := hnear
      have hj : ∀ j ∈ Finset.univ.erase i, a ≤ x j := by
        intro j hj
        have hji := hsep j i (Finset.mem_erase.mp hj).1
        have : ‖c j - c i‖ ≤ ‖z - c i‖ + ‖z - c j‖ := by
          rw [show c j - c i = (z - c i) - (z - c j) by ring]; exact norm_sub_le _ _
        have hi' : ‖z - c i‖ < a := hi
        show a ≤ ‖z - c j‖
        linarith
      have h1 := hsumle _ hj
      rw [← Finset.add_sum_erase _ _ (Finset.mem_univ i)] at hS ⊢
      have h2 : ‖∑ j ∈ Finset.univ.erase i, (m j : ℂ) / ((conj z - conj (c j)) * (conj z' - conj (c j)))‖
          ≤ ∑ j ∈ Finset.univ.erase i, m j / (x j * y j) :=
        (norm_sum_le _ _).trans (Finset.sum_le_sum fun j _ => (hterm j).le)
      have h3 : m i / (x i * y i) ≤ 1 + 8 / (7 * a ^ 2) := by
        rw [← hterm i]
        set A := (m i : ℂ) / ((conj z - conj (c i)) * (conj z' - conj (c i)))
        set B := ∑ j ∈ Finset.univ.erase i, (m j : ℂ) / ((conj z - conj (c j)) * (conj z' - conj (c j)))
        have : ‖A‖ ≤ ‖A + B‖ + ‖B‖ := by
          conv_lhs => rw [show A = (A + B) - B by ring]
          exact norm_sub_le _ _
        linarith
      linarith
    · push Not at hnear
      have := hsumle Finset.univ fun i _ => hnear i
      linarith
  have hxd : ∀ i, d ≤ x i := by
    intro i
    by_contra hlt
    push Not at hlt
    have h1 : m i / (x i * y i) ≤ T :=
      (Finset.single_le_sum (f := fun i => m i / (x i * y i)) (fun j _ => by
        have := hm j; have := hx0 j; have := hy0 j; positivity) (Finset.mem_univ i)).trans hQ
    rw [div_le_iff₀ (mul_pos (hx0 i) (hy0 i))] at h1
    have h2 : x i * y i < d * (2 * d) := by
      have := hyx i
      have := hx0 i
      have := hy0 i
      nlinarith
    have h3 : T * (x i * y i) < T * (d * (2 * d)) := mul_lt_mul_of_pos_left h2 hT0
    have h4 := hMm i
    linarith
  have hdiff : ‖shear (lensList m c) z - ∑ i, (m i : ℂ) / ((conj z - conj (c i)) * (conj z' - conj (c i)))‖ ≤ ε := by
    rw [shear_lensList, ← Finset.sum_sub_distrib]
    calc ‖∑ i, ((m i : ℂ) / (conj z - conj (c i)) ^ 2 - (m i : ℂ) / ((conj z - conj (c i)) * (conj z' - conj (c i))))‖
        ≤ ∑ i, ‖(m i : ℂ) / (conj z - conj (c i)) ^ 2
            - (m i : ℂ) / ((conj z - conj (c i)) * (conj z' - conj (c i)))‖ := norm_sum_le _ _
      _ ≤ ∑ i, m i / (x i * y i) * (δ / d) := by
          refine Finset.sum_le_sum fun i _ => ?_
          have hX : conj z - conj (c i) ≠ 0 := norm_pos_iff.mp (by rw [hnx]; exact hx0 i)
          have hY : conj z' - conj (c i) ≠ 0 := norm_pos_iff.mp (by rw [hny]; exact hy0 i)
          have e : (m i : ℂ) / (conj z - conj (c i)) ^ 2 - (m i : ℂ) / ((conj z - conj (c i)) * (conj z' - conj (c i)))
              = (m i : ℂ) / ((conj z - conj (c i)) * (conj z' - conj (c i))) *
                ((conj z' - conj z) / (conj z - conj (c i))) := by
            field_simp; ring
          rw [e, norm_mul, hterm, norm_div, hnx, ← map_sub, Complex.norm_conj]
          have h1 : ‖z' - z‖ / x i ≤ δ / d := div_le_div₀ hδ0 hzz hd0 (hxd i)
          have := hm i; have := hx0 i; have := hy0 i
          exact mul_le_mul_of_nonneg_left h1 (by positivity)
      _ = (∑ i, m i / (x i * y i)) * (δ / d) := by rw [Finset.sum_mul]
      _ ≤ T * (δ / d) := mul_le_mul_of_nonneg_right hQ (by positivity)
      _ = ε := by rw [hε]; ring
  have hε0 : 0 ≤ ε := (norm_nonneg _).trans hdiff
  rw [detFormula_lensList, ← shear_lensList]
  set s := ‖shear (lensList m c) z‖ with hs
  have h1 : |s - 1| ≤ ε := by
    rw [← hS]
    exact (abs_norm_sub_norm_le _ _).trans hdiff
  have h2 : 0 ≤ s := norm_nonneg _
  rw [abs_le] at h1
  rw [abs_le]
  constructor <;> nlinarith

end Microjax.Props
