import Mathlib.Analysis.Complex.Basic
import Mathlib.LinearAlgebra.Dimension.Constructions
import Mathlib.LinearAlgebra.FiniteDimensional.Basic
import Mathlib.LinearAlgebra.FiniteDimensional.Lemmas
import Mathlib.SetTheory.Cardinal.Order
import Mathlib.Tactic.LinearCombination
import Mathlib.Tactic.FieldSimp

/-!
# Parity count of images by an orthogonality relation

The lens equation of `n` point masses and its conjugate, read as two equations for independent unknowns `ζ` and `y`,
have "complexified" solutions; a solution is an image when `y = conj ζ`.  Each solution gives the vector
`(1, 1 / ((ζ - cᵢ) (y - c̄ⱼ)))` of `ℂ^(1 + n²)`, and vectors of different solutions are orthogonal for the bilinear
form `t t' - Σ mᵢ mⱼ Xᵢⱼ X'ᵢⱼ`.  Counting dimensions gives the number of images of either parity.
-/

noncomputable section

namespace Microjax.Props

open Complex ComplexConjugate

variable {n : ℕ}

/-- The conjugate variable belonging to `ζ`. -/
def dualOf (m : Fin n → ℝ) (c : Fin n → ℂ) (w ζ : ℂ) : ℂ := conj w + ∑ i, (m i : ℂ) / (ζ - c i)

/-- Complexified solution of the lens equation. -/
structure DualSol (m : Fin n → ℝ) (c : Fin n → ℂ) (w ζ : ℂ) : Prop where
  hz : ∀ i, ζ ≠ c i
  hy : ∀ i, dualOf m c w ζ ≠ conj (c i)
  ez : ζ = w + ∑ i, (m i : ℂ) / (dualOf m c w ζ - conj (c i))

/-- The determinant `1 - Y'(ζ) R'(y)` of a complexified solution. -/
def dualDet (m : Fin n → ℝ) (c : Fin n → ℂ) (w ζ : ℂ) : ℂ :=
  1 - (∑ i, (m i : ℂ) / (ζ - c i) ^ 2) * ∑ j, (m j : ℂ) / (dualOf m c w ζ - conj (c j)) ^ 2

/-- Coordinates of the vector of a solution. -/
def dualVec (m : Fin n → ℝ) (c : Fin n → ℂ) (w ζ : ℂ) (i j : Fin n) : ℂ :=
  1 / ((ζ - c i) * (dualOf m c w ζ - conj (c j)))

/-- The reflected solution. -/
def dualConj (m : Fin n → ℝ) (c : Fin n → ℂ) (w ζ : ℂ) : ℂ := conj (dualOf m c w ζ)

theorem dualOf_conj (m : Fin n → ℝ) (c : Fin n → ℂ) (w ζ : ℂ) (h : DualSol m c w ζ) :
    dualOf m c w (dualConj m c w ζ) = conj ζ := by
  conv_rhs => rw [h.ez]
  unfold dualConj
  conv_lhs => rw [dualOf]
  rw [map_add, map_sum]
  congr 1
  refine Finset.sum_congr rfl fun i _ => ?_
  simp

theorem dualConj_conj (m : Fin n → ℝ) (c : Fin n → ℂ) (w ζ : ℂ) (h : DualSol m c w ζ) :
    dualConj m c w (dualConj m c w ζ) = ζ := by
  rw [dualConj, dualOf_conj m c w ζ h, Complex.conj_conj]

theorem dualSol_conj (m : Fin n → ℝ) (c : Fin n → ℂ) (w ζ : ℂ) (h : DualSol m c w ζ) :
    DualSol m c w (dualConj m c w ζ) := by
  refine ⟨fun i e => h.hy i ?_, fun i e => h.hz i ?_, ?_⟩
  · rw [← e, dualConj, Complex.conj_conj]
  · rw [dualOf_conj m c w ζ h] at e
    exact (starRingEnd ℂ).injective e
  · rw [dualOf_conj m c w ζ h]
    unfold dualConj
    conv_lhs => rw [dualOf]
    simp

theorem dualDet_conj (m : Fin n → ℝ) (c : Fin n → ℂ) (w ζ : ℂ) (h : DualSol m c w ζ) :
    dualDet m c w (dualConj m c w ζ) = conj (dualDet m c w ζ) := by
  simp only [dualDet, dualOf_conj m c w ζ h, map_sub, map_mul, map_sum, map_div₀, map_pow, map_one, conj_ofReal,
    Complex.conj_conj]
  rw [mul_comm]
  rfl

theorem dualVec_conj (m : Fin n → ℝ) (c : Fin n → ℂ) (w ζ : ℂ) (h : DualSol m c w ζ) (i j : Fin n) :
    dualVec m c w (dualConj m c w ζ) i j = conj (dualVec m c w ζ j i) := by
  simp only [dualVec, dualOf_conj m c w ζ h, map_div₀, map_mul, map_sub, map_one, Complex.conj_conj]
  rw [mul_comm]
  rfl

/-- Vectors of different solutions are orthogonal, and the square of a vector is the determinant. -/
theorem dual_gram (m : Fin n → ℝ) (c : Fin n → ℂ) (w ζ ξ : ℂ) (h : DualSol m c w ζ) (g : DualSol m c w ξ) :
    1 - ∑ i, ∑ j, (m i : ℂ) * m j * dualVec m c w ζ i j * dualVec m c w ξ i j =
      if ζ = ξ then dualDet m c w ζ else 0 := by
  have hsum : ∑ i, ∑ j, (m i : ℂ) * m j * dualVec m c w ζ i j * dualVec m c w ξ i j =
      (∑ i, (m i : ℂ) / ((ζ - c i) * (ξ - c i))) *
        ∑ j, (m j : ℂ) / ((dualOf m c w ζ - conj (c j)) * (dualOf m c w ξ - conj (c j))) := by
    rw [Finset.sum_mul_sum]
    refine Finset.sum_congr rfl fun i _ => Finset.sum_congr rfl fun j _ => ?_
    have h1 := sub_ne_zero.mpr (h.hz i)
    have h2 := sub_ne_zero.mpr (g.hz i)
    have h3 := sub_ne_zero.mpr (h.hy j)
    have h4 := sub_ne_zero.mpr (g.hy j)
    simp only [dualVec]
    field_simp
  rw [hsum]
  split_ifs with e
  · subst e
    simp only [dualDet, sq]
  · set A := ∑ i, (m i : ℂ) / ((ζ - c i) * (ξ - c i)) with hA
    set B := ∑ j, (m j : ℂ) / ((dualOf m c w ζ - conj (c j)) * (dualOf m c w ξ - conj (c j))) with hB
    have e1 : dualOf m c w ζ - dualOf m c w ξ = -(ζ - ξ) * A := by
      simp only [dualOf]
      rw [hA, Finset.mul_sum, add_sub_add_left_eq_sub, ← Finset.sum_sub_distrib]
      refine Finset.sum_congr rfl fun i _ => ?_
      have h1 := sub_ne_zero.mpr (h.hz i)
      have h2 := sub_ne_zero.mpr (g.hz i)
      field_simp
      ring
    have e2 : ζ - ξ = -(dualOf m c w ζ - dualOf m c w ξ) * B := by
      conv_lhs => rw [h.ez, g.ez]
      rw [hB, Finset.mul_sum, add_sub_add_left_eq_sub, ← Finset.sum_sub_distrib]
      refine Finset.sum_congr rfl fun i _ => ?_
      have h1 := sub_ne_zero.mpr (h.hy i)
      have h2 := sub_ne_zero.mpr (g.hy i)
      field_simp
      ring
    have hne : ζ - ξ ≠ 0 := sub_ne_zero.mpr e
    have : (ζ - ξ) * (1 - A * B) = 0 := by rw [e1] at e2; linear_combination e2
    exact (mul_eq_zero.mp this).resolve_left hne

/-- First coordinate of a combination of vectors. -/
def combT (S : Finset ℂ) (a : ℂ → ℂ) : ℂ := ∑ ζ ∈ S, a ζ

/-- Other coordinates of a combination of vectors. -/
def combX (m : Fin n → ℝ) (c : Fin n → ℂ) (w : ℂ) (S : Finset ℂ) (a : ℂ → ℂ) (i j : Fin n) : ℂ :=
  ∑ ζ ∈ S, a ζ * dualVec m c w ζ i j

theorem comb_coeff (m : Fin n → ℝ) (c : Fin n → ℂ) (w : ℂ) (S : Finset ℂ) (hS : ∀ ζ ∈ S, DualSol m c w ζ)
    (a : ℂ → ℂ) (ξ : ℂ) (hξ : DualSol m c w ξ) :
    combT S a - ∑ i, ∑ j, (m i : ℂ) * m j * combX m c w S a i j * dualVec m c w ξ i j =
      if ξ ∈ S then a ξ * dualDet m c w ξ else 0 := by
  classical
  have e : combT S a - ∑ i, ∑ j, (m i : ℂ) * m j * combX m c w S a i j * dualVec m c w ξ i j =
      ∑ ζ ∈ S, a ζ * (1 - ∑ i, ∑ j, (m i : ℂ) * m j * dualVec m c w ζ i j * dualVec m c w ξ i j) := by
    simp only [mul_sub, mul_one, Finset.sum_sub_distrib, combT, combX]
    congr 1
    simp only [Finset.mul_sum, Finset.sum_mul]
    rw [Finset.sum_comm' (s := S) (t' := Finset.univ) (s' := fun _ => S) (t := fun _ => Finset.univ) (by simp)]
    refine Finset.sum_congr rfl fun i _ => ?_
    rw [Finset.sum_comm]
    refine Finset.sum_congr rfl fun j _ => Finset.sum_congr rfl fun k _ => ?_
    ring
  rw [e, Finset.sum_congr rfl fun ζ hζ => by rw [dual_gram m c w ζ ξ (hS ζ hζ) hξ]]
  simp only [mul_ite, mul_zero]
  rw [Finset.sum_ite_eq']

/-- Hermitian square of a combination over a set that contains no reflected pair. -/
theorem comb_herm (m : Fin n → ℝ) (c : Fin n → ℂ) (w : ℂ) (S : Finset ℂ) (hS : ∀ ζ ∈ S, DualSol m c w ζ)
    (hR : ∀ ζ ∈ S, dualConj m c w ζ ∈ S → dualConj m c w ζ = ζ) (a : ℂ → ℂ) :
    combT S a * conj (combT S a) -
        ∑ i, ∑ j, (m i : ℂ) * m j * combX m c w S a i j * conj (combX m c w S a j i) =
      ∑ ζ ∈ S, if dualConj m c w ζ = ζ then a ζ * conj (a ζ) * dualDet m c w ζ else 0 := by
  classical
  have e : combT S a * conj (combT S a) -
        ∑ i, ∑ j, (m i : ℂ) * m j * combX m c w S a i j * conj (combX m c w S a j i) =
      ∑ ζ ∈ S, conj (a ζ) * (combT S a -
        ∑ i, ∑ j, (m i : ℂ) * m j * combX m c w S a i j * dualVec m c w (dualConj m c w ζ) i j) := by
    simp only [mul_sub, Finset.sum_sub_distrib]
    congr 1
    · rw [← Finset.sum_mul, mul_comm]; simp [combT]
    · have : ∀ i j, conj (combX m c w S a j i) =
          ∑ ζ ∈ S, conj (a ζ) * dualVec m c w (dualConj m c w ζ) i j := by
        intro i j
        rw [combX, map_sum]
        refine Finset.sum_congr rfl fun ζ hζ => ?_
        rw [map_mul, dualVec_conj m c w ζ (hS ζ hζ)]
      simp only [this]
      simp only [Finset.mul_sum]
      rw [Finset.sum_comm' (s := S) (t' := Finset.univ) (s' := fun _ => S) (t := fun _ => Finset.univ) (by simp)]
      refine Finset.sum_congr rfl fun i _ => ?_
      rw [Finset.sum_comm]
      refine Finset.sum_congr rfl fun j _ => Finset.sum_congr rfl fun k _ => ?_
      ring
  rw [e]
  refine Finset.sum_congr rfl fun ζ hζ => ?_
  rw [comb_coeff m c w S hS a _ (dualSol_conj m c w ζ (hS ζ hζ))]
  by_cases h : dualConj m c w ζ = ζ
  · rw [if_pos h, h, if_pos hζ]; ring
  · rw [if_neg h, if_neg fun h' => h (hR ζ hζ h'), mul_zero]

/-- A combination of vectors with nonzero determinants vanishes only trivially. -/
theorem comb_eq_zero (m : Fin n → ℝ) (c : Fin n → ℂ) (w : ℂ) (S : Finset ℂ) (hS : ∀ ζ ∈ S, DualSol m c w ζ)
    (hd : ∀ ζ ∈ S, dualDet m c w ζ ≠ 0) (a : ℂ → ℂ) (h1 : combT S a = 0)
    (h2 : ∀ i j, combX m c w S a i j = 0) : ∀ ζ ∈ S, a ζ = 0 := by
  intro ζ hζ
  have h := comb_coeff m c w S hS a ζ (hS ζ hζ)
  rw [if_pos hζ, h1] at h
  simp only [h2] at h
  simp only [mul_zero, zero_mul, Finset.sum_const_zero, sub_zero] at h
  exact (mul_eq_zero.mp h.symm).resolve_right (hd ζ hζ)

/-- Extension of coefficients by zero. -/
def extendZero (S : Finset ℂ) (a : S → ℂ) (ζ : ℂ) : ℂ := by
  classical exact if h : ζ ∈ S then a ⟨ζ, h⟩ else 0

theorem extendZero_add (S : Finset ℂ) (a b : S → ℂ) (ζ : ℂ) :
    extendZero S (a + b) ζ = extendZero S a ζ + extendZero S b ζ := by
  unfold extendZero; split_ifs <;> simp

theorem extendZero_smul (S : Finset ℂ) (r : ℂ) (a : S → ℂ) (ζ : ℂ) :
    extendZero S (r • a) ζ = r * extendZero S a ζ := by
  unfold extendZero; split_ifs <;> simp

theorem extendZero_eq (S : Finset ℂ) (a : S → ℂ) (ζ : S) : extendZero S a ζ = a ζ := by
  unfold extendZero; simp

theorem combT_add (S : Finset ℂ) (a b : S → ℂ) :
    combT S (extendZero S (a + b)) = combT S (extendZero S a) + combT S (extendZero S b) := by
  simp only [combT, extendZero_add, Finset.sum_add_distrib]

theorem combT_smul (S : Finset ℂ) (r : ℂ) (a : S → ℂ) :
    combT S (extendZero S (r • a)) = r * combT S (extendZero S a) := by
  simp only [combT, extendZero_smul, Finset.mul_sum]

theorem combX_add (m : Fin n → ℝ) (c : Fin n → ℂ) (w : ℂ) (S : Finset ℂ) (a b : S → ℂ) (i j : Fin n) :
    combX m c w S (extendZero S (a + b)) i j =
      combX m c w S (extendZero S a) i j + combX m c w S (extendZero S b) i j := by
  simp only [combX, extendZero_add, add_mul, Finset.sum_add_distrib]

theorem combX_smul (m : Fin n → ℝ) (c : Fin n → ℂ) (w : ℂ) (S : Finset ℂ) (r : ℂ) (a : S → ℂ) (i j : Fin n) :
    combX m c w S (extendZero S (r • a)) i j = r * combX m c w S (extendZero S a) i j := by
  simp only [combX, extendZero_smul, Finset.mul_sum, mul_assoc]

/-- A set without reflected pairs whose images have positive determinant has at most `1 + n(n-1)/2` elements. -/
theorem card_pos_le (m : Fin n → ℝ) (hm : ∀ i, 0 < m i) (c : Fin n → ℂ) (w : ℂ) (S : Finset ℂ)
    (hS : ∀ ζ ∈ S, DualSol m c w ζ) (hd : ∀ ζ ∈ S, dualDet m c w ζ ≠ 0)
    (hR : ∀ ζ ∈ S, dualConj m c w ζ ∈ S → dualConj m c w ζ = ζ)
    (hpos : ∀ ζ ∈ S, dualConj m c w ζ = ζ → 0 ≤ (dualDet m c w ζ).re) :
    S.card ≤ Fintype.card {p : Fin n × Fin n // p.1 < p.2} + 1 := by
  classical
  let F : (S → ℂ) →ₗ[ℂ] (Option {p : Fin n × Fin n // p.1 < p.2} → ℂ) :=
    { toFun := fun a o => match o with
        | none => combT S (extendZero S a)
        | some p => combX m c w S (extendZero S a) p.1.1 p.1.2 - combX m c w S (extendZero S a) p.1.2 p.1.1
      map_add' := by
        intro a b; funext o
        cases o with
        | none => exact combT_add S a b
        | some p => simp only [combX_add, Pi.add_apply]; ring
      map_smul' := by
        intro r a; funext o
        cases o with
        | none => exact combT_smul S r a
        | some p => simp only [combX_smul, Pi.smul_apply, smul_eq_mul, RingHom.id_apply]; ring }
  have hinj : Function.Injective F := by
    rw [← LinearMap.ker_eq_bot, LinearMap.ker_eq_bot']
    intro a ha
    set b := extendZero S a with hb
    have hT : combT S b = 0 := congrFun ha none
    have hX : ∀ i j, combX m c w S b i j = combX m c w S b j i := by
      have lt : ∀ i j : Fin n, i < j → combX m c w S b i j = combX m c w S b j i := fun i j hij =>
        sub_eq_zero.mp (congrFun ha (some ⟨(i, j), hij⟩))
      intro i j
      rcases lt_trichotomy i j with h | h | h
      · exact lt i j h
      · rw [h]
      · exact (lt j i h).symm
    have hh := comb_herm m c w S hS hR b
    rw [hT] at hh
    have hre := congrArg Complex.re hh
    have hl : (0 * conj (0 : ℂ) - ∑ i, ∑ j, (m i : ℂ) * m j * combX m c w S b i j * conj (combX m c w S b j i)).re =
        -∑ i, ∑ j, m i * m j * Complex.normSq (combX m c w S b i j) := by
      rw [zero_mul, zero_sub, Complex.neg_re, Complex.re_sum]
      congr 1
      refine Finset.sum_congr rfl fun i _ => ?_
      rw [Complex.re_sum]
      refine Finset.sum_congr rfl fun j _ => ?_
      rw [hX j i, mul_assoc, Complex.mul_conj, ← Complex.ofReal_mul, ← Complex.ofReal_mul, Complex.ofReal_re]
    rw [hl] at hre
    have hr : 0 ≤ (∑ ζ ∈ S, if dualConj m c w ζ = ζ then b ζ * conj (b ζ) * dualDet m c w ζ else 0).re := by
      rw [Complex.re_sum]
      refine Finset.sum_nonneg fun ζ hζ => ?_
      split_ifs with h
      · rw [Complex.mul_conj, Complex.re_ofReal_mul]
        exact mul_nonneg (Complex.normSq_nonneg _) (hpos ζ hζ h)
      · simp
    rw [← hre] at hr
    have hnn : ∀ i ∈ (Finset.univ : Finset (Fin n)), 0 ≤ ∑ j, m i * m j * Complex.normSq (combX m c w S b i j) :=
      fun i _ => Finset.sum_nonneg fun j _ =>
        mul_nonneg (mul_nonneg (hm i).le (hm j).le) (Complex.normSq_nonneg _)
    have h0 : ∑ i, ∑ j, m i * m j * Complex.normSq (combX m c w S b i j) = 0 :=
      le_antisymm (by linarith) (Finset.sum_nonneg hnn)
    have hX0 : ∀ i j, combX m c w S b i j = 0 := by
      intro i j
      have h1 := (Finset.sum_eq_zero_iff_of_nonneg hnn).mp h0 i (Finset.mem_univ _)
      have h2 := (Finset.sum_eq_zero_iff_of_nonneg fun j _ =>
        mul_nonneg (mul_nonneg (hm i).le (hm j).le) (Complex.normSq_nonneg _)).mp h1 j (Finset.mem_univ _)
      exact Complex.normSq_eq_zero.mp ((mul_eq_zero.mp h2).resolve_left (mul_pos (hm i) (hm j)).ne')
    have := comb_eq_zero m c w S hS hd b hT hX0
    funext ζ
    rw [← extendZero_eq S a ζ]
    exact this ζ ζ.2
  have := LinearMap.finrank_le_finrank_of_injective hinj
  rw [Module.finrank_fintype_fun_eq_card, Module.finrank_fintype_fun_eq_card, Fintype.card_option] at this
  simpa using this

/-- A set without reflected pairs whose images have negative determinant has at most `n(n+1)/2` elements. -/
theorem card_neg_le (m : Fin n → ℝ) (hm : ∀ i, 0 < m i) (c : Fin n → ℂ) (w : ℂ) (S : Finset ℂ)
    (hS : ∀ ζ ∈ S, DualSol m c w ζ) (hd : ∀ ζ ∈ S, dualDet m c w ζ ≠ 0)
    (hR : ∀ ζ ∈ S, dualConj m c w ζ ∈ S → dualConj m c w ζ = ζ)
    (hneg : ∀ ζ ∈ S, dualConj m c w ζ = ζ → (dualDet m c w ζ).re ≤ 0) :
    S.card ≤ Fintype.card {p : Fin n × Fin n // p.1 ≤ p.2} := by
  classical
  let F : (S → ℂ) →ₗ[ℂ] ({p : Fin n × Fin n // p.1 ≤ p.2} → ℂ) :=
    { toFun := fun a p =>
        combX m c w S (extendZero S a) p.1.1 p.1.2 + combX m c w S (extendZero S a) p.1.2 p.1.1
      map_add' := by
        intro a b; funext p
        simp only [combX_add, Pi.add_apply]; ring
      map_smul' := by
        intro r a; funext p
        simp only [combX_smul, Pi.smul_apply, smul_eq_mul, RingHom.id_apply]; ring }
  have hinj : Function.Injective F := by
    rw [← LinearMap.ker_eq_bot, LinearMap.ker_eq_bot']
    intro a ha
    set b := extendZero S a with hb
    have hX : ∀ i j, combX m c w S b j i = -combX m c w S b i j := by
      have le : ∀ i j : Fin n, i ≤ j → combX m c w S b i j + combX m c w S b j i = 0 := fun i j hij =>
        congrFun ha ⟨(i, j), hij⟩
      intro i j
      rcases le_total i j with h | h
      · linear_combination le i j h
      · linear_combination le j i h
    have hh := comb_herm m c w S hS hR b
    have hre := congrArg Complex.re hh
    have hl : (combT S b * conj (combT S b) -
        ∑ i, ∑ j, (m i : ℂ) * m j * combX m c w S b i j * conj (combX m c w S b j i)).re =
        Complex.normSq (combT S b) + ∑ i, ∑ j, m i * m j * Complex.normSq (combX m c w S b i j) := by
      rw [Complex.sub_re, Complex.mul_conj, Complex.ofReal_re, Complex.re_sum, sub_eq_add_neg]
      congr 1
      rw [← Finset.sum_neg_distrib]
      refine Finset.sum_congr rfl fun i _ => ?_
      rw [Complex.re_sum, ← Finset.sum_neg_distrib]
      refine Finset.sum_congr rfl fun j _ => ?_
      rw [hX i j, map_neg, mul_neg, Complex.neg_re, neg_neg, mul_assoc, Complex.mul_conj, ← Complex.ofReal_mul,
        ← Complex.ofReal_mul, Complex.ofReal_re]
    rw [hl] at hre
    have hr : (∑ ζ ∈ S, if dualConj m c w ζ = ζ then b ζ * conj (b ζ) * dualDet m c w ζ else 0).re ≤ 0 := by
      rw [Complex.re_sum]
      refine Finset.sum_nonpos fun ζ hζ => ?_
      split_ifs with h
      · rw [Complex.mul_conj, Complex.re_ofReal_mul]
        exact mul_nonpos_of_nonneg_of_nonpos (Complex.normSq_nonneg _) (hneg ζ hζ h)
      · simp
    rw [← hre] at hr
    have hnn : ∀ i ∈ (Finset.univ : Finset (Fin n)), 0 ≤ ∑ j, m i * m j * Complex.normSq (combX m c w S b i j) :=
      fun i _ => Finset.sum_nonneg fun j _ =>
        mul_nonneg (mul_nonneg (hm i).le (hm j).le) (Complex.normSq_nonneg _)
    have hs := Finset.sum_nonneg hnn
    have ht := Complex.normSq_nonneg (combT S b)
    have hT : combT S b = 0 := Complex.normSq_eq_zero.mp (by linarith)
    have h0 : ∑ i, ∑ j, m i * m j * Complex.normSq (combX m c w S b i j) = 0 := by linarith
    have hX0 : ∀ i j, combX m c w S b i j = 0 := by
      intro i j
      have h1 := (Finset.sum_eq_zero_iff_of_nonneg hnn).mp h0 i (Finset.mem_univ _)
      have h2 := (Finset.sum_eq_zero_iff_of_nonneg fun j _ =>
        mul_nonneg (mul_nonneg (hm i).le (hm j).le) (Complex.normSq_nonneg _)).mp h1 j (Finset.mem_univ _)
      exact Complex.normSq_eq_zero.mp ((mul_eq_zero.mp h2).resolve_left (mul_pos (hm i) (hm j)).ne')
    have := comb_eq_zero m c w S hS hd b hT hX0
    funext ζ
    rw [← extendZero_eq S a ζ]
    exact this ζ ζ.2
  have := LinearMap.finrank_le_finrank_of_injective hinj
  rw [Module.finrank_fintype_fun_eq_card, Module.finrank_fintype_fun_eq_card] at this
  simpa using this

/-- The number of images of either parity when all complexified solutions are known. -/
theorem image_index (m : Fin n → ℝ) (hm : ∀ i, 0 < m i) (c : Fin n → ℂ) (w : ℂ) (S : Finset ℂ)
    (hS : ∀ ζ ∈ S, DualSol m c w ζ) (hd : ∀ ζ ∈ S, dualDet m c w ζ ≠ 0) (hcl : ∀ ζ ∈ S, dualConj m c w ζ ∈ S)
    (hcard : S.card = Fintype.card {p : Fin n × Fin n // p.1 < p.2} + 1 +
      Fintype.card {p : Fin n × Fin n // p.1 ≤ p.2}) :
    ∃ k : ℕ,
      {ζ ∈ S | dualConj m c w ζ = ζ ∧ 0 < (dualDet m c w ζ).re}.card + k =
        Fintype.card {p : Fin n × Fin n // p.1 < p.2} + 1 ∧
      {ζ ∈ S | dualConj m c w ζ = ζ ∧ (dualDet m c w ζ).re < 0}.card + k =
        Fintype.card {p : Fin n × Fin n // p.1 ≤ p.2} ∧
      {ζ ∈ S | dualConj m c w ζ = ζ}.card + 2 * k = S.card := by
  classical
  let r : ℂ → ℂ → Prop := WellOrderingRel
  set σ := dualConj m c w with hσ
  have hσσ : ∀ ζ ∈ S, σ (σ ζ) = ζ := fun ζ hζ => dualConj_conj m c w ζ (hS ζ hζ)
  have asym : ∀ a b, r a b → ¬ r b a := fun a b h h' => asymm_of WellOrderingRel h h'
  have irr : ∀ a, ¬ r a a := fun a => irrefl_of WellOrderingRel a
  have tri : ∀ a b, r a b ∨ a = b ∨ r b a := fun a b => trichotomous_of WellOrderingRel a b
  set P := {ζ ∈ S | σ ζ = ζ ∧ 0 < (dualDet m c w ζ).re} with hP
  set N := {ζ ∈ S | σ ζ = ζ ∧ (dualDet m c w ζ).re < 0} with hN
  set L := {ζ ∈ S | r ζ (σ ζ)} with hL
  set G := {ζ ∈ S | r (σ ζ) ζ} with hG
  have memP : ∀ ζ, ζ ∈ P ↔ ζ ∈ S ∧ σ ζ = ζ ∧ 0 < (dualDet m c w ζ).re := fun ζ => by rw [hP, Finset.mem_filter]
  have memN : ∀ ζ, ζ ∈ N ↔ ζ ∈ S ∧ σ ζ = ζ ∧ (dualDet m c w ζ).re < 0 := fun ζ => by rw [hN, Finset.mem_filter]
  have memL : ∀ ζ, ζ ∈ L ↔ ζ ∈ S ∧ r ζ (σ ζ) := fun ζ => by rw [hL, Finset.mem_filter]
  have memG : ∀ ζ, ζ ∈ G ↔ ζ ∈ S ∧ r (σ ζ) ζ := fun ζ => by rw [hG, Finset.mem_filter]
  -- determinants of images are real
  have him : ∀ ζ ∈ S, σ ζ = ζ → (dualDet m c w ζ).re ≠ 0 := by
    intro ζ hζ h h0
    have h1 := dualDet_conj m c w ζ (hS ζ hζ)
    rw [← hσ, h] at h1
    have h2 : (dualDet m c w ζ).im = 0 := Complex.conj_eq_iff_im.mp h1.symm
    exact hd ζ hζ (Complex.ext h0 h2)
  have hLG : L.card = G.card := by
    refine Finset.card_bij (fun ζ _ => σ ζ) ?_ ?_ ?_
    · intro ζ hζ
      obtain ⟨h1, h2⟩ := (memL ζ).mp hζ
      exact (memG _).mpr ⟨hcl ζ h1, by rw [hσσ ζ h1]; exact h2⟩
    · intro a ha b hb h
      rw [← hσσ a ((memL a).mp ha).1, h, hσσ b ((memL b).mp hb).1]
    · intro b hb
      obtain ⟨h1, h2⟩ := (memG b).mp hb
      exact ⟨σ b, (memL _).mpr ⟨hcl b h1, by rw [hσσ b h1]; exact h2⟩, hσσ b h1⟩
  have dPL : Disjoint P L := by
    rw [Finset.disjoint_left]; intro ζ h1 h2
    have := ((memL ζ).mp h2).2
    rw [((memP ζ).mp h1).2.1] at this
    exact irr _ this
  have dNG : Disjoint N G := by
    rw [Finset.disjoint_left]; intro ζ h1 h2
    have := ((memG ζ).mp h2).2
    rw [((memN ζ).mp h1).2.1] at this
    exact irr _ this
  have dd : Disjoint (P ∪ L) (N ∪ G) := by
    rw [Finset.disjoint_left]; intro ζ h1 h2
    rcases Finset.mem_union.mp h1 with h1 | h1 <;> rcases Finset.mem_union.mp h2 with h2 | h2
    · exact absurd ((memP ζ).mp h1).2.2 (not_lt.mpr ((memN ζ).mp h2).2.2.le)
    · have := ((memG ζ).mp h2).2
      rw [((memP ζ).mp h1).2.1] at this
      exact irr _ this
    · have := ((memL ζ).mp h1).2
      rw [((memN ζ).mp h2).2.1] at this
      exact irr _ this
    · exact asym _ _ ((memL ζ).mp h1).2 ((memG ζ).mp h2).2
  have hU : (P ∪ L) ∪ (N ∪ G) = S := by
    ext ζ
    constructor
    · intro h
      rcases Finset.mem_union.mp h with h | h <;> rcases Finset.mem_union.mp h with h | h
      · exact ((memP ζ).mp h).1
      · exact ((memL ζ).mp h).1
      · exact ((memN ζ).mp h).1
      · exact ((memG ζ).mp h).1
    · intro h
      rcases tri ζ (σ ζ) with h1 | h1 | h1
      · exact Finset.mem_union_left _ (Finset.mem_union_right _ ((memL ζ).mpr ⟨h, h1⟩))
      · rcases lt_or_gt_of_ne (him ζ h h1.symm) with h2 | h2
        · exact Finset.mem_union_right _ (Finset.mem_union_left _ ((memN ζ).mpr ⟨h, h1.symm, h2⟩))
        · exact Finset.mem_union_left _ (Finset.mem_union_left _ ((memP ζ).mpr ⟨h, h1.symm, h2⟩))
      · exact Finset.mem_union_right _ (Finset.mem_union_right _ ((memG ζ).mpr ⟨h, h1⟩))
  have sub1 : P ∪ L ⊆ S := by rw [← hU]; exact Finset.subset_union_left
  have sub2 : N ∪ G ⊆ S := by rw [← hU]; exact Finset.subset_union_right
  have c1 : (P ∪ L).card ≤ Fintype.card {p : Fin n × Fin n // p.1 < p.2} + 1 := by
    refine card_pos_le m hm c w _ (fun ζ h => hS ζ (sub1 h)) (fun ζ h => hd ζ (sub1 h)) ?_ ?_
    · intro ζ h1 h2
      rw [← hσ] at h2 ⊢
      rcases Finset.mem_union.mp h1 with h | h
      · exact ((memP ζ).mp h).2.1
      · exfalso
        have hr := ((memL ζ).mp h).2
        rcases Finset.mem_union.mp h2 with h' | h'
        · have := ((memP _).mp h').2.1
          rw [hσσ ζ (sub1 h1)] at this
          rw [← this] at hr; exact irr _ hr
        · have := ((memL _).mp h').2
          rw [hσσ ζ (sub1 h1)] at this
          exact asym _ _ hr this
    · intro ζ h1 h2
      rcases Finset.mem_union.mp h1 with h | h
      · exact ((memP ζ).mp h).2.2.le
      · have hr := ((memL ζ).mp h).2
        rw [← hσ] at h2
        rw [h2] at hr; exact absurd hr (irr _)
  have c2 : (N ∪ G).card ≤ Fintype.card {p : Fin n × Fin n // p.1 ≤ p.2} := by
    refine card_neg_le m hm c w _ (fun ζ h => hS ζ (sub2 h)) (fun ζ h => hd ζ (sub2 h)) ?_ ?_
    · intro ζ h1 h2
      rw [← hσ] at h2 ⊢
      rcases Finset.mem_union.mp h1 with h | h
      · exact ((memN ζ).mp h).2.1
      · exfalso
        have hr := ((memG ζ).mp h).2
        rcases Finset.mem_union.mp h2 with h' | h'
        · have := ((memN _).mp h').2.1
          rw [hσσ ζ (sub2 h1)] at this
          rw [← this] at hr; exact irr _ hr
        · have := ((memG _).mp h').2
          rw [hσσ ζ (sub2 h1)] at this
          exact asym _ _ hr this
    · intro ζ h1 h2
      rcases Finset.mem_union.mp h1 with h | h
      · exact ((memN ζ).mp h).2.2.le
      · have hr := ((memG ζ).mp h).2
        rw [← hσ] at h2
        rw [h2] at hr; exact absurd hr (irr _)
  have ct : (P ∪ L).card + (N ∪ G).card = S.card := by
    rw [← Finset.card_union_of_disjoint dd, hU]
  have cPL := Finset.card_union_of_disjoint dPL
  have cNG := Finset.card_union_of_disjoint dNG
  have cI : {ζ ∈ S | σ ζ = ζ}.card = P.card + N.card := by
    have dPN : Disjoint P N := by
      rw [Finset.disjoint_left]; intro ζ h1 h2
      exact absurd ((memP ζ).mp h1).2.2 (not_lt.mpr ((memN ζ).mp h2).2.2.le)
    rw [← Finset.card_union_of_disjoint dPN]
    congr 1
    ext ζ
    rw [Finset.mem_filter, Finset.mem_union, memP, memN]
    constructor
    · rintro ⟨h1, h2⟩
      rcases lt_or_gt_of_ne (him ζ h1 h2) with h | h
      · exact Or.inr ⟨h1, h2, h⟩
      · exact Or.inl ⟨h1, h2, h⟩
    · rintro (h | h) <;> exact ⟨h.1, h.2.1⟩
  refine ⟨L.card, by omega, by omega, by omega⟩

/-- The inverse determinants of all `n² + 1` complexified solutions add to one. -/
theorem sum_inv_det (m : Fin n → ℝ) (c : Fin n → ℂ) (w : ℂ) (S : Finset ℂ)
    (hS : ∀ ζ ∈ S, DualSol m c w ζ) (hd : ∀ ζ ∈ S, dualDet m c w ζ ≠ 0) (hcard : S.card = n ^ 2 + 1) :
    ∑ ζ ∈ S, 1 / dualDet m c w ζ = 1 := by
  classical
  let F : (S → ℂ) →ₗ[ℂ] (Option (Fin n × Fin n) → ℂ) :=
    { toFun := fun a o => match o with
        | none => combT S (extendZero S a)
        | some p => combX m c w S (extendZero S a) p.1 p.2
      map_add' := by
        intro a b; funext o
        cases o with
        | none => exact combT_add S a b
        | some p => exact combX_add m c w S a b p.1 p.2
      map_smul' := by
        intro r a; funext o
        cases o with
        | none => exact combT_smul S r a
        | some p => exact combX_smul m c w S r a p.1 p.2 }
  have hinj : Function.Injective F := by
    rw [← LinearMap.ker_eq_bot, LinearMap.ker_eq_bot']
    intro a ha
    have := comb_eq_zero m c w S hS hd (extendZero S a) (congrFun ha none)
      (fun i j => congrFun ha (some (i, j)))
    funext ζ
    rw [← extendZero_eq S a ζ]
    exact this ζ ζ.2
  have hdim : Module.finrank ℂ (S → ℂ) = Module.finrank ℂ (Option (Fin n × Fin n) → ℂ) := by
    rw [Module.finrank_fintype_fun_eq_card, Module.finrank_fintype_fun_eq_card, Fintype.card_option,
      Fintype.card_prod, Fintype.card_fin, Fintype.card_coe, hcard, sq]
  have hsur : Function.Surjective F := (LinearMap.injective_iff_surjective_of_finrank_eq_finrank hdim).mp hinj
  obtain ⟨a, ha⟩ := hsur (fun o => match o with | none => 1 | some _ => 0)
  have hT : combT S (extendZero S a) = 1 := congrFun ha none
  have hX : ∀ i j, combX m c w S (extendZero S a) i j = 0 := fun i j => congrFun ha (some (i, j))
  have hval : ∀ ζ ∈ S, extendZero S a ζ = 1 / dualDet m c w ζ := by
    intro ζ hζ
    have h := comb_coeff m c w S hS (extendZero S a) ζ (hS ζ hζ)
    rw [if_pos hζ, hT] at h
    simp only [hX, mul_zero, zero_mul, Finset.sum_const_zero, sub_zero] at h
    rw [eq_div_iff (hd ζ hζ), ← h]
  exact (Finset.sum_congr rfl fun ζ hζ => (hval ζ hζ).symm).trans hT

end Microjax.Props
