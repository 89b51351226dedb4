import Verif.Model.Likelihood
import Verif.Spec.Regression
import Mathlib.LinearAlgebra.Matrix.SchurComplement
import Mathlib.LinearAlgebra.Matrix.PosDef
import Mathlib.Analysis.Matrix.PosDef
import Mathlib.Analysis.SpecialFunctions.Gaussian.GaussianIntegral
import Mathlib.MeasureTheory.Group.Integral
import Mathlib.Algebra.Order.Star.Real
import Mathlib.Data.Matrix.ColumnRowPartitioned

/-!
# Properties of `likelihood.py` (C25-C28)
-/

noncomputable section

namespace Microjax.Props

open Matrix Spec Likelihood

variable {n : ℕ}

/-! ## C25, C26: `linear_chi2` -/

theorem weight_pos (e : ℝ) : 0 < weight e := by
  unfold weight; split_ifs with h <;> positivity

theorem det_pos (w x : Fin n → ℝ) (hw : ∀ i, 0 < w i) (hx : ∃ i j, x i ≠ x j) :
    0 < (∑ i, w i) ∧ 0 < (∑ i, w i) * (∑ i, w i * x i * x i) - (∑ i, w i * x i) * (∑ i, w i * x i) := by
  obtain ⟨i0, j0, hij⟩ := hx
  have hS : 0 < ∑ i, w i := Finset.sum_pos (fun i _ => hw i) ⟨i0, Finset.mem_univ _⟩
  refine ⟨hS, ?_⟩
  set S := ∑ i, w i with hSdef
  set X := ∑ i, w i * x i with hX
  set m := X / S
  have hm : m * S = X := div_mul_cancel₀ _ hS.ne'
  have key : S * (∑ i, w i * x i * x i) - X * X = S * ∑ i, w i * (x i - m) ^ 2 := by
    have : ∑ i, w i * (x i - m) ^ 2 = (∑ i, w i * x i * x i) - 2 * m * X + m ^ 2 * S := by
      rw [hX, hSdef, Finset.mul_sum, Finset.mul_sum, ← Finset.sum_sub_distrib, ← Finset.sum_add_distrib]
      exact Finset.sum_congr rfl fun i _ => by ring
    rw [this, ← hm]; ring
  rw [key]
  refine mul_pos hS ?_
  have hne : x i0 ≠ m ∨ x j0 ≠ m := by
    by_contra h; push Not at h; exact hij (h.1.trans h.2.symm)
  have hpos : ∀ k, x k ≠ m → 0 < ∑ i, w i * (x i - m) ^ 2 := fun k hk => by
    have h0 : 0 < w k * (x k - m) ^ 2 := mul_pos (hw k) (by have := sub_ne_zero.mpr hk; positivity)
    refine lt_of_lt_of_le h0 ?_
    exact Finset.single_le_sum (f := fun i => w i * (x i - m) ^ 2)
      (fun i _ => mul_nonneg (hw i).le (sq_nonneg _)) (Finset.mem_univ k)
  rcases hne with h | h
  · exact hpos _ h
  · exact hpos _ h

theorem chiSq_expand (w x y : Fin n → ℝ) (a b : ℝ) :
    chiSq w x y a b = (∑ i, w i * y i * y i) - 2 * a * (∑ i, w i * y i) - 2 * b * (∑ i, w i * x i * y i)
      + a ^ 2 * (∑ i, w i) + 2 * a * b * (∑ i, w i * x i) + b ^ 2 * (∑ i, w i * x i * x i) := by
  unfold chiSq
  simp only [Finset.mul_sum, ← Finset.sum_sub_distrib, ← Finset.sum_add_distrib]
  exact Finset.sum_congr rfl fun i _ => by ring

theorem normalMatrix_eq (w x : Fin n → ℝ) :
    normalMatrix w x = !![∑ i, w i, ∑ i, w i * x i; ∑ i, w i * x i, ∑ i, w i * x i * x i] := by
  ext i j
  fin_cases i <;> fin_cases j <;>
    simp [normalMatrix, lineDesign, Matrix.mul_apply, Matrix.diagonal_apply, mul_comm]

/-- **C25** with general weights: the fit of `linear_chi2` is the unique minimiser of the weighted sum of
squares over all real pairs, `chi2` is the minimum, the errors are the square roots of the diagonal of the
inverse normal matrix. -/
theorem C25_weighted_fit (x y err : Fin n → ℝ) (hx : ∃ i j, x i ≠ x j) :
    let f := linearChi2 x y err
    let w : Fin n → ℝ := fun i => if err i > 0 then 1 / err i ^ 2 else 1
    f.chi2 = chiSq w x y f.a f.b ∧
    (∀ a b : ℝ, f.chi2 ≤ chiSq w x y a b) ∧
    (∀ a b : ℝ, chiSq w x y a b = f.chi2 → a = f.a ∧ b = f.b) ∧
    f.ae = Real.sqrt ((normalMatrix w x)⁻¹ 0 0) ∧ f.be = Real.sqrt ((normalMatrix w x)⁻¹ 1 1) := by
  intro f w
  obtain ⟨hS, hdet⟩ := det_pos w x (fun i => weight_pos (err i)) hx
  have hchi : f.chi2 = chiSq w x y f.a f.b := by
    change ∑ i, w i * (y i - f.a - f.b * x i) ^ 2 = _
    unfold chiSq
    exact Finset.sum_congr rfl fun i _ => by ring
  set S := ∑ i, w i with hSd
  set X := ∑ i, w i * x i with hXd
  set Y := ∑ i, w i * y i with hYd
  set XX := ∑ i, w i * x i * x i with hXXd
  set XY := ∑ i, w i * x i * y i with hXYd
  have ha : f.a = (XX * Y - X * XY) / (S * XX - X * X) := rfl
  have hb : f.b = (S * XY - X * Y) / (S * XX - X * X) := rfl
  have e1 : f.a * S + f.b * X = Y := by
    rw [ha, hb, div_mul_eq_mul_div, div_mul_eq_mul_div, ← add_div, div_eq_iff hdet.ne']; ring
  have e2 : f.a * X + f.b * XX = XY := by
    rw [ha, hb, div_mul_eq_mul_div, div_mul_eq_mul_div, ← add_div, div_eq_iff hdet.ne']; ring
  have hdiff : ∀ a b, (chiSq w x y a b - f.chi2) * S
      = ((a - f.a) * S + (b - f.b) * X) ^ 2 + (S * XX - X * X) * (b - f.b) ^ 2 := by
    intro a b
    rw [hchi, chiSq_expand, chiSq_expand, ← hSd, ← hXd, ← hYd, ← hXXd, ← hXYd, ← e1, ← e2]
    ring
  refine ⟨hchi, fun a b => ?_, fun a b h => ?_, ?_, ?_⟩
  · have := hdiff a b
    have h0 : 0 ≤ (chiSq w x y a b - f.chi2) * S := by rw [this]; positivity
    have := nonneg_of_mul_nonneg_left h0 hS
    linarith
  · have h1 := hdiff a b
    rw [h, sub_self, zero_mul] at h1
    have hb0 : (b - f.b) ^ 2 = 0 := by
      have h3 : 0 ≤ (S * XX - X * X) * (b - f.b) ^ 2 := by positivity
      have h4 : (S * XX - X * X) * (b - f.b) ^ 2 = 0 := by
        have := sq_nonneg ((a - f.a) * S + (b - f.b) * X)
        linarith
      exact (mul_eq_zero.mp h4).resolve_left hdet.ne'
    have hb1 : b - f.b = 0 := pow_eq_zero_iff (two_ne_zero) |>.mp hb0
    rw [hb1] at h1
    have ha0 : (a - f.a) * S = 0 := by
      have : ((a - f.a) * S) ^ 2 = 0 := by linarith
      exact pow_eq_zero_iff (two_ne_zero) |>.mp this
    have ha1 := (mul_eq_zero.mp ha0).resolve_right hS.ne'
    exact ⟨by linarith, by linarith⟩
  · rw [normalMatrix_eq, Matrix.inv_def, Matrix.adjugate_fin_two_of, Matrix.det_fin_two_of]
    simp only [Matrix.smul_apply, Ring.inverse_eq_inv', smul_eq_mul]
    change Real.sqrt (XX / (S * XX - X * X)) = _
    congr 1
    simp [div_eq_inv_mul, ← hSd, ← hXd, ← hXXd]
  · rw [normalMatrix_eq, Matrix.inv_def, Matrix.adjugate_fin_two_of, Matrix.det_fin_two_of]
    simp only [Matrix.smul_apply, Ring.inverse_eq_inv', smul_eq_mul]
    change Real.sqrt (S / (S * XX - X * X)) = _
    congr 1
    simp [div_eq_inv_mul, ← hSd, ← hXd, ← hXXd]

/-- **C25** for positive errors: chi-square in units of the errors. -/
theorem C25_minimises (x y err : Fin n → ℝ) (herr : ∀ i, 0 < err i) (hx : ∃ i j, x i ≠ x j) :
    let f := linearChi2 x y err
    f.chi2 = ∑ i, ((y i - (f.a + f.b * x i)) / err i) ^ 2 ∧
    (∀ a b : ℝ, f.chi2 ≤ ∑ i, ((y i - (a + b * x i)) / err i) ^ 2) ∧
    (∀ a b : ℝ, ∑ i, ((y i - (a + b * x i)) / err i) ^ 2 = f.chi2 → a = f.a ∧ b = f.b) ∧
    f.ae = Real.sqrt ((normalMatrix (fun i => 1 / err i ^ 2) x)⁻¹ 0 0) ∧
    f.be = Real.sqrt ((normalMatrix (fun i => 1 / err i ^ 2) x)⁻¹ 1 1) := by
  intro f
  have hw : (fun i => if err i > 0 then 1 / err i ^ 2 else 1) = fun i => 1 / err i ^ 2 :=
    funext fun i => if_pos (herr i)
  have hc : ∀ a b, chiSq (fun i => 1 / err i ^ 2) x y a b = ∑ i, ((y i - (a + b * x i)) / err i) ^ 2 :=
    fun a b => Finset.sum_congr rfl fun i _ => by rw [div_pow]; ring
  have h := C25_weighted_fit x y err hx
  simp only [hw, hc] at h
  exact h

/-- A non-degenerate data set with positive errors. -/
example : (∀ i, 0 < (![1, 2, 1] : Fin 3 → ℝ) i) ∧ ∃ i j, (![0, 1, 3] : Fin 3 → ℝ) i ≠ (![0, 1, 3] : Fin 3 → ℝ) j :=
  ⟨fun i => by fin_cases i <;> norm_num, 0, 1, by norm_num⟩

/-- **C26** (array errors): an array filled with one positive value gives the unweighted fit's `a` and `b`, and
an array of zeros means an unweighted fit. -/
theorem C26_array_partial (x y : Fin n → ℝ) (e : ℝ) (hx : ∃ i j, x i ≠ x j) :
    (linearChi2 x y fun _ => e).a = (linearChi2 x y fun _ => 0).a ∧
    (linearChi2 x y fun _ => e).b = (linearChi2 x y fun _ => 0).b ∧
    (∀ a b : ℝ, (linearChi2 x y fun _ => 0).chi2 ≤ ∑ i, (y i - (a + b * x i)) ^ 2) ∧
    (linearChi2 x y fun _ => 0).chi2
      = ∑ i, (y i - ((linearChi2 x y fun _ => 0).a + (linearChi2 x y fun _ => 0).b * x i)) ^ 2 := by
  have h0 := C25_weighted_fit x y (fun _ => 0) hx
  have he' := C25_weighted_fit x y (fun _ => e) hx
  simp only [gt_iff_lt, lt_self_iff_false, if_false] at h0
  set c : ℝ := if 0 < e then 1 / e ^ 2 else 1 with hc
  have hcpos : 0 < c := weight_pos e
  have hch : ∀ a b, chiSq (fun _ => c) x y a b = c * chiSq (fun _ => 1) x y a b := fun a b => by
    unfold chiSq; rw [Finset.mul_sum]; exact Finset.sum_congr rfl fun i _ => by ring
  have hone : ∀ a b, chiSq (fun _ => (1 : ℝ)) x y a b = ∑ i, (y i - (a + b * x i)) ^ 2 := fun a b =>
    Finset.sum_congr rfl fun i _ => by ring
  obtain ⟨a1, a2, a3, -⟩ := h0
  obtain ⟨b1, b2, b3, -⟩ := he'
  have hmin : chiSq (fun _ => (1 : ℝ)) x y (linearChi2 x y fun _ => e).a (linearChi2 x y fun _ => e).b
      = (linearChi2 x y fun _ => 0).chi2 := by
    apply le_antisymm
    · have := b2 (linearChi2 x y fun _ => 0).a (linearChi2 x y fun _ => 0).b
      rw [b1, hch, hch, ← a1] at this
      exact le_of_mul_le_mul_left this hcpos
    · exact a2 _ _
  obtain ⟨h1, h2⟩ := a3 _ _ hmin
  refine ⟨h1, h2, fun a b => ?_, ?_⟩
  · rw [← hone]; exact a2 a b
  · rw [← hone]; exact a1

/-- **C26** (violated): a scalar error does not give the result of an array filled with it.  Data
`x = (1, 2)`, `y = (0, 1)`, error 1: the array call fits `y = -1 + x`, the scalar call returns `y = 1/4 + x/4`,
although the two points lie on the first line. -/
theorem C26_scalar_violated :
    ∃ f : Fit, linearChi2Scalar (![1, 2] : Fin 2 → ℝ) ![0, 1] 1 = .ok f ∧ f.a = 1 / 4 ∧ f.b = 1 / 4 ∧
      (linearChi2 (![1, 2] : Fin 2 → ℝ) ![0, 1] fun _ => 1).a = -1 ∧
      (linearChi2 (![1, 2] : Fin 2 → ℝ) ![0, 1] fun _ => 1).b = 1 := by
  refine ⟨_, if_neg (by norm_num), ?_, ?_, ?_, ?_⟩ <;>
    simp [linearChi2, solveFit, weight, Fin.sum_univ_two] <;> norm_num

/-- **C26** (violated): for every data set with positive scalar error, the determinant used by the scalar call
is `(Σx² - (Σx)²)/e⁴` instead of `(nΣx² - (Σx)²)/e⁴`, so when all `x` are positive and there are at least two
the variances under the square roots are negative (NaN in the code). -/
theorem C26_scalar_det_violated (x y : Fin n → ℝ) (e : ℝ) (he : 0 < e) (hx : ∀ i, 0 < x i) (hn : 2 ≤ n) :
    ∃ v : ℝ, v < 0 ∧ ∃ f : Fit, linearChi2Scalar x y e = .ok f ∧ f.be = Real.sqrt v ∧ f.be = 0 := by
  have hw : weight e = 1 / e ^ 2 := if_pos he
  have hwp := weight_pos e
  refine ⟨weight e / (weight e * (∑ i, weight e * x i * x i) - (∑ i, weight e * x i) * (∑ i, weight e * x i)), ?_,
    _, if_neg he.ne', rfl, ?_⟩
  all_goals
    have hlt : weight e * (∑ i, weight e * x i * x i) - (∑ i, weight e * x i) * (∑ i, weight e * x i) < 0 := by
      have e1 : (∑ i, weight e * x i * x i) = weight e * ∑ i, x i * x i := by
        rw [Finset.mul_sum]; exact Finset.sum_congr rfl fun i _ => by ring
      rw [e1, ← Finset.mul_sum]
      have h2 : ∑ i, x i * x i < (∑ i, x i) * ∑ i, x i := by
        rw [Finset.sum_mul]
        refine Finset.sum_lt_sum_of_nonempty ⟨⟨0, by omega⟩, Finset.mem_univ _⟩ fun i _ => ?_
        refine mul_lt_mul_of_pos_left ?_ (hx i)
        obtain ⟨j, hj⟩ : ∃ j : Fin n, j ≠ i := by
          by_cases h : i = ⟨0, by omega⟩
          · exact ⟨⟨1, by omega⟩, by rw [h]; simp [Fin.ext_iff]⟩
          · exact ⟨⟨0, by omega⟩, fun hh => h hh.symm⟩
        exact Finset.single_lt_sum hj (Finset.mem_univ i) (Finset.mem_univ j) (hx j)
          (fun k _ _ => (hx k).le)
      nlinarith [mul_pos hwp hwp]
  · exact div_neg_of_pos_of_neg hwp hlt
  · exact Real.sqrt_eq_zero_of_nonpos (div_nonpos_of_nonneg_of_nonpos hwp.le hlt.le)

/-- **C26** (violated): the documented default `err = 0.0` raises instead of fitting with unit weights. -/
theorem C26_default_violated (x y : Fin n → ℝ) : linearChi2Scalar x y 0 = .error .zeroDivision := if_pos rfl

example : ∀ i, 0 < (![1, 2] : Fin 2 → ℝ) i := fun i => by fin_cases i <;> norm_num

/-! ## C27, C28 -/

/-- Posterior precision matrix. -/
theorem precision_posDef (M : Matrix (Fin n) (Fin 2) ℝ) {C : Matrix (Fin n) (Fin n) ℝ}
    {Lambda : Matrix (Fin 2) (Fin 2) ℝ} (hC : C.PosDef) (hL : Lambda.PosDef) :
    (Lambda⁻¹ + Mᵀ * (C⁻¹ * M)).PosDef := by
  refine hL.inv.add_posSemidef ?_
  have := hC.inv.posSemidef.conjTranspose_mul_mul_same M
  rwa [Matrix.conjTranspose_eq_transpose_of_trivial, Matrix.mul_assoc] at this

theorem posDef_symm {m : ℕ} {C : Matrix (Fin m) (Fin m) ℝ} (hC : C.PosDef) : Cᵀ = C := by
  have := hC.isHermitian
  rwa [Matrix.IsHermitian, Matrix.conjTranspose_eq_transpose_of_trivial] at this

theorem posDef_unit {m : ℕ} {C : Matrix (Fin m) (Fin m) ℝ} (hC : C.PosDef) : IsUnit C :=
  (Matrix.isUnit_iff_isUnit_det _).mpr (IsUnit.mk0 _ hC.det_pos.ne')

/-- **C27** (covariance form): `nll_ulens_general` is the Gaussian negative log-density (without the constant
`n/2 log 2π`) of the data with mean `M mu` and covariance `S = C + M Lambda Mᵀ`. -/
theorem C27_covariance (flux : Fin n → ℝ) (M : Matrix (Fin n) (Fin 2) ℝ) (C : Matrix (Fin n) (Fin n) ℝ)
    (mu : Fin 2 → ℝ) (Lambda : Matrix (Fin 2) (Fin 2) ℝ) (hC : C.PosDef) (hL : Lambda.PosDef) :
    let S := C + M * Lambda * Mᵀ
    0 < S.det ∧
    nllUlensGeneral flux M C mu Lambda
      = 1 / 2 * ((flux - M *ᵥ mu) ⬝ᵥ S⁻¹ *ᵥ (flux - M *ᵥ mu) + Real.log S.det) := by
  intro S
  have hA := precision_posDef M hC hL
  set A := Lambda⁻¹ + Mᵀ * (C⁻¹ * M) with hAdef
  have hdet : S.det = C.det * Lambda.det * A.det := by
    have h1 : S.det = C.det * (1 + (Mᵀ * C⁻¹) * (M * Lambda)).det := by
      have : S = C * (1 + C⁻¹ * M * Lambda * Mᵀ) := by
        rw [Matrix.mul_add, Matrix.mul_one, Matrix.mul_assoc (C⁻¹ * M), Matrix.mul_assoc C⁻¹, ← Matrix.mul_assoc C,
          Matrix.mul_nonsing_inv _ ((Matrix.isUnit_iff_isUnit_det _).mp (posDef_unit hC)), Matrix.one_mul,
          ← Matrix.mul_assoc]
      rw [this, Matrix.det_mul]
      congr 1
      rw [Matrix.mul_assoc C⁻¹, Matrix.mul_assoc C⁻¹, Matrix.det_one_add_mul_comm]
      rw [Matrix.mul_assoc (M * Lambda), Matrix.det_one_add_mul_comm]
    have h2 : 1 + (Mᵀ * C⁻¹) * (M * Lambda) = A * Lambda := by
      rw [hAdef, Matrix.add_mul, Matrix.nonsing_inv_mul _ ((Matrix.isUnit_iff_isUnit_det _).mp (posDef_unit hL))]
      congr 1
      simp only [Matrix.mul_assoc]
    rw [h1, h2, Matrix.det_mul]
    ring
  have hCd := hC.det_pos
  have hLd := hL.det_pos
  have hAd := hA.det_pos
  refine ⟨by rw [hdet]; positivity, ?_⟩
  have hW : S⁻¹ = C⁻¹ - C⁻¹ * M * A⁻¹ * Mᵀ * C⁻¹ := by
    have hA' : Lambda⁻¹ + Mᵀ * C⁻¹ * M = A := by rw [hAdef, Matrix.mul_assoc]
    have := Matrix.add_mul_mul_inv_eq_sub C M Lambda Mᵀ (posDef_unit hC) (posDef_unit hL)
      (by rw [hA']; exact posDef_unit hA)
    rw [hA'] at this
    exact this
  unfold nllUlensGeneral slogdet
  simp only [← hAdef]
  rw [abs_of_pos hCd, abs_of_pos hLd, abs_of_pos hAd, hdet, Real.log_mul (by positivity) (by positivity),
    Real.log_mul (by positivity) (by positivity), hW]
  set r := flux - M *ᵥ mu
  have hq : r ⬝ᵥ (C⁻¹ - C⁻¹ * M * A⁻¹ * Mᵀ * C⁻¹) *ᵥ r
      = r ⬝ᵥ C⁻¹ *ᵥ r - (Mᵀ *ᵥ (C⁻¹ *ᵥ r)) ⬝ᵥ A⁻¹ *ᵥ (Mᵀ *ᵥ (C⁻¹ *ᵥ r)) := by
    rw [Matrix.sub_mulVec, dotProduct_sub]
    congr 1
    simp only [← Matrix.mulVec_mulVec]
    rw [Matrix.dotProduct_mulVec, Matrix.dotProduct_mulVec, ← Matrix.mulVec_transpose, ← Matrix.mulVec_transpose,
      Matrix.transpose_nonsing_inv, posDef_symm hC]
  rw [hq]
  ring

/-- Gaussian integral over the plane of a positive definite quadratic form about any centre. -/
theorem gauss_plane (a b c p q : ℝ) (hc : 0 < c) (hdet : 0 < a * c - b * b) :
    ∫ x : ℝ, ∫ y : ℝ, Real.exp (-(1 / 2) * (a * (x - p) ^ 2 + 2 * b * (x - p) * (y - q) + c * (y - q) ^ 2))
      = 2 * Real.pi / Real.sqrt (a * c - b * b) := by
  have hin : ∀ x : ℝ, ∫ y : ℝ, Real.exp (-(1 / 2) * (a * (x - p) ^ 2 + 2 * b * (x - p) * (y - q) + c * (y - q) ^ 2))
      = Real.exp (-((a * c - b * b) / (2 * c)) * (x - p) ^ 2) * Real.sqrt (Real.pi / (c / 2)) := by
    intro x
    have : ∀ y : ℝ, Real.exp (-(1 / 2) * (a * (x - p) ^ 2 + 2 * b * (x - p) * (y - q) + c * (y - q) ^ 2))
        = Real.exp (-((a * c - b * b) / (2 * c)) * (x - p) ^ 2)
          * Real.exp (-(c / 2) * (y - (q - b / c * (x - p))) ^ 2) := by
      intro y
      rw [← Real.exp_add]
      congr 1
      field_simp
      ring
    simp only [this]
    rw [MeasureTheory.integral_const_mul,
      MeasureTheory.integral_sub_right_eq_self (fun y => Real.exp (-(c / 2) * y ^ 2)), integral_gaussian]
  simp only [hin]
  rw [MeasureTheory.integral_mul_const,
    MeasureTheory.integral_sub_right_eq_self (fun y => Real.exp (-((a * c - b * b) / (2 * c)) * y ^ 2)),
    integral_gaussian, ← Real.sqrt_mul (by positivity)]
  have : Real.pi / ((a * c - b * b) / (2 * c)) * (Real.pi / (c / 2)) = (2 * Real.pi) ^ 2 / (a * c - b * b) := by
    field_simp
  rw [this, Real.sqrt_div (by positivity), Real.sqrt_sq (by positivity)]

/-- **C27** (marginal form): `exp(-nll)` is, up to the constant `(2π)^(-n/2)` that the code drops, the
likelihood integrated over both flux parameters against their Gaussian prior. -/
theorem C27_marginal (flux : Fin n → ℝ) (M : Matrix (Fin n) (Fin 2) ℝ) (C : Matrix (Fin n) (Fin n) ℝ)
    (mu : Fin 2 → ℝ) (Lambda : Matrix (Fin 2) (Fin 2) ℝ) (hC : C.PosDef) (hL : Lambda.PosDef) :
    marginalLikelihood flux M C mu Lambda
      = (2 * Real.pi) ^ (-(n : ℝ) / 2) * Real.exp (-nllUlensGeneral flux M C mu Lambda) := by
  have hA := precision_posDef M hC hL
  set A := Lambda⁻¹ + Mᵀ * (C⁻¹ * M) with hAdef
  set r := flux - M *ᵥ mu with hr
  set h := Mᵀ *ᵥ (C⁻¹ *ᵥ r) with hh
  set m := A⁻¹ *ᵥ h with hm
  have hCd := hC.det_pos
  have hLd := hL.det_pos
  have hAd := hA.det_pos
  have hAm : A *ᵥ m = h := by
    rw [hm, Matrix.mulVec_mulVec, Matrix.mul_nonsing_inv _ ((Matrix.isUnit_iff_isUnit_det _).mp (posDef_unit hA)),
      Matrix.one_mulVec]
  have hAs : A 1 0 = A 0 1 := by
    have := congrFun (congrFun (posDef_symm hA) 0) 1; exact this
  have hA11 : 0 < A 1 1 := hA.diag_pos
  have hdetA : A.det = A 0 0 * A 1 1 - A 0 1 * A 0 1 := by rw [Matrix.det_fin_two, hAs]
  -- completing the square
  have hsq : ∀ f : Fin 2 → ℝ,
      (flux - M *ᵥ f) ⬝ᵥ C⁻¹ *ᵥ (flux - M *ᵥ f) + (f - mu) ⬝ᵥ Lambda⁻¹ *ᵥ (f - mu)
        = (r ⬝ᵥ C⁻¹ *ᵥ r - h ⬝ᵥ m) + (f - mu - m) ⬝ᵥ A *ᵥ (f - mu - m) := by
    intro f
    set v := f - mu with hv
    have h1 : flux - M *ᵥ f = r - M *ᵥ v := by rw [hr, hv, Matrix.mulVec_sub]; abel
    have hCs : ∀ a b : Fin n → ℝ, a ⬝ᵥ C⁻¹ *ᵥ b = b ⬝ᵥ C⁻¹ *ᵥ a := fun a b => by
      rw [Matrix.dotProduct_mulVec, ← Matrix.mulVec_transpose, Matrix.transpose_nonsing_inv, posDef_symm hC,
        dotProduct_comm]
    have h2 : (M *ᵥ v) ⬝ᵥ C⁻¹ *ᵥ r = v ⬝ᵥ h := by
      rw [hh, Matrix.dotProduct_mulVec v, Matrix.vecMul_transpose]
    have h3 : (M *ᵥ v) ⬝ᵥ C⁻¹ *ᵥ (M *ᵥ v) + v ⬝ᵥ Lambda⁻¹ *ᵥ v = v ⬝ᵥ A *ᵥ v := by
      rw [hAdef, Matrix.add_mulVec, dotProduct_add, add_comm]
      congr 1
      rw [← Matrix.mulVec_mulVec, ← Matrix.mulVec_mulVec, Matrix.dotProduct_mulVec v, Matrix.vecMul_transpose]
    have h4 : v ⬝ᵥ A *ᵥ m = v ⬝ᵥ h := by rw [hAm]
    have h5 : m ⬝ᵥ A *ᵥ v = v ⬝ᵥ h := by
      rw [Matrix.dotProduct_mulVec, ← Matrix.mulVec_transpose, posDef_symm hA, hAm, dotProduct_comm]
    have h6 : m ⬝ᵥ A *ᵥ m = h ⬝ᵥ m := by rw [hAm, dotProduct_comm]
    rw [h1]
    simp only [Matrix.mulVec_sub, sub_dotProduct, dotProduct_sub]
    rw [hCs r (M *ᵥ v), h2, h4, h5, h6, ← h3]
    ring
  have hquad : ∀ u : Fin 2 → ℝ, u ⬝ᵥ A *ᵥ u
      = A 0 0 * u 0 ^ 2 + 2 * A 0 1 * u 0 * u 1 + A 1 1 * u 1 ^ 2 := by
    intro u
    simp only [dotProduct, Matrix.mulVec, Fin.sum_univ_two, hAs]
    ring
  have hint : ∀ fs fb : ℝ, gaussDensity (M *ᵥ ![fs, fb]) C flux * gaussDensity mu Lambda ![fs, fb]
      = ((2 * Real.pi) ^ (-(n : ℝ) / 2) * (Real.sqrt C.det)⁻¹ * ((2 * Real.pi)⁻¹ * (Real.sqrt Lambda.det)⁻¹)
          * Real.exp (-(1 / 2) * (r ⬝ᵥ C⁻¹ *ᵥ r - h ⬝ᵥ m)))
        * Real.exp (-(1 / 2) * (A 0 0 * (fs - (mu 0 + m 0)) ^ 2
          + 2 * A 0 1 * (fs - (mu 0 + m 0)) * (fb - (mu 1 + m 1)) + A 1 1 * (fb - (mu 1 + m 1)) ^ 2)) := by
    intro fs fb
    have h1 := hsq ![fs, fb]
    rw [hquad] at h1
    simp only [Pi.sub_apply, Matrix.cons_val_zero, Matrix.cons_val_one] at h1
    unfold gaussDensity
    have h2 : (2 * Real.pi) ^ (-((2 : ℕ) : ℝ) / 2) = (2 * Real.pi)⁻¹ := by
      norm_num [Real.rpow_neg_one]
    rw [h2]
    have e : ∀ a b c d e f : ℝ, a * b * Real.exp c * (d * e * Real.exp f) = a * b * (d * e) * Real.exp (c + f) := by
      intros; rw [Real.exp_add]; ring
    have e' : ∀ a c f : ℝ, a * Real.exp c * Real.exp f = a * Real.exp (c + f) := by
      intros; rw [Real.exp_add]; ring
    rw [e, e', ← mul_add, h1, ← mul_add]
    congr 3
    ring
  unfold marginalLikelihood
  simp only [hint, MeasureTheory.integral_const_mul]
  rw [gauss_plane _ _ _ _ _ hA11 (by rw [← hdetA]; exact hAd), ← hdetA]
  unfold nllUlensGeneral slogdet
  simp only [← hAdef, ← hr, ← hh, ← hm]
  rw [abs_of_pos hCd, abs_of_pos hLd, abs_of_pos hAd]
  have hs : ∀ d : ℝ, 0 < d → Real.exp (-(1 / 2) * Real.log d) = (Real.sqrt d)⁻¹ := by
    intro d hd
    rw [Real.sqrt_eq_rpow, ← Real.rpow_neg hd.le, Real.rpow_def_of_pos hd, mul_comm]
  have : -(1 / 2 * (r ⬝ᵥ C⁻¹ *ᵥ r - h ⬝ᵥ m + Real.log C.det + Real.log Lambda.det + Real.log A.det))
      = -(1 / 2) * (r ⬝ᵥ C⁻¹ *ᵥ r - h ⬝ᵥ m) + -(1 / 2) * Real.log C.det + -(1 / 2) * Real.log Lambda.det
        + -(1 / 2) * Real.log A.det := by ring
  rw [this, Real.exp_add, Real.exp_add, Real.exp_add, hs _ hCd, hs _ hLd, hs _ hAd]
  have hpi := Real.pi_pos
  field_simp

/-- **C28**: with diagonal covariances and zero prior mean the two functions agree. -/
theorem C28_agree (flux : Fin n → ℝ) (M : Matrix (Fin n) (Fin 2) ℝ) (s2 : Fin n → ℝ) (fs fb : ℝ)
    (hs : ∀ i, 0 < s2 i) (hfs : 0 < fs) (hfb : 0 < fb) :
    nllUlens flux M s2 fs fb
      = nllUlensGeneral flux M (Matrix.diagonal s2) 0 (Matrix.diagonal ![fs, fb]) := by
  have hC : (Matrix.diagonal s2).PosDef := Matrix.posDef_diagonal_iff.mpr hs
  have hL : (Matrix.diagonal ![fs, fb]).PosDef := Matrix.posDef_diagonal_iff.mpr fun i => by
    fin_cases i <;> assumption
  have hA := precision_posDef M hC hL
  set A := (Matrix.diagonal ![fs, fb])⁻¹ + Mᵀ * ((Matrix.diagonal s2)⁻¹ * M) with hAdef
  have hCi : (Matrix.diagonal s2)⁻¹ = Matrix.diagonal fun i => (s2 i)⁻¹ := by
    refine Matrix.inv_eq_right_inv ?_
    rw [Matrix.diagonal_mul_diagonal, ← Matrix.diagonal_one]
    congr 1; funext i; exact mul_inv_cancel₀ (hs i).ne'
  have hLi : (Matrix.diagonal ![fs, fb])⁻¹ = Matrix.diagonal ![fs⁻¹, fb⁻¹] := by
    refine Matrix.inv_eq_right_inv ?_
    rw [Matrix.diagonal_mul_diagonal, ← Matrix.diagonal_one]
    congr 1; funext i; fin_cases i <;> simp [hfs.ne', hfb.ne']
  have hAij : ∀ k l, A k l = (Matrix.diagonal ![fs⁻¹, fb⁻¹] : Matrix (Fin 2) (Fin 2) ℝ) k l
      + ∑ i, M i k * (M i l / s2 i) := by
    intro k l
    rw [hAdef, hLi, hCi, Matrix.add_apply, Matrix.mul_apply]
    congr 1
    refine Finset.sum_congr rfl fun i _ => ?_
    rw [Matrix.transpose_apply, Matrix.diagonal_mul]; ring
  have h00 : A 0 0 = 1 / fs + ∑ i, M i 0 * (M i 0 / s2 i) := by rw [hAij]; simp
  have h11 : A 1 1 = 1 / fb + ∑ i, M i 1 * (M i 1 / s2 i) := by rw [hAij]; simp
  have h01 : A 0 1 = ∑ i, M i 0 * (M i 1 / s2 i) := by rw [hAij]; simp
  have h10 : A 1 0 = A 0 1 := congrFun (congrFun (posDef_symm hA) 0) 1
  have hdetA : A.det = A 0 0 * A 1 1 - A 0 1 * A 0 1 := by rw [Matrix.det_fin_two, h10]
  have hAd := hA.det_pos
  have hAi : A⁻¹ = !![A 1 1 / A.det, -A 0 1 / A.det; -A 0 1 / A.det, A 0 0 / A.det] := by
    rw [Matrix.inv_def, Ring.inverse_eq_inv', Matrix.adjugate_fin_two, h10]
    ext i j
    fin_cases i <;> fin_cases j <;> simp [div_eq_inv_mul]
  have hCr : ∀ i, ((Matrix.diagonal s2)⁻¹ *ᵥ flux) i = flux i / s2 i := by
    intro i; rw [hCi, Matrix.mulVec_diagonal]; ring
  have hh : ∀ k, (Mᵀ *ᵥ ((Matrix.diagonal s2)⁻¹ *ᵥ flux)) k = ∑ i, M i k * (flux i / s2 i) := by
    intro k
    simp only [Matrix.mulVec, dotProduct, Matrix.transpose_apply]
    refine Finset.sum_congr rfl fun i _ => ?_
    have := hCr i
    simp only [Matrix.mulVec, dotProduct] at this
    rw [this]
  unfold nllUlensGeneral slogdet
  simp only [← hAdef, Matrix.mulVec_zero, sub_zero]
  rw [abs_of_pos hC.det_pos, abs_of_pos hL.det_pos, abs_of_pos hAd, Matrix.det_diagonal, Matrix.det_diagonal,
    Real.log_prod (fun i _ => (hs i).ne'), Fin.prod_univ_two, hAi]
  simp only [Matrix.cons_val_zero, Matrix.cons_val_one]
  rw [Real.log_mul hfs.ne' hfb.ne']
  unfold nllUlens
  simp only [dotProduct, Fin.sum_univ_two, hh, hCr]
  simp only [← h00, ← h11, ← h01, ← hdetA]
  simp only [Matrix.mulVec, dotProduct, Fin.sum_univ_two, Matrix.of_apply, Matrix.cons_val_zero, Matrix.cons_val_one,
    Matrix.cons_val', Matrix.cons_val_fin_one]
  have hh' : ∀ k, ∑ x, Mᵀ k x * ∑ x_1, (Matrix.diagonal s2)⁻¹ x x_1 * flux x_1 = ∑ i, M i k * (flux i / s2 i) := hh
  simp only [hh']
  ring

/-- **C27** for `nll_ulens`: covariance form. -/
theorem C27_diagonal (flux : Fin n → ℝ) (M : Matrix (Fin n) (Fin 2) ℝ) (s2 : Fin n → ℝ) (fs fb : ℝ)
    (hs : ∀ i, 0 < s2 i) (hfs : 0 < fs) (hfb : 0 < fb) :
    let S := Matrix.diagonal s2 + M * Matrix.diagonal ![fs, fb] * Mᵀ
    0 < S.det ∧ nllUlens flux M s2 fs fb = 1 / 2 * (flux ⬝ᵥ S⁻¹ *ᵥ flux + Real.log S.det) := by
  have hC : (Matrix.diagonal s2).PosDef := Matrix.posDef_diagonal_iff.mpr hs
  have hL : (Matrix.diagonal ![fs, fb]).PosDef := Matrix.posDef_diagonal_iff.mpr fun i => by
    fin_cases i <;> assumption
  have := C27_covariance flux M _ 0 _ hC hL
  rw [C28_agree flux M s2 fs fb hs hfs hfb]
  simpa using this

/-- **C27** for `nll_ulens`: marginal form. -/
theorem C27_diagonal_marginal (flux : Fin n → ℝ) (M : Matrix (Fin n) (Fin 2) ℝ) (s2 : Fin n → ℝ) (fs fb : ℝ)
    (hs : ∀ i, 0 < s2 i) (hfs : 0 < fs) (hfb : 0 < fb) :
    marginalLikelihood flux M (Matrix.diagonal s2) 0 (Matrix.diagonal ![fs, fb])
      = (2 * Real.pi) ^ (-(n : ℝ) / 2) * Real.exp (-nllUlens flux M s2 fs fb) := by
  rw [C28_agree flux M s2 fs fb hs hfs hfb]
  exact C27_marginal _ _ _ _ _ (Matrix.posDef_diagonal_iff.mpr hs)
    (Matrix.posDef_diagonal_iff.mpr fun i => by fin_cases i <;> assumption)

/-- A non-diagonal covariance that meets the hypotheses of the general theorems. -/
theorem posDef_example : (!![2, 1; 1, 2] : Matrix (Fin 2) (Fin 2) ℝ).PosDef := by
  refine Matrix.PosDef.of_dotProduct_mulVec_pos ?_ fun x hx => ?_
  · ext i j; fin_cases i <;> fin_cases j <;> rfl
  · have hne : x 0 ≠ 0 ∨ x 1 ≠ 0 := by
      by_contra h; push Not at h; apply hx; funext i; fin_cases i
      · exact h.1
      · exact h.2
    simp only [dotProduct, Matrix.mulVec, Fin.sum_univ_two, Pi.star_apply, star_trivial]
    simp
    have : 0 < x 0 ^ 2 + x 1 ^ 2 := by
      rcases hne with h | h <;> positivity
    nlinarith [sq_nonneg (x 0 + x 1)]

example : marginalLikelihood ![1, 3] !![2, 1; 5, 1] !![2, 1; 1, 2] ![1, 0] !![2, 1; 1, 2]
    = (2 * Real.pi) ^ (-((2 : ℕ) : ℝ) / 2) * Real.exp
      (-nllUlensGeneral ![1, 3] !![2, 1; 5, 1] !![2, 1; 1, 2] ![1, 0] !![2, 1; 1, 2]) :=
  C27_marginal _ _ _ _ _ posDef_example posDef_example

example : nllUlens ![1, 3] !![2, 1; 5, 1] ![1, 2] 3 4
    = nllUlensGeneral ![1, 3] !![2, 1; 5, 1] (Matrix.diagonal ![1, 2]) 0 (Matrix.diagonal ![3, 4]) :=
  C28_agree _ _ _ _ _ (fun i => by fin_cases i <;> norm_num) (by norm_num) (by norm_num)

end Microjax.Props
