import Verif.Spec.Lensing
import Verif.Model.PointSource
import Mathlib.Analysis.Complex.RealDeriv
import Mathlib.Analysis.Calculus.Deriv.Inv
import Mathlib.Analysis.Calculus.Deriv.Add
import Mathlib.LinearAlgebra.Complex.Module
import Mathlib.Analysis.Calculus.FDeriv.Equiv
import Mathlib.Tactic.LinearCombination
import Mathlib.Tactic.FieldSimp

/-! # Helper lemmas for the lens equation -/

noncomputable section

namespace Microjax.Props

open Complex ComplexConjugate Spec PointSource

/-- The real-linear map `h ↦ h - c * conj h`. -/
def antiLin (c : ℂ) : ℂ →L[ℝ] ℂ :=
  ContinuousLinearMap.id ℝ ℂ - (ContinuousLinearMap.mul ℝ ℂ c).comp (conjCLE : ℂ →L[ℝ] ℂ)

theorem antiLin_apply (c h : ℂ) : antiLin c h = h - c * conj h := by
  simp [antiLin]

theorem antiLin_det (c : ℂ) : (antiLin c).det = 1 - ‖c‖ ^ 2 := by
  rw [ContinuousLinearMap.det, ← LinearMap.det_toMatrix basisOneI, Matrix.det_fin_two]
  simp only [LinearMap.toMatrix_apply, coe_basisOneI, ContinuousLinearMap.coe_coe, antiLin_apply,
    coe_basisOneI_repr]
  simp
  rw [Complex.sq_norm, Complex.normSq_apply]; ring

/-- If `f z = z - g (conj z)` near `z` with `g` complex differentiable at `conj z` with derivative `g'`, then
`f` is real differentiable with derivative `h ↦ h - g' * conj h`. -/
theorem hasFDerivAt_anti (g : ℂ → ℂ) (g' z : ℂ) (hg : HasDerivAt g g' (conj z)) :
    HasFDerivAt (fun z : ℂ => z - g (conj z)) (antiLin g') z := by
  have h1 : HasFDerivAt (fun z : ℂ => conj z) (conjCLE : ℂ →L[ℝ] ℂ) z := conjCLE.hasFDerivAt
  have h2 : HasFDerivAt g ((ContinuousLinearMap.toSpanSingleton ℂ g').restrictScalars ℝ) (conj z) :=
    hg.hasFDerivAt.restrictScalars ℝ
  have h3 := (hasFDerivAt_id (𝕜 := ℝ) z).sub (h2.comp z h1)
  refine h3.congr_fderiv ?_
  ext h
  simp [antiLin, mul_comm]

theorem jacDet_of_hasDeriv (f g : ℂ → ℂ) (g' z : ℂ) (hf : ∀ z, f z = z - g (conj z))
    (hg : HasDerivAt g g' (conj z)) :
    DifferentiableAt ℝ f z ∧ jacDet f z = 1 - ‖g'‖ ^ 2 := by
  have e : f = fun z => z - g (conj z) := funext hf
  have h := hasFDerivAt_anti g g' z hg
  rw [← e] at h
  refine ⟨h.differentiableAt, ?_⟩
  rw [jacDet, h.fderiv, antiLin_det]

theorem hasDerivAt_simple (m c x : ℂ) (h : x - c ≠ 0) :
    HasDerivAt (fun x : ℂ => m / (x - c)) (-(m / (x - c) ^ 2)) x := by
  have h1 : HasDerivAt (fun x : ℂ => x - c) 1 x := (hasDerivAt_id x).sub_const c
  have h2 := (h1.inv h).const_mul m
  have e : (fun x : ℂ => m / (x - c)) = fun x => m * (x - c)⁻¹ := by funext; rw [div_eq_mul_inv]
  rw [e]
  refine h2.congr_deriv ?_
  field_simp

/-- The complex derivative of the deflection sum of a lens system (as a function of `conj z`). -/
theorem hasDerivAt_deflection (L : Lenses) (x : ℂ) (h : ∀ l ∈ L, x ≠ conj l.2) :
    HasDerivAt (fun x => (L.map fun l => (l.1 : ℂ) / (x - conj l.2)).sum)
      (-(L.map fun l => (l.1 : ℂ) / (x - conj l.2) ^ 2).sum) x := by
  induction L with
  | nil => simpa using hasDerivAt_const x (0 : ℂ)
  | cons l L ih =>
    have h1 := hasDerivAt_simple (l.1 : ℂ) (conj l.2) x (sub_ne_zero.mpr (h l (by simp)))
    have h2 := ih fun l hl => h l (by simp [hl])
    simp only [List.map_cons, List.sum_cons]
    refine (HasDerivAt.add h1 h2).congr_deriv ?_
    ring

theorem jacDet_lensMap (L : Lenses) (z : ℂ) (h : ∀ l ∈ L, z ≠ l.2) :
    DifferentiableAt ℝ (lensMap L) z ∧
    jacDet (lensMap L) z = 1 - ‖(L.map fun l => (l.1 : ℂ) / (conj z - conj l.2) ^ 2).sum‖ ^ 2 := by
  have := jacDet_of_hasDeriv (lensMap L) (fun x => (L.map fun l => (l.1 : ℂ) / (x - conj l.2)).sum)
    _ z (fun z => rfl) (hasDerivAt_deflection L (conj z)
      fun l hl hc => h l hl ((starRingEnd ℂ).injective hc))
  rw [norm_neg] at this
  exact this

/-- The lens system of the mid-point frame with two lenses. -/
def midBinary (p : MidParams) : Lenses := [(p.e1, (p.a : ℂ)), (1 - p.e1, -(p.a : ℂ))]

/-- The lens system of the mid-point frame with three lenses. -/
def midTriple (p : MidParams) : Lenses :=
  [(p.e1, (p.a : ℂ)), (p.e2, -(p.a : ℂ)), (1 - p.e1 - p.e2, r3Complex p)]

theorem lensEq1_eq (z : ℂ) : lensEq1 z = lensMap single z := by
  simp [lensEq1, lensMap, single]

theorem lensEq2_eq (p : MidParams) (z : ℂ) : lensEq2 p z = lensMap (midBinary p) z := by
  simp [lensEq2, lensMap, midBinary]; ring

theorem lensEq3_eq (p : MidParams) (z : ℂ) : lensEq3 p z = lensMap (midTriple p) z := by
  simp [lensEq3, lensMap, midTriple]; ring

theorem detJac2_eq (p : MidParams) (z : ℂ) :
    detJac2 p z = 1 - ‖((midBinary p).map fun l => (l.1 : ℂ) / (conj z - conj l.2) ^ 2).sum‖ ^ 2 := by
  simp [detJac2, midBinary]

theorem detJac3_eq (p : MidParams) (z : ℂ) :
    detJac3 p z = 1 - ‖((midTriple p).map fun l => (l.1 : ℂ) / (conj z - conj l.2) ^ 2).sum‖ ^ 2 := by
  simp [detJac3, midTriple, add_assoc]

/-- Translating the lenses translates images and sources. -/
theorem lensMap_translate (L : Lenses) (c z : ℂ) :
    lensMap (L.map fun l => (l.1, l.2 + c)) (z + c) = lensMap L z + c := by
  simp only [lensMap, List.map_map, Function.comp_def, map_add]
  have : ∀ l : ℝ × ℂ, (conj z + conj c - (conj l.2 + conj c)) = conj z - conj l.2 := fun l => by ring
  simp only [this]; ring

end Microjax.Props
