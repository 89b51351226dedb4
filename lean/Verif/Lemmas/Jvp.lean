import Verif.Model.PointSourceJvp
import Verif.Lemmas.Coeffs
import Mathlib.Analysis.Calculus.Deriv.Mul
import Mathlib.Analysis.Calculus.Deriv.Add
import Mathlib.Analysis.Calculus.Deriv.Inv
import Mathlib.Analysis.Calculus.Deriv.Abs
import Mathlib.Analysis.Calculus.Deriv.Star
import Mathlib.Analysis.Complex.RealDeriv
import Mathlib.Analysis.SpecialFunctions.ExpDeriv
import Mathlib.Algebra.Ring.Subring.Basic
import Mathlib.Data.List.GetD

/-! # Dual numbers compute derivatives -/

noncomputable section

namespace Microjax.Props

open Complex ComplexConjugate PointSource

/-! ## Polynomial arithmetic commutes with ring homomorphisms -/

theorem polyCoeffsBinary_eq_in (w : ℂ) (a e1 : ℝ) :
    polyCoeffsBinary w a e1 = coeffsBinaryIn w (conj w) (a : ℂ) (e1 : ℂ) := rfl

theorem polyCoeffsTripleCM_eq_in (w : ℂ) (a : ℝ) (r3 : ℂ) (e1 e2 : ℝ) :
    polyCoeffsTripleCM w a r3 e1 e2
      = coeffsTripleIn conj (shiftCM a r3 e1 e2) w (a : ℂ) r3 (e2 : ℂ) (e1 : ℂ) (1 - e1 - e2) := rfl

theorem coeffsBinaryIn_map {R S : Type*} [CommRing R] [CommRing S] (f : R →+* S) (w wb a e : R) :
    (coeffsBinaryIn w wb a e).map f = coeffsBinaryIn (f w) (f wb) (f a) (f e) := by
  simp only [coeffsBinaryIn, List.map_cons, List.map_nil, map_add, map_mul, map_sub, map_neg, map_one, map_ofNat]

theorem combineTriple_map {R S : Type*} [CommRing R] [CommRing S] (f : R →+* S)
    (aa bb cc dd ww wwbar wwaa wwbb wwcc wwdd : R) :
    (combineTriple aa bb cc dd ww wwbar wwaa wwbb wwcc wwdd).map f
      = combineTriple (f aa) (f bb) (f cc) (f dd) (f ww) (f wwbar) (f wwaa) (f wwbb) (f wwcc) (f wwdd) := by
  simp only [combineTriple, List.map_cons, List.map_nil, map_add, map_mul, map_sub, map_neg, map_one, map_ofNat]

theorem coeffsTripleIn_map {R S : Type*} [CommRing R] [CommRing S] (f : R →+* S) (cj : R → R) (cj' : S → S)
    (h : ∀ x, f (cj x) = cj' (f x)) (s w a r3 e1 e2 e3 : R) :
    (coeffsTripleIn cj s w a r3 e1 e2 e3).map f
      = coeffsTripleIn cj' (f s) (f w) (f a) (f r3) (f e1) (f e2) (f e3) := by
  simp only [coeffsTripleIn, combineTriple_map, map_add, map_mul, map_sub, map_neg, h]

/-! ## The ring of functions differentiable at a point -/

variable {t₀ : ℝ}

/-- Functions of a real variable that are differentiable at `t₀`. -/
def diffRing (t₀ : ℝ) : Subring (ℝ → ℂ) where
  carrier := {f | DifferentiableAt ℝ f t₀}
  mul_mem' := fun hf hg => DifferentiableAt.mul hf hg
  one_mem' := differentiableAt_const 1
  add_mem' := fun hf hg => DifferentiableAt.add hf hg
  zero_mem' := differentiableAt_const 0
  neg_mem' := fun hf => DifferentiableAt.neg hf

/-- Value at `t`. -/
def evalAt (t : ℝ) : diffRing t₀ →+* ℂ := (Pi.evalRingHom (fun _ : ℝ => ℂ) t).comp (diffRing t₀).subtype

/-- Value and derivative at `t₀`. -/
def toDual : diffRing t₀ →+* DualNumber ℂ where
  toFun f := dual (f.1 t₀) (deriv f.1 t₀)
  map_one' := by
    ext
    · simp [dual]
    · simp [dual, Pi.one_def]
  map_mul' f g := by
    have hf : DifferentiableAt ℝ f.1 t₀ := f.2
    have hg : DifferentiableAt ℝ g.1 t₀ := g.2
    ext
    · simp [dual]
    · simp [dual, deriv_mul hf hg]; ring
  map_zero' := by
    ext
    · simp [dual]
    · simp [dual, Pi.zero_def]
  map_add' f g := by
    have hf : DifferentiableAt ℝ f.1 t₀ := f.2
    have hg : DifferentiableAt ℝ g.1 t₀ := g.2
    ext
    · simp [dual]
    · simp [dual, deriv_add hf hg]

/-- An element of the ring from a function with a known derivative. -/
def ofDeriv (f : ℝ → ℂ) (f' : ℂ) (h : HasDerivAt f f' t₀) : diffRing t₀ := ⟨f, h.differentiableAt⟩

@[simp] theorem evalAt_ofDeriv (f : ℝ → ℂ) (f' : ℂ) (h : HasDerivAt f f' t₀) (t : ℝ) :
    evalAt t (ofDeriv f f' h) = f t := rfl

@[simp] theorem toDual_ofDeriv (f : ℝ → ℂ) (f' : ℂ) (h : HasDerivAt f f' t₀) :
    toDual (ofDeriv f f' h) = dual (f t₀) f' := by
  simp [toDual, ofDeriv, h.deriv]

theorem hasDerivAt_conj {f : ℝ → ℂ} {f' : ℂ} (h : HasDerivAt f f' t₀) :
    HasDerivAt (fun t => conj (f t)) (conj f') t₀ := h.star

/-- Conjugation of functions. -/
def conjFun (f : diffRing t₀) : diffRing t₀ :=
  ⟨fun t => conj (f.1 t), (hasDerivAt_conj (DifferentiableAt.hasDerivAt f.2)).differentiableAt⟩

theorem evalAt_conjFun (t : ℝ) (f : diffRing t₀) : evalAt t (conjFun f) = conj (evalAt t f) := rfl

theorem toDual_conjFun (f : diffRing t₀) : toDual (conjFun f) = dualConjugate (toDual f) := by
  have h := (hasDerivAt_conj (DifferentiableAt.hasDerivAt f.2)).deriv
  simp only [toDual, conjFun, dualConjugate, RingHom.coe_mk, MonoidHom.coe_mk, OneHom.coe_mk, h]
  simp [dual]

/-- Evaluating a list of functions: the dual parts are the derivatives. -/
theorem hasDerivAt_getD (L : List (diffRing t₀)) (k : ℕ) :
    HasDerivAt (fun t => (L.map (evalAt t)).getD k 0) (((L.map toDual).map TrivSqZeroExt.snd).getD k 0) t₀ := by
  by_cases hk : k < L.length
  · have e1 : ∀ t, (L.map (evalAt t)).getD k 0 = L[k].1 t := by
      intro t
      rw [List.getD_eq_getElem _ _ (by simpa using hk), List.getElem_map]
      rfl
    have e2 : ((L.map toDual).map TrivSqZeroExt.snd).getD k 0 = deriv L[k].1 t₀ := by
      rw [List.getD_eq_getElem _ _ (by simpa using hk), List.getElem_map, List.getElem_map]
      simp [toDual, dual]
    simp only [e1, e2]
    exact DifferentiableAt.hasDerivAt L[k].2
  · have e1 : ∀ t, (L.map (evalAt t)).getD k 0 = 0 := fun t => List.getD_eq_default _ _ (by simpa using hk)
    have e2 : ((L.map toDual).map TrivSqZeroExt.snd).getD k 0 = 0 := List.getD_eq_default _ _ (by simpa using hk)
    simp only [e1, e2]
    exact hasDerivAt_const _ _

theorem hasDerivAt_ofReal {f : ℝ → ℝ} {f' : ℝ} (h : HasDerivAt f f' t₀) :
    HasDerivAt (fun t => ((f t : ℝ) : ℂ)) (f' : ℂ) t₀ := h.ofReal_comp

/-- The tangents of the binary coefficients are their derivatives. -/
theorem coeffsBinary_deriv (w : ℝ → ℂ) (dw : ℂ) (a e1 : ℝ → ℝ) (da de1 : ℝ) (hw : HasDerivAt w dw t₀)
    (ha : HasDerivAt a da t₀) (he : HasDerivAt e1 de1 t₀) (k : ℕ) :
    HasDerivAt (fun t => (polyCoeffsBinary (w t) (a t) (e1 t)).getD k 0)
      ((coeffsBinaryTangent (w t₀) dw (a t₀) da (e1 t₀) de1).getD k 0) t₀ := by
  have h := hasDerivAt_getD (coeffsBinaryIn (ofDeriv w dw hw) (conjFun (ofDeriv w dw hw))
    (ofDeriv _ _ (hasDerivAt_ofReal ha)) (ofDeriv _ _ (hasDerivAt_ofReal he))) k
  simp only [coeffsBinaryIn_map, evalAt_conjFun, toDual_conjFun, evalAt_ofDeriv, toDual_ofDeriv] at h
  exact h

theorem hasDerivAt_r3Complex (p : ℝ → MidParams) (dp : MidParams) (h3 : HasDerivAt (fun t => (p t).r3) dp.r3 t₀)
    (hpsi : HasDerivAt (fun t => (p t).psi) dp.psi t₀) :
    HasDerivAt (fun t => r3Complex (p t)) (r3ComplexTangent (p t₀) dp) t₀ := by
  have h := (hasDerivAt_ofReal h3).fun_mul (((hasDerivAt_ofReal hpsi).const_mul I).cexp)
  exact h

theorem hasDerivAt_shiftCM (p : ℝ → MidParams) (dp : MidParams) (ha : HasDerivAt (fun t => (p t).a) dp.a t₀)
    (h1 : HasDerivAt (fun t => (p t).e1) dp.e1 t₀) (h2 : HasDerivAt (fun t => (p t).e2) dp.e2 t₀)
    (h3 : HasDerivAt (fun t => (p t).r3) dp.r3 t₀) (hpsi : HasDerivAt (fun t => (p t).psi) dp.psi t₀) :
    HasDerivAt (fun t => shiftCM (p t).a (r3Complex (p t)) (p t).e1 (p t).e2) (shiftCMTangent (p t₀) dp) t₀ := by
  have hr := hasDerivAt_r3Complex p dp h3 hpsi
  have hre : HasDerivAt (fun t => (r3Complex (p t)).re) (r3ComplexTangent (p t₀) dp).re t₀ :=
    (Complex.reCLM.hasFDerivAt.comp_hasDerivAt t₀ hr :)
  have him : HasDerivAt (fun t => (r3Complex (p t)).im) (r3ComplexTangent (p t₀) dp).im t₀ :=
    (Complex.imCLM.hasFDerivAt.comp_hasDerivAt t₀ hr :)
  have he3 : HasDerivAt (fun t => 1 - (p t).e1 - (p t).e2) (-dp.e1 - dp.e2) t₀ := (h1.const_sub 1).fun_sub h2
  have hA := ((h2.fun_mul ha.fun_neg).fun_add (h1.fun_mul ha)).fun_add (he3.fun_mul hre)
  have hB := him.fun_mul he3
  exact (hasDerivAt_ofReal hA).fun_add ((hasDerivAt_ofReal hB).const_mul I)

/-- The tangents of the triple coefficients are their derivatives. -/
theorem coeffsTriple_deriv (w : ℝ → ℂ) (dw : ℂ) (p : ℝ → MidParams) (dp : MidParams) (hw : HasDerivAt w dw t₀)
    (ha : HasDerivAt (fun t => (p t).a) dp.a t₀)
    (h1 : HasDerivAt (fun t => (p t).e1) dp.e1 t₀) (h2 : HasDerivAt (fun t => (p t).e2) dp.e2 t₀)
    (h3 : HasDerivAt (fun t => (p t).r3) dp.r3 t₀) (hpsi : HasDerivAt (fun t => (p t).psi) dp.psi t₀) (k : ℕ) :
    HasDerivAt (fun t => (polyCoeffsTripleCM (w t) (p t).a (r3Complex (p t)) (p t).e1 (p t).e2).getD k 0)
      ((coeffsTripleTangent (p t₀) dp (w t₀) dw).getD k 0) t₀ := by
  have he3 : HasDerivAt (fun t => (1 - (p t).e1 - (p t).e2 : ℂ)) (-dp.e1 - dp.e2) t₀ :=
    ((hasDerivAt_ofReal h1).const_sub 1).fun_sub (hasDerivAt_ofReal h2)
  have h := hasDerivAt_getD (coeffsTripleIn conjFun (ofDeriv _ _ (hasDerivAt_shiftCM p dp ha h1 h2 h3 hpsi))
    (ofDeriv w dw hw) (ofDeriv _ _ (hasDerivAt_ofReal ha)) (ofDeriv _ _ (hasDerivAt_r3Complex p dp h3 hpsi))
    (ofDeriv _ _ (hasDerivAt_ofReal h2)) (ofDeriv _ _ (hasDerivAt_ofReal h1)) (ofDeriv _ _ he3)) k
  have e1 : ∀ t, (coeffsTripleIn (R := diffRing t₀) conjFun (ofDeriv _ _ (hasDerivAt_shiftCM p dp ha h1 h2 h3 hpsi))
      (ofDeriv w dw hw) (ofDeriv _ _ (hasDerivAt_ofReal ha)) (ofDeriv _ _ (hasDerivAt_r3Complex p dp h3 hpsi))
      (ofDeriv _ _ (hasDerivAt_ofReal h2)) (ofDeriv _ _ (hasDerivAt_ofReal h1)) (ofDeriv _ _ he3)).map (evalAt t)
      = polyCoeffsTripleCM (w t) (p t).a (r3Complex (p t)) (p t).e1 (p t).e2 := by
    intro t
    rw [coeffsTripleIn_map (evalAt t) conjFun conj (evalAt_conjFun t), polyCoeffsTripleCM_eq_in]
    simp only [evalAt_ofDeriv]
  simp only [e1] at h
  rw [coeffsTripleIn_map toDual conjFun dualConjugate toDual_conjFun] at h
  simp only [toDual_ofDeriv] at h
  exact h

/-! ## The determinant and the magnification of one image -/

theorem hasDerivAt_shearTerm (m x : ℝ → ℂ) (dm dx : ℂ) (hm : HasDerivAt m dm t₀) (hx : HasDerivAt x dx t₀)
    (h0 : x t₀ ≠ 0) :
    HasDerivAt (fun t => m t / x t ^ 2) (shearTermTangent (m t₀) dm (x t₀) dx) t₀ := by
  refine (hm.fun_div (hx.fun_pow 2) (pow_ne_zero 2 h0)).congr_deriv ?_
  unfold shearTermTangent
  field_simp
  push_cast
  ring

theorem hasDerivAt_det (g : ℝ → ℂ) (dg : ℂ) (hg : HasDerivAt g dg t₀) :
    HasDerivAt (fun t => 1 - ‖g t‖ ^ 2) (detTangent (g t₀) dg) t₀ := by
  have hre : HasDerivAt (fun t => (g t).re) dg.re t₀ := (Complex.reCLM.hasFDerivAt.comp_hasDerivAt t₀ hg :)
  have him : HasDerivAt (fun t => (g t).im) dg.im t₀ := (Complex.imCLM.hasFDerivAt.comp_hasDerivAt t₀ hg :)
  have h := ((hre.fun_mul hre).fun_add (him.fun_mul him)).const_sub 1
  have e : (fun t => 1 - ‖g t‖ ^ 2) = fun t => 1 - ((g t).re * (g t).re + (g t).im * (g t).im) := by
    funext t
    rw [← Complex.normSq_eq_norm_sq, Complex.normSq_apply]
  rw [e]
  refine h.congr_deriv ?_
  unfold detTangent
  by_cases h0 : g t₀ = 0
  · simp [h0]
  · have hn : ‖g t₀‖ ≠ 0 := norm_ne_zero_iff.mpr h0
    rw [mul_div_assoc', mul_right_comm, mul_div_assoc, div_self hn, mul_one]
    simp; ring

/-- `1 / |det|` along a path. -/
theorem hasDerivAt_invAbs (D : ℝ → ℝ) (dD : ℝ) (hD : HasDerivAt D dD t₀) (h0 : D t₀ ≠ 0) :
    HasDerivAt (fun t => 1 / |D t|) (-(1 / |D t₀|) / |D t₀| * (SignType.sign (D t₀) * dD)) t₀ := by
  have hab : HasDerivAt (fun t => |D t|) (SignType.sign (D t₀) * dD) t₀ :=
    (hasDerivAt_abs h0).comp t₀ hD
  have h := (hasDerivAt_const t₀ (1 : ℝ)).fun_div hab (abs_ne_zero.mpr h0)
  refine h.congr_deriv ?_
  have : |D t₀| ≠ 0 := abs_ne_zero.mpr h0
  field_simp
  ring

end Microjax.Props
