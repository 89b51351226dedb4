import Mathlib.Topology.Germ
import Mathlib.RingTheory.Derivation.Basic
import Mathlib.Analysis.Calculus.FDeriv.Analytic
import Mathlib.Analysis.Calculus.FDeriv.Symmetric
import Mathlib.Analysis.Analytic.Constructions
import Mathlib.Analysis.Complex.Basic
import Mathlib.Analysis.Complex.RealDeriv

/-!
# The differential ring of germs of real-analytic complex-valued functions of the plane
-/

noncomputable section

namespace Microjax.Props

open Complex ComplexConjugate Filter Topology

/-- Germs at `w₀` of functions that are real-analytic there. -/
def AnGerm (w₀ : ℂ) : Subring (Germ (𝓝 w₀) ℂ) where
  carrier := {g | ∃ f : ℂ → ℂ, AnalyticAt ℝ f w₀ ∧ (f : Germ (𝓝 w₀) ℂ) = g}
  mul_mem' := by
    rintro _ _ ⟨f, hf, rfl⟩ ⟨g, hg, rfl⟩
    exact ⟨f * g, hf.mul hg, rfl⟩
  one_mem' := ⟨1, analyticAt_const, rfl⟩
  add_mem' := by
    rintro _ _ ⟨f, hf, rfl⟩ ⟨g, hg, rfl⟩
    exact ⟨f + g, hf.add hg, rfl⟩
  zero_mem' := ⟨0, analyticAt_const, rfl⟩
  neg_mem' := by
    rintro _ ⟨f, hf, rfl⟩
    exact ⟨-f, hf.neg, rfl⟩

variable {w₀ : ℂ}

/-- The germ of an analytic function. -/
def mkA (f : ℂ → ℂ) (hf : AnalyticAt ℝ f w₀) : AnGerm w₀ := ⟨(f : Germ (𝓝 w₀) ℂ), f, hf, rfl⟩

theorem mkA_eq_iff {f g : ℂ → ℂ} {hf : AnalyticAt ℝ f w₀} {hg : AnalyticAt ℝ g w₀} :
    mkA f hf = mkA g hg ↔ f =ᶠ[𝓝 w₀] g := by
  rw [Subtype.ext_iff]; exact Germ.coe_eq

theorem exists_mkA (g : AnGerm w₀) : ∃ f hf, g = mkA f hf := by
  obtain ⟨_, f, hf, rfl⟩ := g; exact ⟨f, hf, rfl⟩

theorem mkA_add {f g : ℂ → ℂ} {hf : AnalyticAt ℝ f w₀} {hg : AnalyticAt ℝ g w₀} :
    mkA f hf + mkA g hg = mkA (fun w => f w + g w) (hf.add hg) := rfl

theorem mkA_mul {f g : ℂ → ℂ} {hf : AnalyticAt ℝ f w₀} {hg : AnalyticAt ℝ g w₀} :
    mkA f hf * mkA g hg = mkA (fun w => f w * g w) (hf.mul hg) := rfl

theorem mkA_sub {f g : ℂ → ℂ} {hf : AnalyticAt ℝ f w₀} {hg : AnalyticAt ℝ g w₀} :
    mkA f hf - mkA g hg = mkA (fun w => f w - g w) (hf.sub hg) := rfl

theorem mkA_one : (1 : AnGerm w₀) = mkA (fun _ => 1) analyticAt_const := rfl

theorem mkA_two : (2 : AnGerm w₀) = mkA (fun _ => 2) analyticAt_const := rfl

/-- Directional derivative of a function. -/
def dirFun (h : ℂ) (f : ℂ → ℂ) : ℂ → ℂ := fun w => fderiv ℝ f w h

theorem dirFun_analytic (h : ℂ) {f : ℂ → ℂ} (hf : AnalyticAt ℝ f w₀) : AnalyticAt ℝ (dirFun h f) w₀ :=
  (ContinuousLinearMap.apply ℝ ℂ h).analyticAt _ |>.comp hf.fderiv

theorem dirFun_congr (h : ℂ) {f g : ℂ → ℂ} (hfg : f =ᶠ[𝓝 w₀] g) : dirFun h f =ᶠ[𝓝 w₀] dirFun h g := by
  filter_upwards [hfg.fderiv (𝕜 := ℝ)] with w hw
  simp only [dirFun, hw]

/-- Directional derivative of a germ. -/
def dirG (h : ℂ) (g : AnGerm w₀) : AnGerm w₀ :=
  mkA (dirFun h (exists_mkA g).choose) (dirFun_analytic h (exists_mkA g).choose_spec.choose)

theorem dirG_mk (h : ℂ) (f : ℂ → ℂ) (hf : AnalyticAt ℝ f w₀) :
    dirG h (mkA f hf) = mkA (dirFun h f) (dirFun_analytic h hf) := by
  rw [dirG, mkA_eq_iff]
  apply dirFun_congr
  have := (exists_mkA (mkA f hf)).choose_spec.choose_spec
  exact (mkA_eq_iff.mp this).symm

theorem ev_diff {f : ℂ → ℂ} (hf : AnalyticAt ℝ f w₀) : ∀ᶠ w in 𝓝 w₀, DifferentiableAt ℝ f w :=
  hf.eventually_analyticAt.mono fun _ h => h.differentiableAt

/-- Directional derivative as a derivation. -/
def dirD (h : ℂ) : Derivation ℤ (AnGerm w₀) (AnGerm w₀) :=
  Derivation.mk' (AddMonoidHom.toIntLinearMap
    { toFun := dirG h
      map_zero' := by
        have : (0 : AnGerm w₀) = mkA (fun _ => 0) analyticAt_const := rfl
        rw [this, dirG_mk, mkA_eq_iff]
        exact Eventually.of_forall fun w => by simp [dirFun]
      map_add' := by
        intro x y
        obtain ⟨f, hf, rfl⟩ := exists_mkA x
        obtain ⟨g, hg, rfl⟩ := exists_mkA y
        rw [mkA_add, dirG_mk, dirG_mk, dirG_mk, mkA_add, mkA_eq_iff]
        filter_upwards [ev_diff hf, ev_diff hg] with w h1 h2
        simp [dirFun, fderiv_fun_add h1 h2] })
    (by
      intro x y
      obtain ⟨f, hf, rfl⟩ := exists_mkA x
      obtain ⟨g, hg, rfl⟩ := exists_mkA y
      change dirG h _ = _ • dirG h _ + _ • dirG h _
      rw [smul_eq_mul, smul_eq_mul, mkA_mul, dirG_mk, dirG_mk, dirG_mk, mkA_mul, mkA_mul, mkA_add, mkA_eq_iff]
      filter_upwards [ev_diff hf, ev_diff hg] with w h1 h2
      simp [dirFun, fderiv_fun_mul h1 h2])

theorem dirD_mk (h : ℂ) (f : ℂ → ℂ) (hf : AnalyticAt ℝ f w₀) :
    dirD h (mkA f hf) = mkA (dirFun h f) (dirFun_analytic h hf) := dirG_mk h f hf

/-- Directional derivatives commute. -/
theorem dirD_comm (h k : ℂ) (g : AnGerm w₀) : dirD h (dirD k g) = dirD k (dirD h g) := by
  obtain ⟨f, hf, rfl⟩ := exists_mkA g
  rw [dirD_mk, dirD_mk, dirD_mk, dirD_mk, mkA_eq_iff]
  filter_upwards [hf.eventually_analyticAt] with w hw
  have hs : IsSymmSndFDerivAt ℝ f w := hw.contDiffAt.isSymmSndFDerivAt_of_omega
  have hd : DifferentiableAt ℝ (fderiv ℝ f) w := hw.fderiv.differentiableAt
  have key : ∀ a b : ℂ, fderiv ℝ (dirFun a f) w b = fderiv ℝ (fderiv ℝ f) w b a := by
    intro a b
    have : HasFDerivAt (dirFun a f) ((ContinuousLinearMap.apply ℝ ℂ a).comp (fderiv ℝ (fderiv ℝ f) w)) w :=
      (ContinuousLinearMap.apply ℝ ℂ a).hasFDerivAt.comp w hd.hasFDerivAt
    rw [this.fderiv]; rfl
  simp only [dirFun] at key ⊢
  rw [key, key]
  exact hs h k

theorem conj_analytic {f : ℂ → ℂ} (hf : AnalyticAt ℝ f w₀) : AnalyticAt ℝ (fun w => conj (f w)) w₀ :=
  ((conjCLE : ℂ →L[ℝ] ℂ).analyticAt _).comp hf

/-- Complex conjugation of germs. -/
def conjG : AnGerm w₀ →+* AnGerm w₀ where
  toFun g := ⟨Germ.map conj g.1, by
    obtain ⟨_, f, hf, rfl⟩ := g
    exact ⟨fun w => conj (f w), conj_analytic hf, rfl⟩⟩
  map_one' := by
    apply Subtype.ext
    change Germ.map conj (1 : Germ (𝓝 w₀) ℂ) = 1
    change (((fun _ => conj (1 : ℂ)) : ℂ → ℂ) : Germ (𝓝 w₀) ℂ) = _
    simp; rfl
  map_mul' := by
    rintro ⟨_, f, hf, rfl⟩ ⟨_, g, hg, rfl⟩
    apply Subtype.ext
    change (((fun w => conj (f w * g w)) : ℂ → ℂ) : Germ (𝓝 w₀) ℂ) = _
    simp only [map_mul]; rfl
  map_zero' := by
    apply Subtype.ext
    change (((fun _ => conj (0 : ℂ)) : ℂ → ℂ) : Germ (𝓝 w₀) ℂ) = _
    simp; rfl
  map_add' := by
    rintro ⟨_, f, hf, rfl⟩ ⟨_, g, hg, rfl⟩
    apply Subtype.ext
    change (((fun w => conj (f w + g w)) : ℂ → ℂ) : Germ (𝓝 w₀) ℂ) = _
    simp only [map_add]; rfl

theorem conjG_mk (f : ℂ → ℂ) (hf : AnalyticAt ℝ f w₀) :
    conjG (mkA f hf) = mkA (fun w => conj (f w)) (conj_analytic hf) := rfl

theorem dirD_conjG (h : ℂ) (g : AnGerm w₀) : dirD h (conjG g) = conjG (dirD h g) := by
  obtain ⟨f, hf, rfl⟩ := exists_mkA g
  rw [conjG_mk, dirD_mk, dirD_mk, conjG_mk, mkA_eq_iff]
  filter_upwards [ev_diff hf] with w hw
  have : HasFDerivAt (fun w => conj (f w)) ((conjCLE : ℂ →L[ℝ] ℂ).comp (fderiv ℝ f w)) w :=
    (conjCLE : ℂ →L[ℝ] ℂ).hasFDerivAt.comp w hw.hasFDerivAt
  simp only [dirFun]
  rw [this.fderiv]; simp

/-- Evaluation of a germ at the base point. -/
def evG : AnGerm w₀ →+* ℂ := (Germ.valueRingHom).comp (AnGerm w₀).subtype

theorem evG_mk (f : ℂ → ℂ) (hf : AnalyticAt ℝ f w₀) : evG (mkA f hf) = f w₀ := rfl

theorem evG_conjG (g : AnGerm w₀) : evG (conjG g) = conj (evG g) := by
  obtain ⟨f, hf, rfl⟩ := exists_mkA g; rfl

/-- Chain rule for a holomorphic function of an analytic function. -/
theorem dirD_comp (h : ℂ) {z : ℂ → ℂ} (hz : AnalyticAt ℝ z w₀) {F F' : ℂ → ℂ}
    (hF : ∀ᶠ x in 𝓝 (z w₀), HasDerivAt F (F' x) x)
    (hFa : AnalyticAt ℝ (fun w => F (z w)) w₀) (hFa' : AnalyticAt ℝ (fun w => F' (z w)) w₀) :
    dirD h (mkA (fun w => F (z w)) hFa) = mkA (fun w => F' (z w)) hFa' * dirD h (mkA z hz) := by
  rw [dirD_mk, dirD_mk, mkA_mul, mkA_eq_iff]
  filter_upwards [ev_diff hz, hz.continuousAt.eventually hF] with w h1 h2
  have h3 : HasFDerivAt (fun w => F (z w))
      (((ContinuousLinearMap.toSpanSingleton ℂ (F' (z w))).restrictScalars ℝ).comp (fderiv ℝ z w)) w :=
    (h2.hasFDerivAt.restrictScalars ℝ).comp w h1.hasFDerivAt
  simp only [dirFun]
  rw [h3.fderiv]
  simp [mul_comm]

end Microjax.Props
