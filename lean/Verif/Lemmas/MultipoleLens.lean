import Verif.Lemmas.MultipoleAlg
import Verif.Lemmas.Germs
import Verif.Lemmas.Lensing
import Verif.Spec.Calculus
import Mathlib.Analysis.Calculus.InverseFunctionTheorem.ContDiff
import Mathlib.Analysis.Calculus.ContDiff.Operations
import Mathlib.Analysis.Calculus.Deriv.ZPow

/-!
# The local inverse of the lens map and the germs of its derivatives
-/

noncomputable section

namespace Microjax.Props

open Complex ComplexConjugate Filter Topology Spec Multipole

/-- Iterated derivatives of the deflection `Σ m / (z - zₗ)`: `wSpec L (k+1)` is its `k`-th derivative. -/
def wSpec (L : Lenses) (z : ℂ) (k : ℕ) : ℂ :=
  (-1) ^ (k - 1) * ((k - 1).factorial : ℂ) * (L.map fun l => (l.1 : ℂ) / (z - l.2) ^ k).sum

theorem hasDerivAt_pole (m c x : ℂ) (k : ℕ) (h : x - c ≠ 0) :
    HasDerivAt (fun x : ℂ => m / (x - c) ^ k) (-(k * (m / (x - c) ^ (k + 1)))) x := by
  have h1 : HasDerivAt (fun x : ℂ => x - c) 1 x := (hasDerivAt_id x).sub_const c
  have h2 := ((h1.fun_pow k).fun_inv (pow_ne_zero k h)).const_mul m
  have e : (fun x : ℂ => m / (x - c) ^ k) = fun x => m * ((x - c) ^ k)⁻¹ := by
    funext; rw [div_eq_mul_inv]
  rw [e]
  refine h2.congr_deriv ?_
  cases k with
  | zero => simp
  | succ k =>
    simp only [Nat.add_sub_cancel]
    field_simp
    ring

theorem hasDerivAt_wSpec (L : Lenses) (k : ℕ) (hk : 1 ≤ k) (x : ℂ) (h : ∀ l ∈ L, x ≠ l.2) :
    HasDerivAt (fun z => wSpec L z k) (wSpec L x (k + 1)) x := by
  have hs : HasDerivAt (fun z => (L.map fun l => (l.1 : ℂ) / (z - l.2) ^ k).sum)
      (-((k : ℂ) * (L.map fun l => (l.1 : ℂ) / (x - l.2) ^ (k + 1)).sum)) x := by
    induction L with
    | nil => simpa using hasDerivAt_const x (0 : ℂ)
    | cons l L ih =>
      have h1 := hasDerivAt_pole l.1 l.2 x k (sub_ne_zero.mpr (h l List.mem_cons_self))
      have h2 := ih fun l' hl' => h l' (List.mem_cons_of_mem _ hl')
      simp only [List.map_cons, List.sum_cons]
      exact (HasDerivAt.fun_add h1 h2).congr_deriv (by ring)
  have := hs.const_mul ((-1) ^ (k - 1) * ((k - 1).factorial : ℂ))
  refine this.congr_deriv ?_
  unfold wSpec
  obtain ⟨j, rfl⟩ : ∃ j, k = j + 1 := ⟨k - 1, by omega⟩
  simp only [Nat.add_sub_cancel, Nat.factorial_succ, pow_succ]
  push_cast; ring

theorem lensMap_eq_wSpec (L : Lenses) (z : ℂ) : lensMap L z = z - conj (wSpec L z 1) := by
  unfold lensMap wSpec
  simp only [Nat.sub_self, pow_zero, Nat.factorial_zero, Nat.cast_one, one_mul, pow_one]
  rw [map_list_sum, List.map_map]
  congr 3
  funext l
  simp

theorem jacDet_eq_wSpec (L : Lenses) (z : ℂ) (h : ∀ l ∈ L, z ≠ l.2) :
    jacDet (lensMap L) z = 1 - ‖wSpec L z 2‖ ^ 2 := by
  rw [(jacDet_lensMap L z h).2]
  have : wSpec L z 2 = -conj ((L.map fun l => (l.1 : ℂ) / (conj z - conj l.2) ^ 2).sum) := by
    unfold wSpec
    rw [map_list_sum, List.map_map]
    simp [Function.comp_def]
  rw [this, norm_neg, RCLike.norm_conj]

theorem analyticAt_wSpec (L : Lenses) (k : ℕ) {w₀ : ℂ} {z : ℂ → ℂ} (hz : AnalyticAt ℝ z w₀)
    (h : ∀ l ∈ L, z w₀ ≠ l.2) : AnalyticAt ℝ (fun w => wSpec L (z w) k) w₀ := by
  unfold wSpec
  apply analyticAt_const.mul
  induction L with
  | nil => simpa using analyticAt_const
  | cons l L ih =>
    simp only [List.map_cons, List.sum_cons]
    apply AnalyticAt.add _ (ih fun l' hl' => h l' (List.mem_cons_of_mem _ hl'))
    apply AnalyticAt.div analyticAt_const ((hz.sub analyticAt_const).pow k)
    exact pow_ne_zero _ (sub_ne_zero.mpr (h l List.mem_cons_self))

theorem off_lens_eventually (L : Lenses) (z₀ : ℂ) (h : ∀ l ∈ L, z₀ ≠ l.2) :
    ∀ᶠ x in 𝓝 z₀, ∀ l ∈ L, x ≠ l.2 := by
  induction L with
  | nil => simp
  | cons l L ih =>
    have h1 : ∀ᶠ x in 𝓝 z₀, x ≠ l.2 := (continuousAt_id).eventually_ne (h l List.mem_cons_self)
    filter_upwards [h1, ih fun l' hl' => h l' (List.mem_cons_of_mem _ hl')] with x h2 h3
    intro l' hl'
    rcases List.mem_cons.mp hl' with rfl | h'
    · exact h2
    · exact h3 l' h'

theorem analyticAt_lensMap (L : Lenses) (z₀ : ℂ) (h : ∀ l ∈ L, z₀ ≠ l.2) :
    AnalyticAt ℝ (lensMap L) z₀ := by
  have e : lensMap L = fun z => z - conj (wSpec L z 1) := funext (lensMap_eq_wSpec L)
  rw [e]
  exact analyticAt_id.sub (conj_analytic (analyticAt_wSpec L 1 analyticAt_id h))

/-- Around a regular image there is a real-analytic local inverse of the lens map, and every continuous local
right inverse through that image is real-analytic. -/
theorem local_inverse (L : Lenses) (z₀ : ℂ) (h : ∀ l ∈ L, z₀ ≠ l.2) (hreg : jacDet (lensMap L) z₀ ≠ 0) :
    (∃ z : ℂ → ℂ, z (lensMap L z₀) = z₀ ∧ AnalyticAt ℝ z (lensMap L z₀) ∧
      ∀ᶠ w in 𝓝 (lensMap L z₀), lensMap L (z w) = w) ∧
    (∀ z : ℂ → ℂ, z (lensMap L z₀) = z₀ → ContinuousAt z (lensMap L z₀) →
      (∀ᶠ w in 𝓝 (lensMap L z₀), lensMap L (z w) = w) → AnalyticAt ℝ z (lensMap L z₀)) := by
  have hreg' : (fderiv ℝ (lensMap L) z₀).det ≠ 0 := hreg
  have ha := analyticAt_lensMap L z₀ h
  have hcd : ContDiffAt ℝ ⊤ (lensMap L) z₀ := ha.contDiffAt
  have hd : HasFDerivAt (lensMap L) (fderiv ℝ (lensMap L) z₀) z₀ := ha.differentiableAt.hasFDerivAt
  set e : ℂ ≃L[ℝ] ℂ := ContinuousLinearMap.toContinuousLinearEquivOfDetNeZero
    (fderiv ℝ (lensMap L) z₀) hreg' with he
  have hd' : HasFDerivAt (lensMap L) (e : ℂ →L[ℝ] ℂ) z₀ := by
    rw [he, ContinuousLinearMap.coe_toContinuousLinearEquivOfDetNeZero]; exact hd
  have hn : (⊤ : WithTop ℕ∞) ≠ 0 := by simp
  have hloc := hcd.to_localInverse hd' hn
  have happ := hcd.localInverse_apply_image hd' hn
  have hs := hcd.hasStrictFDerivAt' hd' hn
  have hr := hs.eventually_right_inverse
  have hl := hs.eventually_left_inverse
  have han : AnalyticAt ℝ (hcd.localInverse hd' hn) (lensMap L z₀) := hloc.analyticAt
  refine ⟨⟨_, happ, han, hr⟩, ?_⟩
  intro z hz hc hz'
  refine han.congr ?_
  have hc' : Tendsto z (𝓝 (lensMap L z₀)) (𝓝 z₀) := by
    have := hc.tendsto; rwa [hz] at this
  filter_upwards [hc'.eventually hl, hz'] with w h1 h2
  rw [h2] at h1
  exact h1

section

variable {L : Lenses} {w₀ : ℂ} {z : ℂ → ℂ}

/-- Germs of the derivatives of the image position. -/
def aG (z : ℂ → ℂ) (hz : AnalyticAt ℝ z w₀) (k l : ℕ) : AnGerm w₀ :=
  (dirD 1)^[k] ((dirD I)^[l] (mkA z hz))

/-- Germs of the derivatives of the deflection along the image. -/
def vG (L : Lenses) (z : ℂ → ℂ) (hz : AnalyticAt ℝ z w₀) (h : ∀ l ∈ L, z w₀ ≠ l.2) (k : ℕ) : AnGerm w₀ :=
  mkA (fun w => wSpec L (z w) k) (analyticAt_wSpec L k hz h)

theorem iter_comm (h k : ℂ) (n : ℕ) (g : AnGerm w₀) :
    dirD k ((dirD h)^[n] g) = (dirD h)^[n] (dirD k g) := by
  induction n generalizing g with
  | zero => rfl
  | succ n ih => rw [Function.iterate_succ_apply, Function.iterate_succ_apply, ih, dirD_comm]

theorem vG_dir (hz : AnalyticAt ℝ z w₀) (h : ∀ l ∈ L, z w₀ ≠ l.2) (d : ℂ) (k : ℕ) (hk : 1 ≤ k) :
    dirD d (vG L z hz h k) = vG L z hz h (k + 1) * dirD d (mkA z hz) :=
  dirD_comp d hz (F := fun x => wSpec L x k) (F' := fun x => wSpec L x (k + 1))
    ((off_lens_eventually L (z w₀) h).mono fun x hx => hasDerivAt_wSpec L k hk x hx) _ _

theorem ofReal_analytic {g : ℂ → ℝ} (hg : AnalyticAt ℝ g w₀) : AnalyticAt ℝ (fun w => (g w : ℂ)) w₀ :=
  (ofRealCLM.analyticAt _).comp hg

theorem dirR_analytic (h : ℂ) {g : ℂ → ℝ} (hg : AnalyticAt ℝ g w₀) :
    AnalyticAt ℝ (fun w => fderiv ℝ g w h) w₀ :=
  (ContinuousLinearMap.apply ℝ ℝ h).analyticAt _ |>.comp hg.fderiv

/-- A real function as a germ. -/
def realG (g : ℂ → ℝ) (hg : AnalyticAt ℝ g w₀) : AnGerm w₀ :=
  mkA (fun w => (g w : ℂ)) (ofReal_analytic hg)

theorem realG_dir (g : ℂ → ℝ) (hg : AnalyticAt ℝ g w₀) (h : ℂ) :
    dirD h (realG g hg) = realG (fun w => fderiv ℝ g w h) (dirR_analytic h hg) := by
  unfold realG
  rw [dirD_mk, mkA_eq_iff]
  filter_upwards [hg.eventually_analyticAt] with w hw
  have : HasFDerivAt (fun w => (g w : ℂ)) (ofRealCLM.comp (fderiv ℝ g w)) w :=
    ofRealCLM.hasFDerivAt.comp w hw.differentiableAt.hasFDerivAt
  simp only [dirFun]
  rw [this.fderiv]; rfl

theorem laplacian_analytic (g : ℂ → ℝ) (hg : AnalyticAt ℝ g w₀) : AnalyticAt ℝ (laplacian g) w₀ := by
  exact (dirR_analytic 1 (dirR_analytic 1 hg)).add (dirR_analytic I (dirR_analytic I hg))

theorem lapA_realG (g : ℂ → ℝ) (hg : AnalyticAt ℝ g w₀) :
    lapA (dirD 1) (dirD I) (realG g hg) = realG (laplacian g) (laplacian_analytic g hg) := by
  unfold lapA
  rw [realG_dir, realG_dir, realG_dir, realG_dir]
  unfold realG
  rw [mkA_add, mkA_eq_iff]
  exact Eventually.of_forall fun w => by simp [laplacian]

/-- The terms of the code are those of the Laplace expansion of the signed magnification. -/
theorem lens_terms (hz : AnalyticAt ℝ z w₀) (h : ∀ l ∈ L, z w₀ ≠ l.2)
    (hreg : jacDet (lensMap L) (z w₀) ≠ 0) (hinv : ∀ᶠ w in 𝓝 w₀, lensMap L (z w) = w) (rho u1 : ℝ) :
    AnalyticAt ℝ (fun w => 1 / jacDet (lensMap L) (z w)) w₀ ∧
    (cassan (wStack (wSpec L (z w₀))) rho u1).ps = 1 / jacDet (lensMap L) (z w₀) ∧
    (cassan (wStack (wSpec L (z w₀))) rho u1).quad
      = laplacian (fun w => 1 / jacDet (lensMap L) (z w)) w₀ / 8 * (1 - 1 / 5 * gammaLD u1) * rho ^ 2 ∧
    (cassan (wStack (wSpec L (z w₀))) rho u1).hex
      = laplacian (laplacian (fun w => 1 / jacDet (lensMap L) (z w))) w₀ / 192
        * (1 - 11 / 35 * gammaLD u1) * rho ^ 4 := by
  have hoff : ∀ᶠ w in 𝓝 w₀, ∀ l ∈ L, z w ≠ l.2 := hz.continuousAt.eventually (off_lens_eventually L _ h)
  have hjac : ∀ᶠ w in 𝓝 w₀, jacDet (lensMap L) (z w) = 1 - ‖wSpec L (z w) 2‖ ^ 2 :=
    hoff.mono fun w hw => jacDet_eq_wSpec L (z w) hw
  have hreg2 : 1 - ‖wSpec L (z w₀) 2‖ ^ 2 ≠ 0 := by rwa [← jacDet_eq_wSpec L _ h]
  have hV2 := analyticAt_wSpec L 2 hz h
  have hnsq : AnalyticAt ℝ (fun w => 1 - ‖wSpec L (z w) 2‖ ^ 2) w₀ := by
    have e : (fun w => 1 - ‖wSpec L (z w) 2‖ ^ 2)
        = fun w => reCLM (1 - conj (wSpec L (z w) 2) * wSpec L (z w) 2) := by
      funext w
      rw [Complex.conj_mul', reCLM_apply, sub_re, one_re, ← ofReal_pow, ofReal_re]
    rw [e]
    exact (reCLM.analyticAt _).comp (analyticAt_const.sub ((conj_analytic hV2).mul hV2))
  have hg0 : AnalyticAt ℝ (fun w => 1 / (1 - ‖wSpec L (z w) 2‖ ^ 2)) w₀ :=
    analyticAt_const.div hnsq hreg2
  have hg : AnalyticAt ℝ (fun w => 1 / jacDet (lensMap L) (z w)) w₀ := by
    refine hg0.congr ?_
    filter_upwards [hjac] with w hw
    rw [hw]
  set g : ℂ → ℝ := fun w => 1 / jacDet (lensMap L) (z w) with hgdef
  have hX0 : ∀ k l, dirD 1 (aG z hz k l) = aG z hz (k + 1) l := fun k l => by
    unfold aG; rw [Function.iterate_succ_apply']
  have hY0 : ∀ k l, dirD I (aG z hz k l) = aG z hz k (l + 1) := fun k l => by
    unfold aG; rw [iter_comm, Function.iterate_succ_apply']
  have J : LensJet (dirD 1) (dirD I) conjG evG (aG z hz) (vG L z hz h) :=
    { hcX := dirD_conjG 1
      hcY := dirD_conjG I
      hX := hX0
      hY := hY0
      hVX := fun k => vG_dir hz h 1 (k + 1) (by omega)
      hVY := fun k => vG_dir hz h I (k + 1) (by omega)
      hev := evG_conjG
      hreg := hreg2 }
  set i : AnGerm w₀ := mkA (fun _ => I) analyticAt_const with hidef
  have hconst : ∀ d x : ℂ, dirD d (mkA (w₀ := w₀) (fun _ => x) analyticAt_const) = 0 := by
    intro d x
    rw [dirD_mk]
    have : (0 : AnGerm w₀) = mkA (fun _ => 0) analyticAt_const := rfl
    rw [this, mkA_eq_iff]
    exact Eventually.of_forall fun w => by simp [dirFun]
  have hlens : mkA z hz = mkA (fun w => w) analyticAt_id + conjG (vG L z hz h 1) := by
    unfold vG
    rw [conjG_mk, mkA_add, mkA_eq_iff]
    filter_upwards [hinv] with w hw
    rw [lensMap_eq_wSpec] at hw
    linear_combination hw
  have hid : ∀ d : ℂ, dirD d (mkA (w₀ := w₀) (fun w => w) analyticAt_id)
      = mkA (fun _ => d) analyticAt_const := by
    intro d
    rw [dirD_mk, mkA_eq_iff]
    exact Eventually.of_forall fun w => by simp [dirFun]
  have h10 : aG z hz 1 0 = 1 + conjG (vG L z hz h 2 * aG z hz 1 0) := by
    have := congrArg (dirD 1) hlens
    rw [map_add, hid, dirD_conjG, vG_dir hz h 1 1 le_rfl] at this
    exact this
  have h01 : aG z hz 0 1 = i + conjG (vG L z hz h 2 * aG z hz 0 1) := by
    have := congrArg (dirD I) hlens
    rw [map_add, hid, dirD_conjG, vG_dir hz h I 1 le_rfl] at this
    exact this
  have hcc : ∀ x : AnGerm w₀, conjG (conjG x) = x := by
    intro x
    obtain ⟨f, hf, rfl⟩ := exists_mkA x
    rw [conjG_mk, conjG_mk, mkA_eq_iff]
    exact Eventually.of_forall fun w => by simp
  have hMone : (1 - vG L z hz h 2 * conjG (vG L z hz h 2)) * realG g hg = 1 := by
    unfold vG realG
    rw [conjG_mk, mkA_mul, mkA_one, mkA_sub, mkA_mul, mkA_eq_iff]
    have hne : ∀ᶠ w in 𝓝 w₀, 1 - ‖wSpec L (z w) 2‖ ^ 2 ≠ 0 := hnsq.continuousAt.eventually_ne hreg2
    filter_upwards [hjac, hne] with w h1 h2
    simp only [hgdef, h1]
    have h3 : (1 - (‖wSpec L (z w) 2‖ : ℂ) ^ 2) ≠ 0 := by exact_mod_cast h2
    push_cast
    rw [Complex.mul_conj']
    field_simp
  have hci : conjG i = -i := by
    have : (-i : AnGerm w₀) = mkA (fun _ => -I) analyticAt_const := rfl
    rw [this, hidef, conjG_mk, mkA_eq_iff]
    exact Eventually.of_forall fun w => by simp
  have hM : conjG (aG z hz 1 0) * aG z hz 0 1 - aG z hz 1 0 * conjG (aG z hz 0 1) = 2 * i * realG g hg := by
    have c10 := congrArg conjG h10
    have c01 := congrArg conjG h01
    rw [map_add, map_one, hcc] at c10
    rw [map_add, hci, hcc] at c01
    rw [map_mul] at h10 h01
    set x := aG z hz 1 0
    set y := aG z hz 0 1
    set v := vG L z hz h 2
    set cv := conjG v
    set M := realG g hg
    have x1 : x = M * (1 + cv) := by
      linear_combination (M) * h10 + M * cv * c10 - x * hMone
    have x2 : conjG x = M * (1 + v) := by
      linear_combination (M) * c10 + M * v * h10 - conjG x * hMone
    have y1 : y = M * (i - i * cv) := by
      linear_combination (M) * h01 + M * cv * c01 - y * hMone
    have y2 : conjG y = M * (-i + i * v) := by
      linear_combination (M) * c01 + M * v * h01 - conjG y * hMone
    rw [x2, y2, x1, y1]
    linear_combination 2 * i * M * hMone
  have key := J.laplacians (i := i) (M := realG g hg) (hconst 1 I) (hconst I I) rfl h10 h01 hM rho u1
  have hstack : evStack evG (vG L z hz h) = wStack (wSpec L (z w₀)) := rfl
  rw [hstack, lapA_realG, lapA_realG] at key
  have hev : ∀ (f : ℂ → ℝ) (hf : AnalyticAt ℝ f w₀), evG (realG f hf) = (f w₀ : ℂ) := fun f hf => rfl
  rw [hev, hev] at key
  refine ⟨hg, ?_, ?_, ?_⟩
  · simp only [cassan, mu0, wStack, jacDet_eq_wSpec L _ h]
  · apply Complex.ofReal_injective; rw [key.1]; push_cast; ring
  · apply Complex.ofReal_injective; rw [key.2]; push_cast; ring

end

end Microjax.Props
