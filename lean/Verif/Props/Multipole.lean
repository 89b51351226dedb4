import Verif.Lemmas.DiscMean
import Verif.Props.PointSource
import Mathlib.Analysis.SpecialFunctions.Gamma.Basic

/-!
# Properties of `multipole.py` (C21-C24)
-/

noncomputable section

namespace Microjax.Props

open Complex ComplexConjugate Filter Topology Spec Asymptotics PointSource Multipole

/-! ## Connection of the code's `W(k)` with the lens configurations -/

theorem factorial_eq (n : ℕ) : Multipole.factorial n = n.factorial := by
  unfold Multipole.factorial
  rw [Real.Gamma_nat_eq_factorial, Real.exp_log (by exact_mod_cast n.factorial_pos)]

/-- The triple lens as the multipole code places it: third lens at the real number `r3`. -/
def realTriple (p : MidParams) : Lenses :=
  [(p.e1, (p.a : ℂ)), (p.e2, -(p.a : ℂ)), (1 - p.e1 - p.e2, (p.r3 : ℂ))]

/-- The lens configuration that `mag_hexadecapole` describes for each `nlenses`. -/
def hexLens (n : ℕ) (p : MidParams) : Lenses :=
  if n = 1 then single else if n = 2 then midBinary p else realTriple p

theorem wk1_eq (z : ℂ) (k : ℕ) : wk1 z k = wSpec single z k := by
  simp [wk1, wSpec, single, factorial_eq]
  ring

theorem wk2_eq (p : MidParams) (z : ℂ) (k : ℕ) : wk2 p z k = wSpec (midBinary p) z k := by
  simp [wk2, wSpec, midBinary, factorial_eq]

theorem wk3_eq (p : MidParams) (z : ℂ) (k : ℕ) : wk3 p z k = wSpec (realTriple p) z k := by
  simp only [wk3, wSpec, realTriple, factorial_eq, List.map_cons, List.map_nil, List.sum_cons, List.sum_nil]
  push_cast
  rw [sub_neg_eq_add]
  ring

theorem magHex_eq (n : ℕ) (hn : n = 1 ∨ n = 2 ∨ n = 3) (p : MidParams) (zs : List (ℂ × Bool)) (rho u1 : ℝ) :
    magHexadecapole n p zs rho u1 = .ok (sumTerms (wSpec (hexLens n p)) zs rho u1) := by
  have h1 : wk1 = wSpec single := by funext z k; exact wk1_eq z k
  have h2 : wk2 p = wSpec (midBinary p) := by funext z k; exact wk2_eq p z k
  have h3 : wk3 p = wSpec (realTriple p) := by funext z k; exact wk3_eq p z k
  rcases hn with rfl | rfl | rfl <;> simp [magHexadecapole, wBranch, hexLens, h1, h2, h3]

theorem cassan_zero (W : WStack) (u1 : ℝ) :
    (cassan W 0 u1).ps = mu0 W.W2 ∧ (cassan W 0 u1).quad = 0 ∧ (cassan W 0 u1).hex = 0 := by
  simp [cassan]

/-- Sum over the valid images of `1/|det J|` (the spec of a point-source magnification over given images). -/
def validMag (L : Lenses) (zs : List (ℂ × Bool)) : ℝ :=
  ((zs.filter (·.2)).map fun zm => 1 / |jacDet (lensMap L) zm.1|).sum

/-! ## C21 -/

/-- **C21**: at `rho = 0` the multipole magnification is the sum of `1/|det J|` over the valid images and the
error estimate is zero. -/
theorem C21_zero_radius (n : ℕ) (hn : n = 1 ∨ n = 2 ∨ n = 3) (p : MidParams) (zs : List (ℂ × Bool)) (u1 : ℝ)
    (hoff : ∀ zm ∈ zs, ∀ l ∈ hexLens n p, zm.1 ≠ l.2) :
    magHexadecapole n p zs 0 u1 = .ok (validMag (hexLens n p) zs, 0) := by
  rw [magHex_eq n hn]
  congr 1
  unfold sumTerms validMag
  simp only [List.map_map, Function.comp_def, cassan_zero, abs_zero, mul_zero, add_zero]
  refine Prod.ext ?_ (by simp)
  simp only
  induction zs with
  | nil => rfl
  | cons zm zs ih =>
    have h1 := ih fun z hz => hoff z (List.mem_cons_of_mem _ hz)
    have h2 := jacDet_eq_wSpec (hexLens n p) zm.1 (hoff zm List.mem_cons_self)
    rw [List.map_cons, List.sum_cons, h1]
    rcases hm : zm.2 with _ | _
    · simp [hm]
    · simp [hm, h2, wStack, mu0]

/-- **C21**: for one lens the `rho = 0` value over the images of the source at `w` is Paczynski's. -/
theorem C21_paczynski (p : MidParams) (w : ℂ) (hw : w ≠ 0) (u1 : ℝ) :
    magHexadecapole 1 p (images1 w) 0 u1 = .ok (paczynski ‖w‖, 0) := by
  obtain ⟨z1, z2, hi, hne, hiff, -⟩ := C01_single_images w hw
  have him : ∀ z ∈ [z1, z2], IsImage single w z := by
    intro z hz
    simp only [List.mem_cons, List.not_mem_nil, or_false] at hz
    exact (hiff z).mpr hz
  rw [C21_zero_radius 1 (.inl rfl)]
  · rw [← C02_true_single_mag w hw]
    congr 2
    rw [pointMag_of_list single w [z1, z2] (by simp [hne]) (by intro z; simp [hiff])]
    simp only [hi, validMag, hexLens]
    have h1 := (him z1 (by simp)).1
    have h2 := (him z2 (by simp)).1
    simp [(jacDet_lensMap single _ h1).2, (jacDet_lensMap single _ h2).2, detFormula]
  · rw [hi]
    intro zm hzm
    simp only [List.mem_cons, List.not_mem_nil, or_false] at hzm
    rcases hzm with rfl | rfl
    · exact (him z1 (by simp)).1
    · exact (him z2 (by simp)).1

/-- **C21**: each image's value is an even polynomial of degree at most four in `rho`. -/
theorem C21_even_polynomial (L : Lenses) (z : ℂ) (u1 : ℝ) :
    ∃ A B C : ℝ, ∀ rho : ℝ,
      (cassan (wStack (wSpec L z)) rho u1).ps + (cassan (wStack (wSpec L z)) rho u1).quad
        + (cassan (wStack (wSpec L z)) rho u1).hex = A + B * rho ^ 2 + C * rho ^ 4 :=
  ⟨_, _, _, fun _ => rfl⟩

/-- **C21**: other lens numbers are refused. -/
theorem C21_dispatch (n : ℕ) (hn : n ≠ 1 ∧ n ≠ 2 ∧ n ≠ 3) (p : MidParams) (zs : List (ℂ × Bool)) (rho u1 : ℝ) :
    magHexadecapole n p zs rho u1 = .error (.valueError "`nlenses` has to be set to be <= 3.") := by
  simp [magHexadecapole, wBranch, hn.1, hn.2.1, hn.2.2]

/-! ## C22 -/

/-- Signed point-source magnification along an image branch `z`. -/
def branchMag (L : Lenses) (z : ℂ → ℂ) (w : ℂ) : ℝ := 1 / jacDet (lensMap L) (z w)

/-- **C22**: at every regular image there is a local inverse of the lens map, it is real-analytic, and so is
any other continuous one. -/
theorem C22_local_inverse (L : Lenses) (z₀ : ℂ) (h : ∀ l ∈ L, z₀ ≠ l.2) (hreg : jacDet (lensMap L) z₀ ≠ 0) :
    (∃ z : ℂ → ℂ, z (lensMap L z₀) = z₀ ∧ ContinuousAt z (lensMap L z₀) ∧
      ∀ᶠ w in 𝓝 (lensMap L z₀), lensMap L (z w) = w) ∧
    (∀ z : ℂ → ℂ, z (lensMap L z₀) = z₀ → ContinuousAt z (lensMap L z₀) →
      (∀ᶠ w in 𝓝 (lensMap L z₀), lensMap L (z w) = w) → AnalyticAt ℝ z (lensMap L z₀)) := by
  obtain ⟨⟨z, h1, h2, h3⟩, h4⟩ := local_inverse L z₀ h hreg
  exact ⟨⟨z, h1, h2.continuousAt, h3⟩, h4⟩

/-- Hypotheses on an image branch: a continuous local right inverse of the lens map through a regular image
away from the lenses. -/
structure Branch (L : Lenses) (w₀ : ℂ) (z : ℂ → ℂ) : Prop where
  cont : ContinuousAt z w₀
  inv : ∀ᶠ w in 𝓝 w₀, lensMap L (z w) = w
  off : ∀ l ∈ L, z w₀ ≠ l.2
  reg : jacDet (lensMap L) (z w₀) ≠ 0

theorem Branch.analytic {L : Lenses} {w₀ : ℂ} {z : ℂ → ℂ} (h : Branch L w₀ z) : AnalyticAt ℝ z w₀ := by
  have hw : lensMap L (z w₀) = w₀ := h.inv.self_of_nhds
  have := (local_inverse L (z w₀) h.off h.reg).2 z (by rw [hw]) (by rw [hw]; exact h.cont)
    (by rw [hw]; exact h.inv)
  rwa [hw] at this

/-- **C22**: the three terms of the code, for every lens configuration and image branch, are the Laplace
terms of the signed magnification. -/
theorem C22_terms (L : Lenses) (w₀ : ℂ) (z : ℂ → ℂ) (h : Branch L w₀ z) (rho u1 : ℝ) :
    (cassan (wStack (wSpec L (z w₀))) rho u1).ps = branchMag L z w₀ ∧
    (cassan (wStack (wSpec L (z w₀))) rho u1).quad
      = 1 / 2 * (1 / 4 * laplacian (branchMag L z) w₀) * (1 - 1 / 5 * (2 * u1 / (3 - u1))) * rho ^ 2 ∧
    (cassan (wStack (wSpec L (z w₀))) rho u1).hex
      = 1 / 24 * (1 / 8 * laplacian (laplacian (branchMag L z)) w₀)
          * (1 - 11 / 35 * (2 * u1 / (3 - u1))) * rho ^ 4 := by
  obtain ⟨_, h1, h2, h3⟩ := lens_terms h.analytic h.off h.reg h.inv rho u1
  refine ⟨h1, ?_, ?_⟩
  · rw [h2]; unfold gammaLD branchMag; ring
  · rw [h3]; unfold gammaLD branchMag; ring

/-- **C22**: the per-image value is the fourth-order expansion in `rho` of the flux-weighted mean of the
signed magnification over the linearly limb-darkened source disc. -/
theorem C22_expansion (L : Lenses) (w₀ : ℂ) (z : ℂ → ℂ) (h : Branch L w₀ z) (u1 : ℝ) (hu : u1 ≠ 3) :
    (fun rho : ℝ => discMean u1 (branchMag L z) w₀ rho
      - ((cassan (wStack (wSpec L (z w₀))) rho u1).ps + (cassan (wStack (wSpec L (z w₀))) rho u1).quad
        + (cassan (wStack (wSpec L (z w₀))) rho u1).hex)) =O[𝓝 0] fun rho => rho ^ 5 := by
  have hg := (lens_terms h.analytic h.off h.reg h.inv 0 u1).1
  have := discMean_expansion (branchMag L z) hg u1 hu
  refine this.congr_left fun rho => ?_
  obtain ⟨h1, h2, h3⟩ := C22_terms L w₀ z h rho u1
  rw [h1, h2, h3]
  ring

/-- **C22**: the value returned by `mag_hexadecapole` over any list of image branches differs from the sum of
the absolute disc means by a term of fifth order in `rho`. -/
theorem C22_total (n : ℕ) (hn : n = 1 ∨ n = 2 ∨ n = 3) (p : MidParams) (w₀ : ℂ) (zs : List (ℂ → ℂ))
    (h : ∀ z ∈ zs, Branch (hexLens n p) w₀ z) (u1 : ℝ) (hu : u1 ≠ 3) :
    ∃ mu res : ℝ → ℝ,
      (∀ rho, magHexadecapole n p (zs.map fun z => (z w₀, true)) rho u1 = .ok (mu rho, res rho)) ∧
      (fun rho => (zs.map fun z => |discMean u1 (branchMag (hexLens n p) z) w₀ rho|).sum - mu rho)
        =O[𝓝 0] fun rho => rho ^ 5 := by
  refine ⟨_, _, fun rho => (magHex_eq n hn p _ rho u1).trans (congrArg _ rfl), ?_⟩
  simp only [List.map_map, Function.comp_def, if_true, one_mul]
  induction zs with
  | nil => simpa using isBigO_zero _ _
  | cons z zs ih =>
    have h1 := ih fun z hz => h z (List.mem_cons_of_mem _ hz)
    have h2 := C22_expansion _ w₀ z (h z List.mem_cons_self) u1 hu
    have h3 : (fun rho : ℝ => |discMean u1 (branchMag (hexLens n p) z) w₀ rho|
      - |(cassan (wStack (wSpec (hexLens n p) (z w₀))) rho u1).ps
        + (cassan (wStack (wSpec (hexLens n p) (z w₀))) rho u1).quad
        + (cassan (wStack (wSpec (hexLens n p) (z w₀))) rho u1).hex|) =O[𝓝 0] fun rho => rho ^ 5 :=
      IsBigO.trans (IsBigO.of_bound 1 (Eventually.of_forall fun rho => by
        rw [one_mul, Real.norm_eq_abs, Real.norm_eq_abs]; exact abs_abs_sub_abs_le_abs_sub _ _)) h2
    refine (h3.add h1).congr_left fun rho => ?_
    simp only [List.map_cons, List.sum_cons]
    ring

/-- A concrete branch: the single lens image at `z = 2`, source at `w = 3/2`. -/
theorem branch_single_two : ∃ z : ℂ → ℂ, z (3 / 2) = 2 ∧ Branch single (3 / 2) z := by
  have hoff : ∀ l ∈ single, (2 : ℂ) ≠ l.2 := by intro l hl; simp [single] at hl; subst hl; norm_num
  have h2c : ((starRingEnd ℂ) 2 : ℂ) = 2 := Complex.conj_ofNat 2
  have hreg : jacDet (lensMap single) 2 ≠ 0 := by
    rw [(jacDet_lensMap single 2 hoff).2]; norm_num [single, h2c]
  have hw : lensMap single 2 = 3 / 2 := by norm_num [lensMap, single, h2c]
  obtain ⟨⟨z, h1, h2, h3⟩, _⟩ := C22_local_inverse single 2 hoff hreg
  rw [hw] at h1 h2 h3
  exact ⟨z, h1, h2, h3, by rwa [h1], by rwa [h1]⟩

/-- A concrete binary branch: `a = 1`, `e1 = 1/2`, image at `z = 3`. -/
theorem branch_binary_three : ∃ (w₀ : ℂ) (z : ℂ → ℂ), z w₀ = 3 ∧
    Branch (hexLens 2 { a := 1, e1 := 1 / 2 }) w₀ z := by
  set L := hexLens 2 { a := 1, e1 := 1 / 2 } with hL
  have hL' : L = [(1 / 2, 1), (1 - 1 / 2, -1)] := by simp [hL, hexLens, midBinary]
  have hoff : ∀ l ∈ L, (3 : ℂ) ≠ l.2 := by
    intro l hl; rw [hL'] at hl; simp at hl
    rcases hl with rfl | rfl <;> norm_num
  have hreg : jacDet (lensMap L) 3 ≠ 0 := by
    rw [(jacDet_lensMap L 3 hoff).2, hL']
    have : ((starRingEnd ℂ) 3 : ℂ) = 3 := Complex.conj_ofNat 3
    norm_num [this]
  obtain ⟨⟨z, h1, h2, h3⟩, _⟩ := C22_local_inverse L 3 hoff hreg
  exact ⟨lensMap L 3, z, h1, h2, h3, by rwa [h1], by rwa [h1]⟩

/-- The hypotheses of `C22_total` are met by a genuine binary image with limb darkening. -/
example : ∃ (w₀ : ℂ) (z : ℂ → ℂ), (∀ z' ∈ [z], Branch (hexLens 2 { a := 1, e1 := 1 / 2 }) w₀ z') ∧
    ((1 / 2 : ℝ) ≠ 3) := by
  obtain ⟨w, z, _, h⟩ := branch_binary_three
  exact ⟨w, z, by simpa using h, by norm_num⟩

/-! ## C23 -/

/-- **C23**: the residual is non-negative and bounds the distance of the multipole magnification from its
`rho = 0` (point-source) value. -/
theorem C23_residual (n : ℕ) (p : MidParams) (zs : List (ℂ × Bool)) (rho u1 mu res mu0 res0 : ℝ)
    (h : magHexadecapole n p zs rho u1 = .ok (mu, res)) (h0 : magHexadecapole n p zs 0 u1 = .ok (mu0, res0)) :
    0 ≤ res ∧ |mu - mu0| ≤ res := by
  unfold magHexadecapole at h h0
  cases hb : wBranch n p with
  | error e => simp [hb] at h
  | ok wk =>
    simp only [hb, Except.ok.injEq] at h h0
    have hres : res = (sumTerms wk zs rho u1).2 := by rw [h]
    have hmu : mu = (sumTerms wk zs rho u1).1 := by rw [h]
    have hmu0 : mu0 = (sumTerms wk zs 0 u1).1 := by rw [h0]
    subst hres hmu hmu0
    clear h h0 hb res0
    suffices hs : |(sumTerms wk zs rho u1).1 - (sumTerms wk zs 0 u1).1| ≤ (sumTerms wk zs rho u1).2 from
      ⟨(abs_nonneg _).trans hs, hs⟩
    simp only [sumTerms, List.map_map, Function.comp_def, cassan_zero, add_zero]
    induction zs with
    | nil => simp
    | cons zm zs ih =>
      simp only [List.map_cons, List.sum_cons]
      set T := cassan (wStack (wk zm.1)) rho u1 with hT
      have hps : Multipole.mu0 (wStack (wk zm.1)).W2 = T.ps := rfl
      rw [hps]
      have ht : abs ((if zm.2 then (1 : ℝ) else 0) * |T.ps + T.quad + T.hex|
            - (if zm.2 then (1 : ℝ) else 0) * |T.ps|)
          ≤ (if zm.2 then (1 : ℝ) else 0) * |T.quad| + (if zm.2 then (1 : ℝ) else 0) * |T.hex| := by
        split_ifs
        · simp only [one_mul]
          refine (abs_abs_sub_abs_le_abs_sub _ _).trans ?_
          rw [show T.ps + T.quad + T.hex - T.ps = T.quad + T.hex by ring]
          exact abs_add_le _ _
        · simp
      refine le_trans (le_of_eq (congrArg abs (add_sub_add_comm _ _ _ _))) ?_
      refine (abs_add_le _ _).trans ?_
      linarith

/-! ## C24 -/

theorem detFormula_wSpec (L : Lenses) (z : ℂ) : 1 - ‖wSpec L z 2‖ ^ 2 = detFormula L z := by
  have : wSpec L z 2 = -conj ((L.map fun l => (l.1 : ℂ) / (conj z - conj l.2) ^ 2).sum) := by
    unfold wSpec
    rw [map_list_sum, List.map_map]
    simp [Function.comp_def]
  rw [this, norm_neg, RCLike.norm_conj]
  rfl

theorem magHex_zero (n : ℕ) (hn : n = 1 ∨ n = 2 ∨ n = 3) (p : MidParams) (zs : List (ℂ × Bool)) (u1 : ℝ) :
    magHexadecapole n p zs 0 u1 = .ok (sumMag (detFormula (hexLens n p)) zs, 0) := by
  rw [magHex_eq n hn]
  simp only [sumTerms, sumMag, List.map_map, Function.comp_def, cassan_zero, abs_zero, mul_zero, add_zero]
  congr 1
  refine Prod.ext ?_ (by simp)
  simp only
  congr 1
  refine List.map_congr_left fun zm _ => ?_
  rw [mul_comm, ← detFormula_wSpec, mu0, abs_div, abs_one]
  rfl

/-- **C24** (two lenses): the `rho = 0` multipole magnification is the sum that `mag_point_source` forms with
`lens_eq_det_jac`. -/
theorem C24_binary (p : MidParams) (zs : List (ℂ × Bool)) (u1 : ℝ) :
    magHexadecapole 2 p zs 0 u1 = .ok (sumMag (detJac2 p) zs, 0) := by
  rw [magHex_zero 2 (by simp)]
  have : detFormula (hexLens 2 p) = detJac2 p := by
    funext z; rw [detJac2_eq]; rfl
  rw [this]

/-- **C24** (three lenses, `psi = 0`). -/
theorem C24_triple_partial (p : MidParams) (hpsi : p.psi = 0) (zs : List (ℂ × Bool)) (u1 : ℝ) :
    magHexadecapole 3 p zs 0 u1 = .ok (sumMag (detJac3 p) zs, 0) := by
  rw [magHex_zero 3 (by simp)]
  have : detFormula (hexLens 3 p) = detJac3 p := by
    funext z; rw [detJac3_eq]
    have hr : r3Complex p = p.r3 := by simp [r3Complex, hpsi]
    simp [detFormula, hexLens, realTriple, midTriple, hr]
  rw [this]

/-- **C24** (three lenses, `psi ≠ 0`): the two entry points disagree.  Witness: `psi = π`, lens at `-2` for
`lens_eq_det_jac`, at `+2` for `mag_hexadecapole`. -/
theorem C24_triple_violated :
    let p : MidParams := { a := 1, e1 := 1 / 2, e2 := 1 / 4, r3 := 2, psi := Real.pi }
    magHexadecapole 3 p [(4, true)] 0 0 ≠ .ok (sumMag (detJac3 p) [(4, true)], 0) := by
  intro p
  rw [magHex_zero 3 (by simp)]
  have hr : r3Complex p = -2 := by
    simp only [r3Complex, p]; rw [mul_comm I, Complex.exp_pi_mul_I]; push_cast; ring
  have h4 : ((starRingEnd ℂ) 4 : ℂ) = 4 := Complex.conj_ofNat 4
  have h2 : ((starRingEnd ℂ) 2 : ℂ) = 2 := Complex.conj_ofNat 2
  have e1 : detFormula (hexLens 3 p) 4 = 1 - (461 / 3600) ^ 2 := by
    simp only [detFormula, hexLens, realTriple, p]
    norm_num [h4, h2]
  have e2 : detJac3 p 4 = 1 - (29 / 400) ^ 2 := by
    rw [detJac3, hr]
    simp only [p]
    norm_num [h4, h2]
  intro h
  have h' := congrArg (fun r : Except Err (ℝ × ℝ) => match r with | .ok x => x.1 | .error _ => 0) h
  simp only [sumMag, List.map_cons, List.map_nil, List.sum_cons, List.sum_nil, e1, e2] at h'
  norm_num [abs_of_pos] at h'

/-- `C24_binary` on two images, one of them masked out. -/
example : magHexadecapole 2 { a := 1, e1 := 1 / 2 } [(3, true), (5, false)] 0 0
    = .ok (sumMag (detJac2 { a := 1, e1 := 1 / 2 }) [(3, true), (5, false)], 0) := C24_binary _ _ _

/-- `C21_zero_radius` on a binary image. -/
example : magHexadecapole 2 { a := 1, e1 := 1 / 2 } [(3, true)] 0 (1 / 2)
    = .ok (validMag (hexLens 2 { a := 1, e1 := 1 / 2 }) [(3, true)], 0) := by
  apply C21_zero_radius 2 (by simp)
  intro zm hzm l hl
  simp at hzm
  subst hzm
  simp [hexLens, midBinary] at hl
  rcases hl with rfl | rfl <;> norm_num

/-- `C21_paczynski` at `w = 3/2`. -/
example (p : MidParams) : magHexadecapole 1 p (images1 (3 / 2)) 0 (1 / 2) = .ok (paczynski ‖(3 / 2 : ℂ)‖, 0) :=
  C21_paczynski p _ (by norm_num) _

end Microjax.Props
