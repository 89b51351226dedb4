import Verif.Lemmas.DiffTangent
import Verif.Props.Gradient
import Verif.Props.Differentiated

/-!
# C121: gradients of `mag_uniform`

The tangent that forward-mode differentiation of `mag_uniform` produces is the derivative of the value that it reports (C120),
along every path of lens parameters, source position, source radius and regions, wherever no comparison of the code ties.
-/

noncomputable section

namespace Microjax.Props

open Complex ComplexConjugate Spec PointSource Boundary ExtendedSource Differentiated Filter
open scoped Topology

variable {t₀ : ℝ}

/-- The user's parameters move along `u` with velocity `du`. -/
def UserPath (u : ℝ → UserParams) (du : UserParams) (t₀ : ℝ) : Prop :=
  HasDerivAt (fun t => (u t).s) du.s t₀ ∧ HasDerivAt (fun t => (u t).q) du.q t₀ ∧
  HasDerivAt (fun t => (u t).q3) du.q3 t₀ ∧ HasDerivAt (fun t => (u t).r3) du.r3 t₀ ∧
  HasDerivAt (fun t => (u t).psi) du.psi t₀

theorem hasDerivAt_lensTerm (m x : ℝ → ℂ) (dm dx : ℂ) (hm : HasDerivAt m dm t₀) (hx : HasDerivAt x dx t₀) (h0 : x t₀ ≠ 0) :
    HasDerivAt (fun t => m t / x t) (lensTermTangent (m t₀) dm (x t₀) dx) t₀ := by
  refine (hm.fun_div hx h0).congr_deriv ?_
  unfold lensTermTangent
  field_simp

theorem lensEq2_deriv (p : ℝ → MidParams) (dp : MidParams) (z : ℝ → ℂ) (dz : ℂ)
    (ha : HasDerivAt (fun t => (p t).a) dp.a t₀) (he : HasDerivAt (fun t => (p t).e1) dp.e1 t₀)
    (hz : HasDerivAt z dz t₀) (h1 : z t₀ ≠ (p t₀).a) (h2 : z t₀ ≠ -(p t₀).a) :
    HasDerivAt (fun t => lensEq2 (p t) (z t)) (lensEq2Tangent (p t₀) dp (z t₀) dz) t₀ := by
  have hc := hasDerivAt_conj hz
  have n1 : conj (z t₀) - (p t₀).a ≠ 0 := by
    intro h
    apply h1
    have := congrArg conj (sub_eq_zero.mp h)
    simpa using this
  have n2 : conj (z t₀) + (p t₀).a ≠ 0 := by
    intro h
    apply h2
    have := congrArg conj (eq_neg_of_add_eq_zero_left h)
    simpa using this
  have t1 := hasDerivAt_lensTerm _ _ _ _ (hasDerivAt_ofReal he) (hc.fun_sub (hasDerivAt_ofReal ha)) n1
  have t2 := hasDerivAt_lensTerm _ _ _ _ ((hasDerivAt_ofReal he).const_sub 1) (hc.fun_add (hasDerivAt_ofReal ha)) n2
  exact (hz.fun_sub t1).fun_sub t2

theorem lensEq3_deriv (p : ℝ → MidParams) (dp : MidParams) (z : ℝ → ℂ) (dz : ℂ)
    (ha : HasDerivAt (fun t => (p t).a) dp.a t₀) (he : HasDerivAt (fun t => (p t).e1) dp.e1 t₀)
    (he2 : HasDerivAt (fun t => (p t).e2) dp.e2 t₀)
    (hr : HasDerivAt (fun t => r3Complex (p t)) (r3ComplexTangent (p t₀) dp) t₀)
    (hz : HasDerivAt z dz t₀) (h1 : z t₀ ≠ (p t₀).a) (h2 : z t₀ ≠ -(p t₀).a) (h3 : z t₀ ≠ r3Complex (p t₀)) :
    HasDerivAt (fun t => lensEq3 (p t) (z t)) (lensEq3Tangent (p t₀) dp (z t₀) dz) t₀ := by
  have hc := hasDerivAt_conj hz
  have n1 : conj (z t₀) - (p t₀).a ≠ 0 := by
    intro h
    apply h1
    have := congrArg conj (sub_eq_zero.mp h)
    simpa using this
  have n2 : conj (z t₀) + (p t₀).a ≠ 0 := by
    intro h
    apply h2
    have := congrArg conj (eq_neg_of_add_eq_zero_left h)
    simpa using this
  have n3 : conj (z t₀) - conj (r3Complex (p t₀)) ≠ 0 :=
    fun h => h3 ((starRingEnd ℂ).injective (sub_eq_zero.mp h))
  have t1 := hasDerivAt_lensTerm _ _ _ _ (hasDerivAt_ofReal he) (hc.fun_sub (hasDerivAt_ofReal ha)) n1
  have t2 := hasDerivAt_lensTerm _ _ _ _ (hasDerivAt_ofReal he2) (hc.fun_add (hasDerivAt_ofReal ha)) n2
  have t3 := hasDerivAt_lensTerm _ _ _ _ (((hasDerivAt_ofReal he).const_sub 1).fun_sub (hasDerivAt_ofReal he2))
    (hc.fun_sub (hasDerivAt_conj hr)) n3
  exact ((hz.fun_sub t1).fun_sub t2).fun_sub t3

theorem hasDerivAt_modulus (g : ℝ → ℂ) (dg : ℂ) (hg : HasDerivAt g dg t₀) (h0 : g t₀ ≠ 0) :
    HasDerivAt (fun t => ‖g t‖) ((conj (g t₀) * dg).re / ‖g t₀‖) t₀ := by
  have h1 := hasDerivAt_det g dg hg
  have hn : ‖g t₀‖ ≠ 0 := norm_ne_zero_iff.mpr h0
  have h2 := (h1.const_sub 1).sqrt (by simpa using hn)
  have e : (fun t => Real.sqrt (1 - (1 - ‖g t‖ ^ 2))) = fun t => ‖g t‖ := by
    funext t
    rw [sub_sub_cancel, Real.sqrt_sq (norm_nonneg _)]
  rw [e, sub_sub_cancel, Real.sqrt_sq (norm_nonneg _)] at h2
  refine h2.congr_deriv ?_
  unfold detTangent
  field_simp

theorem tracks_rayDistance (nlenses : ℕ) (u : ℝ → UserParams) (du : UserParams) (w : ℝ → ℂ) (dw : ℂ) (r th : ℝ → Dual)
    (hu : UserPath u du t₀) (hw : HasDerivAt w dw t₀) (hr : Tracks r t₀) (hth : Tracks th t₀) (hq : 1 + (u t₀).q ≠ 0)
    (hq3 : nlenses = 3 → 1 + (u t₀).q + (u t₀).q3 ≠ 0)
    (hlens : ∀ l ∈ userLens nlenses (u t₀), ((r t₀).v : ℂ) * exp (I * (th t₀).v) ≠ l.2)
    (hd : rayDistance nlenses (u t₀) (w t₀) (r t₀).v (th t₀).v ≠ 0) :
    Tracks (fun t => rayDistanceD nlenses (u t) du (w t) dw (r t) (th t)) t₀ := by
  obtain ⟨hs, hqd, hq3d, hr3, hpsi⟩ := hu
  obtain ⟨ha, he, hx⟩ := midParams2_deriv u du hs hqd hq
  have hcos : HasDerivAt (fun t => Real.cos (th t).v) (-Real.sin (th t₀).v * (th t₀).d) t₀ := HasDerivAt.cos hth
  have hsin : HasDerivAt (fun t => Real.sin (th t).v) (Real.cos (th t₀).v * (th t₀).d) t₀ := HasDerivAt.sin hth
  have hz : HasDerivAt (fun t => (((r t).v * Real.cos (th t).v : ℝ) : ℂ) + I * ((r t).v * Real.sin (th t).v : ℝ) - (xCM (u t) : ℂ))
      (((r t₀).d * Real.cos (th t₀).v + (r t₀).v * (-Real.sin (th t₀).v * (th t₀).d) : ℝ)
        + I * ((r t₀).d * Real.sin (th t₀).v + (r t₀).v * (Real.cos (th t₀).v * (th t₀).d) : ℝ) - (xCMTangent (u t₀) du : ℂ)) t₀ :=
    ((hasDerivAt_ofReal (HasDerivAt.fun_mul hr hcos)).fun_add
      ((hasDerivAt_ofReal (HasDerivAt.fun_mul hr hsin)).const_mul I)).fun_sub (hasDerivAt_ofReal hx)
  have hpol : (((r t₀).v * Real.cos (th t₀).v : ℝ) : ℂ) + I * ((r t₀).v * Real.sin (th t₀).v : ℝ) =
      (r t₀).v * exp (I * (th t₀).v) := by
    rw [mul_comm I ((th t₀).v : ℂ), exp_mul_I]; push_cast; ring
  set z : ℝ → ℂ := fun t => (((r t).v * Real.cos (th t).v : ℝ) : ℂ) + I * ((r t).v * Real.sin (th t).v : ℝ) - (xCM (u t) : ℂ)
    with hzdef
  have hz0 : z t₀ = (r t₀).v * exp (I * (th t₀).v) - (xCM (u t₀) : ℂ) := by rw [hzdef]; simp only [hpol]
  set dz : ℂ := (((r t₀).d * Real.cos (th t₀).v + (r t₀).v * (-Real.sin (th t₀).v * (th t₀).d) : ℝ) : ℂ)
    + I * ((r t₀).d * Real.sin (th t₀).v + (r t₀).v * (Real.cos (th t₀).v * (th t₀).d) : ℝ) - (xCMTangent (u t₀) du : ℂ)
    with hdz
  have hws := hw.fun_sub (hasDerivAt_ofReal hx)
  have hleq : HasDerivAt (fun t => lensEqN nlenses (u t) (z t))
      (if nlenses = 3 then lensEq3Tangent (midParams3 (u t₀)) (midParams3Tangent (u t₀) du) (z t₀) dz
        else lensEq2Tangent (midParams2 (u t₀)) (midParams2Tangent (u t₀) du) (z t₀) dz) t₀ := by
    by_cases h3 : nlenses = 3
    · obtain ⟨ha3, he3, he32⟩ := midParams3_deriv u du hs hqd hq3d (hq3 h3)
      simp only [lensEqN, if_pos h3]
      rw [userLens, if_pos h3, ← (C08_triple_frame (u t₀) hq (hq3 h3)).1] at hlens
      simp only [midTriple, List.map_cons, List.map_nil, List.forall_mem_cons] at hlens
      refine lensEq3_deriv _ _ z dz ha3 he3 he32 (hasDerivAt_r3Complex _ _ hr3 hpsi) hz ?_ ?_ ?_
      · rw [hz0]; intro h; exact hlens.1 (by linear_combination h)
      · rw [hz0]; intro h; exact hlens.2.1 (by linear_combination h)
      · rw [hz0]; intro h; exact hlens.2.2.1 (by linear_combination h)
    · simp only [lensEqN, if_neg h3]
      rw [userLens, if_neg h3, ← (C08_binary_frame (u t₀) hq).1] at hlens
      simp only [midBinary, List.map_cons, List.map_nil, List.forall_mem_cons] at hlens
      refine lensEq2_deriv _ _ z dz ha he hz ?_ ?_
      · rw [hz0]; intro h; exact hlens.1 (by linear_combination h)
      · rw [hz0]; intro h; exact hlens.2.1 (by linear_combination h)
  refine hasDerivAt_modulus _ _ (hleq.fun_sub hws) ?_
  rw [← norm_ne_zero_iff]
  exact hd

/-- Distance on the source plane, in the physical lens map, of the ray through the nodes `i`, `j` of a region. -/
def nodeDistance (L : Lenses) (w : ℂ) (R : (ℝ × ℝ) × (ℝ × ℝ)) (N M i j : ℕ) : ℝ :=
  ‖lensMap L (node R.1.1 R.1.2 N i * exp (I * node R.2.1 R.2.2 M j)) - w‖

/-- The bounds of a region move with their tangents. -/
def RegionPath (R : ℝ → (Dual × Dual) × (Dual × Dual)) (t₀ : ℝ) : Prop :=
  Tracks (fun t => (R t).1.1) t₀ ∧ Tracks (fun t => (R t).1.2) t₀ ∧ Tracks (fun t => (R t).2.1) t₀ ∧
    Tracks (fun t => (R t).2.2) t₀

theorem tracks_foldl {α : Type*} (l : List α) (f : α → ℝ → Dual) (c : ℝ → Dual) (hc : Tracks c t₀)
    (h : ∀ x ∈ l, Tracks (f x) t₀) : Tracks (fun t => l.foldl (fun carry x => carry + f x t) (c t)) t₀ := by
  induction l generalizing c with
  | nil => exact hc
  | cons x l ih =>
    exact ih (fun t => c t + f x t) (hc.add (h x (by simp))) fun y hy => h y (by simp [hy])

/-- **C121**: along every path of lens parameters, source position, radius and regions, the tangent of `mag_uniform` is the
derivative of the value reported with it, if no ray of the grid hits a lens or the source centre and no ring has a tie. -/
theorem C121_uniform (nlenses : ℕ) (u : ℝ → UserParams) (du : UserParams) (w : ℝ → ℂ) (dw : ℂ) (rho : ℝ → Dual)
    (regions : List (ℝ → (Dual × Dual) × (Dual × Dual))) (N M : ℕ) (hN : 2 ≤ N) (hM : 4 ≤ M)
    (hu : UserPath u du t₀) (hw : HasDerivAt w dw t₀) (hrho : Tracks rho t₀) (hrho0 : 0 < (rho t₀).v)
    (hq : 1 + (u t₀).q ≠ 0) (hq3 : nlenses = 3 → 1 + (u t₀).q + (u t₀).q3 ≠ 0)
    (hreg : ∀ R ∈ regions, RegionPath R t₀)
    (hgrid : ∀ R ∈ regions, ∀ i < N,
      (∀ j < M, (∀ l ∈ userLens nlenses (u t₀), (node (regionV (R t₀)).1.1 (regionV (R t₀)).1.2 N i : ℂ)
          * exp (I * node (regionV (R t₀)).2.1 (regionV (R t₀)).2.2 M j) ≠ l.2) ∧
        nodeDistance (userLens nlenses (u t₀)) (w t₀) (regionV (R t₀)) N M i j ≠ 0) ∧
      GenericRing (rho t₀).v (nodeDistance (userLens nlenses (u t₀)) (w t₀) (regionV (R t₀)) N M i) M) :
    HasDerivAt (fun t => (magUniformD nlenses (u t) du (w t) dw (rho t) N M (regions.map fun R => R t)).v)
      (magUniformD nlenses (u t₀) du (w t₀) dw (rho t₀) N M (regions.map fun R => R t₀)).d t₀ := by
  have hray : ∀ r θ, rayDistance nlenses (u t₀) (w t₀) r θ = ‖lensMap (userLens nlenses (u t₀)) (r * exp (I * θ)) - w t₀‖ :=
    rayDistance_user nlenses (u t₀) (w t₀) hq hq3
  have hrange : ∀ R ∈ regions, Tracks (fun t => computeForRangeD (rayDistanceD nlenses (u t) du (w t) dw) (rho t) N M (R t)) t₀ := by
    intro R hR
    obtain ⟨h1, h2, h3, h4⟩ := hreg R hR
    refine tracks_range (fun t => rayDistanceD nlenses (u t) du (w t) dw) N M hN hM h1 h2 h3 h4 ?_ hrho hrho0.ne' ?_
    · intro i hi j hj
      obtain ⟨hl, hd⟩ := (hgrid R hR i hi).1 j hj
      refine tracks_rayDistance nlenses u du w dw _ _ hu hw (tracks_node h1 h2 N i hN) (tracks_node h3 h4 M j (by omega)) hq hq3
        ?_ ?_
      · simpa only [nodeD_v, regionV] using hl
      · rw [hray, nodeD_v, nodeD_v]; exact hd
    · intro i hi
      have := (hgrid R hR i hi).2
      simp only [rayDistanceD_v, nodeD_v, hray]
      exact this
  have hsum := tracks_foldl regions (fun R t => computeForRangeD (rayDistanceD nlenses (u t) du (w t) dw) (rho t) N M (R t))
    (fun _ => Dual.const 0) (tracks_const 0) hrange
  have hall := (hsum.div (hrho.mul hrho) (by rw [dual_mul_v]; positivity)).div (tracks_const Real.pi) Real.pi_ne_zero
  have heq : (fun t => magUniformD nlenses (u t) du (w t) dw (rho t) N M (regions.map fun R => R t)) = fun t =>
      (regions.foldl (fun carry R => carry + computeForRangeD (rayDistanceD nlenses (u t) du (w t) dw) (rho t) N M (R t))
        (Dual.const 0)) / (rho t * rho t) / Dual.const Real.pi := by
    funext t
    simp only [magUniformD, List.foldl_map]
  have h : Tracks (fun t => magUniformD nlenses (u t) du (w t) dw (rho t) N M (regions.map fun R => R t)) t₀ := by
    rw [heq]; exact hall
  exact h

/-! ### A case: an equal-mass binary of separation one, a source of radius 3/2, two rings of four rays -/

/-- Angle with `cos = 3/5`, `sin = 4/5`. -/
def tanAngle : ℝ := Real.arccos (3 / 5)

theorem exp_tanAngle (j : ℕ) : exp (I * ((j * tanAngle : ℝ) : ℂ)) = ((3 / 5 : ℂ) + 4 / 5 * I) ^ j := by
  have hc : Real.cos tanAngle = 3 / 5 := Real.cos_arccos (by norm_num) (by norm_num)
  have hs : Real.sin tanAngle = 4 / 5 := by
    rw [tanAngle, Real.sin_arccos, show (1 : ℝ) - (3 / 5) ^ 2 = (4 / 5) ^ 2 by norm_num, Real.sqrt_sq (by norm_num)]
  have h : exp (I * (tanAngle : ℂ)) = (3 / 5 : ℂ) + 4 / 5 * I := by
    rw [mul_comm, exp_mul_I, ← ofReal_cos, ← ofReal_sin, hc, hs]
    push_cast
    ring
  rw [← h, ← exp_nat_mul]
  congr 1
  push_cast
  ring

/-- The region: radii from 1 to 2, angles from 0 to three times `tanAngle`. -/
def tanRegion : (Dual × Dual) × (Dual × Dual) :=
  ((Dual.const 1, Dual.const 2), (Dual.const 0, Dual.const (3 * tanAngle)))

theorem tan_point (i j : ℕ) : (node (regionV tanRegion).1.1 (regionV tanRegion).1.2 2 i : ℂ)
      * exp (I * node (regionV tanRegion).2.1 (regionV tanRegion).2.2 4 j) = (1 + i) * ((3 / 5 : ℂ) + 4 / 5 * I) ^ j := by
  have h1 : node (regionV tanRegion).1.1 (regionV tanRegion).1.2 2 i = 1 + i := by
    simp only [node, spacing, regionV, tanRegion, Dual.const]
    norm_num
  have h2 : node (regionV tanRegion).2.1 (regionV tanRegion).2.2 4 j = j * tanAngle := by
    simp only [node, spacing, regionV, tanRegion, Dual.const]
    norm_num
  rw [h1, h2, exp_tanAngle]
  push_cast
  ring

theorem norm_bracket (z : ℂ) (x y lo hi : ℝ) (hz : z = x + y * I) (hhi : 0 ≤ hi) (h1 : lo ^ 2 < x ^ 2 + y ^ 2)
    (h2 : x ^ 2 + y ^ 2 < hi ^ 2) : lo < ‖z‖ ∧ ‖z‖ < hi := by
  have h : ‖z‖ ^ 2 = x ^ 2 + y ^ 2 := by
    rw [← Complex.normSq_eq_norm_sq, hz, Complex.normSq_add_mul_I]
  constructor
  · exact lt_of_pow_lt_pow_left₀ 2 (norm_nonneg _) (by rw [h]; exact h1)
  · exact lt_of_pow_lt_pow_left₀ 2 hhi (by rw [h]; exact h2)

theorem four_cases (d : ℕ → ℝ) (rho : ℝ) (m n : ℕ) (hm : m < 4) (hn : n < 4) (h0 : d 0 = rho)
    (hmin : ∀ i < 4, i ≠ m → d m + 1 / 1000 < d i) (hmax : ∀ i < 4, i ≠ n → d i + 1 / 1000 < d n) (hmn : m ≠ n)
    (hsep : ∀ i < 4, ∀ j < 4, i ≠ j → 1 / 1000 < |d i - d j|) (hbig : d n - d m < 10) : GenericRing rho d 4 := by
  have hz : zeroTerm = 1 / 10 ^ 10 := rfl
  have hs : 1 / 1000 < d n - d m := by have := hmin n hn hmn.symm; linarith
  refine ⟨m, hm, n, hn, fun i hi h => by linarith [hmin i hi h], fun i hi h => by linarith [hmax i hi h],
    by rw [hz]; linarith, fun k hk => ?_⟩
  obtain rfl : k = 0 := by omega
  have hne : ∀ i < 4, ∀ j < 4, i ≠ j → d i - d j + zeroTerm * (d n - d m) ≠ 0 := by
    intro i hi j hj hij h
    have h1 := hsep i hi j hj hij
    rw [show d i - d j = -(zeroTerm * (d n - d m)) by linarith, abs_neg, hz, abs_of_pos (by nlinarith)] at h1
    nlinarith
  have hest : cubicCore (d m) (d n) zeroTerm rho (d 0) (d 1) (d 2) (d 3) 0 1 2 3 = 0 := by
    simp [cubicCore, h0]
  refine ⟨⟨hne 0 (by norm_num) 1 (by norm_num) (by norm_num), hne 0 (by norm_num) 2 (by norm_num) (by norm_num),
    hne 0 (by norm_num) 3 (by norm_num) (by norm_num), hne 1 (by norm_num) 0 (by norm_num) (by norm_num),
    hne 1 (by norm_num) 2 (by norm_num) (by norm_num), hne 1 (by norm_num) 3 (by norm_num) (by norm_num),
    hne 2 (by norm_num) 0 (by norm_num) (by norm_num), hne 2 (by norm_num) 1 (by norm_num) (by norm_num),
    hne 2 (by norm_num) 3 (by norm_num) (by norm_num), hne 3 (by norm_num) 0 (by norm_num) (by norm_num),
    hne 3 (by norm_num) 1 (by norm_num) (by norm_num), hne 3 (by norm_num) 2 (by norm_num) (by norm_num)⟩, ?_, ?_⟩
  · simp only [Nat.zero_add, hest]; norm_num
  · simp only [Nat.zero_add, hest]; norm_num

theorem tan_distance (i j : ℕ) : nodeDistance (userLens 2 { s := 1, q := 1 }) (17 / 30 + 6 / 5 * I) (regionV tanRegion) 2 4 i j =
    ‖lensMap (binary 1 1) ((1 + i) * ((3 / 5 : ℂ) + 4 / 5 * I) ^ j) - (17 / 30 + 6 / 5 * I)‖ := by
  simp only [nodeDistance, tan_point, userLens]
  rfl

theorem tan_value_00 : lensMap (binary 1 1) ((1 + (0 : ℕ)) * ((3 / 5 : ℂ) + 4 / 5 * I) ^ 0) - (17 / 30 + 6 / 5 * I) =
    ((-9 / 10) : ℝ) + ((-6 / 5) : ℝ) * I := by
  have hz : (1 + ((0 : ℕ) : ℂ)) * ((3 / 5 : ℂ) + 4 / 5 * I) ^ 0 = ⟨(1), (0)⟩ := by
    apply Complex.ext <;> simp [pow_succ] <;> norm_num
  rw [hz]
  apply Complex.ext <;> simp [lensMap, binary, Complex.div_re, Complex.div_im, Complex.normSq_apply] <;> norm_num

theorem tan_value_01 : lensMap (binary 1 1) ((1 + (0 : ℕ)) * ((3 / 5 : ℂ) + 4 / 5 * I) ^ 1) - (17 / 30 + 6 / 5 * I) =
    ((-4919 / 14430) : ℝ) + ((-2962 / 2405) : ℝ) * I := by
  have hz : (1 + ((0 : ℕ) : ℂ)) * ((3 / 5 : ℂ) + 4 / 5 * I) ^ 1 = ⟨(3 / 5), (4 / 5)⟩ := by
    apply Complex.ext <;> simp [pow_succ] <;> norm_num
  rw [hz]
  apply Complex.ext <;> simp [lensMap, binary, Complex.div_re, Complex.div_im, Complex.normSq_apply] <;> norm_num

theorem tan_value_02 : lensMap (binary 1 1) ((1 + (0 : ℕ)) * ((3 / 5 : ℂ) + 4 / 5 * I) ^ 2) - (17 / 30 + 6 / 5 * I) =
    ((-58141 / 82450) : ℝ) + ((-129682 / 123675) : ℝ) * I := by
  have hz : (1 + ((0 : ℕ) : ℂ)) * ((3 / 5 : ℂ) + 4 / 5 * I) ^ 2 = ⟨(-7 / 25), (24 / 25)⟩ := by
    apply Complex.ext <;> simp [pow_succ] <;> norm_num
  rw [hz]
  apply Complex.ext <;> simp [lensMap, binary, Complex.div_re, Complex.div_im, Complex.normSq_apply] <;> norm_num

theorem tan_value_03 : lensMap (binary 1 1) ((1 + (0 : ℕ)) * ((3 / 5 : ℂ) + 4 / 5 * I) ^ 3) - (17 / 30 + 6 / 5 * I) =
    ((-61769327 / 128700750) : ℝ) + ((-31939706 / 21450125) : ℝ) * I := by
  have hz : (1 + ((0 : ℕ) : ℂ)) * ((3 / 5 : ℂ) + 4 / 5 * I) ^ 3 = ⟨(-117 / 125), (44 / 125)⟩ := by
    apply Complex.ext <;> simp [pow_succ] <;> norm_num
  rw [hz]
  apply Complex.ext <;> simp [lensMap, binary, Complex.div_re, Complex.div_im, Complex.normSq_apply] <;> norm_num

theorem tan_value_10 : lensMap (binary 1 1) ((1 + (1 : ℕ)) * ((3 / 5 : ℂ) + 4 / 5 * I) ^ 0) - (17 / 30 + 6 / 5 * I) =
    ((9 / 10) : ℝ) + ((-6 / 5) : ℝ) * I := by
  have hz : (1 + ((1 : ℕ) : ℂ)) * ((3 / 5 : ℂ) + 4 / 5 * I) ^ 0 = ⟨(2), (0)⟩ := by
    apply Complex.ext <;> simp [pow_succ] <;> norm_num
  rw [hz]
  apply Complex.ext <;> simp [lensMap, binary, Complex.div_re, Complex.div_im, Complex.normSq_apply] <;> norm_num

theorem tan_value_11 : lensMap (binary 1 1) ((1 + (1 : ℕ)) * ((3 / 5 : ℂ) + 4 / 5 * I) ^ 1) - (17 / 30 + 6 / 5 * I) =
    ((72331 / 199470) : ℝ) + ((-302 / 33245) : ℝ) * I := by
  have hz : (1 + ((1 : ℕ) : ℂ)) * ((3 / 5 : ℂ) + 4 / 5 * I) ^ 1 = ⟨(6 / 5), (8 / 5)⟩ := by
    apply Complex.ext <;> simp [pow_succ] <;> norm_num
  rw [hz]
  apply Complex.ext <;> simp [lensMap, binary, Complex.div_re, Complex.div_im, Complex.normSq_apply] <;> norm_num

theorem tan_value_12 : lensMap (binary 1 1) ((1 + (1 : ℕ)) * ((3 / 5 : ℂ) + 4 / 5 * I) ^ 2) - (17 / 30 + 6 / 5 * I) =
    ((-994283 / 986050) : ℝ) + ((384934 / 1479075) : ℝ) * I := by
  have hz : (1 + ((1 : ℕ) : ℂ)) * ((3 / 5 : ℂ) + 4 / 5 * I) ^ 2 = ⟨(-14 / 25), (48 / 25)⟩ := by
    apply Complex.ext <;> simp [pow_succ] <;> norm_num
  rw [hz]
  apply Complex.ext <;> simp [lensMap, binary, Complex.div_re, Complex.div_im, Complex.normSq_apply] <;> norm_num

theorem tan_value_13 : lensMap (binary 1 1) ((1 + (1 : ℕ)) * ((3 / 5 : ℂ) + 4 / 5 * I) ^ 3) - (17 / 30 + 6 / 5 * I) =
    ((-5340448541 / 2729646750) : ℝ) + ((-319150798 / 454941125) : ℝ) * I := by
  have hz : (1 + ((1 : ℕ) : ℂ)) * ((3 / 5 : ℂ) + 4 / 5 * I) ^ 3 = ⟨(-234 / 125), (88 / 125)⟩ := by
    apply Complex.ext <;> simp [pow_succ] <;> norm_num
  rw [hz]
  apply Complex.ext <;> simp [lensMap, binary, Complex.div_re, Complex.div_im, Complex.normSq_apply] <;> norm_num

theorem tan_ring_0 : (∀ j < 4, nodeDistance (userLens 2 { s := 1, q := 1 }) (17 / 30 + 6 / 5 * I) (regionV tanRegion) 2 4 0 j ≠ 0) ∧
    GenericRing (3 / 2) (nodeDistance (userLens 2 { s := 1, q := 1 }) (17 / 30 + 6 / 5 * I) (regionV tanRegion) 2 4 0) 4 := by
  obtain ⟨l0, u0⟩ := norm_bracket _ _ _ (1499 / 1000) (751 / 500) tan_value_00 (by norm_num) (by norm_num) (by norm_num)
  obtain ⟨l1, u1⟩ := norm_bracket _ _ _ (319 / 250) (1279 / 1000) tan_value_01 (by norm_num) (by norm_num) (by norm_num)
  obtain ⟨l2, u2⟩ := norm_bracket _ _ _ (631 / 500) (253 / 200) tan_value_02 (by norm_num) (by norm_num) (by norm_num)
  obtain ⟨l3, u3⟩ := norm_bracket _ _ _ (1563 / 1000) (783 / 500) tan_value_03 (by norm_num) (by norm_num) (by norm_num)
  have e0 : ‖lensMap (binary 1 1) ((1 + (0 : ℕ)) * ((3 / 5 : ℂ) + 4 / 5 * I) ^ 0) - (17 / 30 + 6 / 5 * I)‖ = 3 / 2 := by
    rw [tan_value_00, Complex.norm_add_mul_I, Real.sqrt_eq_iff_mul_self_eq (by norm_num) (by norm_num)]
    norm_num
  rw [← tan_distance 0] at l0 u0 l1 u1 l2 u2 l3 u3 e0
  set d := nodeDistance (userLens 2 { s := 1, q := 1 }) (17 / 30 + 6 / 5 * I) (regionV tanRegion) 2 4 0 with hd
  refine ⟨?_, four_cases d (3 / 2) 2 3 (by norm_num) (by norm_num) e0 ?_ ?_ (by norm_num) ?_ (by linarith)⟩
  · intro j hj
    interval_cases j <;> linarith
  · intro j hj hne
    interval_cases j <;> first | exact absurd rfl hne | linarith
  · intro j hj hne
    interval_cases j <;> first | exact absurd rfl hne | linarith
  · intro a ha b hb hne
    interval_cases a <;> interval_cases b <;>
      first | exact absurd rfl hne | (rw [lt_abs]; left; linarith) | (rw [lt_abs]; right; linarith)

theorem tan_ring_1 : (∀ j < 4, nodeDistance (userLens 2 { s := 1, q := 1 }) (17 / 30 + 6 / 5 * I) (regionV tanRegion) 2 4 1 j ≠ 0) ∧
    GenericRing (3 / 2) (nodeDistance (userLens 2 { s := 1, q := 1 }) (17 / 30 + 6 / 5 * I) (regionV tanRegion) 2 4 1) 4 := by
  obtain ⟨l0, u0⟩ := norm_bracket _ _ _ (1499 / 1000) (751 / 500) tan_value_10 (by norm_num) (by norm_num) (by norm_num)
  obtain ⟨l1, u1⟩ := norm_bracket _ _ _ (361 / 1000) (91 / 250) tan_value_11 (by norm_num) (by norm_num) (by norm_num)
  obtain ⟨l2, u2⟩ := norm_bracket _ _ _ (26 / 25) (1043 / 1000) tan_value_12 (by norm_num) (by norm_num) (by norm_num)
  obtain ⟨l3, u3⟩ := norm_bracket _ _ _ (2077 / 1000) (52 / 25) tan_value_13 (by norm_num) (by norm_num) (by norm_num)
  have e0 : ‖lensMap (binary 1 1) ((1 + (1 : ℕ)) * ((3 / 5 : ℂ) + 4 / 5 * I) ^ 0) - (17 / 30 + 6 / 5 * I)‖ = 3 / 2 := by
    rw [tan_value_10, Complex.norm_add_mul_I, Real.sqrt_eq_iff_mul_self_eq (by norm_num) (by norm_num)]
    norm_num
  rw [← tan_distance 1] at l0 u0 l1 u1 l2 u2 l3 u3 e0
  set d := nodeDistance (userLens 2 { s := 1, q := 1 }) (17 / 30 + 6 / 5 * I) (regionV tanRegion) 2 4 1 with hd
  refine ⟨?_, four_cases d (3 / 2) 1 3 (by norm_num) (by norm_num) e0 ?_ ?_ (by norm_num) ?_ (by linarith)⟩
  · intro j hj
    interval_cases j <;> linarith
  · intro j hj hne
    interval_cases j <;> first | exact absurd rfl hne | linarith
  · intro j hj hne
    interval_cases j <;> first | exact absurd rfl hne | linarith
  · intro a ha b hb hne
    interval_cases a <;> interval_cases b <;>
      first | exact absurd rfl hne | (rw [lt_abs]; left; linarith) | (rw [lt_abs]; right; linarith)

/-- A case for `C121_uniform`: separation and source radius grow, the source moves to the right. -/
example : HasDerivAt (fun t => (magUniformD 2 { s := 1 + t, q := 1 } { s := 1, q := 0 } (17 / 30 + 6 / 5 * I + t) 1
      ⟨3 / 2 + t, 1⟩ 2 4 [tanRegion]).v)
    (magUniformD 2 { s := 1 + 0, q := 1 } { s := 1, q := 0 } (17 / 30 + 6 / 5 * I + (0 : ℝ)) 1 ⟨3 / 2 + 0, 1⟩ 2 4
      [tanRegion]).d 0 := by
  have hid := hasDerivAt_id' (0 : ℝ)
  refine C121_uniform 2 (fun t => { s := 1 + t, q := 1 }) { s := 1, q := 0 } (fun t => 17 / 30 + 6 / 5 * I + t) 1
    (fun t => ⟨3 / 2 + t, 1⟩) [fun _ => tanRegion] 2 4 le_rfl le_rfl
    ⟨hid.const_add 1, hasDerivAt_const _ _, hasDerivAt_const _ _, hasDerivAt_const _ _, hasDerivAt_const _ _⟩
    ((hasDerivAt_ofReal hid).const_add _ |>.congr_deriv (by simp)) (hid.const_add (3 / 2)) (by norm_num) (by norm_num)
    (by norm_num) ?_ ?_
  · intro R hR
    rw [List.mem_singleton.mp hR]
    exact ⟨tracks_const _, tracks_const _, tracks_const _, tracks_const _⟩
  · intro R hR i hi
    rw [List.mem_singleton.mp hR]
    simp only [ofReal_zero, add_zero]
    have hpt : ∀ j : ℕ, ∀ l ∈ userLens 2 { s := 1, q := 1 }, (node (regionV tanRegion).1.1 (regionV tanRegion).1.2 2 i : ℂ)
        * exp (I * node (regionV tanRegion).2.1 (regionV tanRegion).2.2 4 j) ≠ l.2 := by
      intro j l hl h
      rw [tan_point] at h
      have hn : ‖((3 / 5 : ℂ) + 4 / 5 * I)‖ = 1 := by
        rw [show ((3 / 5 : ℂ) + 4 / 5 * I) = ((3 / 5 : ℝ) : ℂ) + ((4 / 5 : ℝ) : ℂ) * I by push_cast; ring,
          Complex.norm_add_mul_I]
        norm_num
      have h1 : ‖(1 + i : ℂ) * ((3 / 5 : ℂ) + 4 / 5 * I) ^ j‖ = 1 + i := by
        rw [norm_mul, norm_pow, hn, one_pow, mul_one, show (1 + i : ℂ) = ((1 + i : ℝ) : ℂ) by push_cast; ring,
          Complex.norm_of_nonneg (by positivity)]
      have h2 : ‖l.2‖ = 1 / 2 := by
        rw [userLens, if_neg (by norm_num)] at hl
        simp only [binary, List.mem_cons, List.not_mem_nil, or_false] at hl
        rcases hl with rfl | rfl <;> norm_num
      rw [h, h2] at h1
      have : (0 : ℝ) ≤ i := Nat.cast_nonneg i
      linarith
    interval_cases i
    · exact ⟨fun j hj => ⟨hpt j, tan_ring_0.1 j hj⟩, tan_ring_0.2⟩
    · exact ⟨fun j hj => ⟨hpt j, tan_ring_1.1 j hj⟩, tan_ring_1.2⟩

end Microjax.Props
