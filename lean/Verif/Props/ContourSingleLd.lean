import Verif.Lemmas.ProfileModulus
import Verif.Props.ContourSingleDark

/-!
# C133: limb-darkened sources behind a single lens
-/

set_option linter.unusedVariables false

noncomputable section

namespace Microjax.Props

open Complex ComplexConjugate Microjax.Spec Segments Jnp Utils Contour PointSource Limb MeasureTheory Set Filter
open scoped Topology

/-! ### A contour without its closing edge -/

/-- With the last but one index the rule stops before the last edge. -/
theorem trapz_last {K : Type*} [Field K] [LinearOrder K] [IsStrictOrderedRing K] (y x : List K) (t : ℕ)
    (hlen : y.length = x.length) (ht : x.length = t + 2) :
    trapzZeroAvoiding y x t = trapezoidUpTo (fun i => y.getD i 0) (fun i => x.getD i 0) t := by
  unfold trapzZeroAvoiding trapezoidUpTo
  simp only
  rw [trapezoid_eq_sum y x hlen, if_neg (by omega), show x.length - 1 = t + 1 by omega, List.range_succ, List.map_append,
    List.sum_append]
  have g : ∀ (z : List K) (i : ℕ), i < z.length → get 0 z i = z.getD i 0 := by
    intro z i hi; rw [get_of_lt 0 z hi, List.getD_eq_getElem _ _ hi]
  rw [g x t (by omega), g y t (by omega), g x (t + 1) (by omega), g y (t + 1) (by omega)]
  simp
  ring

theorem integrateLdWith_open (q1 q2 : (ℝ → ℝ) → ℝ → ℝ → ℝ) (B : ℂ → ℝ) (rho : ℝ) (z : List (ℝ × ℝ)) (n : ℕ)
    (hn : z.length = n + 2) (o : ℝ × ℝ) (ho : o = centroid z n) :
    integrateLdWith q1 q2 B rho z n
      = ∑ i ∈ Finset.range n,
        let p := z.getD i 0
        let p' := z.getD (i + 1) 0
        ((ldP q1 q2 B rho o.2 p.1 p.2 + ldP q1 q2 B rho o.2 p'.1 p'.2) / 2 * (p'.1 - p.1)
          + (ldQ q1 q2 B rho o.1 p.1 p.2 + ldQ q1 q2 B rho o.1 p'.1 p'.2) / 2 * (p'.2 - p.2)) := by
  unfold integrateLdWith
  simp only
  rw [← ho]
  rw [trapz_last _ _ _ (by simp) (by simpa using hn), trapz_last _ _ _ (by simp) (by simpa using hn)]
  unfold trapezoidUpTo
  rw [← List.sum_map_add]
  show _ = ((List.range n).map _).sum
  congr 1
  apply List.map_congr_left
  intro i hi
  rw [List.mem_range] at hi
  have hi1 : i < z.length := by omega
  have hi2 : i + 1 < z.length := by omega
  beta_reduce
  rw [getD_map_of_zero Prod.fst 0 rfl, getD_map_of_zero Prod.snd 0 rfl, getD_map_of_zero Prod.fst 0 rfl,
    getD_map_of_zero Prod.snd 0 rfl]
  have g : ∀ (f : ℝ × ℝ → ℝ) (j : ℕ), j < z.length → (z.map f).getD j 0 = f (z.getD j 0) := by
    intro f j hj
    rw [List.getD_eq_getElem _ _ (by simpa using hj), List.getD_eq_getElem _ _ hj, List.getElem_map]
  rw [g _ i hi1, g _ (i + 1) hi2, g _ i hi1, g _ (i + 1) hi2]

theorem ld_tendsto_open (leggauss : ℕ → List (ℝ × ℝ)) (hg : ∀ n, 1 ≤ n → IsGauss n (leggauss n))
    (leq : ℂ → ℂ) (w0 : ℂ) (rho u1 : ℝ) (z : List (ℝ × ℝ)) (n : ℕ) (hn : z.length = n + 2)
    (W : ℂ → ℝ) (hW : Continuous W) (S : Finset ℂ) (hS : ∀ z, z ∉ S → Boundary.brightnessProfile leq z rho w0 u1 = W z)
    (o : ℝ × ℝ) (ho : o = centroid z n) :
    Tendsto (fun npts => integrateLd leggauss leq w0 rho u1 npts z n) atTop
      (𝓝 (greenTrapezoid W o (fun i => z.getD i 0) n)) := by
  have t1 : Tendsto (fun npts : ℕ => npts / 2) atTop atTop := Nat.tendsto_div_const_atTop (by norm_num)
  have t2 : Tendsto (fun npts : ℕ => npts - npts / 2) atTop atTop :=
    tendsto_atTop_mono (fun n => by omega) t1
  have line : ∀ (f fh : ℝ → ℝ) (a b : ℝ), Continuous fh → (∃ F : Finset ℝ, ∀ x, x ∉ F → f x = fh x) →
      Tendsto (fun npts : ℕ => integrateGaussLegendre (leggauss (npts / 2)) f a (splitPoint rho a b)
        + integrateGaussLegendre (leggauss (npts - npts / 2)) f (splitPoint rho a b) b) atTop
        (𝓝 (∫ x in a..b, fh x)) := by
    rintro f fh a b hf ⟨F, hF⟩
    rw [← intervalIntegral.integral_add_adjacent_intervals (hf.intervalIntegrable a (splitPoint rho a b))
      (hf.intervalIntegrable (splitPoint rho a b) b)]
    exact ((quadrature_tendsto_off leggauss hg f fh hf F hF _ _).comp t1).add
      ((quadrature_tendsto_off leggauss hg f fh hf F hF _ _).comp t2)
  unfold integrateLd
  simp only
  set B : ℂ → ℝ := fun p => Boundary.brightnessProfile leq p rho w0 u1 with hB
  simp only [integrateLdWith_open _ _ B rho z n hn o ho]
  unfold greenTrapezoid
  apply tendsto_finsetSum
  intro i hi
  have hp : ∀ p : ℝ × ℝ, Tendsto (fun npts : ℕ => ldP (integrateGaussLegendre (leggauss (npts / 2)))
      (integrateGaussLegendre (leggauss (npts - npts / 2))) B rho o.2 p.1 p.2) atTop
      (𝓝 (-(1 / 2) * ∫ y in o.2..p.2, W (p.1 + Complex.I * y))) := fun p =>
    (line _ (fun y : ℝ => W (p.1 + Complex.I * y)) _ _ (by fun_prop) ⟨S.image Complex.im, fun y hy => hS _ fun h =>
      hy (Finset.mem_image.mpr ⟨_, h, by simp⟩)⟩).const_mul _
  have hq : ∀ p : ℝ × ℝ, Tendsto (fun npts : ℕ => ldQ (integrateGaussLegendre (leggauss (npts / 2)))
      (integrateGaussLegendre (leggauss (npts - npts / 2))) B rho o.1 p.1 p.2) atTop
      (𝓝 ((1 / 2) * ∫ x in o.1..p.1, W (x + Complex.I * p.2))) := fun p =>
    (line _ (fun x : ℝ => W (x + Complex.I * p.2)) _ _ (by fun_prop) ⟨S.image Complex.re, fun y hy => hS _ fun h =>
      hy (Finset.mem_image.mpr ⟨_, h, by simp⟩)⟩).const_mul _
  exact ((((hp _).add (hp _)).div_const 2).mul_const _).add ((((hq _).add (hq _)).div_const 2).mul_const _)

/-- Dividing by one less than the number of points moves the average by at most a factor of two. -/
theorem centroid_open (z : List (ℝ × ℝ)) (n : ℕ) (hn : z.length = n + 2) (Z : ℝ) (h1 : ∀ p ∈ z, |p.1| ≤ Z)
    (h2 : ∀ p ∈ z, |p.2| ≤ Z) : |(centroid z n).1| ≤ 2 * Z ∧ |(centroid z n).2| ≤ 2 * Z := by
  have hsum : ∀ (f : ℝ × ℝ → ℝ) (l : List (ℝ × ℝ)), (∀ p ∈ l, |f p| ≤ Z) → |(l.map f).sum| ≤ l.length * Z := by
    intro f l
    induction l with
    | nil => intro _; simp
    | cons p l ih =>
      intro h
      have i1 := ih fun p hp => h p (List.mem_cons_of_mem _ hp)
      have i2 := h p List.mem_cons_self
      simp only [List.map_cons, List.sum_cons, List.length_cons]
      push_cast
      refine (abs_add_le _ _).trans ?_
      linarith
  have hZ : 0 ≤ Z := by
    have : z ≠ [] := by rintro rfl; simp at hn
    obtain ⟨a, l, rfl⟩ := List.exists_cons_of_ne_nil this
    exact (abs_nonneg _).trans (h1 a List.mem_cons_self)
  have hd : ∀ s : ℝ, |s| ≤ z.length * Z → |s / ((n : ℝ) + 1)| ≤ 2 * Z := by
    intro s hs
    have hp : (0 : ℝ) < (n : ℝ) + 1 := by positivity
    rw [abs_div, abs_of_pos hp, div_le_iff₀ hp]
    rw [hn] at hs
    push_cast at hs
    have : (0 : ℝ) ≤ n * Z := by positivity
    nlinarith
  exact ⟨hd _ (hsum Prod.fst z h1), hd _ (hsum Prod.snd z h2)⟩

/-- One image of the limb of which the closing edge is left out. -/
theorem ld_open_track (leggauss : ℕ → List (ℝ × ℝ)) (hg : ∀ n, 1 ≤ n → IsGauss n (leggauss n))
    (leq : ℂ → ℂ) (w0 : ℂ) (rho u1 : ℝ) (W : ℂ → ℝ) (hW : Continuous W) (S : Finset ℂ)
    (hS : ∀ z, z ∉ S → Boundary.brightnessProfile leq z rho w0 u1 = W z) (M Λ Z h ω ε : ℝ) (hM : ∀ z, |W z| ≤ M)
    (hε : 0 ≤ ε) (hh : 0 ≤ h) (z : ℝ → ℂ)
    (hω : ∀ x x', ‖x‖ ≤ 4 * Z → ‖x'‖ ≤ 4 * Z → ‖x - x'‖ ≤ Λ * h → |W x - W x'| ≤ ω)
    (N : ℕ) (θ : ℕ → ℝ) (hN : 0 < N) (h0 : θ 0 = -Real.pi) (hlast : θ (N - 1) = Real.pi - ε)
    (hθ : ∀ k < N, θ k ≤ θ (k + 1) ∧ θ (k + 1) - θ k ≤ h) (hz : ContDiff ℝ 1 z) (hΛ0 : 0 ≤ Λ)
    (hlip : ∀ t t', ‖z t' - z t‖ ≤ Λ * |t' - t|) (hZ : ∀ t, ‖z t‖ ≤ Z) :
    ∃ (l : ℝ) (o : ℝ × ℝ), Tendsto (fun n => integrateLd leggauss leq w0 rho u1 n
        (closedBuffer ((List.range N).map fun k => ((z (θ k)).re, (z (θ k)).im)) 0) (N - 1)) atTop (𝓝 l) ∧
      |l - branchFlux W o z| ≤ 2 * Real.pi * Λ * (M * (Λ * h) + 4 * Z * ω) + 4 * M * Z * Λ * ε := by
  have hpi := Real.pi_pos
  have hZ0 : 0 ≤ Z := (norm_nonneg _).trans (hZ 0)
  have hM0 : 0 ≤ M := (abs_nonneg _).trans (hM 0)
  have hω0 : 0 ≤ ω := (abs_nonneg _).trans (hω 0 0 (by simp; positivity) (by simp; positivity) (by simp; positivity))
  obtain ⟨pts, hpts⟩ : ∃ pts : List (ℝ × ℝ), pts = (List.range N).map fun k => ((z (θ k)).re, (z (θ k)).im) := ⟨_, rfl⟩
  rw [← hpts]
  have hlen : pts.length = N := by rw [hpts]; simp
  have hne : pts ≠ [] := by
    intro h; rw [h] at hlen; simp at hlen; omega
  have hbl : (closedBuffer pts 0).length = (N - 1) + 2 := by
    rw [closedBuffer_length, hlen]; omega
  obtain ⟨o, ho⟩ : ∃ o, o = centroid (closedBuffer pts 0) (N - 1) := ⟨_, rfl⟩
  have hget : ∀ i ≤ N - 1, (closedBuffer pts 0).getD i 0 = ((z (θ i)).re, (z (θ i)).im) := by
    intro i hi
    rw [closedBuffer_getD pts 0 i hne (by omega), hlen, Nat.mod_eq_of_lt (by omega),
      List.getD_eq_getElem _ _ (by rw [hlen]; omega)]
    simp only [hpts, List.getElem_map, List.getElem_range]
  have hpm : ∀ q ∈ pts, |q.1| ≤ Z ∧ |q.2| ≤ Z := by
    intro q hq
    rw [hpts, List.mem_map] at hq
    obtain ⟨k, hk, rfl⟩ := hq
    exact ⟨(abs_re_le_norm _).trans (hZ _), (abs_im_le_norm _).trans (hZ _)⟩
  have hbm : ∀ q ∈ closedBuffer pts 0, |q.1| ≤ Z ∧ |q.2| ≤ Z := by
    intro q hq
    refine hpm q ?_
    obtain ⟨a, l, hal⟩ := List.exists_cons_of_ne_nil hne
    rw [hal] at hq ⊢
    simp only [closedBuffer, List.replicate_zero, List.append_nil, List.mem_append, List.mem_singleton, List.headD_cons] at hq
    rcases hq with h | rfl
    · exact h
    · simp
  obtain ⟨ho1, ho2⟩ := centroid_open _ (N - 1) hbl Z (fun q hq => (hbm q hq).1) (fun q hq => (hbm q hq).2)
  rw [← ho] at ho1 ho2
  refine ⟨_, o, ld_tendsto_open leggauss hg leq w0 rho u1 _ _ hbl W hW S hS o ho, ?_⟩
  have hder : ∀ u, HasDerivAt z (deriv z u) u := fun u => (hz.differentiable one_ne_zero u).hasDerivAt
  have hΛ : ∀ u, ‖deriv z u‖ ≤ Λ := by
    intro u
    refine (hder u).le_of_lip' hΛ0 (Filter.Eventually.of_forall fun x => ?_)
    simpa [Real.norm_eq_abs] using hlip u x
  have hdc := hz.continuous_deriv le_rfl
  obtain ⟨p1, p2⟩ := green_bounds_at W hW o 0 (2 * Z) M (Λ * h) ω (by simpa using ho1) (by simpa using ho2) hM
    (fun x x' h1 h2 h3 => hω x x' (by rw [sub_zero] at h1; linarith) (by rw [sub_zero] at h2; linarith) h3)
  have hz2 : ∀ t, ‖z t - 0‖ ≤ 2 * Z := fun t => by rw [sub_zero]; linarith [hZ t]
  have key := trapezoid_contour z (deriv z) (greenP W o) (greenQ W o) (continuous_greenP W hW o) (continuous_greenQ W hW o)
    Λ 0 h (M * (2 * Z)) (1 / 2 * (M * (Λ * h) + 2 * (2 * Z) * ω)) (-Real.pi) (Real.pi - ε) (N - 1) θ (fun i => z (θ i)) h0 hlast
    (fun i hi => hθ i (by omega)) (fun u _ => hder u) hdc.continuousOn (fun u _ => hΛ u) (fun i _ => by simp)
    (fun i _ => p1 _ (hz2 _)) (fun i _ u _ hd => p2 _ _ (hz2 _) (hz2 _) (by rwa [add_zero] at hd))
  have e : greenTrapezoid W o (fun i => (closedBuffer pts 0).getD i 0) (N - 1)
      = ∑ i ∈ Finset.range (N - 1), ((greenP W o (z (θ i)) + greenP W o (z (θ (i + 1)))) / 2 * ((z (θ (i + 1))).re - (z (θ i)).re)
        + (greenQ W o (z (θ i)) + greenQ W o (z (θ (i + 1)))) / 2 * ((z (θ (i + 1))).im - (z (θ i)).im)) := by
    unfold greenTrapezoid
    refine Finset.sum_congr rfl fun i hi => ?_
    rw [Finset.mem_range] at hi
    simp only [hget i hi.le, hget (i + 1) hi]
    rfl
  rw [← e] at key
  obtain ⟨f, hf⟩ : ∃ f : ℝ → ℝ, f = fun u => greenP W o (z u) * (deriv z u).re + greenQ W o (z u) * (deriv z u).im := ⟨_, rfl⟩
  have hfc : Continuous f := by
    rw [hf]
    have h1 := (continuous_greenP W hW o).comp hz.continuous
    have h2 := (continuous_greenQ W hW o).comp hz.continuous
    exact (h1.mul (continuous_re.comp hdc)).add (h2.mul (continuous_im.comp hdc))
  have hfb : ∀ u, ‖f u‖ ≤ 4 * M * Z * Λ := by
    intro u
    obtain ⟨q1, q2⟩ := p1 (z u) (hz2 u)
    rw [hf, Real.norm_eq_abs]
    refine (abs_add_le _ _).trans ?_
    rw [abs_mul, abs_mul]
    have a1 := mul_le_mul q1 ((abs_re_le_norm _).trans (hΛ u)) (abs_nonneg _) (by positivity)
    have a2 := mul_le_mul q2 ((abs_im_le_norm _).trans (hΛ u)) (abs_nonneg _) (by positivity)
    linarith
  have hrest : |∫ u in (Real.pi - ε)..Real.pi, f u| ≤ 4 * M * Z * Λ * ε := by
    have := intervalIntegral.norm_integral_le_of_norm_le_const (f := f) (a := Real.pi - ε) (b := Real.pi) (C := 4 * M * Z * Λ)
      fun u _ => hfb u
    rw [sub_sub_cancel, abs_of_nonneg hε, Real.norm_eq_abs] at this
    exact this
  have hflux : branchFlux W o z = (∫ u in (-Real.pi)..(Real.pi - ε), f u) + ∫ u in (Real.pi - ε)..Real.pi, f u := by
    unfold branchFlux
    rw [intervalIntegral.integral_add_adjacent_intervals (hfc.intervalIntegrable _ _) (hfc.intervalIntegrable _ _), hf]
  have key' : |greenTrapezoid W o (fun i => (closedBuffer pts 0).getD i 0) (N - 1) - ∫ u in (-Real.pi)..(Real.pi - ε), f u|
      ≤ 2 * Real.pi * Λ * (M * (Λ * h) + 4 * Z * ω) := by
    rw [hf]
    refine key.trans ?_
    have hk : 0 ≤ M * (Λ * h) + 4 * Z * ω := by positivity
    have : (M * (Λ * h) + 4 * Z * ω) * Λ * (Real.pi - ε - -Real.pi) ≤ (M * (Λ * h) + 4 * Z * ω) * Λ * (2 * Real.pi) :=
      mul_le_mul_of_nonneg_left (by linarith) (by positivity)
    nlinarith
  rw [hflux]
  have k1 := abs_le.mp key'
  have k2 := abs_le.mp hrest
  rw [abs_le]
  constructor <;> linarith [k1.1, k1.2, k2.1, k2.2]

/-! ### The theorem -/

/-- The fluxes of the two images add up to the flux of the images of the disc, wherever the lens lies. -/
theorem single_flux (w : ℂ) (rho : ℝ) (hrho : 0 < rho) (hw : ‖w‖ ≠ rho) (κ M : ℝ) (src : ℝ → ℂ) (hL : LimbOff rho w κ M src)
    (B : ℂ → ℝ) (hB : Continuous B) (o o' : ℝ × ℝ) :
    branchFlux B o (fun t => singleBranch 1 (src t)) - branchFlux B o' (fun t => singleBranch (-1) (src t))
      = ∫ z in imageOfDisc single w rho, B z := by
  rcases lt_or_gt_of_ne hw with h | h
  · exact inside_flux w rho hrho h src hL.eq hL.off hL.closed B hB o o'
  · exact outside_flux w rho hrho h src hL.polar B hB o o'

theorem single_hm : ∀ l ∈ single, l.1 ≠ 0 := by simp [single]

theorem single_nodup : (single.map Prod.snd).Nodup := by simp [single]

/-- **C133**: a limb-darkened source behind a single lens at any position, the lens inside or outside of the disc but not on its
limb, with the documented Gauss-Legendre rules.  In the situation of `C132_single`, as the number of quadrature points grows,
`mag_extended_source` converges, and the limit differs from the magnification of the disc (flux of the images over flux of the
source) by at most the error of the trapezoidal rule, where `ω` bounds the variation of the profile over a step of a contour, and
the missing closing edge. -/
theorem C133_single (lib : Lib) (npts : ℕ) (u : UserParams) (u1 rho : ℝ) (w : ℂ) (hrho : 0 < rho)
    (hnpts : 4 ≤ npts) (hmax : npts ≤ 2 * 10 ^ 8) (η M κ h Z : ℝ) (hη : η = |‖w‖ - rho|) (hη0 : 0 < η) (hM : M = ‖w‖ + rho)
    (hκ : κ = 1 + Real.sqrt (M ^ 2 + 4) / η) (hh : h = 2 * Real.pi / ((npts / 2 - 1 : ℕ) : ℝ)) (hsmall : κ * rho * h < 1)
    (hZ : Z = (M + Real.sqrt (M ^ 2 + 4)) / 2) (hg : ∀ n, 1 ≤ n → IsGauss n (lib.leggauss n)) (hu0 : 0 ≤ u1) (hu1 : u1 ≤ 1)
    (ω : ℝ) (hω : ∀ z z', ‖z‖ ≤ 4 * Z → ‖z'‖ ≤ 4 * Z → ‖z - z'‖ ≤ κ * rho * h →
      |imageProfile single w rho u1 z - imageProfile single w rho u1 z'| ≤ ω) :
    ∃ m : ℕ → ℝ, (∀ npts_ld, magExtendedSource lib 1 npts npts_ld true u u1 rho w = .ok (m npts_ld)) ∧
      ∃ l, Tendsto m atTop (𝓝 l) ∧ |l - limbMag single w rho u1|
        ≤ 6 * κ ^ 2 * h + 16 * κ * Z * ω / rho + 12 * κ * Z / (Real.pi * rho * 10 ^ 8) := by
  have hpi := Real.pi_pos
  have hκ0 : 0 < κ := by rw [hκ]; have := Real.sqrt_nonneg (M ^ 2 + 4); positivity
  have hh0 : 0 ≤ h := by rw [hh]; positivity
  obtain ⟨src, hsrc⟩ : ∃ src : ℝ → ℂ, src = fun t : ℝ => (rho : ℂ) * exp (I * t) + w := ⟨_, rfl⟩
  have hL := limb_off rho w hrho η M κ hη hη0 hM hκ src hsrc
  have hwne : ‖w‖ ≠ rho := by
    intro hc
    rw [hη, hc, sub_self, abs_zero] at hη0
    exact lt_irrefl _ hη0
  obtain ⟨N, θ, hN, h0, hπ, hlast, hgap, hval⟩ := single_tracks lib npts u rho w hrho hnpts hmax κ M h hh hκ0.le hsmall src hL
  obtain ⟨W, hW⟩ : ∃ W, W = imageProfile single w rho u1 := ⟨_, rfl⟩
  rw [← hW] at hω
  have hWc : Continuous W := by rw [hW]; exact continuous_imageProfile single single_hm single_nodup w rho u1 hrho
  have hWb : ∀ z, |W z| ≤ 3 / 2 := fun z => by rw [hW]; exact imageProfile_bound single w rho u1 hu0 hu1 z
  have hWo : ∀ z, z ∉ ({0} : Finset ℂ) → Boundary.brightnessProfile lensEq1 z rho w u1 = W z := by
    intro z hz
    rw [hW, imageProfile_off _ _ _ _ _ (by simpa [single] using hz)]
    congr 1
    funext x
    exact lensEq1_eq x
  have htr : ∀ σ, σ = 1 ∨ σ = -1 → ∃ (l : ℝ) (o : ℝ × ℝ), Tendsto (fun n => integrateLd lib.leggauss lensEq1 w rho u1 n
        (closedBuffer (branchPts σ src θ N) 0) (N - 1)) atTop (𝓝 l) ∧
      |l - branchFlux W o fun t => singleBranch σ (src t)|
        ≤ 2 * Real.pi * (κ * rho) * (3 / 2 * (κ * rho * h) + 4 * Z * ω) + 4 * (3 / 2) * Z * (κ * rho) * (1 / 10 ^ 8) := by
    intro σ hσ
    exact ld_open_track lib.leggauss hg lensEq1 w rho u1 W hWc {0} hWo (3 / 2) (κ * rho) Z h ω (1 / 10 ^ 8) hWb (by norm_num) hh0
      (fun t => singleBranch σ (src t)) hω N θ hN h0 hlast hgap (branch_curve σ src hL.smooth hL.off).1 (by positivity)
      (hL.speed σ hσ) (fun t => (hL.bound σ hσ t).trans (le_of_eq (by rw [hZ]; ring)))
  obtain ⟨l1, o1, t1, b1⟩ := htr 1 (Or.inl rfl)
  obtain ⟨l2, o2, t2, b2⟩ := htr (-1) (Or.inr rfl)
  obtain ⟨f1, f2⟩ := imageProfile_flux single w rho u1 hrho hu0 hu1
  rw [← hW] at f1 f2
  have hfl := single_flux w rho hrho hwne κ M src hL W hWc o1 o2
  refine ⟨_, fun n => hval n true u1, |l1 - l2| / (Real.pi * rho ^ 2), ?_, ?_⟩
  · refine Tendsto.div_const (Tendsto.abs ?_) _
    refine (t1.sub t2).congr fun n => ?_
    rw [Fin.sum_univ_two]
    simp only [singleInteg, if_true, Matrix.cons_val_zero, Matrix.cons_val_one]
    ring
  · obtain ⟨F, hF⟩ : ∃ F, F = ∫ z in imageOfDisc single w rho, W z := ⟨_, rfl⟩
    rw [← hF] at f1 f2 hfl
    rw [← f1, ← sub_div, abs_div, abs_of_pos (by positivity : 0 < Real.pi * rho ^ 2), div_le_iff₀ (by positivity)]
    have hab : |(|l1 - l2| - F)| ≤ |l1 - l2 - F| := by
      have := abs_abs_sub_abs_le (l1 - l2) F
      rwa [abs_of_nonneg f2] at this
    refine hab.trans ?_
    have e : (6 * κ ^ 2 * h + 16 * κ * Z * ω / rho + 12 * κ * Z / (Real.pi * rho * 10 ^ 8)) * (Real.pi * rho ^ 2)
        = 2 * (2 * Real.pi * (κ * rho) * (3 / 2 * (κ * rho * h) + 4 * Z * ω) + 4 * (3 / 2) * Z * (κ * rho) * (1 / 10 ^ 8)) := by
      field_simp
      ring
    rw [e, ← hfl]
    have a1 := abs_le.mp b1
    have a2 := abs_le.mp b2
    rw [abs_le]
    constructor <;> linarith [a1.1, a1.2, a2.1, a2.2]

/-! ### An explicit modulus of the profile -/

/-- Where the source is far outside of the disc the profile varies with the inverse distance. -/
theorem profile_outer (leq : ℂ → ℂ) (w : ℂ) (rho u1 : ℝ) (hrho : 0 < rho) (h0 : 0 ≤ u1) (h1 : u1 ≤ 1) (z z' : ℂ)
    (hz : rho < ‖leq z - w‖) (hz' : rho < ‖leq z' - w‖) :
    |Boundary.brightnessProfile leq z rho w u1 - Boundary.brightnessProfile leq z' rho w u1|
      ≤ 3 / 2 * Real.sqrt (2 * (rho * ‖leq z - leq z'‖ / (‖leq z - w‖ * ‖leq z' - w‖))) := by
  have h3 : 0 < 3 - u1 := by linarith
  obtain ⟨a, ha⟩ : ∃ a, a = ‖leq z - w‖ := ⟨_, rfl⟩
  obtain ⟨b, hb⟩ : ∃ b, b = ‖leq z' - w‖ := ⟨_, rfl⟩
  have hab : |b - a| ≤ ‖leq z - leq z'‖ := by
    rw [ha, hb, abs_sub_comm]
    have := abs_norm_sub_norm_le (leq z - w) (leq z' - w)
    rwa [sub_sub_sub_cancel_right] at this
  have hval : ∀ x, rho < ‖leq x - w‖ → Boundary.brightnessProfile leq x rho w u1
      = 3 / (3 - u1) * (u1 * (1 - Real.sqrt (1 - (rho / ‖leq x - w‖) ^ 2)) + 1 - 2 * u1) := by
    intro x hx
    unfold Boundary.brightnessProfile
    simp only
    rw [if_neg (not_le.mpr ((one_lt_div hrho).mpr hx))]
    congr 6
    rw [div_pow, div_pow, one_div_div]
  rw [hval z hz, hval z' hz', ← ha, ← hb]
  rw [← ha] at hz
  rw [← hb] at hz'
  have ha0 : 0 < a := hrho.trans hz
  have hb0 : 0 < b := hrho.trans hz'
  have s1 : rho / a ≤ 1 := (div_le_one ha0).mpr hz.le
  have s2 : rho / b ≤ 1 := (div_le_one hb0).mpr hz'.le
  have key := radial_inner (rho / a) (rho / b) (by positivity) (by positivity) s1 s2
  have hm : |rho / a - rho / b| ≤ rho * ‖leq z - leq z'‖ / (a * b) := by
    have e : rho / a - rho / b = rho * (b - a) / (a * b) := by field_simp
    rw [e, abs_div, abs_mul, abs_of_pos hrho, abs_of_pos (by positivity : 0 < a * b)]
    gcongr
  have hf : 3 / (3 - u1) * u1 ≤ 3 / 2 := by
    rw [div_mul_eq_mul_div, div_le_iff₀ h3]; nlinarith
  have e : ∀ x y : ℝ, 3 / (3 - u1) * (u1 * (1 - x) + 1 - 2 * u1) - 3 / (3 - u1) * (u1 * (1 - y) + 1 - 2 * u1)
      = (3 / (3 - u1) * u1) * (y - x) := fun x y => by ring
  rw [e, abs_mul, abs_of_nonneg (by positivity), abs_sub_comm]
  refine mul_le_mul hf (key.trans (Real.sqrt_le_sqrt ?_)) (abs_nonneg _) (by norm_num)
  linarith

theorem lens_difference (z z' : ℂ) (hz : z ≠ 0) (hz' : z' ≠ 0) :
    ‖lensMap single z - lensMap single z'‖ ≤ (1 + 1 / (‖z‖ * ‖z'‖)) * ‖z - z'‖ := by
  have c1 : conj z ≠ 0 := (map_ne_zero _).mpr hz
  have c2 : conj z' ≠ 0 := (map_ne_zero _).mpr hz'
  have e : lensMap single z - lensMap single z' = (z - z') + conj (z - z') / (conj z * conj z') := by
    simp only [lensMap, single, List.map_cons, List.map_nil, List.sum_cons, List.sum_nil, map_zero, sub_zero, add_zero, map_sub,
      ofReal_one]
    field_simp
    ring
  rw [e]
  refine (norm_add_le _ _).trans (le_of_eq ?_)
  rw [norm_div, norm_mul, Complex.norm_conj, Complex.norm_conj, Complex.norm_conj]
  ring

theorem single_lens_far (z w : ℂ) (hz : z ≠ 0) (M : ℝ) (hM : ‖w‖ ≤ M) (hs : ‖z‖ ≤ 1 / (2 * (M + 2))) :
    1 / (2 * ‖z‖) ≤ ‖lensMap single z - w‖ := by
  have hzp := norm_pos_iff.mpr hz
  have hw := norm_nonneg w
  have hM2 : 0 < M + 2 := by linarith
  have h1 : ‖z‖ * (2 * (M + 2)) ≤ 1 := by rwa [le_div_iff₀ (by positivity)] at hs
  have e : lensMap single z - w = -(1 / conj z - (z - w)) := by
    simp only [lensMap, single, List.map_cons, List.map_nil, List.sum_cons, List.sum_nil, map_zero, sub_zero, add_zero,
      ofReal_one]
    ring
  rw [e, norm_neg]
  have h2 := norm_sub_norm_le (1 / conj z) (z - w)
  have h3 := norm_sub_le z w
  rw [norm_div, norm_one, Complex.norm_conj] at h2
  have h4 : ‖z‖ + ‖w‖ ≤ 1 / (2 * ‖z‖) := by
    rw [le_div_iff₀ (by positivity)]
    nlinarith
  have h5 : 1 / ‖z‖ = 1 / (2 * ‖z‖) + 1 / (2 * ‖z‖) := by field_simp; norm_num
  linarith

/-- The profile behind a single lens varies everywhere at most like the square root of the distance. -/
theorem single_modulus (w : ℂ) (rho u1 M : ℝ) (hrho : 0 < rho) (h0 : 0 ≤ u1) (h1 : u1 ≤ 1) (hM : M = ‖w‖ + rho) (z z' : ℂ) :
    |imageProfile single w rho u1 z - imageProfile single w rho u1 z'| ≤ 18 * (M + 2) * Real.sqrt (‖z - z'‖ / rho) := by
  have hwn := norm_nonneg w
  have hM2 : 0 < M + 2 := by linarith
  have hc := continuous_imageProfile single single_hm single_nodup w rho u1 hrho
  have hlast : ∀ (d : ℝ) (x : ℝ), 0 ≤ d → x ≤ 34 * (M + 2) ^ 2 * (d / rho) →
      3 * Real.sqrt x ≤ 18 * (M + 2) * Real.sqrt (d / rho) := by
    intro d x hd hx
    have h2 : Real.sqrt x ≤ 6 * (M + 2) * Real.sqrt (d / rho) := by
      refine Real.sqrt_le_iff.mpr ⟨by positivity, ?_⟩
      rw [mul_pow, Real.sq_sqrt (by positivity)]
      have : 0 ≤ (M + 2) ^ 2 * (d / rho) := by positivity
      nlinarith
    linarith
  refine isClosed_property2 (e := fun x : ({0}ᶜ : Set ℂ) => (x : ℂ)) (dense_compl_singleton (0 : ℂ)).denseRange_val
    (p := fun z z' => |imageProfile single w rho u1 z - imageProfile single w rho u1 z'| ≤ 18 * (M + 2) * Real.sqrt (‖z - z'‖ / rho))
    (isClosed_le (by fun_prop) (by fun_prop)) ?_ z z'
  rintro ⟨z, hz⟩ ⟨z', hz'⟩
  have hz : z ≠ 0 := by simpa using hz
  have hz' : z' ≠ 0 := by simpa using hz'
  simp only
  have hp := norm_pos_iff.mpr hz
  have hp' := norm_pos_iff.mpr hz'
  obtain ⟨d, hd⟩ : ∃ d, d = ‖z - z'‖ := ⟨_, rfl⟩
  have hd0 : 0 ≤ d := by rw [hd]; exact norm_nonneg _
  rw [← hd]
  obtain ⟨D, hD⟩ : ∃ D : ℝ, D = 1 / (2 * (M + 2)) := ⟨_, rfl⟩
  have hD0 : 0 < D := by rw [hD]; positivity
  have hDM : D * (2 * (M + 2)) = 1 := by rw [hD]; field_simp
  have off : ∀ x : ℂ, x ≠ 0 → imageProfile single w rho u1 x = Boundary.brightnessProfile (lensMap single) x rho w u1 :=
    fun x hx => imageProfile_off _ _ _ _ _ (by simpa [single] using hx)
  have hbase : d ≤ (M + 2) * (d / rho) := by
    rw [← mul_div_assoc, le_div_iff₀ hrho, mul_comm]
    exact mul_le_mul_of_nonneg_right (by linarith) hd0
  have hMd : 0 ≤ (M + 2) * (d / rho) := by positivity
  by_cases hbig : D / 2 ≤ d
  · -- far apart
    have b1 := imageProfile_bound single w rho u1 h0 h1 z
    have b2 := imageProfile_bound single w rho u1 h0 h1 z'
    refine ((abs_sub _ _).trans (add_le_add b1 b2)).trans (le_trans ?_ (hlast d 1 hd0 ?_))
    · rw [Real.sqrt_one]; norm_num
    · have : 1 ≤ 4 * (M + 2) * d := by nlinarith
      nlinarith
  · rw [not_le] at hbig
    by_cases hnear : ‖z‖ ≤ D ∧ ‖z'‖ ≤ D
    · -- both near the lens
      obtain ⟨n1, n2⟩ := hnear
      rw [hD] at n1 n2
      have f1 := single_lens_far z w hz M (by linarith) n1
      have f2 := single_lens_far z' w hz' M (by linarith) n2
      have hr : ∀ x : ℂ, x ≠ 0 → ‖x‖ ≤ 1 / (2 * (M + 2)) → rho < 1 / (2 * ‖x‖) := by
        intro x hx hxn
        have := norm_pos_iff.mpr hx
        rw [le_div_iff₀ (by positivity)] at hxn
        rw [lt_div_iff₀ (by positivity)]
        nlinarith
      have g := profile_outer (lensMap single) w rho u1 hrho h0 h1 z z' ((hr z hz n1).trans_le f1) ((hr z' hz' n2).trans_le f2)
      rw [off z hz, off z' hz']
      have hprod : 1 / (4 * (‖z‖ * ‖z'‖)) ≤ ‖lensMap single z - w‖ * ‖lensMap single z' - w‖ := by
        refine le_trans (le_of_eq ?_) (mul_le_mul f1 f2 (by positivity) (by positivity))
        field_simp
        norm_num
      have hq : rho * ‖lensMap single z - lensMap single z'‖ / (‖lensMap single z - w‖ * ‖lensMap single z' - w‖) ≤ 8 * rho * d := by
        have hl := lens_difference z z' hz hz'
        rw [← hd] at hl
        have hzz : ‖z‖ * ‖z'‖ ≤ 1 := by
          rw [← hD] at n1 n2
          have : D ≤ 1 := by nlinarith
          nlinarith
        have h4 : rho * ‖lensMap single z - lensMap single z'‖ / (‖lensMap single z - w‖ * ‖lensMap single z' - w‖)
            ≤ rho * ((1 + 1 / (‖z‖ * ‖z'‖)) * d) / (1 / (4 * (‖z‖ * ‖z'‖))) := by gcongr
        refine h4.trans ?_
        have e : rho * ((1 + 1 / (‖z‖ * ‖z'‖)) * d) / (1 / (4 * (‖z‖ * ‖z'‖))) = 4 * (rho * d) * (‖z‖ * ‖z'‖ + 1) := by
          field_simp
        rw [e]
        nlinarith [mul_nonneg hrho.le hd0]
      refine (g.trans ?_).trans (hlast d (16 * rho * d) hd0 ?_)
      · have := Real.sqrt_le_sqrt (by linarith : 2 * (rho * ‖lensMap single z - lensMap single z'‖ /
          (‖lensMap single z - w‖ * ‖lensMap single z' - w‖)) ≤ 16 * rho * d)
        have h5 := Real.sqrt_nonneg (16 * rho * d)
        linarith
      · have h6 : rho * d ≤ (M + 2) * d := mul_le_mul_of_nonneg_right (by linarith) hd0
        nlinarith
    · -- both away from the lens
      have hfar : D / 2 ≤ ‖z‖ ∧ D / 2 ≤ ‖z'‖ := by
        have t1 := norm_sub_norm_le z z'
        have t2 := norm_sub_norm_le z' z
        rw [norm_sub_rev z' z] at t2
        rw [← hd] at t1 t2
        rcases not_and_or.mp hnear with h | h
        · rw [not_le] at h; constructor <;> linarith
        · rw [not_le] at h; constructor <;> linarith
      have hl := lens_difference z z' hz hz'
      rw [← hd] at hl
      rw [off z hz, off z' hz']
      refine (profile_holder (lensMap single) w rho u1 hrho h0 h1 z z').trans (hlast d _ hd0 ?_)
      have h7 : 1 / (‖z‖ * ‖z'‖) ≤ 16 * (M + 2) ^ 2 := by
        have : D / 2 * (D / 2) ≤ ‖z‖ * ‖z'‖ := mul_le_mul hfar.1 hfar.2 (by positivity) (by positivity)
        refine (one_div_le_one_div_of_le (by positivity) this).trans (le_of_eq ?_)
        rw [hD]; field_simp; norm_num
      have h8 : ‖lensMap single z - lensMap single z'‖ / rho ≤ 17 * (M + 2) ^ 2 * (d / rho) := by
        rw [← mul_div_assoc]
        refine div_le_div_of_nonneg_right (hl.trans (mul_le_mul_of_nonneg_right ?_ hd0)) hrho.le
        nlinarith
      linarith

/-- **C133, explicit**: the variation of the profile over a step is at most `18 (M + 2) sqrt(κ h)`, so that the error decreases at
least like the square root of the spacing of the samples, down to the missing closing edge. -/
theorem C133_single_rate (lib : Lib) (npts : ℕ) (u : UserParams) (u1 rho : ℝ) (w : ℂ) (hrho : 0 < rho)
    (hnpts : 4 ≤ npts) (hmax : npts ≤ 2 * 10 ^ 8) (η M κ h Z : ℝ) (hη : η = |‖w‖ - rho|) (hη0 : 0 < η) (hM : M = ‖w‖ + rho)
    (hκ : κ = 1 + Real.sqrt (M ^ 2 + 4) / η) (hh : h = 2 * Real.pi / ((npts / 2 - 1 : ℕ) : ℝ)) (hsmall : κ * rho * h < 1)
    (hZ : Z = (M + Real.sqrt (M ^ 2 + 4)) / 2) (hg : ∀ n, 1 ≤ n → IsGauss n (lib.leggauss n)) (hu0 : 0 ≤ u1) (hu1 : u1 ≤ 1) :
    ∃ m : ℕ → ℝ, (∀ npts_ld, magExtendedSource lib 1 npts npts_ld true u u1 rho w = .ok (m npts_ld)) ∧
      ∃ l, Tendsto m atTop (𝓝 l) ∧ |l - limbMag single w rho u1|
        ≤ 6 * κ ^ 2 * h + 288 * κ * Z * (M + 2) * Real.sqrt (κ * h) / rho + 12 * κ * Z / (Real.pi * rho * 10 ^ 8) := by
  have hw := norm_nonneg w
  obtain ⟨m, h1, l, h2, h3⟩ := C133_single lib npts u u1 rho w hrho hnpts hmax η M κ h Z hη hη0 hM hκ hh hsmall hZ hg hu0 hu1
    (18 * (M + 2) * Real.sqrt (κ * h)) (fun z z' _ _ hd => (single_modulus w rho u1 M hrho hu0 hu1 hM z z').trans
      (mul_le_mul_of_nonneg_left (Real.sqrt_le_sqrt (by rw [div_le_iff₀ hrho]; linarith)) (by rw [hM]; positivity)))
  refine ⟨m, h1, l, h2, h3.trans (le_of_eq ?_)⟩
  ring

/-- The lens behind the centre of a disc of one Einstein radius, whose images form a ring (magnification about 2.2): the densest
sampling that is allowed. -/
example (lib : Lib) (u : UserParams) (hg : ∀ n, 1 ≤ n → IsGauss n (lib.leggauss n)) :
    ∃ m : ℕ → ℝ, (∀ npts_ld, magExtendedSource lib 1 200000000 npts_ld true u (1 / 2) 1 0 = .ok (m npts_ld)) ∧
      ∃ l, Tendsto m atTop (𝓝 l) ∧ |l - limbMag single 0 1 (1 / 2)| ≤ 11 / 5 := by
  obtain ⟨s, hs⟩ : ∃ s, s = Real.sqrt ((0 + 1 : ℝ) ^ 2 + 4) := ⟨_, rfl⟩
  have hs0 : 0 ≤ s := by rw [hs]; exact Real.sqrt_nonneg _
  have hs1 : s ≤ 2237 / 1000 := by rw [hs]; exact Real.sqrt_le_iff.mpr (by norm_num)
  have hp1 := Real.pi_gt_three
  have hp2 := Real.pi_lt_d2
  obtain ⟨h, hh⟩ : ∃ h : ℝ, h = 2 * Real.pi / 99999999 := ⟨_, rfl⟩
  have hh1 : h ≤ 64 / 10 ^ 9 := by rw [hh, div_le_div_iff₀ (by norm_num) (by norm_num)]; nlinarith
  have hh0 : 0 ≤ h := by rw [hh]; positivity
  have hN : ((200000000 / 2 - 1 : ℕ) : ℝ) = 99999999 := by norm_num
  obtain ⟨k, hk⟩ : ∃ k : ℝ, k = 1 + s / 1 := ⟨_, rfl⟩
  have hk0 : 0 ≤ k := by rw [hk]; positivity
  have hk1 : k ≤ 3237 / 1000 := by rw [hk]; linarith
  obtain ⟨m, h1, l, h2, h3⟩ := C133_single_rate lib 200000000 u (1 / 2) 1 0 one_pos (by norm_num) (by norm_num) 1 (0 + 1) k h
    ((0 + 1 + s) / 2) (by rw [norm_zero]; norm_num) one_pos (by rw [norm_zero]) (by rw [hk, hs]) (by rw [hN]; exact hh)
    (by nlinarith) (by rw [hs]) hg (by norm_num) (by norm_num)
  refine ⟨m, h1, l, h2, h3.trans ?_⟩
  have hkh : k * h ≤ 2072 / 10 ^ 10 := by nlinarith
  have hq : Real.sqrt (k * h) ≤ 456 / 10 ^ 6 := Real.sqrt_le_iff.mpr ⟨by norm_num, by norm_num at hkh ⊢; linarith⟩
  obtain ⟨q, hqd⟩ : ∃ q, q = Real.sqrt (k * h) := ⟨_, rfl⟩
  have hq0 : 0 ≤ q := by rw [hqd]; exact Real.sqrt_nonneg _
  rw [← hqd] at hq ⊢
  obtain ⟨Z, hZ⟩ : ∃ Z : ℝ, Z = (0 + 1 + s) / 2 := ⟨_, rfl⟩
  have hZ0 : 0 ≤ Z := by rw [hZ]; positivity
  have hZ1 : Z ≤ 1619 / 1000 := by rw [hZ]; linarith
  rw [← hZ]
  have hkZ : k * Z ≤ 5241 / 1000 := (mul_le_mul hk1 hZ1 hZ0 (by norm_num)).trans (by norm_num)
  have hkZ0 : 0 ≤ k * Z := by positivity
  have e1 : 12 * k * Z / (Real.pi * 1 * 10 ^ 8) ≤ 1 / 1000 := by
    rw [div_le_div_iff₀ (by positivity) (by norm_num)]
    nlinarith
  have e2 : k * Z * q ≤ 5241 / 1000 * (456 / 10 ^ 6) := mul_le_mul hkZ hq hq0 (by norm_num)
  have e3 : 6 * k ^ 2 * h ≤ 1 / 1000 := by nlinarith
  have e4 : 288 * k * Z * (0 + 1 + 2) * q / 1 = 864 * (k * Z * q) := by ring
  have e5 : k * Z * q ≤ 239 / 100000 := e2.trans (by norm_num)
  rw [e4]
  linarith

/-- The lens outside of the disc. -/
example (lib : Lib) (u : UserParams) (hg : ∀ n, 1 ≤ n → IsGauss n (lib.leggauss n)) :
    ∃ m : ℕ → ℝ, (∀ npts_ld, magExtendedSource lib 1 20000 npts_ld true u (1 / 2) (1 / 10) (1 / 2) = .ok (m npts_ld)) ∧
      ∃ l, Tendsto m atTop (𝓝 l) := by
  have hn : ‖(1 / 2 : ℂ)‖ = 1 / 2 := by norm_num
  obtain ⟨s, hs⟩ : ∃ s, s = Real.sqrt ((1 / 2 + 1 / 10 : ℝ) ^ 2 + 4) := ⟨_, rfl⟩
  have hs0 : 0 ≤ s := by rw [hs]; exact Real.sqrt_nonneg _
  have hs1 : s ≤ 21 / 10 := by rw [hs]; exact Real.sqrt_le_iff.mpr (by norm_num)
  have hp2 := Real.pi_lt_d2
  have hp1 := Real.pi_gt_three
  obtain ⟨h, hh⟩ : ∃ h : ℝ, h = 2 * Real.pi / 9999 := ⟨_, rfl⟩
  have hh1 : h ≤ 8 / 9999 := by rw [hh]; gcongr; linarith
  have hh0 : 0 ≤ h := by rw [hh]; positivity
  have hN : ((20000 / 2 - 1 : ℕ) : ℝ) = 9999 := by norm_num
  obtain ⟨k, hk⟩ : ∃ k : ℝ, k = 1 + s / (2 / 5) := ⟨_, rfl⟩
  have hk1 : k ≤ 25 / 4 := by rw [hk]; linarith
  obtain ⟨m, h1, l, h2, -⟩ := C133_single_rate lib 20000 u (1 / 2) (1 / 10) (1 / 2) (by norm_num) (by norm_num) (by norm_num)
    (2 / 5) (1 / 2 + 1 / 10) k h _ (by rw [hn, abs_of_pos (by norm_num)]; norm_num) (by norm_num) (by rw [hn])
    (by rw [hk, hs]) (by rw [hN]; exact hh) (by nlinarith) rfl hg (by norm_num) (by norm_num)
  exact ⟨m, h1, l, h2⟩

end Microjax.Props
