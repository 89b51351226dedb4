import Verif.Lemmas.Quadrature
import Verif.Props.ContourIntegral

/-! # Property C99: the Gauss-Legendre quadrature of the limb-darkened contour integral -/

namespace Microjax.Props

open Microjax.Spec Contour Utils Polynomial Set Filter Topology

/-- C99, exactness: a rule that is exact to degree `d` on `[-1, 1]` gives, after the change of variables of the
code, the exact integral of every polynomial of degree at most `d` over every interval, in either orientation. -/
theorem C99_exact (rule : List (ℝ × ℝ)) (d : ℕ) (h : ExactTo rule d) (p : ℝ[X]) (hp : p.natDegree ≤ d) (a b : ℝ) :
    integrateGaussLegendre rule (fun x => p.eval x) a b = ∫ x in a..b, p.eval x := by
  set q : ℝ[X] := p.comp (C (1 / 2 * (b - a)) * X + C (1 / 2 * (b + a))) with hq
  have hqd : q.natDegree ≤ d := by
    rw [hq]
    refine le_trans natDegree_comp_le ?_
    have : (C (1 / 2 * (b - a)) * X + C (1 / 2 * (b + a)) : ℝ[X]).natDegree ≤ 1 := natDegree_linear_le
    calc p.natDegree * _ ≤ p.natDegree * 1 := Nat.mul_le_mul_left _ this
      _ ≤ d := by omega
  have hqe : ∀ x : ℝ, q.eval x = p.eval (1 / 2 * (b - a) * x + 1 / 2 * (b + a)) := by
    intro x; rw [hq, eval_comp]; simp
  have e := h q hqd
  have e1 : integrateGaussLegendre rule (fun x => p.eval x) a b
      = 1 / 2 * (b - a) * (rule.map fun r => r.2 * q.eval r.1).sum := by
    unfold integrateGaussLegendre
    rw [← List.sum_map_mul_left]
    congr 1
    apply List.map_congr_left
    intro r _
    rw [hqe]; ring
  rw [e1, e, intervalIntegral.integral_congr (fun x _ => hqe x),
    intervalIntegral.mul_integral_comp_mul_add (f := fun x => p.eval x)]
  congr 1 <;> ring

/-- the integration nodes lie between the end points -/
theorem gauss_node_between (a b x : ℝ) (hx : x ∈ Ioo (-1 : ℝ) 1) :
    1 / 2 * (b - a) * x + 1 / 2 * (b + a) ∈ uIcc a b := by
  obtain ⟨h1, h2⟩ := hx
  rcases le_total a b with h | h
  · rw [uIcc_of_le h]; constructor <;> nlinarith
  · rw [uIcc_of_ge h]; constructor <;> nlinarith

/-- C99, error bound: with the rule documented for `leggauss(n)` and any polynomial of degree at most `2n - 1`
within `ε` of the integrand between the end points, the quadrature is within `2 ε |b - a|` of the integral. -/
theorem C99_error (n : ℕ) (hn : 1 ≤ n) (rule : List (ℝ × ℝ)) (h : IsGauss n rule) (f : ℝ → ℝ) (a b ε : ℝ)
    (hf : IntervalIntegrable f MeasureTheory.volume a b) (p : ℝ[X]) (hp : p.natDegree ≤ 2 * n - 1)
    (hε : ∀ x ∈ uIcc a b, |p.eval x - f x| ≤ ε) :
    |integrateGaussLegendre rule f a b - ∫ x in a..b, f x| ≤ 2 * ε * |b - a| := by
  have hw := exactTo_weights h.2
  have h1 : |integrateGaussLegendre rule f a b - integrateGaussLegendre rule (fun x => p.eval x) a b|
      ≤ ε * |b - a| := by
    have e : integrateGaussLegendre rule f a b - integrateGaussLegendre rule (fun x => p.eval x) a b
        = (rule.map fun r => 1 / 2 * (b - a) * (f (1 / 2 * (b - a) * r.1 + 1 / 2 * (b + a))
          - p.eval (1 / 2 * (b - a) * r.1 + 1 / 2 * (b + a))) * r.2).sum := by
      unfold integrateGaussLegendre
      clear hw h
      induction rule with
      | nil => simp
      | cons r l ih => simp only [List.map_cons, List.sum_cons] at ih ⊢; linarith
    rw [e]
    have hb : ∀ l : List (ℝ × ℝ), (∀ r ∈ l, r ∈ rule) →
        |(l.map fun r => 1 / 2 * (b - a) * (f (1 / 2 * (b - a) * r.1 + 1 / 2 * (b + a))
          - p.eval (1 / 2 * (b - a) * r.1 + 1 / 2 * (b + a))) * r.2).sum|
        ≤ 1 / 2 * |b - a| * ε * (l.map Prod.snd).sum := by
      intro l
      induction l with
      | nil => intro _; simp
      | cons r l ih =>
        intro hl
        have ih' := ih fun r hr => hl r (List.mem_cons_of_mem _ hr)
        have hr := hl r List.mem_cons_self
        have hwr := gauss_weight_pos hn h r hr
        have hnr := hε _ (gauss_node_between a b r.1 (gauss_node_mem hn h r hr))
        simp only [List.map_cons, List.sum_cons]
        refine (abs_add_le _ _).trans ?_
        have : |1 / 2 * (b - a) * (f (1 / 2 * (b - a) * r.1 + 1 / 2 * (b + a))
          - p.eval (1 / 2 * (b - a) * r.1 + 1 / 2 * (b + a))) * r.2| ≤ 1 / 2 * |b - a| * ε * r.2 := by
          rw [abs_mul, abs_mul, abs_mul, abs_of_pos hwr, abs_of_pos (by norm_num : (0 : ℝ) < 1 / 2)]
          rw [abs_sub_comm] at hnr
          gcongr
        linarith
    have := hb rule (fun r hr => hr)
    rw [hw] at this
    linarith
  have h2 : |(∫ x in a..b, p.eval x) - ∫ x in a..b, f x| ≤ ε * |b - a| := by
    rw [← intervalIntegral.integral_sub (p.continuous.intervalIntegrable _ _) hf, ← Real.norm_eq_abs]
    exact intervalIntegral.norm_integral_le_of_norm_le_const fun x hx => hε x (uIoc_subset_uIcc hx)
  rw [C99_exact rule _ h.2 p hp] at h1
  calc _ = |(integrateGaussLegendre rule f a b - ∫ x in a..b, p.eval x)
        + ((∫ x in a..b, p.eval x) - ∫ x in a..b, f x)| := by rw [sub_add_sub_cancel]
    _ ≤ _ := abs_add_le _ _
    _ ≤ 2 * ε * |b - a| := by linarith

/-- the quadrature of a continuous integrand converges to the integral -/
theorem quadrature_tendsto (leggauss : ℕ → List (ℝ × ℝ)) (hg : ∀ n, 1 ≤ n → IsGauss n (leggauss n))
    (f : ℝ → ℝ) (a b : ℝ) (hf : ContinuousOn f (uIcc a b)) :
    Tendsto (fun n => integrateGaussLegendre (leggauss n) f a b) atTop (𝓝 (∫ x in a..b, f x)) := by
  rw [Metric.tendsto_atTop]
  intro δ hδ
  obtain ⟨p, hp⟩ := exists_polynomial_near_of_continuousOn (min a b) (max a b) f hf
    (δ / (2 * |b - a| + 1)) (by positivity)
  refine ⟨p.natDegree + 1, fun n hn => ?_⟩
  have := C99_error n (by omega) _ (hg n (by omega)) f a b (δ / (2 * |b - a| + 1)) hf.intervalIntegrable p
    (by omega) (fun x hx => (hp x hx).le)
  rw [Real.dist_eq]
  refine lt_of_le_of_lt this ?_
  have h0 := abs_nonneg (b - a)
  rw [show 2 * (δ / (2 * |b - a| + 1)) * |b - a| = δ * (2 * |b - a|) / (2 * |b - a| + 1) by ring,
    div_lt_iff₀ (by positivity)]
  nlinarith

/-- the reach of the integration nodes: the interval from the base point to the contour point, extended by half of
its length upwards -/
def reach (a b : ℝ) : Set ℝ := Icc (min a b) (max a b + 1 / 2 * |b - a|)

theorem splitPoint_mem (rho a b : ℝ) (hrho : 0 ≤ rho) : splitPoint rho a b ∈ reach a b := by
  unfold splitPoint reach
  simp only
  rcases lt_or_ge a b with hab | hab
  · rw [min_eq_left hab.le, max_eq_right hab.le, abs_of_pos (by linarith)]
    split_ifs with h1 <;> constructor <;> linarith
  · rw [min_eq_right hab, max_eq_left hab, abs_of_nonpos (by linarith)]
    split_ifs with h1 h2 <;> constructor <;> linarith

theorem reach_left (a b : ℝ) : a ∈ reach a b :=
  ⟨min_le_left _ _, by have := le_max_left a b; have := abs_nonneg (b - a); linarith⟩

theorem reach_right (a b : ℝ) : b ∈ reach a b :=
  ⟨min_le_right _ _, by have := le_max_right a b; have := abs_nonneg (b - a); linarith⟩

theorem uIcc_subset_reach {a b x y : ℝ} (hx : x ∈ reach a b) (hy : y ∈ reach a b) : uIcc x y ⊆ reach a b :=
  ordConnected_Icc.uIcc_subset hx hy

/-- the trapezoidal rule over the closed polygon of the exact Green primitives `P = -½ ∫ B dy`, `Q = ½ ∫ B dx`
from the base point `o` -/
noncomputable def greenTrapezoid (B : ℂ → ℝ) (o : ℝ × ℝ) (c : ℕ → ℝ × ℝ) (n : ℕ) : ℝ :=
  ∑ i ∈ Finset.range n,
    ((-(1 / 2) * (∫ y in o.2..(c i).2, B ((c i).1 + Complex.I * y))
        + -(1 / 2) * (∫ y in o.2..(c (i + 1)).2, B ((c (i + 1)).1 + Complex.I * y))) / 2
        * ((c (i + 1)).1 - (c i).1)
      + ((1 / 2) * (∫ x in o.1..(c i).1, B (x + Complex.I * (c i).2))
        + (1 / 2) * (∫ x in o.1..(c (i + 1)).1, B (x + Complex.I * (c (i + 1)).2))) / 2
        * ((c (i + 1)).2 - (c i).2))

/-- the limb-darkened contour integral on a closed buffer as a sum over the polygon -/
theorem integrateLdWith_closed (q1 q2 : (ℝ → ℝ) → ℝ → ℝ → ℝ) (B : ℂ → ℝ) (rho : ℝ) (pts : List (ℝ × ℝ)) (k : ℕ)
    (o : ℝ × ℝ) (ho : o = centroid (closedBuffer pts k) pts.length) :
    integrateLdWith q1 q2 B rho (closedBuffer pts k) pts.length
      = ∑ i ∈ Finset.range pts.length,
        let p := (closedBuffer pts k).getD i 0
        let p' := (closedBuffer pts k).getD (i + 1) 0
        ((ldP q1 q2 B rho o.2 p.1 p.2 + ldP q1 q2 B rho o.2 p'.1 p'.2) / 2 * (p'.1 - p.1)
          + (ldQ q1 q2 B rho o.1 p.1 p.2 + ldQ q1 q2 B rho o.1 p'.1 p'.2) / 2 * (p'.2 - p.2)) := by
  unfold integrateLdWith
  simp only
  rw [← ho]
  set z := closedBuffer pts k with hz
  have hlen : z.length = pts.length + 1 + k := closedBuffer_length pts k
  have hzero : ∀ i, pts.length < i → z.getD i 0 = 0 := fun i hi => closedBuffer_getD_zero pts k i hi
  rw [C69_trapz_zero_avoiding _ _ _ (by simp) (by simp; omega)
      (by intro i hi; rw [getD_map_of_zero Prod.fst 0 rfl, hzero i hi]; rfl),
    C69_trapz_zero_avoiding _ _ _ (by simp) (by simp; omega)
      (by intro i hi; rw [getD_map_of_zero Prod.snd 0 rfl, hzero i hi]; rfl)]
  unfold trapezoidUpTo
  rw [← List.sum_map_add]
  show _ = ((List.range pts.length).map _).sum
  congr 1
  apply List.map_congr_left
  intro i hi
  rw [List.mem_range] at hi
  have hi1 : i < z.length := by omega
  have hi2 : i + 1 < z.length := by omega
  beta_reduce
  rw [getD_map_of_zero Prod.fst 0 rfl, getD_map_of_zero Prod.snd 0 rfl, getD_map_of_zero Prod.fst 0 rfl,
    getD_map_of_zero Prod.snd 0 rfl]
  have g : ∀ (f : ℝ × ℝ → ℝ) (j : ℕ), j < z.length → (z.map f).getD j 0 = f (z.getD j 0) := by
    intro f j hj
    rw [List.getD_eq_getElem _ _ (by simpa using hj), List.getD_eq_getElem _ _ hj, List.getElem_map]
  rw [g _ i hi1, g _ (i + 1) hi2, g _ i hi1, g _ (i + 1) hi2]

theorem closedBuffer_getD_mem (pts : List (ℝ × ℝ)) (k i : ℕ) (hi : i ≤ pts.length) (hne : pts ≠ []) :
    (closedBuffer pts k).getD i 0 ∈ pts := by
  rw [closedBuffer_getD pts k i hne hi]
  have := Nat.mod_lt i (List.length_pos_iff.2 hne)
  rw [List.getD_eq_getElem _ _ this]
  exact List.getElem_mem this

/-- C99, convergence: with the documented Gauss-Legendre rules, for every lens map, source and closed polygon such that
the brightness is continuous along the vertical and horizontal lines from the base point to the contour points (i.e.
no lens lies on them), the limb-darkened contour integral converges, as the number of quadrature points grows, to the
trapezoidal rule for the exact Green primitives of the brightness. -/
theorem C99_converges (leggauss : ℕ → List (ℝ × ℝ)) (hg : ∀ n, 1 ≤ n → IsGauss n (leggauss n))
    (leq : ℂ → ℂ) (w0 : ℂ) (rho u1 : ℝ) (hrho : 0 ≤ rho) (pts : List (ℝ × ℝ)) (hne : pts ≠ []) (k : ℕ)
    (B : ℂ → ℝ) (hB : B = fun p => Boundary.brightnessProfile leq p rho w0 u1)
    (o : ℝ × ℝ) (ho : o = centroid (closedBuffer pts k) pts.length)
    (hP : ∀ p ∈ pts, ContinuousOn (fun y : ℝ => B (p.1 + Complex.I * y)) (reach o.2 p.2))
    (hQ : ∀ p ∈ pts, ContinuousOn (fun x : ℝ => B (x + Complex.I * p.2)) (reach o.1 p.1)) :
    Tendsto (fun npts => integrateLd leggauss leq w0 rho u1 npts (closedBuffer pts k) pts.length) atTop
      (𝓝 (greenTrapezoid B o (fun i => (closedBuffer pts k).getD i 0) pts.length)) := by
  have t1 : Tendsto (fun npts : ℕ => npts / 2) atTop atTop := Nat.tendsto_div_const_atTop (by norm_num)
  have t2 : Tendsto (fun npts : ℕ => npts - npts / 2) atTop atTop :=
    tendsto_atTop_mono (fun n => by omega) t1
  have line : ∀ (f : ℝ → ℝ) (a b : ℝ), ContinuousOn f (reach a b) →
      Tendsto (fun npts : ℕ => integrateGaussLegendre (leggauss (npts / 2)) f a (splitPoint rho a b)
        + integrateGaussLegendre (leggauss (npts - npts / 2)) f (splitPoint rho a b) b) atTop
        (𝓝 (∫ x in a..b, f x)) := by
    intro f a b hf
    have hs := splitPoint_mem rho a b hrho
    have c1 : ContinuousOn f (uIcc a (splitPoint rho a b)) :=
      hf.mono (uIcc_subset_reach (reach_left a b) hs)
    have c2 : ContinuousOn f (uIcc (splitPoint rho a b) b) :=
      hf.mono (uIcc_subset_reach hs (reach_right a b))
    rw [← intervalIntegral.integral_add_adjacent_intervals c1.intervalIntegrable c2.intervalIntegrable]
    exact ((quadrature_tendsto leggauss hg f _ _ c1).comp t1).add
      ((quadrature_tendsto leggauss hg f _ _ c2).comp t2)
  unfold integrateLd
  simp only [← hB]
  simp only [integrateLdWith_closed _ _ B rho pts k o ho]
  unfold greenTrapezoid
  apply tendsto_finsetSum
  intro i hi
  rw [Finset.mem_range] at hi
  have m1 := closedBuffer_getD_mem pts k i hi.le hne
  have m2 := closedBuffer_getD_mem pts k (i + 1) hi hne
  have hp : ∀ p ∈ pts, Tendsto (fun npts : ℕ => ldP (integrateGaussLegendre (leggauss (npts / 2)))
      (integrateGaussLegendre (leggauss (npts - npts / 2))) B rho o.2 p.1 p.2) atTop
      (𝓝 (-(1 / 2) * ∫ y in o.2..p.2, B (p.1 + Complex.I * y))) := fun p hp =>
    (line _ _ _ (hP p hp)).const_mul _
  have hq : ∀ p ∈ pts, Tendsto (fun npts : ℕ => ldQ (integrateGaussLegendre (leggauss (npts / 2)))
      (integrateGaussLegendre (leggauss (npts - npts / 2))) B rho o.1 p.1 p.2) atTop
      (𝓝 ((1 / 2) * ∫ x in o.1..p.1, B (x + Complex.I * p.2))) := fun p hp =>
    (line _ _ _ (hQ p hp)).const_mul _
  exact ((((hp _ m1).add (hp _ m2)).div_const 2).mul_const _).add
    ((((hq _ m1).add (hq _ m2)).div_const 2).mul_const _)

/-- C99, placement of the nodes, violated: the split point is meant to divide the way from the base point `a` to the
contour point `b`.  Whenever the contour point lies below the base point (`b < a`) by at most `4 rho`, the code puts
it at `a + (a - b)/2`, on the far side of the base point: every node of the first quadrature lies outside
the interval, where the brightness is not needed, and the second one runs over one and a half times the interval. -/
theorem C99_split_violated (rho a b : ℝ) (hab : b < a) (hrho : a - b ≤ 4 * rho) :
    splitPoint rho a b = a + (a - b) / 2 ∧ splitPoint rho a b ∉ uIcc a b ∧
    ∀ x ∈ Ioo (-1 : ℝ) 1,
      1 / 2 * (splitPoint rho a b - a) * x + 1 / 2 * (splitPoint rho a b + a) ∉ uIcc a b := by
  have e : splitPoint rho a b = a + (a - b) / 2 := by
    unfold splitPoint
    simp only
    rw [abs_of_neg (by linarith), if_pos (by linarith)]; ring
  rw [e, uIcc_of_ge hab.le]
  refine ⟨rfl, fun h => by linarith [h.2], ?_⟩
  rintro x ⟨hx1, hx2⟩ ⟨_, h2⟩
  nlinarith

/-- a source of radius 0.1 and a contour point 0.2 below the base point -/
example : splitPoint (1 / 10) 0 (-1 / 5) = 1 / 10 := by
  have := (C99_split_violated (1 / 10) 0 (-1 / 5) (by norm_num) (by norm_num)).1
  rw [this]; norm_num

/-- C99, placement of the nodes, the part that holds: when the contour point lies above the base point, or further
than `4 rho` below it, the split point lies strictly between them, no further than `2 rho` from the contour point, so
that the second rule covers the part near the limb and all nodes lie between base point and contour point. -/
theorem C99_split_partial (rho a b : ℝ) (hrho : 0 < rho) (h : a < b ∨ 4 * rho < a - b) :
    splitPoint rho a b ∈ Ioo (min a b) (max a b) ∧ |b - splitPoint rho a b| ≤ 2 * rho := by
  unfold splitPoint
  simp only
  rcases h with h | h
  · rw [min_eq_left h.le, max_eq_right h.le, abs_of_pos (by linarith : (0 : ℝ) < b - a)]
    split_ifs with h1
    · refine ⟨⟨by linarith, by linarith⟩, ?_⟩
      rw [abs_of_nonneg (by linarith)]; linarith
    · refine ⟨⟨by linarith, by linarith⟩, ?_⟩
      rw [abs_of_nonneg (by linarith)]; linarith
  · have hba : b < a := by linarith
    rw [min_eq_right hba.le, max_eq_left hba.le, abs_of_neg (by linarith : b - a < 0), if_neg (by linarith),
      if_neg (by linarith)]
    refine ⟨⟨by linarith, by linarith⟩, ?_⟩
    rw [show b - (b + 2 * rho) = -(2 * rho) by ring, abs_neg, abs_of_pos (by linarith)]

example := C99_split_partial (1 / 10) 0 1 (by norm_num) (Or.inl (by norm_num))
example := C99_split_partial (1 / 10) 0 (-1) (by norm_num) (Or.inr (by norm_num))

/-! ### The hypotheses are met -/

/-- the brightness profile is a continuous function of the source-plane position -/
theorem continuous_profile (rho : ℝ) (w0 : ℂ) (u1 : ℝ) :
    Continuous fun w : ℂ => Boundary.brightnessProfile (fun z => z) w rho w0 u1 := by
  have e : (fun w : ℂ => Boundary.brightnessProfile (fun z => z) w rho w0 u1) = fun w : ℂ =>
      3 / (3 - u1) * (u1 * (if ‖w - w0‖ / rho ≤ 1 then 1 + Real.sqrt (1 - (‖w - w0‖ / rho) ^ 2)
        else 1 - Real.sqrt (1 - 1 / (max (‖w - w0‖ / rho) 1) ^ 2)) + 1 - 2 * u1) := by
    funext w
    unfold Boundary.brightnessProfile
    simp only
    split_ifs with h
    · rfl
    · rw [max_eq_left (by linarith)]
  rw [e]
  have hr : Continuous fun w : ℂ => ‖w - w0‖ / rho := by fun_prop
  have hif : Continuous fun w : ℂ => if ‖w - w0‖ / rho ≤ 1 then 1 + Real.sqrt (1 - (‖w - w0‖ / rho) ^ 2)
        else 1 - Real.sqrt (1 - 1 / (max (‖w - w0‖ / rho) 1) ^ 2) := by
    apply Continuous.if_le (by fun_prop) _ hr continuous_const
    · intro w hw
      rw [hw]; norm_num
    · refine continuous_const.sub (Real.continuous_sqrt.comp (continuous_const.sub ?_))
      refine continuous_const.div (by fun_prop) (fun w => ?_)
      have : (1 : ℝ) ≤ max (‖w - w0‖ / rho) 1 := le_max_right _ _
      positivity
  fun_prop

/-- the brightness is continuous along every set of image positions that avoids the lens (one lens) -/
theorem continuousOn_profile1 (rho : ℝ) (w0 : ℂ) (u1 : ℝ) (g : ℝ → ℂ) (hg : Continuous g) (s : Set ℝ)
    (hs : ∀ t ∈ s, g t ≠ 0) :
    ContinuousOn (fun t => Boundary.brightnessProfile PointSource.lensEq1 (g t) rho w0 u1) s := by
  have hc : ContinuousOn (fun t => PointSource.lensEq1 (g t)) s := by
    unfold PointSource.lensEq1
    refine hg.continuousOn.sub (continuousOn_const.div (Complex.continuous_conj.comp hg).continuousOn ?_)
    intro t ht h0
    exact hs t ht (by simpa using! h0)
  exact (continuous_profile rho w0 u1).comp_continuousOn hc

/-- the rules exist, and a triangle away from the single lens meets all hypotheses -/
example : ∃ leggauss : ℕ → List (ℝ × ℝ), (∀ n, 1 ≤ n → IsGauss n (leggauss n)) ∧
    ∃ L, Tendsto (fun npts => integrateLd leggauss PointSource.lensEq1 (1 / 10) (1 / 100) (1 / 2) npts
      (closedBuffer [(1, 1), (2, 1), (1, 2)] 4) 3) atTop (𝓝 L) := by
  classical
  have hex : ∀ n : ℕ, ∃ rule, 1 ≤ n → IsGauss n rule := by
    intro n
    by_cases hn : 1 ≤ n
    · obtain ⟨r, hr⟩ := exists_gauss n hn; exact ⟨r, fun _ => hr⟩
    · exact ⟨[], fun h => absurd h hn⟩
  choose lg hlg using hex
  refine ⟨lg, hlg, _, C99_converges lg hlg PointSource.lensEq1 (1 / 10) (1 / 100) (1 / 2) (by norm_num)
    [(1, 1), (2, 1), (1, 2)] (by simp) 4 _ rfl (5 / 4, 5 / 4) ?_ ?_ ?_⟩
  · norm_num [centroid, closedBuffer]
  · intro p hp
    refine continuousOn_profile1 _ _ _ (fun y : ℝ => (p.1 : ℂ) + Complex.I * y) (by fun_prop) _ ?_
    intro t _ h0
    have := congrArg Complex.re h0
    simp at this
    fin_cases hp <;> norm_num at this
  · intro p hp
    refine continuousOn_profile1 _ _ _ (fun x : ℝ => (x : ℂ) + Complex.I * p.2) (by fun_prop) _ ?_
    intro t _ h0
    have := congrArg Complex.im h0
    simp at this
    fin_cases hp <;> norm_num at this

/-- the two-point rule is a Gauss rule -/
example : IsGauss 2 [(-1 / Real.sqrt 3, 1), (1 / Real.sqrt 3, 1)] := by
  refine ⟨rfl, fun p hp => ?_⟩
  have e : ∀ x : ℝ, p.eval x = p.coeff 0 + p.coeff 1 * x ^ 1 + p.coeff 2 * x ^ 2 + p.coeff 3 * x ^ 3 := by
    intro x
    rw [eval_eq_sum_range' (show p.natDegree < 4 by omega)]
    simp [Finset.sum_range_succ]
  have h3 : Real.sqrt 3 ^ 2 = 3 := Real.sq_sqrt (by norm_num)
  rw [intervalIntegral.integral_congr (fun x _ => e x)]
  rw [intervalIntegral.integral_add, intervalIntegral.integral_add, intervalIntegral.integral_add]
  · simp only [intervalIntegral.integral_const_mul, intervalIntegral.integral_const, integral_pow, e,
      List.map_cons, List.map_nil, List.sum_cons, List.sum_nil]
    have h1 : (1 / Real.sqrt 3) ^ 2 = 1 / 3 := by rw [div_pow, h3]; norm_num
    rw [neg_div]
    generalize 1 / Real.sqrt 3 = r at h1
    norm_num
    linear_combination 2 * p.coeff 2 * h1
  all_goals exact Continuous.intervalIntegrable (by fun_prop) _ _

end Microjax.Props
