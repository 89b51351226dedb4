import Mathlib.Analysis.Calculus.ParametricIntervalIntegral
import Mathlib.Analysis.Calculus.MeanValue
import Mathlib.Analysis.SpecialFunctions.Integrals.Basic
import Mathlib.MeasureTheory.Integral.IntervalIntegral.FundThmCalculus

/-!
# Circle and disc means of radial functions

For `F` a function of the squared distance from the origin, the mean over a circle not enclosing the origin satisfies
`(r m')' = r M`, with `M` the mean of the Laplacian `4 (s F'' + F')`.  Applied three times this gives the mean over a disc up
to the sixth power of the radius, with a two-sided remainder.
-/

noncomputable section

namespace Microjax.Props

open MeasureTheory Set

/-- Differentiation under the integral over the circle. -/
theorem diff_circle (a : ℝ) (G G' : ℝ → ℝ → ℝ) (hG : ∀ r ∈ Ioo (-a) a, ∀ θ, HasDerivAt (fun r => G r θ) (G' r θ) r)
    (hc : ∀ r ∈ Ioo (-a) a, Continuous (G r)) (hc' : ContinuousOn (fun p : ℝ × ℝ => G' p.1 p.2) (Ioo (-a) a ×ˢ univ))
    (r : ℝ) (hr : r ∈ Ioo (-a) a) :
    HasDerivAt (fun r => ∫ θ in (0 : ℝ)..2 * Real.pi, G r θ) (∫ θ in (0 : ℝ)..2 * Real.pi, G' r θ) r := by
  obtain ⟨δ, hδ, hball⟩ := Metric.isOpen_iff.mp isOpen_Ioo r hr
  have hsub : Metric.closedBall r (δ / 2) ⊆ Ioo (-a) a :=
    (Metric.closedBall_subset_ball (by linarith)).trans hball
  obtain ⟨C, hC⟩ := ((isCompact_closedBall r (δ / 2)).prod (isCompact_Icc (a := (0 : ℝ)) (b := 2 * Real.pi))).exists_bound_of_continuousOn
    (hc'.mono (prod_mono hsub (subset_univ _)))
  have hcont' : Continuous (G' r) := by
    have : ContinuousOn (fun θ : ℝ => G' r θ) univ :=
      hc'.comp (f := fun θ : ℝ => ((r, θ) : ℝ × ℝ)) (by fun_prop) fun θ _ => ⟨hr, mem_univ _⟩
    exact continuousOn_univ.mp this
  refine (intervalIntegral.hasDerivAt_integral_of_dominated_loc_of_deriv_le
    (μ := volume) (a := 0) (b := 2 * Real.pi) (x₀ := r) (s := Metric.ball r (δ / 2)) (F := G) (F' := G') (bound := fun _ => C)
    (Metric.ball_mem_nhds r (by linarith)) ?_ ((hc r hr).intervalIntegrable _ _) hcont'.aestronglyMeasurable ?_
    intervalIntegrable_const ?_).2
  · filter_upwards [Metric.ball_mem_nhds r (half_pos hδ)] with x hx
    exact (hc x (hsub (Metric.ball_subset_closedBall hx))).aestronglyMeasurable
  · refine Filter.Eventually.of_forall fun θ hθ x hx => ?_
    rw [uIoc_of_le (by positivity)] at hθ
    exact hC (x, θ) ⟨Metric.ball_subset_closedBall hx, hθ.1.le, hθ.2⟩
  · exact Filter.Eventually.of_forall fun θ _ x hx => hG x (hsub (Metric.ball_subset_closedBall hx)) θ

/-- A function below another at the origin and growing more slowly stays below. -/
theorem cmp_up (R : ℝ) (f f' B B' : ℝ → ℝ) (hf : ∀ x ∈ Icc 0 R, HasDerivAt f (f' x) x) (hB : ∀ x, HasDerivAt B (B' x) x)
    (h0 : f 0 ≤ B 0) (h : ∀ x ∈ Icc 0 R, f' x ≤ B' x) : ∀ x ∈ Icc 0 R, f x ≤ B x := by
  intro x hx
  exact image_le_of_deriv_right_le_deriv_boundary (a := 0) (b := R) (fun y hy => (hf y hy).continuousAt.continuousWithinAt)
    (fun y hy => (hf y ⟨hy.1, hy.2.le⟩).hasDerivWithinAt) h0 (fun y _ => (hB y).continuousAt.continuousWithinAt)
    (fun y _ => (hB y).hasDerivWithinAt) (fun y hy => h y ⟨hy.1, hy.2.le⟩) hx

/-- One step of the radial equation `(r p')' = r q`: an upper bound on `q` gives one on `p`. -/
theorem radial_up (R : ℝ) (p p1 q : ℝ → ℝ) (hp : ∀ x ∈ Icc 0 R, HasDerivAt p (p1 x) x) (hp0 : p1 0 = 0)
    (hN : ∀ x ∈ Icc 0 R, HasDerivAt (fun x => x * p1 x) (x * q x) x) (b0 b2 b4 : ℝ)
    (hq : ∀ x ∈ Icc 0 R, q x ≤ b0 + b2 * x ^ 2 + b4 * x ^ 4) :
    ∀ x ∈ Icc 0 R, p x ≤ p 0 + b0 / 4 * x ^ 2 + b2 / 16 * x ^ 4 + b4 / 36 * x ^ 6 := by
  have hpow : ∀ (n : ℕ) (x : ℝ), HasDerivAt (fun x : ℝ => x ^ (n + 1)) ((n + 1 : ℕ) * x ^ n) x := fun n x => by
    simpa using hasDerivAt_pow (n + 1) x
  have h1 : ∀ x ∈ Icc 0 R, x * p1 x ≤ b0 / 2 * x ^ 2 + b2 / 4 * x ^ 4 + b4 / 6 * x ^ 6 := by
    refine cmp_up R _ _ _ (fun x => x * (b0 + b2 * x ^ 2 + b4 * x ^ 4)) hN (fun x => ?_) (by simp)
      (fun x hx => mul_le_mul_of_nonneg_left (hq x hx) hx.1)
    refine ((((hpow 1 x).const_mul (b0 / 2)).fun_add ((hpow 3 x).const_mul (b2 / 4))).fun_add
      ((hpow 5 x).const_mul (b4 / 6))).congr_deriv ?_
    push_cast; ring
  have h2 : ∀ x ∈ Icc 0 R, p1 x ≤ b0 / 2 * x + b2 / 4 * x ^ 3 + b4 / 6 * x ^ 5 := by
    intro x hx
    rcases hx.1.eq_or_lt with h | h
    · rw [← h, hp0]; simp
    · refine le_of_mul_le_mul_left ((h1 x hx).trans_eq ?_) h
      ring
  refine cmp_up R _ _ _ (fun x => b0 / 2 * x + b2 / 4 * x ^ 3 + b4 / 6 * x ^ 5) hp (fun x => ?_) (by simp) h2
  refine (((((hpow 1 x).const_mul (b0 / 4)).const_add (p 0)).fun_add ((hpow 3 x).const_mul (b2 / 16))).fun_add
      ((hpow 5 x).const_mul (b4 / 36))).congr_deriv ?_
  push_cast; ring

/-- The same with lower bounds. -/
theorem radial_down (R : ℝ) (p p1 q : ℝ → ℝ) (hp : ∀ x ∈ Icc 0 R, HasDerivAt p (p1 x) x) (hp0 : p1 0 = 0)
    (hN : ∀ x ∈ Icc 0 R, HasDerivAt (fun x => x * p1 x) (x * q x) x) (b0 b2 b4 : ℝ)
    (hq : ∀ x ∈ Icc 0 R, b0 + b2 * x ^ 2 + b4 * x ^ 4 ≤ q x) :
    ∀ x ∈ Icc 0 R, p 0 + b0 / 4 * x ^ 2 + b2 / 16 * x ^ 4 + b4 / 36 * x ^ 6 ≤ p x := by
  intro x hx
  have := radial_up R (fun x => -p x) (fun x => -p1 x) (fun x => -q x) (fun x hx => (hp x hx).fun_neg) (by rw [hp0, neg_zero])
    (fun x hx => by
      refine ((hN x hx).fun_neg.congr_deriv (by ring)).congr_of_eventuallyEq (Filter.Eventually.of_forall fun y => by ring))
    (-b0) (-b2) (-b4) (fun x hx => by have := hq x hx; nlinarith) x hx
  linarith

/-- The squared distance from the origin of the point at angle `θ` of the circle of radius `r` about `(x, y)`. -/
def ringSq (x y r θ : ℝ) : ℝ := (x + r * Real.cos θ) ^ 2 + (y + r * Real.sin θ) ^ 2

theorem ringSq_pos (x y r θ : ℝ) (h : r ^ 2 < x ^ 2 + y ^ 2) : 0 < ringSq x y r θ := by
  unfold ringSq
  by_contra hc
  have h1 : x + r * Real.cos θ = 0 := by
    by_contra h; have := pow_pos (abs_pos.mpr h) 2; rw [sq_abs] at this
    nlinarith [sq_nonneg (y + r * Real.sin θ)]
  have h2 : y + r * Real.sin θ = 0 := by
    by_contra h; have := pow_pos (abs_pos.mpr h) 2; rw [sq_abs] at this
    nlinarith [sq_nonneg (x + r * Real.cos θ)]
  have : x ^ 2 + y ^ 2 = r ^ 2 := by
    have e1 : x = -(r * Real.cos θ) := by linarith
    have e2 : y = -(r * Real.sin θ) := by linarith
    rw [e1, e2]
    linear_combination r ^ 2 * Real.sin_sq_add_cos_sq θ
  linarith

/-- `F`, `F1`, `F2` are a function on the positive reals with its first two derivatives. -/
structure Twice (F F1 F2 : ℝ → ℝ) : Prop where
  d1 : ∀ s, 0 < s → HasDerivAt F (F1 s) s
  d2 : ∀ s, 0 < s → HasDerivAt F1 (F2 s) s
  cont : ContinuousOn F2 (Ioi 0)

/-- Laplacian of a function of the squared distance. -/
def radLap (F1 F2 : ℝ → ℝ) (s : ℝ) : ℝ := 4 * (s * F2 s + F1 s)

/-- The integral over the circle. -/
def circ (F : ℝ → ℝ) (x y r : ℝ) : ℝ := ∫ θ in (0 : ℝ)..2 * Real.pi, F (ringSq x y r θ)

/-- The integral over the circle of the derivative along the radius. -/
def ringD (F1 : ℝ → ℝ) (x y r : ℝ) : ℝ :=
  ∫ θ in (0 : ℝ)..2 * Real.pi, F1 (ringSq x y r θ) * (2 * (x * Real.cos θ + y * Real.sin θ + r))

theorem ringSq_r (x y r θ : ℝ) :
    HasDerivAt (fun r => ringSq x y r θ) (2 * (x * Real.cos θ + y * Real.sin θ + r)) r := by
  unfold ringSq
  have h1 : HasDerivAt (fun r : ℝ => x + r * Real.cos θ) (Real.cos θ) r := by
    simpa using ((hasDerivAt_id r).mul_const (Real.cos θ)).const_add x
  have h2 : HasDerivAt (fun r : ℝ => y + r * Real.sin θ) (Real.sin θ) r := by
    simpa using ((hasDerivAt_id r).mul_const (Real.sin θ)).const_add y
  refine ((h1.fun_pow 2).fun_add (h2.fun_pow 2)).congr_deriv ?_
  push_cast
  linear_combination 2 * r * Real.sin_sq_add_cos_sq θ

theorem ringSq_t (x y r θ : ℝ) :
    HasDerivAt (fun θ => ringSq x y r θ) (r * (2 * (y * Real.cos θ - x * Real.sin θ))) θ := by
  unfold ringSq
  have h1 := ((Real.hasDerivAt_cos θ).const_mul r).const_add x
  have h2 := ((Real.hasDerivAt_sin θ).const_mul r).const_add y
  refine ((h1.fun_pow 2).fun_add (h2.fun_pow 2)).congr_deriv ?_
  push_cast
  ring

section
variable {F F1 F2 : ℝ → ℝ} (h : Twice F F1 F2) (x y a : ℝ) (ha : 0 ≤ a) (hxy : a ^ 2 ≤ x ^ 2 + y ^ 2)
include h ha hxy

omit h in
theorem ring_in (r : ℝ) (hr : r ∈ Ioo (-a) a) : r ^ 2 < x ^ 2 + y ^ 2 :=
  lt_of_lt_of_le (sq_lt_sq' hr.1 hr.2) hxy

omit h in
theorem ring_contOn {H : ℝ → ℝ} (hH : ContinuousOn H (Ioi 0)) :
    ContinuousOn (fun p : ℝ × ℝ => H (ringSq x y p.1 p.2)) (Ioo (-a) a ×ˢ univ) := by
  refine hH.comp (by unfold ringSq; fun_prop) fun p hp => ?_
  exact ringSq_pos x y p.1 p.2 (ring_in x y a ha hxy p.1 hp.1)

omit h in
theorem ring_cont {H : ℝ → ℝ} (hH : ContinuousOn H (Ioi 0)) (r : ℝ) (hr : r ∈ Ioo (-a) a) :
    Continuous fun θ => H (ringSq x y r θ) :=
  continuousOn_univ.mp ((ring_contOn x y a ha hxy hH).comp (f := fun θ : ℝ => ((r, θ) : ℝ × ℝ)) (by fun_prop)
    fun θ _ => ⟨hr, mem_univ _⟩)

omit ha hxy in
theorem Twice.c0 : ContinuousOn F (Ioi 0) := fun s hs => (h.d1 s hs).continuousAt.continuousWithinAt
omit ha hxy in
theorem Twice.c1 : ContinuousOn F1 (Ioi 0) := fun s hs => (h.d2 s hs).continuousAt.continuousWithinAt

theorem ring_deriv (r : ℝ) (hr : r ∈ Ioo (-a) a) : HasDerivAt (circ F x y) (ringD F1 x y r) r := by
  refine diff_circle a (fun r θ => F (ringSq x y r θ))
    (fun r θ => F1 (ringSq x y r θ) * (2 * (x * Real.cos θ + y * Real.sin θ + r))) (fun r hr θ => ?_) (fun r hr => ring_cont x y a ha hxy h.c0 r hr) ?_ r hr
  · exact (h.d1 _ (ringSq_pos x y r θ (ring_in x y a ha hxy r hr))).comp r (ringSq_r x y r θ)
  · exact (ring_contOn x y a ha hxy h.c1).mul (by fun_prop)

theorem ring_flux (r : ℝ) (hr : r ∈ Ioo (-a) a) :
    HasDerivAt (fun r => r * ringD F1 x y r) (r * circ (radLap F1 F2) x y r) r := by
  obtain ⟨σ, hσ⟩ : ∃ σ : ℝ → ℝ → ℝ, σ = fun r θ => 2 * (x * Real.cos θ + y * Real.sin θ + r) := ⟨_, rfl⟩
  obtain ⟨τ, hτ⟩ : ∃ τ : ℝ → ℝ, τ = fun θ => 2 * (y * Real.cos θ - x * Real.sin θ) := ⟨_, rfl⟩
  have hD : HasDerivAt (fun r => ∫ θ in (0 : ℝ)..2 * Real.pi, r * (F1 (ringSq x y r θ) * σ r θ))
      (∫ θ in (0 : ℝ)..2 * Real.pi, (F1 (ringSq x y r θ) * σ r θ
        + r * (F2 (ringSq x y r θ) * σ r θ * σ r θ + F1 (ringSq x y r θ) * 2))) r := by
    refine diff_circle a (fun r θ => r * (F1 (ringSq x y r θ) * σ r θ)) (fun r θ => F1 (ringSq x y r θ) * σ r θ
        + r * (F2 (ringSq x y r θ) * σ r θ * σ r θ + F1 (ringSq x y r θ) * 2)) (fun r hr θ => ?_) (fun r hr => ?_) ?_ r hr
    · have e1 := (h.d2 _ (ringSq_pos x y r θ (ring_in x y a ha hxy r hr))).comp r (ringSq_r x y r θ)
      have e2 : HasDerivAt (fun r => σ r θ) 2 r := by
        rw [hσ]
        simpa using ((hasDerivAt_id r).const_add (x * Real.cos θ + y * Real.sin θ)).const_mul 2
      refine ((hasDerivAt_id' r).fun_mul (e1.fun_mul e2)).congr_deriv ?_
      simp only [Function.comp_apply, hσ]
      ring
    · have := ring_cont x y a ha hxy h.c1 r hr
      have cσ : Continuous (σ r) := by rw [hσ]; fun_prop
      exact continuous_const.mul (this.mul cσ)
    · have e1 := ring_contOn x y a ha hxy h.c1
      have e2 := ring_contOn x y a ha hxy h.cont
      have e3 : ContinuousOn (fun p : ℝ × ℝ => σ p.1 p.2) (Ioo (-a) a ×ˢ univ) := by rw [hσ]; fun_prop
      exact (e1.mul e3).add (continuousOn_fst.mul (((e2.mul e3).mul e3).add (e1.mul continuousOn_const)))
  have hfun : (fun r => r * ringD F1 x y r) = fun r => ∫ θ in (0 : ℝ)..2 * Real.pi, r * (F1 (ringSq x y r θ) * σ r θ) := by
    funext r
    rw [intervalIntegral.integral_const_mul, hσ]
    rfl
  rw [hfun]
  refine hD.congr_deriv ?_
  have c1 := ring_cont x y a ha hxy h.c1 r hr
  have c2 := ring_cont x y a ha hxy h.cont r hr
  have cτ : Continuous τ := by rw [hτ]; fun_prop
  have cσ : Continuous (σ r) := by rw [hσ]; fun_prop
  -- the part along the circle integrates to zero
  have hang : ∫ θ in (0 : ℝ)..2 * Real.pi, (F2 (ringSq x y r θ) * (r * τ θ) * τ θ + F1 (ringSq x y r θ) * (2 * r - σ r θ)) = 0 := by
    have hd : ∀ θ ∈ uIcc 0 (2 * Real.pi), HasDerivAt (fun θ => F1 (ringSq x y r θ) * τ θ)
        (F2 (ringSq x y r θ) * (r * τ θ) * τ θ + F1 (ringSq x y r θ) * (2 * r - σ r θ)) θ := by
      intro θ _
      have e1 := (h.d2 _ (ringSq_pos x y r θ (ring_in x y a ha hxy r hr))).comp θ (ringSq_t x y r θ)
      have e2 : HasDerivAt τ (2 * r - σ r θ) θ := by
        rw [hτ, hσ]
        refine ((((Real.hasDerivAt_cos θ).const_mul y).fun_sub ((Real.hasDerivAt_sin θ).const_mul x)).const_mul 2).congr_deriv ?_
        ring
      refine (e1.fun_mul e2).congr_deriv ?_
      simp only [Function.comp_apply, hτ]
    rw [intervalIntegral.integral_eq_sub_of_hasDerivAt hd (Continuous.intervalIntegrable
      (((c2.mul (continuous_const.mul cτ)).mul cτ).add (c1.mul (continuous_const.sub cσ))) _ _)]
    simp [ringSq, hτ]
  have hR : r * circ (radLap F1 F2) x y r = ∫ θ in (0 : ℝ)..2 * Real.pi, r * radLap F1 F2 (ringSq x y r θ) := by
    rw [intervalIntegral.integral_const_mul]; rfl
  have cs : Continuous fun θ => ringSq x y r θ := by unfold ringSq; fun_prop
  have i1 : Continuous fun θ => F1 (ringSq x y r θ) * σ r θ + r * (F2 (ringSq x y r θ) * σ r θ * σ r θ + F1 (ringSq x y r θ) * 2) :=
    (c1.mul cσ).add (continuous_const.mul (((c2.mul cσ).mul cσ).add (c1.mul continuous_const)))
  have i2 : Continuous fun θ => r * radLap F1 F2 (ringSq x y r θ) :=
    continuous_const.mul (continuous_const.mul ((cs.mul c2).add c1))
  rw [hR, ← sub_eq_zero, ← intervalIntegral.integral_sub (i1.intervalIntegrable _ _) (i2.intervalIntegrable _ _), ← neg_eq_zero,
    ← intervalIntegral.integral_neg]
  refine Eq.trans ?_ hang
  refine intervalIntegral.integral_congr fun θ _ => ?_
  have key : σ r θ ^ 2 + τ θ ^ 2 = 4 * ringSq x y r θ := by
    rw [hσ, hτ]; unfold ringSq
    linear_combination (4 * x ^ 2 + 4 * y ^ 2 - 4 * r ^ 2) * Real.sin_sq_add_cos_sq θ
  simp only [radLap]
  linear_combination -r * F2 (ringSq x y r θ) * key

omit h ha hxy in
theorem ringD_zero : ringD F1 x y 0 = 0 := by
  unfold ringD ringSq
  simp only [zero_mul, add_zero]
  rw [intervalIntegral.integral_const_mul, intervalIntegral.integral_const_mul, intervalIntegral.integral_add
    (Continuous.intervalIntegrable (by fun_prop) _ _) (Continuous.intervalIntegrable (by fun_prop) _ _),
    intervalIntegral.integral_const_mul, intervalIntegral.integral_const_mul, integral_cos, integral_sin]
  simp

omit h ha hxy in
theorem ring_zero : circ F x y 0 = 2 * Real.pi * F (x ^ 2 + y ^ 2) := by
  simp [circ, ringSq]

end

/-- Three applications: the integral over the circle up to the sixth power of the radius. -/
theorem ring_expansion (F F1 F2 G1 G2 H1 H2 : ℝ → ℝ) (hF : Twice F F1 F2) (hG : Twice (radLap F1 F2) G1 G2)
    (hH : Twice (radLap G1 G2) H1 H2) (x y a R k K : ℝ) (hR : R < a) (hR0 : 0 ≤ R) (hxy : a ^ 2 ≤ x ^ 2 + y ^ 2)
    (hk : ∀ r ∈ Icc 0 R, ∀ θ, k ≤ radLap H1 H2 (ringSq x y r θ)) (hK : ∀ r ∈ Icc 0 R, ∀ θ, radLap H1 H2 (ringSq x y r θ) ≤ K) :
    ∀ r ∈ Icc 0 R, 2 * Real.pi * (k / 2304 * r ^ 6) ≤ circ F x y r - 2 * Real.pi * (F (x ^ 2 + y ^ 2)
        + radLap F1 F2 (x ^ 2 + y ^ 2) / 4 * r ^ 2 + radLap G1 G2 (x ^ 2 + y ^ 2) / 64 * r ^ 4) ∧
      circ F x y r - 2 * Real.pi * (F (x ^ 2 + y ^ 2)
        + radLap F1 F2 (x ^ 2 + y ^ 2) / 4 * r ^ 2 + radLap G1 G2 (x ^ 2 + y ^ 2) / 64 * r ^ 4) ≤ 2 * Real.pi * (K / 2304 * r ^ 6) := by
  have ha : 0 ≤ a := by linarith
  have hp := Real.pi_pos
  have hin : ∀ r ∈ Icc 0 R, r ∈ Ioo (-a) a := fun r hr => ⟨by linarith [hr.1], by linarith [hr.2]⟩
  have cL : ContinuousOn (radLap H1 H2) (Ioi 0) := by
    have e1 := hH.c1
    have e2 := hH.cont
    unfold radLap
    fun_prop
  have hint : ∀ r ∈ Icc 0 R, IntervalIntegrable (fun θ => radLap H1 H2 (ringSq x y r θ)) volume 0 (2 * Real.pi) := fun r hr =>
    (ring_cont x y a ha hxy cL r (hin r hr)).intervalIntegrable _ _
  have u3 : ∀ r ∈ Icc 0 R, circ (radLap H1 H2) x y r ≤ 2 * Real.pi * K + 0 * r ^ 2 + 0 * r ^ 4 := by
    intro r hr
    have := intervalIntegral.integral_mono_on (a := 0) (b := 2 * Real.pi) (by positivity) (hint r hr)
      (intervalIntegrable_const (c := K)) fun θ _ => hK r hr θ
    rw [intervalIntegral.integral_const, smul_eq_mul, sub_zero] at this
    unfold circ; linarith
  have l3 : ∀ r ∈ Icc 0 R, 2 * Real.pi * k + 0 * r ^ 2 + 0 * r ^ 4 ≤ circ (radLap H1 H2) x y r := by
    intro r hr
    have := intervalIntegral.integral_mono_on (a := 0) (b := 2 * Real.pi) (by positivity) 
      (intervalIntegrable_const (c := k)) (hint r hr) fun θ _ => hk r hr θ
    rw [intervalIntegral.integral_const, smul_eq_mul, sub_zero] at this
    unfold circ; linarith
  have d : ∀ {F F1 F2 : ℝ → ℝ}, Twice F F1 F2 → ∀ r ∈ Icc 0 R, HasDerivAt (circ F x y) (ringD F1 x y r) r :=
    fun h r hr => ring_deriv h x y a ha hxy r (hin r hr)
  have f : ∀ {F F1 F2 : ℝ → ℝ}, Twice F F1 F2 → ∀ r ∈ Icc 0 R,
      HasDerivAt (fun r => r * ringD F1 x y r) (r * circ (radLap F1 F2) x y r) r :=
    fun h r hr => ring_flux h x y a ha hxy r (hin r hr)
  have z : ∀ {F F1 F2 : ℝ → ℝ}, Twice F F1 F2 → ringD F1 x y 0 = 0 := fun h => ringD_zero x y
  have v : ∀ {F F1 F2 : ℝ → ℝ}, Twice F F1 F2 → circ F x y 0 = 2 * Real.pi * F (x ^ 2 + y ^ 2) := fun h => ring_zero x y
  have u2 := radial_up R _ _ _ (d hH) (z hH) (f hH) _ _ _ u3
  have l2 := radial_down R _ _ _ (d hH) (z hH) (f hH) _ _ _ l3
  have u1 := radial_up R _ _ _ (d hG) (z hG) (f hG) (2 * Real.pi * radLap G1 G2 (x ^ 2 + y ^ 2)) (2 * Real.pi * K / 4) 0
    fun r hr => (u2 r hr).trans_eq (by rw [v hH]; ring)
  have l1 := radial_down R _ _ _ (d hG) (z hG) (f hG) (2 * Real.pi * radLap G1 G2 (x ^ 2 + y ^ 2)) (2 * Real.pi * k / 4) 0
    fun r hr => (Eq.le (by rw [v hH]; ring)).trans (l2 r hr)
  have u0 := radial_up R _ _ _ (d hF) (z hF) (f hF) (2 * Real.pi * radLap F1 F2 (x ^ 2 + y ^ 2))
    (2 * Real.pi * radLap G1 G2 (x ^ 2 + y ^ 2) / 4) (2 * Real.pi * K / 64)
    fun r hr => (u1 r hr).trans_eq (by rw [v hG]; ring)
  have l0 := radial_down R _ _ _ (d hF) (z hF) (f hF) (2 * Real.pi * radLap F1 F2 (x ^ 2 + y ^ 2))
    (2 * Real.pi * radLap G1 G2 (x ^ 2 + y ^ 2) / 4) (2 * Real.pi * k / 64)
    fun r hr => (Eq.le (by rw [v hG]; ring)).trans (l1 r hr)
  intro r hr
  have e1 := u0 r hr
  have e2 := l0 r hr
  rw [v hF] at e1 e2
  constructor <;> linarith

end Microjax.Props
