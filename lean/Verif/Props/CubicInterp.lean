import Verif.Model.ExtendedSource
import Mathlib.Algebra.Polynomial.Eval.Degree
import Mathlib.Topology.Order.Lattice
import Mathlib.Topology.Algebra.Field
import Mathlib.Topology.Instances.Real.Lemmas

/-! # C32: `cubic_interp` is the four-point Lagrange interpolant -/

namespace Microjax.Props

open ExtendedSource

section
variable {K : Type*} [Field K] [LinearOrder K] [IsStrictOrderedRing K]

/-- The textbook Lagrange interpolant through four points, written without the model's rescaling. -/
def lagrange4 (x x0 x1 x2 x3 y0 y1 y2 y3 : K) : K :=
  y0 * ((x - x1) * (x - x2) * (x - x3) / ((x0 - x1) * (x0 - x2) * (x0 - x3))) +
  y1 * ((x - x0) * (x - x2) * (x - x3) / ((x1 - x0) * (x1 - x2) * (x1 - x3))) +
  y2 * ((x - x0) * (x - x1) * (x - x3) / ((x2 - x0) * (x2 - x1) * (x2 - x3))) +
  y3 * ((x - x0) * (x - x1) * (x - x2) / ((x3 - x0) * (x3 - x1) * (x3 - x2)))

omit [LinearOrder K] [IsStrictOrderedRing K] in
theorem basis_scale (m s a b c d e f : K) (hs : s ≠ 0) :
    ((a - m) / s - (b - m) / s) * ((a - m) / s - (c - m) / s) * ((a - m) / s - (d - m) / s) /
      (((e - m) / s - (b - m) / s + 0) * ((e - m) / s - (c - m) / s + 0) * ((e - m) / s - (f - m) / s + 0))
    = (a - b) * (a - c) * (a - d) / ((e - b) * (e - c) * (e - f)) := by
  simp only [← sub_div, sub_sub_sub_cancel_right, add_zero]
  rw [div_mul_div_comm, div_mul_div_comm, div_mul_div_comm, div_mul_div_comm,
    div_div_div_cancel_right₀ (by simp [hs])]

theorem cubicCore_eq (lo hi x x0 x1 x2 x3 y0 y1 y2 y3 : K) (h : lo < hi) :
    cubicCore lo hi 0 x x0 x1 x2 x3 y0 y1 y2 y3 = lagrange4 x x0 x1 x2 x3 y0 y1 y2 y3 := by
  have hs : max (hi - lo) 0 ≠ 0 := by rw [max_eq_left (by linarith)]; linarith
  simp only [cubicCore, lagrange4]
  rw [basis_scale _ _ _ _ _ _ _ _ hs, basis_scale _ _ _ _ _ _ _ _ hs, basis_scale _ _ _ _ _ _ _ _ hs,
    basis_scale _ _ _ _ _ _ _ _ hs]

omit [IsStrictOrderedRing K] in
theorem amin4_lt_amax4 (x0 x1 x2 x3 : K) (h : x0 ≠ x1) :
    Jnp.amin [x0, x1, x2, x3] < Jnp.amax [x0, x1, x2, x3] := by
  simp only [Jnp.amin, Jnp.amax, List.foldl_cons, List.foldl_nil]
  rcases lt_or_gt_of_ne h with h | h
  · exact lt_of_le_of_lt ((min_le_left _ _).trans ((min_le_left _ _).trans (min_le_left _ _)))
      (lt_of_lt_of_le h (le_trans (le_max_right _ _) ((le_max_left _ _).trans (le_max_left _ _))))
  · exact lt_of_le_of_lt ((min_le_left _ _).trans ((min_le_left _ _).trans (min_le_right _ _)))
      (lt_of_lt_of_le h (le_trans (le_max_left _ _) ((le_max_left _ _).trans (le_max_left _ _))))

/-- **C32**: with four distinct abscissae and no epsilon, `cubic_interp` reproduces every polynomial of degree at
most three. -/
theorem C32_reproduces_cubics (P : Polynomial K) (hP : P.natDegree ≤ 3) (x x0 x1 x2 x3 : K) (h01 : x0 ≠ x1)
    (h02 : x0 ≠ x2) (h03 : x0 ≠ x3) (h12 : x1 ≠ x2) (h13 : x1 ≠ x3) (h23 : x2 ≠ x3) :
    cubicInterp x x0 x1 x2 x3 (P.eval x0) (P.eval x1) (P.eval x2) (P.eval x3) 0 = P.eval x := by
  have e : ∀ t, P.eval t = P.coeff 0 + P.coeff 1 * t + P.coeff 2 * t ^ 2 + P.coeff 3 * t ^ 3 := by
    intro t
    rw [Polynomial.eval_eq_sum_range' (n := 4) (by omega)]
    simp [Finset.sum_range_succ]
  rw [cubicInterp, cubicCore_eq _ _ _ _ _ _ _ _ _ _ _ (amin4_lt_amax4 _ _ _ _ h01)]
  simp only [e, lagrange4]
  have d01 := sub_ne_zero.mpr h01
  have d02 := sub_ne_zero.mpr h02
  have d03 := sub_ne_zero.mpr h03
  have d12 := sub_ne_zero.mpr h12
  have d13 := sub_ne_zero.mpr h13
  have d23 := sub_ne_zero.mpr h23
  have r1 : x1 - x0 = -(x0 - x1) := by ring
  have r2 : x2 - x0 = -(x0 - x2) := by ring
  have r3 : x3 - x0 = -(x0 - x3) := by ring
  have r4 : x2 - x1 = -(x1 - x2) := by ring
  have r5 : x3 - x1 = -(x1 - x3) := by ring
  have r6 : x3 - x2 = -(x2 - x3) := by ring
  rw [r1, r2, r3, r4, r5, r6]
  field_simp
  ring

/-- **C32**: it passes through the four points, whatever the ordinates. -/
theorem C32_nodes (x0 x1 x2 x3 y0 y1 y2 y3 : K) (h01 : x0 ≠ x1)
    (h02 : x0 ≠ x2) (h03 : x0 ≠ x3) (h12 : x1 ≠ x2) (h13 : x1 ≠ x3) (h23 : x2 ≠ x3) :
    cubicInterp x0 x0 x1 x2 x3 y0 y1 y2 y3 0 = y0 ∧ cubicInterp x1 x0 x1 x2 x3 y0 y1 y2 y3 0 = y1 ∧
    cubicInterp x2 x0 x1 x2 x3 y0 y1 y2 y3 0 = y2 ∧ cubicInterp x3 x0 x1 x2 x3 y0 y1 y2 y3 0 = y3 := by
  simp only [cubicInterp, cubicCore_eq _ _ _ _ _ _ _ _ _ _ _ (amin4_lt_amax4 _ _ _ _ h01), lagrange4, sub_self,
    zero_mul, mul_zero, zero_div, add_zero, zero_add]
  refine ⟨?_, ?_, ?_, ?_⟩
  · rw [div_self (by simp [sub_ne_zero, h01, h02, h03]), mul_one]
  · rw [div_self (by simp [sub_ne_zero, h01.symm, h12, h13]), mul_one]
  · rw [div_self (by simp [sub_ne_zero, h02.symm, h12.symm, h23]), mul_one]
  · rw [div_self (by simp [sub_ne_zero, h03.symm, h13.symm, h23.symm]), mul_one]

/-- **C32**: an affine change of the abscissae (of either orientation) does not change the value. -/
theorem C32_affine (c d x x0 x1 x2 x3 y0 y1 y2 y3 : K) (hc : c ≠ 0) (h01 : x0 ≠ x1) :
    cubicInterp (c * x + d) (c * x0 + d) (c * x1 + d) (c * x2 + d) (c * x3 + d) y0 y1 y2 y3 0 =
      cubicInterp x x0 x1 x2 x3 y0 y1 y2 y3 0 := by
  have h' : c * x0 + d ≠ c * x1 + d := fun h => h01 (mul_left_cancel₀ hc (add_right_cancel h))
  rw [cubicInterp, cubicInterp, cubicCore_eq _ _ _ _ _ _ _ _ _ _ _ (amin4_lt_amax4 _ _ _ _ h01),
    cubicCore_eq _ _ _ _ _ _ _ _ _ _ _ (amin4_lt_amax4 _ _ _ _ h')]
  have e : ∀ p q r s t v : K, (c * p + d - (c * q + d)) * (c * p + d - (c * r + d)) * (c * p + d - (c * s + d)) /
      ((c * t + d - (c * q + d)) * (c * t + d - (c * r + d)) * (c * t + d - (c * v + d))) =
      (p - q) * (p - r) * (p - s) / ((t - q) * (t - r) * (t - v)) := by
    intro p q r s t v
    have : ∀ p q : K, c * p + d - (c * q + d) = c * (p - q) := fun p q => by ring
    simp only [this]
    rw [show c * (p - q) * (c * (p - r)) * (c * (p - s)) = c ^ 3 * ((p - q) * (p - r) * (p - s)) by ring,
      show c * (t - q) * (c * (t - r)) * (c * (t - v)) = c ^ 3 * ((t - q) * (t - r) * (t - v)) by ring,
      mul_div_mul_left _ _ (pow_ne_zero 3 hc)]
  simp only [lagrange4, e]

omit [Field K] [IsStrictOrderedRing K] in
theorem foldl_min_le (l : List K) (x : K) : l.foldl min x ≤ x ∧ ∀ y ∈ l, l.foldl min x ≤ y := by
  induction l generalizing x with
  | nil => simp
  | cons z l ih =>
    obtain ⟨h1, h2⟩ := ih (min x z)
    refine ⟨h1.trans (min_le_left _ _), fun y hy => ?_⟩
    rcases List.mem_cons.mp hy with rfl | hy
    · exact h1.trans (min_le_right _ _)
    · exact h2 y hy

omit [Field K] [IsStrictOrderedRing K] in
theorem le_foldl_max (l : List K) (x : K) : x ≤ l.foldl max x ∧ ∀ y ∈ l, y ≤ l.foldl max x := by
  induction l generalizing x with
  | nil => simp
  | cons z l ih =>
    obtain ⟨h1, h2⟩ := ih (max x z)
    refine ⟨(le_max_left _ _).trans h1, fun y hy => ?_⟩
    rcases List.mem_cons.mp hy with rfl | hy
    · exact (le_max_right _ _).trans h1
    · exact h2 y hy

omit [IsStrictOrderedRing K] in
theorem amin_lt_amax (l : List K) (x y : K) (hx : x ∈ l) (hy : y ∈ l) (h : x ≠ y) : Jnp.amin l < Jnp.amax l := by
  cases l with
  | nil => simp at hx
  | cons z l =>
    simp only [Jnp.amin, Jnp.amax]
    have lo : ∀ t ∈ z :: l, l.foldl min z ≤ t := by
      intro t ht
      rcases List.mem_cons.mp ht with rfl | ht
      · exact (foldl_min_le l _).1
      · exact (foldl_min_le l _).2 t ht
    have hi : ∀ t ∈ z :: l, t ≤ l.foldl max z := by
      intro t ht
      rcases List.mem_cons.mp ht with rfl | ht
      · exact (le_foldl_max l _).1
      · exact (le_foldl_max l _).2 t ht
    rcases lt_or_gt_of_ne h with h | h
    · exact lt_of_le_of_lt (lo x hx) (lt_of_lt_of_le h (hi y hy))
    · exact lt_of_le_of_lt (lo y hy) (lt_of_lt_of_le h (hi x hx))

/-- **C32** for the array call of `_process_r`: with no epsilon the common minimum and maximum of all cells do not
matter; each cell holds the four-point interpolant of its own distances. -/
theorem C32_array (x : K) (d0 d1 d2 d3 : List K) (y0 y1 y2 y3 : K) (j : ℕ) (h0 : j < d0.length) (h1 : j < d1.length)
    (h2 : j < d2.length) (h3 : j < d3.length) (hne : d0[j] ≠ d1[j]) :
    (cubicInterpArray x d0 d1 d2 d3 y0 y1 y2 y3 0)[j]? =
      some (cubicInterp x d0[j] d1[j] d2[j] d3[j] y0 y1 y2 y3 0) := by
  have hlt : Jnp.amin (d0 ++ d1 ++ d2 ++ d3) < Jnp.amax (d0 ++ d1 ++ d2 ++ d3) :=
    amin_lt_amax _ d0[j] d1[j] (by simp) (by simp) hne
  have hlen : j < ((d0.zip d1).zip (d2.zip d3)).length := by simp; omega
  simp only [cubicInterpArray, List.getElem?_map, List.getElem?_eq_getElem hlen, Option.map_some,
    List.getElem_zip, Option.some.injEq]
  rw [cubicInterp, cubicCore_eq _ _ _ _ _ _ _ _ _ _ _ hlt,
    cubicCore_eq _ _ _ _ _ _ _ _ _ _ _ (amin4_lt_amax4 _ _ _ _ hne)]

end

/-- **C32** with the code's epsilon: as epsilon tends to zero the value tends to the interpolating polynomial's. -/
theorem C32_epsilon_limit (P : Polynomial ℝ) (hP : P.natDegree ≤ 3) (x x0 x1 x2 x3 : ℝ) (h01 : x0 ≠ x1)
    (h02 : x0 ≠ x2) (h03 : x0 ≠ x3) (h12 : x1 ≠ x2) (h13 : x1 ≠ x3) (h23 : x2 ≠ x3) :
    Filter.Tendsto (fun eps => cubicInterp x x0 x1 x2 x3 (P.eval x0) (P.eval x1) (P.eval x2) (P.eval x3) eps)
      (nhds 0) (nhds (P.eval x)) := by
  rw [← C32_reproduces_cubics P hP x x0 x1 x2 x3 h01 h02 h03 h12 h13 h23]
  have hlt := amin4_lt_amax4 x0 x1 x2 x3 h01
  have key : ContinuousAt (fun eps => cubicInterp x x0 x1 x2 x3 (P.eval x0) (P.eval x1) (P.eval x2) (P.eval x3) eps) 0 := by
    unfold cubicInterp
    generalize Jnp.amin [x0, x1, x2, x3] = lo at *
    generalize Jnp.amax [x0, x1, x2, x3] = hi at *
    have hs : max (hi - lo) 0 ≠ 0 := by rw [max_eq_left (by linarith)]; linarith
    have hsub : ∀ a b : ℝ, a ≠ b → (a - lo) / max (hi - lo) 0 - (b - lo) / max (hi - lo) 0 + 0 ≠ 0 := by
      intro a b hab
      rw [← sub_div, sub_sub_sub_cancel_right, add_zero]
      exact div_ne_zero (sub_ne_zero.mpr hab) hs
    have hcs : ContinuousAt (fun e : ℝ => max (hi - lo) e) 0 := continuousAt_const.max continuousAt_id
    have hc : ∀ a : ℝ, ContinuousAt (fun e : ℝ => (a - lo) / max (hi - lo) e) 0 :=
      fun a => continuousAt_const.div hcs hs
    have hcd : ∀ a b : ℝ, ContinuousAt (fun e : ℝ => (a - lo) / max (hi - lo) e - (b - lo) / max (hi - lo) e) 0 :=
      fun a b => (hc a).sub (hc b)
    have hce : ∀ a b : ℝ, ContinuousAt (fun e : ℝ => (a - lo) / max (hi - lo) e - (b - lo) / max (hi - lo) e + e) 0 :=
      fun a b => (hcd a b).add continuousAt_id
    have hL : ∀ a b c d e f g : ℝ, d ≠ e → d ≠ f → d ≠ g → ContinuousAt (fun t : ℝ =>
        ((x - lo) / max (hi - lo) t - (a - lo) / max (hi - lo) t) * ((x - lo) / max (hi - lo) t - (b - lo) / max (hi - lo) t)
          * ((x - lo) / max (hi - lo) t - (c - lo) / max (hi - lo) t) /
        (((d - lo) / max (hi - lo) t - (e - lo) / max (hi - lo) t + t) * ((d - lo) / max (hi - lo) t - (f - lo) / max (hi - lo) t + t)
          * ((d - lo) / max (hi - lo) t - (g - lo) / max (hi - lo) t + t))) 0 := by
      intro a b c d e f g h1 h2 h3
      exact (((hcd x a).mul (hcd x b)).mul (hcd x c)).div (((hce d e).mul (hce d f)).mul (hce d g))
        (mul_ne_zero (mul_ne_zero (hsub _ _ h1) (hsub _ _ h2)) (hsub _ _ h3))
    unfold cubicCore
    exact (((continuousAt_const.mul (hL _ _ _ _ _ _ _ h01 h02 h03)).add
      (continuousAt_const.mul (hL _ _ _ _ _ _ _ h01.symm h12 h13))).add
      (continuousAt_const.mul (hL _ _ _ _ _ _ _ h02.symm h12.symm h23))).add
      (continuousAt_const.mul (hL _ _ _ _ _ _ _ h03.symm h13.symm h23.symm))
  exact key.tendsto

/-- A concrete case: crossing of a quadratic distance profile, at unequally spaced nodes. -/
example : cubicInterp (2 : ℚ) 0 1 3 4 0 1 9 16 0 = 4 ∧ (0 : ℚ) ≠ 1 ∧ (0 : ℚ) ≠ 3 ∧ (0 : ℚ) ≠ 4 ∧ (1 : ℚ) ≠ 3 ∧
    (1 : ℚ) ≠ 4 ∧ (3 : ℚ) ≠ 4 := by decide +kernel

end Microjax.Props
