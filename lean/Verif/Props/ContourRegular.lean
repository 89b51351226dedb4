import Verif.Props.ContourEndToEnd
import Verif.Props.Caustics
import Mathlib.Analysis.SpecialFunctions.Trigonometric.Bounds
import Mathlib.Analysis.Calculus.ContDiff.RCLike

/-!
# C128: small sources away from the caustics
-/

set_option linter.unusedVariables false

noncomputable section

namespace Microjax.Props

open Complex ComplexConjugate Microjax.Spec Jnp Utils Contour PointSource Limb Set Filter
open scoped Topology

/-- A root of a polynomial is close to a root of every polynomial with nearly the same coefficients, if it is away from the
other roots. -/
theorem root_lipschitz (n : ℕ) (c c' : List ℂ) (hl : c.length = n + 1) (hl' : c'.length = n + 1) (x : ℂ)
    (hx : evalPoly c x = 0) (r' : Fin n → ℂ) (hr : IsRootList c' (List.ofFn r')) (X ε c0 s : ℝ) (hX : ‖x‖ ≤ X)
    (hε : ∀ k : ℕ, ‖c'.getD k 0 - c.getD k 0‖ ≤ ε) (hc0 : 0 < c0) (hc : c0 ≤ ‖c'.headD 0‖) (hs : 0 < s) (j : Fin n)
    (hsep : ∀ i, i ≠ j → s ≤ ‖x - r' i‖) :
    c0 * s ^ (n - 1) * ‖x - r' j‖ ≤ ε * ∑ k ∈ Finset.range (n + 1), X ^ (n - k) := by
  have hsum : ∀ d : List ℂ, d.length = n + 1 →
      evalPoly d x = ∑ k ∈ Finset.range (n + 1), d.getD k 0 * x ^ (n - k) := by
    intro d hd
    rw [evalPoly_eq_sum, hd, Finset.sum_eq_multiset_sum, Finset.range_val, Multiset.range, Multiset.map_coe, Multiset.sum_coe]
    rfl
  have h1 : ‖evalPoly c' x‖ ≤ ε * ∑ k ∈ Finset.range (n + 1), X ^ (n - k) := by
    have e : evalPoly c' x = ∑ k ∈ Finset.range (n + 1), (c'.getD k 0 - c.getD k 0) * x ^ (n - k) := by
      have e0 : evalPoly c' x = evalPoly c' x - evalPoly c x := by rw [hx, sub_zero]
      rw [e0, hsum _ hl, hsum _ hl', ← Finset.sum_sub_distrib]
      exact Finset.sum_congr rfl fun k _ => by ring
    rw [e, Finset.mul_sum]
    refine (norm_sum_le _ _).trans (Finset.sum_le_sum fun k _ => ?_)
    rw [norm_mul, norm_pow]
    exact mul_le_mul (hε k) (pow_le_pow_left₀ (norm_nonneg _) hX _) (by positivity) ((norm_nonneg _).trans (hε k))
  refine le_trans ?_ h1
  rw [hr x, List.map_ofFn, List.prod_ofFn, norm_mul, norm_prod, ← Finset.mul_prod_erase _ _ (Finset.mem_univ j)]
  simp only [Function.comp]
  have h2 : s ^ (n - 1) ≤ ∏ i ∈ Finset.univ.erase j, ‖x - r' i‖ := by
    have hcard : (Finset.univ.erase j).card = n - 1 := by
      rw [Finset.card_erase_of_mem (Finset.mem_univ j), Finset.card_univ, Fintype.card_fin]
    rw [← hcard, ← Finset.prod_const]
    exact Finset.prod_le_prod (fun _ _ => hs.le) fun i hi => hsep i (Finset.ne_of_mem_erase hi)
  have h3 : c0 * s ^ (n - 1) ≤ ‖c'.headD 0‖ * ∏ i ∈ Finset.univ.erase j, ‖x - r' i‖ :=
    mul_le_mul hc h2 (by positivity) (norm_nonneg _)
  calc c0 * s ^ (n - 1) * ‖x - r' j‖ ≤ ‖c'.headD 0‖ * (∏ i ∈ Finset.univ.erase j, ‖x - r' i‖) * ‖x - r' j‖ :=
        mul_le_mul_of_nonneg_right h3 (norm_nonneg _)
    _ = _ := by ring

/-- Around a position with distinct roots and none of them spurious within the tolerance, the limbs of all small sources
carry branches whose speed is proportional to the radius. -/
theorem small_branches (L : Lenses) (n : ℕ) (hn : n ≠ 0) (c rs : ℂ → List ℂ) (w S : ℂ) (tol : ℝ)
    (hlen : ∀ y, (c y).length = n + 1) (hc : ∀ k : ℕ, ContDiff ℝ 1 (fun y => (c y).getD k 0))
    (hlead : (c w).headD 0 ≠ 0) (hrs : ∀ᶠ y in 𝓝 w, IsRootList (c y) (rs y)) (κ : ℝ) (hκ0 : 0 < κ)
    (hκ : (rs w).Pairwise fun x y => κ < ‖x - y‖)
    (himg : ∀ᶠ y in 𝓝 w, ∀ z, IsImage L y z → z - S ∈ rs y) (hoff : ∀ r ∈ rs w, ∀ l ∈ L, r + S ≠ l.2)
    (hshear : ∀ z, IsImage L w z → ‖shear L z‖ ≠ 1)
    (hsep : ∀ r ∈ rs w, lensMap L (r + S) = w ∨ tol < ‖lensMap L (r + S) - w‖) :
    ∃ M Z ε : ℝ, 0 ≤ M ∧ 0 < ε ∧
      (∀ y, ‖y - w‖ < ε → (rs y).Nodup ∧ ∀ r ∈ rs y, lensMap L (r + S) = y ∨ tol < ‖lensMap L (r + S) - y‖) ∧
      ∀ rho : ℝ, 0 < rho → rho < ε → ∃ r : Fin n → ℝ → ℂ,
        LimbBranches c S (lensMap L) tol (fun t : ℝ => (rho : ℂ) * exp (I * t) + w) r (M * rho) κ Z := by
  have hnd : (rs w).Nodup := by
    refine hκ.imp fun {x y} h => ?_
    rintro rfl
    rw [sub_self, norm_zero] at h
    linarith
  have hcc : ∀ k : ℕ, ContinuousAt (fun t => (c t).getD k 0) w := fun k => (hc k).continuous.continuousAt
  have hreg := regular_nhds L n hn c rs w S tol hlen hcc hlead hrs hnd himg hoff hshear hsep
  obtain ⟨r, hr, hr0, hrp⟩ := root_branches c rs n w hlen hn hcc hlead hrs hnd
  have hsep0 : ∀ i j, i ≠ j → κ < ‖r i w - r j w‖ := by
    rw [hr0, List.pairwise_ofFn] at hκ
    intro i j hij
    rcases lt_or_gt_of_ne hij with h | h
    · exact hκ h
    · rw [norm_sub_rev]; exact hκ h
  have hpair : ∀ᶠ q : ℂ × ℂ in 𝓝 (w, w), ∀ i j, i ≠ j → κ < ‖r i q.1 - r j q.2‖ := by
    rw [eventually_all]; intro i
    rw [eventually_all]; intro j
    by_cases hij : i = j
    · exact Eventually.of_forall fun _ h => absurd hij h
    · have h1 : ContinuousAt (fun q : ℂ × ℂ => r i q.1 - r j q.2) (w, w) :=
        (ContinuousAt.comp (g := r i) (hr i) continuousAt_fst).sub (ContinuousAt.comp (g := r j) (hr j) continuousAt_snd)
      filter_upwards [h1.norm.eventually_const_lt (hsep0 i j hij)] with q hq _ using hq
  rw [Metric.eventually_nhds_iff_ball] at hpair
  obtain ⟨ε1, hε1, hpair⟩ := hpair
  have hlip : ∃ K : ℝ, 0 ≤ K ∧ ∃ ε2 > 0, ∀ y ∈ Metric.ball w ε2, ∀ y' ∈ Metric.ball w ε2, ∀ k : ℕ,
      ‖(c y').getD k 0 - (c y).getD k 0‖ ≤ K * ‖y' - y‖ := by
    have hk : ∀ k : ℕ, ∃ K : ℝ, 0 ≤ K ∧ ∃ ε2 > 0, ∀ y ∈ Metric.ball w ε2, ∀ y' ∈ Metric.ball w ε2,
        ‖(c y').getD k 0 - (c y).getD k 0‖ ≤ K * ‖y' - y‖ := by
      intro k
      obtain ⟨K, t, ht, hK⟩ := (hc k).contDiffAt.exists_lipschitzOnWith (x := w)
      obtain ⟨ε2, h2, h3⟩ := Metric.mem_nhds_iff.mp ht
      refine ⟨K, K.2, ε2, h2, fun y hy y' hy' => ?_⟩
      have := hK.dist_le_mul y' (h3 hy') y (h3 hy)
      simpa [dist_eq_norm] using this
    have hall : ∀ N : ℕ, ∃ K : ℝ, 0 ≤ K ∧ ∃ ε2 > 0, ∀ y ∈ Metric.ball w ε2, ∀ y' ∈ Metric.ball w ε2, ∀ k < N,
        ‖(c y').getD k 0 - (c y).getD k 0‖ ≤ K * ‖y' - y‖ := by
      intro N
      induction N with
      | zero => exact ⟨0, le_rfl, 1, one_pos, fun _ _ _ _ k hk => absurd hk (Nat.not_lt_zero k)⟩
      | succ N ih =>
        obtain ⟨K1, k1, e1, p1, q1⟩ := ih
        obtain ⟨K2, k2, e2, p2, q2⟩ := hk N
        refine ⟨K1 + K2, add_nonneg k1 k2, min e1 e2, lt_min p1 p2, fun y hy y' hy' k hk => ?_⟩
        have m1 := Metric.ball_subset_ball (x := w) (min_le_left e1 e2)
        have m2 := Metric.ball_subset_ball (x := w) (min_le_right e1 e2)
        rcases Nat.lt_succ_iff_lt_or_eq.mp hk with h | rfl
        · refine (q1 y (m1 hy) y' (m1 hy') k h).trans ?_
          nlinarith [norm_nonneg (y' - y)]
        · refine (q2 y (m2 hy) y' (m2 hy')).trans ?_
          nlinarith [norm_nonneg (y' - y)]
    obtain ⟨K, h1, e, h2, h3⟩ := hall (n + 1)
    refine ⟨K, h1, e, h2, fun y hy y' hy' k => ?_⟩
    by_cases hkn : k < n + 1
    · exact h3 y hy y' hy' k hkn
    · rw [List.getD_eq_default _ _ (by rw [hlen]; omega), List.getD_eq_default _ _ (by rw [hlen]; omega), sub_self,
        norm_zero]
      positivity
  obtain ⟨K, hK0, ε2, hε2, hK⟩ := hlip
  have hheadc : ContinuousAt (fun t => ‖(c t).headD 0‖) w := by
    have : (fun t => (c t).headD 0) = fun t => (c t).getD 0 0 := by
      funext t; cases c t <;> rfl
    have h2 : ContinuousAt (fun t => (c t).headD 0) w := by rw [this]; exact hcc 0
    exact h2.norm
  set c0 := ‖(c w).headD 0‖ / 2 with hc0
  have hc0p : 0 < c0 := by have := norm_pos_iff.mpr hlead; positivity
  have hev0 : ∀ᶠ y in 𝓝 w, c0 < ‖(c y).headD 0‖ := hheadc.eventually_const_lt (by
    rw [hc0]; have := norm_pos_iff.mpr hlead; linarith)
  have hbd : ∃ X : ℝ, ∀ i, ‖r i w‖ < X := by
    refine ⟨∑ i, ‖r i w‖ + 1, fun i => ?_⟩
    have := Finset.single_le_sum (f := fun i => ‖r i w‖) (fun i _ => norm_nonneg _) (Finset.mem_univ i)
    linarith
  obtain ⟨X, hX⟩ := hbd
  have hevX : ∀ᶠ y in 𝓝 w, ∀ i, ‖r i y‖ < X := eventually_all.mpr fun i => (hr i).norm.eventually_lt_const (hX i)
  have hall := (((hreg.and hrs).and hrp).and hev0).and hevX
  rw [Metric.eventually_nhds_iff_ball] at hall
  obtain ⟨ε3, hε3, hall⟩ := hall
  set P := ∑ k ∈ Finset.range (n + 1), X ^ (n - k) with hP
  set D := c0 * κ ^ (n - 1) with hD
  have hDp : 0 < D := by positivity
  have hX0 : 0 ≤ X := (norm_nonneg _).trans (hX ⟨0, Nat.pos_of_ne_zero hn⟩).le
  have hP0 : 0 ≤ P := Finset.sum_nonneg fun k _ => pow_nonneg hX0 _
  set ε := min ε1 (min ε2 ε3) with hε
  have hεp : 0 < ε := lt_min hε1 (lt_min hε2 hε3)
  have m1 := Metric.ball_subset_ball (x := w) (min_le_left ε1 (min ε2 ε3))
  have m2 := Metric.ball_subset_ball (x := w) ((min_le_right ε1 (min ε2 ε3)).trans (min_le_left ε2 ε3))
  have m3 := Metric.ball_subset_ball (x := w) ((min_le_right ε1 (min ε2 ε3)).trans (min_le_right ε2 ε3))
  have hroot : ∀ y ∈ Metric.ball w ε, IsRootList (c y) (List.ofFn fun i => r i y) := by
    intro y hy x
    obtain ⟨⟨⟨⟨-, h2⟩, h3⟩, -⟩, -⟩ := hall y (m3 hy)
    rw [h2 x, (h3.1.map fun r => x - r).prod_eq]
  have hzero : ∀ y ∈ Metric.ball w ε, ∀ i, evalPoly (c y) (r i y) = 0 := fun y hy i =>
    IsRootList.eval_zero_of_mem (hroot y hy) (List.mem_ofFn.mpr ⟨i, rfl⟩)
  have hsp : ∀ y ∈ Metric.ball w ε, ∀ y' ∈ Metric.ball w ε, ∀ i, ‖r i y' - r i y‖ ≤ K * P / D * ‖y' - y‖ := by
    intro y hy y' hy' i
    have h1 := root_lipschitz n (c y) (c y') (hlen y) (hlen y') (r i y) (hzero y hy i) (fun i => r i y') (hroot y' hy') X
      (K * ‖y' - y‖) c0 κ ((hall y (m3 hy)).2 i).le (fun k => hK y (m2 hy) y' (m2 hy') k) hc0p (hall y' (m3 hy')).1.2.le hκ0 i
      (fun j hj => (hpair (y, y') (by
        rw [← ball_prod_same]; exact ⟨m1 hy, m1 hy'⟩) i j (Ne.symm hj)).le)
    rw [norm_sub_rev, div_mul_eq_mul_div, le_div_iff₀ hDp]
    calc ‖r i y - r i y'‖ * D = c0 * κ ^ (n - 1) * ‖r i y - r i y'‖ := by rw [hD]; ring
      _ ≤ K * ‖y' - y‖ * P := h1
      _ = K * P * ‖y' - y‖ := by ring
  refine ⟨K * P / D, X + ‖S‖, ε, by positivity, hεp, fun y hy => ?_, fun rho h0 hrho => ?_⟩
  · exact (hall y (m3 (by rwa [Metric.mem_ball, dist_eq_norm]))).1.1.1.1
  set src : ℝ → ℂ := fun t : ℝ => (rho : ℂ) * exp (I * t) + w with hsrc
  have hin : ∀ t, src t ∈ Metric.ball w ε := by
    intro t
    rw [Metric.mem_ball, dist_eq_norm]
    simp only [hsrc]
    rw [add_sub_cancel_right, norm_mul, mul_comm I, norm_exp_ofReal_mul_I, mul_one, norm_real, Real.norm_eq_abs,
      abs_of_pos h0]
    exact hrho
  have hsl : ∀ t t', ‖src t' - src t‖ ≤ rho * |t' - t| := by
    intro t t'
    have e : src t' - src t = (rho : ℂ) * exp (t * I) * (exp (I * ((t' - t : ℝ) : ℂ)) - 1) := by
      simp only [hsrc]
      rw [mul_sub, mul_assoc, ← exp_add]
      push_cast
      ring_nf
    rw [e, norm_mul, norm_mul, norm_exp_ofReal_mul_I, mul_one, norm_real, Real.norm_eq_abs, abs_of_pos h0]
    have := Real.norm_exp_I_mul_ofReal_sub_one_le (x := t' - t)
    rw [Real.norm_eq_abs] at this
    exact mul_le_mul_of_nonneg_left this h0.le
  refine ⟨fun j t => r j (src t) + S, ⟨fun t _ j => ?_, fun t _ t' _ j => ?_, fun t _ i j hij => ?_, fun t _ j => ?_,
    fun t _ j => ?_⟩⟩
  · rw [add_sub_cancel_right]; exact hzero _ (hin t) j
  · rw [add_sub_add_right_eq_sub]
    refine (hsp _ (hin t) _ (hin t') j).trans ?_
    rw [mul_assoc]
    exact mul_le_mul_of_nonneg_left (hsl t t') (by positivity)
  · rw [add_sub_add_right_eq_sub]
    exact (hpair (src t, src t) (by rw [← ball_prod_same]; exact ⟨m1 (hin t), m1 (hin t)⟩) i j hij).le
  · exact (norm_add_le _ _).trans (add_le_add ((hall _ (m3 (hin t))).2 j).le le_rfl)
  · obtain ⟨⟨⟨⟨h1, -⟩, h3⟩, -⟩, -⟩ := hall _ (m3 (hin t))
    rcases h1.2 (r j (src t)) (h3.1.mem_iff.mpr (List.mem_ofFn.mpr ⟨j, rfl⟩)) with h | h
    · exact Or.inl h
    · exact Or.inr h.le

@[fun_prop]
theorem contDiff_conj : ContDiff ℝ 1 (starRingEnd ℂ) := conjCLE.contDiff

theorem contDiff_coeffsBinary (a e1 : ℝ) (k : ℕ) : ContDiff ℝ 1 fun y => (polyCoeffsBinary y a e1).getD k 0 := by
  rcases k with _ | _ | _ | _ | _ | _ | k <;> simp only [polyCoeffsBinary, List.getD_cons_zero, List.getD_cons_succ,
    List.getD_nil] <;> fun_prop

theorem contDiff_coeffsTriple (a : ℝ) (r : ℂ) (e1 e2 : ℝ) (k : ℕ) :
    ContDiff ℝ 1 fun y => (polyCoeffsTripleCM y a r e1 e2).getD k 0 := by
  rcases k with _ | _ | _ | _ | _ | _ | _ | _ | _ | _ | _ | k <;> simp only [polyCoeffsTripleCM, List.getD_cons_zero,
    List.getD_cons_succ, List.getD_nil] <;> fun_prop

/-- Radii small enough for the step and closing conditions of `C128_binary` and `C128_triple`. -/
theorem small_radius (M ν κ : ℝ) (hM : 0 ≤ M) (hνκ : 4 * ν < κ) (hν5 : 2 * ν < 1 / 10 ^ 5) :
    ∃ ε : ℝ, 0 < ε ∧ ∀ rho : ℝ, 0 < rho → rho < ε → ∀ k : ℕ, 1 ≤ k →
      2 * (M * rho * (2 * Real.pi / (k : ℝ))) + 4 * ν < κ ∧ M * rho / 10 ^ 8 + 2 * ν < 1 / 10 ^ 5 := by
  have hpi := Real.pi_pos
  refine ⟨min ((κ - 4 * ν) / (4 * Real.pi * M + 1)) ((1 / 10 ^ 5 - 2 * ν) / (M + 1)),
    lt_min (div_pos (by linarith) (by positivity)) (div_pos (by linarith) (by positivity)), fun rho h0 h k hk => ?_⟩
  have h1 := (lt_div_iff₀ (by positivity)).mp (h.trans_le (min_le_left _ _))
  have h2 := (lt_div_iff₀ (by positivity)).mp (h.trans_le (min_le_right _ _))
  have hk' : (1 : ℝ) ≤ k := by exact_mod_cast hk
  have h3 : 2 * Real.pi / (k : ℝ) ≤ 2 * Real.pi := div_le_self (by positivity) hk'
  have h4 : M * rho * (2 * Real.pi / (k : ℝ)) ≤ M * rho * (2 * Real.pi) := mul_le_mul_of_nonneg_left h3 (by positivity)
  have h5 : 0 ≤ M * rho := by positivity
  exact ⟨by nlinarith, by norm_num at h2 ⊢; nlinarith⟩

/-- **C128, small sources behind a binary**: at every regular position of the source (five distinct roots, none of them
spurious within the tolerance) there are constants such that, for all sources below some radius and all numbers of samples,
`mag_extended_source` differs from the magnification of the disc by at most a constant over the number of samples, apart from
what the random shifts contribute. -/
theorem C128_binary_small (lib : Lib) (u : UserParams) (w0 : ℂ) (hs : u.s ≠ 0) (hq : 0 < u.q)
    (hlen : ∀ init cs, (lib.roots init cs).length = cs.length - 1)
    (hroots : ∀ init cs, cs.headD 0 ≠ 0 → IsRootList cs (lib.roots init cs)) (ν κ : ℝ) (hν : ∀ i k, |lib.noise i k| ≤ ν)
    (hνκ : 4 * ν < κ) (hν5 : 2 * ν < 1 / 10 ^ 5) (hreg : Regular2 lib.roots u w0)
    (hκ : (lib.roots none (polyCoeffsBinary (w0 - xCM u) (midParams2 u).a (midParams2 u).e1)).Pairwise
      fun x y => κ < ‖x - y‖) :
    ∃ M Z rho0 : ℝ, 0 < rho0 ∧ ∀ rho, 0 < rho → rho < rho0 → ∀ npts npts_ld u1, 4 ≤ npts → npts ≤ 2 * 10 ^ 8 →
      ∃ m, magExtendedSource lib 2 npts npts_ld false u u1 rho w0 = .ok m ∧
        |m - uniformMag (binary u.s u.q) w0 rho| ≤ 5 * (M / ((npts / 2 - 1 : ℕ) : ℝ) +
          (npts / 2 + 10 * (npts / 2 / 10) : ℕ) * (Z * ν + ν ^ 2 / 2) / (Real.pi * rho ^ 2)) := by
  have hν0 : 0 ≤ ν := (abs_nonneg _).trans (hν 0 0)
  have hκ0 : 0 < κ := by linarith
  have hpi := Real.pi_pos
  have hq1 : 1 + u.q ≠ 0 := by positivity
  set p := midParams2 u with hp
  have hpe : p = extParams 2 u := by simp [hp, extParams, midParams2]
  have hwe : extSource 2 u w0 = w0 - xCM u := by simp [extSource, xCM]
  have ha : p.a ≠ 0 := by simp [hp, midParams2, hs]
  obtain ⟨⟨he, he'⟩, -, -⟩ := mass2_pos u hq
  rw [← hp] at he he'
  have hdeg : ∀ v : ℂ, v ≠ p.a → v ≠ -p.a → conj v ^ 2 ≠ (p.a : ℂ) ^ 2 := by
    intro v h1 h2 h
    have h3 : v ^ 2 = (p.a : ℂ) ^ 2 := by
      have := congrArg (starRingEnd ℂ) h
      simpa using this
    rcases sq_eq_sq_iff_eq_or_eq_neg.mp h3 with h4 | h4
    · exact h1 h4
    · exact h2 h4
  have hlead : ∀ v : ℂ, v ≠ p.a → v ≠ -p.a → (polyCoeffsBinary v p.a p.e1).headD 0 ≠ 0 := by
    intro v h1 h2
    rw [binary_headD]; exact sub_ne_zero.mpr (hdeg v h1 h2)
  set w : ℂ := w0 - xCM u with hw
  obtain ⟨h1, h2, h3, h4⟩ := hreg
  rw [← hp, ← hw] at h1 h2 h3 h4
  have hr := hroots none _ (hlead _ h1 h2)
  obtain ⟨b1, -, -⟩ := binary_roots p w _ ha he he' hr (hdeg _ h1 h2) h3
  have ev1 : ∀ᶠ v : ℂ in 𝓝 w, v ≠ p.a ∧ v ≠ -p.a :=
    (isOpen_ne.eventually_mem h1).and (isOpen_ne.eventually_mem h2)
  have hcount : ∀ v : ℂ, v ≠ p.a → v ≠ -p.a → (lib.roots none (polyCoeffsBinary v p.a p.e1)).Nodup →
      (∀ r ∈ lib.roots none (polyCoeffsBinary v p.a p.e1), lensEq2 p r = v ∨ 1 / 10 ^ 6 < ‖lensEq2 p r - v‖) →
      ∀ z, IsImage (midBinary p) v z → jacDet (lensMap (midBinary p)) z ≠ 0 := by
    intro v v1 v2 v3 v4 z hz
    obtain ⟨c1, c2, c3, -⟩ := binary_count lib.roots none p v ha he he' (hroots none _ (hlead _ v1 v2)) v1 v2 v3
      (fun r hr hlt => (v4 r hr).resolve_right (not_lt.mpr (by norm_num at hlt ⊢; exact hlt.le))) _ rfl
    exact (c3 z ((c1 z).mpr hz)).1
  have h4' : ∀ r ∈ lib.roots none (polyCoeffsBinary w p.a p.e1), lensEq2 p r = w ∨ 1 / 10 ^ 6 < ‖lensEq2 p r - w‖ := by
    intro r hr
    refine (h4 r hr).imp_right fun h => ?_
    norm_num at h ⊢; exact h
  obtain ⟨M, Z, ε1, hM, hε1, hreg', hbr⟩ := small_branches (midBinary p) 5 (by norm_num)
    (fun v => polyCoeffsBinary v p.a p.e1) (fun v => lib.roots none (polyCoeffsBinary v p.a p.e1)) w 0 (1 / 10 ^ 6)
    (fun y => (C04_binary_leading _ _ _).1) (contDiff_coeffsBinary p.a p.e1)
    (hlead _ h1 h2) (by filter_upwards [ev1] with v hv using hroots none _ (hlead v hv.1 hv.2)) κ hκ0 hκ
    (by
      filter_upwards [ev1] with v hv z hz
      rw [sub_zero]
      exact images_mem_roots_binary p v _ (hroots none _ (hlead v hv.1 hv.2)) (hdeg v hv.1 hv.2) z hz)
    (by
      intro r hr l hl
      obtain ⟨d1, -⟩ := b1 r hr
      rw [add_zero]
      simp only [midBinary, List.mem_cons, List.not_mem_nil, or_false] at hl
      rcases hl with rfl | rfl
      · exact d1.hz 0
      · exact d1.hz 1)
    (fun z hz h => hcount w h1 h2 h3 h4' z hz ((shear_eq_one_iff _ z hz.1).mpr h))
    (fun r hr => by rw [add_zero, ← lensEq2_eq]; exact h4' r hr)
  obtain ⟨ε2, hε2, hsmall⟩ := small_radius M ν κ hM hνκ hν5
  obtain ⟨ε3, hε3, hoff⟩ := Metric.eventually_nhds_iff_ball.mp ev1
  have hframe := (C08_binary_frame u hq1).1
  rw [← hp] at hframe
  have hw0 : w0 = w + (xCM u : ℂ) := by rw [hw]; ring
  refine ⟨2 * Real.pi * M ^ 2, Z, min ε1 (min ε2 ε3), lt_min hε1 (lt_min hε2 hε3), fun rho h0 hrho npts npts_ld u1 hn hmax => ?_⟩
  have r1 := hrho.trans_le (min_le_left _ _)
  have r2 := hrho.trans_le ((min_le_right _ _).trans (min_le_left _ _))
  have r3 := hrho.trans_le ((min_le_right _ _).trans (min_le_right _ _))
  obtain ⟨r, hB⟩ := hbr rho h0 r1
  have hk : 1 ≤ npts / 2 - 1 := by omega
  obtain ⟨s1, s2⟩ := hsmall rho h0 r2 _ hk
  obtain ⟨m, k1, k2⟩ := C128_binary lib npts npts_ld u u1 rho w0 hs hq h0 hn hmax hlen hroots ν hν
    (by
      intro l hl h
      rw [← hframe, List.mem_map] at hl
      obtain ⟨l', hl', rfl⟩ := hl
      rw [hw0, add_sub_add_right_eq_sub] at h
      obtain ⟨f1, f2⟩ := hoff l'.2 (by rw [Metric.mem_ball, dist_eq_norm, h]; exact r3)
      simp only [midBinary, List.mem_cons, List.not_mem_nil, or_false] at hl'
      rcases hl' with rfl | rfl
      · exact f1 rfl
      · exact f2 rfl)
    (by
      intro z hz hd
      by_contra hle
      rw [not_lt] at hle
      set z' : ℂ := z - xCM u with hz'
      have ez : z = z' + xCM u := by rw [hz']; ring
      have hz0 : ∀ l ∈ midBinary p, z' ≠ l.2 := by
        intro l hl h
        refine hz (l.1, l.2 + (xCM u : ℂ)) (by rw [← hframe]; exact List.mem_map_of_mem hl) ?_
        rw [ez, h]
      rw [← hframe, ez, jacDet_translate _ _ _ hz0] at hd
      rw [← hframe, ez, lensMap_translate, hw0, add_sub_add_right_eq_sub] at hle
      set v := lensMap (midBinary p) z' with hv
      obtain ⟨f1, f2⟩ := hoff v (by rw [Metric.mem_ball, dist_eq_norm]; exact hle.trans_lt r3)
      obtain ⟨g1, g2⟩ := hreg' v (hle.trans_lt r1)
      refine hcount v f1 f2 g1 (fun r hr => ?_) z' ⟨hz0, hv.symm⟩ hd
      have := g2 r hr
      rwa [add_zero, ← lensEq2_eq] at this)
    p hpe r (M * rho) κ Z _ rfl (by
      rw [hwe]
      have e : (fun z => lensMap (midBinary p) z) = lensEq2 p := by funext z; rw [lensEq2_eq]
      rw [← e]; exact hB) s1 s2
  refine ⟨m, k1, k2.trans (le_of_eq ?_)⟩
  have : ((npts / 2 - 1 : ℕ) : ℝ) ≠ 0 := by exact_mod_cast (by omega : npts / 2 - 1 ≠ 0)
  field_simp

/-- **C128, small sources behind a triple**: the same for the ten roots and the lenses that the code uses. -/
theorem C128_triple_small (lib : Lib) (u : UserParams) (w0 : ℂ) (hq : 0 < u.q) (hq3 : 0 < u.q3)
    (hq3' : u.q3 < 1) (hpos : ((contourTriple u).map Prod.snd).Nodup)
    (hlen : ∀ init cs, (lib.roots init cs).length = cs.length - 1)
    (hroots : ∀ init cs, cs.headD 0 ≠ 0 → IsRootList cs (lib.roots init cs)) (ν κ : ℝ) (hν : ∀ i k, |lib.noise i k| ≤ ν)
    (hνκ : 4 * ν < κ) (hν5 : 2 * ν < 1 / 10 ^ 5) (p : MidParams) (hp : p = extParams 3 u) (w S : ℂ)
    (hw : w = extSource 3 u w0) (hS : S = shiftCM p.a (r3Complex p) p.e1 p.e2)
    (hlens : ∀ l ∈ contourTriple u, w0 ≠ l.2)
    (hκ : (lib.roots none (polyCoeffsTripleCM w p.a (r3Complex p) p.e1 p.e2)).Pairwise fun x y => κ < ‖x - y‖)
    (hreg : ∀ r ∈ lib.roots none (polyCoeffsTripleCM w p.a (r3Complex p) p.e1 p.e2),
      lensEq3 p (r + S) = w ∨ 1 / 10 ^ 3 < ‖lensEq3 p (r + S) - w‖) :
    ∃ M Z rho0 : ℝ, 0 < rho0 ∧ ∀ rho, 0 < rho → rho < rho0 → ∀ npts npts_ld u1, 4 ≤ npts → npts ≤ 2 * 10 ^ 8 →
      ∃ m, magExtendedSource lib 3 npts npts_ld false u u1 rho w0 = .ok m ∧
        |m - uniformMag (contourTriple u) w0 rho| ≤ 10 * (M / ((npts / 2 - 1 : ℕ) : ℝ) +
          (npts / 2 + 10 * (npts / 2 / 10) : ℕ) * (Z * ν + ν ^ 2 / 2) / (Real.pi * rho ^ 2)) := by
  have hν0 : 0 ≤ ν := (abs_nonneg _).trans (hν 0 0)
  have hκ0 : 0 < κ := by linarith
  have hpi := Real.pi_pos
  have hM : 0 < 1 + u.q + u.q3 := by positivity
  have hq1 : (1 + u.q : ℂ) ≠ 0 := by exact_mod_cast (by positivity : (1 + u.q) ≠ 0)
  set c := w0 - w with hc
  have hframe : (midTriple p).map (fun l => (l.1, l.2 + c)) = contourTriple u := by
    have hcx : c = (((1 / 2) * u.s * (1 - u.q) / (1 + u.q) : ℝ) : ℂ) := by
      rw [hc, hw]; simp [extSource]
    rw [hcx, hp]
    simp only [midTriple, extParams, contourTriple, r3Complex, List.map_cons, List.map_nil, List.cons.injEq, Prod.mk.injEq,
      and_true]
    norm_num
    refine ⟨?_, ?_, ?_, ?_⟩
    · field_simp; ring
    · field_simp; ring
    · field_simp; ring
    · field_simp; ring
  have hw0 : w0 = w + c := by rw [hc]; ring
  have hnd : ((midTriple p).map Prod.snd).Nodup := by
    have e : (contourTriple u).map Prod.snd = ((midTriple p).map Prod.snd).map (· + c) := by
      rw [← hframe, List.map_map, List.map_map]; rfl
    rw [e] at hpos
    exact List.Nodup.of_map _ hpos
  obtain ⟨ha, hr1, hr2⟩ : p.a ≠ 0 ∧ r3Complex p ≠ p.a ∧ r3Complex p ≠ -p.a := by
    have := hnd
    simp only [midTriple, List.map_cons, List.map_nil, List.nodup_cons, List.mem_cons, List.not_mem_nil, or_false,
      not_or, not_false_eq_true, List.nodup_nil, and_true] at this
    refine ⟨fun h0 => this.1.1 ?_, fun h => this.1.2 h.symm, fun h => this.2 h.symm⟩
    rw [h0]; simp
  have he1 : 0 < p.e1 := by rw [hp]; simp only [extParams]; norm_num; positivity
  have he2 : 0 < p.e2 := by
    rw [hp]; simp only [extParams]; norm_num
    exact div_pos (by linarith) hM
  have he3 : p.e1 + p.e2 < 1 := by
    rw [hp]; simp only [extParams]; norm_num
    rw [← add_div, div_lt_one hM]; linarith
  have hlead : ∀ v : ℂ, v ≠ p.a → v ≠ -p.a → v ≠ r3Complex p →
      (polyCoeffsTripleCM v p.a (r3Complex p) p.e1 p.e2).headD 0 ≠ 0 := by
    intro v h1 h2 h3
    have hi : ∀ x : ℂ, x ≠ 0 → conj x ≠ 0 := fun x hx => by simpa using hx
    rw [(triple_head _ _ _ _ _).2]
    refine mul_ne_zero (mul_ne_zero (hi _ (sub_ne_zero.mpr h1)) (hi _ ?_)) (hi _ (sub_ne_zero.mpr h3))
    exact fun h => h2 (by linear_combination h)
  have hwl : ∀ l ∈ midTriple p, w ≠ l.2 := by
    intro l hl h
    refine hlens (l.1, l.2 + c) (by rw [← hframe]; exact List.mem_map_of_mem hl) ?_
    rw [hw0, h]
  have h1 : w ≠ p.a := hwl (p.e1, (p.a : ℂ)) (by simp [midTriple])
  have h2 : w ≠ -p.a := hwl (p.e2, -(p.a : ℂ)) (by simp [midTriple])
  have h3 : w ≠ r3Complex p := hwl (1 - p.e1 - p.e2, r3Complex p) (by simp [midTriple])
  have hsimple : (lib.roots none (polyCoeffsTripleCM w p.a (r3Complex p) p.e1 p.e2)).Nodup := by
    refine hκ.imp fun {x y} h => ?_
    rintro rfl
    rw [sub_self, norm_zero] at h
    linarith
  have hr := hroots none _ (hlead _ h1 h2 h3)
  obtain ⟨b1, -, -⟩ := triple_roots p w _ ha hr1 hr2 he1.ne' he2.ne' (by linarith) hr h1 h2 h3 hsimple
  have ev1 : ∀ᶠ v : ℂ in 𝓝 w, v ≠ p.a ∧ v ≠ -p.a ∧ v ≠ r3Complex p :=
    (isOpen_ne.eventually_mem h1).and ((isOpen_ne.eventually_mem h2).and (isOpen_ne.eventually_mem h3))
  have hcount : ∀ v : ℂ, v ≠ p.a → v ≠ -p.a → v ≠ r3Complex p →
      (lib.roots none (polyCoeffsTripleCM v p.a (r3Complex p) p.e1 p.e2)).Nodup →
      (∀ r ∈ lib.roots none (polyCoeffsTripleCM v p.a (r3Complex p) p.e1 p.e2),
        lensEq3 p (r + S) = v ∨ 1 / 10 ^ 3 < ‖lensEq3 p (r + S) - v‖) →
      ∀ z, IsImage (midTriple p) v z → jacDet (lensMap (midTriple p)) z ≠ 0 := by
    intro v v1 v2 v3 v4 v5 z hz
    obtain ⟨c1, c2, c3, -⟩ := triple_count lib.roots p v ha hr1 hr2 he1 he2 he3 _ rfl S hS
      (hroots none _ (hlead _ v1 v2 v3)) v1 v2 v3 v4
      (fun r hr hlt => (v5 r hr).resolve_right (not_lt.mpr (by norm_num at hlt ⊢; exact hlt.le))) _ rfl
    exact (c3 z ((c1 z).mpr hz)).1
  obtain ⟨M, Z, ε1, hM0, hε1, hreg', hbr⟩ := small_branches (midTriple p) 10 (by norm_num)
    (fun v => polyCoeffsTripleCM v p.a (r3Complex p) p.e1 p.e2)
    (fun v => lib.roots none (polyCoeffsTripleCM v p.a (r3Complex p) p.e1 p.e2)) w S (1 / 10 ^ 3)
    (fun y => (triple_head _ _ _ _ _).1) (contDiff_coeffsTriple p.a (r3Complex p) p.e1 p.e2)
    (hlead _ h1 h2 h3) (by filter_upwards [ev1] with v hv using hroots none _ (hlead v hv.1 hv.2.1 hv.2.2)) κ hκ0 hκ
    (by
      filter_upwards [ev1] with v hv z hz
      rw [hS]
      refine IsRootList.mem_of_eval_zero (hroots none _ (hlead v hv.1 hv.2.1 hv.2.2)) (hlead v hv.1 hv.2.1 hv.2.2) ?_
      refine C05_triple_complete p v z (hz.1 (p.e1, (p.a : ℂ)) (by simp [midTriple]))
        (hz.1 (p.e2, -(p.a : ℂ)) (by simp [midTriple]))
        (hz.1 (1 - p.e1 - p.e2, r3Complex p) (by simp [midTriple])) ?_
      rw [lensEq3_eq]; exact hz.2)
    (by
      intro r hr l hl
      obtain ⟨d1, -⟩ := b1 r hr
      rw [hS]
      simp only [midTriple, List.mem_cons, List.not_mem_nil, or_false] at hl
      rcases hl with rfl | rfl | rfl
      · exact d1.hz 0
      · exact d1.hz 1
      · exact d1.hz 2)
    (fun z hz h => hcount w h1 h2 h3 hsimple hreg z hz ((shear_eq_one_iff _ z hz.1).mpr h))
    (fun r hr => by rw [← lensEq3_eq]; exact hreg r hr)
  obtain ⟨ε2, hε2, hsmall⟩ := small_radius M ν κ hM0 hνκ hν5
  obtain ⟨ε3, hε3, hoff⟩ := Metric.eventually_nhds_iff_ball.mp ev1
  refine ⟨2 * Real.pi * M ^ 2, Z, min ε1 (min ε2 ε3), lt_min hε1 (lt_min hε2 hε3), fun rho h0 hrho npts npts_ld u1 hn hmax => ?_⟩
  have r1 := hrho.trans_le (min_le_left _ _)
  have r2 := hrho.trans_le ((min_le_right _ _).trans (min_le_left _ _))
  have r3 := hrho.trans_le ((min_le_right _ _).trans (min_le_right _ _))
  obtain ⟨r, hB⟩ := hbr rho h0 r1
  have hk : 1 ≤ npts / 2 - 1 := by omega
  obtain ⟨s1, s2⟩ := hsmall rho h0 r2 _ hk
  obtain ⟨m, k1, k2⟩ := C128_triple lib npts npts_ld u u1 rho w0 hq hq3 hq3' hpos h0 hn hmax hlen hroots ν hν
    (by
      intro l hl h
      rw [← hframe, List.mem_map] at hl
      obtain ⟨l', hl', rfl⟩ := hl
      rw [hw0, add_sub_add_right_eq_sub] at h
      obtain ⟨f1, f2, f3⟩ := hoff l'.2 (by rw [Metric.mem_ball, dist_eq_norm, h]; exact r3)
      simp only [midTriple, List.mem_cons, List.not_mem_nil, or_false] at hl'
      rcases hl' with rfl | rfl | rfl
      · exact f1 rfl
      · exact f2 rfl
      · exact f3 rfl)
    (by
      intro z hz hd
      by_contra hle
      rw [not_lt] at hle
      set z' : ℂ := z - c with hz'
      have ez : z = z' + c := by rw [hz']; ring
      have hz0 : ∀ l ∈ midTriple p, z' ≠ l.2 := by
        intro l hl h
        refine hz (l.1, l.2 + c) (by rw [← hframe]; exact List.mem_map_of_mem hl) ?_
        rw [ez, h]
      rw [← hframe, ez, jacDet_translate _ _ _ hz0] at hd
      rw [← hframe, ez, lensMap_translate, hw0, add_sub_add_right_eq_sub] at hle
      set v := lensMap (midTriple p) z' with hv
      obtain ⟨f1, f2, f3⟩ := hoff v (by rw [Metric.mem_ball, dist_eq_norm]; exact hle.trans_lt r3)
      obtain ⟨g1, g2⟩ := hreg' v (hle.trans_lt r1)
      refine hcount v f1 f2 f3 g1 (fun r hr => ?_) z' ⟨hz0, hv.symm⟩ hd
      have := g2 r hr
      rwa [← lensEq3_eq] at this)
    p hp r (M * rho) κ Z _ rfl (by
      rw [← hw, ← hS]
      have e : (fun z => lensMap (midTriple p) z) = lensEq3 p := by funext z; rw [lensEq3_eq]
      rw [← e]; exact hB) s1 s2
  refine ⟨m, k1, k2.trans (le_of_eq ?_)⟩
  have : ((npts / 2 - 1 : ℕ) : ℝ) ≠ 0 := by exact_mod_cast (by omega : npts / 2 - 1 ≠ 0)
  field_simp

/-! ### Concrete cases -/

/-- A root finder that returns all roots of every polynomial with non-zero leading coefficient, and always as many numbers
as the degree. -/
theorem exists_exact_roots_length : ∃ roots : Option (List ℂ) → List ℂ → List ℂ,
    (∀ init c, (roots init c).length = c.length - 1) ∧ ∀ init c, c.headD 0 ≠ 0 → IsRootList c (roots init c) := by
  classical
  obtain ⟨roots, hroots⟩ := exists_exact_roots
  refine ⟨fun init c => if c.headD 0 = 0 then List.replicate (c.length - 1) 0 else roots init c, fun init c => ?_,
    fun init c hc => ?_⟩
  · by_cases h : c.headD 0 = 0
    · simp only [if_pos h, List.length_replicate]
    · simp only [if_neg h]
      have hl : c.length ≠ 0 := fun h0 => h (by rw [List.length_eq_zero_iff.mp h0]; rfl)
      exact rootList_length h (hroots init c h) (by omega)
  · simp only [if_neg hc]
    exact hroots init c hc

/-- Random shifts of `10⁻⁹` behind the equal-mass binary, a source at the centre: below some radius the contours give the
magnification up to a constant over the number of samples and the contribution of the shifts. -/
example : ∃ (lib : Lib) (M Z rho0 : ℝ), (∀ i k, lib.noise i k = 1 / 10 ^ 9) ∧ 0 < rho0 ∧ ∀ rho, 0 < rho → rho < rho0 →
    ∀ npts, 4 ≤ npts → npts ≤ 2 * 10 ^ 8 → ∃ m, magExtendedSource lib 2 npts 100 false exU 0 rho 0 = .ok m ∧
        |m - uniformMag (binary exU.s exU.q) 0 rho| ≤ 5 * (M / ((npts / 2 - 1 : ℕ) : ℝ) +
          (npts / 2 + 10 * (npts / 2 / 10) : ℕ) * (Z * (1 / 10 ^ 9) + (1 / 10 ^ 9) ^ 2 / 2) / (Real.pi * rho ^ 2)) := by
  obtain ⟨roots, hlen, hroots⟩ := exists_exact_roots_length
  set lib : Lib := { roots := roots, perturb := fun _ zs => zs, noise := fun _ _ => 1 / 10 ^ 9, leggauss := fun _ => [] }
    with hlib
  have hx : (0 : ℂ) - (xCM exU : ℂ) = 0 := by rw [exU_x]; simp
  set cs := polyCoeffsBinary 0 (midParams2 exU).a (midParams2 exU).e1 with hcs
  have hlead : cs.headD 0 ≠ 0 := by rw [hcs, binary_headD, exU_a]; norm_num
  have hperm : (roots none cs).Perm exRoots := by
    refine perm_of_prod_eq fun x => ?_
    have e := hroots none cs hlead x
    rw [exRoots_isRootList x] at e
    exact (mul_left_cancel₀ hlead e).symm
  have hreg : Regular2 lib.roots exU 0 := by
    unfold Regular2
    rw [hx, ← hcs]
    refine ⟨?_, ?_, hperm.nodup_iff.mpr exRoots_nodup, fun r hr => Or.inl (exRoots_images r (hperm.mem_iff.mp hr)).1⟩
    · rw [exU_a]; norm_num
    · rw [exU_a]; norm_num
  have hκ : (lib.roots none (polyCoeffsBinary (0 - xCM exU) (midParams2 exU).a (midParams2 exU).e1)).Pairwise
      fun x y => 1 / 4 < ‖x - y‖ := by
    rw [hx, ← hcs]
    refine (hperm.pairwise_iff (fun {x y} h => by rwa [norm_sub_rev])).mpr ?_
    obtain ⟨ρ, h1, h2⟩ := exRoots_sep
    rw [← h1, List.pairwise_ofFn]
    intro i j hij
    have := h2 i j hij.ne
    linarith
  obtain ⟨M, Z, rho0, h0, key⟩ := C128_binary_small lib exU 0 (by norm_num [exU]) (by norm_num [exU]) hlen hroots (1 / 10 ^ 9)
    (1 / 4) (fun i k => by rw [hlib]; norm_num) (by norm_num) (by norm_num) hreg hκ
  exact ⟨lib, M, Z, rho0, fun _ _ => rfl, h0, fun rho r1 r2 npts n1 n2 => key rho r1 r2 npts 100 0 n1 n2⟩

/-- Parameters for which `mag_extended_source` computes with three equal masses in the corners of a triangle. -/
def exTc3 : UserParams :=
  { s := Real.sqrt 3 * (tm * tk), q := 2 / 3, q3 := 1 / 3, r3 := 3 / 2 * (tm * tk), psi := Real.pi / 2 }

theorem exTc3_params : extParams 3 exTc3 = midParams3 exT := by
  simp only [extParams, midParams3, exTc3, exT]
  norm_num

theorem exTc3_source : extSource 3 exTc3 (exTw + ((exTc3.s / 10 : ℝ) : ℂ)) = exTw := by
  simp only [extSource, exTc3]
  norm_num
  ring

/-- A source at the centre of three equal masses, with random shifts: the ten images are followed along the limb and their
contours give the magnification. -/
example : ∃ (lib : Lib) (ν M Z rho0 : ℝ), 0 < ν ∧ (∀ i k, lib.noise i k = ν) ∧ 0 < rho0 ∧ ∀ rho, 0 < rho → rho < rho0 →
    ∀ npts, 4 ≤ npts → npts ≤ 2 * 10 ^ 8 →
      ∃ m, magExtendedSource lib 3 npts 100 false exTc3 0 rho (exTw + ((exTc3.s / 10 : ℝ) : ℂ)) = .ok m ∧
        |m - uniformMag (contourTriple exTc3) (exTw + ((exTc3.s / 10 : ℝ) : ℂ)) rho| ≤ 10 * (M / ((npts / 2 - 1 : ℕ) : ℝ) +
          (npts / 2 + 10 * (npts / 2 / 10) : ℕ) * (Z * ν + ν ^ 2 / 2) / (Real.pi * rho ^ 2)) := by
  obtain ⟨roots, hlen, hroots⟩ := exists_exact_roots_length
  obtain ⟨d1, d2, d3, d4, d5⟩ := exT_points
  have hlead : exTc.headD 0 ≠ 0 := by
    have hi : ∀ x : ℂ, x ≠ 0 → conj x ≠ 0 := fun x hx => by simpa using hx
    rw [exTc, (triple_head _ _ _ _ _).2]
    refine mul_ne_zero (mul_ne_zero (hi _ (sub_ne_zero.mpr d3)) (hi _ ?_)) (hi _ (sub_ne_zero.mpr d5))
    exact fun h => d4 (by linear_combination h)
  have hperm : (roots none exTc).Perm exRootsT := by
    refine perm_of_prod_eq fun x => ?_
    have e := hroots none exTc hlead x
    rw [exRootsT_isRootList x] at e
    exact (mul_left_cancel₀ hlead e).symm
  obtain ⟨ρ, hρ⟩ : ∃ ρ : Fin exRootsT.length → ℂ, List.ofFn ρ = exRootsT := ⟨fun i => exRootsT[i], List.ofFn_getElem⟩
  obtain ⟨δ, hδ, hsep⟩ := exists_sep ρ (by rw [← List.nodup_ofFn, hρ]; exact exRootsT_nodup)
  set ν := min (δ / 16) (1 / 10 ^ 9) with hν
  have hν0 : 0 < ν := by positivity
  have hν1 : ν ≤ δ / 16 := min_le_left _ _
  have hν2 : ν ≤ 1 / 10 ^ 9 := min_le_right _ _
  set lib : Lib := { roots := roots, perturb := fun _ zs => zs, noise := fun _ _ => ν, leggauss := fun _ => [] } with hlib
  have hκ : (lib.roots none exTc).Pairwise fun x y => δ / 2 < ‖x - y‖ := by
    refine (hperm.pairwise_iff (fun {x y} h => by rwa [norm_sub_rev])).mpr ?_
    rw [← hρ, List.pairwise_ofFn]
    intro i j hij
    have := hsep i j hij.ne
    linarith
  have hpt : 0 < tm * tk := mul_pos tm_pos tk_pos
  set w0 : ℂ := exTw + ((exTc3.s / 10 : ℝ) : ℂ) with hw0
  have hframe : (midTriple (midParams3 exT)).map (fun l => (l.1, l.2 + ((exTc3.s / 10 : ℝ) : ℂ))) = contourTriple exTc3 := by
    rw [← exTc3_params]
    simp only [midTriple, extParams, contourTriple, r3Complex, List.map_cons, List.map_nil, List.cons.injEq, Prod.mk.injEq,
      and_true, exTc3]
    norm_num
    repeat' apply And.intro
    all_goals first | trivial | ring
  have hnd : ((midTriple (midParams3 exT)).map Prod.snd).Nodup := by
    have ha : ((midParams3 exT).a : ℂ) ≠ 0 := by
      rw [exT_a]; exact_mod_cast (by positivity : 1 / 2 * (Real.sqrt 3 * (tm * tk)) ≠ 0)
    simp only [midTriple, List.map_cons, List.map_nil, List.nodup_cons, List.mem_cons, List.not_mem_nil, or_false,
      not_false_eq_true, List.nodup_nil, and_true, not_or]
    exact ⟨⟨fun h => ha (by linear_combination h / 2), d1.symm⟩, d2.symm⟩
  have hpos : ((contourTriple exTc3).map Prod.snd).Nodup := by
    rw [← hframe, List.map_map]
    have e : (Prod.snd ∘ fun l : ℝ × ℂ => (l.1, l.2 + ((exTc3.s / 10 : ℝ) : ℂ))) = (· + ((exTc3.s / 10 : ℝ) : ℂ)) ∘ Prod.snd := rfl
    rw [e, ← List.map_map]
    exact hnd.map (add_left_injective _)
  obtain ⟨M, Z, rho0, h0, key⟩ := C128_triple_small lib exTc3 w0 (by norm_num [exTc3]) (by norm_num [exTc3])
    (by norm_num [exTc3]) hpos hlen hroots ν (δ / 2) (fun i k => (abs_of_pos hν0).le) (by linarith)
    (by norm_num at hν2 ⊢; linarith) (midParams3 exT) exTc3_params.symm exTw _ exTc3_source.symm rfl
    (by
      intro l hl h
      rw [← hframe, List.mem_map] at hl
      obtain ⟨l', hl', rfl⟩ := hl
      have h' := add_right_cancel h
      simp only [midTriple, List.mem_cons, List.not_mem_nil, or_false] at hl'
      rcases hl' with rfl | rfl | rfl
      · exact d3 h'
      · exact d4 h'
      · exact d5 h')
    hκ (fun r hr => Or.inl (by rw [exT_S]; exact (exRootsT_images r (hperm.mem_iff.mp hr)).1))
  exact ⟨lib, ν, M, Z, rho0, hν0, fun _ _ => rfl, h0, fun rho r1 r2 npts n1 n2 => key rho r1 r2 npts 100 0 n1 n2⟩

end Microjax.Props
