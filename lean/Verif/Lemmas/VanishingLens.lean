import Verif.Lemmas.RootLimit
import Verif.Lemmas.DualSolutions
import Verif.Lemmas.PointMag
import Verif.Props.Tolerance

/-!
# A lens whose mass tends to zero

Masses and source converge, the positions of the lenses are fixed, and the mass of one lens tends to zero.  The
solutions that approach that lens have magnifications that tend to zero, unless its position solves the equation of the
other lenses.  Every other solution converges to a solution for the other lenses.
-/

noncomputable section

namespace Microjax.Props

open Complex ComplexConjugate Microjax.Spec Filter
open scoped Topology

variable {n : ℕ} {X : Type*}

theorem sum_div_tendsto (F : Filter X) (m : X → Fin n → ℝ) (m0 : Fin n → ℝ)
    (hm : ∀ i, Tendsto (fun t => m t i) F (𝓝 (m0 i))) (y : X → Fin n → ℂ) (y0 : Fin n → ℂ) (S : Finset (Fin n))
    (hy : ∀ i ∈ S, Tendsto (fun t => y t i) F (𝓝 (y0 i))) (h0 : ∀ i ∈ S, y0 i ≠ 0) :
    Tendsto (fun t => ∑ i ∈ S, (m t i : ℂ) / y t i) F (𝓝 (∑ i ∈ S, (m0 i : ℂ) / y0 i)) :=
  tendsto_finsetSum _ fun i hi => ((Complex.continuous_ofReal.tendsto _).comp (hm i)).div (hy i hi) (h0 i hi)

theorem conj_tendsto {F : Filter X} {z : X → ℂ} {ρ : ℂ} (h : Tendsto z F (𝓝 ρ)) :
    Tendsto (fun t => conj (z t)) F (𝓝 (conj ρ)) := (Complex.continuous_conj.tendsto _).comp h

theorem lensMap_tendsto (F : Filter X) (m : X → Fin n → ℝ) (m0 : Fin n → ℝ)
    (hm : ∀ i, Tendsto (fun t => m t i) F (𝓝 (m0 i))) (c : Fin n → ℂ) (z : X → ℂ) (ρ : ℂ) (hz : Tendsto z F (𝓝 ρ))
    (hρ : ∀ i, ρ ≠ c i) :
    Tendsto (fun t => lensMap (lensList (m t) c) (z t)) F (𝓝 (lensMap (lensList m0 c) ρ)) := by
  simp only [lensMap_lensList]
  refine hz.sub (sum_div_tendsto F m m0 hm _ _ _ (fun i _ => (conj_tendsto hz).sub tendsto_const_nhds) fun i _ => ?_)
  rw [← map_sub]
  exact (map_ne_zero (starRingEnd ℂ)).mpr (sub_ne_zero.mpr (hρ i))

theorem detFormula_tendsto (F : Filter X) (m : X → Fin n → ℝ) (m0 : Fin n → ℝ)
    (hm : ∀ i, Tendsto (fun t => m t i) F (𝓝 (m0 i))) (c : Fin n → ℂ) (z : X → ℂ) (ρ : ℂ) (hz : Tendsto z F (𝓝 ρ))
    (hρ : ∀ i, ρ ≠ c i) :
    Tendsto (fun t => detFormula (lensList (m t) c) (z t)) F (𝓝 (detFormula (lensList m0 c) ρ)) := by
  simp only [detFormula_lensList]
  refine tendsto_const_nhds.sub (Tendsto.pow (Tendsto.norm ?_) 2)
  refine sum_div_tendsto F m m0 hm _ _ _ (fun i _ => ((conj_tendsto hz).sub tendsto_const_nhds).pow 2) fun i _ => ?_
  rw [← map_sub]
  exact pow_ne_zero _ ((map_ne_zero (starRingEnd ℂ)).mpr (sub_ne_zero.mpr (hρ i)))

theorem dualOf_tendsto (F : Filter X) (m : X → Fin n → ℝ) (m0 : Fin n → ℝ)
    (hm : ∀ i, Tendsto (fun t => m t i) F (𝓝 (m0 i))) (c : Fin n → ℂ) (v : X → ℂ) (v0 : ℂ) (hv : Tendsto v F (𝓝 v0))
    (z : X → ℂ) (ρ : ℂ) (hz : Tendsto z F (𝓝 ρ)) (hρ : ∀ i, ρ ≠ c i) :
    Tendsto (fun t => dualOf (m t) c (v t) (z t)) F (𝓝 (dualOf m0 c v0 ρ)) :=
  (conj_tendsto hv).add (sum_div_tendsto F m m0 hm _ _ _ (fun _ _ => hz.sub tendsto_const_nhds)
    fun i _ => sub_ne_zero.mpr (hρ i))

/-- The solutions near the lens whose mass tends to zero have magnifications that tend to zero. -/
theorem vanishing_mag (F : Filter X) (m : X → Fin n → ℝ) (m0 : Fin n → ℝ)
    (hm : ∀ i, Tendsto (fun t => m t i) F (𝓝 (m0 i))) (c : Fin n → ℂ) (hc : Function.Injective c) (v : X → ℂ) (v0 : ℂ)
    (hv : Tendsto v F (𝓝 v0)) (k : Fin n) (hk : m0 k = 0) (hm0 : ∀ i, i ≠ k → m0 i ≠ 0)
    (hY : dualOf m0 c v0 (c k) ≠ conj (c k))
    (hR : (∀ i, dualOf m0 c v0 (c k) ≠ conj (c i)) →
      c k ≠ v0 + ∑ i, (m0 i : ℂ) / (dualOf m0 c v0 (c k) - conj (c i)))
    (z : X → ℂ) (hz : Tendsto z F (𝓝 (c k))) (hsol : ∀ᶠ t in F, DualSol (m t) c (v t) (z t)) :
    Tendsto (fun t => 1 / |detFormula (lensList (m t) c) (z t)|) F (𝓝 0) := by
  classical
  rw [tendsto_iff_ultrafilter]
  intro U hU
  replace hm := fun i => (hm i).mono_left hU
  replace hv := hv.mono_left hU
  replace hz := hz.mono_left hU
  replace hsol := hU hsol
  set x : X → ℂ := fun t => (m t k : ℂ) / (z t - c k) with hx
  have hzk : Tendsto (fun t => ‖z t - c k‖) U (𝓝 0) := by
    have := (hz.sub_const (c k)).norm
    simpa using this
  have hne : ∀ i, i ∈ Finset.univ.erase k → c k - c i ≠ 0 := fun i hi =>
    sub_ne_zero.mpr fun h => (Finset.ne_of_mem_erase hi) (hc h).symm
  by_cases hA : ∃ δ : ℝ, 0 < δ ∧ ∀ᶠ t in U, δ ≤ ‖x t‖
  · obtain ⟨δ, hδ, hev⟩ := hA
    -- the shear tends to infinity
    have hrest : Tendsto (fun t => ‖∑ i ∈ Finset.univ.erase k, (m t i : ℂ) / (conj (z t) - conj (c i)) ^ 2‖) U
        (𝓝 ‖∑ i ∈ Finset.univ.erase k, (m0 i : ℂ) / (conj (c k) - conj (c i)) ^ 2‖) := by
      refine Tendsto.norm (sum_div_tendsto U m m0 hm _ _ _
        (fun i _ => ((conj_tendsto hz).sub tendsto_const_nhds).pow 2) fun i hi => ?_)
      rw [← map_sub]
      exact pow_ne_zero _ ((map_ne_zero (starRingEnd ℂ)).mpr (hne i hi))
    set B := ‖∑ i ∈ Finset.univ.erase k, (m0 i : ℂ) / (conj (c k) - conj (c i)) ^ 2‖ + 1 with hB
    have hB0 : 0 < B := by positivity
    have hbd := hrest.eventually_lt_const (lt_add_one _)
    rw [← hB] at hbd
    refine squeeze_zero' (Eventually.of_forall fun t => by positivity) (g := fun t => ‖z t - c k‖ * (4 * (1 / δ) + 1) ) ?_
      (by simpa using hzk.mul_const (4 * (1 / δ) + 1))
    have hsmall : ∀ᶠ t in U, ‖z t - c k‖ < δ / (2 * B + 2 * δ + 8) := hzk.eventually_lt_const (by positivity)
    filter_upwards [hev, hbd, hsmall, hsol] with t h1 h2 h3 h4
    have hz0 : 0 < ‖z t - c k‖ := norm_pos_iff.mpr (sub_ne_zero.mpr (h4.hz k))
    set d := ‖z t - c k‖ with hd
    rw [detFormula_lensList]
    have hS : δ / (2 * d) ≤ ‖∑ i, (m t i : ℂ) / (conj (z t) - conj (c i)) ^ 2‖ := by
      rw [← Finset.add_sum_erase _ _ (Finset.mem_univ k)]
      have e1 : ‖(m t k : ℂ) / (conj (z t) - conj (c k)) ^ 2‖ = ‖x t‖ / d := by
        rw [hx, ← map_sub, norm_div, norm_pow, RCLike.norm_conj, norm_div, ← hd]
        field_simp
      have e2 := norm_sub_norm_le ((m t k : ℂ) / (conj (z t) - conj (c k)) ^ 2)
        (-∑ i ∈ Finset.univ.erase k, (m t i : ℂ) / (conj (z t) - conj (c i)) ^ 2)
      rw [sub_neg_eq_add, norm_neg, e1] at e2
      have e3 : δ / d ≤ ‖x t‖ / d := div_le_div_of_nonneg_right h1 hz0.le
      have e4 : B ≤ δ / (2 * d) := by
        rw [le_div_iff₀ (by positivity)]
        rw [lt_div_iff₀ (by positivity)] at h3
        nlinarith
      have e5 : δ / d = δ / (2 * d) + δ / (2 * d) := by field_simp; norm_num
      linarith
    set S := ‖∑ i, (m t i : ℂ) / (conj (z t) - conj (c i)) ^ 2‖ with hSd
    have h2d : 2 ≤ δ / (2 * d) := by
      rw [le_div_iff₀ (by positivity)]
      rw [lt_div_iff₀ (by positivity)] at h3
      nlinarith
    have hge : δ / (4 * d) ≤ |1 - S ^ 2| := by
      rw [abs_sub_comm, abs_of_nonneg (by nlinarith)]
      have : δ / (2 * d) = 2 * (δ / (4 * d)) := by field_simp; norm_num
      nlinarith
    rw [div_le_iff₀ (lt_of_lt_of_le (by positivity) hge)]
    have : 1 = d * (4 * (1 / δ)) * (δ / (4 * d)) := by field_simp
    calc (1 : ℝ) = d * (4 * (1 / δ)) * (δ / (4 * d)) := this
      _ ≤ d * (4 * (1 / δ) + 1) * |1 - S ^ 2| := by
          refine mul_le_mul (mul_le_mul_of_nonneg_left (by linarith) hz0.le) hge (by positivity) (by positivity)
  · exfalso
    have hx0 : Tendsto x U (𝓝 0) := by
      rw [tendsto_zero_iff_norm_tendsto_zero]
      refine tendsto_order.mpr ⟨fun a ha => Eventually.of_forall fun t => lt_of_lt_of_le ha (norm_nonneg _), fun a ha => ?_⟩
      have h1 : ¬ ∀ᶠ t in U, a ≤ ‖x t‖ := fun h => hA ⟨a, ha, h⟩
      rw [← Ultrafilter.eventually_not] at h1
      filter_upwards [h1] with t ht
      exact not_le.mp ht
    have hYt : Tendsto (fun t => dualOf (m t) c (v t) (z t)) U (𝓝 (dualOf m0 c v0 (c k))) := by
      refine (conj_tendsto hv).add ?_
      simp only [← Finset.add_sum_erase _ _ (Finset.mem_univ k)]
      refine Tendsto.add ?_ (sum_div_tendsto U m m0 hm _ _ _ (fun i _ => hz.sub tendsto_const_nhds) hne)
      simpa [hk] using hx0
    by_cases hL : ∃ j, dualOf m0 c v0 (c k) = conj (c j)
    · obtain ⟨j, hj⟩ := hL
      have hjk : j ≠ k := by rintro rfl; exact hY hj
      have hoth : ∀ i ∈ Finset.univ.erase j, dualOf m0 c v0 (c k) - conj (c i) ≠ 0 := by
        intro i hi e
        rw [hj, ← map_sub] at e
        exact (Finset.ne_of_mem_erase hi) (hc (sub_eq_zero.mp ((map_eq_zero (starRingEnd ℂ)).mp e))).symm
      have l1 : Tendsto (fun t => (z t - v t - ∑ i ∈ Finset.univ.erase j, (m t i : ℂ) /
          (dualOf (m t) c (v t) (z t) - conj (c i))) * (dualOf (m t) c (v t) (z t) - conj (c j))) U (𝓝 0) := by
        have := ((hz.sub hv).sub (sum_div_tendsto U m m0 hm _ _ _ (fun i _ => hYt.sub tendsto_const_nhds) hoth)).mul
          (hYt.sub_const (conj (c j)))
        rw [hj, sub_self, mul_zero] at this
        exact this
      have l2 : Tendsto (fun t => (m t j : ℂ)) U (𝓝 0) := by
        refine l1.congr' ?_
        filter_upwards [hsol] with t ht
        have hyj : dualOf (m t) c (v t) (z t) - conj (c j) ≠ 0 := sub_ne_zero.mpr (ht.hy j)
        have := ht.ez
        rw [← Finset.add_sum_erase _ _ (Finset.mem_univ j)] at this
        have e : z t - v t - ∑ i ∈ Finset.univ.erase j, (m t i : ℂ) / (dualOf (m t) c (v t) (z t) - conj (c i))
            = (m t j : ℂ) / (dualOf (m t) c (v t) (z t) - conj (c j)) := by linear_combination this
        rw [e, div_mul_cancel₀ _ hyj]
      have l3 : Tendsto (fun t => (m t j : ℂ)) U (𝓝 (m0 j : ℂ)) := (Complex.continuous_ofReal.tendsto _).comp (hm j)
      exact hm0 j hjk (by exact_mod_cast tendsto_nhds_unique l3 l2)
    · push Not at hL
      have l1 : Tendsto (fun t => v t + ∑ i, (m t i : ℂ) / (dualOf (m t) c (v t) (z t) - conj (c i))) U
          (𝓝 (v0 + ∑ i, (m0 i : ℂ) / (dualOf m0 c v0 (c k) - conj (c i)))) :=
        hv.add (sum_div_tendsto U m m0 hm _ _ _ (fun i _ => hYt.sub tendsto_const_nhds)
          fun i _ => sub_ne_zero.mpr (hL i))
      refine hR hL (tendsto_nhds_unique (hz.congr' ?_) l1)
      filter_upwards [hsol] with t ht
      exact ht.ez

/-- The sum over the positions that map to within a tolerance of the source. -/
def maskSum (L : Lenses) (tol : ℝ) (w : ℂ) (zs : List ℂ) : ℝ :=
  (zs.map fun z => 1 / |detFormula L z| * (if ‖lensMap L z - w‖ < tol then 1 else 0)).sum

/-- **The masked sum when a mass tends to zero.** -/
theorem vanishing_maskSum (F : Filter X) (m : X → Fin n → ℝ) (m0 : Fin n → ℝ)
    (hm : ∀ i, Tendsto (fun t => m t i) F (𝓝 (m0 i))) (c : Fin n → ℂ) (hc : Function.Injective c) (v : X → ℂ) (v0 : ℂ)
    (hv : Tendsto v F (𝓝 v0)) (k : Fin n) (hk : m0 k = 0) (hm0 : ∀ i, i ≠ k → m0 i ≠ 0)
    (hY : dualOf m0 c v0 (c k) ≠ conj (c k))
    (hR : (∀ i, dualOf m0 c v0 (c k) ≠ conj (c i)) →
      c k ≠ v0 + ∑ i, (m0 i : ℂ) / (dualOf m0 c v0 (c k) - conj (c i)))
    (zs : X → List ℂ) (zs0 : List ℂ) (hzs : ListTendsto F zs zs0)
    (hsol : ∀ᶠ t in F, ∀ z ∈ zs t, DualSol (m t) c (v t) z) (tol : ℝ)
    (hreg : ∀ ρ ∈ zs0, ρ ≠ c k → (∀ i, ρ ≠ c i) ∧ (tol < ‖lensMap (lensList m0 c) ρ - v0‖ ∨
      ‖lensMap (lensList m0 c) ρ - v0‖ < tol ∧ detFormula (lensList m0 c) ρ ≠ 0)) :
    Tendsto (fun t => maskSum (lensList (m t) c) tol (v t) (zs t)) F
      (𝓝 (maskSum (lensList m0 c) tol v0 (zs0.filter (· ≠ c k)))) := by
  classical
  set g0 : ℂ → ℝ := fun z => if z = c k then 0 else
    1 / |detFormula (lensList m0 c) z| * (if ‖lensMap (lensList m0 c) z - v0‖ < tol then 1 else 0) with hg0
  have e : maskSum (lensList m0 c) tol v0 (zs0.filter (· ≠ c k)) = (zs0.map g0).sum := by
    unfold maskSum
    generalize zs0 = l
    induction l with
    | nil => rfl
    | cons a l ih =>
      by_cases h : a = c k
      · rw [List.filter_cons_of_neg (by simpa using h), ih, List.map_cons, List.sum_cons]
        simp [hg0, h]
      · rw [List.filter_cons_of_pos (by simpa using h), List.map_cons, List.sum_cons, ih, List.map_cons, List.sum_cons]
        simp [hg0, h]
  rw [e]
  refine listTendsto_sum hzs _ g0 fun ρ hρ G z hG hz hmem => ?_
  replace hm := fun i => (hm i).mono_left hG
  replace hv := hv.mono_left hG
  have hs : ∀ᶠ t in G, DualSol (m t) c (v t) (z t) := by
    filter_upwards [hmem, hG hsol] with t h1 h2
    exact h2 _ h1
  by_cases h : ρ = c k
  · subst h
    simp only [hg0, if_true]
    refine squeeze_zero (fun t => ?_) (fun t => ?_) (vanishing_mag G m m0 hm c hc v v0 hv k hk hm0 hY hR z hz hs)
    · positivity
    · exact mul_le_of_le_one_right (by positivity) (by split_ifs <;> norm_num)
  · obtain ⟨h1, h2⟩ := hreg ρ hρ h
    simp only [hg0, if_neg h]
    have hl := ((lensMap_tendsto G m m0 hm c z ρ hz h1).sub hv).norm
    rcases h2 with h2 | ⟨h2, h3⟩
    · rw [if_neg (not_lt.mpr h2.le), mul_zero]
      refine tendsto_const_nhds.congr' ?_
      filter_upwards [hl.eventually_const_lt h2] with t ht
      rw [if_neg (not_lt.mpr ht.le), mul_zero]
    · rw [if_pos h2, mul_one]
      have hd := (detFormula_tendsto G m m0 hm c z ρ hz h1).abs
      refine (tendsto_const_nhds.div hd (abs_ne_zero.mpr h3)).congr' ?_
      filter_upwards [hl.eventually_lt_const h2] with t ht
      rw [if_pos ht, mul_one]; rfl

theorem sum_le_pointMag (L : Lenses) (w : ℂ) (zs : List ℂ) (h : ∀ z, IsImage L w z → z ∈ zs) (S : Finset ℂ)
    (hS : ∀ z ∈ S, IsImage L w z) : ∑ z ∈ S, 1 / |detFormula L z| ≤ pointMag L w := by
  classical
  have hfin : {z | IsImage L w z}.Finite := zs.toFinset.finite_toSet.subset fun z hz => by
    simpa using h z hz
  rw [pointMag_eq_formula, finsum_mem_eq_finite_toFinset_sum _ hfin]
  exact Finset.sum_le_sum_of_subset_of_nonneg (fun z hz => by simpa using hS z hz) fun _ _ _ => by positivity

/-- **The magnification when a mass tends to zero.** -/
theorem vanishing_pointMag (F : Filter X) (m : X → Fin n → ℝ) (m0 : Fin n → ℝ)
    (hm : ∀ i, Tendsto (fun t => m t i) F (𝓝 (m0 i))) (c : Fin n → ℂ) (hc : Function.Injective c) (v : X → ℂ) (v0 : ℂ)
    (hv : Tendsto v F (𝓝 v0)) (k : Fin n) (hk : m0 k = 0) (hm0 : ∀ i, i ≠ k → m0 i ≠ 0)
    (hY : dualOf m0 c v0 (c k) ≠ conj (c k))
    (hR : (∀ i, dualOf m0 c v0 (c k) ≠ conj (c i)) →
      c k ≠ v0 + ∑ i, (m0 i : ℂ) / (dualOf m0 c v0 (c k) - conj (c i)))
    (zs : X → List ℂ) (zs0 : List ℂ) (hzs : ListTendsto F zs zs0)
    (hsol : ∀ᶠ t in F, ∀ z, z ∈ zs t ↔ DualSol (m t) c (v t) z)
    (hreg : ∀ ρ ∈ zs0, ρ ≠ c k → (∀ i, ρ ≠ c i) ∧
      (lensMap (lensList m0 c) ρ = v0 → detFormula (lensList m0 c) ρ ≠ 0))
    (V : List ℂ) (hV : V.Perm (zs0.filter fun ρ => decide (ρ ≠ c k ∧ lensMap (lensList m0 c) ρ = v0))) (hnd : V.Nodup) :
    Tendsto (fun t => pointMag (lensList (m t) c) (v t)) F
      (𝓝 ((V.map fun z => 1 / |detFormula (lensList m0 c) z|).sum)) := by
  classical
  obtain ⟨tol, htol, htol'⟩ : ∃ tol : ℝ, 0 < tol ∧ ∀ ρ ∈ zs0, lensMap (lensList m0 c) ρ ≠ v0 →
      tol < ‖lensMap (lensList m0 c) ρ - v0‖ := by
    clear hzs hreg hV
    induction zs0 with
    | nil => exact ⟨1, one_pos, by simp⟩
    | cons a l ih =>
      obtain ⟨tol, h1, h2⟩ := ih
      by_cases ha : lensMap (lensList m0 c) a = v0
      · refine ⟨tol, h1, fun ρ hρ hne => ?_⟩
        rcases List.mem_cons.mp hρ with rfl | hρ
        · exact absurd ha hne
        · exact h2 ρ hρ hne
      · have hpos : 0 < ‖lensMap (lensList m0 c) a - v0‖ := norm_pos_iff.mpr (sub_ne_zero.mpr ha)
        refine ⟨min tol (‖lensMap (lensList m0 c) a - v0‖ / 2), lt_min h1 (by positivity), fun ρ hρ hne => ?_⟩
        rcases List.mem_cons.mp hρ with rfl | hρ
        · exact (min_le_right _ _).trans_lt (by linarith)
        · exact (min_le_left _ _).trans_lt (h2 ρ hρ hne)
  have up := vanishing_maskSum F m m0 hm c hc v v0 hv k hk hm0 hY hR zs zs0 hzs
    (hsol.mono fun t ht z hz => (ht z).mp hz) tol fun ρ hρ hne => by
      obtain ⟨h1, h2⟩ := hreg ρ hρ hne
      refine ⟨h1, ?_⟩
      by_cases e : lensMap (lensList m0 c) ρ = v0
      · exact Or.inr ⟨by rw [e, sub_self, norm_zero]; exact htol, h2 e⟩
      · exact Or.inl (htol' ρ hρ e)
  have eV : maskSum (lensList m0 c) tol v0 (zs0.filter (· ≠ c k))
      = (V.map fun z => 1 / |detFormula (lensList m0 c) z|).sum := by
    rw [(hV.map _).sum_eq]
    unfold maskSum
    clear hzs hreg hV up
    induction zs0 with
    | nil => rfl
    | cons a l ih =>
      have ih' := ih fun ρ hρ => htol' ρ (List.mem_cons_of_mem _ hρ)
      by_cases h : a = c k
      · rw [List.filter_cons_of_neg (by simpa using h), List.filter_cons_of_neg (by simp [h]), ih']
      · rw [List.filter_cons_of_pos (by simpa using h), List.map_cons, List.sum_cons, ih']
        by_cases e : lensMap (lensList m0 c) a = v0
        · rw [List.filter_cons_of_pos (by simp [h, e]), List.map_cons, List.sum_cons, if_pos, mul_one]
          rw [e, sub_self, norm_zero]; exact htol
        · rw [List.filter_cons_of_neg (by simp [e]), if_neg, mul_zero, zero_add]
          exact not_lt.mpr (htol' a (by simp) e).le
  rw [eV] at up
  rw [tendsto_iff_ultrafilter]
  intro U hU
  obtain ⟨ρ, hp, hρ, hof⟩ := hzs U hU
  set z : Fin zs0.length → X → ℂ := fun i t => (zs t).getD i 0 with hz
  set I : Finset (Fin zs0.length) := Finset.univ.filter fun i => ρ i ≠ c k ∧ lensMap (lensList m0 c) (ρ i) = v0 with hI
  have hmemI : ∀ i, i ∈ I ↔ ρ i ≠ c k ∧ lensMap (lensList m0 c) (ρ i) = v0 := fun i => by simp [hI]
  have hρmem : ∀ i, ρ i ∈ zs0 := fun i => hp.subset (List.mem_ofFn.mpr ⟨i, rfl⟩)
  have hVρ : V.Perm ((List.ofFn ρ).filter fun ρ => decide (ρ ≠ c k ∧ lensMap (lensList m0 c) ρ = v0)) :=
    hV.trans (hp.symm.filter _)
  -- the limits of distinct indices of images are distinct from all others
  have hinj : ∀ i ∈ I, ∀ j, j ≠ i → ρ j ≠ ρ i := by
    intro i hi j hji e
    have hj : j ∈ I := by rw [hmemI, e, ← hmemI]; exact hi
    have h1 := hVρ.nodup_iff.mp hnd
    rw [List.Nodup, List.pairwise_filter, List.pairwise_ofFn] at h1
    have hi' := (hmemI i).mp hi
    have hj' := (hmemI j).mp hj
    rcases lt_or_gt_of_ne hji with h | h
    · exact h1 h (by simpa using hj') (by simpa using hi') e
    · exact h1 h (by simpa using hi') (by simpa using hj') e.symm
  have hsolU := hU hsol
  have hzmem : ∀ᶠ t in U, ∀ i, z i t ∈ zs t := by
    filter_upwards [hof] with t ht i
    have : z i t ∈ List.ofFn (fun i : Fin zs0.length => (zs t).getD i 0) := List.mem_ofFn.mpr ⟨i, rfl⟩
    rwa [ht] at this
  have himg : ∀ i ∈ I, ∀ᶠ t in U, IsImage (lensList (m t) c) (v t) (z i t) := by
    intro i hi
    obtain ⟨h1, h2⟩ := (hmemI i).mp hi
    have hl := (hreg _ (hρmem i) h1).1
    have hd : dualConj m0 c v0 (ρ i) = ρ i :=
      ((isImage_iff_dual m0 c v0 (ρ i)).mp ⟨by simpa [lensList] using hl, h2⟩).2
    have hdt : Tendsto (fun t => dualConj (m t) c (v t) (z i t)) U (𝓝 (ρ i)) := by
      have := conj_tendsto (dualOf_tendsto U m m0 (fun i => (hm i).mono_left hU) c v v0 (hv.mono_left hU) (z i) (ρ i)
        (hρ i) hl)
      rwa [← dualConj, hd] at this
    have hsep : ∀ j, j ≠ i → ∀ᶠ t in U, z j t ≠ dualConj (m t) c (v t) (z i t) := fun j hji =>
      ((hρ j).sub hdt).eventually_ne (sub_ne_zero.mpr (hinj i hi j hji)) |>.mono fun t ht e => ht (sub_eq_zero.mpr e)
    have hsep' : ∀ᶠ t in U, ∀ j, j ≠ i → z j t ≠ dualConj (m t) c (v t) (z i t) :=
      eventually_all.mpr fun j => by
        by_cases h : j = i
        · exact Eventually.of_forall fun t h' => absurd h h'
        · exact (hsep j h).mono fun t ht _ => ht
    filter_upwards [hsolU, hzmem, hof, hsep'] with t g1 g2 g3 g4
    have g5 := (g1 _).mp (g2 i)
    have g6 := (g1 _).mpr (dualSol_conj (m t) c (v t) _ g5)
    rw [← g3] at g6
    obtain ⟨j, hj⟩ := List.mem_ofFn.mp g6
    have : j = i := by
      by_contra h
      exact g4 j h hj
    subst this
    exact (isImage_iff_dual _ _ _ _).mpr ⟨g5, hj.symm⟩
  have hlow : ∀ᶠ t in U, ∑ i ∈ I, 1 / |detFormula (lensList (m t) c) (z i t)| ≤ pointMag (lensList (m t) c) (v t) := by
    have hsep : ∀ᶠ t in U, ∀ i ∈ I, ∀ j, j ≠ i → z j t ≠ z i t := by
      refine eventually_all.mpr fun i => ?_
      by_cases hi : i ∈ I
      · have : ∀ᶠ t in U, ∀ j, j ≠ i → z j t ≠ z i t := eventually_all.mpr fun j => by
          by_cases h : j = i
          · exact Eventually.of_forall fun t h' => absurd h h'
          · exact (((hρ j).sub (hρ i)).eventually_ne (sub_ne_zero.mpr (hinj i hi j h))).mono
              fun t ht _ e => ht (sub_eq_zero.mpr e)
        exact this.mono fun t ht _ => ht
      · exact Eventually.of_forall fun t h' => absurd h' hi
    have himg' : ∀ᶠ t in U, ∀ i ∈ I, IsImage (lensList (m t) c) (v t) (z i t) := by
      refine eventually_all.mpr fun i => ?_
      by_cases hi : i ∈ I
      · exact (himg i hi).mono fun t ht _ => ht
      · exact Eventually.of_forall fun t h' => absurd h' hi
    filter_upwards [hsep, himg', hsolU] with t g1 g2 g3
    have hin : Set.InjOn (fun i => z i t) I := fun i hi j _ e => by
      by_contra h
      exact g1 i hi j (fun h' => h h'.symm) e.symm
    rw [← Finset.sum_image (f := fun z => 1 / |detFormula (lensList (m t) c) z|) hin]
    refine sum_le_pointMag _ _ (zs t) (fun x hx => (g3 x).mpr ((isImage_iff_dual _ _ _ _).mp hx).1) _ fun x hx => ?_
    obtain ⟨i, hi, rfl⟩ := Finset.mem_image.mp hx
    exact g2 i hi
  have hupp : ∀ᶠ t in U, pointMag (lensList (m t) c) (v t) ≤ maskSum (lensList (m t) c) tol (v t) (zs t) := by
    filter_upwards [hsolU] with t g
    refine (pointMag_le_of_list _ _ ((zs t).filter fun x => decide (‖lensMap (lensList (m t) c) x - v t‖ < tol))
      fun x hx => ?_).trans (le_of_eq ?_)
    · rw [List.mem_filter, decide_eq_true_eq]
      exact ⟨(g x).mpr ((isImage_iff_dual _ _ _ _).mp hx).1, by rw [hx.2, sub_self, norm_zero]; exact htol⟩
    · unfold maskSum
      generalize zs t = l
      induction l with
      | nil => rfl
      | cons a l ih =>
        by_cases h : ‖lensMap (lensList (m t) c) a - v t‖ < tol
        · rw [List.filter_cons_of_pos (by simpa using h), List.map_cons, List.sum_cons, List.map_cons, List.sum_cons,
            ih, if_pos h, mul_one]
        · rw [List.filter_cons_of_neg (by simpa using h), List.map_cons, List.sum_cons, ih, if_neg h, mul_zero, zero_add]
  have llow : Tendsto (fun t => ∑ i ∈ I, 1 / |detFormula (lensList (m t) c) (z i t)|) U
      (𝓝 ((V.map fun z => 1 / |detFormula (lensList m0 c) z|).sum)) := by
    have e : (V.map fun z => 1 / |detFormula (lensList m0 c) z|).sum
        = ∑ i ∈ I, 1 / |detFormula (lensList m0 c) (ρ i)| := by
      have hin : Set.InjOn ρ I := fun i hi j _ e => by
        by_contra h
        exact hinj i hi j (fun h' => h h'.symm) e.symm
      rw [← Finset.sum_image (f := fun z => 1 / |detFormula (lensList m0 c) z|) hin,
        ← List.sum_toFinset _ hnd]
      refine Finset.sum_congr ?_ fun _ _ => rfl
      ext x
      rw [List.mem_toFinset, hVρ.mem_iff, List.mem_filter, List.mem_ofFn, Finset.mem_image]
      constructor
      · rintro ⟨⟨i, rfl⟩, h⟩
        exact ⟨i, (hmemI i).mpr (by simpa using h), rfl⟩
      · rintro ⟨i, hi, rfl⟩
        exact ⟨⟨i, rfl⟩, by simpa using (hmemI i).mp hi⟩
    rw [e]
    refine tendsto_finsetSum _ fun i hi => ?_
    obtain ⟨h1, h2⟩ := (hmemI i).mp hi
    obtain ⟨g1, g2⟩ := hreg _ (hρmem i) h1
    exact tendsto_const_nhds.div (detFormula_tendsto U m m0 (fun i => (hm i).mono_left hU) c (z i) (ρ i) (hρ i) g1).abs
      (abs_ne_zero.mpr (g2 h2))
  exact tendsto_of_tendsto_of_tendsto_of_le_of_le' llow (up.mono_left hU) hlow hupp

end Microjax.Props
