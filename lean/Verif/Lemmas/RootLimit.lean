import Verif.Props.Tracking
import Verif.Props.PolySolver
import Mathlib.Topology.Order.LiminfLimsup
import Mathlib.Order.Filter.Ultrafilter.Basic

/-!
# Limits of sums over the roots of a polynomial

When the coefficients of a polynomial tend to those of a polynomial of the same degree, a sum over its roots tends to
the sum over the roots of the limit, also when roots of the limit coincide.
-/

noncomputable section

namespace Microjax.Props

open Complex ComplexConjugate Microjax.Spec Filter
open scoped Topology

theorem evalPoly_tendsto {X : Type*} (F : Filter X) (n : ℕ) (c : X → List ℂ) (c0 : List ℂ)
    (hlen : ∀ t, (c t).length = n + 1) (hlen0 : c0.length = n + 1)
    (hc : ∀ k : ℕ, Tendsto (fun t => (c t).getD k 0) F (𝓝 (c0.getD k 0))) (z : ℂ) :
    Tendsto (fun t => evalPoly (c t) z) F (𝓝 (evalPoly c0 z)) := by
  have e : ∀ l : List ℂ, l.length = n + 1 → evalPoly l z = ((List.range (n + 1)).map fun k : ℕ =>
      l.getD k 0 * z ^ (n - k)).sum := by
    intro l hl
    rw [evalPoly_eq_sum, hl]
    rfl
  rw [e c0 hlen0]
  simp only [e _ (hlen _)]
  have key : ∀ l : List ℕ, Tendsto (fun t => (l.map fun k : ℕ => (c t).getD k 0 * z ^ (n - k)).sum) F
      (𝓝 ((l.map fun k : ℕ => c0.getD k 0 * z ^ (n - k)).sum)) := by
    intro l
    induction l with
    | nil => exact tendsto_const_nhds
    | cons k l ih =>
      simp only [List.map_cons, List.sum_cons]
      exact ((hc k).mul tendsto_const_nhds).add ih
  exact key _

/-- A root is at most the sum of the moduli of the coefficients over that of the leading one, or at most one. -/
theorem root_norm_le (n : ℕ) (c : List ℂ) (hlen : c.length = n + 1) (hlead : c.headD 0 ≠ 0) (z : ℂ)
    (hz : evalPoly c z = 0) :
    ‖z‖ ≤ max 1 (((List.range n).map fun k : ℕ => ‖c.getD (k + 1) 0‖).sum / ‖c.headD 0‖) := by
  rcases le_or_gt ‖z‖ 1 with h | h
  · exact h.trans (le_max_left _ _)
  refine le_trans ?_ (le_max_right _ _)
  have hl : 0 < ‖c.headD 0‖ := norm_pos_iff.mpr hlead
  have h0 : c.getD 0 0 = c.headD 0 := by cases c <;> rfl
  rw [evalPoly_eq_sum, hlen, List.range_succ_eq_map, List.map_cons, List.sum_cons, h0, List.map_map] at hz
  rw [le_div_iff₀ hl]
  rcases Nat.eq_zero_or_pos n with rfl | hn
  · exfalso; apply hlead; simpa using hz
  have h1 : c.headD 0 * z ^ n = -((List.range n).map fun k : ℕ => c.getD (k + 1) 0 * z ^ (n - (k + 1))).sum := by
    have : (n + 1 - 1 - 0) = n := by omega
    rw [this] at hz
    rw [eq_neg_iff_add_eq_zero]
    exact hz
  have h2 : ‖((List.range n).map fun k : ℕ => c.getD (k + 1) 0 * z ^ (n - (k + 1))).sum‖
      ≤ ((List.range n).map fun k : ℕ => ‖c.getD (k + 1) 0‖).sum * ‖z‖ ^ (n - 1) := by
    have : ∀ l : List ℕ, ‖(l.map fun k : ℕ => c.getD (k + 1) 0 * z ^ (n - (k + 1))).sum‖
        ≤ (l.map fun k : ℕ => ‖c.getD (k + 1) 0‖).sum * ‖z‖ ^ (n - 1) := by
      intro l
      induction l with
      | nil => simp
      | cons k l ih =>
        simp only [List.map_cons, List.sum_cons, add_mul]
        refine (norm_add_le _ _).trans (add_le_add ?_ ih)
        rw [norm_mul, norm_pow]
        exact mul_le_mul_of_nonneg_left (pow_le_pow_right₀ h.le (by omega)) (norm_nonneg _)
    exact this _
  have h3 := congrArg norm h1
  rw [norm_neg, norm_mul, norm_pow] at h3
  have hzp : 0 < ‖z‖ ^ (n - 1) := by positivity
  have h4 : ‖z‖ ^ n = ‖z‖ * ‖z‖ ^ (n - 1) := by
    rw [← pow_succ', Nat.sub_add_cancel hn]
  rw [h4] at h3
  have : ‖z‖ * ‖c.headD 0‖ * ‖z‖ ^ (n - 1)
      ≤ ((List.range n).map fun k : ℕ => ‖c.getD (k + 1) 0‖).sum * ‖z‖ ^ (n - 1) := by
    calc ‖z‖ * ‖c.headD 0‖ * ‖z‖ ^ (n - 1) = ‖c.headD 0‖ * (‖z‖ * ‖z‖ ^ (n - 1)) := by ring
      _ ≤ _ := by rw [h3]; exact h2
  exact le_of_mul_le_mul_right this hzp

/-- The list of the first `n` entries. -/
theorem ofFn_getD (l : List ℂ) (n : ℕ) (h : l.length = n) : List.ofFn (fun i : Fin n => l.getD i 0) = l := by
  apply List.ext_getElem
  · simp [h]
  · intro k h1 h2
    simp [h2]

/-- Along an ultrafilter the roots converge, to the roots of the limit. -/
theorem roots_limit {X : Type*} (U : Ultrafilter X) (n : ℕ) (c rs : X → List ℂ) (c0 rs0 : List ℂ)
    (hlen : ∀ t, (c t).length = n + 1) (hlen0 : c0.length = n + 1)
    (hc : ∀ k : ℕ, Tendsto (fun t => (c t).getD k 0) U (𝓝 (c0.getD k 0))) (hlead : c0.headD 0 ≠ 0)
    (hrs : ∀ᶠ t in U, IsRootList (c t) (rs t)) (hrs0 : IsRootList c0 rs0) :
    ∃ ρ : Fin n → ℂ, (List.ofFn ρ).Perm rs0 ∧ (∀ i : Fin n, Tendsto (fun t => (rs t).getD i 0) U (𝓝 (ρ i))) ∧
      ∀ᶠ t in U, List.ofFn (fun i : Fin n => (rs t).getD i 0) = rs t := by
  have hgh : ∀ l : List ℂ, l.headD 0 = l.getD 0 0 := fun l => by cases l <;> rfl
  have hhead : Tendsto (fun t => (c t).headD 0) U (𝓝 (c0.headD 0)) := by
    simp only [hgh]; exact hc 0
  have e1 : ∀ᶠ t in U, (c t).headD 0 ≠ 0 := hhead.eventually_ne hlead
  have e2 : ∀ᶠ t in U, List.ofFn (fun i : Fin n => (rs t).getD i 0) = rs t := by
    filter_upwards [e1, hrs] with t h1 h2
    exact ofFn_getD _ n (rootList_length h1 h2 (hlen t))
  set B : List ℂ → ℝ := fun l => max 1 (((List.range n).map fun k : ℕ => ‖l.getD (k + 1) 0‖).sum / ‖l.headD 0‖) with hB
  have hBt : Tendsto (fun t => B (c t)) U (𝓝 (B c0)) := by
    refine Tendsto.max tendsto_const_nhds (Tendsto.div ?_ hhead.norm (norm_ne_zero_iff.mpr hlead))
    have key : ∀ l : List ℕ, Tendsto (fun t => (l.map fun k : ℕ => ‖(c t).getD (k + 1) 0‖).sum) U
        (𝓝 ((l.map fun k : ℕ => ‖c0.getD (k + 1) 0‖).sum)) := by
      intro l
      induction l with
      | nil => exact tendsto_const_nhds
      | cons k l ih =>
        simp only [List.map_cons, List.sum_cons]
        exact ((hc (k + 1)).norm).add ih
    exact key _
  have e3 : ∀ i : Fin n, ∀ᶠ t in U, (rs t).getD i 0 ∈ Metric.closedBall (0 : ℂ) (B c0 + 1) := by
    intro i
    filter_upwards [e1, hrs, hBt.eventually_lt_const (lt_add_one (B c0))] with t h1 h2 h3
    rw [mem_closedBall_zero_iff]
    refine (root_norm_le n (c t) (hlen t) h1 _ (IsRootList.eval_zero_of_mem h2 ?_)).trans h3.le
    have hl := rootList_length h1 h2 (hlen t)
    have hi : (i : ℕ) < (rs t).length := by rw [hl]; exact i.2
    rw [List.getD_eq_getElem _ _ hi]
    exact List.getElem_mem _
  have e4 : ∀ i : Fin n, ∃ x : ℂ, Tendsto (fun t => (rs t).getD i 0) U (𝓝 x) := by
    intro i
    obtain ⟨x, -, hx⟩ := (isCompact_closedBall (0 : ℂ) (B c0 + 1)).ultrafilter_le_nhds'
      (U.map fun t => (rs t).getD i 0) (e3 i)
    exact ⟨x, hx⟩
  choose ρ hρ using e4
  refine ⟨ρ, perm_of_prod_eq fun x => ?_, hρ, e2⟩
  have l1 := evalPoly_tendsto U n c c0 hlen hlen0 hc x
  have l2 : Tendsto (fun t => evalPoly (c t) x) U (𝓝 (c0.headD 0 * ∏ i, (x - ρ i))) := by
    have l3 : Tendsto (fun t => (c t).headD 0 * ∏ i : Fin n, (x - (rs t).getD i 0)) U
        (𝓝 (c0.headD 0 * ∏ i, (x - ρ i))) :=
      hhead.mul (tendsto_finsetProd _ fun i _ => tendsto_const_nhds.sub (hρ i))
    refine l3.congr' ?_
    filter_upwards [e2, hrs] with t h1 h2
    rw [h2 x]
    conv_rhs => rw [← h1]
    rw [List.map_ofFn, List.prod_ofFn]; rfl
  have := tendsto_nhds_unique l1 l2
  rw [hrs0 x] at this
  rw [List.map_ofFn, List.prod_ofFn]
  exact (mul_left_cancel₀ hlead this).symm

/-- The lists `zs t` have the limit `zs0` as lists with multiplicity: along every ultrafilter the entries converge to
those of a rearrangement of `zs0`. -/
def ListTendsto {X : Type*} (F : Filter X) (zs : X → List ℂ) (zs0 : List ℂ) : Prop :=
  ∀ U : Ultrafilter X, (U : Filter X) ≤ F → ∃ ρ : Fin zs0.length → ℂ, (List.ofFn ρ).Perm zs0 ∧
    (∀ i : Fin zs0.length, Tendsto (fun t => (zs t).getD i 0) U (𝓝 (ρ i))) ∧
    ∀ᶠ t in U, List.ofFn (fun i : Fin zs0.length => (zs t).getD i 0) = zs t

/-- The roots of polynomials whose coefficients converge. -/
theorem roots_listTendsto {X : Type*} (F : Filter X) (n : ℕ) (c rs : X → List ℂ) (c0 rs0 : List ℂ)
    (hlen : ∀ t, (c t).length = n + 1) (hlen0 : c0.length = n + 1)
    (hc : ∀ k : ℕ, Tendsto (fun t => (c t).getD k 0) F (𝓝 (c0.getD k 0))) (hlead : c0.headD 0 ≠ 0)
    (hrs : ∀ᶠ t in F, IsRootList (c t) (rs t)) (hrs0 : IsRootList c0 rs0) : ListTendsto F rs rs0 := by
  intro U hU
  have hl : rs0.length = n := rootList_length hlead hrs0 hlen0
  rw [hl]
  exact roots_limit U n c rs c0 rs0 hlen hlen0 (fun k => (hc k).mono_left hU) hlead (hU hrs) hrs0

/-- Adding a number that converges. -/
theorem listTendsto_add {X : Type*} {F : Filter X} {zs : X → List ℂ} {zs0 : List ℂ} (h : ListTendsto F zs zs0)
    (T : X → ℂ) (T0 : ℂ) (hT : Tendsto T F (𝓝 T0)) :
    ListTendsto F (fun t => (zs t).map (· + T t)) (zs0.map (· + T0)) := by
  intro U hU
  obtain ⟨ρ, h1, h2, h3⟩ := h U hU
  rw [List.length_map]
  have hlen : ∀ᶠ t in U, (zs t).length = zs0.length := by
    filter_upwards [h3] with t ht
    rw [← ht, List.length_ofFn]
  have hget : ∀ i : Fin zs0.length, ∀ t, (zs t).length = zs0.length →
      ((zs t).map (· + T t)).getD i 0 = (zs t).getD i 0 + T t := by
    intro i t ht
    have hi : (i : ℕ) < (zs t).length := by rw [ht]; exact i.2
    rw [List.getD_eq_getElem _ _ (by simpa using hi), List.getD_eq_getElem _ _ hi, List.getElem_map]
  refine ⟨fun i => ρ i + T0, ?_, fun i => ?_, ?_⟩
  · have := h1.map (· + T0)
    rwa [List.map_ofFn] at this
  · refine ((h2 i).add (hT.mono_left hU)).congr' ?_
    filter_upwards [hlen] with t ht
    exact (hget i t ht).symm
  · filter_upwards [h3, hlen] with t ht hl
    conv_rhs => rw [← ht]
    rw [List.map_ofFn]
    congr 1
    funext i
    exact hget i t hl

/-- **Sums over the entries pass to the limit**, if the terms do along the entries. -/
theorem listTendsto_sum {X : Type*} {F : Filter X} {zs : X → List ℂ} {zs0 : List ℂ} (h : ListTendsto F zs zs0)
    (g : X → ℂ → ℝ) (g0 : ℂ → ℝ)
    (hg : ∀ ρ ∈ zs0, ∀ (G : Filter X) (z : X → ℂ), G ≤ F → Tendsto z G (𝓝 ρ) → (∀ᶠ t in G, z t ∈ zs t) →
      Tendsto (fun t => g t (z t)) G (𝓝 (g0 ρ))) :
    Tendsto (fun t => ((zs t).map (g t)).sum) F (𝓝 ((zs0.map g0).sum)) := by
  rw [tendsto_iff_ultrafilter]
  intro U hU
  obtain ⟨ρ, hp, hρ, hof⟩ := h U hU
  rw [← (hp.map g0).sum_eq, List.map_ofFn, List.sum_ofFn]
  have l : Tendsto (fun t => ∑ i : Fin zs0.length, g t ((zs t).getD i 0)) U (𝓝 (∑ i, (g0 ∘ ρ) i)) := by
    refine tendsto_finsetSum _ fun i _ => ?_
    refine hg (ρ i) (hp.subset (List.mem_ofFn.mpr ⟨i, rfl⟩)) U _ hU (hρ i) ?_
    filter_upwards [hof] with t h1
    have : (zs t).getD i 0 ∈ List.ofFn (fun i : Fin zs0.length => (zs t).getD i 0) := List.mem_ofFn.mpr ⟨i, rfl⟩
    rwa [h1] at this
  refine l.congr' ?_
  filter_upwards [hof] with t h1
  conv_rhs => rw [← h1]
  rw [List.map_ofFn, List.sum_ofFn]; rfl

end Microjax.Props
