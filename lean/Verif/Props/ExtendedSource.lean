import Verif.Lemmas.RayConvergence
import Verif.Props.PointSource
import Verif.Props.Boundary

/-! # C37, C71, C72: ray shooting over the ring regions -/

noncomputable section

namespace Microjax.Props

open Complex ComplexConjugate PointSource ExtendedSource Boundary Spec MeasureTheory Filter Topology Set

/-! ## C37 -/

/-- **C37**: the weight of an angular cell lies in `[0, 1]` whatever the estimated crossing; it is one if both middle
samples are inside the source and zero if both are outside. -/
theorem C37_cell_weight (d1 d2 rho th_est : ℝ) :
    (0 ≤ cellWeight (inSource d1 rho) (inSource d2 rho) th_est ∧
      cellWeight (inSource d1 rho) (inSource d2 rho) th_est ≤ 1) ∧
    (d1 < rho → d2 < rho → cellWeight (inSource d1 rho) (inSource d2 rho) th_est = 1) ∧
    (rho ≤ d1 → rho ≤ d2 → cellWeight (inSource d1 rho) (inSource d2 rho) th_est = 0) := by
  refine ⟨cellWeight_mem _ _ _ _, fun h1 h2 => ?_, fun h1 h2 => ?_⟩
  · rw [cellWeight_same _ _ _ _ (iff_of_true h1 h2), if_pos h1]
  · rw [cellWeight_same _ _ _ _ (iff_of_false (not_lt.mpr h1) (not_lt.mpr h2)), if_neg (not_lt.mpr h1)]

/-- Area of a polar sector. -/
def sectorArea (R : (ℝ × ℝ) × (ℝ × ℝ)) : ℝ := (R.1.2 ^ 2 - R.1.1 ^ 2) / 2 * (R.2.2 - R.2.1)

theorem sum_nodes (a b : ℝ) (N : ℕ) (hN : 2 ≤ N) :
    spacing a b N * ∑ i ∈ Finset.range N, node a b N i = (b ^ 2 - a ^ 2) / 2 * (N / ((N : ℝ) - 1)) := by
  have hs : ∀ n : ℕ, ∑ i ∈ Finset.range n, node a b N i = n * a + n * (n - 1) / 2 * spacing a b N := by
    intro n
    induction n with
    | zero => simp
    | succ n ih => rw [Finset.sum_range_succ, ih, node]; push_cast; ring
  have : (2 : ℝ) ≤ N := by exact_mod_cast hN
  have h1 : (N : ℝ) - 1 ≠ 0 := by linarith
  rw [hs, spacing]
  field_simp
  ring

theorem spacing_nonneg (a b : ℝ) (h : a ≤ b) (n : ℕ) (hn : 2 ≤ n) : 0 ≤ spacing a b n := by
  have : (2 : ℝ) ≤ n := by exact_mod_cast hn
  exact div_nonneg (by linarith) (by linarith)

theorem node_nonneg (a b : ℝ) (ha : 0 ≤ a) (h : a ≤ b) (n : ℕ) (hn : 2 ≤ n) (i : ℕ) : 0 ≤ node a b n i := by
  have := spacing_nonneg a b h n hn
  unfold node; positivity

theorem region_sum (a b α β : ℝ) (N M : ℕ) (hN : 2 ≤ N) :
    spacing a b N * ∑ i ∈ Finset.range N, (spacing α β M * ∑ _j ∈ Finset.range (M - 3), node a b N i) =
      (b ^ 2 - a ^ 2) / 2 * (β - α) * ((N : ℝ) / (N - 1) * (((M - 3 : ℕ) : ℝ) / (M - 1))) := by
  simp only [Finset.sum_const, Finset.card_range, nsmul_eq_mul]
  have e : ∀ i, spacing α β M * (((M - 3 : ℕ) : ℝ) * node a b N i)
      = spacing α β M * ((M - 3 : ℕ) : ℝ) * node a b N i := fun i => by ring
  simp only [e, ← Finset.mul_sum]
  rw [mul_left_comm, sum_nodes a b N hN, spacing]
  ring

theorem region_bounds (dist : ℝ → ℝ → ℝ) (rho : ℝ) (N M : ℕ) (hN : 2 ≤ N) (hM : 2 ≤ M)
    (R : (ℝ × ℝ) × (ℝ × ℝ)) (h0 : 0 ≤ R.1.1) (h1 : R.1.1 ≤ R.1.2) (h2 : R.2.1 ≤ R.2.2) :
    0 ≤ computeForRange dist rho N M R ∧
    computeForRange dist rho N M R ≤ sectorArea R * ((N : ℝ) / (N - 1) * (((M - 3 : ℕ) : ℝ) / (M - 1))) := by
  obtain ⟨⟨a, b⟩, α, β⟩ := R
  simp only at h0 h1 h2
  obtain ⟨est, he⟩ := computeForRange_eq dist rho a b α β N M hN hM
  have hs := spacing_nonneg a b h1 N hN
  have ht := spacing_nonneg α β h2 M hM
  have hn := node_nonneg a b h0 h1 N hN
  rw [he, sectorArea, ← region_sum a b α β N M hN]
  constructor
  · refine mul_nonneg hs (Finset.sum_nonneg fun i _ => mul_nonneg ht (Finset.sum_nonneg fun j _ => ?_))
    exact mul_nonneg (hn i) (cellWeight_mem _ _ _ _).1
  · refine mul_le_mul_of_nonneg_left (Finset.sum_le_sum fun i _ => mul_le_mul_of_nonneg_left
      (Finset.sum_le_sum fun j _ => ?_) ht) hs
    exact mul_le_of_le_one_right (hn i) (cellWeight_mem _ _ _ _).2

theorem sum_map_le {α : Type*} (l : List α) (f g : α → ℝ) (h : ∀ x ∈ l, f x ≤ g x) : (l.map f).sum ≤ (l.map g).sum := by
  induction l with
  | nil => simp
  | cons x l ih =>
    simp only [List.map_cons, List.sum_cons]
    exact add_le_add (h x (by simp)) (ih fun y hy => h y (by simp [hy]))

theorem sum_map_nonneg {α : Type*} (l : List α) (f : α → ℝ) (h : ∀ x ∈ l, 0 ≤ f x) : 0 ≤ (l.map f).sum := by
  have := sum_map_le l (fun _ => 0) f h
  simpa using this

theorem magUniform_eq (nlenses : ℕ) (u : UserParams) (w : ℂ) (rho : ℝ) (N M : ℕ)
    (regions : List ((ℝ × ℝ) × (ℝ × ℝ))) : magUniform nlenses u w rho N M regions =
      (regions.map fun R => computeForRange (rayDistance nlenses u w) rho N M R).sum / (Real.pi * rho ^ 2) := by
  simp only [magUniform, foldl_add_sum, zero_add, div_div]
  rw [mul_comm]

/-- **C37**: for every list of regions (with ordered radii and angles), every lens, source and resolution of at
least two samples, the magnification is non-negative and at most
`N/(N-1) · (M-3)/(M-1) · Σ areas / (π rho²)`; this is at most `Σ areas / (π rho²)` when the angular resolution
`M` is at most `2N + 1`. -/
theorem C37_bounds (nlenses : ℕ) (u : UserParams) (w : ℂ) (rho : ℝ) (N M : ℕ) (hN : 2 ≤ N) (hM : 2 ≤ M)
    (regions : List ((ℝ × ℝ) × (ℝ × ℝ)))
    (hreg : ∀ R ∈ regions, 0 ≤ R.1.1 ∧ R.1.1 ≤ R.1.2 ∧ R.2.1 ≤ R.2.2) :
    0 ≤ magUniform nlenses u w rho N M regions ∧
    magUniform nlenses u w rho N M regions ≤
      (N : ℝ) / (N - 1) * (((M - 3 : ℕ) : ℝ) / (M - 1)) * ((regions.map sectorArea).sum / (Real.pi * rho ^ 2)) ∧
    (M ≤ 2 * N + 1 → magUniform nlenses u w rho N M regions ≤ (regions.map sectorArea).sum / (Real.pi * rho ^ 2)) := by
  have hd : 0 ≤ Real.pi * rho ^ 2 := by positivity
  have hb := fun R hR => region_bounds (rayDistance nlenses u w) rho N M hN hM R (hreg R hR).1 (hreg R hR).2.1 (hreg R hR).2.2
  have hN' : (2 : ℝ) ≤ N := by exact_mod_cast hN
  have hM' : (2 : ℝ) ≤ M := by exact_mod_cast hM
  have harea : 0 ≤ (regions.map sectorArea).sum := by
    refine sum_map_nonneg _ _ fun R hR => ?_
    obtain ⟨h0, h1, h2⟩ := hreg R hR
    refine mul_nonneg (by nlinarith) (by linarith)
  have hmain : magUniform nlenses u w rho N M regions ≤
      (N : ℝ) / (N - 1) * (((M - 3 : ℕ) : ℝ) / (M - 1)) * ((regions.map sectorArea).sum / (Real.pi * rho ^ 2)) := by
    rw [magUniform_eq, mul_div_assoc']
    refine div_le_div_of_nonneg_right ?_ hd
    refine (sum_map_le _ _ _ fun R hR => (hb R hR).2).trans (le_of_eq ?_)
    rw [List.sum_map_mul_right, mul_comm]
  refine ⟨?_, hmain, fun hMN => hmain.trans ?_⟩
  · rw [magUniform_eq]
    exact div_nonneg (sum_map_nonneg _ _ fun R hR => (hb R hR).1) hd
  · refine mul_le_of_le_one_left (div_nonneg harea hd) ?_
    have hMN' : (M : ℝ) ≤ 2 * N + 1 := by exact_mod_cast hMN
    rw [div_mul_div_comm, div_le_one (by nlinarith)]
    rcases Nat.lt_or_ge M 3 with h | h
    · rw [Nat.sub_eq_zero_of_le h.le]
      push_cast
      nlinarith
    · rw [Nat.cast_sub h]
      push_cast
      nlinarith

/-- **C37**: regions of zero radial extent (in particular the zero rows that pad `define_regions`' result) contribute
nothing. -/
theorem C37_zero_region (nlenses : ℕ) (u : UserParams) (w : ℂ) (rho : ℝ) (N M : ℕ)
    (regions : List ((ℝ × ℝ) × (ℝ × ℝ))) :
    magUniform nlenses u w rho N M (regions.filter fun R => R.1.1 ≠ R.1.2) = magUniform nlenses u w rho N M regions := by
  rw [magUniform_eq, magUniform_eq]
  congr 1
  induction regions with
  | nil => rfl
  | cons R l ih =>
    by_cases h : R.1.1 = R.1.2
    · have hz : computeForRange (rayDistance nlenses u w) rho N M R = 0 := by
        obtain ⟨⟨a, b⟩, α, β⟩ := R
        simp only at h
        subst h
        have hc : linspace a a N = List.replicate N a := by
          apply List.ext_getElem
          · simp [linspace]
          · intro i h1 h2
            simp [linspace]
        have hget : Jnp.get 0 (List.replicate N a) 1 = Jnp.get 0 (List.replicate N a) 0 := by
          simp only [Jnp.get, List.length_replicate]
          rcases Nat.lt_or_ge N 2 with h | h
          · have : N - 1 = 0 := by omega
            simp [this]
          · rw [List.getD_eq_getElem _ _ (by simp; omega), List.getD_eq_getElem _ _ (by simp; omega)]
            simp
        simp only [computeForRange, hc, hget, sub_self, zero_mul]
      simp only [List.filter_cons, h, ne_eq, not_true_eq_false, decide_false, Bool.false_eq_true, if_false,
        List.map_cons, List.sum_cons, hz, zero_add]
      simpa using ih
    · simp only [List.filter_cons, h, ne_eq, not_false_eq_true, decide_true, if_true, List.map_cons, List.sum_cons]
      simpa using ih

/-- **C37**: the bound is attained: a region all of whose rays hit the source contributes exactly
`N/(N-1) · (M-3)/(M-1)` times its area. -/
theorem C37_inside_exact (nlenses : ℕ) (u : UserParams) (w : ℂ) (rho : ℝ) (N M : ℕ) (hN : 2 ≤ N) (hM : 2 ≤ M)
    (a b α β : ℝ) (hab : a < b) (hαβ : α < β)
    (hin : ∀ r ∈ Icc a b, ∀ θ ∈ Icc α β, rayDistance nlenses u w r θ < rho) :
    magUniform nlenses u w rho N M [((a, b), (α, β))] =
      (N : ℝ) / (N - 1) * (((M - 3 : ℕ) : ℝ) / (M - 1)) * (sectorArea ((a, b), (α, β)) / (Real.pi * rho ^ 2)) := by
  rw [magUniform_eq]
  simp only [List.map_cons, List.map_nil, List.sum_cons, List.sum_nil, add_zero]
  obtain ⟨est, he⟩ := computeForRange_eq (rayDistance nlenses u w) rho a b α β N M hN hM
  have hsum : computeForRange (rayDistance nlenses u w) rho N M ((a, b), (α, β)) =
      spacing a b N * ∑ i ∈ Finset.range N, (spacing α β M * ∑ _j ∈ Finset.range (M - 3), node a b N i) := by
    rw [he]
    congr 1
    refine Finset.sum_congr rfl fun i hi => ?_
    congr 1
    refine Finset.sum_congr rfl fun j hj => ?_
    have hi' := Finset.mem_range.mp hi
    have hj' := Finset.mem_range.mp hj
    have hr := node_mem a b hab N i hi'
    have ht1 := node_mem α β hαβ M (j + 1) (by omega)
    have ht2 := node_mem α β hαβ M (j + 2) (by omega)
    rw [(C37_cell_weight _ _ _ _).2.1 (hin _ hr _ ht1) (hin _ hr _ ht2), mul_one]
  rw [hsum, region_sum a b α β N M hN, sectorArea]
  simp only
  ring

/-- A case for `C37_inside_exact`: an equal-mass binary, a large source, a sector away from the lenses. -/
example : ∀ r ∈ Icc (1 : ℝ) 2, ∀ θ ∈ Icc (0 : ℝ) 1, rayDistance 2 { s := 1, q := 1 } 0 r θ < 100 := by
  intro r hr θ _
  have hn : ‖(r : ℂ) * exp (I * θ)‖ = r := by
    rw [norm_mul, mul_comm I, norm_exp_ofReal_mul_I, mul_one, norm_real, Real.norm_of_nonneg (by linarith [hr.1])]
  have hz : (((r * Real.cos θ : ℝ) : ℂ) + I * ((r * Real.sin θ : ℝ) : ℂ)) = r * exp (I * θ) := by
    rw [mul_comm I (θ : ℂ), exp_mul_I]; push_cast; ring
  simp only [rayDistance, distanceFromSource, hz, lensEqN, if_neg (show ¬ (2 = 3) by decide), lensEq2, midParams2, xCM]
  generalize (r : ℂ) * exp (I * θ) = z at hn
  have hlow : ∀ c : ℝ, |c| ≤ 1 / 2 → ‖((1 / 2 : ℝ) : ℂ) / (conj z - c)‖ ≤ 1 := by
    intro c hc
    have h1 : ‖conj z‖ ≤ ‖conj z - c‖ + ‖(c : ℂ)‖ := by
      calc ‖conj z‖ = ‖conj z - c + c‖ := by rw [sub_add_cancel]
        _ ≤ _ := norm_add_le _ _
    rw [RCLike.norm_conj, norm_real, Real.norm_eq_abs] at h1
    have h2 : 1 / 2 ≤ ‖conj z - c‖ := by linarith [hr.1]
    rw [norm_div, norm_real, div_le_one (by linarith)]
    rw [Real.norm_of_nonneg (by norm_num)]; exact h2
  have e1 := hlow (1 / 2) (by rw [abs_of_pos (by norm_num)])
  have e2 := hlow (-(1 / 2)) (by rw [abs_neg, abs_of_pos (by norm_num)])
  have : ‖z - ((1 / 2 : ℝ) : ℂ) / (conj z - (1 / 2 : ℝ)) - ((1 / 2 : ℝ) : ℂ) / (conj z - (-(1 / 2) : ℝ))‖ ≤ 4 := by
    refine (norm_sub_le _ _).trans ?_
    have := norm_sub_le z (((1 / 2 : ℝ) : ℂ) / (conj z - (1 / 2 : ℝ)))
    linarith [hr.2]
  refine lt_of_le_of_lt (le_of_eq ?_) (lt_of_le_of_lt this (by norm_num))
  congr 1
  push_cast
  norm_num

/-- The region list of a concrete case for `C37_bounds`. -/
example : ∀ R ∈ [((1, 2), (0, 1)), ((0, 0), (0, 0))], (0 : ℝ) ≤ R.1.1 ∧ R.1.1 ≤ R.1.2 ∧ (R.2.1 : ℝ) ≤ R.2.2 := by
  intro R hR
  fin_cases hR <;> norm_num

end Microjax.Props
