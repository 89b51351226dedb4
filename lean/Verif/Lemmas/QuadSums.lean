import Verif.Model.ExtendedSource
import Verif.Lemmas.Lensing
import Verif.Lemmas.Riemann
import Verif.Spec.ExtendedSource
import Mathlib.Data.List.GetD

/-! # The quadrature of `extended_source.py` written as a double sum over grid cells -/

noncomputable section

namespace Microjax.Props

open Complex PointSource ExtendedSource Boundary Spec

theorem sum_eq_range (l : List ℝ) : l.sum = ∑ i ∈ Finset.range l.length, l.getD i 0 := by
  induction l with
  | nil => simp
  | cons x l ih => rw [List.sum_cons, List.length_cons, Finset.sum_range_succ', ih]; simp [add_comm]

theorem length_linspace (a b : ℝ) (n : ℕ) : (linspace a b n).length = n := by simp [linspace]

theorem getElem_linspace (a b : ℝ) (n i : ℕ) (h : i < (linspace a b n).length) :
    (linspace a b n)[i] = a + i * spacing a b n := by
  simp [linspace, spacing]

theorem linspace_step (a b : ℝ) (n : ℕ) (hn : 2 ≤ n) :
    Jnp.get 0 (linspace a b n) 1 - Jnp.get 0 (linspace a b n) 0 = spacing a b n := by
  have h1 : min 1 (n - 1) = 1 := by omega
  simp only [Jnp.get, length_linspace, h1, Nat.zero_min]
  rw [List.getD_eq_getElem _ _ (by rw [length_linspace]; omega),
    List.getD_eq_getElem _ _ (by rw [length_linspace]; omega), getElem_linspace, getElem_linspace]
  push_cast; ring

theorem length_slice {α : Type*} (i j : ℕ) (x : List α) : (slice i j x).length = x.length - i - j := by
  simp [slice]

theorem getElem_slice {α : Type*} (i j k : ℕ) (x : List α) (h : k < (slice i j x).length) :
    (slice i j x)[k] = x[i + k]'(by rw [length_slice] at h; omega) := by
  simp [slice]

/-- Angle of the grid node `j`. -/
def node (a b : ℝ) (n j : ℕ) : ℝ := a + j * spacing a b n

theorem processR_eq (dist : ℝ → ℝ) (rho r0 α β : ℝ) (M : ℕ) (hM : 2 ≤ M) :
    ∃ est : ℕ → ℝ, processR dist rho r0 (linspace α β M) =
      ∑ j ∈ Finset.range (M - 3), r0 * spacing α β M *
        cellWeight (inSource (dist (node α β M (j + 1))) rho) (inSource (dist (node α β M (j + 2))) rho) (est j) := by
  refine ⟨fun j => (cubicInterpArray rho (slice 0 3 ((linspace α β M).map dist))
    (slice 1 2 ((linspace α β M).map dist)) (slice 2 1 ((linspace α β M).map dist))
    (slice 3 0 ((linspace α β M).map dist)) 0 1 2 3 zeroTerm).getD j 0, ?_⟩
  simp only [processR, linspace_step _ _ _ hM]
  rw [sum_eq_range]
  have hlen : ∀ e : List ℝ, e.length = M - 3 →
      ((((slice 1 2 (((linspace α β M).map dist).map fun d => inSource d rho)).zip
        (slice 2 1 (((linspace α β M).map dist).map fun d => inSource d rho))).zip e).length) = M - 3 := by
    intro e he
    simp only [List.length_zip, length_slice, List.length_map, length_linspace, he]
    omega
  have hc : (cubicInterpArray rho (slice 0 3 ((linspace α β M).map dist))
      (slice 1 2 ((linspace α β M).map dist)) (slice 2 1 ((linspace α β M).map dist))
      (slice 3 0 ((linspace α β M).map dist)) 0 1 2 3 zeroTerm).length = M - 3 := by
    simp only [cubicInterpArray, List.length_map, List.length_zip, length_slice, length_linspace]
    omega
  rw [List.length_map, hlen _ hc]
  refine Finset.sum_congr rfl fun j hj => ?_
  have hj' := Finset.mem_range.mp hj
  rw [List.getD_eq_getElem _ _ (by rw [List.length_map, hlen _ hc]; exact hj'),
    List.getD_eq_getElem _ _ (by rw [hc]; exact hj')]
  simp only [List.getElem_map, List.getElem_zip, getElem_slice, getElem_linspace, node]
  rw [Nat.add_comm 1 j, Nat.add_comm 2 j]

theorem computeForRange_eq (dist : ℝ → ℝ → ℝ) (rho a b α β : ℝ) (N M : ℕ) (hN : 2 ≤ N) (hM : 2 ≤ M) :
    ∃ est : ℕ → ℕ → ℝ, computeForRange dist rho N M ((a, b), (α, β)) =
      spacing a b N * ∑ i ∈ Finset.range N, (spacing α β M * ∑ j ∈ Finset.range (M - 3),
        node a b N i * cellWeight (inSource (dist (node a b N i) (node α β M (j + 1))) rho)
          (inSource (dist (node a b N i) (node α β M (j + 2))) rho) (est i j)) := by
  choose est hest using fun r0 : ℝ => processR_eq (dist r0) rho r0 α β M hM
  refine ⟨fun i => est (node a b N i), ?_⟩
  simp only [computeForRange, linspace_step _ _ _ hN]
  rw [sum_eq_range, List.length_map, length_linspace]
  congr 1
  refine Finset.sum_congr rfl fun i hi => ?_
  rw [List.getD_eq_getElem _ _ (by rw [List.length_map, length_linspace]; exact Finset.mem_range.mp hi),
    List.getElem_map, getElem_linspace]
  change processR (dist (node a b N i)) rho (node a b N i) _ = _
  rw [hest, Finset.mul_sum]
  refine Finset.sum_congr rfl fun j _ => ?_
  ring

theorem processRLD_eq (dist : ℝ → ℝ) (rho u1 delta_c r0 α β : ℝ) (M : ℕ) (hM : 2 ≤ M) :
    ∃ e1 e2 : ℕ → ℝ, processRLD dist rho u1 delta_c r0 (linspace α β M) =
      ∑ j ∈ Finset.range (M - 4), r0 * spacing α β M *
        cellWeightLD (inSource (dist (node α β M (j + 1))) rho) (inSource (dist (node α β M (j + 2))) rho)
          (inSource (dist (node α β M (j + 3))) rho) (e1 j) (e2 j)
          (isLimb1st (dist (node α β M (j + 2)) / rho) u1) delta_c := by
  set ds := (linspace α β M).map dist with hds
  have hl : ds.length = M := by rw [hds, List.length_map, length_linspace]
  set E1 := cubicInterpArray rho (slice 0 4 ds) (slice 1 3 ds) (slice 2 2 ds) (slice 3 1 ds) 0 1 2 3 zeroTerm with hE1
  set E2 := cubicInterpArray rho (slice 1 3 ds) (slice 2 2 ds) (slice 3 1 ds) (slice 4 0 ds) 0 1 2 3 zeroTerm with hE2
  refine ⟨fun j => E1.getD j 0, fun j => E2.getD j 0, ?_⟩
  simp only [processRLD, linspace_step _ _ _ hM, ← hds, ← hE1, ← hE2]
  have hc1 : E1.length = M - 4 := by
    simp only [hE1, cubicInterpArray, List.length_map, List.length_zip, length_slice, hl]
    omega
  have hc2 : E2.length = M - 4 := by
    simp only [hE2, cubicInterpArray, List.length_map, List.length_zip, length_slice, hl]
    omega
  rw [sum_eq_range]
  have hlen : ((((slice 1 3 (ds.map fun d => inSource d rho)).zip (slice 2 2 (ds.map fun d => inSource d rho))).zip
      ((slice 3 1 (ds.map fun d => inSource d rho)).zip
        (slice 2 2 (ds.map fun d => isLimb1st (d / rho) u1)))).zip (E1.zip E2)).length = M - 4 := by
    simp only [List.length_zip, length_slice, List.length_map, hl, hc1, hc2]
    omega
  rw [List.length_map, hlen]
  refine Finset.sum_congr rfl fun j hj => ?_
  have hj' := Finset.mem_range.mp hj
  rw [List.getD_eq_getElem _ _ (by rw [List.length_map, hlen]; exact hj'),
    List.getD_eq_getElem _ _ (by rw [hc1]; exact hj'), List.getD_eq_getElem _ _ (by rw [hc2]; exact hj')]
  simp only [List.getElem_map, List.getElem_zip, getElem_slice, hds, getElem_linspace, node]
  rw [Nat.add_comm 1 j, Nat.add_comm 2 j, Nat.add_comm 3 j]

theorem computeForRangeLD_eq (dist : ℝ → ℝ → ℝ) (rho u1 delta_c a b α β : ℝ) (N M : ℕ) (hN : 2 ≤ N) (hM : 2 ≤ M) :
    ∃ e1 e2 : ℕ → ℕ → ℝ, computeForRangeLD dist rho u1 delta_c N M ((a, b), (α, β)) =
      spacing a b N * ∑ i ∈ Finset.range N, (spacing α β M * ∑ j ∈ Finset.range (M - 4),
        node a b N i * cellWeightLD (inSource (dist (node a b N i) (node α β M (j + 1))) rho)
          (inSource (dist (node a b N i) (node α β M (j + 2))) rho)
          (inSource (dist (node a b N i) (node α β M (j + 3))) rho) (e1 i j) (e2 i j)
          (isLimb1st (dist (node a b N i) (node α β M (j + 2)) / rho) u1) delta_c) := by
  choose e1 e2 hest using fun r0 : ℝ => processRLD_eq (dist r0) rho u1 delta_c r0 α β M hM
  refine ⟨fun i => e1 (node a b N i), fun i => e2 (node a b N i), ?_⟩
  simp only [computeForRangeLD, linspace_step _ _ _ hN]
  rw [sum_eq_range, List.length_map, length_linspace]
  congr 1
  refine Finset.sum_congr rfl fun i hi => ?_
  rw [List.getD_eq_getElem _ _ (by rw [List.length_map, length_linspace]; exact Finset.mem_range.mp hi),
    List.getElem_map, getElem_linspace]
  change processRLD (dist (node a b N i)) rho u1 delta_c (node a b N i) _ = _
  rw [hest, Finset.mul_sum]
  refine Finset.sum_congr rfl fun j _ => ?_
  ring

theorem foldl_add_sum {α : Type*} (f : α → ℝ) (l : List α) (c : ℝ) :
    l.foldl (fun carry x => carry + f x) c = c + (l.map f).sum := by
  induction l generalizing c with
  | nil => simp
  | cons x l ih => rw [List.foldl_cons, ih, List.map_cons, List.sum_cons]; ring

/-! ### Cell weights -/

theorem inSource_eq (d rho : ℝ) : inSource d rho = if d < rho then 1 else 0 := by
  simp only [inSource, sub_neg]

theorem inSource_cases (d rho : ℝ) : inSource d rho = 0 ∨ inSource d rho = 1 := by
  rw [inSource_eq]; split_ifs <;> simp

theorem clip_mem (x : ℝ) : 0 ≤ clip x 0 1 ∧ clip x 0 1 ≤ 1 := by
  simp [clip]

theorem cellWeight_mem (d1 d2 rho e : ℝ) :
    0 ≤ cellWeight (inSource d1 rho) (inSource d2 rho) e ∧ cellWeight (inSource d1 rho) (inSource d2 rho) e ≤ 1 := by
  have h1 := clip_mem (e - 1)
  have h2 := clip_mem (2 - e)
  rcases inSource_cases d1 rho with h | h <;> rcases inSource_cases d2 rho with h' | h' <;>
    simp [cellWeight, h, h', h1, h2]

/-- Two samples on the same side of the limb: the cell counts fully or not at all. -/
theorem cellWeight_same (d1 d2 rho e : ℝ) (h : d1 < rho ↔ d2 < rho) :
    cellWeight (inSource d1 rho) (inSource d2 rho) e = if d1 < rho then 1 else 0 := by
  rw [inSource_eq, inSource_eq]
  by_cases h1 : d1 < rho
  · simp [cellWeight, h1, h.mp h1]
  · have h2 : ¬ d2 < rho := fun h2 => h1 (h.mpr h2)
    simp [cellWeight, h1, h2]

theorem cellWeightLD_same (d1 d2 d3 rho e1 e2 B dc : ℝ) (h : d1 < rho ↔ d2 < rho) (h' : d3 < rho ↔ d2 < rho) :
    cellWeightLD (inSource d1 rho) (inSource d2 rho) (inSource d3 rho) e1 e2 B dc = if d2 < rho then B else 0 := by
  rw [inSource_eq, inSource_eq, inSource_eq]
  by_cases h1 : d2 < rho
  · simp [cellWeightLD, h1, h.mpr h1, h'.mpr h1]
  · simp [cellWeightLD, h1]

/-! ### Distances -/

/-- The lenses of the user's frame. -/
theorem rayDistance_eq (nlenses : ℕ) (u : UserParams) (w : ℂ) (r th : ℝ) (L : Lenses)
    (hL : (nlenses = 3 ∧ L = (midTriple (midParams3 u)).map fun l => (l.1, l.2 + (xCM u : ℂ))) ∨
      (nlenses ≠ 3 ∧ L = (midBinary (midParams2 u)).map fun l => (l.1, l.2 + (xCM u : ℂ)))) :
    rayDistance nlenses u w r th = ‖lensMap L (r * exp (I * th)) - w‖ := by
  have hz : (((r * Real.cos th : ℝ) : ℂ) + I * ((r * Real.sin th : ℝ) : ℂ)) = r * exp (I * th) := by
    rw [mul_comm I (th : ℂ), exp_mul_I]; push_cast; ring
  simp only [rayDistance, distanceFromSource, hz, lensEqN]
  rcases hL with ⟨hn, rfl⟩ | ⟨hn, rfl⟩
  · rw [if_pos hn, lensEq3_eq]
    have := lensMap_translate (midTriple (midParams3 u)) (xCM u) (r * exp (I * th) - xCM u)
    rw [sub_add_cancel] at this
    rw [this]; congr 1; ring
  · rw [if_neg hn, lensEq2_eq]
    have := lensMap_translate (midBinary (midParams2 u)) (xCM u) (r * exp (I * th) - xCM u)
    rw [sub_add_cancel] at this
    rw [this]; congr 1; ring

end Microjax.Props
