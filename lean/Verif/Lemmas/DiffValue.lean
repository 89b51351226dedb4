import Verif.Model.Differentiated
import Verif.Lemmas.QuadSums

/-! # The values that `mag_uniform` and `mag_limb_dark` compute under differentiation, as double sums over grid cells -/

noncomputable section

namespace Microjax.Props

open Complex PointSource ExtendedSource Boundary Spec Differentiated

theorem dual_add_v (x y : Dual) : (x + y).v = x.v + y.v := rfl
theorem dual_sub_v (x y : Dual) : (x - y).v = x.v - y.v := rfl
theorem dual_mul_v (x y : Dual) : (x * y).v = x.v * y.v := rfl
theorem dual_div_v (x y : Dual) : (x / y).v = x.v / y.v := rfl
theorem dual_add_d (x y : Dual) : (x + y).d = x.d + y.d := rfl
theorem dual_sub_d (x y : Dual) : (x - y).d = x.d - y.d := rfl
theorem dual_mul_d (x y : Dual) : (x * y).d = x.d * y.v + x.v * y.d := rfl
theorem dual_div_d (x y : Dual) : (x / y).d = x.d / y.v - x.v * y.d / y.v ^ 2 := rfl

theorem clip01_v (x : Dual) : x.clip01.v = clip x.v 0 1 := rfl

theorem cellWeightD_v (a b e : Dual) : (cellWeightD a b e).v = cellWeight a.v b.v e.v := rfl

theorem cellWeightLDD_v (a b c e1 e2 B dc : Dual) :
    (cellWeightLDD a b c e1 e2 B dc).v = cellWeightLD a.v b.v c.v e1.v e2.v B.v dc.v := rfl

/-- The value that `in_source` takes under differentiation. -/
def softIn (d rho : ℝ) : ℝ := Real.sigmoid (100 * ((rho - d) / rho))

theorem inSourceD_v (x rho : Dual) : (inSourceD x rho).v = softIn x.v rho.v := rfl

/-- The value that `Is_limb_1st` takes under differentiation. -/
def softLimb (x u1 : ℝ) : ℝ := (isLimb1stJvp (x, u1) (0, 0)).1

theorem isLimb1stD_v (x u1 : Dual) : (isLimb1stD x u1).v = softLimb x.v u1.v := rfl

theorem length_linspaceD (a b : Dual) (n : ℕ) : (linspaceD a b n).length = n := by simp [linspaceD]

theorem getElem_linspaceD_v (a b : Dual) (n i : ℕ) (h : i < (linspaceD a b n).length) :
    ((linspaceD a b n)[i]).v = node a.v b.v n i := by
  simp [linspaceD, spacing, node, dual_add_v, dual_mul_v, dual_div_v, dual_sub_v, Dual.const]

theorem linspaceD_step (a b : Dual) (n : ℕ) (hn : 2 ≤ n) :
    (Jnp.get (Dual.const 0) (linspaceD a b n) 1 - Jnp.get (Dual.const 0) (linspaceD a b n) 0).v = spacing a.v b.v n := by
  have h1 : min 1 (n - 1) = 1 := by omega
  simp only [Jnp.get, length_linspaceD, h1, Nat.zero_min, dual_sub_v]
  rw [List.getD_eq_getElem _ _ (by rw [length_linspaceD]; omega),
    List.getD_eq_getElem _ _ (by rw [length_linspaceD]; omega), getElem_linspaceD_v, getElem_linspaceD_v]
  simp only [node]
  push_cast; ring

theorem sum_v (l : List Dual) : (Dual.sum l).v = (l.map Dual.v).sum := rfl

theorem processRD_v (dist : Dual → Dual) (f : ℝ → ℝ) (hf : ∀ x, (dist x).v = f x.v) (rho r0 α β : Dual) (M : ℕ)
    (hM : 2 ≤ M) :
    ∃ est : ℕ → ℝ, (processRD dist rho r0 (linspaceD α β M)).v =
      ∑ j ∈ Finset.range (M - 3), r0.v * spacing α.v β.v M *
        cellWeight (softIn (f (node α.v β.v M (j + 1))) rho.v) (softIn (f (node α.v β.v M (j + 2))) rho.v) (est j) := by
  set E := cubicInterpArrayD rho (slice 0 3 ((linspaceD α β M).map dist))
    (slice 1 2 ((linspaceD α β M).map dist)) (slice 2 1 ((linspaceD α β M).map dist))
    (slice 3 0 ((linspaceD α β M).map dist)) with hE
  have hc : E.length = M - 3 := by
    simp only [hE, cubicInterpArrayD, List.length_map, List.length_zip, length_slice, length_linspaceD]
    omega
  refine ⟨fun j => (E.getD j (Dual.const 0)).v, ?_⟩
  simp only [processRD, sum_v, ← hE]
  rw [sum_eq_range]
  have hlen : ((((slice 1 2 (((linspaceD α β M).map dist).map fun d => inSourceD d rho)).zip
        (slice 2 1 (((linspaceD α β M).map dist).map fun d => inSourceD d rho))).zip E).length) = M - 3 := by
    simp only [List.length_zip, length_slice, List.length_map, length_linspaceD, hc]
    omega
  rw [List.length_map, List.length_map, hlen]
  refine Finset.sum_congr rfl fun j hj => ?_
  have hj' := Finset.mem_range.mp hj
  rw [List.getD_eq_getElem _ _ (by rw [List.length_map, List.length_map, hlen]; exact hj'),
    List.getD_eq_getElem _ _ (by rw [hc]; exact hj')]
  simp only [List.getElem_map, List.getElem_zip, getElem_slice, dual_mul_v, cellWeightD_v, inSourceD_v, hf,
    getElem_linspaceD_v, linspaceD_step α β M hM]
  rw [Nat.add_comm 1 j, Nat.add_comm 2 j]

theorem computeForRangeD_v (dist : Dual → Dual → Dual) (f : ℝ → ℝ → ℝ) (hf : ∀ r x, (dist r x).v = f r.v x.v)
    (rho a b α β : Dual) (N M : ℕ) (hN : 2 ≤ N) (hM : 2 ≤ M) :
    ∃ est : ℕ → ℕ → ℝ, (computeForRangeD dist rho N M ((a, b), (α, β))).v =
      spacing a.v b.v N * ∑ i ∈ Finset.range N, (spacing α.v β.v M * ∑ j ∈ Finset.range (M - 3),
        node a.v b.v N i * cellWeight (softIn (f (node a.v b.v N i) (node α.v β.v M (j + 1))) rho.v)
          (softIn (f (node a.v b.v N i) (node α.v β.v M (j + 2))) rho.v) (est i j)) := by
  choose est hest using fun r0 : Dual => processRD_v (dist r0) (f r0.v) (hf r0) rho r0 α β M hM
  refine ⟨fun i => est ((linspaceD a b N).getD i (Dual.const 0)), ?_⟩
  simp only [computeForRangeD, dual_mul_v, sum_v]
  rw [linspaceD_step a b N hN, sum_eq_range, List.length_map, List.length_map, length_linspaceD]
  congr 1
  refine Finset.sum_congr rfl fun i hi => ?_
  have hi' : i < (linspaceD a b N).length := by rw [length_linspaceD]; exact Finset.mem_range.mp hi
  rw [List.getD_eq_getElem _ _ (by rw [List.length_map, List.length_map]; exact hi'), List.getElem_map,
    List.getElem_map, hest, List.getD_eq_getElem _ _ hi', getElem_linspaceD_v, Finset.mul_sum]
  refine Finset.sum_congr rfl fun j _ => ?_
  ring

theorem processRLDD_v (dist : Dual → Dual) (f : ℝ → ℝ) (hf : ∀ x, (dist x).v = f x.v) (rho u1 delta_c r0 α β : Dual)
    (M : ℕ) (hM : 2 ≤ M) :
    ∃ e1 e2 : ℕ → ℝ, (processRLDD dist rho u1 delta_c r0 (linspaceD α β M)).v =
      ∑ j ∈ Finset.range (M - 4), r0.v * spacing α.v β.v M *
        cellWeightLD (softIn (f (node α.v β.v M (j + 1))) rho.v) (softIn (f (node α.v β.v M (j + 2))) rho.v)
          (softIn (f (node α.v β.v M (j + 3))) rho.v) (e1 j) (e2 j)
          (softLimb (f (node α.v β.v M (j + 2)) / rho.v) u1.v) delta_c.v := by
  set ds := (linspaceD α β M).map dist with hds
  have hl : ds.length = M := by rw [hds, List.length_map, length_linspaceD]
  set E1 := cubicInterpArrayD rho (slice 0 4 ds) (slice 1 3 ds) (slice 2 2 ds) (slice 3 1 ds) with hE1
  set E2 := cubicInterpArrayD rho (slice 1 3 ds) (slice 2 2 ds) (slice 3 1 ds) (slice 4 0 ds) with hE2
  have hc1 : E1.length = M - 4 := by
    simp only [hE1, cubicInterpArrayD, List.length_map, List.length_zip, length_slice, hl]
    omega
  have hc2 : E2.length = M - 4 := by
    simp only [hE2, cubicInterpArrayD, List.length_map, List.length_zip, length_slice, hl]
    omega
  refine ⟨fun j => (E1.getD j (Dual.const 0)).v, fun j => (E2.getD j (Dual.const 0)).v, ?_⟩
  simp only [processRLDD, sum_v, ← hds, ← hE1, ← hE2]
  rw [sum_eq_range]
  have hlen : ((((slice 1 3 (ds.map fun d => inSourceD d rho)).zip (slice 2 2 (ds.map fun d => inSourceD d rho))).zip
      ((slice 3 1 (ds.map fun d => inSourceD d rho)).zip
        (slice 2 2 (ds.map fun d => isLimb1stD (d / rho) u1)))).zip (E1.zip E2)).length = M - 4 := by
    simp only [List.length_zip, length_slice, List.length_map, hl, hc1, hc2]
    omega
  rw [List.length_map, List.length_map, hlen]
  refine Finset.sum_congr rfl fun j hj => ?_
  have hj' := Finset.mem_range.mp hj
  rw [List.getD_eq_getElem _ _ (by rw [List.length_map, List.length_map, hlen]; exact hj'),
    List.getD_eq_getElem _ _ (by rw [hc1]; exact hj'), List.getD_eq_getElem _ _ (by rw [hc2]; exact hj')]
  simp only [List.getElem_map, List.getElem_zip, getElem_slice, hds, dual_mul_v, dual_div_v, cellWeightLDD_v, inSourceD_v,
    isLimb1stD_v, hf, getElem_linspaceD_v, linspaceD_step α β M hM]
  rw [Nat.add_comm 1 j, Nat.add_comm 2 j, Nat.add_comm 3 j]

theorem computeForRangeLDD_v (dist : Dual → Dual → Dual) (f : ℝ → ℝ → ℝ) (hf : ∀ r x, (dist r x).v = f r.v x.v)
    (rho u1 delta_c a b α β : Dual) (N M : ℕ) (hN : 2 ≤ N) (hM : 2 ≤ M) :
    ∃ e1 e2 : ℕ → ℕ → ℝ, (computeForRangeLDD dist rho u1 delta_c N M ((a, b), (α, β))).v =
      spacing a.v b.v N * ∑ i ∈ Finset.range N, (spacing α.v β.v M * ∑ j ∈ Finset.range (M - 4),
        node a.v b.v N i * cellWeightLD (softIn (f (node a.v b.v N i) (node α.v β.v M (j + 1))) rho.v)
          (softIn (f (node a.v b.v N i) (node α.v β.v M (j + 2))) rho.v)
          (softIn (f (node a.v b.v N i) (node α.v β.v M (j + 3))) rho.v) (e1 i j) (e2 i j)
          (softLimb (f (node a.v b.v N i) (node α.v β.v M (j + 2)) / rho.v) u1.v) delta_c.v) := by
  choose e1 e2 hest using fun r0 : Dual => processRLDD_v (dist r0) (f r0.v) (hf r0) rho u1 delta_c r0 α β M hM
  refine ⟨fun i => e1 ((linspaceD a b N).getD i (Dual.const 0)), fun i => e2 ((linspaceD a b N).getD i (Dual.const 0)), ?_⟩
  simp only [computeForRangeLDD, dual_mul_v, sum_v]
  rw [linspaceD_step a b N hN, sum_eq_range, List.length_map, List.length_map, length_linspaceD]
  congr 1
  refine Finset.sum_congr rfl fun i hi => ?_
  have hi' : i < (linspaceD a b N).length := by rw [length_linspaceD]; exact Finset.mem_range.mp hi
  rw [List.getD_eq_getElem _ _ (by rw [List.length_map, List.length_map]; exact hi'), List.getElem_map,
    List.getElem_map, hest, List.getD_eq_getElem _ _ hi', getElem_linspaceD_v, Finset.mul_sum]
  refine Finset.sum_congr rfl fun j _ => ?_
  ring

theorem rayDistanceD_v (nlenses : ℕ) (u du : UserParams) (w dw : ℂ) (r th : Dual) :
    (rayDistanceD nlenses u du w dw r th).v = rayDistance nlenses u w r.v th.v := by
  simp only [rayDistanceD, rayDistance, distanceFromSource]

theorem foldl_add_v {α : Type*} (f : α → Dual) (l : List α) (c : Dual) :
    (l.foldl (fun carry x => carry + f x) c).v = c.v + (l.map fun x => (f x).v).sum := by
  induction l generalizing c with
  | nil => simp
  | cons x l ih => rw [List.foldl_cons, ih, List.map_cons, List.sum_cons, dual_add_v]; ring

/-! ### Cell weights -/

theorem clip_add (e : ℝ) : clip (e - 1) 0 1 + clip (2 - e) 0 1 = 1 := by
  simp only [clip]
  rcases le_total (e - 1) 0 with h | h <;> rcases le_total (2 - e) 0 with h' | h' <;>
    simp only [max_eq_left, max_eq_right, h, h']
  · linarith
  · rw [min_eq_left zero_le_one, min_eq_right (by linarith)]; ring
  · rw [min_eq_right (by linarith), min_eq_left zero_le_one]; ring
  · rw [min_eq_left (by linarith), min_eq_left (by linarith)]; ring

/-- Under differentiation the weight of a cell is a weighted mean of the two values at its middle samples: the estimate of the
crossing only shifts weight between them. -/
theorem cellWeight_mean (p q e : ℝ) : cellWeight p q e = clip (e - 1) 0 1 * p + (1 - clip (e - 1) 0 1) * q := by
  have h := clip_add e
  simp only [cellWeight]
  linear_combination (q - p * q) * h

theorem cellWeight_between (p q e lo hi : ℝ) (h1 : lo ≤ p) (h2 : lo ≤ q) (h3 : p ≤ hi) (h4 : q ≤ hi) :
    lo ≤ cellWeight p q e ∧ cellWeight p q e ≤ hi := by
  have h := clip_mem (e - 1)
  rw [cellWeight_mean]
  constructor <;> nlinarith

end Microjax.Props
