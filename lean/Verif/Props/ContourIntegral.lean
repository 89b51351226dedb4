import Verif.Model.ContourIntegrate
import Verif.Spec.Polygon
import Verif.Spec.Calculus
import Verif.Props.Utils
import Mathlib.Tactic.Ring
import Mathlib.Tactic.LinearCombination
import Mathlib.Tactic.FieldSimp
import Mathlib.Data.List.GetD
import Mathlib.MeasureTheory.Integral.IntervalIntegral.FundThmCalculus
import Mathlib.Data.Rat.Defs

/-! # Properties C42, C50: contour integrals -/

set_option linter.unusedVariables false
set_option linter.unusedSectionVars false

namespace Microjax.Props

open Microjax.Spec Contour Utils Jnp

section

variable {K : Type*} [Field K]

/-- Sum of the signed triangles along a path `c 0, c 1, …, c n`. -/
def pathArea (o : K × K) (c : ℕ → K × K) (n : ℕ) : K :=
  ((List.range n).map fun i => triArea o (c i) (c (i + 1))).sum

theorem pathArea_succ (o : K × K) (c : ℕ → K × K) (n : ℕ) :
    pathArea o c (n + 1) = pathArea o c n + triArea o (c n) (c (n + 1)) := by
  unfold pathArea
  rw [List.range_succ, List.map_append, List.sum_append]; simp

/-- moving the apex changes the path area by a term that vanishes on closed paths -/
theorem pathArea_apex [CharZero K] (o o' : K × K) (c : ℕ → K × K) (n : ℕ) :
    pathArea o c n - pathArea o' c n
      = ((c n).1 * (o.2 - o'.2) - (c n).2 * (o.1 - o'.1)
          - ((c 0).1 * (o.2 - o'.2) - (c 0).2 * (o.1 - o'.1))) / 2 := by
  induction n with
  | zero => simp [pathArea]
  | succ n ih =>
    rw [pathArea_succ, pathArea_succ]
    simp only [triArea]
    have h2 : (2 : K) ≠ 0 := two_ne_zero
    field_simp at ih ⊢
    linear_combination ih

theorem pathArea_closed [CharZero K] (o o' : K × K) (c : ℕ → K × K) (n : ℕ) (h : c n = c 0) :
    pathArea o c n = pathArea o' c n := by
  have := pathArea_apex o o' c n
  rw [h, sub_self, zero_div] at this
  exact sub_eq_zero.1 this

theorem pathArea_congr (o : K × K) (c d : ℕ → K × K) (n : ℕ) (h : ∀ i ≤ n, c i = d i) :
    pathArea o c n = pathArea o d n := by
  unfold pathArea
  congr 1
  apply List.map_congr_left
  intro i hi
  rw [List.mem_range] at hi
  rw [h i (by omega), h (i + 1) (by omega)]

theorem closedBuffer_getD (pts : List (K × K)) (k i : ℕ) (hne : pts ≠ []) (hi : i ≤ pts.length) :
    (closedBuffer pts k).getD i 0 = pts.getD (i % pts.length) 0 := by
  have hpos : 0 < pts.length := List.length_pos_iff.2 hne
  unfold closedBuffer
  rcases Nat.lt_or_ge i pts.length with h | h
  · rw [Nat.mod_eq_of_lt h, List.append_assoc, List.getD_append _ _ _ _ h]
  · have : i = pts.length := le_antisymm hi h
    subst this
    rw [Nat.mod_self, List.append_assoc, List.getD_append_right _ _ _ _ le_rfl]
    cases pts with
    | nil => exact absurd rfl hne
    | cons a l => simp

theorem closedBuffer_getD_zero (pts : List (K × K)) (k i : ℕ) (hi : pts.length < i) :
    (closedBuffer pts k).getD i 0 = 0 := by
  unfold closedBuffer
  rw [List.getD_append_right _ _ _ _ (by simp; omega)]
  simp only [List.getD_eq_getElem?_getD, List.getElem?_replicate]
  split_ifs <;> rfl

theorem closedBuffer_length (pts : List (K × K)) (k : ℕ) :
    (closedBuffer pts k).length = pts.length + 1 + k := by
  simp [closedBuffer]; omega

/-- The polygon area is the path area of the buffer. -/
theorem polygonArea_eq_pathArea (o : K × K) (pts : List (K × K)) (k : ℕ) (hne : pts ≠ []) :
    polygonArea o pts = pathArea o (fun i => (closedBuffer pts k).getD i 0) pts.length := by
  unfold polygonArea pathArea
  congr 1
  apply List.map_congr_left
  intro i hi
  rw [List.mem_range] at hi
  simp only
  rw [closedBuffer_getD pts k i hne hi.le, closedBuffer_getD pts k (i + 1) hne hi, Nat.mod_eq_of_lt hi]

/-- The signed polygon area does not depend on the apex. -/
theorem polygonArea_apex [CharZero K] (o o' : K × K) (pts : List (K × K)) :
    polygonArea o pts = polygonArea o' pts := by
  by_cases hne : pts = []
  · subst hne; rfl
  · rw [polygonArea_eq_pathArea o pts 0 hne, polygonArea_eq_pathArea o' pts 0 hne]
    apply pathArea_closed
    rw [closedBuffer_getD pts 0 _ hne le_rfl, closedBuffer_getD pts 0 _ hne (Nat.zero_le _), Nat.mod_self,
      Nat.zero_mod]

theorem getD_map_of_zero {α : Type*} (f : α → K) (d : α) (hf : f d = 0) (l : List α) (i : ℕ) :
    (l.map f).getD i 0 = f (l.getD i d) := by
  simp only [List.getD_eq_getElem?_getD, List.getElem?_map]
  cases l[i]? <;> simp [hf]

variable [LinearOrder K]

/-- General form: on a buffer that is zero after the tail index, the boundary integral is the path area about the
origin up to the tail. -/
theorem integrateUnif_path [CharZero K] (z : List (K × K)) (t : ℕ) (ht : t < z.length)
    (hz : ∀ i, t < i → z.getD i 0 = 0) :
    integrateUnif z t = pathArea 0 (fun i => z.getD i 0) t := by
  unfold integrateUnif
  simp only
  rw [C69_trapz_zero_avoiding _ _ _ (by simp) (by simpa using ht)
      (by intro i hi; rw [getD_map_of_zero Prod.snd 0 rfl, hz i hi]; rfl),
    C69_trapz_zero_avoiding _ _ _ (by simp) (by simpa using ht)
      (by intro i hi; rw [getD_map_of_zero Prod.fst 0 rfl, hz i hi]; rfl)]
  unfold trapezoidUpTo pathArea
  rw [← List.sum_map_add]
  congr 1
  apply List.map_congr_left
  intro i _
  beta_reduce
  rw [getD_map_of_zero (fun p : K × K => 1 / 2 * p.1) 0 (by simp),
    getD_map_of_zero (fun p : K × K => 1 / 2 * p.1) 0 (by simp),
    getD_map_of_zero Prod.snd 0 rfl, getD_map_of_zero Prod.snd 0 rfl,
    getD_map_of_zero (fun p : K × K => -(1 / 2) * p.2) 0 (by simp),
    getD_map_of_zero (fun p : K × K => -(1 / 2) * p.2) 0 (by simp),
    getD_map_of_zero Prod.fst 0 rfl, getD_map_of_zero Prod.fst 0 rfl]
  have h2 : (2 : K) ≠ 0 := two_ne_zero
  simp only [triArea, Prod.fst_zero, Prod.snd_zero]
  field_simp
  ring

/-- C42: on the buffer of any closed polygon — any number of vertices, any amount of zero padding — the uniform
boundary integral is the signed area of the polygon, as measured from any apex. -/
theorem C42_polygon_area [CharZero K] (pts : List (K × K)) (k : ℕ) (hne : pts ≠ []) (o : K × K) :
    integrateUnif (closedBuffer pts k) pts.length = polygonArea o pts := by
  rw [integrateUnif_path _ _ (by rw [closedBuffer_length]; omega)
    (fun i hi => closedBuffer_getD_zero pts k i hi), polygonArea_apex o 0,
    ← polygonArea_eq_pathArea 0 pts k hne]

/-- C42, translation: moving all vertices by `v` changes nothing. -/
theorem C42_translate [CharZero K] (pts : List (K × K)) (k k' : ℕ) (hne : pts ≠ []) (v : K × K) :
    integrateUnif (closedBuffer (pts.map (· + v)) k) pts.length
      = integrateUnif (closedBuffer pts k') pts.length := by
  have hne' : pts.map (· + v) ≠ [] := by simpa using hne
  have h := C42_polygon_area (pts.map (· + v)) k hne' v
  rw [List.length_map] at h
  rw [h, C42_polygon_area pts k' hne 0]
  unfold polygonArea
  rw [List.length_map]
  congr 1
  apply List.map_congr_left
  intro i hi
  rw [List.mem_range] at hi
  have hm : (i + 1) % pts.length < pts.length := Nat.mod_lt _ (by omega)
  rw [List.getD_eq_getElem _ _ (by simpa using hi), List.getD_eq_getElem _ _ (by simpa using hm),
    List.getD_eq_getElem _ _ hi, List.getD_eq_getElem _ _ hm]
  simp only [List.getElem_map, triArea, Prod.fst_add, Prod.snd_add, Prod.fst_zero, Prod.snd_zero]
  ring

theorem triArea_swap (o p q : K × K) : triArea o q p = -triArea o p q := by
  unfold triArea; ring

/-- C42, orientation: traversing the polygon in the opposite direction changes the sign. -/
theorem C42_reverse [CharZero K] (pts : List (K × K)) (k k' : ℕ) (hne : pts ≠ []) :
    integrateUnif (closedBuffer pts.reverse k) pts.length
      = -integrateUnif (closedBuffer pts k') pts.length := by
  have hne' : pts.reverse ≠ [] := by simpa using hne
  have hpos : 0 < pts.length := List.length_pos_iff.2 hne
  have h := C42_polygon_area pts.reverse k hne' 0
  rw [List.length_reverse] at h
  rw [h, C42_polygon_area pts k' hne 0, polygonArea_eq_pathArea 0 pts 0 hne,
    polygonArea_eq_pathArea 0 pts.reverse 0 hne', List.length_reverse]
  -- move the last edge to the front: path areas of a path and of its reverse
  have hrev : ∀ (c : ℕ → K × K) (n : ℕ), pathArea 0 (fun i => c (n - i)) n = -pathArea 0 c n := by
    intro c n
    unfold pathArea
    rw [← List.sum_reverse, ← List.map_reverse]
    have hr : (List.range n).reverse = (List.range n).map fun i => n - 1 - i := by
      apply List.ext_getElem
      · simp
      · intro i h1 h2; simp
    rw [hr, List.map_map]
    have hneg : ∀ l : List ℕ, ∀ f : ℕ → K, (l.map fun i => -f i).sum = -(l.map f).sum := by
      intro l f; induction l with
      | nil => simp
      | cons a l ih => simp [ih]; ring
    rw [← hneg]
    congr 1
    apply List.map_congr_left
    intro i hi
    rw [List.mem_range] at hi
    simp only [Function.comp]
    rw [show n - (n - 1 - i) = i + 1 by omega, show n - (n - 1 - i + 1) = i by omega, triArea_swap]
  set n := pts.length
  set c : ℕ → K × K := fun i => (closedBuffer pts 0).getD i 0
  have hc : ∀ i ≤ n, c i = pts.getD (i % n) 0 := fun i hi => closedBuffer_getD pts 0 i hne hi
  -- the reversed buffer reads `pts` at `n - 1 - i` (cyclically)
  have hd : ∀ i ≤ n, (closedBuffer pts.reverse 0).getD i 0 = pts.getD ((n - 1 + (n - i)) % n) 0 := by
    intro i hi
    rw [closedBuffer_getD pts.reverse 0 i hne' (by simpa using hi), List.length_reverse]
    rcases Nat.lt_or_ge i n with h1 | h1
    · rw [Nat.mod_eq_of_lt h1, show n - 1 + (n - i) = (n - 1 - i) + n by omega, Nat.add_mod_right,
        Nat.mod_eq_of_lt (by omega), List.getD_eq_getElem _ _ (by simpa using h1),
        List.getD_eq_getElem _ _ (by omega)]
      simp [n]
    · have : i = n := le_antisymm hi h1
      subst this
      rw [Nat.mod_self, Nat.sub_self, Nat.add_zero, Nat.mod_eq_of_lt (by omega),
        List.getD_eq_getElem _ _ (by simpa using hpos), List.getD_eq_getElem _ _ (by omega)]
      simp [n]
  rw [pathArea_congr 0 _ (fun i => (fun j => pts.getD ((n - 1 + j) % n) 0) (n - i)) n hd,
    hrev (fun j => pts.getD ((n - 1 + j) % n) 0) n]
  congr 1
  -- shifting the starting vertex of a closed path
  have hshift : ∀ (m : ℕ), pathArea 0 (fun j => pts.getD ((m + j) % n) 0) n
      = pathArea 0 (fun j => pts.getD (j % n) 0) n := by
    intro m
    induction m with
    | zero => simp
    | succ m ih =>
      rw [← ih]
      have h1 : pathArea 0 (fun j => pts.getD ((m + j) % n) 0) (n + 1)
          = pathArea 0 (fun j => pts.getD ((m + j) % n) 0) n
            + triArea 0 (pts.getD ((m + n) % n) 0) (pts.getD ((m + (n + 1)) % n) 0) := by
        exact pathArea_succ _ _ _
      have h2 : pathArea 0 (fun j => pts.getD ((m + j) % n) 0) (n + 1)
          = triArea 0 (pts.getD ((m + 0) % n) 0) (pts.getD ((m + 1) % n) 0)
            + pathArea 0 (fun j => pts.getD ((m + 1 + j) % n) 0) n := by
        unfold pathArea
        rw [List.range_succ_eq_map, List.map_cons, List.sum_cons, List.map_map]
        congr 2
        apply List.map_congr_left
        intro i _
        simp only [Function.comp, Nat.succ_eq_add_one]
        rw [show m + (i + 1) = m + 1 + i by omega, show m + (i + 1 + 1) = m + 1 + (i + 1) by omega]
      rw [show m + (n + 1) = (m + 1) + n by omega, Nat.add_mod_right, Nat.add_mod_right] at h1
      rw [Nat.add_zero] at h2
      have := h1.symm.trans h2
      linear_combination -this
  rw [hshift, pathArea_congr 0 _ (fun j => pts.getD (j % n) 0) n hc]

example : integrateUnif (closedBuffer ([(0, 0), (2, 0), (2, 3), (0, 3)] : List (ℚ × ℚ)) 5) 4 = 6 := by
  decide +kernel

example : polygonArea ((7, -1) : ℚ × ℚ) [(0, 0), (2, 0), (2, 3), (0, 3)] = 6 := by decide +kernel

example : integrateUnif (closedBuffer ([(1, 1), (3, 1), (3, 4), (1, 4)] : List (ℚ × ℚ)).reverse 2) 4 = -6 := by
  decide +kernel

end

/-! ## C50: the limb-darkened integral -/

section LD

/-- C50, quadrature of a constant: a rule whose weights sum to 2 integrates constants exactly. -/
theorem gaussLegendre_const (rule : List (ℝ × ℝ)) (hw : (rule.map Prod.snd).sum = 2) (c a b : ℝ) :
    integrateGaussLegendre rule (fun _ => c) a b = c * (b - a) := by
  unfold integrateGaussLegendre
  have : (rule.map fun pw => 1 / 2 * (b - a) * c * pw.2).sum = 1 / 2 * (b - a) * c * (rule.map Prod.snd).sum := by
    rw [← List.sum_map_mul_left]
  rw [this, hw]; ring

theorem brightnessProfile_zero (leq : ℂ → ℂ) (z : ℂ) (rho : ℝ) (w0 : ℂ) :
    Boundary.brightnessProfile leq z rho w0 0 = 1 := by
  simp [Boundary.brightnessProfile]

/-- C50: with `u1 = 0` and quadrature rules whose weights sum to 2, the limb-darkened contour integral of any
closed polygon is its signed area, hence equal to the uniform integral — for every lens map, source position,
source radius and padding. -/
theorem C50_uniform_limit (leggauss : ℕ → List (ℝ × ℝ)) (npts : ℕ)
    (hw1 : ((leggauss (npts / 2)).map Prod.snd).sum = 2)
    (hw2 : ((leggauss (npts - npts / 2)).map Prod.snd).sum = 2)
    (leq : ℂ → ℂ) (w0 : ℂ) (rho : ℝ) (pts : List (ℝ × ℝ)) (k : ℕ) (hne : pts ≠ []) (o : ℝ × ℝ) :
    integrateLd leggauss leq w0 rho 0 npts (closedBuffer pts k) pts.length = polygonArea o pts ∧
    integrateLd leggauss leq w0 rho 0 npts (closedBuffer pts k) pts.length
      = integrateUnif (closedBuffer pts k) pts.length := by
  have key : integrateLd leggauss leq w0 rho 0 npts (closedBuffer pts k) pts.length = polygonArea 0 pts := by
    unfold integrateLd integrateLdWith
    simp only
    set z := closedBuffer pts k with hz
    set z0 := centroid z pts.length
    have hP : ∀ p : ℝ × ℝ, ldP (integrateGaussLegendre (leggauss (npts / 2)))
        (integrateGaussLegendre (leggauss (npts - npts / 2)))
        (fun p => Boundary.brightnessProfile leq p rho w0 0) rho z0.2 p.1 p.2 = -(1 / 2) * (p.2 - z0.2) := by
      intro p
      simp only [ldP, brightnessProfile_zero, gaussLegendre_const _ hw1, gaussLegendre_const _ hw2]
      ring
    have hQ : ∀ p : ℝ × ℝ, ldQ (integrateGaussLegendre (leggauss (npts / 2)))
        (integrateGaussLegendre (leggauss (npts - npts / 2)))
        (fun p => Boundary.brightnessProfile leq p rho w0 0) rho z0.1 p.1 p.2 = (1 / 2) * (p.1 - z0.1) := by
      intro p
      simp only [ldQ, brightnessProfile_zero, gaussLegendre_const _ hw1, gaussLegendre_const _ hw2]
      ring
    rw [List.map_congr_left (fun p _ => hP p), List.map_congr_left (fun p _ => hQ p)]
    have hlen : z.length = pts.length + 1 + k := closedBuffer_length pts k
    have hzero : ∀ i, pts.length < i → z.getD i 0 = 0 := fun i hi => closedBuffer_getD_zero pts k i hi
    rw [C69_trapz_zero_avoiding _ _ _ (by simp) (by simp; omega)
        (by intro i hi; rw [getD_map_of_zero Prod.fst 0 rfl, hzero i hi]; rfl),
      C69_trapz_zero_avoiding _ _ _ (by simp) (by simp; omega)
        (by intro i hi; rw [getD_map_of_zero Prod.snd 0 rfl, hzero i hi]; rfl)]
    rw [polygonArea_apex 0 z0, polygonArea_eq_pathArea z0 pts k hne]
    unfold trapezoidUpTo pathArea
    rw [← List.sum_map_add]
    congr 1
    apply List.map_congr_left
    intro i hi
    rw [List.mem_range] at hi
    have hi1 : i < z.length := by omega
    have hi2 : i + 1 < z.length := by omega
    beta_reduce
    rw [getD_map_of_zero Prod.fst 0 rfl, getD_map_of_zero Prod.snd 0 rfl, getD_map_of_zero Prod.fst 0 rfl,
      getD_map_of_zero Prod.snd 0 rfl]
    have g : ∀ (f : ℝ × ℝ → ℝ) (j : ℕ), j < z.length → (z.map f).getD j 0 = f (z.getD j 0) := by
      intro f j hj
      rw [List.getD_eq_getElem _ _ (by simpa using hj), List.getD_eq_getElem _ _ hj, List.getElem_map]
    rw [g _ i hi1, g _ (i + 1) hi2, g _ i hi1, g _ (i + 1) hi2]
    simp only [triArea]
    ring
  refine ⟨by rw [key, polygonArea_apex 0 o], ?_⟩
  rw [key, C42_polygon_area pts k hne 0]

/-- the two-point Gauss-Legendre rule, on a unit square -/
example : integrateLd (fun _ => [(-1 / Real.sqrt 3, 1), (1 / Real.sqrt 3, 1)]) (fun z => z) 5 (1 / 10) 0 4
    (closedBuffer [(0, 0), (1, 0), (1, 1), (0, 1)] 3) 4 = 1 := by
  have := (C50_uniform_limit (fun _ => [(-1 / Real.sqrt 3, 1), (1 / Real.sqrt 3, 1)]) 4 (by norm_num)
    (by norm_num) (fun z => z) 5 (1 / 10) [(0, 0), (1, 0), (1, 1), (0, 1)] 3 (by simp) 0).1
  simp only [List.length_cons, List.length_nil] at this
  rw [this]
  norm_num [polygonArea, triArea, List.range_succ]

/-- C50, Green's theorem ingredients: with exact one-dimensional quadrature, `P` and `Q` are, for any continuous
brightness, primitives of `-B/2` in `y` and of `B/2` in `x`: the integrand `P dx + Q dy` has curl `B`, so the
contour integral measures the flux enclosed.  (The split point drops out.) -/
theorem C50_curl (B : ℂ → ℝ) (hB : Continuous B) (rho x0 y0 x y : ℝ) :
    HasDerivAt (fun y => ldP (fun f a b => ∫ t in a..b, f t) (fun f a b => ∫ t in a..b, f t) B rho y0 x y)
      (-(1 / 2) * B ((x : ℂ) + Complex.I * y)) y ∧
    HasDerivAt (fun x => ldQ (fun f a b => ∫ t in a..b, f t) (fun f a b => ∫ t in a..b, f t) B rho x0 x y)
      ((1 / 2) * B ((x : ℂ) + Complex.I * y)) x := by
  have c1 : ∀ x : ℝ, Continuous fun t : ℝ => B ((x : ℂ) + Complex.I * (t : ℂ)) := fun x => hB.comp (by fun_prop)
  have c2 : ∀ y : ℝ, Continuous fun t : ℝ => B ((t : ℂ) + Complex.I * (y : ℂ)) := fun y => hB.comp (by fun_prop)
  have e1 : (fun y => ldP (fun f a b => ∫ t in a..b, f t) (fun f a b => ∫ t in a..b, f t) B rho y0 x y)
      = fun y => -(1 / 2) * ∫ t in y0..y, B ((x : ℂ) + Complex.I * (t : ℂ)) := by
    funext y
    simp only [ldP]
    rw [intervalIntegral.integral_add_adjacent_intervals ((c1 x).intervalIntegrable _ _)
      ((c1 x).intervalIntegrable _ _)]
  have e2 : (fun x => ldQ (fun f a b => ∫ t in a..b, f t) (fun f a b => ∫ t in a..b, f t) B rho x0 x y)
      = fun x => (1 / 2) * ∫ t in x0..x, B ((t : ℂ) + Complex.I * (y : ℂ)) := by
    funext x
    simp only [ldQ]
    rw [intervalIntegral.integral_add_adjacent_intervals ((c2 y).intervalIntegrable _ _)
      ((c2 y).intervalIntegrable _ _)]
  rw [e1, e2]
  exact ⟨((c1 x).integral_hasStrictDerivAt _ _).hasDerivAt.const_mul _,
    ((c2 y).integral_hasStrictDerivAt _ _).hasDerivAt.const_mul _⟩

example := C50_curl (fun z => 1 + ‖z‖) (by fun_prop) (1 / 10) 0 0 1 2

end LD

end Microjax.Props
