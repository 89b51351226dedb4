import Verif.Props.ContourQuadrature
import Mathlib.Analysis.Convex.Hull

/-!
# C137: base point and reach of the limb-darkened contour integral
-/

set_option linter.unusedVariables false

noncomputable section

namespace Microjax.Props

open Microjax.Spec Contour Set

/-- The average of a list of points lies in every convex set that contains them. -/
theorem average_mem_convex (S : Set (ℝ × ℝ)) (hS : Convex ℝ S) (l : List (ℝ × ℝ)) (hne : l ≠ []) (h : ∀ p ∈ l, p ∈ S) :
    ((l.map Prod.fst).sum / l.length, (l.map Prod.snd).sum / l.length) ∈ S := by
  induction l with
  | nil => exact absurd rfl hne
  | cons p l ih =>
    by_cases hl : l = []
    · subst hl
      simpa using h p (by simp)
    have i1 := ih hl fun q hq => h q (List.mem_cons_of_mem _ hq)
    have i2 := h p List.mem_cons_self
    have hn : (0 : ℝ) < l.length := by exact_mod_cast List.length_pos_iff.mpr hl
    have := hS i2 i1 (a := 1 / (l.length + 1)) (b := l.length / (l.length + 1)) (by positivity) (by positivity) (by field_simp; ring)
    convert this using 1
    ext <;> simp <;> field_simp

/-- **C137, base point.**  The base point of the limb-darkened contour integral of a closed polygon, with any padding, lies in
the convex hull of the vertices; in particular within every disc and every rectangle that contains them. -/
theorem C137_base (pts : List (ℝ × ℝ)) (hne : pts ≠ []) (k : ℕ) :
    centroid (closedBuffer pts k) pts.length ∈ convexHull ℝ {p | p ∈ pts} := by
  obtain ⟨a, l, hl⟩ := List.exists_cons_of_ne_nil hne
  have hm : ∀ p ∈ pts ++ [a], p ∈ convexHull ℝ {p | p ∈ pts} := by
    intro p hp
    refine subset_convexHull ℝ _ ?_
    rcases List.mem_append.mp hp with h | h
    · exact h
    · rw [List.mem_singleton.mp h, hl]
      simp
  have := average_mem_convex _ (convex_convexHull ℝ _) (pts ++ [a]) (by simp) hm
  have e : pts.headD 0 = a := by rw [hl]; rfl
  convert this using 1
  unfold centroid closedBuffer
  rw [e]
  simp

/-- The quadrature only looks at the function between its end points. -/
theorem gauss_congr {n : ℕ} (hn : 1 ≤ n) {rule : List (ℝ × ℝ)} (hr : IsGauss n rule) (f g : ℝ → ℝ) (a b : ℝ)
    (h : ∀ x ∈ uIcc a b, f x = g x) : integrateGaussLegendre rule f a b = integrateGaussLegendre rule g a b := by
  unfold integrateGaussLegendre
  congr 1
  refine List.map_congr_left fun q hq => ?_
  rw [h _ (gauss_node_between a b q.1 (gauss_node_mem hn hr q hq))]

/-- **C137, reach.**  If all vertices of a closed polygon lie in a rectangle, the limb-darkened contour integral depends on the
lens map only through its values in that rectangle extended upwards, or to the right, by half of its size. -/
theorem C137_local (leggauss : ℕ → List (ℝ × ℝ)) (hg : ∀ n, 1 ≤ n → IsGauss n (leggauss n)) (leq leq' : ℂ → ℂ) (w0 : ℂ)
    (rho u1 : ℝ) (hrho : 0 ≤ rho) (npts : ℕ) (hnp : 2 ≤ npts) (pts : List (ℝ × ℝ)) (hne : pts ≠ []) (k : ℕ)
    (x1 x2 y1 y2 : ℝ) (hbox : ∀ p ∈ pts, p.1 ∈ Icc x1 x2 ∧ p.2 ∈ Icc y1 y2)
    (hup : ∀ x ∈ Icc x1 x2, ∀ y ∈ Icc y1 (y2 + (y2 - y1) / 2), leq (x + Complex.I * y) = leq' (x + Complex.I * y))
    (hright : ∀ x ∈ Icc x1 (x2 + (x2 - x1) / 2), ∀ y ∈ Icc y1 y2, leq (x + Complex.I * y) = leq' (x + Complex.I * y)) :
    integrateLd leggauss leq w0 rho u1 npts (closedBuffer pts k) pts.length
      = integrateLd leggauss leq' w0 rho u1 npts (closedBuffer pts k) pts.length := by
  have ho : centroid (closedBuffer pts k) pts.length ∈ Icc x1 x2 ×ˢ Icc y1 y2 :=
    convexHull_min (fun p hp => hbox p hp) ((convex_Icc x1 x2).prod (convex_Icc y1 y2)) (C137_base pts hne k)
  unfold integrateLd
  simp only
  rw [integrateLdWith_closed _ _ _ rho pts k _ rfl, integrateLdWith_closed _ _ _ rho pts k _ rfl]
  set o := centroid (closedBuffer pts k) pts.length
  have n1 : 1 ≤ npts / 2 := by omega
  have n2 : 1 ≤ npts - npts / 2 := by omega
  have sub : ∀ a b u v : ℝ, a ∈ Icc u v → b ∈ Icc u v → reach a b ⊆ Icc u (v + (v - u) / 2) := by
    intro a b u v ha hb t ht
    obtain ⟨a1, a2⟩ := ha
    obtain ⟨b1, b2⟩ := hb
    have h1 := le_min a1 b1
    have h2 := max_le a2 b2
    have h3 : |b - a| ≤ v - u := abs_le.mpr ⟨by linarith, by linarith⟩
    exact ⟨h1.trans ht.1, ht.2.trans (by linarith)⟩
  have line : ∀ (f g : ℝ → ℝ) (a b : ℝ), (∀ x ∈ reach a b, f x = g x) →
      integrateGaussLegendre (leggauss (npts / 2)) f a (splitPoint rho a b)
        + integrateGaussLegendre (leggauss (npts - npts / 2)) f (splitPoint rho a b) b
      = integrateGaussLegendre (leggauss (npts / 2)) g a (splitPoint rho a b)
        + integrateGaussLegendre (leggauss (npts - npts / 2)) g (splitPoint rho a b) b := by
    intro f g a b h
    have hs := splitPoint_mem rho a b hrho
    rw [gauss_congr n1 (hg _ n1) f g _ _ fun x hx => h x (uIcc_subset_reach (reach_left a b) hs hx),
      gauss_congr n2 (hg _ n2) f g _ _ fun x hx => h x (uIcc_subset_reach hs (reach_right a b) hx)]
  have hP : ∀ p ∈ pts, ldP (integrateGaussLegendre (leggauss (npts / 2))) (integrateGaussLegendre (leggauss (npts - npts / 2)))
      (fun p => Boundary.brightnessProfile leq p rho w0 u1) rho o.2 p.1 p.2
      = ldP (integrateGaussLegendre (leggauss (npts / 2))) (integrateGaussLegendre (leggauss (npts - npts / 2)))
      (fun p => Boundary.brightnessProfile leq' p rho w0 u1) rho o.2 p.1 p.2 := by
    intro p hp
    unfold ldP
    simp only
    rw [line _ (fun y : ℝ => Boundary.brightnessProfile leq' ((p.1 : ℂ) + Complex.I * (y : ℂ)) rho w0 u1)]
    intro y hy
    unfold Boundary.brightnessProfile
    rw [hup p.1 (hbox p hp).1 y (sub _ _ _ _ ho.2 (hbox p hp).2 hy)]
  have hQ : ∀ p ∈ pts, ldQ (integrateGaussLegendre (leggauss (npts / 2))) (integrateGaussLegendre (leggauss (npts - npts / 2)))
      (fun p => Boundary.brightnessProfile leq p rho w0 u1) rho o.1 p.1 p.2
      = ldQ (integrateGaussLegendre (leggauss (npts / 2))) (integrateGaussLegendre (leggauss (npts - npts / 2)))
      (fun p => Boundary.brightnessProfile leq' p rho w0 u1) rho o.1 p.1 p.2 := by
    intro p hp
    unfold ldQ
    simp only
    rw [line _ (fun x : ℝ => Boundary.brightnessProfile leq' ((x : ℂ) + Complex.I * (p.2 : ℂ)) rho w0 u1)]
    intro x hx
    unfold Boundary.brightnessProfile
    rw [hright x (sub _ _ _ _ ho.1 (hbox p hp).1 hx) p.2 (hbox p hp).2]
  refine Finset.sum_congr rfl fun i hi => ?_
  rw [Finset.mem_range] at hi
  have m1 := closedBuffer_getD_mem pts k i hi.le hne
  have m2 := closedBuffer_getD_mem pts k (i + 1) hi hne
  simp only
  rw [hP _ m1, hP _ m2, hQ _ m1, hQ _ m2]

/-- A triangle away from the lens of a single-lens system: the lens map may be replaced by zero left of the triangle. -/
example (leggauss : ℕ → List (ℝ × ℝ)) (hg : ∀ n, 1 ≤ n → IsGauss n (leggauss n)) :
    integrateLd leggauss PointSource.lensEq1 (1 / 10) (1 / 100) (1 / 2) 100 (closedBuffer [(1, 1), (2, 1), (1, 2)] 4) 3
      = integrateLd leggauss (fun z => if z.re < 1 then 0 else PointSource.lensEq1 z) (1 / 10) (1 / 100) (1 / 2) 100
        (closedBuffer [(1, 1), (2, 1), (1, 2)] 4) 3 := by
  refine C137_local leggauss hg _ _ (1 / 10) (1 / 100) (1 / 2) (by norm_num) 100 (by norm_num) [(1, 1), (2, 1), (1, 2)] (by simp) 4
    1 2 1 2 ?_ ?_ ?_
  · intro p hp
    fin_cases hp <;> norm_num
  · intro x hx y hy
    rw [if_neg]
    simpa using hx.1
  · intro x hx y hy
    rw [if_neg]
    simpa using hx.1

end Microjax.Props
