import Verif.Props.RegionCover
import Verif.Props.RayShooting

/-! # C38: limbs for which the regions are empty -/

set_option linter.unusedSectionVars false

namespace Microjax.Props

open Jnp ExtendedSource MergeArea Spec

section
variable {K : Type*} [Field K] [LinearOrder K] [IsStrictOrderedRing K]

theorem refineFinalRow_zero (twoPi : K) (limb : List (K × K)) (mr mt : K) :
    refineFinalRow twoPi limb mr mt ((0, 0), (0, 0)) = ((0, 0), (0, 0)) := by
  simp [refineFinalRow, condFlip]

theorem isclose_zero_zero : isclose (0 : K) 0 = true := by simp [isclose]

theorem mergeFinal_zero (twoPi : K) (E : List (RingSector K)) (hE : ∀ row ∈ E, row = ((0, 0), (0, 0))) :
    ∀ m ∈ mergeFinal twoPi E, m = ((0, 0), (0, 0)) := by
  intro m hm
  obtain ⟨a, ha, rfl⟩ := (mem_mergeFinal _ _ _).mp hm
  split_ifs
  · rfl
  · rw [hE a ha]
    have hs : (E.map fun b : RingSector K => if decide ((((0, 0), (0, 0)) : RingSector K).2.1 = 0) &&
        sameR ((0, 0), (0, 0)) b && decide (b.2.2 = twoPi) then b.2.1 - twoPi else 0).sum = 0 := by
      apply List.sum_eq_zero
      intro y hy
      obtain ⟨b, hb, rfl⟩ := List.mem_map.mp hy
      rw [hE b hb]
      simp [sameR]
    simp only [mergedRow]
    rw [if_pos (by simpa using hs)]

/-- If no merged radial range contains a limb radius, all regions are empty. -/
theorem regions_zero (twoPi : K) (n nreal : ℕ) (limb : List (K × K)) (bins_r bins_th : ℕ) (mr mt : K)
    (h : ∀ row ∈ ringTable limb bins_r n mr, ∀ p ∈ limb, ¬ (row.1 < p.1 ∧ p.1 < row.2)) :
    ∀ region ∈ regionsOfLimb twoPi n nreal limb bins_r bins_th mr mt, region = ((0, 0), (0, 0)) := by
  intro region hreg
  unfold regionsOfLimb at hreg
  simp only at hreg
  obtain ⟨m, hm, rfl⟩ := List.mem_map.mp hreg
  have hm' := List.mem_of_mem_take hm
  have hmask : ∀ th_map : List (K × K), ∀ row ∈ maskedRows limb (ringTable limb bins_r n mr) th_map,
      row = ((0, 0), (0, 0)) := by
    intro th_map row hrow
    obtain ⟨r, hr, th, _, ⟨h1, _⟩ | ⟨_, rfl⟩⟩ := (mem_maskedRows _ _ _ _).mp hrow
    · simp only [inMask, List.any_eq_true, Bool.and_eq_true, decide_eq_true_eq] at h1
      obtain ⟨p, hp, ⟨⟨g1, g2⟩, _⟩, _⟩ := h1
      exact absurd ⟨g1, g2⟩ (h r hr p hp)
    · rfl
  have hm0 : m = ((0, 0), (0, 0)) := by
    refine mergeFinal_zero twoPi _ ?_ m hm'
    intro row hrow
    change row ∈ excessRows (maskedRows limb (ringTable limb bins_r n mr) _) n at hrow
    rw [excessRows_eq _ _ (fun row hrow => Or.inl (hmask _ row hrow))] at hrow
    exact hmask _ row ((mem_sortFlag _ _ _).mp (List.mem_of_mem_take hrow))
  rw [hm0, refineFinalRow_zero]

end

theorem isolated_ring_table (limb : List (ℝ × ℝ)) (h : limb.map Prod.fst = [1, 11/10, 12/10, 2]) :
    ringTable limb 3 10 (1/100) = [(0, 0), (0, 0), (0, 0), (109/100, 0)] := by
  have hcl : cluster1dR (limb.map Prod.fst) 3 10 = [(0, 0), (0, 0), (1, 4/3), (5/3, 2)] := by
    rw [h]
    norm_num [cluster1dR, cluster1dRange, amin, amax, binEdges, linspace, List.range, List.range.loop, binMask, binIndex,
      slice, startMask, endMask, mulBool, sort, lastN, List.insertionSort, List.orderedInsert]
  unfold ringTable refineAddmarginMergeR
  rw [hcl, h]
  norm_num [refineAddMargin, amin, amax, mergeRows_cons, mergeRows_one]

/-- **C38 (violated)**, isolated outermost image: four limb images at radii 1, 1.1, 1.2 and 2, at any angles. The
outermost one is alone in its run of bins, so the strict inequalities leave that run without radii, the preceding range
is merged into the empty one, and *every* returned region is empty: `mag_uniform` integrates over nothing. -/
theorem C38_violated (limb : List (ℝ × ℝ)) (h : limb.map Prod.fst = [1, 11/10, 12/10, 2]) (bins_th : ℕ) (margin_th : ℝ) :
    ∀ region ∈ regionsOfLimb (2 * Real.pi) 10 5 limb 3 bins_th (1/100) margin_th, region = ((0, 0), (0, 0)) := by
  apply regions_zero
  rw [isolated_ring_table limb h]
  intro row hrow p hp
  have hpm : p.1 ∈ limb.map Prod.fst := List.mem_map_of_mem hp
  rw [h] at hpm
  have hp1 : 1 ≤ p.1 := by
    simp only [List.mem_cons, List.not_mem_nil, or_false] at hpm
    rcases hpm with h | h | h | h <;> rw [h] <;> norm_num
  simp only [List.mem_cons, List.not_mem_nil, or_false] at hrow
  rcases hrow with rfl | rfl | rfl | rfl <;> simp only [not_and, not_lt] <;> intro _ <;> linarith

/-- The same at the level of `define_regions` and `mag_uniform`: with four valid limb images at these distances the
magnification of the uniform disc is computed as 0. -/
theorem C38_violated_magnification (z0 z1 z2 z3 : ℂ) (h0 : ‖z0‖ = 1) (h1 : ‖z1‖ = 11/10) (h2 : ‖z2‖ = 12/10)
    (h3 : ‖z3‖ = 2) (bins_th : ℕ) (margin_th : ℝ) (u : PointSource.UserParams) (w : ℂ) (N M : ℕ) :
    ∃ regions, defineRegions [(z0, true), (z1, true), (z2, true), (z3, true)] (1/10) 3 bins_th (1/10) margin_th 2
        = .ok regions ∧ magUniform 2 u w (1/10) N M regions = 0 := by
  refine ⟨_, rfl, ?_⟩
  have hz := C38_violated ([(z0, true), (z1, true), (z2, true), (z3, true)].map limbPolar)
    (by simp [limbPolar, h0, h1, h2, h3]) bins_th (margin_th * (Real.pi / 180))
  rw [show (1/10 * (1/10) : ℝ) = 1/100 by norm_num, magUniform_eq]
  rw [List.sum_eq_zero, zero_div]
  intro y hy
  obtain ⟨R, hR, rfl⟩ := List.mem_map.mp hy
  rw [hz R hR, computeForRange_zero]

end Microjax.Props
