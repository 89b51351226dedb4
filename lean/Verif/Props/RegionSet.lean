import Verif.Model.MergeArea
import Verif.Lemmas.Jnp
import Mathlib.Algebra.Order.Ring.Rat
import Mathlib.Data.List.Perm.Basic

/-!
# C88: what the image regions depend on

`define_regions` depends only on the set of valid limb images (and on whether any candidate was masked), not on their
order, multiplicity or on the positions of the masked candidates; it rejects other numbers of lenses; a sector that
starts at angle zero and is not joined to one ending at `2π` is never shrunk.
-/

noncomputable section

namespace Microjax.Props

open Jnp MergeArea

section
variable {K : Type*} [Field K] [LinearOrder K]

theorem amin_congr {x y : List K} (h : ∀ a, a ∈ x ↔ a ∈ y) : amin x = amin y := by
  rcases x with _ | ⟨b, xs⟩
  · rcases y with _ | ⟨c, ys⟩
    · rfl
    · exact absurd ((h c).mpr List.mem_cons_self) (by simp)
  · have hx : (b :: xs) ≠ [] := by simp
    have hy : y ≠ [] := by
      rintro rfl; exact absurd ((h b).mp List.mem_cons_self) (by simp)
    exact le_antisymm (amin_le ((h _).mpr (amin_mem hy))) (amin_le ((h _).mp (amin_mem hx)))

theorem amax_congr {x y : List K} (h : ∀ a, a ∈ x ↔ a ∈ y) : amax x = amax y := by
  rcases x with _ | ⟨b, xs⟩
  · rcases y with _ | ⟨c, ys⟩
    · rfl
    · exact absurd ((h c).mpr List.mem_cons_self) (by simp)
  · have hx : (b :: xs) ≠ [] := by simp
    have hy : y ≠ [] := by
      rintro rfl; exact absurd ((h b).mp List.mem_cons_self) (by simp)
    exact le_antisymm (le_amax ((h _).mp (amax_mem hx))) (le_amax ((h _).mpr (amax_mem hy)))

theorem mem_map_congr {α β : Type*} {x y : List α} (h : ∀ a, a ∈ x ↔ a ∈ y) (f : α → β) (b : β) :
    b ∈ x.map f ↔ b ∈ y.map f := by
  simp only [List.mem_map, h]

theorem mem_filter_congr {α : Type*} {x y : List α} (h : ∀ a, a ∈ x ↔ a ∈ y) (f : α → Bool) (b : α) :
    b ∈ x.filter f ↔ b ∈ y.filter f := by
  simp only [List.mem_filter, h]

theorem any_congr_mem {α : Type*} {x y : List α} (h : ∀ a, a ∈ x ↔ a ∈ y) (f : α → Bool) : x.any f = y.any f := by
  rw [Bool.eq_iff_iff, List.any_eq_true, List.any_eq_true]
  simp only [h]

theorem cluster1dRange_congr {x y : List K} (h : ∀ a, a ∈ x ↔ a ∈ y) (lo hi : K) (bins m : ℕ) :
    cluster1dRange x lo hi bins m = cluster1dRange y lo hi bins m := by
  have hb : binMask x (binEdges lo hi bins) bins = binMask y (binEdges lo hi bins) bins := by
    unfold binMask
    refine List.map_congr_left fun k _ => ?_
    rw [decide_eq_decide, List.count_pos_iff, List.count_pos_iff]
    exact mem_map_congr h _ _
  unfold cluster1dRange
  simp only [hb]

theorem cluster1dR_congr {x y : List K} (h : ∀ a, a ∈ x ↔ a ∈ y) (bins m : ℕ) :
    cluster1dR x bins m = cluster1dR y bins m := by
  unfold cluster1dR
  simp only [amin_congr (mem_filter_congr h fun x => decide (x ≠ 0)),
    amax_congr (mem_filter_congr h fun x => decide (x ≠ 0))]
  exact cluster1dRange_congr h _ _ _ _

theorem refineAddMargin_congr {x y : List K} (h : ∀ a, a ∈ x ↔ a ∈ y) (rows : List (K × K)) (m : K) :
    refineAddMargin x rows m = refineAddMargin y rows m := by
  unfold refineAddMargin
  refine List.map_congr_left fun row _ => ?_
  simp only [amin_congr (mem_filter_congr h fun r => decide (row.1 < r) && decide (r < row.2)),
    amax_congr (mem_filter_congr h fun r => decide (row.1 < r) && decide (r < row.2))]

theorem refineFinalRow_congr {x y : List (K × K)} (h : ∀ a, a ∈ x ↔ a ∈ y) (twoPi mr mt : K)
    (row : (K × K) × (K × K)) : refineFinalRow twoPi x mr mt row = refineFinalRow twoPi y mr mt row := by
  obtain ⟨r, th⟩ := row
  unfold refineFinalRow
  simp only [List.map_map]
  have hmin : ∀ f : K × K → K, amin (x.map f) = amin (y.map f) := fun f => amin_congr (mem_map_congr h f)
  have hmax : ∀ f : K × K → K, amax (x.map f) = amax (y.map f) := fun f => amax_congr (mem_map_congr h f)
  simp only [hmin, hmax]

theorem regionsOfLimb_congr {x y : List (K × K)} (h : ∀ a, a ∈ x ↔ a ∈ y) (twoPi : K) (ni nr br bt : ℕ) (mr mt : K) :
    regionsOfLimb twoPi ni nr x br bt mr mt = regionsOfLimb twoPi ni nr y br bt mr mt := by
  have hr := mem_map_congr h (Prod.fst : K × K → K)
  have ht := mem_map_congr h (Prod.snd : K × K → K)
  have hm : ∀ rm tm, maskedRows x rm tm = maskedRows y rm tm := by
    intro rm tm
    unfold maskedRows inMask
    simp only [any_congr_mem h]
  unfold regionsOfLimb refineAddmarginMergeR cluster1dTh
  simp only [cluster1dR_congr hr, cluster1dRange_congr ht, refineAddMargin_congr hr, hm]
  exact List.map_congr_left fun row _ => refineFinalRow_congr h twoPi mr mt row

/-- **C88**: a sector starting at angle zero is kept: its radial range is unchanged and its angular range only grows by
the margin, wherever the limb points are. -/
theorem C88_zero_sector [IsStrictOrderedRing K] (twoPi : K) (limb : List (K × K)) (mr mt : K) (r : K × K) (b : K)
    (hr : r ≠ (0, 0)) (hmt : 0 ≤ mt) :
    (refineFinalRow twoPi limb mr mt (r, (0, b))).1 = r ∧
    (refineFinalRow twoPi limb mr mt (r, (0, b))).2.1 ≤ 0 ∧ b ≤ (refineFinalRow twoPi limb mr mt (r, (0, b))).2.2 := by
  have hr' : ¬ (r.1 = 0 ∧ r.2 = 0) := fun h => hr (Prod.ext h.1 h.2)
  have hz : (decide (r.1 = 0) && decide (r.2 = 0)) = false := by
    rw [Bool.and_eq_false_iff]
    by_cases h1 : r.1 = 0
    · right; simpa using fun h => hr' ⟨h1, h⟩
    · left; simpa using h1
  have hflip : condFlip twoPi ((0 : K), b) = false := by simp [condFlip]
  unfold refineFinalRow
  simp only [hflip, gt_iff_lt, lt_self_iff_false, decide_false, Bool.or_false, Bool.false_eq_true, if_false, hz]
  refine ⟨trivial, ?_, ?_⟩ <;> linarith

end

/-- The flagged positions of a candidate list. -/
def valid (limb : List (ℂ × Bool)) (z : ℂ) : Prop := (z, true) ∈ limb

/-- **C88**: the regions are a function of the set of valid limb images and of whether any candidate is masked: order,
repetitions and the positions of masked candidates are irrelevant. -/
theorem C88_valid_set (limb limb' : List (ℂ × Bool)) (hv : ∀ z, valid limb z ↔ valid limb' z)
    (hm : (∃ z, (z, false) ∈ limb) ↔ ∃ z, (z, false) ∈ limb') (rho : ℝ) (br bt : ℕ) (mr mt : ℝ) (n : ℕ) :
    defineRegions limb rho br bt mr mt n = defineRegions limb' rho br bt mr mt n := by
  have key : ∀ l l' : List (ℂ × Bool), (∀ z, valid l z → valid l' z) → ((∃ z, (z, false) ∈ l) → ∃ z, (z, false) ∈ l') →
      ∀ p, p ∈ l.map limbPolar → p ∈ l'.map limbPolar := by
    intro l l' h1 h2 p hp
    obtain ⟨⟨z, b⟩, hz, rfl⟩ := List.mem_map.mp hp
    cases b
    · obtain ⟨z', hz'⟩ := h2 ⟨z, hz⟩
      refine List.mem_map.mpr ⟨_, hz', ?_⟩
      simp [limbPolar]
    · exact List.mem_map.mpr ⟨_, h1 z hz, rfl⟩
  have h : ∀ p, p ∈ limb.map limbPolar ↔ p ∈ limb'.map limbPolar := fun p =>
    ⟨key limb limb' (fun z => (hv z).mp) hm.mp p, key limb' limb (fun z => (hv z).mpr) hm.mpr p⟩
  unfold defineRegions
  rw [regionsOfLimb_congr h, regionsOfLimb_congr h]

/-- **C88**: moving the masked candidates anywhere leaves the regions unchanged. -/
theorem C88_masked_irrelevant (limb : List (ℂ × Bool)) (f : ℂ → ℂ) (rho : ℝ) (br bt : ℕ) (mr mt : ℝ) (n : ℕ) :
    defineRegions (limb.map fun zm => (if zm.2 then zm.1 else f zm.1, zm.2)) rho br bt mr mt n
      = defineRegions limb rho br bt mr mt n := by
  refine C88_valid_set _ _ (fun z => ?_) ?_ rho br bt mr mt n
  · unfold valid
    rw [List.mem_map]
    constructor
    · rintro ⟨⟨z', b⟩, hz, he⟩
      simp only [Prod.mk.injEq] at he
      obtain ⟨h1, rfl⟩ := he
      simp only [if_true] at h1
      exact h1 ▸ hz
    · intro hz
      exact ⟨(z, true), hz, by simp⟩
  · constructor
    · rintro ⟨z, hz⟩
      obtain ⟨⟨z', b⟩, hz', he⟩ := List.mem_map.mp hz
      simp only [Prod.mk.injEq] at he
      obtain ⟨-, rfl⟩ := he
      exact ⟨z', hz'⟩
    · rintro ⟨z, hz⟩
      exact ⟨f z, List.mem_map.mpr ⟨(z, false), hz, by simp⟩⟩

/-- **C88**: the order in which the limb images are listed is irrelevant. -/
theorem C88_order (limb limb' : List (ℂ × Bool)) (h : limb.Perm limb') (rho : ℝ) (br bt : ℕ) (mr mt : ℝ) (n : ℕ) :
    defineRegions limb rho br bt mr mt n = defineRegions limb' rho br bt mr mt n :=
  C88_valid_set _ _ (fun _ => h.mem_iff) (exists_congr fun _ => h.mem_iff) rho br bt mr mt n

/-- **C88**: a number of lenses other than two or three is an error, in the regions and in the limb images. -/
theorem C88_error (limb : List (ℂ × Bool)) (roots) (w : ℂ) (u : PointSource.UserParams) (rho : ℝ) (N br bt : ℕ)
    (mr mt : ℝ) (n : ℕ) (h2 : n ≠ 2) (h3 : n ≠ 3) :
    (∃ e, defineRegions limb rho br bt mr mt n = .error e) ∧ (∃ e, calcSourceLimb roots w rho N n u = .error e) := by
  simp [defineRegions, calcSourceLimb, h2, h3]

example : ∃ e, defineRegions [(1, true)] 1 10 10 1 1 4 = .error e :=
  (C88_error [(1, true)] (fun _ _ => []) 0 { s := 1, q := 1 } 1 10 10 10 1 1 4 (by decide) (by decide)).1

/-- Two lists with the same two valid images and one masked candidate each. -/
example : defineRegions [(1, true), (Complex.I, true), (5, false)] 1 10 10 1 1 2
    = defineRegions [(Complex.I, true), (7, false), (1, true), (1, true)] 1 10 10 1 1 2 := by
  refine C88_valid_set _ _ (fun z => ?_) ?_ _ _ _ _ _ _
  · simp [valid]; tauto
  · simp

/-- A sector `[0, 1/2]` with a limb point at `(5, 1/4)`. -/
example : (refineFinalRow (K := ℚ) 6 [(5, 1 / 4)] 1 1 ((4, 7), (0, 1 / 2))).1 = (4, 7) :=
  (C88_zero_sector 6 [(5, 1 / 4)] 1 1 (4, 7) (1 / 2) (by simp) (by norm_num)).1

end Microjax.Props
