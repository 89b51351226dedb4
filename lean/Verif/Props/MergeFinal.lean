import Verif.Props.Cluster

/-! # C39: merging angular sectors across `θ = 0` -/

namespace Microjax.Props

open Jnp ExtendedSource MergeArea Spec

section
variable {K : Type*} [Field K] [LinearOrder K] [IsStrictOrderedRing K]

omit [Field K] [LinearOrder K] [IsStrictOrderedRing K] in
theorem mem_sortFlag {α : Type*} (flag : α → Bool) (x : List α) (a : α) : a ∈ sortFlag flag x ↔ a ∈ x := by
  simp only [sortFlag, List.mem_append, List.mem_filter, Bool.not_eq_true']
  cases flag a <;> simp

/-- The merged row of `a`. -/
def mergedRow (twoPi : K) (rows : List (RingSector K)) (a : RingSector K) : RingSector K :=
  let s := (rows.map fun b =>
      if decide (a.2.1 = 0) && sameR a b && decide (b.2.2 = twoPi) then b.2.1 - twoPi else 0).sum
  (a.1, (if s = 0 then a.2.1 else s, a.2.2))

/-- Whether rows ending at `2π` are removed. -/
def anyVanish (rows : List (RingSector K)) : Bool :=
  rows.any fun a => rows.any (sameR a) && decide (a.2.1 = 0)

omit [IsStrictOrderedRing K] in
theorem mem_mergeFinal (twoPi : K) (rows : List (RingSector K)) (m : RingSector K) :
    m ∈ mergeFinal twoPi rows ↔ ∃ a ∈ rows,
      m = if anyVanish rows && decide (a.2.2 = twoPi) then ((0, 0), (0, 0)) else mergedRow twoPi rows a := by
  unfold mergeFinal
  rw [mem_sortFlag]
  have hz : rows.zip (rows.map (mergedRow twoPi rows)) = rows.map fun a => (a, mergedRow twoPi rows a) := by
    apply List.ext_getElem <;> simp
  have : rows.zip (rows.map fun a =>
      let th_min_sum := (rows.map fun b =>
        if decide (a.2.1 = 0) && sameR a b && decide (b.2.2 = twoPi) then b.2.1 - twoPi else 0).sum
      let th_min_new := if th_min_sum = 0 then a.2.1 else th_min_sum
      (a.1, (th_min_new, a.2.2))) = rows.map fun a => (a, mergedRow twoPi rows a) := hz
  simp only at this ⊢
  rw [this, List.map_map, List.mem_map]
  constructor
  · rintro ⟨a, ha, rfl⟩; exact ⟨a, ha, rfl⟩
  · rintro ⟨a, ha, rfl⟩; exact ⟨a, ha, rfl⟩

omit [IsStrictOrderedRing K] in
/-- **C39 (violated).** As soon as one sector starts at angle 0 and shares its radial range with any other sector,
*every* sector that ends at `2π` is removed, whatever its radial range and whether or not it has been merged: no
returned sector ends at `2π`, and a radial range all of whose sectors end at `2π` disappears from the table. -/
theorem C39_violated (twoPi : K) (hpi : twoPi ≠ 0) (rows : List (RingSector K)) (a b : RingSector K) (ha : a ∈ rows)
    (hb : b ∈ rows) (hab : a.1 = b.1) (hne : a ≠ b) (h0 : a.2.1 = 0) :
    (∀ m ∈ mergeFinal twoPi rows, m.2.2 ≠ twoPi) ∧
    ∀ rr : K × K, rr ≠ (0, 0) → (∀ c ∈ rows, c.1 = rr → c.2.2 = twoPi) → ∀ m ∈ mergeFinal twoPi rows, m.1 ≠ rr := by
  have hv : anyVanish rows = true := by
    simp only [anyVanish, List.any_eq_true, Bool.and_eq_true, decide_eq_true_eq]
    exact ⟨a, ha, ⟨b, hb, by simp [sameR, hab, hne]⟩, h0⟩
  constructor
  · intro m hm
    obtain ⟨c, _, rfl⟩ := (mem_mergeFinal twoPi rows m).mp hm
    rw [hv]
    by_cases hc : c.2.2 = twoPi
    · simp [hc, hpi.symm]
    · simp [hc, mergedRow]
  · intro rr hrr hall m hm
    obtain ⟨c, hc, rfl⟩ := (mem_mergeFinal twoPi rows m).mp hm
    rw [hv]
    by_cases hc2 : c.2.2 = twoPi
    · simp [hc2]; exact hrr.symm
    · simp only [hc2, decide_false, Bool.and_false, Bool.false_eq_true, if_false, mergedRow]
      exact fun h => hc2 (hall c hc h)

omit [LinearOrder K] [IsStrictOrderedRing K] in
theorem sum_single {α : Type*} (rows : List α) (g : α → K) (p : α → Bool) (b : α) (hb : b ∈ rows) (hp : p b = true)
    (hu : rows.countP p ≤ 1) : (rows.map fun x => if p x then g x else 0).sum = g b := by
  induction rows with
  | nil => simp at hb
  | cons c rows ih =>
    rw [List.countP_cons] at hu
    have hzero : ∀ l : List α, l.countP p = 0 → (l.map fun x => if p x then g x else 0).sum = 0 := by
      intro l hl
      rw [List.countP_eq_zero] at hl
      apply List.sum_eq_zero
      intro y hy
      obtain ⟨x, hx, rfl⟩ := List.mem_map.mp hy
      rw [if_neg (hl x hx)]
    rw [List.map_cons, List.sum_cons]
    by_cases hc : p c = true
    · rw [if_pos hc] at hu ⊢
      have hr : rows.countP p = 0 := by omega
      rw [hzero rows hr, add_zero]
      rcases List.mem_cons.mp hb with rfl | hb'
      · rfl
      · exact absurd hp ((List.countP_eq_zero.mp hr) b hb')
    · rw [if_neg hc] at hu ⊢
      rw [zero_add]
      rcases List.mem_cons.mp hb with rfl | hb'
      · exact absurd hp hc
      · exact ih hb' hu

theorem list_sum_nonpos (l : List K) (h : ∀ y ∈ l, y ≤ 0) : l.sum ≤ 0 := by
  induction l with
  | nil => simp
  | cons x l ih =>
    rw [List.sum_cons]
    linarith [h x (by simp), ih fun y hy => h y (by simp [hy])]

/-- **C39 (partial).** If every sector ending at `2π` has a partner that starts at 0 with the same radial range (and
does not itself span the full circle), and no sector at 0 has more than one such partner, nothing is lost: every point in the
interior of a sector of the table stays in the interior of a returned sector with the same radial range, angles counted
modulo `2π`.  Missing for the full claim: sectors ending at `2π` without a partner survive only if no other pair
triggers the removal (see `C39_violated`). -/
theorem C39_cover_partial (twoPi : K) (rows : List (RingSector K))
    (hpartner : anyVanish rows = true → ∀ c ∈ rows, c.2.2 = twoPi → ∃ a ∈ rows, a.1 = c.1 ∧ a ≠ c ∧ a.2.1 = 0 ∧
      0 < a.2.2 ∧ a.2.2 ≠ twoPi)
    (huniq : ∀ a ∈ rows, a.2.1 = 0 → rows.countP (fun b => decide (a.2.1 = 0) && sameR a b && decide (b.2.2 = twoPi)) ≤ 1)
    (hpos : ∀ c ∈ rows, 0 ≤ c.2.1 ∧ c.2.1 < twoPi) (c : RingSector K) (hc : c ∈ rows) (r th : K)
    (hin : c.1.1 < r ∧ r < c.1.2 ∧ c.2.1 < th ∧ th < c.2.2) :
    ∃ m ∈ mergeFinal twoPi rows, m.1 = c.1 ∧ SectorContainsStrict twoPi m r th := by
  by_cases hvan : anyVanish rows = true ∧ c.2.2 = twoPi
  · obtain ⟨hv, h2⟩ := hvan
    obtain ⟨a, ha, ha1, hac, ha0, hapos, hane⟩ := hpartner hv c hc h2
    refine ⟨_, (mem_mergeFinal twoPi rows _).mpr ⟨a, ha, rfl⟩, ?_⟩
    have hs := sum_single rows (fun b : RingSector K => b.2.1 - twoPi)
      (fun b => decide (a.2.1 = 0) && sameR a b && decide (b.2.2 = twoPi)) c hc (by simp [ha0, sameR, ha1, hac, h2])
      (huniq a ha ha0)
    have hcm : mergedRow twoPi rows a = (a.1, (c.2.1 - twoPi, a.2.2)) := by
      have hne : c.2.1 - twoPi ≠ 0 := ne_of_lt (sub_neg.mpr (hpos c hc).2)
      simp only [mergedRow]
      rw [hs, if_neg hne]
    rw [hv]
    simp only [hane, decide_false, Bool.and_false, Bool.false_eq_true, if_false]
    rw [hcm]
    refine ⟨ha1, ?_, ?_, Or.inr ⟨?_, ?_⟩⟩
    · simp only; rw [ha1]; exact hin.1
    · simp only; rw [ha1]; exact hin.2.1
    · simp only; linarith [hin.2.2.1]
    · simp only; linarith [hin.2.2.2]
  · refine ⟨_, (mem_mergeFinal twoPi rows _).mpr ⟨c, hc, rfl⟩, ?_⟩
    rw [if_neg (by simpa using hvan)]
    refine ⟨rfl, hin.1, hin.2.1, Or.inl ⟨?_, hin.2.2.2⟩⟩
    simp only [mergedRow]
    split_ifs with h
    · exact hin.2.2.1
    · -- the new lower bound is smaller
      by_cases h0 : c.2.1 = 0
      · have : (rows.map fun b => if decide (c.2.1 = 0) && sameR c b && decide (b.2.2 = twoPi) then b.2.1 - twoPi else 0).sum
            ≤ 0 := by
          apply list_sum_nonpos
          intro y hy
          obtain ⟨b, hb, rfl⟩ := List.mem_map.mp hy
          split_ifs
          · linarith [(hpos b hb).2]
          · exact le_rfl
        have h3 := hin.2.2.1
        rw [h0] at h3
        linarith
      · exfalso; apply h
        apply List.sum_eq_zero
        intro y hy
        obtain ⟨b, hb, rfl⟩ := List.mem_map.mp hy
        simp [h0]

end

/-- Witness for `C39_violated` with the real `2π`: the image at radii `[3, 4]` just below the positive real axis is
discarded because an unrelated ring `[1, 2]` has a sector starting at angle 0 and another one. -/
example : ∀ m ∈ mergeFinal (2 * Real.pi)
      [((1, 2), (0, 1/10)), ((1, 2), (1, 3/2)), (((3 : ℝ), 4), (6, 2 * Real.pi))], m.1 ≠ (3, 4) := by
  refine (C39_violated (2 * Real.pi) (by positivity) _ ((1, 2), (0, 1/10)) ((1, 2), (1, 3/2)) (by simp) (by simp) rfl
    ?_ rfl).2 (3, 4) ?_ ?_
  · intro h; have := congrArg (fun x => x.2.1) h; norm_num at this
  · intro h; have := congrArg Prod.fst h; norm_num at this
  · intro c hc h
    simp only [List.mem_cons, List.not_mem_nil, or_false] at hc
    rcases hc with rfl | rfl | rfl
    · have := congrArg Prod.fst h; norm_num at this
    · have := congrArg Prod.fst h; norm_num at this
    · rfl

/-- The hypotheses of `C39_cover_partial` hold for an arc across the axis and an unrelated sector (6 stands for `2π`),
and the merged table is as expected. -/
example :
    let rows : List (RingSector ℚ) := [((1, 2), (0, 1/10)), ((1, 2), (5, 6)), ((3, 4), (1, 2))]
    (anyVanish rows = true ∧ (∀ c ∈ rows, c.2.2 = 6 → ∃ a ∈ rows, a.1 = c.1 ∧ a ≠ c ∧ a.2.1 = 0 ∧ 0 < a.2.2 ∧ a.2.2 ≠ 6)) ∧
    (∀ a ∈ rows, a.2.1 = 0 → rows.countP (fun b => decide (a.2.1 = 0) && sameR a b && decide (b.2.2 = 6)) ≤ 1) ∧
    mergeFinal 6 rows = [((1, 2), (-1, 1/10)), ((3, 4), (1, 2)), ((0, 0), (0, 0))] := by decide +kernel

end Microjax.Props
