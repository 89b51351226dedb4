import Verif.Props.RegionViolation

/-! # C125: a complete ring is given a region wider than a turn -/

set_option linter.unusedSectionVars false

namespace Microjax.Props

open Jnp ExtendedSource MergeArea Spec

section
variable {K : Type*} [Field K] [LinearOrder K] [IsStrictOrderedRing K]

theorem ringTable_nonneg (limb : List (K × K)) (bins_r n : ℕ) (mr : K) : ∀ row ∈ ringTable limb bins_r n mr, 0 ≤ row.1 := by
  intro row hrow
  unfold ringTable refineAddmarginMergeR at hrow
  have hnn : ∀ i ∈ refineAddMargin (limb.map Prod.fst) (cluster1dR (limb.map Prod.fst) bins_r n) mr, 0 ≤ i.1 := by
    intro i hi
    rw [refineAddMargin_eq] at hi
    obtain ⟨c, _, rfl⟩ := List.mem_map.mp hi
    exact le_max_left _ _
  cases hl : refineAddMargin (limb.map Prod.fst) (cluster1dR (limb.map Prod.fst) bins_r n) mr with
  | nil => rw [hl, mergeRows_nil] at hrow; simp at hrow
  | cons a l =>
    rw [hl] at hrow hnn
    rcases mergeRows_ends l a row hrow with rfl | ⟨⟨i, hi, h⟩, _⟩
    · exact le_rfl
    · rw [h]; exact hnn i hi

theorem runCount_full (arr : List K) (lo hi : K) (n : ℕ) (hfull : ∀ k < n, Occupied arr lo hi n k) :
    runCount arr lo hi n ≤ 1 := by
  classical
  unfold runCount
  refine (Finset.card_le_card (t := {0}) ?_).trans (by simp)
  intro k hk
  simp only [Finset.mem_filter, Finset.mem_range, RunStart] at hk
  obtain ⟨hkn, _, h | h⟩ := hk
  · simp [h]
  · exact absurd (hfull (k - 1) (by omega)) h

/-- If every angular bin is occupied, the only angular range is the whole turn. -/
theorem cluster_full (twoPi : K) (hpi : 0 < twoPi) (arr : List K) (bins n : ℕ) (hb : 0 < bins) (hn : 1 ≤ n)
    (h0 : ∀ x ∈ arr, 0 ≤ x ∧ x ≤ twoPi) (hfull : ∀ k < bins, Occupied arr 0 twoPi bins k) :
    (∀ row ∈ cluster1dTh twoPi arr bins n, row = (0, 0) ∨ row = (0, twoPi)) ∧
      ∀ x ∈ arr, 0 < x → (0, twoPi) ∈ cluster1dTh twoPi arr bins n := by
  obtain ⟨h1, h2, _⟩ := C40_cluster_angles twoPi hpi arr bins n hb h0 ((runCount_full arr 0 twoPi bins hfull).trans hn)
  have hbK : (bins : K) ≠ 0 := by exact_mod_cast hb.ne'
  have hform : ∀ row ∈ cluster1dTh twoPi arr bins n, row = (0, 0) ∨ row = (0, twoPi) := by
    intro row hrow
    rcases h2 row hrow with h | ⟨i, j, ⟨hij, hj, _, hi, hjn⟩, h⟩
    · exact Or.inl h
    · right
      have hi0 : i = 0 := by
        rcases hi with hi | hi
        · exact hi
        · by_contra hne
          exact hi (hfull (i - 1) (by omega))
      have hjb : j = bins := by
        rcases hjn with hjn | hjn
        · exact hjn
        · by_contra hne
          exact hjn (hfull j (by omega))
      rw [h, hi0, hjb]
      simp only [Nat.cast_zero, zero_mul]
      rw [mul_div_cancel₀ _ hbK]
  refine ⟨hform, ?_⟩
  intro x hx hx0
  obtain ⟨row, hrow, hr1, hr2⟩ := h1 x hx
  rcases hform row hrow with rfl | rfl
  · exact absurd (le_antisymm hr2 hr1) hx0.ne'
  · exact hrow

theorem sameR_false (E : List (RingSector K)) (twoPi : K)
    (hE : ∀ row ∈ E, row = ((0, 0), (0, 0)) ∨ (0 < row.1.2 ∧ row.2 = (0, twoPi))) :
    ∀ a ∈ E, ∀ b ∈ E, sameR a b = false := by
  intro a ha b hb
  simp only [sameR, Bool.and_eq_false_iff, decide_eq_false_iff_not, Bool.not_eq_false', decide_eq_true_eq]
  by_cases h : a.1 = b.1
  · right
    rcases hE a ha with h1 | ⟨h1, h1'⟩ <;> rcases hE b hb with h2 | ⟨h2, h2'⟩
    · rw [h1, h2]
    · rw [← h, h1] at h2; exact absurd h2 (lt_irrefl _)
    · rw [h, h2] at h1; exact absurd h1 (lt_irrefl _)
    · exact Prod.ext h (h1'.trans h2'.symm)
  · exact Or.inl h

/-- No merging across the axis takes place among whole rings. -/
theorem mergeFinal_rings (E : List (RingSector K)) (twoPi : K)
    (hE : ∀ row ∈ E, row = ((0, 0), (0, 0)) ∨ (0 < row.1.2 ∧ row.2 = (0, twoPi))) (m : RingSector K) :
    m ∈ mergeFinal twoPi E ↔ m ∈ E := by
  have hs := sameR_false E twoPi hE
  have hv : anyVanish E = false := by
    unfold anyVanish
    rw [List.any_eq_false]
    intro a ha
    simp only [Bool.and_eq_true, List.any_eq_true, not_and]
    rintro ⟨b, hb, h⟩
    rw [hs a ha b hb] at h
    exact absurd h (by simp)
  have hm : ∀ a ∈ E, mergedRow twoPi E a = a := by
    intro a ha
    unfold mergedRow
    have h0 : (E.map fun b : RingSector K => if decide (a.2.1 = 0) && sameR a b && decide (b.2.2 = twoPi) then
        b.2.1 - twoPi else 0).sum = 0 := by
      apply List.sum_eq_zero
      intro y hy
      obtain ⟨b, hb, rfl⟩ := List.mem_map.mp hy
      rw [hs a ha b hb]
      simp
    simp only [h0, if_true]
  rw [mem_mergeFinal, hv]
  simp only [Bool.false_and, Bool.false_eq_true, if_false]
  constructor
  · rintro ⟨a, ha, rfl⟩; rw [hm a ha]; exact ha
  · intro h; exact ⟨m, h, (hm m h).symm⟩

/-- A ring is kept as it is, and its angles are widened on both sides. -/
theorem refineFinalRow_ring (twoPi : K) (limb : List (K × K)) (mr mt : K) (r : K × K) (hr : r.2 ≠ 0) :
    refineFinalRow twoPi limb mr mt (r, (0, twoPi)) = (r, (-mt, twoPi + mt)) := by
  simp [refineFinalRow, condFlip, hr]

/-- Conditions of the theorem on complete rings: the polar coordinates of the valid images, tolerances of `isclose`, and
an image in every angular bin. -/
structure RingConditions (twoPi : K) (limb : List (K × K)) (bins_th : ℕ) : Prop where
  hpi : 0 < twoPi
  bins_pos : 0 < bins_th
  polar : ∀ p ∈ limb, (p.1 = 0 ∨ 1 / 10 ^ 8 < p.1) ∧ 0 ≤ p.2 ∧ p.2 < twoPi
  tol : 1 / 10 ^ 8 + 1 / 10 ^ 5 * twoPi < twoPi / bins_th
  full : ∀ k < bins_th, Occupied (limb.map Prod.snd) 0 twoPi bins_th k

theorem rings_before_merge (twoPi : K) (n : ℕ) (limb : List (K × K)) (bins_r bins_th : ℕ) (mr : K) (hn : 1 ≤ n)
    (hc : RingConditions twoPi limb bins_th) :
    (∀ row ∈ sectorTable twoPi limb bins_r bins_th n mr, row = ((0, 0), (0, 0)) ∨
      (1 / 10 ^ 8 < row.1.2 ∧ row.1 ∈ ringTable limb bins_r n mr ∧ row.2 = (0, twoPi) ∧ row.1.1 < row.1.2)) ∧
    ∀ ring ∈ ringTable limb bins_r n mr, (∃ p ∈ limb, ring.1 < p.1 ∧ p.1 < ring.2 ∧ 0 < p.2) →
      (ring, (0, twoPi)) ∈ sectorTable twoPi limb bins_r bins_th n mr := by
  have hthb : ∀ x ∈ limb.map Prod.snd, 0 ≤ x ∧ x ≤ twoPi := by
    intro x hx; obtain ⟨p, hp', rfl⟩ := List.mem_map.mp hx
    exact ⟨(hc.polar p hp').2.1, (hc.polar p hp').2.2.le⟩
  obtain ⟨hf, hex⟩ := cluster_full twoPi hc.hpi (limb.map Prod.snd) bins_th n hc.bins_pos hn hthb hc.full
  constructor
  · intro row hrow
    obtain ⟨r, hr, th, hth, ⟨hm, rfl⟩ | ⟨_, rfl⟩⟩ := (mem_maskedRows _ _ _ _).mp hrow
    · right
      simp only [inMask, List.any_eq_true, Bool.and_eq_true, decide_eq_true_eq] at hm
      obtain ⟨p, hp, ⟨⟨g1, g2⟩, g3⟩, g4⟩ := hm
      have h0 := ringTable_nonneg _ _ _ _ r hr
      refine ⟨?_, hr, ?_, g1.trans g2⟩
      · rcases (hc.polar p hp).1 with h | h
        · linarith
        · exact h.trans g2
      · rcases hf th hth with rfl | h
        · simp only at g3 g4; linarith
        · exact h
    · exact Or.inl rfl
  · rintro ring hring ⟨p, hp, h1, h2, h3⟩
    refine (mem_maskedRows _ _ _ _).mpr ⟨ring, hring, (0, twoPi), hex p.2 (List.mem_map.mpr ⟨p, hp, rfl⟩) h3,
      Or.inl ⟨?_, rfl⟩⟩
    simp only [inMask, List.any_eq_true, Bool.and_eq_true, decide_eq_true_eq]
    exact ⟨p, hp, ⟨⟨h1, h2⟩, h3⟩, (hc.polar p hp).2.2⟩

theorem snap_full (twoPi : K) (hpi : 0 < twoPi) (bins : ℕ) (hb : 0 < bins)
    (htol : 1 / 10 ^ 8 + 1 / 10 ^ 5 * twoPi < twoPi / bins) (rows : List (K × K))
    (h : ∀ t ∈ rows, t = (0, 0) ∨ t = (0, twoPi)) :
    rows.map (fun row : K × K =>
      ((fun x : K => (fun y : K => if isclose y twoPi then twoPi else y) (if isclose x 0 then 0 else x)) row.1,
       (fun x : K => (fun y : K => if isclose y twoPi then twoPi else y) (if isclose x 0 then 0 else x)) row.2))
      = rows := by
  have hs := snap_id twoPi hpi bins hb htol
  have h0 := hs 0 (by omega)
  have h1 := hs bins le_rfl
  have hbK : (bins : K) ≠ 0 := by exact_mod_cast hb.ne'
  simp only [Nat.cast_zero, zero_mul] at h0
  rw [mul_div_cancel₀ _ hbK] at h1
  conv_rhs => rw [← List.map_id rows]
  apply List.map_congr_left
  intro t ht
  rcases h t ht with rfl | rfl
  · exact Prod.ext h0 h0
  · exact Prod.ext h0 h1

/-- **C125 (violated)**, complete ring: if the images of the source limb occupy every angular bin -- the source covers the
point behind the lens and its image is a complete ring -- then *every* region returned by `define_regions` that is not an
empty slot is a ring whose angles run from `-margin_th` to `2π + margin_th`, more than a full turn.  The directions within
`margin_th` of the positive axis are passed over twice.  At least one such region is returned if some ring has a limb
image in its interior. -/
theorem C125_ring_violated (twoPi : K) (n nreal : ℕ) (limb : List (K × K)) (bins_r bins_th : ℕ) (margin_r margin_th : K)
    (hn : 1 ≤ n) (hnreal : 1 ≤ nreal) (hc : RingConditions twoPi limb bins_th) :
    (∀ region ∈ regionsOfLimb twoPi n nreal limb bins_r bins_th margin_r margin_th, region = ((0, 0), (0, 0)) ∨
      (region.1 ∈ ringTable limb bins_r n margin_r ∧ region.1.1 < region.1.2 ∧
        region.2 = (-margin_th, twoPi + margin_th))) ∧
    ((∃ ring ∈ ringTable limb bins_r n margin_r, ∃ p ∈ limb, ring.1 < p.1 ∧ p.1 < ring.2 ∧ 0 < p.2) →
      ∃ region ∈ regionsOfLimb twoPi n nreal limb bins_r bins_th margin_r margin_th,
        region.1.1 < region.1.2 ∧ region.2 = (-margin_th, twoPi + margin_th)) := by
  obtain ⟨hrow, hex⟩ := rings_before_merge twoPi n limb bins_r bins_th margin_r hn hc
  have hm8 : (0 : K) < 1 / 10 ^ 8 := by positivity
  have hthb : ∀ x ∈ limb.map Prod.snd, 0 ≤ x ∧ x ≤ twoPi := by
    intro x hx; obtain ⟨p, hp', rfl⟩ := List.mem_map.mp hx
    exact ⟨(hc.polar p hp').2.1, (hc.polar p hp').2.2.le⟩
  have hsnap := snap_full twoPi hc.hpi bins_th hc.bins_pos hc.tol _
    (cluster_full twoPi hc.hpi (limb.map Prod.snd) bins_th n hc.bins_pos hn hthb hc.full).1
  have htol8 : 1 / 10 ^ 8 < twoPi := by
    have h1 : 0 < 1 / 10 ^ 5 * twoPi := mul_pos (by positivity) hc.hpi
    have h2 : twoPi / bins_th ≤ twoPi := div_le_self hc.hpi.le (by exact_mod_cast hc.bins_pos)
    linarith [hc.tol]
  have hzp : ∀ row ∈ sectorTable twoPi limb bins_r bins_th n margin_r, ZeroOrProper row := by
    intro row h
    rcases hrow row h with h | ⟨h1, _, h3, _⟩
    · exact Or.inl h
    · exact Or.inr ⟨h1, by rw [h3]; exact htol8⟩
  have hxe := excessRows_eq _ n hzp
  set E := excessRows (sectorTable twoPi limb bins_r bins_th n margin_r) n with hE
  have hsub : ∀ row ∈ E, row ∈ sectorTable twoPi limb bins_r bins_th n margin_r := by
    intro row h
    rw [hxe] at h
    exact (mem_sortFlag _ _ _).mp (List.mem_of_mem_take h)
  have hEform : ∀ row ∈ E, row = ((0, 0), (0, 0)) ∨ (0 < row.1.2 ∧ row.2 = (0, twoPi)) := by
    intro row h
    rcases hrow row (hsub row h) with h | ⟨h1, _, h3, _⟩
    · exact Or.inl h
    · exact Or.inr ⟨hm8.trans h1, h3⟩
  have hmem := mergeFinal_rings E twoPi hEform
  have hreg : regionsOfLimb twoPi n nreal limb bins_r bins_th margin_r margin_th
      = ((mergeFinal twoPi E).take nreal).map (refineFinalRow twoPi limb margin_r margin_th) := by
    unfold regionsOfLimb
    simp only
    rw [hsnap]
    rfl
  rw [hreg]
  constructor
  · intro region h
    obtain ⟨m, hm, rfl⟩ := List.mem_map.mp h
    have hmE := (hmem m).mp (List.mem_of_mem_take hm)
    rcases hrow m (hsub m hmE) with rfl | ⟨h1, h2, h3, h4⟩
    · exact Or.inl (refineFinalRow_zero _ _ _ _)
    · right
      obtain ⟨r, th⟩ := m
      simp only at h1 h2 h3
      subst h3
      rw [refineFinalRow_ring _ _ _ _ _ (hm8.trans h1).ne']
      exact ⟨h2, h4, rfl⟩
  · rintro ⟨ring, hring, hp⟩
    have hS := hex ring hring hp
    have hr2 : ring.2 ≠ 0 := by
      obtain ⟨p, hp, h1, h2, _⟩ := hp
      have := ringTable_nonneg _ _ _ _ ring hring
      linarith
    -- the first row of the excess table is not empty
    have hEne : ∃ row ∈ E, row ≠ ((0, 0), (0, 0)) := by
      rw [hxe]
      unfold sortFlag
      have hne : (ring, (0, twoPi)) ∈ (sectorTable twoPi limb bins_r bins_th n margin_r).filter
          (fun row => !decide (row = ((0, 0), (0, 0)))) := by
        rw [List.mem_filter]
        refine ⟨hS, ?_⟩
        simp only [Bool.not_eq_true', decide_eq_false_iff_not]
        intro h
        exact hr2 (congrArg (fun x : RingSector K => x.1.2) h)
      cases hl : (sectorTable twoPi limb bins_r bins_th n margin_r).filter
          (fun row => !decide (row = ((0, 0), (0, 0)))) with
      | nil => rw [hl] at hne; simp at hne
      | cons a l =>
        have ha : a ∈ (sectorTable twoPi limb bins_r bins_th n margin_r).filter
          (fun row => !decide (row = ((0, 0), (0, 0)))) := by rw [hl]; simp
        refine ⟨a, ?_, by simpa using (List.mem_filter.mp ha).2⟩
        obtain ⟨n', rfl⟩ : ∃ n', n = n' + 1 := ⟨n - 1, by omega⟩
        simp
    obtain ⟨row, hrE, hrne⟩ := hEne
    have hfirst : ∃ m ∈ (mergeFinal twoPi E).take nreal, m.1.2 ≠ 0 := by
      have hmm := (hmem row).mpr hrE
      have hr0 : row.1.2 ≠ 0 := by
        rcases hEform row hrE with h | ⟨h, _⟩
        · exact absurd h hrne
        · exact h.ne'
      unfold mergeFinal at hmm ⊢
      simp only at hmm ⊢
      rw [mem_sortFlag] at hmm
      unfold sortFlag
      have hne := (List.mem_filter (p := fun m : RingSector K => !decide (m.1.2 = 0))).mpr ⟨hmm, by simpa using hr0⟩
      obtain ⟨k, rfl⟩ : ∃ k, nreal = k + 1 := ⟨nreal - 1, by omega⟩
      generalize hl : List.filter (fun m : RingSector K => !decide (m.1.2 = 0)) _ = l at hne ⊢
      cases l with
      | nil => simp at hne
      | cons a l =>
        have ha : a ∈ a :: l := by simp
        rw [← hl] at ha
        exact ⟨a, by simp, by simpa using (List.mem_filter.mp ha).2⟩
    obtain ⟨m, hm, hm2⟩ := hfirst
    refine ⟨_, List.mem_map_of_mem hm, ?_⟩
    rcases hrow m (hsub m ((hmem m).mp (List.mem_of_mem_take hm))) with rfl | ⟨h1, h2, h3, h4⟩
    · exact absurd rfl hm2
    · obtain ⟨r, th⟩ := m
      simp only at h1 h2 h3
      subst h3
      rw [refineFinalRow_ring _ _ _ _ _ (hm8.trans h1).ne']
      exact ⟨h4, rfl⟩

end

end Microjax.Props
