import Verif.Props.RegionSeparate

/-! # C125: the refined regions do not overlap -/

set_option linter.unusedSectionVars false

namespace Microjax.Props

open Jnp ExtendedSource MergeArea Spec

section
variable {K : Type*} [Field K] [LinearOrder K] [IsStrictOrderedRing K]

/-! ## Radii -/

/-- A limb radius that lies on an end of a run of radial bins is the smallest or the largest one. -/
def EdgesFree (limb : List (K × K)) (bins_r n : ℕ) : Prop :=
  ∀ x ∈ limb.map Prod.fst, x ≠ 0 → x = nzMin (limb.map Prod.fst) ∨ x = nzMax (limb.map Prod.fst) ∨
    ∃ row ∈ cluster1dR (limb.map Prod.fst) bins_r n, row.1 < x ∧ x < row.2

variable {twoPi : K} {n : ℕ} {limb : List (K × K)} {bins_r bins_th : ℕ} {mr : K}

theorem nzRange (hc : LimbConditions twoPi n limb bins_r bins_th mr) (x : K) (hx : x ∈ limb.map Prod.fst) (h0 : x ≠ 0) :
    nzMin (limb.map Prod.fst) ≤ x ∧ x ≤ nzMax (limb.map Prod.fst) := by
  obtain ⟨x1, hx1, x2, hx2, hx1p, hx12⟩ := hc.radii
  have hrnn : ∀ x ∈ limb.map Prod.fst, 0 ≤ x := by
    intro x hx; obtain ⟨p, hp', rfl⟩ := List.mem_map.mp hx; exact (hc.polar p hp').1
  obtain ⟨_, _, _, _, _, h⟩ := nz_bounds _ hrnn x1 x2 hx1 hx2 hx1p hx12
  exact h x hx h0

/-- The margins added to a limb radius inside a ring do not leave the ring, except below the smallest radius and above the
largest. -/
theorem ring_point (hc : LimbConditions twoPi n limb bins_r bins_th mr) (he : EdgesFree limb bins_r n) (ring : K × K)
    (hring : ring ∈ ringTable limb bins_r n mr) (x : K) (hx : x ∈ limb.map Prod.fst) (h1 : ring.1 < x) (h2 : x < ring.2) :
    (ring.1 ≤ max 0 (x - mr) ∨ x = nzMin (limb.map Prod.fst)) ∧ (x + mr ≤ ring.2 ∨ x = nzMax (limb.map Prod.fst)) := by
  have hm8 : (0 : K) < 1 / 10 ^ 8 := by positivity
  have hmr : 0 < mr := hm8.trans hc.margin
  have hgood := goodRanges_of twoPi n limb bins_r bins_th mr hc
  have hr0 := ringTable_nonneg limb bins_r n mr ring hring
  have hx0 : x ≠ 0 := by intro h; linarith
  obtain ⟨hb1, hb2⟩ := nzRange hc x hx hx0
  have hsort := refined_sorted _ mr hmr.le _ hgood
  obtain ⟨_, hsep⟩ := refined_rows _ mr hmr _ hgood
  unfold ringTable refineAddmarginMergeR at hring
  unfold refineAddmarginMergeR at hsep
  rw [refineAddMargin_eq] at hring hsort hsep
  cases hl : (cluster1dR (limb.map Prod.fst) bins_r n).map (refineOne (limb.map Prod.fst) mr) with
  | nil => rw [hl, mergeRows_nil] at hring; simp at hring
  | cons a l =>
    rw [hl] at hring hsort hsep
    have hone : ∀ row ∈ cluster1dR (limb.map Prod.fst) bins_r n, row = (0, 0) ∨ ∃ mn mx, mn ≤ mx ∧
        (∀ r ∈ limb.map Prod.fst, row.1 < r → r < row.2 → mn ≤ r ∧ r ≤ mx) ∧ mn ≤ nzMax (limb.map Prod.fst) ∧
        nzMin (limb.map Prod.fst) ≤ mx ∧ refineOne (limb.map Prod.fst) mr row = (max 0 (mn - mr), mx + mr) := by
      intro row hrow
      rcases hgood.int row hrow with h | ⟨g0, g⟩
      · exact Or.inl h
      · right
        obtain ⟨mn, mx, k1, k2, k3, k4, k5⟩ := refineOne_row _ mr row g0 g
        obtain ⟨r, hr, e1, e2⟩ := g
        obtain ⟨f1, f2⟩ := nzRange hc r hr (by intro h; linarith)
        obtain ⟨f3, f4⟩ := k4 r hr e1 e2
        exact ⟨mn, mx, k2, k4, f3.trans f2, f1.trans f4, k5⟩
    have hends : ring.1 ≤ max 0 (nzMax (limb.map Prod.fst) - mr) ∧ nzMin (limb.map Prod.fst) + mr ≤ ring.2 := by
      rcases mergeRows_ends l a ring hring with rfl | ⟨⟨i, hi, hi1⟩, j, hj, hj2⟩
      · exact absurd (h1.trans h2) (lt_irrefl _)
      · rw [← hl] at hi hj
        obtain ⟨rowi, hrowi, rfl⟩ := List.mem_map.mp hi
        obtain ⟨rowj, hrowj, rfl⟩ := List.mem_map.mp hj
        constructor
        · rcases hone rowi hrowi with rfl | ⟨mn, mx, _, _, k1, _, k5⟩
          · rw [refineOne_zero _ mr hmr.le] at hi1
            rw [hi1]; exact le_max_left _ _
          · rw [hi1, k5]
            exact max_le_max le_rfl (by linarith)
        · rcases hone rowj hrowj with rfl | ⟨mn, mx, _, _, _, k1, k5⟩
          · rw [refineOne_zero _ mr hmr.le] at hj2
            simp only at hj2
            linarith
          · rw [hj2, k5]
            simp only; linarith
    rcases he x hx hx0 with h | h | ⟨row, hrow, g1, g2⟩
    · exact ⟨Or.inr h, Or.inl (h ▸ hends.2)⟩
    · exact ⟨Or.inl (h ▸ hends.1), Or.inr h⟩
    · rcases hone row hrow with rfl | ⟨mn, mx, _, k1, _, _, k5⟩
      · exact absurd (g1.trans g2) (lt_irrefl _)
      obtain ⟨e1, e2⟩ := k1 x hx g1 g2
      have hmem : refineOne (limb.map Prod.fst) mr row ∈ a :: l := by rw [← hl]; exact List.mem_map_of_mem hrow
      obtain ⟨m, hm, f1, f2⟩ := mergeRows_contains l a hsort _ hmem
      rw [k5] at f1 f2
      simp only at f1 f2
      have hxpos : 0 < x := by linarith
      have hm1 : m.1 < x := lt_of_le_of_lt f1 (max_lt hxpos (by linarith))
      have hmeq : m = ring := by
        by_contra hne
        have hpw : (mergeRows (a :: l)).Pairwise (fun x y : K × K => x ≠ y → x = (0, 0) ∨ y = (0, 0) ∨ x.2 ≤ y.1 ∨ y.2 ≤ x.1) :=
          List.Pairwise.imp (fun {a b} h (_ : a ≠ b) => by tauto) hsep
        have : Std.Symm (fun x y : K × K => x ≠ y → x = (0, 0) ∨ y = (0, 0) ∨ x.2 ≤ y.1 ∨ y.2 ≤ x.1) :=
          ⟨fun x y h hne => by have := h hne.symm; tauto⟩
        rcases List.Pairwise.forall_of_forall
          (R := fun x y : K × K => x ≠ y → x = (0, 0) ∨ y = (0, 0) ∨ x.2 ≤ y.1 ∨ y.2 ≤ x.1)
          (fun x _ h => absurd rfl h) hpw hm hring hne with h | h | h | h
        · rw [h] at f2; simp only at f2; linarith
        · rw [h] at h2; simp only at h2; linarith
        · linarith
        · linarith
      subst hmeq
      exact ⟨Or.inl (f1.trans (max_le_max le_rfl (by linarith))), Or.inl (by linarith)⟩

/-! ## The final refinement -/

theorem le_amin' (l : List K) (x : K) (hne : l ≠ []) (h : ∀ y ∈ l, x ≤ y) : x ≤ amin l := h _ (amin_mem l hne)
theorem amax_le' (l : List K) (x : K) (hne : l ≠ []) (h : ∀ y ∈ l, y ≤ x) : amax l ≤ x := h _ (amax_mem l hne)

/-- The refined row stays within the margins of the row. -/
theorem refineFinalRow_within (hc : LimbConditions twoPi n limb bins_r bins_th mr) (he : EdgesFree limb bins_r n)
    (hbig : twoPi ≤ 10 ^ 5) (hbigr : ∀ p ∈ limb, p.1 ≤ 10 ^ 5) (mt : K) (hmt : 0 < mt) (m : RingSector K)
    (hring : m.1 ∈ ringTable limb bins_r n mr) (hth : -twoPi ≤ m.2.1) (hth2 : m.2.2 ≤ twoPi)
    (hp : ∃ p ∈ limb, m.1.1 < p.1 ∧ p.1 < m.1.2 ∧ m.2.1 < p.2 ∧ p.2 < m.2.2 ∧ 0 < p.2) :
    let R := refineFinalRow twoPi limb mr mt m
    0 ≤ R.1.1 ∧ R.1.1 < R.1.2 ∧ R.2.1 < R.2.2 ∧ m.2.1 - mt ≤ R.2.1 ∧ R.2.2 ≤ m.2.2 + mt ∧
      (m.1.1 ≤ R.1.1 ∨ (m.1.1 < nzMin (limb.map Prod.fst))) ∧
      (R.1.2 ≤ m.1.2 ∨ (nzMax (limb.map Prod.fst) < m.1.2)) := by
  obtain ⟨p, hpl, hp1, hp2, hp3, hp4, hp5⟩ := hp
  obtain ⟨⟨a, b⟩, α, β⟩ := m
  simp only at hp1 hp2 hp3 hp4 hring hth hth2 ⊢
  have hm8 : (0 : K) < 1 / 10 ^ 8 := by positivity
  have hmr : 0 < mr := hm8.trans hc.margin
  have ha0 : 0 ≤ a := ringTable_nonneg limb bins_r n mr (a, b) hring
  have hpos : 0 < p.1 := by linarith
  unfold refineFinalRow
  simp only
  set flip := condFlip twoPi (α, β) with hflip
  set pts := limb.map fun p : K × K => (p.1, thLimbNew twoPi flip p.2) with hpts
  set mask := fun p : K × K => decide (a < p.1) && decide (p.1 < b) && decide (α < p.2) && decide (p.2 < β)
    && decide (p.2 ≠ 0) && decide (p.1 ≠ 0) with hmask
  by_cases horg : (decide (α > 0) || flip) = true
  · simp only [horg, if_true]
    -- the point is in the mask
    have hth' : thLimbNew twoPi flip p.2 = p.2 := by
      unfold thLimbNew
      by_cases hf : flip = true
      · rw [if_pos hf, if_neg]
        rw [hflip, condFlip] at hf
        simp only [Bool.and_eq_true, decide_eq_true_eq] at hf
        linarith [hf.2]
      · rw [if_neg hf]
    have hq : (p.1, p.2) ∈ pts := by
      rw [hpts, List.mem_map]
      exact ⟨p, hpl, by rw [hth']⟩
    have hqm : mask (p.1, p.2) = true := by
      simp only [hmask, Bool.and_eq_true, decide_eq_true_eq]
      exact ⟨⟨⟨⟨⟨hp1, hp2⟩, hp3⟩, hp4⟩, hp5.ne'⟩, hpos.ne'⟩
    have hin : ∀ q ∈ pts, mask q = true → a < q.1 ∧ q.1 < b ∧ α < q.2 ∧ q.2 < β ∧ q.1 ∈ limb.map Prod.fst := by
      intro q hq hm
      simp only [hmask, Bool.and_eq_true, decide_eq_true_eq] at hm
      refine ⟨hm.1.1.1.1.1, hm.1.1.1.1.2, hm.1.1.1.2, hm.1.1.2, ?_⟩
      rw [hpts, List.mem_map] at hq
      obtain ⟨x, hx, rfl⟩ := hq
      exact List.mem_map.mpr ⟨x, hx, rfl⟩
    have hne : ∀ g : K × K → K, (pts.map g) ≠ [] := by
      intro g h
      rw [List.map_eq_nil_iff] at h
      rw [h] at hq
      simp at hq
    set r1 := amin (pts.map fun p => if mask p then p.1 else 10 ^ 5) with hr1
    set r2 := amax (pts.map fun p => if mask p then p.1 else 0) with hr2
    set t1 := amin (pts.map fun p => if mask p then p.2 else 10 ^ 5) with ht1
    set t2 := amax (pts.map fun p => if mask p then p.2 else -10 ^ 5) with ht2
    have hr1p : r1 ≤ p.1 := amin_le' _ _ (List.mem_map.mpr ⟨_, hq, by simp [hqm]⟩)
    have hr2p : p.1 ≤ r2 := le_amax' _ _ (List.mem_map.mpr ⟨_, hq, by simp [hqm]⟩)
    have ht1p : t1 ≤ p.2 := amin_le' _ _ (List.mem_map.mpr ⟨_, hq, by simp [hqm]⟩)
    have ht2p : p.2 ≤ t2 := le_amax' _ _ (List.mem_map.mpr ⟨_, hq, by simp [hqm]⟩)
    have hr2ne : r2 ≠ 0 := by intro h; linarith
    have ht1α : α ≤ t1 := by
      refine le_amin' _ _ (hne _) fun y hy => ?_
      obtain ⟨q, hq, rfl⟩ := List.mem_map.mp hy
      split_ifs with h
      · exact (hin q hq h).2.2.1.le
      · linarith
    have ht2β : t2 ≤ β := by
      refine amax_le' _ _ (hne _) fun y hy => ?_
      obtain ⟨q, hq, rfl⟩ := List.mem_map.mp hy
      split_ifs with h
      · exact (hin q hq h).2.2.2.1.le
      · have := hc.hpi; linarith
    have hr1a : a ≤ max 0 (r1 - mr) ∨ a < nzMin (limb.map Prod.fst) := by
      by_contra hcon
      push Not at hcon
      obtain ⟨hc1, hc2⟩ := hcon
      have hall : ∀ q ∈ pts, mask q = true → a ≤ max 0 (q.1 - mr) := by
        intro q hq h
        obtain ⟨g1, g2, _, _, g5⟩ := hin q hq h
        rcases (ring_point hc he (a, b) hring q.1 g5 g1 g2).1 with h | h
        · exact h
        · rw [← h] at hc2; linarith
      obtain ⟨q, hq', heq⟩ := List.mem_map.mp (amin_mem _ (hne fun p => if mask p then p.1 else 10 ^ 5))
      rw [← hr1] at heq
      split_ifs at heq with h
      · have := hall q hq' h
        rw [heq] at this
        exact absurd this (not_le.mpr hc1)
      · have h1 := hall _ hq hqm
        have h2 : p.1 = r1 := le_antisymm ((hbigr p hpl).trans heq.le) hr1p
        simp only [h2] at h1
        exact absurd h1 (not_le.mpr hc1)
    have hr2b : r2 + mr ≤ b ∨ nzMax (limb.map Prod.fst) < b := by
      by_contra hcon
      push Not at hcon
      obtain ⟨hc1, hc2⟩ := hcon
      obtain ⟨q, hq', heq⟩ := List.mem_map.mp (amax_mem _ (hne fun p => if mask p then p.1 else 0))
      rw [← hr2] at heq
      split_ifs at heq with h
      · obtain ⟨g1, g2, _, _, g5⟩ := hin q hq' h
        rcases (ring_point hc he (a, b) hring q.1 g5 g1 g2).2 with h | h
        · linarith
        · rw [← h] at hc2; linarith
      · exact hr2ne heq.symm
    have hz : (decide (max 0 (r1 - mr) = 0) && decide ((if r2 ≠ 0 then r2 + mr else 0) = 0)) = false := by
      rw [if_pos hr2ne, Bool.and_eq_false_iff]
      right
      simp only [decide_eq_false_iff_not]
      intro h; linarith
    rw [hz, if_pos hr2ne]
    simp only [Bool.false_eq_true, if_false]
    refine ⟨le_max_left _ _, max_lt (by linarith) (by linarith), by linarith, by linarith, by linarith, hr1a, hr2b⟩
  · simp only [horg, Bool.false_eq_true, if_false]
    have hz : (decide (a = 0) && decide (b = 0)) = false := by
      rw [Bool.and_eq_false_iff]
      right
      simp only [decide_eq_false_iff_not]
      intro h; linarith
    rw [hz]
    simp only [Bool.false_eq_true, if_false]
    exact ⟨ha0, by linarith, by linarith, le_rfl, le_rfl, Or.inl le_rfl, Or.inl le_rfl⟩

/-- What is known about a row after merging: its ring is in the table, a limb image lies inside, the angles are bounded
and leave at least one bin free. -/
theorem merged_row_facts (hc : LimbConditions twoPi n limb bins_r bins_th mr)
    (hfree : ∃ k < bins_th, ¬ Occupied (limb.map Prod.snd) 0 twoPi bins_th k) {E : List (RingSector K)}
    (hE : ∀ row ∈ E, RowForm twoPi limb bins_r bins_th n mr row) (hA : E.Pairwise (Apart (twoPi / bins_th)))
    (m : RingSector K) (hm : m ∈ mergeFinal twoPi E) (hm0 : m ≠ ((0, 0), (0, 0))) :
    m.1 ∈ ringTable limb bins_r n mr ∧ -twoPi ≤ m.2.1 ∧ m.2.2 ≤ twoPi ∧ m.2.2 + twoPi / bins_th ≤ m.2.1 + twoPi ∧
      ∃ p ∈ limb, m.1.1 < p.1 ∧ p.1 < m.1.2 ∧ m.2.1 < p.2 ∧ p.2 < m.2.2 ∧ 0 < p.2 := by
  have hpi := hc.hpi
  have hbK : (0 : K) < bins_th := by exact_mod_cast hc.bins_th_pos
  have hw : 0 < twoPi / bins_th := div_pos hpi hbK
  have hthb : ∀ x ∈ limb.map Prod.snd, 0 ≤ x ∧ x ≤ twoPi := by
    intro x hx; obtain ⟨p, hp', rfl⟩ := List.mem_map.mp hx
    exact ⟨(hc.polar p hp').2.1, (hc.polar p hp').2.2.le⟩
  obtain ⟨_, hT2, _⟩ := C40_cluster_angles twoPi hpi _ bins_th n hc.bins_th_pos hthb hc.runs_th
  have hnofull : ∀ t ∈ cluster1dTh twoPi (limb.map Prod.snd) bins_th n, ¬ (t.1 = 0 ∧ t.2 = twoPi) := by
    rintro t ht ⟨h1, h2⟩
    rcases hT2 t ht with rfl | ⟨i, j, ⟨_, hj, hocc, _⟩, rfl⟩
    · exact hpi.ne h2
    · obtain ⟨k, hk, hno⟩ := hfree
      simp only at h1 h2
      have hi : i = 0 := by
        rcases mul_eq_zero.mp h1 with h | h
        · exact_mod_cast h
        · exact absurd h hw.ne'
      have hjb : j = bins_th := by
        have h3 : (j : K) * (twoPi / bins_th) = bins_th * (twoPi / bins_th) := by
          rw [h2, mul_div_cancel₀ _ hbK.ne']
        exact_mod_cast mul_right_cancel₀ hw.ne' h3
      exact hno (hocc k (by omega) (by omega))
  obtain ⟨a, ha, rfl⟩ := List.mem_map.mp ((mergeFinal_perm twoPi E).mem_iff.mp hm)
  rcases mergeOne_form hpi hc.bins_th_pos hE hA a with h | ⟨ha0, hcase⟩
  · exact absurd h hm0
  rcases hE a ha with h | ⟨_, k2, k3, k4, p, hp, g1, g2, g3, g4⟩
  · exact absurd h ha0
  obtain ⟨fa1, fa2, fa3, fa4, fa5⟩ := grid_facts twoPi hpi bins_th hc.bins_th_pos _ k3
  rcases hcase with ⟨h1, _⟩ | ⟨h1, c, hcE, hca, hc1, hc2, h2⟩
  · rw [h1]
    refine ⟨k2, by linarith, fa3, ?_, p, hp, g1, g2, g3, g4, lt_of_le_of_lt fa1 g3⟩
    rcases fa4 with h | h
    · rcases fa5 with h' | h'
      · exact absurd ⟨h, h'⟩ (hnofull _ k4)
      · linarith
    · linarith
  · rw [h2]
    have hc0 : c ≠ ((0, 0), (0, 0)) := by rintro rfl; exact hpi.ne hc2
    obtain ⟨_, _, c3⟩ := rowForm_ne c (hE c hcE) hc0
    obtain ⟨fc1, fc2, fc3, fc4, fc5⟩ := grid_facts twoPi hpi bins_th hc.bins_th_pos _ c3
    refine ⟨k2, by simp only; linarith, fa3, ?_, p, hp, g1, g2, by simp only; linarith, g4, lt_of_le_of_lt fa1 g3⟩
    rcases same_ring hE hA a c ha hcE ha0 hca.symm hc1.symm with h | h
    · simp only; linarith
    · exfalso; linarith

/-- Two sectors have no point in common: one is an empty slot, or their radii are apart, or their angles are. -/
def NoOverlap (twoPi : K) (R S : RingSector K) : Prop :=
  R = ((0, 0), (0, 0)) ∨ S = ((0, 0), (0, 0)) ∨ R.1.2 ≤ S.1.1 ∨ S.1.2 ≤ R.1.1 ∨
    (R.2.2 ≤ S.2.1 ∧ S.2.2 ≤ R.2.1 + twoPi) ∨ (S.2.2 ≤ R.2.1 ∧ R.2.2 ≤ S.2.1 + twoPi)

/-- **C125 (part that holds)**: if some angular bin holds no limb image -- the images do not surround the origin -- and the
angular margin is at most half a bin (the defaults are half a degree and three degrees), the returned regions are ordered,
at most one turn wide, and no two of them overlap. -/
theorem C125_apart_partial (hc : LimbConditions twoPi n limb bins_r bins_th mr) (he : EdgesFree limb bins_r n)
    (hbig : twoPi ≤ 10 ^ 5) (hbigr : ∀ p ∈ limb, p.1 ≤ 10 ^ 5)
    (hfree : ∃ k < bins_th, ¬ Occupied (limb.map Prod.snd) 0 twoPi bins_th k) (nreal : ℕ) (mt : K) (hmt : 0 < mt)
    (hmt2 : 2 * mt ≤ twoPi / bins_th) :
    (∀ R ∈ regionsOfLimb twoPi n nreal limb bins_r bins_th mr mt, R = ((0, 0), (0, 0)) ∨
      (0 ≤ R.1.1 ∧ R.1.1 < R.1.2 ∧ R.2.1 < R.2.2 ∧ R.2.2 ≤ R.2.1 + twoPi)) ∧
    (regionsOfLimb twoPi n nreal limb bins_r bins_th mr mt).Pairwise (NoOverlap twoPi) := by
  obtain ⟨E, hE, hA, hreg⟩ := table_facts twoPi n limb bins_r bins_th mr hc
  have hap := merged_apart hc.hpi hc.bins_th_pos hE hA
  rw [hreg]
  constructor
  · intro R hR
    obtain ⟨m, hm, rfl⟩ := List.mem_map.mp hR
    by_cases hm0 : m = ((0, 0), (0, 0))
    · left; rw [hm0]; exact refineFinalRow_zero _ _ _ _
    · right
      obtain ⟨f1, f2, f3, f4, f5⟩ := merged_row_facts hc hfree hE hA m (List.mem_of_mem_take hm) hm0
      obtain ⟨g1, g2, g3, g4, g5, _⟩ := refineFinalRow_within hc he hbig hbigr mt hmt m f1 f2 f3 f5
      exact ⟨g1, g2, g3, by linarith⟩
  · rw [List.pairwise_map]
    refine List.Pairwise.imp_of_mem ?_ (hap.sublist (List.take_sublist _ _))
    intro x y hx hy hxy
    by_cases hx0 : x = ((0, 0), (0, 0))
    · left; rw [hx0]; exact refineFinalRow_zero _ _ _ _
    by_cases hy0 : y = ((0, 0), (0, 0))
    · right; left; rw [hy0]; exact refineFinalRow_zero _ _ _ _
    obtain ⟨f1, f2, f3, f4, f5⟩ := merged_row_facts hc hfree hE hA x (List.mem_of_mem_take hx) hx0
    obtain ⟨g1, g2, g3, g4, g5, g6, g7⟩ := refineFinalRow_within hc he hbig hbigr mt hmt x f1 f2 f3 f5
    obtain ⟨e1, e2, e3, e4, e5⟩ := merged_row_facts hc hfree hE hA y (List.mem_of_mem_take hy) hy0
    obtain ⟨k1, k2, k3, k4, k5, k6, k7⟩ := refineFinalRow_within hc he hbig hbigr mt hmt y e1 e2 e3 e5
    have hin : ∀ ring ∈ ringTable limb bins_r n mr, (∃ p ∈ limb, ring.1 < p.1 ∧ p.1 < ring.2) →
        nzMin (limb.map Prod.fst) < ring.2 ∧ ring.1 < nzMax (limb.map Prod.fst) := by
      rintro ring hring ⟨p, hp, h1, h2⟩
      have h0 := ringTable_nonneg _ _ _ _ ring hring
      obtain ⟨q1, q2⟩ := nzRange hc p.1 (List.mem_map_of_mem hp) (by intro h; linarith)
      exact ⟨by linarith, by linarith⟩
    obtain ⟨px, hpx, a1, a2, _⟩ := f5
    obtain ⟨py, hpy, b1, b2, _⟩ := e5
    obtain ⟨ix1, ix2⟩ := hin x.1 f1 ⟨px, hpx, a1, a2⟩
    obtain ⟨iy1, iy2⟩ := hin y.1 e1 ⟨py, hpy, b1, b2⟩
    rcases hxy with h | h | h | h | ⟨_, ⟨h, h'⟩ | ⟨h, h'⟩⟩
    · exact absurd h hx0
    · exact absurd h hy0
    · right; right; left
      have h7 := g7.resolve_right (by intro h'; linarith)
      have h6 := k6.resolve_right (by intro h'; linarith)
      linarith
    · right; right; right; left
      have h7 := k7.resolve_right (by intro h'; linarith)
      have h6 := g6.resolve_right (by intro h'; linarith)
      linarith
    · right; right; right; right; left
      constructor <;> linarith
    · right; right; right; right; right
      constructor <;> linarith

end

/-- The limb of the example of C38: an arc across the axis and a second image. -/
theorem exampleLimb_limbConditions : LimbConditions (6 : ℚ) 10 exampleLimb 10 12 (1/20) :=
  let h := exampleLimb_conditions
  ⟨h.hpi, h.bins_r_pos, h.bins_th_pos, h.polar, h.radii, h.tol, h.margin, h.runs_r, h.runs_th, h.inner⟩

/-- `C125_apart_partial` applies to it. -/
example : (regionsOfLimb (6 : ℚ) 10 5 exampleLimb 10 12 (1/20) (1/100)).Pairwise (NoOverlap 6) := by
  refine (C125_apart_partial exampleLimb_limbConditions ?_ (by norm_num) (by decide +kernel) ⟨3, by norm_num, ?_⟩ 5 (1/100)
    (by norm_num) (by norm_num)).2
  · unfold EdgesFree; decide +kernel
  · unfold Occupied InBin; decide +kernel

/-- `C125_ring_violated` applies to a ring of limb images: the angles of the only region are wider than a turn. -/
def ringLimb : List (ℚ × ℚ) := [(9/10, 1/2), (1, 2), (11/10, 7/2), (6/5, 5)]

theorem ringLimb_conditions : RingConditions (6 : ℚ) ringLimb 4 where
  hpi := by norm_num
  bins_pos := by norm_num
  polar := by decide +kernel
  tol := by norm_num
  full := by unfold Occupied InBin; decide +kernel

example : regionsOfLimb (6 : ℚ) 10 5 ringLimb 3 4 (1/5) (1/100) =
    [((4/5, 13/10), (-1/100, 601/100)), ((0, 0), (0, 0)), ((0, 0), (0, 0)), ((0, 0), (0, 0)), ((0, 0), (0, 0))] := by
  decide +kernel

example : ∃ region ∈ regionsOfLimb (6 : ℚ) 10 5 ringLimb 3 4 (1/5) (1/100),
    region.1.1 < region.1.2 ∧ region.2 = (-(1/100), 6 + 1/100) :=
  (C125_ring_violated 6 10 5 ringLimb 3 4 (1/5) (1/100) (by norm_num) (by norm_num) ringLimb_conditions).2
    (by decide +kernel)

end Microjax.Props
