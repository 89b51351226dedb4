import Verif.Lemmas.Cluster
import Verif.Spec.Regions
import Verif.Props.CubicInterp

/-! # C40: clustering of limb radii and angles -/

namespace Microjax.Props

open Jnp ExtendedSource MergeArea

section
variable {K : Type*} [Field K] [LinearOrder K] [IsStrictOrderedRing K]

/-- Every value lies in the range or, if it is below it, the range starts at a value (as for the zeros among the
radii). -/
def ValuesFit (arr : List K) (lo hi : K) : Prop := ∀ x ∈ arr, (lo ≤ x ∧ x ≤ hi) ∨ (x < lo ∧ lo ∈ arr)

theorem edge_eq (lo hi : K) (bins k : ℕ) : edge lo hi bins (k + 1) = lo + k * ((hi - lo) / bins) := by
  unfold edge; push_cast; ring

theorem inBin_iff (lo hi : K) (bins : ℕ) (hb : 0 < bins) (h : lo < hi) (k : ℕ) (hk : k < bins) (x : K) (hx : lo ≤ x)
    (hx' : x ≤ hi) : binIndex (binEdges lo hi bins) bins x = k + 1 ↔ Spec.InBin lo hi bins k x := by
  have e1 := edge_eq lo hi bins k
  have e2 := edge_eq lo hi bins (k + 1)
  push_cast at e2
  unfold Spec.InBin
  rw [← e1, ← e2]
  constructor
  · intro hbx
    obtain ⟨h1, h2, h3⟩ := binIndex_bracket lo hi bins hb h x hx hx'
    rw [hbx] at h1 h2 h3
    refine ⟨h1, ?_⟩
    rcases h3 with h3 | h3
    · exact Or.inl h3
    · exact Or.inr ⟨h3, hx'⟩
  · rintro ⟨h1, h2 | ⟨h2, h3⟩⟩
    · exact binIndex_of_lt lo hi bins hb h x (k + 1) (by omega) (by omega) h1 h2
    · obtain ⟨g1, g2, g3⟩ := binIndex_bracket lo hi bins hb h x hx hx'
      obtain ⟨b1, b2⟩ := binIndex_mem (binEdges lo hi bins) bins hb x
      set b := binIndex (binEdges lo hi bins) bins x
      rcases g3 with g3 | g3
      · by_contra hne
        have : b + 1 ≤ k + 1 := by omega
        have := edge_mono lo hi bins h.le this
        exact absurd (lt_of_lt_of_le g3 this) (not_lt.mpr h1)
      · omega

theorem occ_iff_occupied (arr : List K) (lo hi : K) (bins : ℕ) (hb : 0 < bins) (h : lo < hi)
    (hv : ValuesFit arr lo hi) (k : ℕ) (hk : k < bins) :
    occ arr lo hi bins (k + 1) = true ↔ Spec.Occupied arr lo hi bins k := by
  rw [occ_iff]
  constructor
  · rintro ⟨x, hx, hbx⟩
    rcases hv x hx with ⟨h1, h2⟩ | ⟨h1, h2⟩
    · exact ⟨hk, x, hx, (inBin_iff lo hi bins hb h k hk x h1 h2).mp hbx⟩
    · refine ⟨hk, lo, h2, ?_⟩
      have : binIndex (binEdges lo hi bins) bins x = 1 := by
        rw [binEdges_eq lo hi bins hb, binIndex, List.countP_map]
        have hanti := countP_range_antitone ((fun e => decide (e ≤ x)) ∘ edge lo hi bins) (bins + 3) fun i j hij hj => by
          simp only [Function.comp_apply, decide_eq_true_eq] at *
          exact (edge_mono lo hi bins h.le hij).trans hj
        have := hanti 1 (by omega)
        simp only [Function.comp_apply, decide_eq_true_eq, edge_one] at this
        have hc : ¬ 1 < (List.range (bins + 3)).countP ((fun e => decide (e ≤ x)) ∘ edge lo hi bins) := by
          rw [← this]; exact not_le.mpr h1
        omega
      have hk0 : k = 0 := by omega
      subst hk0
      refine (inBin_iff lo hi bins hb h 0 hk lo le_rfl h.le).mp ?_
      refine binIndex_of_lt lo hi bins hb h lo 1 le_rfl (by omega) ?_ ?_
      · rw [edge_one]
      · conv_lhs => rw [← edge_one lo hi bins]
        exact edge_strictMono lo hi bins hb h (by omega)
  · rintro ⟨_, x, hx, hin⟩
    rcases hv x hx with ⟨h1, h2⟩ | ⟨h1, h2⟩
    · exact ⟨x, hx, (inBin_iff lo hi bins hb h k hk x h1 h2).mpr hin⟩
    · have h3 := hin.1
      have h4 : 0 ≤ (k : K) * ((hi - lo) / bins) :=
        mul_nonneg (Nat.cast_nonneg _) (div_nonneg (by linarith) (Nat.cast_nonneg _))
      linarith

theorem occ_false_iff (arr : List K) (lo hi : K) (bins : ℕ) (hb : 0 < bins) (h : lo < hi)
    (hv : ValuesFit arr lo hi) (k : ℕ) (hk : k < bins) :
    occ arr lo hi bins (k + 1) = false ↔ ¬ Spec.Occupied arr lo hi bins k := by
  rw [← occ_iff_occupied arr lo hi bins hb h hv k hk, Bool.not_eq_true]

theorem numRuns_eq_runCount (arr : List K) (lo hi : K) (bins : ℕ) (hb : 0 < bins) (h : lo < hi)
    (hv : ValuesFit arr lo hi) : numRuns arr lo hi bins = Spec.runCount arr lo hi bins := by
  classical
  unfold numRuns Spec.runCount
  rw [List.range_succ, List.countP_append, List.countP_singleton]
  have htop : isStart (occ arr lo hi bins) bins = false := by
    simp [isStart, occ_top arr lo hi bins hb]
  rw [htop]
  simp only [Bool.false_eq_true, if_false, add_zero]
  rw [List.countP_eq_length_filter, ← List.toFinset_card_of_nodup (List.nodup_range.filter _)]
  congr 1
  ext k
  simp only [List.mem_toFinset, List.mem_filter, List.mem_range, Finset.mem_filter, Finset.mem_range]
  refine and_congr_right fun hk => ?_
  unfold isStart Spec.RunStart
  rw [Bool.and_eq_true, Bool.not_eq_true', occ_iff_occupied arr lo hi bins hb h hv k hk, and_comm]
  refine and_congr_right fun _ => ?_
  rcases Nat.eq_zero_or_pos k with rfl | hk0
  · simp [occ_zero arr lo hi bins hb]
  · obtain ⟨k', rfl⟩ := Nat.exists_eq_succ_of_ne_zero hk0.ne'
    rw [Nat.succ_eq_add_one, occ_false_iff arr lo hi bins hb h hv k' (by omega)]
    simp

/-- **C40.** With at most `max_cluster` runs of occupied bins, the clustering returns the two ends of every run: each
value of the range lies between a start and the end paired with it, each returned pair that is not padding delimits a
maximal run of occupied bins, and the pairs come in increasing order and are separated. -/
theorem C40_cluster_range (arr : List K) (lo hi : K) (bins mc : ℕ) (hb : 0 < bins) (h0 : 0 ≤ lo) (h : lo < hi)
    (hv : ValuesFit arr lo hi) (hr : Spec.runCount arr lo hi bins ≤ mc) :
    (∀ x ∈ arr, lo ≤ x → x ≤ hi → ∃ row ∈ cluster1dRange arr lo hi bins mc, row.1 ≤ x ∧ x ≤ row.2) ∧
    (∀ row ∈ cluster1dRange arr lo hi bins mc, row = (0, 0) ∨ ∃ i j : ℕ, Spec.IsRun arr lo hi bins i j ∧
      row = (lo + i * ((hi - lo) / bins), lo + j * ((hi - lo) / bins))) ∧
    (cluster1dRange arr lo hi bins mc).Pairwise (fun a b => a = (0, 0) ∨ a.2 < b.1) ∧
    (cluster1dRange arr lo hi bins mc).length = min mc (bins + 1) := by
  rw [← numRuns_eq_runCount arr lo hi bins hb h hv] at hr
  rw [cluster1dRange_eq arr lo hi bins mc hb h0 h hr]
  refine ⟨?_, ?_, ?_, ?_⟩
  · intro x hx h1 h2
    obtain ⟨row, hrow, h3⟩ := runs_cover arr lo hi bins hb h x hx h1 h2
    exact ⟨row, List.mem_append_right _ hrow, h3⟩
  · intro row hrow
    rcases List.mem_append.mp hrow with hz | hz
    · exact Or.inl (List.eq_of_mem_replicate hz)
    · right
      obtain ⟨i, j, hi1, hij, hj, rfl, hocc, hocc0, hocc1⟩ := runs_sound arr lo hi bins hb row hz
      obtain ⟨i', rfl⟩ := Nat.exists_eq_succ_of_ne_zero (show i ≠ 0 by omega)
      obtain ⟨j', rfl⟩ := Nat.exists_eq_succ_of_ne_zero (show j ≠ 0 by omega)
      refine ⟨i', j', ⟨by omega, by omega, ?_, ?_, ?_⟩, ?_⟩
      · intro k hk1 hk2
        exact (occ_iff_occupied arr lo hi bins hb h hv k (by omega)).mp (hocc (k + 1) (by omega) (by omega))
      · rcases Nat.eq_zero_or_pos i' with h5 | h5
        · exact Or.inl h5
        · right
          obtain ⟨i'', rfl⟩ := Nat.exists_eq_succ_of_ne_zero h5.ne'
          refine (occ_false_iff arr lo hi bins hb h hv i'' (by omega)).mp ?_
          simpa using hocc0
      · rcases Nat.lt_or_ge j' bins with h5 | h5
        · exact Or.inr ((occ_false_iff arr lo hi bins hb h hv j' h5).mp hocc1)
        · exact Or.inl (by omega)
      · rw [Nat.succ_eq_add_one, Nat.succ_eq_add_one, edge_eq, edge_eq]
  · rw [List.pairwise_append]
    refine ⟨?_, (runs_pairwise arr lo hi bins hb h).imp fun hab => Or.inr hab, ?_⟩
    · exact List.pairwise_replicate.mpr (Or.inr (Or.inl rfl))
    · intro a ha b _
      exact Or.inl (List.eq_of_mem_replicate ha)
  · rw [List.length_append, List.length_replicate, runs_length arr lo hi bins hb]
    have hle1 : numRuns arr lo hi bins ≤ bins + 1 := by
      have := List.countP_le_length (p := isStart (occ arr lo hi bins)) (l := List.range (bins + 1))
      simpa [numRuns] using this
    omega

omit [IsStrictOrderedRing K] in
theorem amin_le' (l : List K) (x : K) (hx : x ∈ l) : amin l ≤ x := by
  cases l with
  | nil => simp at hx
  | cons z l =>
    rcases List.mem_cons.mp hx with rfl | hx
    · exact (foldl_min_le l _).1
    · exact (foldl_min_le l _).2 x hx

omit [IsStrictOrderedRing K] in
theorem le_amax' (l : List K) (x : K) (hx : x ∈ l) : x ≤ amax l := by
  cases l with
  | nil => simp at hx
  | cons z l =>
    rcases List.mem_cons.mp hx with rfl | hx
    · exact (le_foldl_max l _).1
    · exact (le_foldl_max l _).2 x hx

omit [Field K] [IsStrictOrderedRing K] in
theorem foldl_min_mem (l : List K) (x : K) : l.foldl min x ∈ x :: l := by
  induction l generalizing x with
  | nil => simp
  | cons z l ih =>
    have := ih (min x z)
    simp only [List.foldl_cons]
    rcases List.mem_cons.mp this with h | h
    · rw [h]
      rcases min_choice x z with h' | h' <;> simp [h']
    · simp [h]

omit [Field K] [IsStrictOrderedRing K] in
theorem foldl_max_mem (l : List K) (x : K) : l.foldl max x ∈ x :: l := by
  induction l generalizing x with
  | nil => simp
  | cons z l ih =>
    have := ih (max x z)
    simp only [List.foldl_cons]
    rcases List.mem_cons.mp this with h | h
    · rw [h]
      rcases max_choice x z with h' | h' <;> simp [h']
    · simp [h]

omit [IsStrictOrderedRing K] in
theorem amin_mem (l : List K) (h : l ≠ []) : amin l ∈ l := by
  cases l with
  | nil => exact absurd rfl h
  | cons z l => exact foldl_min_mem l z

omit [IsStrictOrderedRing K] in
theorem amax_mem (l : List K) (h : l ≠ []) : amax l ∈ l := by
  cases l with
  | nil => exact absurd rfl h
  | cons z l => exact foldl_max_mem l z

/-- Smallest and largest non-zero value. -/
def nzMin (arr : List K) : K := amin (arr.filter fun x => decide (x ≠ 0))
/-- Largest non-zero value. -/
def nzMax (arr : List K) : K := amax (arr.filter fun x => decide (x ≠ 0))

omit [IsStrictOrderedRing K] in
theorem nz_bounds (arr : List K) (h0 : ∀ x ∈ arr, 0 ≤ x) (x1 x2 : K) (hx1 : x1 ∈ arr) (hx2 : x2 ∈ arr) (h1 : 0 < x1)
    (h12 : x1 < x2) : 0 < nzMin arr ∧ nzMin arr < nzMax arr ∧ nzMin arr ∈ arr ∧ nzMax arr ∈ arr ∧
      ValuesFit arr (nzMin arr) (nzMax arr) ∧ ∀ x ∈ arr, x ≠ 0 → nzMin arr ≤ x ∧ x ≤ nzMax arr := by
  have m1 : x1 ∈ arr.filter fun x => decide (x ≠ 0) := List.mem_filter.mpr ⟨hx1, by simpa using h1.ne'⟩
  have m2 : x2 ∈ arr.filter fun x => decide (x ≠ 0) := List.mem_filter.mpr ⟨hx2, by simpa using (h1.trans h12).ne'⟩
  have hmem : nzMin arr ∈ arr.filter fun x => decide (x ≠ 0) := amin_mem _ (List.ne_nil_of_mem m1)
  have hmem' : nzMax arr ∈ arr.filter fun x => decide (x ≠ 0) := amax_mem _ (List.ne_nil_of_mem m1)
  obtain ⟨ha, hb⟩ := List.mem_filter.mp hmem
  have hpos : 0 < nzMin arr := lt_of_le_of_ne (h0 _ ha) (Ne.symm (by simpa using hb))
  have hbd : ∀ x ∈ arr, x ≠ 0 → nzMin arr ≤ x ∧ x ≤ nzMax arr := by
    intro x hx hne
    have : x ∈ arr.filter fun x => decide (x ≠ 0) := List.mem_filter.mpr ⟨hx, by simpa using hne⟩
    exact ⟨amin_le' _ x this, le_amax' _ x this⟩
  refine ⟨hpos, amin_lt_amax _ x1 x2 m1 m2 h12.ne, ha, (List.mem_filter.mp hmem').1, ?_, hbd⟩
  intro x hx
  by_cases hne : x = 0
  · right; rw [hne]; exact ⟨hpos, ha⟩
  · exact Or.inl (hbd x hx hne)

/-- **C40**, radii (`mode_r=True`): the range is that of the non-zero radii; masked images (radius 0) do not count. -/
theorem C40_cluster_radii (arr : List K) (bins mc : ℕ) (hb : 0 < bins) (h0 : ∀ x ∈ arr, 0 ≤ x) (x1 x2 : K)
    (hx1 : x1 ∈ arr) (hx2 : x2 ∈ arr) (h1 : 0 < x1) (h12 : x1 < x2)
    (hr : Spec.runCount arr (nzMin arr) (nzMax arr) bins ≤ mc) :
    (∀ x ∈ arr, x ≠ 0 → ∃ row ∈ cluster1dR arr bins mc, row.1 ≤ x ∧ x ≤ row.2) ∧
    (∀ row ∈ cluster1dR arr bins mc, row = (0, 0) ∨ ∃ i j : ℕ, Spec.IsRun arr (nzMin arr) (nzMax arr) bins i j ∧
      row = (nzMin arr + i * ((nzMax arr - nzMin arr) / bins), nzMin arr + j * ((nzMax arr - nzMin arr) / bins))) ∧
    (cluster1dR arr bins mc).Pairwise (fun a b => a = (0, 0) ∨ a.2 < b.1) := by
  obtain ⟨hpos, hlt, _, _, hv, hbd⟩ := nz_bounds arr h0 x1 x2 hx1 hx2 h1 h12
  obtain ⟨h3, h4, h5, _⟩ := C40_cluster_range arr _ _ bins mc hb hpos.le hlt hv hr
  exact ⟨fun x hx hne => h3 x hx (hbd x hx hne).1 (hbd x hx hne).2, h4, h5⟩

/-- **C40**, angles (`mode_r=False`): the range is `[0, 2π]`. -/
theorem C40_cluster_angles (twoPi : K) (hpi : 0 < twoPi) (arr : List K) (bins mc : ℕ) (hb : 0 < bins)
    (h0 : ∀ x ∈ arr, 0 ≤ x ∧ x ≤ twoPi) (hr : Spec.runCount arr 0 twoPi bins ≤ mc) :
    (∀ x ∈ arr, ∃ row ∈ cluster1dTh twoPi arr bins mc, row.1 ≤ x ∧ x ≤ row.2) ∧
    (∀ row ∈ cluster1dTh twoPi arr bins mc, row = (0, 0) ∨ ∃ i j : ℕ, Spec.IsRun arr 0 twoPi bins i j ∧
      row = (i * (twoPi / bins), j * (twoPi / bins))) ∧
    (cluster1dTh twoPi arr bins mc).Pairwise (fun a b => a = (0, 0) ∨ a.2 < b.1) := by
  obtain ⟨h3, h4, h5, _⟩ := C40_cluster_range arr 0 twoPi bins mc hb le_rfl hpi (fun x hx => Or.inl (h0 x hx)) hr
  refine ⟨fun x hx => h3 x hx (h0 x hx).1 (h0 x hx).2, ?_, h5⟩
  simpa [cluster1dTh] using h4

end

/-- The hypotheses hold for seven radii (one masked) in ten bins: two runs. -/
example : Spec.runCount ([1, 11/10, 12/10, 0, 3, 29/10, 35/10] : List ℚ) (nzMin [1, 11/10, 12/10, 0, 3, 29/10, 35/10])
    (nzMax [1, 11/10, 12/10, 0, 3, 29/10, 35/10]) 10 ≤ 10 := by
  obtain ⟨_, hlt, _, _, hv, _⟩ := nz_bounds ([1, 11/10, 12/10, 0, 3, 29/10, 35/10] : List ℚ) (by decide +kernel) 1 3
    (by decide +kernel) (by decide +kernel) (by decide +kernel) (by decide +kernel)
  rw [← numRuns_eq_runCount _ _ _ _ (by norm_num) hlt hv]
  decide +kernel

/-- What is returned there: the runs `[1, 1.25]` and `[2.75, 3.5]` after eight rows of padding. -/
example : cluster1dR ([1, 11/10, 12/10, 0, 3, 29/10, 35/10] : List ℚ) 10 10
    = List.replicate 8 (0, 0) ++ [(1, 5/4), (11/4, 7/2)] := by decide +kernel

/-- Angles with a run at either end of `[0, 2π]` (an exact rational stands for `2π`). -/
example : cluster1dTh (6 : ℚ) [1/10, 2/10, 3, 59/10] 12 4 = [(0, 0), (0, 1/2), (3, 7/2), (11/2, 6)] := by decide +kernel

end Microjax.Props
