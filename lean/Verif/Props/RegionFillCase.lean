import Verif.Props.RegionFill

/-! # C126: room in the tables, and a lens and source that meet all conditions of `C126_sampled_partial` -/

noncomputable section

namespace Microjax.Props

open Complex Spec MeasureTheory Set Filter Topology ExtendedSource PointSource MergeArea Jnp

/-! ## Room in the tables -/

/-- The table of a clustering has at most one non-empty row per run. -/
theorem cluster_count (rows : List (ℝ × ℝ)) (arr : List ℝ) (lo hi b w : ℝ) (bins : ℕ) (hw : 0 < w)
    (h1 : ∀ row ∈ rows, row = (0, 0) ∨ ∃ i j : ℕ, IsRun arr lo hi bins i j ∧ row = (b + i * w, b + j * w))
    (h2 : rows.Pairwise fun x y => x = (0, 0) ∨ x.2 < y.1) :
    rows.countP (fun r => !decide (r = (0, 0))) ≤ runCount arr lo hi bins := by
  classical
  rw [List.countP_eq_length_filter]
  set l := rows.filter fun r => !decide (r = (0, 0)) with hl
  have hne : ∀ r ∈ l, r ≠ (0, 0) := fun r hr => by
    have := (List.mem_filter.mp hr).2
    simpa using this
  have hrun : ∀ r ∈ l, ∃ i j : ℕ, IsRun arr lo hi bins i j ∧ r = (b + i * w, b + j * w) := fun r hr =>
    (h1 r (List.mem_filter.mp hr).1).resolve_left (hne r hr)
  have hl2 : l.Pairwise fun x y => x = (0, 0) ∨ x.2 < y.1 := h2.sublist List.filter_sublist
  choose! f g hf hg using hrun
  have hnd : (l.map f).Nodup := by
    rw [List.Nodup, List.pairwise_map]
    refine List.Pairwise.imp_of_mem ?_ hl2
    intro x y hx hy hxy hfe
    have h := hxy.resolve_left (hne x hx)
    rw [hg x hx, hg y hy] at h
    simp only at h
    have : (g x : ℝ) * w < f y * w := by linarith
    have h' : (g x : ℝ) < f y := lt_of_mul_lt_mul_right this hw.le
    have h'' : g x < f y := by exact_mod_cast h'
    have := (hf x hx).1
    omega
  have hsub : (l.map f).toFinset ⊆ (Finset.range bins).filter (RunStart arr lo hi bins) := by
    intro k hk
    rw [List.mem_toFinset] at hk
    obtain ⟨x, hx, rfl⟩ := List.mem_map.mp hk
    obtain ⟨g1, g2, g3, g4, _⟩ := hf x hx
    rw [Finset.mem_filter, Finset.mem_range]
    exact ⟨by omega, g3 _ le_rfl g1, g4⟩
  have := Finset.card_le_card hsub
  rw [List.toFinset_card_of_nodup hnd, List.length_map] at this
  unfold runCount
  convert this

/-- An empty ring or an empty angular range holds no limb image. -/
theorem inMask_zero (limb : List (ℝ × ℝ)) (r th : ℝ × ℝ) (h : r = (0, 0) ∨ th = (0, 0)) : inMask limb r th = false := by
  rw [inMask, List.any_eq_false]
  intro p _
  simp only [Bool.and_eq_true, decide_eq_true_eq, not_and, not_lt]
  rcases h with rfl | rfl
  · intro h1; exact absurd h1.1.2 (by simpa using h1.1.1.le)
  · intro h1; exact h1.2.le

theorem maskedRows_count (limb r_map th_map : List (ℝ × ℝ)) :
    (maskedRows limb r_map th_map).countP (fun s => !decide (s = ((0, 0), (0, 0))))
      ≤ r_map.countP (fun r => !decide (r = (0, 0))) * th_map.countP (fun r => !decide (r = (0, 0))) := by
  induction r_map with
  | nil => simp [maskedRows]
  | cons r l ih =>
    have hsplit : maskedRows limb (r :: l) th_map = maskedRows limb [r] th_map ++ maskedRows limb l th_map := by
      simp [maskedRows]
    rw [hsplit, List.countP_append]
    have hone : (maskedRows limb [r] th_map).countP (fun s => !decide (s = ((0, 0), (0, 0))))
        ≤ (if r = (0, 0) then 0 else 1) * th_map.countP (fun r => !decide (r = (0, 0))) := by
      have he : maskedRows limb [r] th_map = th_map.map fun th =>
          ((mulBool r.1 (inMask limb r th), mulBool r.2 (inMask limb r th)),
            (mulBool th.1 (inMask limb r th), mulBool th.2 (inMask limb r th))) := by simp [maskedRows]
      rw [he, List.countP_map]
      by_cases hr : r = (0, 0)
      · rw [if_pos hr, zero_mul, Nat.le_zero, List.countP_eq_zero]
        intro th _
        simp [inMask_zero limb r th (Or.inl hr), mulBool]
      · rw [if_neg hr, one_mul]
        refine List.countP_mono_left fun th _ h => ?_
        by_contra hth
        simp only [Bool.not_eq_true, Bool.not_eq_false', decide_eq_true_eq] at hth
        simp [inMask_zero limb r th (Or.inr hth), mulBool] at h
    have hc : (r :: l).countP (fun r => !decide (r = (0, 0)))
        = l.countP (fun r => !decide (r = (0, 0))) + if r = (0, 0) then 0 else 1 := by
      rw [List.countP_cons]
      by_cases hr : r = (0, 0) <;> simp [hr]
    rw [hc, add_mul]
    linarith

theorem excess_count (rows : List (RingSector ℝ)) (n : ℕ) :
    (excessRows rows n).countP (fun s => !decide (s.1.2 = 0)) ≤ rows.countP (fun s => !decide (s = ((0, 0), (0, 0)))) := by
  have h1 : (excessRows rows n).countP (fun s => !decide (s.1.2 = 0))
      = ((excessRows rows n).map Prod.fst).countP (fun r => !decide (r.2 = 0)) := by
    rw [List.countP_map]; rfl
  have hsub : ∀ (a b : List (ℝ × ℝ)), ((a.zip b).map Prod.fst).Sublist a := by
    intro a
    induction a with
    | nil => intro b; simp
    | cons x a ih =>
      intro b
      cases b with
      | nil => simp
      | cons y b => simpa using ih b
  rw [h1]
  unfold excessRows
  refine ((hsub _ _).countP_le).trans (((List.take_sublist _ _).countP_le).trans ?_)
  rw [List.Perm.countP_eq _ (sortFlag_perm _ _), List.countP_map]
  refine List.countP_mono_left fun s _ h => ?_
  by_contra hs
  simp only [Bool.not_eq_true, Bool.not_eq_false', decide_eq_true_eq] at hs
  simp [hs] at h

theorem final_count (twoPi : ℝ) (E : List (RingSector ℝ)) :
    (mergeFinal twoPi E).countP (fun m => !decide (m.1.2 = 0)) ≤ E.countP (fun s => !decide (s.1.2 = 0)) := by
  rw [List.Perm.countP_eq _ (mergeFinal_perm twoPi E), List.countP_map]
  refine List.countP_mono_left fun s _ h => ?_
  by_contra hs
  simp only [Bool.not_eq_true, Bool.not_eq_false', decide_eq_true_eq] at hs
  simp only [Function.comp, mergeOne] at h
  split_ifs at h
  · simp at h
  · simp [mergedRow, hs] at h

/-! ## A lens and a source -/

/-- Images of the two points `3i/2` and `8i/3` of the limb of the source of radius `7/12` at `25i/12`, for a unit mass at the
origin. -/
def pairLimb : List (ℂ × Bool) :=
  [(((2 : ℝ) : ℂ) * I, true), (((3 : ℝ) : ℂ) * I, true), (((1/2 : ℝ) : ℂ) * -I, true), (((1/3 : ℝ) : ℂ) * -I, true)]

theorem pairLimb_polar : pairLimb.map limbPolar
    = [(2, Real.pi / 2), (3, Real.pi / 2), (1/2, 3 * Real.pi / 2), (1/3, 3 * Real.pi / 2)] := by
  simp only [pairLimb, List.map_cons, List.map_nil]
  rw [limbPolar_up 2 (by norm_num), limbPolar_up 3 (by norm_num), limbPolar_down (1/2) (by norm_num),
    limbPolar_down (1/3) (by norm_num)]

theorem pair_table (limb : List (ℝ × ℝ)) (h : limb.map Prod.fst = [2, 3, 1/2, 1/3]) :
    ringTable limb 1 10 (7/6) = [(0, 0), (0, 19/6)] ∧ cluster1dR (limb.map Prod.fst) 1 10 = [(0, 0), (1/3, 3)] := by
  have hcl : cluster1dR (limb.map Prod.fst) 1 10 = [(0, 0), (1/3, 3)] := by
    rw [h]
    norm_num [cluster1dR, cluster1dRange, amin, amax, binEdges, linspace, List.range, List.range.loop, binMask, binIndex,
      slice, startMask, endMask, mulBool, sort, lastN, List.insertionSort, List.orderedInsert]
  refine ⟨?_, hcl⟩
  unfold ringTable refineAddmarginMergeR
  rw [hcl, h]
  norm_num [refineAddMargin, amin, amax, mergeRows_cons, mergeRows_one]

theorem pair_angles : (pairLimb.map limbPolar).map Prod.snd = [Real.pi / 2, Real.pi / 2, 3 * Real.pi / 2, 3 * Real.pi / 2] := by
  rw [pairLimb_polar]; simp

theorem pair_radii : (pairLimb.map limbPolar).map Prod.fst = [2, 3, 1/2, 1/3] := by
  rw [pairLimb_polar]; simp

theorem pair_tol : 1 / 10 ^ 8 + 1 / 10 ^ 5 * (2 * Real.pi) < 2 * Real.pi / ((5 : ℕ) : ℝ) := by
  have hp2 := Real.two_le_pi
  push_cast; linarith

/-- The angular rows: empty or whole runs of bins, none of which ends at `2π`. -/
theorem pair_rows : ∀ row ∈ cluster1dTh (2 * Real.pi) ((pairLimb.map limbPolar).map Prod.snd) 5 10, row = (0, 0) ∨
    ∃ i j : ℕ, IsRun ((pairLimb.map limbPolar).map Prod.snd) 0 (2 * Real.pi) 5 i j ∧
      row = (i * (2 * Real.pi / (5 : ℕ)), j * (2 * Real.pi / (5 : ℕ))) := by
  have hp := Real.pi_pos
  refine (C40_cluster_angles (2 * Real.pi) (by positivity) _ 5 10 (by norm_num) ?_
    ((runCount_le_bins _ _ _ _).trans (by norm_num))).2.1
  rw [pair_angles]
  intro x hx
  simp only [List.mem_cons, List.not_mem_nil, or_false] at hx
  rcases hx with rfl | rfl | rfl | rfl <;> constructor <;> linarith

theorem pair_free (k : ℕ) (hk : k = 0 ∨ k = 4) : ¬ Occupied ((pairLimb.map limbPolar).map Prod.snd) 0 (2 * Real.pi) 5 k := by
  have hp := Real.pi_pos
  rw [pair_angles]
  rintro ⟨_, x, hx, h1, h2⟩
  simp only [List.mem_cons, List.not_mem_nil, or_false] at hx
  rcases hk with rfl | rfl
  · rcases h2 with h2 | h2
    · push_cast at h2
      rcases hx with rfl | rfl | rfl | rfl <;> linarith
    · omega
  · push_cast at h1
    rcases hx with rfl | rfl | rfl | rfl <;> linarith

theorem pair_conditions : CoverConditions (2 * Real.pi) 10 5 (pairLimb.map limbPolar) 1 5 (7/6) := by
  have hp := Real.pi_pos
  obtain ⟨htab, hcl⟩ := pair_table (pairLimb.map limbPolar) pair_radii
  have hpolar : ∀ p ∈ pairLimb.map limbPolar, 0 ≤ p.1 ∧ 0 ≤ p.2 ∧ p.2 < 2 * Real.pi := by
    rw [pairLimb_polar]
    intro p hp'
    simp only [List.mem_cons, List.not_mem_nil, or_false] at hp'
    rcases hp' with rfl | rfl | rfl | rfl <;> refine ⟨by norm_num, by positivity, ?_⟩ <;> simp only <;> linarith
  have hsec : (sectorTable (2 * Real.pi) (pairLimb.map limbPolar) 1 5 10 (7/6)).countP
      (fun s => !decide (s = ((0, 0), (0, 0)))) ≤ 5 := by
    unfold sectorTable
    refine (maskedRows_count _ _ _).trans ?_
    have h1 : (ringTable (pairLimb.map limbPolar) 1 10 (7/6)).countP (fun r => !decide (r = (0, 0))) ≤ 1 := by
      rw [htab]; simp
    have h2 : (cluster1dTh (2 * Real.pi) ((pairLimb.map limbPolar).map Prod.snd) 5 10).countP (fun r => !decide (r = (0, 0))) ≤ 5 := by
      refine (cluster_count _ ((pairLimb.map limbPolar).map Prod.snd) 0 (2 * Real.pi) 0 (2 * Real.pi / (5 : ℕ)) 5 (by positivity)
        (fun row hrow => by simpa using pair_rows row hrow) ?_).trans (runCount_le_bins _ _ _ _)
      refine (C40_cluster_angles (2 * Real.pi) (by positivity) _ 5 10 (by norm_num) ?_
        ((runCount_le_bins _ _ _ _).trans (by norm_num))).2.2
      intro x hx
      obtain ⟨p, hp', rfl⟩ := List.mem_map.mp hx
      exact ⟨(hpolar p hp').2.1, (hpolar p hp').2.2.le⟩
    calc _ ≤ 1 * 5 := Nat.mul_le_mul h1 h2
      _ = 5 := by norm_num
  refine ⟨by positivity, by norm_num, by norm_num, hpolar, ?_, pair_tol, by norm_num, (runCount_le_bins _ _ _ _).trans (by norm_num),
    (runCount_le_bins _ _ _ _).trans (by norm_num), ?_, hsec.trans (by norm_num), ?_, ?_⟩
  · rw [pair_radii]; exact ⟨2, by simp, 3, by simp, by norm_num, by norm_num⟩
  · rw [hcl, pair_radii]
    intro row hrow
    simp only [List.mem_cons, List.not_mem_nil, or_false] at hrow
    rcases hrow with rfl | rfl
    · exact Or.inl rfl
    · right; exact ⟨2, by simp, by norm_num, by norm_num⟩
  · exact (final_count _ _).trans ((excess_count _ _).trans hsec)
  · intro _ c hc hc2
    exfalso
    obtain ⟨r, _, t, ht, ⟨_, rfl⟩ | ⟨_, rfl⟩⟩ := (mem_maskedRows _ _ _ _).mp hc
    · rcases pair_rows t ht with rfl | ⟨i, j, ⟨g1, g2, g3, _⟩, rfl⟩
      · simp only at hc2; linarith
      · simp only at hc2
        have hj : j = 5 := by
          by_contra hne
          have h4 : j ≤ 4 := by omega
          have h4' : (j : ℝ) ≤ 4 := by exact_mod_cast h4
          have : (j : ℝ) * (2 * Real.pi / (5 : ℕ)) ≤ 4 * (2 * Real.pi / (5 : ℕ)) := by gcongr
          rw [hc2] at this
          push_cast at this
          linarith
        exact pair_free 4 (Or.inr rfl) (g3 4 (by omega) (by omega))
    · simp only at hc2; linarith

theorem pair_edges : EdgesFree (pairLimb.map limbPolar) 1 10 := by
  obtain ⟨_, hcl⟩ := pair_table (pairLimb.map limbPolar) pair_radii
  unfold EdgesFree
  rw [hcl, pair_radii]
  have h1 : nzMin ([2, 3, 1/2, 1/3] : List ℝ) = 1/3 := by norm_num [nzMin, amin]
  have h2 : nzMax ([2, 3, 1/2, 1/3] : List ℝ) = 3 := by norm_num [nzMax, amax]
  rw [h1, h2]
  intro x hx _
  simp only [List.mem_cons, List.not_mem_nil, or_false] at hx
  rcases hx with rfl | rfl | rfl | rfl
  · right; right; exact ⟨(1/3, 3), by simp, by norm_num, by norm_num⟩
  · right; left; rfl
  · right; right; exact ⟨(1/3, 3), by simp, by norm_num, by norm_num⟩
  · left; rfl

theorem pair_inside (p : ℝ × ℝ) (h1 : p.1 = 2 ∨ p.1 = 1/2) (h2 : p.2 = Real.pi / 2 ∨ p.2 = 3 * Real.pi / 2) :
    InsideRuns pairLimb 10 1 5 p := by
  have hp := Real.pi_pos
  obtain ⟨_, hcl⟩ := pair_table (pairLimb.map limbPolar) pair_radii
  constructor
  · rw [hcl]
    intro row hrow
    simp only [List.mem_cons, List.not_mem_nil, or_false] at hrow
    rcases hrow with rfl | rfl <;> rcases h1 with h | h <;> rw [h] <;> norm_num
  · have hgrid : ∀ k : ℕ, p.2 ≠ k * (2 * Real.pi / (5 : ℕ)) := by
      intro k hk
      rcases h2 with h | h <;> rw [h] at hk <;> push_cast at hk
      · have : (5 : ℝ) * Real.pi = (4 * k) * Real.pi := by linarith
        have h' : (5 : ℝ) = 4 * k := mul_right_cancel₀ hp.ne' this
        have : (5 : ℕ) = 4 * k := by exact_mod_cast h'
        omega
      · have : (15 : ℝ) * Real.pi = (4 * k) * Real.pi := by linarith
        have h' : (15 : ℝ) = 4 * k := mul_right_cancel₀ hp.ne' this
        have : (15 : ℕ) = 4 * k := by exact_mod_cast h'
        omega
    intro row hrow
    rcases pair_rows row hrow with rfl | ⟨i, j, _, rfl⟩
    · have h0 : p.2 ≠ 0 := by rcases h2 with h | h <;> rw [h] <;> positivity
      exact ⟨h0, h0⟩
    · exact ⟨hgrid i, hgrid j⟩

theorem abs_arg_le (v : ℂ) (h : 0 < v.re) : |arg v| ≤ |v.im| / v.re := by
  have hlt := abs_lt.mp (abs_arg_lt_pi_div_two_iff.mpr (Or.inl h))
  have htan : Real.tan (arg v) = v.im / v.re := tan_arg v
  have key : |arg v| ≤ |Real.tan (arg v)| := by
    rcases le_total 0 (arg v) with h0 | h0
    · have := Real.le_tan h0 hlt.2
      rw [abs_of_nonneg h0]
      exact this.trans (le_abs_self _)
    · have := Real.le_tan (x := -arg v) (by linarith) (by linarith)
      rw [abs_of_nonpos h0]
      rw [Real.tan_neg] at this
      exact this.trans (neg_le_abs _)
  rwa [htan, abs_div, abs_of_pos h] at key

theorem pair_dense : DenseLimb (userLens 2 { s := 0, q := 1 }) (((25/12 : ℝ) : ℂ) * I) (7/12) pairLimb 10 1 5 2 36 := by
  have hp := Real.pi_pos
  have hp2 := Real.two_le_pi
  intro z hoff hz
  have hz0 : z ≠ 0 := by
    have := hoff ((1 : ℝ) / (1 + 1), ((0 / (1 + 1) : ℝ) : ℂ)) (by simp [userLens, binary])
    simpa using this
  have hmap : lensMap (userLens 2 { s := 0, q := 1 }) z = z - 1 / (starRingEnd ℂ) z := by
    have hc : (starRingEnd ℂ) z ≠ 0 := by simpa using hz0
    simp [lensMap, userLens, binary]
    field_simp
  rw [hmap] at hz
  set r := ‖z‖ with hr
  have hrpos : 0 < r := norm_pos_iff.mpr hz0
  have hns : (starRingEnd ℂ) z * z = ((r ^ 2 : ℝ) : ℂ) := by
    rw [mul_comm, mul_conj, normSq_eq_norm_sq]
  have hc : (starRingEnd ℂ) z ≠ 0 := by simpa using hz0
  set k : ℝ := 1 - 1 / r ^ 2 with hk
  have hy : z - 1 / (starRingEnd ℂ) z = (k : ℂ) * z := by
    have : (1 : ℂ) / (starRingEnd ℂ) z = ((1 / r ^ 2 : ℝ) : ℂ) * z := by
      rw [div_eq_iff hc, mul_assoc, mul_comm z, hns, ← ofReal_mul]
      rw [one_div, inv_mul_cancel₀ (by positivity)]
      simp
    rw [this, hk]
    push_cast
    ring
  rw [hy] at hz
  -- components
  have hre : |k * z.re| ≤ 7/12 := by
    have := abs_re_le_norm ((k : ℂ) * z - ((25/12 : ℝ) : ℂ) * I)
    rw [hz] at this
    simpa using this
  have him : |k * z.im - 25/12| ≤ 7/12 := by
    have := abs_im_le_norm ((k : ℂ) * z - ((25/12 : ℝ) : ℂ) * I)
    rw [hz] at this
    simpa using this
  have hnorm1 : ‖(k : ℂ) * z‖ ≤ 8/3 := by
    have h : (k : ℂ) * z = ((k : ℂ) * z - ((25/12 : ℝ) : ℂ) * I) + ((25/12 : ℝ) : ℂ) * I := by ring
    rw [h]
    refine (norm_add_le _ _).trans ?_
    rw [hz, norm_mul, norm_real, norm_I]
    norm_num
  have hnorm2 : 3/2 ≤ ‖(k : ℂ) * z‖ := by
    have h := norm_sub_le ((k : ℂ) * z) ((k : ℂ) * z - ((25/12 : ℝ) : ℂ) * I)
    rw [sub_sub_cancel, hz, norm_mul, norm_real, norm_I] at h
    norm_num at h ⊢
    linarith
  rw [norm_mul, norm_real, Real.norm_eq_abs, ← hr] at hnorm1 hnorm2
  rw [abs_le] at him
  have hkr : k * r = r - 1 / r := by rw [hk]; field_simp
  have hmt : (36 : ℝ) * (Real.pi / 180) = Real.pi / 5 := by ring
  have hsmall : (7 : ℝ)/18 < Real.pi / 5 := by linarith
  have hkim : 3/2 ≤ k * z.im := by linarith
  have hratio : |z.re| / |z.im| ≤ 7/18 := by
    have hzi : 0 < |z.im| := abs_pos.mpr fun h => by rw [h] at hkim; linarith
    have hk0 : 0 < |k| := abs_pos.mpr fun h => by rw [h] at hkim; linarith
    rw [div_le_iff₀ hzi]
    have h1 : |k| * |z.re| ≤ 7/12 := by rw [← abs_mul]; exact hre
    have h2 : 3/2 ≤ |k| * |z.im| := by rw [← abs_mul]; exact hkim.trans (le_abs_self _)
    have : |k| * |z.re| ≤ |k| * (7/18 * |z.im|) := by nlinarith
    exact le_of_mul_le_mul_left this hk0
  rcases le_total k 0 with hneg | hpos
  · -- the image inside the Einstein ring
    have hkabs : |k| * r = 1 / r - r := by rw [abs_of_nonpos hneg]; linarith
    rw [hkabs] at hnorm1 hnorm2
    have hzim : z.im < 0 := by
      by_contra hge
      push Not at hge
      have := mul_nonpos_of_nonpos_of_nonneg hneg hge
      linarith
    have hinv : r * (1 / r) = 1 := mul_one_div_cancel hrpos.ne'
    have hr1 : r ≤ 1/2 := by
      by_contra hlt
      push Not at hlt
      have : r * (3/2) ≤ 1 - r * r := by nlinarith
      nlinarith
    have hr2 : 1/3 ≤ r := by
      by_contra hlt
      push Not at hlt
      have : 1 - r * r ≤ r * (8/3) := by nlinarith
      nlinarith
    refine ⟨(((1/2 : ℝ) : ℂ) * -I, true), by simp [pairLimb], rfl, by simp, ?_⟩
    rw [limbPolar_down (1/2) (by norm_num)]
    refine ⟨pair_inside _ (Or.inr rfl) (Or.inr rfl), r, 3 * Real.pi / 2 + arg (I * z), ?_, hrpos, ?_, ?_⟩
    · have h1 : I * z = r * exp (arg (I * z) * I) := by
        have := norm_mul_exp_arg_mul_I (I * z)
        rw [norm_mul, norm_I, one_mul, ← hr] at this
        exact this.symm
      have h2 : exp (I * ((3 * Real.pi / 2 : ℝ) : ℂ)) = -I := by
        rw [show I * ((3 * Real.pi / 2 : ℝ) : ℂ) = -(Real.pi / 2 * I) + 2 * Real.pi * I by push_cast; ring, exp_add,
          exp_two_pi_mul_I, mul_one, exp_neg, exp_pi_div_two_mul_I, inv_I]
      rw [ofReal_add, mul_add, exp_add, h2, mul_comm I (arg (I * z) : ℂ)]
      calc z = -I * (I * z) := by rw [← mul_assoc]; simp
        _ = -I * (r * exp (arg (I * z) * I)) := by rw [← h1]
        _ = _ := by ring
    · rw [abs_lt]; constructor <;> simp only <;> linarith
    · have := abs_arg_le (I * z) (by simp; linarith)
      simp only [mul_im, I_re, zero_mul, I_im, one_mul, zero_add, mul_re, zero_sub] at this
      rw [add_sub_cancel_left, hmt]
      rw [abs_of_neg hzim] at hratio
      linarith
  · have hkabs : |k| * r = r - 1 / r := by rw [abs_of_nonneg hpos]; exact hkr
    rw [hkabs] at hnorm1 hnorm2
    have hzim : 0 < z.im := by
      by_contra hge
      push Not at hge
      have := mul_nonpos_of_nonneg_of_nonpos hpos hge
      linarith
    have hinv : r * (1 / r) = 1 := mul_one_div_cancel hrpos.ne'
    have hr1 : r ≤ 3 := by
      by_contra hlt
      push Not at hlt
      have : r * r - 1 ≤ r * (8/3) := by nlinarith
      nlinarith
    have hr2 : 2 ≤ r := by
      by_contra hlt
      push Not at hlt
      have : r * (3/2) ≤ r * r - 1 := by nlinarith
      nlinarith
    refine ⟨(((2 : ℝ) : ℂ) * I, true), by simp [pairLimb], rfl, by simp, ?_⟩
    rw [limbPolar_up 2 (by norm_num)]
    refine ⟨pair_inside _ (Or.inl rfl) (Or.inl rfl), r, Real.pi / 2 + arg (-I * z), ?_, hrpos, ?_, ?_⟩
    · have h1 : -I * z = r * exp (arg (-I * z) * I) := by
        have := norm_mul_exp_arg_mul_I (-I * z)
        rw [norm_mul, norm_neg, norm_I, one_mul, ← hr] at this
        exact this.symm
      have h2 : exp (I * ((Real.pi / 2 : ℝ) : ℂ)) = I := by
        rw [show I * ((Real.pi / 2 : ℝ) : ℂ) = Real.pi / 2 * I by push_cast; ring, exp_pi_div_two_mul_I]
      rw [ofReal_add, mul_add, exp_add, h2, mul_comm I (arg (-I * z) : ℂ)]
      calc z = I * (-I * z) := by rw [← mul_assoc]; simp
        _ = I * (r * exp (arg (-I * z) * I)) := by rw [← h1]
        _ = _ := by ring
    · rw [abs_lt]; constructor <;> simp only <;> linarith
    · have := abs_arg_le (-I * z) (by simp; linarith)
      simp only [neg_mul, neg_im, neg_re, mul_im, I_re, zero_mul, I_im, one_mul, zero_add, mul_re, zero_sub, neg_neg, abs_neg] at this
      rw [add_sub_cancel_left, hmt]
      rw [abs_of_pos hzim] at hratio
      simp only [neg_mul]
      linarith

/-- `C126_sampled_partial` applies to a unit mass at the origin, a source of radius `7/12` at `25i/12` and the images of two
points of its limb, with one radial and five angular bins. -/
example : ∃ regions, defineRegions pairLimb (7/12) 1 5 2 36 2 = .ok regions ∧
    Tendsto (fun n : ℕ × ℕ => magUniform 2 { s := 0, q := 1 } (((25/12 : ℝ) : ℂ) * I) (7/12) n.1 n.2 regions) (atTop ×ˢ atTop)
      (𝓝 (uniformMag (userLens 2 { s := 0, q := 1 }) (((25/12 : ℝ) : ℂ) * I) (7/12))) := by
  have hc := pair_conditions
  refine ⟨_, rfl, (C126_sampled_partial 2 pairLimb (7/12) (by norm_num) 1 5 2 36 _ rfl (by norm_num at hc ⊢; exact hc) pair_edges ?_
    ⟨0, by norm_num, pair_free 0 (Or.inl rfl)⟩ (by norm_num) (by norm_num) { s := 0, q := 1 } (by norm_num) (by norm_num) _
    pair_dense).2.1⟩
  intro x hx _
  simp only [pairLimb, List.mem_cons, List.not_mem_nil, or_false] at hx
  rcases hx with rfl | rfl | rfl | rfl <;> simp <;> norm_num

end Microjax.Props
