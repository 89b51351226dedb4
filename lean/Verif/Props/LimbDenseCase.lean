import Verif.Props.LimbDense
import Mathlib.Analysis.Real.Pi.Bounds

/-! # C127: a lens and source whose sampled limb is good for every number of limb points -/

noncomputable section

namespace Microjax.Props

open Complex ComplexConjugate Spec MeasureTheory Set Filter Topology ExtendedSource PointSource MergeArea Jnp

/-! ## Limbs in two boxes, one radial and five angular bins -/

/-- A masked entry, or in the upper or in the lower box. -/
def Boxed (p : ℝ × ℝ) : Prop :=
  p = (0, 0) ∨ (199 / 100 ≤ p.1 ∧ p.1 ≤ 9 / 4 ∧ |p.2 - Real.pi / 2| ≤ 1 / 8) ∨
    (4 / 9 ≤ p.1 ∧ p.1 ≤ 51 / 100 ∧ |p.2 - 3 * Real.pi / 2| ≤ 1 / 8)

/-- All entries are in the boxes, and both boxes have entries of different radius. -/
structure TwoBoxes (limb : List (ℝ × ℝ)) (u0 d0 : ℝ × ℝ) : Prop where
  all : ∀ p ∈ limb, Boxed p
  hu0 : u0 ∈ limb
  hd0 : d0 ∈ limb
  up : 199 / 100 ≤ u0.1
  down : d0.1 ≤ 51 / 100
  above : ∃ u1 ∈ limb, u0.1 < u1.1
  below : ∃ d1 ∈ limb, 0 < d1.1 ∧ d1.1 < d0.1

theorem cluster_one (arr : List ℝ) (hne : arr ≠ []) (lo hi : ℝ) (hlo : 0 < lo) (hhi : 0 < hi) :
    cluster1dRange arr lo hi 1 10 = [(0, 0), (lo, hi)] := by
  have hidx : ∀ edges x, binIndex (K := ℝ) edges 1 x = 1 := fun edges x => by unfold binIndex; omega
  have hmask : binMask arr (binEdges lo hi 1) 1 = [false, true, false] := by
    unfold binMask
    have : arr.map (binIndex (binEdges lo hi 1) 1) = List.replicate arr.length 1 := by
      rw [List.eq_replicate_iff]
      refine ⟨by simp, fun b hb => ?_⟩
      obtain ⟨x, _, rfl⟩ := List.mem_map.mp hb
      exact hidx _ _
    rw [this]
    have hl : 0 < arr.length := List.length_pos_iff.mpr hne
    simp [List.range, List.range.loop, List.count_replicate, hl]
  have hinner : slice 1 1 (binEdges lo hi 1) = [lo, hi] := by
    simp only [slice, binEdges, linspace, List.range, List.range.loop]
    norm_num
    constructor <;> ring
  unfold cluster1dRange
  simp only [hmask, hinner]
  norm_num [startMask, endMask, mulBool, sort, lastN, List.insertionSort, List.orderedInsert, hlo.not_ge, hlo.le, hhi.le]

variable {limb : List (ℝ × ℝ)} {u0 d0 : ℝ × ℝ}

theorem TwoBoxes.polar (h : TwoBoxes limb u0 d0) : ∀ p ∈ limb, 0 ≤ p.1 ∧ 0 ≤ p.2 ∧ p.2 < 2 * Real.pi := by
  have hp := Real.two_le_pi
  intro p hpl
  rcases h.all p hpl with rfl | ⟨h1, _, h3⟩ | ⟨h1, _, h3⟩
  · simp; positivity
  · rw [abs_le] at h3
    exact ⟨by linarith, by linarith, by linarith⟩
  · rw [abs_le] at h3
    exact ⟨by linarith, by linarith, by linarith⟩

theorem TwoBoxes.extremes (h : TwoBoxes limb u0 d0) :
    0 < nzMin (limb.map Prod.fst) ∧ nzMin (limb.map Prod.fst) < d0.1 ∧ u0.1 < nzMax (limb.map Prod.fst) ∧
      ∀ x ∈ limb.map Prod.fst, x ≠ 0 → nzMin (limb.map Prod.fst) ≤ x ∧ x ≤ nzMax (limb.map Prod.fst) := by
  obtain ⟨u1, hu1, hu⟩ := h.above
  obtain ⟨d1, hd1, hd, hd'⟩ := h.below
  have h0 : ∀ x ∈ limb.map Prod.fst, 0 ≤ x := by
    intro x hx; obtain ⟨p, hp, rfl⟩ := List.mem_map.mp hx; exact (h.polar p hp).1
  obtain ⟨a1, -, -, -, -, a2⟩ := nz_bounds (limb.map Prod.fst) h0 d1.1 d0.1 (List.mem_map_of_mem hd1) (List.mem_map_of_mem h.hd0)
    hd hd'
  have hup := h.up
  exact ⟨a1, (a2 d1.1 (List.mem_map_of_mem hd1) hd.ne').1.trans_lt hd', hu.trans_le (a2 u1.1 (List.mem_map_of_mem hu1) (by linarith)).2, a2⟩

theorem TwoBoxes.cluster (h : TwoBoxes limb u0 d0) :
    cluster1dR (limb.map Prod.fst) 1 10 = [(0, 0), (nzMin (limb.map Prod.fst), nzMax (limb.map Prod.fst))] := by
  obtain ⟨h1, h2, h3, _⟩ := h.extremes
  have hpos : 0 < nzMax (limb.map Prod.fst) := by have := h.up; linarith
  exact cluster_one _ (List.ne_nil_of_mem (List.mem_map_of_mem h.hu0)) _ _ h1 hpos

theorem TwoBoxes.ring (h : TwoBoxes limb u0 d0) (m : ℝ) (hm : 0 < m) : ∃ x y, ringTable limb 1 10 m = [(0, 0), (x, y)] := by
  unfold ringTable refineAddmarginMergeR
  rw [h.cluster]
  have h1 : refineAddMargin (limb.map Prod.fst) [((0 : ℝ), 0), (nzMin (limb.map Prod.fst), nzMax (limb.map Prod.fst))] m
      = [(0, 0), (refineAddMargin (limb.map Prod.fst) [(nzMin (limb.map Prod.fst), nzMax (limb.map Prod.fst))] m).head!] := by
    have hempty : (limb.map Prod.fst).filter (fun r => decide (0 < r) && decide (r < 0)) = [] := by
      rw [List.filter_eq_nil_iff]
      intro x _
      simp only [Bool.and_eq_true, decide_eq_true_eq, not_and, not_lt]
      exact fun h => h.le
    simp only [refineAddMargin, List.map_cons, List.map_nil, hempty]
    simp [amin, amax, hm.le]
  rw [h1]
  set row := (refineAddMargin (limb.map Prod.fst) [(nzMin (limb.map Prod.fst), nzMax (limb.map Prod.fst))] m).head! with hrow
  have h2 : 0 ≤ row.1 := by
    rw [hrow]; simp [refineAddMargin]
  refine ⟨row.1, row.2, ?_⟩
  rw [mergeRows_cons, if_neg (by simpa using h2), mergeRows_one]

theorem TwoBoxes.rows (h : TwoBoxes limb u0 d0) : ∀ row ∈ cluster1dTh (2 * Real.pi) (limb.map Prod.snd) 5 10, row = (0, 0) ∨
    ∃ i j : ℕ, IsRun (limb.map Prod.snd) 0 (2 * Real.pi) 5 i j ∧
      row = (i * (2 * Real.pi / (5 : ℕ)), j * (2 * Real.pi / (5 : ℕ))) := by
  have hp := Real.pi_pos
  refine (C40_cluster_angles (2 * Real.pi) (by positivity) _ 5 10 (by norm_num) ?_
    ((runCount_le_bins _ _ _ _).trans (by norm_num))).2.1
  intro x hx
  obtain ⟨p, hp', rfl⟩ := List.mem_map.mp hx
  exact ⟨(h.polar p hp').2.1, (h.polar p hp').2.2.le⟩

theorem TwoBoxes.free (h : TwoBoxes limb u0 d0) : ¬ Occupied (limb.map Prod.snd) 0 (2 * Real.pi) 5 4 := by
  have hp := Real.two_le_pi
  rintro ⟨_, x, hx, h1, _⟩
  obtain ⟨p, hp', rfl⟩ := List.mem_map.mp hx
  push_cast at h1
  rcases h.all p hp' with rfl | ⟨_, _, h3⟩ | ⟨_, _, h3⟩
  · simp only at h1; linarith
  · rw [abs_le] at h3; linarith
  · rw [abs_le] at h3; linarith

theorem TwoBoxes.conditions (h : TwoBoxes limb u0 d0) (m : ℝ) (hm : 1 / 10 ^ 8 < m) :
    CoverConditions (2 * Real.pi) 10 5 limb 1 5 m := by
  have hp := Real.pi_pos
  have hm0 : 0 < m := lt_trans (by positivity) hm
  obtain ⟨x, y, htab⟩ := h.ring m hm0
  obtain ⟨e1, e2, e3, e4⟩ := h.extremes
  have hup := h.up
  have hdn := h.down
  have hsec : (sectorTable (2 * Real.pi) limb 1 5 10 m).countP (fun s => !decide (s = ((0, 0), (0, 0)))) ≤ 5 := by
    unfold sectorTable
    refine (maskedRows_count _ _ _).trans ?_
    have h1 : (ringTable limb 1 10 m).countP (fun r => !decide (r = (0, 0))) ≤ 1 := by
      rw [htab, List.countP_cons_of_neg (by simp)]
      exact List.countP_le_length
    have h2 : (cluster1dTh (2 * Real.pi) (limb.map Prod.snd) 5 10).countP (fun r => !decide (r = (0, 0))) ≤ 5 := by
      refine (cluster_count _ (limb.map Prod.snd) 0 (2 * Real.pi) 0 (2 * Real.pi / (5 : ℕ)) 5 (by positivity)
        (fun row hrow => by simpa using h.rows row hrow) ?_).trans (runCount_le_bins _ _ _ _)
      refine (C40_cluster_angles (2 * Real.pi) (by positivity) _ 5 10 (by norm_num) ?_
        ((runCount_le_bins _ _ _ _).trans (by norm_num))).2.2
      intro x hx
      obtain ⟨p, hp', rfl⟩ := List.mem_map.mp hx
      exact ⟨(h.polar p hp').2.1, (h.polar p hp').2.2.le⟩
    calc _ ≤ 1 * 5 := Nat.mul_le_mul h1 h2
      _ = 5 := by norm_num
  refine ⟨by positivity, by norm_num, by norm_num, h.polar, ?_, pair_tol, hm, (runCount_le_bins _ _ _ _).trans (by norm_num),
    (runCount_le_bins _ _ _ _).trans (by norm_num), ?_, hsec.trans (by norm_num), ?_, ?_⟩
  · exact ⟨d0.1, List.mem_map_of_mem h.hd0, u0.1, List.mem_map_of_mem h.hu0, by linarith, by linarith⟩
  · rw [h.cluster]
    intro row hrow
    simp only [List.mem_cons, List.not_mem_nil, or_false] at hrow
    rcases hrow with rfl | rfl
    · exact Or.inl rfl
    · right; exact ⟨u0.1, List.mem_map_of_mem h.hu0, by simp only; linarith, e3⟩
  · exact (final_count _ _).trans ((excess_count _ _).trans hsec)
  · intro _ c hc hc2
    exfalso
    obtain ⟨r, _, t, ht, ⟨_, rfl⟩ | ⟨_, rfl⟩⟩ := (mem_maskedRows _ _ _ _).mp hc
    · rcases h.rows t ht with rfl | ⟨i, j, ⟨g1, g2, g3, _⟩, rfl⟩
      · simp only at hc2; linarith
      · simp only at hc2
        have hj : j = 5 := by
          by_contra hne
          have h4 : j ≤ 4 := by omega
          have h4' : (j : ℝ) ≤ 4 := by exact_mod_cast h4
          have : (j : ℝ) * (2 * Real.pi / (5 : ℕ)) ≤ 4 * (2 * Real.pi / (5 : ℕ)) := by gcongr
          rw [hc2] at this
          push_cast at this
          linarith
        exact h.free (g3 4 (by omega) (by omega))
    · simp only at hc2; linarith

theorem TwoBoxes.edgesFree (h : TwoBoxes limb u0 d0) : EdgesFree limb 1 10 := by
  obtain ⟨e1, e2, e3, e4⟩ := h.extremes
  intro x hx hx0
  obtain ⟨g1, g2⟩ := e4 x hx hx0
  rcases g1.eq_or_lt with g | g
  · exact Or.inl g.symm
  rcases g2.eq_or_lt with g' | g'
  · exact Or.inr (Or.inl g')
  · right; right
    rw [h.cluster]
    exact ⟨(nzMin (limb.map Prod.fst), nzMax (limb.map Prod.fst)), by simp, g, g'⟩

theorem TwoBoxes.inside (h : TwoBoxes limb u0 d0) (p : ℝ × ℝ) (hp : p = u0 ∨ p = d0) :
    (∀ row ∈ cluster1dR (limb.map Prod.fst) 1 10, p.1 ≠ row.1 ∧ p.1 ≠ row.2) ∧
    ∀ row ∈ cluster1dTh (2 * Real.pi) (limb.map Prod.snd) 5 10, p.2 ≠ row.1 ∧ p.2 ≠ row.2 := by
  have hpi := Real.two_le_pi
  obtain ⟨e1, e2, e3, e4⟩ := h.extremes
  have hup := h.up
  have hdn := h.down
  have hrad : nzMin (limb.map Prod.fst) < p.1 ∧ p.1 < nzMax (limb.map Prod.fst) := by
    rcases hp with rfl | rfl <;> constructor <;> linarith
  have hang : ∃ k : ℕ, (k : ℝ) * (2 * Real.pi / (5 : ℕ)) < p.2 ∧ p.2 < (k + 1 : ℝ) * (2 * Real.pi / (5 : ℕ)) := by
    have hb : Boxed p := by
      rcases hp with rfl | rfl
      · exact h.all _ h.hu0
      · exact h.all _ h.hd0
    rcases hb with rfl | ⟨_, _, h3⟩ | ⟨_, _, h3⟩
    · simp only at hrad; linarith
    · rw [abs_le] at h3
      exact ⟨1, by push_cast; linarith, by push_cast; linarith⟩
    · rw [abs_le] at h3
      exact ⟨3, by push_cast; linarith, by push_cast; linarith⟩
  obtain ⟨k, hk1, hk2⟩ := hang
  have hw : 0 < 2 * Real.pi / ((5 : ℕ) : ℝ) := by positivity
  constructor
  · rw [h.cluster]
    intro row hrow
    simp only [List.mem_cons, List.not_mem_nil, or_false] at hrow
    rcases hrow with rfl | rfl
    · have : p.1 ≠ 0 := by linarith [hrad.1] |> ne_of_gt
      exact ⟨this, this⟩
    · exact ⟨hrad.1.ne', hrad.2.ne⟩
  · have hgrid : ∀ i : ℕ, p.2 ≠ i * (2 * Real.pi / (5 : ℕ)) := by
      intro i hi
      rw [hi] at hk1 hk2
      have a1 := lt_of_mul_lt_mul_right hk1 hw.le
      have a2 := lt_of_mul_lt_mul_right hk2 hw.le
      have b1 : k < i := by exact_mod_cast a1
      have b2 : i < k + 1 := by exact_mod_cast a2
      omega
    intro row hrow
    rcases h.rows row hrow with rfl | ⟨i, j, _, rfl⟩
    · have := hgrid 0
      rw [Nat.cast_zero, zero_mul] at this
      exact ⟨this, this⟩
    · exact ⟨hgrid i, hgrid j⟩

/-! ## A unit mass at the origin and a source of radius 3/20 at 33i/20 -/

/-- The polar coordinates of a valid limb image given in polar form. -/
theorem limbPolar_of (r θ : ℝ) (hr : 0 < r) (h0 : 0 ≤ θ) (h1 : θ < 2 * Real.pi) :
    limbPolar (r * exp (I * θ), true) = (r, θ) := by
  have hp := Real.pi_pos
  set x : ℂ := r * exp (I * θ) with hx
  have hn : ‖x‖ = r := by
    rw [hx, norm_mul, mul_comm I, norm_exp_ofReal_mul_I, norm_real, Real.norm_of_nonneg hr.le, mul_one]
  have e1 : (limbPolar (x, true)).1 = r := by simp [limbPolar, hn]
  have e2 := limbPolar_polar x
  have e3 : (limbPolar (x, true)).2 = arg x - 2 * Real.pi * ⌊arg x / (2 * Real.pi)⌋ := by simp [limbPolar]
  set φ := (limbPolar (x, true)).2 with hφ
  have g1 : 0 ≤ φ := by
    have := Int.floor_le (arg x / (2 * Real.pi))
    rw [le_div_iff₀ (by positivity)] at this
    rw [e3]; linarith
  have g2 : φ < 2 * Real.pi := by
    have := Int.lt_floor_add_one (arg x / (2 * Real.pi))
    rw [div_lt_iff₀ (by positivity)] at this
    rw [e3]; linarith
  rw [e1] at e2
  have hrc : (r : ℂ) ≠ 0 := by exact_mod_cast hr.ne'
  have e4 : exp (I * θ) = exp (I * φ) := mul_left_cancel₀ hrc (hx.symm.trans e2)
  obtain ⟨n, hn'⟩ := exp_eq_exp_iff_exists_int.mp e4
  have e5 : θ = φ + n * (2 * Real.pi) := by
    have : I * (θ : ℂ) = I * ((φ + n * (2 * Real.pi) : ℝ) : ℂ) := by rw [hn']; push_cast; ring
    exact_mod_cast mul_left_cancel₀ I_ne_zero this
  have n0 : n = 0 := by
    have a1 : (-1 : ℝ) < n := by nlinarith
    have a2 : (n : ℝ) < 1 := by nlinarith
    have b1 : (-1 : ℤ) < n := by exact_mod_cast a1
    have b2 : n < (1 : ℤ) := by exact_mod_cast a2
    omega
  rw [n0] at e5
  ext
  · exact e1
  · rw [← hφ, e5]; simp

def oneLens : UserParams := { s := 0, q := 1 }

theorem oneLens_map (z : ℂ) (hz : z ≠ 0) : lensMap (userLens 2 oneLens) z = ((1 - 1 / ‖z‖ ^ 2 : ℝ) : ℂ) * z := by
  have hc : (starRingEnd ℂ) z ≠ 0 := by simpa using hz
  have hr : 0 < ‖z‖ := norm_pos_iff.mpr hz
  have h1 : lensMap (userLens 2 oneLens) z = z - 1 / (starRingEnd ℂ) z := by
    simp [lensMap, userLens, binary, oneLens]
    field_simp
  have hns : (starRingEnd ℂ) z * z = ((‖z‖ ^ 2 : ℝ) : ℂ) := by
    rw [mul_comm, mul_conj, normSq_eq_norm_sq]
  have h2 : (1 : ℂ) / (starRingEnd ℂ) z = ((1 / ‖z‖ ^ 2 : ℝ) : ℂ) * z := by
    rw [div_eq_iff hc, mul_assoc, mul_comm z, hns, ← ofReal_mul, one_div, inv_mul_cancel₀ (by positivity)]
    simp
  rw [h1, h2]
  push_cast
  ring

theorem oneLens_off (z : ℂ) (hz : z ≠ 0) : ∀ l ∈ userLens 2 oneLens, z ≠ l.2 := by
  intro l hl
  simp [userLens, binary, oneLens] at hl
  rcases hl with rfl | rfl
  all_goals simpa using hz

/-- Points whose source is close to the disc are in the boxes. -/
theorem oneLens_boxed (x : ℂ) (h : ‖lensMap (userLens 2 oneLens) x - ((33/20 : ℝ) : ℂ) * I‖ ≤ 3/20 + 1/1000) :
    x ≠ 0 ∧ ‖x‖ ≠ 1 ∧ 4 / 9 ≤ ‖x‖ ∧ ‖x‖ ≤ 9 / 4 ∧ Boxed (limbPolar (x, true)) := by
  have hp := Real.two_le_pi
  have hx0 : x ≠ 0 := by
    rintro rfl
    rw [show lensMap (userLens 2 oneLens) 0 = 0 by simp [lensMap, userLens, binary, oneLens], zero_sub, norm_neg, norm_mul,
      norm_real, norm_I] at h
    norm_num at h
  rw [oneLens_map x hx0] at h
  set r := ‖x‖ with hr
  have hrpos : 0 < r := norm_pos_iff.mpr hx0
  set k : ℝ := 1 - 1 / r ^ 2 with hk
  have hre : |k * x.re| ≤ 3/20 + 1/1000 := by
    have := (abs_re_le_norm ((k : ℂ) * x - ((33/20 : ℝ) : ℂ) * I)).trans h
    simpa using this
  have him : |k * x.im - 33/20| ≤ 3/20 + 1/1000 := by
    have := (abs_im_le_norm ((k : ℂ) * x - ((33/20 : ℝ) : ℂ) * I)).trans h
    simpa using this
  have hnorm1 : ‖(k : ℂ) * x‖ ≤ 33/20 + (3/20 + 1/1000) := by
    have e : (k : ℂ) * x = ((k : ℂ) * x - ((33/20 : ℝ) : ℂ) * I) + ((33/20 : ℝ) : ℂ) * I := by ring
    rw [e]
    refine (norm_add_le _ _).trans ?_
    rw [norm_mul _ I, norm_real, norm_I]
    norm_num at h ⊢
    linarith
  have hnorm2 : 33/20 - (3/20 + 1/1000) ≤ ‖(k : ℂ) * x‖ := by
    have h' := norm_sub_le ((k : ℂ) * x) ((k : ℂ) * x - ((33/20 : ℝ) : ℂ) * I)
    rw [sub_sub_cancel, norm_mul _ I, norm_real, norm_I] at h'
    norm_num at h h' ⊢
    linarith
  rw [norm_mul, norm_real, Real.norm_eq_abs, ← hr] at hnorm1 hnorm2
  rw [abs_le] at him
  have hkr : k * r ^ 2 = r ^ 2 - 1 := by rw [hk]; field_simp
  have hkim : 3/2 - 1/1000 ≤ k * x.im := by linarith
  have habs : |k| * |x.re| ≤ 3/20 + 1/1000 := by rw [← abs_mul]; exact hre
  rcases lt_trichotomy k 0 with hk0 | hk0 | hk0
  · -- the image inside the ring
    rw [abs_of_neg hk0] at hnorm1 hnorm2 habs
    have hxim : x.im < 0 := by nlinarith
    have hr1 : r < 1 := by nlinarith
    have b1 : 4 / 9 ≤ r := by nlinarith
    have b2 : r ≤ 51 / 100 := by nlinarith
    refine ⟨hx0, hr1.ne, b1, by linarith, Or.inr (Or.inr ?_)⟩
    have hratio : |arg (I * x)| ≤ 1 / 8 := by
      have := abs_arg_le (I * x) (by simp; linarith)
      refine this.trans ?_
      simp only [mul_im, I_re, zero_mul, I_im, one_mul, zero_add, mul_re, zero_sub]
      rw [div_le_iff₀ (by linarith)]
      nlinarith [abs_nonneg x.re]
    have hpol : x = r * exp (I * ((3 * Real.pi / 2 + arg (I * x) : ℝ) : ℂ)) := by
      have h1 : I * x = r * exp (arg (I * x) * I) := by
        have := norm_mul_exp_arg_mul_I (I * x)
        rw [norm_mul, norm_I, one_mul, ← hr] at this
        exact this.symm
      have h2 : exp (I * ((3 * Real.pi / 2 : ℝ) : ℂ)) = -I := by
        rw [show I * ((3 * Real.pi / 2 : ℝ) : ℂ) = Real.pi * I + Real.pi / 2 * I by push_cast; ring, exp_add, exp_pi_mul_I,
          exp_pi_div_two_mul_I]; ring
      rw [ofReal_add, mul_add, exp_add, h2, mul_comm I (arg (I * x) : ℂ)]
      calc x = -I * (I * x) := by rw [← mul_assoc]; simp
        _ = -I * (r * exp (arg (I * x) * I)) := by rw [← h1]
        _ = _ := by ring
    rw [abs_le] at hratio
    have hl := limbPolar_of r (3 * Real.pi / 2 + arg (I * x)) hrpos (by linarith) (by linarith)
    rw [← hpol] at hl
    rw [hl]
    refine ⟨b1, b2, ?_⟩
    rw [abs_le]; constructor <;> simp only <;> linarith
  · rw [hk0] at hkim; norm_num at hkim
  · rw [abs_of_pos hk0] at hnorm1 hnorm2 habs
    have hxim : 0 < x.im := by nlinarith
    have hr1 : 1 < r := by nlinarith
    have b1 : 199 / 100 ≤ r := by nlinarith
    have b2 : r ≤ 9 / 4 := by nlinarith
    refine ⟨hx0, hr1.ne', by linarith, b2, Or.inr (Or.inl ?_)⟩
    have hratio : |arg (-I * x)| ≤ 1 / 8 := by
      have := abs_arg_le (-I * x) (by simp; linarith)
      refine this.trans ?_
      simp only [neg_mul, neg_im, neg_re, mul_im, I_re, zero_mul, I_im, one_mul, zero_add, mul_re, zero_sub, neg_neg, abs_neg]
      rw [div_le_iff₀ (by linarith)]
      nlinarith [abs_nonneg x.re]
    have hpol : x = r * exp (I * ((Real.pi / 2 + arg (-I * x) : ℝ) : ℂ)) := by
      have h1 : -I * x = r * exp (arg (-I * x) * I) := by
        have := norm_mul_exp_arg_mul_I (-I * x)
        rw [norm_mul, norm_neg, norm_I, one_mul, ← hr] at this
        exact this.symm
      have h2 : exp (I * ((Real.pi / 2 : ℝ) : ℂ)) = I := by
        rw [show I * ((Real.pi / 2 : ℝ) : ℂ) = Real.pi / 2 * I by push_cast; ring, exp_pi_div_two_mul_I]
      rw [ofReal_add, mul_add, exp_add, h2, mul_comm I (arg (-I * x) : ℂ)]
      calc x = I * (-I * x) := by rw [← mul_assoc]; simp
        _ = I * (r * exp (arg (-I * x) * I)) := by rw [← h1]
        _ = _ := by ring
    rw [abs_le] at hratio
    have hl := limbPolar_of r (Real.pi / 2 + arg (-I * x)) hrpos (by linarith) (by linarith)
    rw [← hpol] at hl
    rw [hl]
    refine ⟨b1, b2, ?_⟩
    rw [abs_le]; constructor <;> simp only <;> linarith

/-- The two images of a point source. -/
theorem oneLens_images (y : ℂ) (hy : y ≠ 0) : ∃ R : ℝ, R = (‖y‖ + Real.sqrt (‖y‖ ^ 2 + 4)) / 2 ∧ 0 < R ∧
    (∃ z, IsImage (userLens 2 oneLens) y z ∧ ‖z‖ = R) ∧ ∃ z, IsImage (userLens 2 oneLens) y z ∧ ‖z‖ = 1 / R := by
  have hm : 0 < ‖y‖ := norm_pos_iff.mpr hy
  obtain ⟨R, hR⟩ : ∃ R : ℝ, R = (‖y‖ + Real.sqrt (‖y‖ ^ 2 + 4)) / 2 := ⟨_, rfl⟩
  have hR0 : 0 < R := by rw [hR]; positivity
  have hR2 : R ^ 2 = ‖y‖ * R + 1 := by
    have := Real.sq_sqrt (show 0 ≤ ‖y‖ ^ 2 + 4 by positivity)
    rw [hR]; nlinarith
  refine ⟨R, hR, hR0, ⟨((R / ‖y‖ : ℝ) : ℂ) * y, ?_, ?_⟩, ⟨((-(1 / (R * ‖y‖)) : ℝ) : ℂ) * y, ?_, ?_⟩⟩
  · have hz : ((R / ‖y‖ : ℝ) : ℂ) * y ≠ 0 := mul_ne_zero (by exact_mod_cast (by positivity : (R / ‖y‖ : ℝ) ≠ 0)) hy
    have hn : ‖((R / ‖y‖ : ℝ) : ℂ) * y‖ = R := by
      rw [norm_mul, norm_real, Real.norm_of_nonneg (by positivity)]; field_simp
    refine ⟨oneLens_off _ hz, ?_⟩
    rw [oneLens_map _ hz, hn, ← mul_assoc, ← ofReal_mul]
    have : (1 - 1 / R ^ 2) * (R / ‖y‖) = 1 := by field_simp; nlinarith
    rw [this]; simp
  · rw [norm_mul, norm_real, Real.norm_of_nonneg (by positivity)]; field_simp
  · have hz : ((-(1 / (R * ‖y‖)) : ℝ) : ℂ) * y ≠ 0 :=
      mul_ne_zero (by exact_mod_cast (by simp [hR0.ne', hy] : (-(1 / (R * ‖y‖)) : ℝ) ≠ 0)) hy
    have hn : ‖((-(1 / (R * ‖y‖)) : ℝ) : ℂ) * y‖ = 1 / R := by
      rw [norm_mul, norm_real, norm_neg, Real.norm_of_nonneg (by positivity)]; field_simp
    refine ⟨oneLens_off _ hz, ?_⟩
    rw [oneLens_map _ hz, hn, ← mul_assoc, ← ofReal_mul]
    have : (1 - 1 / (1 / R) ^ 2) * (-(1 / (R * ‖y‖))) = 1 := by field_simp; nlinarith
    rw [this]; simp
  · rw [norm_mul, norm_real, norm_neg, Real.norm_of_nonneg (by positivity)]; field_simp

theorem oneLens_mem (roots) (hroots : ∀ c, c.headD 0 ≠ 0 → IsRootList c (roots none c)) (N : ℕ) (limb)
    (h : calcSourceLimb roots (((33/20 : ℝ) : ℂ) * I) (3/20) N 2 oneLens = .ok limb) (y : ℂ)
    (hy : y ∈ sourceLimb (((33/20 : ℝ) : ℂ) * I) (3/20) N) (z : ℂ) (hz : IsImage (userLens 2 oneLens) y z) : (z, true) ∈ limb := by
  refine C41_binary_limb_complete roots _ _ N oneLens (by norm_num [oneLens]) hroots limb h y hy ?_ z (by
    rw [userLens, if_neg (by norm_num)] at hz; exact hz)
  have hn := norm_of_mem_sourceLimb _ _ (by norm_num) N y hy
  have hy0 : y ≠ 0 := by
    rintro rfl
    rw [zero_sub, norm_neg, norm_mul, norm_real, norm_I] at hn
    norm_num at hn
  have h1 : (xCM oneLens : ℂ) = 0 := by simp [xCM, oneLens]
  have h2 : (midParams2 oneLens).a = 0 := by simp [midParams2, oneLens]
  rw [h1, h2]
  simpa using hy0

/-- From four limb points on, the sampled limb of this lens and source fits the tables. -/
theorem oneLens_good (roots) (hroots : ∀ c, c.headD 0 ≠ 0 → IsRootList c (roots none c)) (N : ℕ) (hN : 4 ≤ N) (limb)
    (h : calcSourceLimb roots (((33/20 : ℝ) : ℂ) * I) (3/20) N 2 oneLens = .ok limb) :
    GoodLimb limb 2 1 5 (3/20) 4 36 := by
  have hp := Real.pi_gt_three
  have hval : ∀ x, (x, true) ∈ limb → x ≠ 0 ∧ ‖x‖ ≠ 1 ∧ 4 / 9 ≤ ‖x‖ ∧ ‖x‖ ≤ 9 / 4 ∧ Boxed (limbPolar (x, true)) := by
    intro x hx
    obtain ⟨t, ht⟩ := limb2_valid roots _ _ N oneLens (by norm_num [oneLens]) limb h x hx
    refine oneLens_boxed x ?_
    have h1 : userLens 2 oneLens = binary oneLens.s oneLens.q := by rw [userLens, if_neg (by norm_num)]
    rw [h1]
    have h2 := norm_add_le (lensMap (binary oneLens.s oneLens.q) x - (((33/20 : ℝ) : ℂ) * I + ((3/20 : ℝ) : ℂ) * exp (I * t)))
      (((3/20 : ℝ) : ℂ) * exp (I * t))
    rw [show lensMap (binary oneLens.s oneLens.q) x - (((33/20 : ℝ) : ℂ) * I + ((3/20 : ℝ) : ℂ) * exp (I * t))
      + ((3/20 : ℝ) : ℂ) * exp (I * t) = lensMap (binary oneLens.s oneLens.q) x - ((33/20 : ℝ) : ℂ) * I by ring,
      norm_mul _ (exp _), mul_comm I (t : ℂ), norm_exp_ofReal_mul_I, norm_real, Real.norm_of_nonneg (by norm_num)] at h2
    rw [mul_comm (t : ℂ) I] at h2
    norm_num at h2 ht ⊢
    linarith
  -- two limb points and their images
  have hN' : (4 : ℝ) ≤ N := by exact_mod_cast hN
  set t1 : ℝ := 2 * Real.pi / ((N : ℝ) - 1) with ht1
  have ht1p : 0 < t1 := by rw [ht1]; apply div_pos <;> linarith
  have ht1l : t1 < Real.pi := by
    rw [ht1, div_lt_iff₀ (by linarith)]; nlinarith
  have hsin := Real.sin_pos_of_pos_of_lt_pi ht1p ht1l
  have m0 : ((33/20 : ℝ) : ℂ) * I + ((3/20 : ℝ) : ℂ) * exp (I * ((0 : ℝ) : ℂ)) ∈ sourceLimb (((33/20 : ℝ) : ℂ) * I) (3/20) N :=
    List.mem_map.mpr ⟨0, List.mem_map.mpr ⟨0, List.mem_range.mpr (by omega), by simp⟩, rfl⟩
  have m1 : ((33/20 : ℝ) : ℂ) * I + ((3/20 : ℝ) : ℂ) * exp (I * ((t1 : ℝ) : ℂ)) ∈ sourceLimb (((33/20 : ℝ) : ℂ) * I) (3/20) N :=
    List.mem_map.mpr ⟨t1, List.mem_map.mpr ⟨1, List.mem_range.mpr (by omega), by rw [ht1]; simp⟩, rfl⟩
  have hns : ∀ t : ℝ, ‖((33/20 : ℝ) : ℂ) * I + ((3/20 : ℝ) : ℂ) * exp (I * (t : ℂ))‖ ^ 2
      = (33/20) ^ 2 + (3/20) ^ 2 + 2 * (33/20) * (3/20) * Real.sin t := by
    intro t
    rw [← normSq_eq_norm_sq, normSq_apply, mul_comm I (t : ℂ), exp_mul_I, ← ofReal_cos, ← ofReal_sin]
    simp only [add_re, add_im, mul_re, mul_im, ofReal_re, ofReal_im, I_re, I_im]
    nlinarith [Real.sin_sq_add_cos_sq t]
  set y0 : ℂ := ((33/20 : ℝ) : ℂ) * I + ((3/20 : ℝ) : ℂ) * exp (I * ((0 : ℝ) : ℂ)) with hy0
  set y1 : ℂ := ((33/20 : ℝ) : ℂ) * I + ((3/20 : ℝ) : ℂ) * exp (I * ((t1 : ℝ) : ℂ)) with hy1
  have q0 : ‖y0‖ ^ 2 = (33/20) ^ 2 + (3/20) ^ 2 := by rw [hy0, hns]; simp
  have q1 : ‖y1‖ ^ 2 = (33/20) ^ 2 + (3/20) ^ 2 + 2 * (33/20) * (3/20) * Real.sin t1 := hns t1
  have q01 : ‖y0‖ < ‖y1‖ := by
    refine lt_of_pow_lt_pow_left₀ 2 (norm_nonneg _) ?_
    rw [q0, q1]; linarith
  have hy0n : y0 ≠ 0 := by rintro h0; rw [h0] at q0; norm_num at q0
  have hy1n : y1 ≠ 0 := by rw [← norm_pos_iff]; exact (norm_nonneg _).trans_lt q01
  obtain ⟨R0, hR0, hR0p, ⟨u0, hu0, hu0n⟩, ⟨d0, hd0, hd0n⟩⟩ := oneLens_images y0 hy0n
  obtain ⟨R1, hR1, hR1p, ⟨u1, hu1, hu1n⟩, ⟨d1, hd1, hd1n⟩⟩ := oneLens_images y1 hy1n
  have hR : R0 < R1 := by
    rw [hR0, hR1]
    have : Real.sqrt (‖y0‖ ^ 2 + 4) < Real.sqrt (‖y1‖ ^ 2 + 4) := Real.sqrt_lt_sqrt (by positivity) (by gcongr)
    linarith
  have hR0g : 1 < R0 := by
    rw [hR0]
    have h2 : 2 ≤ Real.sqrt (‖y0‖ ^ 2 + 4) := Real.le_sqrt_of_sq_le (by nlinarith [sq_nonneg ‖y0‖])
    have := norm_pos_iff.mpr hy0n
    linarith
  have mu0 := oneLens_mem roots hroots N limb h y0 m0 u0 hu0
  have md0 := oneLens_mem roots hroots N limb h y0 m0 d0 hd0
  have mu1 := oneLens_mem roots hroots N limb h y1 m1 u1 hu1
  have md1 := oneLens_mem roots hroots N limb h y1 m1 d1 hd1
  have hnorm : ∀ x : ℂ, (limbPolar (x, true)).1 = ‖x‖ := fun x => by simp [limbPolar]
  have hbig : ∀ p : ℝ × ℝ, Boxed p → 0 < p.1 → (1 < p.1 → 199 / 100 ≤ p.1 ∧ p.1 ≤ 9/4 ∧ |p.2 - Real.pi / 2| ≤ 1 / 8) ∧
      (p.1 < 1 → 4/9 ≤ p.1 ∧ p.1 ≤ 51 / 100 ∧ |p.2 - 3 * Real.pi / 2| ≤ 1 / 8) := by
    rintro p (rfl | ⟨a1, a2, a3⟩ | ⟨a1, a2, a3⟩) h0
    · exact absurd h0 (lt_irrefl _)
    · exact ⟨fun _ => ⟨a1, a2, a3⟩, fun h => by linarith⟩
    · exact ⟨fun h => by linarith, fun _ => ⟨a1, a2, a3⟩⟩
  have hinv : 1 / R1 < 1 / R0 := one_div_lt_one_div_of_lt hR0p hR
  have hinv1 : 1 / R0 < 1 := by rw [div_lt_one hR0p]; exact hR0g
  have bu0 := (hbig _ (hval u0 mu0).2.2.2.2 (by rw [hnorm, hu0n]; linarith)).1 (by rw [hnorm, hu0n]; exact hR0g)
  have bd0 := (hbig _ (hval d0 md0).2.2.2.2 (by rw [hnorm, hd0n]; positivity)).2 (by rw [hnorm, hd0n]; exact hinv1)
  have hT : TwoBoxes (limb.map limbPolar) (limbPolar (u0, true)) (limbPolar (d0, true)) := by
    refine ⟨?_, List.mem_map_of_mem mu0, List.mem_map_of_mem md0, bu0.1, bd0.2.1,
      ⟨limbPolar (u1, true), List.mem_map_of_mem mu1, ?_⟩, ⟨limbPolar (d1, true), List.mem_map_of_mem md1, ?_, ?_⟩⟩
    · intro p hp'
      obtain ⟨⟨x, b⟩, hx, rfl⟩ := List.mem_map.mp hp'
      cases b
      · left; simp [limbPolar]
      · exact (hval x hx).2.2.2.2
    · rw [hnorm, hnorm, hu0n, hu1n]; exact hR
    · rw [hnorm, hd1n]; positivity
    · rw [hnorm, hnorm, hd0n, hd1n]; exact hinv
  refine ⟨?_, hT.edgesFree, ?_, ⟨4, by norm_num, hT.free⟩, ?_⟩
  · have := hT.conditions (4 * (3/20)) (by norm_num)
    simpa using this
  · rintro ⟨x, b⟩ hx hb
    obtain rfl : b = true := hb
    have := (hval x hx).2.2.2.1
    simp only
    linarith
  · intro x hx _
    obtain ⟨v0, v1, -, -, v4⟩ := hval x hx
    have hxp : 0 < (limbPolar (x, true)).1 := by rw [hnorm]; exact norm_pos_iff.mpr v0
    rcases lt_or_gt_of_ne v1 with hlt | hgt
    · have bx := (hbig _ v4 hxp).2 (by rw [hnorm]; exact hlt)
      refine ⟨d0, md0, (hval d0 md0).1, hT.inside _ (Or.inr rfl), ?_, ?_⟩
      · rw [abs_le]; constructor <;> linarith [bx.1, bx.2.1, bd0.1, bd0.2.1]
      · have a1 := abs_le.mp bx.2.2
        have a2 := abs_le.mp bd0.2.2
        rw [abs_le]; constructor <;> linarith
    · have bx := (hbig _ v4 hxp).1 (by rw [hnorm]; exact hgt)
      refine ⟨u0, mu0, (hval u0 mu0).1, hT.inside _ (Or.inl rfl), ?_, ?_⟩
      · rw [abs_le]; constructor <;> linarith [bx.1, bx.2.1, bu0.1, bu0.2.1]
      · have a1 := abs_le.mp bx.2.2
        have a2 := abs_le.mp bu0.2.2
        rw [abs_le]; constructor <;> linarith

/-- The limb of this source avoids the lens and the caustic, and its images the origin. -/
theorem oneLens_limb : LimbOffLenses (userLens 2 oneLens) (((33/20 : ℝ) : ℂ) * I) (3/20) ∧
    NoTouch (userLens 2 oneLens) (((33/20 : ℝ) : ℂ) * I) (3/20) ∧
    ∀ z ∈ limbImages (userLens 2 oneLens) (((33/20 : ℝ) : ℂ) * I) (3/20), 4/9 ≤ ‖z‖ := by
  have hbox : ∀ z ∈ limbImages (userLens 2 oneLens) (((33/20 : ℝ) : ℂ) * I) (3/20), _ := fun z hz =>
    oneLens_boxed z (by rw [hz.2]; norm_num)
  refine ⟨?_, ?_, fun z hz => (hbox z hz).2.2.1⟩
  · intro l hl
    simp [userLens, binary, oneLens] at hl
    have : l.2 = 0 := by
      rcases hl with rfl | rfl
      all_goals simp
    rw [this, zero_sub, norm_neg, norm_mul, norm_real, norm_I]
    norm_num
  · refine noTouch_of_regular _ _ _ fun z hz => ?_
    obtain ⟨h0, h1, -⟩ := hbox z hz
    rw [jacDet, (hasFDerivAt_lensMap _ z hz.1).fderiv, antiLin_det, norm_neg]
    have hs : ‖shear (userLens 2 oneLens) z‖ = 1 / ‖z‖ ^ 2 := by
      have : shear (userLens 2 oneLens) z = 1 / (conj z) ^ 2 := by
        simp [shear, userLens, binary, oneLens]
        ring
      rw [this, norm_div, norm_pow, norm_one, RCLike.norm_conj]
    rw [hs]
    have hr : 0 < ‖z‖ := norm_pos_iff.mpr h0
    intro hc
    have h2 : (1 / ‖z‖ ^ 2) ^ 2 = 1 := by linarith
    have h3 : 1 / ‖z‖ ^ 2 = 1 := (pow_eq_one_iff_of_nonneg (by positivity) two_ne_zero).mp h2
    rw [div_eq_one_iff_eq (by positivity)] at h3
    exact h1 ((pow_eq_one_iff_of_nonneg hr.le two_ne_zero).mp h3.symm)

/-- `C127_uniform_pipeline` applies to this lens and source: for every sufficiently large number of limb points the value of
`mag_uniform` tends to the magnification. -/
example : ∃ roots : Option (List ℂ) → List ℂ → List ℂ, ∃ N0 : ℕ, ∀ Nlimb ≥ N0, ∃ f : ℕ × ℕ → ℝ,
    (∀ n : ℕ × ℕ, magUniformFull roots (((33/20 : ℝ) : ℂ) * I) (3/20) 2 n.1 n.2 Nlimb 1 5 4 36 oneLens = .ok (f n)) ∧
    Tendsto f (atTop ×ˢ atTop) (𝓝 (uniformMag (userLens 2 oneLens) (((33/20 : ℝ) : ℂ) * I) (3/20))) := by
  obtain ⟨roots, hroots⟩ := exists_exact_roots
  obtain ⟨h1, h2, h3⟩ := oneLens_limb
  obtain ⟨N0, hN0⟩ := C127_uniform_pipeline roots (hroots none) 2 (Or.inl rfl) oneLens (by norm_num [oneLens]) (by norm_num) _
    (3/20) (by norm_num) h1 h2 (4/9) (by norm_num) h3 1 5 4 36 (by norm_num) (by norm_num) (by norm_num)
  exact ⟨roots, max N0 4, fun N hN => hN0 N (le_of_max_le_left hN) fun limb hlimb =>
    oneLens_good roots (hroots none) N (le_of_max_le_right hN) limb hlimb⟩

end Microjax.Props
