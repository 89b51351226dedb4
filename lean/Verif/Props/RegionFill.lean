import Verif.Props.RegionOnce
import Verif.Lemmas.AreaFormula
import Mathlib.Topology.Connected.Clopen

/-! # C126, the part that holds: regions that do not overlap and cover the boundary of the images cover the images -/

noncomputable section

namespace Microjax.Props

open Complex Spec MeasureTheory Set Filter Topology ExtendedSource PointSource MergeArea Jnp

/-! ## Connectedness of the complement -/

/-- A connected set stays connected if an open piece with connected boundary is removed. -/
theorem preconnected_diff (X S F : Set ℂ) (hX : IsPreconnected X) (hS : IsOpen S) (hF : IsPreconnected F) (hFX : F ⊆ X \ S)
    (hfr : frontier S ⊆ F) : IsPreconnected (X \ S) := by
  -- one of two closed sets does not meet the boundary
  have key : ∀ t t' : Set ℂ, IsClosed t → IsClosed t' → X \ S ⊆ t ∪ t' → ((X \ S) ∩ t).Nonempty → ((X \ S) ∩ t').Nonempty →
      F ∩ t' = ∅ → ((X \ S) ∩ (t ∩ t')).Nonempty := by
    intro t t' ht ht' hsub ⟨x, hx⟩ ⟨y, hy⟩ hem
    obtain ⟨v, hv1, hv2, hv3, hv4⟩ := isPreconnected_closed_iff.mp hX (t ∪ closure S) (t' ∩ Sᶜ) (ht.union isClosed_closure)
      (ht'.inter hS.isClosed_compl) (fun v hv => by
        by_cases h : v ∈ S
        · exact Or.inl (Or.inr (subset_closure h))
        · rcases hsub ⟨hv, h⟩ with g | g
          · exact Or.inl (Or.inl g)
          · exact Or.inr ⟨g, h⟩) ⟨x, hx.1.1, Or.inl hx.2⟩ ⟨y, hy.1.1, hy.2, hy.1.2⟩
    rcases hv2 with h | h
    · exact ⟨v, ⟨hv1, hv4⟩, h, hv3⟩
    · have : v ∈ F := hfr (by rw [hS.frontier_eq]; exact ⟨h, hv4⟩)
      exact absurd (show v ∈ F ∩ t' from ⟨this, hv3⟩) (by rw [hem]; exact notMem_empty v)
  rw [isPreconnected_closed_iff]
  intro t t' ht ht' hsub h1 h2
  by_cases hA : F ∩ t' = ∅
  · exact key t t' ht ht' hsub h1 h2 hA
  by_cases hB : F ∩ t = ∅
  · rw [inter_comm t t']
    exact key t' t ht' ht (by rw [union_comm]; exact hsub) h2 h1 hB
  · obtain ⟨v, hv1, hv2⟩ := isPreconnected_closed_iff.mp hF t t' ht ht' (hFX.trans hsub)
      (nonempty_iff_ne_empty.mpr hB) (nonempty_iff_ne_empty.mpr hA)
    exact ⟨v, hFX hv1, hv2⟩

/-- Polar coordinates to the plane. -/
def polarMap (p : ℝ × ℝ) : ℂ := p.1 * exp (I * p.2)

theorem polarMap_continuous : Continuous polarMap := by unfold polarMap; fun_prop

theorem sector_image (a b α β : ℝ) : sector ((a, b), (α, β)) = polarMap '' (Ioo a b ×ˢ Ioo α β) := by
  ext z
  constructor
  · rintro ⟨r, θ, h1, h2, h3, h4, rfl⟩
    exact ⟨(r, θ), ⟨⟨h1, h2⟩, h3, h4⟩, rfl⟩
  · rintro ⟨⟨r, θ⟩, ⟨⟨h1, h2⟩, h3, h4⟩, rfl⟩
    exact ⟨r, θ, h1, h2, h3, h4, rfl⟩

theorem isOpen_sector (a b α β : ℝ) (ha : 0 ≤ a) (hβ : β ≤ α + 2 * Real.pi) : IsOpen (sector ((a, b), (α, β))) := by
  rw [isOpen_sector_aux a b α β]
  have ho : IsOpen (Complex.polarCoord.symm '' (Ioo a b ×ˢ Ioo (α - (α + β) / 2) (β - (α + β) / 2))) := by
    apply Complex.polarCoord.isOpen_image_symm_of_subset_target (isOpen_Ioo.prod isOpen_Ioo)
    rintro ⟨r, t⟩ ⟨⟨h1, h2⟩, h3, h4⟩
    simp only at h1 h2 h3 h4
    rw [Complex.polarCoord_target]
    exact ⟨lt_of_le_of_lt ha h1, ⟨by simp only; linarith, by simp only; linarith⟩⟩
  exact ho.preimage (by fun_prop)

/-- The boundary of a rectangle. -/
def rim (a b α β : ℝ) : Set (ℝ × ℝ) :=
  (({a} ×ˢ Icc α β ∪ Icc a b ×ˢ {α}) ∪ {b} ×ˢ Icc α β) ∪ Icc a b ×ˢ {β}

theorem rim_preconnected (a b α β : ℝ) (hab : a ≤ b) (hαβ : α ≤ β) : IsPreconnected (rim a b α β) := by
  have v : ∀ c : ℝ, IsPreconnected (({c} : Set ℝ) ×ˢ Icc α β) := fun c => isPreconnected_singleton.prod isPreconnected_Icc
  have h : ∀ c : ℝ, IsPreconnected (Icc a b ×ˢ ({c} : Set ℝ)) := fun c => isPreconnected_Icc.prod isPreconnected_singleton
  unfold rim
  refine IsPreconnected.union (b, β) ?_ ?_ (IsPreconnected.union (b, α) ?_ ?_ (IsPreconnected.union (a, α) ?_ ?_ (v a) (h α)) (v b))
    (h β)
  · right; exact ⟨rfl, hαβ, le_rfl⟩
  · exact ⟨⟨hab, le_rfl⟩, rfl⟩
  · right; exact ⟨⟨hab, le_rfl⟩, rfl⟩
  · exact ⟨rfl, le_rfl, hαβ⟩
  · exact ⟨rfl, le_rfl, hαβ⟩
  · exact ⟨⟨le_rfl, hab⟩, rfl⟩

theorem rim_subset (a b α β : ℝ) (hab : a ≤ b) (hαβ : α ≤ β) : rim a b α β ⊆ Icc a b ×ˢ Icc α β := by
  rintro ⟨r, θ⟩ (((⟨h1, h2⟩ | ⟨h1, h2⟩) | ⟨h1, h2⟩) | ⟨h1, h2⟩) <;> simp only [mem_singleton_iff] at h1 h2 <;> subst_vars
  · exact ⟨⟨le_rfl, hab⟩, h2⟩
  · exact ⟨h1, le_rfl, hαβ⟩
  · exact ⟨⟨hab, le_rfl⟩, h2⟩
  · exact ⟨h1, hαβ, le_rfl⟩

theorem rim_of_closed (a b α β : ℝ) (p : ℝ × ℝ) (hp : p ∈ Icc a b ×ˢ Icc α β) (hn : p ∉ Ioo a b ×ˢ Ioo α β) : p ∈ rim a b α β := by
  obtain ⟨r, θ⟩ := p
  obtain ⟨⟨h1, h2⟩, h3, h4⟩ := hp
  simp only at h1 h2 h3 h4
  rcases h1.eq_or_lt with rfl | h1
  · exact Or.inl (Or.inl (Or.inl ⟨rfl, h3, h4⟩))
  rcases h2.eq_or_lt with rfl | h2
  · exact Or.inl (Or.inr ⟨rfl, h3, h4⟩)
  rcases h3.eq_or_lt with rfl | h3
  · exact Or.inl (Or.inl (Or.inr ⟨⟨h1.le, h2.le⟩, rfl⟩))
  rcases h4.eq_or_lt with rfl | h4
  · exact Or.inr ⟨⟨h1.le, h2.le⟩, rfl⟩
  · exact absurd ⟨⟨h1, h2⟩, h3, h4⟩ hn

/-- The boundary curve of a sector at most a turn wide: connected, outside the open sector, in its closure, and it contains
the topological boundary. -/
theorem sector_rim (a b α β : ℝ) (ha : 0 ≤ a) (hab : a < b) (hαβ : α < β) (hβ : β ≤ α + 2 * Real.pi) :
    IsPreconnected (polarMap '' rim a b α β) ∧ (∀ z ∈ polarMap '' rim a b α β, z ∉ sector ((a, b), (α, β))) ∧
    polarMap '' rim a b α β ⊆ closure (sector ((a, b), (α, β))) ∧
    frontier (sector ((a, b), (α, β))) ⊆ polarMap '' rim a b α β := by
  have hcl : closure (Ioo a b ×ˢ Ioo α β) = Icc a b ×ˢ Icc α β := by
    rw [closure_prod_eq, closure_Ioo hab.ne, closure_Ioo hαβ.ne]
  refine ⟨(rim_preconnected a b α β hab.le hαβ.le).image _ polarMap_continuous.continuousOn, ?_, ?_, ?_⟩
  · rintro z ⟨⟨r, θ⟩, hp, rfl⟩ ⟨r', θ', h1, h2, h3, h4, he⟩
    simp only at h1 h2 h3 h4
    have hr' : 0 < r' := lt_of_le_of_lt ha h1
    have hmem := rim_subset a b α β hab.le hαβ.le hp
    have hn : r = r' := by
      have hn : ∀ x : ℝ, ‖exp (I * x)‖ = 1 := fun x => by rw [mul_comm]; exact norm_exp_ofReal_mul_I x
      have := congrArg norm he
      unfold polarMap at this
      simp only [norm_mul, hn, mul_one, norm_real] at this
      rwa [Real.norm_of_nonneg (ha.trans hmem.1.1), Real.norm_of_nonneg hr'.le] at this
    subst hn
    obtain ⟨_, k, hk⟩ := polar_unique r r θ θ' hr' hr' he
    obtain ⟨⟨_, _⟩, m3, m4⟩ := hmem
    simp only at m3 m4
    have hk0 := int_zero_of_small k (by linarith) (by linarith)
    subst hk0
    simp only [Int.cast_zero, zero_mul, add_zero] at hk
    subst hk
    rcases hp with ((⟨g1, g2⟩ | ⟨g1, g2⟩) | ⟨g1, g2⟩) | ⟨g1, g2⟩ <;> simp only [mem_singleton_iff] at g1 g2 <;> linarith
  · rw [sector_image]
    refine (image_mono (rim_subset a b α β hab.le hαβ.le)).trans ?_
    rw [← hcl]
    exact image_closure_subset_closure_image polarMap_continuous
  · intro z hz
    rw [(isOpen_sector a b α β ha hβ).frontier_eq] at hz
    have hc : IsClosed (polarMap '' (Icc a b ×ˢ Icc α β)) :=
      ((isCompact_Icc.prod isCompact_Icc).image polarMap_continuous).isClosed
    have hsub : closure (sector ((a, b), (α, β))) ⊆ polarMap '' (Icc a b ×ˢ Icc α β) := by
      refine closure_minimal ?_ hc
      rw [sector_image]
      exact image_mono (prod_mono Ioo_subset_Icc_self Ioo_subset_Icc_self)
    obtain ⟨p, hp, rfl⟩ := hsub hz.1
    refine ⟨p, rim_of_closed a b α β p hp fun hin => hz.2 ?_, rfl⟩
    rw [sector_image]
    exact ⟨p, hin, rfl⟩

/-- A region of a table at most a turn wide, or an empty slot. -/
def NarrowRegion (R : (ℝ × ℝ) × (ℝ × ℝ)) : Prop :=
  R = ((0, 0), (0, 0)) ∨ (0 ≤ R.1.1 ∧ R.1.1 < R.1.2 ∧ R.2.1 < R.2.2 ∧ R.2.2 ≤ R.2.1 + 2 * Real.pi)

/-- The points a region passes over. -/
theorem passes_iff (R : (ℝ × ℝ) × (ℝ × ℝ)) (hR : NarrowRegion R) (z : ℂ) : passes R z ≠ 0 ↔ z ∈ sector R := by
  obtain ⟨⟨a, b⟩, α, β⟩ := R
  rcases hR with h | ⟨h0, _, _, h3⟩
  · rw [h, passes_zero]
    constructor
    · exact fun h => absurd rfl h
    · rintro ⟨r, θ, h1, h2, _⟩; simp only at h1 h2; linarith
  · rw [passes_eq, (coords_narrow a b α β h0 h3 z).2]
    split_ifs with h <;> simp [h]

theorem narrow_open (R : (ℝ × ℝ) × (ℝ × ℝ)) (hR : NarrowRegion R) : IsOpen (sector R) := by
  obtain ⟨⟨a, b⟩, α, β⟩ := R
  rcases hR with h | ⟨h0, _, _, h3⟩
  · rw [h]; exact isOpen_sector 0 0 0 0 le_rfl (by linarith [Real.pi_pos])
  · exact isOpen_sector a b α β h0 h3

/-- The part of the plane that a list of non-overlapping regions leaves free is connected. -/
theorem free_preconnected (regions : List ((ℝ × ℝ) × (ℝ × ℝ))) (hn : ∀ R ∈ regions, NarrowRegion R)
    (hd : regions.Pairwise fun R S => Disjoint (sector R) (sector S)) : IsPreconnected {z | ∀ R ∈ regions, z ∉ sector R} := by
  induction regions with
  | nil => simpa using isPreconnected_univ
  | cons R l ih =>
    obtain ⟨h1, h2⟩ := List.pairwise_cons.mp hd
    have hX := ih (fun S hS => hn S (by simp [hS])) h2
    have he : {z | ∀ S ∈ R :: l, z ∉ sector S} = {z | ∀ S ∈ l, z ∉ sector S} \ sector R := by
      ext z
      simp only [List.mem_cons, forall_eq_or_imp, mem_ofPred_eq, Set.mem_sdiff]
      tauto
    rw [he]
    have hRn := hn R (by simp)
    have ho := narrow_open R hRn
    obtain ⟨⟨a, b⟩, α, β⟩ := R
    rcases hRn with h | ⟨g0, g1, g2, g3⟩
    · have : sector ((a, b), (α, β)) = ∅ := by
        rw [h]; ext z
        simp only [mem_empty_iff_false, iff_false]
        rintro ⟨r, θ, h1, h2, _⟩; simp only at h1 h2; linarith
      rw [this, Set.sdiff_empty]
      exact hX
    · simp only at g0 g1 g2 g3
      obtain ⟨r1, r2, r3, r4⟩ := sector_rim a b α β g0 g1 g2 g3
      refine preconnected_diff _ _ _ hX ho r1 (fun z hz => ⟨fun S hS hzS => ?_, r2 z hz⟩) r4
      have hSo := narrow_open S (hn S (by simp [hS]))
      exact (disjoint_left.mp ((h1 S hS).closure_left hSo)) (r3 hz) hzS

theorem sector_bounded (R : (ℝ × ℝ) × (ℝ × ℝ)) (h : 0 ≤ R.1.1) (z : ℂ) (hz : z ∈ sector R) : ‖z‖ < R.1.2 := by
  obtain ⟨r, θ, h1, h2, _, _, rfl⟩ := hz
  rw [norm_mul, mul_comm I, norm_exp_ofReal_mul_I, mul_one, norm_real, Real.norm_of_nonneg (by linarith)]
  exact h2

/-- **A bounded set whose boundary lies in non-overlapping regions lies in them.** -/
theorem filled (regions : List ((ℝ × ℝ) × (ℝ × ℝ))) (hn : ∀ R ∈ regions, NarrowRegion R)
    (hd : regions.Pairwise fun R S => Disjoint (sector R) (sector S)) (D : Set ℂ) (B : ℝ) (hB : ∀ z ∈ D, ‖z‖ ≤ B)
    (hfr : ∀ z ∈ frontier D, ∃ R ∈ regions, z ∈ sector R) (z : ℂ) (hz : z ∈ D) : ∃ R ∈ regions, z ∈ sector R := by
  by_contra hcon
  push Not at hcon
  have hC := free_preconnected regions hn hd
  obtain ⟨B', hB'⟩ : ∃ B' : ℝ, ∀ R ∈ regions, R.1.2 ≤ B' := by
    clear hcon hC hfr hd hn
    induction regions with
    | nil => exact ⟨0, by simp⟩
    | cons R l ih =>
      obtain ⟨B', h⟩ := ih
      refine ⟨max R.1.2 B', fun S hS => ?_⟩
      rcases List.mem_cons.mp hS with rfl | h'
      · exact le_max_left _ _
      · exact (h S h').trans (le_max_right _ _)
  set t : ℝ := |B| + |B'| + 1 with ht
  have htn : ‖(t : ℂ)‖ = t := by rw [norm_real, Real.norm_of_nonneg (by positivity)]
  have hout : (t : ℂ) ∈ {z | ∀ R ∈ regions, z ∉ sector R} := by
    intro R hR hs
    have h0 : 0 ≤ R.1.1 := by
      rcases hn R hR with h | h
      · rw [h]
      · exact h.1
    have := sector_bounded R h0 _ hs
    rw [htn] at this
    linarith [hB' R hR, le_abs_self B', abs_nonneg B]
  have houtD : (t : ℂ) ∉ D := by
    intro h
    have := hB _ h
    rw [htn] at this
    linarith [le_abs_self B, abs_nonneg B']
  obtain ⟨v, hv1, hv2⟩ : ({z | ∀ R ∈ regions, z ∉ sector R} ∩ frontier D).Nonempty := by
    by_contra hne
    rw [not_nonempty_iff_eq_empty] at hne
    have hsub : {z | ∀ R ∈ regions, z ∉ sector R} ⊆ interior D ∪ (closure D)ᶜ := by
      intro v hv
      by_cases h : v ∈ closure D
      · left
        by_contra hi
        have : v ∈ {z | ∀ R ∈ regions, z ∉ sector R} ∩ frontier D := ⟨hv, h, hi⟩
        rw [hne] at this
        exact this
      · exact Or.inr h
    obtain ⟨v, _, hv2, hv3⟩ := hC (interior D) (closure D)ᶜ isOpen_interior isClosed_closure.isOpen_compl hsub
      ⟨z, hcon, (hsub hcon).resolve_right fun h => h (subset_closure hz)⟩
      ⟨t, hout, (hsub hout).resolve_left fun h => houtD (interior_subset h)⟩
    exact hv3 (subset_closure (interior_subset hv2))
  obtain ⟨R, hR, hvR⟩ := hfr v hv2
  exact hv1 R hR hvR

/-! ## The images of the source -/

theorem imageOfDisc_isOpen (L : Lenses) (w : ℂ) (rho : ℝ) : IsOpen (imageOfDisc L w rho) := by
  rw [isOpen_iff_mem_nhds]
  rintro z ⟨h1, h2⟩
  have hc : ContinuousAt (fun z => ‖lensMap L z - w‖) z := ((jacDet_lensMap L z h1).1.continuousAt.sub continuousAt_const).norm
  filter_upwards [(isOpen_offLens L).mem_nhds h1, hc.eventually (Iio_mem_nhds h2)] with y g1 g2
  exact ⟨g1, g2⟩

theorem imageOfDisc_bounded (L : Lenses) (w : ℂ) (rho : ℝ) : ∃ B, ∀ z ∈ imageOfDisc L w rho, ‖z‖ ≤ B := by
  obtain ⟨B, hB, _, hc⟩ := annulus_covers L w rho
  refine ⟨B, fun z hz => ?_⟩
  by_contra hlt
  push Not at hlt
  have ho : IsOpen (imageOfDisc L w rho ∩ {y | B < ‖y‖}) :=
    (imageOfDisc_isOpen L w rho).inter (isOpen_lt continuous_const continuous_norm)
  have hpos := ho.measure_pos volume ⟨z, hz, hlt⟩
  refine hpos.ne' ?_
  refine measure_mono_null ?_ (ae_iff.mp hc)
  rintro y ⟨hy, hyB⟩ hcov
  have h := hcov hy
  by_cases hs : y ∈ sector ((0, B), (0, 2 * Real.pi))
  · have := sector_bounded ((0, B), (0, 2 * Real.pi)) le_rfl y hs
    simp only [mem_ofPred_eq] at hyB this
    linarith
  · simp [hs] at h

/-- Near a point the deflection is that of the mass at the point and a bounded rest. -/
theorem deflection_split (L : Lenses) (p : ℂ) (hpos : ∀ l ∈ L, 0 < l.1) :
    ∃ M : ℝ, 0 ≤ M ∧ ((∃ l ∈ L, l.2 = p) → 0 < M) ∧ ∃ g : ℂ → ℂ, ContinuousAt g p ∧
      ∀ z, (L.map fun l => (l.1 : ℂ) / ((starRingEnd ℂ) z - (starRingEnd ℂ) l.2)).sum
        = M / ((starRingEnd ℂ) z - (starRingEnd ℂ) p) + g z := by
  induction L with
  | nil => exact ⟨0, le_rfl, by simp, fun _ => 0, continuousAt_const, by simp⟩
  | cons l L ih =>
    obtain ⟨M, h0, h1, g, hg, he⟩ := ih fun l hl => hpos l (by simp [hl])
    by_cases hl : l.2 = p
    · refine ⟨l.1 + M, by linarith [hpos l (by simp)], fun _ => by linarith [hpos l (by simp)], g, hg, fun z => ?_⟩
      simp only [List.map_cons, List.sum_cons]
      rw [he z, hl]
      push_cast
      ring
    · refine ⟨M, h0, ?_, fun z => (l.1 : ℂ) / ((starRingEnd ℂ) z - (starRingEnd ℂ) l.2) + g z, ?_, fun z => ?_⟩
      · rintro ⟨l', hl', hp⟩
        rcases List.mem_cons.mp hl' with rfl | h
        · exact absurd hp hl
        · exact h1 ⟨l', h, hp⟩
      · refine ContinuousAt.add (ContinuousAt.div continuousAt_const ?_ ?_) hg
        · exact (Complex.continuous_conj.continuousAt).sub continuousAt_const
        · rw [← map_sub, Ne, map_eq_zero, sub_eq_zero]
          exact fun h => hl h.symm
      · simp only [List.map_cons, List.sum_cons]
        rw [he z]
        ring

/-- The boundary of the images consists of images of the source limb. -/
theorem frontier_images (L : Lenses) (hpos : ∀ l ∈ L, 0 < l.1) (w : ℂ) (rho : ℝ) (z : ℂ)
    (hz : z ∈ frontier (imageOfDisc L w rho)) : (∀ l ∈ L, z ≠ l.2) ∧ ‖lensMap L z - w‖ = rho := by
  rw [(imageOfDisc_isOpen L w rho).frontier_eq] at hz
  have hoff : ∀ l ∈ L, z ≠ l.2 := by
    intro l hl hzl
    obtain ⟨M, _, hM, g, hg, he⟩ := deflection_split L z hpos
    have hM0 := hM ⟨l, hl, hzl.symm⟩
    have hcl := mem_closure_iff_frequently.mp hz.1
    have hc : ContinuousAt (fun y => ‖y - g y - w‖) z := ((continuousAt_id.sub hg).sub continuousAt_const).norm
    set C := ‖z - g z - w‖ + 1 with hC
    have hCpos : 0 < C := by positivity
    have e1 : ∀ᶠ y in 𝓝 z, ‖y - g y - w‖ < C := hc.eventually (Iio_mem_nhds (by simp only [hC]; linarith))
    have e2 : ∀ᶠ y in 𝓝 z, ‖y - z‖ < M / (C + |rho|) := by
      have : ContinuousAt (fun y => ‖y - z‖) z := (continuousAt_id.sub continuousAt_const).norm
      refine this.eventually (Iio_mem_nhds ?_)
      simp only [sub_self, norm_zero]
      positivity
    obtain ⟨y, ⟨hy1, hy2⟩, h1, h2⟩ := (hcl.and_eventually (e1.and e2)).exists
    have hyz : y ≠ z := by rw [hzl]; exact hy1 l hl
    have hpos' : 0 < ‖y - z‖ := norm_pos_iff.mpr (sub_ne_zero.mpr hyz)
    have hd : ‖(M : ℂ) / ((starRingEnd ℂ) y - (starRingEnd ℂ) z)‖ = M / ‖y - z‖ := by
      rw [norm_div, ← map_sub, RCLike.norm_conj, norm_real, Real.norm_of_nonneg hM0.le]
    have hbig : C + |rho| < M / ‖y - z‖ := by
      rw [lt_div_iff₀ hpos']
      rw [lt_div_iff₀ (by positivity)] at h2
      linarith
    have hle : ‖(M : ℂ) / ((starRingEnd ℂ) y - (starRingEnd ℂ) z)‖ ≤ ‖y - g y - w‖ + ‖lensMap L y - w‖ := by
      have : (M : ℂ) / ((starRingEnd ℂ) y - (starRingEnd ℂ) z) = (y - g y - w) - (lensMap L y - w) := by
        unfold lensMap
        rw [he y]
        ring
      rw [this]
      exact norm_sub_le _ _
    rw [hd] at hle
    linarith [le_abs_self rho]
  refine ⟨hoff, le_antisymm ?_ ?_⟩
  · have hc : ContinuousAt (fun z => ‖lensMap L z - w‖) z := ((jacDet_lensMap L z hoff).1.continuousAt.sub continuousAt_const).norm
    by_contra hlt
    push Not at hlt
    have hcl := mem_closure_iff_frequently.mp hz.1
    obtain ⟨y, ⟨_, hy2⟩, h1⟩ := (hcl.and_eventually (hc.eventually (Ioi_mem_nhds hlt))).exists
    have h1' : rho < ‖lensMap L y - w‖ := h1
    linarith
  · by_contra hlt
    push Not at hlt
    exact hz.2 ⟨hoff, hlt⟩

/-- **C126 (part that holds)**: if the regions do not overlap and contain the images of the source *limb*, they contain the
images of the whole source exactly once, and `mag_uniform` and `mag_limb_dark` tend to the magnification. Holds for all
lenses of positive mass; the interior of the images needs no separate condition. -/
theorem C126_boundary_partial (nlenses : ℕ) (u : UserParams) (hq : 0 < u.q) (hq3 : nlenses = 3 → 0 < u.q3) (w : ℂ) (rho : ℝ)
    (hrho : 0 < rho) (regions : List ((ℝ × ℝ) × (ℝ × ℝ))) (hn : ∀ R ∈ regions, NarrowRegion R)
    (hd : regions.Pairwise fun R S => Disjoint (sector R) (sector S))
    (hcov : ∀ z, (∀ l ∈ userLens nlenses u, z ≠ l.2) → ‖lensMap (userLens nlenses u) z - w‖ = rho →
      ∃ R ∈ regions, z ∈ sector R) :
    (∀ z ∈ imageOfDisc (userLens nlenses u) w rho, passesAll regions z = 1) ∧
    Tendsto (fun n : ℕ × ℕ => magUniform nlenses u w rho n.1 n.2 regions) (atTop ×ˢ atTop)
      (𝓝 (uniformMag (userLens nlenses u) w rho)) ∧
    ∀ u1 delta_c : ℝ, u1 < 3 → Tendsto (fun n : ℕ × ℕ => magLimbDark nlenses u w rho u1 delta_c n.1 n.2 regions)
      (atTop ×ˢ atTop) (𝓝 (limbMag (userLens nlenses u) w rho u1)) := by
  have hpos := userLens_pos nlenses u hq hq3
  have h1 : 1 + u.q ≠ 0 := by positivity
  have h2 : nlenses = 3 → 1 + u.q + u.q3 ≠ 0 := fun h => by have := hq3 h; positivity
  obtain ⟨B, hB⟩ := imageOfDisc_bounded (userLens nlenses u) w rho
  have hin := filled regions hn hd (imageOfDisc (userLens nlenses u) w rho) B hB fun z hz => by
    obtain ⟨g1, g2⟩ := frontier_images _ hpos w rho z hz
    exact hcov z g1 g2
  have hord : ∀ R ∈ regions, OrderedRegion R := fun R hR => by
    rcases hn R hR with h | ⟨g1, g2, g3, _⟩
    · exact Or.inr h
    · exact Or.inl ⟨g1, g2, g3⟩
  have hle : ∀ (l : List ((ℝ × ℝ) × (ℝ × ℝ))), (∀ R ∈ l, NarrowRegion R) →
      (l.Pairwise fun R S => Disjoint (sector R) (sector S)) → ∀ z, (∃ R ∈ l, z ∈ sector R) → passesAll l z = 1 := by
    intro l
    induction l with
    | nil => rintro _ _ z ⟨R, hR, _⟩; simp at hR
    | cons R l ih =>
      intro hn hd z hz
      obtain ⟨d1, d2⟩ := List.pairwise_cons.mp hd
      have hl := ih (fun S hS => hn S (by simp [hS])) d2 z
      simp only [passesAll, List.map_cons, List.sum_cons] at hl ⊢
      by_cases hR : z ∈ sector R
      · have h0 : (l.map fun R => passes R z).sum = 0 := by
          apply List.sum_eq_zero
          intro y hy
          obtain ⟨S, hS, rfl⟩ := List.mem_map.mp hy
          by_contra hne
          exact disjoint_left.mp (d1 S hS) hR ((passes_iff S (hn S (by simp [hS])) z).mp hne)
        have hne := (passes_iff R (hn R (by simp)) z).mpr hR
        have h1 : passes R z ≤ 1 := by
          rcases hn R (by simp) with rfl | ⟨g0, _, _, g3⟩
          · rw [passes_zero]; norm_num
          · exact passes_le_one R g0 g3 z
        omega
      · have h0 : passes R z = 0 := by
          by_contra hne
          exact hR ((passes_iff R (hn R (by simp)) z).mp hne)
        rw [h0, zero_add]
        apply hl
        obtain ⟨S, hS, hzS⟩ := hz
        rcases List.mem_cons.mp hS with rfl | h
        · exact absurd hzS hR
        · exact ⟨S, h, hzS⟩
  have hone : ∀ z ∈ imageOfDisc (userLens nlenses u) w rho, passesAll regions z = 1 := fun z hz =>
    hle regions hn hd z (hin z hz)
  have hDm := measurableSet_imageOfDisc (userLens nlenses u) w rho
  refine ⟨hone, ?_, fun u1 delta_c hu1 => ?_⟩
  · have := C124_uniform nlenses u w rho hrho h1 h2 regions hord
    have he : ∫ z in imageOfDisc (userLens nlenses u) w rho, (passesAll regions z : ℝ)
        = volume.real (imageOfDisc (userLens nlenses u) w rho) := by
      rw [setIntegral_congr_fun hDm (g := fun _ => (1 : ℝ)) fun z hz => by simp [hone z hz]]
      simp
    rw [he] at this
    exact this
  · have := C124_limb nlenses u w rho u1 delta_c hrho hu1 h1 h2 regions hord
    rw [setIntegral_congr_fun hDm (g := fun z => brightness u1 (‖lensMap (userLens nlenses u) z - w‖ / rho))
      fun z hz => by simp [hone z hz]] at this
    exact this

theorem CoverConditions.toLimb {K : Type*} [Field K] [LinearOrder K] [IsStrictOrderedRing K] {twoPi : K} {n nreal : ℕ}
    {limb : List (K × K)} {bins_r bins_th : ℕ} {mr : K} (h : CoverConditions twoPi n nreal limb bins_r bins_th mr) :
    LimbConditions twoPi n limb bins_r bins_th mr :=
  ⟨h.hpi, h.bins_r_pos, h.bins_th_pos, h.polar, h.radii, h.tol, h.margin, h.runs_r, h.runs_th, h.inner⟩

/-- A sampled limb image that is not exactly at an end of its run of bins. -/
def InsideRuns (limb : List (ℂ × Bool)) (n bins_r bins_th : ℕ) (p : ℝ × ℝ) : Prop :=
  (∀ row ∈ cluster1dR ((limb.map limbPolar).map Prod.fst) bins_r n, p.1 ≠ row.1 ∧ p.1 ≠ row.2) ∧
  ∀ row ∈ cluster1dTh (2 * Real.pi) ((limb.map limbPolar).map Prod.snd) bins_th n, p.2 ≠ row.1 ∧ p.2 ≠ row.2

/-- The sampled limb images are dense enough: every image of the source limb has a sampled one within `margin_r * rho` of
its radius and `margin_th` degrees of its angle. -/
def DenseLimb (L : Lenses) (w : ℂ) (rho : ℝ) (limb : List (ℂ × Bool)) (n bins_r bins_th : ℕ) (margin_r margin_th : ℝ) : Prop :=
  ∀ z, (∀ l ∈ L, z ≠ l.2) → ‖lensMap L z - w‖ = rho → ∃ x ∈ limb, x.2 = true ∧ x.1 ≠ 0 ∧
    InsideRuns limb n bins_r bins_th (limbPolar x) ∧ ∃ r θ : ℝ, z = r * exp (I * θ) ∧ 0 < r ∧
      |r - (limbPolar x).1| < margin_r * rho ∧ |θ - (limbPolar x).2| < margin_th * (Real.pi / 180)

theorem sector_of_margin (R : (ℝ × ℝ) × (ℝ × ℝ)) (r0 th0 mr mt r θ : ℝ)
    (h : SectorContainsMargin (2 * Real.pi) R r0 th0 mr mt) (hr : 0 < r) (h1 : |r - r0| < mr) (h2 : |θ - th0| < mt) :
    (r * exp (I * θ) : ℂ) ∈ sector R := by
  obtain ⟨g1, g2, g3⟩ := h
  rw [abs_lt] at h1 h2
  have hlo : R.1.1 < r := lt_of_le_of_lt g1 (max_lt hr (by linarith))
  rcases g3 with ⟨e1, e2⟩ | ⟨e1, e2⟩
  · exact ⟨r, θ, hlo, by linarith, by linarith, by linarith, rfl⟩
  · refine ⟨r, θ - 2 * Real.pi, hlo, by linarith, by linarith, by linarith, ?_⟩
    congr 1
    push_cast
    rw [mul_sub, exp_sub, show I * (2 * (Real.pi : ℂ)) = 2 * Real.pi * I by ring, exp_two_pi_mul_I, div_one]

/-- **C126 (part that holds)**, for `define_regions`: if some angular bin is free, the tables have room (the conditions of
C38 and C125) and the sampled limb images are dense enough for the margins, then the returned regions contain every image
of the source exactly once, and `mag_uniform` and `mag_limb_dark` tend to the magnification. -/
theorem C126_sampled_partial (nlenses : ℕ) (limb : List (ℂ × Bool)) (rho : ℝ) (hrho : 0 < rho) (bins_r bins_th : ℕ)
    (margin_r margin_th : ℝ) (regions : List ((ℝ × ℝ) × (ℝ × ℝ)))
    (hdef : defineRegions limb rho bins_r bins_th margin_r margin_th nlenses = .ok regions)
    (hc : CoverConditions (2 * Real.pi) (if nlenses = 2 then 10 else 18) (if nlenses = 2 then 5 else 9) (limb.map limbPolar)
      bins_r bins_th (margin_r * rho))
    (he : EdgesFree (limb.map limbPolar) bins_r (if nlenses = 2 then 10 else 18))
    (hbigr : ∀ z ∈ limb, z.2 = true → ‖z.1‖ ≤ 10 ^ 5)
    (hfree : ∃ k < bins_th, ¬ Occupied ((limb.map limbPolar).map Prod.snd) 0 (2 * Real.pi) bins_th k)
    (hmt : 0 < margin_th) (hmt2 : 2 * margin_th ≤ 360 / bins_th) (u : UserParams) (hq : 0 < u.q)
    (hq3 : nlenses = 3 → 0 < u.q3) (w : ℂ)
    (hdense : DenseLimb (userLens nlenses u) w rho limb (if nlenses = 2 then 10 else 18) bins_r bins_th margin_r margin_th) :
    (∀ z ∈ imageOfDisc (userLens nlenses u) w rho, passesAll regions z = 1) ∧
    Tendsto (fun n : ℕ × ℕ => magUniform nlenses u w rho n.1 n.2 regions) (atTop ×ˢ atTop)
      (𝓝 (uniformMag (userLens nlenses u) w rho)) ∧
    ∀ u1 delta_c : ℝ, u1 < 3 → Tendsto (fun n : ℕ × ℕ => magLimbDark nlenses u w rho u1 delta_c n.1 n.2 regions)
      (atTop ×ˢ atTop) (𝓝 (limbMag (userLens nlenses u) w rho u1)) := by
  have hp := Real.pi_pos
  obtain ⟨h1, h2⟩ := apart_regions nlenses limb rho bins_r bins_th margin_r margin_th regions hdef hc.toLimb he hbigr hfree hmt
    hmt2
  refine C126_boundary_partial nlenses u hq hq3 w rho hrho regions h1 ?_ ?_
  · refine List.Pairwise.imp_of_mem ?_ h2
    intro R S hR hS hRS
    rw [Set.disjoint_left]
    intro z hzR hzS
    have hz : ∀ T ∈ regions, T = ((0, 0), (0, 0)) ∨ 0 ≤ T.1.1 := fun T hT => (h1 T hT).imp id fun h => h.1
    rcases noOverlap_passes R S (hz R hR) (hz S hS) hRS z with h | h
    · exact (passes_iff R (h1 R hR) z).mpr hzR h
    · exact (passes_iff S (h1 S hS) z).mpr hzS h
  · intro z hoff hz
    obtain ⟨x, hx, hx2, hx0, ⟨e1, e2⟩, r, θ, rfl, hr, hr2, hθ⟩ := hdense z hoff hz
    have hreg : regions = regionsOfLimb (2 * Real.pi) (if nlenses = 2 then 10 else 18) (if nlenses = 2 then 5 else 9)
        (limb.map limbPolar) bins_r bins_th (margin_r * rho) (margin_th * (Real.pi / 180)) := by
      unfold defineRegions at hdef
      by_cases h2 : nlenses = 2
      · rw [if_pos h2] at hdef
        rw [if_pos h2, if_pos h2]
        exact (Except.ok.inj hdef).symm
      · rw [if_neg h2] at hdef
        rw [if_neg h2, if_neg h2]
        by_cases h3 : nlenses = 3
        · rw [if_pos h3] at hdef
          exact (Except.ok.inj hdef).symm
        · rw [if_neg h3] at hdef
          exact absurd hdef (by simp)
    obtain ⟨R, hR, hRm⟩ := C38_margin_partial (2 * Real.pi) _ _ _ bins_r bins_th _ (margin_th * (Real.pi / 180)) hc
      (limbPolar x).1 (limbPolar x).2 (List.mem_map_of_mem hx) (by unfold limbPolar; rw [hx2]; simpa using hx0) e1 e2
    rw [← hreg] at hR
    exact ⟨R, hR, sector_of_margin R _ _ _ _ r θ hRm hr hr2 hθ⟩

end Microjax.Props
