import Verif.Props.SmallSource
import Verif.Props.CriticalDense
import Verif.Props.LimbTrace
import Verif.Lemmas.RootBranches

/-!
# C112: between the caustics and at the caustics

Between the caustics the point-source magnification is continuous and the number of flagged images does not change; near
every point of the caustics returned by `critical_and_caustic_curves` the magnification is unbounded.
-/

noncomputable section

namespace Microjax.Props

open Complex ComplexConjugate Microjax.PointSource Microjax.Spec Filter MeasureTheory
open scoped Topology

/-! ### Near a caustic -/

theorem norm_shear_of_jacDet (L : Lenses) (z : ℂ) (hz : ∀ l ∈ L, z ≠ l.2) :
    jacDet (lensMap L) z = 1 - ‖shear L z‖ ^ 2 := by
  rw [(jacDet_lensMap L z hz).2]; rfl

theorem shear_eq_one_iff (L : Lenses) (z : ℂ) (hz : ∀ l ∈ L, z ≠ l.2) :
    jacDet (lensMap L) z = 0 ↔ ‖shear L z‖ = 1 := by
  rw [norm_shear_of_jacDet L z hz]
  constructor
  · intro h
    exact (pow_eq_one_iff_of_nonneg (norm_nonneg _) two_ne_zero).mp (by linarith)
  · intro h; rw [h]; norm_num

/-- In every neighbourhood of a caustic point the magnification exceeds every bound on a set of positive area. -/
theorem caustic_blowup (L : Lenses) (z : ℂ) (hz : ∀ l ∈ L, z ≠ l.2) (hd : jacDet (lensMap L) z = 0) (M ε : ℝ)
    (hε : 0 < ε) : volume {y | y ∈ Metric.ball (lensMap L z) ε ∧ M < pointMag L y} ≠ 0 := by
  have hsh := (shear_eq_one_iff L z hz).mp hd
  -- a neighbourhood of the critical point with small determinant
  have e1 : ∀ᶠ x in 𝓝 z, lensMap L x ∈ Metric.ball (lensMap L z) ε :=
    (contDiffAt_lensMap L z hz).continuousAt.eventually (Metric.ball_mem_nhds _ hε)
  have e2 : ∀ᶠ x in 𝓝 z, ∀ l ∈ L, x ≠ l.2 := (isOpen_offLens L).mem_nhds hz
  have e3 : ∀ᶠ x in 𝓝 z, |1 - ‖shear L x‖ ^ 2| < 1 / (|M| + 1) := by
    have hc : ContinuousAt (fun x => |1 - ‖shear L x‖ ^ 2|) z :=
      (continuousAt_const.sub ((continuousAt_shear L z hz).norm.pow 2)).abs
    refine hc.eventually_lt_const ?_
    simp only [hsh]; norm_num; positivity
  obtain ⟨U, hU, hUo, hzU⟩ := eventually_nhds_iff.mp ((e1.and e2).and e3)
  -- a regular point in it
  obtain ⟨x, hxU, hxr⟩ : ∃ x ∈ U, ‖shear L x‖ ≠ 1 := by
    by_contra hno
    push Not at hno
    have hsub : U ⊆ {x : ℂ | (∀ l ∈ L, x ≠ l.2) ∧ ‖shear L x‖ = 1} := fun x hx => ⟨(hU x hx).1.2, hno x hx⟩
    exact (hUo.measure_pos volume ⟨z, hzU⟩).ne' (measure_mono_null hsub (critical_null L))
  obtain ⟨g, g1, g2, g3, -⟩ := image_local_inverse L (lensMap L x) x ⟨(hU x hxU).1.2, rfl⟩ hxr
  have e4 : ∀ᶠ y in 𝓝 (lensMap L x), g y ∈ U := by
    refine g1.eventually ?_
    rw [g2]; exact hUo.mem_nhds hxU
  have e5 : ∀ᶠ y in 𝓝 (lensMap L x), g y ∈ {v | ‖shear L v‖ ≠ 1} := by
    refine g1.eventually ?_
    rw [g2]
    exact (continuousAt_shear L x (hU x hxU).1.2).norm.eventually_ne hxr
  obtain ⟨V, hV, hVo, hxV⟩ := eventually_nhds_iff.mp ((g3.and e4).and e5)
  have hpos : volume (V \ (lensMap L '' {x : ℂ | (∀ l ∈ L, x ≠ l.2) ∧ ‖shear L x‖ = 1})) ≠ 0 := by
    rw [measure_sdiff_null (caustic_null L)]
    exact (hVo.measure_pos volume ⟨_, hxV⟩).ne'
  intro h0
  refine hpos (measure_mono_null ?_ h0)
  rintro y ⟨hyV, hyC⟩
  obtain ⟨⟨k1, k2⟩, k3⟩ := hV y hyV
  have hi : IsImage L y (g y) := ⟨(hU _ k2).1.2, k1⟩
  have hreg : ∀ v, IsImage L y v → ‖shear L v‖ ≠ 1 := fun v hv h => hyC ⟨v, ⟨hv.1, h⟩, hv.2⟩
  have hfin := images_finite L y hreg
  refine ⟨?_, ?_⟩
  · have := (hU _ k2).1.1
    rwa [k1] at this
  · have hle : 1 / |jacDet (lensMap L) (g y)| ≤ pointMag L y := by
      rw [pointMag, ← hfin.coe_toFinset, finsum_mem_coe_finset]
      exact Finset.single_le_sum (f := fun v => 1 / |jacDet (lensMap L) v|) (fun v _ => by positivity)
        (hfin.mem_toFinset.mpr hi)
    rw [norm_shear_of_jacDet L _ hi.1] at hle
    have hdpos : 0 < |1 - ‖shear L (g y)‖ ^ 2| := by
      rw [abs_pos]
      intro h
      exact k3 ((pow_eq_one_iff_of_nonneg (norm_nonneg _) two_ne_zero).mp (by linarith))
    have h3 := (hU _ k2).2
    have h4 : |M| + 1 < 1 / |1 - ‖shear L (g y)‖ ^ 2| := by
      rw [lt_div_iff₀ hdpos]
      rw [lt_div_iff₀ (by positivity)] at h3
      linarith
    linarith [le_abs_self M]

/-! ### Between the caustics -/

/-- Distinct roots, none of them spurious within the tolerance: these conditions hold in a neighbourhood if they hold at
one position. -/
theorem regular_nhds (L : Lenses) (n : ℕ) (hn : n ≠ 0) (c rs : ℂ → List ℂ) (w S : ℂ) (tol : ℝ) (hlen : ∀ y, (c y).length = n + 1)
    (hc : ∀ k : ℕ, ContinuousAt (fun y => (c y).getD k 0) w) (hlead : (c w).headD 0 ≠ 0)
    (hrs : ∀ᶠ y in 𝓝 w, IsRootList (c y) (rs y)) (hnd : (rs w).Nodup)
    (himg : ∀ᶠ y in 𝓝 w, ∀ z, IsImage L y z → z - S ∈ rs y) (hoff : ∀ r ∈ rs w, ∀ l ∈ L, r + S ≠ l.2)
    (hshear : ∀ z, IsImage L w z → ‖shear L z‖ ≠ 1)
    (hsep : ∀ r ∈ rs w, lensMap L (r + S) = w ∨ tol < ‖lensMap L (r + S) - w‖) :
    ∀ᶠ y in 𝓝 w, (rs y).Nodup ∧ ∀ r ∈ rs y, lensMap L (r + S) = y ∨ tol < ‖lensMap L (r + S) - y‖ := by
  obtain ⟨r, hr, hr0, hrp⟩ := root_branches c rs n w hlen hn hc hlead hrs hnd
  have hmem : ∀ i, r i w ∈ rs w := fun i => by rw [hr0]; exact List.mem_ofFn.mpr ⟨i, rfl⟩
  have hinj : ∀ i j, i ≠ j → r i w ≠ r j w := by
    intro i j hij h
    rw [hr0, List.nodup_ofFn] at hnd
    exact hij (hnd h)
  have key : ∀ i, ∀ᶠ y in 𝓝 w, (rs y).Perm (List.ofFn fun i => r i y) →
      lensMap L (r i y + S) = y ∨ tol < ‖lensMap L (r i y + S) - y‖ := by
    intro i
    rcases hsep _ (hmem i) with h | h
    · have hi : IsImage L w (r i w + S) := ⟨hoff _ (hmem i), h⟩
      obtain ⟨g, g1, g2, g3, -⟩ := image_local_inverse L w _ hi (hshear _ hi)
      have e1 : ∀ᶠ y in 𝓝 w, g y ∈ {x | ∀ l ∈ L, x ≠ l.2} := by
        refine g1.eventually ?_
        rw [g2]; exact (isOpen_offLens L).mem_nhds hi.1
      have e2 : ∀ᶠ y in 𝓝 w, ∀ j, j ≠ i → g y - S - r j y ≠ 0 := by
        rw [eventually_all]
        intro j
        by_cases hj : j = i
        · exact Eventually.of_forall fun y h => absurd hj h
        · have hc1 : ContinuousAt (fun y => g y - S - r j y) w := (g1.sub continuousAt_const).sub (hr j)
          filter_upwards [hc1.eventually_ne (by
            rw [g2, add_sub_cancel_right]; exact sub_ne_zero.mpr (hinj i j (Ne.symm hj)))] with y hy _
          exact hy
      filter_upwards [e1, e2, g3, himg] with y h1 h2 h3 h4 hperm
      have h5 := hperm.mem_iff.mp (h4 _ ⟨h1, h3⟩)
      obtain ⟨j, hj⟩ := List.mem_ofFn.mp h5
      by_cases hji : j = i
      · left
        rw [← hji, hj, sub_add_cancel]; exact h3
      · exact absurd (by rw [← hj]; ring) (h2 j hji)
    · have hc1 : ContinuousAt (fun y => lensMap L (r i y + S)) w := by
        refine ContinuousAt.comp (g := lensMap L) (f := fun y => r i y + S)
          (contDiffAt_lensMap L _ (hoff _ (hmem i))).continuousAt ((hr i).add continuousAt_const)
      filter_upwards [(hc1.sub continuousAt_id).norm.eventually_const_lt h] with y hy _
      exact Or.inr hy
  filter_upwards [hrp, eventually_all.mpr key] with y h1 h2
  refine ⟨h1.1.nodup_iff.mpr h1.2, fun x hx => ?_⟩
  obtain ⟨i, rfl⟩ := List.mem_ofFn.mp (h1.1.mem_iff.mp hx)
  exact h2 i h1.1

/-- On a set of sources without caustics the magnification is continuous, and on a connected one the number of images is
the same everywhere. -/
theorem mag_between (L : Lenses) (hm : ∀ l ∈ L, l.1 ≠ 0) (hL : (L.map Prod.snd).Nodup) (W : Set ℂ)
    (hW : ∀ w ∈ W, ∀ z, IsImage L w z → jacDet (lensMap L) z ≠ 0) :
    ContinuousOn (pointMag L) W ∧ (IsPreconnected W → ∀ w ∈ W, ∀ w' ∈ W,
      {z | IsImage L w z}.ncard = {z | IsImage L w' z}.ncard) := by
  have h : ∀ w ∈ W, _ := fun w hw => pointMag_continuousAt L hm hL w fun z hz h =>
    hW w hw z hz ((shear_eq_one_iff L z hz.1).mpr h)
  refine ⟨fun w hw => (h w hw).1.continuousWithinAt, fun hc w hw w' hw' => ?_⟩
  refine hc.constant (f := fun w => {z | IsImage L w z}.ncard) (fun x hx => ?_) hw hw'
  have h2 : ContinuousAt (fun w => {z | IsImage L w z}.ncard) x := by
    refine ContinuousAt.congr (f := fun _ => {z | IsImage L x z}.ncard) continuousAt_const ?_
    filter_upwards [(h x hx).2] with y hy using hy.symm
  exact h2.continuousWithinAt

/-- A position of the source at which the five roots returned for a binary are distinct and every one of them either
satisfies the lens equation or misses it by more than the tolerance of the mask. -/
def Regular2 (roots : Option (List ℂ) → List ℂ → List ℂ) (u : UserParams) (w : ℂ) : Prop :=
  w - xCM u ≠ (midParams2 u).a ∧ w - xCM u ≠ -(midParams2 u).a ∧
  (roots none (polyCoeffsBinary (w - xCM u) (midParams2 u).a (midParams2 u).e1)).Nodup ∧
  ∀ r ∈ roots none (polyCoeffsBinary (w - xCM u) (midParams2 u).a (midParams2 u).e1),
    lensEq2 (midParams2 u) r = w - xCM u ∨ 1e-6 < ‖lensEq2 (midParams2 u) r - (w - xCM u)‖

/-- The same for the ten roots of a triple. -/
def Regular3 (roots : Option (List ℂ) → List ℂ → List ℂ) (u : UserParams) (w : ℂ) : Prop :=
  let p := midParams3 u
  let S := shiftCM p.a (r3Complex p) p.e1 p.e2
  w - xCM u ≠ p.a ∧ w - xCM u ≠ -p.a ∧ w - xCM u ≠ r3Complex p ∧
  (roots none (polyCoeffsTripleCM (w - xCM u) p.a (r3Complex p) p.e1 p.e2)).Nodup ∧
  ∀ r ∈ roots none (polyCoeffsTripleCM (w - xCM u) p.a (r3Complex p) p.e1 p.e2),
    lensEq3 p (r + S) = w - xCM u ∨ 1e-3 < ‖lensEq3 p (r + S) - (w - xCM u)‖

theorem continuous_coeffsBinary (a e1 : ℝ) (k : ℕ) : Continuous fun y => (polyCoeffsBinary y a e1).getD k 0 := by
  rcases k with _ | _ | _ | _ | _ | _ | k <;> simp only [polyCoeffsBinary, List.getD_cons_zero, List.getD_cons_succ,
    List.getD_nil] <;> fun_prop

theorem continuous_coeffsTriple (a : ℝ) (r : ℂ) (e1 e2 : ℝ) (k : ℕ) :
    Continuous fun y => (polyCoeffsTripleCM y a r e1 e2).getD k 0 := by
  rcases k with _ | _ | _ | _ | _ | _ | _ | _ | _ | _ | _ | k <;> simp only [polyCoeffsTripleCM, List.getD_cons_zero,
    List.getD_cons_succ, List.getD_nil] <;> fun_prop

theorem ncard_images (L : Lenses) (w : ℂ) (V : List ℂ) (hnd : V.Nodup) (h : ∀ z, z ∈ V ↔ IsImage L w z) :
    {z | IsImage L w z}.ncard = V.length := by
  classical
  have : {z | IsImage L w z} = (V.toFinset : Set ℂ) := by ext z; simp [h]
  rw [this, Set.ncard_coe_finset, List.toFinset_card_of_nodup hnd]

/-- **C112, binaries**: with a root finder that returns all roots, the regular positions form an open set on which
`mag_point_source` is continuous, and on every connected set of regular positions (between the caustics, and away from the
sliver in which a spurious root comes within the tolerance) the number of positions flagged as images is the same. -/
theorem C112_binary (roots : Option (List ℂ) → List ℂ → List ℂ) (u : UserParams) (hs : u.s ≠ 0) (hq : 0 < u.q)
    (hroots : ∀ cs : List ℂ, cs.headD 0 ≠ 0 → IsRootList cs (roots none cs)) :
    IsOpen {w | Regular2 roots u w} ∧
    (∃ f : ℂ → ℝ, (∀ w, Regular2 roots u w → magPointSource roots 2 u w = .ok (f w)) ∧
      ContinuousOn f {w | Regular2 roots u w}) ∧
    ∀ W : Set ℂ, (∀ w ∈ W, Regular2 roots u w) → IsPreconnected W → ∃ N : ℕ, ∀ w ∈ W, ∃ zs,
      imagesPointSource roots 2 none (midParams2 u) (w - xCM u) = .ok zs ∧ (flagged zs).length = N := by
  set p := midParams2 u with hp
  have ha : p.a ≠ 0 := by simp [hp, midParams2, hs]
  obtain ⟨⟨he, he'⟩, -, -⟩ := mass2_pos u hq
  rw [← hp] at he he'
  have hq1 : 1 + u.q ≠ 0 := by positivity
  have hac : (p.a : ℂ) ≠ 0 := by exact_mod_cast ha
  have hnd : ((midBinary p).map Prod.snd).Nodup := by
    simp only [midBinary, List.map_cons, List.map_nil, List.nodup_cons, List.mem_singleton, List.not_mem_nil,
      not_false_eq_true, List.nodup_nil, and_true]
    exact fun h => hac (by linear_combination h / 2)
  have hm0 : ∀ l ∈ midBinary p, l.1 ≠ 0 := by
    intro l hl
    simp only [midBinary, List.mem_cons, List.not_mem_nil, or_false] at hl
    rcases hl with rfl | rfl
    · exact he.ne'
    · simp only; linarith
  have hdeg : ∀ v : ℂ, v ≠ p.a → v ≠ -p.a → conj v ^ 2 ≠ (p.a : ℂ) ^ 2 := by
    intro v h1 h2 h
    have h3 : v ^ 2 = (p.a : ℂ) ^ 2 := by
      have := congrArg (starRingEnd ℂ) h
      simpa using this
    rcases sq_eq_sq_iff_eq_or_eq_neg.mp h3 with h4 | h4
    · exact h1 h4
    · exact h2 h4
  have hlead : ∀ v : ℂ, v ≠ p.a → v ≠ -p.a → (polyCoeffsBinary v p.a p.e1).headD 0 ≠ 0 := by
    intro v h1 h2
    rw [binary_headD]; exact sub_ne_zero.mpr (hdeg v h1 h2)
  have hcount : ∀ w, Regular2 roots u w →
      (∀ z, z ∈ flagged (images2 roots none p (w - xCM u)) ↔ IsImage (midBinary p) (w - xCM u) z) ∧
      (flagged (images2 roots none p (w - xCM u))).Nodup ∧
      ∀ z, IsImage (midBinary p) (w - xCM u) z → jacDet (lensMap (midBinary p)) z ≠ 0 := by
    rintro w ⟨h1, h2, h3, h4⟩
    obtain ⟨c1, c2, c3, -⟩ := binary_count roots none p (w - xCM u) ha he he' (hroots _ (hlead _ h1 h2)) h1 h2 h3
      (fun r hr hlt => (h4 r hr).resolve_right (not_lt.mpr hlt.le)) _ rfl
    exact ⟨c1, c2, fun z hz => (c3 z ((c1 z).mpr hz)).1⟩
  have hshift : Continuous fun w : ℂ => w - xCM u := continuous_id.sub continuous_const
  refine ⟨?_, ?_, ?_⟩
  · rw [isOpen_iff_mem_nhds]
    rintro w ⟨h1, h2, h3, h4⟩
    have hr := hroots _ (hlead _ h1 h2)
    obtain ⟨b1, -, -⟩ := binary_roots p (w - xCM u) _ ha he he' hr (hdeg _ h1 h2) h3
    have ev1 : ∀ᶠ v : ℂ in 𝓝 (w - (xCM u : ℂ)), v ≠ p.a ∧ v ≠ -p.a :=
      (isOpen_ne.eventually_mem h1).and (isOpen_ne.eventually_mem h2)
    have key := regular_nhds (midBinary p) 5 (by norm_num) (fun v => polyCoeffsBinary v p.a p.e1)
      (fun v => roots none (polyCoeffsBinary v p.a p.e1)) (w - xCM u) 0 1e-6
      (fun y => (C04_binary_leading _ _ _).1) (fun k => (continuous_coeffsBinary p.a p.e1 k).continuousAt)
      (hlead _ h1 h2) (by filter_upwards [ev1] with v hv using hroots _ (hlead v hv.1 hv.2)) h3
      (by
        filter_upwards [ev1] with v hv z hz
        rw [sub_zero]
        exact images_mem_roots_binary p v _ (hroots _ (hlead v hv.1 hv.2)) (hdeg v hv.1 hv.2) z hz)
      (by
        intro r hr l hl
        obtain ⟨d1, -⟩ := b1 r hr
        rw [add_zero]
        simp only [midBinary, List.mem_cons, List.not_mem_nil, or_false] at hl
        rcases hl with rfl | rfl
        · exact d1.hz 0
        · exact d1.hz 1)
      (fun z hz h => (hcount w ⟨h1, h2, h3, h4⟩).2.2 z hz ((shear_eq_one_iff _ z hz.1).mpr h))
      (fun r hr => by rw [add_zero, ← lensEq2_eq]; exact h4 r hr)
    have := (hshift.tendsto w).eventually (ev1.and key)
    filter_upwards [this] with y hy
    refine ⟨hy.1.1, hy.1.2, hy.2.1, fun r hr => ?_⟩
    have := hy.2.2 r hr
    rwa [add_zero, ← lensEq2_eq] at this
  · refine ⟨fun w => pointMag (binary u.s u.q) w, ?_, ?_⟩
    · rintro w ⟨h1, h2, h3, h4⟩
      have hr := hroots _ (hlead _ h1 h2)
      obtain ⟨b1, -, -⟩ := binary_roots p (w - xCM u) _ ha he he' hr (hdeg _ h1 h2) h3
      refine C06_binary_mag roots u w hq1 hr (hdeg _ h1 h2) h3 fun r hr hlt => ?_
      obtain ⟨d1, -⟩ := b1 r hr
      exact ⟨(h4 r hr).resolve_right (not_lt.mpr hlt.le), d1.hz 0, d1.hz 1⟩
    · have he : (fun w => pointMag (binary u.s u.q) w) = fun w => pointMag (midBinary p) (w - xCM u) := by
        funext w
        rw [← (C08_binary_frame u hq1).1]
        conv_lhs => rw [show w = (w - (xCM u : ℂ)) + (xCM u : ℂ) by ring]
        exact pointMag_translate _ _ _
      rw [he]
      refine ContinuousOn.comp (g := pointMag (midBinary p)) (f := fun w : ℂ => w - (xCM u : ℂ))
        (t := (fun w : ℂ => w - (xCM u : ℂ)) '' {w | Regular2 roots u w}) ?_ hshift.continuousOn
        (Set.mapsTo_image _ _)
      refine (mag_between (midBinary p) hm0 hnd _ ?_).1
      rintro _ ⟨w, hw, rfl⟩
      exact (hcount w hw).2.2
  · intro W hW hc
    rcases W.eq_empty_or_nonempty with rfl | ⟨w₀, hw₀⟩
    · exact ⟨0, fun w hw => absurd hw (Set.notMem_empty w)⟩
    refine ⟨(flagged (images2 roots none p (w₀ - (xCM u : ℂ)))).length, fun w hw => ⟨images2 roots none p (w - (xCM u : ℂ)), by
      simp [imagesPointSource], ?_⟩⟩
    have := (mag_between (midBinary p) hm0 hnd ((fun w : ℂ => w - (xCM u : ℂ)) '' W) (by
      rintro _ ⟨w, hw, rfl⟩
      exact (hcount w (hW w hw)).2.2)).2 (hc.image _ hshift.continuousOn) _ ⟨w, hw, rfl⟩ _ ⟨w₀, hw₀, rfl⟩
    beta_reduce at this
    rw [ncard_images _ _ _ (hcount w (hW w hw)).2.1 (hcount w (hW w hw)).1,
      ncard_images _ _ _ (hcount w₀ (hW w₀ hw₀)).2.1 (hcount w₀ (hW w₀ hw₀)).1] at this
    exact this

/-- **C112, triples**: the same for three distinct lenses. -/
theorem C112_triple (roots : Option (List ℂ) → List ℂ → List ℂ) (u : UserParams) (hs : u.s ≠ 0) (hq : 0 < u.q)
    (hq3 : 0 < u.q3) (hr1 : r3Complex (midParams3 u) ≠ (midParams3 u).a)
    (hr2 : r3Complex (midParams3 u) ≠ -(midParams3 u).a)
    (hroots : ∀ cs : List ℂ, cs.headD 0 ≠ 0 → IsRootList cs (roots none cs)) :
    IsOpen {w | Regular3 roots u w} ∧
    (∃ f : ℂ → ℝ, (∀ w, Regular3 roots u w → magPointSource roots 3 u w = .ok (f w)) ∧
      ContinuousOn f {w | Regular3 roots u w}) ∧
    ∀ W : Set ℂ, (∀ w ∈ W, Regular3 roots u w) → IsPreconnected W → ∃ N : ℕ, ∀ w ∈ W, ∃ zs,
      imagesPointSource roots 3 none (midParams3 u) (w - xCM u) = .ok zs ∧ (flagged zs).length = N := by
  set p := midParams3 u with hp
  set S := shiftCM p.a (r3Complex p) p.e1 p.e2 with hS
  have ha : p.a ≠ 0 := by simp [hp, midParams3, hs]
  have hsum : 0 < 1 + u.q + u.q3 := by positivity
  have he1 : 0 < p.e1 := by show 0 < u.q / (1 + u.q + u.q3); positivity
  have he2 : 0 < p.e2 := by show 0 < 1 / (1 + u.q + u.q3); positivity
  have he3 : p.e1 + p.e2 < 1 := by
    show u.q / (1 + u.q + u.q3) + 1 / (1 + u.q + u.q3) < 1
    rw [← add_div, div_lt_one hsum]; linarith
  have hq1 : 1 + u.q ≠ 0 := by positivity
  have hac : (p.a : ℂ) ≠ 0 := by exact_mod_cast ha
  have hnd : ((midTriple p).map Prod.snd).Nodup := by
    simp only [midTriple, List.map_cons, List.map_nil, List.nodup_cons, List.mem_cons, List.not_mem_nil, or_false,
      not_false_eq_true, List.nodup_nil, and_true, not_or]
    exact ⟨⟨fun h => hac (by linear_combination h / 2), hr1.symm⟩, hr2.symm⟩
  have hm0 : ∀ l ∈ midTriple p, l.1 ≠ 0 := by
    intro l hl
    simp only [midTriple, List.mem_cons, List.not_mem_nil, or_false] at hl
    rcases hl with rfl | rfl | rfl
    · exact he1.ne'
    · exact he2.ne'
    · simp only; linarith
  have hlead : ∀ v : ℂ, v ≠ p.a → v ≠ -p.a → v ≠ r3Complex p →
      (polyCoeffsTripleCM v p.a (r3Complex p) p.e1 p.e2).headD 0 ≠ 0 := by
    intro v h1 h2 h3
    have hi : ∀ x : ℂ, x ≠ 0 → conj x ≠ 0 := fun x hx => by simpa using hx
    rw [(triple_head _ _ _ _ _).2]
    refine mul_ne_zero (mul_ne_zero (hi _ (sub_ne_zero.mpr h1)) (hi _ ?_)) (hi _ (sub_ne_zero.mpr h3))
    exact fun h => h2 (by linear_combination h)
  have hcount : ∀ w, Regular3 roots u w →
      (∀ z, z ∈ flagged (images3 roots p (w - xCM u)) ↔ IsImage (midTriple p) (w - xCM u) z) ∧
      (flagged (images3 roots p (w - xCM u))).Nodup ∧
      ∀ z, IsImage (midTriple p) (w - xCM u) z → jacDet (lensMap (midTriple p)) z ≠ 0 := by
    rintro w ⟨h1, h2, h3, h4, h5⟩
    obtain ⟨c1, c2, c3, -⟩ := triple_count roots p (w - xCM u) ha hr1 hr2 he1 he2 he3 _ rfl S hS
      (hroots _ (hlead _ h1 h2 h3)) h1 h2 h3 h4
      (fun r hr hlt => (h5 r hr).resolve_right (not_lt.mpr hlt.le)) _ rfl
    exact ⟨c1, c2, fun z hz => (c3 z ((c1 z).mpr hz)).1⟩
  have hshift : Continuous fun w : ℂ => w - xCM u := continuous_id.sub continuous_const
  refine ⟨?_, ?_, ?_⟩
  · rw [isOpen_iff_mem_nhds]
    rintro w ⟨h1, h2, h3, h4, h5⟩
    have hr := hroots _ (hlead _ h1 h2 h3)
    obtain ⟨b1, -, -⟩ := triple_roots p (w - xCM u) _ ha hr1 hr2 he1.ne' he2.ne' (by linarith) hr h1 h2 h3 h4
    have ev1 : ∀ᶠ v : ℂ in 𝓝 (w - (xCM u : ℂ)), v ≠ p.a ∧ v ≠ -p.a ∧ v ≠ r3Complex p :=
      (isOpen_ne.eventually_mem h1).and ((isOpen_ne.eventually_mem h2).and (isOpen_ne.eventually_mem h3))
    have key := regular_nhds (midTriple p) 10 (by norm_num) (fun v => polyCoeffsTripleCM v p.a (r3Complex p) p.e1 p.e2)
      (fun v => roots none (polyCoeffsTripleCM v p.a (r3Complex p) p.e1 p.e2)) (w - xCM u) S 1e-3
      (fun y => (triple_head _ _ _ _ _).1)
      (fun k => (continuous_coeffsTriple p.a (r3Complex p) p.e1 p.e2 k).continuousAt)
      (hlead _ h1 h2 h3) (by filter_upwards [ev1] with v hv using hroots _ (hlead v hv.1 hv.2.1 hv.2.2)) h4
      (by
        filter_upwards [ev1] with v hv z hz
        refine IsRootList.mem_of_eval_zero (hroots _ (hlead v hv.1 hv.2.1 hv.2.2)) (hlead v hv.1 hv.2.1 hv.2.2) ?_
        refine C05_triple_complete p v z (hz.1 (p.e1, (p.a : ℂ)) (by simp [midTriple]))
          (hz.1 (p.e2, -(p.a : ℂ)) (by simp [midTriple]))
          (hz.1 (1 - p.e1 - p.e2, r3Complex p) (by simp [midTriple])) ?_
        rw [lensEq3_eq]; exact hz.2)
      (by
        intro r hr l hl
        obtain ⟨d1, -⟩ := b1 r hr
        simp only [midTriple, List.mem_cons, List.not_mem_nil, or_false] at hl
        rcases hl with rfl | rfl | rfl
        · exact d1.hz 0
        · exact d1.hz 1
        · exact d1.hz 2)
      (fun z hz h => (hcount w ⟨h1, h2, h3, h4, h5⟩).2.2 z hz ((shear_eq_one_iff _ z hz.1).mpr h))
      (fun r hr => by rw [← lensEq3_eq]; exact h5 r hr)
    have := (hshift.tendsto w).eventually (ev1.and key)
    filter_upwards [this] with y hy
    refine ⟨hy.1.1, hy.1.2.1, hy.1.2.2, hy.2.1, fun r hr => ?_⟩
    have := hy.2.2 r hr
    rwa [← lensEq3_eq] at this
  · refine ⟨fun w => pointMag (triple u.s u.q u.q3 u.r3 u.psi) w, ?_, ?_⟩
    · rintro w ⟨h1, h2, h3, h4, h5⟩
      have hr := hroots _ (hlead _ h1 h2 h3)
      obtain ⟨b1, -, -⟩ := triple_roots p (w - xCM u) _ ha hr1 hr2 he1.ne' he2.ne' (by linarith) hr h1 h2 h3 h4
      refine C06_triple_mag roots u w hq1 hsum.ne' _ rfl S hS hr (hlead _ h1 h2 h3) h4 fun r hr hlt => ?_
      obtain ⟨d1, -⟩ := b1 r hr
      exact ⟨(h5 r hr).resolve_right (not_lt.mpr hlt.le), d1.hz 0, d1.hz 1, d1.hz 2⟩
    · have he : (fun w => pointMag (triple u.s u.q u.q3 u.r3 u.psi) w) = fun w => pointMag (midTriple p) (w - xCM u) := by
        funext w
        rw [← (C08_triple_frame u hq1 hsum.ne').1]
        conv_lhs => rw [show w = (w - (xCM u : ℂ)) + (xCM u : ℂ) by ring]
        exact pointMag_translate _ _ _
      rw [he]
      refine ContinuousOn.comp (g := pointMag (midTriple p)) (f := fun w : ℂ => w - (xCM u : ℂ))
        (t := (fun w : ℂ => w - (xCM u : ℂ)) '' {w | Regular3 roots u w}) ?_ hshift.continuousOn
        (Set.mapsTo_image _ _)
      refine (mag_between (midTriple p) hm0 hnd _ ?_).1
      rintro _ ⟨w, hw, rfl⟩
      exact (hcount w hw).2.2
  · intro W hW hc
    rcases W.eq_empty_or_nonempty with rfl | ⟨w₀, hw₀⟩
    · exact ⟨0, fun w hw => absurd hw (Set.notMem_empty w)⟩
    refine ⟨(flagged (images3 roots p (w₀ - (xCM u : ℂ)))).length, fun w hw => ⟨images3 roots p (w - (xCM u : ℂ)), by
      simp [imagesPointSource], ?_⟩⟩
    have := (mag_between (midTriple p) hm0 hnd ((fun w : ℂ => w - (xCM u : ℂ)) '' W) (by
      rintro _ ⟨w, hw, rfl⟩
      exact (hcount w (hW w hw)).2.2)).2 (hc.image _ hshift.continuousOn) _ ⟨w, hw, rfl⟩ _ ⟨w₀, hw₀, rfl⟩
    beta_reduce at this
    rw [ncard_images _ _ _ (hcount w (hW w hw)).2.1 (hcount w (hW w hw)).1,
      ncard_images _ _ _ (hcount w₀ (hW w₀ hw₀)).2.1 (hcount w₀ (hW w₀ hw₀)).1] at this
    exact this

/-- **C112, caustics of a binary**: in every neighbourhood of every caustic point that the sampling returns there are
source positions at which `mag_point_source` exceeds any given bound. -/
theorem C112_binary_caustic (croots : List ℂ → List ℂ) (npts : ℕ) (hn : 2 ≤ npts) (u : UserParams) (hq : 0 < u.q)
    (hs : u.s ≠ 0) (hcroots : ∀ φ : ℝ, IsRootList (polyCoeffsCriticalBinary φ (midParams2 u).a (midParams2 u).e1)
      (croots (polyCoeffsCriticalBinary φ (midParams2 u).a (midParams2 u).e1)))
    (roots : Option (List ℂ) → List ℂ → List ℂ)
    (hroots : ∀ cs : List ℂ, cs.headD 0 ≠ 0 → IsRootList cs (roots none cs)) :
    ∃ rows, criticalAndCaustic croots npts 2 u = .ok rows ∧ ∀ row ∈ rows, ∀ c ∈ row, ∀ M ε : ℝ, 0 < ε →
      ∃ y m, ‖y - c.2‖ < ε ∧ magPointSource roots 2 u y = .ok m ∧ M < m := by
  obtain ⟨rows, h1, h2, -⟩ := C82_binary croots npts hn u hq hs hcroots
  refine ⟨rows, h1, fun row hrow c hc M ε hε => ?_⟩
  obtain ⟨k1, k2, k3⟩ := h2 row hrow c hc
  have hpos := caustic_blowup _ c.1 k1 k2 M ε hε
  have hae := (ae_ne_point (xCM u + (midParams2 u).a)).and (ae_ne_point (xCM u - (midParams2 u).a))
  obtain ⟨y, ⟨hyb, hyM⟩, hy1, hy2⟩ := ((frequently_ae_iff.mpr hpos).and_eventually hae).exists
  have hdeg : conj (y - xCM u) ^ 2 ≠ ((midParams2 u).a : ℂ) ^ 2 := by
    intro h
    have h2 : (y - xCM u) ^ 2 = ((midParams2 u).a : ℂ) ^ 2 := by
      have := congrArg (starRingEnd ℂ) h
      simpa using this
    rcases sq_eq_sq_iff_eq_or_eq_neg.mp h2 with h3 | h3
    · exact hy1 (by linear_combination h3)
    · exact hy2 (by linear_combination h3)
  obtain ⟨m, hm, hle⟩ := C106_binary_partial roots u y (by positivity) (hroots _ (by
    rw [binary_headD]; exact sub_ne_zero.mpr hdeg)) hdeg
  refine ⟨y, m, ?_, hm, hyM.trans_le hle⟩
  rw [k3]; simpa [dist_eq_norm] using hyb

/-- **C112, caustics of a triple**. -/
theorem C112_triple_caustic (croots : List ℂ → List ℂ) (npts : ℕ) (hn : 2 ≤ npts) (u : UserParams) (hq : 0 < u.q)
    (hq3 : 0 < u.q3) (hdist : ((triple u.s u.q u.q3 u.r3 u.psi).map Prod.snd).Nodup)
    (hcroots : ∀ φ : ℝ, IsRootList (polyCoeffsCriticalTriple φ (midParams3 u).a (r3Complex (midParams3 u))
      (midParams3 u).e1 (midParams3 u).e2) (croots (polyCoeffsCriticalTriple φ (midParams3 u).a
        (r3Complex (midParams3 u)) (midParams3 u).e1 (midParams3 u).e2)))
    (roots : Option (List ℂ) → List ℂ → List ℂ)
    (hroots : ∀ cs : List ℂ, cs.headD 0 ≠ 0 → IsRootList cs (roots none cs)) :
    ∃ rows, criticalAndCaustic croots npts 3 u = .ok rows ∧ ∀ row ∈ rows, ∀ c ∈ row, ∀ M ε : ℝ, 0 < ε →
      ∃ y m, ‖y - c.2‖ < ε ∧ magPointSource roots 3 u y = .ok m ∧ M < m := by
  obtain ⟨rows, h1, h2, -⟩ := C82_triple croots npts hn u hq hq3 hdist hcroots
  refine ⟨rows, h1, fun row hrow c hc M ε hε => ?_⟩
  obtain ⟨k1, k2, k3⟩ := h2 row hrow c hc
  have hpos := caustic_blowup _ c.1 k1 k2 M ε hε
  have hae := ((ae_ne_point (xCM u + (midParams3 u).a)).and (ae_ne_point (xCM u - (midParams3 u).a))).and
    (ae_ne_point (xCM u + r3Complex (midParams3 u)))
  obtain ⟨y, ⟨hyb, hyM⟩, ⟨hy1, hy2⟩, hy3⟩ := ((frequently_ae_iff.mpr hpos).and_eventually hae).exists
  have hi : ∀ x : ℂ, x ≠ 0 → conj x ≠ 0 := fun x hx => by simpa using hx
  have hdeg : (polyCoeffsTripleCM (y - xCM u) (midParams3 u).a (r3Complex (midParams3 u))
      (midParams3 u).e1 (midParams3 u).e2).headD 0 ≠ 0 := by
    rw [(triple_head _ _ _ _ _).2]
    refine mul_ne_zero (mul_ne_zero (hi _ ?_) (hi _ ?_)) (hi _ ?_)
    · exact fun h => hy1 (by linear_combination h)
    · exact fun h => hy2 (by linear_combination h)
    · exact fun h => hy3 (by linear_combination h)
  obtain ⟨m, hm, hle⟩ := C106_triple_partial roots u y (by positivity) (by positivity) _ rfl (hroots _ hdeg) hdeg
  refine ⟨y, m, ?_, hm, hyM.trans_le hle⟩
  rw [k3]; simpa [dist_eq_norm] using hyb

/-- The hypotheses of C112 are met by the equal-mass binary: the centre is regular, so it has a neighbourhood in which
every source has five flagged images and the magnification is continuous. -/
example : ∃ roots : Option (List ℂ) → List ℂ → List ℂ, ∃ ε > 0, (∃ f : ℂ → ℝ,
      (∀ w ∈ Metric.ball (0 : ℂ) ε, magPointSource roots 2 exU w = .ok (f w)) ∧ ContinuousOn f (Metric.ball 0 ε)) ∧
    ∀ w ∈ Metric.ball (0 : ℂ) ε, ∃ zs, imagesPointSource roots 2 none (midParams2 exU) (w - xCM exU) = .ok zs ∧
      (flagged zs).length = 5 := by
  obtain ⟨roots, hroots⟩ := exists_exact_roots
  obtain ⟨h1, ⟨f, h2, h3⟩, h4⟩ := C112_binary roots exU (by norm_num [exU]) (by norm_num [exU]) fun cs hcs => hroots none cs hcs
  have hx : (0 : ℂ) - (xCM exU : ℂ) = 0 := by rw [exU_x]; simp
  set cs := polyCoeffsBinary 0 (midParams2 exU).a (midParams2 exU).e1 with hcs
  have hlead : cs.headD 0 ≠ 0 := by rw [hcs, binary_headD, exU_a]; norm_num
  have hperm : (roots none cs).Perm exRoots := by
    refine perm_of_prod_eq fun x => ?_
    have e := hroots none cs hlead x
    rw [exRoots_isRootList x] at e
    exact (mul_left_cancel₀ hlead e).symm
  have hreg : Regular2 roots exU 0 := by
    unfold Regular2
    rw [hx, ← hcs]
    refine ⟨?_, ?_, hperm.nodup_iff.mpr exRoots_nodup, fun r hr => Or.inl (exRoots_images r (hperm.mem_iff.mp hr)).1⟩
    · rw [exU_a]; norm_num
    · rw [exU_a]; norm_num
  obtain ⟨ε, hε, hball⟩ := Metric.isOpen_iff.mp h1 0 hreg
  refine ⟨roots, ε, hε, ⟨f, fun w hw => h2 w (hball hw), h3.mono hball⟩, ?_⟩
  obtain ⟨N, hN⟩ := h4 (Metric.ball 0 ε) (fun w hw => hball hw) (convex_ball 0 ε).isPreconnected
  obtain ⟨zs, k1, k2⟩ := hN 0 (Metric.mem_ball_self hε)
  have h5 : (flagged zs).length = 5 := by
    have hz : zs = images2 roots none (midParams2 exU) 0 := by
      rw [hx] at k1
      simpa [imagesPointSource] using k1.symm
    rw [hz, images2, flagged_withMask, List.filter_eq_self.mpr]
    · rw [← hcs, hperm.length_eq]; rfl
    · intro z hz
      rw [(exRoots_images z (hperm.mem_iff.mp hz)).1]; simp
  intro w hw
  obtain ⟨zs', m1, m2⟩ := hN w hw
  exact ⟨zs', m1, by omega⟩

/-- Near the sampled caustics of the equal-mass binary and of the equilateral triple the magnification is unbounded. -/
example : ∃ (croots : List ℂ → List ℂ) (roots : Option (List ℂ) → List ℂ → List ℂ),
    (∃ rows, criticalAndCaustic croots 200 2 exU = .ok rows ∧ ∀ row ∈ rows, ∀ c ∈ row, ∀ M ε : ℝ, 0 < ε →
      ∃ y m, ‖y - c.2‖ < ε ∧ magPointSource roots 2 exU y = .ok m ∧ M < m) ∧
    ∃ rows, criticalAndCaustic croots 200 3 exT = .ok rows ∧ ∀ row ∈ rows, ∀ c ∈ row, ∀ M ε : ℝ, 0 < ε →
      ∃ y m, ‖y - c.2‖ < ε ∧ magPointSource roots 3 exT y = .ok m ∧ M < m := by
  obtain ⟨croots, hc⟩ := exists_finder
  obtain ⟨roots, hroots⟩ := exists_exact_roots
  exact ⟨croots, roots,
    C112_binary_caustic croots 200 (by norm_num) exU (by norm_num [exU]) (by norm_num [exU])
      (fun φ => hc _ (exp_ne_zero _)) roots (fun cs h => hroots none cs h),
    C112_triple_caustic croots 200 (by norm_num) exT (by norm_num [exT]) (by norm_num [exT]) exT_distinct
      (fun φ => hc _ (exp_ne_zero _)) roots (fun cs h => hroots none cs h)⟩

/-- The centroid of the equilateral triple is regular for every root finder that returns all roots. -/
example (roots : Option (List ℂ) → List ℂ → List ℂ) (hroots : ∀ cs : List ℂ, cs.headD 0 ≠ 0 → IsRootList cs (roots none cs)) :
    Regular3 roots exT exTw := by
  obtain ⟨d1, d2, d3, d4, d5⟩ := exT_points
  have hx : exTw - (xCM exT : ℂ) = exTw := by rw [exT_x]; simp
  have hlead : exTc.headD 0 ≠ 0 := by
    have hi : ∀ x : ℂ, x ≠ 0 → conj x ≠ 0 := fun x hx => by simpa using hx
    rw [exTc, (triple_head _ _ _ _ _).2]
    refine mul_ne_zero (mul_ne_zero (hi _ (sub_ne_zero.mpr d3)) (hi _ ?_)) (hi _ (sub_ne_zero.mpr d5))
    exact fun h => d4 (by linear_combination h)
  have hperm : (roots none exTc).Perm exRootsT := by
    refine perm_of_prod_eq fun x => ?_
    have e := hroots exTc hlead x
    rw [exRootsT_isRootList x] at e
    exact (mul_left_cancel₀ hlead e).symm
  unfold Regular3
  simp only [hx, exT_S]
  exact ⟨d3, d4, d5, hperm.nodup_iff.mpr exRootsT_nodup, fun r hr => Or.inl (exRootsT_images r (hperm.mem_iff.mp hr)).1⟩

end Microjax.Props
