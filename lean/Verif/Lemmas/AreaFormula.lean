import Verif.Props.AtLeastOne
import Verif.Lemmas.DualSolutions
import Mathlib.MeasureTheory.Function.Jacobian
import Mathlib.MeasureTheory.Measure.Lebesgue.Complex
import Mathlib.Topology.Algebra.InfiniteSum.ENNReal
import Mathlib.Order.Disjointed
import Mathlib.Algebra.Polynomial.Roots

/-! # The area formula for the lens map

The lens map is not injective.  Away from the critical curves it is locally injective, so that the plane splits into
countably many measurable pieces on which the change of variables applies; the critical curves and the caustics have
area zero.  The flux of the images is the flux of the source weighted with the magnification.
-/

noncomputable section

namespace Microjax.Props

open Complex ComplexConjugate Spec MeasureTheory Filter Set
open scoped Topology ENNReal

/-- Change of variables for a map that is only locally injective. -/
theorem area_formula (f : ℂ → ℂ) (f' : ℂ → ℂ →L[ℝ] ℂ) (U : Set ℂ) (hU : MeasurableSet U)
    (hf' : ∀ z ∈ U, HasFDerivAt f (f' z) z) (hdet : ∀ z ∈ U, (f' z).det ≠ 0)
    (hdm : Measurable fun z => (f' z).det) (hloc : ∀ z ∈ U, ∃ V ∈ 𝓝 z, InjOn f (V ∩ U)) :
    ∃ M : ℂ → ℝ≥0∞, Measurable M ∧
      (∀ y, M y = ∑' z : {z | z ∈ U ∧ f z = y}, ENNReal.ofReal (1 / |(f' z).det|)) ∧
      ∀ g : ℂ → ℝ≥0∞, Measurable g → ∫⁻ z in U, g (f z) = ∫⁻ y, g y * M y := by
  classical
  -- countably many open sets on which `f` is injective
  obtain ⟨V, hVo, hVi, hVU⟩ : ∃ V : ℕ → Set ℂ, (∀ k, IsOpen (V k)) ∧ (∀ k, InjOn f (V k ∩ U)) ∧ U ⊆ ⋃ k, V k := by
    have hloc' : ∀ z, ∃ W : Set ℂ, IsOpen W ∧ (z ∈ U → z ∈ W) ∧ InjOn f (W ∩ U) := by
      intro z
      by_cases hz : z ∈ U
      · obtain ⟨N, hN, hi⟩ := hloc z hz
        exact ⟨interior N, isOpen_interior, fun _ => mem_interior_iff_mem_nhds.mpr hN,
          hi.mono (inter_subset_inter_left _ interior_subset)⟩
      · exact ⟨∅, isOpen_empty, fun h => absurd h hz, by simp⟩
    choose W hWo hWm hWi using hloc'
    obtain ⟨t, -, htc, htU⟩ := TopologicalSpace.countable_cover_nhdsWithin (s := U) (f := W)
      fun z hz => mem_nhdsWithin_of_mem_nhds ((hWo z).mem_nhds (hWm z hz))
    rcases t.eq_empty_or_nonempty with rfl | hne
    · exact ⟨fun _ => ∅, fun _ => isOpen_empty, fun _ => by simp, by simpa using htU⟩
    · obtain ⟨e, rfl⟩ := htc.exists_eq_range hne
      refine ⟨fun k => W (e k), fun k => hWo _, fun k => hWi _, htU.trans ?_⟩
      intro z hz
      simpa using hz
  set A : ℕ → Set ℂ := fun k => disjointed V k ∩ U with hA
  have hAm : ∀ k, MeasurableSet (A k) := fun k => (MeasurableSet.disjointed (fun k => (hVo k).measurableSet) k).inter hU
  have hAd : Pairwise (Function.onFun Disjoint A) := fun i j hij =>
    (disjoint_disjointed V hij).mono inter_subset_left inter_subset_left
  have hAU : ⋃ k, A k = U := by
    rw [hA, ← iUnion_inter, iUnion_disjointed]
    exact inter_eq_right.mpr hVU
  have hAi : ∀ k, InjOn f (A k) := fun k => (hVi k).mono (inter_subset_inter_left _ (disjointed_subset V k))
  have hAf : ∀ k, ∀ z ∈ A k, HasFDerivWithinAt f (f' z) (A k) z := fun k z hz => (hf' z hz.2).hasFDerivWithinAt
  have hgm : Measurable fun z => ENNReal.ofReal (1 / |(f' z).det|) :=
    ENNReal.measurable_ofReal.comp (measurable_const.div (continuous_abs.measurable.comp hdm))
  -- the inverse Jacobian on each piece, as a function of the source
  have hk : ∀ k, ∃ κ : ℂ → ℝ≥0∞, Measurable κ ∧ ∀ z ∈ A k, κ (f z) = ENNReal.ofReal (1 / |(f' z).det|) := by
    intro k
    obtain ⟨κ, h1, h2⟩ := (measurableEmbedding_of_fderivWithin (hAm k) (hAf k) (hAi k)).exists_measurable_extend
      (hgm.comp measurable_subtype_coe) (fun _ => ⟨0⟩)
    exact ⟨κ, h1, fun z hz => congrFun h2 ⟨z, hz⟩⟩
  choose κ hκm hκ using hk
  have him : ∀ k, MeasurableSet (f '' A k) := fun k => measurable_image_of_fderivWithin (hAm k) (hAf k) (hAi k)
  refine ⟨fun y => ∑' k, (f '' A k).indicator (κ k) y, Measurable.tsum fun k => (hκm k).indicator (him k),
    ?_, ?_⟩
  · intro y
    have hset : {z | z ∈ U ∧ f z = y} = ⋃ k, {z | z ∈ A k ∧ f z = y} := by
      ext z
      rw [← hAU]
      simp [mem_iUnion]
    rw [hset, ENNReal.tsum_biUnion (f := fun z => ENNReal.ofReal (1 / |(f' z).det|))
      (fun i _ j _ hij => (hAd hij).mono (fun z hz => hz.1) (fun z hz => hz.1))]
    refine tsum_congr fun k => ?_
    by_cases hy : y ∈ f '' A k
    · obtain ⟨z, hz, rfl⟩ := hy
      rw [indicator_of_mem (mem_image_of_mem f hz), hκ k z hz]
      have : {x | x ∈ A k ∧ f x = f z} = {z} := by
        ext x
        exact ⟨fun h => hAi k h.1 hz h.2, fun h => by rw [mem_singleton_iff.mp h]; exact ⟨hz, rfl⟩⟩
      rw [this, tsum_singleton (f := fun z => ENNReal.ofReal (1 / |(f' z).det|))]
    · rw [indicator_of_notMem hy]
      have : {x | x ∈ A k ∧ f x = y} = ∅ := by
        ext x
        exact ⟨fun h => hy ⟨x, h.1, h.2⟩, fun h => absurd h (notMem_empty x)⟩
      rw [this]; simp
  · intro g hg
    have h1 : ∀ k, ∫⁻ z in A k, g (f z) = ∫⁻ y, (f '' A k).indicator (fun y => g y * κ k y) y := by
      intro k
      rw [lintegral_indicator (him k), lintegral_image_eq_lintegral_abs_det_fderiv_mul volume (hAm k) (hAf k) (hAi k)]
      refine setLIntegral_congr_fun (hAm k) fun z hz => ?_
      have hd := hdet z hz.2
      have hp : 0 < |(f' z).det| := abs_pos.mpr hd
      rw [hκ k z hz, one_div, ENNReal.ofReal_inv_of_pos hp, mul_left_comm,
        ENNReal.mul_inv_cancel (ENNReal.ofReal_pos.mpr hp).ne' ENNReal.ofReal_ne_top, mul_one]
    calc ∫⁻ z in U, g (f z) = ∫⁻ z in ⋃ k, A k, g (f z) := by rw [hAU]
      _ = ∑' k, ∫⁻ z in A k, g (f z) := lintegral_iUnion hAm hAd _
      _ = ∑' k, ∫⁻ y, (f '' A k).indicator (fun y => g y * κ k y) y := tsum_congr h1
      _ = ∫⁻ y, ∑' k, (f '' A k).indicator (fun y => g y * κ k y) y :=
          (lintegral_tsum fun k => ((hg.mul (hκm k)).indicator (him k)).aemeasurable).symm
      _ = _ := by
          refine lintegral_congr fun y => ?_
          rw [← ENNReal.tsum_mul_left]
          refine tsum_congr fun k => ?_
          by_cases hy : y ∈ f '' A k
          · rw [indicator_of_mem hy, indicator_of_mem hy]
          · rw [indicator_of_notMem hy, indicator_of_notMem hy, mul_zero]

/-! ### The lens map is locally injective off the critical curves -/

/-- Divided difference of the deflection. -/
def shear2 (L : Lenses) (z z' : ℂ) : ℂ := (L.map fun l => (l.1 : ℂ) / ((conj z - conj l.2) * (conj z' - conj l.2))).sum

theorem lensMap_sub (L : Lenses) (z z' : ℂ) (hz : ∀ l ∈ L, z ≠ l.2) (hz' : ∀ l ∈ L, z' ≠ l.2) :
    lensMap L z - lensMap L z' = (z - z') + conj (z - z') * shear2 L z z' := by
  induction L with
  | nil => simp [lensMap, shear2]
  | cons l L ih =>
    have h := ih (fun k hk => hz k (List.mem_cons_of_mem _ hk)) (fun k hk => hz' k (List.mem_cons_of_mem _ hk))
    have a : conj z - conj l.2 ≠ 0 := fun hc => hz l List.mem_cons_self ((starRingEnd ℂ).injective (sub_eq_zero.mp hc))
    have b : conj z' - conj l.2 ≠ 0 := fun hc =>
      hz' l List.mem_cons_self ((starRingEnd ℂ).injective (sub_eq_zero.mp hc))
    simp only [lensMap, shear2, List.map_cons, List.sum_cons, map_sub] at h ⊢
    have e : (l.1 : ℂ) / (conj z - conj l.2) - l.1 / (conj z' - conj l.2)
        = -(conj z - conj z') * (l.1 / ((conj z - conj l.2) * (conj z' - conj l.2))) := by
      field_simp
      ring
    linear_combination h - e

theorem continuousAt_shear2 (L : Lenses) (z : ℂ) (hz : ∀ l ∈ L, z ≠ l.2) :
    ContinuousAt (fun q : ℂ × ℂ => shear2 L q.1 q.2) (z, z) := by
  induction L with
  | nil => simp only [shear2, List.map_nil, List.sum_nil]; exact continuousAt_const
  | cons l L ih =>
    have h := ih (fun k hk => hz k (List.mem_cons_of_mem _ hk))
    have a : conj z - conj l.2 ≠ 0 := fun hc => hz l List.mem_cons_self ((starRingEnd ℂ).injective (sub_eq_zero.mp hc))
    simp only [shear2, List.map_cons, List.sum_cons] at h ⊢
    refine ContinuousAt.add (ContinuousAt.div continuousAt_const ?_ (mul_ne_zero a a)) h
    have c1 : Continuous fun q : ℂ × ℂ => conj q.1 - conj l.2 := (continuous_conj.comp continuous_fst).sub continuous_const
    have c2 : Continuous fun q : ℂ × ℂ => conj q.2 - conj l.2 := (continuous_conj.comp continuous_snd).sub continuous_const
    exact (c1.mul c2).continuousAt

theorem isOpen_offLens (L : Lenses) : IsOpen {z : ℂ | ∀ l ∈ L, z ≠ l.2} := by
  have : {z : ℂ | ∀ l ∈ L, z ≠ l.2} = ⋂ l ∈ {l | l ∈ L}, {z | z ≠ l.2} := by ext z; simp
  rw [this]
  exact (List.finite_toSet L).isOpen_biInter fun l _ => isOpen_ne

/-- The points off the lenses and off the critical curves. -/
def regular (L : Lenses) : Set ℂ := {z | (∀ l ∈ L, z ≠ l.2) ∧ ‖shear L z‖ ≠ 1}

theorem regular_locally_injective (L : Lenses) (z : ℂ) (hz : z ∈ regular L) :
    ∃ V ∈ 𝓝 z, InjOn (lensMap L) (V ∩ regular L) := by
  have hs : shear2 L z z = shear L z := by simp [shear2, shear, sq]
  have h1 : ∀ᶠ q : ℂ × ℂ in 𝓝 (z, z), ‖shear2 L q.1 q.2‖ ≠ 1 :=
    ((continuousAt_shear2 L z hz.1).norm).eventually_ne (by simpa [hs] using hz.2)
  rw [nhds_prod_eq] at h1
  obtain ⟨V, hV, hVV⟩ := mem_prod_self_iff.mp h1
  refine ⟨V, hV, fun x hx y hy hxy => ?_⟩
  have h2 : ‖shear2 L x y‖ ≠ 1 := by
    have : (x, y) ∈ {q : ℂ × ℂ | ‖shear2 L q.1 q.2‖ ≠ 1} := hVV (mk_mem_prod hx.1 hy.1)
    exact this
  have h3 := lensMap_sub L x y hx.2.1 hy.2.1
  rw [hxy, sub_self] at h3
  by_contra hne
  apply h2
  have h4 : ‖x - y‖ = ‖x - y‖ * ‖shear2 L x y‖ := by
    have : x - y = -(conj (x - y) * shear2 L x y) := by linear_combination -h3
    conv_lhs => rw [this, norm_neg, norm_mul, Complex.norm_conj]
  have h5 : ‖x - y‖ ≠ 0 := norm_ne_zero_iff.mpr (sub_ne_zero.mpr hne)
  have : ‖x - y‖ * (‖shear2 L x y‖ - 1) = 0 := by linarith
  rcases mul_eq_zero.mp this with h | h
  · exact absurd h h5
  · linarith


/-! ### The critical curves have area zero -/

/-- The shear as a quotient of polynomials. -/
theorem shear_quotient (L : Lenses) : ∃ N P : Polynomial ℂ, ∀ z : ℂ, (∀ l ∈ L, z ≠ l.2) →
    P.eval z ≠ 0 ∧ N.eval z = conj (shear L z) * P.eval z := by
  induction L with
  | nil => exact ⟨0, 1, fun z _ => by simp [shear]⟩
  | cons l L ih =>
    obtain ⟨N, P, h⟩ := ih
    refine ⟨N * (Polynomial.X - Polynomial.C l.2) ^ 2 + Polynomial.C (l.1 : ℂ) * P,
      P * (Polynomial.X - Polynomial.C l.2) ^ 2, fun z hz => ?_⟩
    obtain ⟨h1, h2⟩ := h z fun k hk => hz k (List.mem_cons_of_mem _ hk)
    have a : z - l.2 ≠ 0 := sub_ne_zero.mpr (hz l List.mem_cons_self)
    refine ⟨by simpa using ⟨h1, a⟩, ?_⟩
    simp only [Polynomial.eval_add, Polynomial.eval_mul, Polynomial.eval_pow, Polynomial.eval_sub, Polynomial.eval_X,
      Polynomial.eval_C, shear, List.map_cons, List.sum_cons, map_add, map_div₀, map_pow, map_sub, Complex.conj_conj,
      conj_ofReal]
    rw [h2, shear]
    field_simp
    ring

theorem shear_tendsto (L : Lenses) (x : ℝ) : Tendsto (fun y : ℝ => shear L (x + y * I)) atTop (𝓝 0) := by
  induction L with
  | nil => simp [shear]
  | cons l L ih =>
    simp only [shear, List.map_cons, List.sum_cons] at ih ⊢
    rw [show (0 : ℂ) = 0 + 0 by ring]
    refine Tendsto.add ?_ ih
    rw [tendsto_zero_iff_norm_tendsto_zero]
    simp only [norm_div, norm_pow]
    refine Tendsto.div_atTop tendsto_const_nhds ?_
    refine (tendsto_pow_atTop two_ne_zero).comp ?_
    refine tendsto_atTop_mono (f := fun y : ℝ => y + -l.2.im) (fun y => ?_) (tendsto_atTop_add_const_right _ _ tendsto_id)
    have h := Complex.abs_im_le_norm (conj (x + y * I : ℂ) - conj l.2)
    refine le_trans ?_ h
    simp only [Complex.sub_im, Complex.conj_im, Complex.add_im, Complex.ofReal_im, Complex.mul_im, Complex.I_re,
      Complex.I_im, Complex.ofReal_re]
    refine le_trans (le_abs_self _) (le_of_eq ?_)
    rw [← abs_neg]
    congr 1
    ring

/-- On every vertical line there are finitely many points of the critical curves. -/
theorem critical_line_finite (L : Lenses) (x : ℝ) :
    {y : ℝ | (∀ l ∈ L, (x + y * I : ℂ) ≠ l.2) ∧ ‖shear L (x + y * I)‖ = 1}.Finite := by
  obtain ⟨N, P, h⟩ := shear_quotient L
  set ℓ : Polynomial ℂ := Polynomial.C (x : ℂ) + Polynomial.C I * Polynomial.X with hℓ
  set ℓ' : Polynomial ℂ := Polynomial.C (x : ℂ) - Polynomial.C I * Polynomial.X with hℓ'
  set Q : Polynomial ℂ := N.comp ℓ * (N.map (starRingEnd ℂ)).comp ℓ' - P.comp ℓ * (P.map (starRingEnd ℂ)).comp ℓ' with hQ
  have hev : ∀ (R : Polynomial ℂ) (y : ℝ), (R.map (starRingEnd ℂ)).eval ((x : ℂ) - I * y) = conj (R.eval (x + y * I)) := by
    intro R y
    have : (x : ℂ) - I * y = conj (x + y * I) := by simp; ring
    rw [this, Polynomial.eval_map, Polynomial.eval₂_at_apply]
  have hQe : ∀ y : ℝ, Q.eval (y : ℂ) = ((‖N.eval (x + y * I)‖ ^ 2 - ‖P.eval (x + y * I)‖ ^ 2 : ℝ) : ℂ) := by
    intro y
    have e1 : (x : ℂ) + I * y = x + y * I := by ring
    simp only [hQ, hℓ, hℓ', Polynomial.eval_sub, Polynomial.eval_mul, Polynomial.eval_comp, Polynomial.eval_add,
      Polynomial.eval_C, Polynomial.eval_X, hev, e1]
    rw [Complex.mul_conj, Complex.mul_conj, Complex.normSq_eq_norm_sq, Complex.normSq_eq_norm_sq]
    push_cast
    ring
  have hnorm : ∀ y : ℝ, (∀ l ∈ L, (x + y * I : ℂ) ≠ l.2) →
      ‖N.eval (x + y * I)‖ = ‖shear L (x + y * I)‖ * ‖P.eval (x + y * I)‖ ∧ 0 < ‖P.eval (x + y * I)‖ := by
    intro y hy
    obtain ⟨h1, h2⟩ := h _ hy
    rw [h2, norm_mul, Complex.norm_conj]
    exact ⟨rfl, norm_pos_iff.mpr h1⟩
  have hoff : ∀ᶠ y : ℝ in atTop, ∀ l ∈ L, (x + y * I : ℂ) ≠ l.2 := by
    clear h hnorm
    induction L with
    | nil => simp
    | cons l L ih =>
      filter_upwards [ih, eventually_gt_atTop l.2.im] with y h1 h2 k hk
      rcases List.mem_cons.mp hk with rfl | hk
      · intro e
        have := congrArg Complex.im e
        simp at this
        linarith
      · exact h1 k hk
  have hQ0 : Q ≠ 0 := by
    have h1 : ∀ᶠ y : ℝ in atTop, ‖shear L (x + y * I)‖ < 1 := by
      have := (shear_tendsto L x).norm
      rw [norm_zero] at this
      exact this.eventually_lt_const one_pos
    obtain ⟨y, hy1, hy2⟩ := (hoff.and h1).exists
    intro h0
    have h3 := hQe y
    rw [h0, Polynomial.eval_zero] at h3
    have h4 : ‖N.eval (x + y * I)‖ ^ 2 - ‖P.eval (x + y * I)‖ ^ 2 = 0 := by exact_mod_cast h3.symm
    obtain ⟨e1, e2⟩ := hnorm y hy1
    rw [e1] at h4
    have h5 : ‖shear L (x + y * I)‖ * ‖P.eval (x + y * I)‖ < ‖P.eval (x + y * I)‖ := by
      simpa using mul_lt_mul_of_pos_right hy2 e2
    have h6 := pow_lt_pow_left₀ h5 (by positivity) two_ne_zero
    linarith
  have hfin : ((fun y : ℝ => (y : ℂ)) ⁻¹' {r | Q.IsRoot r}).Finite := by
    refine Set.Finite.preimage (fun a _ b _ hab => by exact_mod_cast hab) ?_
    exact (Polynomial.finite_setOfPred_isRoot hQ0)
  refine hfin.subset ?_
  rintro y ⟨h1, h2⟩
  show Q.eval (y : ℂ) = 0
  rw [hQe, (hnorm y h1).1, h2, one_mul, sub_self]
  simp

theorem critical_null (L : Lenses) : volume {z : ℂ | (∀ l ∈ L, z ≠ l.2) ∧ ‖shear L z‖ = 1} = 0 := by
  set S : Set ℂ := {z : ℂ | (∀ l ∈ L, z ≠ l.2) ∧ ‖shear L z‖ = 1} with hS
  have hSm : MeasurableSet S := (measurableSet_offLens L).inter
    (measurableSet_eq_fun (measurable_shear L).norm measurable_const)
  have h1 := Complex.volume_preserving_equiv_real_prod.symm.measure_preimage hSm.nullMeasurableSet
  rw [← h1, Measure.volume_eq_prod, Measure.measure_prod_null (Complex.measurableEquivRealProd.symm.measurable hSm)]
  refine Eventually.of_forall fun x => ?_
  refine Set.Finite.measure_zero ((critical_line_finite L x).subset ?_) _
  intro y hy
  have e : Complex.measurableEquivRealProd.symm (x, y) = x + y * I := by
    rw [Complex.measurableEquivRealProd_symm_apply]; exact Complex.mk_eq_add_mul_I x y
  have hy' : Complex.measurableEquivRealProd.symm (x, y) ∈ S := hy
  rw [e] at hy'
  exact hy'

/-- The caustics have area zero. -/
theorem caustic_null (L : Lenses) : volume (lensMap L '' {z : ℂ | (∀ l ∈ L, z ≠ l.2) ∧ ‖shear L z‖ = 1}) = 0 :=
  addHaar_image_eq_zero_of_differentiableOn_of_addHaar_eq_zero volume
    (fun z hz => (hasFDerivAt_lensMap L z hz.1).differentiableAt.differentiableWithinAt) (critical_null L)

/-! ### Off the caustics there are finitely many images -/

theorem regular_card_le {n : ℕ} (m : Fin n → ℝ) (c : Fin n → ℂ) (w : ℂ) (S : Finset ℂ)
    (hS : ∀ ζ ∈ S, DualSol m c w ζ) (hd : ∀ ζ ∈ S, dualDet m c w ζ ≠ 0) : S.card ≤ n ^ 2 + 1 := by
  classical
  let F : (S → ℂ) →ₗ[ℂ] (Option (Fin n × Fin n) → ℂ) :=
    { toFun := fun a o => match o with
        | none => combT S (extendZero S a)
        | some p => combX m c w S (extendZero S a) p.1 p.2
      map_add' := by
        intro a b; funext o
        match o with
        | none => exact combT_add S a b
        | some p => exact combX_add m c w S a b p.1 p.2
      map_smul' := by
        intro r a; funext o
        match o with
        | none => exact combT_smul S r a
        | some p => exact combX_smul m c w S r a p.1 p.2 }
  have hinj : Function.Injective F := by
    rw [← LinearMap.ker_eq_bot, LinearMap.ker_eq_bot']
    intro a ha
    have h := comb_eq_zero m c w S hS hd (extendZero S a) (congrFun ha none) (fun i j => congrFun ha (some (i, j)))
    funext ζ
    rw [← extendZero_eq S a ζ]
    exact h ζ ζ.2
  have := LinearMap.finrank_le_finrank_of_injective hinj
  simpa [sq] using this

theorem list_eq_lensList (L : Lenses) :
    L = lensList (fun i : Fin L.length => (L.get i).1) (fun i : Fin L.length => (L.get i).2) := by
  unfold lensList
  exact (List.ofFn_get L).symm

theorem images_finite (L : Lenses) (w : ℂ) (hw : ∀ z, IsImage L w z → ‖shear L z‖ ≠ 1) :
    {z | IsImage L w z}.Finite := by
  by_contra hinf
  obtain ⟨S, hS, hcard⟩ := Set.Infinite.exists_subset_card_eq hinf (L.length ^ 2 + 2)
  have hl := list_eq_lensList L
  set m := fun i : Fin L.length => (L.get i).1 with hm
  set c := fun i : Fin L.length => (L.get i).2 with hc
  have hdual : ∀ z ∈ S, DualSol m c w z ∧ dualConj m c w z = z := by
    intro z hz
    have h1 : IsImage L w z := hS hz
    rw [hl] at h1
    exact (isImage_iff_dual m c w z).mp h1
  have := regular_card_le m c w S (fun z hz => (hdual z hz).1) (by
    intro z hz h0
    rw [dualDet_image m c w z (hdual z hz).2, ← hl] at h0
    have h1 : detFormula L z = 0 := by exact_mod_cast h0
    apply hw z (hS hz)
    have h2 : 1 - ‖shear L z‖ ^ 2 = 0 := h1
    have h3 : ‖shear L z‖ ^ 2 = 1 := by linarith
    exact (pow_eq_one_iff_of_nonneg (norm_nonneg _) two_ne_zero).mp h3)
  omega

/-! ### The flux of the images -/

/-- The flux of the images of a source of any brightness distribution is the flux of the source weighted with the
point-source magnification. -/
theorem flux_images (L : Lenses) : ∃ M : ℂ → ℝ≥0∞, Measurable M ∧
    (∀ᵐ y, M y = ENNReal.ofReal (pointMag L y)) ∧
    ∀ g : ℂ → ℝ≥0∞, Measurable g → ∫⁻ z, g (lensMap L z) = ∫⁻ y, g y * M y := by
  have hreg : MeasurableSet (regular L) := (measurableSet_offLens L).inter
    (measurableSet_eq_fun (measurable_shear L).norm measurable_const).compl
  obtain ⟨M, hM, hMy, hint⟩ := area_formula (lensMap L) (fun z => antiLin (-shear L z)) (regular L) hreg
    (fun z hz => hasFDerivAt_lensMap L z hz.1)
    (fun z hz h0 => hz.2 (by
      rw [antiLin_det, norm_neg] at h0
      exact (pow_eq_one_iff_of_nonneg (norm_nonneg _) two_ne_zero).mp (by linarith)))
    (by
      have : (fun z => (antiLin (-shear L z)).det) = fun z => 1 - ‖shear L z‖ ^ 2 := by
        funext z; rw [antiLin_det, norm_neg]
      rw [this]
      exact measurable_const.sub ((measurable_shear L).norm.pow_const 2))
    (regular_locally_injective L)
  refine ⟨M, hM, ?_, fun g hg => ?_⟩
  · have hc := measure_eq_zero_iff_ae_notMem.mp (caustic_null L)
    filter_upwards [hc] with y hy
    have himg : ∀ z, IsImage L y z → ‖shear L z‖ ≠ 1 := fun z hz h1 => hy ⟨z, ⟨hz.1, h1⟩, hz.2⟩
    have hfin := images_finite L y himg
    have hset : {z | z ∈ regular L ∧ lensMap L z = y} = {z | IsImage L y z} := by
      ext z
      exact ⟨fun h => ⟨h.1.1, h.2⟩, fun h => ⟨⟨h.1, himg z h⟩, h.2⟩⟩
    rw [hMy, hset]
    have hf : ∀ z : {z | IsImage L y z}, ENNReal.ofReal (1 / |(antiLin (-shear L z)).det|)
        = ENNReal.ofReal (1 / |jacDet (lensMap L) z|) := by
      rintro ⟨z, hz⟩
      simp only
      rw [antiLin_det, norm_neg, (jacDet_lensMap L z hz.1).2]; rfl
    rw [tsum_congr hf, pointMag, finsum_mem_eq_finite_toFinset_sum _ hfin,
      ENNReal.ofReal_sum_of_nonneg (fun z _ => by positivity),
      ← Finset.tsum_subtype hfin.toFinset fun z => ENNReal.ofReal (1 / |jacDet (lensMap L) z|)]
    have he : {z | IsImage L y z} = (hfin.toFinset : Set ℂ) := by rw [Set.Finite.coe_toFinset]
    exact tsum_congr_set_coe (fun z => ENNReal.ofReal (1 / |jacDet (lensMap L) z|)) he
  · rw [← hint g hg, ← setLIntegral_univ]
    refine setLIntegral_congr ?_
    have h1 := measure_eq_zero_iff_ae_notMem.mp (critical_null L)
    filter_upwards [h1, lenses_null L] with z h2 h3
    have : z ∈ regular L := ⟨h3, fun h => h2 ⟨h3, h⟩⟩
    exact propext ⟨fun _ => this, fun _ => trivial⟩

end Microjax.Props
