import Verif.Props.RayShooting
import Verif.Lemmas.DiffValue
import Verif.Spec.SoftDisc

/-! # C120: the value of `mag_uniform` and `mag_limb_dark` under differentiation -/

noncomputable section

namespace Microjax.Props

open Complex ComplexConjugate PointSource ExtendedSource Boundary Spec MeasureTheory Filter Topology Set Differentiated

/-- The values of a region whose limits carry tangents. -/
def regionV (R : (Dual × Dual) × (Dual × Dual)) : (ℝ × ℝ) × (ℝ × ℝ) := ((R.1.1.v, R.1.2.v), (R.2.1.v, R.2.2.v))

theorem softIn_eq (d rho : ℝ) (hrho : rho ≠ 0) : softIn d rho = softDisc (d / rho) := by
  simp only [softIn, softDisc, Real.sigmoid_def, one_div]
  congr 3
  field_simp
  ring

theorem softIn_mem (d rho : ℝ) : 0 < softIn d rho ∧ softIn d rho < 1 := ⟨Real.sigmoid_pos _, Real.sigmoid_lt_one _⟩

theorem softDisc_mem (x : ℝ) : 0 < softDisc x ∧ softDisc x ≤ 1 := by
  have h := Real.exp_pos (100 * (x - 1))
  refine ⟨by unfold softDisc; positivity, ?_⟩
  unfold softDisc
  rw [div_le_one (by positivity)]
  linarith

theorem continuous_softDisc : Continuous softDisc := by
  unfold softDisc
  refine continuous_const.div (by fun_prop) fun x => ?_
  have := Real.exp_pos (100 * (x - 1))
  positivity

/-- The soft disc differs from the sharp one by at most `exp (-100 |x - 1|)`. -/
theorem softDisc_sharp (x : ℝ) : |softDisc x - if x < 1 then 1 else 0| ≤ Real.exp (-(100 * |x - 1|)) := by
  have h := Real.exp_pos (100 * (x - 1))
  unfold softDisc
  split_ifs with hx
  · rw [abs_of_neg (by linarith : x - 1 < 0), show -(100 * -(x - 1)) = 100 * (x - 1) by ring]
    rw [abs_le]
    constructor
    · rw [le_sub_iff_add_le, le_div_iff₀ (by positivity)]
      nlinarith
    · rw [sub_le_iff_le_add, div_le_iff₀ (by positivity)]
      nlinarith
  · rw [abs_of_nonneg (by linarith : 0 ≤ x - 1), Real.exp_neg, sub_zero, abs_of_nonneg (by positivity), ← one_div]
    exact one_div_le_one_div_of_le h (by linarith)

theorem computeForRangeD_tendsto (L : Lenses) (w : ℂ) (rho a b α β : Dual) (hrho : rho.v ≠ 0) (hab : a.v < b.v)
    (hαβ : α.v < β.v) (dist : Dual → Dual → Dual)
    (hdist : ∀ r θ, (dist r θ).v = ‖lensMap L (r.v * exp (I * θ.v)) - w‖) :
    Tendsto (fun n : ℕ × ℕ => (computeForRangeD dist rho n.1 n.2 ((a, b), (α, β))).v) (atTop ×ˢ atTop)
      (𝓝 (∫ r in a.v..b.v, ∫ θ in α.v..β.v, r * softDisc (‖lensMap L (r * exp (I * θ)) - w‖ / rho.v))) := by
  choose! est hest using fun (n : ℕ × ℕ) (h : 2 ≤ n.1 ∧ 2 ≤ n.2) =>
    computeForRangeD_v dist (fun r θ => ‖lensMap L (r * exp (I * θ)) - w‖) hdist rho a b α β n.1 n.2 h.1 h.2
  have h := ray_tendsto L w rho.v a.v b.v α.v β.v hab hαβ 3
    (fun n i j => cellWeight
      (softIn ‖lensMap L (node a.v b.v n.1 i * exp (I * node α.v β.v n.2 (j + 1))) - w‖ rho.v)
      (softIn ‖lensMap L (node a.v b.v n.1 i * exp (I * node α.v β.v n.2 (j + 2))) - w‖ rho.v) (est n i j)) 1
    (fun n i j => by
      have := cellWeight_between _ _ (est n i j) 0 1 (softIn_mem _ rho.v).1.le (softIn_mem _ rho.v).1.le
        (softIn_mem ‖lensMap L (node a.v b.v n.1 i * exp (I * node α.v β.v n.2 (j + 1))) - w‖ rho.v).2.le
        (softIn_mem ‖lensMap L (node a.v b.v n.1 i * exp (I * node α.v β.v n.2 (j + 2))) - w‖ rho.v).2.le
      rw [abs_of_nonneg this.1]; exact this.2)
    (fun r θ => softDisc (‖lensMap L (r * exp (I * θ)) - w‖ / rho.v)) ?_
  · refine h.congr' ?_
    have e1 : ∀ᶠ n : ℕ × ℕ in atTop ×ˢ atTop, 2 ≤ n.1 := tendsto_fst.eventually (eventually_ge_atTop 2)
    have e2 : ∀ᶠ n : ℕ × ℕ in atTop ×ˢ atTop, 2 ≤ n.2 := tendsto_snd.eventually (eventually_ge_atTop 2)
    filter_upwards [e1, e2] with n h1 h2
    exact (hest n ⟨h1, h2⟩).symm
  · intro r θ hg hr hθ
    have hc : Continuous fun d : ℝ => softDisc (d / rho.v) := continuous_softDisc.comp (continuous_id.div_const _)
    have t1 := (hc.tendsto _).comp (dist_tendsto L w rho.v a.v b.v α.v β.v r θ hab hαβ hg hr hθ 1)
    have t2 := (hc.tendsto _).comp (dist_tendsto L w rho.v a.v b.v α.v β.v r θ hab hαβ hg hr hθ 2)
    have tmin := t1.min t2
    have tmax := t1.max t2
    rw [min_self] at tmin
    rw [max_self] at tmax
    simp only [softIn_eq _ _ hrho]
    refine tendsto_of_tendsto_of_tendsto_of_le_of_le tmin tmax (fun n => ?_) (fun n => ?_)
    · exact (cellWeight_between _ _ _ _ _ (min_le_left _ _) (min_le_right _ _) (le_max_left _ _) (le_max_right _ _)).1
    · exact (cellWeight_between _ _ _ _ _ (min_le_left _ _) (min_le_right _ _) (le_max_left _ _) (le_max_right _ _)).2

theorem linspaceD_zero_v (a b : Dual) (ha : a.v = 0) (hb : b.v = 0) (n : ℕ) : ∀ x ∈ linspaceD a b n, x.v = 0 := by
  intro x hx
  simp only [linspaceD, List.mem_map] at hx
  obtain ⟨i, -, rfl⟩ := hx
  simp [dual_add_v, dual_mul_v, dual_div_v, dual_sub_v, ha, hb]

theorem get_mem_or (l : List Dual) (i : ℕ) : Jnp.get (Dual.const 0) l i ∈ l ∨ Jnp.get (Dual.const 0) l i = Dual.const 0 := by
  simp only [Jnp.get, List.getD_eq_getElem?_getD]
  rcases h : l[min i (l.length - 1)]? with _ | x
  · right; simp
  · left; simpa using List.mem_of_getElem? h

theorem computeForRangeD_zero (dist : Dual → Dual → Dual) (rho : Dual) (N M : ℕ) (R : (Dual × Dual) × (Dual × Dual))
    (h : regionV R = ((0, 0), (0, 0))) : (computeForRangeD dist rho N M R).v = 0 := by
  simp only [regionV, Prod.mk.injEq] at h
  have hz := linspaceD_zero_v R.1.1 R.1.2 h.1.1 h.1.2 N
  have hg : ∀ i, (Jnp.get (Dual.const 0) (linspaceD R.1.1 R.1.2 N) i).v = 0 := by
    intro i
    rcases get_mem_or (linspaceD R.1.1 R.1.2 N) i with h | h
    · exact hz _ h
    · rw [h]; rfl
  simp only [computeForRangeD, dual_mul_v, dual_sub_v, hg, sub_self, zero_mul]

/-- **C120** (partial): under differentiation (`jax.value_and_grad`) `mag_uniform` tends to the magnification, within the
regions, of a disc with a soft edge.  It differs from the magnification by no more than the weight of a layer around the limb. -/
theorem C120_uniform_partial (nlenses : ℕ) (u du : UserParams) (w dw : ℂ) (rho : Dual) (hrho : 0 < rho.v) (hq : 1 + u.q ≠ 0)
    (hq3 : nlenses = 3 → 1 + u.q + u.q3 ≠ 0) (regions : List ((Dual × Dual) × (Dual × Dual)))
    (hreg : ∀ R ∈ regions, ProperRegion (regionV R)) :
    Tendsto (fun n : ℕ × ℕ => (magUniformD nlenses u du w dw rho n.1 n.2 regions).v) (atTop ×ˢ atTop)
      (𝓝 (regions.map fun R => softFlux (userLens nlenses u) w rho.v (regionV R)).sum) ∧
    (CoversOnce (regions.map regionV) (imageOfDisc (userLens nlenses u) w rho.v) →
      |(regions.map fun R => softFlux (userLens nlenses u) w rho.v (regionV R)).sum - uniformMag (userLens nlenses u) w rho.v|
        ≤ (regions.map fun R => limbLayer (userLens nlenses u) w rho.v (regionV R)).sum) := by
  set L := userLens nlenses u with hL
  have hball : volume.real (Metric.ball w rho.v) = Real.pi * rho.v ^ 2 := by
    rw [Measure.real, Complex.volume_ball]
    simp [hrho.le]; ring
  have hpos : 0 < Real.pi * rho.v ^ 2 := by have := Real.pi_pos; positivity
  set F : ℂ → ℝ := fun z => softDisc (‖lensMap L z - w‖ / rho.v) with hF
  have hFm : Measurable F :=
    continuous_softDisc.measurable.comp ((((measurable_lensMap L).sub_const w).norm).div_const _)
  have hFb : ∀ z, |F z| ≤ 1 := fun z => by
    rw [abs_of_nonneg (softDisc_mem _).1.le]; exact (softDisc_mem _).2
  constructor
  · have hlim : ∀ R ∈ regions, Tendsto (fun n : ℕ × ℕ =>
        (computeForRangeD (rayDistanceD nlenses u du w dw) rho n.1 n.2 R).v) (atTop ×ˢ atTop)
        (𝓝 (∫ z in sector (regionV R), F z)) := by
      intro R hR
      rcases hreg R hR with ⟨h0, h1, h2, h3⟩ | h0
      · obtain ⟨⟨a, b⟩, α, β⟩ := R
        simp only [regionV] at h0 h1 h2 h3 ⊢
        rw [← sector_integral F hFm 1 hFb a.v b.v α.v β.v h0 h1.le h2.le h3]
        exact computeForRangeD_tendsto L w rho a b α β hrho.ne' h1 h2 _ fun r θ => by
          rw [rayDistanceD_v, rayDistance_user nlenses u w hq hq3]
      · rw [h0]
        simp only [computeForRangeD_zero _ _ _ _ R h0, sector_zero, Measure.restrict_empty, integral_zero_measure]
        exact tendsto_const_nhds
    have hsum := (list_sum_tendsto _ regions _ _ hlim).div_const (Real.pi * rho.v ^ 2)
    have hval : (regions.map fun R => softFlux L w rho.v (regionV R)).sum =
        (regions.map fun R => ∫ z in sector (regionV R), F z).sum / (Real.pi * rho.v ^ 2) := by
      simp only [softFlux, hball, div_eq_mul_inv]
      rw [← List.sum_map_mul_right]
      simp only [hF, div_eq_mul_inv]
    rw [hval]
    refine hsum.congr fun n => ?_
    simp only [magUniformD, dual_div_v, foldl_add_v, dual_mul_v, Dual.const, zero_add]
    rw [div_div, sq, mul_comm Real.pi]
  · intro hcov
    set G : ℂ → ℝ := fun z => if ‖lensMap L z - w‖ < rho.v then (1 : ℝ) else 0 with hG
    have hGm : Measurable G :=
      Measurable.ite (measurableSet_lt (((measurable_lensMap L).sub_const w).norm) measurable_const)
        measurable_const measurable_const
    have hGb : ∀ z, |G z| ≤ 1 := by
      intro z; simp only [hG]; split_ifs <;> simp
    set E : ℂ → ℝ := fun z => Real.exp (-(100 * |‖lensMap L z - w‖ / rho.v - 1|)) with hE
    have hEm : Measurable E := by
      have h1 : Measurable fun z => ‖lensMap L z - w‖ := ((measurable_lensMap L).sub_const w).norm
      have hc : Continuous fun x : ℝ => Real.exp (-(100 * |x / rho.v - 1|)) := by fun_prop
      exact hc.measurable.comp h1
    have hEb : ∀ z, |E z| ≤ 1 := fun z => by
      rw [abs_of_pos (Real.exp_pos _)]
      apply Real.exp_le_one_iff.mpr
      have := abs_nonneg (‖lensMap L z - w‖ / rho.v - 1)
      linarith
    have hreg' : ∀ R ∈ regions.map regionV, ProperRegion R := by
      intro R hR
      obtain ⟨R', hR', rfl⟩ := List.mem_map.mp hR
      exact hreg R' hR'
    have hDm := measurableSet_imageOfDisc L w rho.v
    have hval : ((regions.map regionV).map fun R => ∫ z in sector R, G z).sum = volume.real (imageOfDisc L w rho.v) := by
      rw [regions_integral_eq G hGm 1 hGb (imageOfDisc L w rho.v) ?_ _ hreg' hcov]
      · have : G =ᵐ[volume] (imageOfDisc L w rho.v).indicator fun _ => (1 : ℝ) := by
          filter_upwards [lenses_null L] with z hz
          simp only [hG]
          by_cases h : ‖lensMap L z - w‖ < rho.v
          · rw [if_pos h, indicator_of_mem (show z ∈ imageOfDisc L w rho.v from ⟨hz, h⟩)]
          · rw [if_neg h, indicator_of_notMem fun h' : z ∈ imageOfDisc L w rho.v => h h'.2]
        rw [integral_congr_ae this, integral_indicator hDm]
        simp
      · filter_upwards [lenses_null L] with z hz hzD
        simp only [hG]
        rw [if_neg fun h => hzD ⟨hz, h⟩]
    have hmag : uniformMag L w rho.v = ((regions.map fun R => (∫ z in sector (regionV R), G z) / (Real.pi * rho.v ^ 2))).sum := by
      rw [uniformMag, hball, ← hval, List.map_map]
      simp only [div_eq_mul_inv, Function.comp_def]
      rw [← List.sum_map_mul_right]
    have hterm : ∀ R ∈ regions, |softFlux L w rho.v (regionV R) - (∫ z in sector (regionV R), G z) / (Real.pi * rho.v ^ 2)| ≤
        limbLayer L w rho.v (regionV R) := by
      intro R hR
      have hint : ∀ (H : ℂ → ℝ), Measurable H → (∀ z, |H z| ≤ 1) → IntegrableOn H (sector (regionV R)) := fun H hm hb =>
        Measure.integrableOn_of_bounded (M := 1) (volume_sector_ne_top _ (hreg R hR)) hm.aestronglyMeasurable
          (Eventually.of_forall fun z => hb z)
      simp only [softFlux, limbLayer, hball]
      rw [← sub_div, abs_div, abs_of_pos hpos]
      gcongr
      rw [← integral_sub (hint F hFm hFb) (hint G hGm hGb)]
      refine (abs_integral_le_integral_abs).trans ?_
      refine integral_mono ((hint F hFm hFb).sub (hint G hGm hGb)).abs (hint E hEm hEb) fun z => ?_
      have h := softDisc_sharp (‖lensMap L z - w‖ / rho.v)
      simp only [div_lt_one hrho] at h
      exact h
    rw [hmag]
    clear hmag hval hcov hreg hreg'
    induction regions with
    | nil => simp
    | cons R l ih =>
      simp only [List.map_cons, List.sum_cons]
      have h1 := hterm R (by simp)
      have h2 := ih fun R hR => hterm R (by simp [hR])
      rw [abs_le] at h1 h2 ⊢
      constructor <;> linarith [h1.1, h1.2, h2.1, h2.2]

/-- The annulus as a region without tangents. -/
def annulusD (B : ℝ) : (Dual × Dual) × (Dual × Dual) :=
  ((Dual.const 0, Dual.const B), (Dual.const 0, Dual.const (2 * Real.pi)))

theorem sector_mono (B B' : ℝ) (h : B ≤ B') : sector ((0, B), (0, 2 * Real.pi)) ⊆ sector ((0, B'), (0, 2 * Real.pi)) := by
  rintro z ⟨r, θ, h1, h2, h3, h4, rfl⟩
  exact ⟨r, θ, h1, h2.trans_le h, h3, h4, rfl⟩

/-- The soft disc is seen everywhere: a larger annulus has more flux. -/
theorem softFlux_strict (L : Lenses) (w : ℂ) (rho B B' : ℝ) (hrho : 0 < rho) (hB : 0 < B) (h : B < B') :
    softFlux L w rho ((0, B), (0, 2 * Real.pi)) < softFlux L w rho ((0, B'), (0, 2 * Real.pi)) := by
  have hpi := Real.pi_pos
  have hball : 0 < volume.real (Metric.ball w rho) := by
    rw [Measure.real, Complex.volume_ball]
    simp [hrho.le]; positivity
  have hP : ∀ b : ℝ, 0 < b → ProperRegion ((0, b), (0, 2 * Real.pi)) := fun b hb =>
    Or.inl ⟨le_rfl, hb, by simp only; positivity, by simp⟩
  have hFm : Measurable fun z : ℂ => softDisc (‖lensMap L z - w‖ / rho) :=
    continuous_softDisc.measurable.comp ((((measurable_lensMap L).sub_const w).norm).div_const _)
  have hint : ∀ b : ℝ, 0 < b → IntegrableOn (fun z : ℂ => softDisc (‖lensMap L z - w‖ / rho))
      (sector ((0, b), (0, 2 * Real.pi))) := fun b hb =>
    Measure.integrableOn_of_bounded (M := 1) (volume_sector_ne_top _ (hP b hb)) hFm.aestronglyMeasurable
      (Eventually.of_forall fun z => by
        rw [Real.norm_eq_abs, abs_of_nonneg (softDisc_mem _).1.le]; exact (softDisc_mem _).2)
  have hm := measurableSet_proper _ (hP B hB)
  have hm' := measurableSet_proper _ (hP B' (hB.trans h))
  have hsub := sector_mono B B' h.le
  unfold softFlux
  gcongr
  have hdiff : 0 < ∫ z in sector ((0, B'), (0, 2 * Real.pi)) \ sector ((0, B), (0, 2 * Real.pi)),
      softDisc (‖lensMap L z - w‖ / rho) := by
    rw [setIntegral_pos_iff_support_of_nonneg_ae (Eventually.of_forall fun z => (softDisc_mem _).1.le)
      ((hint B' (hB.trans h)).mono_set sdiff_subset)]
    have hsupp : Function.support (fun z : ℂ => softDisc (‖lensMap L z - w‖ / rho)) = univ := by
      ext z; simp [(softDisc_mem (‖lensMap L z - w‖ / rho)).1.ne']
    rw [hsupp, univ_inter]
    -- an open set in the difference
    have hopen : IsOpen {z : ℂ | B < ‖z‖ ∧ ‖z‖ < B' ∧ 0 < z.im} :=
      (isOpen_lt continuous_const continuous_norm).inter ((isOpen_lt continuous_norm continuous_const).inter
        (isOpen_lt continuous_const continuous_im))
    have hne : ({z : ℂ | B < ‖z‖ ∧ ‖z‖ < B' ∧ 0 < z.im}).Nonempty := by
      refine ⟨((B + B') / 2 : ℝ) * I, ?_⟩
      have hn : ‖(((B + B') / 2 : ℝ) : ℂ) * I‖ = (B + B') / 2 := by
        rw [norm_mul, norm_I, mul_one, norm_real, Real.norm_of_nonneg (by linarith)]
      simp only [Set.mem_ofPred_eq, hn]
      refine ⟨by linarith, by linarith, ?_⟩
      simp
      linarith
    refine (hopen.measure_pos volume hne).trans_le (measure_mono ?_)
    rintro z ⟨h1, h2, h3⟩
    have harg : 0 < arg z ∧ arg z < Real.pi := by
      constructor
      · rcases (arg_nonneg_iff.mpr h3.le).lt_or_eq with h | h
        · exact h
        · rw [eq_comm, arg_eq_zero_iff] at h; exact absurd h.2 h3.ne'
      · rcases (arg_le_pi z).lt_or_eq with h | h
        · exact h
        · rw [arg_eq_pi_iff] at h; exact absurd h.2 h3.ne'
    refine ⟨⟨‖z‖, arg z, hB.trans h1, h2, harg.1, by simp only; linarith [harg.2], ?_⟩, ?_⟩
    · rw [mul_comm I]; exact (norm_mul_exp_arg_mul_I z).symm
    · rintro ⟨r, θ, g1, g2, -, -, rfl⟩
      rw [norm_mul, mul_comm I, norm_exp_ofReal_mul_I, mul_one, norm_real, Real.norm_of_nonneg g1.le] at h1
      exact absurd (h1.trans g2) (lt_irrefl _)
  rw [setIntegral_sdiff hm (hint B' (hB.trans h)) hsub] at hdiff
  linarith

/-- **C120** (violated): `jax.value_and_grad` does not return the value of `mag_uniform`: for every lens and source there is an
annulus that covers the images once, for which the plain call converges to the magnification and the value under
differentiation to another number. -/
theorem C120_violated (nlenses : ℕ) (u du : UserParams) (w dw : ℂ) (rho : Dual) (hrho : 0 < rho.v) (hq : 1 + u.q ≠ 0)
    (hq3 : nlenses = 3 → 1 + u.q + u.q3 ≠ 0) :
    ∃ B > 0, ∃ A, A ≠ uniformMag (userLens nlenses u) w rho.v ∧
      CoversOnce [((0, B), (0, 2 * Real.pi))] (imageOfDisc (userLens nlenses u) w rho.v) ∧
      Tendsto (fun n : ℕ × ℕ => magUniform nlenses u w rho.v n.1 n.2 [((0, B), (0, 2 * Real.pi))]) (atTop ×ˢ atTop)
        (𝓝 (uniformMag (userLens nlenses u) w rho.v)) ∧
      Tendsto (fun n : ℕ × ℕ => (magUniformD nlenses u du w dw rho n.1 n.2 [annulusD B]).v) (atTop ×ˢ atTop) (𝓝 A) := by
  classical
  have hpi := Real.pi_pos
  obtain ⟨B, hB, -, hc⟩ := annulus_covers (userLens nlenses u) w rho.v
  have hP : ∀ b : ℝ, 0 < b → ProperRegion ((0, b), (0, 2 * Real.pi)) := fun b hb =>
    Or.inl ⟨le_rfl, hb, by simp only; positivity, by simp⟩
  have hc' : CoversOnce [((0, B + 1), (0, 2 * Real.pi))] (imageOfDisc (userLens nlenses u) w rho.v) := by
    filter_upwards [hc] with z hz hzD
    have h1 := hz hzD
    simp only [List.countP_singleton, decide_eq_true_eq] at h1 ⊢
    split_ifs at h1 with h2
    rw [if_pos (sector_mono B (B + 1) (by linarith) h2)]
  have main : ∀ b : ℝ, 0 < b → CoversOnce [((0, b), (0, 2 * Real.pi))] (imageOfDisc (userLens nlenses u) w rho.v) →
      Tendsto (fun n : ℕ × ℕ => magUniform nlenses u w rho.v n.1 n.2 [((0, b), (0, 2 * Real.pi))]) (atTop ×ˢ atTop)
        (𝓝 (uniformMag (userLens nlenses u) w rho.v)) ∧
      Tendsto (fun n : ℕ × ℕ => (magUniformD nlenses u du w dw rho n.1 n.2 [annulusD b]).v) (atTop ×ˢ atTop)
        (𝓝 (softFlux (userLens nlenses u) w rho.v ((0, b), (0, 2 * Real.pi)))) := by
    intro b hb hcov
    refine ⟨C71_uniform_converges nlenses u w rho.v hrho hq hq3 _ (fun R hR => by
      rw [List.mem_singleton.mp hR]; exact hP b hb) hcov, ?_⟩
    have h := (C120_uniform_partial nlenses u du w dw rho hrho hq hq3 [annulusD b] (fun R hR => by
      rw [List.mem_singleton.mp hR]; exact hP b hb)).1
    simpa [annulusD, regionV, Dual.const] using h
  by_cases heq : softFlux (userLens nlenses u) w rho.v ((0, B), (0, 2 * Real.pi)) = uniformMag (userLens nlenses u) w rho.v
  · refine ⟨B + 1, by linarith, _, ?_, hc', (main (B + 1) (by linarith) hc').1, (main (B + 1) (by linarith) hc').2⟩
    rw [← heq]
    exact (softFlux_strict _ w rho.v B (B + 1) hrho hB (by linarith)).ne'
  · exact ⟨B, hB, _, heq, hc, (main B hB hc).1, (main B hB hc).2⟩

theorem softLimb_pos (x u1 : ℝ) (hu : 0 ≤ u1) (hu1 : u1 ≤ 1) : 0 < softLimb x u1 := by
  have hmu : 0 < Real.sqrt (max (1 / 1000) (1 - x ^ 2)) :=
    Real.sqrt_pos.mpr (lt_max_of_lt_left (by norm_num))
  have hp := prof_pos u1 _ hu hu1 hmu
  have hI0 : 0 < 3 / Real.pi / (3 - u1) := div_pos (div_pos (by norm_num) Real.pi_pos) (by linarith)
  simp only [softLimb, isLimb1stJvp]
  exact mul_pos (mul_pos hI0 hp) (Real.sigmoid_pos _)

theorem calcFacB_pos (x dc : ℝ) (hx : 0 < x) : 0 < calcFacB x dc := by
  simp only [calcFacB]
  split_ifs <;> positivity

theorem cellWeightLD_pos (p q s e1 e2 B dc : ℝ) (hp : 0 < p ∧ p < 1) (hq : 0 < q ∧ q < 1) (hs : 0 < s ∧ s < 1) (hB : 0 < B) :
    0 < cellWeightLD p q s e1 e2 B dc := by
  have hz : 0 < zeroTerm := by unfold zeroTerm; positivity
  have f1 := calcFacB_pos (clip (2 - e1) 0 1 + zeroTerm) dc (by linarith [(clip_mem (2 - e1)).1])
  have f2 := calcFacB_pos (clip (e2 - 1) 0 1 + zeroTerm) dc (by linarith [(clip_mem (e2 - 1)).1])
  have h1 : 0 < 1 - p := by linarith [hp.2]
  have h2 : 0 < 1 - s := by linarith [hs.2]
  obtain ⟨hp, -⟩ := hp
  obtain ⟨hq, -⟩ := hq
  obtain ⟨hs, -⟩ := hs
  simp only [cellWeightLD]
  positivity

theorem node_pos_last (a b : ℝ) (ha : 0 ≤ a) (hab : a < b) (N : ℕ) (hN : 2 ≤ N) :
    (∀ i ∈ Finset.range N, 0 ≤ node a b N i) ∧ 0 < node a b N (N - 1) := by
  constructor
  · intro i hi
    exact ha.trans (node_mem a b hab N i (Finset.mem_range.mp hi)).1
  · have hN' : (2 : ℝ) ≤ N := by exact_mod_cast hN
    have h : node a b N (N - 1) = b := by
      simp only [node, spacing]
      rw [Nat.cast_sub (by omega)]
      have : (N : ℝ) - 1 ≠ 0 := by linarith
      push_cast
      field_simp
      ring
    rw [h]; linarith

theorem double_sum_pos (a b α β : ℝ) (ha : 0 ≤ a) (hab : a < b) (hαβ : α < β) (N M k : ℕ) (hN : 2 ≤ N) (hM : 2 ≤ M) (hk : k < M)
    (W : ℕ → ℕ → ℝ) (hW : ∀ i j, 0 < W i j) :
    0 < spacing a b N * ∑ i ∈ Finset.range N, (spacing α β M * ∑ j ∈ Finset.range (M - k), node a b N i * W i j) := by
  have h1 := spacing_pos a b hab N hN
  have h2 := spacing_pos α β hαβ M hM
  obtain ⟨hn, hl⟩ := node_pos_last a b ha hab N hN
  refine mul_pos h1 (Finset.sum_pos' (fun i hi => ?_) ⟨N - 1, Finset.mem_range.mpr (by omega), ?_⟩)
  · exact mul_nonneg h2.le (Finset.sum_nonneg fun j _ => mul_nonneg (hn i hi) (hW i j).le)
  · refine mul_pos h2 (Finset.sum_pos (fun j _ => mul_pos hl (hW _ j)) ⟨0, Finset.mem_range.mpr (by omega)⟩)

/-- **C120** (violated): a region that no ray of which reaches the source does not contribute to the value of `mag_uniform` and
`mag_limb_dark`; under differentiation it does, at every resolution. -/
theorem C120_empty_violated (nlenses : ℕ) (u du : UserParams) (w dw : ℂ) (rho u1 delta_c a b α β : Dual) (hrho : 0 < rho.v)
    (hu : 0 ≤ u1.v) (hu1 : u1.v ≤ 1) (ha : 0 ≤ a.v) (hab : a.v < b.v) (hαβ : α.v < β.v) (N M : ℕ) (hN : 2 ≤ N) (hM : 5 ≤ M)
    (hmiss : ∀ r θ, a.v ≤ r → r ≤ b.v → α.v ≤ θ → θ ≤ β.v → rho.v ≤ rayDistance nlenses u w r θ) :
    magUniform nlenses u w rho.v N M [regionV ((a, b), (α, β))] = 0 ∧
    0 < (magUniformD nlenses u du w dw rho N M [((a, b), (α, β))]).v ∧
    magLimbDark nlenses u w rho.v u1.v delta_c.v N M [regionV ((a, b), (α, β))] = 0 ∧
    0 < (magLimbDarkD nlenses u du w dw rho u1 delta_c N M [((a, b), (α, β))]).v := by
  have hpi := Real.pi_pos
  have hnode : ∀ i ∈ Finset.range N, ∀ j < M, ¬ rayDistance nlenses u w (node a.v b.v N i) (node α.v β.v M j) < rho.v := by
    intro i hi j hj
    have h1 := node_mem a.v b.v hab N i (Finset.mem_range.mp hi)
    have h2 := node_mem α.v β.v hαβ M j hj
    exact not_lt.mpr (hmiss _ _ h1.1 h1.2 h2.1 h2.2)
  refine ⟨?_, ?_, ?_, ?_⟩
  · obtain ⟨est, he⟩ := computeForRange_eq (rayDistance nlenses u w) rho.v a.v b.v α.v β.v N M hN (by omega)
    simp only [magUniform, regionV, List.foldl_cons, List.foldl_nil, he]
    rw [Finset.sum_eq_zero, mul_zero, add_zero, zero_div, zero_div]
    intro i hi
    rw [Finset.sum_eq_zero, mul_zero]
    intro j hj
    have hj := Finset.mem_range.mp hj
    have d1 := hnode i hi (j + 1) (by omega)
    have d2 := hnode i hi (j + 2) (by omega)
    rw [cellWeight_same _ _ _ _ (by simp only [d1, d2]), if_neg d1, mul_zero]
  · obtain ⟨est, he⟩ := computeForRangeD_v (rayDistanceD nlenses u du w dw) (rayDistance nlenses u w)
      (rayDistanceD_v nlenses u du w dw) rho a b α β N M hN (by omega)
    simp only [magUniformD, dual_div_v, dual_mul_v, foldl_add_v, List.map_cons, List.map_nil, List.sum_cons, List.sum_nil, he,
      Dual.const, zero_add, add_zero]
    refine div_pos (div_pos (double_sum_pos _ _ _ _ ha hab hαβ N M 3 hN (by omega) (by omega) _ fun i j => ?_)
      (mul_pos hrho hrho)) hpi
    rw [cellWeight_mean]
    have h := clip_mem (est i j - 1)
    have s1 := (softIn_mem (rayDistance nlenses u w (node a.v b.v N i) (node α.v β.v M (j + 1))) rho.v).1
    have s2 := (softIn_mem (rayDistance nlenses u w (node a.v b.v N i) (node α.v β.v M (j + 2))) rho.v).1
    rcases h.1.lt_or_eq with h0 | h0
    · have := mul_pos h0 s1
      have := mul_nonneg (sub_nonneg.mpr h.2) s2.le
      linarith
    · rw [← h0]; linarith
  · obtain ⟨e1, e2, he⟩ := computeForRangeLD_eq (rayDistance nlenses u w) rho.v u1.v delta_c.v a.v b.v α.v β.v N M hN (by omega)
    simp only [magLimbDark, regionV, List.foldl_cons, List.foldl_nil, he]
    rw [Finset.sum_eq_zero, mul_zero, add_zero, zero_div]
    intro i hi
    rw [Finset.sum_eq_zero, mul_zero]
    intro j hj
    have hj := Finset.mem_range.mp hj
    have d1 := hnode i hi (j + 1) (by omega)
    have d2 := hnode i hi (j + 2) (by omega)
    have d3 := hnode i hi (j + 3) (by omega)
    rw [cellWeightLD_same _ _ _ _ _ _ _ _ (by simp only [d1, d2]) (by simp only [d3, d2]), if_neg d2, mul_zero]
  · obtain ⟨e1, e2, he⟩ := computeForRangeLDD_v (rayDistanceD nlenses u du w dw) (rayDistance nlenses u w)
      (rayDistanceD_v nlenses u du w dw) rho u1 delta_c a b α β N M hN (by omega)
    simp only [magLimbDarkD, dual_div_v, dual_mul_v, foldl_add_v, List.map_cons, List.map_nil, List.sum_cons, List.sum_nil, he,
      Dual.const, zero_add, add_zero]
    exact div_pos (double_sum_pos _ _ _ _ ha hab hαβ N M 4 hN (by omega) (by omega) _ fun i j =>
      cellWeightLD_pos _ _ _ _ _ _ _ (softIn_mem _ _) (softIn_mem _ _) (softIn_mem _ _) (softLimb_pos _ _ hu hu1))
      (mul_pos hrho hrho)

/-- A case for `C120_uniform_partial` and `C120_violated`: an equal-mass binary, a source of radius one tenth moving to the right,
an annulus. -/
example : (0 : ℝ) < (⟨1 / 10, 0⟩ : Dual).v ∧ (1 : ℝ) + ({ s := 1, q := 1 } : UserParams).q ≠ 0 ∧
    (∀ R ∈ [annulusD 3], ProperRegion (regionV R)) ∧
    ∃ B > 0, ∃ A, A ≠ uniformMag (userLens 2 { s := 1, q := 1 }) 0 (1 / 10) ∧
      Tendsto (fun n : ℕ × ℕ => (magUniformD 2 { s := 1, q := 1 } { s := 0, q := 0 } 0 1 ⟨1 / 10, 0⟩ n.1 n.2 [annulusD B]).v)
        (atTop ×ˢ atTop) (𝓝 A) := by
  refine ⟨by norm_num, by norm_num, ?_, ?_⟩
  · intro R hR
    rw [List.mem_singleton.mp hR]
    exact Or.inl ⟨le_rfl, by norm_num [annulusD, regionV, Dual.const], by simp [annulusD, regionV, Dual.const, Real.pi_pos],
      by simp [annulusD, regionV, Dual.const]⟩
  · obtain ⟨B, hB, A, hA, -, -, h⟩ := C120_violated 2 { s := 1, q := 1 } { s := 0, q := 0 } 0 1 ⟨1 / 10, 0⟩ (by norm_num)
      (by norm_num) (by norm_num)
    exact ⟨B, hB, A, hA, h⟩

/-- A case for `C120_empty_violated`: an equal-mass binary, a source of radius one at the origin, a sector ten Einstein radii
away. -/
example : ∀ r θ : ℝ, 10 ≤ r → r ≤ 11 → 0 ≤ θ → θ ≤ 1 → 1 ≤ rayDistance 2 { s := 1, q := 1 } 0 r θ := by
  intro r θ hr _ _ _
  have hn : ‖(r : ℂ) * Complex.exp (Complex.I * θ)‖ = r := by
    rw [norm_mul, mul_comm Complex.I, Complex.norm_exp_ofReal_mul_I, mul_one, Complex.norm_real,
      Real.norm_of_nonneg (by linarith)]
  have hz : (((r * Real.cos θ : ℝ) : ℂ) + Complex.I * ((r * Real.sin θ : ℝ) : ℂ)) = r * Complex.exp (Complex.I * θ) := by
    rw [mul_comm Complex.I (θ : ℂ), Complex.exp_mul_I]; push_cast; ring
  simp only [rayDistance, distanceFromSource, hz, lensEqN, if_neg (show ¬ (2 = 3) by decide), lensEq2, midParams2, xCM]
  generalize (r : ℂ) * Complex.exp (Complex.I * θ) = z at hn
  have hlow : ∀ c : ℝ, |c| ≤ 1 / 2 → ‖((1 / 2 : ℝ) : ℂ) / (starRingEnd ℂ z - c)‖ ≤ 1 := by
    intro c hc
    have h1 : ‖starRingEnd ℂ z‖ ≤ ‖starRingEnd ℂ z - c‖ + ‖(c : ℂ)‖ := by
      calc ‖starRingEnd ℂ z‖ = ‖starRingEnd ℂ z - c + c‖ := by rw [sub_add_cancel]
        _ ≤ _ := norm_add_le _ _
    rw [RCLike.norm_conj, Complex.norm_real, Real.norm_eq_abs] at h1
    have h2 : 1 / 2 ≤ ‖starRingEnd ℂ z - c‖ := by linarith
    rw [norm_div, Complex.norm_real, div_le_one (by linarith)]
    rw [Real.norm_of_nonneg (by norm_num)]; exact h2
  have e1 := hlow (1 / 2) (by rw [abs_of_pos (by norm_num)])
  have e2 := hlow (-(1 / 2)) (by rw [abs_neg, abs_of_pos (by norm_num)])
  have : (8 : ℝ) ≤ ‖z - ((1 / 2 : ℝ) : ℂ) / (starRingEnd ℂ z - (1 / 2 : ℝ)) -
      ((1 / 2 : ℝ) : ℂ) / (starRingEnd ℂ z - (-(1 / 2) : ℝ))‖ := by
    have h1 := norm_sub_norm_le (z - ((1 / 2 : ℝ) : ℂ) / (starRingEnd ℂ z - (1 / 2 : ℝ)))
      (((1 / 2 : ℝ) : ℂ) / (starRingEnd ℂ z - (-(1 / 2) : ℝ)))
    have h2 := norm_sub_norm_le z (((1 / 2 : ℝ) : ℂ) / (starRingEnd ℂ z - (1 / 2 : ℝ)))
    linarith
  refine (show (1 : ℝ) ≤ 8 by norm_num).trans (this.trans (le_of_eq ?_))
  congr 1
  push_cast
  norm_num

end Microjax.Props
