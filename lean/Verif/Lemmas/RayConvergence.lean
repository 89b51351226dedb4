import Verif.Lemmas.QuadSums
import Verif.Lemmas.Sector
import Verif.Lemmas.LimbNull
import Mathlib.MeasureTheory.Measure.Lebesgue.VolumeOfBalls

/-! # Convergence of ray shooting to area integrals as the grid is refined -/

noncomputable section

namespace Microjax.Props

open Complex ComplexConjugate PointSource ExtendedSource Boundary Spec MeasureTheory Filter Topology Set

theorem measurable_lensMap (L : Lenses) : Measurable (lensMap L) := by
  unfold lensMap
  refine measurable_id.sub ?_
  induction L with
  | nil => simp
  | cons l L ih =>
    simp only [List.map_cons, List.sum_cons]
    exact (measurable_const.div ((continuous_conj.measurable).sub measurable_const)).add ih

theorem measurableSet_offLens (L : Lenses) : MeasurableSet {z : ℂ | ∀ l ∈ L, z ≠ l.2} := by
  induction L with
  | nil => simp
  | cons l L ih =>
    have : {z : ℂ | ∀ l' ∈ l :: L, z ≠ l'.2} = {l.2}ᶜ ∩ {z : ℂ | ∀ l' ∈ L, z ≠ l'.2} := by
      ext z; simp
    rw [this]
    exact (measurableSet_singleton _).compl.inter ih

theorem poles_finite (L : Lenses) (θ : ℝ) : {r : ℝ | ∃ l ∈ L, (r : ℂ) * exp (I * θ) = l.2}.Finite := by
  induction L with
  | nil => simp
  | cons l L ih =>
    have : {r : ℝ | ∃ l' ∈ l :: L, (r : ℂ) * exp (I * θ) = l'.2} =
        {r : ℝ | (r : ℂ) * exp (I * θ) = l.2} ∪ {r : ℝ | ∃ l' ∈ L, (r : ℂ) * exp (I * θ) = l'.2} := by
      ext r; simp
    rw [this]
    have hs : {r : ℝ | (r : ℂ) * exp (I * θ) = l.2}.Subsingleton := by
      intro r hr r' hr'
      have : (r : ℂ) * exp (I * θ) = r' * exp (I * θ) := hr.trans hr'.symm
      exact_mod_cast mul_right_cancel₀ (exp_ne_zero _) this
    exact hs.finite.union ih

theorem measurableSet_imageOfDisc (L : Lenses) (w : ℂ) (rho : ℝ) : MeasurableSet (imageOfDisc L w rho) := by
  have h1 := measurableSet_offLens L
  have h2 : MeasurableSet {z : ℂ | ‖lensMap L z - w‖ < rho} :=
    measurableSet_lt (((measurable_lensMap L).sub_const w).norm) measurable_const
  exact h1.inter h2

/-- Neither a lens nor on the limb. -/
def GoodPt (L : Lenses) (w : ℂ) (rho : ℝ) (r θ : ℝ) : Prop :=
  (∀ l ∈ L, (r : ℂ) * exp (I * θ) ≠ l.2) ∧ ‖lensMap L (r * exp (I * θ)) - w‖ ≠ rho

theorem good_ae (L : Lenses) (w : ℂ) (rho : ℝ) : ∀ᵐ r : ℝ, ∀ᵐ θ : ℝ, GoodPt L w rho r θ := by
  have hm : Measurable fun p : ℝ × ℝ => (p.1 : ℂ) * exp (I * p.2) := by fun_prop
  have hmeas : MeasurableSet {p : ℝ × ℝ | GoodPt L w rho p.1 p.2} := by
    have h1 := measurableSet_offLens L
    have h2 : MeasurableSet {z : ℂ | ‖lensMap L z - w‖ ≠ rho} :=
      (measurableSet_eq_fun (((measurable_lensMap L).sub_const w).norm) measurable_const).compl
    exact hm (h1.inter h2)
  rw [Measure.ae_ae_comm hmeas]
  refine Eventually.of_forall fun θ => ?_
  have he : ‖exp (I * θ)‖ = 1 := by rw [mul_comm]; exact norm_exp_ofReal_mul_I θ
  have hray : ∀ r : ℝ, rayPt (exp (I * θ)) 0 r = r * exp (I * θ) := fun r => by simp [rayPt]
  have hfin := limb_finite L w rho (exp (I * θ)) 0 he
  have hpole := poles_finite L θ
  have hnull : volume ({r : ℝ | ∃ l ∈ L, (r : ℂ) * exp (I * θ) = l.2} ∪
      {r : ℝ | (∀ l ∈ L, rayPt (exp (I * θ)) 0 r ≠ l.2) ∧ ‖lensMap L (rayPt (exp (I * θ)) 0 r) - w‖ = rho}) = 0 :=
    (hpole.union hfin).measure_zero _
  refine measure_mono_null ?_ hnull
  intro r hr
  by_cases h : ∃ l ∈ L, (r : ℂ) * exp (I * θ) = l.2
  · exact Or.inl h
  · right
    push Not at h
    refine ⟨by simpa only [hray] using h, ?_⟩
    by_contra hne
    exact hr ⟨h, by simpa only [hray] using hne⟩

theorem node_mem (a b : ℝ) (hab : a < b) (n i : ℕ) (hi : i < n) : a ≤ node a b n i ∧ node a b n i ≤ b := by
  unfold node spacing
  rcases Nat.lt_or_ge n 2 with h | h
  · have : i = 0 := by omega
    subst this
    simp [hab.le]
  · have hn : (2 : ℝ) ≤ n := by exact_mod_cast h
    have hi' : (i : ℝ) ≤ n - 1 := by
      have : ((i + 1 : ℕ) : ℝ) ≤ n := by exact_mod_cast hi
      push_cast at this; linarith
    have hd : 0 < (n : ℝ) - 1 := by linarith
    have h1 : 0 ≤ (i : ℝ) * ((b - a) / (n - 1)) := by
      have : 0 < b - a := by linarith
      positivity
    have h2 : (i : ℝ) * ((b - a) / (n - 1)) ≤ b - a := by
      rw [mul_div_assoc', div_le_iff₀ hd]
      nlinarith
    constructor <;> linarith

theorem floor_lt_of_mem (a b x : ℝ) (hab : a < b) (hx : x ∈ Ioo a b) :
    ∀ᶠ n : ℕ in atTop, ⌊(x - a) / spacing a b n⌋₊ < n := by
  have h := (node_tendsto a b x hab hx.1.le 0).eventually (gt_mem_nhds hx.2)
  filter_upwards [h, eventually_ge_atTop 2] with n h hn
  have hp := spacing_pos a b hab n hn
  have hb : b = a + ((n : ℝ) - 1) * spacing a b n := by
    unfold spacing
    have : (2 : ℝ) ≤ n := by exact_mod_cast hn
    field_simp
    have : (n : ℝ) - 1 ≠ 0 := by linarith
    field_simp
    ring
  rw [add_zero] at h
  rw [hb] at h
  have h2 : (⌊(x - a) / spacing a b n⌋₊ : ℝ) * spacing a b n < ((n : ℝ) - 1) * spacing a b n := by
    rw [← hb] at h
    linarith
  have h3 := lt_of_mul_lt_mul_right h2 hp.le
  have : (⌊(x - a) / spacing a b n⌋₊ : ℝ) < n := by linarith
  exact_mod_cast this

/-- Weighted ray sums converge to the area integral of the pointwise limit of the weights. -/
theorem ray_tendsto (L : Lenses) (w : ℂ) (rho a b α β : ℝ) (hab : a < b) (hαβ : α < β) (k : ℕ)
    (W : ℕ × ℕ → ℕ → ℕ → ℝ) (C : ℝ) (hC : ∀ n i j, |W n i j| ≤ C) (V : ℝ → ℝ → ℝ)
    (hV : ∀ r θ, GoodPt L w rho r θ → r ∈ Ioo a b → θ ∈ Ioo α β → Tendsto (fun n : ℕ × ℕ =>
      W n ⌊(r - a) / spacing a b n.1⌋₊ ⌊(θ - α) / spacing α β n.2⌋₊) (atTop ×ˢ atTop) (𝓝 (V r θ))) :
    Tendsto (fun n : ℕ × ℕ => spacing a b n.1 * ∑ i ∈ Finset.range n.1,
        (spacing α β n.2 * ∑ j ∈ Finset.range (n.2 - k), node a b n.1 i * W n i j)) (atTop ×ˢ atTop)
      (𝓝 (∫ r in a..b, ∫ θ in α..β, r * V r θ)) := by
  have hC0 : 0 ≤ C := (abs_nonneg _).trans (hC (0, 0) 0 0)
  have h := riemann_two a b α β hab hαβ k
    (fun n i j => if i < n.1 then node a b n.1 i * W n i j else 0) ((|a| + |b|) * C) ?_ (fun r θ => r * V r θ) ?_
  · refine h.congr fun n => ?_
    congr 1
    refine Finset.sum_congr rfl fun i hi => ?_
    simp only [if_pos (Finset.mem_range.mp hi)]
  · intro n i j
    split_ifs with hi
    · rw [abs_mul]
      have hm := node_mem a b hab n.1 i hi
      refine mul_le_mul ?_ (hC n i j) (abs_nonneg _) (by positivity)
      rw [abs_le]
      constructor
      · linarith [neg_abs_le a, abs_nonneg b]
      · linarith [le_abs_self b, abs_nonneg a]
    · rw [abs_zero]; positivity
  · filter_upwards [good_ae L w rho] with r hr hrI
    filter_upwards [hr] with θ hθ hθI
    have h1 := hV r θ hθ hrI hθI
    have h2 : Tendsto (fun n : ℕ × ℕ => node a b n.1 ⌊(r - a) / spacing a b n.1⌋₊) (atTop ×ˢ atTop) (𝓝 r) := by
      have := (node_tendsto a b r hab hrI.1.le 0).comp (tendsto_fst (f := (atTop : Filter ℕ)) (g := (atTop : Filter ℕ)))
      simpa only [node, Function.comp_def, add_zero] using this
    have h3 : ∀ᶠ n : ℕ × ℕ in atTop ×ˢ atTop, ⌊(r - a) / spacing a b n.1⌋₊ < n.1 :=
      (tendsto_fst (f := (atTop : Filter ℕ)) (g := (atTop : Filter ℕ))).eventually (floor_lt_of_mem a b r hab hrI)
    refine (h2.mul h1).congr' ?_
    filter_upwards [h3] with n hn
    simp only [if_pos hn]

theorem tendsto_dist_of (L : Lenses) (w : ℂ) (r θ : ℝ) (h : ∀ l ∈ L, (r : ℂ) * exp (I * θ) ≠ l.2) {ι : Type*}
    (l : Filter ι) (f g : ι → ℝ) (hf : Tendsto f l (𝓝 r)) (hg : Tendsto g l (𝓝 θ)) :
    Tendsto (fun n => ‖lensMap L (f n * exp (I * g n)) - w‖) l (𝓝 ‖lensMap L (r * exp (I * θ)) - w‖) := by
  have h1 : Tendsto (fun n => (f n : ℂ) * exp (I * g n)) l (𝓝 ((r : ℂ) * exp (I * θ))) := by
    have h2 : Tendsto (fun n => (f n : ℂ)) l (𝓝 (r : ℂ)) := (continuous_ofReal.tendsto r).comp hf
    have h3 : Tendsto (fun n => (g n : ℂ)) l (𝓝 (θ : ℂ)) := (continuous_ofReal.tendsto θ).comp hg
    exact h2.mul ((h3.const_mul I).cexp)
  have h4 : ContinuousAt (lensMap L) ((r : ℂ) * exp (I * θ)) := (jacDet_lensMap L _ h).1.continuousAt
  have h5 : Tendsto (fun n => lensMap L ((f n : ℂ) * exp (I * g n))) l (𝓝 (lensMap L ((r : ℂ) * exp (I * θ)))) :=
    Tendsto.comp (g := lensMap L) h4 h1
  exact (h5.sub_const w).norm

/-- The distance at grid node `(floor, floor + k)` tends to the distance at the point. -/
theorem dist_tendsto (L : Lenses) (w : ℂ) (rho a b α β r θ : ℝ) (hab : a < b) (hαβ : α < β)
    (hg : GoodPt L w rho r θ) (hr : r ∈ Ioo a b) (hθ : θ ∈ Ioo α β) (k : ℕ) :
    Tendsto (fun n : ℕ × ℕ => ‖lensMap L (node a b n.1 ⌊(r - a) / spacing a b n.1⌋₊
        * exp (I * (node α β n.2 (⌊(θ - α) / spacing α β n.2⌋₊ + k)))) - w‖) (atTop ×ˢ atTop)
      (𝓝 ‖lensMap L (r * exp (I * θ)) - w‖) := by
  have h1 : Tendsto (fun n : ℕ × ℕ => node a b n.1 ⌊(r - a) / spacing a b n.1⌋₊) (atTop ×ˢ atTop) (𝓝 r) := by
    have := (node_tendsto a b r hab hr.1.le 0).comp (tendsto_fst (f := (atTop : Filter ℕ)) (g := (atTop : Filter ℕ)))
    simpa only [node, Function.comp_def, add_zero] using this
  have h2 : Tendsto (fun n : ℕ × ℕ => node α β n.2 (⌊(θ - α) / spacing α β n.2⌋₊ + k)) (atTop ×ˢ atTop) (𝓝 θ) :=
    (node_tendsto α β θ hαβ hθ.1.le k).comp (tendsto_snd (f := (atTop : Filter ℕ)) (g := (atTop : Filter ℕ)))
  exact tendsto_dist_of L w r θ hg.1 _ _ _ h1 h2

theorem side_eventually {ι : Type*} (l : Filter ι) (f : ι → ℝ) (d rho : ℝ) (h : Tendsto f l (𝓝 d)) (hd : d ≠ rho) :
    ∀ᶠ i in l, (f i < rho ↔ d < rho) := by
  rcases lt_or_gt_of_ne hd with h1 | h1
  · filter_upwards [h.eventually (gt_mem_nhds h1)] with i hi
    simp [hi, h1]
  · filter_upwards [h.eventually (lt_mem_nhds h1)] with i hi
    simp [not_lt.mpr hi.le, not_lt.mpr h1.le]

/-- Uniform source, one region. -/
theorem computeForRange_tendsto (L : Lenses) (w : ℂ) (rho a b α β : ℝ) (hab : a < b) (hαβ : α < β)
    (dist : ℝ → ℝ → ℝ) (hdist : ∀ r θ, dist r θ = ‖lensMap L (r * exp (I * θ)) - w‖) :
    Tendsto (fun n : ℕ × ℕ => computeForRange dist rho n.1 n.2 ((a, b), (α, β))) (atTop ×ˢ atTop)
      (𝓝 (∫ r in a..b, ∫ θ in α..β, r * (if ‖lensMap L (r * exp (I * θ)) - w‖ < rho then (1 : ℝ) else 0))) := by
  choose! est hest using fun (n : ℕ × ℕ) (h : 2 ≤ n.1 ∧ 2 ≤ n.2) =>
    computeForRange_eq dist rho a b α β n.1 n.2 h.1 h.2
  have h := ray_tendsto L w rho a b α β hab hαβ 3
    (fun n i j => cellWeight (inSource (dist (node a b n.1 i) (node α β n.2 (j + 1))) rho)
      (inSource (dist (node a b n.1 i) (node α β n.2 (j + 2))) rho) (est n i j)) 1
    (fun n i j => by
      have := cellWeight_mem (dist (node a b n.1 i) (node α β n.2 (j + 1)))
        (dist (node a b n.1 i) (node α β n.2 (j + 2))) rho (est n i j)
      rw [abs_of_nonneg this.1]; exact this.2)
    (fun r θ => if ‖lensMap L (r * exp (I * θ)) - w‖ < rho then (1 : ℝ) else 0) ?_
  · refine h.congr' ?_
    have e1 : ∀ᶠ n : ℕ × ℕ in atTop ×ˢ atTop, 2 ≤ n.1 := tendsto_fst.eventually (eventually_ge_atTop 2)
    have e2 : ∀ᶠ n : ℕ × ℕ in atTop ×ˢ atTop, 2 ≤ n.2 := tendsto_snd.eventually (eventually_ge_atTop 2)
    filter_upwards [e1, e2] with n h1 h2
    exact (hest n ⟨h1, h2⟩).symm
  · intro r θ hg hr hθ
    refine tendsto_const_nhds.congr' ?_
    have s1 := side_eventually _ _ _ rho (dist_tendsto L w rho a b α β r θ hab hαβ hg hr hθ 1) hg.2
    have s2 := side_eventually _ _ _ rho (dist_tendsto L w rho a b α β r θ hab hαβ hg hr hθ 2) hg.2
    filter_upwards [s1, s2] with n h1 h2
    simp only [hdist]
    rw [cellWeight_same _ _ _ _ (h1.trans h2.symm)]
    simp only [h1]

/-! ### Limb-darkened source -/

theorem isLimb1st_bound (d u1 : ℝ) : |isLimb1st d u1| ≤ |3 / Real.pi / (3 - u1)| * (1 + |u1|) := by
  simp only [isLimb1st]
  split_ifs
  · rw [abs_mul]
    refine mul_le_mul_of_nonneg_left ?_ (abs_nonneg _)
    have h0 := Real.sqrt_nonneg (1 - d ^ 2)
    have h1 : Real.sqrt (1 - d ^ 2) ≤ 1 := by
      rw [Real.sqrt_le_one]
      nlinarith [sq_nonneg d]
    calc |1 - u1 * (1 - Real.sqrt (1 - d ^ 2))| ≤ |1| + |u1 * (1 - Real.sqrt (1 - d ^ 2))| := abs_sub _ _
      _ ≤ 1 + |u1| := by
        rw [abs_one, abs_mul, abs_of_nonneg (by linarith : 0 ≤ 1 - Real.sqrt (1 - d ^ 2))]
        have := mul_le_mul_of_nonneg_left (by linarith : 1 - Real.sqrt (1 - d ^ 2) ≤ 1) (abs_nonneg u1)
        linarith
  · rw [abs_zero]; positivity

theorem calcFacB_bound (x dc : ℝ) :
    |calcFacB (clip x 0 1 + zeroTerm) dc| ≤ 3 * Real.sqrt (1 + 1 / 2 / zeroTerm) + 3 := by
  have hz : 0 < zeroTerm := by unfold zeroTerm; positivity
  have hz1 : zeroTerm ≤ 1 := by unfold zeroTerm; norm_num
  have hc := clip_mem x
  set δ := clip x 0 1 + zeroTerm with hδ
  have h1 : zeroTerm ≤ δ := by linarith
  have h2 : δ ≤ 2 := by linarith
  have hδ0 : 0 < δ := by linarith
  simp only [calcFacB]
  have hs0 := Real.sqrt_nonneg (1 + 1 / 2 / zeroTerm)
  split_ifs
  · have hs : Real.sqrt (1 + 1 / 2 / δ) ≤ Real.sqrt (1 + 1 / 2 / zeroTerm) := by
      apply Real.sqrt_le_sqrt
      gcongr
    have hs1 := Real.sqrt_nonneg (1 + 1 / 2 / δ)
    rw [abs_of_nonneg (by positivity)]
    nlinarith
  · rw [abs_of_nonneg (by positivity)]
    linarith

theorem cellWeightLD_bound (d1 d2 d3 rho e1 e2 B C dc : ℝ) (hB : |B| ≤ C) :
    |cellWeightLD (inSource d1 rho) (inSource d2 rho) (inSource d3 rho) e1 e2 B dc| ≤
      C * (1 + (3 * Real.sqrt (1 + 1 / 2 / zeroTerm) + 3)) := by
  have hC : 0 ≤ C := (abs_nonneg _).trans hB
  have f1 := calcFacB_bound (2 - e1) dc
  have f2 := calcFacB_bound (e2 - 1) dc
  have hs0 := Real.sqrt_nonneg (1 + 1 / 2 / zeroTerm)
  have g1 : |B * calcFacB (clip (2 - e1) 0 1 + zeroTerm) dc| ≤ C * (3 * Real.sqrt (1 + 1 / 2 / zeroTerm) + 3) := by
    rw [abs_mul]; exact mul_le_mul hB f1 (abs_nonneg _) hC
  have g2 : |B * calcFacB (clip (e2 - 1) 0 1 + zeroTerm) dc| ≤ C * (3 * Real.sqrt (1 + 1 / 2 / zeroTerm) + 3) := by
    rw [abs_mul]; exact mul_le_mul hB f2 (abs_nonneg _) hC
  have g3 : 0 ≤ C * (3 * Real.sqrt (1 + 1 / 2 / zeroTerm) + 3) := by positivity
  have hexp : C * (1 + (3 * Real.sqrt (1 + 1 / 2 / zeroTerm) + 3)) = C + C * (3 * Real.sqrt (1 + 1 / 2 / zeroTerm) + 3) := by
    ring
  rw [hexp]
  rw [abs_mul] at g1 g2
  rcases inSource_cases d1 rho with h | h <;> rcases inSource_cases d2 rho with h' | h' <;>
    rcases inSource_cases d3 rho with h'' | h'' <;> simp only [cellWeightLD, h, h', h''] <;> norm_num <;> linarith

/-- Limb-darkened source, one region. -/
theorem computeForRangeLD_tendsto (L : Lenses) (w : ℂ) (rho u1 delta_c a b α β : ℝ) (hrho : 0 < rho) (hab : a < b)
    (hαβ : α < β) (dist : ℝ → ℝ → ℝ) (hdist : ∀ r θ, dist r θ = ‖lensMap L (r * exp (I * θ)) - w‖) :
    Tendsto (fun n : ℕ × ℕ => computeForRangeLD dist rho u1 delta_c n.1 n.2 ((a, b), (α, β))) (atTop ×ˢ atTop)
      (𝓝 (∫ r in a..b, ∫ θ in α..β, r * isLimb1st (‖lensMap L (r * exp (I * θ)) - w‖ / rho) u1)) := by
  choose! est1 est2 hest using fun (n : ℕ × ℕ) (h : 2 ≤ n.1 ∧ 2 ≤ n.2) =>
    computeForRangeLD_eq dist rho u1 delta_c a b α β n.1 n.2 h.1 h.2
  have h := ray_tendsto L w rho a b α β hab hαβ 4
    (fun n i j => cellWeightLD (inSource (dist (node a b n.1 i) (node α β n.2 (j + 1))) rho)
      (inSource (dist (node a b n.1 i) (node α β n.2 (j + 2))) rho)
      (inSource (dist (node a b n.1 i) (node α β n.2 (j + 3))) rho) (est1 n i j) (est2 n i j)
      (isLimb1st (dist (node a b n.1 i) (node α β n.2 (j + 2)) / rho) u1) delta_c)
    (|3 / Real.pi / (3 - u1)| * (1 + |u1|) * (1 + (3 * Real.sqrt (1 + 1 / 2 / zeroTerm) + 3)))
    (fun n i j => cellWeightLD_bound _ _ _ _ _ _ _ _ _ (isLimb1st_bound _ _))
    (fun r θ => isLimb1st (‖lensMap L (r * exp (I * θ)) - w‖ / rho) u1) ?_
  · refine h.congr' ?_
    have e1 : ∀ᶠ n : ℕ × ℕ in atTop ×ˢ atTop, 2 ≤ n.1 := tendsto_fst.eventually (eventually_ge_atTop 2)
    have e2 : ∀ᶠ n : ℕ × ℕ in atTop ×ˢ atTop, 2 ≤ n.2 := tendsto_snd.eventually (eventually_ge_atTop 2)
    filter_upwards [e1, e2] with n h1 h2
    exact (hest n ⟨h1, h2⟩).symm
  · intro r θ hg hr hθ
    have t2 := dist_tendsto L w rho a b α β r θ hab hαβ hg hr hθ 2
    have s1 := side_eventually _ _ _ rho (dist_tendsto L w rho a b α β r θ hab hαβ hg hr hθ 1) hg.2
    have s2 := side_eventually _ _ _ rho t2 hg.2
    have s3 := side_eventually _ _ _ rho (dist_tendsto L w rho a b α β r θ hab hαβ hg hr hθ 3) hg.2
    by_cases hin : ‖lensMap L (r * exp (I * θ)) - w‖ < rho
    · have hform : ∀ d : ℝ, d < rho → isLimb1st (d / rho) u1
          = 3 / Real.pi / (3 - u1) * (1 - u1 * (1 - Real.sqrt (1 - (d / rho) ^ 2))) := by
        intro d hd
        simp only [isLimb1st, if_pos ((div_lt_one hrho).mpr hd)]
      rw [hform _ hin]
      have hcont : Continuous fun d : ℝ => 3 / Real.pi / (3 - u1) * (1 - u1 * (1 - Real.sqrt (1 - (d / rho) ^ 2))) := by
        fun_prop
      refine ((hcont.tendsto _).comp t2).congr' ?_
      filter_upwards [s1, s2, s3] with n h1 h2 h3
      simp only [hdist, Function.comp_def]
      rw [cellWeightLD_same _ _ _ _ _ _ _ _ (h1.trans h2.symm) (h3.trans h2.symm), if_pos (h2.mpr hin),
        hform _ (h2.mpr hin)]
    · have h0 : isLimb1st (‖lensMap L (r * exp (I * θ)) - w‖ / rho) u1 = 0 := by
        simp only [isLimb1st, if_neg fun h => hin ((div_lt_one hrho).mp h)]
      rw [h0]
      refine tendsto_const_nhds.congr' ?_
      filter_upwards [s1, s2, s3] with n h1 h2 h3
      simp only [hdist]
      rw [cellWeightLD_same _ _ _ _ _ _ _ _ (h1.trans h2.symm) (h3.trans h2.symm), if_neg fun h => hin (h2.mp h)]

end Microjax.Props
