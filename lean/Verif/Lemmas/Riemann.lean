import Mathlib.MeasureTheory.Integral.DominatedConvergence
import Mathlib.MeasureTheory.Integral.IntervalIntegral.Basic
import Mathlib.MeasureTheory.Integral.Prod
import Mathlib.MeasureTheory.Measure.Lebesgue.Basic
import Mathlib.MeasureTheory.Constructions.BorelSpace.Order
import Mathlib.MeasureTheory.Function.Floor

/-! # Riemann sums over a uniform grid converge to the integral, as step functions do -/

noncomputable section

namespace Microjax.Props

open MeasureTheory Filter Topology Set

/-- A sum over grid cells is the integral of a step function. -/
theorem sum_eq_integral_step (a h : ℝ) (hh : 0 < h) (N : ℕ) (φ : ℕ → ℝ) :
    h * ∑ i ∈ Finset.range N, φ i = ∫ x in Ico a (a + N * h), φ ⌊(x - a) / h⌋₊ := by
  induction N with
  | zero => simp
  | succ N ih =>
    have hsplit : Ico a (a + ((N + 1 : ℕ) : ℝ) * h) = Ico a (a + N * h) ∪ Ico (a + N * h) (a + (N + 1 : ℕ) * h) := by
      rw [Ico_union_Ico_eq_Ico]
      · have : (0 : ℝ) ≤ N * h := by positivity
        linarith
      · push_cast; nlinarith
    have hdisj : Disjoint (Ico a (a + N * h)) (Ico (a + N * h) (a + (N + 1 : ℕ) * h)) :=
      Ico_disjoint_Ico_same
    have hconst : ∀ x ∈ Ico (a + N * h) (a + ((N + 1 : ℕ) : ℝ) * h), φ ⌊(x - a) / h⌋₊ = φ N := by
      intro x hx
      congr 1
      rw [Nat.floor_eq_iff (div_nonneg (by nlinarith [hx.1, (Nat.cast_nonneg N : (0 : ℝ) ≤ N)]) hh.le)]
      rw [le_div_iff₀ hh, div_lt_iff₀ hh]
      have h1 := hx.1
      have h2 := hx.2
      push_cast at h2
      constructor <;> linarith
    have hint : ∀ s : Set ℝ, MeasurableSet s → (∃ c : ℕ, ∀ x ∈ s, ⌊(x - a) / h⌋₊ ≤ c) → volume s ≠ ⊤ →
        IntegrableOn (fun x => φ ⌊(x - a) / h⌋₊) s := by
      intro s hs ⟨c, hc⟩ hv
      have hm : Measurable fun x : ℝ => φ ⌊(x - a) / h⌋₊ :=
        (measurable_from_nat (f := φ)).comp ((Nat.measurable_floor (R := ℝ)).comp (by fun_prop))
      refine Measure.integrableOn_of_bounded (M := ∑ i ∈ Finset.range (c + 1), |φ i|) hv
        hm.aestronglyMeasurable ?_
      filter_upwards [ae_restrict_mem hs] with x hx
      exact Finset.single_le_sum (f := fun i => |φ i|) (fun i _ => abs_nonneg _)
        (Finset.mem_range.mpr (Nat.lt_succ_of_le (hc x hx)))
    have hfl : ∀ M : ℕ, ∀ x, x < a + M * h → ⌊(x - a) / h⌋₊ ≤ M := by
      intro M x hx
      apply Nat.floor_le_of_le
      rw [div_le_iff₀ hh]; linarith
    rw [hsplit, setIntegral_union hdisj measurableSet_Ico
      (hint _ measurableSet_Ico ⟨N, fun x hx => hfl N x hx.2⟩ measure_Ico_lt_top.ne)
      (hint _ measurableSet_Ico ⟨N + 1, fun x hx => hfl (N + 1) x hx.2⟩ measure_Ico_lt_top.ne),
      setIntegral_congr_fun measurableSet_Ico hconst, setIntegral_const, ← ih, Finset.sum_range_succ, mul_add]
    congr 1
    rw [Measure.real, Real.volume_Ico, ENNReal.toReal_ofReal (by push_cast; nlinarith)]
    rw [smul_eq_mul]; push_cast; ring

/-- Grid spacing of `n` points from `a` to `b`. -/
def spacing (a b : ℝ) (n : ℕ) : ℝ := (b - a) / ((n : ℝ) - 1)

theorem spacing_pos (a b : ℝ) (h : a < b) (n : ℕ) (hn : 2 ≤ n) : 0 < spacing a b n := by
  have : (2 : ℝ) ≤ n := by exact_mod_cast hn
  exact div_pos (by linarith) (by linarith)

theorem spacing_tendsto (a b : ℝ) : Tendsto (spacing a b) atTop (𝓝 0) := by
  unfold spacing
  refine Tendsto.div_atTop tendsto_const_nhds ?_
  exact tendsto_atTop_add_const_right _ (-1) tendsto_natCast_atTop_atTop

/-- The end `a + (n - k) h` of the cells used tends to `b`. -/
theorem end_tendsto (a b : ℝ) (k : ℕ) :
    Tendsto (fun n : ℕ => a + ((n - k : ℕ) : ℝ) * spacing a b n) atTop (𝓝 b) := by
  have h1 : Tendsto (fun n : ℕ => b + (1 - (k : ℝ)) * spacing a b n) atTop (𝓝 b) := by
    simpa using tendsto_const_nhds.add ((spacing_tendsto a b).const_mul (1 - (k : ℝ)))
  refine h1.congr' ?_
  filter_upwards [eventually_ge_atTop (k + 2)] with n hn
  have hn2 : (2 : ℝ) ≤ n := by exact_mod_cast (by omega : 2 ≤ n)
  rw [Nat.cast_sub (by omega)]
  unfold spacing
  have : (n : ℝ) - 1 ≠ 0 := by linarith
  field_simp
  ring

/-- The left end of the cell containing `x` tends to `x`, and so does any fixed number of cells further. -/
theorem node_tendsto (a b x : ℝ) (hab : a < b) (hx : a ≤ x) (k : ℕ) :
    Tendsto (fun n : ℕ => a + ((⌊(x - a) / spacing a b n⌋₊ + k : ℕ) : ℝ) * spacing a b n) atTop (𝓝 x) := by
  have hs := spacing_tendsto a b
  have hlo : Tendsto (fun n : ℕ => x - spacing a b n) atTop (𝓝 x) := by simpa using tendsto_const_nhds.sub hs
  have hhi : Tendsto (fun n : ℕ => x + k * spacing a b n) atTop (𝓝 x) := by
    simpa using tendsto_const_nhds.add (hs.const_mul (k : ℝ))
  refine tendsto_of_tendsto_of_tendsto_of_le_of_le' hlo hhi ?_ ?_
  · filter_upwards [eventually_ge_atTop 2] with n hn
    have hp := spacing_pos a b hab n hn
    have := Nat.lt_floor_add_one ((x - a) / spacing a b n)
    rw [div_lt_iff₀ hp] at this
    push_cast
    have hk : (0 : ℝ) ≤ k * spacing a b n := by positivity
    nlinarith
  · filter_upwards [eventually_ge_atTop 2] with n hn
    have hp := spacing_pos a b hab n hn
    have := Nat.floor_le (div_nonneg (sub_nonneg.mpr hx) hp.le)
    rw [le_div_iff₀ hp] at this
    push_cast
    nlinarith

/-- One-dimensional convergence, with a parameter filter: cells `0 … n - k - 1` of an `n`-point grid. -/
theorem riemann_one {ι : Type*} (l : Filter ι) [l.IsCountablyGenerated] (n : ι → ℕ) (hn : Tendsto n l atTop)
    (a b : ℝ) (hab : a < b) (k : ℕ) (φ : ι → ℕ → ℝ) (C : ℝ) (hC : ∀ i j, |φ i j| ≤ C) (g : ℝ → ℝ)
    (hg : ∀ᵐ x, x ∈ Ioo a b → Tendsto (fun i => φ i ⌊(x - a) / spacing a b (n i)⌋₊) l (𝓝 (g x))) :
    Tendsto (fun i => spacing a b (n i) * ∑ j ∈ Finset.range (n i - k), φ i j) l (𝓝 (∫ x in a..b, g x)) := by
  have hlim : ∫ x in a..b, g x = ∫ x, (Ioo a b).indicator g x := by
    rw [intervalIntegral.integral_of_le hab.le, integral_Ioc_eq_integral_Ioo, integral_indicator measurableSet_Ioo]
  rw [hlim]
  have hsum : ∀ᶠ i in l, spacing a b (n i) * ∑ j ∈ Finset.range (n i - k), φ i j
      = ∫ x, (Ico a (a + ((n i - k : ℕ) : ℝ) * spacing a b (n i))).indicator
          (fun x => φ i ⌊(x - a) / spacing a b (n i)⌋₊) x := by
    filter_upwards [hn.eventually (eventually_ge_atTop 2)] with i hi
    rw [sum_eq_integral_step a _ (spacing_pos a b hab _ hi), integral_indicator measurableSet_Ico]
  rw [tendsto_congr' hsum]
  have hend := (end_tendsto a b k).comp hn
  refine tendsto_integral_filter_of_dominated_convergence ((Ico a (b + 1)).indicator fun _ => C) ?_ ?_ ?_ ?_
  · refine Eventually.of_forall fun i => ?_
    refine (Measurable.indicator ?_ measurableSet_Ico).aestronglyMeasurable
    exact (measurable_from_nat (f := φ i)).comp ((Nat.measurable_floor (R := ℝ)).comp (by fun_prop))
  · filter_upwards [hend.eventually (gt_mem_nhds (show b < b + 1 by linarith))] with i hi
    refine Eventually.of_forall fun x => ?_
    by_cases hx : x ∈ Ico a (a + ((n i - k : ℕ) : ℝ) * spacing a b (n i))
    · have hx' : x ∈ Ico a (b + 1) := ⟨hx.1, hx.2.trans hi⟩
      rw [indicator_of_mem hx, indicator_of_mem hx', Real.norm_eq_abs]
      exact hC _ _
    · rw [indicator_of_notMem hx, norm_zero]
      exact indicator_nonneg (fun _ _ => (abs_nonneg _).trans (hC i 0)) x
  · exact (integrable_indicator_iff measurableSet_Ico).mpr (integrableOn_const (by simp))
  · have hne : ∀ᵐ x : ℝ, x ≠ a ∧ x ≠ b := by
      have h1 : ∀ᵐ x : ℝ, x ≠ a := Measure.ae_ne volume a
      have h2 : ∀ᵐ x : ℝ, x ≠ b := Measure.ae_ne volume b
      filter_upwards [h1, h2] with x h1 h2 using ⟨h1, h2⟩
    filter_upwards [hg, hne] with x hx hne
    by_cases h1 : a < x
    · by_cases h2 : x < b
      · rw [indicator_of_mem (show x ∈ Ioo a b from ⟨h1, h2⟩)]
        refine (hx ⟨h1, h2⟩).congr' ?_
        filter_upwards [hend.eventually (lt_mem_nhds h2)] with i hi
        rw [indicator_of_mem]
        exact ⟨h1.le, hi⟩
      · have h2' : b < x := lt_of_le_of_ne (not_lt.mp h2) (Ne.symm hne.2)
        rw [indicator_of_notMem (fun h => h2 h.2)]
        refine tendsto_const_nhds.congr' ?_
        filter_upwards [hend.eventually (gt_mem_nhds h2')] with i hi
        rw [indicator_of_notMem]
        exact fun h => absurd h.2 (not_lt.mpr hi.le)
    · have h1' : x < a := lt_of_le_of_ne (not_lt.mp h1) hne.1
      rw [indicator_of_notMem (fun h => h1 h.1)]
      refine tendsto_const_nhds.congr' (Eventually.of_forall fun i => ?_)
      exact (indicator_of_notMem (fun h => absurd h.1 (not_le.mpr h1')) _).symm

/-- Two-dimensional convergence, both resolutions going to infinity independently. -/
theorem riemann_two (a b α β : ℝ) (hab : a < b) (hαβ : α < β) (k : ℕ) (c : ℕ × ℕ → ℕ → ℕ → ℝ) (C : ℝ)
    (hC : ∀ n i j, |c n i j| ≤ C) (g : ℝ → ℝ → ℝ)
    (hg : ∀ᵐ r, r ∈ Ioo a b → ∀ᵐ θ, θ ∈ Ioo α β → Tendsto (fun n : ℕ × ℕ =>
      c n ⌊(r - a) / spacing a b n.1⌋₊ ⌊(θ - α) / spacing α β n.2⌋₊) (atTop ×ˢ atTop) (𝓝 (g r θ))) :
    Tendsto (fun n : ℕ × ℕ => spacing a b n.1 * ∑ i ∈ Finset.range n.1,
        (spacing α β n.2 * ∑ j ∈ Finset.range (n.2 - k), c n i j)) (atTop ×ˢ atTop)
      (𝓝 (∫ r in a..b, ∫ θ in α..β, g r θ)) := by
  set l : Filter (ℕ × ℕ) := atTop ×ˢ atTop with hl
  have hC0 : 0 ≤ C := (abs_nonneg _).trans (hC (0, 0) 0 0)
  obtain ⟨M0, hM0⟩ : ∃ M0 : ℕ, ∀ m ≥ M0, (((m - k : ℕ) : ℝ)) * spacing α β m ≤ β - α + 1 ∧ 0 ≤ spacing α β m := by
    have h1 := (end_tendsto α β k).eventually (gt_mem_nhds (show β < β + 1 by linarith))
    have h2 := eventually_ge_atTop (2 : ℕ)
    obtain ⟨M0, h⟩ := eventually_atTop.mp (h1.and h2)
    exact ⟨M0, fun m hm => ⟨by linarith [(h m hm).1], (spacing_pos α β hαβ m (h m hm).2).le⟩⟩
  have key := riemann_one l (fun n => n.1) (by rw [hl]; exact tendsto_fst) a b hab 0
    (fun n i => if M0 ≤ n.2 then spacing α β n.2 * ∑ j ∈ Finset.range (n.2 - k), c n i j else 0)
    ((β - α + 1) * C) ?_ (fun r => ∫ θ in α..β, g r θ) ?_
  · refine key.congr' ?_
    have : ∀ᶠ n : ℕ × ℕ in l, M0 ≤ n.2 := by
      rw [hl]; exact tendsto_snd.eventually (eventually_ge_atTop M0)
    filter_upwards [this] with n hn
    simp [hn]
  · intro n i
    split_ifs with h
    · obtain ⟨h1, h2⟩ := hM0 n.2 h
      rw [abs_mul, abs_of_nonneg h2]
      have h3 : |∑ j ∈ Finset.range (n.2 - k), c n i j| ≤ ((n.2 - k : ℕ) : ℝ) * C := by
        refine (Finset.abs_sum_le_sum_abs _ _).trans ((Finset.sum_le_sum fun j _ => hC n i j).trans ?_)
        simp
      calc spacing α β n.2 * |∑ j ∈ Finset.range (n.2 - k), c n i j|
          ≤ spacing α β n.2 * (((n.2 - k : ℕ) : ℝ) * C) := mul_le_mul_of_nonneg_left h3 h2
        _ = (((n.2 - k : ℕ) : ℝ) * spacing α β n.2) * C := by ring
        _ ≤ (β - α + 1) * C := mul_le_mul_of_nonneg_right h1 hC0
    · rw [abs_zero]; exact mul_nonneg (by linarith) hC0
  · filter_upwards [hg] with r hr hrab
    have h := riemann_one l (fun n => n.2) (by rw [hl]; exact tendsto_snd) α β hαβ k
      (fun n j => c n ⌊(r - a) / spacing a b n.1⌋₊ j) C (fun n j => hC _ _ _) (g r) (hr hrab)
    refine h.congr' ?_
    have : ∀ᶠ n : ℕ × ℕ in l, M0 ≤ n.2 := by
      rw [hl]; exact tendsto_snd.eventually (eventually_ge_atTop M0)
    filter_upwards [this] with n hn
    simp [hn]

end Microjax.Props
