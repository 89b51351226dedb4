import Verif.Props.Interp
import Verif.Props.HankelModes
import Verif.Props.FastLensMag
import Verif.Lemmas.Blur
import Verif.Props.ProfileFT
import Mathlib.Analysis.SpecialFunctions.ImproperIntegrals

/-!
# C97: the convolution of the FFT-based magnification
-/

noncomputable section

set_option linter.unusedVariables false

namespace Microjax.Props

open Spec MagFft MeasureTheory Filter Set Topology

theorem isHankel_unique {f : ℝ → ℝ} {y H H' : ℝ} (h : IsHankel f y H) (h' : IsHankel f y H') : H = H' :=
  tendsto_nhds_unique h.2 h'.2

/-! ### The excess magnification -/

theorem excess_eq (r : ℝ) (hr : 0 < r) :
    r * (paczynski r - 1) = 4 / (Real.sqrt (r ^ 2 + 4) * ((r ^ 2 + 2) + r * Real.sqrt (r ^ 2 + 4))) := by
  have hs : 0 < Real.sqrt (r ^ 2 + 4) := by positivity
  have h2 : Real.sqrt (r ^ 2 + 4) ^ 2 = r ^ 2 + 4 := Real.sq_sqrt (by positivity)
  rw [paczynski]
  set s := Real.sqrt (r ^ 2 + 4)
  rw [eq_div_iff (by positivity)]
  field_simp
  linear_combination (-r ^ 2) * h2

theorem excess_bound (r : ℝ) (hr : 0 < r) : 0 ≤ r * (paczynski r - 1) ∧ r * (paczynski r - 1) ≤ 2 * (1 + r ^ 2)⁻¹ := by
  rw [excess_eq r hr]
  have hs : 2 ≤ Real.sqrt (r ^ 2 + 4) := Real.le_sqrt_of_sq_le (by nlinarith)
  refine ⟨by positivity, ?_⟩
  rw [← div_eq_mul_inv, div_le_div_iff₀ (by positivity) (by positivity)]
  nlinarith [mul_nonneg hr.le (by linarith : 0 ≤ Real.sqrt (r ^ 2 + 4)), sq_nonneg r,
    mul_le_mul hs (le_refl (r ^ 2 + 2)) (by positivity) (by linarith)]

theorem integrable_excess : IntegrableOn (fun r => r * (paczynski r - 1)) (Ioi 0) := by
  have hi : IntegrableOn (fun r : ℝ => 2 * (1 + r ^ 2)⁻¹) (Ioi 0) := (integrable_inv_one_add_sq.const_mul 2).integrableOn
  refine Integrable.mono' hi (ContinuousOn.aestronglyMeasurable ?_ measurableSet_Ioi) ?_
  · have : ∀ r ∈ Ioi (0 : ℝ), r * (paczynski r - 1)
        = 4 / (Real.sqrt (r ^ 2 + 4) * ((r ^ 2 + 2) + r * Real.sqrt (r ^ 2 + 4))) := fun r hr => excess_eq r hr
    refine ContinuousOn.congr ?_ this
    refine ContinuousOn.div (by fun_prop) (by fun_prop) fun r hr => ?_
    have hr' : 0 < r := hr
    positivity
  · refine (ae_restrict_iff' measurableSet_Ioi).mpr (ae_of_all _ fun r hr => ?_)
    obtain ⟨h0, h1⟩ := excess_bound r hr
    rw [Real.norm_eq_abs, abs_of_nonneg h0]
    exact h1

/-- The blurred magnification of the single lens, in the Hankel domain. -/
theorem blur_single (σ : ℝ) (hσ : 0 < σ) (v : ℂ) :
    blur σ (pointMag single) v = 1 + ∫ k in Ioi (0 : ℝ), (1 / (2 * Real.pi) * (k * Real.exp (-(σ ^ 2 * k ^ 2 / 2))
      * radialFT (fun r => paczynski r - 1) k)) * besselJ 0 (k * ‖v‖) := by
  have hb := blur_radial σ hσ (fun r => paczynski r - 1) integrable_excess v
  have hA := integrable_radial (fun r => paczynski r - 1) integrable_excess
  have hA' : Integrable fun z : ℂ => paczynski ‖v + z‖ - 1 := hA.comp_add_left v
  have hGA : Integrable fun z : ℂ => gauss2 σ z * (paczynski ‖v + z‖ - 1) := by
    have := hA'.mul_bdd (c := 1 / (2 * Real.pi * σ ^ 2)) (g := gauss2 σ)
      (continuous_gauss2 σ).aestronglyMeasurable (ae_of_all _ fun z => by
        rw [Real.norm_eq_abs, abs_of_nonneg (gauss2_nonneg σ z)]
        exact gauss2_le σ z)
    exact this.congr (ae_of_all _ fun z => mul_comm _ _)
  have e : blur σ (pointMag single) v = ∫ z : ℂ, (gauss2 σ z + gauss2 σ z * (paczynski ‖v + z‖ - 1)) := by
    rw [blur]
    refine integral_congr_ae ?_
    have hne : ∀ᵐ z : ℂ, z ≠ -v := by
      rw [ae_iff]
      simp
    filter_upwards [hne] with z hz
    have : v + z ≠ 0 := fun h => hz (by linear_combination h)
    rw [C02_true_single_mag _ this]
    ring
  rw [e, integral_add (integrable_gauss2 σ hσ) hGA, integral_gauss2 σ hσ]
  rw [blur] at hb
  rw [hb, ← integral_const_mul]
  congr 2
  funext k
  rw [radialFT]
  ring

/-! ### Regularity of the transforms -/

theorem abs_radialFT (a : ℝ → ℝ) (ha : IntegrableOn (fun r => r * a r) (Ioi 0)) (k : ℝ) :
    |radialFT a k| ≤ 2 * Real.pi * ∫ r in Ioi (0 : ℝ), |r * a r| := by
  rw [radialFT, abs_mul, abs_of_pos (by positivity : 0 < 2 * Real.pi)]
  refine mul_le_mul_of_nonneg_left ?_ (by positivity)
  rw [← Real.norm_eq_abs]
  refine norm_integral_le_of_norm_le ha.abs (ae_of_all _ fun r => ?_)
  rw [norm_mul, Real.norm_eq_abs]
  exact mul_le_of_le_one_right (abs_nonneg _) (abs_J0_norm _)

theorem continuous_radialFT (a : ℝ → ℝ) (ha : IntegrableOn (fun r => r * a r) (Ioi 0)) : Continuous (radialFT a) := by
  unfold radialFT
  refine continuous_const.mul (continuous_of_dominated (bound := fun r => |r * a r|) (fun k => ?_) (fun k => ae_of_all _ fun r => ?_)
    ha.abs (ae_of_all _ fun r => ?_))
  · exact ha.1.mul ((continuous_J 0).comp (by fun_prop : Continuous fun r : ℝ => k * r)).aestronglyMeasurable
  · rw [norm_mul, Real.norm_eq_abs]
    exact mul_le_of_le_one_right (abs_nonneg _) (abs_J0_norm _)
  · exact continuous_const.mul ((continuous_J 0).comp (by fun_prop : Continuous fun k : ℝ => k * r))

theorem continuous_discFT (S : ℝ → ℝ) (hS : IntervalIntegrable (fun r => S r * r) volume 0 1) : Continuous (discFT S) := by
  have e : discFT S = fun k => (∫ r in (0 : ℝ)..1, S r * r * besselJ 0 (k * r)) / (∫ r in (0 : ℝ)..1, S r * r) := by
    funext k
    rw [discFT_eq]
    congr 2
    funext r
    ring
  rw [e]
  refine Continuous.div_const (intervalIntegral.continuous_of_dominated_interval (bound := fun r => |S r * r|) (fun k => ?_)
    (fun k => ae_of_all _ fun r _ => ?_) hS.abs (ae_of_all _ fun r _ => ?_)) _
  · exact (intervalIntegrable_iff.mp hS).1.mul
      ((continuous_J 0).comp (by fun_prop : Continuous fun r : ℝ => k * r)).aestronglyMeasurable
  · rw [norm_mul, Real.norm_eq_abs]
    exact mul_le_of_le_one_right (abs_nonneg _) (abs_J0_norm _)
  · exact continuous_const.mul ((continuous_J 0).comp (by fun_prop : Continuous fun k : ℝ => k * r))

theorem abs_discFT (S : ℝ → ℝ) (hS : IntervalIntegrable (fun r => S r * r) volume 0 1) (k : ℝ) :
    |discFT S k| ≤ (∫ r in (0 : ℝ)..1, |S r * r|) / |∫ r in (0 : ℝ)..1, S r * r| := by
  rw [discFT_eq, abs_div]
  refine div_le_div_of_nonneg_right ?_ (abs_nonneg _)
  rw [← Real.norm_eq_abs]
  refine intervalIntegral.norm_integral_le_of_norm_le (by norm_num) (ae_of_all _ fun r _ => ?_) hS.abs
  rw [show S r * besselJ 0 (k * r) * r = S r * r * besselJ 0 (k * r) by ring, norm_mul, Real.norm_eq_abs]
  exact mul_le_of_le_one_right (abs_nonneg _) (abs_J0_norm _)

/-! ### The two transforms -/

/-- What the first transform is applied to: `u² (A(u) - 1)`. -/
def firstFn (u : ℝ) : ℝ := u ^ 2 * (paczynski u - 1)

/-- What the second transform is applied to: `k²` times the transforms of the excess magnification, of the source and of
a Gaussian of width `σ`. -/
def secondFn (S : ℝ → ℝ) (rho σ k : ℝ) : ℝ :=
  k ^ 2 * radialFT (fun r => paczynski r - 1) k * discFT S (k * rho) * Real.exp (-(σ ^ 2 * k ^ 2 / 2))

/-- The width of the Gaussian. -/
def smoothing (rho : ℝ) : ℝ := rho / (20 * Real.sqrt 2 * Real.pi)

theorem isHankel_first (y : ℝ) : IsHankel firstFn y (radialFT (fun r => paczynski r - 1) y / (2 * Real.pi)) := by
  have hint : IntegrableOn (fun x => x * (paczynski x - 1) * besselJ 0 (x * y)) (Ioi 0) :=
    Integrable.mul_bdd (c := 1) integrable_excess ((continuous_J 0).comp (by fun_prop : Continuous fun x : ℝ => x * y)).aestronglyMeasurable
      (ae_of_all _ fun _ => abs_J0_norm _)
  have e : ∀ x ∈ Ioi (0 : ℝ), firstFn x / x * besselJ 0 (x * y) = x * (paczynski x - 1) * besselJ 0 (x * y) := by
    intro x hx
    have : x ≠ 0 := ne_of_gt hx
    rw [firstFn]
    field_simp
  have h := isHankel_of_integrable firstFn y (hint.congr_fun (fun x hx => (e x hx).symm) measurableSet_Ioi)
  rw [setIntegral_congr_fun measurableSet_Ioi e] at h
  rw [radialFT, mul_div_cancel_left₀ _ (by positivity)]
  simp only [mul_comm y]
  exact h

theorem integrable_second (S : ℝ → ℝ) (hS : IntervalIntegrable (fun r => S r * r) volume 0 1) (rho σ : ℝ) (hσ : 0 < σ) (y : ℝ) :
    IntegrableOn (fun k => (k * Real.exp (-(σ ^ 2 * k ^ 2 / 2)) * radialFT (fun r => paczynski r - 1) k) * discFT S (k * rho)
      * besselJ 0 (k * y)) (Ioi 0) := by
  have h0 := integrable_k_gauss σ hσ
  have h1 := h0.mul_bdd (continuous_radialFT _ integrable_excess).aestronglyMeasurable
    (ae_of_all _ fun k => by rw [Real.norm_eq_abs]; exact abs_radialFT _ integrable_excess k)
  have h2 := h1.mul_bdd ((continuous_discFT S hS).comp (by fun_prop : Continuous fun k : ℝ => k * rho)).aestronglyMeasurable
    (ae_of_all _ fun k => by rw [Real.norm_eq_abs]; exact abs_discFT S hS (k * rho))
  exact h2.mul_bdd (c := 1) ((continuous_J 0).comp (by fun_prop : Continuous fun x : ℝ => x * y)).aestronglyMeasurable
    (ae_of_all _ fun _ => abs_J0_norm _)

theorem isHankel_second (S : ℝ → ℝ) (hS : IntervalIntegrable (fun r => S r * r) volume 0 1)
    (hflux : (∫ r in (0 : ℝ)..1, S r * r) ≠ 0) (rho σ : ℝ) (hσ : 0 < σ) (w : ℂ) :
    IsHankel (secondFn S rho σ) ‖w‖ (2 * Real.pi * (profileMean S (blur σ (pointMag single)) w rho - 1)) := by
  have hint := integrable_second S hS rho σ hσ ‖w‖
  have e : ∀ k ∈ Ioi (0 : ℝ), secondFn S rho σ k / k * besselJ 0 (k * ‖w‖)
      = (k * Real.exp (-(σ ^ 2 * k ^ 2 / 2)) * radialFT (fun r => paczynski r - 1) k) * discFT S (k * rho) * besselJ 0 (k * ‖w‖) := by
    intro k hk
    have : k ≠ 0 := ne_of_gt hk
    rw [secondFn]
    field_simp
  have h := isHankel_of_integrable (secondFn S rho σ) ‖w‖ (hint.congr_fun (fun x hx => (e x hx).symm) measurableSet_Ioi)
  rw [setIntegral_congr_fun measurableSet_Ioi e] at h
  have hh : IntegrableOn (fun k => 1 / (2 * Real.pi) * (k * Real.exp (-(σ ^ 2 * k ^ 2 / 2))
      * radialFT (fun r => paczynski r - 1) k)) (Ioi 0) :=
    ((integrable_k_gauss σ hσ).mul_bdd (continuous_radialFT _ integrable_excess).aestronglyMeasurable
      (ae_of_all _ fun k => by rw [Real.norm_eq_abs]; exact abs_radialFT _ integrable_excess k)).const_mul _
  have hm := profileMean_hankel S hS hflux _ hh 1 (blur σ (pointMag single)) (blur_single σ hσ) w rho
  have e2 : (∫ k in Ioi (0 : ℝ), (1 / (2 * Real.pi) * (k * Real.exp (-(σ ^ 2 * k ^ 2 / 2))
      * radialFT (fun r => paczynski r - 1) k)) * discFT S (k * rho) * besselJ 0 (k * ‖w‖))
      = 1 / (2 * Real.pi) * ∫ k in Ioi (0 : ℝ), (k * Real.exp (-(σ ^ 2 * k ^ 2 / 2)) * radialFT (fun r => paczynski r - 1) k)
        * discFT S (k * rho) * besselJ 0 (k * ‖w‖) := by
    rw [← integral_const_mul]
    congr 1
    funext k
    ring
  have e3 : 2 * Real.pi * (profileMean S (blur σ (pointMag single)) w rho - 1)
      = ∫ k in Ioi (0 : ℝ), (k * Real.exp (-(σ ^ 2 * k ^ 2 / 2)) * radialFT (fun r => paczynski r - 1) k)
        * discFT S (k * rho) * besselJ 0 (k * ‖w‖) := by
    rw [hm, e2, add_sub_cancel_left, ← mul_assoc, mul_one_div_cancel (by positivity), one_mul]
  rw [e3]
  exact h

/-! ### The table -/

/-- The source profile handed over exactly. -/
def skExact (S : ℝ → ℝ) (k : List ℝ) (rho : ℝ) : List ℝ := k.map fun v => discFT S (v * rho)

theorem smoothing_pos (rho : ℝ) (h : 0 < rho) : 0 < smoothing rho := by
  unfold smoothing
  positivity

theorem dump_eq (rho k : ℝ) (h : 0 < rho) :
    -(k / (2 * Real.pi / rho) / 20) ^ 2 = -(smoothing rho ^ 2 * k ^ 2 / 2) := by
  have h2 : Real.sqrt 2 ^ 2 = 2 := Real.sq_sqrt (by norm_num)
  rw [smoothing]
  have hs : Real.sqrt 2 ≠ 0 := by positivity
  rw [neg_inj, div_pow rho, mul_pow, mul_pow, h2]
  field_simp

theorem samples_first (u : List ℝ) (hu : ∀ v ∈ u, 0 < v) :
    (u.map fun v => ((v ^ 2 + 2) / Real.sqrt (v ^ 2 + 4) / v - 1) * v ^ 2) = u.map firstFn := by
  refine List.map_congr_left fun v hv => ?_
  have := hu v hv
  rw [firstFn, paczynski, div_div, mul_comm (v ^ 2), mul_comm v]

theorem logspace_pos (lo hi : ℝ) (n : ℕ) : ∀ v ∈ logspace lo hi n, 0 < v := by
  intro v hv
  simp only [logspace, List.mem_map] at hv
  obtain ⟨i, -, rfl⟩ := hv
  positivity

theorem samples_second (S : ℝ → ℝ) (rho : ℝ) (hrho : 0 < rho) (k a : List ℝ) (h1 : SamplesHankel (k, a) firstFn 0) :
    List.zipWith (fun (p : ℝ × ℝ) (q : ℝ × ℝ) => p.2 * p.1 ^ 2 * q.1 * q.2)
      (List.zip k (a.map fun v => v * 2 * Real.pi))
      (List.zip (skExact S k rho) (k.map fun kv => Real.exp (-(kv / (2 * Real.pi / rho) / 20) ^ 2)))
      = k.map (secondFn S rho (smoothing rho)) := by
  obtain ⟨hl, h⟩ := h1
  simp only at hl h
  refine List.ext_getElem (by simp [skExact, hl]) fun j h1 h2 => ?_
  have hj : j < k.length := by simpa using h2
  have hja : j < a.length := by omega
  obtain ⟨hk0, H, hH, hd⟩ := h j hj
  rw [List.getD_eq_getElem _ _ hj] at hk0 hH
  rw [List.getD_eq_getElem _ _ hja] at hd
  have he : a[j] = H := by
    have := abs_nonpos_iff.mp hd
    linarith
  have hu := isHankel_unique hH (isHankel_first k[j])
  simp only [List.getElem_zipWith, List.getElem_zip, List.getElem_map, skExact, dump_eq rho _ hrho, secondFn]
  rw [he, hu]
  field_simp

/-- **C97.**  The table behind the magnification of large sources.  If the first Hankel transform is exact at the
wavenumbers it returns and the second has error at most `δ`, then every entry with abscissa `y` below 100 is, up to
`δ/(2π)`, the mean over the source (of brightness profile `S`, radius `rho`, centred at distance `y`) of the single-lens
magnification blurred by a Gaussian of width `rho/(20√2π) ≈ 0.011 rho`; all other entries are one. -/
theorem C97_table (hk : Hankel) (c : Cfg) (S : ℝ → ℝ) (hS : IntervalIntegrable (fun r => S r * r) volume 0 1)
    (hflux : (∫ r in (0 : ℝ)..1, S r * r) ≠ 0) (rho : ℝ) (hrho : 0 < rho) (δ : ℝ) :
    let u := logspace c.logumin c.logumax c.N
    let first := hk u (u.map firstFn) 0
    let second := hk first.1 (first.1.map (secondFn S rho (smoothing rho))) 512
    let t := table hk c (skExact S) rho
    SamplesHankel first firstFn 0 → SamplesHankel second (secondFn S rho (smoothing rho)) δ →
    t.1.length = second.1.length ∧ t.2.length = second.1.length ∧
    ∀ j < second.1.length, ∀ y : ℝ, y = second.1.getD j 0 →
      (y < 100 → t.1.getD j 0 = log10 y ∧
        |t.2.getD j 0 - profileMean S (blur (smoothing rho) (pointMag single)) y rho| ≤ δ / (2 * Real.pi)) ∧
      (100 ≤ y → t.1.getD j 0 = log10 100 ∧ t.2.getD j 0 = 1) := by
  intro u first second t h1 h2
  have ht : t = (second.1.map fun v => log10 (if v < 100 then v else 100),
      List.zipWith (fun v av => if v < 100 then av else 1) second.1 (second.2.map fun v => v / 2 / Real.pi + 1)) := by
    simp only [t, table, initApk]
    rw [samples_first u (logspace_pos _ _ _), samples_second S rho hrho first.1 first.2 h1]
  obtain ⟨hl, h⟩ := h2
  have ht1 : t.1 = second.1.map fun v => log10 (if v < 100 then v else 100) := by rw [ht]
  have ht2 : t.2 = List.zipWith (fun v av => if v < 100 then av else 1) second.1 (second.2.map fun v => v / 2 / Real.pi + 1) := by
    rw [ht]
  have hl2 : t.2.length = second.1.length := by
    rw [ht2]
    simp [hl]
  refine ⟨by rw [ht1]; simp, hl2, fun j hj y hy => ?_⟩
  obtain ⟨hy0, H, hH, hd⟩ := h j hj
  rw [← hy] at hy0 hH
  have hj2 : j < second.2.length := by omega
  rw [List.getD_eq_getElem _ _ hj2] at hd
  rw [List.getD_eq_getElem _ _ hj] at hy
  have hg1 : t.1.getD j 0 = log10 (if y < 100 then y else 100) := by
    rw [ht1, List.getD_eq_getElem _ _ (by simpa using hj), List.getElem_map, ← hy]
  have hg2 : t.2.getD j 0 = if y < 100 then second.2[j] / 2 / Real.pi + 1 else 1 := by
    rw [List.getD_eq_getElem _ _ (by omega)]
    simp only [ht2, List.getElem_zipWith, List.getElem_map, ← hy]
  constructor
  · intro hlt
    rw [hg1, hg2, if_pos hlt, if_pos hlt]
    refine ⟨rfl, ?_⟩
    have hn : ‖((y : ℝ) : ℂ)‖ = y := by rw [Complex.norm_real, Real.norm_eq_abs, abs_of_pos hy0]
    have hs := isHankel_second S hS hflux rho (smoothing rho) (smoothing_pos rho hrho) (y : ℂ)
    rw [hn] at hs
    rw [isHankel_unique hH hs] at hd
    have e : second.2[j] / 2 / Real.pi + 1 - profileMean S (blur (smoothing rho) (pointMag single)) y rho
        = (second.2[j] - 2 * Real.pi * (profileMean S (blur (smoothing rho) (pointMag single)) y rho - 1)) / (2 * Real.pi) := by
      field_simp
      ring
    rw [e, abs_div, abs_of_pos (by positivity : 0 < 2 * Real.pi)]
    exact div_le_div_of_nonneg_right hd (by positivity)
  · intro hge
    rw [hg1, hg2, if_neg (not_lt.mpr hge), if_neg (not_lt.mpr hge)]
    exact ⟨rfl, rfl⟩

theorem log10_lt {a b : ℝ} (ha : 0 < a) (h : a < b) : log10 a < log10 b := by
  have h10 : 0 < Real.log 10 := Real.log_pos (by norm_num)
  exact div_lt_div_of_pos_right (Real.log_lt_log ha h) h10

theorem log10_le {a b : ℝ} (ha : 0 < a) (h : a ≤ b) : log10 a ≤ log10 b := by
  rcases h.eq_or_lt with rfl | h
  · exact le_rfl
  · exact (log10_lt ha h).le

/-- **C97.**  The magnification itself, at every distance of the output grid below 100: under the hypotheses of
`C97_table`, with the output grid increasing, `A` returns the mean over the source of the slightly blurred single-lens
magnification, up to `δ/(2π)`. -/
theorem C97_magnification (hk : Hankel) (c : Cfg) (S : ℝ → ℝ) (hS : IntervalIntegrable (fun r => S r * r) volume 0 1)
    (hflux : (∫ r in (0 : ℝ)..1, S r * r) ≠ 0) (A0 : ℝ → ℝ) (rho : ℝ) (hrho : 0 < rho) (hsw : c.rhoSwitch ≤ rho) (δ : ℝ) :
    let u := logspace c.logumin c.logumax c.N
    let first := hk u (u.map firstFn) 0
    let second := hk first.1 (first.1.map (secondFn S rho (smoothing rho))) 512
    SamplesHankel first firstFn 0 → SamplesHankel second (secondFn S rho (smoothing rho)) δ → second.1.Pairwise (· < ·) →
    ∀ w : ℂ, ‖w‖ ∈ second.1 → ‖w‖ < 100 →
      |aFft hk c (skExact S) A0 ‖w‖ rho - profileMean S (blur (smoothing rho) (pointMag single)) w rho| ≤ δ / (2 * Real.pi) := by
  intro u first second h1 h2 hinc w hw h100
  obtain ⟨hl1, hl2, ht⟩ := C97_table hk c S hS hflux rho hrho δ h1 h2
  change (table hk c (skExact S) rho).1.length = second.1.length at hl1
  change (table hk c (skExact S) rho).2.length = second.1.length at hl2
  obtain ⟨j, hj, hjy⟩ := List.getElem_of_mem hw
  have hy0 : ∀ i, (hi : i < second.1.length) → 0 < second.1[i] := by
    intro i hi
    have := (h2.2 i hi).1
    rwa [List.getD_eq_getElem _ _ hi] at this
  have hlt : ∀ i i', (hi : i < second.1.length) → (hi' : i' < second.1.length) → i < i' → second.1[i] < second.1[i'] :=
    fun i i' hi hi' h => List.pairwise_iff_getElem.mp hinc i i' hi hi' h
  have hnode : ∀ i, (hi : i < second.1.length) →
      (table hk c (skExact S) rho).1.getD i 0 = log10 (min second.1[i] 100) := by
    intro i hi
    have := ht i hi second.1[i] (List.getD_eq_getElem _ _ hi).symm
    rcases lt_or_ge second.1[i] 100 with h | h
    · rw [min_eq_left h.le]
      exact (this.1 h).1
    · rw [min_eq_right h]
      exact (this.2 h).1
  have hmono : (table hk c (skExact S) rho).1.Pairwise (· ≤ ·) := by
    rw [List.pairwise_iff_getElem]
    intro i i' hi hi' h
    have e := hnode i (by omega)
    have e' := hnode i' (by omega)
    rw [List.getD_eq_getElem _ _ hi] at e
    rw [List.getD_eq_getElem _ _ hi'] at e'
    rw [e, e']
    exact log10_le (lt_min (hy0 i (by omega)) (by norm_num)) (min_le_min_right _ (hlt i i' (by omega) (by omega) h).le)
  have hyj : second.1[j] < 100 := by rw [hjy]; exact h100
  have hwpos : 0 < ‖w‖ := by rw [← hjy]; exact hy0 j hj
  have hx : log10 ‖w‖ = (table hk c (skExact S) rho).1.getD j 0 := by
    rw [hnode j hj, min_eq_left hyj.le, hjy]
  have hval := ((ht j hj ‖w‖ (by rw [List.getD_eq_getElem _ _ hj, hjy])).1 h100).2
  have hinterp := C96_node (table hk c (skExact S) rho).1 (table hk c (skExact S) rho).2 (some 1) hmono j (by omega)
    (fun hp => by
      rw [hnode j hj, hnode (j - 1) (by omega)]
      refine log10_lt (lt_min (hy0 _ _) (by norm_num)) ?_
      rw [min_eq_left hyj.le]
      exact lt_of_le_of_lt (min_le_left _ _) (hlt (j - 1) j (by omega) hj (by omega)))
    (fun hn => by
      rw [hnode j hj, hnode (j + 1) (by omega)]
      refine log10_lt (lt_min (hy0 _ _) (by norm_num)) ?_
      rw [min_eq_left hyj.le]
      exact lt_min (hlt j (j + 1) hj (by omega) (by omega)) hyj)
  have ha : aFft hk c (skExact S) A0 ‖w‖ rho = (table hk c (skExact S) rho).2.getD j 0 := by
    simp only [aFft, not_lt.mpr hsw, if_false, aLarge, abs_norm, gt_iff_lt, if_pos hwpos]
    rw [hx, hinterp]
  -- the mean depends on the distance only
  have hrot : profileMean S (blur (smoothing rho) (pointMag single)) w rho
      = profileMean S (blur (smoothing rho) (pointMag single)) (‖w‖ : ℝ) rho := by
    have e1 := isHankel_second S hS hflux rho (smoothing rho) (smoothing_pos rho hrho) w
    have e2 := isHankel_second S hS hflux rho (smoothing rho) (smoothing_pos rho hrho) ((‖w‖ : ℝ) : ℂ)
    rw [Complex.norm_real, norm_norm] at e2
    have := isHankel_unique e1 e2
    have h2 := mul_left_cancel₀ (by positivity : (2 * Real.pi : ℝ) ≠ 0) this
    linarith
  rw [ha, hrot]
  exact hval

/-- A transform that is exact in both calls (at one output distance), for a uniform source of radius a tenth. -/
example : ∃ hk : Hankel, ∃ c : Cfg, c.rhoSwitch ≤ 1 / 10 ∧
    IntervalIntegrable (fun r : ℝ => (1 : ℝ) * r) volume 0 1 ∧ (∫ r in (0 : ℝ)..1, (1 : ℝ) * r) ≠ 0 ∧
    SamplesHankel (hk (logspace c.logumin c.logumax c.N) ((logspace c.logumin c.logumax c.N).map firstFn) 0) firstFn 0 ∧
    (let k := (hk (logspace c.logumin c.logumax c.N) ((logspace c.logumin c.logumax c.N).map firstFn) 0).1
     let second := hk k (k.map (secondFn (fun _ => 1) (1 / 10) (smoothing (1 / 10)))) 512
     SamplesHankel second (secondFn (fun _ => 1) (1 / 10) (smoothing (1 / 10))) 0 ∧ second.1.Pairwise (· < ·) ∧
     ‖(Complex.I : ℂ)‖ ∈ second.1 ∧ ‖(Complex.I : ℂ)‖ < 100) := by
  have hS : IntervalIntegrable (fun r : ℝ => (1 : ℝ) * r) volume 0 1 := by simp
  have hf : (∫ r in (0 : ℝ)..1, (1 : ℝ) * r) ≠ 0 := by rw [flux_one]; norm_num
  have h2 := isHankel_second (fun _ => 1) hS hf (1 / 10) (smoothing (1 / 10)) (smoothing_pos _ (by norm_num)) Complex.I
  rw [Complex.norm_I] at h2
  refine ⟨fun _ _ n => ([1], [if n = 0 then radialFT (fun r => paczynski r - 1) 1 / (2 * Real.pi) else
      2 * Real.pi * (profileMean (fun _ => 1) (blur (smoothing (1 / 10)) (pointMag single)) Complex.I (1 / 10) - 1)]),
    ⟨-6, 3, 1024, 1e-4, 10⟩, by norm_num, hS, hf, ⟨rfl, fun j hj => ?_⟩, ⟨rfl, fun j hj => ?_⟩, by simp, by simp, by simp⟩
  · obtain rfl : j = 0 := by simpa using hj
    exact ⟨by simp, _, by simpa using isHankel_first 1, by simp⟩
  · obtain rfl : j = 0 := by simpa using hj
    exact ⟨by simp, _, by simpa using h2, by simp⟩

end Microjax.Props
