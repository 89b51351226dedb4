import Verif.Props.FftSmall
import Verif.Props.FastLensCentre
import Verif.Props.FftLog

/-!
# C117: linear limb darkening of the FFT-based magnification
-/

noncomputable section

set_option linter.unusedVariables false

namespace Microjax.Props

open Spec MagFft MeasureTheory Filter Set Topology

/-! ### The linear law -/

theorem continuous_brightness (a : ℝ) : Continuous (brightness a) := by
  unfold brightness
  fun_prop

theorem brightness_lower (a : ℝ) (h0 : 0 ≤ a) (h1 : a ≤ 1) (r : ℝ) (hr0 : 0 ≤ r) (hr1 : r ≤ 1) :
    Real.sqrt (1 - r ^ 2) ≤ brightness a r ∧ brightness a r ≤ 1 := by
  have hs : Real.sqrt (1 - r ^ 2) ≤ 1 := by
    rw [Real.sqrt_le_left (by norm_num)]
    nlinarith
  unfold brightness
  constructor <;> nlinarith [mul_nonneg h0 (sub_nonneg.mpr hs), mul_nonneg (sub_nonneg.mpr h1) (sub_nonneg.mpr hs)]

theorem brightness_nonneg01 (a : ℝ) (h0 : 0 ≤ a) (h1 : a ≤ 1) (r : ℝ) (hr : r ∈ Icc (0 : ℝ) 1) : 0 ≤ brightness a r :=
  (Real.sqrt_nonneg _).trans (brightness_lower a h0 h1 r hr.1 hr.2).1

theorem integrable_brightness (a : ℝ) : IntervalIntegrable (fun r => brightness a r * r) volume 0 1 :=
  ((continuous_brightness a).mul continuous_id').intervalIntegrable _ _

theorem flux_brightness (a : ℝ) : (∫ r in (0 : ℝ)..1, brightness a r * r) = 1 / 2 - a / 6 := by
  have e : ∀ r : ℝ, brightness a r * r = (1 - a) * r + a * (Real.sqrt (1 - r ^ 2) * r) := by
    intro r
    unfold brightness
    ring
  simp only [e]
  rw [intervalIntegral.integral_add (by apply Continuous.intervalIntegrable; fun_prop)
    (by apply Continuous.intervalIntegrable; fun_prop), intervalIntegral.integral_const_mul, intervalIntegral.integral_const_mul,
    flux_limb1, integral_id]
  ring

theorem flux_brightness_pos (a : ℝ) (h1 : a ≤ 1) : 1 / 3 ≤ ∫ r in (0 : ℝ)..1, brightness a r * r := by
  rw [flux_brightness]
  linarith

theorem flux_brightness_ne (a : ℝ) (h1 : a ≤ 1) : (∫ r in (0 : ℝ)..1, brightness a r * r) ≠ 0 := by
  have := flux_brightness_pos a h1
  linarith

theorem J0_lower (x : ℝ) : 1 - x ^ 2 / 4 ≤ besselJ 0 x := by
  have h := integral_cos_cos x
  have hm : (∫ θ in (0 : ℝ)..2 * Real.pi, (1 - x ^ 2 / 2 * Real.cos θ ^ 2)) ≤ ∫ θ in (0 : ℝ)..2 * Real.pi, Real.cos (x * Real.cos θ) := by
    refine intervalIntegral.integral_mono_on (by positivity) (by apply Continuous.intervalIntegrable; fun_prop)
      (by apply Continuous.intervalIntegrable; fun_prop) fun θ _ => ?_
    have := Real.one_sub_sq_div_two_le_cos (x := x * Real.cos θ)
    nlinarith
  have e : (∫ θ in (0 : ℝ)..2 * Real.pi, (1 - x ^ 2 / 2 * Real.cos θ ^ 2)) = 2 * Real.pi * (1 - x ^ 2 / 4) := by
    rw [intervalIntegral.integral_sub (by simp) (by apply Continuous.intervalIntegrable; fun_prop),
      intervalIntegral.integral_const_mul, integral_cos_sq]
    simp
    ring
  rw [e, h] at hm
  exact le_of_mul_le_mul_left hm (by positivity)

/-- The transform of a nonnegative profile near the origin. -/
theorem discFT_near_one (S : ℝ → ℝ) (hS : IntervalIntegrable (fun r => S r * r) volume 0 1)
    (hpos : ∀ r ∈ Icc (0 : ℝ) 1, 0 ≤ S r) (hflux : (∫ r in (0 : ℝ)..1, S r * r) ≠ 0) (x : ℝ) :
    1 - x ^ 2 / 4 ≤ discFT S x ∧ discFT S x ≤ 1 := by
  have hfl : 0 < ∫ r in (0 : ℝ)..1, S r * r := by
    refine lt_of_le_of_ne (intervalIntegral.integral_nonneg (by norm_num) fun r hr => ?_) hflux.symm
    exact mul_nonneg (hpos r hr) hr.1
  have e : (∫ r in (0 : ℝ)..1, S r * besselJ 0 (x * r) * r) = ∫ r in (0 : ℝ)..1, S r * r * besselJ 0 (x * r) := by
    congr 1
    funext r
    ring
  have hi : IntervalIntegrable (fun r => S r * r * besselJ 0 (x * r)) volume 0 1 :=
    hS.mul_continuousOn ((continuous_J 0).comp (by fun_prop : Continuous fun r : ℝ => x * r)).continuousOn
  rw [discFT_eq, e, le_div_iff₀ hfl, div_le_iff₀ hfl]
  constructor
  · rw [← intervalIntegral.integral_const_mul]
    refine intervalIntegral.integral_mono_on (by norm_num) (hS.const_mul _) hi fun r hr => ?_
    have h1 := J0_lower (x * r)
    have h2 : (x * r) ^ 2 ≤ x ^ 2 := by
      rw [mul_pow]
      exact mul_le_of_le_one_right (sq_nonneg x) (pow_le_one₀ hr.1 hr.2)
    rw [mul_comm]
    exact mul_le_mul_of_nonneg_left (by linarith) (mul_nonneg (hpos r hr) hr.1)
  · rw [one_mul]
    refine intervalIntegral.integral_mono_on (by norm_num) hi hS fun r hr => ?_
    exact mul_le_of_le_one_right (mul_nonneg (hpos r hr) hr.1) (le_of_abs_le (abs_J0_norm _))

/-! ### The transform of the profile -/

theorem isHankel_scale {f : ℝ → ℝ} {y H : ℝ} (c : ℝ) (h : IsHankel f y H) : IsHankel (fun x => c * f x) y (c * H) := by
  have e : ∀ ε x : ℝ, c * f x / x * besselJ 0 (x * y) * Real.exp (-(ε * x ^ 2))
      = c * (f x / x * besselJ 0 (x * y) * Real.exp (-(ε * x ^ 2))) := by
    intro ε x
    ring
  constructor
  · intro ε hε
    simp only [e]
    exact (h.1 ε hε).const_mul c
  · simp only [e, integral_const_mul]
    exact h.2.const_mul c

/-- What the transform of the profile is applied to: `v²` times the brightness of a source of radius `rho`. -/
def profFn (a rho v : ℝ) : ℝ := v ^ 2 * if v < rho then brightness a (v / rho) else 0

theorem isHankel_prof (a rho : ℝ) (h1 : a ≤ 1) (hrho : 0 < rho) (y : ℝ) :
    IsHankel (profFn a rho) y (rho ^ 2 * (1 / 2 - a / 6) * discFT (brightness a) (y * rho)) := by
  set g : ℝ → ℝ := fun x => x * brightness a (x / rho) * besselJ 0 (x * y) with hg
  have hgc : Continuous g :=
    (continuous_id'.mul ((continuous_brightness a).comp (by fun_prop))).mul ((continuous_J 0).comp (by fun_prop))
  have e : ∀ x ∈ Ioi (0 : ℝ), profFn a rho x / x * besselJ 0 (x * y) = (Ioo 0 rho).indicator g x := by
    intro x hx
    have hx0 : 0 < x := hx
    by_cases h : x < rho
    · have hm : x ∈ Ioo 0 rho := ⟨hx0, h⟩
      rw [indicator_of_mem hm, profFn, if_pos h]
      simp only [hg]
      field_simp
    · rw [indicator_of_notMem (fun h' => h h'.2), profFn, if_neg h]
      simp
  have hgi : IntegrableOn g (Ioo 0 rho) := (hgc.integrableOn_Icc (a := 0) (b := rho)).mono_set Ioo_subset_Icc_self
  have hint : IntegrableOn ((Ioo 0 rho).indicator g) (Ioi 0) :=
    ((integrable_indicator_iff measurableSet_Ioo).mpr hgi).integrableOn
  have hss : Ioo 0 rho ⊆ Ioi (0 : ℝ) := fun x hx => hx.1
  have h := isHankel_of_integrable (profFn a rho) y (hint.congr_fun (fun x hx => (e x hx).symm) measurableSet_Ioi)
  rw [setIntegral_congr_fun measurableSet_Ioi e, setIntegral_indicator measurableSet_Ioo,
    inter_eq_self_of_subset_right hss, ← integral_Ioc_eq_integral_Ioo,
    ← intervalIntegral.integral_of_le hrho.le] at h
  have hsub := intervalIntegral.smul_integral_comp_mul_left (a := 0) (b := 1) g rho
  rw [mul_zero, mul_one, smul_eq_mul] at hsub
  rw [← hsub] at h
  have e2 : (∫ x in (0 : ℝ)..1, g (rho * x)) = rho * ∫ r in (0 : ℝ)..1, brightness a r * besselJ 0 (y * rho * r) * r := by
    rw [← intervalIntegral.integral_const_mul]
    congr 1
    funext r
    simp only [hg]
    rw [mul_div_cancel_left₀ _ hrho.ne', show rho * r * y = y * rho * r by ring]
    ring
  have hf : (1 / 2 - a / 6 : ℝ) ≠ 0 := by
    intro h
    linarith
  have e3 : rho ^ 2 * (1 / 2 - a / 6) * discFT (brightness a) (y * rho) = rho * ∫ x in (0 : ℝ)..1, g (rho * x) := by
    rw [e2, discFT_eq, flux_brightness, mul_assoc, mul_div_cancel₀ _ hf]
    ring
  rw [e3]
  exact h

theorem samples_prof (u : List ℝ) (rho a : ℝ) : (u.map fun v => v ^ 2 * suLimb v rho a) = u.map (profFn a rho) := by
  refine List.map_congr_left fun v _ => ?_
  unfold suLimb profFn brightness
  by_cases h : v < rho
  · simp only [if_pos h]
  · simp only [if_neg h]

/-- First value of the profile on the grid. -/
def firstVal (u : List ℝ) (a rho : ℝ) : ℝ := if u.getD 0 0 < rho then brightness a (u.getD 0 0 / rho) else 0

theorem samples_profN (u : List ℝ) (hu : ∀ v ∈ u, 0 < v) (rho a : ℝ) (hrho : 0 < rho) :
    List.zipWith (fun v s => v ^ 2 * s) u (suLimb1 u rho a) = u.map fun v => (firstVal u a rho)⁻¹ * profFn a rho v := by
  have hval : ∀ v ∈ u, (if v < rho then 1 - a * (1 - Real.sqrt |1 - v ^ 2 / rho ^ 2|) else 0)
      = if v < rho then brightness a (v / rho) else 0 := by
    intro v hv
    have hv0 := hu v hv
    by_cases h : v < rho
    · rw [if_pos h, if_pos h, brightness, div_pow, abs_of_nonneg]
      rw [sub_nonneg, div_le_one (by positivity)]
      nlinarith
    · rw [if_neg h, if_neg h]
  have hsu : (u.map fun v => if v < rho then 1 - a * (1 - Real.sqrt |1 - v ^ 2 / rho ^ 2|) else 0)
      = u.map fun v => if v < rho then brightness a (v / rho) else 0 := List.map_congr_left hval
  refine List.ext_getElem (by simp [suLimb1]) fun j h1 h2 => ?_
  have hj : j < u.length := by simpa using h2
  have hfv : (u.map fun v => if v < rho then brightness a (v / rho) else 0).getD 0 0 = firstVal u a rho := by
    have h0 : 0 < u.length := by omega
    rw [List.getD_eq_getElem _ _ (by simpa using h0), List.getElem_map, firstVal, List.getD_eq_getElem _ _ h0]
  simp only [suLimb1, List.getElem_zipWith, List.getElem_map, hsu, hfv]
  rw [profFn]
  ring

theorem sk_normalised (a rho : ℝ) (h1 : a ≤ 1) (hrho : 0 < rho) (c : ℝ) (hc : c ≠ 0) (third : List ℝ × List ℝ)
    (h : SamplesHankel third (fun v => c * profFn a rho v) 0) :
    (third.2.map fun v => v / third.2.getD 0 0)
      = third.1.map fun k => discFT (brightness a) (k * rho) / discFT (brightness a) (third.1.getD 0 0 * rho) := by
  obtain ⟨hl, h⟩ := h
  have hv : ∀ j < third.1.length, third.2.getD j 0 = c * rho ^ 2 * (1 / 2 - a / 6) * discFT (brightness a) (third.1.getD j 0 * rho) := by
    intro j hj
    obtain ⟨-, H, hH, hd⟩ := h j hj
    have h2 := isHankel_unique hH (isHankel_scale c (isHankel_prof a rho h1 hrho _))
    have h3 := abs_nonpos_iff.mp hd
    rw [h2] at h3
    linarith
  refine List.ext_getElem (by simp [hl]) fun j hj1 hj2 => ?_
  have hj : j < third.1.length := by simpa using hj2
  have hf : (1 / 2 - a / 6 : ℝ) ≠ 0 := by
    intro h
    linarith
  have hvj := hv j hj
  rw [List.getD_eq_getElem _ _ (by omega : j < third.2.length), List.getD_eq_getElem _ _ hj] at hvj
  simp only [List.getElem_map]
  rw [hvj, hv 0 (by omega), mul_div_mul_left]
  exact mul_ne_zero (mul_ne_zero hc (by positivity)) hf

/-! ### Large sources -/

theorem limb_table (hk : Hankel) (c : Cfg) (S : ℝ → ℝ) (hS : IntervalIntegrable (fun r => S r * r) volume 0 1)
    (hflux : (∫ r in (0 : ℝ)..1, S r * r) ≠ 0) (rho : ℝ) (hrho : 0 < rho) (D : ℝ) (hD : D ≠ 0) (δ : ℝ)
    (sk : List ℝ → ℝ → List ℝ) :
    let u := logspace c.logumin c.logumax c.N
    let first := hk u (u.map firstFn) 0
    let second := hk first.1 (first.1.map fun k => secondFn S rho (smoothing rho) k / D) 512
    let t := table hk c sk rho
    SamplesHankel first firstFn 0 → (sk first.1 rho = first.1.map fun k => discFT S (k * rho) / D) →
    SamplesHankel second (fun k => secondFn S rho (smoothing rho) k / D) δ →
    t.1.length = second.1.length ∧ t.2.length = second.1.length ∧
    ∀ j < second.1.length, ∀ y : ℝ, y = second.1.getD j 0 →
      (y < 100 → t.1.getD j 0 = log10 y ∧
        |t.2.getD j 0 - (1 + (profileMean S (blur (smoothing rho) (pointMag single)) y rho - 1) / D)| ≤ δ / (2 * Real.pi)) ∧
      (100 ≤ y → t.1.getD j 0 = log10 100 ∧ t.2.getD j 0 = 1) := by
  intro u first second t h1 hsk h2
  have hcj : List.zipWith (fun (p : ℝ × ℝ) (q : ℝ × ℝ) => p.2 * p.1 ^ 2 * q.1 * q.2)
      (List.zip first.1 (first.2.map fun v => v * 2 * Real.pi))
      (List.zip (sk first.1 rho) (first.1.map fun kv => Real.exp (-(kv / (2 * Real.pi / rho) / 20) ^ 2)))
      = first.1.map fun k => secondFn S rho (smoothing rho) k / D := by
    have h0 := samples_second S rho hrho first.1 first.2 h1
    have hmap : (first.1.map fun k => secondFn S rho (smoothing rho) k / D)
        = (first.1.map (secondFn S rho (smoothing rho))).map fun v => v / D := by
      rw [List.map_map]
      rfl
    rw [hmap, ← h0, hsk]
    refine List.ext_getElem (by simp [skExact]) fun j h1 h2 => ?_
    simp only [List.getElem_zipWith, List.getElem_zip, List.getElem_map, skExact]
    ring
  have ht : t = (second.1.map fun v => log10 (if v < 100 then v else 100),
      List.zipWith (fun v av => if v < 100 then av else 1) second.1 (second.2.map fun v => v / 2 / Real.pi + 1)) := by
    simp only [t, table, initApk]
    rw [samples_first u (logspace_pos _ _ _)]
    rw [hcj]
  obtain ⟨hl, h⟩ := h2
  have ht1 : t.1 = second.1.map fun v => log10 (if v < 100 then v else 100) := by rw [ht]
  have ht2 : t.2 = List.zipWith (fun v av => if v < 100 then av else 1) second.1 (second.2.map fun v => v / 2 / Real.pi + 1) := by
    rw [ht]
  have hl2 : t.2.length = second.1.length := by
    rw [ht2]
    simp [hl]
  refine ⟨by rw [ht1]; simp, hl2, fun j hj y hy => ?_⟩
  obtain ⟨hy0, H, hH, hd⟩ := h j hj
  rw [← hy] at hy0 hH
  have hj2 : j < second.2.length := by omega
  rw [List.getD_eq_getElem _ _ hj2] at hd
  rw [List.getD_eq_getElem _ _ hj] at hy
  have hg1 : t.1.getD j 0 = log10 (if y < 100 then y else 100) := by
    rw [ht1, List.getD_eq_getElem _ _ (by simpa using hj), List.getElem_map, ← hy]
  have hg2 : t.2.getD j 0 = if y < 100 then second.2[j] / 2 / Real.pi + 1 else 1 := by
    rw [List.getD_eq_getElem _ _ (by omega)]
    simp only [ht2, List.getElem_zipWith, List.getElem_map, ← hy]
  constructor
  · intro hlt
    rw [hg1, hg2, if_pos hlt, if_pos hlt]
    refine ⟨rfl, ?_⟩
    have hn : ‖((y : ℝ) : ℂ)‖ = y := by rw [Complex.norm_real, Real.norm_eq_abs, abs_of_pos hy0]
    have hs := isHankel_second S hS hflux rho (smoothing rho) (smoothing_pos rho hrho) (y : ℂ)
    rw [hn] at hs
    have hs' := isHankel_scale D⁻¹ hs
    have hfn : (fun k => secondFn S rho (smoothing rho) k / D) = fun k => D⁻¹ * secondFn S rho (smoothing rho) k := by
      funext k
      ring
    rw [hfn] at hH
    rw [isHankel_unique hH hs'] at hd
    set M := profileMean S (blur (smoothing rho) (pointMag single)) y rho with hM
    have e : second.2[j] / 2 / Real.pi + 1 - (1 + (M - 1) / D)
        = (second.2[j] - D⁻¹ * (2 * Real.pi * (M - 1))) / (2 * Real.pi) := by
      field_simp
      ring
    rw [e, abs_div, abs_of_pos (by positivity : 0 < 2 * Real.pi)]
    exact div_le_div_of_nonneg_right hd (by positivity)
  · intro hge
    rw [hg1, hg2, if_neg (not_lt.mpr hge), if_neg (not_lt.mpr hge)]
    exact ⟨rfl, rfl⟩

theorem limb_value (hk : Hankel) (c : Cfg) (S : ℝ → ℝ) (hS : IntervalIntegrable (fun r => S r * r) volume 0 1)
    (hflux : (∫ r in (0 : ℝ)..1, S r * r) ≠ 0) (A0 : ℝ → ℝ) (rho : ℝ) (hrho : 0 < rho) (D : ℝ) (hD : D ≠ 0) (δ : ℝ)
    (sk : List ℝ → ℝ → List ℝ) :
    let u := logspace c.logumin c.logumax c.N
    let first := hk u (u.map firstFn) 0
    let second := hk first.1 (first.1.map fun k => secondFn S rho (smoothing rho) k / D) 512
    SamplesHankel first firstFn 0 → (sk first.1 rho = first.1.map fun k => discFT S (k * rho) / D) →
    SamplesHankel second (fun k => secondFn S rho (smoothing rho) k / D) δ → second.1.Pairwise (· < ·) →
    ∀ w : ℂ, ‖w‖ ∈ second.1 → ‖w‖ < 100 →
      |aLarge hk c sk A0 ‖w‖ rho - (1 + (profileMean S (blur (smoothing rho) (pointMag single)) w rho - 1) / D)| ≤ δ / (2 * Real.pi) := by
  intro u first second h1 hsk h2 hinc w hw h100
  obtain ⟨hl1, hl2, ht⟩ := limb_table hk c S hS hflux rho hrho D hD δ sk h1 hsk h2
  change (table hk c sk rho).1.length = second.1.length at hl1
  change (table hk c sk rho).2.length = second.1.length at hl2
  obtain ⟨j, hj, hjy⟩ := List.getElem_of_mem hw
  have hy0 : ∀ i, (hi : i < second.1.length) → 0 < second.1[i] := by
    intro i hi
    have := (h2.2 i hi).1
    rwa [List.getD_eq_getElem _ _ hi] at this
  have hlt : ∀ i i', (hi : i < second.1.length) → (hi' : i' < second.1.length) → i < i' → second.1[i] < second.1[i'] :=
    fun i i' hi hi' h => List.pairwise_iff_getElem.mp hinc i i' hi hi' h
  have hnode : ∀ i, (hi : i < second.1.length) →
      (table hk c sk rho).1.getD i 0 = log10 (min second.1[i] 100) := by
    intro i hi
    have := ht i hi second.1[i] (List.getD_eq_getElem _ _ hi).symm
    rcases lt_or_ge second.1[i] 100 with h | h
    · rw [min_eq_left h.le]
      exact (this.1 h).1
    · rw [min_eq_right h]
      exact (this.2 h).1
  have hmono : (table hk c sk rho).1.Pairwise (· ≤ ·) := by
    rw [List.pairwise_iff_getElem]
    intro i i' hi hi' h
    have e := hnode i (by omega)
    have e' := hnode i' (by omega)
    rw [List.getD_eq_getElem _ _ hi] at e
    rw [List.getD_eq_getElem _ _ hi'] at e'
    rw [e, e']
    exact log10_le (lt_min (hy0 i (by omega)) (by norm_num)) (min_le_min_right _ (hlt i i' (by omega) (by omega) h).le)
  have hyj : second.1[j] < 100 := by rw [hjy]; exact h100
  have hwpos : 0 < ‖w‖ := by rw [← hjy]; exact hy0 j hj
  have hx : log10 ‖w‖ = (table hk c sk rho).1.getD j 0 := by
    rw [hnode j hj, min_eq_left hyj.le, hjy]
  have hval := ((ht j hj ‖w‖ (by rw [List.getD_eq_getElem _ _ hj, hjy])).1 h100).2
  have hinterp := C96_node (table hk c sk rho).1 (table hk c sk rho).2 (some 1) hmono j (by omega)
    (fun hp => by
      rw [hnode j hj, hnode (j - 1) (by omega)]
      refine log10_lt (lt_min (hy0 _ _) (by norm_num)) ?_
      rw [min_eq_left hyj.le]
      exact lt_of_le_of_lt (min_le_left _ _) (hlt (j - 1) j (by omega) hj (by omega)))
    (fun hn => by
      rw [hnode j hj, hnode (j + 1) (by omega)]
      refine log10_lt (lt_min (hy0 _ _) (by norm_num)) ?_
      rw [min_eq_left hyj.le]
      exact lt_min (hlt j (j + 1) hj (by omega) (by omega)) hyj)
  have ha : aLarge hk c sk A0 ‖w‖ rho = (table hk c sk rho).2.getD j 0 := by
    simp only [aLarge, abs_norm, gt_iff_lt, if_pos hwpos]
    rw [hx, hinterp]
  have hrot : profileMean S (blur (smoothing rho) (pointMag single)) w rho
      = profileMean S (blur (smoothing rho) (pointMag single)) (‖w‖ : ℝ) rho := by
    have e1 := isHankel_second S hS hflux rho (smoothing rho) (smoothing_pos rho hrho) w
    have e2 := isHankel_second S hS hflux rho (smoothing rho) (smoothing_pos rho hrho) ((‖w‖ : ℝ) : ℂ)
    rw [Complex.norm_real, norm_norm] at e2
    have := isHankel_unique e1 e2
    have h2 := mul_left_cancel₀ (by positivity : (2 * Real.pi : ℝ) ≠ 0) this
    linarith
  rw [ha, hrot]
  exact hval

theorem norm_error (M A D x e : ℝ) (hx0 : 0 ≤ x) (hx : x ≤ 1) (hD : 1 - x ^ 2 / 4 ≤ D) (hD1 : D ≤ 1)
    (h : |A - (1 + (M - 1) / D)| ≤ e) : |A - M| ≤ e + x ^ 2 / 3 * |M - 1| := by
  have hx2 : x ^ 2 ≤ 1 := pow_le_one₀ hx0 hx
  have hD0 : 3 / 4 ≤ D := by linarith
  have e1 : A - M = (A - (1 + (M - 1) / D)) + (1 - D) / D * (M - 1) := by
    field_simp
    ring
  have h2 : |(1 - D) / D * (M - 1)| ≤ x ^ 2 / 3 * |M - 1| := by
    rw [abs_mul, abs_of_nonneg (div_nonneg (by linarith) (by linarith))]
    refine mul_le_mul_of_nonneg_right ?_ (abs_nonneg _)
    rw [div_le_iff₀ (by linarith)]
    nlinarith [sq_nonneg x]
  rw [e1]
  exact (abs_add_le _ _).trans (add_le_add h h2)

theorem samples_nonneg {out : List ℝ × List ℝ} {f : ℝ → ℝ} {δ : ℝ} (h : SamplesHankel out f δ) : 0 ≤ out.1.getD 0 0 := by
  by_cases h0 : 0 < out.1.length
  · exact (h.2 0 h0).1.le
  · rw [List.getD_eq_default _ _ (by omega)]

/-- **C117 (`mag_limb`).**  `mag_limb.A` for a linear limb-darkening coefficient `a1` between 0 and 1.  If the transforms of the
point-source magnification and of the source profile are exact at the wavenumbers returned, which are the same for both and
start at `k₀ ≤ 1/rho`, and the transform back has error at most `δ`, then at every distance of the output grid
below 100 the value is the mean over the linearly limb-darkened source of the single-lens magnification blurred by a
Gaussian of width `rho/(20√2π)`, up to `δ/(2π)` and the relative error `(k₀ rho)²/3` of the normalisation. -/
theorem C117_mag_limb (hk : Hankel) (c : Cfg) (a1 : ℝ) (ha0 : 0 ≤ a1) (ha1 : a1 ≤ 1) (A0 : ℝ → ℝ) (rho : ℝ) (hrho : 0 < rho) (δ : ℝ) :
    let u := logspace c.logumin c.logumax c.N
    let first := hk u (u.map firstFn) 0
    let third := hk u (u.map (profFn a1 rho)) 0
    let k0 := first.1.getD 0 0
    let g := fun k => secondFn (brightness a1) rho (smoothing rho) k / discFT (brightness a1) (k0 * rho)
    let second := hk first.1 (first.1.map g) 512
    SamplesHankel first firstFn 0 → SamplesHankel third (profFn a1 rho) 0 → third.1 = first.1 → k0 * rho ≤ 1 →
    SamplesHankel second g δ → second.1.Pairwise (· < ·) →
    ∀ w : ℂ, ‖w‖ ∈ second.1 → ‖w‖ < 100 →
      |aLarge hk c (fun _ r => skLimb hk c r a1) A0 ‖w‖ rho - discMean a1 (blur (smoothing rho) (pointMag single)) w rho|
        ≤ δ / (2 * Real.pi) + (k0 * rho) ^ 2 / 3 * |discMean a1 (blur (smoothing rho) (pointMag single)) w rho - 1| := by
  intro u first third k0 g second h1 h3 hgrid hk0 h2 hinc w hw h100
  have hn := discFT_near_one (brightness a1) (integrable_brightness a1) (brightness_nonneg01 a1 ha0 ha1) (flux_brightness_ne a1 ha1)
    (k0 * rho)
  have hk0' : 0 ≤ k0 * rho := mul_nonneg (samples_nonneg h1) hrho.le
  have hsk : skLimb hk c rho a1 = first.1.map fun k => discFT (brightness a1) (k * rho) / discFT (brightness a1) (k0 * rho) := by
    have h := sk_normalised a1 rho ha1 hrho 1 one_ne_zero third (by simpa only [one_mul] using h3)
    rw [hgrid] at h
    rw [skLimb]
    simp only [samples_prof]
    exact h
  rw [discMean_eq_profileMean]
  refine norm_error _ _ _ (k0 * rho) _ hk0' hk0 hn.1 hn.2 ?_
  refine limb_value hk c (brightness a1) (integrable_brightness a1) (flux_brightness_ne a1 ha1) A0 rho hrho _ ?_ δ
    (fun _ r => skLimb hk c r a1) h1 hsk h2 hinc w hw h100
  have : (k0 * rho) ^ 2 ≤ 1 := pow_le_one₀ hk0' hk0
  linarith [hn.1]

theorem logspace_first (lo hi : ℝ) (n : ℕ) (hn : 0 < n) : (logspace lo hi n).getD 0 0 = (10 : ℝ) ^ lo := by
  rw [List.getD_eq_getElem _ _ (by simpa [logspace] using hn)]
  simp [logspace]

theorem firstVal_ne (lo hi : ℝ) (n : ℕ) (hn : 0 < n) (a rho : ℝ) (ha0 : 0 ≤ a) (ha1 : a ≤ 1) (hrho : (10 : ℝ) ^ lo < rho) :
    firstVal (logspace lo hi n) a rho ≠ 0 := by
  have h10 : (0 : ℝ) < (10 : ℝ) ^ lo := by positivity
  have hr : 0 < rho := h10.trans hrho
  rw [firstVal, logspace_first lo hi n hn, if_pos hrho]
  have h1 : (10 : ℝ) ^ lo / rho < 1 := (div_lt_one hr).mpr hrho
  have h0 : 0 ≤ (10 : ℝ) ^ lo / rho := by positivity
  have h2 := (brightness_lower a ha0 ha1 _ h0 h1.le).1
  have h3 : 0 < Real.sqrt (1 - ((10 : ℝ) ^ lo / rho) ^ 2) := Real.sqrt_pos.mpr (by nlinarith)
  exact (h3.trans_le h2).ne'

/-- **C117 (`mag_limb1`, what holds).**  The same for `mag_limb1.A`, for sources of at least `rho_switch` (and larger than the
smallest abscissa `10^logumin`): dividing the profile by its first value changes nothing.  Missing: smaller sources, see
`C117_small_violated`. -/
theorem C117_mag_limb1_partial (hk : Hankel) (c : Cfg) (hN : 0 < c.N) (a1 : ℝ) (ha0 : 0 ≤ a1) (ha1 : a1 ≤ 1) (A0 : ℝ → ℝ) (rho : ℝ)
    (hrho : (10 : ℝ) ^ c.logumin < rho) (hsw : c.rhoSwitch ≤ rho) (δ : ℝ) :
    let u := logspace c.logumin c.logumax c.N
    let first := hk u (u.map firstFn) 0
    let third := hk u (u.map fun v => (firstVal u a1 rho)⁻¹ * profFn a1 rho v) 0
    let k0 := first.1.getD 0 0
    let g := fun k => secondFn (brightness a1) rho (smoothing rho) k / discFT (brightness a1) (k0 * rho)
    let second := hk first.1 (first.1.map g) 512
    SamplesHankel first firstFn 0 → SamplesHankel third (fun v => (firstVal u a1 rho)⁻¹ * profFn a1 rho v) 0 → third.1 = first.1 →
    k0 * rho ≤ 1 → SamplesHankel second g δ → second.1.Pairwise (· < ·) →
    ∀ w : ℂ, ‖w‖ ∈ second.1 → ‖w‖ < 100 →
      |aFft hk c (skLimbN hk c a1) A0 ‖w‖ rho - discMean a1 (blur (smoothing rho) (pointMag single)) w rho|
        ≤ δ / (2 * Real.pi) + (k0 * rho) ^ 2 / 3 * |discMean a1 (blur (smoothing rho) (pointMag single)) w rho - 1| := by
  intro u first third k0 g second h1 h3 hgrid hk0 h2 hinc w hw h100
  have hr : 0 < rho := lt_trans (by positivity) hrho
  have hn := discFT_near_one (brightness a1) (integrable_brightness a1) (brightness_nonneg01 a1 ha0 ha1) (flux_brightness_ne a1 ha1)
    (k0 * rho)
  have hk0' : 0 ≤ k0 * rho := mul_nonneg (samples_nonneg h1) hr.le
  have hsk : skLimbN hk c a1 first.1 rho
      = first.1.map fun k => discFT (brightness a1) (k * rho) / discFT (brightness a1) (k0 * rho) := by
    have h := sk_normalised a1 rho ha1 hr _ (inv_ne_zero (firstVal_ne _ _ _ hN a1 rho ha0 ha1 hrho)) third h3
    rw [hgrid] at h
    rw [skLimbN]
    simp only [samples_profN _ (logspace_pos _ _ _) rho a1 hr]
    exact h
  have ha : aFft hk c (skLimbN hk c a1) A0 ‖w‖ rho = aLarge hk c (skLimbN hk c a1) A0 ‖w‖ rho := by
    simp only [aFft, not_lt.mpr hsw, if_false, abs_norm]
  rw [discMean_eq_profileMean, ha]
  refine norm_error _ _ _ (k0 * rho) _ hk0' hk0 hn.1 hn.2 ?_
  refine limb_value hk c (brightness a1) (integrable_brightness a1) (flux_brightness_ne a1 ha1) A0 rho hr _ ?_ δ
    (skLimbN hk c a1) h1 hsk h2 hinc w hw h100
  have : (k0 * rho) ^ 2 ≤ 1 := pow_le_one₀ hk0' hk0
  linarith [hn.1]

end Microjax.Props
