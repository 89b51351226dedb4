import Verif.Props.FftLog
import Verif.Spec.LogMode

/-!
# C75: the discrete transform is exact on the log-periodic modes it resolves, and linear
-/

noncomputable section

open Microjax.FftLog Microjax.Spec Complex

namespace Microjax.Props

lemma listSum_eq (N : ℕ) (f : ℕ → ℂ) : ((List.range N).map f).sum = ∑ n ∈ Finset.range N, f n := rfl

lemma listSumR_eq (N : ℕ) (f : ℕ → ℝ) : ((List.range N).map f).sum = ∑ n ∈ Finset.range N, f n := rfl

/-- Orthogonality of the discrete exponentials. -/
lemma root_sum_zero {N : ℕ} (hN : 0 < N) (k : ℤ) (hk : ¬ (N : ℤ) ∣ k) :
    ∑ n ∈ Finset.range N, exp (2 * Real.pi * I * k * n / N) = 0 := by
  have hNc : (N : ℂ) ≠ 0 := by exact_mod_cast hN.ne'
  have hpi : (2 * Real.pi * I : ℂ) ≠ 0 := Complex.two_pi_I_ne_zero
  set w := exp (2 * Real.pi * I * k / N) with hw
  have hpow : ∀ n : ℕ, exp (2 * Real.pi * I * k * n / N) = w ^ n := by
    intro n
    rw [hw, ← Complex.exp_nat_mul]
    congr 1
    ring
  have hw1 : w ≠ 1 := by
    intro h
    rw [hw, Complex.exp_eq_one_iff] at h
    obtain ⟨l, hl⟩ := h
    apply hk
    refine ⟨l, ?_⟩
    have h2 : (2 * Real.pi * I : ℂ) * k = (2 * Real.pi * I) * (N * l) := by
      field_simp at hl
      linear_combination (2 * Real.pi * I : ℂ) * hl
    have h3 := mul_left_cancel₀ hpi h2
    exact_mod_cast h3
  have hwN : w ^ N = 1 := by
    rw [← hpow N, mul_div_assoc, div_self hNc, mul_one]
    rw [Complex.exp_eq_one_iff]
    exact ⟨k, by ring⟩
  simp only [hpow]
  rw [geom_sum_eq hw1, hwN, sub_self, zero_div]

lemma dft_cos {N : ℕ} (m j : ℕ) (hm : 0 < m) (hm2 : 2 * m < N) (hj : 2 * j ≤ N) (φ : ℝ) :
    ∑ n ∈ Finset.range N, ((Real.cos (2 * Real.pi * m * n / N + φ) : ℝ) : ℂ) * exp (-(2 * Real.pi * I * j * n / N))
      = if j = m then (N : ℂ) / 2 * exp (I * φ) else 0 := by
  have hN : 0 < N := by omega
  have hterm : ∀ n : ℕ, ((Real.cos (2 * Real.pi * m * n / N + φ) : ℝ) : ℂ) * exp (-(2 * Real.pi * I * j * n / N))
      = exp (I * φ) / 2 * exp (2 * Real.pi * I * (((m : ℤ) - j : ℤ) : ℂ) * n / N)
        + exp (-(I * φ)) / 2 * exp (2 * Real.pi * I * ((-((m : ℤ) + j) : ℤ) : ℂ) * n / N) := by
    intro n
    rw [Complex.ofReal_cos, Complex.cos]
    rw [div_mul_eq_mul_div, add_mul, ← Complex.exp_add, ← Complex.exp_add, div_mul_eq_mul_div, div_mul_eq_mul_div,
      ← Complex.exp_add, ← Complex.exp_add, ← add_div]
    congr 3 <;> · push_cast; ring
  simp only [hterm]
  rw [Finset.sum_add_distrib, ← Finset.mul_sum, ← Finset.mul_sum,
    root_sum_zero hN (-((m : ℤ) + j)) (by
      rw [Int.dvd_neg]
      intro h
      have := Int.le_of_dvd (by omega) h
      omega), mul_zero, add_zero]
  split_ifs with h
  · subst h
    simp only [sub_self, Int.cast_zero, mul_zero, zero_mul, zero_div, Complex.exp_zero, Finset.sum_const,
      Finset.card_range, nsmul_eq_mul, mul_one]
    ring
  · rw [root_sum_zero hN ((m : ℤ) - j) (by
      intro hd
      rcases lt_or_gt_of_ne (show (m : ℤ) - j ≠ 0 by omega) with h1 | h1
      · have := Int.le_of_dvd (by omega) (Int.dvd_neg.mpr hd)
        omega
      · have := Int.le_of_dvd h1 hd
        omega), mul_zero]

/-- A single interior coefficient under `irfft`. -/
lemma irfft_single {N m : ℕ} (hNe : N % 2 = 0) (hm : 0 < m) (hm2 : 2 * m < N) (c : List ℂ)
    (hlen : c.length = N / 2 + 1) (H : ℂ) (hc : ∀ j, j ≤ N / 2 → c.getD j 0 = if j = m then H else 0)
    (n : ℕ) (hn : n < N) :
    (irfft c).getD n 0 = 2 / N * (H * exp (2 * Real.pi * I * m * n / N)).re := by
  have hNN : 2 * (c.length - 1) = N := by omega
  simp only [irfft, hNN]
  rw [List.getD_eq_getElem _ _ (by simpa using hn)]
  simp only [List.getElem_map, List.getElem_range]
  rw [listSumR_eq, hc 0 (by omega), if_neg (by omega), hc (N / 2) le_rfl, if_neg (by omega)]
  rw [Finset.sum_eq_single (m - 1)]
  · rw [hc (m - 1 + 1) (by omega), if_pos (by omega), show m - 1 + 1 = m by omega]
    simp only [zero_re, zero_mul, zero_add]
    ring
  · intro j hj hjm
    rw [Finset.mem_range] at hj
    rw [hc (j + 1) (by omega), if_neg (by omega)]
    simp
  · intro h
    exact absurd (Finset.mem_range.mpr (show m - 1 < N / 2 - 1 by omega)) h

lemma getD_map_range {α : Type} (f : ℕ → α) (N n : ℕ) (d : α) (h : n < N) : ((List.range N).map f).getD n d = f n := by
  rw [List.getD_eq_getElem _ _ (by simpa using h)]
  simp

/-- **C75.**  On a geometric grid of even length `N ≥ 16` the transform is exact on every log-periodic mode below the
taper: samples of `Re(e^{iφ} x0^{-iη} x^{ν+iη})` with `η = 2π m / (N dlnx)`, `0 < m`, are mapped to samples of
`√π/4 Re(e^{iφ} x0^{-iη} g_ℓ(ν+iη) y^{-ν-iη})` on the reciprocal grid.  No discretisation error occurs and the phase is
the right one, for every kernel `g_ℓ`, every bias, order, phase and grid. -/
theorem C75_exact_on_modes (gl : ℝ → ℂ → ℂ) (x0 q : ℝ) (hx0 : 0 < x0) (hq : 1 < q) (N m : ℕ) (hNe : N % 2 = 0)
    (hN16 : 16 ≤ N) (hm : 0 < m) (hcut : m + ⌊(0.25 : ℝ) * N / 2⌋₊ ≤ N / 2) (nu ell φ : ℝ) (hell : -1 < ell)
    (n : ℕ) (hn : n < N) :
    let x := (List.range N).map fun k : ℕ => x0 * q ^ k
    let η := 2 * Real.pi * m / (N * Real.log q)
    let r := transform gl (init x (x.map (logMode nu η x0 φ)) nu 0 0 0) ell
    let y := (ell + 1) / (x0 * q ^ (N - 1 - n))
    r.1.getD n 0 = y ∧
      r.2.getD n 0 = Real.sqrt Real.pi / 4 * logModeImage (gl ell (nu + I * η)) nu η x0 φ y := by
  intro x η r y
  have hq0 : 0 < q := by linarith
  have hlq : 0 < Real.log q := Real.log_pos hq
  have hNpos : (0 : ℝ) < N := by exact_mod_cast (show 0 < N by omega)
  have hxlen : x.length = N := by simp [x]
  have hfl : 2 ≤ ⌊(0.25 : ℝ) * N / 2⌋₊ := by
    refine Nat.le_floor ?_
    have : (16 : ℝ) ≤ N := by exact_mod_cast hN16
    push_cast
    linarith
  have hm2 : 2 * m < N := by omega
  have hxg : ∀ k, k < N → x.getD k 0 = x0 * q ^ k := fun k hk => getD_map_range _ N k 0 hk
  -- the object
  set o := init x (x.map (logMode nu η x0 φ)) nu 0 0 0 with ho
  have hox : o = ⟨nu, Real.log q, x, x.map (logMode nu η x0 φ), N, 0, 0⟩ := by
    have hle : ∀ l : List ℝ, logExtrap l 0 0 = l := by intro l; simp [logExtrap]
    have hd : Real.log (x.getD 1 0 / x.getD 0 0) = Real.log q := by
      rw [hxg 1 (by omega), hxg 0 (by omega)]
      congr 1
      field_simp
    simp only [ho, init, hle, hxlen, ne_eq, not_true_eq_false, if_false, hd]
    rw [if_neg (by omega)]
  have hgrid : r.1 = x.reverse.map fun v => (ell + 1) / v :=
    C62_reciprocal_grid gl x _ nu ell 0 0 0 (Or.inr (by rw [hxlen]; omega))
  have hyn : ∀ k, k < N → (x.reverse.map fun v => (ell + 1) / v).getD k 0 = (ell + 1) / (x0 * q ^ (N - 1 - k)) := by
    intro k hk
    rw [List.getD_eq_getElem _ _ (by simpa [hxlen] using hk)]
    simp only [List.getElem_map, List.getElem_reverse, hxlen]
    rw [← List.getD_eq_getElem x 0 (by omega), hxg _ (by omega)]
  refine ⟨by rw [hgrid]; exact hyn n hn, ?_⟩
  -- biased samples
  have hη : η * (N * Real.log q) = 2 * Real.pi * m := by
    simp only [η]; field_simp
  have hfb : List.zipWith (fun f v => f * v ^ (-o.nu)) o.fx o.x
      = (List.range N).map fun k : ℕ => Real.cos (2 * Real.pi * m * k / N + φ) := by
    rw [hox]
    refine List.ext_getElem (by simp [hxlen]) fun k h1 h2 => ?_
    have hk : k < N := by simpa using h2
    simp only [x, List.getElem_zipWith, List.getElem_map, List.getElem_range, logMode]
    have hxk : 0 < x0 * q ^ k := by positivity
    rw [mul_right_comm, ← Real.rpow_add hxk, add_neg_cancel, Real.rpow_zero, one_mul]
    congr 2
    rw [mul_div_cancel_left₀ _ hx0.ne', Real.log_pow]
    simp only [η]
    field_simp
  -- coefficients
  have hrlen : (rfft ((List.range N).map fun k : ℕ => Real.cos (2 * Real.pi * m * k / N + φ))).length = N / 2 + 1 := by
    simp [rfft]
  have hcM : ∀ j, j ≤ N / 2 → (cM o).getD j 0 = if j = m then (N : ℂ) / 2 * exp (I * φ) else 0 := by
    intro j hj
    have hoN : o.N = N := by rw [hox]
    simp only [cM, hfb, hoN]
    have hlW : (cWindow (N / 2) ⌊(0.25 : ℝ) * N / 2⌋₊).length = N / 2 + 1 := by simp [cWindow]
    rw [List.getD_eq_getElem _ _ (by simp [hrlen, hlW]; omega), List.getElem_zipWith]
    rw [← List.getD_eq_getElem (rfft _) 0 (by rw [hrlen]; omega),
      ← List.getD_eq_getElem (cWindow _ _) 0 (by rw [hlW]; omega)]
    have hcoef : (rfft ((List.range N).map fun k : ℕ => Real.cos (2 * Real.pi * m * k / N + φ))).getD j 0
        = if j = m then (N : ℂ) / 2 * exp (I * φ) else 0 := by
      rw [← dft_cos m j hm hm2 (by omega) φ]
      simp only [rfft, List.length_map, List.length_range]
      rw [getD_map_range _ _ _ _ (by omega), listSum_eq]
      refine Finset.sum_congr rfl fun k hk => ?_
      rw [getD_map_range _ _ _ _ (Finset.mem_range.mp hk)]
    rw [hcoef]
    split_ifs with hjm
    · rw [hjm, cWindow_get _ _ _ (by omega), if_neg (by omega)]
      simp
    · simp
  have hcMlen : (cM o).length = N / 2 + 1 := by
    have hoN : o.N = N := by rw [hox]
    simp only [cM, hfb, hoN, List.length_zipWith, hrlen]
    simp [cWindow]
  have heta : eta o m = η := by
    simp only [FftLog.eta, hox, η]
    field_simp
  set y0 := (ell + 1) / (x0 * q ^ (N - 1 - 0)) with hy0
  set H : ℂ := (N : ℂ) / 2 * exp (I * φ) * exp (-(I * η) * (Real.log (x0 * y0) : ℝ)) * gl ell (nu + I * η) with hH
  set hl := ((cM o).mapIdx fun m c =>
    c * exp (-(I * eta o m) * (Real.log (o.x.getD 0 0 * (o.x.reverse.map fun v => (ell + 1) / v).getD 0 0) : ℝ))
      * gl ell (o.nu + I * eta o m)) with hhl
  have hhl_get : ∀ j, j ≤ N / 2 → (hl.map (starRingEnd ℂ)).getD j 0 = if j = m then (starRingEnd ℂ) H else 0 := by
    intro j hj
    have hjl : j < hl.length := by rw [hhl, List.length_mapIdx, hcMlen]; omega
    rw [List.getD_eq_getElem _ _ (by simpa using hjl), List.getElem_map]
    simp only [hhl, List.getElem_mapIdx]
    rw [← List.getD_eq_getElem (cM o) 0 (by rw [hcMlen]; omega), hcM j hj]
    split_ifs with hjm
    · rw [hjm, heta]
      have hx' : o.x = x := by rw [hox]
      have hnu' : o.nu = nu := by rw [hox]
      rw [hx', hnu', hxg 0 (by omega), hyn 0 (by omega), pow_zero, mul_one]
    · simp
  have hlen : (hl.map (starRingEnd ℂ)).length = N / 2 + 1 := by
    rw [List.length_map, hhl, List.length_mapIdx, hcMlen]
  have hir := irfft_single hNe hm hm2 _ hlen _ hhl_get n hn
  have hirlen : (irfft (hl.map (starRingEnd ℂ))).length = N := by
    simp only [irfft, List.length_map, List.length_range]
    rw [List.length_map] at hlen
    omega
  -- the output
  have hr2 : r.2.getD n 0 = (irfft (hl.map (starRingEnd ℂ))).getD n 0 * y ^ (-nu) * Real.sqrt Real.pi / 4 := by
    have hx' : o.x = x := by rw [hox]
    have hnu' : o.nu = nu := by rw [hox]
    have hN' : o.N = N := by rw [hox]
    have hl' : o.nLow = 0 := by rw [hox]
    have hh' : o.nHigh = 0 := by rw [hox]
    change (((List.zipWith (fun v yv => v * yv ^ (-o.nu) * Real.sqrt Real.pi / 4)
      (irfft (hl.map (starRingEnd ℂ))) (o.x.reverse.map fun v => (ell + 1) / v)).take (o.N - o.nLow)).drop
        o.nHigh).getD n 0 = _
    rw [hN', hl', hh', hnu', hx', List.drop_zero, Nat.sub_zero, List.take_of_length_le (by simp [hirlen, hxlen]),
      List.getD_eq_getElem _ _ (by simp [hirlen, hxlen, hn]), List.getElem_zipWith,
      ← List.getD_eq_getElem (irfft _) 0 (by rw [hirlen]; exact hn),
      ← List.getD_eq_getElem (List.map _ x.reverse) 0 (by simpa [hxlen] using hn), hyn n hn]
  rw [hr2, hir]
  have hphase : exp (-(I * η) * (Real.log (x0 * y) : ℝ))
      = exp (-(I * η) * (Real.log (x0 * y0) : ℝ)) * exp (-(2 * Real.pi * I * m * n / N)) := by
    rw [← Complex.exp_add]
    congr 1
    have hlog : Real.log (x0 * y) = Real.log (x0 * y0) + n * Real.log q := by
      have hy : x0 * y = x0 * y0 * q ^ n := by
        simp only [y, hy0, Nat.sub_zero]
        have hp : q ^ (N - 1) = q ^ (N - 1 - n) * q ^ n := by rw [← pow_add]; congr 1; omega
        rw [hp]
        field_simp
      have hy0p : 0 < x0 * y0 := by
        have : 0 < ell + 1 := by linarith
        positivity
      rw [hy, Real.log_mul hy0p.ne' (by positivity), Real.log_pow]
    rw [hlog]
    have hη2 : (η : ℂ) * (Real.log q : ℝ) = 2 * Real.pi * m / N := by
      have : η * Real.log q = 2 * Real.pi * m / N := by rw [eq_div_iff hNpos.ne', ← hη]; ring
      rw [← Complex.ofReal_mul, this]
      push_cast
      ring
    push_cast
    linear_combination (-(I * n) : ℂ) * hη2
  have hre : ((starRingEnd ℂ) H * exp (2 * Real.pi * I * m * n / N)).re
      = (N : ℝ) / 2 * (exp (I * φ) * exp (-(I * η) * (Real.log (x0 * y) : ℝ)) * gl ell (nu + I * η)).re := by
    have h1 : exp (2 * Real.pi * I * m * n / N) = (starRingEnd ℂ) (exp (-(2 * Real.pi * I * m * n / N))) := by
      rw [← Complex.exp_conj]
      congr 1
      simp [Complex.conj_ofReal, map_ofNat (starRingEnd ℂ) 2]
      ring
    rw [h1, ← map_mul, Complex.conj_re, hphase, hH]
    have h2 : ((N : ℝ) / 2) = ((N : ℝ) / 2 : ℝ) := rfl
    rw [← Complex.re_ofReal_mul]
    congr 1
    push_cast
    ring
  rw [hre, logModeImage]
  field_simp

example : (1024 % 2 = 0 ∧ 16 ≤ 1024 ∧ 0 < 100) ∧ 100 + ⌊(0.25 : ℝ) * (1024 : ℕ) / 2⌋₊ ≤ 1024 / 2 := by
  have : ⌊(0.25 : ℝ) * (1024 : ℕ) / 2⌋₊ = 128 := by
    rw [Nat.floor_eq_iff (by norm_num)]
    norm_num
  rw [this]
  norm_num

/-- A single coefficient at frequency zero under `irfft`. -/
lemma irfft_zero {N : ℕ} (hNe : N % 2 = 0) (hN2 : 2 ≤ N) (c : List ℂ)
    (hlen : c.length = N / 2 + 1) (H : ℂ) (hc : ∀ j, j ≤ N / 2 → c.getD j 0 = if j = 0 then H else 0)
    (n : ℕ) (hn : n < N) : (irfft c).getD n 0 = H.re / N := by
  have hNN : 2 * (c.length - 1) = N := by omega
  simp only [irfft, hNN]
  rw [List.getD_eq_getElem _ _ (by simpa using hn)]
  simp only [List.getElem_map, List.getElem_range]
  rw [listSumR_eq, hc 0 (by omega), if_pos rfl, hc (N / 2) le_rfl, if_neg (by omega), Finset.sum_eq_zero]
  · simp
  · intro j hj
    rw [Finset.mem_range] at hj
    rw [hc (j + 1) (by omega), if_neg (by omega)]
    simp

/-- **C75, frequency zero.**  Samples of the power law `c x^ν` (the bias) are mapped to samples of
`√π/4 c Re(g_ℓ(ν)) y^{-ν}`. -/
theorem C75_power_law (gl : ℝ → ℂ → ℂ) (x0 q : ℝ) (hx0 : 0 < x0) (hq : 1 < q) (N : ℕ) (hNe : N % 2 = 0)
    (hN16 : 16 ≤ N) (nu ell c : ℝ) (n : ℕ) (hn : n < N) :
    let x := (List.range N).map fun k : ℕ => x0 * q ^ k
    let r := transform gl (init x (x.map fun v => c * v ^ nu) nu 0 0 0) ell
    let y := (ell + 1) / (x0 * q ^ (N - 1 - n))
    r.1.getD n 0 = y ∧ r.2.getD n 0 = Real.sqrt Real.pi / 4 * (c * (gl ell nu).re * y ^ (-nu)) := by
  intro x r y
  have hq0 : 0 < q := by linarith
  have hNpos : (0 : ℝ) < N := by exact_mod_cast (show 0 < N by omega)
  have hxlen : x.length = N := by simp [x]
  have hcut : ⌊(0.25 : ℝ) * N / 2⌋₊ ≤ N / 2 := by
    refine Nat.floor_le_of_le ?_
    have h : ((N / 2 : ℕ) : ℝ) = N / 2 := by
      rw [Nat.cast_div (by omega) (by norm_num)]
      norm_num
    rw [h]
    linarith
  have hfl : 2 ≤ ⌊(0.25 : ℝ) * N / 2⌋₊ := by
    refine Nat.le_floor ?_
    have : (16 : ℝ) ≤ N := by exact_mod_cast hN16
    push_cast
    linarith
  have hxg : ∀ k, k < N → x.getD k 0 = x0 * q ^ k := fun k hk => getD_map_range _ N k 0 hk
  set o := init x (x.map fun v => c * v ^ nu) nu 0 0 0 with ho
  have hox : o = ⟨nu, Real.log q, x, x.map fun v => c * v ^ nu, N, 0, 0⟩ := by
    have hle : ∀ l : List ℝ, logExtrap l 0 0 = l := by intro l; simp [logExtrap]
    have hd : Real.log (x.getD 1 0 / x.getD 0 0) = Real.log q := by
      rw [hxg 1 (by omega), hxg 0 (by omega)]
      congr 1
      field_simp
    simp only [ho, init, hle, hxlen, ne_eq, not_true_eq_false, if_false, hd]
    rw [if_neg (by omega)]
  have hgrid : r.1 = x.reverse.map fun v => (ell + 1) / v :=
    C62_reciprocal_grid gl x _ nu ell 0 0 0 (Or.inr (by rw [hxlen]; omega))
  have hyn : ∀ k, k < N → (x.reverse.map fun v => (ell + 1) / v).getD k 0 = (ell + 1) / (x0 * q ^ (N - 1 - k)) := by
    intro k hk
    rw [List.getD_eq_getElem _ _ (by simpa [hxlen] using hk)]
    simp only [List.getElem_map, List.getElem_reverse, hxlen]
    rw [← List.getD_eq_getElem x 0 (by omega), hxg _ (by omega)]
  refine ⟨by rw [hgrid]; exact hyn n hn, ?_⟩
  have hfb : List.zipWith (fun f v => f * v ^ (-o.nu)) o.fx o.x = (List.range N).map fun _ : ℕ => c := by
    rw [hox]
    refine List.ext_getElem (by simp [hxlen]) fun k h1 h2 => ?_
    simp only [x, List.getElem_zipWith, List.getElem_map, List.getElem_range]
    have hxk : 0 < x0 * q ^ k := by positivity
    rw [mul_assoc, ← Real.rpow_add hxk, add_neg_cancel, Real.rpow_zero, mul_one]
  have hrlen : (rfft ((List.range N).map fun _ : ℕ => c)).length = N / 2 + 1 := by simp [rfft]
  have hcM : ∀ j, j ≤ N / 2 → (cM o).getD j 0 = if j = 0 then (N : ℂ) * c else 0 := by
    intro j hj
    have hoN : o.N = N := by rw [hox]
    simp only [cM, hfb, hoN]
    have hlW : (cWindow (N / 2) ⌊(0.25 : ℝ) * N / 2⌋₊).length = N / 2 + 1 := by simp [cWindow]
    rw [List.getD_eq_getElem _ _ (by rw [List.length_zipWith, hrlen, hlW]; omega), List.getElem_zipWith]
    rw [← List.getD_eq_getElem (rfft _) 0 (by rw [hrlen]; omega),
      ← List.getD_eq_getElem (cWindow _ _) 0 (by rw [hlW]; omega)]
    have hcoef : (rfft ((List.range N).map fun _ : ℕ => c)).getD j 0 = if j = 0 then (N : ℂ) * c else 0 := by
      simp only [rfft, List.length_map, List.length_range]
      rw [getD_map_range _ _ _ _ (by omega), listSum_eq]
      have hterm : ∀ k ∈ Finset.range N, (((List.map (fun _ => c) (List.range N)).getD k 0 : ℝ) : ℂ)
          * exp (-(2 * Real.pi * I * j * k / N)) = c * exp (2 * Real.pi * I * ((-(j : ℤ) : ℤ) : ℂ) * k / N) := by
        intro k hk
        rw [getD_map_range _ _ _ _ (Finset.mem_range.mp hk)]
        congr 2
        push_cast
        ring
      rw [Finset.sum_congr rfl hterm, ← Finset.mul_sum]
      split_ifs with hj0
      · subst hj0
        simp [mul_comm]
      · rw [root_sum_zero (by omega) (-(j : ℤ)) (by
          rw [Int.dvd_neg]
          intro h
          have := Int.le_of_dvd (by omega) h
          omega), mul_zero]
    rw [hcoef]
    split_ifs with hjm
    · rw [hjm, cWindow_get _ _ _ (by omega), if_neg (by omega)]
      simp
    · simp
  have hcMlen : (cM o).length = N / 2 + 1 := by
    have hoN : o.N = N := by rw [hox]
    simp only [cM, hfb, hoN, List.length_zipWith, hrlen]
    simp [cWindow]
  have heta : eta o 0 = 0 := by simp [FftLog.eta]
  set hl := ((cM o).mapIdx fun m c =>
    c * exp (-(I * eta o m) * (Real.log (o.x.getD 0 0 * (o.x.reverse.map fun v => (ell + 1) / v).getD 0 0) : ℝ))
      * gl ell (o.nu + I * eta o m)) with hhl
  have hhl_get : ∀ j, j ≤ N / 2 → (hl.map (starRingEnd ℂ)).getD j 0
      = if j = 0 then (starRingEnd ℂ) ((N : ℂ) * c * gl ell nu) else 0 := by
    intro j hj
    have hjl : j < hl.length := by rw [hhl, List.length_mapIdx, hcMlen]; omega
    rw [List.getD_eq_getElem _ _ (by simpa using hjl), List.getElem_map]
    simp only [hhl, List.getElem_mapIdx]
    rw [← List.getD_eq_getElem (cM o) 0 (by rw [hcMlen]; omega), hcM j hj]
    split_ifs with hjm
    · have hnu' : o.nu = nu := by rw [hox]
      rw [hjm, heta, hnu']
      simp
    · simp
  have hlen : (hl.map (starRingEnd ℂ)).length = N / 2 + 1 := by
    rw [List.length_map, hhl, List.length_mapIdx, hcMlen]
  have hir := irfft_zero hNe (by omega) _ hlen _ hhl_get n hn
  have hirlen : (irfft (hl.map (starRingEnd ℂ))).length = N := by
    simp only [irfft, List.length_map, List.length_range]
    rw [List.length_map] at hlen
    omega
  have hr2 : r.2.getD n 0 = (irfft (hl.map (starRingEnd ℂ))).getD n 0 * y ^ (-nu) * Real.sqrt Real.pi / 4 := by
    have hx' : o.x = x := by rw [hox]
    have hnu' : o.nu = nu := by rw [hox]
    have hN' : o.N = N := by rw [hox]
    have hl' : o.nLow = 0 := by rw [hox]
    have hh' : o.nHigh = 0 := by rw [hox]
    change (((List.zipWith (fun v yv => v * yv ^ (-o.nu) * Real.sqrt Real.pi / 4)
      (irfft (hl.map (starRingEnd ℂ))) (o.x.reverse.map fun v => (ell + 1) / v)).take (o.N - o.nLow)).drop
        o.nHigh).getD n 0 = _
    rw [hN', hl', hh', hnu', hx', List.drop_zero, Nat.sub_zero, List.take_of_length_le (by simp [hirlen, hxlen]),
      List.getD_eq_getElem _ _ (by simp [hirlen, hxlen, hn]), List.getElem_zipWith,
      ← List.getD_eq_getElem (irfft _) 0 (by rw [hirlen]; exact hn),
      ← List.getD_eq_getElem (List.map _ x.reverse) 0 (by simpa [hxlen] using hn), hyn n hn]
  rw [hr2, hir, Complex.conj_re]
  have hre : ((N : ℂ) * c * gl ell nu).re = N * (c * (gl ell nu).re) := by
    rw [mul_assoc, ← Complex.ofReal_natCast, Complex.re_ofReal_mul, Complex.re_ofReal_mul]
  rw [hre]
  field_simp

/-! ### Linearity -/

/-- Elementwise linear combination of two real arrays. -/
def lin (a b : ℝ) (f g : List ℝ) : List ℝ := List.zipWith (fun u v => a * u + b * v) f g

/-- Elementwise real-linear combination of two complex arrays. -/
def linC (a b : ℝ) (f g : List ℂ) : List ℂ := List.zipWith (fun u v => a * u + b * v) f g

lemma getD_lin (a b : ℝ) (f g : List ℝ) (h : f.length = g.length) (n : ℕ) :
    (lin a b f g).getD n 0 = a * f.getD n 0 + b * g.getD n 0 := by
  rcases lt_or_ge n f.length with hn | hn
  · rw [List.getD_eq_getElem _ _ (by simp [lin]; omega), List.getD_eq_getElem _ _ hn,
      List.getD_eq_getElem _ _ (by omega)]
    simp [lin]
  · rw [List.getD_eq_default _ _ (by simp [lin]; omega), List.getD_eq_default _ _ hn,
      List.getD_eq_default _ _ (by omega)]
    ring

lemma getD_linC (a b : ℝ) (f g : List ℂ) (h : f.length = g.length) (n : ℕ) :
    (linC a b f g).getD n 0 = a * f.getD n 0 + b * g.getD n 0 := by
  rcases lt_or_ge n f.length with hn | hn
  · rw [List.getD_eq_getElem _ _ (by simp [linC]; omega), List.getD_eq_getElem _ _ hn,
      List.getD_eq_getElem _ _ (by omega)]
    simp [linC]
  · rw [List.getD_eq_default _ _ (by simp [linC]; omega), List.getD_eq_default _ _ hn,
      List.getD_eq_default _ _ (by omega)]
    ring

lemma rfft_lin (a b : ℝ) (f g : List ℝ) (h : f.length = g.length) :
    rfft (lin a b f g) = linC a b (rfft f) (rfft g) := by
  have hl : (lin a b f g).length = f.length := by simp [lin, h]
  refine List.ext_getElem (by simp [rfft, linC, hl, h]) fun n h1 h2 => ?_
  simp only [rfft, linC, List.getElem_zipWith, List.getElem_map, List.getElem_range, listSum_eq, hl]
  rw [← h, Finset.mul_sum, Finset.mul_sum, ← Finset.sum_add_distrib]
  refine Finset.sum_congr rfl fun k _ => ?_
  rw [getD_lin a b f g h]
  push_cast
  ring

lemma irfft_lin (a b : ℝ) (f g : List ℂ) (h : f.length = g.length) :
    irfft (linC a b f g) = lin a b (irfft f) (irfft g) := by
  have hl : (linC a b f g).length = f.length := by simp [linC, h]
  refine List.ext_getElem (by simp [irfft, lin, hl, h]) fun n h1 h2 => ?_
  simp only [irfft, lin, List.getElem_zipWith, List.getElem_map, List.getElem_range, listSumR_eq, hl]
  rw [← h]
  simp only [getD_linC a b f g h, add_mul, add_re, mul_assoc, re_ofReal_mul, Finset.sum_add_distrib,
    ← Finset.mul_sum]
  ring

/-- **C75.**  The transform is linear in the samples, for every grid, padding, order and kernel: together with
`C75_exact_on_modes` it is exact on every superposition of resolved modes. -/
theorem C75_linear (gl : ℝ → ℂ → ℂ) (x f g : List ℝ) (hf : f.length = x.length) (hg : g.length = x.length)
    (nu ell a b : ℝ) (pad : ℕ) :
    (transform gl (init x (lin a b f g) nu 0 0 pad) ell).2
      = lin a b (transform gl (init x f nu 0 0 pad) ell).2 (transform gl (init x g nu 0 0 pad) ell).2 := by
  have hle : ∀ l : List ℝ, logExtrap l 0 0 = l := by intro l; simp [logExtrap]
  -- the objects agree except for the samples, which are linear
  have key : ∃ (o : Obj) (F G : List ℝ), F.length = G.length ∧
      init x (lin a b f g) nu 0 0 pad = { o with fx := lin a b F G } ∧
      init x f nu 0 0 pad = { o with fx := F } ∧ init x g nu 0 0 pad = { o with fx := G } := by
    have happ : ∀ u v w z : List ℝ, u.length = v.length →
        lin a b (u ++ w) (v ++ z) = lin a b u v ++ lin a b w z := by
      intro u v w z h
      simp only [lin]
      rw [List.zipWith_append h]
    have hrep : lin a b (List.replicate pad 0) (List.replicate pad 0) = List.replicate pad 0 := by
      simp [lin]
    have hpadlin : List.replicate pad 0 ++ lin a b f g ++ List.replicate pad 0
        = lin a b (List.replicate pad 0 ++ f ++ List.replicate pad 0)
            (List.replicate pad 0 ++ g ++ List.replicate pad 0) := by
      rw [happ _ _ _ _ (by simp [hf, hg]), happ _ _ _ _ rfl, hrep]
    have hdrop : ∀ u v : List ℝ, u.length = v.length →
        (lin a b u v).dropLast = lin a b u.dropLast v.dropLast := by
      intro u v h
      simp only [lin, List.dropLast_eq_take, List.length_zipWith]
      rw [List.take_zipWith, ← h, min_self]
    set F := List.replicate pad (0 : ℝ) ++ f ++ List.replicate pad 0 with hFd
    set G := List.replicate pad (0 : ℝ) ++ g ++ List.replicate pad 0 with hGd
    have hFG : F.length = G.length := by simp [F, G, hf, hg]
    by_cases hp : pad = 0
    · subst hp
      by_cases hodd : x.length % 2 = 1
      · refine ⟨init x f nu 0 0 0, f.dropLast, g.dropLast, by simp [hf, hg], ?_, ?_, ?_⟩ <;>
          simp [init, hle, hodd, hdrop f g (hf.trans hg.symm)]
      · refine ⟨init x f nu 0 0 0, f, g, hf.trans hg.symm, ?_, ?_, ?_⟩ <;>
          simp [init, hle, hodd]
    · by_cases hodd : (x.length + 2 * pad) % 2 = 1
      · refine ⟨init x f nu 0 0 pad, F.dropLast, G.dropLast, by simp [hFG], ?_, ?_, ?_⟩ <;>
          simp only [init, hle, ne_eq, hp, not_false_eq_true, if_true, hodd, hpadlin, hdrop F G hFG, ← hFd, ← hGd]
      · refine ⟨init x f nu 0 0 pad, F, G, hFG, ?_, ?_, ?_⟩ <;>
          simp only [init, hle, ne_eq, hp, not_false_eq_true, if_true, hodd, if_false, hpadlin, ← hFd, ← hGd]
  obtain ⟨o, F, G, hFG, e1, e2, e3⟩ := key
  rw [e1, e2, e3]
  -- biased samples
  have hfb : ∀ u v w : List ℝ, List.zipWith (fun f x => f * x ^ (-o.nu)) (lin a b u v) w
      = lin a b (List.zipWith (fun f x => f * x ^ (-o.nu)) u w) (List.zipWith (fun f x => f * x ^ (-o.nu)) v w) := by
    intro u v w
    refine List.ext_getElem (by simp [lin]) fun n h1 h2 => ?_
    simp only [lin, List.getElem_zipWith]
    ring
  have hcM : cM { o with fx := lin a b F G } = linC a b (cM { o with fx := F }) (cM { o with fx := G }) := by
    simp only [cM]
    rw [hfb, rfft_lin _ _ _ _ (by simp [hFG])]
    refine List.ext_getElem (by simp [linC]) fun n h1 h2 => ?_
    simp only [linC, List.getElem_zipWith]
    ring
  have hlenc : (cM { o with fx := F }).length = (cM { o with fx := G }).length := by
    simp [cM, rfft, hFG]
  set y := o.x.reverse.map fun v => (ell + 1) / v with hy
  set T : List ℂ → List ℂ := fun c => (c.mapIdx fun m c =>
    c * exp (-(I * FftLog.eta o m) * (Real.log (o.x.getD 0 0 * y.getD 0 0) : ℝ)) * gl ell (o.nu + I * FftLog.eta o m)).map
      (starRingEnd ℂ) with hT
  have hTlin : ∀ u v, u.length = v.length → T (linC a b u v) = linC a b (T u) (T v) := by
    intro u v h
    refine List.ext_getElem (by simp [T, linC]) fun n h1 h2 => ?_
    simp only [T, linC, List.getElem_map, List.getElem_mapIdx, List.getElem_zipWith, map_mul, map_add,
      Complex.conj_ofReal]
    ring
  have hout : ∀ fx, (transform gl { o with fx := fx } ell).2
      = ((List.zipWith (fun v yv => v * yv ^ (-o.nu) * Real.sqrt Real.pi / 4)
          (irfft (T (cM { o with fx := fx }))) y).take (o.N - o.nLow)).drop o.nHigh := fun fx => rfl
  rw [hout, hout, hout, hcM, hTlin _ _ hlenc, irfft_lin _ _ _ _ (by simp [T, hlenc])]
  have hz : ∀ u v w : List ℝ, List.zipWith (fun v yv => v * yv ^ (-o.nu) * Real.sqrt Real.pi / 4) (lin a b u v) w
      = lin a b (List.zipWith (fun v yv => v * yv ^ (-o.nu) * Real.sqrt Real.pi / 4) u w)
          (List.zipWith (fun v yv => v * yv ^ (-o.nu) * Real.sqrt Real.pi / 4) v w) := by
    intro u v w
    refine List.ext_getElem (by simp [lin]) fun n h1 h2 => ?_
    simp only [lin, List.getElem_zipWith]
    ring
  rw [hz]
  simp only [lin]
  rw [List.take_zipWith, List.drop_zipWith]

example : ([1, 0, 2] : List ℝ).length = ([1, 2, 4] : List ℝ).length := rfl

end Microjax.Props
