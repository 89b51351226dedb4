import Verif.Spec.Hankel
import Verif.Lemmas.MellinBessel
import Verif.Props.GammaAccuracy
import Verif.Props.FftLogModes

/-!
# C95: the discrete Hankel transform returns the Hankel integral of every function it resolves
-/

noncomputable section

set_option linter.unusedVariables false

namespace Microjax.Props

open Spec FftLog MeasureTheory Filter Set Topology

/-- The value of `∫_0^∞ x^{s-1} J_0(x) dx`. -/
def weber (s : ℂ) : ℂ := 2 ^ (s - 1) * (Complex.Gamma (s / 2) / Complex.Gamma (1 - s / 2))

/-- The Hankel integral of a log-periodic mode. -/
theorem isHankel_mode (σ η x0 φ y : ℝ) (h0 : 0 < σ) (h2 : σ < 2) (hx0 : 0 < x0) (hy : 0 < y) :
    IsHankel (logMode σ η x0 φ) y (logModeImage (weber (σ + Complex.I * η)) σ η x0 φ y) := by
  set s : ℂ := σ + Complex.I * η with hs
  have hsre : s.re = σ := by simp [hs]
  set c : ℂ := Complex.exp (Complex.I * φ) * Complex.exp (-(Complex.I * η) * (Real.log x0 : ℝ)) with hc
  have hpt : ∀ ε : ℝ, ∀ x ∈ Ioi (0 : ℝ), logMode σ η x0 φ x / x * besselJ 0 (x * y) * Real.exp (-(ε * x ^ 2))
      = (c * ((x : ℂ) ^ (s - 1) * ((besselJ 0 (x * y) * Real.exp (-(ε * x ^ 2)) : ℝ) : ℂ))).re := by
    intro ε x hx
    have hx' : 0 < x := hx
    have hxc : (x : ℂ) ≠ 0 := by exact_mod_cast hx'.ne'
    have e1 : c * (x : ℂ) ^ (s - 1) = ((x ^ σ / x : ℝ) : ℂ)
        * Complex.exp ((η * Real.log (x / x0) + φ : ℝ) * Complex.I) := by
      rw [Complex.cpow_sub _ _ hxc, Complex.cpow_one, hs, Complex.cpow_add _ _ hxc, ← Complex.ofReal_cpow hx'.le,
        Complex.cpow_def_of_ne_zero hxc, ← Complex.ofReal_log hx'.le, hc, Real.log_div hx'.ne' hx0.ne']
      have : Complex.exp (Complex.I * φ) * Complex.exp (-(Complex.I * η) * (Real.log x0 : ℝ))
          * Complex.exp ((Real.log x : ℝ) * (Complex.I * η))
          = Complex.exp ((η * (Real.log x - Real.log x0) + φ : ℝ) * Complex.I) := by
        rw [← Complex.exp_add, ← Complex.exp_add]
        congr 1
        push_cast
        ring
      rw [← this]
      push_cast
      ring
    rw [← mul_assoc c, e1, mul_comm _ (Complex.exp _), mul_assoc (Complex.exp _), ← Complex.ofReal_mul, Complex.re_mul_ofReal,
      Complex.exp_ofReal_mul_I_re, logMode]
    ring
  refine ⟨fun ε hε => ?_, ?_⟩
  · refine IntegrableOn.congr_fun ?_ (fun x hx => (hpt ε x hx).symm) measurableSet_Ioi
    exact ((integrable_mellin s (by rw [hsre]; exact h0) y ε hε).const_mul c).re
  · have h := (mellin_J0 s (by rw [hsre]; exact h0) (by rw [hsre]; exact h2) y hy).const_mul c
    have hre := (Complex.continuous_re.tendsto _).comp h
    have hyc : (y : ℂ) ≠ 0 := by exact_mod_cast hy.ne'
    have e : (c * (2 ^ (s - 1) * (Complex.Gamma (s / 2) / Complex.Gamma (1 - s / 2)) * (y : ℂ) ^ (-s))).re
        = logModeImage (weber s) σ η x0 φ y := by
      rw [logModeImage, ← Complex.re_ofReal_mul]
      congr 1
      rw [show -s = (-σ : ℂ) + -(Complex.I * η) by rw [hs]; ring, Complex.cpow_add _ _ hyc, ← Complex.ofReal_neg,
        ← Complex.ofReal_cpow hy.le, Complex.cpow_def_of_ne_zero hyc, ← Complex.ofReal_log hy.le, hc,
        Real.log_mul hx0.ne' hy.ne', weber]
      have : Complex.exp (-(Complex.I * η) * ((Real.log x0 + Real.log y : ℝ) : ℂ))
          = Complex.exp (-(Complex.I * η) * (Real.log x0 : ℝ)) * Complex.exp ((Real.log y : ℝ) * (-(Complex.I * η))) := by
        rw [← Complex.exp_add]
        congr 1
        push_cast
        ring
      rw [this]
      ring
    rw [e] at hre
    refine hre.congr' (eventually_nhdsWithin_of_forall fun ε hε => ?_)
    simp only [Function.comp_apply]
    rw [setIntegral_congr_fun measurableSet_Ioi (hpt ε), ← integral_const_mul]
    exact (integral_re ((integrable_mellin s (by rw [hsre]; exact h0) y ε hε).const_mul c)).symm

/-- The Hankel integral is linear. -/
theorem isHankel_sum (K : ℕ) (a : ℕ → ℝ) (f : ℕ → ℝ → ℝ) (y : ℝ) (H : ℕ → ℝ) (h : ∀ m < K, IsHankel (f m) y (H m)) :
    IsHankel (fun x => ∑ m ∈ Finset.range K, a m * f m x) y (∑ m ∈ Finset.range K, a m * H m) := by
  have hpt : ∀ ε x : ℝ, (∑ m ∈ Finset.range K, a m * f m x) / x * besselJ 0 (x * y) * Real.exp (-(ε * x ^ 2))
      = ∑ m ∈ Finset.range K, a m * (f m x / x * besselJ 0 (x * y) * Real.exp (-(ε * x ^ 2))) := by
    intro ε x
    rw [Finset.sum_div, Finset.sum_mul, Finset.sum_mul]
    exact Finset.sum_congr rfl fun m _ => by ring
  constructor
  · intro ε hε
    simp only [hpt]
    exact integrable_finsetSum _ fun m hm => ((h m (Finset.mem_range.mp hm)).1 ε hε).const_mul _
  · simp only [hpt]
    have ht := tendsto_finsetSum (Finset.range K) fun m hm => (h m (Finset.mem_range.mp hm)).2.const_mul (a m)
    refine ht.congr' (eventually_nhdsWithin_of_forall fun ε hε => ?_)
    change _ = ∫ x in Ioi (0 : ℝ), ∑ m ∈ Finset.range K, a m * (f m x / x * besselJ 0 (x * y) * Real.exp (-(ε * x ^ 2)))
    rw [integral_finsetSum _ fun m hm => ((h m (Finset.mem_range.mp hm)).1 ε hε).const_mul _]
    exact Finset.sum_congr rfl fun m _ => (integral_const_mul _ _).symm

/-- The specification is the ordinary integral wherever that converges absolutely. -/
theorem isHankel_of_integrable (f : ℝ → ℝ) (y : ℝ)
    (hf : IntegrableOn (fun x => f x / x * besselJ 0 (x * y)) (Ioi 0)) :
    IsHankel f y (∫ x in Ioi (0 : ℝ), f x / x * besselJ 0 (x * y)) := by
  have hb : ∀ ε x : ℝ, 0 ≤ ε → ‖f x / x * besselJ 0 (x * y) * Real.exp (-(ε * x ^ 2))‖ ≤ ‖f x / x * besselJ 0 (x * y)‖ := by
    intro ε x hε
    rw [norm_mul, Real.norm_eq_abs (Real.exp _), Real.abs_exp]
    refine mul_le_of_le_one_right (norm_nonneg _) ?_
    rw [Real.exp_le_one_iff]
    nlinarith [mul_nonneg hε (sq_nonneg x)]
  have hm : ∀ ε : ℝ, AEStronglyMeasurable (fun x => f x / x * besselJ 0 (x * y) * Real.exp (-(ε * x ^ 2)))
      (volume.restrict (Ioi 0)) := fun ε =>
    hf.1.mul (Continuous.aestronglyMeasurable (by fun_prop))
  refine ⟨fun ε hε => Integrable.mono hf (hm ε) (ae_of_all _ fun x => hb ε x hε.le), ?_⟩
  refine tendsto_integral_filter_of_dominated_convergence (fun x => ‖f x / x * besselJ 0 (x * y)‖)
    (Eventually.of_forall hm) (eventually_nhdsWithin_of_forall fun ε hε => ae_of_all _ fun x => hb ε x (le_of_lt hε)) hf.norm
    (ae_of_all _ fun x => ?_)
  have hc : Continuous fun ε : ℝ => f x / x * besselJ 0 (x * y) * Real.exp (-(ε * x ^ 2)) := by fun_prop
  have := (hc.tendsto 0).mono_left (nhdsWithin_le_nhds (s := Ioi 0))
  simpa using this

theorem transform_length (gl : ℝ → ℂ → ℂ) (x f : List ℝ) (hf : f.length = x.length) (he : x.length % 2 = 0)
    (h2 : 2 ≤ x.length) (nu ell : ℝ) : (transform gl (init x f nu 0 0 0) ell).2.length = x.length := by
  have hle : ∀ l : List ℝ, logExtrap l 0 0 = l := by intro l; simp [logExtrap]
  simp only [transform, init, hle, ne_eq, not_true_eq_false, if_false, he, zero_ne_one]
  simp [irfft, cM, rfft, cWindow, hf]
  omega

theorem transform_sum (gl : ℝ → ℂ → ℂ) (x : List ℝ) (he : x.length % 2 = 0) (h2 : 2 ≤ x.length) (nu ell : ℝ)
    (a : ℕ → ℝ) (g : ℕ → ℝ → ℝ) (n : ℕ) (K : ℕ) :
    (transform gl (init x (x.map fun v => ∑ m ∈ Finset.range K, a m * g m v) nu 0 0 0) ell).2.getD n 0
      = ∑ m ∈ Finset.range K, a m * (transform gl (init x (x.map (g m)) nu 0 0 0) ell).2.getD n 0 := by
  have hl : ∀ g : ℝ → ℝ, (transform gl (init x (x.map g) nu 0 0 0) ell).2.length = x.length :=
    fun g => transform_length gl x _ (by simp) he h2 nu ell
  have step : ∀ (u v : ℝ) (f g : ℝ → ℝ), (transform gl (init x (x.map fun t => u * f t + v * g t) nu 0 0 0) ell).2.getD n 0
      = u * (transform gl (init x (x.map f) nu 0 0 0) ell).2.getD n 0
        + v * (transform gl (init x (x.map g) nu 0 0 0) ell).2.getD n 0 := by
    intro u v f g
    rw [← getD_lin u v _ _ ((hl f).trans (hl g).symm), ← C75_linear gl x _ _ (by simp) (by simp)]
    congr 4
    refine List.ext_getElem (by simp [lin]) fun k h1 h2 => ?_
    simp [lin]
  induction K with
  | zero =>
    have := step 0 0 (fun _ => 0) (fun _ => 0)
    simpa using this
  | succ K ih =>
    have := step 1 (a K) (fun v => ∑ m ∈ Finset.range K, a m * g m v) (g K)
    simp only [one_mul] at this
    simp only [Finset.sum_range_succ]
    rw [this, ih]

/-- The kernel of the code, at the order and with the normalisation of `hankel(0)`, is Weber's value. -/
theorem kernel_weber (z : ℂ) (hz1 : 1 ≤ z.re) (hz2 : z.re ≤ 2) :
    ‖gL gammaCode (0 - 0.5) z - (2 * Real.sqrt 2 : ℝ) * weber (z - 1 / 2)‖
      ≤ 6e-12 * (2 * Real.sqrt 2 * ‖weber (z - 1 / 2)‖) := by
  have h := C94_kernel (-1 / 2) le_rfl z hz1 hz2
  have e : (2 : ℂ) ^ z * (Complex.Gamma (((-1 / 2 : ℝ) + z) / 2) / Complex.Gamma ((3 + (-1 / 2 : ℝ) - z) / 2))
      = (2 * Real.sqrt 2 : ℝ) * weber (z - 1 / 2) := by
    rw [weber]
    have e1 : (((-1 / 2 : ℝ) : ℂ) + z) / 2 = (z - 1 / 2) / 2 := by push_cast; ring
    have e2 : (3 + ((-1 / 2 : ℝ) : ℂ) - z) / 2 = 1 - (z - 1 / 2) / 2 := by push_cast; ring
    have e3 : (2 : ℂ) ^ z = (2 * Real.sqrt 2 : ℝ) * 2 ^ (z - 1 / 2 - 1) := by
      have h3 : ((2 * Real.sqrt 2 : ℝ) : ℂ) = 2 ^ (3 / 2 : ℂ) := by
        have : (2 * Real.sqrt 2 : ℝ) = (2 : ℝ) ^ (3 / 2 : ℝ) := by
          rw [Real.sqrt_eq_rpow, show (3 / 2 : ℝ) = 1 + 1 / 2 by norm_num, Real.rpow_add two_pos, Real.rpow_one]
        rw [this, Complex.ofReal_cpow (by norm_num)]
        norm_num
      rw [h3, ← Complex.cpow_add _ _ two_ne_zero]
      congr 1
      ring
    rw [e1, e2, e3]
    ring
  rw [e, norm_mul, Complex.norm_real, Real.norm_eq_abs, abs_of_pos (by positivity)] at h
  rw [show (0 - 0.5 : ℝ) = -1 / 2 by norm_num]
  exact h

/-- **C95.**  On a geometric grid of even length `N ≥ 16`, let `f` be any function whose `x^{1/2 - ν} f` is a trigonometric
polynomial in `log x` of the period of the grid, with frequencies below the taper, and let the bias `ν` be between 1 and 2.
Then `hankel(0)`, with the gamma function of the package, returns on the grid `y = 1/(2x)` the integrals
`∫_0^∞ f(x) J_0(x y) dx/x` up to `6e-12` of the sum of the moduli of the contributions of the modes. -/
theorem C95_hankel (x0 q : ℝ) (hx0 : 0 < x0) (hq : 1 < q) (N : ℕ) (hNe : N % 2 = 0) (hN16 : 16 ≤ N) (nu : ℝ)
    (hnu1 : 1 ≤ nu) (hnu2 : nu ≤ 2) (a φ : ℕ → ℝ) (hφ : φ 0 = 0) (M : ℕ)
    (hM : M + ⌊(0.25 : ℝ) * N / 2⌋₊ ≤ N / 2) (n : ℕ) (hn : n < N) :
    let x := (List.range N).map fun k : ℕ => x0 * q ^ k
    let η := fun m : ℕ => 2 * Real.pi * m / (N * Real.log q)
    let f := fun v : ℝ => ∑ m ∈ Finset.range (M + 1), a m * logMode (nu - 1 / 2) (η m) x0 (φ m) v
    let r := hankel (gL gammaCode) x (x.map f) nu 0 0
    let y := 1 / (2 * (x0 * q ^ (N - 1 - n)))
    r.1.getD n 0 = y ∧ ∃ H, IsHankel f y H ∧ |r.2.getD n 0 - H|
      ≤ 6e-12 * ∑ m ∈ Finset.range (M + 1), |a m| * (‖weber (nu - 1 / 2 + Complex.I * η m)‖ * y ^ (1 / 2 - nu)) := by
  intro x η f r y
  have hq0 : 0 < q := by linarith
  have hy : 0 < y := by positivity
  have hxlen : x.length = N := by simp [x]
  have hyy : (0 - 0.5 + 1) / (x0 * q ^ (N - 1 - n)) = y := by
    simp only [y]
    field_simp
    norm_num
  set ell : ℝ := 0 - 0.5 with hell
  set T := fun g : ℝ → ℝ => transform (gL gammaCode) (init x (x.map g) nu 0 0 0) ell with hT
  -- `hankel` is the transform of `√x f`
  have hsamp : List.zipWith (fun xv fv => Real.sqrt xv * fv) x (x.map f)
      = x.map fun v => ∑ m ∈ Finset.range (M + 1), a m * logMode nu (η m) x0 (φ m) v := by
    refine List.ext_getElem (by simp) fun k h1 h2 => ?_
    have hk : k < N := by simpa [hxlen] using h2
    simp only [x, List.getElem_zipWith, List.getElem_map, List.getElem_range]
    have hxk : 0 < x0 * q ^ k := by positivity
    simp only [f]
    rw [Finset.mul_sum]
    refine Finset.sum_congr rfl fun m _ => ?_
    simp only [logMode]
    have : (x0 * q ^ k) ^ nu = Real.sqrt (x0 * q ^ k) * (x0 * q ^ k) ^ (nu - 1 / 2) := by
      rw [Real.sqrt_eq_rpow, ← Real.rpow_add hxk]
      congr 1
      ring
    rw [this]
    ring
  have hr : r = ((T fun v => ∑ m ∈ Finset.range (M + 1), a m * logMode nu (η m) x0 (φ m) v).1,
      List.zipWith (fun F y => F * Real.sqrt (2 * y / Real.pi))
        (T fun v => ∑ m ∈ Finset.range (M + 1), a m * logMode nu (η m) x0 (φ m) v).2
        (T fun v => ∑ m ∈ Finset.range (M + 1), a m * logMode nu (η m) x0 (φ m) v).1) := by
    simp only [r, hankel, hsamp, hT, hell]
  have hgrid : (T fun v => ∑ m ∈ Finset.range (M + 1), a m * logMode nu (η m) x0 (φ m) v).1
      = x.reverse.map fun v => (ell + 1) / v :=
    C62_reciprocal_grid _ x _ nu ell 0 0 0 (Or.inr (by rw [hxlen]; omega))
  have hy1 : (T fun v => ∑ m ∈ Finset.range (M + 1), a m * logMode nu (η m) x0 (φ m) v).1.getD n 0 = y := by
    have := (C75_power_law (gL gammaCode) x0 q hx0 hq N hNe hN16 nu ell 0 n hn).1
    rw [C62_reciprocal_grid _ _ _ _ _ 0 0 0 (Or.inr (by simp; omega))] at this
    rw [hgrid, this, hyy]
  have hy1len : (T fun v => ∑ m ∈ Finset.range (M + 1), a m * logMode nu (η m) x0 (φ m) v).1.length = N := by
    rw [hgrid]; simp [hxlen]
  have hT2len : ∀ g : ℝ → ℝ, (T g).2.length = N := fun g => by
    rw [← hxlen]
    exact transform_length _ x _ (by simp) (by rw [hxlen]; exact hNe) (by rw [hxlen]; omega) _ _
  have hr2 : r.2.getD n 0 = (∑ m ∈ Finset.range (M + 1), a m * (T (logMode nu (η m) x0 (φ m))).2.getD n 0)
      * Real.sqrt (2 * y / Real.pi) := by
    rw [← transform_sum _ x (by rw [hxlen]; exact hNe) (by rw [hxlen]; omega) nu ell a
      (fun m => logMode nu (η m) x0 (φ m)) n (M + 1), hr]
    rw [List.getD_eq_getElem _ _ (by simp [hT2len, hy1len, hn]), List.getElem_zipWith,
      ← List.getD_eq_getElem _ 0 (by rw [hT2len]; exact hn), ← List.getD_eq_getElem _ 0 (by rw [hy1len]; exact hn), hy1]
  refine ⟨by rw [hr]; exact hy1, _,
    isHankel_sum (M + 1) a _ y _ fun m _ => isHankel_mode (nu - 1 / 2) (η m) x0 (φ m) y (by linarith) (by linarith) hx0 hy, ?_⟩
  rw [hr2, Finset.sum_mul, ← Finset.sum_sub_distrib, Finset.mul_sum]
  refine (Finset.abs_sum_le_sum_abs _ _).trans (Finset.sum_le_sum fun m hm => ?_)
  have hm' : m ≤ M := by rw [Finset.mem_range] at hm; omega
  rw [mul_assoc, ← mul_sub, abs_mul, mul_left_comm]
  refine mul_le_mul_of_nonneg_left ?_ (abs_nonneg _)
  -- one mode
  set G := gL gammaCode ell (nu + Complex.I * η m) with hG
  set W := weber (nu - 1 / 2 + Complex.I * η m) with hW
  have hker : ‖G - (2 * Real.sqrt 2 : ℝ) * W‖ ≤ 6e-12 * (2 * Real.sqrt 2 * ‖W‖) := by
    have := kernel_weber (nu + Complex.I * η m) (by simpa using hnu1) (by simpa using hnu2)
    rw [show (nu : ℂ) + Complex.I * η m - 1 / 2 = nu - 1 / 2 + Complex.I * η m by ring] at this
    exact this
  set P : ℂ := Complex.exp (Complex.I * φ m) * Complex.exp (-(Complex.I * η m) * (Real.log (x0 * y) : ℝ)) with hP
  have hPn : ‖P‖ = 1 := by
    rw [hP, norm_mul, show Complex.I * (φ m : ℂ) = (φ m : ℝ) * Complex.I by ring, Complex.norm_exp_ofReal_mul_I,
      show -(Complex.I * (η m : ℂ)) * (Real.log (x0 * y) : ℝ) = ((-(η m * Real.log (x0 * y)) : ℝ) : ℂ) * Complex.I by
        push_cast; ring, Complex.norm_exp_ofReal_mul_I, one_mul]
  have hval : ∃ G' : ℝ, (T (logMode nu (η m) x0 (φ m))).2.getD n 0 = Real.sqrt Real.pi / 4 * (G' * y ^ (-nu)) ∧
      |G' - (P * ((2 * Real.sqrt 2 : ℝ) * W)).re| ≤ 6e-12 * (2 * Real.sqrt 2 * ‖W‖) := by
    rcases Nat.eq_zero_or_pos m with hm0 | hm0
    · subst hm0
      have hη0 : η 0 = 0 := by simp [η]
      have h := (C75_power_law (gL gammaCode) x0 q hx0 hq N hNe hN16 nu ell 1 n hn).2
      have hfun : logMode nu (η 0) x0 (φ 0) = fun v => 1 * v ^ nu := by
        funext v
        simp [logMode, hη0, hφ]
      refine ⟨(gL gammaCode ell nu).re, ?_, ?_⟩
      · simp only [hT]
        rw [hfun, h, hyy, one_mul]
      · have hP1 : P = 1 := by simp [hP, hη0, hφ]
        have hG0 : G = gL gammaCode ell nu := by simp [hG, hη0]
        rw [hP1, one_mul, ← hG0, ← Complex.sub_re]
        exact (Complex.abs_re_le_norm _).trans hker
    · have h := (C75_exact_on_modes (gL gammaCode) x0 q hx0 hq N m hNe hN16 hm0 (by omega) nu ell (φ m)
        (by rw [hell]; norm_num) n hn).2
      refine ⟨(P * G).re, ?_, ?_⟩
      · simp only [hT]
        rw [h, logModeImage, hyy, mul_comm (y ^ (-nu))]
      · rw [← Complex.sub_re, ← mul_sub]
        refine (Complex.abs_re_le_norm _).trans ?_
        rw [norm_mul, hPn, one_mul]
        exact hker
  obtain ⟨G', hv, hb⟩ := hval
  have hs2 : Real.sqrt 2 * Real.sqrt 2 = 2 := Real.mul_self_sqrt (by norm_num)
  have hyp : y ^ (-nu) * Real.sqrt y = y ^ (1 / 2 - nu) := by
    rw [Real.sqrt_eq_rpow, ← Real.rpow_add hy]
    congr 1
    ring
  have hpi : Real.sqrt Real.pi ≠ 0 := (Real.sqrt_pos.mpr Real.pi_pos).ne'
  have hsq : Real.sqrt (2 * y / Real.pi) = Real.sqrt 2 * Real.sqrt y / Real.sqrt Real.pi := by
    rw [Real.sqrt_div (by positivity), Real.sqrt_mul (by norm_num)]
  have hc : ((nu - 1 / 2 : ℝ) : ℂ) + Complex.I * η m = nu - 1 / 2 + Complex.I * η m := by push_cast; ring
  have hre : (P * ((2 * Real.sqrt 2 : ℝ) * W)).re = 2 * Real.sqrt 2 * (P * W).re := by
    rw [mul_left_comm, Complex.re_ofReal_mul]
  have heq : (T (logMode nu (η m) x0 (φ m))).2.getD n 0 * Real.sqrt (2 * y / Real.pi)
        - logModeImage (weber ((nu - 1 / 2 : ℝ) + Complex.I * η m)) (nu - 1 / 2) (η m) x0 (φ m) y
      = Real.sqrt 2 / 4 * y ^ (1 / 2 - nu) * (G' - (P * ((2 * Real.sqrt 2 : ℝ) * W)).re) := by
    rw [hv, hsq, logModeImage, hc, hre, show -(nu - 1 / 2) = 1 / 2 - nu by ring, ← hyp, ← hP, ← hW]
    have : Real.sqrt Real.pi / 4 * (G' * y ^ (-nu)) * (Real.sqrt 2 * Real.sqrt y / Real.sqrt Real.pi)
        = Real.sqrt 2 / 4 * (y ^ (-nu) * Real.sqrt y) * G' := by
      field_simp
    rw [this, mul_sub]
    linear_combination ((1 / 2) * (y ^ (-nu) * Real.sqrt y) * (P * W).re) * hs2
  rw [heq, abs_mul, abs_of_nonneg (by positivity)]
  calc Real.sqrt 2 / 4 * y ^ (1 / 2 - nu) * |G' - (P * ((2 * Real.sqrt 2 : ℝ) * W)).re|
      ≤ Real.sqrt 2 / 4 * y ^ (1 / 2 - nu) * (6e-12 * (2 * Real.sqrt 2 * ‖W‖)) := by gcongr
    _ = 6e-12 * (‖W‖ * y ^ (1 / 2 - nu)) := by
        linear_combination (6e-12 / 2 * ‖W‖ * y ^ (1 / 2 - nu)) * hs2

/-- The size of grid and the bias that the package uses, with all `384` frequencies below the taper. -/
example (n : ℕ) (hn : n < 1024) :
    let x := (List.range 1024).map fun k : ℕ => (1e-5 : ℝ) * (1.02 : ℝ) ^ k
    let η := fun m : ℕ => 2 * Real.pi * m / ((1024 : ℕ) * Real.log 1.02)
    let f := fun v : ℝ => ∑ m ∈ Finset.range (384 + 1), (1 / (1 + m) : ℝ) * logMode (1.5 - 1 / 2) (η m) 1e-5 (m : ℝ) v
    ∃ H, IsHankel f (1 / (2 * (1e-5 * 1.02 ^ (1024 - 1 - n)))) H ∧
      |(hankel (gL gammaCode) x (x.map f) 1.5 0 0).2.getD n 0 - H| ≤ 6e-12 * ∑ m ∈ Finset.range (384 + 1),
        |(1 / (1 + m) : ℝ)| * (‖weber ((1.5 : ℝ) - 1 / 2 + Complex.I * η m)‖
          * (1 / (2 * (1e-5 * 1.02 ^ (1024 - 1 - n)))) ^ (1 / 2 - 1.5 : ℝ)) :=
  (C95_hankel 1e-5 1.02 (by norm_num) (by norm_num) 1024 (by norm_num) (by norm_num) 1.5 (by norm_num) (by norm_num)
    (fun m => 1 / (1 + m)) (fun m => m) (by simp) 384 (by
      have : ⌊(0.25 : ℝ) * (1024 : ℕ) / 2⌋₊ = 128 := by
        rw [Nat.floor_eq_iff (by norm_num)]
        norm_num
      rw [this]) n hn).2

end Microjax.Props
