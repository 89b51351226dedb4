import Verif.Props.GammaAccuracy

/-!
# C103: the kernels of the transforms with derivatives and squares of spherical Bessel functions
-/

noncomputable section

namespace Microjax.Props

open Special FftLog

/-- Three terms of Stirling's series, as both asymptotic branches use them. -/
theorem stirling_three (w : ℂ) (hw : 1 / 20 ≤ w.re) (hb : 99 ≤ ‖2 * w + 1‖) :
    ∃ E : ℂ, Complex.exp (logS 3 w) = Complex.Gamma w * Complex.exp E ∧ ‖E‖ ≤ 7.5e-12 := by
  obtain ⟨E, h1, b1⟩ := stirling_error 3 1.4 (by norm_num) defect_three w (by linarith) (by linarith)
  refine ⟨E, h1, b1.trans ?_⟩
  calc 1.4 / (4 * w.re * ‖2 * w + 1‖ ^ (2 * 3)) ≤ 1.4 / (4 * (1 / 20) * 99 ^ (2 * 3)) := by gcongr
    _ ≤ 7.5e-12 := by norm_num

/-- `g_m_vals` in the right half plane, as an exponential of the error. -/
theorem gMVals_exp (mu : ℝ) (hmu : 0 ≤ mu) (q : ℂ) (hq : |q.re| ≤ 5 / 2) (hp0 : 1 / 20 ≤ ((mu + 1 + q) / 2).re)
    (hm0 : 1 / 20 ≤ ((mu + 1 - q) / 2).re) :
    ∃ E : ℂ, gMVals gammaCode mu q
      = Complex.Gamma ((mu + 1 + q) / 2) / Complex.Gamma ((mu + 1 - q) / 2) * Complex.exp E ∧ ‖E‖ ≤ 1.5e-11 := by
  rw [abs_le] at hq
  set p : ℂ := (mu + 1 + q) / 2 with hp
  set m : ℂ := (mu + 1 - q) / 2 with hm
  have hpre : p.re = (mu + 1 + q.re) / 2 := by rw [hp]; simp
  have hmre : m.re = (mu + 1 - q.re) / 2 := by rw [hm]; simp
  have hne : q ≠ mu + 1 := by
    intro h
    rw [hm, h] at hm0
    norm_num at hm0
  rw [gMVals]
  simp only [← hp, ← hm, if_neg hne]
  split_ifs with hbig
  · have big : ∀ w : ℂ, mu - 3 / 2 ≤ 2 * w.re → |2 * w.im| = |q.im| → 99 ≤ ‖2 * w + 1‖ := by
      intro w h2 h3
      rw [abs_of_nonneg hmu] at hbig
      by_cases hi : 100 ≤ |q.im|
      · refine le_trans ?_ (Complex.abs_im_le_norm _)
        have : (2 * w + 1).im = 2 * w.im := by simp
        rw [this, h3]; linarith
      · refine le_trans ?_ ((le_abs_self _).trans (Complex.abs_re_le_norm _))
        have : (2 * w + 1).re = 2 * w.re + 1 := by simp
        rw [this]
        linarith
    have hpim : 2 * p.im = q.im := by rw [hp]; simp; ring
    have hmim : 2 * m.im = -q.im := by rw [hm]; simp; ring
    obtain ⟨E1, h1, b1⟩ := stirling_three p hp0 (big p (by rw [hpre]; linarith) (by rw [hpim]))
    obtain ⟨E2, h2, b2⟩ := stirling_three m hm0 (big m (by rw [hmre]; linarith) (by rw [hmim, abs_neg]))
    refine ⟨E1 - E2, ?_, ?_⟩
    · rw [Complex.exp_sub, div_mul_div_comm, ← h1, ← h2, ← Complex.exp_sub]
      congr 1
      simp only [logS, Finset.sum_range_succ, Finset.sum_range_zero, stirling, List.getD_cons_zero, List.getD_cons_succ]
      have hqpm : q = p - m := by rw [hp, hm]; ring
      have hp1 : p ≠ 0 := by intro h; rw [h] at hp0; norm_num at hp0
      have hm1 : m ≠ 0 := by intro h; rw [h] at hm0; norm_num at hm0
      rw [hqpm]
      push_cast
      field_simp
      ring
    · refine (norm_sub_le _ _).trans ?_
      norm_num at b1 b2 ⊢
      linarith
  · obtain ⟨E1, h1, b1⟩ := gammaCode_eq p (by linarith)
    obtain ⟨E2, h2, b2⟩ := gammaCode_eq m (by linarith)
    refine ⟨E1 - E2, ?_, ?_⟩
    · rw [h1, h2, Complex.exp_sub, div_mul_div_comm]
    · refine (norm_sub_le _ _).trans ?_
      norm_num at b1 b2 ⊢
      linarith

/-- `g_m_ratio` in the right half plane. -/
theorem gMRatio_exp (a : ℂ) (ha : 1 / 20 ≤ a.re) :
    ∃ E : ℂ, gMRatio gammaCode a = Complex.Gamma a / Complex.Gamma (a + 1 / 2) * Complex.exp E ∧ ‖E‖ ≤ 1.5e-11 := by
  set m : ℂ := a + 1 / 2 with hm
  have hmre : m.re = a.re + 1 / 2 := by rw [hm]; simp
  have hmim : m.im = a.im := by rw [hm]; simp
  have hm' : a + 0.5 = m := by rw [hm]; norm_num
  rw [gMRatio]
  simp only [hm']
  split_ifs with hbig
  · have big : ∀ w : ℂ, |w.im| = |a.im| → 99 ≤ ‖2 * w + 1‖ := by
      intro w h3
      refine le_trans ?_ (Complex.abs_im_le_norm _)
      have : (2 * w + 1).im = 2 * w.im := by simp
      rw [this, abs_mul, h3, abs_two]; linarith
    obtain ⟨E1, h1, b1⟩ := stirling_three a ha (big a rfl)
    obtain ⟨E2, h2, b2⟩ := stirling_three m (by rw [hmre]; linarith) (big m (by rw [hmim]))
    refine ⟨E1 - E2, ?_, ?_⟩
    · rw [Complex.exp_sub, div_mul_div_comm, ← h1, ← h2, ← Complex.exp_sub]
      congr 1
      simp only [logS, Finset.sum_range_succ, Finset.sum_range_zero, stirling, List.getD_cons_zero, List.getD_cons_succ]
      have ham : a = m - 1 / 2 := by rw [hm]; ring
      have hp1 : a ≠ 0 := by intro h; rw [h] at ha; norm_num at ha
      have hm1 : m ≠ 0 := by intro h; rw [h] at hmre; norm_num at hmre; linarith
      have e : a * Complex.log m = (m - 1 / 2) * Complex.log m := by rw [← ham]
      have e2 : (0.5 : ℂ) = m - a := by rw [hm]; norm_num
      rw [e]
      push_cast
      have e3 : (a - 0.5) * Complex.log a = (a - 1 / 2) * Complex.log a := by norm_num
      rw [e3, e2]
      field_simp
      ring
    · refine (norm_sub_le _ _).trans ?_
      norm_num at b1 b2 ⊢
      linarith
  · obtain ⟨E1, h1, b1⟩ := gammaCode_eq a (by linarith)
    obtain ⟨E2, h2, b2⟩ := gammaCode_eq m (by linarith)
    refine ⟨E1 - E2, ?_, ?_⟩
    · rw [h1, h2, Complex.exp_sub, div_mul_div_comm]
    · refine (norm_sub_le _ _).trans ?_
      norm_num at b1 b2 ⊢
      linarith

theorem two_cpow (z : ℂ) : Complex.exp (z * Real.log 2) = 2 ^ z := by
  rw [Complex.cpow_def_of_ne_zero two_ne_zero, mul_comm, ← Complex.ofReal_ofNat, Complex.ofReal_log two_pos.le]

/-- **C103, first derivative**: the kernel of `fftlog_dj` is `-2^{z-1} (z-1) Γ((l+z-1)/2) / Γ((4+l-z)/2)`, the Mellin transform
of `j_l'` (up to the factor `√π/4`), with a relative error below `3e-11` on both branches. -/
theorem C103_dj (l : ℝ) (hl : 0 ≤ l) (z : ℂ) (hz1 : 1.1 ≤ z.re) (hz2 : z.re ≤ 2) :
    let K := -2 ^ (z - 1) * (z - 1) * (Complex.Gamma ((l + z - 1) / 2) / Complex.Gamma ((4 + l - z) / 2))
    ‖gL1 gammaCode l z - K‖ ≤ 3e-11 * ‖K‖ := by
  intro K
  have e1 : (((l + 0.5 : ℝ) : ℂ) + 1 + (z - 2.5)) / 2 = (l + z - 1) / 2 := by push_cast; ring
  have e2 : (((l + 0.5 : ℝ) : ℂ) + 1 - (z - 2.5)) / 2 = (4 + l - z) / 2 := by push_cast; ring
  obtain ⟨E, hE, hb⟩ := gMVals_exp (l + 0.5) (by linarith) (z - 2.5) (by
      have : (z - 2.5).re = z.re - 2.5 := by norm_num
      rw [this, abs_le]
      norm_num at hz1 hz2 ⊢
      constructor <;> linarith)
    (by rw [e1]; simp; norm_num at hz1 ⊢; linarith) (by rw [e2]; simp; norm_num at hz2 ⊢; linarith)
  rw [e1, e2] at hE
  have h : gL1 gammaCode l z = K * Complex.exp E := by rw [gL1, two_cpow, hE]; simp only [K]; ring
  rw [h]
  refine (exp_rel _ E _ hb (by norm_num)).trans (le_of_eq ?_)
  norm_num

/-- **C103, second derivative**: the kernel of `fftlog_ddj` is `2^{z-2} (z-1) (z-2) Γ((l+z-2)/2) / Γ((5+l-z)/2)`. -/
theorem C103_ddj (l : ℝ) (hl : 1 ≤ l) (z : ℂ) (hz1 : 1.1 ≤ z.re) (hz2 : z.re ≤ 2) :
    let K := 2 ^ (z - 2) * (z - 1) * (z - 2) * (Complex.Gamma ((l + z - 2) / 2) / Complex.Gamma ((5 + l - z) / 2))
    ‖gL2 gammaCode l z - K‖ ≤ 3e-11 * ‖K‖ := by
  intro K
  have e1 : (((l + 0.5 : ℝ) : ℂ) + 1 + (z - 3.5)) / 2 = (l + z - 2) / 2 := by push_cast; ring
  have e2 : (((l + 0.5 : ℝ) : ℂ) + 1 - (z - 3.5)) / 2 = (5 + l - z) / 2 := by push_cast; ring
  obtain ⟨E, hE, hb⟩ := gMVals_exp (l + 0.5) (by linarith) (z - 3.5) (by
      have : (z - 3.5).re = z.re - 3.5 := by norm_num
      rw [this, abs_le]
      norm_num at hz1 hz2 ⊢
      constructor <;> linarith)
    (by rw [e1]; simp; norm_num at hz1 ⊢; linarith) (by rw [e2]; simp; norm_num at hz2 ⊢; linarith)
  rw [e1, e2] at hE
  have h : gL2 gammaCode l z = K * Complex.exp E := by rw [gL2, two_cpow, hE]; simp only [K]; ring
  rw [h]
  refine (exp_rel _ E _ hb (by norm_num)).trans (le_of_eq ?_)
  norm_num

/-- **C103, squares**: the kernel of `fftlog_jsqr` is `Γ(l+z/2) Γ((2-z)/2) / (Γ((3-z)/2) Γ(2+l-z/2))`. -/
theorem C103_jsqr (l : ℝ) (hl : 0 ≤ l) (z : ℂ) (hz1 : 1 ≤ z.re) (hz2 : z.re ≤ 1.9) :
    let K := Complex.Gamma (l + z / 2) * Complex.Gamma ((2 - z) / 2) / Complex.Gamma ((3 - z) / 2)
      / Complex.Gamma (2 + l - z / 2)
    ‖hL gammaCode l z - K‖ ≤ 6e-11 * ‖K‖ := by
  intro K
  have e1 : (((2 * l + 1 : ℝ) : ℂ) + 1 + (z - 2)) / 2 = l + z / 2 := by push_cast; ring
  have e2 : (((2 * l + 1 : ℝ) : ℂ) + 1 - (z - 2)) / 2 = 2 + l - z / 2 := by push_cast; ring
  have e3 : (2 - z) / 2 + 1 / 2 = (3 - z) / 2 := by ring
  obtain ⟨E, hE, hb⟩ := gMVals_exp (2 * l + 1) (by linarith) (z - 2) (by
      have : (z - 2).re = z.re - 2 := by simp
      rw [this, abs_le]
      norm_num at hz1 hz2 ⊢
      constructor <;> linarith)
    (by rw [e1]; simp; norm_num at hz1 ⊢; linarith) (by rw [e2]; simp; norm_num at hz2 ⊢; linarith)
  obtain ⟨E', hE', hb'⟩ := gMRatio_exp ((2 - z) / 2) (by simp; norm_num at hz2 ⊢; linarith)
  rw [e1, e2] at hE
  rw [e3] at hE'
  have h : hL gammaCode l z = K * Complex.exp (E + E') := by
    rw [hL, hE, hE', Complex.exp_add]; simp only [K]; ring
  rw [h]
  refine (exp_rel _ (E + E') 3e-11 ((norm_add_le _ _).trans ?_) (by norm_num)).trans (le_of_eq ?_)
  · norm_num at hb hb' ⊢
    linarith
  · norm_num

/-- **C103, integration by parts**: with any gamma function the kernels of the derivatives are the kernel of `j_l` at the shifted
argument times the factors `-(z-1)` and `(z-1)(z-2)` that integration by parts of `∫ x^{z-1} j_l'` and `∫ x^{z-1} j_l''` gives. -/
theorem C103_by_parts (gam : ℂ → ℂ) (l : ℝ) (z : ℂ) :
    gL1 gam l z = -(z - 1) * gL gam l (z - 1) ∧ gL2 gam l z = (z - 1) * (z - 2) * gL gam l (z - 2) := by
  constructor
  · rw [gL1, gL, show z - 1 - 1.5 = z - 2.5 by norm_num; ring]
    ring
  · rw [gL2, gL, show z - 2 - 1.5 = z - 3.5 by norm_num; ring]
    ring

/-- The default bias `1.1` at a frequency of the large branch. -/
example : ‖gL1 gammaCode 1 (1.1 + 500 * Complex.I) - (-2 ^ ((1.1 + 500 * Complex.I) - 1 : ℂ) * ((1.1 + 500 * Complex.I) - 1)
      * (Complex.Gamma (((1 : ℝ) + (1.1 + 500 * Complex.I) - 1) / 2)
        / Complex.Gamma ((4 + (1 : ℝ) - (1.1 + 500 * Complex.I)) / 2)))‖
    ≤ 3e-11 * ‖(-2 ^ ((1.1 + 500 * Complex.I) - 1 : ℂ) * ((1.1 + 500 * Complex.I) - 1)
      * (Complex.Gamma (((1 : ℝ) + (1.1 + 500 * Complex.I) - 1) / 2)
        / Complex.Gamma ((4 + (1 : ℝ) - (1.1 + 500 * Complex.I)) / 2)))‖ :=
  C103_dj 1 (by norm_num) _ (by simp) (by simp; norm_num)

end Microjax.Props
