import Verif.Lemmas.StirlingBound
import Verif.Props.FastLensMag
import Verif.Props.ProfileFT

/-!
# C93, C94: accuracy of the gamma function and of the FFTLog kernel
-/

noncomputable section

namespace Microjax.Props

open Special FftLog MagFft Spec

theorem stirlingGamma_eq (w : ℂ) : stirlingGamma w = Complex.exp (logS 5 w) := by
  rw [stirlingGamma, logS]
  congr 2
  norm_num

/-- In the right half plane the value of the code is `Γ(z) exp E` with a tiny `E`. -/
theorem gammaCase_eq (z : ℂ) (hz : 0 < z.re) :
    ∃ E : ℂ, gammaCase z = Complex.Gamma z * Complex.exp E ∧ ‖E‖ ≤ 9e-16 := by
  have hw : 0 < (z + 16).re := by simp; linarith
  have h33 : 33 ≤ ‖2 * (z + 16) + 1‖ := by
    refine le_trans ?_ ((le_abs_self _).trans (Complex.abs_re_le_norm _))
    simp
    linarith
  obtain ⟨E, hE, hb⟩ := stirling_error 5 88 (by norm_num) defect_five (z + 16) hw (by linarith)
  refine ⟨E, ?_, hb.trans ?_⟩
  · have h := (C65_shift z hz).2
    rw [stirlingGamma_eq, hE, mul_div_cancel_left₀ _ (Complex.Gamma_ne_zero_of_re_pos hw),
      div_eq_iff (Complex.Gamma_ne_zero_of_re_pos hz)] at h
    rw [h, mul_comm]
  · have h16 : 16 ≤ (z + 16).re := by simp; linarith
    calc 88 / (4 * (z + 16).re * ‖2 * (z + 16) + 1‖ ^ (2 * 5)) ≤ 88 / (4 * 16 * 33 ^ (2 * 5)) := by gcongr
      _ ≤ 9e-16 := by norm_num

/-- Likewise in the left half plane away from the lines on which the code returns NaN. -/
theorem gamma_eq (z : ℂ) (hz : ∀ n : ℕ, z.re ≠ -n) :
    ∃ E : ℂ, gamma z = some (Complex.Gamma z * Complex.exp E) ∧ ‖E‖ ≤ 9e-16 := by
  rcases lt_or_ge 0 z.re with h | h
  · obtain ⟨E, hE, hb⟩ := gammaCase_eq z h
    exact ⟨E, by rw [(C65_shift z h).1, hE], hb⟩
  · have hint : ∀ n : ℤ, z.re ≠ n := by
      intro n hn
      have hn0 : n ≤ 0 := by
        have : (n : ℝ) ≤ 0 := by rw [← hn]; exact h
        exact_mod_cast this
      refine hz n.natAbs ?_
      rw [hn, Nat.cast_natAbs, abs_of_nonpos hn0]
      push_cast
      ring
    obtain ⟨h1, h2⟩ := C65_reflection z h hint
    have hre : 0 < (1 - z).re := by simp; linarith
    obtain ⟨E, hE, hb⟩ := gammaCase_eq (1 - z) hre
    refine ⟨-E, ?_, by rwa [norm_neg]⟩
    have hz1 : Complex.Gamma z ≠ 0 := Complex.Gamma_ne_zero fun m hm => hint (-m) (by rw [hm]; simp)
    rw [hE, mul_div_cancel_left₀ _ (Complex.Gamma_ne_zero_of_re_pos hre), div_eq_iff hz1, ← Complex.exp_neg] at h2
    rw [h1, h2, mul_comm]

theorem exp_rel (G E : ℂ) (e : ℝ) (hE : ‖E‖ ≤ e) (he : e ≤ 1) : ‖G * Complex.exp E - G‖ ≤ 2 * e * ‖G‖ := by
  rw [show G * Complex.exp E - G = G * (Complex.exp E - 1) by ring, norm_mul, mul_comm]
  have := Complex.norm_exp_sub_one_le (hE.trans he)
  gcongr
  linarith

/-- **C93, accuracy of `gamma_`**: away from the vertical lines through the poles the relative error of the gamma function
is at most `2e-15` (exact arithmetic). Missing: the lines themselves, on which the code returns NaN
(`C65_gamma_nan_violated`). -/
theorem C93_accuracy (z : ℂ) (hz : ∀ n : ℕ, z.re ≠ -n) :
    ∃ g : ℂ, gamma z = some g ∧ ‖g - Complex.Gamma z‖ ≤ 2e-15 * ‖Complex.Gamma z‖ := by
  obtain ⟨E, hE, hb⟩ := gamma_eq z hz
  refine ⟨_, hE, (exp_rel _ E _ hb (by norm_num)).trans ?_⟩
  gcongr
  norm_num

/-- The gamma function of the code as the FFTLog module calls it (never NaN in the calls covered below). -/
def gammaCode (z : ℂ) : ℂ := (gamma z).getD 0

theorem gammaCode_eq (z : ℂ) (hz : 0 < z.re) : ∃ E : ℂ, gammaCode z = Complex.Gamma z * Complex.exp E ∧ ‖E‖ ≤ 9e-16 := by
  obtain ⟨E, hE, hb⟩ := gamma_eq z (fun n => by have : (0 : ℝ) ≤ n := Nat.cast_nonneg n; linarith)
  exact ⟨E, by rw [gammaCode, hE]; rfl, hb⟩

theorem gammaCode_real (x : ℝ) (hx : 0 < x) : |(gammaCode x).re - Real.Gamma x| ≤ 2e-15 * Real.Gamma x := by
  obtain ⟨E, hE, hb⟩ := gammaCode_eq x (by simpa using hx)
  have h := exp_rel (Complex.Gamma x) E _ hb (by norm_num)
  rw [← hE, Complex.Gamma_ofReal, Complex.norm_real, Real.norm_of_nonneg (Real.Gamma_pos_of_pos hx).le] at h
  have h1 := Complex.abs_re_le_norm (gammaCode x - (Real.Gamma x : ℂ))
  rw [Complex.sub_re, Complex.ofReal_re] at h1
  refine h1.trans (h.trans ?_)
  have := Real.Gamma_pos_of_pos hx
  gcongr
  norm_num

/-- **C92, linear limb darkening with the gamma function of the code**: relative error `2e-15` for every `kρ > 0`. -/
theorem C92_limb1_code_partial (k rho : ℝ) (hx : 0 < k * rho) :
    |skLimb1 (fun x => (gammaCode x).re) k rho - discFT (fun r => Real.sqrt (1 - r ^ 2)) (k * rho)|
      ≤ 2e-15 * |discFT (fun r => Real.sqrt (1 - r ^ 2)) (k * rho)| := by
  have h := gammaCode_real 1.5 (by norm_num)
  rw [← C92_limb1_partial k rho hx]
  simp only [skLimb1, if_pos hx]
  have hg : 0 < Real.Gamma 1.5 := Real.Gamma_pos_of_pos (by norm_num)
  set A : ℝ := 1.5 * (2 : ℝ) ^ (1.5 : ℝ)
  set B := j1p5 (k * rho)
  set D := (k * rho) ^ (1.5 : ℝ)
  rw [show A * (gammaCode ((1.5 : ℝ) : ℂ)).re * B / D - A * Real.Gamma 1.5 * B / D
    = (A * B / D) * ((gammaCode ((1.5 : ℝ) : ℂ)).re - Real.Gamma 1.5) by ring,
    show A * Real.Gamma 1.5 * B / D = (A * B / D) * Real.Gamma 1.5 by ring, abs_mul, abs_mul, abs_of_pos hg]
  calc |A * B / D| * |(gammaCode ((1.5 : ℝ) : ℂ)).re - Real.Gamma 1.5| ≤ |A * B / D| * (2e-15 * Real.Gamma 1.5) := by gcongr
    _ = _ := by ring

/-- **C92, quadratic profile with the gamma function of the code**. -/
theorem C92_limb2_code_partial (k rho : ℝ) (hx : 0 < k * rho) :
    |skLimb2 (fun x => (gammaCode x).re) (j2 cephes) k rho - discFT (fun r => 1 - r ^ 2) (k * rho)|
      ≤ 2e-12 * (1 + 1 / (k * rho) ^ 2) + 2e-15 * |discFT (fun r => 1 - r ^ 2) (k * rho)| := by
  have h := gammaCode_real 2 (by norm_num)
  have h2 := C92_limb2_partial k rho hx
  set F := discFT (fun r => 1 - r ^ 2) (k * rho)
  have hG : Real.Gamma 2 = 1 := by simp
  have e : skLimb2 (fun x => (gammaCode x).re) (j2 cephes) k rho
      = (gammaCode ((2 : ℝ) : ℂ)).re * skLimb2 Real.Gamma (j2 cephes) k rho := by
    simp only [skLimb2, if_pos hx, hG]
    ring
  rw [e]
  rw [hG, mul_one] at h
  set g := (gammaCode ((2 : ℝ) : ℂ)).re
  set S := skLimb2 Real.Gamma (j2 cephes) k rho
  set B := 1 + 1 / (k * rho) ^ 2
  have hB : 0 < B := by positivity
  have hS : |S| ≤ |F| + 1e-12 * B := by
    have := abs_sub_abs_le_abs_sub S F
    linarith
  rw [show g * S - F = (g - 1) * S + (S - F) by ring]
  refine (abs_add_le _ _).trans ?_
  rw [abs_mul]
  have h3 : |g - 1| * |S| ≤ 2e-15 * (|F| + 1e-12 * B) := by gcongr
  norm_num at h2 h3 ⊢
  linarith

/-- **C94, the gamma ratio of FFTLog**: on both branches `g_m_vals(mu, q)` is `Γ((mu+1+q)/2) / Γ((mu+1-q)/2)` up to a relative
error `6e-12`, for every order `mu ≥ 0` and every `q` with `|Re q| ≤ 1/2` (bias between 1 and 2), however large its
imaginary part. -/
theorem C94_gamma_ratio (mu : ℝ) (hmu : 0 ≤ mu) (q : ℂ) (hq : |q.re| ≤ 1 / 2) :
    ‖gMVals gammaCode mu q - Complex.Gamma ((mu + 1 + q) / 2) / Complex.Gamma ((mu + 1 - q) / 2)‖
      ≤ 6e-12 * ‖Complex.Gamma ((mu + 1 + q) / 2) / Complex.Gamma ((mu + 1 - q) / 2)‖ := by
  rw [abs_le] at hq
  set p : ℂ := (mu + 1 + q) / 2 with hp
  set m : ℂ := (mu + 1 - q) / 2 with hm
  have hpre : p.re = (mu + 1 + q.re) / 2 := by rw [hp]; simp
  have hmre : m.re = (mu + 1 - q.re) / 2 := by rw [hm]; simp
  have hp0 : 1 / 4 ≤ p.re := by rw [hpre]; linarith
  have hm0 : 1 / 4 ≤ m.re := by rw [hmre]; linarith
  have hpg := Complex.Gamma_ne_zero_of_re_pos (s := p) (by linarith)
  have hmg := Complex.Gamma_ne_zero_of_re_pos (s := m) (by linarith)
  have hne : q ≠ mu + 1 := by
    intro h
    have := congrArg Complex.re h
    simp at this
    linarith
  suffices h : ∃ E : ℂ, gMVals gammaCode mu q = Complex.Gamma p / Complex.Gamma m * Complex.exp E ∧ ‖E‖ ≤ 3e-12 by
    obtain ⟨E, hE, hb⟩ := h
    rw [hE]
    refine (exp_rel _ E _ hb (by norm_num)).trans (le_of_eq ?_)
    norm_num
  rw [gMVals]
  simp only [← hp, ← hm, if_neg hne]
  split_ifs with hbig
  · have big : ∀ w : ℂ, 1 / 4 ≤ w.re → mu + 1 / 2 ≤ 2 * w.re → |2 * w.im| = |q.im| → 100 ≤ ‖2 * w + 1‖ := by
      intro w h1 h2 h3
      rw [abs_of_nonneg hmu] at hbig
      by_cases hi : 100 ≤ |q.im|
      · refine le_trans ?_ (Complex.abs_im_le_norm _)
        have : (2 * w + 1).im = 2 * w.im := by simp
        rw [this, h3]; exact hi
      · refine le_trans ?_ ((le_abs_self _).trans (Complex.abs_re_le_norm _))
        have : (2 * w + 1).re = 2 * w.re + 1 := by simp
        rw [this]
        linarith
    have hpim : 2 * p.im = q.im := by rw [hp]; simp; ring
    have hmim : 2 * m.im = -q.im := by rw [hm]; simp; ring
    have hpb := big p hp0 (by rw [hpre]; linarith) (by rw [hpim])
    have hmb := big m hm0 (by rw [hmre]; linarith) (by rw [hmim, abs_neg])
    obtain ⟨E1, h1, b1⟩ := stirling_error 3 1.4 (by norm_num) defect_three p (by linarith) (by linarith)
    obtain ⟨E2, h2, b2⟩ := stirling_error 3 1.4 (by norm_num) defect_three m (by linarith) (by linarith)
    have bnd : ∀ w : ℂ, 1 / 4 ≤ w.re → 100 ≤ ‖2 * w + 1‖ → 1.4 / (4 * w.re * ‖2 * w + 1‖ ^ (2 * 3)) ≤ 1.4e-12 := by
      intro w hw hn
      calc 1.4 / (4 * w.re * ‖2 * w + 1‖ ^ (2 * 3)) ≤ 1.4 / (4 * (1 / 4) * 100 ^ (2 * 3)) := by gcongr
        _ ≤ 1.4e-12 := by norm_num
    refine ⟨E1 - E2, ?_, ?_⟩
    · rw [Complex.exp_sub, div_mul_div_comm, ← h1, ← h2, ← Complex.exp_sub]
      congr 1
      simp only [logS, Finset.sum_range_succ, Finset.sum_range_zero, stirling, List.getD_cons_zero, List.getD_cons_succ]
      have hqpm : q = p - m := by rw [hp, hm]; ring
      have hp1 : p ≠ 0 := by intro h; rw [h] at hp0; norm_num at hp0
      have hm1 : m ≠ 0 := by intro h; rw [h] at hm0; norm_num at hm0
      rw [hqpm]
      push_cast
      field_simp
      ring
    · refine (norm_sub_le _ _).trans ?_
      have c1 := b1.trans (bnd p hp0 hpb)
      have c2 := b2.trans (bnd m hm0 hmb)
      norm_num at c1 c2 ⊢
      linarith
  · obtain ⟨E1, h1, b1⟩ := gammaCode_eq p (by linarith)
    obtain ⟨E2, h2, b2⟩ := gammaCode_eq m (by linarith)
    refine ⟨E1 - E2, ?_, ?_⟩
    · rw [h1, h2, Complex.exp_sub, div_mul_div_comm]
    · refine (norm_sub_le _ _).trans ?_
      norm_num at b1 b2 ⊢
      linarith

/-- **C94, the kernel of the transform of spherical Bessel order `l`**: `g_l(l, z)` is `2^z Γ((l+z)/2) / Γ((3+l-z)/2)` up to a
relative error `6e-12`, for `l ≥ -1/2` and `1 ≤ Re z ≤ 2`. -/
theorem C94_kernel (l : ℝ) (hl : -1 / 2 ≤ l) (z : ℂ) (hz1 : 1 ≤ z.re) (hz2 : z.re ≤ 2) :
    ‖gL gammaCode l z - 2 ^ z * (Complex.Gamma ((l + z) / 2) / Complex.Gamma ((3 + l - z) / 2))‖
      ≤ 6e-12 * ‖2 ^ z * (Complex.Gamma ((l + z) / 2) / Complex.Gamma ((3 + l - z) / 2))‖ := by
  have h := C94_gamma_ratio (l + 1 / 2) (by linarith) (z - 1.5) (by
    have : (z - 1.5).re = z.re - 1.5 := by norm_num
    rw [this, abs_le]
    norm_num
    constructor <;> linarith)
  have e1 : (((l + 1 / 2 : ℝ) : ℂ) + 1 + (z - 1.5)) / 2 = (l + z) / 2 := by push_cast; ring
  have e2 : (((l + 1 / 2 : ℝ) : ℂ) + 1 - (z - 1.5)) / 2 = (3 + l - z) / 2 := by push_cast; ring
  rw [e1, e2] at h
  have e3 : Complex.exp (z * Real.log 2) = 2 ^ z := by
    rw [Complex.cpow_def_of_ne_zero two_ne_zero, mul_comm, ← Complex.ofReal_ofNat, Complex.ofReal_log two_pos.le]
  rw [gL, e3, show l + 0.5 = l + 1 / 2 by norm_num, ← mul_sub, norm_mul, norm_mul]
  calc _ ≤ ‖(2 : ℂ) ^ z‖ * _ := mul_le_mul_of_nonneg_left h (norm_nonneg _)
    _ = _ := by ring

/-- `Γ(1/2 + 3i)`, and a point of the left half plane between two lines. -/
example : ∃ g : ℂ, gamma (1 / 2 + 3 * Complex.I) = some g ∧
    ‖g - Complex.Gamma (1 / 2 + 3 * Complex.I)‖ ≤ 2e-15 * ‖Complex.Gamma (1 / 2 + 3 * Complex.I)‖ :=
  C93_accuracy _ fun n => by
    have : (0 : ℝ) ≤ n := Nat.cast_nonneg n
    have h2 : (1 / 2 + 3 * Complex.I : ℂ).re = 1 / 2 := by simp
    rw [h2]
    intro h
    linarith

/-- The order and bias of the package (`l = -1/2`, bias `3/2`) at a frequency of the small and of the large branch. -/
example : ‖gL gammaCode (-1 / 2) (3 / 2 + 500 * Complex.I)
      - 2 ^ (3 / 2 + 500 * Complex.I) * (Complex.Gamma (((-1 / 2 : ℝ) + (3 / 2 + 500 * Complex.I)) / 2)
        / Complex.Gamma ((3 + (-1 / 2 : ℝ) - (3 / 2 + 500 * Complex.I)) / 2))‖
    ≤ 6e-12 * ‖2 ^ (3 / 2 + 500 * Complex.I) * (Complex.Gamma (((-1 / 2 : ℝ) + (3 / 2 + 500 * Complex.I)) / 2)
        / Complex.Gamma ((3 + (-1 / 2 : ℝ) - (3 / 2 + 500 * Complex.I)) / 2))‖ :=
  C94_kernel (-1 / 2) le_rfl _ (by simp; norm_num) (by simp; norm_num)

end Microjax.Props
