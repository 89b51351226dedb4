import Verif.Model.MagFft
import Verif.Lemmas.DiscTransform
import Verif.Props.Bessel

/-!
# C92: the closed-form transforms of the source profiles

`sk` of `magnification_disk`, `magnification_limb1` and `magnification_limb2` against the two-dimensional Fourier
transform of the brightness profiles `1`, `√(1-r²)` and `1-r²` over the unit disc.
-/

noncomputable section

namespace Microjax.Props

open Spec Special MagFft MeasureTheory

theorem flux_one : (∫ r in (0 : ℝ)..1, (1 : ℝ) * r) = 1 / 2 := by
  simp only [one_mul]; rw [integral_id]; norm_num

theorem flux_limb1 : (∫ r in (0 : ℝ)..1, Real.sqrt (1 - r ^ 2) * r) = 1 / 3 := by
  have h := integral_sqrt_moment 0
  simp only [mul_zero, zero_add, pow_one] at h
  simp only [mul_comm (Real.sqrt _) _]
  rw [h]
  norm_num [Nat.factorial]

theorem flux_limb2 : (∫ r in (0 : ℝ)..1, (1 - r ^ 2) * r) = 1 / 4 := by
  have e : ∀ r : ℝ, (1 - r ^ 2) * r = r - r ^ 3 := by intro r; ring
  simp only [e]
  rw [intervalIntegral.integral_sub (by simp) (by simp), integral_id, integral_pow]
  norm_num

theorem discFT_one (x : ℝ) (hx : x ≠ 0) : discFT (fun _ => 1) x = 2 * besselJ 1 x / x := by
  rw [discFT_eq, flux_one]
  have e : ∀ r : ℝ, 1 * besselJ 0 (x * r) * r = r * besselJ 0 (x * r) := by intro r; ring
  simp only [e]
  rw [integral_rJ0 x hx]
  ring

theorem discFT_limb1 (x : ℝ) (hx : x ≠ 0) :
    discFT (fun r => Real.sqrt (1 - r ^ 2)) x = 3 * ((Real.sin x / x - Real.cos x) / x ^ 2) := by
  rw [discFT_eq, flux_limb1, integral_limb1 x hx]
  ring

theorem discFT_limb2 (x : ℝ) (hx : x ≠ 0) : discFT (fun r => 1 - r ^ 2) x = 8 * besselJ 2 x / x ^ 2 := by
  rw [discFT_eq, flux_limb2, integral_limb2 x hx]
  ring

/-- Every profile of nonzero flux has transform one at the origin. -/
theorem discFT_zero (S : ℝ → ℝ) (h : (∫ r in (0 : ℝ)..1, S r * r) ≠ 0) : discFT S 0 = 1 := by
  have h0 : besselJ 0 0 = 1 := by
    have := J0_near_zero 0 le_rfl (by norm_num)
    rw [besselJ_zero, clifford, tsum_eq_single 0 (fun k hk => by simp [hk])]
    simp [cliffordC]
  rw [discFT_eq]
  simp only [zero_mul, h0, mul_one]
  exact div_self h

/-- **C92, uniform disc**: `sk(k, ρ)` of the uniform source is the transform of the disc at `kρ` for every `kρ ≥ 0`, the
removable point included, to `1e-12` with the Bessel function of the code. -/
theorem C92_disk (k rho : ℝ) (hx : 0 ≤ k * rho) : |skDisk (j1 cephes) k rho - discFT (fun _ => 1) (k * rho)| ≤ 1e-12 := by
  simp only [skDisk]
  rcases hx.eq_or_lt with h | h
  · rw [if_neg (by rw [← h]; exact lt_irrefl _), ← h, discFT_zero _ (by rw [flux_one]; norm_num)]
    norm_num
  · rw [if_pos h, discFT_one _ h.ne', ← sub_div, ← mul_sub, abs_div, abs_mul, abs_two, mul_div_assoc]
    have := j1_div _ h.ne'
    norm_num at this ⊢
    linarith

/-- **C92, linear limb darkening, positive arguments**: with the exact gamma function `sk(k, ρ)` of the square-root profile
is its transform. Missing: the origin (`C92_limb1_violated`). -/
theorem C92_limb1_partial (k rho : ℝ) (hx : 0 < k * rho) :
    skLimb1 Real.Gamma k rho = discFT (fun r => Real.sqrt (1 - r ^ 2)) (k * rho) := by
  simp only [skLimb1]
  rw [if_pos hx, discFT_limb1 _ hx.ne', j1p5]
  set x := k * rho
  have hg : Real.Gamma 1.5 = Real.sqrt Real.pi / 2 := by
    have := Real.Gamma_add_one (s := 1 / 2) (by norm_num)
    rw [Real.Gamma_one_half_eq] at this
    rw [show (1.5 : ℝ) = 1 / 2 + 1 by norm_num, this]
    ring
  have e1 : ∀ y : ℝ, 0 < y → y ^ (1.5 : ℝ) = y * Real.sqrt y := by
    intro y hy
    rw [show (1.5 : ℝ) = 1 + 1 / 2 by norm_num, Real.rpow_add hy, Real.rpow_one, Real.sqrt_eq_rpow]
  rw [hg, e1 2 two_pos, e1 x hx, Real.sqrt_div two_pos.le, Real.sqrt_mul Real.pi_pos.le]
  have hp := Real.sqrt_pos.mpr Real.pi_pos
  have hs := Real.sqrt_pos.mpr hx
  have hxs : Real.sqrt x * Real.sqrt x = x := Real.mul_self_sqrt hx.le
  have h2 : Real.sqrt 2 * Real.sqrt 2 = 2 := Real.mul_self_sqrt two_pos.le
  set D := Real.sin x / x - Real.cos x
  calc 1.5 * (2 * Real.sqrt 2) * (Real.sqrt Real.pi / 2) * (Real.sqrt 2 / (Real.sqrt Real.pi * Real.sqrt x) * D) / (x * Real.sqrt x)
      = 1.5 * (Real.sqrt 2 * Real.sqrt 2) * D / (x * (Real.sqrt x * Real.sqrt x)) := by field_simp
    _ = 3 * (D / x ^ 2) := by rw [hxs, h2]; field_simp; ring

/-- **C92, the origin is violated for the limb-darkened profiles**: a transform normalised to unit flux is one at the
origin, the code returns one third and one quarter. -/
theorem C92_limb1_violated (gam j2 : ℝ → ℝ) (k rho : ℝ) (hx : k * rho = 0) :
    (skLimb1 gam k rho = 1 / 3 ∧ discFT (fun r => Real.sqrt (1 - r ^ 2)) (k * rho) = 1) ∧
    (skLimb2 gam j2 k rho = 1 / 4 ∧ discFT (fun r => 1 - r ^ 2) (k * rho) = 1) := by
  simp only [skLimb1, skLimb2, hx]
  refine ⟨⟨by norm_num, discFT_zero _ (by rw [flux_limb1]; norm_num)⟩, by norm_num, discFT_zero _ (by rw [flux_limb2]; norm_num)⟩

/-- **C92, quadratic profile, positive arguments**: with the exact gamma function `sk(k, ρ)` is the transform of `1-r²` up
to `1e-12 (1 + 1/(kρ)²)`. Missing: a bound near the origin (`C92_limb2_violated`). -/
theorem C92_limb2_partial (k rho : ℝ) (hx : 0 < k * rho) :
    |skLimb2 Real.Gamma (j2 cephes) k rho - discFT (fun r => 1 - r ^ 2) (k * rho)| ≤ 1e-12 * (1 + 1 / (k * rho) ^ 2) := by
  simp only [skLimb2]
  rw [if_pos hx, discFT_limb2 _ hx.ne', show Real.Gamma 2 = 1 by simp]
  set x := k * rho
  rw [show 2 ^ 2 * 1 * j2 cephes x / x ^ 2 * 2 - 8 * besselJ 2 x / x ^ 2 = 8 * (j2 cephes x - besselJ 2 x) / x ^ 2 by ring,
    abs_div, abs_mul, abs_of_pos (by positivity : 0 < x ^ 2), abs_of_pos (by norm_num : (0 : ℝ) < 8)]
  have hx2 : 0 < x ^ 2 := by positivity
  by_cases h5 : |x| < 5
  · have h0 := j0_small x h5
    have h1 := j1_rel x
    rw [if_pos h5] at h1
    have hp : 0 < |x| := abs_pos.mpr hx.ne'
    have hb : |j2 cephes x - besselJ 2 x| ≤ 1.5e-14 := by
      rw [j2, besselJ_two x hx.ne', show 2 / x * j1 cephes x - j0 cephes x - (2 / x * besselJ 1 x - besselJ 0 x)
        = 2 * ((j1 cephes x - besselJ 1 x) / x) - (j0 cephes x - besselJ 0 x) by ring]
      refine (abs_sub _ _).trans ?_
      rw [abs_mul, abs_div, abs_two]
      have h3 : |j1 cephes x - besselJ 1 x| / |x| ≤ 5e-15 := by rwa [div_le_iff₀ hp]
      norm_num at h0 h3 ⊢
      linarith
    have h4 : 8 * |j2 cephes x - besselJ 2 x| / x ^ 2 ≤ 8 * 1.5e-14 / x ^ 2 := by gcongr
    have h6 : 8 * 1.5e-14 / x ^ 2 = 1.2e-13 * (1 / x ^ 2) := by ring
    have h7 : 0 < (x ^ 2)⁻¹ := by positivity
    rw [h6] at h4
    norm_num at h4 ⊢
    linarith
  · have hb := C90_j2 x hx.ne'
    rw [abs_of_pos hx, not_lt] at h5
    have h25 : 25 ≤ x ^ 2 := by nlinarith
    have h4 : 8 * |j2 cephes x - besselJ 2 x| / x ^ 2 ≤ 8 * 2e-12 / 25 := by gcongr
    have h7 : 0 < (x ^ 2)⁻¹ := by positivity
    norm_num at h4 ⊢
    linarith

/-- `j2_` next to zero. -/
theorem j2_near (x : ℝ) (h0 : 0 < x) (h : x < 1e-5) :
    j2 cephes x = 2 * (ev num1 (x * x) / ev tableRQ1.reverse (x * x)) - 1 + x * x / 4 := by
  have h5 : x < 5 := by norm_num at h; linarith
  rw [j2, j1, j0, abs_of_pos h0, if_pos h5, if_pos h5, j0Small, if_pos h, j1Small, Real.sign_of_pos h0, num1_eq]
  field_simp
  ring

/-- **C92, the quadratic profile is violated near the origin**: the tables of `j1_` do not make the quotient `j1_(x)/x` tend
to exactly one half, so that `j2_` does not vanish at zero and `sk` grows without bound there (the transform tends to one). -/
theorem C92_limb2_violated :
    Filter.Tendsto (fun k => |skLimb2 Real.Gamma (j2 cephes) k 1|) (nhdsWithin 0 (Set.Ioi 0)) Filter.atTop := by
  have hc : ∀ L : List ℚ, Continuous fun x : ℝ => ev L (x * x) := by
    intro L
    induction L with
    | nil => simpa only [ev_nil] using continuous_const
    | cons a L ih => simp only [ev_cons]; fun_prop
  have hQ : ev tableRQ1.reverse ((0 : ℝ) * 0) ≠ 0 := by
    rw [mul_zero]
    exact (ev_pos _ (by decide +kernel) (by decide +kernel) 0 le_rfl).ne'
  have hg : Filter.Tendsto (fun x : ℝ => |2 * (ev num1 (x * x) / ev tableRQ1.reverse (x * x)) - 1 + x * x / 4|)
      (nhdsWithin 0 (Set.Ioi 0)) (nhds |2 * (ev num1 (0 * 0) / ev tableRQ1.reverse (0 * 0)) - 1 + 0 * 0 / 4|) := by
    have : ContinuousAt (fun x : ℝ => |2 * (ev num1 (x * x) / ev tableRQ1.reverse (x * x)) - 1 + x * x / 4|) 0 :=
      (((((hc num1).continuousAt.div (hc _).continuousAt hQ).const_mul 2).sub continuousAt_const).add
        (by fun_prop)).abs
    exact this.tendsto.mono_left nhdsWithin_le_nhds
  have hpos : 0 < |2 * (ev num1 (0 * 0) / ev tableRQ1.reverse (0 * 0)) - 1 + (0 : ℝ) * 0 / 4| := by
    rw [abs_pos]
    intro h
    have h1 : 2 * ev num1 ((0 : ℚ) : ℝ) = ev tableRQ1.reverse ((0 : ℚ) : ℝ) := by
      rw [mul_zero] at hQ h
      rw [Rat.cast_zero]
      field_simp at h
      linarith
    rw [ev_cast, ev_cast] at h1
    have h2 : 2 * evQ num1 0 = evQ tableRQ1.reverse 0 := by exact_mod_cast h1
    exact absurd h2 (by decide +kernel)
  have hinv : Filter.Tendsto (fun x : ℝ => 8 * (x ^ 2)⁻¹) (nhdsWithin 0 (Set.Ioi 0)) Filter.atTop := by
    refine Filter.Tendsto.const_mul_atTop (by norm_num) (Filter.Tendsto.inv_tendsto_nhdsGT_zero ?_)
    refine tendsto_nhdsWithin_iff.mpr ⟨?_, ?_⟩
    · have : Filter.Tendsto (fun x : ℝ => x ^ 2) (nhds 0) (nhds (0 ^ 2)) := (continuous_pow 2).tendsto 0
      rw [zero_pow two_ne_zero] at this
      exact this.mono_left nhdsWithin_le_nhds
    · filter_upwards [self_mem_nhdsWithin] with x hx
      exact pow_pos (show (0 : ℝ) < x from hx) 2
  refine (hg.pos_mul_atTop hpos hinv).congr' ?_
  filter_upwards [Ioo_mem_nhdsGT (by norm_num : (0 : ℝ) < 1e-5)] with x hx
  simp only [skLimb2, mul_one]
  rw [if_pos hx.1, show Real.Gamma 2 = 1 by simp, ← j2_near x hx.1 hx.2]
  have hx2 : 0 < x ^ 2 := pow_pos hx.1 2
  rw [show 2 ^ 2 * 1 * j2 cephes x / x ^ 2 * 2 = j2 cephes x * (8 * (x ^ 2)⁻¹) by field_simp; ring, abs_mul,
    abs_of_pos (by positivity : 0 < 8 * (x ^ 2)⁻¹)]

/-- The linear law is a mixture of the uniform disc and the square-root profile, weighted by their fluxes. -/
theorem discFT_mix (a x : ℝ) : discFT (fun r => 1 - a * (1 - Real.sqrt (1 - r ^ 2))) x
    = ((1 - a) / 2 * discFT (fun _ => 1) x + a / 3 * discFT (fun r => Real.sqrt (1 - r ^ 2)) x) / ((1 - a) / 2 + a / 3) := by
  have hc : Continuous fun r : ℝ => besselJ 0 (x * r) := by
    have := continuous_J 0
    fun_prop
  have h1 : (∫ r in (0 : ℝ)..1, (1 - a * (1 - Real.sqrt (1 - r ^ 2))) * besselJ 0 (x * r) * r)
      = (1 - a) * (∫ r in (0 : ℝ)..1, 1 * besselJ 0 (x * r) * r)
        + a * (∫ r in (0 : ℝ)..1, Real.sqrt (1 - r ^ 2) * besselJ 0 (x * r) * r) := by
    rw [← intervalIntegral.integral_const_mul, ← intervalIntegral.integral_const_mul,
      ← intervalIntegral.integral_add (Continuous.intervalIntegrable (by fun_prop) _ _)
        (Continuous.intervalIntegrable (by fun_prop) _ _)]
    exact intervalIntegral.integral_congr fun r _ => by ring
  have h2 : (∫ r in (0 : ℝ)..1, (1 - a * (1 - Real.sqrt (1 - r ^ 2))) * r)
      = (1 - a) * (∫ r in (0 : ℝ)..1, 1 * r) + a * (∫ r in (0 : ℝ)..1, Real.sqrt (1 - r ^ 2) * r) := by
    rw [← intervalIntegral.integral_const_mul, ← intervalIntegral.integral_const_mul,
      ← intervalIntegral.integral_add (Continuous.intervalIntegrable (by fun_prop) _ _)
        (Continuous.intervalIntegrable (by fun_prop) _ _)]
    exact intervalIntegral.integral_congr fun r _ => by ring
  rw [discFT_eq, discFT_eq, discFT_eq, h1, h2, flux_one, flux_limb1]
  congr 1 <;> ring

theorem skMix_eq (a k rho : ℝ) (hx : 0 < k * rho) :
    skMixSin (besselJ 1) a k rho = skMixBessel (besselJ 1) Real.Gamma a k rho ∧
    skMixSin (besselJ 1) a k rho = (discFT (fun _ => 1) (k * rho)
      - a * discFT (fun r => Real.sqrt (1 - r ^ 2)) (k * rho)) / (1 - a) := by
  have h := C92_limb1_partial k rho hx
  simp only [skLimb1, if_pos hx] at h
  simp only [skMixSin, skMixBessel, if_pos hx, h]
  rw [discFT_one _ hx.ne', discFT_limb1 _ hx.ne']
  set x := k * rho
  have e : 3 * (Real.sin x - x * Real.cos x) / x ^ 3 = 3 * ((Real.sin x / x - Real.cos x) / x ^ 2) := by field_simp
  rw [e]
  exact ⟨rfl, rfl⟩

/-- **C92, the closed forms of the linear law are violated**: `mag_limb1.sk__` and `mag_limb1.sk_` subtract the square-root
profile where the law adds it (and weight by brightness instead of flux): for every `0 < a1 < 1` they are wrong, on the
other side of the uniform disc, at every `kρ > 0` at which the two profiles have different transforms. -/
theorem C92_mix_violated (a k rho : ℝ) (ha0 : 0 < a) (ha1 : a < 1) (hx : 0 < k * rho)
    (hne : discFT (fun _ => 1) (k * rho) ≠ discFT (fun r => Real.sqrt (1 - r ^ 2)) (k * rho)) :
    (skMixSin (besselJ 1) a k rho - discFT (fun _ => 1) (k * rho))
      * (discFT (fun r => 1 - a * (1 - Real.sqrt (1 - r ^ 2))) (k * rho) - discFT (fun _ => 1) (k * rho)) < 0 ∧
    (skMixBessel (besselJ 1) Real.Gamma a k rho - discFT (fun _ => 1) (k * rho))
      * (discFT (fun r => 1 - a * (1 - Real.sqrt (1 - r ^ 2))) (k * rho) - discFT (fun _ => 1) (k * rho)) < 0 := by
  obtain ⟨h1, h2⟩ := skMix_eq a k rho hx
  rw [← h1, h2, discFT_mix a _]
  set D := discFT (fun _ => 1) (k * rho)
  set T := discFT (fun r => Real.sqrt (1 - r ^ 2)) (k * rho)
  have hw : 0 < (1 - a) / 2 + a / 3 := by linarith
  have h1a : 0 < 1 - a := by linarith
  have e1 : (D - a * T) / (1 - a) - D = a / (1 - a) * (D - T) := by field_simp; ring
  have e2 : ((1 - a) / 2 * D + a / 3 * T) / ((1 - a) / 2 + a / 3) - D = -(a / 3 / ((1 - a) / 2 + a / 3)) * (D - T) := by
    generalize hW : (1 - a) / 2 + a / 3 = W at *
    have hD : D = W * D / W := by field_simp
    conv_lhs => rw [hD]
    rw [← hW]
    field_simp
    ring
  rw [e1, e2]
  have hd : 0 < (D - T) ^ 2 := by
    have : D - T ≠ 0 := sub_ne_zero.mpr hne
    positivity
  have hp : 0 < a / (1 - a) * (a / 3 / ((1 - a) / 2 + a / 3)) * (D - T) ^ 2 := by positivity
  constructor <;> linarith [show a / (1 - a) * (D - T) * (-(a / 3 / ((1 - a) / 2 + a / 3)) * (D - T))
    = -(a / (1 - a) * (a / 3 / ((1 - a) / 2 + a / 3)) * (D - T) ^ 2) by ring]

/-- The two profiles have different transforms at `kρ = 1`. -/
theorem discFT_ne_at_one : discFT (fun _ => 1) 1 < discFT (fun r => Real.sqrt (1 - r ^ 2)) 1 := by
  rw [discFT_one 1 one_ne_zero, discFT_limb1 1 one_ne_zero, besselJ_one]
  have h := clifford_serL 1 1 (by norm_num)
  have hv : ((evQ (serL 1 25) 1 : ℚ) : ℝ) ≤ 0.8802 := by
    have h1 : evQ (serL 1 25) 1 ≤ 8802 / 10000 := by decide +kernel
    have h2 := (Rat.cast_le (K := ℝ)).mpr h1
    norm_num at h2 ⊢
    exact h2
  have he : ev (serL 1 25) 1 = ((evQ (serL 1 25) 1 : ℚ) : ℝ) := by
    have := ev_cast (serL 1 25) 1
    rwa [Rat.cast_one] at this
  obtain ⟨hc, hs⟩ := cos_sin_approx 1 (by norm_num)
  have hd : ((sinQ 1 25 - cosQ 1 25 : ℚ) : ℝ) ≥ 0.301 := by
    have h1 : sinQ 1 25 - cosQ 1 25 ≥ 301 / 1000 := by decide +kernel
    have h2 := (Rat.cast_le (K := ℝ)).mpr h1
    norm_num at h2 ⊢
    exact h2
  rw [Rat.cast_one] at hc hs
  rw [abs_le] at h hc hs
  push_cast at hd
  norm_num at h hc hs hd hv ⊢
  linarith [h.1, h.2, hc.1, hc.2, hs.1, hs.2]

example : (skMixSin (besselJ 1) (1 / 2) 100 (1 / 100) - discFT (fun _ => 1) (100 * (1 / 100)))
    * (discFT (fun r => 1 - 1 / 2 * (1 - Real.sqrt (1 - r ^ 2))) (100 * (1 / 100)) - discFT (fun _ => 1) (100 * (1 / 100))) < 0 := by
  refine (C92_mix_violated (1 / 2) 100 (1 / 100) (by norm_num) (by norm_num) (by norm_num) ?_).1
  rw [show (100 : ℝ) * (1 / 100) = 1 by norm_num]
  exact discFT_ne_at_one.ne

/-- A source of radius `1/100` at `k = 3`. -/
example : |skDisk (j1 cephes) 3 (1 / 100) - discFT (fun _ => 1) (3 * (1 / 100))| ≤ 1e-12 :=
  C92_disk _ _ (by norm_num)

example : skLimb1 Real.Gamma 3 (1 / 100) = discFT (fun r => Real.sqrt (1 - r ^ 2)) (3 * (1 / 100)) :=
  C92_limb1_partial _ _ (by norm_num)

example : |skLimb2 Real.Gamma (j2 cephes) 3 2 - discFT (fun r => 1 - r ^ 2) (3 * 2)| ≤ 1e-12 * (1 + 1 / (3 * 2) ^ 2) :=
  C92_limb2_partial _ _ (by norm_num)

/-- The public method called with wavenumber zero. -/
example : skLimb1 Real.Gamma 0 (1 / 100) = 1 / 3 := (C92_limb1_violated Real.Gamma (j2 cephes) 0 (1 / 100) (by norm_num)).1.1

end Microjax.Props
