import Verif.Props.FastLensCentre
import Mathlib.Analysis.SpecialFunctions.Gamma.Beta

/-!
# C64, C65: dispatch of the FFT-based magnification; gamma function
-/

noncomputable section

set_option linter.unusedVariables false

open Microjax.MagFft Microjax.Special

namespace Microjax.Props

/-! ### C64 -/

/-- **C64.**  The magnification depends only on the distance, for every Hankel transform, source profile and
central value. -/
theorem C64_even (hk : Hankel) (c : Cfg) (sk : List ℝ → ℝ → List ℝ) (A0 : ℝ → ℝ) (u rho : ℝ) :
    aFft hk c sk A0 (-u) rho = aFft hk c sk A0 u rho ∧ aLarge hk c sk A0 (-u) rho = aLarge hk c sk A0 u rho ∧
    aSmall hk c sk (-u) rho = aSmall hk c sk u rho := by
  simp only [aFft, aLarge, aSmall, abs_neg, and_self]

/-- **C64.**  At the centre the analytic value is used, for every source radius from `rho_switch` on. -/
theorem C64_centre (hk : Hankel) (c : Cfg) (sk : List ℝ → ℝ → List ℝ) (A0 : ℝ → ℝ) (rho : ℝ)
    (h : c.rhoSwitch ≤ rho) : aFft hk c sk A0 0 rho = A0 rho := by
  simp only [aFft, abs_zero, not_lt.mpr h, if_false, aLarge, gt_iff_lt, lt_irrefl]

/-- **C64.**  With the uniform disc, the value at the centre is the exact disc average. -/
theorem C64_disc_centre (hk : Hankel) (c : Cfg) (sk : List ℝ → ℝ → List ℝ) (rho : ℝ) (h : c.rhoSwitch ≤ rho)
    (hr : 0 < rho) : aFft hk c sk a0Disk 0 rho = Spec.discMean 0 (Spec.pointMag Spec.single) 0 rho := by
  rw [C64_centre _ _ _ _ _ h, C59_disc_centre hr]

/-- **C64.**  Small sources: at ten (in general `u_switch`) source radii and beyond the point-source magnification of
the lens is used exactly. -/
theorem C64_far_small (hk : Hankel) (c : Cfg) (sk : List ℝ → ℝ → List ℝ) (A0 : ℝ → ℝ) (w : ℂ) (hw : w ≠ 0)
    (rho : ℝ) (h : rho < c.rhoSwitch) (hu : c.uSwitch * rho ≤ ‖w‖) :
    aFft hk c sk A0 ‖w‖ rho = Spec.pointMag Spec.single w := by
  simp only [aFft, h, if_true, aSmall, abs_norm, not_lt.mpr hu, if_false]
  exact C58_is_point_magnification w hw

lemma log10_le_two {v : ℝ} (h : v ≤ 100) (h0 : 0 < v) : log10 v ≤ 2 := by
  have h10 : 0 < Real.log 10 := Real.log_pos (by norm_num)
  rw [log10, div_le_iff₀ h10, show 2 * Real.log 10 = Real.log (10 ^ 2) by rw [Real.log_pow]; norm_num]
  exact Real.log_le_log h0 (by linarith)

lemma log10_gt_two {v : ℝ} (h : 100 < v) : 2 < log10 v := by
  have h10 : 0 < Real.log 10 := Real.log_pos (by norm_num)
  rw [log10, lt_div_iff₀ h10, show 2 * Real.log 10 = Real.log (10 ^ 2) by rw [Real.log_pow]; norm_num]
  exact Real.log_lt_log (by norm_num) (by linarith)

/-- **C64.**  Large sources: beyond the tabulated range, `|u| > 100`, the magnification is one, whatever the transform
returned (on a positive grid). -/
theorem C64_far_large (hk : Hankel) (c : Cfg) (sk : List ℝ → ℝ → List ℝ) (A0 : ℝ → ℝ) (u rho : ℝ)
    (h : c.rhoSwitch ≤ rho) (hu : 100 < |u|) (hpos : ∀ x f n, ∀ v ∈ (hk x f n).1, 0 < v) :
    aFft hk c sk A0 u rho = 1 := by
  simp only [aFft, not_lt.mpr h, if_false, aLarge, abs_abs]
  rw [if_pos (by linarith)]
  have hx := log10_gt_two hu
  have hall : ∀ v ∈ (table hk c sk rho).1, v ≤ 2 := by
    intro v hv
    simp only [table, List.mem_map] at hv
    obtain ⟨w, hw, rfl⟩ := hv
    have hw0 := hpos _ _ _ w hw
    refine log10_le_two ?_ ?_
    · split_ifs with h1 <;> linarith
    · split_ifs with h1 <;> linarith
  have hget : ∀ i, (table hk c sk rho).1.getD i 0 ≤ 2 := by
    intro i
    rcases lt_or_ge i (table hk c sk rho).1.length with hi | hi
    · rw [List.getD_eq_getElem _ _ hi]
      exact hall _ (List.getElem_mem hi)
    · rw [List.getD_eq_default _ _ hi]
      norm_num
  simp only [interp]
  rw [if_neg (by have := hget 0; linarith), if_pos (by have := hget ((table hk c sk rho).1.length - 1); linarith)]
  rfl

/-- The default configuration, a small and a large source. -/
example : let c : Cfg := ⟨-6, 3, 1024, 1e-4, 10⟩
    (1e-5 < c.rhoSwitch ∧ c.uSwitch * 1e-5 ≤ ‖(1 : ℂ)‖) ∧ c.rhoSwitch ≤ 1 / 10 ∧ (100 : ℝ) < |(-200 : ℝ)| := by
  norm_num

/-- **C64.**  Below `rho_switch` the central value plays no role at any distance: the table of the small-source branch is
scale free, the excess over one at `u = s rho` is inversely proportional to `rho`. -/
theorem C64_small_scaling (hk : Hankel) (c : Cfg) (sk : List ℝ → ℝ → List ℝ) (A0 A0' : ℝ → ℝ) (s r r' : ℝ)
    (hs : |s| < c.uSwitch) (hr : 0 < r) (hr' : 0 < r') (h : r < c.rhoSwitch) (h' : r' < c.rhoSwitch) :
    r * (aFft hk c sk A0 (s * r) r - 1) = r' * (aFft hk c sk A0' (s * r') r' - 1) := by
  have e : ∀ (B : ℝ → ℝ) (t : ℝ), 0 < t → t < c.rhoSwitch → t * (aFft hk c sk B (s * t) t - 1)
      = interp |s| (initAext0 hk c sk).1 (initAext0 hk c sk).2 none := by
    intro B t ht0 ht
    simp only [aFft, ht, if_true, aSmall, abs_abs, abs_mul, abs_of_pos ht0]
    rw [if_pos (mul_lt_mul_of_pos_right hs ht0), mul_div_cancel_right₀ _ ht0.ne']
    field_simp
    ring
  rw [e A0 r hr h, e A0' r' hr' h']

example : let c : Cfg := ⟨-6, 3, 1024, 1e-4, 10⟩
    |(1 / 2 : ℝ)| < c.uSwitch ∧ (1e-5 : ℝ) < c.rhoSwitch ∧ (2e-6 : ℝ) < c.rhoSwitch := by
  simp only [abs_of_pos (show (0 : ℝ) < 1 / 2 by norm_num)]
  norm_num

/-! ### C65 -/

/-- **C65 (violated).**  `gamma_` is NaN at a point where the gamma function is finite and non-zero: the test looks at the
real part only. -/
theorem C65_gamma_nan_violated :
    gamma (-1 + Complex.I) = none ∧ (∀ n : ℕ, (-1 + Complex.I : ℂ) ≠ -n) ∧ Complex.Gamma (-1 + Complex.I) ≠ 0 := by
  have hne : ∀ n : ℕ, (-1 + Complex.I : ℂ) ≠ -n := by
    intro n h
    have := congrArg Complex.im h
    simp at this
  refine ⟨?_, hne, Complex.Gamma_ne_zero hne⟩
  have hre : (-1 + Complex.I : ℂ).re = -1 := by simp
  rw [gamma, if_pos]
  rw [hre]
  refine ⟨by norm_num, ?_⟩
  rw [show (-1 : ℝ) = ((-1 : ℤ) : ℝ) by norm_num, Int.floor_intCast]

/-- **C65 (what holds).**  NaN occurs exactly where the real part is a non-positive integer; in particular at every
pole, and never in the right half plane. -/
theorem C65_gamma_nan_partial (z : ℂ) :
    (gamma z = none ↔ ∃ n : ℕ, z.re = -n) ∧ (∀ n : ℕ, z = -n → gamma z = none) ∧ (0 < z.re → gamma z ≠ none) := by
  have h1 : gamma z = none ↔ ∃ n : ℕ, z.re = -n := by
    rw [gamma]
    constructor
    · intro h
      split_ifs at h with hc hd
      obtain ⟨h0, hf⟩ := hc
      have hfl : ⌊z.re⌋ ≤ 0 := by
        have : ((⌊z.re⌋ : ℤ) : ℝ) ≤ 0 := by rw [← hf]; exact h0
        exact_mod_cast this
      refine ⟨(-⌊z.re⌋).toNat, ?_⟩
      have h2 : ((-⌊z.re⌋).toNat : ℤ) = -⌊z.re⌋ := Int.toNat_of_nonneg (by omega)
      have h3 : (((-⌊z.re⌋).toNat : ℕ) : ℝ) = -((⌊z.re⌋ : ℤ) : ℝ) := by exact_mod_cast h2
      rw [h3, neg_neg]
      exact hf
    · rintro ⟨n, hn⟩
      rw [if_pos]
      rw [hn]
      refine ⟨by simp, ?_⟩
      rw [show (-(n : ℝ)) = ((-(n : ℤ) : ℤ) : ℝ) by push_cast; rfl, Int.floor_intCast]
  refine ⟨h1, fun n hn => h1.mpr ⟨n, by rw [hn]; simp⟩, fun hp h => ?_⟩
  obtain ⟨n, hn⟩ := h1.mp h
  rw [hn] at hp
  have : (0 : ℝ) ≤ n := Nat.cast_nonneg n
  linarith

/-- Stirling's series with five correction terms, in the form used by the code: an approximation of `Γ`. -/
def stirlingGamma (w : ℂ) : ℂ :=
  Complex.exp ((Real.log (2 * Real.pi) / 2 : ℝ) - w + (w - 0.5) * Complex.log w
    + ((List.range 5).map fun k : ℕ => ((stirling.getD k 0 : ℝ) : ℂ) / w ^ (2 * k + 1)).sum)

lemma Gamma_shift (z : ℂ) (n : ℕ) (hz : ∀ k : ℕ, z ≠ -k) :
    Complex.Gamma (z + n) = Complex.Gamma z * ((List.range n).map fun k : ℕ => z + (k : ℂ)).prod := by
  induction n with
  | zero => simp
  | succ n ih =>
    have hne : z + n ≠ 0 := fun h => hz n (by linear_combination h)
    rw [List.range_succ, List.map_append, List.prod_append, List.map_singleton, List.prod_singleton,
      ← mul_assoc, ← ih, Nat.cast_succ, ← add_assoc, Complex.Gamma_add_one _ hne, mul_comm]

/-- **C65.**  In the right half plane the relative error of `gamma_` at `z` is exactly the relative error of Stirling's
series at `z + 16`: shifting by the sixteen factors loses nothing, and no branch of the logarithm is involved. -/
theorem C65_shift (z : ℂ) (hz : 0 < z.re) :
    gamma z = some (gammaCase z) ∧
    gammaCase z / Complex.Gamma z = stirlingGamma (z + 16) / Complex.Gamma (z + 16) := by
  have hpole : ∀ k : ℕ, z ≠ -k := by
    intro k h
    rw [h] at hz
    have : (0 : ℝ) ≤ k := Nat.cast_nonneg k
    simp at hz
    linarith
  have hG := Gamma_shift z 16 hpole
  set u := ((List.range 16).map fun k : ℕ => z + (k : ℂ)).prod with hu
  have hu0 : u ≠ 0 := by
    rw [hu, Ne, List.prod_eq_zero_iff, List.mem_map]
    rintro ⟨k, -, hk⟩
    exact hpole k (by linear_combination hk)
  have hcase : gammaCase z = stirlingGamma (z + 16) / u := by
    rw [gammaCase, stirlingGamma]
    simp only [← hu]
    rw [eq_div_iff hu0]
    conv_lhs => rw [← Complex.exp_log hu0]
    rw [Complex.exp_log hu0]
    nth_rewrite 2 [← Complex.exp_log hu0]
    rw [← Complex.exp_add]
    congr 1
    ring
  refine ⟨?_, ?_⟩
  · rw [gamma, if_neg (fun h => by linarith [h.1]), if_neg (by linarith)]
  · push_cast at hG
    rw [hcase, hG, div_div, mul_comm u]

/-- **C65.**  The reflection used in the left half plane loses nothing either: its relative error at `z` is the inverse
of that of the right half-plane formula at `1 - z`. -/
theorem C65_reflection (z : ℂ) (hz : z.re ≤ 0) (hint : ∀ n : ℤ, z.re ≠ n) :
    gamma z = some (gammaReflection z) ∧
    gammaReflection z / Complex.Gamma z = (gammaCase (1 - z) / Complex.Gamma (1 - z))⁻¹ := by
  constructor
  · rw [gamma, if_neg (fun h => hint _ h.2), if_pos hz]
  · have h := Complex.Gamma_mul_Gamma_one_sub z
    have hz1 : Complex.Gamma z ≠ 0 := Complex.Gamma_ne_zero fun m hm => hint (-m) (by rw [hm]; simp)
    have hz2 : Complex.Gamma (1 - z) ≠ 0 := Complex.Gamma_ne_zero fun m hm => by
      have := congrArg Complex.re hm
      simp at this
      have hm0 : (0 : ℝ) ≤ m := Nat.cast_nonneg m
      linarith
    have hs : Complex.sin ((Real.pi : ℂ) * z) ≠ 0 := by
      intro h0
      rw [h0, div_zero] at h
      exact mul_ne_zero hz1 hz2 h
    rw [gammaReflection, inv_div, div_div, eq_comm]
    rw [eq_div_iff hs] at h
    rcases eq_or_ne (gammaCase (1 - z)) 0 with h0 | h0
    · rw [h0]; simp
    · rw [div_eq_div_iff h0 (mul_ne_zero (mul_ne_zero hs h0) hz1)]
      linear_combination (gammaCase (1 - z)) * h

example : (0 : ℝ) < (1 / 2 + 3 * Complex.I : ℂ).re ∧ (-1 / 2 : ℂ).re ≤ 0 := by
  constructor <;> norm_num

end Microjax.Props
