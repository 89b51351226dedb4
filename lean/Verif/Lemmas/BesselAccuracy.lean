import Verif.Lemmas.BesselLarge
import Verif.Model.BesselTables
import Mathlib.Analysis.Complex.Exponential
import Mathlib.Analysis.Complex.ExponentialBounds
import Mathlib.Analysis.SpecialFunctions.Complex.Arg

/-!
# Accuracy of the rational approximations of `J_0` and `J_1`
-/

noncomputable section

namespace Microjax.Props

open Spec Special
open scoped Nat

/-! ### Small arguments -/

theorem polyval_eq_ev (L : List ℚ) (x : ℝ) : polyval (L.map fun q : ℚ => (q : ℝ)) x = ev L.reverse x := by
  induction L using List.reverseRecOn with
  | nil => simp [polyval]
  | append_singleton L a ih =>
    rw [polyval] at ih ⊢
    rw [List.map_append, List.foldl_append, ih, List.reverse_append]
    simp
    ring

theorem ev_append_singleton (L : List ℚ) (a : ℚ) (x : ℝ) : ev (L ++ [a]) x = ev L x + a * x ^ L.length := by
  induction L with
  | nil => simp
  | cons b L ih => rw [List.cons_append, ev_cons, ih, ev_cons, List.length_cons, pow_succ]; ring

/-- truncated series of the Bessel-Clifford function in `z = 4 y` -/
def serL (n N : ℕ) : List ℚ := (List.range N).map fun k => (-1) ^ k / ((k ! * (k + n)! : ℕ) * 4 ^ k)

theorem ev_serL (n N : ℕ) (z : ℝ) : ev (serL n N) z = ∑ k ∈ Finset.range N, cliffordC n k * (z / 4) ^ k := by
  induction N with
  | zero => simp [serL]
  | succ N ih =>
    rw [serL, List.range_succ, List.map_append, List.map_singleton, ev_append_singleton, Finset.sum_range_succ]
    rw [serL] at ih
    rw [ih, List.length_map, List.length_range, cliffordC, div_pow]
    push_cast
    field_simp

theorem clifford_serL (n : ℕ) (z : ℝ) (hz : |z| ≤ 25) : |clifford n (z / 4) - ev (serL n 25) z| ≤ 1e-25 := by
  rw [ev_serL]
  refine (clifford_trunc n 25 (by norm_num) (z / 4) ?_).trans ?_
  · rw [abs_div, abs_of_pos (show (0 : ℝ) < 4 by norm_num)]
    push_cast
    linarith
  · have h1 : |z / 4| ^ 25 ≤ (25 / 4 : ℝ) ^ 25 := by
      rw [abs_div, abs_of_pos (show (0 : ℝ) < 4 by norm_num)]
      gcongr
    have h2 : (25 ! : ℝ) ≤ ((25 + n)! : ℝ) := by exact_mod_cast Nat.factorial_le (by omega)
    calc 2 * |z / 4| ^ 25 / ((25 ! : ℝ) * ((25 + n)! : ℝ)) ≤ 2 * (25 / 4 : ℝ) ^ 25 / ((25 ! : ℝ) * (25 ! : ℝ)) := by gcongr
      _ ≤ 1e-25 := by
        have : (25 ! : ℝ) = 15511210043330985984000000 := by norm_num [Nat.factorial]
        rw [this]; norm_num

/-- numerator of `j0_small` -/
def num0 : List ℚ := mulL (mulL [-constDR10, 1] [-constDR20, 1]) tableRP0.reverse
/-- numerator of `j1_small` divided by `x` -/
def num1 : List ℚ := mulL (mulL [-constZ1, 1] [-constZ2, 1]) tableRP1.reverse

theorem small0_cert : checkAll (addL num0 (scL (-1) (mulL (serL 0 25) tableRQ0.reverse))) tableRQ0.reverse
    (4 / 10 ^ 15) 0 (25 / 2) 2 = true := by decide +kernel

theorem small1_cert : checkAll (addL num1 (scL (-(1 / 2)) (mulL (serL 1 25) tableRQ1.reverse))) tableRQ1.reverse
    (4 / 10 ^ 15) 0 (25 / 2) 2 = true := by decide +kernel

theorem ev_pos (L : List ℚ) (hL : nonneg L = true) (h0 : 0 < evQ L 0) (x : ℝ) (hx : 0 ≤ x) : 0 < ev L x := by
  have h := (ev_mono L hL 0 x le_rfl hx).2
  have h1 : ev L ((0 : ℚ) : ℝ) = (evQ L 0 : ℚ) := ev_cast L 0
  rw [Rat.cast_zero] at h1
  have h2 : (0 : ℝ) < (evQ L 0 : ℚ) := by exact_mod_cast h0
  linarith

theorem small0 (x : ℝ) (h0 : 0 ≤ x) (h5 : x ≤ 5) :
    |(x * x - cephes.DR10) * (x * x - cephes.DR20) * polyval cephes.RP0 (x * x) / polyval cephes.RQ0 (x * x) - besselJ 0 x|
      ≤ 5e-15 := by
  have hz0 : 0 ≤ x * x := by positivity
  have hz : x * x ≤ 25 := by nlinarith
  have hn : nonneg tableRQ0.reverse = true := by decide +kernel
  have hc := checkAll_sound _ _ _ _ _ hn le_rfl (by norm_num) (by norm_num) 2 (by norm_num) small0_cert (x * x)
    (by simpa using hz0) (by push_cast; linarith)
  have hpos := ev_pos tableRQ0.reverse hn (by decide +kernel) (x * x) hz0
  rw [ev_addL, ev_scL, ev_mulL] at hc
  have hs := clifford_serL 0 (x * x) (by rw [abs_of_nonneg hz0]; exact hz)
  rw [besselJ_zero, show x ^ 2 = x * x by ring]
  have e : (x * x - cephes.DR10) * (x * x - cephes.DR20) * polyval cephes.RP0 (x * x) = ev num0 (x * x) := by
    rw [num0, ev_mulL, ev_mulL, cephes, polyval_eq_ev]
    simp only [ev_cons, ev_nil]
    push_cast
    ring
  rw [e, show polyval cephes.RQ0 (x * x) = ev tableRQ0.reverse (x * x) from polyval_eq_ev _ _]
  set Q := ev tableRQ0.reverse (x * x)
  set S := ev (serL 0 25) (x * x)
  have h1 : |ev num0 (x * x) / Q - S| ≤ 4 / 10 ^ 15 := by
    rw [show ev num0 (x * x) / Q - S = (ev num0 (x * x) + ((-1 : ℚ) : ℝ) * (S * Q)) / Q by
      field_simp; push_cast; ring, abs_div, abs_of_pos hpos, div_le_iff₀ hpos]
    refine hc.trans (le_of_eq ?_)
    push_cast; ring
  rw [abs_le] at h1 hs ⊢
  norm_num at h1 hs ⊢
  constructor <;> linarith [h1.1, h1.2, hs.1, hs.2]

theorem num1_eq (x : ℝ) :
    polyval cephes.RP1 (x * x) / polyval cephes.RQ1 (x * x) * x * (x * x - cephes.Z1) * (x * x - cephes.Z2)
      = x * (ev num1 (x * x) / ev tableRQ1.reverse (x * x)) := by
  have e : polyval cephes.RP1 (x * x) * (x * x - cephes.Z1) * (x * x - cephes.Z2) = ev num1 (x * x) := by
    rw [num1, ev_mulL, ev_mulL, cephes, polyval_eq_ev]
    simp only [ev_cons, ev_nil]
    push_cast
    ring
  rw [show polyval cephes.RP1 (x * x) / polyval cephes.RQ1 (x * x) * x * (x * x - cephes.Z1) * (x * x - cephes.Z2)
    = x * (polyval cephes.RP1 (x * x) * (x * x - cephes.Z1) * (x * x - cephes.Z2) / polyval cephes.RQ1 (x * x)) by ring,
    e, show polyval cephes.RQ1 (x * x) = ev tableRQ1.reverse (x * x) from polyval_eq_ev _ _]

theorem small1 (x : ℝ) (h0 : 0 ≤ x) (h5 : x ≤ 5) :
    |polyval cephes.RP1 (x * x) / polyval cephes.RQ1 (x * x) * x * (x * x - cephes.Z1) * (x * x - cephes.Z2) - besselJ 1 x|
      ≤ 5e-15 * x := by
  have hz0 : 0 ≤ x * x := by positivity
  have hz : x * x ≤ 25 := by nlinarith
  have hn : nonneg tableRQ1.reverse = true := by decide +kernel
  have hc := checkAll_sound _ _ _ _ _ hn le_rfl (by norm_num) (by norm_num) 2 (by norm_num) small1_cert (x * x)
    (by simpa using hz0) (by push_cast; linarith)
  have hpos := ev_pos tableRQ1.reverse hn (by decide +kernel) (x * x) hz0
  rw [ev_addL, ev_scL, ev_mulL] at hc
  have hs := clifford_serL 1 (x * x) (by rw [abs_of_nonneg hz0]; exact hz)
  rw [besselJ_one, show x ^ 2 = x * x by ring]
  rw [num1_eq]
  set Q := ev tableRQ1.reverse (x * x)
  set S := ev (serL 1 25) (x * x)
  have h1 : |ev num1 (x * x) / Q - S / 2| ≤ 4 / 10 ^ 15 := by
    rw [show ev num1 (x * x) / Q - S / 2 = (ev num1 (x * x) + ((-(1 / 2) : ℚ) : ℝ) * (S * Q)) / Q by
      field_simp; push_cast; ring, abs_div, abs_of_pos hpos, div_le_iff₀ hpos]
    refine hc.trans (le_of_eq ?_)
    push_cast; ring
  have h2 : |ev num1 (x * x) / Q - clifford 1 (x * x / 4) / 2| ≤ 5e-15 := by
    rw [abs_le] at h1 hs ⊢
    norm_num at h1 hs ⊢
    constructor <;> linarith [h1.1, h1.2, hs.1, hs.2]
  rw [show x * (ev num1 (x * x) / Q) - x / 2 * clifford 1 (x * x / 4)
    = x * (ev num1 (x * x) / Q - clifford 1 (x * x / 4) / 2) by ring, abs_mul, abs_of_nonneg h0]
  rw [mul_comm]
  gcongr

/-! ### Sine, cosine and square root at rational points -/

/-- partial sums of cosine and sine -/
def cosQ (t : ℚ) (N : ℕ) : ℚ := ((List.range N).map fun k => (-1) ^ k * t ^ (2 * k) / ((2 * k)! : ℕ)).sum
def sinQ (t : ℚ) (N : ℕ) : ℚ := ((List.range N).map fun k => (-1) ^ k * t ^ (2 * k + 1) / ((2 * k + 1)! : ℕ)).sum

theorem exp_partial (t : ℚ) (N : ℕ) :
    ∑ m ∈ Finset.range (2 * N), ((t : ℂ) * Complex.I) ^ m / (m ! : ℂ) = (cosQ t N : ℂ) + (sinQ t N : ℂ) * Complex.I := by
  induction N with
  | zero => simp [cosQ, sinQ]
  | succ N ih =>
    rw [show 2 * (N + 1) = 2 * N + 1 + 1 by ring, Finset.sum_range_succ, Finset.sum_range_succ, ih]
    simp only [cosQ, sinQ, List.range_succ, List.map_append, List.sum_append, List.map_singleton, List.sum_singleton]
    have hI : Complex.I ^ (2 * N) = (-1) ^ N := by rw [pow_mul, Complex.I_sq]
    rw [mul_pow, mul_pow, pow_succ Complex.I, hI]
    push_cast
    ring

theorem cos_sin_approx (t : ℚ) (ht : |t| ≤ 5) : |Real.cos t - cosQ t 25| ≤ 1e-20 ∧ |Real.sin t - sinQ t 25| ≤ 1e-20 := by
  have ht' : |(t : ℝ)| ≤ 5 := by exact_mod_cast ht
  have hn : ‖((t : ℂ) * Complex.I)‖ = |(t : ℝ)| := by
    rw [norm_mul, Complex.norm_I, mul_one, ← Complex.ofReal_ratCast, Complex.norm_real, Real.norm_eq_abs]
  have h := Complex.exp_bound' (x := (t : ℂ) * Complex.I) (n := 2 * 25) (by
    rw [hn]
    push_cast
    norm_num
    linarith)
  rw [exp_partial, hn] at h
  have h2 : |(t : ℝ)| ^ (2 * 25) / ((2 * 25)! : ℝ) * 2 ≤ 1e-20 := by
    calc |(t : ℝ)| ^ (2 * 25) / ((2 * 25)! : ℝ) * 2 ≤ 5 ^ (2 * 25) / ((2 * 25)! : ℝ) * 2 := by gcongr
      _ ≤ 1e-20 := by
        have : ((2 * 25)! : ℝ) = 30414093201713378043612608166064768844377641568960512000000000000 := by
          norm_num [Nat.factorial]
        rw [this]; norm_num
  have h3 := h.trans h2
  have e : Complex.exp ((t : ℂ) * Complex.I) - ((cosQ t 25 : ℂ) + (sinQ t 25 : ℂ) * Complex.I)
      = ((Real.cos t - cosQ t 25 : ℝ) : ℂ) + ((Real.sin t - sinQ t 25 : ℝ) : ℂ) * Complex.I := by
    rw [Complex.exp_mul_I]
    push_cast
    ring
  rw [e] at h3
  have hre := (Complex.abs_re_le_norm _).trans h3
  have him := (Complex.abs_im_le_norm _).trans h3
  simp only [Complex.add_re, Complex.add_im, Complex.ofReal_re, Complex.ofReal_im, Complex.mul_re, Complex.mul_im,
    Complex.I_re, Complex.I_im, mul_zero, mul_one, sub_zero, add_zero, zero_add] at hre him
  exact ⟨hre, him⟩

/-- `√5` to twenty digits -/
def sqrt5Q : ℚ := 2.23606797749978969640

theorem sqrt5_approx : |Real.sqrt 5 - sqrt5Q| ≤ 1e-20 := by
  have h1 : ((sqrt5Q : ℚ) : ℝ) ≤ Real.sqrt 5 := by
    apply Real.le_sqrt_of_sq_le
    rw [sqrt5Q]; norm_num
  have h2 : Real.sqrt 5 ≤ ((sqrt5Q : ℚ) : ℝ) + 1e-20 := by
    rw [Real.sqrt_le_left (by rw [sqrt5Q]; norm_num)]
    rw [sqrt5Q]; norm_num
  rw [abs_le]; constructor <;> linarith

theorem J_at_five (n : ℕ) : |clifford n (25 / 4) - evQ (serL n 25) 25| ≤ 1e-25 := by
  have h := clifford_serL n 25 (by norm_num)
  have e := ev_cast (serL n 25) 25
  push_cast at e
  rwa [e] at h

/-- Combination of the approximations at the matching point. -/
theorem match_bound (a b K s' j' C' S' : ℚ) (s j C S : ℝ) (hs : |s - s'| ≤ 1e-20) (hj : |j - j'| ≤ 1e-20)
    (hC : |C - C'| ≤ 1e-20) (hS : |S - S'| ≤ 1e-20) (hs' : |s'| ≤ 3) (hj' : |j'| ≤ 1) (ha : |K * a| ≤ 2) (hb : |K * b| ≤ 2)
    (h : |s' * j' - K * (a * C' + b * S')| ≤ 1 / 10 ^ 15) :
    |s * j - K * (a * C + b * S)| ≤ 2e-15 := by
  have h' : |(s' : ℝ) * j' - K * (a * C' + b * S')| ≤ 1 / 10 ^ 15 := by
    have h2 := (Rat.cast_le (K := ℝ)).mpr h
    push_cast at h2
    exact h2
  have hs1 : |(s' : ℝ)| ≤ 3 := by exact_mod_cast hs'
  have hj1 : |(j' : ℝ)| ≤ 1 := by exact_mod_cast hj'
  have ha1 : |(K : ℝ) * a| ≤ 2 := by exact_mod_cast ha
  have hb1 : |(K : ℝ) * b| ≤ 2 := by exact_mod_cast hb
  have e : s * j - K * (a * C + b * S) = (s' * j' - K * (a * C' + b * S')) + ((s - s') * (j - j') + (s - s') * j'
      + s' * (j - j')) - (K * a * (C - C') + K * b * (S - S')) := by ring
  have m1 : |(s - s') * (j - j')| ≤ 1e-20 * 1e-20 := by rw [abs_mul]; gcongr
  have m2 : |(s - s') * (j' : ℝ)| ≤ 1e-20 * 1 := by rw [abs_mul]; gcongr
  have m3 : |(s' : ℝ) * (j - j')| ≤ 3 * 1e-20 := by rw [abs_mul]; gcongr
  have m4 : |(K : ℝ) * a * (C - C')| ≤ 2 * 1e-20 := by rw [abs_mul]; gcongr
  have m5 : |(K : ℝ) * b * (S - S')| ≤ 2 * 1e-20 := by rw [abs_mul]; gcongr
  rw [e]
  rw [abs_le] at h' m1 m2 m3 m4 m5 ⊢
  norm_num at h' m1 m2 m3 m4 m5 ⊢
  constructor <;> linarith [h'.1, h'.2, m1.1, m1.2, m2.1, m2.2, m3.1, m3.2, m4.1, m4.2, m5.1, m5.2]

/-! ### Large arguments -/

theorem large_bound (n D m E : List ℚ) (c εA εB : ℚ) (θ K : ℝ) (hK : |K| ≤ 1) (hD : nonneg D = true) (hE : nonneg E = true)
    (hD0 : 0 < evQ D 0) (hE0 : 0 < evQ E 0) (hA0 : 0 ≤ εA) (hB0 : 0 ≤ εB)
    (hnA : nonneg (denA D E) = true) (hnB : nonneg (denB D E) = true)
    (hA : checkAll (resA n D m E c) (denA D E) εA 0 (1 / 16) 16 = true)
    (hB : checkAll (resB n D m E c) (denB D E) εB 0 (1 / 16) 16 = true)
    (V V1 : ℝ → ℝ) (hV : ∀ x : ℝ, 5 ≤ x → HasDerivAt V (V1 x) x)
    (hV1 : ∀ x : ℝ, 5 ≤ x → HasDerivAt V1 (-(1 + c * (25 / (x * x))) * V x) x) (x : ℝ) (hx : 5 ≤ x) :
    (V x - K * modPhase n D m E θ x) ^ 2 ≤ ((V 5 - K * modPhase n D m E θ 5) ^ 2 + (V1 5 - K * modPhase1 n D m E θ 5) ^ 2
      + (25 * (εA + εB)) ^ 2) * Real.exp ((|25 * (c : ℝ)| + 1) / 5) := by
  have hq : ∀ y : ℝ, 5 ≤ y → 0 ≤ 25 / (y * y) ∧ 25 / (y * y) ≤ 1 := by
    intro y hy
    have : 0 < y := by linarith
    refine ⟨by positivity, ?_⟩
    rw [div_le_one (by positivity)]; nlinarith
  have dpos : ∀ y : ℝ, 5 ≤ y → 0 < ev D (25 / (y * y)) := fun y hy => ev_pos D hD hD0 _ (hq y hy).1
  have epos : ∀ y : ℝ, 5 ≤ y → 0 < ev E (25 / (y * y)) := fun y hy => ev_pos E hE hE0 _ (hq y hy).1
  have hε : (0 : ℝ) ≤ εA ∧ (0 : ℝ) ≤ εB := ⟨by exact_mod_cast hA0, by exact_mod_cast hB0⟩
  have hal : ∀ y : ℝ, 5 ≤ y → |alphaR n D m E c (25 / (y * y))| ≤ εA := by
    intro y hy
    have h := checkAll_sound _ _ _ _ _ hnA le_rfl (by norm_num) hA0 16 (by norm_num) hA (25 / (y * y))
      (by simpa using (hq y hy).1) (by push_cast; linarith [(hq y hy).2])
    have hp : 0 < ev (denA D E) (25 / (y * y)) := by
      simp only [denA, ev_mulL]
      have := dpos y hy; have := epos y hy
      positivity
    rw [alphaR_eq _ _ _ _ _ _ (dpos y hy).ne' (epos y hy).ne', abs_div, abs_of_pos hp, div_le_iff₀ hp]
    exact h
  have hbe : ∀ y : ℝ, 5 ≤ y → |betaR n D m E c (25 / (y * y))| ≤ εB := by
    intro y hy
    have h := checkAll_sound _ _ _ _ _ hnB le_rfl (by norm_num) hB0 16 (by norm_num) hB (25 / (y * y))
      (by simpa using (hq y hy).1) (by push_cast; linarith [(hq y hy).2])
    have hp : 0 < ev (denB D E) (25 / (y * y)) := by
      simp only [denB, ev_mulL]
      have := dpos y hy; have := epos y hy
      positivity
    rw [betaR_eq _ _ _ _ _ _ (dpos y hy).ne' (epos y hy).ne', abs_div, abs_of_pos hp, div_le_iff₀ hp]
    exact h
  set R : ℝ → ℝ := fun y => -(K * (25 / (y * y) * (alphaR n D m E c (25 / (y * y)) * Real.cos (y - θ)
    + 5 / y * betaR n D m E c (25 / (y * y)) * Real.sin (y - θ)))) with hRdef
  have hR : ∀ y : ℝ, 5 ≤ y → |R y| ≤ (25 * (εA + εB)) / y ^ 2 := by
    intro y hy
    have hy0 : 0 < y := by linarith
    have b1 : |alphaR n D m E c (25 / (y * y)) * Real.cos (y - θ)| ≤ εA * 1 := by
      rw [abs_mul]; gcongr
      · exact hal y hy
      · exact Real.abs_cos_le_one _
    have hw : |5 / y| ≤ 1 := by rw [abs_of_pos (by positivity), div_le_one hy0]; exact hy
    have b2 : |5 / y * betaR n D m E c (25 / (y * y)) * Real.sin (y - θ)| ≤ 1 * εB * 1 := by
      rw [abs_mul, abs_mul]
      gcongr
      · exact hbe y hy
      · exact Real.abs_sin_le_one _
    have b3 := (abs_add_le (alphaR n D m E c (25 / (y * y)) * Real.cos (y - θ))
      (5 / y * betaR n D m E c (25 / (y * y)) * Real.sin (y - θ))).trans (add_le_add b1 b2)
    rw [hRdef]
    simp only [abs_neg]
    rw [abs_mul, abs_mul, abs_of_nonneg (hq y hy).1]
    calc |K| * (25 / (y * y) * |alphaR n D m E c (25 / (y * y)) * Real.cos (y - θ)
          + 5 / y * betaR n D m E c (25 / (y * y)) * Real.sin (y - θ)|)
        ≤ 1 * (25 / (y * y) * (εA * 1 + 1 * εB * 1)) := by
          have := (hq y hy).1
          gcongr
      _ = _ := by ring
  have h := energy_bound (fun y => V y - K * modPhase n D m E θ y) (fun y => V1 y - K * modPhase1 n D m E θ y) R (25 * c)
    (25 * (εA + εB))
    (fun y hy => (hV y hy).fun_sub ((hasDerivAt_modPhase n D m E θ y (by linarith) (dpos y hy).ne' (epos y hy).ne').const_mul K))
    (fun y hy => by
      refine ((hV1 y hy).fun_sub ((hasDerivAt_modPhase1 n D m E θ y c (by linarith) (dpos y hy).ne'
        (epos y hy).ne').const_mul K)).congr_deriv ?_
      simp only [hRdef]
      ring)
    hR x hx
  beta_reduce at h
  nlinarith [sq_nonneg (V1 x - K * modPhase1 n D m E θ x)]

/-- values at `q = 1` -/
def r0Q (n D : List ℚ) : ℚ := evQ n 1 / evQ D 1
def r1Q (n D : List ℚ) : ℚ := evQ (quot1 n D) 1 / evQ D 1 ^ 2

theorem rat0_one (n D : List ℚ) : rat0 n D 1 = (r0Q n D : ℚ) := by
  have h1 := ev_cast n 1
  have h2 := ev_cast D 1
  rw [Rat.cast_one] at h1 h2
  rw [rat0, r0Q, h1, h2]; push_cast; ring

theorem rat1_one (n D : List ℚ) : rat1 n D 1 = (r1Q n D : ℚ) := by
  have h1 := ev_cast (quot1 n D) 1
  have h2 := ev_cast D 1
  rw [Rat.cast_one] at h1 h2
  rw [rat1, r1Q, h1, h2]; push_cast; ring

theorem modPhase_five (n D m E : List ℚ) (θ : ℚ) :
    modPhase n D m E θ 5 = (r0Q n D : ℚ) * Real.cos ((5 - θ : ℚ) : ℝ) + (-r0Q m E : ℚ) * Real.sin ((5 - θ : ℚ) : ℝ) := by
  rw [modPhase, show (25 : ℝ) / (5 * 5) = 1 by norm_num, rat0_one, rat0_one]
  push_cast; ring

theorem modPhase1_five (n D m E : List ℚ) (θ : ℚ) :
    modPhase1 n D m E θ 5 = (-(2 / 5) * r1Q n D - r0Q m E : ℚ) * Real.cos ((5 - θ : ℚ) : ℝ)
      + (-r0Q n D + 1 / 5 * r0Q m E + 2 / 5 * r1Q m E : ℚ) * Real.sin ((5 - θ : ℚ) : ℝ) := by
  simp only [modPhase1]
  rw [show (25 : ℝ) / (5 * 5) = 1 by norm_num, rat0_one, rat0_one, rat1_one, rat1_one]
  push_cast; ring

/-- All conditions that certify one pair of tables, decided by evaluation. -/
def certLarge (n D m E : List ℚ) (c θ K a0 a1 : ℚ) : Bool :=
  let C := cosQ (5 - θ) 25
  let S := sinQ (5 - θ) 25
  let p0 := r0Q n D
  let g0 := r0Q m E
  let b1 := -(2 / 5) * r1Q n D - g0
  let b2 := -p0 + 1 / 5 * g0 + 2 / 5 * r1Q m E
  nonneg D && nonneg E && decide (0 < evQ D 0) && decide (0 < evQ E 0) && nonneg (denA D E) && nonneg (denB D E)
    && checkAll (resA n D m E c) (denA D E) (3 / 10 ^ 14) 0 (1 / 16) 16
    && checkAll (resB n D m E c) (denB D E) (2 / 10 ^ 14) 0 (1 / 16) 16
    && decide (|5 - θ| ≤ 5) && decide (|a0| ≤ 1) && decide (|a1| ≤ 1) && decide (|K| ≤ 1)
    && decide (|K * p0| ≤ 2) && decide (|K * -g0| ≤ 2) && decide (|K * b1| ≤ 2) && decide (|K * b2| ≤ 2)
    && decide (|sqrt5Q * a0 - K * (p0 * C + -g0 * S)| ≤ 1 / 10 ^ 15)
    && decide (|sqrt5Q * a1 - K * (b1 * C + b2 * S)| ≤ 1 / 10 ^ 15)

theorem certLarge_sound (n D m E : List ℚ) (c θ K a0 a1 : ℚ) (h : certLarge n D m E c θ K a0 a1 = true) (hc : |25 * c| ≤ 3 / 4)
    (V V1 : ℝ → ℝ) (j0 j1 : ℝ) (hj0 : |j0 - a0| ≤ 1e-20) (hj1 : |j1 - a1| ≤ 1e-20)
    (hV : ∀ x : ℝ, 5 ≤ x → HasDerivAt V (V1 x) x)
    (hV1 : ∀ x : ℝ, 5 ≤ x → HasDerivAt V1 (-(1 + c * (25 / (x * x))) * V x) x)
    (h0 : V 5 = Real.sqrt 5 * j0) (h1 : V1 5 = Real.sqrt 5 * j1) (x : ℝ) (hx : 5 ≤ x) :
    |V x - K * modPhase n D m E θ x| ≤ 2e-12 := by
  simp only [certLarge, Bool.and_eq_true, decide_eq_true_eq] at h
  obtain ⟨⟨⟨⟨⟨⟨⟨⟨⟨⟨⟨⟨⟨⟨⟨⟨⟨d1, d2⟩, d3⟩, d4⟩, d5⟩, d6⟩, d7⟩, d8⟩, d9⟩, d10⟩, d11⟩, d12⟩, d13⟩, d14⟩, d15⟩, d16⟩, d17⟩, d18⟩ := h
  obtain ⟨hC, hS⟩ := cos_sin_approx (5 - θ) d9
  have s3 : |sqrt5Q| ≤ 3 := by rw [sqrt5Q]; norm_num [abs_of_pos]
  have m0 := match_bound _ _ K _ _ _ _ _ _ _ _ sqrt5_approx hj0 hC hS s3 d10 d13 d14 d17
  have m1 := match_bound _ _ K _ _ _ _ _ _ _ _ sqrt5_approx hj1 hC hS s3 d11 d15 d16 d18
  rw [← modPhase_five, ← h0] at m0
  rw [← modPhase1_five, ← h1] at m1
  have hK : |(K : ℝ)| ≤ 1 := by exact_mod_cast d12
  have hb := large_bound n D m E c (3 / 10 ^ 14) (2 / 10 ^ 14) θ K hK d1 d2 d3 d4 (by norm_num) (by norm_num) d5 d6 d7 d8
    V V1 hV hV1 x hx
  have hexp : Real.exp ((|25 * (c : ℝ)| + 1) / 5) ≤ 2 := by
    have hc' : |25 * (c : ℝ)| ≤ 3 / 4 := by
      have h2 := (Rat.cast_le (K := ℝ)).mpr hc
      push_cast at h2
      exact h2
    have : Real.exp ((|25 * (c : ℝ)| + 1) / 5) ≤ Real.exp (1 / 2) := Real.exp_le_exp.mpr (by linarith)
    have h2 : Real.exp (1 / 2) ^ 2 ≤ 3 := by
      rw [← Real.exp_nat_mul]
      norm_num
      linarith [Real.exp_one_lt_d9]
    nlinarith [Real.exp_pos (1 / 2)]
  have q0 : (V 5 - K * modPhase n D m E θ 5) ^ 2 ≤ (2e-15) ^ 2 := sq_le_sq' (abs_le.mp m0).1 (abs_le.mp m0).2
  have q1 : (V1 5 - K * modPhase1 n D m E θ 5) ^ 2 ≤ (2e-15) ^ 2 := sq_le_sq' (abs_le.mp m1).1 (abs_le.mp m1).2
  have hfin : (V x - K * modPhase n D m E θ x) ^ 2 ≤ (2e-12) ^ 2 := by
    refine hb.trans ?_
    calc _ ≤ ((2e-15) ^ 2 + (2e-15) ^ 2 + (25 * (((3 / 10 ^ 14 : ℚ) : ℝ) + ((2 / 10 ^ 14 : ℚ) : ℝ))) ^ 2) * (2 : ℝ) := by
          gcongr
      _ ≤ (2e-12) ^ 2 := by push_cast; norm_num
  exact abs_le_of_sq_le_sq hfin (by norm_num)

theorem cert_J0 : certLarge tablePP0.reverse tablePQ0.reverse tableQP0.reverse tableQQ0.reverse (1 / 100) constPIO4 constSQ2OPI
    (evQ (serL 0 25) 25) (evQ (serL 0 25) 25 / 10 - 5 / 2 * evQ (serL 1 25) 25) = true := by decide +kernel

theorem cert_J1 : certLarge tablePP1.reverse tablePQ1.reverse tableQP1.reverse tableQQ1.reverse (-3 / 100) constTHPIO4 constSQ2OPI
    (5 / 2 * evQ (serL 1 25) 25) (evQ (serL 0 25) 25 - 5 / 2 * evQ (serL 1 25) 25 / 10) = true := by decide +kernel

end Microjax.Props
