import Verif.Model.FftLog
import Mathlib.Data.List.GetD
import Mathlib.Analysis.SpecialFunctions.Trigonometric.Bounds
import Mathlib.Algebra.Field.GeomSum
import Mathlib.Tactic.LinearCombination

/-!
# C62, C63, C75: `fastlens/fftlog_jax.py`
-/

noncomputable section

set_option linter.unusedVariables false

open Microjax.FftLog

namespace Microjax.Props

/-! ### C63 -/

lemma taper_range {t : ℝ} (h0 : 0 ≤ t) (h1 : t ≤ 1) :
    0 ≤ t - 1 / (2 * Real.pi) * Real.sin (2 * Real.pi * t) ∧
    t - 1 / (2 * Real.pi) * Real.sin (2 * Real.pi * t) ≤ 1 := by
  have hpi := Real.two_pi_pos
  constructor
  · have h := Real.sin_le (show 0 ≤ 2 * Real.pi * t by positivity)
    have := mul_le_mul_of_nonneg_left h (show 0 ≤ 1 / (2 * Real.pi) by positivity)
    have e : 1 / (2 * Real.pi) * (2 * Real.pi * t) = t := by field_simp
    linarith
  · have h := Real.sin_le (show 0 ≤ 2 * Real.pi * (1 - t) by
      have : 0 ≤ 1 - t := by linarith
      positivity)
    rw [show 2 * Real.pi * (1 - t) = 2 * Real.pi - 2 * Real.pi * t by ring, Real.sin_two_pi_sub] at h
    have := mul_le_mul_of_nonneg_left h (show 0 ≤ 1 / (2 * Real.pi) by positivity)
    have e : 1 / (2 * Real.pi) * (2 * Real.pi - 2 * Real.pi * t) = 1 - t := by field_simp
    linarith

lemma taper_mono {s t : ℝ} (h : s ≤ t) :
    s - 1 / (2 * Real.pi) * Real.sin (2 * Real.pi * s) ≤ t - 1 / (2 * Real.pi) * Real.sin (2 * Real.pi * t) := by
  have hpi := Real.two_pi_pos
  have h1 : |Real.sin (2 * Real.pi * t) - Real.sin (2 * Real.pi * s)| ≤ 2 * Real.pi * (t - s) := by
    rw [Real.sin_sub_sin, abs_mul, abs_mul, abs_of_pos (by norm_num : (0:ℝ) < 2)]
    have ha := Real.abs_cos_le_one ((2 * Real.pi * t + 2 * Real.pi * s) / 2)
    have hb := Real.abs_sin_le_abs (x := (2 * Real.pi * t - 2 * Real.pi * s) / 2)
    rw [show (2 * Real.pi * t - 2 * Real.pi * s) / 2 = Real.pi * (t - s) by ring] at hb ⊢
    rw [abs_of_nonneg (show 0 ≤ Real.pi * (t - s) from
      mul_nonneg Real.pi_pos.le (by linarith))] at hb
    nlinarith [abs_nonneg (Real.sin (Real.pi * (t - s))), abs_nonneg (Real.cos ((2 * Real.pi * t + 2 * Real.pi * s) / 2))]
  have h2 := (abs_le.mp h1).2
  have := mul_le_mul_of_nonneg_left h2 (show 0 ≤ 1 / (2 * Real.pi) by positivity)
  have e : 1 / (2 * Real.pi) * (2 * Real.pi * (t - s)) = t - s := by field_simp
  have e2 : 1 / (2 * Real.pi) * (Real.sin (2 * Real.pi * t) - Real.sin (2 * Real.pi * s))
    = 1 / (2 * Real.pi) * Real.sin (2 * Real.pi * t) - 1 / (2 * Real.pi) * Real.sin (2 * Real.pi * s) := by ring
  linarith

lemma cWindow_get (M c : ℕ) (n : ℕ) (hn : n ≤ M) :
    (cWindow M c).getD n 0 = if (n : ℤ) > (M : ℤ) - c then
      (((M : ℝ) - n) / ((c : ℝ) - 1)) - 1 / (2 * Real.pi) * Real.sin (2 * Real.pi * (((M : ℝ) - n) / ((c : ℝ) - 1)))
      else 1 := by
  have hlt : n < M + 1 := by omega
  rw [cWindow, List.getD_eq_getElem _ _ (by simpa using hlt)]
  simp only [List.getElem_map, List.getElem_range]
  have : (((M : ℤ) - ((M : ℤ) - c) - 1 : ℤ) : ℝ) = (c : ℝ) - 1 := by push_cast; ring
  rw [this]

/-- **C63.**  The taper applied to the Fourier coefficients (with at least two tapered coefficients): one value per
coefficient, all in `[0, 1]`, exactly one below the cut and at the first tapered coefficient, exactly zero at the
last, and never increasing. -/
theorem C63_window (M c : ℕ) (hc : 2 ≤ c) (hcM : c ≤ M) :
    (cWindow M c).length = M + 1 ∧
    (∀ n, n ≤ M → 0 ≤ (cWindow M c).getD n 0 ∧ (cWindow M c).getD n 0 ≤ 1) ∧
    (∀ n, n + c ≤ M + 1 → (cWindow M c).getD n 0 = 1) ∧
    (cWindow M c).getD M 0 = 0 ∧
    (∀ n k, n ≤ k → k ≤ M → (cWindow M c).getD k 0 ≤ (cWindow M c).getD n 0) := by
  have hc1 : (0 : ℝ) < (c : ℝ) - 1 := by
    have : (2 : ℝ) ≤ c := by exact_mod_cast hc
    linarith
  have hth : ∀ n : ℕ, n ≤ M → (n : ℤ) > (M : ℤ) - c →
      0 ≤ ((M : ℝ) - n) / ((c : ℝ) - 1) ∧ ((M : ℝ) - n) / ((c : ℝ) - 1) ≤ 1 := by
    intro n hn hg
    have h1 : (n : ℝ) ≤ M := by exact_mod_cast hn
    have h2 : M + 1 ≤ n + c := by omega
    have h3 : (M : ℝ) + 1 ≤ n + c := by exact_mod_cast h2
    exact ⟨div_nonneg (by linarith) hc1.le, by rw [div_le_one hc1]; linarith⟩
  refine ⟨by simp [cWindow], fun n hn => ?_, fun n hn => ?_, ?_, fun n k hnk hk => ?_⟩
  · rw [cWindow_get M c n hn]
    split_ifs with h
    · exact taper_range (hth n hn h).1 (hth n hn h).2
    · exact ⟨zero_le_one, le_rfl⟩
  · rw [cWindow_get M c n (by omega)]
    split_ifs with h
    · have : n + c = M + 1 := by omega
      have h2 : (n : ℝ) + c = M + 1 := by exact_mod_cast this
      rw [show ((M : ℝ) - n) = (c : ℝ) - 1 by linarith, div_self hc1.ne', mul_one, Real.sin_two_pi]
      ring
    · rfl
  · rw [cWindow_get M c M le_rfl, if_pos (by omega)]
    simp
  · rw [cWindow_get M c n (by omega), cWindow_get M c k hk]
    have hnk' : (n : ℝ) ≤ k := by exact_mod_cast hnk
    split_ifs with h1 h2 h3
    · exact taper_mono (div_le_div_of_nonneg_right (by linarith) hc1.le)
    · exact (taper_range (hth k hk h1).1 (hth k hk h1).2).2
    · omega
    · exact le_rfl

/-- The package's default grid of 1024 samples: 512 + 1 coefficients, 128 of them tapered. -/
example : (2 : ℕ) ≤ 128 ∧ (128 : ℕ) ≤ 512 ∧ ⌊(0.25 : ℝ) * (1024 : ℕ) / 2⌋₊ = 128 := by
  refine ⟨by norm_num, by norm_num, ?_⟩
  rw [Nat.floor_eq_iff (by norm_num)]
  norm_num

/-- **C63.**  Log-extrapolation continues a geometric grid geometrically at both ends, for every number of added
samples. -/
theorem C63_log_extrap (a q : ℝ) (ha : a ≠ 0) (hq : 0 < q) (n lo hi : ℕ) (hn : 2 ≤ n) :
    logExtrap ((List.range n).map fun i : ℕ => a * q ^ (i : ℤ)) lo hi
      = (List.range (lo + n + hi)).map fun i : ℕ => a * q ^ ((i : ℤ) - lo) := by
  have hg : ∀ i, i < n → ((List.range n).map fun i : ℕ => a * q ^ (i : ℤ)).getD i 0 = a * q ^ (i : ℤ) := by
    intro i hi
    rw [List.getD_eq_getElem _ _ (by simpa using hi)]
    simp
  have hexp : ∀ k : ℤ, Real.exp (Real.log q * k) = q ^ k := by
    intro k
    rw [← Real.rpow_def_of_pos hq, Real.rpow_intCast]
  have hr1 : Real.log (a * q ^ ((1 : ℕ) : ℤ) / (a * q ^ ((0 : ℕ) : ℤ))) = Real.log q := by
    congr 1; simp [ha]
  have hr2 : Real.log (a * q ^ ((n - 1 : ℕ) : ℤ) / (a * q ^ ((n - 2 : ℕ) : ℤ))) = Real.log q := by
    congr 1
    rw [mul_div_mul_left _ _ ha, ← zpow_sub₀ hq.ne', show ((n - 1 : ℕ) : ℤ) - ((n - 2 : ℕ) : ℤ) = 1 by omega, zpow_one]
  have hform : logExtrap ((List.range n).map fun i : ℕ => a * q ^ (i : ℤ)) lo hi
      = ((List.range lo).map fun i : ℕ => a * q ^ ((i : ℤ) - lo)) ++ ((List.range n).map fun i : ℕ => a * q ^ (i : ℤ))
        ++ (List.range hi).map fun i : ℕ => a * q ^ ((n : ℤ) + i) := by
    rw [logExtrap]
    simp only [List.length_map, List.length_range]
    rw [hg 1 (by omega), hg 0 (by omega), hg (n - 1) (by omega), hg (n - 2) (by omega), hr1, hr2]
    congr 2
    · congr 1
      funext i
      have := hexp ((i : ℤ) - lo)
      push_cast at this
      rw [this]
      simp
    · funext i
      have := hexp ((i : ℤ) + 1)
      push_cast at this
      rw [this, mul_assoc, ← zpow_add₀ hq.ne']
      congr 2
      omega
  rw [hform]
  refine List.ext_getElem (by simp [add_assoc]) fun i h1 h2 => ?_
  simp only [List.getElem_map, List.getElem_range, List.getElem_append, List.length_append, List.length_map,
    List.length_range]
  split_ifs with c1 c2
  · rfl
  · rw [show ((i - lo : ℕ) : ℤ) = (i : ℤ) - lo by omega]
  · congr 2
    omega

example : logExtrap ((List.range 3).map fun i : ℕ => (1 : ℝ) * 2 ^ (i : ℤ)) 1 2
    = (List.range 6).map fun i : ℕ => (1 : ℝ) * 2 ^ ((i : ℤ) - 1) :=
  C63_log_extrap 1 2 one_ne_zero two_pos 3 1 2 (by norm_num)

/-! ### C62 -/

lemma logExtrap_split (x : List ℝ) (lo hi : ℕ) :
    ∃ L H : List ℝ, L.length = lo ∧ H.length = hi ∧ logExtrap x lo hi = L ++ x ++ H :=
  ⟨_, _, by simp, by simp, rfl⟩

lemma cut_aux {α : Type} (L x H : List α) (N : ℕ) (hN : N = L.length + x.length + H.length) (f : α → ℝ) :
    (((L ++ x ++ H).reverse.map f).take (N - L.length)).drop H.length = x.reverse.map f := by
  subst hN
  rw [show L.length + x.length + H.length - L.length = H.length + x.length by omega]
  simp only [List.reverse_append, List.map_append, ← List.append_assoc]
  rw [List.take_append_of_le_length (by simp), List.take_of_length_le (by simp)]
  rw [List.drop_append_of_le_length (by simp)]
  simp

/-- **C62.**  For every input, every order, and every number of extrapolated and padded samples, the abscissae
returned are exactly `(ell + 1) / x` for the original samples in reverse order, whenever padding is used or the
extended length is even. -/
theorem C62_reciprocal_grid (gl : ℝ → ℂ → ℂ) (x fx : List ℝ) (nu ell : ℝ) (lo hi pad : ℕ)
    (h : pad ≠ 0 ∨ (lo + x.length + hi) % 2 = 0) :
    (transform gl (init x fx nu lo hi pad) ell).1 = x.reverse.map fun v => (ell + 1) / v := by
  obtain ⟨L, H, hL, hH, e1⟩ := logExtrap_split x lo hi
  by_cases hp : pad = 0
  · have he : (lo + x.length + hi) % 2 = 0 := h.resolve_left (by simpa using hp)
    subst hp
    have hlen : (L ++ x ++ H).length = lo + x.length + hi := by simp [hL, hH]; ring
    simp only [transform, init, e1, hlen, ne_eq, not_true_eq_false, if_false]
    rw [if_neg (by omega)]
    simp only
    have := cut_aux L x H (lo + x.length + hi) (by rw [hL, hH]) (fun v => (ell + 1) / v)
    rw [hL, hH] at this
    exact this
  · obtain ⟨L', H', hL', hH', e2⟩ := logExtrap_split (L ++ x ++ H) pad pad
    have hlen : (L ++ x ++ H).length = lo + x.length + hi := by simp [hL, hH]; ring
    have hx2 : L' ++ (L ++ x ++ H) ++ H' = (L' ++ L) ++ x ++ (H ++ H') := by simp
    by_cases hodd : (lo + x.length + hi + 2 * pad) % 2 = 1
    · have hne : H' ≠ [] := by
        intro hnil
        rw [hnil] at hH'
        exact hp (by simpa using hH'.symm)
      have hdl : (L' ++ (L ++ x ++ H) ++ H').dropLast = (L' ++ L) ++ x ++ (H ++ H'.dropLast) := by
        rw [hx2, List.dropLast_append_of_ne_nil (by simp [hne]), List.dropLast_append_of_ne_nil hne]
      simp only [transform, init, e1, e2, hlen, ne_eq, hp, not_false_eq_true, if_true, hodd, hdl]
      have := cut_aux (L' ++ L) x (H ++ H'.dropLast) (lo + x.length + hi + 2 * pad - 1)
        (by simp [hL, hH, hL', hH']; omega) (fun v => (ell + 1) / v)
      rw [show (L' ++ L).length = lo + pad by simp [hL, hL']; ring,
        show (H ++ H'.dropLast).length = hi + pad - 1 by simp [hH, hH']; omega] at this
      exact this
    · simp only [transform, init, e1, e2, hlen, ne_eq, hp, not_false_eq_true, if_true, hodd, if_false, hx2]
      have := cut_aux (L' ++ L) x (H ++ H') (lo + x.length + hi + 2 * pad)
        (by simp [hL, hH, hL', hH']; omega) (fun v => (ell + 1) / v)
      rw [show (L' ++ L).length = lo + pad by simp [hL, hL']; ring,
        show (H ++ H').length = hi + pad by simp [hH, hH']] at this
      exact this

/-- **C62 (remaining case).**  Without padding and with an odd extended length one sample is lost: the abscissa that
belongs to the largest `x` is missing, the others are as before. -/
theorem C62_odd_length (gl : ℝ → ℂ → ℂ) (x fx : List ℝ) (nu ell : ℝ) (lo hi : ℕ) (hx : x ≠ [])
    (h : (lo + x.length + hi) % 2 = 1) :
    (transform gl (init x fx nu lo hi 0) ell).1 = x.dropLast.reverse.map fun v => (ell + 1) / v := by
  obtain ⟨L, H, hL, hH, e1⟩ := logExtrap_split x lo hi
  have hlen : (L ++ x ++ H).length = lo + x.length + hi := by simp [hL, hH]; ring
  simp only [transform, init, e1, hlen, ne_eq, not_true_eq_false, if_false, h, if_true]
  have hxl : 0 < x.length := List.length_pos_iff.mpr hx
  by_cases hhi : hi = 0
  · have hnil : H = [] := List.eq_nil_of_length_eq_zero (by omega)
    subst hnil
    have hd : (L ++ x ++ []).dropLast = L ++ x.dropLast ++ [] := by
      rw [List.append_nil, List.append_nil, List.dropLast_append_of_ne_nil hx]
    rw [hd]
    have := cut_aux L x.dropLast [] (lo + x.length + hi - 1) (by simp [hL]; omega) (fun v => (ell + 1) / v)
    rw [hL] at this
    rw [hhi] at this ⊢
    exact this
  · have hne : H ≠ [] := by
      intro hnil
      rw [hnil] at hH
      exact hhi hH.symm
    have hd : (L ++ x ++ H).dropLast = L ++ x.dropLast ++ (x.getLast hx :: H.dropLast) := by
      rw [List.dropLast_append_of_ne_nil hne]
      conv_lhs => rw [← List.dropLast_append_getLast hx]
      simp
    rw [hd]
    have := cut_aux L x.dropLast (x.getLast hx :: H.dropLast) (lo + x.length + hi - 1)
      (by simp [hL, hH]; omega) (fun v => (ell + 1) / v)
    rw [hL, show (x.getLast hx :: H.dropLast).length = hi by simp [hH]; omega] at this
    exact this

example : ((3 : ℕ) ≠ 0 ∨ (1 + [1, 2, 4].length + 1) % 2 = 0) ∧ (1 + [1, 2, 4].length + 1) % 2 = 1 := by decide

end Microjax.Props
