import Verif.Lemmas.DigammaBound
import Verif.Props.GammaAccuracy

/-!
# C102: accuracy of the digamma function and of the derivative rule of the gamma function
-/

noncomputable section

namespace Microjax.Props

open Special

/-- The part of `digamma_` after the shift, away from zero, is close to the exact asymptotic series. -/
theorem digamma_series (w : ℂ) (hw : 8 ≤ w.re) :
    ‖(Complex.log w - 0.5 * (1 / w) - 1 / w * (1 / w) * cpolyval digammaCoeffs.reverse (1 / w * (1 / w))) - psiS w‖ ≤ 1e-18 := by
  have h8 : 8 ≤ ‖w‖ := hw.trans ((le_abs_self _).trans (Complex.abs_re_le_norm _))
  have hi : ‖w⁻¹‖ ≤ 1 / 8 := by
    rw [norm_inv, inv_le_comm₀ (by linarith) (by norm_num)]; norm_num; linarith
  have hpw : ∀ m : ℕ, ‖(w⁻¹) ^ m‖ ≤ (1 / 8) ^ m := by
    intro m; rw [norm_pow]; gcongr
  have e : (Complex.log w - 0.5 * (1 / w) - 1 / w * (1 / w) * cpolyval digammaCoeffs.reverse (1 / w * (1 / w))) - psiS w
      = ∑ k ∈ Finset.range 8, (((psiCoeff.getD k 0 - digammaCoeffs.getD k 0 : ℝ)) : ℂ) * (w⁻¹) ^ (2 * k + 2) := by
    rw [psiS]
    simp only [one_div, digammaCoeffs, List.reverse_cons, List.reverse_nil, List.nil_append, List.cons_append, cpolyval,
      List.foldl_cons, List.foldl_nil, Finset.sum_range_succ, Finset.sum_range_zero, List.getD_cons_zero, List.getD_cons_succ]
    generalize w⁻¹ = u
    push_cast
    ring
  rw [e]
  refine (norm_sum_le _ _).trans ?_
  have hk : ∀ k ∈ Finset.range 8, ‖(((psiCoeff.getD k 0 - digammaCoeffs.getD k 0 : ℝ)) : ℂ) * (w⁻¹) ^ (2 * k + 2)‖
      ≤ |psiCoeff.getD k 0 - digammaCoeffs.getD k 0| * (1 / 8) ^ (2 * k + 2) := by
    intro k _
    rw [norm_mul, Complex.norm_real, Real.norm_eq_abs]
    gcongr
    exact hpw _
  refine (Finset.sum_le_sum hk).trans ?_
  simp only [Finset.sum_range_succ, Finset.sum_range_zero, psiCoeff, digammaCoeffs, List.getD_cons_zero, List.getD_cons_succ]
  norm_num [abs_le]

theorem digamma_shift (z : ℂ) (hz : ∀ m : ℕ, z ≠ -m) (n : ℕ) :
    Complex.digamma (z + n) = Complex.digamma z + ((List.range n).map fun j : ℕ => 1 / (z + (j : ℂ))).sum := by
  induction n with
  | zero => simp
  | succ n ih =>
    have hne : ∀ m : ℕ, z + n ≠ -m := by
      intro m h
      refine hz (m + n) ?_
      push_cast
      linear_combination h
    rw [List.range_succ, List.map_append, List.sum_append, Nat.cast_succ, ← add_assoc, Complex.digamma_apply_add_one _ hne, ih]
    simp
    ring

/-- The shift and the series of the code in the closed right half plane. -/
theorem digamma_right (z : ℂ) (hz : 0 ≤ z.re) (hz0 : z ≠ 0) : ‖digamma z - Complex.digamma z‖ ≤ 1.3e-15 := by
  have hm : ∀ m : ℕ, z ≠ -m := by
    intro m h
    rw [h] at hz
    simp at hz
    apply hz0
    have : m = 0 := by exact_mod_cast hz
    rw [h, this]
    simp
  have hnot : ¬ z.re < 0 := by linarith
  rcases lt_or_ge z.re 8 with h | h
  · have h8 : 8 ≤ (z + 8).re := by simp; linarith
    have e1 := psi_error (z + 8) h8
    have e2 := digamma_series (z + 8) h8
    have e3 := digamma_shift z hm 8
    rw [show ((8 : ℕ) : ℂ) = 8 by norm_num] at e3
    rw [digamma]
    simp only [hnot, if_false, h, if_true]
    have : ∀ a b c d e f : ℂ, ‖a - b‖ ≤ 1e-18 → ‖b - c‖ ≤ 1.2e-15 → c = d + e → f = a - e → ‖f - d‖ ≤ 1.3e-15 := by
      intro a b c d e f h1 h2 h3 h4
      have : f - d = (a - b) + (b - c) := by rw [h4, h3]; ring
      rw [this]
      refine (norm_add_le _ _).trans ((add_le_add h1 h2).trans ?_)
      norm_num
    refine this _ _ _ _ _ _ e2 e1 e3 ?_
    ring
  · have e1 := psi_error z h
    have e2 := digamma_series z h
    have h' : ¬ z.re < 8 := by linarith
    rw [digamma]
    simp only [hnot, if_false, h']
    have : ∀ a b c f : ℂ, ‖a - b‖ ≤ 1e-18 → ‖b - c‖ ≤ 1.2e-15 → f = a → ‖f - c‖ ≤ 1.3e-15 := by
      intro a b c f h1 h2 h4
      have : f - c = (a - b) + (b - c) := by rw [h4]; ring
      rw [this]
      refine (norm_add_le _ _).trans ((add_le_add h1 h2).trans ?_)
      norm_num
    refine this _ _ _ _ e2 e1 ?_
    ring

/-- The reflection formula of the digamma function. -/
theorem digamma_reflection (z : ℂ) (hz : ∀ n : ℤ, z ≠ n) :
    Complex.digamma z = Complex.digamma (1 - z) - (Real.pi : ℂ) / Complex.tan ((Real.pi : ℂ) * z) := by
  have hpi : (Real.pi : ℂ) ≠ 0 := by exact_mod_cast Real.pi_ne_zero
  have hsin : Complex.sin ((Real.pi : ℂ) * z) ≠ 0 := by
    intro h
    obtain ⟨k, hk⟩ := Complex.sin_eq_zero_iff.mp h
    refine hz k ?_
    rw [mul_comm] at hk
    exact mul_right_cancel₀ hpi hk
  have hm1 : ∀ m : ℕ, z ≠ -m := fun m h => hz (-m) (by rw [h]; simp)
  have hm2 : ∀ m : ℕ, 1 - z ≠ -m := fun m h => hz (m + 1) (by push_cast; linear_combination -h)
  have g1 := (Complex.differentiableAt_Gamma z hm1).hasDerivAt
  have g2 := (Complex.differentiableAt_Gamma (1 - z) hm2).hasDerivAt
  have g3 : HasDerivAt (fun v : ℂ => Complex.Gamma (1 - v)) (deriv Complex.Gamma (1 - z) * (-1)) z :=
    HasDerivAt.comp z g2 ((hasDerivAt_id z).const_sub 1)
  have hprod := g1.mul g3
  have hs : HasDerivAt (fun v : ℂ => Complex.sin ((Real.pi : ℂ) * v)) (Complex.cos ((Real.pi : ℂ) * z) * ((Real.pi : ℂ) * 1)) z :=
    ((hasDerivAt_id z).const_mul (Real.pi : ℂ)).csin
  have hq := (hs.fun_inv hsin).const_mul (Real.pi : ℂ)
  have heq : (Complex.Gamma * fun v : ℂ => Complex.Gamma (1 - v)) = fun v : ℂ => (Real.pi : ℂ) * (Complex.sin ((Real.pi : ℂ) * v))⁻¹ := by
    funext v
    rw [Pi.mul_apply, Complex.Gamma_mul_Gamma_one_sub, div_eq_mul_inv]
  rw [heq] at hprod
  have huniq := hprod.unique hq
  have hG := Complex.Gamma_mul_Gamma_one_sub z
  have hg1 := Complex.Gamma_ne_zero hm1
  have hg2 := Complex.Gamma_ne_zero hm2
  rw [Complex.digamma_def, logDeriv_apply, logDeriv_apply, Complex.tan_eq_sin_div_cos, div_div_eq_mul_div, eq_sub_iff_add_eq,
    div_add_div _ _ hg1 hsin, div_eq_div_iff (mul_ne_zero hg1 hsin) hg2]
  rw [eq_div_iff hsin] at hG
  have hS : (Complex.sin ((Real.pi : ℂ) * z)) ^ 2 ≠ 0 := pow_ne_zero _ hsin
  have hu2 : (deriv Complex.Gamma z * Complex.Gamma (1 - z) + Complex.Gamma z * (deriv Complex.Gamma (1 - z) * -1))
      * (Complex.sin ((Real.pi : ℂ) * z)) ^ 2 = -((Real.pi : ℂ) * (Complex.cos ((Real.pi : ℂ) * z) * Real.pi)) := by
    rw [huniq]
    field_simp
  have hcancel : (deriv Complex.Gamma z * Complex.Gamma (1 - z) + Complex.Gamma z * (deriv Complex.Gamma (1 - z) * -1))
      * Complex.sin ((Real.pi : ℂ) * z)
      = -(Complex.Gamma z * Complex.Gamma (1 - z) * (Complex.cos ((Real.pi : ℂ) * z) * Real.pi)) := by
    apply mul_right_cancel₀ hsin
    linear_combination hu2 + (Complex.cos ((Real.pi : ℂ) * z) * Real.pi) * hG
  linear_combination hcancel

/-- **C102, accuracy of `digamma_`**: at every complex number that is not a pole the value of the code differs from
`Γ'/Γ` by at most `1.3e-15` (exact arithmetic, coefficients as written in the source). -/
theorem C102_accuracy (z : ℂ) (hz : ∀ m : ℕ, z ≠ -m) : ‖digamma z - deriv Complex.Gamma z / Complex.Gamma z‖ ≤ 1.3e-15 := by
  rw [← logDeriv_apply, ← Complex.digamma_def]
  rcases lt_or_ge z.re 0 with h | h
  · have hint : ∀ n : ℤ, z ≠ n := by
      intro n hn
      have hn0 : n ≤ 0 := by
        rw [hn] at h
        simp at h
        exact_mod_cast h.le
      refine hz n.natAbs ?_
      rw [hn]
      have : (n : ℂ) = ((-(n.natAbs : ℤ) : ℤ) : ℂ) := by
        congr 1
        omega
      rw [this, Int.cast_neg, Int.cast_natCast]
    have h1 : 0 < (1 - z).re := by simp; linarith
    have hr := digamma_right (1 - z) h1.le (by intro h0; rw [h0] at h1; simp at h1)
    rw [digamma_reflection z hint]
    have e : digamma z = digamma (1 - z) - (Real.pi : ℂ) / Complex.tan ((Real.pi : ℂ) * z) := by
      have hn : ¬ (1 - z).re < 0 := by linarith
      rw [digamma, digamma]
      simp only [h, if_true, hn, if_false]
      split_ifs <;> ring
    rw [e, sub_sub_sub_cancel_right]
    exact hr
  · exact digamma_right z h (by simpa using hz 0)

/-- **C102, derivative rule of `gamma_`**: wherever `gamma_` returns a number, the tangent of `gamma_jvp` agrees with
`Γ'(z) ż` up to `2e-15` relative to the sizes of `Γ'` and `Γ`. -/
theorem C102_jvp (z zdot : ℂ) (hz : ∀ n : ℕ, z.re ≠ -n) :
    ∃ v t : ℂ, gammaJvp z zdot = some (v, t) ∧ gamma z = some v
      ∧ ‖t - deriv Complex.Gamma z * zdot‖ ≤ 2e-15 * (‖deriv Complex.Gamma z‖ + ‖Complex.Gamma z‖) * ‖zdot‖ := by
  have hm : ∀ m : ℕ, z ≠ -m := fun m h => hz m (by rw [h]; simp)
  obtain ⟨E, hE, hb⟩ := gamma_eq z hz
  refine ⟨_, _, by rw [gammaJvp, hE]; rfl, hE, ?_⟩
  have hrel := exp_rel (Complex.Gamma z) E 9e-16 hb (by norm_num)
  have hd := C102_accuracy z hm
  have hG := Complex.Gamma_ne_zero hm
  generalize Complex.Gamma z * Complex.exp E = V at *
  have hp : deriv Complex.Gamma z = Complex.Gamma z * (deriv Complex.Gamma z / Complex.Gamma z) := by field_simp
  generalize hP : deriv Complex.Gamma z / Complex.Gamma z = P at *
  have hnp : ‖deriv Complex.Gamma z‖ = ‖Complex.Gamma z‖ * ‖P‖ := by rw [hp, norm_mul]
  rw [show V * digamma z * zdot - deriv Complex.Gamma z * zdot
    = ((V - Complex.Gamma z) * P + V * (digamma z - P)) * zdot by rw [hp]; ring, norm_mul]
  gcongr
  have hV : ‖V‖ ≤ 1.01 * ‖Complex.Gamma z‖ := by
    have := norm_add_le (V - Complex.Gamma z) (Complex.Gamma z)
    rw [sub_add_cancel] at this
    have hg := norm_nonneg (Complex.Gamma z)
    norm_num at hrel ⊢
    linarith
  refine (norm_add_le _ _).trans ?_
  rw [norm_mul, norm_mul, hnp]
  have h1 : ‖V - Complex.Gamma z‖ * ‖P‖ ≤ 2 * 9e-16 * ‖Complex.Gamma z‖ * ‖P‖ := by gcongr
  have h2 : ‖V‖ * ‖digamma z - P‖ ≤ 1.01 * ‖Complex.Gamma z‖ * 1.3e-15 := by gcongr
  have h3 : 0 ≤ ‖Complex.Gamma z‖ * ‖P‖ := by positivity
  have h4 := norm_nonneg (Complex.Gamma z)
  norm_num at h1 h2 ⊢
  linarith

/-- A point in the left half plane that needs the reflection, the shift and the series; the value is not zero. -/
example : ∀ m : ℕ, (⟨-3 / 2, 2⟩ : ℂ) ≠ -m := by
  intro m h
  have := congrArg Complex.im h
  simp at this

example : ∀ n : ℕ, (⟨-3 / 2, 2⟩ : ℂ).re ≠ -n := by
  intro n h
  simp at h
  have h2 : (3 : ℝ) = 2 * n := by linarith
  have h3 : (3 : ℕ) = 2 * n := by exact_mod_cast h2
  omega

/-- The conclusion is about a number that is far from zero: `ψ(1) = -γ`. -/
example : ‖digamma 1 + Real.eulerMascheroniConstant‖ ≤ 1.3e-15 := by
  have h := C102_accuracy 1 (fun m h => by
    have := congrArg Complex.re h
    simp at this
    have hm : (0 : ℝ) ≤ m := Nat.cast_nonneg m
    linarith)
  rwa [← logDeriv_apply, ← Complex.digamma_def, Complex.digamma_one, sub_neg_eq_add] at h

end Microjax.Props
