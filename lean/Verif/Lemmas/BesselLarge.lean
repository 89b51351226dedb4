import Verif.Lemmas.PolyCert
import Verif.Lemmas.BesselSeries
import Mathlib.Analysis.SpecialFunctions.Trigonometric.Deriv
import Mathlib.Analysis.Calculus.Deriv.MeanValue
import Mathlib.Analysis.SpecialFunctions.ExpDeriv

/-!
# Modulus-phase approximations satisfy the Bessel equation up to a small residual

`v(x) = P(q) cos(x - θ) - w G(q) sin(x - θ)` with `w = 5/x`, `q = w²` and rational `P = n/D`, `G = m/E`.
-/

noncomputable section

namespace Microjax.Props

/-- numerator of the derivative of `n / D` over `D²` -/
def quot1 (n D : List ℚ) : List ℚ := addL (mulL (derL n) D) (scL (-1) (mulL n (derL D)))
/-- numerator of the second derivative of `n / D` over `D³` -/
def quot2 (n D : List ℚ) : List ℚ :=
  addL (mulL (derL (quot1 n D)) D) (scL (-2) (mulL (quot1 n D) (derL D)))

/-- numerator of the cosine residual -/
def resA (n D m E : List ℚ) (c : ℚ) : List ℚ :=
  let E2 := mulL E E
  let D2 := mulL D D
  let D3 := mulL D D2
  addL (scL (6 / 25) (0 :: mulL (quot1 n D) (mulL D E2))) (addL (scL (4 / 25) (0 :: 0 :: mulL (quot2 n D) E2))
    (addL (scL (2 / 5) (mulL m (mulL E D3))) (addL (scL (4 / 5) (0 :: mulL (quot1 m E) D3))
      (scL c (mulL n (mulL D2 E2))))))
/-- its denominator -/
def denA (D E : List ℚ) : List ℚ := mulL (mulL D (mulL D D)) (mulL E E)

/-- numerator of the sine residual -/
def resB (n D m E : List ℚ) (c : ℚ) : List ℚ :=
  let E2 := mulL E E
  let D2 := mulL D D
  addL (scL (-(2 / 25) - c) (mulL m (mulL E2 D2))) (addL (scL (-(2 / 5)) (0 :: mulL (quot1 m E) (mulL E D2)))
    (addL (scL (-(4 / 25)) (0 :: 0 :: mulL (quot2 m E) D2)) (scL (4 / 5) (mulL (quot1 n D) (mulL E E2)))))
/-- its denominator -/
def denB (D E : List ℚ) : List ℚ := mulL (mulL D D) (mulL E (mulL E E))

variable (n D m E : List ℚ)

/-- `n / D` and its derivatives -/
def rat0 (q : ℝ) : ℝ := ev n q / ev D q
def rat1 (q : ℝ) : ℝ := ev (quot1 n D) q / ev D q ^ 2
def rat2 (q : ℝ) : ℝ := ev (quot2 n D) q / ev D q ^ 3

theorem ev_quot1 (q : ℝ) : ev (quot1 n D) q = ev (derL n) q * ev D q - ev n q * ev (derL D) q := by
  rw [quot1, ev_addL, ev_mulL, ev_scL, ev_mulL]; push_cast; ring

theorem ev_quot2 (q : ℝ) :
    ev (quot2 n D) q = ev (derL (quot1 n D)) q * ev D q - 2 * (ev (quot1 n D) q * ev (derL D) q) := by
  rw [quot2, ev_addL, ev_mulL, ev_scL, ev_mulL]; push_cast; ring

theorem hasDerivAt_rat0 (q : ℝ) (hD : ev D q ≠ 0) : HasDerivAt (rat0 n D) (rat1 n D q) q := by
  refine ((ev_derL n q).fun_div (ev_derL D q) hD).congr_deriv ?_
  rw [rat1, ev_quot1]

theorem hasDerivAt_rat1 (q : ℝ) (hD : ev D q ≠ 0) : HasDerivAt (rat1 n D) (rat2 n D q) q := by
  refine ((ev_derL (quot1 n D) q).fun_div ((ev_derL D q).fun_pow 2) (pow_ne_zero 2 hD)).congr_deriv ?_
  rw [rat2, ev_quot2]
  field_simp
  push_cast
  ring

/-- cosine residual divided by `q` -/
def alphaR (c : ℚ) (q : ℝ) : ℝ :=
  6 / 25 * q * rat1 n D q + 4 / 25 * q ^ 2 * rat2 n D q + 2 / 5 * rat0 m E q + 4 / 5 * q * rat1 m E q + c * rat0 n D q
/-- sine residual divided by `q w` -/
def betaR (c : ℚ) (q : ℝ) : ℝ :=
  (-(2 / 25) - c) * rat0 m E q - 2 / 5 * q * rat1 m E q - 4 / 25 * q ^ 2 * rat2 m E q + 4 / 5 * rat1 n D q

theorem alphaR_eq (c : ℚ) (q : ℝ) (hD : ev D q ≠ 0) (hE : ev E q ≠ 0) :
    alphaR n D m E c q = ev (resA n D m E c) q / ev (denA D E) q := by
  simp only [alphaR, resA, denA, rat0, rat1, rat2, ev_addL, ev_mulL, ev_scL, ev_cons]
  push_cast
  field_simp
  ring

theorem betaR_eq (c : ℚ) (q : ℝ) (hD : ev D q ≠ 0) (hE : ev E q ≠ 0) :
    betaR n D m E c q = ev (resB n D m E c) q / ev (denB D E) q := by
  simp only [betaR, resB, denB, rat0, rat1, rat2, ev_addL, ev_mulL, ev_scL, ev_cons]
  push_cast
  field_simp
  ring

/-- the modulus-phase form -/
def modPhase (θ x : ℝ) : ℝ :=
  rat0 n D (25 / (x * x)) * Real.cos (x - θ) - 5 / x * rat0 m E (25 / (x * x)) * Real.sin (x - θ)

/-- its derivative -/
def modPhase1 (θ x : ℝ) : ℝ :=
  let q := 25 / (x * x)
  let w := 5 / x
  (-(2 / 5) * w * q * rat1 n D q - w * rat0 m E q) * Real.cos (x - θ)
    + (-rat0 n D q + q / 5 * rat0 m E q + 2 / 5 * (q * q) * rat1 m E q) * Real.sin (x - θ)

theorem hasDerivAt_q (x : ℝ) (hx : x ≠ 0) : HasDerivAt (fun x : ℝ => 25 / (x * x)) (-(2 / 5) * (5 / x) * (25 / (x * x))) x := by
  have h := (hasDerivAt_const x (25 : ℝ)).fun_div ((hasDerivAt_id x).fun_mul (hasDerivAt_id x)) (mul_ne_zero hx hx)
  refine h.congr_deriv ?_
  simp only [id]
  field_simp
  ring

theorem hasDerivAt_w (x : ℝ) (hx : x ≠ 0) : HasDerivAt (fun x : ℝ => 5 / x) (-(25 / (x * x)) / 5) x := by
  have h := (hasDerivAt_const x (5 : ℝ)).fun_div (hasDerivAt_id x) hx
  refine h.congr_deriv ?_
  simp only [id]
  field_simp
  ring

theorem hasDerivAt_modPhase (θ x : ℝ) (hx : x ≠ 0) (hD : ev D (25 / (x * x)) ≠ 0) (hE : ev E (25 / (x * x)) ≠ 0) :
    HasDerivAt (modPhase n D m E θ) (modPhase1 n D m E θ x) x := by
  have hc : HasDerivAt (fun x : ℝ => Real.cos (x - θ)) (-Real.sin (x - θ)) x := by
    simpa using ((hasDerivAt_id x).sub_const θ).cos
  have hs : HasDerivAt (fun x : ℝ => Real.sin (x - θ)) (Real.cos (x - θ)) x := by
    simpa using ((hasDerivAt_id x).sub_const θ).sin
  have hp := HasDerivAt.comp x (hasDerivAt_rat0 n D _ hD) (hasDerivAt_q x hx)
  have hg := HasDerivAt.comp x (hasDerivAt_rat0 m E _ hE) (hasDerivAt_q x hx)
  have h := (hp.fun_mul hc).fun_sub (((hasDerivAt_w x hx).fun_mul hg).fun_mul hs)
  refine h.congr_deriv ?_
  simp only [modPhase1, Function.comp]
  field_simp
  ring

theorem hasDerivAt_modPhase1 (θ x : ℝ) (c : ℚ) (hx : x ≠ 0) (hD : ev D (25 / (x * x)) ≠ 0)
    (hE : ev E (25 / (x * x)) ≠ 0) :
    HasDerivAt (modPhase1 n D m E θ)
      (-(1 + c * (25 / (x * x))) * modPhase n D m E θ x
        + 25 / (x * x) * (alphaR n D m E c (25 / (x * x)) * Real.cos (x - θ)
          + 5 / x * betaR n D m E c (25 / (x * x)) * Real.sin (x - θ))) x := by
  have hc : HasDerivAt (fun x : ℝ => Real.cos (x - θ)) (-Real.sin (x - θ)) x := by
    simpa using ((hasDerivAt_id x).sub_const θ).cos
  have hs : HasDerivAt (fun x : ℝ => Real.sin (x - θ)) (Real.cos (x - θ)) x := by
    simpa using ((hasDerivAt_id x).sub_const θ).sin
  have hq := hasDerivAt_q x hx
  have hw := hasDerivAt_w x hx
  have hp := HasDerivAt.comp x (hasDerivAt_rat0 n D _ hD) hq
  have hg := HasDerivAt.comp x (hasDerivAt_rat0 m E _ hE) hq
  have hp1 := HasDerivAt.comp x (hasDerivAt_rat1 n D _ hD) hq
  have hg1 := HasDerivAt.comp x (hasDerivAt_rat1 m E _ hE) hq
  have hA := (((hw.const_mul (-(2 / 5))).fun_mul hq).fun_mul hp1).fun_sub (hw.fun_mul hg)
  have hB := (hp.fun_neg.fun_add ((hq.div_const 5).fun_mul hg)).fun_add (((hq.fun_mul hq).const_mul (2 / 5)).fun_mul hg1)
  have h := (hA.fun_mul hc).fun_add (hB.fun_mul hs)
  refine h.congr_deriv ?_
  simp only [modPhase, alphaR, betaR, Function.comp]
  generalize rat0 n D (25 / (x * x)) = a0
  generalize rat1 n D (25 / (x * x)) = a1
  generalize rat2 n D (25 / (x * x)) = a2
  generalize rat0 m E (25 / (x * x)) = b0
  generalize rat1 m E (25 / (x * x)) = b1
  generalize rat2 m E (25 / (x * x)) = b2
  generalize Real.cos (x - θ) = C
  generalize Real.sin (x - θ) = S
  field_simp
  ring

/-- Energy estimate: a solution of `u'' = -(1 + c/x²) u + R` with `|R| ≤ ε/x²` stays small. -/
theorem energy_bound (u u1 R : ℝ → ℝ) (c ε : ℝ) (h1 : ∀ x : ℝ, 5 ≤ x → HasDerivAt u (u1 x) x)
    (h2 : ∀ x : ℝ, 5 ≤ x → HasDerivAt u1 (-(1 + c / x ^ 2) * u x + R x) x) (hR : ∀ x : ℝ, 5 ≤ x → |R x| ≤ ε / x ^ 2)
    (x : ℝ) (hx : 5 ≤ x) :
    u x ^ 2 + u1 x ^ 2 ≤ (u 5 ^ 2 + u1 5 ^ 2 + ε ^ 2) * Real.exp ((|c| + 1) / 5) := by
  set K := |c| + 1 with hK
  set F : ℝ → ℝ := fun y => (u y ^ 2 + u1 y ^ 2 + ε ^ 2) * Real.exp (K / y) with hF
  have hd : ∀ y : ℝ, 5 ≤ y → HasDerivAt F ((2 * u y * u1 y + 2 * u1 y * (-(1 + c / y ^ 2) * u y + R y)) * Real.exp (K / y)
      + (u y ^ 2 + u1 y ^ 2 + ε ^ 2) * (Real.exp (K / y) * (-K / y ^ 2))) y := by
    intro y hy
    have hy0 : y ≠ 0 := by linarith
    have e1 : HasDerivAt (fun y : ℝ => Real.exp (K / y)) (Real.exp (K / y) * (-K / y ^ 2)) y := by
      have := ((hasDerivAt_const y K).fun_div (hasDerivAt_id y) hy0).exp
      refine this.congr_deriv ?_
      simp only [id]
      congr 1
      field_simp
      ring
    have e2 := (((h1 y hy).fun_pow 2).fun_add ((h2 y hy).fun_pow 2)).add_const (ε ^ 2)
    refine (e2.fun_mul e1).congr_deriv ?_
    push_cast
    ring
  have hanti : AntitoneOn F (Set.Ici 5) := by
    refine antitoneOn_of_deriv_nonpos (convex_Ici 5) (fun y hy => (hd y hy).continuousAt.continuousWithinAt) ?_ ?_
    · intro y hy
      rw [interior_Ici] at hy
      exact (hd y (le_of_lt hy)).differentiableAt.differentiableWithinAt
    · intro y hy
      rw [interior_Ici] at hy
      have hy5 : 5 ≤ y := le_of_lt hy
      have hy0 : 0 < y := by linarith
      rw [(hd y hy5).deriv]
      have hexp := Real.exp_pos (K / y)
      have key : 2 * u y * u1 y + 2 * u1 y * (-(1 + c / y ^ 2) * u y + R y)
          ≤ (u y ^ 2 + u1 y ^ 2 + ε ^ 2) * (K / y ^ 2) := by
        have hRy := hR y hy5
        have a1 : 2 * u1 y * R y ≤ (u1 y ^ 2 + ε ^ 2) / y ^ 2 := by
          have hε : |u1 y * R y| ≤ |u1 y| * (ε / y ^ 2) := by
            rw [abs_mul]; gcongr
          have h3 : 2 * (|u1 y| * ε) ≤ u1 y ^ 2 + ε ^ 2 := by
            nlinarith [sq_nonneg (|u1 y| - ε), sq_abs (u1 y)]
          calc 2 * u1 y * R y ≤ 2 * |u1 y * R y| := by nlinarith [le_abs_self (u1 y * R y)]
            _ ≤ 2 * (|u1 y| * (ε / y ^ 2)) := by linarith
            _ = 2 * (|u1 y| * ε) / y ^ 2 := by ring
            _ ≤ _ := by gcongr
        have a2 : -(2 * c * (u y * u1 y)) / y ^ 2 ≤ |c| * (u y ^ 2 + u1 y ^ 2) / y ^ 2 := by
          gcongr
          have h4 : -(2 * c * (u y * u1 y)) ≤ 2 * (|c| * |u y * u1 y|) := by
            rw [← abs_mul]
            nlinarith [neg_abs_le (c * (u y * u1 y))]
          have h5 : 2 * |u y * u1 y| ≤ u y ^ 2 + u1 y ^ 2 := by
            rw [abs_mul]
            nlinarith [sq_nonneg (|u y| - |u1 y|), sq_abs (u y), sq_abs (u1 y)]
          nlinarith [abs_nonneg c]
        have a3 : 0 ≤ (u y ^ 2 + |c| * ε ^ 2) / y ^ 2 := by positivity
        have e : (u y ^ 2 + u1 y ^ 2 + ε ^ 2) * (K / y ^ 2) = |c| * (u y ^ 2 + u1 y ^ 2) / y ^ 2
            + (u1 y ^ 2 + ε ^ 2) / y ^ 2 + (u y ^ 2 + |c| * ε ^ 2) / y ^ 2 := by rw [hK]; ring
        have e' : 2 * u y * u1 y + 2 * u1 y * (-(1 + c / y ^ 2) * u y + R y)
            = -(2 * c * (u y * u1 y)) / y ^ 2 + 2 * u1 y * R y := by ring
        rw [e, e']
        linarith
      have : (2 * u y * u1 y + 2 * u1 y * (-(1 + c / y ^ 2) * u y + R y)) * Real.exp (K / y)
          ≤ (u y ^ 2 + u1 y ^ 2 + ε ^ 2) * (K / y ^ 2) * Real.exp (K / y) := by gcongr
      have e2 : (u y ^ 2 + u1 y ^ 2 + ε ^ 2) * (Real.exp (K / y) * (-K / y ^ 2))
          = -((u y ^ 2 + u1 y ^ 2 + ε ^ 2) * (K / y ^ 2) * Real.exp (K / y)) := by ring
      rw [e2]; linarith
  have h := hanti (Set.mem_Ici.mpr le_rfl) (Set.mem_Ici.mpr hx) hx
  have hK0 : 0 ≤ K := by positivity
  have hx0 : 0 < x := by linarith
  have h1e : 1 ≤ Real.exp (K / x) := Real.one_le_exp (by positivity)
  have h0 : 0 ≤ u x ^ 2 + u1 x ^ 2 + ε ^ 2 := by positivity
  calc u x ^ 2 + u1 x ^ 2 ≤ u x ^ 2 + u1 x ^ 2 + ε ^ 2 := by nlinarith [sq_nonneg ε]
    _ ≤ (u x ^ 2 + u1 x ^ 2 + ε ^ 2) * Real.exp (K / x) := le_mul_of_one_le_right h0 h1e
    _ ≤ _ := h

end Microjax.Props
