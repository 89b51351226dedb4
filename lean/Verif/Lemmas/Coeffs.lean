import Verif.Lemmas.Lensing
import Mathlib.Tactic.Ring

/-! # Algebraic identities behind the image and critical-curve polynomials -/

noncomputable section

namespace Microjax.Props

open Complex ComplexConjugate Spec PointSource

/-- Closed form of the binary image polynomial. -/
theorem evalPoly_binary (w : ℂ) (a e1 : ℝ) (z : ℂ) :
    evalPoly (polyCoeffsBinary w a e1) z =
      (((conj w) * ((z - a) * (z + a)) + e1 * (z + a) + (1 - e1) * (z - a)) ^ 2
        - (a : ℂ) ^ 2 * ((z - a) * (z + a)) ^ 2) * (z - w)
      - ((z - a) * (z + a)) * ((conj w) * ((z - a) * (z + a)) + e1 * (z + a) + (1 - e1) * (z - a))
      - ((z - a) * (z + a)) ^ 2 * (a * (2 * e1 - 1)) := by
  simp only [evalPoly, polyCoeffsBinary, List.foldl_cons, List.foldl_nil]
  ring

/-- Closed form of the binary critical polynomial. -/
theorem evalPoly_criticalBinary (phi a e1 : ℝ) (z : ℂ) :
    evalPoly (polyCoeffsCriticalBinary phi a e1) z =
      exp (-I * phi) * ((z - a) * (z + a)) ^ 2 - (e1 * (z + a) ^ 2 + (1 - e1) * (z - a) ^ 2) := by
  simp only [evalPoly, polyCoeffsCriticalBinary, List.foldl_cons, List.foldl_nil]
  ring

/-- Closed form of the triple critical polynomial. -/
theorem evalPoly_criticalTriple (phi a : ℝ) (r : ℂ) (e1 e2 : ℝ) (z : ℂ) :
    evalPoly (polyCoeffsCriticalTriple phi a r e1 e2) z =
      exp (-I * phi) * ((z - a) * (z + a) * (z - r)) ^ 2
        - (e1 * ((z + a) * (z - r)) ^ 2 + e2 * ((z - a) * (z - r)) ^ 2
          + (1 - e1 - e2) * ((z - a) * (z + a)) ^ 2) := by
  simp only [evalPoly, polyCoeffsCriticalTriple, List.foldl_cons, List.foldl_nil]
  ring

/-- `shift_cm` is the centre of mass of the three lenses. -/
theorem shiftCM_eq (a : ℝ) (r : ℂ) (e1 e2 : ℝ) :
    shiftCM a r e1 e2 = e1 * a + e2 * (-a) + (1 - e1 - e2) * r := by
  apply Complex.ext <;> simp [shiftCM] <;> ring

/-- Closed form of the triple image polynomial in terms of the cubic `P` with the lens positions as roots and
the numerator `Q` of the deflection. -/
theorem evalPoly_tripleCM (w : ℂ) (a : ℝ) (r : ℂ) (e1 e2 : ℝ) (z : ℂ) :
    let S := shiftCM a r e1 e2
    let c1 : ℂ := -a - S
    let c2 : ℂ := a - S
    let c3 : ℂ := r - S
    let W := w - S
    let P := (z - c1) * (z - c2) * (z - c3)
    let Q := e2 * (z - c2) * (z - c3) + e1 * (z - c1) * (z - c3)
      + (1 - e1 - e2) * (z - c1) * (z - c2)
    let n1 := conj (W - c1) * P + Q
    let n2 := conj (W - c2) * P + Q
    let n3 := conj (W - c3) * P + Q
    evalPoly (polyCoeffsTripleCM w a r e1 e2) z =
      n1 * n2 * n3 * (z - W) - P * (e2 * n2 * n3 + e1 * n1 * n3 + (1 - e1 - e2) * n1 * n2) := by
  intro S c1 c2 c3 W P Q n1 n2 n3
  have hcm : (e2 : ℂ) * c1 + e1 * c2 + (1 - e1 - e2) * c3 = 0 := by
    simp only [c1, c2, c3, S, shiftCM_eq]; ring
  -- generic version
  have key : ∀ (c1 c2 c3 W B W1 W2 W3 E1 E2 E3 : ℂ), E1 * c1 + E2 * c2 + E3 * c3 = 0 →
      E1 + E2 + E3 = 1 → E1 * W1 + E2 * W2 + E3 * W3 = B →
      ∀ aa bb cc dd wwaa wwbb wwcc wwdd : ℂ,
      aa = -(c1 + c2 + c3) → bb = c1 * c2 + c1 * c3 + c2 * c3 → cc = -c1 * c2 * c3 →
      dd = E1 * c2 * c3 + E2 * c1 * c3 + E3 * c1 * c2 →
      wwaa = W1 + W2 + W3 → wwbb = W1 * W2 + W2 * W3 + W1 * W3 → wwcc = W1 * W2 * W3 →
      wwdd = E1 * W2 * W3 + E2 * W1 * W3 + E3 * W1 * W2 →
      ((z ^ 3 + aa * z ^ 2 + bb * z + cc) ^ 3 * wwcc
          + (z ^ 3 + aa * z ^ 2 + bb * z + cc) ^ 2 * (z ^ 2 + aa * z + dd) * wwbb
          + (z ^ 3 + aa * z ^ 2 + bb * z + cc) * (z ^ 2 + aa * z + dd) ^ 2 * wwaa
          + (z ^ 2 + aa * z + dd) ^ 3) * (z - W)
        - (z ^ 3 + aa * z ^ 2 + bb * z + cc) * (wwdd * (z ^ 3 + aa * z ^ 2 + bb * z + cc) ^ 2
          + (wwaa - B) * (z ^ 3 + aa * z ^ 2 + bb * z + cc) * (z ^ 2 + aa * z + dd)
          + (z ^ 2 + aa * z + dd) ^ 2) =
      (let P := (z - c1) * (z - c2) * (z - c3)
       let Q := E1 * (z - c2) * (z - c3) + E2 * (z - c1) * (z - c3) + E3 * (z - c1) * (z - c2)
       (W1 * P + Q) * (W2 * P + Q) * (W3 * P + Q) * (z - W)
        - P * (E1 * (W2 * P + Q) * (W3 * P + Q) + E2 * (W1 * P + Q) * (W3 * P + Q)
          + E3 * (W1 * P + Q) * (W2 * P + Q))) := by
    intro c1 c2 c3 W B W1 W2 W3 E1 E2 E3 h0 h1 hB aa bb cc dd wwaa wwbb wwcc wwdd haa hbb hcc hdd
      hwa hwb hwc hwd
    have hP : z ^ 3 + aa * z ^ 2 + bb * z + cc = (z - c1) * (z - c2) * (z - c3) := by
      rw [haa, hbb, hcc]; ring
    have hQ : z ^ 2 + aa * z + dd =
        E1 * (z - c2) * (z - c3) + E2 * (z - c1) * (z - c3) + E3 * (z - c1) * (z - c2) := by
      rw [haa, hdd]
      linear_combination (-z ^ 2 + (c1 + c2 + c3) * z) * h1 - z * h0
    rw [hP, hQ]
    generalize (z - c1) * (z - c2) * (z - c3) = P
    generalize E1 * (z - c2) * (z - c3) + E2 * (z - c1) * (z - c3) + E3 * (z - c1) * (z - c2) = Q
    simp only
    rw [hwa, hwb, hwc, hwd]
    linear_combination (-P * Q ^ 2 - P ^ 2 * Q * (W1 + W2 + W3)) * (-h1) - P ^ 2 * Q * hB
  have hconj : (e2 : ℂ) * conj (W - c1) + e1 * conj (W - c2) + (1 - e1 - e2) * conj (W - c3)
      = conj W := by
    have h := congrArg conj hcm
    simp only [map_add, map_mul, map_sub, conj_ofReal, map_one, map_zero] at h
    simp only [map_sub]
    linear_combination -h
  have k := key c1 c2 c3 W (conj W) (conj (W - c1)) (conj (W - c2)) (conj (W - c3))
    e2 e1 (1 - e1 - e2) hcm (by ring) hconj _ _ _ _ _ _ _ _ rfl rfl rfl rfl rfl rfl rfl rfl
  refine Eq.trans ?_ k
  simp only [evalPoly, polyCoeffsTripleCM, List.foldl_cons, List.foldl_nil]
  generalize hS : shiftCM a r e1 e2 = T
  have e1' : c1 = -a - T := by rw [← hS]
  have e2' : c2 = a - T := by rw [← hS]
  have e3' : c3 = r - T := by rw [← hS]
  have eW : W = w - T := by rw [← hS]
  rw [← eW, ← e1', ← e2', ← e3']
  generalize conj (W - c1) = W1
  generalize conj (W - c2) = W2
  generalize conj (W - c3) = W3
  generalize conj W = B
  generalize (-(c1 + c2 + c3)) = aa
  generalize (c1 * c2 + c1 * c3 + c2 * c3) = bb
  generalize (-c1 * c2 * c3) = cc
  generalize (e2 * c2 * c3 + e1 * c1 * c3 + (1 - e1 - e2) * c1 * c2 : ℂ) = dd
  generalize (e2 * W2 * W3 + e1 * W1 * W3 + (1 - e1 - e2) * W1 * W2 : ℂ) = wwdd
  generalize (W1 * W2 * W3) = wwcc
  generalize (W1 * W2 + W2 * W3 + W1 * W3) = wwbb
  generalize (W1 + W2 + W3) = wwaa
  ring

end Microjax.Props
