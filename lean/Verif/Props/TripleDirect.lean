import Verif.Lemmas.TripleDirect
import Verif.Props.ImageCount

/-!
# C87: the two triple-lens polynomials are interchangeable

`_poly_coeffs_triple` (mid-point frame, 1400 lines of expanded monomials) and `_poly_coeffs_triple_CM` (centre-of-mass
frame) describe the same polynomial up to the shift of the frame.
-/

noncomputable section

namespace Microjax.Props

open Complex ComplexConjugate Spec PointSource

/-- **C87**: the polynomial of `_poly_coeffs_triple` at `z` is that of `_poly_coeffs_triple_CM` at `z` minus the shift
the latter function returns, for every source, separation, third lens and mass fractions. -/
theorem C87_same_polynomial (w : ℂ) (a : ℝ) (r : ℂ) (e1 e2 : ℝ) (z : ℂ) :
    evalPoly (polyCoeffsTriple w a r e1 e2) z
      = evalPoly (polyCoeffsTripleCM w a r e1 e2) (z - shiftCM a r e1 e2) := by
  have key := evalPoly_tripleCM w a r e1 e2 (z - shiftCM a r e1 e2)
  simp only at key
  rw [key, evalPoly_tripleDirect]
  generalize shiftCM a r e1 e2 = S
  simp only [map_sub, map_neg, conj_ofReal]
  ring

/-- Both lists have eleven entries and the same leading coefficient. -/
theorem C87_leading (w : ℂ) (a : ℝ) (r : ℂ) (e1 e2 : ℝ) :
    (polyCoeffsTriple w a r e1 e2).length = (polyCoeffsTripleCM w a r e1 e2).length ∧
    (polyCoeffsTriple w a r e1 e2).headD 0 = (polyCoeffsTripleCM w a r e1 e2).headD 0 := by
  refine ⟨rfl, ?_⟩
  rw [(triple_head w a r e1 e2).2]
  simp only [polyCoeffsTriple, List.headD_cons, evalTerms, tripleP0, Term7.eval, List.map_cons, List.map_nil,
    List.sum_cons, List.sum_nil, map_sub, map_add, conj_ofReal]
  push_cast
  ring

/-- **C87**: a list is the list of all roots of one polynomial exactly if the shifted list is that of the other. -/
theorem C87_same_roots (w : ℂ) (a : ℝ) (r : ℂ) (e1 e2 : ℝ) (rs : List ℂ) :
    IsRootList (polyCoeffsTripleCM w a r e1 e2) rs ↔
      IsRootList (polyCoeffsTriple w a r e1 e2) (rs.map (· + shiftCM a r e1 e2)) := by
  set S := shiftCM a r e1 e2 with hS
  have e : ∀ x, ((rs.map (· + S)).map fun t => x - t).prod = (rs.map fun t => (x - S) - t).prod := by
    intro x
    rw [List.map_map]
    congr 1
    refine List.map_congr_left fun t _ => ?_
    simp only [Function.comp_apply]; ring
  constructor
  · intro h x
    rw [C87_same_polynomial, ← hS, h (x - S), e, (C87_leading w a r e1 e2).2]
  · intro h x
    have := h (x + S)
    rw [C87_same_polynomial, ← hS, add_sub_cancel_right, e, add_sub_cancel_right, (C87_leading w a r e1 e2).2] at this
    exact this

/-- **C87**: calling `_poly_coeffs_triple` in `_images_point_source` (the line commented out) and not shifting the roots
back gives the same candidates and flags up to order, and the same magnification, for every root finder that returns all
roots of the polynomials it is given. -/
theorem C87_same_images (roots : Option (List ℂ) → List ℂ → List ℂ) (p : MidParams) (w : ℂ)
    (h1 : w ≠ p.a) (h2 : w ≠ -p.a) (h3 : w ≠ r3Complex p)
    (hroots : ∀ c, c = polyCoeffsTriple w p.a (r3Complex p) p.e1 p.e2 ∨
      c = polyCoeffsTripleCM w p.a (r3Complex p) p.e1 p.e2 → IsRootList c (roots none c)) :
    (withMask (lensEq3 p) (1 / 10 ^ 3) w (roots none (polyCoeffsTriple w p.a (r3Complex p) p.e1 p.e2))).Perm
      (images3 roots p w) ∧
    sumMag (detJac3 p) (withMask (lensEq3 p) (1 / 10 ^ 3) w
      (roots none (polyCoeffsTriple w p.a (r3Complex p) p.e1 p.e2))) = sumMag (detJac3 p) (images3 roots p w) := by
  have hhead : (polyCoeffsTriple w p.a (r3Complex p) p.e1 p.e2).headD 0 ≠ 0 := by
    rw [(C87_leading _ _ _ _ _).2, (triple_head _ _ _ _ _).2]
    have hi : ∀ x : ℂ, x ≠ 0 → conj x ≠ 0 := fun x hx => by simpa using hx
    refine mul_ne_zero (mul_ne_zero (hi _ (sub_ne_zero.mpr h1)) (hi _ ?_)) (hi _ (sub_ne_zero.mpr h3))
    exact fun hc => h2 (by linear_combination hc)
  have hA := hroots _ (Or.inl rfl)
  have hB := (C87_same_roots _ _ _ _ _ _).mp (hroots _ (Or.inr rfl))
  have hp : (roots none (polyCoeffsTriple w p.a (r3Complex p) p.e1 p.e2)).Perm
      ((roots none (polyCoeffsTripleCM w p.a (r3Complex p) p.e1 p.e2)).map
        (· + shiftCM p.a (r3Complex p) p.e1 p.e2)) := by
    refine perm_of_prod_eq fun x => ?_
    have e1 := hA x
    rw [hB x] at e1
    exact (mul_left_cancel₀ hhead e1).symm
  have hperm : (withMask (lensEq3 p) (1 / 10 ^ 3) w (roots none (polyCoeffsTriple w p.a (r3Complex p) p.e1 p.e2))).Perm
      (images3 roots p w) := hp.map _
  exact ⟨hperm, (hperm.map _).sum_eq⟩

/-- The equilateral triple with ten images: the finder returns the roots of whichever polynomial it is given. -/
example : ∃ roots : Option (List ℂ) → List ℂ → List ℂ,
    (withMask (lensEq3 (midParams3 exT)) (1 / 10 ^ 3) exTw
      (roots none (polyCoeffsTriple exTw (midParams3 exT).a (r3Complex (midParams3 exT)) (midParams3 exT).e1
        (midParams3 exT).e2))).Perm (images3 roots (midParams3 exT) exTw) := by
  classical
  obtain ⟨-, -, d3, d4, d5⟩ := exT_points
  let D := polyCoeffsTriple exTw (midParams3 exT).a (r3Complex (midParams3 exT)) (midParams3 exT).e1 (midParams3 exT).e2
  let S := shiftCM (midParams3 exT).a (r3Complex (midParams3 exT)) (midParams3 exT).e1 (midParams3 exT).e2
  have hD : IsRootList D (exRootsT.map (· + S)) := (C87_same_roots _ _ _ _ _ _).mp exRootsT_isRootList
  have hne : exTc ≠ D := by
    -- the two polynomials differ at the root `0` of the first
    intro h
    have h0 : evalPoly exTc 0 = 0 := by rw [exTc_eval]; simp
    have hS : S ≠ 0 := by
      have e : S = exTw := by rw [exTw]; exact exT_S
      rw [e, exTw]
      have a1 : (tm : ℂ) ≠ 0 := by exact_mod_cast tm_pos.ne'
      have a2 : (tk : ℂ) ≠ 0 := by exact_mod_cast tk_pos.ne'
      simp [a1, a2]
    have hz : evalPoly exTc (-S) = 0 := by
      have := C87_same_polynomial exTw (midParams3 exT).a (r3Complex (midParams3 exT)) (midParams3 exT).e1
        (midParams3 exT).e2 0
      rw [zero_sub] at this
      exact this.symm.trans ((congrArg (fun c => evalPoly c 0) h.symm).trans h0)
    have e : S = 1 / 2 * (tm * tk) * I := exT_S
    rw [exTc_eval, e] at hz
    have a1 : (tm : ℂ) ≠ 0 := by exact_mod_cast tm_pos.ne'
    have a2 : (tk : ℂ) ≠ 0 := by exact_mod_cast tk_pos.ne'
    have hk := tk_cube'
    have hm := tm_sq'
    have hI3 : I ^ 3 = -I := by rw [pow_succ, I_sq]; ring
    have c3 : (-(1 / 2 * (tm * tk) * I)) ^ 3 = (tm : ℂ) ^ 3 * (3 / 4 * I) := by
      have : (-(1 / 2 * ((tm : ℂ) * tk) * I)) ^ 3 = -(1 / 8) * tm ^ 3 * (tk ^ 3) * I ^ 3 := by ring
      rw [this, hk, hI3]; ring
    rw [c3] at hz
    have h7 : (tm : ℂ) ^ 3 * (3 / 4 * I) + 6 * tm ^ 3 * I = (27 / 4) * tm ^ 3 * I := by ring
    rw [h7] at hz
    have h9 : ((27 / 4) * (tm : ℂ) ^ 3 * I) ^ 3 + (tm : ℂ) ^ 3 * (3 / 4 * I)
        = tm ^ 3 * I * (3 / 4 - (27 / 4) ^ 3 * (tm ^ 2) ^ 3) := by
      have : ((27 / 4) * (tm : ℂ) ^ 3 * I) ^ 3 = (27 / 4) ^ 3 * tm ^ 3 * (tm ^ 2) ^ 3 * I ^ 3 := by ring
      rw [this, hI3]; ring
    rw [h9, hm] at hz
    have : (3 / 4 - (27 / 4) ^ 3 * (1 / 7) ^ 3 : ℂ) ≠ 0 := by norm_num
    simp [a1, a2] at hz
    norm_num at hz
  have key : ∀ c, c = D ∨ c = exTc → IsRootList c (if c = D then exRootsT.map (· + S) else exRootsT) := by
    rintro c (rfl | rfl)
    · rw [if_pos rfl]; exact hD
    · rw [if_neg hne]; exact exRootsT_isRootList
  let F : Option (List ℂ) → List ℂ → List ℂ := fun _ c => if c = D then exRootsT.map (· + S) else exRootsT
  exact ⟨F, (C87_same_images F (midParams3 exT) exTw d3 d4 d5 key).1⟩

end Microjax.Props
