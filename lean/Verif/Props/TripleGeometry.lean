import Verif.Props.PointSource
import Verif.Spec.TripleDoc

/-!
# C107: where the third lens is

The documentation gives `r3`, `psi` as the position of lens 3 relative to lens 1, and in another place relative to the
centre of mass of lenses 1 and 2.  The code measures from the mid-point of lenses 1 and 2.
-/

noncomputable section

namespace Microjax.Props

open Complex ComplexConjugate Microjax.PointSource Microjax.Spec

/-- Moving the third of three lenses changes the lens map at every point that is on neither position. -/
theorem lensMap_third_ne (m1 m2 m3 : ℝ) (z1 z2 z3 z3' z : ℂ) (hm : m3 ≠ 0) (h : z3 ≠ z3') (h3 : z ≠ z3) (h3' : z ≠ z3') :
    lensMap [(m1, z1), (m2, z2), (m3, z3)] z ≠ lensMap [(m1, z1), (m2, z2), (m3, z3')] z := by
  intro he
  simp only [lensMap, List.map_cons, List.map_nil, List.sum_cons, List.sum_nil, add_zero] at he
  have he' : (m3 : ℂ) / (conj z - conj z3) = (m3 : ℂ) / (conj z - conj z3') := by linear_combination -he
  have a1 : conj z - conj z3 ≠ 0 := by
    rw [← map_sub, Ne, map_eq_zero]; exact sub_ne_zero.mpr h3
  have a2 : conj z - conj z3' ≠ 0 := by
    rw [← map_sub, Ne, map_eq_zero]; exact sub_ne_zero.mpr h3'
  have hm' : (m3 : ℂ) ≠ 0 := by exact_mod_cast hm
  rw [div_eq_div_iff a1 a2] at he'
  have h0 := mul_left_cancel₀ hm' he'
  have : conj z3 = conj z3' := by linear_combination h0
  exact h ((starRingEnd ℂ).injective this)

/-- The lens of the code in the mid-point frame. -/
theorem midTriple_user (u : UserParams) (hq3 : 1 + u.q + u.q3 ≠ 0) :
    midTriple (midParams3 u) = [(u.q / (1 + u.q + u.q3), ((u.s / 2 : ℝ) : ℂ)),
      (1 / (1 + u.q + u.q3), ((-(u.s / 2) : ℝ) : ℂ)),
      (u.q3 / (1 + u.q + u.q3), (u.r3 : ℂ) * exp (I * u.psi))] := by
  simp only [midTriple, midParams3, r3Complex, List.cons.injEq, Prod.mk.injEq, and_true, true_and]
  refine ⟨?_, ?_, ?_⟩
  · push_cast; ring
  · push_cast; ring
  · field_simp; ring

/-- C107, the documentation is not met: for every triple with a massive third lens and `s ≠ 0`, `lens_eq` differs at every
point of the lens plane off the third lens from the lens map with lens 3 at `(r3, psi)` from lens 1, and, unless `q = 1`, from the one with
lens 3 at `(r3, psi)` from the centre of mass of lenses 1 and 2. -/
theorem C107_violated (u : UserParams) (hs : u.s ≠ 0) (hq : 1 + u.q ≠ 0) (hq3 : 1 + u.q + u.q3 ≠ 0) (h3 : u.q3 ≠ 0) (z : ℂ)
    (hz : ∀ l ∈ midTriple (midParams3 u), z ≠ l.2) :
    ((∀ l ∈ tripleFromFirst u.s u.q u.q3 u.r3 u.psi, z ≠ l.2) →
      lensEq3 (midParams3 u) z ≠ lensMap (tripleFromFirst u.s u.q u.q3 u.r3 u.psi) z) ∧
    (u.q ≠ 1 → (∀ l ∈ tripleFromCentre u.s u.q u.q3 u.r3 u.psi, z ≠ l.2) →
      lensEq3 (midParams3 u) z ≠ lensMap (tripleFromCentre u.s u.q u.q3 u.r3 u.psi) z) := by
  rw [lensEq3_eq, midTriple_user u hq3]
  rw [midTriple_user u hq3] at hz
  have hz3 := hz (u.q3 / (1 + u.q + u.q3), (u.r3 : ℂ) * exp (I * u.psi)) (by simp)
  have hm : u.q3 / (1 + u.q + u.q3) ≠ 0 := div_ne_zero h3 hq3
  constructor
  · intro hd
    refine lensMap_third_ne _ _ _ _ _ _ _ _ hm ?_ hz3 (hd _ (List.mem_cons_of_mem _ (List.mem_cons_of_mem _ List.mem_cons_self)))
    intro he
    have : ((-(u.s / 2) : ℝ) : ℂ) = 0 := by linear_combination -he
    have : -(u.s / 2) = 0 := by exact_mod_cast this
    apply hs; linarith
  · intro hq1 hd
    refine lensMap_third_ne _ _ _ _ _ _ _ _ hm ?_ hz3 (hd _ (List.mem_cons_of_mem _ (List.mem_cons_of_mem _ List.mem_cons_self)))
    intro he
    have : ((-(u.s / 2) + u.q / (1 + u.q) * u.s : ℝ) : ℂ) = 0 := by linear_combination -he
    have h0 : -(u.s / 2) + u.q / (1 + u.q) * u.s = 0 := by exact_mod_cast this
    field_simp at h0
    have : u.s * (u.q - 1) = 0 := by linarith
    rcases mul_eq_zero.mp this with h | h
    · exact hs h
    · exact hq1 (by linarith)

/-- C107: the distance from lens 1 to lens 3 in the code. -/
theorem C107_distance_violated (u : UserParams) (hr : 0 ≤ u.r3) :
    dist (r3Complex (midParams3 u)) (-((midParams3 u).a : ℂ)) ^ 2
      = u.r3 ^ 2 + u.s * u.r3 * Real.cos u.psi + u.s ^ 2 / 4 ∧
    (dist (r3Complex (midParams3 u)) (-((midParams3 u).a : ℂ)) = u.r3 ↔ u.s = 0 ∨ u.s = -(4 * u.r3 * Real.cos u.psi)) := by
  have h1 : dist (r3Complex (midParams3 u)) (-((midParams3 u).a : ℂ)) ^ 2
      = u.r3 ^ 2 + u.s * u.r3 * Real.cos u.psi + u.s ^ 2 / 4 := by
    have e : r3Complex (midParams3 u) - -((midParams3 u).a : ℂ)
        = ((u.r3 * Real.cos u.psi + u.s / 2 : ℝ) : ℂ) + ((u.r3 * Real.sin u.psi : ℝ) : ℂ) * I := by
      simp only [r3Complex, midParams3]
      rw [mul_comm I, exp_mul_I, ← ofReal_cos, ← ofReal_sin]; push_cast; ring
    rw [dist_eq_norm, e, ← normSq_eq_norm_sq, normSq_add_mul_I]
    linear_combination u.r3 ^ 2 * Real.sin_sq_add_cos_sq u.psi
  refine ⟨h1, ?_⟩
  rw [← sq_eq_sq₀ dist_nonneg hr, h1]
  constructor
  · intro h
    have : u.s * (u.s + 4 * u.r3 * Real.cos u.psi) = 0 := by linarith
    rcases mul_eq_zero.mp this with h | h
    · exact .inl h
    · exact .inr (by linarith)
  · rintro (h | h)
    · rw [h]; ring
    · rw [h]; ring

/-- C107, what holds: the code is the documented system for converted coordinates.  A third lens at `(r, phi)` from
lens 1 is obtained by passing `r3 e^{i psi} = r e^{i phi} - s/2`; one at `(r, phi)` from the centre of mass of lenses 1
and 2 by passing `r3 e^{i psi} = r e^{i phi} - (1 - q) s / (2 (1 + q))`. -/
theorem C107_partial (u : UserParams) (hq : 1 + u.q ≠ 0) (hq3 : 1 + u.q + u.q3 ≠ 0) (r phi : ℝ) (z : ℂ) :
    ((u.r3 : ℂ) * exp (I * u.psi) = r * exp (I * phi) - ((u.s / 2 : ℝ) : ℂ) →
      lensEq3 (midParams3 u) z = lensMap (tripleFromFirst u.s u.q u.q3 r phi) z) ∧
    ((u.r3 : ℂ) * exp (I * u.psi) = r * exp (I * phi) - (((1 - u.q) * u.s / (2 * (1 + u.q)) : ℝ) : ℂ) →
      lensEq3 (midParams3 u) z = lensMap (tripleFromCentre u.s u.q u.q3 r phi) z) := by
  rw [lensEq3_eq, midTriple_user u hq3]
  constructor
  · intro h
    rw [h]
    congr 1
    simp only [tripleFromFirst, List.cons.injEq, Prod.mk.injEq, and_true, true_and]
    push_cast; ring
  · intro h
    rw [h]
    congr 1
    have hc : (1 + u.q : ℂ) ≠ 0 := by exact_mod_cast hq
    simp only [tripleFromCentre, List.cons.injEq, Prod.mk.injEq, and_true, true_and]
    push_cast; field_simp; ring

/-- The system of `docs_src/usage.rst` 133-142 (`s = 1.1`, `q = 0.02`, `q3 = 0.5`, `r3 = 0.6`, `psi = 210°`): lens 3 is not
at distance 0.6 from lens 1. -/
example : dist (r3Complex (midParams3 { s := 11 / 10, q := 1 / 50, q3 := 1 / 2, r3 := 3 / 5, psi := Real.pi + Real.pi / 6 }))
    (-((midParams3 { s := 11 / 10, q := 1 / 50, q3 := 1 / 2, r3 := 3 / 5, psi := Real.pi + Real.pi / 6 }).a : ℂ)) ≠ 3 / 5 := by
  intro h
  have hc : Real.cos (Real.pi + Real.pi / 6) = -(Real.sqrt 3 / 2) := by
    rw [add_comm, Real.cos_add_pi, Real.cos_pi_div_six]
  rcases (C107_distance_violated { s := 11 / 10, q := 1 / 50, q3 := 1 / 2, r3 := 3 / 5, psi := Real.pi + Real.pi / 6 }
    (by norm_num)).2.mp h with h0 | h0
  · norm_num at h0
  · simp only [hc] at h0
    have h3 : Real.sqrt 3 ^ 2 = 3 := Real.sq_sqrt (by norm_num)
    have : Real.sqrt 3 = 11 / 12 := by linarith
    rw [this] at h3; norm_num at h3

example (u : UserParams) (hu : u = { s := 11 / 10, q := 1 / 50, q3 := 1 / 2, r3 := 3 / 5, psi := 0 }) :
    lensEq3 (midParams3 u) I ≠ lensMap (tripleFromFirst u.s u.q u.q3 u.r3 u.psi) I := by
  subst hu
  refine (C107_violated _ (by norm_num) (by norm_num) (by norm_num) (by norm_num) I ?_).1 ?_
  · intro l hl h0
    simp only [midTriple, midParams3, r3Complex, List.mem_cons, List.not_mem_nil, or_false] at hl
    rcases hl with rfl | rfl | rfl <;> · have := congrArg im h0; norm_num at this
  · intro l hl h0
    simp only [tripleFromFirst, List.mem_cons, List.not_mem_nil, or_false] at hl
    rcases hl with rfl | rfl | rfl <;> · have := congrArg im h0; norm_num at this

end Microjax.Props
