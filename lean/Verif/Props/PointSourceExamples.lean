import Verif.Props.Critical

/-! # Concrete cases meeting the hypotheses of C04-C11 -/

noncomputable section

namespace Microjax.Props

open Complex ComplexConjugate Spec PointSource

/-! ## Equal-mass binary, source at the centre of mass: all five roots are images -/

/-- The equal-mass binary of unit separation. -/
def exU : UserParams := { s := 1, q := 1 }

/-- The five images of a source at the origin. -/
def exRoots : List ℂ :=
  [0, ((Real.sqrt 5 / 2 : ℝ) : ℂ), ((-(Real.sqrt 5 / 2) : ℝ) : ℂ),
   ((Real.sqrt 3 / 2 : ℝ) : ℂ) * I, ((-(Real.sqrt 3 / 2) : ℝ) : ℂ) * I]

theorem exU_a : (midParams2 exU).a = 1 / 2 := by simp [midParams2, exU]
theorem exU_e1 : (midParams2 exU).e1 = 1 / 2 := by simp [midParams2, exU]; norm_num
theorem exU_x : xCM exU = 0 := by simp [xCM, exU]

theorem sq5 : ((Real.sqrt 5 : ℝ) : ℂ) ^ 2 = 5 := by
  rw [← ofReal_pow, Real.sq_sqrt (by norm_num)]; norm_num
theorem sq3 : ((Real.sqrt 3 : ℝ) : ℂ) ^ 2 = 3 := by
  rw [← ofReal_pow, Real.sq_sqrt (by norm_num)]; norm_num

theorem exRoots_isRootList :
    IsRootList (polyCoeffsBinary 0 (midParams2 exU).a (midParams2 exU).e1) exRoots := by
  intro x
  rw [evalPoly_binary, (C04_binary_leading _ _ _).2, exU_a, exU_e1]
  simp only [exRoots, List.map_cons, List.map_nil, List.prod_cons, List.prod_nil, map_zero]
  push_cast
  have h5 := sq5
  have h3 := sq3
  linear_combination (-(1 / 16) * x * (x ^ 2 - (Real.sqrt 3 / 2 : ℂ) ^ 2 * I ^ 2)) * h5
    + (-(1 / 16) * x * (x ^ 2 - 5 / 4) * I ^ 2) * h3
    + (-(3 / 16) * x * (x ^ 2 - 5 / 4)) * I_sq

theorem exRoots_nodup : exRoots.Nodup := by
  have h5 : 0 < Real.sqrt 5 := Real.sqrt_pos.mpr (by norm_num)
  have h3 : 0 < Real.sqrt 3 := Real.sqrt_pos.mpr (by norm_num)
  have key : (exRoots.map fun z => (z.re, z.im)).Nodup := by
    simp [exRoots]
    refine ⟨⟨?_, ?_⟩, ?_, ?_⟩ <;> intro h <;> linarith
  exact List.Nodup.of_map _ key

theorem exRoots_images (z : ℂ) (hz : z ∈ exRoots) :
    lensEq2 (midParams2 exU) z = 0 ∧ z ≠ (midParams2 exU).a ∧ z ≠ -(midParams2 exU).a := by
  have h5 := sq5
  have h3 := sq3
  have key : z * (conj z ^ 2 - 1 / 4) = conj z ∧ conj z ^ 2 ≠ 1 / 4 := by
    simp only [exRoots, List.mem_cons, List.not_mem_nil, or_false] at hz
    rcases hz with rfl | rfl | rfl | rfl | rfl
    · simp
    · rw [conj_ofReal]; push_cast
      have : ((Real.sqrt 5 : ℂ) / 2) ^ 2 = 5 / 4 := by rw [div_pow, h5]; norm_num
      rw [this]; constructor <;> norm_num
    · rw [conj_ofReal]; push_cast
      have : (-((Real.sqrt 5 : ℂ) / 2)) ^ 2 = 5 / 4 := by rw [neg_sq, div_pow, h5]; norm_num
      rw [this]; constructor <;> norm_num
    · rw [map_mul, conj_ofReal, conj_I]; push_cast
      have : ((Real.sqrt 3 : ℂ) / 2 * -I) ^ 2 = -3 / 4 := by
        rw [mul_pow, div_pow, h3, neg_sq, I_sq]; norm_num
      rw [this]; constructor <;> [ring; norm_num]
    · rw [map_mul, conj_ofReal, conj_I]; push_cast
      have : (-((Real.sqrt 3 : ℂ) / 2) * -I) ^ 2 = -3 / 4 := by
        rw [mul_pow, neg_sq, div_pow, h3, neg_sq, I_sq]; norm_num
      rw [this]; constructor <;> [ring; norm_num]
  obtain ⟨k1, k2⟩ := key
  have hA : conj z - 1 / 2 ≠ 0 := by
    intro hc; apply k2; rw [sub_eq_zero.mp hc]; norm_num
  have hB : conj z + 1 / 2 ≠ 0 := by
    intro hc; apply k2; rw [eq_neg_of_add_eq_zero_left hc]; norm_num
  refine ⟨?_, ?_, ?_⟩
  · simp only [lensEq2, exU_a, exU_e1]; push_cast
    have hA' : 2 * conj z - 1 ≠ 0 := by intro hc; apply hA; linear_combination hc / 2
    have hB' : 2 * conj z + 1 ≠ 0 := by intro hc; apply hB; linear_combination hc / 2
    field_simp
    linear_combination 4 * k1
  · rw [exU_a]; intro hc; apply hA; rw [hc, conj_ofReal]; norm_num
  · rw [exU_a]; intro hc; apply hB; rw [hc, map_neg, conj_ofReal]; norm_num

/-- A root finder that is right on the example. -/
def exFinder : Option (List ℂ) → List ℂ → List ℂ := fun _ _ => exRoots

/-- C06 applies to the equal-mass binary with the source at the centre of mass (five images). -/
example : magPointSource exFinder 2 exU 0 = .ok (pointMag (binary 1 1) 0) := by
  have hx : (0 : ℂ) - (xCM exU : ℂ) = 0 := by rw [exU_x]; simp
  refine C06_binary_mag exFinder exU 0 (by norm_num [exU]) ?_ ?_ ?_ ?_
  · rw [hx]; exact exRoots_isRootList
  · rw [hx, exU_a]; norm_num
  · exact exRoots_nodup
  · intro r hr _
    rw [hx]; exact exRoots_images r hr

/-- C04: the five points are images, hence roots. -/
example : evalPoly (polyCoeffsBinary 0 (1 / 2) (1 / 2)) ((Real.sqrt 5 / 2 : ℝ) : ℂ) = 0 := by
  have h := exRoots_images ((Real.sqrt 5 / 2 : ℝ) : ℂ) (by simp [exRoots])
  have := C04_binary_complete (midParams2 exU) 0 _ h.2.1 h.2.2 h.1
  rwa [exU_a, exU_e1] at this

/-- C09 (both parts) apply to the example. -/
example : magPointSource exFinder 2 exU (conj 0) = magPointSource exFinder 2 exU 0 := by
  have hx : (0 : ℂ) - (xCM exU : ℂ) = 0 := by rw [exU_x]; simp
  refine C09_reflect_mag exFinder exU 0 ?_ ?_
  · intro v hv
    rw [map_zero, hx, or_self] at hv
    subst hv; exact exRoots_isRootList
  · rw [hx, exU_a]; norm_num

example : magPointSource exFinder 2 exU (-0) = magPointSource exFinder 2 exU 0 := by
  have hx : (0 : ℂ) - (xCM exU : ℂ) = 0 := by rw [exU_x]; simp
  refine C09_swap_mag exFinder exU exU 0 rfl (by norm_num [exU]) (by norm_num [exU])
    (by norm_num [exU]) ?_ ?_ ?_
  · rw [hx]; exact exRoots_isRootList
  · rw [neg_zero, hx]; exact exRoots_isRootList
  · rw [hx, exU_a]; norm_num

/-! ## Equilateral equal-mass triple, source at the centroid: all ten roots are images

The lenses lie at distance `ρ = 6^{1/3}/√7` from the centroid; relative to it the images are the centroid and
`(i/√7) c ω^j` for `c = -1, -2, 3` (the roots of `c³ = 7c + 6`) and `ω` a cube root of unity. -/

/-- `1/√7` -/
def tm : ℝ := 1 / Real.sqrt 7
/-- cube root of 6 -/
def tk : ℝ := (6 : ℝ) ^ (1 / 3 : ℝ)
/-- `e^{2πi/3}` -/
def tω : ℂ := -1 / 2 + ((Real.sqrt 3 / 2 : ℝ) : ℂ) * I

theorem tm_sq : tm ^ 2 = 1 / 7 := by
  unfold tm; rw [div_pow, Real.sq_sqrt (by norm_num)]; norm_num
theorem tm_pos : 0 < tm := by unfold tm; positivity
theorem tk_cube : tk ^ 3 = 6 := by
  unfold tk
  rw [← Real.rpow_natCast, ← Real.rpow_mul (by norm_num)]; norm_num
theorem tk_pos : 0 < tk := by unfold tk; positivity
theorem tω_sq : tω ^ 2 + tω + 1 = 0 := by
  have h3 := sq3
  unfold tω; push_cast
  linear_combination (I ^ 2 / 4) * h3 + 3 / 4 * I_sq
theorem tω_cube : tω ^ 3 = 1 := by linear_combination (tω - 1) * tω_sq
theorem conj_tω : conj tω = tω ^ 2 := by
  have : conj tω = -1 - tω := by
    unfold tω
    rw [map_add, map_mul, conj_ofReal, conj_I, map_div₀, map_neg, map_one, map_ofNat]; ring
  rw [this]; linear_combination -tω_sq

/-- User parameters of the equilateral triple. -/
def exT : UserParams :=
  { s := Real.sqrt 3 * (tm * tk), q := 1, q3 := 1, r3 := 3 / 2 * (tm * tk), psi := Real.pi / 2 }

/-- The images relative to the centroid. -/
def exRootsT : List ℂ :=
  0 :: [(-1 : ℝ), -2, 3].flatMap fun c : ℝ => [I * tm * c, I * tm * c * tω, I * tm * c * tω ^ 2]

theorem exT_a : (midParams3 exT).a = 1 / 2 * (Real.sqrt 3 * (tm * tk)) := by simp [midParams3, exT]
theorem exT_e1 : (midParams3 exT).e1 = 1 / 3 := by simp [midParams3, exT]; norm_num
theorem exT_e2 : (midParams3 exT).e2 = 1 / 3 := by simp [midParams3, exT]; norm_num
theorem exT_x : xCM exT = 0 := by simp [xCM, exT]
theorem exT_r3 : r3Complex (midParams3 exT) = 3 / 2 * (tm * tk) * I := by
  simp only [r3Complex, midParams3, exT]
  rw [mul_comm I, show (((Real.pi / 2 : ℝ) : ℂ)) * I = Real.pi / 2 * I by push_cast; ring,
    Complex.exp_pi_div_two_mul_I]
  push_cast; ring
theorem exT_S : shiftCM (midParams3 exT).a (r3Complex (midParams3 exT)) (midParams3 exT).e1
    (midParams3 exT).e2 = 1 / 2 * (tm * tk) * I := by
  rw [shiftCM_eq, exT_a, exT_e1, exT_e2, exT_r3]; push_cast; ring

/-- source position: the centroid -/
def exTw : ℂ := 1 / 2 * (tm * tk) * I

/-- coefficients for the example -/
abbrev exTc : List ℂ := polyCoeffsTripleCM exTw (midParams3 exT).a (r3Complex (midParams3 exT))
  (midParams3 exT).e1 (midParams3 exT).e2

theorem tk_cube' : (tk : ℂ) ^ 3 = 6 := by rw [← ofReal_pow, tk_cube]; norm_num
theorem tm_sq' : (tm : ℂ) ^ 2 = 1 / 7 := by rw [← ofReal_pow, tm_sq]; norm_num
theorem exTc_head : exTc.headD 0 = -6 * tm ^ 3 * I := by
  have h3 := sq3
  have hk := tk_cube'
  simp only [exTc, polyCoeffsTripleCM, List.headD_cons]
  rw [exT_S, exT_a, exT_r3, exTw]
  simp only [map_sub, map_mul, map_neg, conj_I, conj_ofReal, map_div₀, map_one, map_ofNat]
  push_cast
  set k : ℂ := (tk : ℂ)
  set m : ℂ := (tm : ℂ)
  set t : ℂ := ((Real.sqrt 3 : ℝ) : ℂ)
  linear_combination (-(1 / 4) * m ^ 3 * k ^ 3 * I) * h3 + (1 / 4 * m ^ 3 * k ^ 3 * I) * I_sq
    - m ^ 3 * I * hk

theorem exTc_eval (z : ℂ) : evalPoly exTc z = -6 * tm ^ 3 * I * (z * ((z ^ 3 + 6 * tm ^ 3 * I) ^ 3 + z ^ 3)) := by
  have h3 := sq3
  have hk := tk_cube'
  have key := evalPoly_tripleCM exTw (midParams3 exT).a (r3Complex (midParams3 exT))
    (midParams3 exT).e1 (midParams3 exT).e2 z
  simp only at key
  rw [exTc, key, exT_S, exT_a, exT_r3, exTw, exT_e1, exT_e2]
  simp only [map_sub, map_mul, map_neg, conj_I, conj_ofReal, map_div₀, map_one, map_ofNat]
  push_cast
  set k : ℂ := (tk : ℂ)
  set m : ℂ := (tm : ℂ)
  set t : ℂ := ((Real.sqrt 3 : ℝ) : ℂ)
  -- lens positions relative to the centroid
  have hP : (z - (-(1 / 2 * (t * (m * k))) - 1 / 2 * (m * k) * I)) *
      (z - (1 / 2 * (t * (m * k)) - 1 / 2 * (m * k) * I)) *
      (z - (3 / 2 * (m * k) * I - 1 / 2 * (m * k) * I)) = z ^ 3 + 6 * m ^ 3 * I := by
    linear_combination (-(1 / 4) * (m * k) ^ 2 * (z - m * k * I)) * h3
      + (-(3 / 4) * (m * k) ^ 2 * z - 1 / 4 * (m * k) ^ 3 * I) * I_sq + m ^ 3 * I * hk
  have hQ : 1 / 3 * (z - (1 / 2 * (t * (m * k)) - 1 / 2 * (m * k) * I)) *
        (z - (3 / 2 * (m * k) * I - 1 / 2 * (m * k) * I)) +
      1 / 3 * (z - (-(1 / 2 * (t * (m * k))) - 1 / 2 * (m * k) * I)) *
        (z - (3 / 2 * (m * k) * I - 1 / 2 * (m * k) * I)) +
      (1 - 1 / 3 - 1 / 3) * (z - (-(1 / 2 * (t * (m * k))) - 1 / 2 * (m * k) * I)) *
        (z - (1 / 2 * (t * (m * k)) - 1 / 2 * (m * k) * I)) = z ^ 2 := by
    linear_combination (-(1 / 12) * (m * k) ^ 2) * h3 - 1 / 4 * (m * k) ^ 2 * I_sq
  rw [hP, hQ]
  have helper : ∀ b1 b2 b3 P Q y : ℂ, b1 + b2 + b3 = 0 → b1 * b2 + b1 * b3 + b2 * b3 = 0 →
      (b1 * P + Q) * (b2 * P + Q) * (b3 * P + Q) * (z - y)
        - P * (1 / 3 * (b2 * P + Q) * (b3 * P + Q) + 1 / 3 * (b1 * P + Q) * (b3 * P + Q)
          + (1 - 1 / 3 - 1 / 3) * (b1 * P + Q) * (b2 * P + Q))
      = (Q ^ 3 + b1 * b2 * b3 * P ^ 3) * (z - y) - P * Q ^ 2 := by
    intro b1 b2 b3 P Q y h1 h2
    linear_combination (P * Q ^ 2 * (z - y) - 2 / 3 * P ^ 2 * Q) * h1
      + (P ^ 2 * Q * (z - y) - 1 / 3 * P ^ 3) * h2
  rw [helper]
  · linear_combination ((z ^ 3 + 6 * m ^ 3 * I) ^ 3 * z) *
      ((-(1 / 4) * m ^ 3 * k ^ 3 * I) * h3 + (1 / 4 * m ^ 3 * k ^ 3 * I) * I_sq - m ^ 3 * I * hk)
  · ring
  · linear_combination (-(1 / 4) * (m * k) ^ 2) * h3 - 3 / 4 * (m * k) ^ 2 * I_sq

theorem tω_factor (z y : ℂ) : (z - y) * ((z - y * tω) * (z - y * tω ^ 2)) = z ^ 3 - y ^ 3 := by
  linear_combination (-(z ^ 2 * y) + z * y ^ 2 * tω) * tω_sq - y ^ 3 * tω_cube

theorem exRootsT_isRootList : IsRootList exTc exRootsT := by
  intro x
  rw [exTc_eval, exTc_head]
  simp only [exRootsT, List.flatMap_cons, List.flatMap_nil, List.append_nil, List.cons_append,
    List.nil_append, List.map_cons, List.map_nil, List.prod_cons, List.prod_nil, mul_one, sub_zero]
  congr 2
  have f := fun y => tω_factor x y
  have e : ∀ a b c d e f g h i : ℂ, a * (b * (c * (d * (e * (f * (g * (h * i))))))) =
      (a * (b * c)) * (d * (e * f)) * (g * (h * i)) := by intros; ring
  rw [e, f, f, f]
  have hm := tm_sq'
  push_cast
  set m : ℂ := (tm : ℂ)
  have hm6 : m ^ 6 = 1 / 343 := by rw [show m ^ 6 = (m ^ 2) ^ 3 by ring, hm]; norm_num
  have hI3 : I ^ 3 = -I := by rw [pow_succ, I_sq]; ring
  simp only [mul_pow, hI3]
  linear_combination (343 * x ^ 3 * I ^ 2) * hm6 + x ^ 3 * I_sq

theorem exRootsT_images (r : ℂ) (hr : r ∈ exRootsT) :
    lensEq3 (midParams3 exT) (r + 1 / 2 * (tm * tk) * I) = exTw ∧
    r + 1 / 2 * (tm * tk) * I ≠ (midParams3 exT).a ∧ r + 1 / 2 * (tm * tk) * I ≠ -(midParams3 exT).a ∧
    r + 1 / 2 * (tm * tk) * I ≠ r3Complex (midParams3 exT) := by
  -- `conj r (r³ + 6 m³ i) = r²` and `r³ ≠ -6 m³ i`
  have hm := tm_sq'
  have hm0 : (tm : ℂ) ≠ 0 := by exact_mod_cast tm_pos.ne'
  have hI3 : I ^ 3 = -I := by rw [pow_succ, I_sq]; ring
  have key : conj r * (r ^ 3 + 6 * tm ^ 3 * I) = r ^ 2 ∧ r ^ 3 + 6 * tm ^ 3 * I ≠ 0 := by
    have hc : r = 0 ∨ ∃ (c : ℝ) (w : ℂ), c ^ 3 = 7 * c + 6 ∧ c ≠ 0 ∧ w ^ 3 = 1 ∧ conj w = w ^ 2 ∧
        r = I * tm * c * w := by
      simp only [exRootsT, List.flatMap_cons, List.flatMap_nil, List.append_nil, List.cons_append,
        List.nil_append, List.mem_cons, List.not_mem_nil, or_false] at hr
      have w1 : (1 : ℂ) ^ 3 = 1 ∧ conj (1 : ℂ) = 1 ^ 2 := by simp
      have w2 : (tω : ℂ) ^ 3 = 1 ∧ conj (tω : ℂ) = tω ^ 2 := ⟨tω_cube, conj_tω⟩
      have w3 : (tω ^ 2 : ℂ) ^ 3 = 1 ∧ conj (tω ^ 2 : ℂ) = (tω ^ 2) ^ 2 := by
        refine ⟨by rw [← pow_mul, mul_comm, pow_mul, tω_cube, one_pow], by rw [map_pow, conj_tω]⟩
      rcases hr with h | h | h | h | h | h | h | h | h | h
      · exact Or.inl h
      · exact Or.inr ⟨-1, 1, by norm_num, by norm_num, w1.1, w1.2, by rw [h]; ring⟩
      · exact Or.inr ⟨-1, tω, by norm_num, by norm_num, w2.1, w2.2, h⟩
      · exact Or.inr ⟨-1, tω ^ 2, by norm_num, by norm_num, w3.1, w3.2, h⟩
      · exact Or.inr ⟨-2, 1, by norm_num, by norm_num, w1.1, w1.2, by rw [h]; ring⟩
      · exact Or.inr ⟨-2, tω, by norm_num, by norm_num, w2.1, w2.2, h⟩
      · exact Or.inr ⟨-2, tω ^ 2, by norm_num, by norm_num, w3.1, w3.2, h⟩
      · exact Or.inr ⟨3, 1, by norm_num, by norm_num, w1.1, w1.2, by rw [h]; ring⟩
      · exact Or.inr ⟨3, tω, by norm_num, by norm_num, w2.1, w2.2, h⟩
      · exact Or.inr ⟨3, tω ^ 2, by norm_num, by norm_num, w3.1, w3.2, h⟩
    rcases hc with rfl | ⟨c, w, hc, hc0, hw, hcw, rfl⟩
    · simp [hm0]
    · have hcC : (c : ℂ) ^ 3 = 7 * c + 6 := by exact_mod_cast hc
      have e3 : (I * tm * c * w) ^ 3 + 6 * tm ^ 3 * I = -7 * c * tm ^ 3 * I := by
        rw [mul_pow, mul_pow, mul_pow, hI3, hw, hcC]; ring
      rw [e3]
      constructor
      · simp only [map_mul, conj_I, conj_ofReal, hcw]
        have : (7 : ℂ) * tm ^ 2 = 1 := by rw [hm]; norm_num
        linear_combination (c ^ 2 * tm ^ 2 * w ^ 2 * I ^ 2) * this
      · have : (c : ℂ) ≠ 0 := by exact_mod_cast hc0
        simp [this, hm0]
  obtain ⟨k1, k2⟩ := key
  have h3 := sq3
  have hk := tk_cube'
  have c1 : r * (conj r ^ 3 - 6 * tm ^ 3 * I) = conj r ^ 2 := by
    have := congrArg conj k1
    simp only [map_mul, map_add, map_pow, conj_conj, conj_I, conj_ofReal, map_ofNat] at this
    linear_combination this
  have c2 : conj r ^ 3 - 6 * tm ^ 3 * I ≠ 0 := by
    intro hc; apply k2
    have := congrArg conj hc
    simp only [map_mul, map_sub, map_pow, conj_conj, conj_I, conj_ofReal, map_ofNat, map_zero] at this
    linear_combination this
  set z : ℂ := r + 1 / 2 * (tm * tk) * I with hz
  have hcz : conj z = conj r - 1 / 2 * (tm * tk) * I := by
    rw [hz]
    simp only [map_mul, map_add, conj_I, conj_ofReal, map_ofNat, map_div₀, map_one]; ring
  have hP : (conj z - (midParams3 exT).a) * (conj z + (midParams3 exT).a) *
      (conj z - conj (r3Complex (midParams3 exT))) = conj r ^ 3 - 6 * tm ^ 3 * I := by
    rw [hcz, exT_a, exT_r3]
    simp only [map_mul, conj_I, conj_ofReal, map_ofNat, map_div₀]
    push_cast
    set y : ℂ := conj r
    set k : ℂ := (tk : ℂ)
    set m : ℂ := (tm : ℂ)
    set t : ℂ := ((Real.sqrt 3 : ℝ) : ℂ)
    linear_combination (-(1 / 4) * (m * k) ^ 2 * (y + m * k * I)) * h3
      + (-(3 / 4) * (m * k) ^ 2 * y + 1 / 4 * (m * k) ^ 3 * I) * I_sq - m ^ 3 * I * hk
  have hQ : 1 / 3 * ((conj z + (midParams3 exT).a) * (conj z - conj (r3Complex (midParams3 exT))))
      + 1 / 3 * ((conj z - (midParams3 exT).a) * (conj z - conj (r3Complex (midParams3 exT))))
      + 1 / 3 * ((conj z - (midParams3 exT).a) * (conj z + (midParams3 exT).a)) = conj r ^ 2 := by
    rw [hcz, exT_a, exT_r3]
    simp only [map_mul, conj_I, conj_ofReal, map_ofNat, map_div₀]
    push_cast
    set y : ℂ := conj r
    set k : ℂ := (tk : ℂ)
    set m : ℂ := (tm : ℂ)
    set t : ℂ := ((Real.sqrt 3 : ℝ) : ℂ)
    linear_combination (-(1 / 12) * (m * k) ^ 2) * h3 - 1 / 4 * (m * k) ^ 2 * I_sq
  rw [← hP] at c1 c2
  rw [← hQ] at c1
  have d12 := left_ne_zero_of_mul c2
  have d1 := left_ne_zero_of_mul d12
  have d2 := right_ne_zero_of_mul d12
  have d3 := right_ne_zero_of_mul c2
  refine ⟨?_, ?_, ?_, ?_⟩
  · simp only [lensEq3, exT_e1, exT_e2]
    have hr' : r = z - exTw := by rw [hz, exTw]; ring
    rw [hr'] at c1
    set D1 := conj z - ((midParams3 exT).a : ℂ)
    set D2 := conj z + ((midParams3 exT).a : ℂ)
    set D3 := conj z - conj (r3Complex (midParams3 exT))
    push_cast
    field_simp
    linear_combination 3 * c1
  · intro h; apply d1; rw [h, conj_ofReal]; ring
  · intro h; apply d2; rw [h, map_neg, conj_ofReal]; ring
  · intro h; apply d3; rw [h]; ring

theorem exRootsT_nodup : exRootsT.Nodup := by
  have hm0 : (tm : ℂ) ≠ 0 := by exact_mod_cast tm_pos.ne'
  have hIm : I * (tm : ℂ) ≠ 0 := mul_ne_zero I_ne_zero hm0
  have h3 : 0 < Real.sqrt 3 := Real.sqrt_pos.mpr (by norm_num)
  have hω2 : tω ^ 2 = -1 / 2 - ((Real.sqrt 3 / 2 : ℝ) : ℂ) * I := by
    have := tω_sq
    rw [show tω ^ 2 = -1 - tω by linear_combination this]; unfold tω; ring
  have hg : exRootsT.map (fun z => z / (I * tm)) =
      0 :: [(-1 : ℝ), -2, 3].flatMap fun c : ℝ => [(c : ℂ), c * tω, c * tω ^ 2] := by
    simp only [exRootsT, List.flatMap_cons, List.flatMap_nil, List.append_nil, List.cons_append,
      List.nil_append, List.map_cons, List.map_nil, zero_div, mul_assoc (I * (tm : ℂ)),
      mul_div_cancel_left₀ _ hIm]
  refine List.Nodup.of_map (fun z => z / (I * tm)) ?_
  rw [hg]
  refine List.Nodup.of_map (fun z : ℂ => (z.re, z.im)) ?_
  rw [hω2]
  simp [tω]
  refine ⟨⟨?_, ?_⟩, ⟨?_, ?_⟩, ?_, ?_, ⟨?_, ?_⟩, ?_, ?_⟩ <;> (try intro h) <;> (try intro h') <;>
    linarith

/-- C06 (triple) applies to the equilateral triple with the source at the centroid (ten images). -/
example : magPointSource (fun _ _ => exRootsT) 3 exT exTw
    = .ok (pointMag (triple exT.s exT.q exT.q3 exT.r3 exT.psi) exTw) := by
  have hx : exTw - (xCM exT : ℂ) = exTw := by rw [exT_x]; simp
  refine C06_triple_mag _ exT exTw (by norm_num [exT]) (by norm_num [exT]) exTc (by rw [hx]) _
    exT_S.symm exRootsT_isRootList ?_ exRootsT_nodup ?_
  · rw [exTc_head]
    have hm0 : (tm : ℂ) ≠ 0 := by exact_mod_cast tm_pos.ne'
    simp [hm0]
  · intro r hr _
    rw [hx]; exact exRootsT_images r hr

/-- C11 applies to any root finder with a fixed number of roots. -/
example : ∃ rows, criticalAndCaustic (fun _ => exRoots) 7 2 exU = .ok rows ∧ rows.length = 7 := by
  obtain ⟨rows, h1, h2⟩ := C11_binary (fun _ => exRoots) 7 exU 5 (fun _ => rfl)
  exact ⟨rows, h1, by rw [h2.length_eq]; simp [linspacePhi]⟩

end Microjax.Props
