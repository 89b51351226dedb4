import Verif.Lemmas.PointMag
import Verif.Props.Utils
import Mathlib.Topology.Order.Basic
import Mathlib.Analysis.SpecialFunctions.Pow.Asymptotics

/-! # Properties C01-C11, C13: lens equation, images, point-source magnification, critical curves -/

noncomputable section

namespace Microjax.Props

open Complex ComplexConjugate Spec PointSource

/-! ## C01: single-lens images -/

/-- C01: for every source `w ≠ 0` the single-lens image finder returns two distinct points, both flagged
valid, and a point of the image plane is an image of `w` iff it is one of the two.  (At `w = 0` the code
divides by zero and returns NaN.) -/
theorem C01_single_images (w : ℂ) (hw : w ≠ 0) :
    ∃ z1 z2 : ℂ, images1 w = [(z1, true), (z2, true)] ∧ z1 ≠ z2 ∧
      (∀ z, IsImage single w z ↔ z = z1 ∨ z = z2) ∧ lensEq1 z1 = w ∧ lensEq1 z2 = w := by
  have h := single_image_iff w
  refine ⟨_, _, rfl, ?_, fun z => h z hw, ?_, ?_⟩
  · have hn := normSq_pos' hw
    have hS : 0 < Real.sqrt (1 + 4 / (w.re ^ 2 + w.im ^ 2)) := Real.sqrt_pos.mpr (by positivity)
    intro hc
    have h2 : ((1 / 2 : ℝ) : ℂ) * w ≠ 0 := mul_ne_zero (by norm_num) hw
    have := mul_left_cancel₀ h2 hc
    have := ofReal_injective this
    linarith
  · rw [lensEq1_eq]; exact ((h _ hw).mpr (Or.inl rfl)).2
  · rw [lensEq1_eq]; exact ((h _ hw).mpr (Or.inr rfl)).2

example : ∃ z1 z2 : ℂ, images1 (3 / 2) = [(z1, true), (z2, true)] ∧ z1 ≠ z2 ∧ lensEq1 z1 = 3 / 2 := by
  obtain ⟨z1, z2, h1, h2, -, h3, -⟩ := C01_single_images (3 / 2) (by norm_num)
  exact ⟨z1, z2, h1, h2, h3⟩

/-! ## C02: single-lens magnification -/

/-- Squared moduli of the two images in terms of `S = sqrt(1 + 4/|w|²)`. -/
theorem single_moduli (w : ℂ) (hw : w ≠ 0) :
    let S := Real.sqrt (1 + 4 / (w.re ^ 2 + w.im ^ 2))
    1 < S ∧ ‖(1 / 2 : ℝ) * w * ((1 + S : ℝ) : ℂ)‖ ^ 2 = (S + 1) / (S - 1) ∧
      ‖(1 / 2 : ℝ) * w * ((1 - S : ℝ) : ℂ)‖ ^ 2 = (S - 1) / (S + 1) := by
  intro S
  have hn := normSq_pos' hw
  have hS2 : S ^ 2 = 1 + 4 / (w.re ^ 2 + w.im ^ 2) := sqrt_sq_single w
  have hS1 : 1 < S := by
    rw [Real.lt_sqrt (by norm_num)]
    have : 0 < 4 / (w.re ^ 2 + w.im ^ 2) := by positivity
    linarith
  have hw2 : ‖w‖ ^ 2 = 4 / ((S - 1) * (S + 1)) := by
    rw [Complex.sq_norm, Complex.normSq_apply]
    have h1 : (S - 1) * (S + 1) = 4 / (w.re ^ 2 + w.im ^ 2) := by nlinarith
    rw [h1]; field_simp
  have h1 : S - 1 ≠ 0 := by linarith
  have h2 : S + 1 ≠ 0 := by linarith
  refine ⟨hS1, ?_, ?_⟩
  · rw [norm_mul, norm_mul, mul_pow, mul_pow, hw2, norm_real, norm_real]
    simp only [Real.norm_eq_abs, sq_abs]
    field_simp; ring
  · rw [norm_mul, norm_mul, mul_pow, mul_pow, hw2, norm_real, norm_real]
    simp only [Real.norm_eq_abs, sq_abs]
    field_simp; ring

theorem sqrt_ratio (w : ℂ) (hw : w ≠ 0) :
    Real.sqrt (1 + 4 / (w.re ^ 2 + w.im ^ 2)) = Real.sqrt (‖w‖ ^ 2 + 4) / ‖w‖ := by
  have hn : 0 < ‖w‖ := norm_pos_iff.mpr hw
  have e : w.re ^ 2 + w.im ^ 2 = ‖w‖ ^ 2 := by
    rw [Complex.sq_norm, Complex.normSq_apply]; ring
  rw [e, show 1 + 4 / ‖w‖ ^ 2 = (‖w‖ ^ 2 + 4) / ‖w‖ ^ 2 by field_simp,
    Real.sqrt_div (by positivity), Real.sqrt_sq hn.le]

/-- C02, specification side: the true magnification of the single lens is Paczynski's formula. -/
theorem C02_true_single_mag (w : ℂ) (hw : w ≠ 0) : pointMag single w = paczynski ‖w‖ := by
  obtain ⟨hS1, hP, hM⟩ := single_moduli w hw
  have hr := sqrt_ratio w hw
  set S := Real.sqrt (1 + 4 / (w.re ^ 2 + w.im ^ 2)) with hS
  have hn : 0 < ‖w‖ := norm_pos_iff.mpr hw
  obtain ⟨z1, z2, hl, hne, hiff, -, -⟩ := C01_single_images w hw
  simp only [images1, List.cons.injEq, Prod.mk.injEq, and_true] at hl
  obtain ⟨hz1, hz2⟩ := hl
  rw [← hS] at hz1 hz2
  rw [pointMag_of_list single w [z1, z2] (by simp [hne]) (by intro z; simp [hiff])]
  have hdet : ∀ z : ℂ, detFormula single z = 1 - 1 / (‖z‖ ^ 2) ^ 2 := by
    intro z
    simp [detFormula, single]
  have hpac : paczynski ‖w‖ = (S ^ 2 + 1) / (2 * S) := by
    have h2 : S ^ 2 = (‖w‖ ^ 2 + 4) / ‖w‖ ^ 2 := by
      rw [hr, div_pow, Real.sq_sqrt (by positivity)]
    have hs : Real.sqrt (‖w‖ ^ 2 + 4) = S * ‖w‖ := by rw [hr]; field_simp
    unfold paczynski
    rw [hs, h2]
    have : S ≠ 0 := by linarith
    field_simp; ring
  rw [hpac]
  simp only [List.map_cons, List.map_nil, List.sum_cons, List.sum_nil, hdet, ← hz1, ← hz2, hP, hM]
  have h1 : 0 < S - 1 := by linarith
  have h2 : 0 < S + 1 := by linarith
  have hS0 : 0 < S := by linarith
  have a1 : |1 - 1 / ((S + 1) / (S - 1)) ^ 2| = 4 * S / (S + 1) ^ 2 := by
    have e : 1 - 1 / ((S + 1) / (S - 1)) ^ 2 = 4 * S / (S + 1) ^ 2 := by field_simp; ring
    rw [e, abs_of_pos (by positivity)]
  have a2 : |1 - 1 / ((S - 1) / (S + 1)) ^ 2| = 4 * S / (S - 1) ^ 2 := by
    have e : 1 - 1 / ((S - 1) / (S + 1)) ^ 2 = -(4 * S / (S - 1) ^ 2) := by field_simp; ring
    rw [e, abs_neg, abs_of_pos (by positivity)]
  rw [a1, a2]
  field_simp; ring

/-- C02, what the code computes: for every `w ≠ 0`, `mag_point_source(w, nlenses=1)` returns
`sqrt(|w|² + 4) / |w|`, whatever the root finder. -/
theorem C02_single_mag_value (roots) (u : UserParams) (w : ℂ) (hw : w ≠ 0) :
    magPointSource roots 1 u w = .ok (Real.sqrt (‖w‖ ^ 2 + 4) / ‖w‖) := by
  obtain ⟨hS1, hP, hM⟩ := single_moduli w hw
  rw [← sqrt_ratio w hw]
  simp only [magPointSource, if_true, sumMag, images1, List.map_cons, List.map_nil, List.sum_cons,
    List.sum_nil]
  set S := Real.sqrt (1 + 4 / (w.re ^ 2 + w.im ^ 2)) with hS
  have hd : ∀ z : ℂ, detJac1 z = 1 - 1 / ‖z‖ ^ 2 := by intro z; simp [detJac1]
  rw [hd, hd, hP, hM]
  have h1 : 0 < S - 1 := by linarith
  have h2 : 0 < S + 1 := by linarith
  have a1 : |1 - 1 / ((S + 1) / (S - 1))| = 2 / (S + 1) := by
    have e : 1 - 1 / ((S + 1) / (S - 1)) = 2 / (S + 1) := by field_simp; ring
    rw [e, abs_of_pos (by positivity)]
  have a2 : |1 - 1 / ((S - 1) / (S + 1))| = 2 / (S - 1) := by
    have e : 1 - 1 / ((S - 1) / (S + 1)) = -(2 / (S - 1)) := by field_simp; ring
    rw [e, abs_neg, abs_of_pos (by positivity)]
  rw [a1, a2]
  congr 1
  field_simp; ring

/-- C02 is violated at *every* source position: the code's value is strictly larger than the true
magnification, by `2 / (u sqrt(u² + 4))`. -/
theorem C02_violated (roots) (u : UserParams) (w : ℂ) (hw : w ≠ 0) :
    ∃ m, magPointSource roots 1 u w = .ok m ∧
      m = pointMag single w + 2 / (‖w‖ * Real.sqrt (‖w‖ ^ 2 + 4)) ∧ pointMag single w < m := by
  refine ⟨_, C02_single_mag_value roots u w hw, ?_⟩
  have hn : 0 < ‖w‖ := norm_pos_iff.mpr hw
  have hs : 0 < Real.sqrt (‖w‖ ^ 2 + 4) := Real.sqrt_pos.mpr (by positivity)
  have e : Real.sqrt (‖w‖ ^ 2 + 4) / ‖w‖
      = pointMag single w + 2 / (‖w‖ * Real.sqrt (‖w‖ ^ 2 + 4)) := by
    rw [C02_true_single_mag w hw, paczynski]
    have := Real.sq_sqrt (show (0 : ℝ) ≤ ‖w‖ ^ 2 + 4 by positivity)
    field_simp
    linarith
  refine ⟨e, ?_⟩
  rw [e]
  have : 0 < 2 / (‖w‖ * Real.sqrt (‖w‖ ^ 2 + 4)) := by positivity
  linarith

/-- C02, the part that does hold: the code's value lies between the true magnification and twice it, and
depends on `|w|` only.  Missing: equality with the true magnification (false, see `C02_violated`). -/
theorem C02_single_mag_partial (roots) (u : UserParams) (w w' : ℂ) (hw : w ≠ 0) (hww : ‖w‖ = ‖w'‖) :
    magPointSource roots 1 u w = magPointSource roots 1 u w' ∧
    ∃ m, magPointSource roots 1 u w = .ok m ∧ pointMag single w < m ∧ m < 2 * pointMag single w := by
  have hw' : w' ≠ 0 := by rw [← norm_pos_iff, ← hww]; exact norm_pos_iff.mpr hw
  refine ⟨by rw [C02_single_mag_value roots u w hw, C02_single_mag_value roots u w' hw', hww], ?_⟩
  obtain ⟨m, h1, h2, h3⟩ := C02_violated roots u w hw
  refine ⟨m, h1, h3, ?_⟩
  have hn : 0 < ‖w‖ := norm_pos_iff.mpr hw
  have hs : 0 < Real.sqrt (‖w‖ ^ 2 + 4) := Real.sqrt_pos.mpr (by positivity)
  rw [h2, C02_true_single_mag w hw, paczynski]
  have : 0 < (‖w‖ ^ 2 + 2) / (‖w‖ * Real.sqrt (‖w‖ ^ 2 + 4)) - 2 / (‖w‖ * Real.sqrt (‖w‖ ^ 2 + 4)) := by
    rw [← sub_div]
    have : 0 < ‖w‖ ^ 2 + 2 - 2 := by nlinarith [mul_pos hn hn]
    positivity
  linarith

/-! ## C03: Jacobian determinant -/

/-- C03, binary: off the lenses `lens_eq` is differentiable as a map of the plane and
`lens_eq_det_jac` is the determinant of its derivative. -/
theorem C03_det_binary (p : MidParams) (z : ℂ) (h1 : z ≠ p.a) (h2 : z ≠ -p.a) :
    DifferentiableAt ℝ (lensEq2 p) z ∧ detJac2 p z = jacDet (lensEq2 p) z := by
  have e : lensEq2 p = lensMap (midBinary p) := funext (lensEq2_eq p)
  rw [e, detJac2_eq]
  have := jacDet_lensMap (midBinary p) z (by simp [midBinary, h1, h2])
  exact ⟨this.1, this.2.symm⟩

/-- C03, triple. -/
theorem C03_det_triple (p : MidParams) (z : ℂ) (h1 : z ≠ p.a) (h2 : z ≠ -p.a)
    (h3 : z ≠ p.r3 * exp (I * p.psi)) :
    DifferentiableAt ℝ (lensEq3 p) z ∧ detJac3 p z = jacDet (lensEq3 p) z := by
  have e : lensEq3 p = lensMap (midTriple p) := funext (lensEq3_eq p)
  rw [e, detJac3_eq]
  have := jacDet_lensMap (midTriple p) z (by simp [midTriple, r3Complex, h1, h2, h3])
  exact ⟨this.1, this.2.symm⟩

/-- C03 is violated for the single lens: off the lens, the returned value is the Jacobian determinant of
`lens_eq` if and only if `|z| = 1` (the critical curve). -/
theorem C03_violated_single (z : ℂ) (hz : z ≠ 0) :
    DifferentiableAt ℝ lensEq1 z ∧ jacDet lensEq1 z = 1 - 1 / ‖z‖ ^ 4 ∧
      (detJac1 z = jacDet lensEq1 z ↔ ‖z‖ = 1) := by
  have e : lensEq1 = lensMap single := funext lensEq1_eq
  have h := jacDet_lensMap single z (by simpa [single] using hz)
  rw [← e] at h
  have hj : jacDet lensEq1 z = 1 - 1 / ‖z‖ ^ 4 := by
    rw [h.2]; simp [single]; ring
  refine ⟨h.1, hj, ?_⟩
  rw [hj]
  have hd : detJac1 z = 1 - 1 / ‖z‖ ^ 2 := by simp [detJac1]
  rw [hd]
  have hn : 0 < ‖z‖ := norm_pos_iff.mpr hz
  constructor
  · intro h
    have h1 : ‖z‖ ^ 2 = ‖z‖ ^ 4 := by
      field_simp at h; nlinarith
    have h2 : ‖z‖ ^ 2 * (‖z‖ - 1) * (‖z‖ + 1) = 0 := by nlinarith
    have h3 : ‖z‖ ^ 2 * (‖z‖ + 1) ≠ 0 := by positivity
    have h4 : ‖z‖ ^ 2 * (‖z‖ + 1) * (‖z‖ - 1) = 0 := by nlinarith
    have := (mul_eq_zero.mp h4).resolve_left h3
    linarith
  · intro h; rw [h]; norm_num

/-- C03, the part that holds for the single lens: the sign of the returned value (the image parity) is the
sign of the Jacobian determinant.  Missing: equality. -/
theorem C03_single_sign_partial (z : ℂ) (hz : z ≠ 0) :
    SignType.sign (detJac1 z) = SignType.sign (jacDet lensEq1 z) := by
  have hd : detJac1 z = 1 - 1 / ‖z‖ ^ 2 := by simp [detJac1]
  rw [(C03_violated_single z hz).2.1, hd]
  have hn : 0 < ‖z‖ := norm_pos_iff.mpr hz
  have e : 1 - 1 / ‖z‖ ^ 4 = (1 - 1 / ‖z‖ ^ 2) * (1 + 1 / ‖z‖ ^ 2) := by field_simp; ring
  rw [e, sign_mul, sign_pos (show 0 < 1 + 1 / ‖z‖ ^ 2 by positivity), mul_one]

example : DifferentiableAt ℝ (lensEq2 { a := 1 / 2, e1 := 1 / 4 }) (1 + I) :=
  (C03_det_binary { a := 1 / 2, e1 := 1 / 4 } (1 + I)
    (by intro h; have := congrArg Complex.im h; norm_num at this)
    (by intro h; have := congrArg Complex.im h; norm_num at this)).1

/-- C03, the public functions: `lens_eq` is the lens map of the configuration selected by `nlenses` and
`lens_eq_det_jac` is the Jacobian determinant of that map for two and three lenses. -/
theorem C03_lens_eq (p : MidParams) (z : ℂ) :
    lensEq 1 p z = .ok (lensMap single z) ∧ lensEq 2 p z = .ok (lensMap (midBinary p) z) ∧
    lensEq 3 p z = .ok (lensMap (midTriple p) z) ∧
    ((∀ l ∈ midBinary p, z ≠ l.2) → detJac 2 p z = .ok (jacDet (lensMap (midBinary p)) z)) ∧
    ((∀ l ∈ midTriple p, z ≠ l.2) → detJac 3 p z = .ok (jacDet (lensMap (midTriple p)) z)) := by
  refine ⟨by simp [lensEq, lensEq1_eq], by simp [lensEq, lensEq2_eq], by simp [lensEq, lensEq3_eq], fun h => ?_, fun h => ?_⟩
  · rw [(jacDet_lensMap _ _ h).2]; simp [detJac, detJac2_eq]
  · rw [(jacDet_lensMap _ _ h).2]; simp [detJac, detJac3_eq]

example : detJac 2 { a := 1 / 2, e1 := 1 / 4 } (1 + I)
    = .ok (jacDet (lensMap (midBinary { a := 1 / 2, e1 := 1 / 4 })) (1 + I)) :=
  (C03_lens_eq { a := 1 / 2, e1 := 1 / 4 } (1 + I)).2.2.2.1 (by
    intro l hl h
    simp only [midBinary, List.mem_cons, List.not_mem_nil, or_false] at hl
    rcases hl with rfl | rfl <;> · have := congrArg Complex.im h; norm_num at this)

/-! ## C04, C05: the image polynomials miss no image -/

/-- C04: every image of `w` under the binary lens equation is a root of the polynomial handed to the root
finder; the polynomial has six coefficients and leading coefficient `conj(w)² - a²`. -/
theorem C04_binary_complete (p : MidParams) (w z : ℂ) (h1 : z ≠ p.a) (h2 : z ≠ -p.a)
    (h : lensEq2 p z = w) :
    evalPoly (polyCoeffsBinary w p.a p.e1) z = 0 := by
  rw [evalPoly_binary]
  have A : z - p.a ≠ 0 := sub_ne_zero.mpr h1
  have B : z + p.a ≠ 0 := fun hc => h2 (by linear_combination hc)
  have C : conj z - p.a ≠ 0 := fun hc => A (by
    have := congrArg conj hc; simpa using this)
  have D : conj z + p.a ≠ 0 := fun hc => B (by
    have := congrArg conj hc; simpa using this)
  have hw : conj w = conj z - p.e1 / (z - p.a) - (1 - p.e1) / (z + p.a) := by
    rw [← h]; simp [lensEq2]
  have hN : conj w * ((z - p.a) * (z + p.a)) + p.e1 * (z + p.a) + (1 - p.e1) * (z - p.a)
      = conj z * ((z - p.a) * (z + p.a)) := by
    rw [hw]; field_simp; ring
  rw [hN]
  have hE : (z - w) * ((conj z - p.a) * (conj z + p.a)) = p.e1 * (conj z + p.a)
      + (1 - p.e1) * (conj z - p.a) := by
    rw [← h]; unfold lensEq2; field_simp; ring
  linear_combination ((z - p.a) * (z + p.a)) ^ 2 * hE

theorem C04_binary_leading (w : ℂ) (a e1 : ℝ) :
    (polyCoeffsBinary w a e1).length = 6 ∧
    (polyCoeffsBinary w a e1).headD 0 = conj w ^ 2 - (a : ℂ) ^ 2 := by
  refine ⟨rfl, ?_⟩
  simp only [polyCoeffsBinary, List.headD_cons]; ring

/-- C04, exactness of the elimination: conversely, a root `z` of the polynomial that is not at a lens solves
the equation obtained by eliminating the conjugate: with
`y = conj w + e1/(z-a) + (1-e1)/(z+a)` (which would be `conj z` for an image) and `y ≠ ±a`,
`z - e1/(y-a) - (1-e1)/(y+a) = w`. -/
theorem C04_binary_exact (w : ℂ) (a e1 : ℝ) (z : ℂ) (h1 : z ≠ a) (h2 : z ≠ -a)
    (y : ℂ) (hy : y = conj w + e1 / (z - a) + (1 - e1) / (z + a)) (hy1 : y ≠ a) (hy2 : y ≠ -a) :
    evalPoly (polyCoeffsBinary w a e1) z = 0 ↔ z - e1 / (y - a) - (1 - e1) / (y + a) = w := by
  rw [evalPoly_binary]
  have A : z - a ≠ 0 := sub_ne_zero.mpr h1
  have B : z + a ≠ 0 := fun hc => h2 (by linear_combination hc)
  have C : y - a ≠ 0 := sub_ne_zero.mpr hy1
  have D : y + a ≠ 0 := fun hc => hy2 (by linear_combination hc)
  have hN : conj w * ((z - a) * (z + a)) + e1 * (z + a) + (1 - e1) * (z - a)
      = y * ((z - a) * (z + a)) := by
    rw [hy]; field_simp
  rw [hN]
  have key : (((y * ((z - a) * (z + a))) ^ 2 - (a : ℂ) ^ 2 * ((z - a) * (z + a)) ^ 2) * (z - w)
      - ((z - a) * (z + a)) * (y * ((z - a) * (z + a)))
      - ((z - a) * (z + a)) ^ 2 * (a * (2 * e1 - 1))) =
      ((z - a) * (z + a)) ^ 2 * ((y - a) * (y + a)) *
        (z - e1 / (y - a) - (1 - e1) / (y + a) - w) := by
    field_simp; ring
  rw [key]
  have hne : ((z - a) * (z + a)) ^ 2 * ((y - a) * (y + a)) ≠ 0 := by
    refine mul_ne_zero (pow_ne_zero _ (mul_ne_zero A B)) (mul_ne_zero C D)
  constructor
  · intro h; exact sub_eq_zero.mp ((mul_eq_zero.mp h).resolve_left hne)
  · intro h; rw [h]; ring

/-- C04: no root sits on a lens, unless the source does or a mass vanishes. -/
theorem C04_root_not_on_lens (w : ℂ) (a e1 : ℝ) (ha : a ≠ 0) (he1 : e1 ≠ 0) (he2 : e1 ≠ 1)
    (hw1 : w ≠ a) (hw2 : w ≠ -a) :
    evalPoly (polyCoeffsBinary w a e1) a ≠ 0 ∧ evalPoly (polyCoeffsBinary w a e1) (-a) ≠ 0 := by
  have hac : (a : ℂ) ≠ 0 := by exact_mod_cast ha
  have hec : (e1 : ℂ) ≠ 0 := by exact_mod_cast he1
  have hec2 : (1 - e1 : ℂ) ≠ 0 := by
    intro hc; apply he2; have : (1 : ℂ) = e1 := by linear_combination hc
    exact_mod_cast this.symm
  constructor
  · rw [evalPoly_binary]
    have : ((conj w * ((a - a) * (a + a)) + e1 * (a + a) + (1 - e1) * (a - a)) ^ 2
        - (a : ℂ) ^ 2 * ((a - a) * (a + a)) ^ 2) * (a - w)
        - ((a - a) * (a + a)) * (conj w * ((a - a) * (a + a)) + e1 * (a + a) + (1 - e1) * (a - a))
        - ((a - a) * (a + a)) ^ 2 * (a * (2 * e1 - 1)) = 4 * (e1 : ℂ) ^ 2 * (a : ℂ) ^ 2 * (a - w) := by
      ring
    rw [this]
    exact mul_ne_zero (mul_ne_zero (mul_ne_zero (by norm_num) (pow_ne_zero _ hec)) (pow_ne_zero _ hac))
      (sub_ne_zero.mpr (Ne.symm hw1))
  · rw [evalPoly_binary]
    have : ((conj w * ((-a - a) * (-a + a)) + e1 * (-a + a) + (1 - e1) * (-a - a)) ^ 2
        - (a : ℂ) ^ 2 * ((-a - a) * (-a + a)) ^ 2) * (-a - w)
        - ((-a - a) * (-a + a)) * (conj w * ((-a - a) * (-a + a)) + e1 * (-a + a)
          + (1 - e1) * (-a - a))
        - ((-a - a) * (-a + a)) ^ 2 * (a * (2 * e1 - 1))
        = 4 * (1 - e1 : ℂ) ^ 2 * (a : ℂ) ^ 2 * (-a - w) := by
      ring
    rw [this]
    exact mul_ne_zero (mul_ne_zero (mul_ne_zero (by norm_num) (pow_ne_zero _ hec2))
      (pow_ne_zero _ hac)) (sub_ne_zero.mpr (Ne.symm hw2))

/-- C05: every image of `w` under the triple lens equation is, after subtracting the shift, a root of the
polynomial handed to the root finder. -/
theorem C05_triple_complete (p : MidParams) (w z : ℂ) (h1 : z ≠ p.a) (h2 : z ≠ -p.a)
    (h3 : z ≠ p.r3 * exp (I * p.psi)) (h : lensEq3 p z = w) :
    evalPoly (polyCoeffsTripleCM w p.a (r3Complex p) p.e1 p.e2)
      (z - shiftCM p.a (r3Complex p) p.e1 p.e2) = 0 := by
  have key := evalPoly_tripleCM w p.a (r3Complex p) p.e1 p.e2
    (z - shiftCM p.a (r3Complex p) p.e1 p.e2)
  simp only at key
  rw [key]
  generalize shiftCM p.a (r3Complex p) p.e1 p.e2 = S
  have h3' : z ≠ r3Complex p := h3
  generalize hr : r3Complex p = r at *
  have A : z - p.a ≠ 0 := sub_ne_zero.mpr h1
  have B : z + p.a ≠ 0 := fun hc => h2 (by linear_combination hc)
  have R : z - r ≠ 0 := sub_ne_zero.mpr h3'
  have A' : conj z - p.a ≠ 0 := fun hc => A (by have := congrArg conj hc; simpa using this)
  have B' : conj z + p.a ≠ 0 := fun hc => B (by have := congrArg conj hc; simpa using this)
  have R' : conj z - conj r ≠ 0 := fun hc => R (by have := congrArg conj hc; simpa using this)
  have hw : conj w = conj z - p.e1 / (z - p.a) - p.e2 / (z + p.a) - (1 - p.e1 - p.e2) / (z - r) := by
    rw [← h]; simp [lensEq3, hr]
  have eB : z - S - (-p.a - S) = z + p.a := by ring
  have eA : z - S - (p.a - S) = z - p.a := by ring
  have eR : z - S - (r - S) = z - r := by ring
  have cB : conj (w - S - (-p.a - S)) = conj w + p.a := by simp
  have cA : conj (w - S - (p.a - S)) = conj w - p.a := by simp
  have cR : conj (w - S - (r - S)) = conj w - conj r := by simp
  have eW : z - S - (w - S) = z - w := by ring
  rw [eA, eB, eR, cA, cB, cR, eW]
  have hQ : (p.e2 : ℂ) * (z - p.a) * (z - r) + p.e1 * (z + p.a) * (z - r)
      + (1 - p.e1 - p.e2) * (z + p.a) * (z - p.a)
      = (conj z - conj w) * ((z + p.a) * (z - p.a) * (z - r)) := by
    rw [hw]; field_simp; ring
  rw [hQ]
  have hE : (z - w) * ((conj z - p.a) * (conj z + p.a) * (conj z - conj r))
      = p.e1 * ((conj z + p.a) * (conj z - conj r)) + p.e2 * ((conj z - p.a) * (conj z - conj r))
        + (1 - p.e1 - p.e2) * ((conj z - p.a) * (conj z + p.a)) := by
    rw [← h]; unfold lensEq3; rw [hr]; field_simp; ring
  linear_combination ((z + p.a) * (z - p.a) * (z - r)) ^ 3 * hE

/-! ## C07: the validity mask -/

/-- C07: whatever the root finder returns, a point flagged valid maps to within the tolerance of the source,
a point that maps exactly to the source is flagged valid, and there is one entry per root. -/
theorem C07_mask_binary (roots) (init) (p : MidParams) (w : ℂ) :
    ∃ zs, imagesPointSource roots 2 init p w = .ok zs ∧
      zs.map Prod.fst = roots init (polyCoeffsBinary w p.a p.e1) ∧
      (∀ z, (z, true) ∈ zs → ‖lensEq2 p z - w‖ < 1e-6) ∧
      (∀ z b, (z, b) ∈ zs → lensEq2 p z = w → b = true) := by
  refine ⟨images2 roots init p w, by simp [imagesPointSource], ?_, ?_, ?_⟩
  · simp [images2, withMask, Function.comp_def]
  · intro z hz
    simp only [images2, withMask, List.mem_map, Prod.mk.injEq, decide_eq_true_eq] at hz
    obtain ⟨z', _, rfl, h⟩ := hz
    norm_num at h ⊢; exact h
  · intro z b hz h
    simp only [images2, withMask, List.mem_map, Prod.mk.injEq] at hz
    obtain ⟨z', _, rfl, h'⟩ := hz
    rw [← h', h]; simp

/-- C07, three lenses (tolerance 1e-3; an initial guess is ignored). -/
theorem C07_mask_triple (roots) (init) (p : MidParams) (w : ℂ) :
    ∃ zs, imagesPointSource roots 3 init p w = .ok zs ∧
      zs.map Prod.fst = (roots none (polyCoeffsTripleCM w p.a (r3Complex p) p.e1 p.e2)).map
        (fun z => z + (p.e1 * p.a + p.e2 * (-p.a) + (1 - p.e1 - p.e2) * r3Complex p)) ∧
      (∀ z, (z, true) ∈ zs → ‖lensEq3 p z - w‖ < 1e-3) ∧
      (∀ z b, (z, b) ∈ zs → lensEq3 p z = w → b = true) := by
  refine ⟨images3 roots p w, by simp [imagesPointSource], ?_, ?_, ?_⟩
  · simp [images3, withMask, Function.comp_def, shiftCM_eq]
  · intro z hz
    simp only [images3, withMask, List.mem_map, Prod.mk.injEq, decide_eq_true_eq] at hz
    obtain ⟨z', _, rfl, h⟩ := hz
    norm_num at h ⊢; exact h
  · intro z b hz h
    simp only [images3, withMask, List.mem_map, Prod.mk.injEq] at hz
    obtain ⟨z', _, rfl, h'⟩ := hz
    rw [← h', h]; simp

/-- C07: an unsupported number of lenses raises. -/
theorem C07_error (roots) (init) (p : MidParams) (u : UserParams) (w z : ℂ) (n : ℕ)
    (hn : n = 0 ∨ 3 < n) :
    (∃ e, imagesPointSource roots n init p w = .error e) ∧ (∃ e, magPointSource roots n u w = .error e)
      ∧ (∃ e, lensEq n p z = .error e) ∧ (∃ e, detJac n p z = .error e) := by
  have h1 : n ≠ 1 := by omega
  have h2 : n ≠ 2 := by omega
  have h3 : n ≠ 3 := by omega
  simp [imagesPointSource, magPointSource, lensEq, detJac, h1, h2, h3]

/-! ## C08: frames and mass conventions (point-source part) -/

/-- C08: shifting the mid-point frame of the code by `x_cm` gives the binary of separation `s`, mass ratio
`q`, total mass one and centre of mass at the origin. -/
theorem C08_binary_frame (u : UserParams) (hq : 1 + u.q ≠ 0) :
    (midBinary (midParams2 u)).map (fun l => (l.1, l.2 + (xCM u : ℂ))) = binary u.s u.q ∧
    totalMass (binary u.s u.q) = 1 ∧ massMoment (binary u.s u.q) = 0 := by
  have hc : (1 + u.q : ℂ) ≠ 0 := by exact_mod_cast hq
  refine ⟨?_, ?_, ?_⟩
  · simp only [midBinary, midParams2, xCM, binary, List.map_cons, List.map_nil, List.cons.injEq,
      Prod.mk.injEq, and_true]
    refine ⟨⟨trivial, ?_⟩, ⟨?_, ?_⟩⟩
    · push_cast; field_simp; ring
    · field_simp; ring
    · push_cast; field_simp; ring
  · simp [totalMass, binary]; field_simp; ring
  · simp [massMoment, binary]; field_simp; ring

/-- C08, triple: the frame is the one documented (centre of mass of the first two lenses at the origin, third
lens displaced by `r3 e^{iψ}` from their mid-point), masses in ratio `q : 1 : q3` with sum one. -/
theorem C08_triple_frame (u : UserParams) (hq : 1 + u.q ≠ 0) (hq3 : 1 + u.q + u.q3 ≠ 0) :
    (midTriple (midParams3 u)).map (fun l => (l.1, l.2 + (xCM u : ℂ))) = triple u.s u.q u.q3 u.r3 u.psi ∧
    totalMass (triple u.s u.q u.q3 u.r3 u.psi) = 1 ∧
    massMoment ((triple u.s u.q u.q3 u.r3 u.psi).take 2) = 0 := by
  have hc : (1 + u.q : ℂ) ≠ 0 := by exact_mod_cast hq
  have hc3 : (1 + u.q + u.q3 : ℂ) ≠ 0 := by exact_mod_cast hq3
  refine ⟨?_, ?_, ?_⟩
  · simp only [midTriple, midParams3, xCM, triple, r3Complex, List.map_cons, List.map_nil,
      List.cons.injEq, Prod.mk.injEq, and_true, true_and]
    refine ⟨?_, ?_, ?_, ?_⟩
    · push_cast; field_simp; ring
    · push_cast; field_simp; ring
    · field_simp; ring
    · push_cast; field_simp; ring
  · simp [totalMass, triple]; field_simp; ring
  · simp [massMoment, triple]; field_simp; ring

/-! ## C06: magnification over exactly the true images -/

theorem images_mem_roots_binary (p : MidParams) (w : ℂ) (rs : List ℂ)
    (hr : IsRootList (polyCoeffsBinary w p.a p.e1) rs) (hw : conj w ^ 2 ≠ (p.a : ℂ) ^ 2) (z : ℂ)
    (hz : IsImage (midBinary p) w z) : z ∈ rs := by
  refine IsRootList.mem_of_eval_zero hr ?_ ?_
  · rw [(C04_binary_leading w p.a p.e1).2]; exact sub_ne_zero.mpr hw
  · refine C04_binary_complete p w z (hz.1 (p.e1, (p.a : ℂ)) (by simp [midBinary]))
      (hz.1 (1 - p.e1, -(p.a : ℂ)) (by simp [midBinary])) ?_
    rw [lensEq2_eq]; exact hz.2

/-- C06: if the root finder returns all roots (with multiplicity) of the image polynomial, the roots are
simple, none of them sits on a lens, and no root satisfies the lens equation to within 1e-6 without satisfying
it exactly, then `mag_point_source(w, nlenses=2, s, q)` is the sum of `1/|det J|` over the set of *all* images of
`w` under the binary of separation `s` and mass ratio `q` with centre of mass at the origin. -/
theorem C06_binary_mag (roots : Option (List ℂ) → List ℂ → List ℂ) (u : UserParams) (w : ℂ)
    (hq : 1 + u.q ≠ 0)
    (hroots : IsRootList (polyCoeffsBinary (w - xCM u) (midParams2 u).a (midParams2 u).e1)
      (roots none (polyCoeffsBinary (w - xCM u) (midParams2 u).a (midParams2 u).e1)))
    (hdeg : conj (w - xCM u) ^ 2 ≠ ((midParams2 u).a : ℂ) ^ 2)
    (hsimple : (roots none (polyCoeffsBinary (w - xCM u) (midParams2 u).a (midParams2 u).e1)).Nodup)
    (hsep : ∀ r ∈ roots none (polyCoeffsBinary (w - xCM u) (midParams2 u).a (midParams2 u).e1),
      ‖lensEq2 (midParams2 u) r - (w - xCM u)‖ < 1e-6 →
        lensEq2 (midParams2 u) r = w - xCM u ∧ r ≠ (midParams2 u).a ∧ r ≠ -(midParams2 u).a) :
    magPointSource roots 2 u w = .ok (pointMag (binary u.s u.q) w) := by
  set p := midParams2 u with hp
  set w' := w - xCM u with hw'
  set rs := roots none (polyCoeffsBinary w' p.a p.e1) with hrs
  have hframe := (C08_binary_frame u hq).1
  have h1 : pointMag (binary u.s u.q) w = pointMag (midBinary p) w' := by
    rw [← hframe, show w = w' + xCM u by rw [hw']; ring]
    exact pointMag_translate _ _ _
  rw [h1]
  have h2 : magPointSource roots 2 u w = .ok (sumMag (detJac2 p) (withMask (lensEq2 p) (1 / 10 ^ 6) w' rs)) := by
    simp [magPointSource, images2, hp, hw', hrs]
  rw [h2, sumMag_withMask]
  congr 1
  rw [pointMag_of_list (midBinary p) w' (rs.filter fun z => decide (‖lensEq2 p z - w'‖ < 1 / 10 ^ 6))]
  · congr 1
    apply List.map_congr_left
    intro z _
    rw [detJac2_eq]; rfl
  · exact hsimple.filter _
  · intro z
    rw [List.mem_filter, decide_eq_true_eq]
    constructor
    · rintro ⟨hz, hlt⟩
      obtain ⟨e1, e2, e3⟩ := hsep z hz (by norm_num at hlt ⊢; exact hlt)
      refine ⟨by simp [midBinary, e2, e3], ?_⟩
      rw [← lensEq2_eq]; exact e1
    · intro hz
      refine ⟨images_mem_roots_binary p w' rs hroots hdeg z hz, ?_⟩
      rw [lensEq2_eq, hz.2]; simp

/-- C06, triple lens version. -/
theorem C06_triple_mag (roots : Option (List ℂ) → List ℂ → List ℂ) (u : UserParams) (w : ℂ)
    (hq : 1 + u.q ≠ 0) (hq3 : 1 + u.q + u.q3 ≠ 0)
    (c : List ℂ) (hc : c = polyCoeffsTripleCM (w - xCM u) (midParams3 u).a (r3Complex (midParams3 u))
      (midParams3 u).e1 (midParams3 u).e2)
    (S : ℂ) (hS : S = shiftCM (midParams3 u).a (r3Complex (midParams3 u)) (midParams3 u).e1
      (midParams3 u).e2)
    (hroots : IsRootList c (roots none c)) (hdeg : c.headD 0 ≠ 0) (hsimple : (roots none c).Nodup)
    (hsep : ∀ r ∈ roots none c,
      ‖lensEq3 (midParams3 u) (r + S) - (w - xCM u)‖ < 1e-3 →
        lensEq3 (midParams3 u) (r + S) = w - xCM u ∧ r + S ≠ (midParams3 u).a ∧
          r + S ≠ -(midParams3 u).a ∧ r + S ≠ r3Complex (midParams3 u)) :
    magPointSource roots 3 u w = .ok (pointMag (triple u.s u.q u.q3 u.r3 u.psi) w) := by
  set p := midParams3 u with hp
  set w' := w - xCM u with hw'
  set rs := roots none c with hrs
  have hframe := (C08_triple_frame u hq hq3).1
  have h1 : pointMag (triple u.s u.q u.q3 u.r3 u.psi) w = pointMag (midTriple p) w' := by
    rw [← hframe, show w = w' + xCM u by rw [hw']; ring]
    exact pointMag_translate _ _ _
  rw [h1]
  have h2 : magPointSource roots 3 u w
      = .ok (sumMag (detJac3 p) (withMask (lensEq3 p) (1 / 10 ^ 3) w' (rs.map (· + S)))) := by
    simp [magPointSource, images3, hp, hw', hrs, hc, hS]
  rw [h2, sumMag_withMask]
  congr 1
  rw [pointMag_of_list (midTriple p) w'
    ((rs.map (· + S)).filter fun z => decide (‖lensEq3 p z - w'‖ < 1 / 10 ^ 3))]
  · congr 1
    apply List.map_congr_left
    intro z _
    rw [detJac3_eq]; rfl
  · exact (hsimple.map (add_left_injective S)).filter _
  · intro z
    rw [List.mem_filter, decide_eq_true_eq, List.mem_map]
    constructor
    · rintro ⟨⟨r, hr, rfl⟩, hlt⟩
      obtain ⟨e1, e2, e3, e4⟩ := hsep r hr (by norm_num at hlt ⊢; exact hlt)
      refine ⟨by simp [midTriple, e2, e3, e4], ?_⟩
      rw [← lensEq3_eq]; exact e1
    · intro hz
      refine ⟨⟨z - S, ?_, by ring⟩, ?_⟩
      · refine IsRootList.mem_of_eval_zero hroots hdeg ?_
        rw [hc, hS]
        refine C05_triple_complete p w' z (hz.1 (p.e1, (p.a : ℂ)) (by simp [midTriple]))
          (hz.1 (p.e2, -(p.a : ℂ)) (by simp [midTriple]))
          (hz.1 (1 - p.e1 - p.e2, r3Complex p) (by simp [midTriple])) ?_
        rw [lensEq3_eq]; exact hz.2
      · rw [lensEq3_eq, hz.2]; simp

end Microjax.Props
