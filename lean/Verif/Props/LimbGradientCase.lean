import Verif.Props.LimbGradient

/-!
# Cases for C123

An equal-mass binary of separation one, a source of radius 3/2 at `17/30 - 6i/5`, two rings of five rays.
-/

noncomputable section

namespace Microjax.Props

open Complex ComplexConjugate Spec PointSource Boundary ExtendedSource Differentiated Filter
open scoped Topology

theorem GenericRing.limb {rho delta_c : ℝ} {d : ℕ → ℝ} {M : ℕ} (h : GenericRing rho d M) (hdc : 1 + zeroTerm < delta_c) :
    GenericLimb rho delta_c d M := by
  obtain ⟨m, hm, n, hn, h1, h2, h3, h4⟩ := h
  refine ⟨m, hm, n, hn, h1, h2, h3, fun k hk => ⟨(h4 k hk).1, fun est he => ⟨he ▸ (h4 k hk).2.1, he ▸ (h4 k hk).2.2, ?_, ?_⟩⟩⟩
  · have := min_le_right (max (2 - est) 0) 1
    exact (by linarith : min (max (2 - est) 0) 1 + zeroTerm < delta_c).ne
  · have := min_le_right (max (est - 1) 0) 1
    exact (by linarith : min (max (est - 1) 0) 1 + zeroTerm < delta_c).ne

theorem four_cases_mid (d : ℕ → ℝ) (rho : ℝ) (m n : ℕ) (hm : m < 4) (hn : n < 4) (h1 : d 1 = rho)
    (hmin : ∀ i < 4, i ≠ m → d m + 1 / 1000 < d i) (hmax : ∀ i < 4, i ≠ n → d i + 1 / 1000 < d n) (hmn : m ≠ n)
    (hsep : ∀ i < 4, ∀ j < 4, i ≠ j → 1 / 1000 < |d i - d j|) (hbig : d n - d m < 10) (hsize : ∀ i < 4, |d 1 - d i| ≤ 3)
    (hpair : 1 / 100 < |(d 1 - d 0) * (d 1 - d 2) + (d 1 - d 0) * (d 1 - d 3) + (d 1 - d 2) * (d 1 - d 3)|)
    (hprod : 1 / 10000 < |(d 1 - d 0) * (d 1 - d 2) * (d 1 - d 3)|) : GenericRing rho d 4 := by
  have hz : zeroTerm = 1 / 10 ^ 10 := rfl
  have hs : 1 / 1000 < d n - d m := by have := hmin n hn hmn.symm; linarith
  refine ⟨m, hm, n, hn, fun i hi h => by linarith [hmin i hi h], fun i hi h => by linarith [hmax i hi h],
    by rw [hz]; linarith, fun k hk => ?_⟩
  obtain rfl : k = 0 := by omega
  have hne : ∀ i < 4, ∀ j < 4, i ≠ j → d i - d j + zeroTerm * (d n - d m) ≠ 0 := by
    intro i hi j hj hij h
    have h1 := hsep i hi j hj hij
    rw [show d i - d j = -(zeroTerm * (d n - d m)) by linarith, abs_neg, hz, abs_of_pos (by nlinarith)] at h1
    nlinarith
  have n0 := hne 1 (by norm_num) 0 (by norm_num) (by norm_num)
  have n2 := hne 1 (by norm_num) 2 (by norm_num) (by norm_num)
  have n3 := hne 1 (by norm_num) 3 (by norm_num) (by norm_num)
  have hest : cubicCore (d m) (d n) zeroTerm rho (d 0) (d 1) (d 2) (d 3) 0 1 2 3 =
      ((d 1 - d 0) * (d 1 - d 2) * (d 1 - d 3)) / ((d 1 - d 0 + zeroTerm * (d n - d m)) * (d 1 - d 2 + zeroTerm * (d n - d m))
        * (d 1 - d 3 + zeroTerm * (d n - d m))) := by
    have hsc : max (d n - d m) zeroTerm = d n - d m := max_eq_left (by rw [hz]; linarith)
    have hs0 : d n - d m ≠ 0 := by linarith
    simp only [cubicCore, ← h1, hsc]
    have e : ∀ j, (d 1 - d m) / (d n - d m) - (d j - d m) / (d n - d m) + zeroTerm =
        (d 1 - d j + zeroTerm * (d n - d m)) / (d n - d m) := fun j => by field_simp; ring
    have e' : ∀ j, (d 1 - d m) / (d n - d m) - (d j - d m) / (d n - d m) = (d 1 - d j) / (d n - d m) := fun j => by field_simp; ring
    rw [e 0, e 2, e 3, e' 0, e' 1, e' 2, e' 3]
    simp only [sub_self, zero_div, zero_mul, mul_zero, add_zero, zero_add, one_mul]
    field_simp
  obtain ⟨g0, hg0⟩ : ∃ x, x = d 1 - d 0 := ⟨_, rfl⟩
  obtain ⟨g2, hg2⟩ : ∃ x, x = d 1 - d 2 := ⟨_, rfl⟩
  obtain ⟨g3, hg3⟩ : ∃ x, x = d 1 - d 3 := ⟨_, rfl⟩
  obtain ⟨h, hh⟩ : ∃ x, x = zeroTerm * (d n - d m) := ⟨_, rfl⟩
  have b0 := hsize 0 (by norm_num)
  have b2 := hsize 2 (by norm_num)
  have b3 := hsize 3 (by norm_num)
  rw [← hg0, ← hg2, ← hg3, ← hh] at hest
  rw [← hg0, ← hh] at n0
  rw [← hg2, ← hh] at n2
  rw [← hg3, ← hh] at n3
  rw [← hg0, ← hg2, ← hg3] at hpair hprod
  rw [← hg0] at b0
  rw [← hg2] at b2
  rw [← hg3] at b3
  have hpos : 0 < h := by rw [hh, hz]; nlinarith
  have hsmall : h < 1 / 10 ^ 9 := by rw [hh, hz]; nlinarith
  have hden : (g0 + h) * (g2 + h) * (g3 + h) ≠ 0 := mul_ne_zero (mul_ne_zero n0 n2) n3
  have hrest : |h * (g0 + g2 + g3) + h ^ 2| < 1 / 1000 := by
    rw [abs_le] at b0 b2 b3
    rw [abs_lt]
    constructor <;> nlinarith
  have hP : |g0 * g2 + g0 * g3 + g2 * g3| ≤ 27 := by
    have e1 : |g0 * g2| ≤ 3 * 3 := by rw [abs_mul]; exact mul_le_mul b0 b2 (abs_nonneg _) (by norm_num)
    have e2 : |g0 * g3| ≤ 3 * 3 := by rw [abs_mul]; exact mul_le_mul b0 b3 (abs_nonneg _) (by norm_num)
    have e3 : |g2 * g3| ≤ 3 * 3 := by rw [abs_mul]; exact mul_le_mul b2 b3 (abs_nonneg _) (by norm_num)
    have := abs_add_le (g0 * g2 + g0 * g3) (g2 * g3)
    have := abs_add_le (g0 * g2) (g0 * g3)
    linarith
  refine ⟨⟨hne 0 (by norm_num) 1 (by norm_num) (by norm_num), hne 0 (by norm_num) 2 (by norm_num) (by norm_num),
    hne 0 (by norm_num) 3 (by norm_num) (by norm_num), hne 1 (by norm_num) 0 (by norm_num) (by norm_num),
    hne 1 (by norm_num) 2 (by norm_num) (by norm_num), hne 1 (by norm_num) 3 (by norm_num) (by norm_num),
    hne 2 (by norm_num) 0 (by norm_num) (by norm_num), hne 2 (by norm_num) 1 (by norm_num) (by norm_num),
    hne 2 (by norm_num) 3 (by norm_num) (by norm_num), hne 3 (by norm_num) 0 (by norm_num) (by norm_num),
    hne 3 (by norm_num) 1 (by norm_num) (by norm_num), hne 3 (by norm_num) 2 (by norm_num) (by norm_num)⟩, ?_, ?_⟩
  · simp only [Nat.zero_add]
    rw [hest]
    intro hc
    rw [div_eq_one_iff_eq hden] at hc
    have : h * ((g0 * g2 + g0 * g3 + g2 * g3) + (h * (g0 + g2 + g3) + h ^ 2)) = 0 := by linear_combination -hc
    rcases mul_eq_zero.mp this with h' | h'
    · exact hpos.ne' h'
    · rw [eq_neg_of_add_eq_zero_left h', abs_neg] at hpair
      linarith
  · simp only [Nat.zero_add]
    rw [hest]
    intro hc
    rw [div_eq_iff hden] at hc
    have : g0 * g2 * g3 = -(2 * h * ((g0 * g2 + g0 * g3 + g2 * g3) + (h * (g0 + g2 + g3) + h ^ 2))) := by linear_combination -hc
    rw [this, abs_neg, abs_mul, abs_of_pos (by positivity : 0 < 2 * h)] at hprod
    have := abs_add_le (g0 * g2 + g0 * g3 + g2 * g3) (h * (g0 + g2 + g3) + h ^ 2)
    have h28 : |(g0 * g2 + g0 * g3 + g2 * g3) + (h * (g0 + g2 + g3) + h ^ 2)| ≤ 28 := by linarith
    have : 2 * h * |(g0 * g2 + g0 * g3 + g2 * g3) + (h * (g0 + g2 + g3) + h ^ 2)| ≤ 2 * h * 28 :=
      mul_le_mul_of_nonneg_left h28 (by positivity)
    linarith

/-- The region: radii from 1 to 2, angles from minus one to three times `tanAngle`. -/
def limbRegion : (ℝ × ℝ) × (ℝ × ℝ) := ((1, 2), (-tanAngle, 3 * tanAngle))

theorem limb_point (i j : ℕ) : (node limbRegion.1.1 limbRegion.1.2 2 i : ℂ) * exp (I * node limbRegion.2.1 limbRegion.2.2 5 j) =
    (1 + i) * (((3 / 5 : ℂ) - 4 / 5 * I) * ((3 / 5 : ℂ) + 4 / 5 * I) ^ j) := by
  have h1 : node limbRegion.1.1 limbRegion.1.2 2 i = 1 + i := by
    simp only [node, spacing, limbRegion]
    norm_num
  have h2 : node limbRegion.2.1 limbRegion.2.2 5 j = j * tanAngle - tanAngle := by
    simp only [node, spacing, limbRegion]
    push_cast
    ring
  have h3 : exp (I * ((-tanAngle : ℝ) : ℂ)) = (3 / 5 : ℂ) - 4 / 5 * I := by
    have e : exp (I * ((-tanAngle : ℝ) : ℂ)) * exp (I * (((1 : ℕ) * tanAngle : ℝ) : ℂ)) = 1 := by
      rw [← Complex.exp_add]
      push_cast
      rw [show I * -(tanAngle : ℂ) + I * (1 * tanAngle) = 0 by ring, Complex.exp_zero]
    rw [exp_tanAngle 1, pow_one] at e
    have h0 : ((3 / 5 : ℂ) + 4 / 5 * I) ≠ 0 := fun h => by rw [h, mul_zero] at e; exact zero_ne_one e
    refine mul_right_cancel₀ h0 (e.trans ?_)
    linear_combination (16 / 25 : ℂ) * I_sq
  rw [h1, h2, ← exp_tanAngle, ← h3, ← Complex.exp_add]
  push_cast
  rw [show I * ((j : ℂ) * tanAngle - tanAngle) = I * -(tanAngle : ℂ) + I * (j * tanAngle) by ring]

/-- Distances of the rays from the source centre. -/
def limbDist (i j : ℕ) : ℝ :=
  ‖lensMap (binary 1 1) ((1 + i) * (((3 / 5 : ℂ) - 4 / 5 * I) * ((3 / 5 : ℂ) + 4 / 5 * I) ^ j)) - (17 / 30 - 6 / 5 * I)‖

theorem limb_distance (i j : ℕ) : nodeDistance (userLens 2 { s := 1, q := 1 }) (17 / 30 - 6 / 5 * I) limbRegion 2 5 i j =
    limbDist i j := by
  simp only [nodeDistance, limb_point, userLens, limbDist]
  rfl

theorem limb_value_00 : lensMap (binary 1 1) ((1 + (0 : ℕ)) * (((3 / 5 : ℂ) - 4 / 5 * I) * ((3 / 5 : ℂ) + 4 / 5 * I) ^ 0))
    - (17 / 30 - 6 / 5 * I) = ((-4919 / 14430) : ℝ) + ((2962 / 2405) : ℝ) * I := by
  have hz : (1 + ((0 : ℕ) : ℂ)) * (((3 / 5 : ℂ) - 4 / 5 * I) * ((3 / 5 : ℂ) + 4 / 5 * I) ^ 0) = ⟨(3 / 5), (-4 / 5)⟩ := by
    apply Complex.ext <;> simp [pow_succ] <;> norm_num
  rw [hz]
  apply Complex.ext <;> simp [lensMap, binary, Complex.div_re, Complex.div_im, Complex.normSq_apply] <;> norm_num

theorem limb_value_01 : lensMap (binary 1 1) ((1 + (0 : ℕ)) * (((3 / 5 : ℂ) - 4 / 5 * I) * ((3 / 5 : ℂ) + 4 / 5 * I) ^ 1))
    - (17 / 30 - 6 / 5 * I) = ((-9 / 10) : ℝ) + ((6 / 5) : ℝ) * I := by
  have hz : (1 + ((0 : ℕ) : ℂ)) * (((3 / 5 : ℂ) - 4 / 5 * I) * ((3 / 5 : ℂ) + 4 / 5 * I) ^ 1) = ⟨(1), (0)⟩ := by
    apply Complex.ext <;> simp [pow_succ] <;> norm_num
  rw [hz]
  apply Complex.ext <;> simp [lensMap, binary, Complex.div_re, Complex.div_im, Complex.normSq_apply] <;> norm_num

theorem limb_value_02 : lensMap (binary 1 1) ((1 + (0 : ℕ)) * (((3 / 5 : ℂ) - 4 / 5 * I) * ((3 / 5 : ℂ) + 4 / 5 * I) ^ 2))
    - (17 / 30 - 6 / 5 * I) = ((-4919 / 14430) : ℝ) + ((562 / 481) : ℝ) * I := by
  have hz : (1 + ((0 : ℕ) : ℂ)) * (((3 / 5 : ℂ) - 4 / 5 * I) * ((3 / 5 : ℂ) + 4 / 5 * I) ^ 2) = ⟨(3 / 5), (4 / 5)⟩ := by
    apply Complex.ext <;> simp [pow_succ] <;> norm_num
  rw [hz]
  apply Complex.ext <;> simp [lensMap, binary, Complex.div_re, Complex.div_im, Complex.normSq_apply] <;> norm_num

theorem limb_value_03 : lensMap (binary 1 1) ((1 + (0 : ℕ)) * (((3 / 5 : ℂ) - 4 / 5 * I) * ((3 / 5 : ℂ) + 4 / 5 * I) ^ 3))
    - (17 / 30 - 6 / 5 * I) = ((-58141 / 82450) : ℝ) + ((167138 / 123675) : ℝ) * I := by
  have hz : (1 + ((0 : ℕ) : ℂ)) * (((3 / 5 : ℂ) - 4 / 5 * I) * ((3 / 5 : ℂ) + 4 / 5 * I) ^ 3) = ⟨(-7 / 25), (24 / 25)⟩ := by
    apply Complex.ext <;> simp [pow_succ] <;> norm_num
  rw [hz]
  apply Complex.ext <;> simp [lensMap, binary, Complex.div_re, Complex.div_im, Complex.normSq_apply] <;> norm_num

theorem limb_value_04 : lensMap (binary 1 1) ((1 + (0 : ℕ)) * (((3 / 5 : ℂ) - 4 / 5 * I) * ((3 / 5 : ℂ) + 4 / 5 * I) ^ 4))
    - (17 / 30 - 6 / 5 * I) = ((-61769327 / 128700750) : ℝ) + ((19540594 / 21450125) : ℝ) * I := by
  have hz : (1 + ((0 : ℕ) : ℂ)) * (((3 / 5 : ℂ) - 4 / 5 * I) * ((3 / 5 : ℂ) + 4 / 5 * I) ^ 4) = ⟨(-117 / 125), (44 / 125)⟩ := by
    apply Complex.ext <;> simp [pow_succ] <;> norm_num
  rw [hz]
  apply Complex.ext <;> simp [lensMap, binary, Complex.div_re, Complex.div_im, Complex.normSq_apply] <;> norm_num

theorem limb_value_10 : lensMap (binary 1 1) ((1 + (1 : ℕ)) * (((3 / 5 : ℂ) - 4 / 5 * I) * ((3 / 5 : ℂ) + 4 / 5 * I) ^ 0))
    - (17 / 30 - 6 / 5 * I) = ((72331 / 199470) : ℝ) + ((302 / 33245) : ℝ) * I := by
  have hz : (1 + ((1 : ℕ) : ℂ)) * (((3 / 5 : ℂ) - 4 / 5 * I) * ((3 / 5 : ℂ) + 4 / 5 * I) ^ 0) = ⟨(6 / 5), (-8 / 5)⟩ := by
    apply Complex.ext <;> simp [pow_succ] <;> norm_num
  rw [hz]
  apply Complex.ext <;> simp [lensMap, binary, Complex.div_re, Complex.div_im, Complex.normSq_apply] <;> norm_num

theorem limb_value_11 : lensMap (binary 1 1) ((1 + (1 : ℕ)) * (((3 / 5 : ℂ) - 4 / 5 * I) * ((3 / 5 : ℂ) + 4 / 5 * I) ^ 1))
    - (17 / 30 - 6 / 5 * I) = ((9 / 10) : ℝ) + ((6 / 5) : ℝ) * I := by
  have hz : (1 + ((1 : ℕ) : ℂ)) * (((3 / 5 : ℂ) - 4 / 5 * I) * ((3 / 5 : ℂ) + 4 / 5 * I) ^ 1) = ⟨(2), (0)⟩ := by
    apply Complex.ext <;> simp [pow_succ] <;> norm_num
  rw [hz]
  apply Complex.ext <;> simp [lensMap, binary, Complex.div_re, Complex.div_im, Complex.normSq_apply] <;> norm_num

theorem limb_value_12 : lensMap (binary 1 1) ((1 + (1 : ℕ)) * (((3 / 5 : ℂ) - 4 / 5 * I) * ((3 / 5 : ℂ) + 4 / 5 * I) ^ 2))
    - (17 / 30 - 6 / 5 * I) = ((72331 / 199470) : ℝ) + ((79486 / 33245) : ℝ) * I := by
  have hz : (1 + ((1 : ℕ) : ℂ)) * (((3 / 5 : ℂ) - 4 / 5 * I) * ((3 / 5 : ℂ) + 4 / 5 * I) ^ 2) = ⟨(6 / 5), (8 / 5)⟩ := by
    apply Complex.ext <;> simp [pow_succ] <;> norm_num
  rw [hz]
  apply Complex.ext <;> simp [lensMap, binary, Complex.div_re, Complex.div_im, Complex.normSq_apply] <;> norm_num

theorem limb_value_13 : lensMap (binary 1 1) ((1 + (1 : ℕ)) * (((3 / 5 : ℂ) - 4 / 5 * I) * ((3 / 5 : ℂ) + 4 / 5 * I) ^ 3))
    - (17 / 30 - 6 / 5 * I) = ((-994283 / 986050) : ℝ) + ((3934714 / 1479075) : ℝ) * I := by
  have hz : (1 + ((1 : ℕ) : ℂ)) * (((3 / 5 : ℂ) - 4 / 5 * I) * ((3 / 5 : ℂ) + 4 / 5 * I) ^ 3) = ⟨(-14 / 25), (48 / 25)⟩ := by
    apply Complex.ext <;> simp [pow_succ] <;> norm_num
  rw [hz]
  apply Complex.ext <;> simp [lensMap, binary, Complex.div_re, Complex.div_im, Complex.normSq_apply] <;> norm_num

theorem limb_value_14 : lensMap (binary 1 1) ((1 + (1 : ℕ)) * (((3 / 5 : ℂ) - 4 / 5 * I) * ((3 / 5 : ℂ) + 4 / 5 * I) ^ 4))
    - (17 / 30 - 6 / 5 * I) = ((-5340448541 / 2729646750) : ℝ) + ((772707902 / 454941125) : ℝ) * I := by
  have hz : (1 + ((1 : ℕ) : ℂ)) * (((3 / 5 : ℂ) - 4 / 5 * I) * ((3 / 5 : ℂ) + 4 / 5 * I) ^ 4) = ⟨(-234 / 125), (88 / 125)⟩ := by
    apply Complex.ext <;> simp [pow_succ] <;> norm_num
  rw [hz]
  apply Complex.ext <;> simp [lensMap, binary, Complex.div_re, Complex.div_im, Complex.normSq_apply] <;> norm_num

theorem limb_ring_0 : (∀ j < 5, 1 / 3 < limbDist 0 j ∧ limbDist 0 j < 3 ∧ 1 - (limbDist 0 j / (3 / 2)) ^ 2 ≠ 1 / 1000) ∧
    GenericLimb (3 / 2) 2 (limbDist 0) 4 ∧ GenericLimb (3 / 2) 2 (fun j => limbDist 0 (j + 1)) 4 ∧
    limbDist 0 2 < 3 / 2 := by
  obtain ⟨l0, u0⟩ := norm_bracket _ _ _ (319 / 250) (1279 / 1000) limb_value_00 (by norm_num) (by norm_num) (by norm_num)
  obtain ⟨l1, u1⟩ := norm_bracket _ _ _ (1499 / 1000) (751 / 500) limb_value_01 (by norm_num) (by norm_num) (by norm_num)
  obtain ⟨l2, u2⟩ := norm_bracket _ _ _ (152 / 125) (1219 / 1000) limb_value_02 (by norm_num) (by norm_num) (by norm_num)
  obtain ⟨l3, u3⟩ := norm_bracket _ _ _ (1523 / 1000) (763 / 500) limb_value_03 (by norm_num) (by norm_num) (by norm_num)
  obtain ⟨l4, u4⟩ := norm_bracket _ _ _ (257 / 250) (1031 / 1000) limb_value_04 (by norm_num) (by norm_num) (by norm_num)
  have e1 : ‖lensMap (binary 1 1) ((1 + (0 : ℕ)) * (((3 / 5 : ℂ) - 4 / 5 * I) * ((3 / 5 : ℂ) + 4 / 5 * I) ^ 1))
      - (17 / 30 - 6 / 5 * I)‖ = 3 / 2 := by
    rw [limb_value_01, Complex.norm_add_mul_I, Real.sqrt_eq_iff_mul_self_eq (by norm_num) (by norm_num)]
    norm_num
  rw [← limbDist] at l0 u0 l1 u1 l2 u2 l3 u3 l4 u4 e1
  have hz : 1 + zeroTerm < 2 := by norm_num [zeroTerm]
  generalize limbDist 0 = d at *
  refine ⟨?_, GenericRing.limb (four_cases_mid d (3 / 2) 2 3 (by norm_num) (by norm_num) e1 ?_ ?_ (by norm_num) ?_ (by linarith)
      (fun i hi => ?_) ?_ ?_) hz,
    GenericRing.limb (four_cases (fun j => d (j + 1)) (3 / 2) 3 2 (by norm_num) (by norm_num) e1 ?_ ?_ (by norm_num) ?_
      (by simp only [Nat.reduceAdd]; linarith)) hz, by linarith⟩
  · intro j hj
    refine ⟨by interval_cases j <;> linarith, by interval_cases j <;> linarith, ?_⟩
    intro h
    interval_cases j <;> first | (rw [e1] at h; norm_num at h; done) | (exfalso; nlinarith)
  · intro j hj hne
    interval_cases j <;> first | exact absurd rfl hne | linarith
  · intro j hj hne
    interval_cases j <;> first | exact absurd rfl hne | linarith
  · intro a ha b hb hne
    interval_cases a <;> interval_cases b <;>
      first | exact absurd rfl hne | (rw [lt_abs]; left; (try simp only [Nat.reduceAdd]); linarith) | (rw [lt_abs]; right; (try simp only [Nat.reduceAdd]); linarith)
  · rw [abs_le]
    interval_cases i <;> constructor <;> linarith
  · rw [lt_abs]; left; nlinarith
  · rw [lt_abs]; right
    have a0 : 1 / 5 < d 1 - d 0 := by linarith
    have a2 : 1 / 5 < d 1 - d 2 := by linarith
    have a3 : 1 / 100 < -(d 1 - d 3) := by linarith
    have p := mul_lt_mul'' (mul_lt_mul'' a0 a2 (by norm_num) (by norm_num)) a3 (by norm_num) (by norm_num)
    linarith
  · intro j hj hne
    interval_cases j <;> first | exact absurd rfl hne | (simp only [Nat.reduceAdd]; linarith)
  · intro j hj hne
    interval_cases j <;> first | exact absurd rfl hne | (simp only [Nat.reduceAdd]; linarith)
  · intro a ha b hb hne
    interval_cases a <;> interval_cases b <;>
      first | exact absurd rfl hne | (rw [lt_abs]; left; (try simp only [Nat.reduceAdd]); linarith) | (rw [lt_abs]; right; (try simp only [Nat.reduceAdd]); linarith)

theorem limb_ring_1 : (∀ j < 5, 1 / 3 < limbDist 1 j ∧ limbDist 1 j < 3 ∧ 1 - (limbDist 1 j / (3 / 2)) ^ 2 ≠ 1 / 1000) ∧
    GenericLimb (3 / 2) 2 (limbDist 1) 4 ∧ GenericLimb (3 / 2) 2 (fun j => limbDist 1 (j + 1)) 4 ∧
    3 / 2 < limbDist 1 2 := by
  obtain ⟨l0, u0⟩ := norm_bracket _ _ _ (361 / 1000) (91 / 250) limb_value_10 (by norm_num) (by norm_num) (by norm_num)
  obtain ⟨l1, u1⟩ := norm_bracket _ _ _ (1499 / 1000) (751 / 500) limb_value_11 (by norm_num) (by norm_num) (by norm_num)
  obtain ⟨l2, u2⟩ := norm_bracket _ _ _ (2417 / 1000) (121 / 50) limb_value_12 (by norm_num) (by norm_num) (by norm_num)
  obtain ⟨l3, u3⟩ := norm_bracket _ _ _ (2843 / 1000) (1423 / 500) limb_value_13 (by norm_num) (by norm_num) (by norm_num)
  obtain ⟨l4, u4⟩ := norm_bracket _ _ _ (2589 / 1000) (324 / 125) limb_value_14 (by norm_num) (by norm_num) (by norm_num)
  have e1 : ‖lensMap (binary 1 1) ((1 + (1 : ℕ)) * (((3 / 5 : ℂ) - 4 / 5 * I) * ((3 / 5 : ℂ) + 4 / 5 * I) ^ 1))
      - (17 / 30 - 6 / 5 * I)‖ = 3 / 2 := by
    rw [limb_value_11, Complex.norm_add_mul_I, Real.sqrt_eq_iff_mul_self_eq (by norm_num) (by norm_num)]
    norm_num
  rw [← limbDist] at l0 u0 l1 u1 l2 u2 l3 u3 l4 u4 e1
  have hz : 1 + zeroTerm < 2 := by norm_num [zeroTerm]
  generalize limbDist 1 = d at *
  refine ⟨?_, GenericRing.limb (four_cases_mid d (3 / 2) 0 3 (by norm_num) (by norm_num) e1 ?_ ?_ (by norm_num) ?_ (by linarith)
      (fun i hi => ?_) ?_ ?_) hz,
    GenericRing.limb (four_cases (fun j => d (j + 1)) (3 / 2) 0 2 (by norm_num) (by norm_num) e1 ?_ ?_ (by norm_num) ?_
      (by simp only [Nat.reduceAdd]; linarith)) hz, by linarith⟩
  · intro j hj
    refine ⟨by interval_cases j <;> linarith, by interval_cases j <;> linarith, ?_⟩
    intro h
    interval_cases j <;> first | (rw [e1] at h; norm_num at h; done) | (exfalso; nlinarith)
  · intro j hj hne
    interval_cases j <;> first | exact absurd rfl hne | linarith
  · intro j hj hne
    interval_cases j <;> first | exact absurd rfl hne | linarith
  · intro a ha b hb hne
    interval_cases a <;> interval_cases b <;>
      first | exact absurd rfl hne | (rw [lt_abs]; left; (try simp only [Nat.reduceAdd]); linarith) | (rw [lt_abs]; right; (try simp only [Nat.reduceAdd]); linarith)
  · rw [abs_le]
    interval_cases i <;> constructor <;> linarith
  · rw [lt_abs]; right; nlinarith
  · rw [lt_abs]; left
    have a0 : 1 / 5 < d 1 - d 0 := by linarith
    have a2 : 1 / 5 < -(d 1 - d 2) := by linarith
    have a3 : 1 / 100 < -(d 1 - d 3) := by linarith
    have p := mul_lt_mul'' (mul_lt_mul'' a0 a2 (by norm_num) (by norm_num)) a3 (by norm_num) (by norm_num)
    linarith
  · intro j hj hne
    interval_cases j <;> first | exact absurd rfl hne | (simp only [Nat.reduceAdd]; linarith)
  · intro j hj hne
    interval_cases j <;> first | exact absurd rfl hne | (simp only [Nat.reduceAdd]; linarith)
  · intro a ha b hb hne
    interval_cases a <;> interval_cases b <;>
      first | exact absurd rfl hne | (rw [lt_abs]; left; (try simp only [Nat.reduceAdd]); linarith) | (rw [lt_abs]; right; (try simp only [Nat.reduceAdd]); linarith)

theorem limb_off_lens (i j : ℕ) : ∀ l ∈ userLens 2 { s := 1, q := 1 }, (node limbRegion.1.1 limbRegion.1.2 2 i : ℂ)
    * exp (I * node limbRegion.2.1 limbRegion.2.2 5 j) ≠ l.2 := by
  intro l hl h
  have h1 : ‖(node limbRegion.1.1 limbRegion.1.2 2 i : ℂ) * exp (I * node limbRegion.2.1 limbRegion.2.2 5 j)‖ = 1 + i := by
    have hn : node limbRegion.1.1 limbRegion.1.2 2 i = 1 + i := by
      simp only [node, spacing, limbRegion]
      norm_num
    rw [norm_mul, mul_comm I, Complex.norm_exp_ofReal_mul_I, mul_one, hn, Complex.norm_of_nonneg (by positivity)]
  have h2 : ‖l.2‖ = 1 / 2 := by
    rw [userLens, if_neg (by norm_num)] at hl
    simp only [binary, List.mem_cons, List.not_mem_nil, or_false] at hl
    rcases hl with rfl | rfl <;> norm_num
  rw [h, h2] at h1
  have : (0 : ℝ) ≤ i := Nat.cast_nonneg i
  linarith

theorem limb_grid : ∀ i < 2,
    (∀ j < 5, (∀ l ∈ userLens 2 { s := 1, q := 1 }, (node limbRegion.1.1 limbRegion.1.2 2 i : ℂ)
        * exp (I * node limbRegion.2.1 limbRegion.2.2 5 j) ≠ l.2) ∧
      nodeDistance (userLens 2 { s := 1, q := 1 }) (17 / 30 - 6 / 5 * I) limbRegion 2 5 i j ≠ 0 ∧
      1 - (nodeDistance (userLens 2 { s := 1, q := 1 }) (17 / 30 - 6 / 5 * I) limbRegion 2 5 i j / (3 / 2)) ^ 2 ≠ 1 / 1000) ∧
    GenericLimb (3 / 2) 2 (nodeDistance (userLens 2 { s := 1, q := 1 }) (17 / 30 - 6 / 5 * I) limbRegion 2 5 i) (5 - 1) ∧
    GenericLimb (3 / 2) 2 (fun j => nodeDistance (userLens 2 { s := 1, q := 1 }) (17 / 30 - 6 / 5 * I) limbRegion 2 5 i (j + 1))
      (5 - 1) := by
  intro i hi
  have hf : nodeDistance (userLens 2 { s := 1, q := 1 }) (17 / 30 - 6 / 5 * I) limbRegion 2 5 i = limbDist i :=
    funext (limb_distance i)
  rw [hf]
  interval_cases i
  · exact ⟨fun j hj => ⟨limb_off_lens 0 j, by linarith [(limb_ring_0.1 j hj).1], (limb_ring_0.1 j hj).2.2⟩, limb_ring_0.2.1,
      limb_ring_0.2.2.1⟩
  · exact ⟨fun j hj => ⟨limb_off_lens 1 j, by linarith [(limb_ring_1.1 j hj).1], (limb_ring_1.1 j hj).2.2⟩, limb_ring_1.2.1,
      limb_ring_1.2.2.1⟩

/-- A case for `C123_flat_partial` (and the conditions of `C123_gap`): separation and source radius grow, the source moves. -/
example : HasDerivAt (fun t => (magLimbDarkD 2 { s := 1 + t, q := 1 } { s := 1, q := 0 } (17 / 30 - 6 / 5 * I + t) 1
      ⟨3 / 2 + t, 1⟩ (Dual.const 0) (Dual.const 2) 2 5 [fixedRegion limbRegion]).v)
    (magLimbDarkD 2 { s := 1 + 0, q := 1 } { s := 1, q := 0 } (17 / 30 - 6 / 5 * I + (0 : ℝ)) 1 ⟨3 / 2 + 0, 1⟩ (Dual.const 0)
      (Dual.const 2) 2 5 [fixedRegion limbRegion]).d 0 := by
  have hid := hasDerivAt_id' (0 : ℝ)
  refine C123_flat_partial 2 (fun t => { s := 1 + t, q := 1 }) { s := 1, q := 0 } (fun t => 17 / 30 - 6 / 5 * I + t) 1
    (fun t => ⟨3 / 2 + t, 1⟩) 2 0 (by norm_num [zeroTerm]) [fun _ => fixedRegion limbRegion] 2 5 le_rfl le_rfl
    ⟨hid.const_add 1, hasDerivAt_const _ _, hasDerivAt_const _ _, hasDerivAt_const _ _, hasDerivAt_const _ _⟩
    ((hasDerivAt_ofReal hid).const_add _ |>.congr_deriv (by simp)) (hid.const_add (3 / 2)) (by norm_num) (by norm_num)
    (by norm_num) ?_ ?_
  · intro R hR
    rw [List.mem_singleton.mp hR]
    exact ⟨tracks_const _, tracks_const _, tracks_const _, tracks_const _⟩
  · intro R hR i hi
    rw [List.mem_singleton.mp hR]
    simp only [ofReal_zero, add_zero]
    exact limb_grid i hi

/-- A case for `C123_radius_violated`: `u1 = 1/2`. -/
example : ∃ D' : ℝ, HasDerivAt (fun t => (magLimbDarkD 2 { s := 1, q := 1 } noMotion (17 / 30 - 6 / 5 * I) 0 ⟨t, 1⟩
      (Dual.const (1 / 2)) (Dual.const 2) 2 5 ([limbRegion].map fixedRegion)).v) D' (3 / 2) ∧
    D' < (magLimbDarkD 2 { s := 1, q := 1 } noMotion (17 / 30 - 6 / 5 * I) 0 ⟨3 / 2, 1⟩ (Dual.const (1 / 2)) (Dual.const 2) 2 5
      ([limbRegion].map fixedRegion)).d := by
  have hpos : 0 < tanAngle := Real.arccos_pos.mpr (by norm_num)
  refine C123_radius_violated 2 _ _ (3 / 2) (1 / 2) 2 (by norm_num) (by norm_num) (by norm_num [zeroTerm]) (by norm_num)
    [limbRegion] 2 5 le_rfl le_rfl (by norm_num) (by norm_num) ?_ ?_ ?_
  · intro R hR
    rw [List.mem_singleton.mp hR]
    exact ⟨by norm_num [limbRegion], by norm_num [limbRegion], by simp only [limbRegion]; linarith⟩
  · intro R hR i hi
    rw [List.mem_singleton.mp hR]
    exact limb_grid i hi
  · exact ⟨limbRegion, by simp, 1, by norm_num, by norm_num [limbRegion, node, spacing], 2, le_rfl, by norm_num,
      by rw [limb_distance]; exact limb_ring_1.2.2.2⟩

end Microjax.Props
