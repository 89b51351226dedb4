import Verif.Props.CubicInterp
import Mathlib.Analysis.Calculus.LocalExtr.Rolle
import Mathlib.Analysis.Calculus.Deriv.Pow
import Mathlib.Analysis.Calculus.Deriv.Mul
import Mathlib.Tactic.LinearCombination
import Mathlib.Tactic.Positivity

/-! # Error of the four-point interpolant, and the effect of `cubic_interp`'s epsilon -/

noncomputable section

namespace Microjax.Props

open ExtendedSource Set

/-- Rolle's theorem for consecutive zeros. -/
theorem rolle_step (f f' : ℝ → ℝ) (a b : ℝ) (hab : a < b) (hd : ∀ x ∈ Icc a b, HasDerivAt f (f' x) x) (ha : f a = 0)
    (hb : f b = 0) : ∃ c, a < c ∧ c < b ∧ f' c = 0 := by
  obtain ⟨c, hc, h⟩ := exists_hasDerivAt_eq_zero hab (fun x hx => (hd x hx).continuousAt.continuousWithinAt)
    (by rw [ha, hb]) (fun x hx => hd x ⟨hx.1.le, hx.2.le⟩)
  exact ⟨c, hc.1, hc.2, h⟩

/-- Five zeros of a function give a zero of its fourth derivative. -/
theorem rolle_four (f f1 f2 f3 f4 : ℝ → ℝ) (a b c d e : ℝ) (hab : a < b) (hbc : b < c) (hcd : c < d) (hde : d < e)
    (h1 : ∀ x ∈ Icc a e, HasDerivAt f (f1 x) x) (h2 : ∀ x ∈ Icc a e, HasDerivAt f1 (f2 x) x)
    (h3 : ∀ x ∈ Icc a e, HasDerivAt f2 (f3 x) x) (h4 : ∀ x ∈ Icc a e, HasDerivAt f3 (f4 x) x)
    (ha : f a = 0) (hb : f b = 0) (hc : f c = 0) (hd : f d = 0) (he : f e = 0) : ∃ x ∈ Icc a e, f4 x = 0 := by
  have R : ∀ (g g' : ℝ → ℝ), (∀ x ∈ Icc a e, HasDerivAt g (g' x) x) → ∀ p q, a ≤ p → p < q → q ≤ e → g p = 0 → g q = 0 →
      ∃ c, p < c ∧ c < q ∧ g' c = 0 := fun g g' hg p q hp hpq hq z1 z2 =>
    rolle_step g g' p q hpq (fun x hx => hg x ⟨hp.trans hx.1, hx.2.trans hq⟩) z1 z2
  obtain ⟨p1, _, _, z1⟩ := R f f1 h1 a b le_rfl hab (by linarith) ha hb
  obtain ⟨p2, _, _, z2⟩ := R f f1 h1 b c (by linarith) hbc (by linarith) hb hc
  obtain ⟨p3, _, _, z3⟩ := R f f1 h1 c d (by linarith) hcd (by linarith) hc hd
  obtain ⟨p4, _, _, z4⟩ := R f f1 h1 d e (by linarith) hde (by linarith) hd he
  obtain ⟨q1, _, _, y1⟩ := R f1 f2 h2 p1 p2 (by linarith) (by linarith) (by linarith) z1 z2
  obtain ⟨q2, _, _, y2⟩ := R f1 f2 h2 p2 p3 (by linarith) (by linarith) (by linarith) z2 z3
  obtain ⟨q3, _, _, y3⟩ := R f1 f2 h2 p3 p4 (by linarith) (by linarith) (by linarith) z3 z4
  obtain ⟨r1, _, _, x1⟩ := R f2 f3 h3 q1 q2 (by linarith) (by linarith) (by linarith) y1 y2
  obtain ⟨r2, _, _, x2⟩ := R f2 f3 h3 q2 q3 (by linarith) (by linarith) (by linarith) y2 y3
  obtain ⟨s, _, _, w⟩ := R f3 f4 h4 r1 r2 (by linarith) (by linarith) (by linarith) x1 x2
  exact ⟨s, ⟨by linarith, by linarith⟩, w⟩

/-- Derivatives of a quartic. -/
theorem quartic_deriv (a0 a1 a2 a3 a4 x : ℝ) :
    HasDerivAt (fun t : ℝ => a0 + a1 * t + a2 * t ^ 2 + a3 * t ^ 3 + a4 * t ^ 4)
      (a1 + 2 * a2 * x + 3 * a3 * x ^ 2 + 4 * a4 * x ^ 3 + 0 * x ^ 4) x := by
  have h1 := (hasDerivAt_id x).const_mul a1
  have h2 := (hasDerivAt_pow 2 x).const_mul a2
  have h3 := (hasDerivAt_pow 3 x).const_mul a3
  have h4 := (hasDerivAt_pow 4 x).const_mul a4
  have := (((h1.const_add a0).fun_add h2).fun_add h3).fun_add h4
  refine this.congr_deriv ?_
  push_cast; ring

/-- The interpolation error at a point between the two middle nodes. -/
theorem interp_error (h h1 h2 h3 h4 : ℝ → ℝ) (x x0 x1 x2 x3 K : ℝ) (o1 : x0 < x1) (o2 : x1 ≤ x) (o3 : x ≤ x2)
    (o12 : x1 < x2) (o4 : x2 < x3)
    (d1 : ∀ t ∈ Icc x0 x3, HasDerivAt h (h1 t) t) (d2 : ∀ t ∈ Icc x0 x3, HasDerivAt h1 (h2 t) t)
    (d3 : ∀ t ∈ Icc x0 x3, HasDerivAt h2 (h3 t) t) (d4 : ∀ t ∈ Icc x0 x3, HasDerivAt h3 (h4 t) t)
    (hK : ∀ t ∈ Icc x0 x3, |h4 t| ≤ K) :
    |h x - lagrange4 x x0 x1 x2 x3 (h x0) (h x1) (h x2) (h x3)| ≤
      K / 24 * |(x - x0) * (x - x1) * (x - x2) * (x - x3)| := by
  have hK0 : 0 ≤ K := (abs_nonneg _).trans (hK x0 ⟨le_rfl, by linarith⟩)
  have e0 := (C32_nodes x0 x1 x2 x3 (h x0) (h x1) (h x2) (h x3) (by linarith : x0 < x1).ne (by linarith : x0 < x2).ne
    (by linarith : x0 < x3).ne o12.ne (by linarith : x1 < x3).ne o4.ne)
  have hl := fun y => (cubicCore_eq _ _ y x0 x1 x2 x3 (h x0) (h x1) (h x2) (h x3)
    (amin4_lt_amax4 x0 x1 x2 x3 (by linarith : x0 < x1).ne))
  simp only [cubicInterp, hl] at e0
  obtain ⟨n0, n1, n2, n3⟩ := e0
  rcases o2.eq_or_lt with rfl | o2
  · rw [n1]; simp
  rcases o3.eq_or_lt with rfl | o3
  · rw [n2]; simp
  set y0 := h x0
  set y1 := h x1
  set y2 := h x2
  set y3 := h x3
  set W : ℝ := (x - x0) * (x - x1) * (x - x2) * (x - x3) with hW
  have hW0 : W ≠ 0 := by
    have a := (by linarith : 0 < x - x0).ne'
    have b := (by linarith : 0 < x - x1).ne'
    have c := (by linarith : x - x2 < 0).ne
    have d := (by linarith : x - x3 < 0).ne
    rw [hW]; positivity
  set c : ℝ := (h x - lagrange4 x x0 x1 x2 x3 y0 y1 y2 y3) / W with hc
  -- the interpolant plus `c` times the node polynomial is a quartic with leading coefficient `c`
  obtain ⟨a0, a1, a2, a3, hq⟩ : ∃ a0 a1 a2 a3 : ℝ, ∀ t : ℝ, lagrange4 t x0 x1 x2 x3 y0 y1 y2 y3 +
      c * ((t - x0) * (t - x1) * (t - x2) * (t - x3)) = a0 + a1 * t + a2 * t ^ 2 + a3 * t ^ 3 + c * t ^ 4 := by
    set c0 := y0 / ((x0 - x1) * (x0 - x2) * (x0 - x3))
    set c1 := y1 / ((x1 - x0) * (x1 - x2) * (x1 - x3))
    set c2 := y2 / ((x2 - x0) * (x2 - x1) * (x2 - x3))
    set c3 := y3 / ((x3 - x0) * (x3 - x1) * (x3 - x2))
    have hf : ∀ t, lagrange4 t x0 x1 x2 x3 y0 y1 y2 y3 = c0 * ((t - x1) * (t - x2) * (t - x3)) +
        c1 * ((t - x0) * (t - x2) * (t - x3)) + c2 * ((t - x0) * (t - x1) * (t - x3)) +
        c3 * ((t - x0) * (t - x1) * (t - x2)) := by
      intro t; simp only [lagrange4, c0, c1, c2, c3]; ring
    refine ⟨-(c0 * x1 * x2 * x3) - c1 * x0 * x2 * x3 - c2 * x0 * x1 * x3 - c3 * x0 * x1 * x2 + c * x0 * x1 * x2 * x3,
      c0 * (x1 * x2 + x1 * x3 + x2 * x3) + c1 * (x0 * x2 + x0 * x3 + x2 * x3) + c2 * (x0 * x1 + x0 * x3 + x1 * x3) +
        c3 * (x0 * x1 + x0 * x2 + x1 * x2) - c * (x0 * x1 * x2 + x0 * x1 * x3 + x0 * x2 * x3 + x1 * x2 * x3),
      -(c0 * (x1 + x2 + x3)) - c1 * (x0 + x2 + x3) - c2 * (x0 + x1 + x3) - c3 * (x0 + x1 + x2) +
        c * (x0 * x1 + x0 * x2 + x0 * x3 + x1 * x2 + x1 * x3 + x2 * x3),
      c0 + c1 + c2 + c3 - c * (x0 + x1 + x2 + x3), fun t => ?_⟩
    rw [hf]; ring
  have hz : ∀ t, lagrange4 t x0 x1 x2 x3 y0 y1 y2 y3 + c * ((t - x0) * (t - x1) * (t - x2) * (t - x3)) = h t →
      h t - (a0 + a1 * t + a2 * t ^ 2 + a3 * t ^ 3 + c * t ^ 4) = 0 := fun t ht => by rw [← hq, ht, sub_self]
  obtain ⟨ξ, hξ, hξ0⟩ := rolle_four (fun t => h t - (a0 + a1 * t + a2 * t ^ 2 + a3 * t ^ 3 + c * t ^ 4))
    (fun t => h1 t - (a1 + 2 * a2 * t + 3 * a3 * t ^ 2 + 4 * c * t ^ 3 + 0 * t ^ 4))
    (fun t => h2 t - (2 * a2 + 2 * (3 * a3) * t + 3 * (4 * c) * t ^ 2 + 4 * 0 * t ^ 3 + 0 * t ^ 4))
    (fun t => h3 t - (2 * (3 * a3) + 2 * (3 * (4 * c)) * t + 3 * (4 * 0) * t ^ 2 + 4 * 0 * t ^ 3 + 0 * t ^ 4))
    (fun t => h4 t - (2 * (3 * (4 * c)) + 2 * (3 * (4 * 0)) * t + 3 * (4 * 0) * t ^ 2 + 4 * 0 * t ^ 3 + 0 * t ^ 4))
    x0 x1 x x2 x3 o1 o2 o3 o4
    (fun t ht => (d1 t ht).fun_sub (quartic_deriv _ _ _ _ _ _)) (fun t ht => (d2 t ht).fun_sub (quartic_deriv _ _ _ _ _ _))
    (fun t ht => (d3 t ht).fun_sub (quartic_deriv _ _ _ _ _ _)) (fun t ht => (d4 t ht).fun_sub (quartic_deriv _ _ _ _ _ _))
    (hz _ (by rw [n0]; simp [y0])) (hz _ (by rw [n1]; simp [y1]))
    (hz _ (by rw [hc, div_mul_cancel₀ _ hW0]; ring)) (hz _ (by rw [n2]; simp [y2])) (hz _ (by rw [n3]; simp [y3]))
  have hc4 : c = h4 ξ / 24 := by
    have : h4 ξ = 24 * c := by linear_combination hξ0
    rw [this]; ring
  have : h x - lagrange4 x x0 x1 x2 x3 y0 y1 y2 y3 = c * W := by rw [hc, div_mul_cancel₀ _ hW0]
  rw [this, hc4, abs_mul, abs_div, abs_of_pos (by norm_num : (0 : ℝ) < 24)]
  have := hK ξ hξ
  gcongr

/-- Reversing the order of the points does not change the interpolant. -/
theorem lagrange4_reverse (x x0 x1 x2 x3 y0 y1 y2 y3 : ℝ) :
    lagrange4 x x3 x2 x1 x0 y3 y2 y1 y0 = lagrange4 x x0 x1 x2 x3 y0 y1 y2 y3 := by
  simp only [lagrange4]; ring

/-- Changing three factors of a denominator by `ε`. -/
theorem basis_eps (n A B C ε δ : ℝ) (hδ : 0 < δ) (hε : 0 ≤ ε) (hεδ : ε ≤ δ / 10) (hA : δ ≤ |A|) (hB : δ ≤ |B|)
    (hC : δ ≤ |C|) :
    |n / ((A + ε) * (B + ε) * (C + ε)) - n / (A * B * C)| ≤ 5 * (ε / δ) * |n / (A * B * C)| := by
  have hη : ε / δ ≤ 1 / 10 := by rw [div_le_iff₀ hδ]; linarith
  have hη0 : 0 ≤ ε / δ := by positivity
  set η := ε / δ with hηd
  have q : ∀ X : ℝ, δ ≤ |X| → X ≠ 0 ∧ ∃ x, X + ε = X * (1 + x) ∧ |x| ≤ η := by
    intro X hX
    have hX0 : X ≠ 0 := by intro h; rw [h, abs_zero] at hX; linarith
    refine ⟨hX0, ε / X, by field_simp, ?_⟩
    rw [abs_div, abs_of_nonneg hε]
    exact div_le_div_of_nonneg_left hε hδ hX
  obtain ⟨A0, x, hx, hx'⟩ := q A hA
  obtain ⟨B0, y, hy, hy'⟩ := q B hB
  obtain ⟨C0, z, hz, hz'⟩ := q C hC
  rw [abs_le] at hx' hy' hz'
  obtain ⟨xa, xb⟩ := hx'
  obtain ⟨ya, yb⟩ := hy'
  obtain ⟨za, zb⟩ := hz'
  set p := (1 + x) * (1 + y) * (1 + z) with hp
  have h1 : (9 / 10 : ℝ) ≤ 1 + x := by linarith
  have h2 : (9 / 10 : ℝ) ≤ 1 + y := by linarith
  have h3 : (9 / 10 : ℝ) ≤ 1 + z := by linarith
  have hpl : (7 / 10 : ℝ) ≤ p := by
    have : (9 / 10 : ℝ) * (9 / 10) ≤ (1 + x) * (1 + y) := mul_le_mul h1 h2 (by norm_num) (by linarith)
    have : (9 / 10 : ℝ) * (9 / 10) * (9 / 10) ≤ (1 + x) * (1 + y) * (1 + z) :=
      mul_le_mul this h3 (by norm_num) (by positivity)
    linarith
  have hd : |1 - p| ≤ 35 / 10 * η := by
    have e : 1 - p = -(x + y + z) - (x * y + y * z + x * z) - x * y * z := by rw [hp]; ring
    have m : ∀ s t : ℝ, |s| ≤ η → |t| ≤ η → |s * t| ≤ η / 10 := by
      intro s t hs ht
      rw [abs_mul]
      calc |s| * |t| ≤ η * (1 / 10) := mul_le_mul hs (ht.trans hη) (abs_nonneg _) hη0
        _ = η / 10 := by ring
    have ax : |x| ≤ η := abs_le.mpr ⟨xa, xb⟩
    have ay : |y| ≤ η := abs_le.mpr ⟨ya, yb⟩
    have az : |z| ≤ η := abs_le.mpr ⟨za, zb⟩
    have m1 := abs_le.mp (m x y ax ay)
    have m2 := abs_le.mp (m y z ay az)
    have m3 := abs_le.mp (m x z ax az)
    have m4 := abs_le.mp (m (x * y) z ((m x y ax ay).trans (by linarith)) az)
    rw [e, abs_le]
    constructor <;> linarith
  have hp0 : p ≠ 0 := by linarith
  have e : n / ((A + ε) * (B + ε) * (C + ε)) - n / (A * B * C) = n / (A * B * C) * ((1 - p) / p) := by
    rw [hx, hy, hz]
    have : A * (1 + x) * (B * (1 + y)) * (C * (1 + z)) = A * B * C * p := by rw [hp]; ring
    rw [this]
    field_simp
  rw [e, abs_mul, mul_comm]
  refine mul_le_mul_of_nonneg_right ?_ (abs_nonneg _)
  rw [abs_div, abs_of_pos (by linarith : 0 < p), div_le_iff₀ (by linarith)]
  nlinarith

/-- The middle basis polynomials are bounded by the ratio of the gaps. -/
theorem basis_bound (x x0 x1 x2 x3 κ : ℝ) (o1 : x0 < x1) (o2 : x1 ≤ x) (o3 : x ≤ x2) (o12 : x1 < x2) (o4 : x2 < x3)
    (k1 : x2 - x1 ≤ κ * (x1 - x0)) (k2 : x2 - x1 ≤ κ * (x3 - x2)) :
    |(x - x0) * (x - x2) * (x - x3) / ((x1 - x0) * (x1 - x2) * (x1 - x3))| ≤ 1 + κ ∧
    |(x - x0) * (x - x1) * (x - x3) / ((x2 - x0) * (x2 - x1) * (x2 - x3))| ≤ 1 + κ ∧
    |(x - x0) * (x - x1) * (x - x2) / ((x3 - x0) * (x3 - x1) * (x3 - x2))| ≤ κ ∧
    |(x - x1) * (x - x2) * (x - x3) / ((x0 - x1) * (x0 - x2) * (x0 - x3))| ≤ κ := by
  have hκ : 0 < κ := by
    by_contra hn
    have : κ * (x1 - x0) ≤ 0 := mul_nonpos_of_nonpos_of_nonneg (not_lt.mp hn) (by linarith)
    linarith
  have ab : ∀ p q r s t v : ℝ, |p * q * r / (s * t * v)| = |p| / |s| * (|q| / |t|) * (|r| / |v|) := by
    intro p q r s t v
    rw [abs_div, abs_mul, abs_mul, abs_mul, abs_mul]; ring
  have r1 : ∀ a b : ℝ, 0 ≤ a → a ≤ b → 0 < b → |a| / |b| ≤ 1 := by
    intro a b ha hab hb
    rw [abs_of_nonneg ha, abs_of_pos hb, div_le_one hb]; exact hab
  have n1 : ∀ a b : ℝ, a ≤ 0 → b ≤ a → b < 0 → |a| / |b| ≤ 1 := by
    intro a b ha hab hb
    rw [abs_of_nonpos ha, abs_of_neg hb, div_le_one (by linarith)]; linarith
  have u1 : |x - x0| / |x1 - x0| ≤ 1 + κ := by
    rw [abs_of_pos (by linarith), abs_of_pos (by linarith), div_le_iff₀ (by linarith)]; nlinarith
  have u2 : |x - x3| / |x2 - x3| ≤ 1 + κ := by
    rw [abs_of_neg (by linarith), abs_of_neg (by linarith), div_le_iff₀ (by linarith)]; nlinarith
  have u3 : |x - x2| / |x3 - x2| ≤ κ := by
    rw [abs_of_nonpos (by linarith), abs_of_pos (by linarith), div_le_iff₀ (by linarith)]; nlinarith
  have u0 : |x - x1| / |x0 - x1| ≤ κ := by
    rw [abs_of_nonneg (by linarith), abs_of_neg (by linarith), div_le_iff₀ (by linarith)]; nlinarith
  have tri : ∀ a b c k : ℝ, 0 ≤ b → 0 ≤ c → 0 ≤ a → a ≤ k → b ≤ 1 → c ≤ 1 → a * b * c ≤ k := by
    intro a b c k hb hc ha hak hb1 hc1
    calc a * b * c ≤ k * 1 * 1 := by
          have := ha.trans hak
          gcongr
      _ = k := by ring
  refine ⟨?_, ?_, ?_, ?_⟩
  · rw [ab]
    exact tri _ _ _ _ (by positivity) (by positivity) (by positivity) u1
      (n1 _ _ (by linarith) (by linarith) (by linarith)) (n1 _ _ (by linarith) (by linarith) (by linarith))
  · rw [ab, mul_comm, ← mul_assoc]
    exact tri _ _ _ _ (by positivity) (by positivity) (by positivity) u2
      (r1 _ _ (by linarith) (by linarith) (by linarith)) (r1 _ _ (by linarith) (by linarith) (by linarith))
  · rw [ab, mul_comm, ← mul_assoc]
    exact tri _ _ _ _ (by positivity) (by positivity) (by positivity) u3
      (r1 _ _ (by linarith) (by linarith) (by linarith)) (r1 _ _ (by linarith) (by linarith) (by linarith))
  · rw [ab]
    exact tri _ _ _ _ (by positivity) (by positivity) (by positivity) u0
      (n1 _ _ (by linarith) (by linarith) (by linarith)) (n1 _ _ (by linarith) (by linarith) (by linarith))

/-- Effect of the code's epsilon on the estimate of a crossing (abscissae separated by `δ` times the scale). -/
theorem cubicCore_eps (lo hi ε δ x x0 x1 x2 x3 : ℝ) (hε : 0 < ε) (hδ : 0 < δ) (hεδ : ε ≤ δ / 10)
    (h01 : δ * max (hi - lo) ε ≤ |x0 - x1|) (h02 : δ * max (hi - lo) ε ≤ |x0 - x2|)
    (h03 : δ * max (hi - lo) ε ≤ |x0 - x3|) (h12 : δ * max (hi - lo) ε ≤ |x1 - x2|)
    (h13 : δ * max (hi - lo) ε ≤ |x1 - x3|) (h23 : δ * max (hi - lo) ε ≤ |x2 - x3|) :
    |cubicCore lo hi ε x x0 x1 x2 x3 0 1 2 3 - lagrange4 x x0 x1 x2 x3 0 1 2 3| ≤ 5 * (ε / δ) *
      (|(x - x0) * (x - x2) * (x - x3) / ((x1 - x0) * (x1 - x2) * (x1 - x3))| +
       2 * |(x - x0) * (x - x1) * (x - x3) / ((x2 - x0) * (x2 - x1) * (x2 - x3))| +
       3 * |(x - x0) * (x - x1) * (x - x2) / ((x3 - x0) * (x3 - x1) * (x3 - x2))|) := by
  set s := max (hi - lo) ε with hs
  have s0 : 0 < s := lt_of_lt_of_le hε (le_max_right _ _)
  have hat : ∀ a b : ℝ, (a - lo) / s - (b - lo) / s = (a - b) / s := fun a b => by ring
  have sep : ∀ a b : ℝ, δ * s ≤ |a - b| → δ ≤ |(a - b) / s| := by
    intro a b h
    rw [abs_div, abs_of_pos s0, le_div_iff₀ s0]; exact h
  have sep' : ∀ a b : ℝ, δ * s ≤ |a - b| → δ ≤ |(b - a) / s| := fun a b h => sep b a (by rw [abs_sub_comm]; exact h)
  have sc : ∀ p q r t v w : ℝ, p / s * (q / s) * (r / s) / (t / s * (v / s) * (w / s)) = p * q * r / (t * v * w) := by
    intro p q r t v w
    rw [div_mul_div_comm, div_mul_div_comm, div_mul_div_comm, div_mul_div_comm,
      div_div_div_cancel_right₀ (by positivity)]
  have b1 := basis_eps ((x - x0) / s * ((x - x2) / s) * ((x - x3) / s)) ((x1 - x0) / s) ((x1 - x2) / s) ((x1 - x3) / s)
    ε δ hδ hε.le hεδ (sep' _ _ h01) (sep _ _ h12) (sep _ _ h13)
  have b2 := basis_eps ((x - x0) / s * ((x - x1) / s) * ((x - x3) / s)) ((x2 - x0) / s) ((x2 - x1) / s) ((x2 - x3) / s)
    ε δ hδ hε.le hεδ (sep' _ _ h02) (sep' _ _ h12) (sep _ _ h23)
  have b3 := basis_eps ((x - x0) / s * ((x - x1) / s) * ((x - x2) / s)) ((x3 - x0) / s) ((x3 - x1) / s) ((x3 - x2) / s)
    ε δ hδ hε.le hεδ (sep' _ _ h03) (sep' _ _ h13) (sep' _ _ h23)
  rw [sc] at b1 b2 b3
  simp only [cubicCore, lagrange4, ← hs, hat, zero_mul, zero_add, one_mul]
  rw [abs_le] at *
  constructor <;> linarith [b1.1, b1.2, b2.1, b2.2, b3.1, b3.2]

/-- Error of the code's estimate of a crossing, distances increasing through the limb. -/
theorem estimate_inc (h h1 h2 h3 h4 : ℝ → ℝ) (lo hi ε S x d0 d1 d2 d3 K g κ : ℝ) (hε : 0 < ε) (hg : 0 < g)
    (hS : max (hi - lo) ε ≤ S) (hgS : 10 * ε * S ≤ g)
    (g1 : g ≤ d1 - d0) (g2 : g ≤ d2 - d1) (g3 : g ≤ d3 - d2) (k1 : d1 - d0 ≤ κ * g) (k2 : d2 - d1 ≤ κ * g)
    (k3 : d3 - d2 ≤ κ * g) (o1 : d1 ≤ x) (o2 : x ≤ d2)
    (D1 : ∀ t ∈ Icc d0 d3, HasDerivAt h (h1 t) t) (D2 : ∀ t ∈ Icc d0 d3, HasDerivAt h1 (h2 t) t)
    (D3 : ∀ t ∈ Icc d0 d3, HasDerivAt h2 (h3 t) t) (D4 : ∀ t ∈ Icc d0 d3, HasDerivAt h3 (h4 t) t)
    (hK : ∀ t ∈ Icc d0 d3, |h4 t| ≤ K) (e0 : h d0 = 0) (e1 : h d1 = 1) (e2 : h d2 = 2) (e3 : h d3 = 3) :
    |cubicCore lo hi ε x d0 d1 d2 d3 0 1 2 3 - h x| ≤ K * κ ^ 4 * g ^ 4 / 6 + 15 * (ε * S / g) * (1 + 2 * κ) := by
  have s0 : 0 < max (hi - lo) ε := lt_of_lt_of_le hε (le_max_right _ _)
  have S0 : 0 < S := lt_of_lt_of_le s0 hS
  have hδ : 0 < g / S := by positivity
  have hsc : g / S * max (hi - lo) ε ≤ g := by
    rw [div_mul_eq_mul_div, div_le_iff₀ S0]; exact mul_le_mul_of_nonneg_left hS hg.le
  have hκ : 0 < κ := by
    by_contra hn
    have : κ * g ≤ 0 := mul_nonpos_of_nonpos_of_nonneg (not_lt.mp hn) hg.le
    linarith
  have hab : ∀ a b : ℝ, g ≤ b - a → g / S * max (hi - lo) ε ≤ |a - b| := by
    intro a b hb
    rw [abs_sub_comm, abs_of_nonneg (by linarith)]; linarith
  have hc := cubicCore_eps lo hi ε (g / S) x d0 d1 d2 d3 hε hδ (by rw [le_div_iff₀ (by norm_num), le_div_iff₀ S0]; linarith)
    (hab _ _ g1) (hab _ _ (by linarith)) (hab _ _ (by linarith)) (hab _ _ g2) (hab _ _ (by linarith)) (hab _ _ g3)
  have kk : ∀ e : ℝ, g ≤ e → d2 - d1 ≤ κ * e := fun e he => k2.trans (mul_le_mul_of_nonneg_left he hκ.le)
  obtain ⟨b1, b2, b3, -⟩ := basis_bound x d0 d1 d2 d3 κ (by linarith) o1 o2 (by linarith) (by linarith) (kk _ g1) (kk _ g3)
  have hint := interp_error h h1 h2 h3 h4 x d0 d1 d2 d3 K (by linarith) o1 o2 (by linarith) (by linarith) D1 D2 D3 D4 hK
  rw [e0, e1, e2, e3] at hint
  have hK0 : 0 ≤ K := (abs_nonneg _).trans (hK d0 ⟨le_rfl, by linarith⟩)
  have hW : |(x - d0) * (x - d1) * (x - d2) * (x - d3)| ≤ 4 * κ ^ 4 * g ^ 4 := by
    rw [abs_mul, abs_mul, abs_mul, abs_of_nonneg (by linarith : 0 ≤ x - d0), abs_of_nonneg (by linarith : 0 ≤ x - d1),
      abs_of_nonpos (by linarith : x - d2 ≤ 0), abs_of_nonpos (by linarith : x - d3 ≤ 0)]
    have p1 : x - d0 ≤ 2 * (κ * g) := by linarith
    have p2 : x - d1 ≤ κ * g := by linarith
    have p3 : -(x - d2) ≤ κ * g := by linarith
    have p4 : -(x - d3) ≤ 2 * (κ * g) := by linarith
    calc (x - d0) * (x - d1) * -(x - d2) * -(x - d3) ≤ 2 * (κ * g) * (κ * g) * (κ * g) * (2 * (κ * g)) := by
          have q0 : 0 ≤ x - d0 := by linarith
          have q1 : 0 ≤ x - d1 := by linarith
          have q2 : 0 ≤ -(x - d2) := by linarith
          have q3 : 0 ≤ -(x - d3) := by linarith
          gcongr
      _ = 4 * κ ^ 4 * g ^ 4 := by ring
  have hi2 : |h x - lagrange4 x d0 d1 d2 d3 0 1 2 3| ≤ K * κ ^ 4 * g ^ 4 / 6 := by
    refine hint.trans ?_
    calc K / 24 * |(x - d0) * (x - d1) * (x - d2) * (x - d3)| ≤ K / 24 * (4 * κ ^ 4 * g ^ 4) := by gcongr
      _ = K * κ ^ 4 * g ^ 4 / 6 := by ring
  have hc2 : |cubicCore lo hi ε x d0 d1 d2 d3 0 1 2 3 - lagrange4 x d0 d1 d2 d3 0 1 2 3| ≤
      15 * (ε * S / g) * (1 + 2 * κ) := by
    refine hc.trans ?_
    have e : ε / (g / S) = ε * S / g := by field_simp
    rw [e]
    calc 5 * (ε * S / g) * _ ≤ 5 * (ε * S / g) * ((1 + κ) + 2 * (1 + κ) + 3 * κ) := by gcongr
      _ = 15 * (ε * S / g) * (1 + 2 * κ) := by ring
  rw [abs_sub_comm] at hi2
  exact (abs_sub_le _ (lagrange4 x d0 d1 d2 d3 0 1 2 3) _).trans (by linarith)

/-- Error of the code's estimate of a crossing, distances decreasing through the limb. -/
theorem estimate_dec (h h1 h2 h3 h4 : ℝ → ℝ) (lo hi ε S x d0 d1 d2 d3 K g κ : ℝ) (hε : 0 < ε) (hg : 0 < g)
    (hS : max (hi - lo) ε ≤ S) (hgS : 10 * ε * S ≤ g)
    (g1 : g ≤ d0 - d1) (g2 : g ≤ d1 - d2) (g3 : g ≤ d2 - d3) (k1 : d0 - d1 ≤ κ * g) (k2 : d1 - d2 ≤ κ * g)
    (k3 : d2 - d3 ≤ κ * g) (o1 : x ≤ d1) (o2 : d2 ≤ x)
    (D1 : ∀ t ∈ Icc d3 d0, HasDerivAt h (h1 t) t) (D2 : ∀ t ∈ Icc d3 d0, HasDerivAt h1 (h2 t) t)
    (D3 : ∀ t ∈ Icc d3 d0, HasDerivAt h2 (h3 t) t) (D4 : ∀ t ∈ Icc d3 d0, HasDerivAt h3 (h4 t) t)
    (hK : ∀ t ∈ Icc d3 d0, |h4 t| ≤ K) (e0 : h d0 = 0) (e1 : h d1 = 1) (e2 : h d2 = 2) (e3 : h d3 = 3) :
    |cubicCore lo hi ε x d0 d1 d2 d3 0 1 2 3 - h x| ≤ K * κ ^ 4 * g ^ 4 / 6 + 15 * (ε * S / g) * (1 + 2 * κ) := by
  have s0 : 0 < max (hi - lo) ε := lt_of_lt_of_le hε (le_max_right _ _)
  have S0 : 0 < S := lt_of_lt_of_le s0 hS
  have hδ : 0 < g / S := by positivity
  have hsc : g / S * max (hi - lo) ε ≤ g := by
    rw [div_mul_eq_mul_div, div_le_iff₀ S0]; exact mul_le_mul_of_nonneg_left hS hg.le
  have hκ : 0 < κ := by
    by_contra hn
    have : κ * g ≤ 0 := mul_nonpos_of_nonpos_of_nonneg (not_lt.mp hn) hg.le
    linarith
  have hab : ∀ a b : ℝ, g ≤ a - b → g / S * max (hi - lo) ε ≤ |a - b| := by
    intro a b hb
    rw [abs_of_nonneg (by linarith)]; linarith
  have hc := cubicCore_eps lo hi ε (g / S) x d0 d1 d2 d3 hε hδ (by rw [le_div_iff₀ (by norm_num), le_div_iff₀ S0]; linarith)
    (hab _ _ g1) (hab _ _ (by linarith)) (hab _ _ (by linarith)) (hab _ _ g2) (hab _ _ (by linarith)) (hab _ _ g3)
  have kk : ∀ e : ℝ, g ≤ e → d1 - d2 ≤ κ * e := fun e he => k2.trans (mul_le_mul_of_nonneg_left he hκ.le)
  obtain ⟨b1, b2, -, b3⟩ := basis_bound x d3 d2 d1 d0 κ (by linarith) o2 o1 (by linarith) (by linarith) (kk _ g3) (kk _ g1)
  rw [show (x - d3) * (x - d1) * (x - d0) / ((d2 - d3) * (d2 - d1) * (d2 - d0)) =
    (x - d0) * (x - d1) * (x - d3) / ((d2 - d0) * (d2 - d1) * (d2 - d3)) by ring] at b1
  rw [show (x - d3) * (x - d2) * (x - d0) / ((d1 - d3) * (d1 - d2) * (d1 - d0)) =
    (x - d0) * (x - d2) * (x - d3) / ((d1 - d0) * (d1 - d2) * (d1 - d3)) by ring] at b2
  rw [show (x - d2) * (x - d1) * (x - d0) / ((d3 - d2) * (d3 - d1) * (d3 - d0)) =
    (x - d0) * (x - d1) * (x - d2) / ((d3 - d0) * (d3 - d1) * (d3 - d2)) by ring] at b3
  have hint := interp_error h h1 h2 h3 h4 x d3 d2 d1 d0 K (by linarith) o2 o1 (by linarith) (by linarith) D1 D2 D3 D4 hK
  rw [e0, e1, e2, e3, lagrange4_reverse] at hint
  have hK0 : 0 ≤ K := (abs_nonneg _).trans (hK d0 ⟨by linarith, le_rfl⟩)
  have hW : |(x - d3) * (x - d2) * (x - d1) * (x - d0)| ≤ 4 * κ ^ 4 * g ^ 4 := by
    rw [abs_mul, abs_mul, abs_mul, abs_of_nonneg (by linarith : 0 ≤ x - d3), abs_of_nonneg (by linarith : 0 ≤ x - d2),
      abs_of_nonpos (by linarith : x - d1 ≤ 0), abs_of_nonpos (by linarith : x - d0 ≤ 0)]
    have p1 : x - d3 ≤ 2 * (κ * g) := by linarith
    have p2 : x - d2 ≤ κ * g := by linarith
    have p3 : -(x - d1) ≤ κ * g := by linarith
    have p4 : -(x - d0) ≤ 2 * (κ * g) := by linarith
    calc (x - d3) * (x - d2) * -(x - d1) * -(x - d0) ≤ 2 * (κ * g) * (κ * g) * (κ * g) * (2 * (κ * g)) := by
          have q0 : 0 ≤ x - d3 := by linarith
          have q1 : 0 ≤ x - d2 := by linarith
          have q2 : 0 ≤ -(x - d1) := by linarith
          have q3 : 0 ≤ -(x - d0) := by linarith
          gcongr
      _ = 4 * κ ^ 4 * g ^ 4 := by ring
  have hi2 : |h x - lagrange4 x d0 d1 d2 d3 0 1 2 3| ≤ K * κ ^ 4 * g ^ 4 / 6 := by
    refine hint.trans ?_
    calc K / 24 * |(x - d3) * (x - d2) * (x - d1) * (x - d0)| ≤ K / 24 * (4 * κ ^ 4 * g ^ 4) := by gcongr
      _ = K * κ ^ 4 * g ^ 4 / 6 := by ring
  have hc2 : |cubicCore lo hi ε x d0 d1 d2 d3 0 1 2 3 - lagrange4 x d0 d1 d2 d3 0 1 2 3| ≤
      15 * (ε * S / g) * (1 + 2 * κ) := by
    refine hc.trans ?_
    have e : ε / (g / S) = ε * S / g := by field_simp
    rw [e]
    calc 5 * (ε * S / g) * _ ≤ 5 * (ε * S / g) * ((1 + κ) + 2 * (1 + κ) + 3 * κ) := by gcongr
      _ = 15 * (ε * S / g) * (1 + 2 * κ) := by ring
  rw [abs_sub_comm] at hi2
  exact (abs_sub_le _ (lagrange4 x d0 d1 d2 d3 0 1 2 3) _).trans (by linarith)

end Microjax.Props
