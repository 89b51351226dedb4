import Verif.Lemmas.Coeffs
import Mathlib.Algebra.Polynomial.Roots
import Mathlib.Analysis.SpecialFunctions.Sqrt
import Mathlib.Analysis.SpecialFunctions.Complex.Arg

/-! # Helper lemmas: point-source magnification -/

noncomputable section

namespace Microjax.Props

open Complex ComplexConjugate Spec PointSource

/-- The closed expression for the Jacobian determinant of a lens system. -/
def detFormula (L : Lenses) (z : ℂ) : ℝ :=
  1 - ‖(L.map fun l => (l.1 : ℂ) / (conj z - conj l.2) ^ 2).sum‖ ^ 2

theorem pointMag_eq_formula (L : Lenses) (w : ℂ) :
    pointMag L w = ∑ᶠ z ∈ {z | IsImage L w z}, 1 / |detFormula L z| := by
  refine finsum_mem_congr rfl fun z hz => ?_
  rw [(jacDet_lensMap L z hz.1).2]; rfl

theorem isImage_translate (L : Lenses) (c w z : ℂ) :
    IsImage (L.map fun l => (l.1, l.2 + c)) (w + c) (z + c) ↔ IsImage L w z := by
  unfold IsImage
  rw [lensMap_translate]
  constructor
  · rintro ⟨h1, h2⟩
    refine ⟨fun l hl hc => h1 (l.1, l.2 + c) (List.mem_map.mpr ⟨l, hl, rfl⟩) (by rw [hc]), ?_⟩
    exact add_right_cancel h2
  · rintro ⟨h1, h2⟩
    refine ⟨fun l hl hc => ?_, by rw [h2]⟩
    obtain ⟨l', hl', rfl⟩ := List.mem_map.mp hl
    exact h1 l' hl' (add_right_cancel hc)

theorem detFormula_translate (L : Lenses) (c z : ℂ) :
    detFormula (L.map fun l => (l.1, l.2 + c)) (z + c) = detFormula L z := by
  unfold detFormula
  simp only [List.map_map, Function.comp_def, map_add]
  have : ∀ l : ℝ × ℂ, (conj z + conj c - (conj l.2 + conj c)) = conj z - conj l.2 := fun l => by ring
  simp only [this]

/-- A change of variables of the image plane that maps images to images with the same determinant keeps
the magnification. -/
theorem pointMag_of_equiv (L L' : Lenses) (w w' : ℂ) (φ : ℂ ≃ ℂ)
    (hi : ∀ z, IsImage L' w' (φ z) ↔ IsImage L w z)
    (hd : ∀ z, IsImage L w z → |detFormula L' (φ z)| = |detFormula L z|) :
    pointMag L' w' = pointMag L w := by
  rw [pointMag_eq_formula, pointMag_eq_formula]
  symm
  refine finsum_mem_eq_of_bijOn φ ?_ ?_
  · refine ⟨fun z hz => (hi z).mpr hz, φ.injective.injOn, fun z hz => ⟨φ.symm z, ?_, by simp⟩⟩
    have := (hi (φ.symm z)).mp (by simpa using hz)
    exact this
  · intro z hz; rw [hd z hz]

theorem pointMag_translate (L : Lenses) (c w : ℂ) :
    pointMag (L.map fun l => (l.1, l.2 + c)) (w + c) = pointMag L w :=
  pointMag_of_equiv L _ w _ (Equiv.addRight c) (fun z => isImage_translate L c w z)
    (fun z _ => congrArg _ (detFormula_translate L c z))

/-- If a finite list without repetition enumerates the images, the magnification is the list sum. -/
theorem pointMag_of_list (L : Lenses) (w : ℂ) (zs : List ℂ) (hnd : zs.Nodup)
    (h : ∀ z, z ∈ zs ↔ IsImage L w z) :
    pointMag L w = (zs.map fun z => 1 / |detFormula L z|).sum := by
  classical
  rw [pointMag_eq_formula]
  have e : {z | IsImage L w z} = ↑zs.toFinset := by
    ext z; simp [h]
  rw [e, finsum_mem_coe_finset, List.sum_toFinset _ hnd]

/-! ### The single lens -/

theorem sqrt_sq_single (w : ℂ) :
    Real.sqrt (1 + 4 / (w.re ^ 2 + w.im ^ 2)) ^ 2 = 1 + 4 / (w.re ^ 2 + w.im ^ 2) :=
  Real.sq_sqrt (by positivity)

theorem normSq_pos' {w : ℂ} (h : w ≠ 0) : 0 < w.re ^ 2 + w.im ^ 2 := by
  have := Complex.normSq_pos.mpr h
  rw [Complex.normSq_apply] at this; nlinarith

/-- The real factors `t = (1 ± S)/2` in front of `w`. -/
theorem single_image_iff (w z : ℂ) (hw : w ≠ 0) :
    IsImage single w z ↔
      z = (1 / 2 : ℝ) * w * ((1 + Real.sqrt (1 + 4 / (w.re ^ 2 + w.im ^ 2)) : ℝ) : ℂ) ∨
      z = (1 / 2 : ℝ) * w * ((1 - Real.sqrt (1 + 4 / (w.re ^ 2 + w.im ^ 2)) : ℝ) : ℂ) := by
  have hn := normSq_pos' hw
  set n := w.re ^ 2 + w.im ^ 2 with hndef
  set S := Real.sqrt (1 + 4 / n) with hS
  have hS2 : S ^ 2 = 1 + 4 / n := sqrt_sq_single w
  have hS1 : 1 < S := by
    rw [hS, Real.lt_sqrt (by norm_num)]
    have : 0 < 4 / n := by positivity
    linarith
  have hww : w * conj w = (n : ℂ) := by
    rw [Complex.mul_conj, Complex.normSq_apply, hndef]; push_cast; ring
  have hwc : conj w ≠ 0 := by simpa using hw
  have hnS : n * (S ^ 2 - 1) = 4 := by rw [hS2]; field_simp; ring
  constructor
  · rintro ⟨h1, h2⟩
    have hz : z ≠ 0 := by simpa [single] using h1
    have hzc : conj z ≠ 0 := by simpa using hz
    have h2' : z - 1 / conj z = w := by simpa [lensMap, single] using h2
    have h3 : z * conj z - 1 = w * conj z := by
      rw [← h2']; field_simp
    -- w * conj z is real
    set t : ℝ := Complex.normSq z - 1 with ht
    have h4 : w * conj z = (t : ℂ) := by
      rw [← h3, Complex.mul_conj, ht]; push_cast; ring
    have h5 : conj w * z = (t : ℂ) := by
      have := congrArg conj h4
      simpa using this
    have hz' : z = (t / n : ℝ) * w := by
      have : (n : ℂ) ≠ 0 := by exact_mod_cast hn.ne'
      have h6 : (n : ℂ) * z = t * w := by
        rw [← hww]; linear_combination w * h5
      push_cast
      field_simp
      linear_combination h6
    have hquad : t ^ 2 = n * (t + 1) := by
      have : Complex.normSq z = (t / n) ^ 2 * n := by
        rw [hz', Complex.normSq_mul, Complex.normSq_ofReal, Complex.normSq_apply, hndef]; ring
      have h7 : t + 1 = t ^ 2 / n := by
        have e : t + 1 = Complex.normSq z := by rw [ht]; ring
        rw [e, this]; field_simp
      rw [h7]; field_simp
    have hfac : (2 * t - n * (1 + S)) * (2 * t - n * (1 - S)) = 0 := by
      have : (2 * t - n * (1 + S)) * (2 * t - n * (1 - S))
        = 4 * t ^ 2 - 4 * t * n + n * (n * (1 - S ^ 2)) := by ring
      rw [this, hquad]
      have : n * (1 - S ^ 2) = -4 := by linarith
      rw [this]; ring
    rcases mul_eq_zero.mp hfac with h | h
    · left
      have : t / n = 1 / 2 * (1 + S) := by field_simp; linarith
      rw [hz', this]; push_cast; ring
    · right
      have : t / n = 1 / 2 * (1 - S) := by field_simp; linarith
      rw [hz', this]; push_cast; ring
  · have main : ∀ t : ℝ, t ≠ 0 → n * t * (t - 1) = 1 → IsImage single w ((t : ℂ) * w) := by
      intro t ht h
      have htc : (t : ℂ) ≠ 0 := by exact_mod_cast ht
      refine ⟨by simp [single, hw, ht], ?_⟩
      simp only [lensMap, single, List.map_cons, List.map_nil, List.sum_cons, List.sum_nil, map_zero,
        sub_zero, map_mul, conj_ofReal, add_zero, ofReal_one]
      have hc : (n : ℂ) * t * (t - 1) = 1 := by exact_mod_cast h
      field_simp
      rw [← hww] at hc
      linear_combination hc
    rintro (rfl | rfl)
    · have := main (1 / 2 * (1 + S)) (by positivity) (by nlinarith)
      convert this using 1; push_cast; ring
    · have := main (1 / 2 * (1 - S)) (by intro hc; nlinarith) (by nlinarith)
      convert this using 1; push_cast; ring

/-! ### Root lists -/

theorem IsRootList.mem_of_eval_zero {c rs : List ℂ} (h : IsRootList c rs) (hc : c.headD 0 ≠ 0) {x : ℂ}
    (hx : evalPoly c x = 0) : x ∈ rs := by
  rw [h x] at hx
  have := (mul_eq_zero.mp hx).resolve_left hc
  rw [List.prod_eq_zero_iff] at this
  obtain ⟨r, hr, hr'⟩ := List.mem_map.mp this
  rw [sub_eq_zero.mp hr']; exact hr

theorem IsRootList.eval_zero_of_mem {c rs : List ℂ} (h : IsRootList c rs) {x : ℂ}
    (hx : x ∈ rs) : evalPoly c x = 0 := by
  rw [h x]
  have : (rs.map fun r => x - r).prod = 0 :=
    List.prod_eq_zero_iff.mpr (List.mem_map.mpr ⟨x, hx, sub_self x⟩)
  rw [this, mul_zero]

open Polynomial in
/-- A monic product determines its roots up to order. -/
theorem perm_of_prod_eq {rs rs' : List ℂ}
    (h : ∀ x : ℂ, (rs.map fun r => x - r).prod = (rs'.map fun r => x - r).prod) : rs.Perm rs' := by
  have hp : ∀ l : List ℂ, ∀ x : ℂ,
      ((Multiset.map (fun a => X - C a) (l : Multiset ℂ)).prod).eval x
        = (l.map fun r => x - r).prod := by
    intro l x
    induction l with
    | nil => simp
    | cons a l ih =>
      simp only [← Multiset.cons_coe, Multiset.map_cons, Multiset.prod_cons, eval_mul, ih,
        List.map_cons, List.prod_cons, eval_sub, eval_X, eval_C]
  have he : (Multiset.map (fun a => X - C a) (rs : Multiset ℂ)).prod
      = (Multiset.map (fun a => X - C a) (rs' : Multiset ℂ)).prod := by
    apply Polynomial.funext
    intro x; rw [hp, hp, h x]
  have := congrArg Polynomial.roots he
  rw [roots_multiset_prod_X_sub_C, roots_multiset_prod_X_sub_C] at this
  exact Multiset.coe_eq_coe.mp this


section degree
open Polynomial

/-- The coefficient list (highest power first) as a polynomial. -/
def toPoly (c : List ℂ) : ℂ[X] := c.foldl (fun acc ck => acc * X + C ck) 0

theorem eval_toPoly (c : List ℂ) (x : ℂ) : (toPoly c).eval x = evalPoly c x := by
  unfold toPoly evalPoly
  have : ∀ (c : List ℂ) (acc : ℂ[X]), (c.foldl (fun acc ck => acc * X + C ck) acc).eval x
      = c.foldl (fun acc ck => acc * x + ck) (acc.eval x) := by
    intro c
    induction c with
    | nil => intro acc; rfl
    | cons a c ih => intro acc; rw [List.foldl_cons, ih]; simp
  rw [this]; simp

theorem natDegree_toPoly (c0 : ℂ) (cs : List ℂ) (h : c0 ≠ 0) :
    (toPoly (c0 :: cs)).natDegree = cs.length := by
  have : ∀ (c : List ℂ) (acc : ℂ[X]), acc ≠ 0 →
      (c.foldl (fun acc ck => acc * X + C ck) acc) ≠ 0 ∧
      (c.foldl (fun acc ck => acc * X + C ck) acc).natDegree = acc.natDegree + c.length := by
    intro c
    induction c with
    | nil => intro acc h; exact ⟨h, rfl⟩
    | cons a c ih =>
      intro acc h
      have hd : (acc * X + C a).natDegree = acc.natDegree + 1 := by
        rw [natDegree_add_C, natDegree_mul_X h]
      have hne : acc * X + C a ≠ 0 := by
        intro hc; rw [hc] at hd; simp at hd
      obtain ⟨h1, h2⟩ := ih (acc * X + C a) hne
      refine ⟨h1, ?_⟩
      rw [List.foldl_cons, h2, hd, List.length_cons]; omega
  have h0 : (0 * X + C c0 : ℂ[X]) ≠ 0 := by simpa using h
  have := (this cs (0 * X + C c0) h0).2
  rw [toPoly, List.foldl_cons, this]; simp

/-- A complete root list has as many entries as the degree. -/
theorem rootList_length {c rs : List ℂ} {n : ℕ} (hc : c.headD 0 ≠ 0) (h : IsRootList c rs)
    (hn : c.length = n + 1) : rs.length = n := by
  cases c with
  | nil => simp at hn
  | cons c0 cs =>
    simp only [List.headD_cons] at hc
    have hp : toPoly (c0 :: cs) = C c0 * (rs.map fun r => X - C r).prod := by
      apply Polynomial.funext
      intro x
      rw [eval_toPoly, h x, eval_mul, eval_C, List.headD_cons]
      congr 1
      clear h
      induction rs with
      | nil => simp
      | cons r rs ih => simp [ih]
    have h1 := natDegree_toPoly c0 cs hc
    rw [hp, natDegree_C_mul hc] at h1
    have h2 : ((rs.map fun r => X - C r).prod : ℂ[X]).natDegree = rs.length := by
      have := natDegree_multiset_prod_X_sub_C_eq_card (rs : Multiset ℂ)
      simpa using this
    rw [h2] at h1
    simp at hn; omega

end degree

/-! ### The masked sum -/

theorem sumMag_eq_filter (det : ℂ → ℝ) (zs : List (ℂ × Bool)) :
    sumMag det zs = ((zs.filter fun zm => zm.2).map fun zm => 1 / |det zm.1|).sum := by
  induction zs with
  | nil => rfl
  | cons zm zs ih =>
    unfold sumMag at *
    obtain ⟨z, m⟩ := zm
    rw [List.map_cons, List.sum_cons, ih]
    cases m
    · rw [List.filter_cons_of_neg (by simp)]; simp
    · rw [List.filter_cons_of_pos (by simp), List.map_cons, List.sum_cons]; simp

theorem sumMag_withMask (det : ℂ → ℝ) (leq : ℂ → ℂ) (tol : ℝ) (w : ℂ) (zs : List ℂ) :
    sumMag det (withMask leq tol w zs) =
      ((zs.filter fun z => decide (‖leq z - w‖ < tol)).map fun z => 1 / |det z|).sum := by
  rw [sumMag_eq_filter, withMask, List.filter_map, List.map_map]
  rfl

end Microjax.Props
