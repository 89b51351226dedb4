import Verif.Props.Lightcurve
import Verif.Props.PointSourceExamples
import Mathlib.Analysis.Calculus.Deriv.Basic
import Mathlib.Topology.Algebra.Monoid

/-!
# C83: what it means that the quick (multipole) value is accepted

`mag_binary` and `magnifications` use the multipole value at a point when `_caustics_proximity_test` (and, for small
mass ratios, `_planetary_caustic_test`) accept it.
-/

noncomputable section

namespace Microjax.Props

open Complex ComplexConjugate Spec PointSource Multipole Tests Lightcurve

/-- The lens system of `mag_binary(..., s, q)`. -/
def binParams (s q : ℝ) : UserParams := { s := s, q := q, q3 := 0, r3 := 0, psi := 0 }

theorem proximity_iff (F : Field) (w : ℂ) (zs : List (ℂ × Bool)) (rho delta : ℝ) :
    proximityTest F w zs rho delta = true ↔
      ((∀ zm ∈ zs, zm.2 = true) ∨
        4 * (rho + 1 / 1000) < 1 / 2 * (zs.map fun zm => (if zm.2 then 0 else 1) * ghostFactor F w zm.1).sum) ∧
      2 / 100 * (zs.map fun zm => muCusp F rho (1 / 1000) zm.1 * (if zm.2 then 1 else 0)).sum + delta < 1 / 100 := by
  unfold proximityTest
  simp only [Bool.and_eq_true, decide_eq_true_eq]
  refine and_congr_left fun _ => ?_
  by_cases h : (zs.filter fun zm => !zm.2).length = 0
  · rw [if_pos h]
    simp only [true_iff]
    left
    intro zm hzm
    rw [List.length_eq_zero_iff, List.filter_eq_nil_iff] at h
    simpa using h zm hzm
  · rw [if_neg h]
    simp only [decide_eq_true_eq, gt_iff_lt]
    constructor
    · exact Or.inr
    · rintro (h' | h')
      · exfalso; apply h
        rw [List.length_eq_zero_iff, List.filter_eq_nil_iff]
        intro zm hzm; simp [h' zm hzm]
      · exact h'

theorem sum_masked_nonneg (zs : List (ℂ × Bool)) (f : ℂ → ℝ) (hf : ∀ z, 0 ≤ f z) :
    0 ≤ (zs.map fun zm : ℂ × Bool => f zm.1 * (if zm.2 then 1 else 0)).sum := by
  refine List.sum_nonneg ?_
  intro x hx
  obtain ⟨zm, -, rfl⟩ := List.mem_map.mp hx
  exact mul_nonneg (hf _) (by split_ifs <;> norm_num)

theorem le_sum_masked (zs : List (ℂ × Bool)) (f : ℂ → ℝ) (hf : ∀ z, 0 ≤ f z) (z : ℂ) (hz : (z, true) ∈ zs) :
    f z ≤ (zs.map fun zm : ℂ × Bool => f zm.1 * (if zm.2 then 1 else 0)).sum := by
  induction zs with
  | nil => simp at hz
  | cons a l ih =>
    rw [List.map_cons, List.sum_cons]
    have h1 := sum_masked_nonneg l f hf
    have h2 : 0 ≤ f a.1 * (if a.2 then 1 else 0) := mul_nonneg (hf _) (by split_ifs <;> norm_num)
    rcases List.mem_cons.mp hz with h | h
    · rw [← h]; simp only [if_true, mul_one]; linarith
    · linarith [ih h]

theorem muCusp_nonneg (F : Field) (rho rm : ℝ) (z : ℂ) : 0 ≤ muCusp F rho rm z := abs_nonneg _

/-- **C83, accuracy budget**: where `mag_binary` accepts the multipole value, that value differs from the
magnification `mag_point_source` gives for the same lens and position by less than 0.01. -/
theorem C83_close (roots : Option (List ℂ) → List ℂ → List ℂ) (rho u1 s q : ℝ) (w : ℂ)
    (h : binaryAccepts roots rho u1 s q w) :
    ∃ mu err pm, binaryMulti roots rho u1 s q w = .ok (mu, err) ∧ magPointSource roots 2 (binParams s q) w = .ok pm ∧
      0 ≤ err ∧ err < 1 / 100 ∧ |mu - pm| ≤ err := by
  obtain ⟨mu, err, h1, h2, -⟩ := h
  refine ⟨mu, err, sumMag (detJac2 (midParams2 (binParams s q)))
    (images2 roots none (midParams2 (binParams s q)) (w - xCM (binParams s q))), h1, by simp [magPointSource], ?_⟩
  have h0 := C24_binary (midParams2 (binParams s q))
    (images2 roots none (midParams2 (binParams s q)) (w - xCM (binParams s q))) u1
  obtain ⟨h3, h4⟩ := C23_residual 2 _ _ rho u1 mu err _ _ h1 h0
  refine ⟨h3, ?_, h4⟩
  have h5 := ((proximity_iff _ _ _ _ _).mp h2).2
  have h6 := sum_masked_nonneg (images2 roots none (midParams2 (binParams s q)) (w - xCM (binParams s q)))
    (fun z => muCusp (field2 (midParams2 (binParams s q))) rho (1 / 1000) z) (fun z => muCusp_nonneg _ _ _ _)
  have h7 : 0 ≤ 2 / 100 * ((images2 roots none (midParams2 (binParams s q)) (w - xCM (binParams s q))).map
    fun zm => muCusp (field2 (midParams2 (binParams s q))) rho (1 / 1000) zm.1 * (if zm.2 then 1 else 0)).sum :=
    mul_nonneg (by norm_num) h6
  have h8 : binParams s q = { s := s, q := q, q3 := 0, r3 := 0, psi := 0 } := rfl
  rw [← h8] at h5
  linarith

/-- **C83, light curve**: every entry of the light curve of `mag_binary` is a finite-source value of its own point, or a
value within 0.01 of the point-source magnification, or belongs to a rejected point for which no full evaluation was
left. -/
theorem C83_light_curve (roots : Option (List ℂ) → List ℂ → List ℂ) (unif limb : ℂ → ℝ) (w : List ℂ)
    (rho u1 s q : ℝ) (m c : ℕ) (hc : 1 ≤ c) :
    ∃ out, magBinary roots unif limb w rho u1 m c (some s) (some q) = .ok out ∧ out.length = w.length ∧
      ∀ (i : ℕ) (hi : i < w.length), binaryAccepts roots rho u1 s q w[i] →
        ∃ mu pm, out[i]? = some mu ∧ magPointSource roots 2 (binParams s q) w[i] = .ok pm ∧ |mu - pm| < 1 / 100 := by
  obtain ⟨out, h1, h2, h3⟩ := C30_selection roots unif limb w rho u1 s q m c hc
  refine ⟨out, h1, h2, fun i hi hacc => ?_⟩
  obtain ⟨mu, err, h4, h5⟩ := h3 i hi
  obtain ⟨mu', err', pm, g1, g2, -, g4, g5⟩ := C83_close roots rho u1 s q w[i] hacc
  rw [h4, Except.ok.injEq, Prod.mk.injEq] at g1
  obtain ⟨rfl, rfl⟩ := g1
  rw [if_neg (fun hch => hch.2.1 hacc)] at h5
  exact ⟨mu, pm, h5, g2, lt_of_le_of_lt g5 g4⟩

/-- The error estimate of the multipole expansion grows with the radius. -/
theorem residual_mono (wk : ℂ → ℕ → ℂ) (zs : List (ℂ × Bool)) (rho rho' u1 : ℝ) (h0 : 0 ≤ rho') (h : rho' ≤ rho) :
    (sumTerms wk zs rho' u1).2 ≤ (sumTerms wk zs rho u1).2 := by
  have h2 : rho' ^ 2 ≤ rho ^ 2 := pow_le_pow_left₀ h0 h 2
  have h4 : rho' ^ 4 ≤ rho ^ 4 := pow_le_pow_left₀ h0 h 4
  simp only [sumTerms, List.map_map, Function.comp_def]
  refine add_le_add (List.sum_le_sum fun zm _ => ?_) (List.sum_le_sum fun zm _ => ?_)
  · refine mul_le_mul_of_nonneg_left ?_ (by split_ifs <;> norm_num)
    simp only [cassan, abs_mul]
    rw [abs_of_nonneg (by positivity : (0 : ℝ) ≤ rho' ^ 2), abs_of_nonneg (by positivity : (0 : ℝ) ≤ rho ^ 2)]
    exact mul_le_mul_of_nonneg_left h2 (by positivity)
  · refine mul_le_mul_of_nonneg_left ?_ (by split_ifs <;> norm_num)
    simp only [cassan, abs_mul]
    rw [abs_of_nonneg (by positivity : (0 : ℝ) ≤ rho' ^ 4), abs_of_nonneg (by positivity : (0 : ℝ) ≤ rho ^ 4)]
    exact mul_le_mul_of_nonneg_left h4 (by positivity)

/-- **C83, monotonicity**: a position accepted for one source radius is accepted for every smaller one. -/
theorem C83_monotone (roots : Option (List ℂ) → List ℂ → List ℂ) (rho rho' u1 s q : ℝ) (w : ℂ) (h0 : 0 ≤ rho')
    (hle : rho' ≤ rho) (h : binaryAccepts roots rho u1 s q w) : binaryAccepts roots rho' u1 s q w := by
  obtain ⟨mu, err, h1, h2, h3⟩ := h
  refine ⟨_, _, binaryMulti_ok roots rho' u1 s q w, ?_, ?_⟩
  · rw [binaryMulti_ok, Except.ok.injEq] at h1
    have he : err = (multi2 roots (midParams2 { s := s, q := q, q3 := 0, r3 := 0, psi := 0 })
      rho u1 (w - xCM { s := s, q := q, q3 := 0, r3 := 0, psi := 0 })).2 := by rw [h1]
    rw [proximity_iff] at h2 ⊢
    refine ⟨h2.1.imp id fun h => by linarith, lt_of_le_of_lt ?_ h2.2⟩
    refine add_le_add (mul_le_mul_of_nonneg_left (List.sum_le_sum fun zm _ => ?_) (by norm_num)) ?_
    · refine mul_le_mul_of_nonneg_right ?_ (by split_ifs <;> norm_num)
      simp only [muCusp, abs_mul]
      refine mul_le_mul_of_nonneg_left ?_ (by positivity)
      rw [abs_of_nonneg (by positivity), abs_of_nonneg (by positivity)]
      exact pow_le_pow_left₀ (by linarith) (by linarith) 2
    · rw [he]
      exact residual_mono _ _ _ _ _ h0 hle
  · intro hq
    have := h3 hq
    simp only [planetaryTest, decide_eq_true_eq, gt_iff_lt] at this ⊢
    refine lt_of_le_of_lt ?_ this
    have : rho' ^ 2 ≤ rho ^ 2 := pow_le_pow_left₀ h0 hle 2
    linarith

/-- **C83, cusps**: for every valid image `z` of an accepted position, the cusp measure formed from the derivatives of the
deflection field `α` of the lens satisfies `36 (rho + 0.001)² |Im(conj(α'(z))³ α''(z)²)| < |det J(z)|⁵`. -/
theorem C83_cusp (roots : Option (List ℂ) → List ℂ → List ℂ) (rho u1 s q : ℝ) (w : ℂ)
    (h : binaryAccepts roots rho u1 s q w) (z : ℂ)
    (hz : (z, true) ∈ images2 roots none (midParams2 (binParams s q)) (w - xCM (binParams s q)))
    (hoff : ∀ l ∈ midBinary (midParams2 (binParams s q)), z ≠ l.2)
    (hreg : jacDet (lensMap (midBinary (midParams2 (binParams s q)))) z ≠ 0) (α : ℂ → ℂ)
    (hα : ∀ x, (∀ l ∈ midBinary (midParams2 (binParams s q)), x ≠ l.2) →
      lensMap (midBinary (midParams2 (binParams s q))) x = x - conj (α x)) :
    36 * (rho + 1 / 1000) ^ 2 * |(conj (deriv α z) ^ 3 * deriv (deriv α) z ^ 2).im|
      < |jacDet (lensMap (midBinary (midParams2 (binParams s q)))) z| ^ 5 := by
  set p := midParams2 (binParams s q) with hp
  have hmem : ∀ x : ℂ, (∀ l ∈ midBinary p, x ≠ l.2) ↔ x ≠ p.a ∧ x ≠ -(p.a : ℂ) := by intro x; simp [midBinary]
  obtain ⟨hz1, hz2⟩ := (hmem z).mp hoff
  have hopen : ∀ x : ℂ, x ≠ p.a → x ≠ -p.a → ∀ᶠ y : ℂ in nhds x, y ≠ p.a ∧ y ≠ -p.a := fun x a b =>
    Filter.Eventually.and (isOpen_ne.mem_nhds a) (isOpen_ne.mem_nhds b)
  have hαf : ∀ x : ℂ, x ≠ p.a → x ≠ -p.a → α x = -(field2 p).f x := by
    intro x a b
    have e1 := hα x ((hmem x).mpr ⟨a, b⟩)
    have e2 : lensMap (midBinary p) x = x + conj ((field2 p).f x) := (C49_binary p x a b).1
    rw [e1] at e2
    have : conj (α x) = conj (-(field2 p).f x) := by rw [map_neg]; linear_combination -e2
    exact (starRingEnd ℂ).injective this
  have hd1 : ∀ x : ℂ, x ≠ p.a → x ≠ -p.a → deriv α x = -(field2 p).fp x := by
    intro x a b
    have e : α =ᶠ[nhds x] fun y => -(field2 p).f y := (hopen x a b).mono fun y hy => hαf y hy.1 hy.2
    rw [e.deriv_eq]
    exact ((C49_binary p x a b).2.1.fun_neg).deriv
  have hd2 : deriv (deriv α) z = -(field2 p).fpp z := by
    have e : deriv α =ᶠ[nhds z] fun y => -(field2 p).fp y := (hopen z hz1 hz2).mono fun y hy => hd1 y hy.1 hy.2
    rw [e.deriv_eq]
    exact ((C49_binary p z hz1 hz2).2.2.1.fun_neg).deriv
  have hconj : (field2 p).fp (conj z) = conj ((field2 p).fp z) := by simp [field2]
  obtain ⟨mu, err, h1, h2, -⟩ := h
  have hc := ((proximity_iff _ _ _ _ _).mp h2).2
  have h8 : binParams s q = { s := s, q := q, q3 := 0, r3 := 0, psi := 0 } := rfl
  rw [← h8, ← hp] at hc
  have h0 := C24_binary p (images2 roots none p (w - xCM (binParams s q))) u1
  obtain ⟨h3, -⟩ := C23_residual 2 _ _ rho u1 mu err _ _ h1 h0
  have hle := le_sum_masked (images2 roots none p (w - xCM (binParams s q)))
    (fun z => muCusp (field2 p) rho (1 / 1000) z) (fun z => muCusp_nonneg _ _ _ _) z hz
  have hlt : muCusp (field2 p) rho (1 / 1000) z < 1 / 2 := by linarith
  have hJ : 1 - ‖(field2 p).fp z * (field2 p).fp (conj z)‖ = jacDet (lensMap (midBinary p)) z :=
    (C49_binary p z hz1 hz2).2.2.2
  unfold muCusp at hlt
  simp only [hJ] at hlt
  rw [hd1 z hz1 hz2, hd2]
  have him : (3 * (field2 p).fp (conj z) ^ 3 * (field2 p).fpp z ^ 2).im
      = -(3 * ((conj (-(field2 p).fp z)) ^ 3 * (-(field2 p).fpp z) ^ 2).im) := by
    rw [hconj, map_neg]
    have : (3 : ℂ) * (conj ((field2 p).fp z)) ^ 3 * (field2 p).fpp z ^ 2
        = -(((3 : ℝ) : ℂ) * ((-conj ((field2 p).fp z)) ^ 3 * (-(field2 p).fpp z) ^ 2)) := by push_cast; ring
    rw [this, neg_im, im_ofReal_mul]
  rw [him] at hlt
  have hpos : 0 < |jacDet (lensMap (midBinary p)) z| ^ 5 := pow_pos (abs_pos.mpr hreg) 5
  rw [abs_mul, abs_div, abs_mul, abs_neg, abs_mul, abs_pow, abs_of_nonneg (by positivity : (0 : ℝ) ≤ (rho + 1 / 1000) ^ 2),
    abs_of_pos (by norm_num : (0 : ℝ) < 6), abs_of_pos (by norm_num : (0 : ℝ) < 3), div_mul_eq_mul_div,
    div_lt_iff₀ hpos] at hlt
  linarith

/-- **C83, false images**: at a true image the auxiliary point `conj(w) - f(z)` of the false-image test is `conj z` and its
`Jhat` is the Jacobian determinant, so that the factor becomes `|det J|² / |f''(z̄) f'(z) - f''(z) f'(z̄)²|`. -/
theorem C83_true_image (p : MidParams) (z : ℂ) (h1 : z ≠ p.a) (h2 : z ≠ -(p.a : ℂ))
    (hreg : jacDet (lensMap (midBinary p)) z ≠ 0) :
    ghostFactor (field2 p) (lensMap (midBinary p) z) z =
      |jacDet (lensMap (midBinary p)) z| ^ 2 /
        ‖(field2 p).fpp (conj z) * (field2 p).fp z - (field2 p).fpp z * (field2 p).fp (conj z) ^ 2‖ := by
  have hJ : 1 - ‖(field2 p).fp z * (field2 p).fp (conj z)‖ = jacDet (lensMap (midBinary p)) z := (C49_binary p z h1 h2).2.2.2
  have hw : lensMap (midBinary p) z = z + conj ((field2 p).f z) := (C49_binary p z h1 h2).1
  have hz : conj (lensMap (midBinary p) z) - (field2 p).f z = conj z := by
    rw [hw, map_add, conj_conj]; ring
  unfold ghostFactor
  simp only [hz, hJ]
  set J := jacDet (lensMap (midBinary p)) z with hJdef
  have hJc : (J : ℂ) ≠ 0 := by exact_mod_cast hreg
  rw [show (J : ℂ) * (field2 p).fpp (conj z) * (field2 p).fp z - (J : ℂ) * (field2 p).fpp z * (field2 p).fp (conj z) *
      (field2 p).fp (conj z) = (J : ℂ) * ((field2 p).fpp (conj z) * (field2 p).fp z -
        (field2 p).fpp z * (field2 p).fp (conj z) ^ 2) by ring, mul_div_mul_left _ _ hJc, norm_div, norm_pow,
      Complex.norm_real, Real.norm_eq_abs]

/-- **C83, suspect points**: a position with a rejected root is accepted only if the factors of the rejected roots add up
to more than `8 (rho + 0.001)`. -/
theorem C83_ghost (roots : Option (List ℂ) → List ℂ → List ℂ) (rho u1 s q : ℝ) (w : ℂ)
    (h : binaryAccepts roots rho u1 s q w) (z : ℂ)
    (hz : (z, false) ∈ images2 roots none (midParams2 (binParams s q)) (w - xCM (binParams s q))) :
    8 * (rho + 1 / 1000) <
      (((images2 roots none (midParams2 (binParams s q)) (w - xCM (binParams s q))).filter fun zm => !zm.2).map
        fun zm => ghostFactor (field2 (midParams2 (binParams s q))) (w - xCM (binParams s q)) zm.1).sum := by
  obtain ⟨mu, err, h1, h2, -⟩ := h
  have hg := ((proximity_iff _ _ _ _ _).mp h2).1
  have h8 : binParams s q = { s := s, q := q, q3 := 0, r3 := 0, psi := 0 } := rfl
  rw [← h8] at hg
  have hsum : ∀ (g : ℂ → ℝ) (l : List (ℂ × Bool)),
      (l.map fun zm => (if zm.2 then 0 else 1) * g zm.1).sum = ((l.filter fun zm => !zm.2).map fun zm => g zm.1).sum := by
    intro g l
    induction l with
    | nil => rfl
    | cons a l ih =>
      rcases a with ⟨x, b⟩
      rw [List.map_cons, List.sum_cons, ih]
      cases b <;> simp
  rcases hg with hg | hg
  · exact absurd (hg _ hz) (by simp)
  · rw [hsum] at hg
    linarith

/-- **C83, availability**: a position accepted for a point source is accepted for all small enough sources. -/
theorem C83_available (roots : Option (List ℂ) → List ℂ → List ℂ) (u1 s q : ℝ) (w : ℂ)
    (h : binaryAccepts roots 0 u1 s q w) :
    ∃ rho0 > 0, ∀ rho, 0 ≤ rho → rho ≤ rho0 → binaryAccepts roots rho u1 s q w := by
  suffices hs : ∃ rho0 > 0, binaryAccepts roots rho0 u1 s q w by
    obtain ⟨r, hr, ha⟩ := hs
    exact ⟨r, hr, fun rho h1 h2 => C83_monotone roots r rho u1 s q w h1 h2 ha⟩
  obtain ⟨mu, err, h1, h2, h3⟩ := h
  rw [binaryMulti_ok, Except.ok.injEq] at h1
  have h8 : binParams s q = { s := s, q := q, q3 := 0, r3 := 0, psi := 0 } := rfl
  rw [← h8] at h1 h2 h3
  set p := midParams2 (binParams s q) with hp
  set zs := images2 roots none p (w - xCM (binParams s q)) with hzs
  have he : err = (multi2 roots p 0 u1 (w - xCM (binParams s q))).2 := by rw [h1]
  rw [proximity_iff] at h2
  obtain ⟨hg, hc⟩ := h2
  -- the three quantities that are compared are continuous in the radius
  have c1 : Continuous fun rho : ℝ => 2 / 100 * (zs.map fun zm => muCusp (field2 p) rho (1 / 1000) zm.1 *
      (if zm.2 then 1 else 0)).sum + (multi2 roots p rho u1 (w - xCM (binParams s q))).2 := by
    refine Continuous.add (continuous_const.mul (continuous_list_sum _ fun zm _ => ?_)) ?_
    · unfold muCusp; fun_prop
    · unfold multi2
      simp only [sumTerms, List.map_map, Function.comp_def, cassan]
      refine Continuous.add (continuous_list_sum _ fun zm _ => ?_) (continuous_list_sum _ fun zm _ => ?_) <;> fun_prop
  have e1 := (c1.tendsto 0).eventually_lt_const (by rw [he] at hc; exact hc)
  have e2 : ∀ᶠ rho : ℝ in nhds 0, ((∀ zm ∈ zs, zm.2 = true) ∨ 4 * (rho + 1 / 1000) < 1 / 2 * (zs.map fun zm =>
      (if zm.2 then 0 else 1) * ghostFactor (field2 p) (w - xCM (binParams s q)) zm.1).sum) := by
    rcases hg with hg | hg
    · exact Filter.Eventually.of_forall fun _ => Or.inl hg
    · have c2 : Continuous fun rho : ℝ => 4 * (rho + 1 / 1000) := by fun_prop
      exact ((c2.tendsto 0).eventually_lt_const hg).mono fun _ h => Or.inr h
  have e3 : ∀ᶠ rho : ℝ in nhds 0, (q < 1 / 100 → planetaryTest p (w - xCM (binParams s q)) rho = true) := by
    by_cases hq : q < 1 / 100
    · have h3' := h3 hq
      simp only [planetaryTest, decide_eq_true_eq, gt_iff_lt] at h3' ⊢
      refine Filter.Eventually.mono (Continuous.tendsto' ?_ (0 : ℝ) _ rfl |>.eventually_lt_const h3') fun _ h _ => h
      fun_prop
    · exact Filter.Eventually.of_forall fun _ h => absurd h hq
  have e := (e1.and (e2.and e3)).filter_mono (nhdsWithin_le_nhds (s := Set.Ioi (0 : ℝ)))
  obtain ⟨r, hr, hr0⟩ := (e.and self_mem_nhdsWithin).exists
  refine ⟨r, hr0, _, _, binaryMulti_ok roots r u1 s q w, ?_, hr.2.2⟩
  rw [← h8, ← hp, proximity_iff]
  exact ⟨hr.2.1, hr.1⟩

theorem exU_cusp (z : ℂ) (hz : z ∈ exRoots) :
    (3 * (field2 (midParams2 exU)).fp (conj z) ^ 3 * (field2 (midParams2 exU)).fpp z ^ 2).im = 0 := by
  have hc : conj z = z ∨ conj z = -z := by
    simp only [exRoots, List.mem_cons, List.not_mem_nil, or_false] at hz
    rcases hz with rfl | rfl | rfl | rfl | rfl <;> simp [-ofReal_div]
  have k2 : conj (2 : ℂ) = 2 := Complex.conj_ofNat 2
  have k3 : conj (3 : ℂ) = 3 := Complex.conj_ofNat 3
  have h1 : conj ((field2 (midParams2 exU)).fp (conj z)) = (field2 (midParams2 exU)).fp z := by simp [field2]
  have h2 : conj ((field2 (midParams2 exU)).fpp z) = (field2 (midParams2 exU)).fpp (conj z) := by simp [field2, k2]
  have h3 : (field2 (midParams2 exU)).fp (-z) = (field2 (midParams2 exU)).fp z := by
    simp only [field2, exU_a, exU_e1]; push_cast
    rw [show (-z - 1 / 2) ^ 2 = (z + 1 / 2) ^ 2 by ring, show (-z + 1 / 2) ^ 2 = (z - 1 / 2) ^ 2 by ring]; ring
  have h4 : (field2 (midParams2 exU)).fpp (-z) = -(field2 (midParams2 exU)).fpp z := by
    simp only [field2, exU_a, exU_e1]; push_cast
    rw [sub_neg_eq_add, ← sub_eq_add_neg]; ring
  rw [← conj_eq_iff_im, map_mul, map_mul, map_pow, map_pow, h1, h2]
  rcases hc with h | h
  · simp [h, k3]
  · rw [h, h3, h4]; simp [k3]

/-- The equal-mass binary of unit separation with the source at the centre of mass: accepted for a point source. -/
theorem exU_accepts (u1 : ℝ) : binaryAccepts exFinder 0 u1 1 1 0 := by
  have hx : (0 : ℂ) - (xCM exU : ℂ) = 0 := by rw [exU_x]; simp
  have hu : exU = { s := 1, q := 1, q3 := 0, r3 := 0, psi := 0 } := rfl
  have h24 := C24_binary (midParams2 exU) (images2 exFinder none (midParams2 exU) (0 - xCM exU)) u1
  refine ⟨_, 0, h24, ?_, by norm_num⟩
  rw [← hu, hx, proximity_iff]
  have hmem : ∀ zm ∈ images2 exFinder none (midParams2 exU) 0, zm.2 = true ∧ zm.1 ∈ exRoots := by
    intro zm hzm
    simp only [images2, withMask, exFinder, List.mem_map] at hzm
    obtain ⟨z, hz, rfl⟩ := hzm
    refine ⟨?_, hz⟩
    rw [(exRoots_images z hz).1]; norm_num
  refine ⟨Or.inl fun zm h => (hmem zm h).1, ?_⟩
  have hzero : ((images2 exFinder none (midParams2 exU) 0).map fun zm =>
      muCusp (field2 (midParams2 exU)) 0 (1 / 1000) zm.1 * (if zm.2 then 1 else 0)).sum = 0 := by
    refine List.sum_eq_zero fun x hx => ?_
    obtain ⟨zm, hzm, rfl⟩ := List.mem_map.mp hx
    have hz := (hmem zm hzm).2
    have : muCusp (field2 (midParams2 exU)) 0 (1 / 1000) zm.1 = 0 := by
      have him : (3 * (field2 (midParams2 exU)).fp (conj zm.1) ^ 3 * (field2 (midParams2 exU)).fpp zm.1 ^ 2).im = 0 := by
        exact exU_cusp zm.1 hz
      unfold muCusp
      simp only [him]
      simp
    rw [this, zero_mul]
  rw [hzero]; norm_num

/-- C83 applies: a source of positive radius at the centre of the equal-mass binary is accepted, and its quick value is
within 0.01 of the exact point-source magnification. -/
example (u1 : ℝ) : ∃ rho > 0, binaryAccepts exFinder rho u1 1 1 0 ∧
    ∃ mu err, binaryMulti exFinder rho u1 1 1 0 = .ok (mu, err) ∧ |mu - pointMag (Spec.binary 1 1) 0| < 1 / 100 := by
  obtain ⟨rho, hr, h⟩ := C83_available exFinder u1 1 1 0 (exU_accepts u1)
  have ha := h rho hr.le le_rfl
  obtain ⟨mu, err, pm, h1, h2, -, h4, h5⟩ := C83_close exFinder rho u1 1 1 0 ha
  refine ⟨rho, hr, ha, mu, err, h1, ?_⟩
  have hx : (0 : ℂ) - (xCM exU : ℂ) = 0 := by rw [exU_x]; simp
  have h6 : magPointSource exFinder 2 exU 0 = .ok (pointMag (Spec.binary 1 1) 0) := by
    refine C06_binary_mag exFinder exU 0 (by norm_num [exU]) ?_ ?_ ?_ ?_
    · rw [hx]; exact exRoots_isRootList
    · rw [hx, exU_a]; norm_num
    · exact exRoots_nodup
    · intro r hr _
      rw [hx]; exact exRoots_images r hr
  have h7 : binParams 1 1 = exU := rfl
  rw [h7, h6, Except.ok.injEq] at h2
  rw [h2]
  exact lt_of_le_of_lt h5 h4

/-! ## A wide binary: three images and two false ones -/

/-- The equal-mass binary of separation 4. -/
def exV : UserParams := { s := 4, q := 1 }

/-- The roots for a source at the origin: `0`, `±√5` are images, `±√3` are not. -/
def exRootsV : List ℂ := [0, (Real.sqrt 5 : ℝ), ((-Real.sqrt 5 : ℝ) : ℂ), (Real.sqrt 3 : ℝ), ((-Real.sqrt 3 : ℝ) : ℂ)]

theorem exV_a : (midParams2 exV).a = 2 := by simp [midParams2, exV]; norm_num
theorem exV_e1 : (midParams2 exV).e1 = 1 / 2 := by simp [midParams2, exV]; norm_num
theorem exV_x : xCM exV = 0 := by simp [xCM, exV]

theorem exRootsV_isRootList : IsRootList (polyCoeffsBinary 0 (midParams2 exV).a (midParams2 exV).e1) exRootsV := by
  intro x
  rw [evalPoly_binary, (C04_binary_leading _ _ _).2, exV_a, exV_e1]
  simp only [exRootsV, List.map_cons, List.map_nil, List.prod_cons, List.prod_nil, map_zero]
  push_cast
  have h5 := sq5
  have h3 := sq3
  linear_combination (-4 * x * (x ^ 2 - (Real.sqrt 3 : ℂ) ^ 2)) * h5 + (-4 * x * (x ^ 2 - 5)) * h3

theorem exV_f (z : ℂ) (hz : z ^ 2 ≠ 4) : (field2 (midParams2 exV)).f z = -z / (z ^ 2 - 4) ∧
    (field2 (midParams2 exV)).fp z = (z ^ 2 + 4) / (z ^ 2 - 4) ^ 2 ∧
    (field2 (midParams2 exV)).fpp z = -(2 * z * (z ^ 2 + 12)) / (z ^ 2 - 4) ^ 3 := by
  have h1 : z - 2 ≠ 0 := fun h => hz (by rw [sub_eq_zero.mp h]; norm_num)
  have h2 : z + 2 ≠ 0 := fun h => hz (by rw [eq_neg_of_add_eq_zero_left h]; norm_num)
  have h3 : (2 : ℂ) - z ≠ 0 := fun h => h1 (by linear_combination -h)
  have h4 : (2 : ℂ) + z ≠ 0 := fun h => h2 (by linear_combination h)
  simp only [field2, exV_a, exV_e1]
  push_cast
  rw [show z ^ 2 - 4 = (z - 2) * (z + 2) by ring, show (2 : ℂ) - z = -(z - 2) by ring, show (2 : ℂ) + z = z + 2 by ring]
  refine ⟨?_, ?_, ?_⟩ <;> · field_simp; ring

theorem exV_lens (z : ℝ) (hz : z ^ 2 ≠ 4) : lensEq2 (midParams2 exV) z = ((z - z / (z ^ 2 - 4) : ℝ) : ℂ) := by
  have hz' : (z : ℂ) ^ 2 ≠ 4 := by exact_mod_cast hz
  have := (exV_f z hz').1
  simp only [field2] at this
  simp only [lensEq2, conj_ofReal]
  push_cast at this ⊢
  linear_combination this

/-- Value of the factor at `±√3`. -/
theorem exV_ghost (y : ℝ) (hy : y ^ 2 = 3) : ghostFactor (field2 (midParams2 exV)) 0 y = 48 ^ 2 / (6 * 7 * 30 * |y|) := by
  have hyc : (y : ℂ) ^ 2 = 3 := by exact_mod_cast hy
  obtain ⟨f1, f2, f3⟩ := exV_f y (by rw [hyc]; norm_num)
  obtain ⟨g1, g2, g3⟩ := exV_f (-y) (by rw [neg_sq, hyc]; norm_num)
  rw [neg_sq] at g2 g3
  rw [hyc] at f1 f2 f3 g2 g3
  norm_num at f1 f2 f3 g2 g3
  unfold ghostFactor
  have hzh : conj (0 : ℂ) - (field2 (midParams2 exV)).f y = -(y : ℂ) := by rw [f1]; simp
  simp only [hzh, conj_ofReal, f2, f3, g2]
  norm_num
  rw [show -(48 * (2 * (y : ℂ) * 15) * 7) + 48 * (2 * (y : ℂ) * 15) * 7 * 7 = ((60480 * y : ℝ) : ℂ) by push_cast; ring,
    Complex.norm_real, Real.norm_eq_abs, abs_mul, abs_of_pos (by norm_num : (0 : ℝ) < 60480)]
  have : |y| ≠ 0 := by rw [abs_ne_zero]; rintro rfl; norm_num at hy
  field_simp
  norm_num

/-- The validity flags. -/
theorem exV_images : images2 (fun _ _ => exRootsV) none (midParams2 exV) 0 =
    [(0, true), (((Real.sqrt 5 : ℝ) : ℂ), true), (((-Real.sqrt 5 : ℝ) : ℂ), true), (((Real.sqrt 3 : ℝ) : ℂ), false),
      (((-Real.sqrt 3 : ℝ) : ℂ), false)] := by
  have h5 : Real.sqrt 5 ^ 2 = 5 := Real.sq_sqrt (by norm_num)
  have h3 : Real.sqrt 3 ^ 2 = 3 := Real.sq_sqrt (by norm_num)
  have hp : 1 ≤ Real.sqrt 3 := by rw [Real.one_le_sqrt]; norm_num
  have l0 := exV_lens 0 (by norm_num)
  have l1 := exV_lens (Real.sqrt 5) (by rw [h5]; norm_num)
  have l2 := exV_lens (-Real.sqrt 5) (by rw [neg_sq, h5]; norm_num)
  have l3 := exV_lens (Real.sqrt 3) (by rw [h3]; norm_num)
  have l4 := exV_lens (-Real.sqrt 3) (by rw [neg_sq, h3]; norm_num)
  rw [h5, show Real.sqrt 5 - Real.sqrt 5 / (5 - 4) = 0 by ring] at l1
  rw [neg_sq, h5, show -Real.sqrt 5 - -Real.sqrt 5 / (5 - 4) = 0 by ring] at l2
  rw [h3, show Real.sqrt 3 - Real.sqrt 3 / (3 - 4) = 2 * Real.sqrt 3 by ring] at l3
  rw [neg_sq, h3, show -Real.sqrt 3 - -Real.sqrt 3 / (3 - 4) = -(2 * Real.sqrt 3) by ring] at l4
  rw [show (0 : ℝ) - 0 / (0 ^ 2 - 4) = 0 by norm_num, ofReal_zero] at l0
  have hn : ¬ (2 * |Real.sqrt 3| < 1 / 10 ^ 6) := by rw [abs_of_pos (by linarith)]; norm_num; linarith
  simp only [images2, withMask, exRootsV, List.map_cons, List.map_nil, l0, l1, l2, l3, l4, sub_zero, ofReal_zero,
    norm_zero, Complex.norm_real, Real.norm_eq_abs, abs_neg, abs_mul, abs_two]
  simp only [hn, decide_false]
  norm_num

theorem exV_accepts (u1 : ℝ) : binaryAccepts (fun _ _ => exRootsV) 0 u1 4 1 0 := by
  have hx : (0 : ℂ) - (xCM exV : ℂ) = 0 := by rw [exV_x]; simp
  have hu : exV = { s := 4, q := 1, q3 := 0, r3 := 0, psi := 0 } := rfl
  have h24 := C24_binary (midParams2 exV) (images2 (fun _ _ => exRootsV) none (midParams2 exV) (0 - xCM exV)) u1
  refine ⟨_, 0, h24, ?_, by norm_num⟩
  rw [← hu, hx, exV_images, proximity_iff]
  have h5 : Real.sqrt 5 ^ 2 = 5 := Real.sq_sqrt (by norm_num)
  have h3 : Real.sqrt 3 ^ 2 = 3 := Real.sq_sqrt (by norm_num)
  have hr : ∀ y : ℝ, y ^ 2 ≠ 4 → muCusp (field2 (midParams2 exV)) 0 (1 / 1000) y = 0 := by
    intro y hy
    have hyc : (y : ℂ) ^ 2 ≠ 4 := by exact_mod_cast hy
    obtain ⟨-, f2, f3⟩ := exV_f y hyc
    have him : (3 * (field2 (midParams2 exV)).fp (conj (y : ℂ)) ^ 3 * (field2 (midParams2 exV)).fpp y ^ 2).im = 0 := by
      rw [conj_ofReal, f2, f3]
      have : (3 : ℂ) * ((y ^ 2 + 4) / (y ^ 2 - 4) ^ 2) ^ 3 * (-(2 * y * (y ^ 2 + 12)) / (y ^ 2 - 4) ^ 3) ^ 2
        = ((3 * ((y ^ 2 + 4) / (y ^ 2 - 4) ^ 2) ^ 3 * (-(2 * y * (y ^ 2 + 12)) / (y ^ 2 - 4) ^ 3) ^ 2 : ℝ) : ℂ) := by
        push_cast; rfl
      rw [this, ofReal_im]
    unfold muCusp
    simp only [him]
    simp
  have g1 := exV_ghost (Real.sqrt 3) h3
  have g2 := exV_ghost (-Real.sqrt 3) (by rw [neg_sq, h3])
  have r0 := hr 0 (by norm_num)
  have r1 := hr (Real.sqrt 5) (by rw [h5]; norm_num)
  have r2 := hr (-Real.sqrt 5) (by rw [neg_sq, h5]; norm_num)
  rw [ofReal_zero] at r0
  refine ⟨Or.inr ?_, ?_⟩
  · simp only [List.map_cons, List.map_nil, List.sum_cons, List.sum_nil, g1, g2, abs_neg]
    have hp : 0 < Real.sqrt 3 := Real.sqrt_pos.mpr (by norm_num)
    have hle : Real.sqrt 3 ≤ 2 := by nlinarith
    have : (1 : ℝ) / 10 ≤ 48 ^ 2 / (6 * 7 * 30 * |Real.sqrt 3|) := by
      rw [abs_of_pos hp, le_div_iff₀ (by positivity)]; linarith
    norm_num at this ⊢
    linarith
  · simp only [List.map_cons, List.map_nil, List.sum_cons, List.sum_nil, r0, r1, r2]
    norm_num

/-- The Jacobian determinant at `√5`. -/
theorem exV_jac : jacDet (lensMap (midBinary (midParams2 exV))) ((Real.sqrt 5 : ℝ) : ℂ) = -80 ∧
    ((Real.sqrt 5 : ℝ) : ℂ) ≠ (midParams2 exV).a ∧ ((Real.sqrt 5 : ℝ) : ℂ) ≠ -((midParams2 exV).a : ℂ) := by
  have hne : ∀ b : ℂ, b ^ 2 = 4 → ((Real.sqrt 5 : ℝ) : ℂ) ≠ b := by
    rintro b hb rfl
    rw [sq5] at hb; norm_num at hb
  have h1 := hne (midParams2 exV).a (by rw [exV_a]; norm_num)
  have h2 := hne (-((midParams2 exV).a : ℂ)) (by rw [exV_a]; norm_num)
  refine ⟨?_, h1, h2⟩
  have hJ := (C49_binary (midParams2 exV) _ h1 h2).2.2.2
  refine hJ.symm.trans ?_
  rw [conj_ofReal, (exV_f _ (by rw [sq5]; norm_num)).2.1, sq5]
  norm_num

/-- C83 applies to the wide binary with two false images and a source of positive radius: all parts. -/
example (u1 : ℝ) : ∃ rho > 0, binaryAccepts (fun _ _ => exRootsV) rho u1 4 1 0 ∧
    8 * (rho + 1 / 1000) < (((images2 (fun _ _ => exRootsV) none (midParams2 exV) (0 - xCM exV)).filter
      fun zm => !zm.2).map fun zm => ghostFactor (field2 (midParams2 exV)) (0 - xCM exV) zm.1).sum ∧
    36 * (rho + 1 / 1000) ^ 2 * |(conj (deriv (fun z => -(field2 (midParams2 exV)).f z) (Real.sqrt 5 : ℝ)) ^ 3 *
      deriv (deriv (fun z => -(field2 (midParams2 exV)).f z)) (Real.sqrt 5 : ℝ) ^ 2).im| < 80 ^ 5 := by
  obtain ⟨rho, hr, h⟩ := C83_available (fun _ _ => exRootsV) u1 4 1 0 (exV_accepts u1)
  have ha := h rho hr.le le_rfl
  have hx : (0 : ℂ) - (xCM exV : ℂ) = 0 := by rw [exV_x]; simp
  have hu : binParams 4 1 = exV := rfl
  obtain ⟨hj, h1, h2⟩ := exV_jac
  refine ⟨rho, hr, ha, C83_ghost _ rho u1 4 1 0 ha (Real.sqrt 3 : ℝ) ?_, ?_⟩
  · rw [hu, hx, exV_images]; simp
  · have := C83_cusp _ rho u1 4 1 0 ha (Real.sqrt 5 : ℝ) (by rw [hu, hx, exV_images]; simp)
      (by
        intro l hl
        rw [hu] at hl
        rcases List.mem_cons.mp hl with rfl | hl
        · exact h1
        · rw [List.mem_singleton.mp hl]; exact h2) (by rw [hu, hj]; norm_num)
      (fun z => -(field2 (midParams2 exV)).f z) (by
        intro x hx'
        rw [hu] at hx' ⊢
        have hx2 : x ≠ (midParams2 exV).a ∧ x ≠ -((midParams2 exV).a : ℂ) := by simpa [midBinary] using hx'
        have e : lensMap (midBinary (midParams2 exV)) x = x + conj ((field2 (midParams2 exV)).f x) :=
          (C49_binary (midParams2 exV) x hx2.1 hx2.2).1
        rw [e, map_neg, sub_neg_eq_add])
    rw [hu, hj] at this
    norm_num at this ⊢
    exact this

/-- C83_true_image applies at `√5`. -/
example : ghostFactor (field2 (midParams2 exV)) (lensMap (midBinary (midParams2 exV)) (Real.sqrt 5 : ℝ))
    (Real.sqrt 5 : ℝ) = 6400 / ‖(field2 (midParams2 exV)).fpp (conj ((Real.sqrt 5 : ℝ) : ℂ)) *
      (field2 (midParams2 exV)).fp (Real.sqrt 5 : ℝ) - (field2 (midParams2 exV)).fpp (Real.sqrt 5 : ℝ) *
        (field2 (midParams2 exV)).fp (conj ((Real.sqrt 5 : ℝ) : ℂ)) ^ 2‖ := by
  obtain ⟨hj, h1, h2⟩ := exV_jac
  rw [C83_true_image _ _ h1 h2 (by rw [hj]; norm_num), hj]
  norm_num

end Microjax.Props
