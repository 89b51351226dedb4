import Verif.Props.PointSource

/-! # Properties C09-C11, C13: symmetries, critical curves, sequential tracking -/

noncomputable section

namespace Microjax.Props

open Complex ComplexConjugate Spec PointSource

/-! ## C09: symmetries -/

/-- C09, image sets: mirroring source and image in the lens axis. -/
theorem C09_reflect_image (s q : ℝ) (w z : ℂ) :
    IsImage (binary s q) (conj w) (conj z) ↔ IsImage (binary s q) w z := by
  have hmap : lensMap (binary s q) (conj z) = conj (lensMap (binary s q) z) := by
    simp [lensMap, binary]
  have hne : ∀ x : ℝ, conj z ≠ (x : ℂ) ↔ z ≠ (x : ℂ) := by
    intro x
    constructor <;> intro h hc <;> apply h
    · rw [hc, conj_ofReal]
    · have := congrArg conj hc; simpa using this
  unfold IsImage
  rw [hmap]
  constructor
  · rintro ⟨h1, h2⟩
    refine ⟨?_, (starRingEnd ℂ).injective h2⟩
    intro l hl
    have := h1 l hl
    simp only [binary, List.mem_cons, List.not_mem_nil, or_false] at hl
    rcases hl with rfl | rfl <;> exact (hne _).mp this
  · rintro ⟨h1, h2⟩
    refine ⟨?_, by rw [h2]⟩
    intro l hl
    have := h1 l hl
    simp only [binary, List.mem_cons, List.not_mem_nil, or_false] at hl
    rcases hl with rfl | rfl <;> exact (hne _).mpr this

/-- The binary with the masses exchanged is the original rotated by half a turn. -/
theorem binary_swap (s q : ℝ) (hq : q ≠ 0) (hq1 : 1 + q ≠ 0) :
    (binary s (1 / q)).Perm ((binary s q).map fun l => (l.1, -l.2)) := by
  have h2 : 1 + 1 / q ≠ 0 := by
    rw [show 1 + 1 / q = (1 + q) / q by field_simp; ring]; exact div_ne_zero hq1 hq
  have hq1' : q + 1 ≠ 0 := by rwa [add_comm]
  have e1 : (1 / q) / (1 + 1 / q) = 1 / (1 + q) := by field_simp; ring
  have e2 : 1 / (1 + 1 / q) = q / (1 + q) := by field_simp; ring
  have e3 : s / (1 + 1 / q) = q * s / (1 + q) := by field_simp; ring
  have e4 : 1 / q * s / (1 + 1 / q) = s / (1 + q) := by field_simp; ring
  unfold binary
  simp only [List.map_cons, List.map_nil]
  rw [e1, e2, e3, e4]
  simp only [ofReal_neg, neg_neg]
  exact List.Perm.swap _ _ _

theorem sum_map_neg' {α : Type*} (l : List α) (f : α → ℂ) :
    (l.map fun x => -f x).sum = -(l.map f).sum := by
  induction l with
  | nil => simp
  | cons a l ih => simp [ih]; ring

/-- C09, image sets: exchanging the masses (`q → 1/q`) and rotating by half a turn. -/
theorem C09_swap_image (s q : ℝ) (hq : q ≠ 0) (hq1 : 1 + q ≠ 0) (w z : ℂ) :
    IsImage (binary s (1 / q)) (-w) (-z) ↔ IsImage (binary s q) w z := by
  have hp := binary_swap s q hq hq1
  have hmap : lensMap (binary s (1 / q)) (-z) = -lensMap (binary s q) z := by
    unfold lensMap
    rw [(hp.map _).sum_eq, List.map_map]
    have : ∀ l : ℝ × ℂ, ((l.1 : ℂ) / (conj (-z) - conj (-l.2))) = -((l.1 : ℂ) / (conj z - conj l.2)) := by
      intro l
      rw [map_neg, map_neg, show -conj z - -conj l.2 = -(conj z - conj l.2) by ring, div_neg]
    simp only [Function.comp_def, this, sum_map_neg']
    ring
  unfold IsImage
  rw [hmap, neg_inj]
  refine and_congr_left fun _ => ?_
  constructor
  · intro h l hl hc
    exact h (l.1, -l.2) (hp.mem_iff.mpr (List.mem_map.mpr ⟨l, hl, rfl⟩)) (by simp [hc])
  · intro h l hl hc
    obtain ⟨l', hl', rfl⟩ := List.mem_map.mp (hp.mem_iff.mp hl)
    exact h l' hl' (neg_inj.mp hc)

/-- A complete root list of `c'` is (up to order) the image under a symmetry of one of `c`. -/
theorem rootList_perm_of_symm {c c' rs rs' : List ℂ} (σ τ : ℂ → ℂ)
    (h : IsRootList c rs) (h' : IsRootList c' rs') (hc' : c'.headD 0 ≠ 0)
    (hτ : ∀ x, evalPoly c' (σ x) = τ (evalPoly c x))
    (hprod : ∀ x, τ (c.headD 0 * (rs.map fun r => x - r).prod)
      = c'.headD 0 * ((rs.map σ).map fun r => σ x - r).prod)
    (hsurj : Function.Surjective σ) : rs'.Perm (rs.map σ) := by
  apply perm_of_prod_eq
  intro y
  obtain ⟨x, rfl⟩ := hsurj y
  have h1 := hτ x
  rw [h x, hprod, h' (σ x)] at h1
  exact mul_left_cancel₀ hc' h1

/-- C09, code: the magnification of the mirrored source is the same, for any root finder that returns
complete root lists on the two polynomials. -/
theorem C09_reflect_mag (roots : Option (List ℂ) → List ℂ → List ℂ) (u : UserParams) (w : ℂ)
    (hroots : ∀ v, v = w - xCM u ∨ v = conj w - xCM u →
      IsRootList (polyCoeffsBinary v (midParams2 u).a (midParams2 u).e1)
        (roots none (polyCoeffsBinary v (midParams2 u).a (midParams2 u).e1)))
    (hdeg : conj (w - xCM u) ^ 2 ≠ ((midParams2 u).a : ℂ) ^ 2) :
    magPointSource roots 2 u (conj w) = magPointSource roots 2 u w := by
  set p := midParams2 u
  set v := w - xCM u with hv
  have hcv : conj w - (xCM u : ℂ) = conj v := by simp [hv]
  rw [hcv] at hroots
  have hA := hroots v (Or.inl rfl)
  have hB := hroots (conj v) (Or.inr rfl)
  set rs := roots none (polyCoeffsBinary v p.a p.e1)
  set rs' := roots none (polyCoeffsBinary (conj v) p.a p.e1)
  have hl : ∀ x : ℂ, (polyCoeffsBinary x p.a p.e1).headD 0 = conj x ^ 2 - (p.a : ℂ) ^ 2 :=
    fun x => (C04_binary_leading x p.a p.e1).2
  have hne : conj v ^ 2 - (p.a : ℂ) ^ 2 ≠ 0 := sub_ne_zero.mpr hdeg
  have hne' : v ^ 2 - (p.a : ℂ) ^ 2 ≠ 0 := by
    intro hc; apply hne
    have := congrArg conj hc; simpa using this
  have hperm : rs'.Perm (rs.map conj) := by
    refine rootList_perm_of_symm conj conj hA hB ?_ ?_ ?_ (fun y => ⟨conj y, by simp⟩)
    · rw [hl]; simpa using hne'
    · intro x
      rw [evalPoly_binary, evalPoly_binary]; simp [map_ofNat]
    · intro x
      rw [map_mul, map_list_prod, List.map_map, List.map_map, hl, hl]
      simp [Function.comp_def]
  have hle : ∀ z, lensEq2 p (conj z) = conj (lensEq2 p z) := by intro z; simp [lensEq2]
  have hdj : ∀ z, detJac2 p (conj z) = detJac2 p z := by
    intro z
    have : (p.e1 : ℂ) / (conj (conj z) - p.a) ^ 2 + (1 - p.e1) / (conj (conj z) + p.a) ^ 2
        = conj ((p.e1 : ℂ) / (conj z - p.a) ^ 2 + (1 - p.e1) / (conj z + p.a) ^ 2) := by simp
    unfold detJac2
    rw [this, norm_conj]
  have h1 : ∀ x, magPointSource roots 2 u x
      = .ok (sumMag (detJac2 p) (withMask (lensEq2 p) (1 / 10 ^ 6) (x - xCM u)
        (roots none (polyCoeffsBinary (x - xCM u) p.a p.e1)))) := by
    intro x; simp [magPointSource, images2, p]
  rw [h1, h1, hcv, sumMag_withMask, sumMag_withMask]
  congr 1
  change ((rs'.filter _).map _).sum = ((rs.filter _).map _).sum
  rw [((hperm.filter _).map _).sum_eq, List.filter_map, List.map_map]
  have e1 : (fun z => decide (‖lensEq2 p z - conj v‖ < 1 / 10 ^ 6)) ∘ (conj : ℂ → ℂ)
      = fun z => decide (‖lensEq2 p z - v‖ < 1 / 10 ^ 6) := by
    funext z
    simp only [Function.comp_apply, hle, ← map_sub, norm_conj]
  have e2 : (fun z => 1 / |detJac2 p z|) ∘ (conj : ℂ → ℂ) = fun z => 1 / |detJac2 p z| := by
    funext z; simp [hdj]
  rw [e1, e2]

/-- C09, code: exchanging the masses and rotating the source by half a turn leaves the magnification
unchanged. -/
theorem C09_swap_mag (roots : Option (List ℂ) → List ℂ → List ℂ) (u u' : UserParams) (w : ℂ)
    (hs : u'.s = u.s) (hqq : u'.q = 1 / u.q) (hq : u.q ≠ 0) (hq1 : 1 + u.q ≠ 0)
    (hA : IsRootList (polyCoeffsBinary (w - xCM u) (midParams2 u).a (midParams2 u).e1)
        (roots none (polyCoeffsBinary (w - xCM u) (midParams2 u).a (midParams2 u).e1)))
    (hB : IsRootList (polyCoeffsBinary (-w - xCM u') (midParams2 u').a (midParams2 u').e1)
        (roots none (polyCoeffsBinary (-w - xCM u') (midParams2 u').a (midParams2 u').e1)))
    (hdeg : conj (w - xCM u) ^ 2 ≠ ((midParams2 u).a : ℂ) ^ 2) :
    magPointSource roots 2 u' (-w) = magPointSource roots 2 u w := by
  have h2 : 1 + 1 / u.q ≠ 0 := by
    rw [show 1 + 1 / u.q = (1 + u.q) / u.q by field_simp; ring]; exact div_ne_zero hq1 hq
  have hq1' : u.q + 1 ≠ 0 := by rwa [add_comm]
  have hx : xCM u' = -xCM u := by
    unfold xCM; rw [hs, hqq]; field_simp; ring
  have ha : (midParams2 u').a = (midParams2 u).a := by simp [midParams2, hs]
  have he : (midParams2 u').e1 = 1 - (midParams2 u).e1 := by
    simp only [midParams2, hqq]; field_simp; ring
  set p := midParams2 u
  set p' := midParams2 u'
  set v := w - xCM u with hv
  have hcv : -w - (xCM u' : ℂ) = -v := by rw [hx]; simp [hv]; ring
  rw [hcv] at hB
  set rs := roots none (polyCoeffsBinary v p.a p.e1)
  set rs' := roots none (polyCoeffsBinary (-v) p'.a p'.e1)
  have hl : ∀ (x : ℂ) (a e : ℝ), (polyCoeffsBinary x a e).headD 0 = conj x ^ 2 - (a : ℂ) ^ 2 :=
    fun x a e => (C04_binary_leading x a e).2
  have hne : conj v ^ 2 - (p.a : ℂ) ^ 2 ≠ 0 := sub_ne_zero.mpr hdeg
  have hlen : rs.length = 5 := by
    exact rootList_length (by rw [hl]; exact hne) hA (n := 5) rfl
  have hperm : rs'.Perm (rs.map fun z => -z) := by
    refine rootList_perm_of_symm (fun z => -z) (fun z => -z) hA hB ?_ ?_ ?_
      (fun y => ⟨-y, by simp⟩)
    · rw [hl, ha]; simpa using hne
    · intro x
      simp only [evalPoly_binary, ha, he, map_neg, ofReal_sub, ofReal_one]; ring
    · intro x
      have key : ∀ l : List ℂ, ((l.map fun z => -z).map fun r => -x - r).prod
          = (-1) ^ l.length * (l.map fun r => x - r).prod := by
        intro l
        induction l with
        | nil => simp
        | cons a l ih =>
          simp only [List.map_cons, List.prod_cons, List.length_cons, pow_succ, ih]; ring
      rw [key, hlen, hl, hl, ha, map_neg]; ring
  have hle : ∀ z, lensEq2 p' (-z) = -lensEq2 p z := by
    intro z
    simp only [lensEq2, ha, he, map_neg, ofReal_sub, ofReal_one]
    rw [show -conj z - (p.a : ℂ) = -(conj z + p.a) by ring,
      show -conj z + (p.a : ℂ) = -(conj z - p.a) by ring, div_neg, div_neg]
    ring
  have hdj : ∀ z, detJac2 p' (-z) = detJac2 p z := by
    intro z
    simp only [detJac2, ha, he, map_neg, ofReal_sub, ofReal_one]
    rw [show -conj z - (p.a : ℂ) = -(conj z + p.a) by ring,
      show -conj z + (p.a : ℂ) = -(conj z - p.a) by ring, neg_sq, neg_sq,
      show (1 - p.e1 : ℂ) / (conj z + p.a) ^ 2 + (1 - (1 - p.e1)) / (conj z - p.a) ^ 2
        = p.e1 / (conj z - p.a) ^ 2 + (1 - p.e1) / (conj z + p.a) ^ 2 by ring]
  have h1 : ∀ (t : UserParams) (x : ℂ), magPointSource roots 2 t x
      = .ok (sumMag (detJac2 (midParams2 t)) (withMask (lensEq2 (midParams2 t)) (1 / 10 ^ 6) (x - xCM t)
        (roots none (polyCoeffsBinary (x - xCM t) (midParams2 t).a (midParams2 t).e1)))) := by
    intro t x; simp [magPointSource, images2]
  rw [h1, h1, hcv, sumMag_withMask, sumMag_withMask]
  congr 1
  change ((rs'.filter _).map _).sum = ((rs.filter _).map _).sum
  rw [((hperm.filter _).map _).sum_eq, List.filter_map, List.map_map]
  have e1 : (fun z => decide (‖lensEq2 p' z - -v‖ < 1 / 10 ^ 6)) ∘ (fun z : ℂ => -z)
      = fun z => decide (‖lensEq2 p z - v‖ < 1 / 10 ^ 6) := by
    funext z
    simp only [Function.comp_apply, hle]
    rw [show -lensEq2 p z - -v = -(lensEq2 p z - v) by ring, norm_neg]
  have e2 : (fun z => 1 / |detJac2 p' z|) ∘ (fun z : ℂ => -z) = fun z => 1 / |detJac2 p z| := by
    funext z; simp [hdj]
  change ((rs.filter ((fun z => decide (‖lensEq2 p' z - -v‖ < 1 / 10 ^ 6)) ∘ (fun z : ℂ => -z))).map
    ((fun z => 1 / |detJac2 p' z|) ∘ (fun z : ℂ => -z))).sum = _
  rw [e1, e2]

/-! ## C10: critical curves -/

/-- Every point of the unit circle is `exp(-iφ)` for a phase of the sampled interval `[-π, π]`. -/
theorem exists_phase (x : ℂ) : ‖x‖ = 1 ↔ ∃ φ : ℝ, -Real.pi ≤ φ ∧ φ ≤ Real.pi ∧ exp (-I * φ) = x := by
  constructor
  · intro h
    refine ⟨-x.arg, by linarith [x.arg_le_pi], by linarith [x.neg_pi_lt_arg], ?_⟩
    have := Complex.norm_mul_exp_arg_mul_I x
    rw [h, ofReal_one, one_mul] at this
    rw [← this.trans rfl]; congr 1; push_cast
    rw [this]; ring
  · rintro ⟨φ, -, -, rfl⟩
    rw [show -I * (φ : ℂ) = ((-φ : ℝ) : ℂ) * I by push_cast; ring]
    exact Complex.norm_exp_ofReal_mul_I _

/-- C10, binary: a point off the lenses is a root of the critical polynomial for some phase of `[-π, π]` iff the
determinant returned by `lens_eq_det_jac` (which by C03 is the Jacobian determinant) vanishes there. -/
theorem C10_binary (p : MidParams) (z : ℂ) (h1 : z ≠ p.a) (h2 : z ≠ -p.a) :
    (∃ φ : ℝ, -Real.pi ≤ φ ∧ φ ≤ Real.pi ∧
      evalPoly (polyCoeffsCriticalBinary φ p.a p.e1) z = 0) ↔
    jacDet (lensMap (midBinary p)) z = 0 := by
  have e : lensEq2 p = lensMap (midBinary p) := funext (lensEq2_eq p)
  rw [← e, ← (C03_det_binary p z h1 h2).2]
  have A : z - p.a ≠ 0 := sub_ne_zero.mpr h1
  have B : z + p.a ≠ 0 := fun hc => h2 (by linear_combination hc)
  have hd : detJac2 p z = 1 - ‖(p.e1 : ℂ) / (z - p.a) ^ 2 + (1 - p.e1) / (z + p.a) ^ 2‖ ^ 2 := by
    rw [← norm_conj]; simp [detJac2]
  rw [hd]
  set x : ℂ := (p.e1 : ℂ) / (z - p.a) ^ 2 + (1 - p.e1) / (z + p.a) ^ 2 with hx
  have hn : 1 - ‖x‖ ^ 2 = 0 ↔ ‖x‖ = 1 := by
    have := norm_nonneg x
    constructor
    · intro h; nlinarith
    · intro h; rw [h]; norm_num
  rw [hn, exists_phase]
  refine exists_congr fun φ => and_congr_right fun _ => and_congr_right fun _ => ?_
  rw [evalPoly_criticalBinary, hx]
  generalize exp (-I * φ) = E
  constructor
  · intro h
    have : E * ((z - p.a) * (z + p.a)) ^ 2
        = p.e1 * (z + p.a) ^ 2 + (1 - p.e1) * (z - p.a) ^ 2 := by linear_combination h
    field_simp
    linear_combination this
  · intro h
    rw [h]; field_simp; ring

/-- C10, triple. -/
theorem C10_triple (p : MidParams) (z : ℂ) (h1 : z ≠ p.a) (h2 : z ≠ -p.a)
    (h3 : z ≠ p.r3 * exp (I * p.psi)) :
    (∃ φ : ℝ, -Real.pi ≤ φ ∧ φ ≤ Real.pi ∧
      evalPoly (polyCoeffsCriticalTriple φ p.a (r3Complex p) p.e1 p.e2) z = 0) ↔
    jacDet (lensMap (midTriple p)) z = 0 := by
  have e : lensEq3 p = lensMap (midTriple p) := funext (lensEq3_eq p)
  rw [← e, ← (C03_det_triple p z h1 h2 h3).2]
  have A : z - p.a ≠ 0 := sub_ne_zero.mpr h1
  have B : z + p.a ≠ 0 := fun hc => h2 (by linear_combination hc)
  have C : z - r3Complex p ≠ 0 := sub_ne_zero.mpr h3
  have hd : detJac3 p z = 1 - ‖(p.e1 : ℂ) / (z - p.a) ^ 2 + p.e2 / (z + p.a) ^ 2
      + (1 - p.e1 - p.e2) / (z - r3Complex p) ^ 2‖ ^ 2 := by
    rw [← norm_conj]; simp [detJac3]
  rw [hd]
  set x : ℂ := (p.e1 : ℂ) / (z - p.a) ^ 2 + p.e2 / (z + p.a) ^ 2
      + (1 - p.e1 - p.e2) / (z - r3Complex p) ^ 2 with hx
  have hn : 1 - ‖x‖ ^ 2 = 0 ↔ ‖x‖ = 1 := by
    have := norm_nonneg x
    constructor
    · intro h; nlinarith
    · intro h; rw [h]; norm_num
  rw [hn, exists_phase]
  refine exists_congr fun φ => and_congr_right fun _ => and_congr_right fun _ => ?_
  rw [evalPoly_criticalTriple, hx]
  generalize r3Complex p = r at *
  generalize exp (-I * φ) = E
  constructor
  · intro h
    have : E * ((z - p.a) * (z + p.a) * (z - r)) ^ 2
        = p.e1 * ((z + p.a) * (z - r)) ^ 2 + p.e2 * ((z - p.a) * (z - r)) ^ 2
          + (1 - p.e1 - p.e2) * ((z - p.a) * (z + p.a)) ^ 2 := by linear_combination h
    field_simp
    linear_combination this
  · intro h
    rw [h]; field_simp; ring

/-- C10: when no mass vanishes and the lenses are distinct, the polynomials have no root on a lens, so their
roots are exactly the critical points. -/
theorem C10_binary_off_lens (φ a e1 : ℝ) (ha : a ≠ 0) (he1 : e1 ≠ 0) (he2 : e1 ≠ 1) (z : ℂ)
    (h : evalPoly (polyCoeffsCriticalBinary φ a e1) z = 0) : z ≠ a ∧ z ≠ -a := by
  have hac : (a : ℂ) ≠ 0 := by exact_mod_cast ha
  have hec : (e1 : ℂ) ≠ 0 := by exact_mod_cast he1
  have hec2 : (1 - e1 : ℂ) ≠ 0 := by
    intro hc; apply he2; have : (1 : ℂ) = e1 := by linear_combination hc
    exact_mod_cast this.symm
  rw [evalPoly_criticalBinary] at h
  constructor
  · rintro rfl
    have : (e1 : ℂ) * (4 * (a : ℂ) ^ 2) = 0 := by linear_combination -h
    exact (mul_ne_zero hec (mul_ne_zero (by norm_num) (pow_ne_zero _ hac))) this
  · rintro rfl
    have : (1 - e1 : ℂ) * (4 * (a : ℂ) ^ 2) = 0 := by linear_combination -h
    exact (mul_ne_zero hec2 (mul_ne_zero (by norm_num) (pow_ne_zero _ hac))) this

/-- C10, one lens: the returned curve is the unit circle (where the Jacobian determinant vanishes) and the
returned caustic is the origin, which is the image of that circle under the lens map. -/
theorem C10_single (roots) (npts : ℕ) (u : UserParams) :
    ∃ rows, criticalAndCaustic roots npts 1 u = .ok rows ∧ rows.length = npts ∧
      ∀ row ∈ rows, ∃ c, row = [(c, lensEq1 c)] ∧ ‖c‖ = 1 ∧ jacDet lensEq1 c = 0 := by
  refine ⟨(linspacePhi npts).map fun f : ℝ => [(exp (-I * f), 0)], ?_, ?_, ?_⟩
  · simp [criticalAndCaustic]
  · simp [linspacePhi]
  · intro row hrow
    obtain ⟨f, _, rfl⟩ := List.mem_map.mp hrow
    have hn : ‖exp (-I * (f : ℂ))‖ = 1 := by
      rw [show -I * (f : ℂ) = ((-f : ℝ) : ℂ) * I by push_cast; ring]
      exact Complex.norm_exp_ofReal_mul_I _
    have h0 : exp (-I * (f : ℂ)) ≠ 0 := exp_ne_zero _
    refine ⟨_, ?_, hn, ?_⟩
    · congr 2
      unfold lensEq1
      have : conj (exp (-I * (f : ℂ))) = 1 / exp (-I * (f : ℂ)) := by
        rw [← exp_conj]; simp [← exp_neg]
      rw [this]; simp
    · rw [(C03_violated_single _ h0).2.1, hn]; norm_num

/-! ## C11: caustics and tracking -/

theorem applyMatch_perm (carry z : List ℂ) (h : carry.length = z.length) :
    (applyMatchPoints carry z).Perm z := by
  have hp := C12_match_points_perm (fun a b : ℂ => ‖b - a‖) carry z h
  unfold applyMatchPoints
  refine (hp.map _).trans ?_
  have : (List.range z.length).map (fun i => Jnp.get 0 z i) = z := by
    apply List.ext_getElem
    · simp
    · intro i h1 h2
      simp only [List.getElem_map, List.getElem_range]
      exact Jnp.get_of_lt 0 z h2
  rw [this]

/-- The rows of the tracking: row `k` is obtained from the roots of phase `k` by the greedy matching with row
`k - 1` (row 0 with itself). -/
theorem track_go (d : ℕ) (zs : List (List ℂ)) (carry : List ℂ) (hc : carry.length = d)
    (hz : ∀ z ∈ zs, z.length = d) :
    List.Forall₂ (fun row z => row.Perm z) (trackBranches.go carry zs) zs := by
  induction zs generalizing carry with
  | nil => exact List.Forall₂.nil
  | cons z zs ih =>
    have hp := applyMatch_perm carry z (by rw [hc, hz z (by simp)])
    refine List.Forall₂.cons hp (ih _ ?_ fun z' hz' => hz z' (by simp [hz']))
    rw [hp.length_eq, hz z (by simp)]

theorem track_of_map (f : ℝ → List ℂ) (d : ℕ) (hd : ∀ φ, (f φ).length = d) (phis : List ℝ) :
    List.Forall₂ (fun row φ => row.Perm (f φ)) (trackBranches (phis.map f)) phis := by
  cases phis with
  | nil => exact List.Forall₂.nil
  | cons φ0 phis =>
    have := track_go d ((φ0 :: phis).map f) (f φ0) (hd φ0) (by
      intro z hz; obtain ⟨φ, _, rfl⟩ := List.mem_map.mp hz; exact hd φ)
    rw [List.forall₂_map_right_iff] at this
    exact this

/-- C11: for any root finder returning a fixed number `d` of roots, every phase's row of the result consists
of the roots of that phase (shifted by `x_cm`), none lost or duplicated, paired with their images under the
lens map; `nlenses = 2`. -/
theorem C11_binary (roots : List ℂ → List ℂ) (npts : ℕ) (u : UserParams) (d : ℕ)
    (hd : ∀ φ : ℝ, (roots (polyCoeffsCriticalBinary φ (midParams2 u).a (midParams2 u).e1)).length = d) :
    ∃ rows, criticalAndCaustic roots npts 2 u = .ok rows ∧
      List.Forall₂ (fun row (φ : ℝ) =>
        (row.map fun c : ℂ × ℂ => c.1 - (xCM u : ℂ)).Perm
          (roots (polyCoeffsCriticalBinary φ (midParams2 u).a (midParams2 u).e1)) ∧
        ∀ c ∈ row, c.2 - xCM u = lensMap (midBinary (midParams2 u)) (c.1 - xCM u))
        rows (linspacePhi npts) := by
  refine ⟨_, by simp [criticalAndCaustic]; rfl, ?_⟩
  set p := midParams2 u
  set f : ℝ → List ℂ := fun φ => roots (polyCoeffsCriticalBinary φ p.a p.e1) with hf
  have h := track_of_map f d hd (linspacePhi npts)
  rw [List.forall₂_map_left_iff]
  refine h.imp ?_
  intro row φ hrow
  refine ⟨?_, ?_⟩
  · rw [List.map_map]
    simpa [Function.comp_def] using hrow
  · intro c hc
    obtain ⟨z, _, rfl⟩ := List.mem_map.mp hc
    simp [lensEq2_eq]

/-- C11 for three lenses. -/
theorem C11_triple (roots : List ℂ → List ℂ) (npts : ℕ) (u : UserParams) (d : ℕ)
    (hd : ∀ φ : ℝ, (roots (polyCoeffsCriticalTriple φ (midParams3 u).a (r3Complex (midParams3 u))
      (midParams3 u).e1 (midParams3 u).e2)).length = d) :
    ∃ rows, criticalAndCaustic roots npts 3 u = .ok rows ∧
      List.Forall₂ (fun row (φ : ℝ) =>
        (row.map fun c : ℂ × ℂ => c.1 - (xCM u : ℂ)).Perm
          (roots (polyCoeffsCriticalTriple φ (midParams3 u).a (r3Complex (midParams3 u))
            (midParams3 u).e1 (midParams3 u).e2)) ∧
        ∀ c ∈ row, c.2 - xCM u = lensMap (midTriple (midParams3 u)) (c.1 - xCM u))
        rows (linspacePhi npts) := by
  refine ⟨_, by simp [criticalAndCaustic]; rfl, ?_⟩
  set p := midParams3 u
  set f : ℝ → List ℂ := fun φ => roots (polyCoeffsCriticalTriple φ p.a (r3Complex p) p.e1 p.e2) with hf
  have h := track_of_map f d hd (linspacePhi npts)
  rw [List.forall₂_map_left_iff]
  refine h.imp ?_
  intro row φ hrow
  refine ⟨?_, ?_⟩
  · rw [List.map_map]
    simpa [Function.comp_def] using hrow
  · intro c hc
    obtain ⟨z, _, rfl⟩ := List.mem_map.mp hc
    simp [lensEq3_eq]

/-- C11, the tracking itself: row 0 is matched with the roots of phase 0 and row `k+1` is the greedy
nearest-neighbour assignment of the roots of phase `k+1` to the branches of row `k`. -/
theorem C11_tracking_greedy (zs : List (List ℂ)) (d : ℕ) (hz : ∀ z ∈ zs, z.length = d) (k : ℕ)
    (prev cur z : List ℂ) (hp : (trackBranches zs)[k]? = some prev)
    (hc : (trackBranches zs)[k + 1]? = some cur) (hzk : zs[k + 1]? = some z) :
    ∃ idx, IsGreedyMatching (fun a b : ℂ => ‖b - a‖) prev z idx ∧
      List.Forall₂ (fun i c => z[i]? = some c) idx cur := by
  have main : ∀ (zs : List (List ℂ)) (carry : List ℂ), carry.length = d → (∀ z ∈ zs, z.length = d) →
      ∀ (k : ℕ) (prev cur z : List ℂ), (trackBranches.go carry zs)[k]? = some prev →
      (trackBranches.go carry zs)[k + 1]? = some cur → zs[k + 1]? = some z →
      prev.length = d ∧ cur = applyMatchPoints prev z := by
    intro zs
    induction zs with
    | nil => intro carry _ _ k prev cur z hp; simp [trackBranches.go] at hp
    | cons z0 zs ih =>
      intro carry hcl hz k prev cur z hp hc hzk
      have hperm := applyMatch_perm carry z0 (by rw [hcl, hz z0 (by simp)])
      have hrl : (applyMatchPoints carry z0).length = d := by rw [hperm.length_eq, hz z0 (by simp)]
      simp only [trackBranches.go, List.getElem?_cons_succ] at hp hc hzk
      cases k with
      | zero =>
        simp only [List.getElem?_cons_zero, Option.some.injEq] at hp
        cases zs with
        | nil => simp at hzk
        | cons z1 zs =>
          simp only [List.getElem?_cons_zero, Option.some.injEq, trackBranches.go] at hc hzk
          subst hp hzk hc
          exact ⟨hrl, rfl⟩
      | succ k =>
        rw [List.getElem?_cons_succ] at hp
        exact ih _ hrl (fun z' hz' => hz z' (by simp [hz'])) k prev cur z hp hc hzk
  have hhead : zs ≠ [] := by intro hc; rw [hc] at hzk; simp at hzk
  obtain ⟨z0, zs', rfl⟩ := List.exists_cons_of_ne_nil hhead
  obtain ⟨hl, hcur⟩ := main (z0 :: zs') z0 (hz z0 (by simp)) hz k prev cur z hp hc hzk
  have hzl : z.length = d := hz z (List.mem_of_getElem? hzk)
  have hg := C12_match_points_greedy (fun a b : ℂ => ‖b - a‖) prev z (by omega)
  refine ⟨_, hg, ?_⟩
  rw [hcur, applyMatchPoints, List.forall₂_map_right_iff]
  rw [List.forall₂_same]
  intro i hi
  have hil := hg.inRange i hi
  rw [Jnp.get_of_lt 0 z hil, List.getElem?_eq_getElem hil]

/-! ## C13: sequential tracking -/

/-- C13: one column per source position; column 0 is the image finder at `w[0]` without initial guess, and
column `k+1` is the image finder at `w[k+1]` started from the image positions of column `k`. -/
theorem C13_sequential (fn : ℂ → Option (List ℂ) → List (ℂ × Bool)) (ws : List ℂ) :
    (imagesSequential fn ws).length = ws.length ∧
    (∀ w, ws[0]? = some w → (imagesSequential fn ws)[0]? = some (fn w none)) ∧
    (∀ (k : ℕ) (w : ℂ), ws[k + 1]? = some w → ∃ prev,
      (imagesSequential fn ws)[k]? = some prev ∧
      (imagesSequential fn ws)[k + 1]? = some (fn w (some (prev.map Prod.fst)))) := by
  have hgo : ∀ (ws : List ℂ) (z : List ℂ), (imagesSequential.go fn z ws).length = ws.length := by
    intro ws
    induction ws with
    | nil => intro z; rfl
    | cons w ws ih => intro z; simp [imagesSequential.go, ih]
  have hstep : ∀ (ws : List ℂ) (first : List (ℂ × Bool)) (k : ℕ) (w : ℂ), ws[k]? = some w →
      ∃ prev, (first :: imagesSequential.go fn (first.map Prod.fst) ws)[k]? = some prev ∧
        (first :: imagesSequential.go fn (first.map Prod.fst) ws)[k + 1]?
          = some (fn w (some (prev.map Prod.fst))) := by
    intro ws
    induction ws with
    | nil => intro _ k w h; simp at h
    | cons w0 ws ih =>
      intro first k w h
      cases k with
      | zero =>
        simp only [List.getElem?_cons_zero, Option.some.injEq] at h
        subst h
        exact ⟨first, by simp, by simp [imagesSequential.go]⟩
      | succ k =>
        rw [List.getElem?_cons_succ] at h
        obtain ⟨prev, h1, h2⟩ := ih (fn w0 (some (first.map Prod.fst))) k w h
        refine ⟨prev, ?_, ?_⟩
        · rw [List.getElem?_cons_succ]; exact h1
        · rw [List.getElem?_cons_succ]; exact h2
  cases ws with
  | nil => simp [imagesSequential]
  | cons w0 ws =>
    refine ⟨by simp [imagesSequential, hgo], ?_, ?_⟩
    · intro w h
      simp only [List.getElem?_cons_zero, Option.some.injEq] at h
      subst h; simp [imagesSequential]
    · intro k w h
      rw [List.getElem?_cons_succ] at h
      exact hstep ws (fn w0 none) k w h

/-- C13, masks: with the binary image finder every point flagged valid in column `k` solves the lens equation
for the `k`-th source position to the tolerance, whatever the root finder. -/
theorem C13_sequential_mask (roots) (p : MidParams) (ws : List ℂ) (k : ℕ) (w : ℂ)
    (hw : ws[k]? = some w) :
    ∃ col, (imagesSequential (fun w init => images2 roots init p w) ws)[k]? = some col ∧
      ∀ zm ∈ col, zm.2 = true ↔ ‖lensEq2 p zm.1 - w‖ < 1e-6 := by
  obtain ⟨-, h0, hs⟩ := C13_sequential (fun w init => images2 roots init p w) ws
  have hm : ∀ init, ∀ zm ∈ images2 roots init p w, zm.2 = true ↔ ‖lensEq2 p zm.1 - w‖ < 1e-6 := by
    intro init zm hzm
    simp only [images2, withMask, List.mem_map] at hzm
    obtain ⟨z, _, rfl⟩ := hzm
    simp only [decide_eq_true_eq]; norm_num
  cases k with
  | zero => exact ⟨_, h0 w hw, hm _⟩
  | succ k =>
    obtain ⟨prev, -, h2⟩ := hs k w hw
    exact ⟨_, h2, hm _⟩

example : (imagesSequential (fun w _ => images1 w) [1, 2, 3 + I]).length = 3 :=
  (C13_sequential _ _).1

end Microjax.Props
