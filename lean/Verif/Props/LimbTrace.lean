import Verif.Props.RayShooting
import Verif.Spec.Regions
import Mathlib.Analysis.Complex.Polynomial.Basic
import Mathlib.Algebra.Polynomial.Splits
import Verif.Model.MergeArea

/-! # C41: the limb is traced through the lens the user specified -/

noncomputable section

namespace Microjax.Props

open Complex ComplexConjugate Jnp ExtendedSource MergeArea Spec PointSource

/-- The system the user describes, in the frame of the images. -/
theorem lensMap_user2 (u : UserParams) (hq : 1 + u.q ≠ 0) (z : ℂ) :
    lensMap (binary u.s u.q) (z + xCM u) = lensEq2 (midParams2 u) z + xCM u := by
  rw [← (C08_binary_frame u hq).1, lensMap_translate, lensEq2_eq]

theorem lensMap_user3 (u : UserParams) (hq : 1 + u.q ≠ 0) (hq3 : 1 + u.q + u.q3 ≠ 0) (z : ℂ) :
    lensMap (triple u.s u.q u.q3 u.r3 u.psi) (z + xCM u) = lensEq3 (midParams3 u) z + xCM u := by
  rw [← (C08_triple_frame u hq hq3).1, lensMap_translate, lensEq3_eq]

theorem mem_sourceLimb (w : ℂ) (rho : ℝ) (Nlimb : ℕ) (x : ℂ) (hx : x ∈ sourceLimb w rho Nlimb) :
    ∃ t : ℝ, x = w + rho * exp (I * t) := by
  obtain ⟨t, _, rfl⟩ := List.mem_map.mp hx
  exact ⟨t, rfl⟩

/-- Valid limb images of the binary. -/
theorem limb2_valid (roots) (w : ℂ) (rho : ℝ) (Nlimb : ℕ) (u : UserParams) (hq : 1 + u.q ≠ 0) (limb)
    (h : calcSourceLimb roots w rho Nlimb 2 u = .ok limb) (z : ℂ) (hz : (z, true) ∈ limb) :
    ∃ t : ℝ, ‖lensMap (binary u.s u.q) z - (w + rho * exp (I * t))‖ < 1e-6 := by
  simp only [calcSourceLimb, if_true, Except.ok.injEq] at h
  rw [← h, List.mem_flatMap] at hz
  obtain ⟨x, hx, hz⟩ := hz
  obtain ⟨t, rfl⟩ := mem_sourceLimb w rho Nlimb x hx
  obtain ⟨⟨z', b⟩, hzb, he⟩ := List.mem_map.mp hz
  obtain ⟨rfl, rfl⟩ := Prod.mk.inj he
  refine ⟨t, ?_⟩
  simp only [images2, withMask, List.mem_map, Prod.mk.injEq, decide_eq_true_eq] at hzb
  obtain ⟨z'', _, rfl, hb⟩ := hzb
  have hb' : ‖lensEq2 (midParams2 u) z'' - (w + rho * exp (I * t) - xCM u)‖ < 1 / 10 ^ 6 := hb
  simp only
  rw [lensMap_user2 u hq]
  have : lensEq2 (midParams2 u) z'' + xCM u - (w + rho * exp (I * t))
    = lensEq2 (midParams2 u) z'' - (w + rho * exp (I * t) - xCM u) := by ring
  rw [this]
  norm_num at hb' ⊢
  exact hb'

theorem limb3_valid (roots) (w : ℂ) (rho : ℝ) (Nlimb : ℕ) (u : UserParams) (hq : 1 + u.q ≠ 0)
    (hq3 : 1 + u.q + u.q3 ≠ 0) (limb)
    (h : calcSourceLimb roots w rho Nlimb 3 u = .ok limb) (z : ℂ) (hz : (z, true) ∈ limb) :
    ∃ t : ℝ, ‖lensMap (triple u.s u.q u.q3 u.r3 u.psi) z - (w + rho * exp (I * t))‖ < 1e-3 := by
  simp only [calcSourceLimb, show ¬ (3 : ℕ) = 2 by norm_num, if_false, if_true, Except.ok.injEq] at h
  rw [← h, List.mem_flatMap] at hz
  obtain ⟨x, hx, hz⟩ := hz
  obtain ⟨t, rfl⟩ := mem_sourceLimb w rho Nlimb x hx
  obtain ⟨⟨z', b⟩, hzb, he⟩ := List.mem_map.mp hz
  obtain ⟨rfl, rfl⟩ := Prod.mk.inj he
  refine ⟨t, ?_⟩
  simp only [images3, withMask, List.mem_map, Prod.mk.injEq, decide_eq_true_eq] at hzb
  obtain ⟨z'', _, rfl, hb⟩ := hzb
  have hb' : ‖lensEq3 (midParams3 u) z'' - (w + rho * exp (I * t) - xCM u)‖ < 1 / 10 ^ 3 := hb
  simp only
  rw [lensMap_user3 u hq hq3]
  have : lensEq3 (midParams3 u) z'' + xCM u - (w + rho * exp (I * t))
    = lensEq3 (midParams3 u) z'' - (w + rho * exp (I * t) - xCM u) := by ring
  rw [this]
  norm_num at hb' ⊢
  exact hb'

/-- **C41**, completeness: with a complete list of roots every binary-lens image of a limb point is listed as valid. -/
theorem C41_binary_limb_complete (roots) (w : ℂ) (rho : ℝ) (Nlimb : ℕ) (u : UserParams) (hq : 1 + u.q ≠ 0)
    (hroots : ∀ c, c.headD 0 ≠ 0 → IsRootList c (roots none c)) (limb)
    (h : calcSourceLimb roots w rho Nlimb 2 u = .ok limb) (x : ℂ) (hx : x ∈ sourceLimb w rho Nlimb)
    (hdeg : conj (x - xCM u) ^ 2 ≠ ((midParams2 u).a : ℂ) ^ 2) (z : ℂ) (hz : IsImage (binary u.s u.q) x z) :
    (z, true) ∈ limb := by
  simp only [calcSourceLimb, if_true, Except.ok.injEq] at h
  rw [← h, List.mem_flatMap]
  refine ⟨x, hx, List.mem_map.mpr ⟨(z - xCM u, true), ?_, by simp⟩⟩
  have hz' : IsImage (midBinary (midParams2 u)) (x - xCM u) (z - xCM u) := by
    rw [← (C08_binary_frame u hq).1] at hz
    refine ⟨fun l hl hc => hz.1 (l.1, l.2 + xCM u) (List.mem_map.mpr ⟨l, hl, rfl⟩) ?_, ?_⟩
    · simp only; rw [← hc]; ring
    · have h2 := hz.2
      rw [show z = (z - xCM u) + xCM u by ring, lensMap_translate] at h2
      rw [← h2]; ring
  simp only [images2, withMask, List.mem_map]
  refine ⟨z - xCM u, images_mem_roots_binary _ _ _ (hroots _ (by
    rw [(C04_binary_leading _ _ _).2]; exact sub_ne_zero.mpr hdeg)) hdeg _ hz', ?_⟩
  have : lensEq2 (midParams2 u) (z - xCM u) = x - xCM u := by rw [lensEq2_eq]; exact hz'.2
  simp [this]

/-- **C41**, completeness for three lenses. -/
theorem C41_triple_limb_complete (roots) (w : ℂ) (rho : ℝ) (Nlimb : ℕ) (u : UserParams) (hq : 1 + u.q ≠ 0)
    (hq3 : 1 + u.q + u.q3 ≠ 0) (hroots : ∀ c, c.headD 0 ≠ 0 → IsRootList c (roots none c)) (limb)
    (h : calcSourceLimb roots w rho Nlimb 3 u = .ok limb) (x : ℂ) (hx : x ∈ sourceLimb w rho Nlimb)
    (hdeg : (polyCoeffsTripleCM (x - xCM u) (midParams3 u).a (r3Complex (midParams3 u)) (midParams3 u).e1
      (midParams3 u).e2).headD 0 ≠ 0) (z : ℂ) (hz : IsImage (triple u.s u.q u.q3 u.r3 u.psi) x z) : (z, true) ∈ limb := by
  simp only [calcSourceLimb, show ¬ (3 : ℕ) = 2 by norm_num, if_false, if_true, Except.ok.injEq] at h
  rw [← h, List.mem_flatMap]
  refine ⟨x, hx, List.mem_map.mpr ⟨(z - xCM u, true), ?_, by simp⟩⟩
  have hz' : IsImage (midTriple (midParams3 u)) (x - xCM u) (z - xCM u) := by
    rw [← (C08_triple_frame u hq hq3).1] at hz
    refine ⟨fun l hl hc => hz.1 (l.1, l.2 + xCM u) (List.mem_map.mpr ⟨l, hl, rfl⟩) ?_, ?_⟩
    · simp only; rw [← hc]; ring
    · have h2 := hz.2
      rw [show z = (z - xCM u) + xCM u by ring, lensMap_translate] at h2
      rw [← h2]; ring
  have he : lensEq3 (midParams3 u) (z - xCM u) = x - xCM u := by rw [lensEq3_eq]; exact hz'.2
  simp only [images3, withMask, List.mem_map]
  refine ⟨z - xCM u, ⟨z - xCM u - shiftCM (midParams3 u).a (r3Complex (midParams3 u)) (midParams3 u).e1
    (midParams3 u).e2, IsRootList.mem_of_eval_zero (hroots _ hdeg) hdeg ?_, by ring⟩, by simp [he]⟩
  exact C05_triple_complete (midParams3 u) (x - xCM u) (z - xCM u)
    (hz'.1 ((midParams3 u).e1, ((midParams3 u).a : ℂ)) (by simp [midTriple]))
    (hz'.1 ((midParams3 u).e2, -((midParams3 u).a : ℂ)) (by simp [midTriple]))
    (hz'.1 (1 - (midParams3 u).e1 - (midParams3 u).e2, r3Complex (midParams3 u)) (by simp [midTriple])) he

/-- **C41**, `mag_uniform`: for 2 and for 3 lenses the result is the quadrature over the regions built from limb images
of the lens system the user specified: every image used solves its lens equation for a point of the source limb within the
tolerance. -/
theorem C41_uniform_limb (roots) (w : ℂ) (rho : ℝ) (nlenses : ℕ) (hn : nlenses = 2 ∨ nlenses = 3) (N M Nlimb br bt : ℕ)
    (mr mt : ℝ) (u : UserParams) (hq : 1 + u.q ≠ 0) (hq3 : nlenses = 3 → 1 + u.q + u.q3 ≠ 0) :
    ∃ limb regions, calcSourceLimb roots w rho Nlimb nlenses u = .ok limb ∧
      defineRegions limb rho br bt mr mt nlenses = .ok regions ∧
      magUniformFull roots w rho nlenses N M Nlimb br bt mr mt u = .ok (magUniform nlenses u w rho N M regions) ∧
      ∀ z, (z, true) ∈ limb → ∃ t : ℝ, ‖lensMap (userLens nlenses u) z - (w + rho * exp (I * t))‖ < 1e-3 := by
  rcases hn with rfl | rfl
  · refine ⟨_, _, rfl, rfl, rfl, fun z hz => ?_⟩
    obtain ⟨t, ht⟩ := limb2_valid roots w rho Nlimb u hq _ rfl z hz
    exact ⟨t, by rw [userLens, if_neg (by norm_num)]; refine ht.trans ?_; norm_num⟩
  · refine ⟨_, _, rfl, rfl, rfl, fun z hz => ?_⟩
    obtain ⟨t, ht⟩ := limb3_valid roots w rho Nlimb u hq (hq3 rfl) _ rfl z hz
    exact ⟨t, by rw [userLens, if_pos rfl]; exact ht⟩

/-- **C41 (partial)**, `mag_limb_dark`: as `C41_uniform_limb` for the binary lens only; for three lenses see
`C41_limb_dark_violated`. -/
theorem C41_limb_dark_partial (roots) (w : ℂ) (rho u1 dc : ℝ) (N M Nlimb br bt : ℕ) (mr mt : ℝ) (u : UserParams)
    (hq : 1 + u.q ≠ 0) :
    ∃ limb regions, calcSourceLimb roots w rho Nlimb 2 u = .ok limb ∧
      defineRegions limb rho br bt mr mt 2 = .ok regions ∧
      magLimbDarkFull roots w rho 2 u1 N M Nlimb br bt mr mt dc u = .ok (magLimbDark 2 u w rho u1 dc N M regions) ∧
      ∀ z, (z, true) ∈ limb → ∃ t : ℝ, ‖lensMap (binary u.s u.q) z - (w + rho * exp (I * t))‖ < 1e-6 :=
  ⟨_, _, rfl, rfl, rfl, fun z hz => limb2_valid roots w rho Nlimb u hq _ rfl z hz⟩

theorem exists_polar (z : ℂ) : ∃ r psi : ℝ, (r : ℂ) * exp (I * psi) = z :=
  ⟨‖z‖, arg z, by rw [mul_comm I]; exact norm_mul_exp_arg_mul_I z⟩

theorem regions_bounded (regions : List ((ℝ × ℝ) × (ℝ × ℝ))) : ∃ B : ℝ, ∀ R ∈ regions, R.1.2 ≤ B := by
  induction regions with
  | nil => exact ⟨0, by simp⟩
  | cons R l ih =>
    obtain ⟨B, hB⟩ := ih
    refine ⟨max B R.1.2, fun S hS => ?_⟩
    rcases List.mem_cons.mp hS with rfl | hS
    · exact le_max_right _ _
    · exact (hB S hS).trans (le_max_left _ _)

/-- A third lens can be placed so that a given far away point is an image of the source centre. -/
theorem exists_third_lens (w : ℂ) (s q : ℝ) (hq : 0 < q) (B : ℝ) :
    ∃ (z : ℂ) (r3 psi : ℝ), B < ‖z‖ ∧ IsImage (triple s q 1 r3 psi) w z := by
  set x1 : ℝ := s / (1 + q) with hx1
  set x2 : ℝ := -(q * s / (1 + q)) with hx2
  set X : ℝ := |B| + ‖w‖ + |x1| + |x2| + 3 with hX
  have habs : ∀ x : ℝ, |x| ≤ |x1| + |x2| → 1 ≤ X - x := by
    intro x hx
    have := le_abs_self x
    have := abs_nonneg B
    have := norm_nonneg w
    linarith
  have d1 : 1 ≤ X - x1 := habs x1 (by linarith [abs_nonneg x2])
  have d2 : 1 ≤ X - x2 := habs x2 (by linarith [abs_nonneg x1])
  set e1 : ℝ := q / (1 + q + 1) with he1
  set e2 : ℝ := 1 / (1 + q + 1) with he2
  have he1n : 0 ≤ e1 := by positivity
  have he2n : 0 ≤ e2 := by positivity
  have hsum : e1 + e2 ≤ 1 := by
    rw [he1, he2, ← add_div, div_le_one (by positivity)]; linarith
  set c : ℂ := (X : ℂ) - w - (e1 / (X - x1) + e2 / (X - x2) : ℝ) with hc
  have hE : (e1 / (X - x1) + e2 / (X - x2) : ℝ) ≤ 1 := by
    have h1 : e1 / (X - x1) ≤ e1 := div_le_self he1n d1
    have h2 : e2 / (X - x2) ≤ e2 := div_le_self he2n d2
    linarith
  have hcne : c ≠ 0 := by
    intro h0
    have hre := congrArg Complex.re h0
    simp only [hc, sub_re, ofReal_re, zero_re] at hre
    have := Complex.re_le_norm w
    have := abs_nonneg B
    have := abs_nonneg x1
    have := abs_nonneg x2
    linarith
  set p3 : ℂ := X - conj ((e2 : ℂ) / c) with hp3
  obtain ⟨r3, psi, hpol⟩ := exists_polar (p3 - ((s / (1 + q) - s / 2 : ℝ) : ℂ))
  refine ⟨(X : ℂ), r3, psi, ?_, ?_⟩
  · rw [norm_real, Real.norm_eq_abs]
    refine lt_of_lt_of_le ?_ (le_abs_self X)
    have := le_abs_self B
    have := abs_nonneg x1
    have := abs_nonneg x2
    have := norm_nonneg w
    linarith
  · have hpos3 : (r3 : ℂ) * exp (I * psi) + ((s / (1 + q) - s / 2 : ℝ) : ℂ) = p3 := by rw [hpol]; ring
    have he2pos : (e2 : ℂ) ≠ 0 := by
      have : 0 < e2 := by positivity
      exact_mod_cast this.ne'
    have hne1 : (X : ℂ) - x1 ≠ 0 := by
      have : X - x1 ≠ 0 := ne_of_gt (by linarith)
      exact_mod_cast this
    have hne2 : (X : ℂ) - x2 ≠ 0 := by
      have : X - x2 ≠ 0 := ne_of_gt (by linarith)
      exact_mod_cast this
    constructor
    · intro l hl
      simp only [triple, List.mem_cons, List.not_mem_nil, or_false] at hl
      rcases hl with rfl | rfl | rfl
      · exact sub_ne_zero.mp hne1
      · exact sub_ne_zero.mp hne2
      · simp only
        rw [hpos3, hp3]
        intro h
        have h2 : conj ((e2 : ℂ) / c) = 0 := by linear_combination h
        rw [map_eq_zero] at h2
        exact div_ne_zero he2pos hcne h2
    · simp only [lensMap, triple, List.map_cons, List.map_nil, List.sum_cons, List.sum_nil, add_zero]
      rw [hpos3, hp3]
      simp only [← hx1, ← hx2, conj_ofReal, map_sub, Complex.conj_conj]
      have h3 : (X : ℂ) - (X - (e2 : ℂ) / c) = e2 / c := by ring
      rw [h3]
      have h4 : ((1 / (1 + q + 1) : ℝ) : ℂ) / ((e2 : ℂ) / c) = c := by
        rw [← he2]; field_simp
      rw [h4, ← he1, ← he2, hc]
      push_cast
      ring

/-- **C41 (violated)**, `mag_limb_dark` with three lenses. For all settings there is a fixed set of regions that is used
whatever the third lens is; and there is a third lens (of the primary's mass) and an image of the source centre that lies
in none of these regions. -/
theorem C41_limb_dark_violated (roots) (w : ℂ) (rho u1 dc : ℝ) (N M Nlimb br bt : ℕ) (mr mt s q : ℝ) (hq : 0 < q) :
    ∃ regions : List ((ℝ × ℝ) × (ℝ × ℝ)),
      (∀ q3 r3 psi : ℝ, magLimbDarkFull roots w rho 3 u1 N M Nlimb br bt mr mt dc ⟨s, q, q3, r3, psi⟩
        = .ok (magLimbDark 3 ⟨s, q, q3, r3, psi⟩ w rho u1 dc N M regions)) ∧
      ∃ (r3 psi : ℝ) (z : ℂ), IsImage (triple s q 1 r3 psi) w z ∧
        ∀ R ∈ regions, ∀ th : ℝ, ¬ SectorContains (2 * Real.pi) R ‖z‖ th := by
  obtain ⟨limb, hlimb⟩ : ∃ limb, calcSourceLimb roots w rho Nlimb 2 ⟨s, q, 0, 0, 0⟩ = .ok limb := ⟨_, rfl⟩
  obtain ⟨regions, hreg⟩ : ∃ regions, defineRegions limb rho br bt mr mt 3 = .ok regions := ⟨_, rfl⟩
  have hlimb' : ∀ q3 r3 psi : ℝ, calcSourceLimb roots w rho Nlimb 2 ⟨s, q, q3, r3, psi⟩ = .ok limb := by
    intro q3 r3 psi; rw [← hlimb]; rfl
  refine ⟨regions, fun q3 r3 psi => ?_, ?_⟩
  · unfold magLimbDarkFull
    rw [hlimb' q3 r3 psi]
    change (defineRegions limb rho br bt mr mt 3 >>= fun regions => _) = _
    rw [hreg]; rfl
  obtain ⟨B, hB⟩ := regions_bounded regions
  obtain ⟨z, r3, psi, hz, him⟩ := exists_third_lens w s q hq B
  exact ⟨r3, psi, z, him, fun R hR th hcon => absurd (hcon.2.1.trans (hB R hR)) (not_le.mpr hz)⟩

/-- The polynomial with the given coefficients. -/
def listPoly : List ℂ → Polynomial ℂ
  | [] => 0
  | a :: l => Polynomial.C a * Polynomial.X ^ l.length + listPoly l

theorem listPoly_eval (c : List ℂ) (x acc : ℂ) :
    c.foldl (fun acc ck => acc * x + ck) acc = acc * x ^ c.length + (listPoly c).eval x := by
  induction c generalizing acc with
  | nil => simp [listPoly]
  | cons a l ih => simp only [List.foldl_cons, ih, listPoly, List.length_cons, Polynomial.eval_add, Polynomial.eval_mul,
      Polynomial.eval_C, Polynomial.eval_pow, Polynomial.eval_X]; ring

theorem listPoly_degree (c : List ℂ) : (listPoly c).degree < c.length := by
  induction c with
  | nil => simp [listPoly]
  | cons a l ih =>
    refine (Polynomial.degree_add_le _ _).trans_lt (max_lt ?_ ?_)
    · refine (Polynomial.degree_C_mul_X_pow_le _ _).trans_lt ?_
      simp only [List.length_cons]; exact_mod_cast Nat.lt_succ_self _
    · refine ih.trans ?_
      simp only [List.length_cons]; exact_mod_cast Nat.lt_succ_self _

theorem listPoly_leading (c : List ℂ) (h : c.headD 0 ≠ 0) : (listPoly c).leadingCoeff = c.headD 0 := by
  cases c with
  | nil => simp at h
  | cons a l =>
    simp only [List.headD_cons] at h ⊢
    rw [listPoly, Polynomial.leadingCoeff_add_of_degree_lt']
    · simp
    · rw [Polynomial.degree_C_mul_X_pow _ h]; exact listPoly_degree l

/-- A complete root finder, as assumed above, exists. -/
theorem exists_exact_roots : ∃ roots : Option (List ℂ) → List ℂ → List ℂ, ∀ init c, c.headD 0 ≠ 0 → IsRootList c (roots init c) := by
  refine ⟨fun _ c => (listPoly c).roots.toList, fun _ c hc x => ?_⟩
  have hs := (IsAlgClosed.splits (listPoly c)).eq_prod_roots
  have he : evalPoly c x = (listPoly c).eval x := by rw [evalPoly, listPoly_eval]; ring
  rw [he]
  conv_lhs => rw [hs]
  rw [listPoly_leading c hc, Polynomial.eval_mul, Polynomial.eval_C, Polynomial.eval_multiset_prod, Multiset.map_map]
  congr 1
  conv_lhs => rw [← Multiset.coe_toList (listPoly c).roots]
  rw [Multiset.map_coe, Multiset.prod_coe]
  congr 1
  apply List.map_congr_left
  intro r _
  simp

/-- The hypotheses on the parameters hold for an ordinary triple; the limb of the source has points. -/
example : let u : UserParams := ⟨1, 1/10, 1/100, 2, 1⟩
    1 + u.q ≠ 0 ∧ 1 + u.q + u.q3 ≠ 0 ∧ (sourceLimb (1/10) (1/100) 500).length = 500 := by
  refine ⟨by norm_num, by norm_num, by simp [sourceLimb, linspace]⟩

end Microjax.Props
