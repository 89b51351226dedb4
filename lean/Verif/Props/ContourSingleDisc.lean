import Verif.Lemmas.SingleGreen
import Verif.Props.ContourAccuracy

/-!
# C132: the accuracy of the contour method for a single lens
-/

noncomputable section

namespace Microjax.Props

open Complex ComplexConjugate Microjax.Spec Segments Jnp Utils Contour PointSource Limb MeasureTheory Set

/-- The image of `v` behind a single lens: the major one for `σ = 1`, the minor one for `σ = -1`. -/
def singleBranch (σ : ℝ) (v : ℂ) : ℂ := ((1 / 2 * (1 + σ * regGain 0 (v.re ^ 2 + v.im ^ 2)) : ℝ) : ℂ) * v

theorem normsq_eq (v : ℂ) : v.re ^ 2 + v.im ^ 2 = ‖v‖ ^ 2 := by rw [← normSq_eq_norm_sq, normSq_apply]; ring

theorem regGain_norm (v : ℂ) : regGain 0 (v.re ^ 2 + v.im ^ 2) = Real.sqrt (‖v‖ ^ 2 + 4) / ‖v‖ := by
  rw [normsq_eq, regGain, add_zero, Real.sqrt_sq (norm_nonneg v)]

theorem images1_branches (v : ℂ) (hv : v ≠ 0) : images1 v = [(singleBranch 1 v, true), (singleBranch (-1) v, true)] := by
  have hp : 0 < v.re ^ 2 + v.im ^ 2 := by rw [normsq_eq]; positivity
  have hS : Real.sqrt (1 + 4 / (v.re ^ 2 + v.im ^ 2)) = regGain 0 (v.re ^ 2 + v.im ^ 2) := by
    unfold regGain
    rw [add_zero, ← Real.sqrt_div (by linarith)]
    congr 1
    field_simp
  unfold images1 singleBranch
  simp only [hS]
  refine congrArg₂ (fun a b => [(a, true), (b, true)]) ?_ ?_ <;> · push_cast; ring

/-- `sqrt(|v|² + 4)` exceeds `|v|` and 2. -/
theorem gain_facts (v : ℂ) (hv : v ≠ 0) : ‖v‖ < Real.sqrt (‖v‖ ^ 2 + 4) ∧ 2 < Real.sqrt (‖v‖ ^ 2 + 4) ∧
    Real.sqrt (‖v‖ ^ 2 + 4) < ‖v‖ + 2 ∧ Real.sqrt (‖v‖ ^ 2 + 4) ^ 2 = ‖v‖ ^ 2 + 4 := by
  have hp : 0 < ‖v‖ := norm_pos_iff.mpr hv
  refine ⟨Real.lt_sqrt_of_sq_lt (by linarith), Real.lt_sqrt_of_sq_lt (by nlinarith), ?_, Real.sq_sqrt (by positivity)⟩
  rw [Real.sqrt_lt' (by linarith)]
  nlinarith

theorem norm_branch (σ : ℝ) (v : ℂ) (hv : v ≠ 0) :
    ‖singleBranch σ v‖ = |1 / 2 * (‖v‖ + σ * Real.sqrt (‖v‖ ^ 2 + 4))| := by
  have hp : 0 < ‖v‖ := norm_pos_iff.mpr hv
  unfold singleBranch
  rw [regGain_norm, norm_mul, norm_real, Real.norm_eq_abs]
  nth_rewrite 3 [← abs_of_pos hp]
  rw [← abs_mul]
  congr 1
  field_simp

theorem norm_major (v : ℂ) (hv : v ≠ 0) : 1 < ‖singleBranch 1 v‖ := by
  obtain ⟨h1, h2, h3, h4⟩ := gain_facts v hv
  have hp : 0 < ‖v‖ := norm_pos_iff.mpr hv
  rw [norm_branch 1 v hv, abs_of_pos (by linarith)]
  linarith

theorem norm_minor (v : ℂ) (hv : v ≠ 0) : 0 < ‖singleBranch (-1) v‖ ∧ ‖singleBranch (-1) v‖ < 1 := by
  obtain ⟨h1, h2, h3, h4⟩ := gain_facts v hv
  rw [norm_branch (-1) v hv, abs_of_neg (by linarith)]
  constructor <;> linarith

theorem norm_branch_le (σ : ℝ) (hσ : σ = 1 ∨ σ = -1) (v : ℂ) (hv : v ≠ 0) (M : ℝ) (hM : ‖v‖ ≤ M) :
    ‖singleBranch σ v‖ ≤ 1 / 2 * (M + Real.sqrt (M ^ 2 + 4)) := by
  have hp : 0 < ‖v‖ := norm_pos_iff.mpr hv
  have hs : Real.sqrt (‖v‖ ^ 2 + 4) ≤ Real.sqrt (M ^ 2 + 4) := Real.sqrt_le_sqrt (by nlinarith)
  have h0 := Real.sqrt_nonneg (‖v‖ ^ 2 + 4)
  rw [norm_branch σ v hv, abs_le]
  rcases hσ with rfl | rfl <;> constructor <;> linarith

theorem sign_major (v : ℂ) (hv : v ≠ 0) : ((SignType.sign (detJac1 (singleBranch 1 v)) : SignType) : ℝ) = 1 := by
  have h := norm_major v hv
  have : 0 < detJac1 (singleBranch 1 v) := by
    unfold detJac1
    rw [norm_pow, RCLike.norm_conj, sub_pos, div_lt_one (by positivity)]
    nlinarith
  rw [sign_pos this]; rfl

theorem sign_minor (v : ℂ) (hv : v ≠ 0) : ((SignType.sign (detJac1 (singleBranch (-1) v)) : SignType) : ℝ) = -1 := by
  obtain ⟨h0, h1⟩ := norm_minor v hv
  have : detJac1 (singleBranch (-1) v) < 0 := by
    unfold detJac1
    rw [norm_pow, RCLike.norm_conj, sub_neg, lt_div_iff₀ (by positivity)]
    nlinarith
  rw [sign_neg this]; rfl

theorem branch_gap (v : ℂ) (hv : v ≠ 0) : 2 ≤ ‖singleBranch 1 v - singleBranch (-1) v‖ := by
  obtain ⟨h1, h2, h3, h4⟩ := gain_facts v hv
  have hp : 0 < ‖v‖ := norm_pos_iff.mpr hv
  have e : singleBranch 1 v - singleBranch (-1) v = ((regGain 0 (v.re ^ 2 + v.im ^ 2) : ℝ) : ℂ) * v := by
    unfold singleBranch; push_cast; ring
  rw [e, regGain_norm, norm_mul, norm_real, Real.norm_eq_abs, abs_of_pos (by positivity), div_mul_cancel₀ _ hp.ne']
  exact h2.le

theorem branch_inj (σ : ℝ) (hσ : σ = 1 ∨ σ = -1) (v v' : ℂ) (hv : v ≠ 0) (hv' : v' ≠ 0)
    (h : singleBranch σ v = singleBranch σ v') : v = v' := by
  have key : ∀ x : ℂ, x ≠ 0 → lensEq1 (singleBranch σ x) = x := by
    intro x hx
    obtain ⟨z1, z2, e, -, -, h1, h2⟩ := C01_single_images x hx
    rw [images1_branches x hx] at e
    simp only [List.cons.injEq, Prod.mk.injEq, and_true] at e
    rcases hσ with rfl | rfl
    · rw [e.1]; exact h1
    · rw [e.2]; exact h2
  rw [← key v hv, ← key v' hv', h]

/-- The images move at most `1 + sqrt(M² + 4)/η` times as fast as the source. -/
theorem branch_lipschitz (σ : ℝ) (hσ : σ = 1 ∨ σ = -1) (v v' : ℂ) (η M : ℝ) (hη : 0 < η) (h1 : η ≤ ‖v‖) (h1' : η ≤ ‖v'‖)
    (h2 : ‖v‖ ≤ M) : ‖singleBranch σ v' - singleBranch σ v‖ ≤ (1 + Real.sqrt (M ^ 2 + 4) / η) * ‖v' - v‖ := by
  have hp : 0 < ‖v‖ := hη.trans_le h1
  have hp' : 0 < ‖v'‖ := hη.trans_le h1'
  have hv : v ≠ 0 := norm_pos_iff.mp hp
  have hv' : v' ≠ 0 := norm_pos_iff.mp hp'
  set q := Real.sqrt (‖v‖ ^ 2 + 4) with hq
  set q' := Real.sqrt (‖v'‖ ^ 2 + 4) with hq'
  have hf : ∀ x : ℂ, x ≠ 0 → singleBranch σ x
      = (1 / 2 : ℂ) * x + (σ : ℂ) / 2 * ((Real.sqrt (‖x‖ ^ 2 + 4) : ℝ) : ℂ) * (x / (‖x‖ : ℂ)) := by
    intro x hx
    unfold singleBranch
    rw [regGain_norm]
    push_cast
    ring
  have hnv : (‖v‖ : ℂ) ≠ 0 := by exact_mod_cast hp.ne'
  have hnv' : (‖v'‖ : ℂ) ≠ 0 := by exact_mod_cast hp'.ne'
  have hdec : singleBranch σ v' - singleBranch σ v = (1 / 2 : ℂ) * (v' - v)
      + (σ : ℂ) / 2 * (((q' - q : ℝ) : ℂ) * (v' / (‖v'‖ : ℂ)) + (q : ℂ) * (v' / (‖v'‖ : ℂ) - v / (‖v‖ : ℂ))) := by
    rw [hf v hv, hf v' hv']; push_cast; ring
  have hdist : |‖v'‖ - ‖v‖| ≤ ‖v' - v‖ := abs_norm_sub_norm_le _ _
  have hqq : |q' - q| ≤ ‖v' - v‖ := by
    have e1 : q' ^ 2 = ‖v'‖ ^ 2 + 4 := (gain_facts v' hv').2.2.2
    have e2 : q ^ 2 = ‖v‖ ^ 2 + 4 := (gain_facts v hv).2.2.2
    have g1 := (gain_facts v' hv').1
    have g2 := (gain_facts v hv).1
    have e3 : |q' - q| * (q' + q) = |‖v'‖ - ‖v‖| * (‖v'‖ + ‖v‖) := by
      rw [← abs_of_pos (by linarith : 0 < q' + q), ← abs_mul, ← abs_of_pos (by linarith : 0 < ‖v'‖ + ‖v‖), ← abs_mul]
      congr 1
      nlinarith
    refine le_trans ?_ hdist
    have hs : 0 < q' + q := by linarith
    by_contra hcon
    push Not at hcon
    have := abs_nonneg (‖v'‖ - ‖v‖)
    nlinarith [mul_lt_mul_of_pos_right hcon hs]
  have hunit : ‖v' / (‖v'‖ : ℂ)‖ = 1 := by
    rw [norm_div, norm_real, Real.norm_eq_abs, abs_of_pos hp', div_self hp'.ne']
  have hang : ‖v' / (‖v'‖ : ℂ) - v / (‖v‖ : ℂ)‖ ≤ 2 * ‖v' - v‖ / η := by
    have e : v' / (‖v'‖ : ℂ) - v / (‖v‖ : ℂ) = ((v' - v) - (v' / (‖v'‖ : ℂ)) * ((‖v'‖ - ‖v‖ : ℝ) : ℂ)) / (‖v‖ : ℂ) := by
      push_cast
      field_simp
      ring
    rw [e, norm_div, norm_real, Real.norm_eq_abs, abs_of_pos hp]
    refine div_le_div₀ (by positivity) ?_ hη h1
    refine (norm_sub_le _ _).trans ?_
    rw [norm_mul, hunit, one_mul, norm_real, Real.norm_eq_abs]
    linarith
  have hqM : q ≤ Real.sqrt (M ^ 2 + 4) := Real.sqrt_le_sqrt (by nlinarith)
  have hq0 : 0 ≤ q := Real.sqrt_nonneg _
  have hs : ‖(σ : ℂ) / 2‖ = 1 / 2 := by
    rw [norm_div, norm_real, Real.norm_eq_abs]
    rcases hσ with rfl | rfl <;> norm_num
  rw [hdec]
  refine (norm_add_le _ _).trans ?_
  rw [norm_mul, norm_mul, hs]
  have t1 : ‖((q' - q : ℝ) : ℂ) * (v' / (‖v'‖ : ℂ)) + (q : ℂ) * (v' / (‖v'‖ : ℂ) - v / (‖v‖ : ℂ))‖
      ≤ ‖v' - v‖ + Real.sqrt (M ^ 2 + 4) * (2 * ‖v' - v‖ / η) := by
    refine (norm_add_le _ _).trans (add_le_add ?_ ?_)
    · rw [norm_mul, hunit, mul_one, norm_real, Real.norm_eq_abs]; exact hqq
    · rw [norm_mul, norm_real, Real.norm_eq_abs, abs_of_nonneg hq0]
      exact mul_le_mul hqM hang (norm_nonneg _) (Real.sqrt_nonneg _)
  have e1 : ‖(1 / 2 : ℂ)‖ = 1 / 2 := by norm_num
  rw [e1]
  have e2 : Real.sqrt (M ^ 2 + 4) * (2 * ‖v' - v‖ / η) = 2 * (Real.sqrt (M ^ 2 + 4) / η * ‖v' - v‖) := by ring
  rw [e2] at t1
  linarith

theorem swept_scaled (k k' : ℝ) (v v' : ℂ) :
    (conj ((k : ℂ) * v) * ((k' : ℂ) * v + (k : ℂ) * v')).im = k ^ 2 * (conj v * v').im := by
  rw [map_mul, conj_ofReal]
  simp only [mul_im, mul_re, add_im, add_re, conj_re, conj_im, ofReal_re, ofReal_im]
  ring

theorem scaled_deriv (k : ℝ → ℝ) (k' : ℝ) (v : ℝ → ℂ) (v' : ℂ) (t : ℝ) (d1 : HasDerivAt k k' t) (d2 : HasDerivAt v v' t) :
    HasDerivAt (fun t => (k t : ℂ) * v t) ((k' : ℂ) * v t + (k t : ℂ) * v') t := d1.ofReal_comp.mul d2

theorem scaled_smooth (k : ℝ → ℝ) (hkc : ContDiff ℝ 1 k) (v : ℝ → ℂ) (hv : ContDiff ℝ 1 v) :
    ContDiff ℝ 1 (fun t => (k t : ℂ) * v t) := by
  have hkC : ContDiff ℝ 1 fun t => (k t : ℂ) := ofRealCLM.contDiff.comp hkc
  exact hkC.mul hv

theorem scaled_swept (k : ℝ → ℝ) (hkc : ContDiff ℝ 1 k) (v : ℝ → ℂ) (hv : ContDiff ℝ 1 v) (t : ℝ) :
    (conj ((k t : ℂ) * v t) * deriv (fun t => (k t : ℂ) * v t) t).im = k t ^ 2 * (conj (v t) * deriv v t).im := by
  have d1 : HasDerivAt k (deriv k t) t := (hkc.differentiable one_ne_zero t).hasDerivAt
  have d2 : HasDerivAt v (deriv v t) t := (hv.differentiable one_ne_zero t).hasDerivAt
  rw [(scaled_deriv k _ v _ t d1 d2).deriv]
  exact swept_scaled (k t) (deriv k t) (v t) (deriv v t)

theorem contDiff_gain (v : ℝ → ℂ) (hv : ContDiff ℝ 1 v) (h0 : ∀ t, v t ≠ 0) :
    ContDiff ℝ 1 fun t => regGain 0 ((v t).re ^ 2 + (v t).im ^ 2) := by
  have hpos : ∀ t, 0 < (v t).re ^ 2 + (v t).im ^ 2 := fun t => by
    rw [normsq_eq]; have := norm_pos_iff.mpr (h0 t); positivity
  have hn : ContDiff ℝ 1 fun t => (v t).re ^ 2 + (v t).im ^ 2 :=
    ((contDiff_re'.comp hv).pow 2).add ((contDiff_im'.comp hv).pow 2)
  unfold regGain
  refine ContDiff.div ((hn.add contDiff_const).sqrt fun t => ?_) ((hn.add contDiff_const).sqrt fun t => ?_) fun t => ?_
  · have := hpos t
    linarith
  · have := hpos t
    linarith
  · have := hpos t
    exact (Real.sqrt_pos.mpr (by linarith)).ne'

/-- Along a curve that avoids the lens the images move smoothly, and sweep the area `k² Im(conj v v')`. -/
theorem branch_curve (σ : ℝ) (v : ℝ → ℂ) (hv : ContDiff ℝ 1 v) (h0 : ∀ t, v t ≠ 0) :
    ContDiff ℝ 1 (fun t => singleBranch σ (v t)) ∧
    ∀ t, (conj (singleBranch σ (v t)) * deriv (fun t => singleBranch σ (v t)) t).im
      = (1 / 2 * (1 + σ * regGain 0 ((v t).re ^ 2 + (v t).im ^ 2))) ^ 2 * (conj (v t) * deriv v t).im :=
  have hk : ContDiff ℝ 1 fun t => 1 / 2 * (1 + σ * regGain 0 ((v t).re ^ 2 + (v t).im ^ 2)) :=
    contDiff_const.mul (contDiff_const.add (contDiff_const.mul (contDiff_gain v hv h0)))
  ⟨scaled_smooth _ hk v hv, fun t => scaled_swept _ hk v hv t⟩

/-- Nothing is shifted when no two entries coincide. -/
theorem dedupe_distinct (noise : ℕ → ℕ → ℝ) (z : List (List ℂ))
    (h : ∀ k i k' i' : ℕ, k < z.length → k' < z.length → i < (z.getD k []).length → i' < (z.getD k' []).length →
      (i' < i ∨ (i' = i ∧ k' < k)) → (z.getD k' []).getD i' 0 ≠ (z.getD k []).getD i 0) : dedupe noise z = z := by
  unfold dedupe
  simp only
  apply List.ext_getElem
  · simp
  · intro k h1 h2
    rw [List.getElem_mapIdx]
    apply List.ext_getElem
    · simp
    · intro i h3 h4
      rw [List.getElem_mapIdx, if_neg]
      rintro ⟨i', k', hk', hi', hlt, he⟩
      have hz : z.getD k [] = z[k] := List.getD_eq_getElem _ _ h2
      refine h k i k' i' h2 hk' (by rw [hz]; exact h4) hi' hlt ?_
      rw [he, hz, List.getD_eq_getElem _ _ h4]

theorem closing_triangle (a b : ℂ) : |triArea 0 (a.re, a.im) (b.re, b.im)| ≤ 1 / 2 * (‖a‖ * ‖b - a‖) := by
  have e : (conj a * b).im = (conj a * (b - a)).im := by
    simp only [mul_im, conj_re, conj_im, sub_re, sub_im]
    ring
  rw [triArea_complex, e, abs_mul, abs_of_pos (by norm_num : (0 : ℝ) < 1 / 2)]
  refine mul_le_mul_of_nonneg_left ((abs_im_le_norm _).trans ?_) (by norm_num)
  rw [norm_mul, RCLike.norm_conj]

/-- The contour made of a track: its samples and the first one again. -/
theorem track_buffer (N : ℕ) (hN : 0 < N) (x : ℕ → ℂ) (σ : ℝ) (T : List (Pt ℝ))
    (hT : T = (List.range N).map fun k => ⟨(x k).re, (x k).im, σ⟩) :
    (contourFromClosed T).1 = closedBuffer ((List.range N).map fun k => ((x k).re, (x k).im)) 0 ∧ (contourFromClosed T).2 = σ ∧
      T.length = N := by
  set pts := (List.range N).map fun k => ((x k).re, (x k).im) with hpts
  have hpl : pts.length = N := by rw [hpts, List.length_map, List.length_range]
  have hv : T.map (fun s => (s.x, s.y)) = pts := by rw [hT, hpts, List.map_map]; rfl
  have hlen : T.length = pts.length := by rw [hT, hpl, List.length_map, List.length_range]
  refine ⟨?_, ?_, hlen.trans hpl⟩
  · unfold contourFromClosed closedBuffer
    simp only
    rw [hv, List.replicate_zero, List.append_nil]
    congr 2
    rw [Jnp.get_of_lt _ _ (by omega), List.headD_eq_head?_getD, List.head?_eq_getElem?,
      List.getElem?_eq_getElem (by omega : 0 < pts.length)]
    rfl
  · unfold contourFromClosed
    simp only
    rw [Jnp.get_of_lt _ _ (by omega)]
    simp [hT]

/-- The uniform integrand on such a contour, up to the last but one edge. -/
theorem open_polygon (N : ℕ) (hN : 0 < N) (x : ℕ → ℂ) :
    integrateUnif (closedBuffer ((List.range N).map fun k => ((x k).re, (x k).im)) 0) (N - 1)
      = polygonArea 0 ((List.range N).map fun k => ((x k).re, (x k).im))
        - triArea 0 ((x (N - 1)).re, (x (N - 1)).im) ((x 0).re, (x 0).im) := by
  set pts := (List.range N).map fun k => ((x k).re, (x k).im) with hpts
  have hpl : pts.length = N := by rw [hpts, List.length_map, List.length_range]
  have hpne : pts ≠ [] := by
    intro hc
    rw [hc] at hpl
    simp at hpl
    omega
  have hhead : pts.headD 0 = ((x 0).re, (x 0).im) := by
    rw [List.headD_eq_head?_getD, List.head?_eq_getElem?, hpts, List.getElem?_map, List.getElem?_range hN]
    rfl
  have hl : pts.getD (N - 1) 0 = ((x (N - 1)).re, (x (N - 1)).im) := by
    rw [List.getD_eq_getElem?_getD, hpts, List.getElem?_map, List.getElem?_range (by omega)]
    rfl
  have e := (C78_closing_edge_violated pts hpne).2
  rw [hhead, hpl, hl] at e
  unfold closedBuffer
  rw [List.replicate_zero, List.append_nil, hhead]
  exact e

/-- The limb of a disc whose limb avoids the lens, and the two images of its points. -/
structure LimbOff (rho : ℝ) (w : ℂ) (κ M : ℝ) (src : ℝ → ℂ) : Prop where
  eq : src = fun t : ℝ => (rho : ℂ) * exp (I * t) + w
  polar : src = fun t => polarAt w (rho, t)
  off : ∀ t, src t ≠ 0
  smooth : ContDiff ℝ 1 src
  closed : src Real.pi = src (-Real.pi)
  speed : ∀ σ, σ = 1 ∨ σ = -1 → ∀ t t' : ℝ, ‖singleBranch σ (src t') - singleBranch σ (src t)‖ ≤ κ * rho * |t' - t|
  bound : ∀ σ, σ = 1 ∨ σ = -1 → ∀ t, ‖singleBranch σ (src t)‖ ≤ 1 / 2 * (M + Real.sqrt (M ^ 2 + 4))

theorem limb_off (rho : ℝ) (w : ℂ) (hrho : 0 < rho) (η M κ : ℝ) (hη : η = |‖w‖ - rho|) (hη0 : 0 < η) (hM : M = ‖w‖ + rho)
    (hκ : κ = 1 + Real.sqrt (M ^ 2 + 4) / η) (src : ℝ → ℂ) (hsrc : src = fun t : ℝ => (rho : ℂ) * exp (I * t) + w) :
    LimbOff rho w κ M src := by
  have hκ0 : 0 < κ := by rw [hκ]; have := Real.sqrt_nonneg (M ^ 2 + 4); positivity
  have hpol : ∀ t : ℝ, polarAt w (rho, t) = src t := fun t => by
    rw [hsrc]; simp only [polarAt]; rw [mul_comm I, add_comm]
  have hsrcf : src = fun t => polarAt w (rho, t) := by funext t; rw [hpol]
  have hnorm : ∀ t : ℝ, ‖(rho : ℂ) * exp (I * t)‖ = rho := fun t => by
    rw [norm_mul, mul_comm I, norm_exp_ofReal_mul_I, norm_real, Real.norm_eq_abs, abs_of_pos hrho, mul_one]
  have hlow : ∀ t, η ≤ ‖src t‖ := fun t => by
    have h1 := abs_norm_sub_norm_le ((rho : ℂ) * exp (I * t)) (-w)
    rw [norm_neg, hnorm, sub_neg_eq_add] at h1
    rw [hη, abs_sub_comm, hsrc]; exact h1
  have hup : ∀ t, ‖src t‖ ≤ M := fun t => by
    have h1 := norm_add_le ((rho : ℂ) * exp (I * t)) w
    rw [hnorm] at h1
    rw [hM, add_comm ‖w‖, hsrc]; exact h1
  have hsrc0 : ∀ t, src t ≠ 0 := fun t => norm_pos_iff.mp (hη0.trans_le (hlow t))
  have hsrcs : ContDiff ℝ 1 src := by
    rw [hsrcf]
    exact ((contDiff_polarAt w).comp (contDiff_const.prodMk contDiff_id)).of_le (by norm_num)
  have hsrcπ : src Real.pi = src (-Real.pi) := by
    rw [hsrc]
    simp only [ofReal_neg, mul_neg]
    rw [mul_comm I, exp_pi_mul_I, exp_neg, exp_pi_mul_I]
    norm_num
  have hsrclip : ∀ t t' : ℝ, ‖src t' - src t‖ ≤ rho * |t' - t| := by
    intro t t'
    have e : src t' - src t = (rho : ℂ) * (exp (I * t') - exp (I * t)) := by simp only [hsrc]; ring
    rw [e, norm_mul, norm_real, Real.norm_eq_abs, abs_of_pos hrho]
    refine mul_le_mul_of_nonneg_left ?_ hrho.le
    have h1 := Real.norm_exp_I_mul_ofReal_sub_one_le (x := t' - t)
    have e2 : exp (I * t') - exp (I * t) = exp (I * t) * (exp (I * ((t' - t : ℝ) : ℂ)) - 1) := by
      rw [mul_sub, ← exp_add]
      push_cast
      ring_nf
    rw [e2, norm_mul, mul_comm I (t : ℂ), norm_exp_ofReal_mul_I, one_mul]
    simpa [Real.norm_eq_abs] using h1
  refine ⟨hsrc, hsrcf, hsrc0, hsrcs, hsrcπ, fun σ hσ t t' => ?_, fun σ hσ t => norm_branch_le σ hσ _ (hsrc0 t) M (hup t)⟩
  refine (branch_lipschitz σ hσ _ _ η M hη0 (hlow t) (hlow t') (hup t)).trans ?_
  rw [← hκ, mul_assoc]
  exact mul_le_mul_of_nonneg_left (hsrclip t t') hκ0.le

theorem limb_columns1 (lib : Lib) (p : MidParams) (w : ℂ) (rho : ℝ) (npts : ℕ) (src : ℝ → ℂ)
    (hsrc : src = fun t : ℝ => (rho : ℂ) * exp (I * t) + w) (s : State)
    (hs : s = sampling (fun th => imagesSequential (finder lib 1 p) (th.map src))
      (fun t zi => finder lib 1 p (src t) (some (lib.perturb t zi))) detJac1 npts 10) :
    limbColumns lib 1 p w rho npts = permuteImages (stack (dedupe lib.noise s.z) s.mask s.parity) := by
  subst hs
  subst hsrc
  rfl

/-- The integrand of the single lens. -/
def singleInteg (lib : Lib) (npts_ld : ℕ) (ld : Bool) (u1 rho : ℝ) (w : ℂ) : List (ℝ × ℝ) → ℕ → ℝ :=
  if ld then integrateLd lib.leggauss lensEq1 w rho u1 npts_ld else integrateUnif

theorem single_rows (lib : Lib) (npts npts_ld : ℕ) (ld : Bool) (u : UserParams) (u1 rho : ℝ) (w : ℂ) (P : List (List (ℂ × Bool × ℝ)))
    (hP : limbColumns lib 1 (extParams 1 u) w rho npts = P) (A B : List (Pt ℝ))
    (hA : ((row P 0).map fun q => (⟨q.1.re, q.1.im, q.2.2⟩ : Pt ℝ)) = A)
    (hB : ((row P 1).map fun q => (⟨q.1.re, q.1.im, q.2.2⟩ : Pt ℝ)) = B) :
    magExtendedSource lib 1 npts npts_ld ld u u1 rho w
      = .ok (|contourSum1 (singleInteg lib npts_ld ld u1 rho w) [A, B]| / (Real.pi * rho ^ 2)) := by
  have hw : extSource 1 u w = w := by simp [extSource]
  have h1 : magExtendedSource lib 1 npts npts_ld ld u u1 rho w
      = .ok (magFromLimb1 (if ld then integrateLd lib.leggauss lensEq1 (extSource 1 u w) rho u1 npts_ld else integrateUnif) rho (limbColumns lib 1 (extParams 1 u) (extSource 1 u w) rho npts)) := by
    unfold magExtendedSource
    rw [if_pos (show (1 : ℕ) = 1 ∨ (1 : ℕ) = 2 ∨ (1 : ℕ) = 3 from Or.inl rfl)]
    rfl
  rw [h1, hw, hP]
  unfold magFromLimb1 singleInteg
  have hr2 : List.range 2 = [0, 1] := rfl
  simp only [hr2, List.map_cons, List.map_nil]
  rw [hA, hB]

/-- The track of one of the images. -/
def branchPts (σ : ℝ) (src : ℝ → ℂ) (θ : ℕ → ℝ) (N : ℕ) : List (ℝ × ℝ) :=
  (List.range N).map fun k => ((singleBranch σ (src (θ k))).re, (singleBranch σ (src (θ k))).im)

set_option maxHeartbeats 400000 in
/-- The value returned for a single lens: the integrals along the tracks of the major and of the minor images, each without its
closing edge. -/
theorem single_tracks (lib : Lib) (npts : ℕ) (u : UserParams) (rho : ℝ) (w : ℂ) (hrho : 0 < rho) (hnpts : 4 ≤ npts)
    (hmax : npts ≤ 2 * 10 ^ 8) (κ M h : ℝ) (hh : h = 2 * Real.pi / ((npts / 2 - 1 : ℕ) : ℝ)) (hκ0 : 0 ≤ κ)
    (hsmall : κ * rho * h < 1) (src : ℝ → ℂ) (hL : LimbOff rho w κ M src) :
    ∃ (N : ℕ) (θ : ℕ → ℝ), 0 < N ∧ θ 0 = -Real.pi ∧ θ N = Real.pi ∧ θ (N - 1) = Real.pi - 1 / 10 ^ 8 ∧
      (∀ k < N, θ k ≤ θ (k + 1) ∧ θ (k + 1) - θ k ≤ h) ∧
      ∀ npts_ld ld u1, magExtendedSource lib 1 npts npts_ld ld u u1 rho w = .ok (|∑ j : Fin 2, (![1, -1] : Fin 2 → ℝ) j *
        singleInteg lib npts_ld ld u1 rho w (closedBuffer (branchPts ((![1, -1] : Fin 2 → ℝ) j) src θ N) 0) (N - 1)|
        / (Real.pi * rho ^ 2)) := by
  have hpi := Real.pi_pos
  have hh0 : 0 ≤ h := by rw [hh]; positivity
  have hsrc := hL.eq
  have hsrc0 := hL.off
  set Λ := κ * rho with hΛ
  have hΛ0 : 0 ≤ Λ := by positivity
  set sg : Fin 2 → ℝ := ![1, -1] with hsg
  have hsg1 : ∀ j, sg j = 1 ∨ sg j = -1 := by intro j; fin_cases j <;> simp [hsg]
  set r : Fin 2 → ℝ → ℂ := fun j t => singleBranch (sg j) (src t) with hr
  have hspeed : ∀ t t' : ℝ, ∀ j, ‖r j t' - r j t‖ ≤ Λ * |t' - t| := fun t t' j => hL.speed (sg j) (hsg1 j) t t'
  have hapart : ∀ t, ∀ i j, i ≠ j → 2 ≤ ‖r i t - r j t‖ := by
    intro t i j hij
    have hg := branch_gap (src t) (hsrc0 t)
    have : (i = 0 ∧ j = 1) ∨ (i = 1 ∧ j = 0) := by
      clear * - hij
      revert i j; decide
    rcases this with ⟨rfl, rfl⟩ | ⟨rfl, rfl⟩
    · exact hg
    · rw [norm_sub_rev]; exact hg
  -- the solver
  set p := extParams 1 u with hp
  have hfind : ∀ w i, finder lib 1 p w i = images1 w := fun w i => by simp [finder]
  have himg : ∀ t, images1 (src t) = [(r 0 t, true), (r 1 t, true)] := fun t => images1_branches _ (hsrc0 t)
  set seq : List ℝ → List (List (ℂ × Bool)) := fun th => imagesSequential (finder lib 1 p) (th.map src) with hseqdef
  set fn : ℝ → List ℂ → List (ℂ × Bool) := fun t zi => finder lib 1 p (src t) (some (lib.perturb t zi)) with hfndef
  have hseq : ∀ th, seq th = th.map fun t => [(r 0 t, true), (r 1 t, true)] := by
    intro th
    rw [hseqdef]
    simp only
    rw [imagesSequential_map _ images1 hfind, List.map_map]
    apply List.map_congr_left
    intro t _
    exact himg t
  obtain ⟨Q, hAr, hQ, hQl⟩ := C45_sampling seq fn detJac1 npts 10 hnpts hmax (by norm_num) (by intro th; rw [hseq]; simp)
  have hq : ∀ q ∈ Q, q.2 = [(r 0 q.1, true), (r 1 q.1, true)] := by
    intro q hq
    rcases hQ.solved q hq with h | ⟨zi, h⟩
    · rw [hseq, ← List.map_id (thetaInit (npts / 2)), List.map_map, List.zip_map', List.mem_map] at h
      obtain ⟨t, _, rfl⟩ := h
      rfl
    · rw [h, hfndef]
      simp only
      rw [hfind, himg]
  obtain ⟨θ, hN, h0, hπ, hlast, hQθ, hin, hgap⟩ := limb_angles seq fn (npts / 2) Q hQ (by omega) (by omega) h hh
  set ts := Q.map (fun q => q.1) with hts
  have hmapQ : ∀ {β : Type} (f : List (ℂ × Bool) → β), (Q.map fun q => f q.2)
      = ts.map fun t => f [(r 0 t, true), (r 1 t, true)] := by
    intro β f
    rw [hts, List.map_map]
    apply List.map_congr_left
    intro q hqQ
    simp only [Function.comp]
    rw [hq q hqQ]
  set s := sampling seq fn detJac1 npts 10 with hs
  have hz : s.z = ts.map fun t => [r 0 t, r 1 t] := by
    rw [hAr.z, hmapQ (fun l => l.map Prod.fst)]; rfl
  have hmk : s.mask = ts.map fun t => [true, true] := by
    rw [hAr.mask, hmapQ (fun l => l.map Prod.snd)]; rfl
  have hpar : s.parity = ts.map fun t => [1, -1] := by
    rw [hAr.parity, hmapQ (fun l => l.map fun i => ((SignType.sign (detJac1 i.1) : SignType) : ℝ))]
    apply List.map_congr_left
    intro t _
    simp only [List.map_cons, List.map_nil]
    have e1 := sign_major (src t) (hsrc0 t)
    have e2 := sign_minor (src t) (hsrc0 t)
    exact congrArg₂ (fun a b => [a, b]) e1 e2
  have hsorted : ts.Pairwise (· < ·) := by rw [hts, List.pairwise_map]; exact hQ.sorted
  have htsr : ∀ t ∈ ts, -Real.pi ≤ t ∧ t ≤ Real.pi - 1 / 10 ^ 8 := by
    intro t ht
    obtain ⟨q, hqQ, rfl⟩ := List.mem_map.1 ht
    exact hQ.ends q hqQ
  have hsrcinj : ∀ a ∈ ts, ∀ b ∈ ts, a < b → src a ≠ src b := by
    intro a ha b hb hab hc
    have h1 := htsr a ha
    have h2 := htsr b hb
    refine polar_inj rho a b hrho.ne' hab (by linarith) ?_
    simp only [hsrc] at hc
    exact add_right_cancel hc
  have hded : dedupe lib.noise s.z = ts.map fun t => [r 0 t, r 1 t] := by
    rw [hz]
    refine dedupe_distinct _ _ fun k i k' i' hk hk' hi hi' hlt => ?_
    rw [List.length_map] at hk hk'
    have ek : ∀ k (hk : k < ts.length), (ts.map fun t => [r 0 t, r 1 t]).getD k [] = [r 0 ts[k], r 1 ts[k]] := by
      intro k hk
      rw [List.getD_eq_getElem _ _ (by simpa using hk), List.getElem_map]
    rw [ek k hk] at hi ⊢
    rw [ek k' hk'] at hi' ⊢
    have hi2 : i < 2 := by simpa using hi
    have hcase : (i' = 0 ∧ i = 1) ∨ (i' = 0 ∧ i = 0 ∧ k' < k) ∨ (i' = 1 ∧ i = 1 ∧ k' < k) := by omega
    have hne : k' < k → src ts[k'] ≠ src ts[k] := fun hkk =>
      hsrcinj _ (List.getElem_mem _) _ (List.getElem_mem _) (List.pairwise_iff_getElem.1 hsorted k' k hk' hk hkk)
    rcases hcase with ⟨rfl, rfl⟩ | ⟨rfl, rfl, hkk⟩ | ⟨rfl, rfl, hkk⟩
    · intro hc
      have hc' : singleBranch 1 (src ts[k']) = singleBranch (-1) (src ts[k]) := hc
      have h1 := norm_major _ (hsrc0 ts[k'])
      have h2 := (norm_minor _ (hsrc0 ts[k])).2
      rw [hc'] at h1
      linarith
    · intro hc
      exact hne hkk (branch_inj 1 (Or.inl rfl) _ _ (hsrc0 _) (hsrc0 _) hc)
    · intro hc
      exact hne hkk (branch_inj (-1) (Or.inr rfl) _ _ (hsrc0 _) (hsrc0 _) hc)
  set cols : List (List (ℂ × Bool × ℝ)) := ts.map fun t => List.ofFn fun j => (r j t, true, sg j) with hcols
  have hstack : stack (dedupe lib.noise s.z) s.mask s.parity = cols := by
    rw [hded, hmk, hpar]
    unfold stack
    rw [List.zipWith_map, List.zipWith_self, List.zipWith_map, List.zipWith_self]
    rfl
  have hcl : cols.length = Q.length := by simp [hcols, hts]
  have hck : ∀ k < Q.length, cols[k]? = some (List.ofFn fun j => (r j (θ k), true, sg j)) := by
    intro k hk
    have h1 := hQθ k _ (List.getElem?_eq_getElem hk)
    rw [hcols, hts, List.getElem?_map, List.getElem?_map, List.getElem?_eq_getElem hk]
    simp only [Option.map_some]
    rw [h1]
  set N := Q.length with hNdef
  obtain ⟨σ, hpl, hpk⟩ := permute_branches cols (fun k j => (r j (θ k), true, sg j)) (fun k j => r j (θ k)) (Λ * h) 0 2
    (fun k c hc => by
      have hk : k < N := by
        by_contra hcon
        rw [List.getElem?_eq_none (by omega)] at hc
        exact absurd hc (by simp)
      rw [hck k hk, Option.some.injEq] at hc
      rw [← hc])
    (fun k hk j => by simp)
    (fun k hk j => (hspeed _ _ j).trans (by
      obtain ⟨g1, g2⟩ := hgap k (by omega)
      rw [abs_of_nonneg (by linarith)]
      exact mul_le_mul_of_nonneg_left g2 hΛ0))
    (fun k hk i j hij => hapart _ i j hij) (by linarith) (mul_nonneg hΛ0 hh0)
  -- the tracks
  set T : Fin 2 → List (Pt ℝ) := fun j => (List.range N).map fun k => ⟨(r j (θ k)).re, (r j (θ k)).im, sg j⟩ with hT
  have hrow : ∀ i : Fin 2, ((row (permuteImages cols) i).map fun q => (⟨q.1.re, q.1.im, q.2.2⟩ : Pt ℝ)) = T (σ i) := by
    intro i
    apply List.ext_getElem
    · simp [row, hT, hpl, hcl]
    · intro k k1 k2
      have hk : k < N := by simpa [hT] using k2
      have hpk' := hpk k (by omega)
      rw [List.getElem?_eq_getElem (by omega : k < (permuteImages cols).length), Option.some.injEq] at hpk'
      simp only [row, hT, List.getElem_map, List.getElem_range]
      rw [hpk', Jnp.get_of_lt _ _ (by rw [List.length_ofFn]; exact i.2), List.getElem_ofFn]
  refine ⟨N, θ, hN, h0, hπ, hlast, hgap, fun npts_ld ld u1 => ?_⟩
  have hlc : limbColumns lib 1 p w rho npts = permuteImages cols := by
    rw [← hstack]
    exact limb_columns1 lib p w rho npts src hsrc s hs
  rw [single_rows lib npts npts_ld ld u u1 rho w _ hlc _ _ (hrow 0) (hrow 1)]
  obtain ⟨J, hJ⟩ : ∃ J, J = singleInteg lib npts_ld ld u1 rho w := ⟨_, rfl⟩
  rw [← hJ]
  have hterm : ∀ j, J (contourFromClosed (T j)).1 ((T j).length - 1) * (contourFromClosed (T j)).2
      = sg j * J (closedBuffer (branchPts (sg j) src θ N) 0) (N - 1) := by
    intro j
    obtain ⟨e1, e2, e3⟩ := track_buffer N hN (fun k => r j (θ k)) (sg j) (T j) rfl
    rw [e1, e2, e3, mul_comm]
    rfl
  have hcs : contourSum1 J [T (σ 0), T (σ 1)] = ∑ j, sg j * J (closedBuffer (branchPts (sg j) src θ N) 0) (N - 1) := by
    rw [← Equiv.sum_comp σ, Fin.sum_univ_two, ← hterm, ← hterm]
    unfold contourSum1
    simp
  rw [hcs]

/-- For a uniform source these integrals are polygon areas. -/
theorem single_value (lib : Lib) (npts npts_ld : ℕ) (u : UserParams) (u1 rho : ℝ) (w : ℂ) (hrho : 0 < rho) (hnpts : 4 ≤ npts)
    (hmax : npts ≤ 2 * 10 ^ 8) (κ M h : ℝ) (hh : h = 2 * Real.pi / ((npts / 2 - 1 : ℕ) : ℝ)) (hκ0 : 0 ≤ κ)
    (hsmall : κ * rho * h < 1) (src : ℝ → ℂ) (hL : LimbOff rho w κ M src) :
    ∃ (N : ℕ) (θ : ℕ → ℝ), 0 < N ∧ θ 0 = -Real.pi ∧ θ N = Real.pi ∧ θ (N - 1) = Real.pi - 1 / 10 ^ 8 ∧
      (∀ k < N, θ k ≤ θ (k + 1) ∧ θ (k + 1) - θ k ≤ h) ∧
      magExtendedSource lib 1 npts npts_ld false u u1 rho w = .ok (|∑ j : Fin 2, (![1, -1] : Fin 2 → ℝ) j *
        (polygonArea 0 ((List.range N).map fun k =>
            ((singleBranch ((![1, -1] : Fin 2 → ℝ) j) (src (θ k))).re, (singleBranch ((![1, -1] : Fin 2 → ℝ) j) (src (θ k))).im))
          - triArea 0 ((singleBranch ((![1, -1] : Fin 2 → ℝ) j) (src (θ (N - 1)))).re,
              (singleBranch ((![1, -1] : Fin 2 → ℝ) j) (src (θ (N - 1)))).im)
            ((singleBranch ((![1, -1] : Fin 2 → ℝ) j) (src (θ 0))).re, (singleBranch ((![1, -1] : Fin 2 → ℝ) j) (src (θ 0))).im))|
        / (Real.pi * rho ^ 2)) := by
  obtain ⟨N, θ, hN, h0, hπ, hlast, hgap, hval⟩ := single_tracks lib npts u rho w hrho hnpts hmax κ M h hh hκ0 hsmall src hL
  refine ⟨N, θ, hN, h0, hπ, hlast, hgap, ?_⟩
  rw [hval npts_ld false u1]
  congr 3
  refine Finset.sum_congr rfl fun j _ => ?_
  congr 1
  exact open_polygon N hN fun k => singleBranch ((![1, -1] : Fin 2 → ℝ) j) (src (θ k))

/-- C132: a uniform source behind a single lens at any position, the lens inside or outside of the disc but not on its limb.
With `η` the distance of the lens from the limb, `M = |w| + rho` and `κ = 1 + sqrt(M² + 4)/η` (a bound on how much faster
than the source its images move), as soon as the images move by less than 1 between two initial samples, the error is at most
`2 κ² h` (`h` the initial spacing) plus the missing closing edge (C78), whatever the random numbers are. -/
theorem C132_single (lib : Lib) (npts npts_ld : ℕ) (u : UserParams) (u1 rho : ℝ) (w : ℂ) (hrho : 0 < rho)
    (hnpts : 4 ≤ npts) (hmax : npts ≤ 2 * 10 ^ 8) (η M κ h : ℝ) (hη : η = |‖w‖ - rho|) (hη0 : 0 < η) (hM : M = ‖w‖ + rho)
    (hκ : κ = 1 + Real.sqrt (M ^ 2 + 4) / η) (hh : h = 2 * Real.pi / ((npts / 2 - 1 : ℕ) : ℝ)) (hsmall : κ * rho * h < 1) :
    ∃ m, magExtendedSource lib 1 npts npts_ld false u u1 rho w = .ok m ∧
      |m - uniformMag single w rho| ≤ 2 * κ ^ 2 * h + (M + Real.sqrt (M ^ 2 + 4)) / 2 * κ / (Real.pi * rho * 10 ^ 8) := by
  have hpi := Real.pi_pos
  have heps : (0 : ℝ) < 1 / 10 ^ 8 := by norm_num
  have hκ0 : 0 < κ := by rw [hκ]; have := Real.sqrt_nonneg (M ^ 2 + 4); positivity
  obtain ⟨src, hsrc⟩ : ∃ src : ℝ → ℂ, src = fun t : ℝ => (rho : ℂ) * exp (I * t) + w := ⟨_, rfl⟩
  have hL := limb_off rho w hrho η M κ hη hη0 hM hκ src hsrc
  obtain ⟨N, θ, hN, h0, hπ, hlast, hgap, hval⟩ := single_value lib npts npts_ld u u1 rho w hrho hnpts hmax κ M h hh hκ0.le hsmall
    src hL
  refine ⟨_, hval, ?_⟩
  obtain ⟨Λ, hΛ⟩ : ∃ Λ, Λ = κ * rho := ⟨_, rfl⟩
  have hΛ0 : 0 ≤ Λ := by rw [hΛ]; positivity
  obtain ⟨Z, hZ⟩ : ∃ Z, Z = 1 / 2 * (M + Real.sqrt (M ^ 2 + 4)) := ⟨_, rfl⟩
  have hsrc0 := hL.off
  have hsrcs := hL.smooth
  have hsrcπ := hL.closed
  have hsrcf := hL.polar
  have hwne : ‖w‖ ≠ rho := by
    intro hc
    rw [hη, hc, sub_self, abs_zero] at hη0
    exact lt_irrefl _ hη0
  obtain ⟨sg, hsg⟩ : ∃ sg : Fin 2 → ℝ, sg = ![1, -1] := ⟨_, rfl⟩
  have hsg1 : ∀ j, sg j = 1 ∨ sg j = -1 := by intro j; fin_cases j <;> simp [hsg]
  obtain ⟨r, hr⟩ : ∃ r : Fin 2 → ℝ → ℂ, r = fun j t => singleBranch (sg j) (src t) := ⟨_, rfl⟩
  have hspeed : ∀ t t' : ℝ, ∀ j, ‖r j t' - r j t‖ ≤ Λ * |t' - t| := fun t t' j => by
    rw [hr, hΛ]; exact hL.speed (sg j) (hsg1 j) t t'
  have hrZ : ∀ t j, ‖r j t‖ ≤ Z := fun t j => by rw [hr, hZ]; exact hL.bound (sg j) (hsg1 j) t
  have hsumr : (∑ j : Fin 2, (![1, -1] : Fin 2 → ℝ) j *
        (polygonArea 0 ((List.range N).map fun k =>
            ((singleBranch ((![1, -1] : Fin 2 → ℝ) j) (src (θ k))).re, (singleBranch ((![1, -1] : Fin 2 → ℝ) j) (src (θ k))).im))
          - triArea 0 ((singleBranch ((![1, -1] : Fin 2 → ℝ) j) (src (θ (N - 1)))).re,
              (singleBranch ((![1, -1] : Fin 2 → ℝ) j) (src (θ (N - 1)))).im)
            ((singleBranch ((![1, -1] : Fin 2 → ℝ) j) (src (θ 0))).re, (singleBranch ((![1, -1] : Fin 2 → ℝ) j) (src (θ 0))).im)))
      = ∑ j, sg j * (polygonArea 0 ((List.range N).map fun k => ((r j (θ k)).re, (r j (θ k)).im))
        - triArea 0 ((r j (θ (N - 1))).re, (r j (θ (N - 1))).im) ((r j (θ 0)).re, (r j (θ 0)).im)) := by
    rw [hr, hsg]
  rw [hsumr]
  -- each track against the integral along the image of the limb
  have hcurve : ∀ j, ContDiff ℝ 1 (r j) ∧ ∀ t, (conj (r j t) * deriv (r j) t).im
      = (1 / 2 * (1 + sg j * regGain 0 ((src t).re ^ 2 + (src t).im ^ 2))) ^ 2 * (conj (src t) * deriv src t).im :=
    fun j => by rw [hr]; exact branch_curve (sg j) src hsrcs hsrc0
  have hderb : ∀ j, ∀ t, ‖deriv (r j) t‖ ≤ Λ := by
    intro j t
    have hd : HasDerivAt (r j) (deriv (r j) t) t := ((hcurve j).1.differentiable one_ne_zero t).hasDerivAt
    refine hd.le_of_lip' hΛ0 (Filter.Eventually.of_forall fun x => ?_)
    simpa [Real.norm_eq_abs] using hspeed t x j
  have hpoly : ∀ j, |polygonArea 0 ((List.range N).map fun k => ((r j (θ k)).re, (r j (θ k)).im))
      - (1 / 2) * ∫ t in (-Real.pi)..Real.pi, (conj (r j t) * deriv (r j) t).im| ≤ Real.pi * Λ ^ 2 * h := by
    intro j
    refine (polygon_contour (r j) (deriv (r j)) Λ Z 0 h (-Real.pi) Real.pi N hN θ (fun k => r j (θ k)) h0 hπ hgap
      (fun t _ => ((hcurve j).1.differentiable one_ne_zero t).hasDerivAt)
      ((hcurve j).1.continuous_deriv le_rfl).continuousOn (fun t _ => hderb j t) (fun t _ => hrZ t j)
      (by simp only [hr]; rw [hsrcπ]) (fun k hk => by simp)).trans (le_of_eq ?_)
    ring
  have htri : ∀ j, |triArea 0 ((r j (θ (N - 1))).re, (r j (θ (N - 1))).im) ((r j (θ 0)).re, (r j (θ 0)).im)|
      ≤ 1 / 2 * (Z * (Λ / 10 ^ 8)) := by
    intro j
    have e0 : r j (θ 0) = r j Real.pi := by rw [h0]; simp only [hr]; rw [hsrcπ]
    refine (closing_triangle _ _).trans (mul_le_mul_of_nonneg_left ?_ (by norm_num))
    refine mul_le_mul (hrZ _ j) ?_ (norm_nonneg _) ((norm_nonneg _).trans (hrZ 0 j))
    rw [e0]
    refine (hspeed _ _ j).trans (le_of_eq ?_)
    rw [hlast, sub_sub_cancel, abs_of_pos heps, mul_one_div]
  -- the integrals add up to the images of the disc
  have hint : ∀ j, IntervalIntegrable (fun t => (conj (r j t) * deriv (r j) t).im) volume (-Real.pi) Real.pi := by
    intro j
    have hc : Continuous (fun t => (conj (r j t) * deriv (r j) t).im) := by
      have h1 := (hcurve j).1.continuous
      have h2 := (hcurve j).1.continuous_deriv le_rfl
      fun_prop
    exact hc.intervalIntegrable _ _
  have hsum : (1 / 2) * (∫ t in (-Real.pi)..Real.pi, (conj (r 0 t) * deriv (r 0) t).im)
      - (1 / 2) * (∫ t in (-Real.pi)..Real.pi, (conj (r 1 t) * deriv (r 1) t).im)
      = ∫ y in Metric.ball w rho, pointMag single y := by
    rw [← mul_sub, ← intervalIntegral.integral_sub (hint 0) (hint 1),
      ← single_limb_integral w rho hrho hwne src hsrcf]
    congr 1
    refine intervalIntegral.integral_congr fun t _ => ?_
    rw [(hcurve 0).2, (hcurve 1).2]
    simp only [hsg, Matrix.cons_val_zero, Matrix.cons_val_one]
    ring
  obtain ⟨A, hA⟩ : ∃ A, A = ∫ y in Metric.ball w rho, pointMag single y := ⟨_, rfl⟩
  rw [← hA] at hsum
  have hmag : uniformMag single w rho = A / (Real.pi * rho ^ 2) := by
    have hball : volume.real (Metric.ball w rho) = Real.pi * rho ^ 2 := by
      rw [Measure.real, Complex.volume_ball]
      simp [hrho.le]
      ring
    rw [uniformMag_eq_average, setAverage_eq, smul_eq_mul, ← hA, hball, div_eq_inv_mul]
  have hA0 : 0 ≤ A := by rw [hA]; exact integral_nonneg fun y => pointMag_nonneg single y
  obtain ⟨S, hS⟩ : ∃ S, S = ∑ j, sg j * (polygonArea 0 ((List.range N).map fun k => ((r j (θ k)).re, (r j (θ k)).im))
        - triArea 0 ((r j (θ (N - 1))).re, (r j (θ (N - 1))).im) ((r j (θ 0)).re, (r j (θ 0)).im)) := ⟨_, rfl⟩
  rw [← hS]
  rw [hmag, ← sub_div, abs_div, abs_of_pos (by positivity : 0 < Real.pi * rho ^ 2), div_le_iff₀ (by positivity)]
  have hab : |(|S| - A)| ≤ |S - A| := by
    have := abs_abs_sub_abs_le (S) A
    rwa [abs_of_nonneg hA0] at this
  refine hab.trans ?_
  rw [hS, Fin.sum_univ_two, ← hsum]
  simp only [hsg, Matrix.cons_val_zero, Matrix.cons_val_one]
  have a0 := abs_le.mp (hpoly 0)
  have a1 := abs_le.mp (hpoly 1)
  have b0 := abs_le.mp (htri 0)
  have b1 := abs_le.mp (htri 1)
  have e : (2 * κ ^ 2 * h + (M + Real.sqrt (M ^ 2 + 4)) / 2 * κ / (Real.pi * rho * 10 ^ 8)) * (Real.pi * rho ^ 2)
      = 2 * (Real.pi * Λ ^ 2 * h) + 2 * (1 / 2 * (Z * (Λ / 10 ^ 8))) := by
    rw [hΛ, hZ]
    field_simp
  rw [e, abs_le]
  constructor <;> linarith [a0.1, a0.2, a1.1, a1.2, b0.1, b0.2, b1.1, b1.2]


/-- The lens outside of the disc: a source of radius 0.1 half an Einstein radius away, 20000 samples. -/
example (lib : Lib) (npts_ld : ℕ) (u : UserParams) (u1 : ℝ) :
    ∃ m, magExtendedSource lib 1 20000 npts_ld false u u1 (1 / 10) (1 / 2) = .ok m ∧
      |m - uniformMag single (1 / 2) (1 / 10)| ≤ 1 / 10 := by
  have hn : ‖(1 / 2 : ℂ)‖ = 1 / 2 := by norm_num
  have hs : Real.sqrt ((1 / 2 + 1 / 10) ^ 2 + 4) ≤ 21 / 10 := Real.sqrt_le_iff.mpr (by norm_num)
  have hs0 := Real.sqrt_nonneg ((1 / 2 + 1 / 10 : ℝ) ^ 2 + 4)
  have hp1 := Real.pi_gt_three
  have hp2 := Real.pi_le_four
  obtain ⟨s, hsd⟩ : ∃ s, s = Real.sqrt ((1 / 2 + 1 / 10 : ℝ) ^ 2 + 4) := ⟨_, rfl⟩
  rw [← hsd] at hs hs0
  obtain ⟨k, hk⟩ : ∃ k : ℝ, k = 1 + s / (2 / 5) := ⟨_, rfl⟩
  have hk1 : k ≤ 25 / 4 := by rw [hk]; linarith
  have hk0 : 0 ≤ k := by rw [hk]; positivity
  have hh : ((20000 / 2 - 1 : ℕ) : ℝ) = 9999 := by norm_num
  obtain ⟨h, hhd⟩ : ∃ h : ℝ, h = 2 * Real.pi / 9999 := ⟨_, rfl⟩
  have hh1 : h ≤ 8 / 9999 := by rw [hhd]; linarith
  have hh0 : 0 ≤ h := by rw [hhd]; positivity
  have hk2 : k ^ 2 ≤ 40 := by nlinarith
  obtain ⟨m, h1, h2⟩ := C132_single lib 20000 npts_ld u u1 (1 / 10) (1 / 2) (by norm_num) (by norm_num) (by norm_num)
    (2 / 5) (1 / 2 + 1 / 10) k h (by rw [hn, abs_of_pos (by norm_num)]; norm_num) (by norm_num) (by rw [hn])
    (by rw [hk, hsd]) (by rw [hh]; exact hhd) (by nlinarith)
  refine ⟨m, h1, h2.trans ?_⟩
  rw [← hsd]
  have e1 : (1 / 2 + 1 / 10 + s) / 2 * k / (Real.pi * (1 / 10) * 10 ^ 8) ≤ 1 / 100 := by
    rw [div_le_div_iff₀ (by positivity) (by norm_num)]
    nlinarith
  nlinarith

/-- The lens behind the centre of the disc, where the images form an Einstein ring and no point of the limb has a special
position: 100000 samples of a source of radius 0.1, whose magnification is about 20. -/
example (lib : Lib) (npts_ld : ℕ) (u : UserParams) (u1 : ℝ) :
    ∃ m, magExtendedSource lib 1 100000 npts_ld false u u1 (1 / 10) 0 = .ok m ∧
      |m - uniformMag single 0 (1 / 10)| ≤ 1 / 5 := by
  have hs : Real.sqrt ((0 + 1 / 10) ^ 2 + 4) ≤ 201 / 100 := Real.sqrt_le_iff.mpr (by norm_num)
  have hs0 := Real.sqrt_nonneg ((0 + 1 / 10 : ℝ) ^ 2 + 4)
  have hp1 := Real.pi_gt_three
  have hp2 := Real.pi_le_four
  obtain ⟨s, hsd⟩ : ∃ s, s = Real.sqrt ((0 + 1 / 10 : ℝ) ^ 2 + 4) := ⟨_, rfl⟩
  rw [← hsd] at hs hs0
  obtain ⟨k, hk⟩ : ∃ k : ℝ, k = 1 + s / (1 / 10) := ⟨_, rfl⟩
  have hk1 : k ≤ 211 / 10 := by rw [hk]; linarith
  have hk0 : 0 ≤ k := by rw [hk]; positivity
  have hh : ((100000 / 2 - 1 : ℕ) : ℝ) = 49999 := by norm_num
  obtain ⟨h, hhd⟩ : ∃ h : ℝ, h = 2 * Real.pi / 49999 := ⟨_, rfl⟩
  have hh1 : h ≤ 8 / 49999 := by rw [hhd]; linarith
  have hh0 : 0 ≤ h := by rw [hhd]; positivity
  have hk2 : k ^ 2 ≤ 446 := by nlinarith
  obtain ⟨m, h1, h2⟩ := C132_single lib 100000 npts_ld u u1 (1 / 10) 0 (by norm_num) (by norm_num) (by norm_num)
    (1 / 10) (0 + 1 / 10) k h (by rw [norm_zero]; norm_num) (by norm_num) (by rw [norm_zero])
    (by rw [hk, hsd]) (by rw [hh]; exact hhd) (by nlinarith)
  refine ⟨m, h1, h2.trans ?_⟩
  rw [← hsd]
  have e1 : (0 + 1 / 10 + s) / 2 * k / (Real.pi * (1 / 10) * 10 ^ 8) ≤ 1 / 100 := by
    rw [div_le_div_iff₀ (by positivity) (by norm_num)]
    nlinarith
  nlinarith

end Microjax.Props
