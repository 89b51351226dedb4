import Verif.Lemmas.FarField
import Verif.Props.ImageCount
import Verif.Props.Tolerance
import Verif.Props.AtLeastOne

/-!
# C108, C109: distant sources

Far from the lenses the magnification tends to one at the rate of the fourth power of the distance, and the mask of
`_images_point_source` keeps exactly one image more than there are lenses, provided that the lenses are further apart
than the tolerance of the mask.
-/

noncomputable section

namespace Microjax.Props

open Complex ComplexConjugate Microjax.PointSource Microjax.Spec Filter
open scoped Topology

variable {n : ℕ} {m : Fin n → ℝ} {c : Fin n → ℂ} {e D d : ℝ} {w : ℂ}

/-- The positions of a list that map to within `tol` of the source. -/
def accepted (L : Lenses) (tol : ℝ) (w : ℂ) (zs : List ℂ) : List ℂ :=
  zs.filter fun z => decide (‖lensMap L z - w‖ < tol)

theorem mem_accepted (L : Lenses) (tol : ℝ) (w : ℂ) (zs : List ℂ) (z : ℂ) :
    z ∈ accepted L tol w zs ↔ z ∈ zs ∧ ‖lensMap L z - w‖ < tol := by
  rw [accepted, List.mem_filter, decide_eq_true_eq]

theorem image_accepted (zs : List ℂ) (hall : ∀ z, DualSol m c w z → z ∈ zs) (tol : ℝ) (htol : 0 < tol) (z : ℂ)
    (hz : IsImage (lensList m c) w z) : z ∈ accepted (lensList m c) tol w zs := by
  rw [mem_accepted]
  refine ⟨hall z ((isImage_iff_dual m c w z).mp hz).1, ?_⟩
  rw [hz.2, sub_self, norm_zero]; exact htol

/-- The sum over the accepted solutions and the magnification, for a far source. -/
theorem far_accepted_sum (F : FarSource m c e D d w) (zs : List ℂ) (hnd : zs.Nodup)
    (hsol : ∀ z ∈ zs, DualSol m c w z) (hall : ∀ z, DualSol m c w z → z ∈ zs) (hlen : zs.length = n ^ 2 + 1) (tol : ℝ)
    (htol : 0 < tol) :
    1 ≤ pointMag (lensList m c) w ∧
    pointMag (lensList m c) w ≤ ((accepted (lensList m c) tol w zs).map fun z => 1 / |detFormula (lensList m c) z|).sum ∧
    ((accepted (lensList m c) tol w zs).map fun z => 1 / |detFormula (lensList m c) z|).sum
      ≤ 1 + (32 + ((n ^ 2 + 1 : ℕ) : ℝ) * (2048 / e ^ 2)) / ‖w‖ ^ 4 := by
  classical
  obtain ⟨z₀, h₀, hk⟩ := F.kind_surj zs hnd hsol hlen none
  have hi := F.far_image z₀ (hsol z₀ h₀) hk
  have hR := F.Rpos
  have he := F.he
  refine ⟨?_, pointMag_le_of_list _ _ _ (image_accepted zs hall tol htol), ?_⟩
  · rw [pointMag_of_list (lensList m c) w (zs.filter fun z => decide (IsImage (lensList m c) w z)) (hnd.filter _)
      (by intro z; rw [List.mem_filter, decide_eq_true_eq]
          exact ⟨fun a => a.2, fun a => ⟨hall z ((isImage_iff_dual m c w z).mp a).1, a⟩⟩)]
    refine (F.sum_bounds _ (hnd.filter _) (fun z hz => hsol z (List.mem_filter.mp hz).1) z₀ ?_ hk).1
    rw [List.mem_filter, decide_eq_true_eq]; exact ⟨h₀, hi⟩
  · refine (F.sum_bounds (accepted (lensList m c) tol w zs) (hnd.filter _)
      (fun z hz => hsol z ((mem_accepted _ _ _ _ _).mp hz).1) z₀ (image_accepted zs hall tol htol z₀ hi) hk).2.trans ?_
    have : ((accepted (lensList m c) tol w zs).length : ℝ) ≤ ((n ^ 2 + 1 : ℕ) : ℝ) := by
      rw [← hlen]
      exact_mod_cast (List.filter_sublist).length_le
    gcongr

/-- If the lenses are further apart than the tolerance, exactly the images are accepted, and there are `n + 1`. -/
theorem far_accepted_exact (F : FarSource m c e D d w) (zs : List ℂ) (hnd : zs.Nodup)
    (hsol : ∀ z ∈ zs, DualSol m c w z) (hall : ∀ z, DualSol m c w z → z ∈ zs) (hlen : zs.length = n ^ 2 + 1) (tol : ℝ)
    (htol : 0 < tol) (hsep : ∀ i j, i ≠ j → tol + 8 / ‖w‖ ≤ ‖c i - c j‖) :
    (∀ z, z ∈ accepted (lensList m c) tol w zs ↔ IsImage (lensList m c) w z) ∧
    (accepted (lensList m c) tol w zs).length = n + 1 := by
  classical
  have hiff : ∀ z ∈ zs, (‖lensMap (lensList m c) z - w‖ < tol ↔ IsImage (lensList m c) w z) := by
    intro z hz
    refine ⟨fun h => ?_, fun h => ((mem_accepted _ _ _ _ _).mp (image_accepted zs hall tol htol z h)).2⟩
    obtain ⟨o, ho⟩ := F.kind_exists z (hsol z hz)
    match o, ho with
    | none, ho => exact F.far_image z (hsol z hz) ho
    | some (k, j), ho =>
      by_cases hkj : k = j
      · subst hkj; exact F.diag_image z (hsol z hz) k ho
      · have h1 := FarSource.mixed_residual z k j ho
        have h2 := hsep k j hkj
        have h3 := (abs_le.mp h1).1
        linarith
  refine ⟨fun z => ?_, ?_⟩
  · rw [mem_accepted]
    refine ⟨fun h => (hiff z h.1).mp h.2, fun h => ?_⟩
    exact (mem_accepted _ _ _ _ _).mp (image_accepted zs hall tol htol z h)
  · rw [← F.image_count zs hnd hsol hlen, accepted]
    congr 1
    refine List.filter_congr fun z hz => ?_
    rw [decide_eq_decide]; exact hiff z hz

/-- If two lenses are closer than the tolerance, a position that is not an image is accepted. -/
theorem far_accepted_extra (F : FarSource m c e D d w) (zs : List ℂ) (hnd : zs.Nodup)
    (hsol : ∀ z ∈ zs, DualSol m c w z) (hlen : zs.length = n ^ 2 + 1) (tol : ℝ) (k j : Fin n) (hkj : k ≠ j)
    (hclose : ‖c k - c j‖ + 8 / ‖w‖ < tol) :
    ∃ z ∈ accepted (lensList m c) tol w zs, ¬ IsImage (lensList m c) w z := by
  obtain ⟨z, hz, hk⟩ := F.kind_surj zs hnd hsol hlen (some (k, j))
  refine ⟨z, ?_, F.mixed_not_image z k j hkj hk⟩
  rw [mem_accepted]
  refine ⟨hz, ?_⟩
  have := (abs_le.mp (FarSource.mixed_residual z k j hk)).2
  linarith

/-! ### The roots of the polynomials -/

/-- The roots of the binary polynomial for a far source: distinct, and exactly the complexified solutions. -/
theorem binary_far_roots (p : MidParams) (he : 0 < p.e1) (he' : p.e1 < 1) (ha : p.a ≠ 0)
    (F : FarSource (mass2 p) (pos2 p) e D d w) (rs : List ℂ) (hr : IsRootList (polyCoeffsBinary w p.a p.e1) rs) :
    conj w ^ 2 ≠ (p.a : ℂ) ^ 2 ∧ rs.Nodup ∧ (∀ z ∈ rs, DualSol (mass2 p) (pos2 p) w z) ∧
      (∀ z, DualSol (mass2 p) (pos2 p) w z → z ∈ rs) ∧ rs.length = 2 ^ 2 + 1 := by
  have hw : conj w ^ 2 ≠ (p.a : ℂ) ^ 2 := by
    intro h
    have h1 := congrArg norm h
    rw [norm_pow, norm_pow, Complex.norm_conj] at h1
    have h2 : ‖w‖ = ‖(p.a : ℂ)‖ := by
      rwa [pow_left_inj₀ (norm_nonneg _) (norm_nonneg _) two_ne_zero] at h1
    have h3 : ‖(p.a : ℂ)‖ ≤ D := F.hc 0
    linarith [F.hD, F.h4, norm_nonneg (p.a : ℂ)]
  have hnd : rs.Nodup := by
    refine nodup_of_deriv _ rs hr 0 (dualRes (mass2 p) (pos2 p) w) (dualDet (mass2 p) (pos2 p) w) fun z hz => ?_
    obtain ⟨hs, G, hG, hG0, hev⟩ := binary_local p w ha he he' hw z (IsRootList.eval_zero_of_mem hr hz)
    rw [add_zero]
    exact ⟨⟨G, hG, hG0, by simpa using hev⟩, hasDerivAt_dualRes _ _ w z hs.hz hs.hy,
      (dualSol_iff _ _ w z hs.hz hs.hy).mp hs, F.det_ne_zero z hs⟩
  obtain ⟨b1, b2, b3⟩ := binary_roots p w rs ha he he' hr hw hnd
  exact ⟨hw, hnd, fun z hz => (b1 z hz).1, b2, b3⟩

/-- The shifted roots of the triple polynomial for a far source. -/
theorem triple_far_roots (p : MidParams) (ha : p.a ≠ 0) (hr1 : r3Complex p ≠ p.a)
    (hr2 : r3Complex p ≠ -p.a) (he1 : p.e1 ≠ 0) (he2 : p.e2 ≠ 0) (he3 : 1 - p.e1 - p.e2 ≠ 0)
    (F : FarSource (mass3 p) (pos3 p) e D d w) (rs : List ℂ)
    (hr : IsRootList (polyCoeffsTripleCM w p.a (r3Complex p) p.e1 p.e2) rs) (zs : List ℂ)
    (hzs : zs = rs.map (· + shiftCM p.a (r3Complex p) p.e1 p.e2)) :
    (polyCoeffsTripleCM w p.a (r3Complex p) p.e1 p.e2).headD 0 ≠ 0 ∧ rs.Nodup ∧ zs.Nodup ∧
      (∀ z ∈ zs, DualSol (mass3 p) (pos3 p) w z) ∧
      (∀ z, DualSol (mass3 p) (pos3 p) w z → z ∈ zs) ∧ zs.length = 3 ^ 2 + 1 := by
  have hne : ∀ i, w ≠ pos3 p i := by
    rintro i rfl
    have := F.hc i
    linarith [F.hD, F.h4, norm_nonneg (pos3 p i)]
  obtain ⟨hw1, hw2, hw3⟩ := (forall3 p fun c => w ≠ c).mp hne
  set T := shiftCM p.a (r3Complex p) p.e1 p.e2 with hT
  have hnd : rs.Nodup := by
    refine nodup_of_deriv _ rs hr T (dualRes (mass3 p) (pos3 p) w) (dualDet (mass3 p) (pos3 p) w) fun r hrm => ?_
    have h0 : evalPoly (polyCoeffsTripleCM w p.a (r3Complex p) p.e1 p.e2) (r + T - T) = 0 := by
      rw [add_sub_cancel_right]; exact IsRootList.eval_zero_of_mem hr hrm
    obtain ⟨hs, G, hG, hG0, hev⟩ := triple_local p w ha hr1 hr2 he1 he2 he3 hw1 hw2 hw3 (r + T) h0
    exact ⟨⟨G, hG, hG0, hev⟩, hasDerivAt_dualRes _ _ w _ hs.hz hs.hy, (dualSol_iff _ _ w _ hs.hz hs.hy).mp hs,
      F.det_ne_zero _ hs⟩
  obtain ⟨b1, b2, b3⟩ := triple_roots p w rs ha hr1 hr2 he1 he2 he3 hr hw1 hw2 hw3 hnd
  rw [← hT] at b1 b2
  subst hzs
  refine ⟨?_, hnd, hnd.map (add_left_injective T), ?_, ?_, by rw [List.length_map, b3]; norm_num⟩
  · rw [(triple_head w p.a (r3Complex p) p.e1 p.e2).2]
    have hi : ∀ x : ℂ, x ≠ 0 → conj x ≠ 0 := fun x hx => by simpa using hx
    refine mul_ne_zero (mul_ne_zero (hi _ (sub_ne_zero.mpr hw1)) (hi _ ?_)) (hi _ (sub_ne_zero.mpr hw3))
    exact fun hc => hw2 (by linear_combination hc)
  · intro z hz
    obtain ⟨r, hr', rfl⟩ := List.mem_map.mp hz
    exact (b1 r hr').1
  · intro z hz
    exact List.mem_map.mpr ⟨z - T, b2 z hz, by ring⟩

/-- Beyond a distance every source in the frame of the user is far in the frame of the mid-point. -/
theorem far_shifted (m : Fin n → ℝ) (c : Fin n → ℂ) (hm : ∀ i, 0 < m i) (hsum : ∑ i, m i = 1)
    (hinj : Function.Injective c) (x : ℂ) : ∃ e D d W : ℝ, 0 < e ∧ 0 < W ∧
      ∀ w : ℂ, W ≤ ‖w‖ → FarSource m c e D d (w - x) ∧ ‖w‖ / 2 ≤ ‖w - x‖ := by
  obtain ⟨e, D, d, W, he, hW, -, h⟩ := farSource_eventually m c hm hsum hinj
  refine ⟨e, D, d, 2 * W + 2 * ‖x‖, he, by positivity, fun w hw => ?_⟩
  have h1 : ‖w‖ - ‖x‖ ≤ ‖w - x‖ := norm_sub_norm_le w x
  have h2 := norm_nonneg x
  exact ⟨h _ (by linarith), by linarith⟩

/-- The inverse fourth power of the shifted distance. -/
theorem inv_fourth_le (R r C : ℝ) (hC : 0 ≤ C) (hR : 0 < R) (h : R / 2 ≤ r) : C / r ^ 4 ≤ (16 * C) / R ^ 4 := by
  have h1 : (R / 2) ^ 4 ≤ r ^ 4 := by gcongr
  have hr : 0 < r := by linarith
  rw [div_le_div_iff₀ (by positivity) (by positivity)]
  nlinarith

theorem mass2_pos (u : UserParams) (hq : 0 < u.q) :
    (0 < (midParams2 u).e1 ∧ (midParams2 u).e1 < 1) ∧ (∀ i, 0 < mass2 (midParams2 u) i) ∧
      ∑ i, mass2 (midParams2 u) i = 1 := by
  have h1 : 0 < u.q / (1 + u.q) := by positivity
  have h2 : u.q / (1 + u.q) < 1 := by rw [div_lt_one (by positivity)]; linarith
  refine ⟨⟨h1, h2⟩, ?_, ?_⟩
  · rw [Fin.forall_fin_two]
    exact ⟨h1, by simp only [mass2, Matrix.cons_val_one, Matrix.cons_val_zero]; simp only [midParams2]; linarith⟩
  · simp [mass2, Fin.sum_univ_two]

theorem pos2_inj (u : UserParams) (hs : u.s ≠ 0) : Function.Injective (pos2 (midParams2 u)) := by
  have ha : ((midParams2 u).a : ℂ) ≠ 0 := by
    have : (midParams2 u).a ≠ 0 := by simp [midParams2, hs]
    exact_mod_cast this
  have h1 : ((midParams2 u).a : ℂ) ≠ -((midParams2 u).a : ℂ) := fun h => ha (by linear_combination h / 2)
  intro i j h
  fin_cases i <;> fin_cases j <;> simp only [pos2] at h ⊢ <;> simp at h
  · exact absurd h h1
  · exact absurd h.symm h1

theorem mass3_pos (u : UserParams) (hq : 0 < u.q) (hq3 : 0 < u.q3) :
    (∀ i, 0 < mass3 (midParams3 u) i) ∧ ∑ i, mass3 (midParams3 u) i = 1 := by
  have h0 : 0 < 1 + u.q + u.q3 := by positivity
  have h3 : 1 - u.q / (1 + u.q + u.q3) - 1 / (1 + u.q + u.q3) = u.q3 / (1 + u.q + u.q3) := by
    field_simp; ring
  constructor
  · intro i
    fin_cases i
    · simp only [mass3, midParams3]; simp; positivity
    · simp only [mass3, midParams3]; simp; positivity
    · have : mass3 (midParams3 u) 2 = 1 - u.q / (1 + u.q + u.q3) - 1 / (1 + u.q + u.q3) := rfl
      show 0 < mass3 (midParams3 u) 2
      rw [this, h3]; positivity
  · simp [mass3, Fin.sum_univ_three]

theorem pos3_inj (p : MidParams) (ha : p.a ≠ 0) (hr1 : r3Complex p ≠ p.a) (hr2 : r3Complex p ≠ -p.a) :
    Function.Injective (pos3 p) := by
  have hac : (p.a : ℂ) ≠ 0 := by exact_mod_cast ha
  have h1 : (p.a : ℂ) ≠ -(p.a : ℂ) := fun h => hac (by linear_combination h / 2)
  intro i j h
  fin_cases i <;> fin_cases j <;> simp only [pos3] at h ⊢ <;> simp at h
  · exact absurd h h1
  · exact absurd h.symm hr1
  · exact absurd h.symm h1
  · exact absurd h.symm hr2
  · exact absurd h hr1
  · exact absurd h hr2

/-! ### C108 -/

/-- **C108, one lens**: what holds of `mag_point_source(w, nlenses=1)` is that the value is between `1` and
`1 + 2/|w|²` for every source off the lens.  Missing for the full property: the fourth power, see
`C108_single_violated`. -/
theorem C108_single_partial (roots) (u : UserParams) (w : ℂ) (hw : w ≠ 0) :
    ∃ A, magPointSource roots 1 u w = .ok A ∧ 1 ≤ A ∧ A ≤ 1 + 2 / ‖w‖ ^ 2 := by
  have hn : 0 < ‖w‖ := norm_pos_iff.mpr hw
  refine ⟨_, C02_single_mag_value roots u w hw, ?_, ?_⟩
  · rw [le_div_iff₀ hn, one_mul]
    exact Real.le_sqrt_of_sq_le (by linarith)
  · rw [div_le_iff₀ hn, Real.sqrt_le_left (by positivity)]
    have : ((1 + 2 / ‖w‖ ^ 2) * ‖w‖) ^ 2 = ‖w‖ ^ 2 + 4 + 4 / ‖w‖ ^ 2 := by field_simp; ring
    rw [this]
    have : 0 ≤ 4 / ‖w‖ ^ 2 := by positivity
    linarith

/-- The true magnification of one lens has the rate. -/
theorem pointMag_single_far (w : ℂ) (hw : w ≠ 0) : 1 ≤ pointMag single w ∧ pointMag single w ≤ 1 + 2 / ‖w‖ ^ 4 := by
  have hn : 0 < ‖w‖ := norm_pos_iff.mpr hw
  rw [C02_true_single_mag w hw, paczynski]
  set x := ‖w‖
  have hs : 0 < Real.sqrt (x ^ 2 + 4) := by positivity
  have h2 : Real.sqrt (x ^ 2 + 4) ^ 2 = x ^ 2 + 4 := Real.sq_sqrt (by positivity)
  constructor
  · rw [le_div_iff₀ (by positivity), one_mul]
    refine le_of_sq_le_sq ?_ (by positivity)
    rw [mul_pow, h2]; nlinarith
  · have e : 1 + 2 / x ^ 4 = (x ^ 4 + 2) / x ^ 4 := by field_simp
    rw [e, div_le_div_iff₀ (by positivity) (by positivity)]
    refine le_of_sq_le_sq ?_ (by positivity)
    have : ((x ^ 4 + 2) * (x * Real.sqrt (x ^ 2 + 4))) ^ 2 = (x ^ 4 + 2) ^ 2 * x ^ 2 * (x ^ 2 + 4) := by
      rw [mul_pow, mul_pow, h2]; ring
    rw [this]
    have h6 : 0 ≤ x ^ 6 := by positivity
    nlinarith [sq_nonneg (x ^ 2), sq_nonneg x]

/-- **C108 does not hold for one lens**: whatever the constant and the distance, there are sources farther away at which
`mag_point_source(w, nlenses=1)` exceeds one by more than the constant over the fourth power of the distance, although
the true magnification exceeds one by at most `2/|w|⁴`. -/
theorem C108_single_violated (roots) (u : UserParams) (C W : ℝ) :
    ∃ w : ℂ, W ≤ ‖w‖ ∧ pointMag single w ≤ 1 + 2 / ‖w‖ ^ 4 ∧
      ∃ A, magPointSource roots 1 u w = .ok A ∧ 1 + C / ‖w‖ ^ 4 < A := by
  set x : ℝ := |C| + |W| + 2 with hx
  have hx0 : 0 < x := by positivity
  have hn : ‖(x : ℂ)‖ = x := by rw [Complex.norm_of_nonneg hx0.le]
  have hw : (x : ℂ) ≠ 0 := by exact_mod_cast hx0.ne'
  refine ⟨x, ?_, (pointMag_single_far _ hw).2, _, C02_single_mag_value roots u _ hw, ?_⟩
  · rw [hn, hx]; linarith [le_abs_self W, abs_nonneg C]
  · rw [hn]
    have h1 : 1 + 1 / x ^ 2 ≤ Real.sqrt (x ^ 2 + 4) / x := by
      rw [le_div_iff₀ hx0]
      refine Real.le_sqrt_of_sq_le ?_
      have e : ((1 + 1 / x ^ 2) * x) ^ 2 = x ^ 2 + 2 + 1 / x ^ 2 := by field_simp; ring
      rw [e]
      have : 1 / x ^ 2 ≤ 1 := by
        rw [div_le_one (by positivity)]
        nlinarith [abs_nonneg C, abs_nonneg W]
      linarith
    refine lt_of_lt_of_le ?_ h1
    have h2 : C < x ^ 2 := by nlinarith [abs_nonneg C, abs_nonneg W, le_abs_self C]
    have h3 : C / x ^ 4 < 1 / x ^ 2 := by
      rw [div_lt_div_iff₀ (by positivity) (by positivity)]
      have : 0 < x ^ 2 := by positivity
      nlinarith
    linarith

/-- **C108, two lenses**: for every separation `s ≠ 0` and mass ratio `q > 0` there are a constant and a distance beyond
which, whatever the root finder as long as it returns all roots, `mag_point_source(w, nlenses=2, s, q)` is at least the
true magnification, this is at least one, and the value exceeds one by at most the constant over the fourth power of the
distance. -/
theorem C108_binary (u : UserParams) (hs : u.s ≠ 0) (hq : 0 < u.q) :
    ∃ C W : ℝ, 0 < W ∧ ∀ w : ℂ, W ≤ ‖w‖ → ∀ (roots : Option (List ℂ) → List ℂ → List ℂ) (cs : List ℂ),
      cs = polyCoeffsBinary (w - xCM u) (midParams2 u).a (midParams2 u).e1 → IsRootList cs (roots none cs) →
      ∃ A, magPointSource roots 2 u w = .ok A ∧ 1 ≤ pointMag (binary u.s u.q) w ∧ pointMag (binary u.s u.q) w ≤ A ∧
        A ≤ 1 + C / ‖w‖ ^ 4 := by
  set p := midParams2 u with hp
  obtain ⟨⟨h1, h2⟩, hm, hsum⟩ := mass2_pos u hq
  have ha : p.a ≠ 0 := by simp [hp, midParams2, hs]
  obtain ⟨e, D, d, W, he, hW, hfar⟩ := far_shifted (mass2 p) (pos2 p) hm hsum (pos2_inj u hs) (xCM u)
  refine ⟨16 * (32 + ((2 ^ 2 + 1 : ℕ) : ℝ) * (2048 / e ^ 2)), W, hW, fun w hw roots cs hcs hr => ?_⟩
  obtain ⟨F, hhalf⟩ := hfar w hw
  subst hcs
  obtain ⟨-, b1, b2, b3, b4⟩ := binary_far_roots p h1 h2 ha F _ hr
  have hmag : magPointSource roots 2 u w = .ok ((accepted (midBinary p) (1 / 10 ^ 6) (w - xCM u)
      (roots none (polyCoeffsBinary (w - xCM u) p.a p.e1))).map fun z => 1 / |detFormula (midBinary p) z|).sum := by
    have : magPointSource roots 2 u w = .ok (sumMag (detJac2 p) (withMask (lensEq2 p) (1 / 10 ^ 6) (w - xCM u)
        (roots none (polyCoeffsBinary (w - xCM u) p.a p.e1)))) := by
      simp [magPointSource, images2, hp]
    rw [this, sumMag_withMask, accepted]
    simp only [lensEq2_eq, detJac2_eq]
    rfl
  obtain ⟨c1, c2, c3⟩ := far_accepted_sum F _ b1 b2 b3 b4 (1 / 10 ^ 6) (by norm_num)
  rw [lensList2] at c1 c2 c3
  have hpm : pointMag (binary u.s u.q) w = pointMag (midBinary p) (w - xCM u) := by
    rw [← (C08_binary_frame u (by positivity)).1, show w = (w - xCM u) + xCM u by ring, pointMag_translate]
    simp [hp]
  rw [hpm]
  refine ⟨_, hmag, c1, c2, c3.trans ?_⟩
  have := inv_fourth_le ‖w‖ ‖w - xCM u‖ (32 + ((2 ^ 2 + 1 : ℕ) : ℝ) * (2048 / e ^ 2)) (by positivity) (by linarith)
    hhalf
  linarith

/-- **C108, three lenses**: the same for three lenses at distinct positions with positive masses. -/
theorem C108_triple (u : UserParams) (hs : u.s ≠ 0) (hq : 0 < u.q) (hq3 : 0 < u.q3)
    (hr1 : r3Complex (midParams3 u) ≠ (midParams3 u).a) (hr2 : r3Complex (midParams3 u) ≠ -(midParams3 u).a) :
    ∃ C W : ℝ, 0 < W ∧ ∀ w : ℂ, W ≤ ‖w‖ → ∀ (roots : Option (List ℂ) → List ℂ → List ℂ) (cs : List ℂ),
      cs = polyCoeffsTripleCM (w - xCM u) (midParams3 u).a (r3Complex (midParams3 u)) (midParams3 u).e1
        (midParams3 u).e2 → IsRootList cs (roots none cs) →
      ∃ A, magPointSource roots 3 u w = .ok A ∧ 1 ≤ pointMag (triple u.s u.q u.q3 u.r3 u.psi) w ∧
        pointMag (triple u.s u.q u.q3 u.r3 u.psi) w ≤ A ∧ A ≤ 1 + C / ‖w‖ ^ 4 := by
  set p := midParams3 u with hp
  obtain ⟨hm, hsum⟩ := mass3_pos u hq hq3
  have ha : p.a ≠ 0 := by simp [hp, midParams3, hs]
  obtain ⟨e, D, d, W, he, hW, hfar⟩ := far_shifted (mass3 p) (pos3 p) hm hsum (pos3_inj p ha hr1 hr2) (xCM u)
  refine ⟨16 * (32 + ((3 ^ 2 + 1 : ℕ) : ℝ) * (2048 / e ^ 2)), W, hW, fun w hw roots cs hcs hr => ?_⟩
  obtain ⟨F, hhalf⟩ := hfar w hw
  subst hcs
  obtain ⟨-, -, b1, b2, b3, b4⟩ := triple_far_roots p ha hr1 hr2 (hm 0).ne' (hm 1).ne' (hm 2).ne' F _ hr _ rfl
  set zs := (roots none (polyCoeffsTripleCM (w - xCM u) p.a (r3Complex p) p.e1 p.e2)).map
    (· + shiftCM p.a (r3Complex p) p.e1 p.e2) with hzs
  have hmag : magPointSource roots 3 u w = .ok ((accepted (midTriple p) (1 / 10 ^ 3) (w - xCM u)
      zs).map fun z => 1 / |detFormula (midTriple p) z|).sum := by
    have : magPointSource roots 3 u w = .ok (sumMag (detJac3 p) (withMask (lensEq3 p) (1 / 10 ^ 3) (w - xCM u)
        zs)) := by
      simp [magPointSource, images3, hp, hzs]
    rw [this, sumMag_withMask, accepted]
    simp only [lensEq3_eq, detJac3_eq]
    rfl
  obtain ⟨c1, c2, c3⟩ := far_accepted_sum F _ b1 b2 b3 b4 (1 / 10 ^ 3) (by norm_num)
  rw [lensList3] at c1 c2 c3
  have hpm : pointMag (triple u.s u.q u.q3 u.r3 u.psi) w = pointMag (midTriple p) (w - xCM u) := by
    rw [← (C08_triple_frame u (by positivity) (by positivity)).1, show w = (w - xCM u) + xCM u by ring,
      pointMag_translate]
    simp [hp]
  rw [hpm]
  refine ⟨_, hmag, c1, c2, c3.trans ?_⟩
  have := inv_fourth_le ‖w‖ ‖w - xCM u‖ (32 + ((3 ^ 2 + 1 : ℕ) : ℝ) * (2048 / e ^ 2)) (by positivity) (by linarith)
    hhalf
  linarith

/-! ### C109 -/

/-- Beyond a distance the source is far and `8/|w|` is below a given margin. -/
theorem far_margin (m : Fin n → ℝ) (c : Fin n → ℂ) (hm : ∀ i, 0 < m i) (hsum : ∑ i, m i = 1)
    (hinj : Function.Injective c) (δ : ℝ) (hδ : 0 < δ) : ∃ e D d W : ℝ, 0 < W ∧
      ∀ w : ℂ, W ≤ ‖w‖ → FarSource m c e D d w ∧ 8 / ‖w‖ < δ := by
  obtain ⟨e, D, d, W, -, hW, -, h⟩ := farSource_eventually m c hm hsum hinj
  refine ⟨e, D, d, W + 9 / δ, by positivity, fun w hw => ?_⟩
  have h1 : 0 < 9 / δ := by positivity
  refine ⟨h w (by linarith), ?_⟩
  have h2 : 9 / δ ≤ ‖w‖ := by linarith
  rw [div_le_iff₀ hδ] at h2
  rw [div_lt_iff₀ (by linarith)]
  linarith

theorem mass2_pos' (p : MidParams) (he : 0 < p.e1) (he' : p.e1 < 1) :
    (∀ i, 0 < mass2 p i) ∧ ∑ i, mass2 p i = 1 := by
  constructor
  · rw [Fin.forall_fin_two]
    exact ⟨he, by simp only [mass2, Matrix.cons_val_one, Matrix.cons_val_zero]; linarith⟩
  · simp [mass2, Fin.sum_univ_two]

theorem pos2_dist (p : MidParams) (i j : Fin 2) (hij : i ≠ j) : ‖pos2 p i - pos2 p j‖ = |2 * p.a| := by
  have h1 : ‖(p.a : ℂ) - -(p.a : ℂ)‖ = |2 * p.a| := by
    rw [show (p.a : ℂ) - -(p.a : ℂ) = ((2 * p.a : ℝ) : ℂ) by push_cast; ring, Complex.norm_real, Real.norm_eq_abs]
  fin_cases i <;> fin_cases j
  · exact absurd rfl hij
  · exact h1
  · rw [norm_sub_rev]; exact h1
  · exact absurd rfl hij

theorem pos2_inj' (p : MidParams) (ha : p.a ≠ 0) : Function.Injective (pos2 p) := by
  intro i j h
  by_contra hij
  have := pos2_dist p i j hij
  rw [h, sub_self, norm_zero] at this
  exact ha (by have := abs_eq_zero.mp this.symm; linarith)

theorem flagged_images2 (roots) (init) (p : MidParams) (w : ℂ) :
    flagged (images2 roots init p w) = accepted (midBinary p) (1 / 10 ^ 6) w (roots init (polyCoeffsBinary w p.a p.e1)) := by
  rw [images2, flagged_withMask, accepted]
  simp only [lensEq2_eq]

theorem flagged_images3 (roots) (p : MidParams) (w : ℂ) :
    flagged (images3 roots p w) = accepted (midTriple p) (1 / 10 ^ 3) w
      ((roots none (polyCoeffsTripleCM w p.a (r3Complex p) p.e1 p.e2)).map (· + shiftCM p.a (r3Complex p) p.e1 p.e2)) := by
  rw [images3, flagged_withMask, accepted]
  simp only [lensEq3_eq]

/-- **C109, two lenses**: if the two lenses are further apart than the tolerance `1e-6` of the mask, then for every
sufficiently distant source `_images_point_source` flags exactly three positions, without repetition, and they are
exactly the images; this needs nothing of the root finder but that it returns all roots.  Missing for the full property:
lenses closer than the tolerance, see `C109_binary_violated`. -/
theorem C109_binary_partial (p : MidParams) (he : 0 < p.e1) (he' : p.e1 < 1) (hsep : 1e-6 < |2 * p.a|) :
    ∃ W : ℝ, 0 < W ∧ ∀ w : ℂ, W ≤ ‖w‖ → ∀ (roots : Option (List ℂ) → List ℂ → List ℂ) (init : Option (List ℂ))
      (cs : List ℂ), cs = polyCoeffsBinary w p.a p.e1 → IsRootList cs (roots init cs) →
      ∃ zs, imagesPointSource roots 2 init p w = .ok zs ∧ (flagged zs).length = 3 ∧ (flagged zs).Nodup ∧
        ∀ z, z ∈ flagged zs ↔ IsImage (midBinary p) w z := by
  have ha : p.a ≠ 0 := by rintro h; rw [h] at hsep; norm_num at hsep
  obtain ⟨hm, hsum⟩ := mass2_pos' p he he'
  obtain ⟨e, D, d, W, hW, hfar⟩ := far_margin (mass2 p) (pos2 p) hm hsum (pos2_inj' p ha) (|2 * p.a| - 1e-6)
    (by linarith)
  refine ⟨W, hW, fun w hw roots init cs hcs hr => ⟨images2 roots init p w, by simp [imagesPointSource], ?_⟩⟩
  subst hcs
  obtain ⟨F, h8⟩ := hfar w hw
  obtain ⟨-, b1, b2, b3, b4⟩ := binary_far_roots p he he' ha F _ hr
  obtain ⟨c1, c2⟩ := far_accepted_exact F _ b1 b2 b3 b4 (1 / 10 ^ 6) (by norm_num)
    (fun i j hij => by rw [pos2_dist p i j hij]; norm_num at h8 ⊢; linarith)
  rw [lensList2] at c1 c2
  rw [flagged_images2]
  exact ⟨c2, b1.filter _, c1⟩

/-- **C109 does not hold for two lenses closer than `1e-6`**: for every such pair and every sufficiently distant source
`_images_point_source` flags all five roots, although only three of them are images. -/
theorem C109_binary_violated (p : MidParams) (he : 0 < p.e1) (he' : p.e1 < 1) (ha : p.a ≠ 0)
    (hclose : |2 * p.a| < 1e-6) :
    ∃ W : ℝ, 0 < W ∧ ∀ w : ℂ, W ≤ ‖w‖ → ∀ (roots : Option (List ℂ) → List ℂ → List ℂ) (init : Option (List ℂ))
      (cs : List ℂ), cs = polyCoeffsBinary w p.a p.e1 → IsRootList cs (roots init cs) →
      ∃ zs, imagesPointSource roots 2 init p w = .ok zs ∧ (flagged zs).length = 5 ∧
        {z | IsImage (midBinary p) w z}.ncard = 3 := by
  classical
  obtain ⟨hm, hsum⟩ := mass2_pos' p he he'
  obtain ⟨e, D, d, W, hW, hfar⟩ := far_margin (mass2 p) (pos2 p) hm hsum (pos2_inj' p ha) (1e-6 - |2 * p.a|)
    (by linarith)
  refine ⟨W, hW, fun w hw roots init cs hcs hr => ⟨images2 roots init p w, by simp [imagesPointSource], ?_⟩⟩
  subst hcs
  obtain ⟨F, h8⟩ := hfar w hw
  obtain ⟨-, b1, b2, b3, b4⟩ := binary_far_roots p he he' ha F _ hr
  rw [flagged_images2]
  constructor
  · have hall : accepted (midBinary p) (1 / 10 ^ 6) w (roots init (polyCoeffsBinary w p.a p.e1))
        = roots init (polyCoeffsBinary w p.a p.e1) := by
      rw [accepted, List.filter_eq_self]
      intro z hz
      rw [decide_eq_true_eq, ← lensList2]
      have key : IsImage (lensList (mass2 p) (pos2 p)) w z → ‖lensMap (lensList (mass2 p) (pos2 p)) z - w‖ < 1 / 10 ^ 6 := by
        intro h; rw [h.2, sub_self, norm_zero]; norm_num
      obtain ⟨o, ho⟩ := F.kind_exists z (b2 z hz)
      match o, ho with
      | none, ho => exact key (F.far_image z (b2 z hz) ho)
      | some (k, j), ho =>
        by_cases hkj : k = j
        · subst hkj; exact key (F.diag_image z (b2 z hz) k ho)
        · have h1 := (abs_le.mp (FarSource.mixed_residual z k j ho)).2
          rw [pos2_dist p k j hkj] at h1
          norm_num at h1 h8 ⊢
          linarith
    rw [hall, b4]; norm_num
  · have h1 := F.image_count _ b1 b2 b4
    rw [lensList2] at h1
    have h2 : {z | IsImage (midBinary p) w z}
        = (((roots init (polyCoeffsBinary w p.a p.e1)).filter fun z => decide (IsImage (midBinary p) w z)).toFinset : Set ℂ) := by
      ext z
      rw [Set.mem_ofPred_eq, Finset.mem_coe, List.mem_toFinset, List.mem_filter, decide_eq_true_eq]
      refine ⟨fun h => ⟨b3 z ?_, h⟩, fun h => h.2⟩
      rw [← lensList2] at h
      exact ((isImage_iff_dual _ _ w z).mp h).1
    rw [h2, Set.ncard_coe_finset, List.toFinset_card_of_nodup (b1.filter _)]
    exact h1

theorem pos3_dist (p : MidParams) (P : ℝ → Prop) (h12 : P |2 * p.a|) (h13 : P ‖r3Complex p - p.a‖)
    (h23 : P ‖r3Complex p + p.a‖) (i j : Fin 3) (hij : i ≠ j) : P ‖pos3 p i - pos3 p j‖ := by
  have h1 : ‖(p.a : ℂ) - -(p.a : ℂ)‖ = |2 * p.a| := by
    rw [show (p.a : ℂ) - -(p.a : ℂ) = ((2 * p.a : ℝ) : ℂ) by push_cast; ring, Complex.norm_real, Real.norm_eq_abs]
  have h2 : ‖r3Complex p - -(p.a : ℂ)‖ = ‖r3Complex p + p.a‖ := by rw [sub_neg_eq_add]
  fin_cases i <;> fin_cases j
  · exact absurd rfl hij
  · show P ‖(p.a : ℂ) - -(p.a : ℂ)‖; rw [h1]; exact h12
  · show P ‖(p.a : ℂ) - r3Complex p‖; rw [norm_sub_rev]; exact h13
  · show P ‖-(p.a : ℂ) - (p.a : ℂ)‖; rw [norm_sub_rev, h1]; exact h12
  · exact absurd rfl hij
  · show P ‖-(p.a : ℂ) - r3Complex p‖; rw [norm_sub_rev, h2]; exact h23
  · exact h13
  · show P ‖r3Complex p - -(p.a : ℂ)‖; rw [h2]; exact h23
  · exact absurd rfl hij

theorem mass3_pos' (p : MidParams) (he1 : 0 < p.e1) (he2 : 0 < p.e2) (he3 : p.e1 + p.e2 < 1) :
    (∀ i, 0 < mass3 p i) ∧ ∑ i, mass3 p i = 1 := by
  constructor
  · intro i
    fin_cases i
    · exact he1
    · exact he2
    · show 0 < 1 - p.e1 - p.e2; linarith
  · simp [mass3, Fin.sum_univ_three]

/-- **C109, three lenses**: if the three lenses are further apart than the tolerance `1e-3` of the mask, then for every
sufficiently distant source exactly four positions are flagged, and they are exactly the images.  Missing for the full
property: lenses closer than the tolerance, see `C109_triple_violated`. -/
theorem C109_triple_partial (p : MidParams) (he1 : 0 < p.e1) (he2 : 0 < p.e2) (he3 : p.e1 + p.e2 < 1)
    (h12 : 1e-3 < |2 * p.a|) (h13 : 1e-3 < ‖r3Complex p - p.a‖) (h23 : 1e-3 < ‖r3Complex p + p.a‖) :
    ∃ W : ℝ, 0 < W ∧ ∀ w : ℂ, W ≤ ‖w‖ → ∀ (roots : Option (List ℂ) → List ℂ → List ℂ) (init : Option (List ℂ))
      (cs : List ℂ), cs = polyCoeffsTripleCM w p.a (r3Complex p) p.e1 p.e2 → IsRootList cs (roots none cs) →
      ∃ zs, imagesPointSource roots 3 init p w = .ok zs ∧ (flagged zs).length = 4 ∧ (flagged zs).Nodup ∧
        ∀ z, z ∈ flagged zs ↔ IsImage (midTriple p) w z := by
  have ha : p.a ≠ 0 := by rintro h; rw [h] at h12; norm_num at h12
  have hr1 : r3Complex p ≠ p.a := by rintro h; rw [h, sub_self, norm_zero] at h13; norm_num at h13
  have hr2 : r3Complex p ≠ -p.a := by rintro h; rw [h, neg_add_cancel, norm_zero] at h23; norm_num at h23
  obtain ⟨hm, hsum⟩ := mass3_pos' p he1 he2 he3
  obtain ⟨δ, hδ, k1, k2, k3⟩ : ∃ δ : ℝ, 0 < δ ∧ 1e-3 + δ ≤ |2 * p.a| ∧ 1e-3 + δ ≤ ‖r3Complex p - p.a‖ ∧
      1e-3 + δ ≤ ‖r3Complex p + p.a‖ := by
    refine ⟨min (|2 * p.a| - 1e-3) (min (‖r3Complex p - p.a‖ - 1e-3) (‖r3Complex p + p.a‖ - 1e-3)), ?_, ?_, ?_, ?_⟩
    · rw [lt_min_iff, lt_min_iff]; exact ⟨by linarith, by linarith, by linarith⟩
    · linarith [min_le_left (|2 * p.a| - 1e-3) (min (‖r3Complex p - p.a‖ - 1e-3) (‖r3Complex p + p.a‖ - 1e-3))]
    · linarith [min_le_right (|2 * p.a| - 1e-3) (min (‖r3Complex p - p.a‖ - 1e-3) (‖r3Complex p + p.a‖ - 1e-3)),
        min_le_left (‖r3Complex p - p.a‖ - 1e-3) (‖r3Complex p + p.a‖ - 1e-3)]
    · linarith [min_le_right (|2 * p.a| - 1e-3) (min (‖r3Complex p - p.a‖ - 1e-3) (‖r3Complex p + p.a‖ - 1e-3)),
        min_le_right (‖r3Complex p - p.a‖ - 1e-3) (‖r3Complex p + p.a‖ - 1e-3)]
  obtain ⟨e, D, d, W, hW, hfar⟩ := far_margin (mass3 p) (pos3 p) hm hsum (pos3_inj p ha hr1 hr2) δ hδ
  refine ⟨W, hW, fun w hw roots init cs hcs hr => ⟨images3 roots p w, by simp [imagesPointSource], ?_⟩⟩
  subst hcs
  obtain ⟨F, h8⟩ := hfar w hw
  obtain ⟨-, -, b1, b2, b3, b4⟩ := triple_far_roots p ha hr1 hr2 (hm 0).ne' (hm 1).ne' (hm 2).ne' F _ hr _ rfl
  obtain ⟨c1, c2⟩ := far_accepted_exact F _ b1 b2 b3 b4 (1 / 10 ^ 3) (by norm_num) (fun i j hij => by
    refine le_trans ?_ (pos3_dist p (fun x => 1e-3 + δ ≤ x) k1 k2 k3 i j hij)
    norm_num; linarith)
  rw [lensList3] at c1 c2
  rw [flagged_images3]
  exact ⟨c2, b1.filter _, c1⟩

/-- **C109 does not hold for three lenses two of which are closer than `1e-3`**: for every sufficiently distant source a
position is flagged that is not an image. -/
theorem C109_triple_violated (p : MidParams) (he1 : 0 < p.e1) (he2 : 0 < p.e2) (he3 : p.e1 + p.e2 < 1)
    (ha : p.a ≠ 0) (hr1 : r3Complex p ≠ p.a) (hr2 : r3Complex p ≠ -p.a)
    (hclose : |2 * p.a| < 1e-3 ∨ ‖r3Complex p - p.a‖ < 1e-3 ∨ ‖r3Complex p + p.a‖ < 1e-3) :
    ∃ W : ℝ, 0 < W ∧ ∀ w : ℂ, W ≤ ‖w‖ → ∀ (roots : Option (List ℂ) → List ℂ → List ℂ) (init : Option (List ℂ))
      (cs : List ℂ), cs = polyCoeffsTripleCM w p.a (r3Complex p) p.e1 p.e2 → IsRootList cs (roots none cs) →
      ∃ zs, imagesPointSource roots 3 init p w = .ok zs ∧ ∃ z ∈ flagged zs, ¬ IsImage (midTriple p) w z := by
  obtain ⟨hm, hsum⟩ := mass3_pos' p he1 he2 he3
  obtain ⟨k, j, hkj, hd⟩ : ∃ k j : Fin 3, k ≠ j ∧ ‖pos3 p k - pos3 p j‖ < 1e-3 := by
    rcases hclose with h | h | h
    · refine ⟨0, 1, by decide, ?_⟩
      show ‖(p.a : ℂ) - -(p.a : ℂ)‖ < 1e-3
      rw [show (p.a : ℂ) - -(p.a : ℂ) = ((2 * p.a : ℝ) : ℂ) by push_cast; ring, Complex.norm_real, Real.norm_eq_abs]
      exact h
    · exact ⟨2, 0, by decide, h⟩
    · refine ⟨2, 1, by decide, ?_⟩
      show ‖r3Complex p - -(p.a : ℂ)‖ < 1e-3
      rwa [sub_neg_eq_add]
  obtain ⟨e, D, d, W, hW, hfar⟩ := far_margin (mass3 p) (pos3 p) hm hsum (pos3_inj p ha hr1 hr2)
    (1e-3 - ‖pos3 p k - pos3 p j‖) (by linarith)
  refine ⟨W, hW, fun w hw roots init cs hcs hr => ⟨images3 roots p w, by simp [imagesPointSource], ?_⟩⟩
  subst hcs
  obtain ⟨F, h8⟩ := hfar w hw
  obtain ⟨-, -, b1, b2, b3, b4⟩ := triple_far_roots p ha hr1 hr2 (hm 0).ne' (hm 1).ne' (hm 2).ne' F _ hr _ rfl
  have := far_accepted_extra F _ b1 b2 b4 (1 / 10 ^ 3) k j hkj (by norm_num at h8 ⊢; linarith)
  rw [lensList3] at this
  rw [flagged_images3]
  exact this

/-! ### The hypotheses can be met -/

/-- A binary of separation one and mass ratio `1/10`, a complete root finder, a source beyond the distance. -/
example : ∃ (C : ℝ) (w : ℂ) (roots : Option (List ℂ) → List ℂ → List ℂ) (A : ℝ),
    magPointSource roots 2 { s := 1, q := 1 / 10 } w = .ok A ∧ 1 ≤ A ∧ A ≤ 1 + C / ‖w‖ ^ 4 := by
  obtain ⟨roots, hr⟩ := exists_exact_roots
  obtain ⟨C, W, hW, h⟩ := C108_binary { s := 1, q := 1 / 10 } (by norm_num) (by norm_num)
  set W' : ℝ := W + 10 with hW'
  have hn : ‖(W' : ℂ)‖ = W' := by rw [Complex.norm_of_nonneg (by positivity)]
  obtain ⟨A, a1, a2, a3, a4⟩ := h (W' : ℂ) (by rw [hn]; linarith) roots _ rfl (hr _ _ (by
    rw [(C04_binary_leading _ _ _).2]
    refine sub_ne_zero.mpr fun hc => ?_
    have h1 := congrArg norm hc
    rw [norm_pow, norm_pow, Complex.norm_conj, ← Complex.ofReal_sub, Complex.norm_real, Complex.norm_real,
      Real.norm_eq_abs, Real.norm_eq_abs, sq_abs, sq_abs] at h1
    simp only [xCM, midParams2] at h1
    norm_num at h1
    rw [hW'] at h1
    nlinarith))
  exact ⟨C, W', roots, A, a1, a2.trans a3, a4⟩

/-- The hypotheses of the three-lens theorems: an equal triple of separation one. -/
example : ∃ W : ℝ, 0 < W ∧ ∀ w : ℂ, W ≤ ‖w‖ → ∀ (roots : Option (List ℂ) → List ℂ → List ℂ) (init : Option (List ℂ))
      (cs : List ℂ), cs = polyCoeffsTripleCM w (1 / 2 : ℝ)
        (r3Complex { a := 1 / 2, e1 := 1 / 3, e2 := 1 / 3, r3 := 2, psi := 0 }) (1 / 3 : ℝ) (1 / 3 : ℝ) →
      IsRootList cs (roots none cs) →
      ∃ zs, imagesPointSource roots 3 init { a := 1 / 2, e1 := 1 / 3, e2 := 1 / 3, r3 := 2, psi := 0 } w = .ok zs ∧
        (flagged zs).length = 4 ∧ (flagged zs).Nodup ∧
        ∀ z, z ∈ flagged zs ↔
          IsImage (midTriple { a := 1 / 2, e1 := 1 / 3, e2 := 1 / 3, r3 := 2, psi := 0 }) w z := by
  have h : r3Complex { a := 1 / 2, e1 := 1 / 3, e2 := 1 / 3, r3 := 2, psi := 0 } = 2 := by simp [r3Complex]
  refine C109_triple_partial { a := 1 / 2, e1 := 1 / 3, e2 := 1 / 3, r3 := 2, psi := 0 } (by norm_num) (by norm_num)
    (by norm_num) (by norm_num) ?_ ?_
  · rw [h]; norm_num
  · rw [h]; norm_num

/-- A pair closer than the tolerance. -/
example : (0 : ℝ) < 1 / 2 ∧ (1 / 2 : ℝ) < 1 ∧ |2 * (1e-7 : ℝ)| < 1e-6 := by norm_num [abs_of_pos]

end Microjax.Props
