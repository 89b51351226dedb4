import Verif.Lemmas.GreenCone
import Verif.Props.ContourSingleDisc
import Verif.Props.ContourLimbEnd

/-!
# C133: the accuracy of the contour method for a limb-darkened source behind a single lens
-/

noncomputable section

namespace Microjax.Props

open Complex ComplexConjugate Microjax.Spec Segments Jnp Utils Contour PointSource Limb MeasureTheory Set Filter
open scoped Topology

/-! ### The lens inside the disc -/

/-- A line through a point inside the disc meets the limb on both sides. -/
theorem ray (z w : ℂ) (rho : ℝ) (hz : z ≠ 0) (hw : ‖w‖ < rho) : ∃ lam lam' : ℝ, 0 < lam ∧ 0 < lam' ∧
    ∀ k : ℝ, ‖(k : ℂ) * z - w‖ ^ 2 - rho ^ 2 = ‖z‖ ^ 2 * ((k - lam) * (k + lam')) := by
  have hR : 0 < ‖z‖ := norm_pos_iff.mpr hz
  have hw0 := norm_nonneg w
  obtain ⟨b, hb⟩ : ∃ b, b = (z.re * w.re + z.im * w.im) / ‖z‖ ^ 2 := ⟨_, rfl⟩
  obtain ⟨c, hc⟩ : ∃ c, c = (rho ^ 2 - ‖w‖ ^ 2) / ‖z‖ ^ 2 := ⟨_, rfl⟩
  have hc0 : 0 < c := by rw [hc]; exact div_pos (by nlinarith) (by positivity)
  have hD : |b| < Real.sqrt (b ^ 2 + c) := by
    rw [← Real.sqrt_sq_eq_abs]; exact Real.sqrt_lt_sqrt (sq_nonneg b) (by linarith)
  have hD2 := Real.sq_sqrt (by positivity : 0 ≤ b ^ 2 + c)
  refine ⟨b + Real.sqrt (b ^ 2 + c), Real.sqrt (b ^ 2 + c) - b, by linarith [neg_abs_le b], by linarith [le_abs_self b], fun k => ?_⟩
  have e1 : ‖(k : ℂ) * z - w‖ ^ 2 = k ^ 2 * ‖z‖ ^ 2 - 2 * k * (z.re * w.re + z.im * w.im) + ‖w‖ ^ 2 := by
    rw [← normSq_eq_norm_sq, ← normSq_eq_norm_sq, ← normSq_eq_norm_sq, normSq_apply, normSq_apply, normSq_apply]
    simp
    ring
  have e2 : z.re * w.re + z.im * w.im = b * ‖z‖ ^ 2 := by rw [hb]; field_simp
  have e3 : rho ^ 2 - ‖w‖ ^ 2 = c * ‖z‖ ^ 2 := by rw [hc]; field_simp
  rw [e1, e2]
  linear_combination (-1 : ℝ) * e3 + ‖z‖ ^ 2 * hD2

/-- The factor between a source and its image. -/
def branchFactor (σ : ℝ) (v : ℂ) : ℝ := 1 / 2 * (1 + σ * regGain 0 (v.re ^ 2 + v.im ^ 2))

theorem branch_eq (σ : ℝ) (v : ℂ) : singleBranch σ v = (branchFactor σ v : ℂ) * v := rfl

theorem branchFactor_sign (v : ℂ) (hv : v ≠ 0) : 0 < branchFactor 1 v ∧ branchFactor (-1) v < 0 := by
  obtain ⟨h1, h2, h3, h4⟩ := gain_facts v hv
  have hp : 0 < ‖v‖ := norm_pos_iff.mpr hv
  unfold branchFactor
  rw [regGain_norm]
  have : 1 < Real.sqrt (‖v‖ ^ 2 + 4) / ‖v‖ := by rw [lt_div_iff₀ hp]; linarith
  constructor <;> linarith

/-- The lens equation for the distance of an image from the lens. -/
theorem branch_radius (σ : ℝ) (hσ : σ = 1 ∨ σ = -1) (v : ℂ) (hv : v ≠ 0) : 0 < ‖singleBranch σ v‖ ∧
    ‖singleBranch σ v‖ - 1 / ‖singleBranch σ v‖ = σ * ‖v‖ := by
  obtain ⟨h1, h2, h3, h4⟩ := gain_facts v hv
  have hp : 0 < ‖v‖ := norm_pos_iff.mpr hv
  rw [norm_branch σ v hv]
  rcases hσ with rfl | rfl
  · rw [abs_of_pos (by linarith)]
    refine ⟨by linarith, ?_⟩
    have h5 : 0 < ‖v‖ + Real.sqrt (‖v‖ ^ 2 + 4) := by linarith
    rw [one_mul, one_mul]
    field_simp
    nlinarith
  · rw [abs_of_neg (by linarith)]
    have h5 : 0 < Real.sqrt (‖v‖ ^ 2 + 4) - ‖v‖ := by linarith
    refine ⟨by linarith, ?_⟩
    rw [show -(1 / 2 * (‖v‖ + -1 * Real.sqrt (‖v‖ ^ 2 + 4))) = 1 / 2 * (Real.sqrt (‖v‖ ^ 2 + 4) - ‖v‖) by ring]
    field_simp
    nlinarith

theorem radius_lt (x y : ℝ) (hx : 0 < x) (hy : 0 < y) : x < y ↔ x - 1 / x < y - 1 / y := by
  constructor
  · intro h
    have := one_div_lt_one_div_of_lt hx h
    linarith
  · intro h
    by_contra hc
    have := one_div_le_one_div_of_le hy (not_lt.mp hc)
    linarith

theorem limb_mem (w : ℂ) (rho : ℝ) (v : ℂ) (hv : ‖v - w‖ = rho) :
    ∃ t ∈ Ioc (-Real.pi) Real.pi, v = (rho : ℂ) * exp (I * t) + w := by
  refine ⟨arg (v - w), ⟨neg_pi_lt_arg _, arg_le_pi _⟩, ?_⟩
  have := norm_mul_exp_arg_mul_I (v - w)
  rw [hv, mul_comm _ I] at this
  rw [this]; ring

/-- Two points of the limb in the same direction from the lens are the same. -/
theorem ray_unique (w : ℂ) (rho : ℝ) (hw : ‖w‖ < rho) (v : ℂ) (k : ℝ) (hv0 : v ≠ 0) (hv : ‖v - w‖ = rho)
    (hk : 0 < k) (hkv : ‖(k : ℂ) * v - w‖ = rho) : k = 1 := by
  obtain ⟨lam, lam', h1, h2, h3⟩ := ray v w rho hv0 hw
  have hR : 0 < ‖v‖ ^ 2 := by have := norm_pos_iff.mpr hv0; positivity
  have a := h3 1
  have b := h3 k
  rw [ofReal_one, one_mul, hv, sub_self] at a
  rw [hkv, sub_self] at b
  have a' : (1 - lam) * (1 + lam') = 0 := by
    rcases mul_eq_zero.mp a.symm with h | h
    · exact absurd h hR.ne'
    · exact h
  have b' : (k - lam) * (k + lam') = 0 := by
    rcases mul_eq_zero.mp b.symm with h | h
    · exact absurd h hR.ne'
    · exact h
  have a2 : 1 - lam = 0 := (mul_eq_zero.mp a').resolve_right (by linarith)
  have b2 : k - lam = 0 := (mul_eq_zero.mp b').resolve_right (by linarith)
  linarith

theorem limb_norm (w : ℂ) (rho : ℝ) (hrho : 0 < rho) (t : ℝ) : ‖(rho : ℂ) * exp (I * t) + w - w‖ = rho := by
  rw [add_sub_cancel_right, norm_mul, mul_comm I, norm_exp_ofReal_mul_I, norm_real, Real.norm_eq_abs, abs_of_pos hrho, mul_one]

theorem limb_inj (w : ℂ) (rho : ℝ) (hrho : 0 < rho) (t t' : ℝ) (ht : t ∈ Ioc (-Real.pi) Real.pi) (ht' : t' ∈ Ioc (-Real.pi) Real.pi)
    (h : (rho : ℂ) * exp (I * t) + w = (rho : ℂ) * exp (I * t') + w) : t = t' := by
  have h' := add_right_cancel h
  rcases lt_trichotomy t t' with hlt | heq | hlt
  · exact absurd h' (polar_inj rho t t' hrho.ne' hlt (by linarith [ht.1, ht'.2]))
  · exact heq
  · exact absurd h'.symm (polar_inj rho t' t hrho.ne' hlt (by linarith [ht'.1, ht.2]))

/-- The factor between a source and its image has the sign of the parity. -/
theorem branchFactor_pos (σ : ℝ) (hσ : σ = 1 ∨ σ = -1) (v : ℂ) (hv : v ≠ 0) : 0 < σ * branchFactor σ v := by
  obtain ⟨h1, h2⟩ := branchFactor_sign v hv
  rcases hσ with rfl | rfl
  · linarith
  · linarith

/-- Injectivity of the cone over the images of the limb, the lens inside the disc. -/
theorem cone_inj (σ : ℝ) (hσ : σ = 1 ∨ σ = -1) (w : ℂ) (rho : ℝ) (hrho : 0 < rho) (hw : ‖w‖ < rho) (src : ℝ → ℂ)
    (hsrc : src = fun t : ℝ => (rho : ℂ) * exp (I * t) + w) (h0 : ∀ t, src t ≠ 0) (S : Set ℝ) (hS : S ⊆ Ioc 0 1) :
    InjOn (cone fun t => singleBranch σ (src t)) (S ×ˢ Ioc (-Real.pi) Real.pi) := by
  rintro ⟨s, t⟩ ⟨hs, ht⟩ ⟨s', t'⟩ ⟨hs', ht'⟩ h
  have p1 := (hS hs).1
  have p2 := (hS hs').1
  simp only at ht ht' p1 p2
  simp only [cone, branch_eq] at h
  have f1 := branchFactor_pos σ hσ _ (h0 t)
  have f2 := branchFactor_pos σ hσ _ (h0 t')
  have hf1 : branchFactor σ (src t) ≠ 0 := fun hc => by rw [hc, mul_zero] at f1; exact lt_irrefl _ f1
  obtain ⟨k, hk⟩ : ∃ k, k = s' * branchFactor σ (src t') / (s * branchFactor σ (src t)) := ⟨_, rfl⟩
  have hk0 : 0 < k := by
    rw [hk, show s' * branchFactor σ (src t') / (s * branchFactor σ (src t))
      = s' * (σ * branchFactor σ (src t')) / (s * (σ * branchFactor σ (src t))) by
        have : σ ≠ 0 := by rcases hσ with rfl | rfl <;> norm_num
        field_simp]
    positivity
  have hkv : src t = (k : ℂ) * src t' := by
    have hne : (s : ℂ) * (branchFactor σ (src t) : ℂ) ≠ 0 := by exact_mod_cast mul_ne_zero p1.ne' hf1
    rw [hk]
    push_cast
    rw [div_mul_eq_mul_div, eq_div_iff hne]
    linear_combination h
  have hc : ∀ t, ‖src t - w‖ = rho := fun t => by rw [hsrc]; exact limb_norm w rho hrho t
  have hk1 : k = 1 := ray_unique w rho hw (src t') k (h0 t') (hc t') hk0 (by rw [← hkv]; exact hc t)
  rw [hk1, ofReal_one, one_mul] at hkv
  have htt : t = t' := by
    rw [hsrc] at hkv
    exact limb_inj w rho hrho t t' ht ht' hkv
  subst htt
  have hss : s' * branchFactor σ (src t) = 1 * (s * branchFactor σ (src t)) := by
    rw [← hk1, hk]
    field_simp
  rw [one_mul] at hss
  rw [mul_right_cancel₀ hf1 hss]

/-- Which points lie in the cone over the images of the limb: `κ z` is the point of the limb whose image is in the direction
of `z`. -/
theorem cone_mem (σ : ℝ) (hσ : σ = 1 ∨ σ = -1) (w : ℂ) (rho : ℝ) (hrho : 0 < rho) (src : ℝ → ℂ)
    (hsrc : src = fun t : ℝ => (rho : ℂ) * exp (I * t) + w) (h0 : ∀ t, src t ≠ 0) (S : Set ℝ) (hS : S ⊆ Ioc 0 1) (z : ℂ)
    (hz : z ≠ 0) (κ : ℝ) (hκ : 0 < σ * κ) (hon : ‖(κ : ℂ) * z - w‖ = rho)
    (huniq : ∀ k : ℝ, 0 < σ * k → ‖(k : ℂ) * z - w‖ = rho → k = κ) :
    z ∈ cone (fun t => singleBranch σ (src t)) '' (S ×ˢ Ioc (-Real.pi) Real.pi) ↔
      ‖z‖ / ‖singleBranch σ ((κ : ℂ) * z)‖ ∈ S := by
  have hσ2 : σ * σ = 1 := by rcases hσ with rfl | rfl <;> norm_num
  have hR : 0 < ‖z‖ := norm_pos_iff.mpr hz
  have hκ0 : κ ≠ 0 := fun h => by rw [h, mul_zero] at hκ; exact lt_irrefl _ hκ
  have hv0 : (κ : ℂ) * z ≠ 0 := mul_ne_zero (by exact_mod_cast hκ0) hz
  obtain ⟨f, hf⟩ : ∃ f, f = branchFactor σ ((κ : ℂ) * z) := ⟨_, rfl⟩
  have hfp : 0 < σ * f := hf ▸ branchFactor_pos σ hσ _ hv0
  have hfk : 0 < f * κ := by
    have := mul_pos hfp hκ
    rwa [show σ * f * (σ * κ) = σ * σ * (f * κ) by ring, hσ2, one_mul] at this
  have hb : singleBranch σ ((κ : ℂ) * z) = ((f * κ : ℝ) : ℂ) * z := by
    rw [branch_eq, ← hf]; push_cast; ring
  have hA : ‖singleBranch σ ((κ : ℂ) * z)‖ = f * κ * ‖z‖ := by
    rw [hb, norm_mul, norm_real, Real.norm_eq_abs, abs_of_pos hfk]
  have hq : ‖z‖ / ‖singleBranch σ ((κ : ℂ) * z)‖ = 1 / (f * κ) := by rw [hA]; field_simp
  rw [hq]
  constructor
  · rintro ⟨⟨s, t⟩, ⟨hs, ht⟩, hst⟩
    have p1 := (hS hs).1
    simp only at ht p1 hs
    simp only [cone] at hst
    have g1 := branchFactor_pos σ hσ _ (h0 t)
    obtain ⟨g, hg⟩ : ∃ g, g = branchFactor σ (src t) := ⟨_, rfl⟩
    rw [branch_eq, ← hg] at hst
    rw [← hg] at g1
    have hg0 : g ≠ 0 := fun h => by rw [h, mul_zero] at g1; exact lt_irrefl _ g1
    have hsg : (s : ℂ) * (g : ℂ) ≠ 0 := by exact_mod_cast mul_ne_zero p1.ne' hg0
    have hv : src t = ((1 / (s * g) : ℝ) : ℂ) * z := by
      push_cast
      rw [div_mul_eq_mul_div, eq_div_iff hsg, one_mul, ← hst]
      ring
    have hk : 1 / (s * g) = κ := by
      refine huniq _ ?_ ?_
      · rw [show σ * (1 / (s * g)) = σ * σ / (s * (σ * g)) by
          have : σ ≠ 0 := by rcases hσ with rfl | rfl <;> norm_num
          field_simp, hσ2]
        positivity
      · rw [← hv, hsrc]; exact limb_norm w rho hrho t
    rw [hk] at hv
    have hfg : f = g := by rw [hf, hg, hv]
    have : 1 / (f * κ) = s := by rw [hfg, ← hk]; field_simp
    rw [this]
    exact hs
  · intro hs
    obtain ⟨t, ht, hvt⟩ := limb_mem w rho _ hon
    refine ⟨(1 / (f * κ), t), ⟨hs, ht⟩, ?_⟩
    have hst : src t = (κ : ℂ) * z := by rw [hsrc]; exact hvt.symm
    simp only [cone]
    rw [hst, hb, ← mul_assoc, ← ofReal_mul, one_div_mul_cancel hfk.ne', ofReal_one, one_mul]

theorem lensMap_single_scaled (z : ℂ) (hz : z ≠ 0) : lensMap single z = ((1 - 1 / ‖z‖ ^ 2 : ℝ) : ℂ) * z := by
  have hc : conj z ≠ 0 := by simpa using hz
  have hn : conj z * z = ((‖z‖ ^ 2 : ℝ) : ℂ) := by rw [conj_mul']; push_cast; rfl
  have hR : ((‖z‖ ^ 2 : ℝ) : ℂ) ≠ 0 := by rw [← hn]; exact mul_ne_zero hc hz
  have h1 : 1 / conj z = ((1 / ‖z‖ ^ 2 : ℝ) : ℂ) * z := by
    rw [ofReal_div, ofReal_one, ← hn]
    field_simp
  unfold lensMap single
  simp only [List.map_cons, List.map_nil, List.sum_cons, List.sum_nil, map_zero, sub_zero, add_zero, ofReal_one]
  rw [h1]
  push_cast
  ring

theorem ray_on (z w : ℂ) (rho lam lam' : ℝ) (hrho : 0 < rho) (hz : z ≠ 0)
    (h : ∀ k : ℝ, ‖(k : ℂ) * z - w‖ ^ 2 - rho ^ 2 = ‖z‖ ^ 2 * ((k - lam) * (k + lam'))) (k : ℝ) :
    (‖(k : ℂ) * z - w‖ = rho ↔ (k - lam) * (k + lam') = 0) ∧ (‖(k : ℂ) * z - w‖ < rho ↔ (k - lam) * (k + lam') < 0) := by
  have hR : 0 < ‖z‖ ^ 2 := by have := norm_pos_iff.mpr hz; positivity
  have hn := norm_nonneg ((k : ℂ) * z - w)
  have hk := h k
  constructor
  · rw [← sq_eq_sq₀ hn hrho.le, ← sub_eq_zero, hk, mul_eq_zero, or_iff_right hR.ne']
  · rw [← sq_lt_sq₀ hn hrho.le, ← sub_neg, hk, mul_neg_iff]
    constructor
    · rintro (h | h)
      · exact h.2
      · linarith [h.1]
    · exact fun h => Or.inl ⟨hR, h⟩

/-- The images of a disc in front of the lens: the region inside the major images of the limb and outside the minor ones. -/
theorem inside_mem (w : ℂ) (rho : ℝ) (hrho : 0 < rho) (hw : ‖w‖ < rho) (src : ℝ → ℂ)
    (hsrc : src = fun t : ℝ => (rho : ℂ) * exp (I * t) + w) (h0 : ∀ t, src t ≠ 0) (z : ℂ) (hz : z ≠ 0) :
    ∃ lam lam' q : ℝ, 0 < lam ∧ 0 < lam' ∧
      (z ∈ cone (fun t => singleBranch 1 (src t)) '' (Ioo 0 1 ×ˢ Ioc (-Real.pi) Real.pi) ↔ q < lam) ∧
      (z ∈ cone (fun t => singleBranch (-1) (src t)) '' (Ioc 0 1 ×ˢ Ioc (-Real.pi) Real.pi) ↔ q ≤ -lam') ∧
      (z ∈ imageOfDisc single w rho ↔ -lam' < q ∧ q < lam) := by
  obtain ⟨lam, lam', h1, h2, h3⟩ := ray z w rho hz hw
  have hR : 0 < ‖z‖ := norm_pos_iff.mpr hz
  have hk := ray_on z w rho lam lam' hrho hz h3
  obtain ⟨q, hq⟩ : ∃ q, q = 1 - 1 / ‖z‖ ^ 2 := ⟨_, rfl⟩
  have hqR : ‖z‖ - 1 / ‖z‖ = q * ‖z‖ := by rw [hq]; field_simp
  refine ⟨lam, lam', q, h1, h2, ?_, ?_, ?_⟩
  · rw [cone_mem 1 (Or.inl rfl) w rho hrho src hsrc h0 (Ioo 0 1) Ioo_subset_Ioc_self z hz lam (by linarith)
      ((hk lam).1.mpr (by ring)) (fun k k1 k2 => by
        have := (mul_eq_zero.mp ((hk k).1.mp k2)).resolve_right (by linarith)
        linarith)]
    obtain ⟨b1, b2⟩ := branch_radius 1 (Or.inl rfl) ((lam : ℂ) * z) (mul_ne_zero (by exact_mod_cast h1.ne') hz)
    rw [norm_mul, norm_real, Real.norm_eq_abs, abs_of_pos h1, one_mul] at b2
    have e : ‖z‖ < ‖singleBranch 1 ((lam : ℂ) * z)‖ ↔ q < lam := by
      rw [radius_lt _ _ hR b1, b2, hqR, mul_lt_mul_iff_left₀ hR]
    rw [← e, mem_Ioo, div_lt_one b1]
    exact and_iff_right (by positivity)
  · rw [cone_mem (-1) (Or.inr rfl) w rho hrho src hsrc h0 (Ioc 0 1) subset_rfl z hz (-lam') (by linarith)
      ((hk (-lam')).1.mpr (by ring)) (fun k k1 k2 => by
        have := (mul_eq_zero.mp ((hk k).1.mp k2)).resolve_left (by linarith)
        linarith)]
    obtain ⟨b1, b2⟩ := branch_radius (-1) (Or.inr rfl) (((-lam' : ℝ) : ℂ) * z)
      (mul_ne_zero (by exact_mod_cast (neg_neg_of_pos h2).ne) hz)
    rw [norm_mul (((-lam' : ℝ) : ℂ)), norm_real, Real.norm_eq_abs, abs_of_neg (neg_neg_of_pos h2)] at b2
    have e : ‖singleBranch (-1) (((-lam' : ℝ) : ℂ) * z)‖ < ‖z‖ ↔ -lam' < q := by
      rw [radius_lt _ _ b1 hR, b2, hqR, show -1 * (- -lam' * ‖z‖) = -lam' * ‖z‖ by ring, mul_lt_mul_iff_left₀ hR]
    rw [← not_lt, ← e, mem_Ioc, div_le_one b1, not_lt]
    exact and_iff_right (by positivity)
  · have e : z ∈ imageOfDisc single w rho ↔ ‖(q : ℂ) * z - w‖ < rho := by
      rw [hq, ← lensMap_single_scaled z hz]
      constructor
      · exact fun h => h.2
      · exact fun h => ⟨by simpa [single] using hz, h⟩
    rw [e, (hk q).2, mul_neg_iff]
    constructor
    · rintro (h | h)
      · constructor <;> linarith [h.1, h.2]
      · constructor <;> linarith [h.1, h.2]
    · rintro ⟨a, b⟩
      exact Or.inr ⟨by linarith, by linarith⟩

theorem cone_ne_zero (σ : ℝ) (hσ : σ = 1 ∨ σ = -1) (src : ℝ → ℂ) (h0 : ∀ t, src t ≠ 0) (S : Set ℝ) (hS : S ⊆ Ioc 0 1) (T : Set ℝ)
    (z : ℂ) (h : z ∈ cone (fun t => singleBranch σ (src t)) '' (S ×ˢ T)) : z ≠ 0 := by
  obtain ⟨⟨s, t⟩, ⟨hs, -⟩, rfl⟩ := h
  have p1 := (hS hs).1
  simp only at p1
  have b := (branch_radius σ hσ (src t) (h0 t)).1
  exact mul_ne_zero (by exact_mod_cast p1.ne') (norm_pos_iff.mp b)

theorem inside_region (w : ℂ) (rho : ℝ) (hrho : 0 < rho) (hw : ‖w‖ < rho) (src : ℝ → ℂ)
    (hsrc : src = fun t : ℝ => (rho : ℂ) * exp (I * t) + w) (h0 : ∀ t, src t ≠ 0) :
    imageOfDisc single w rho = cone (fun t => singleBranch 1 (src t)) '' (Ioo 0 1 ×ˢ Ioc (-Real.pi) Real.pi)
      \ cone (fun t => singleBranch (-1) (src t)) '' (Ioc 0 1 ×ˢ Ioc (-Real.pi) Real.pi) ∧
    cone (fun t => singleBranch (-1) (src t)) '' (Ioc 0 1 ×ˢ Ioc (-Real.pi) Real.pi)
      ⊆ cone (fun t => singleBranch 1 (src t)) '' (Ioo 0 1 ×ˢ Ioc (-Real.pi) Real.pi) := by
  constructor
  · ext z
    by_cases hz : z = 0
    · constructor
      · intro h
        exact absurd hz (by simpa [single] using h.1)
      · intro h
        exact absurd hz (cone_ne_zero 1 (Or.inl rfl) src h0 _ Ioo_subset_Ioc_self _ z h.1)
    · obtain ⟨lam, lam', q, h1, h2, a, b, c⟩ := inside_mem w rho hrho hw src hsrc h0 z hz
      rw [Set.mem_sdiff, a, b, c, not_le, and_comm]
  · intro z h
    have hz := cone_ne_zero (-1) (Or.inr rfl) src h0 _ subset_rfl _ z h
    obtain ⟨lam, lam', q, h1, h2, a, b, c⟩ := inside_mem w rho hrho hw src hsrc h0 z hz
    rw [a]
    have := b.mp h
    linarith

theorem contDiff2_branch (σ : ℝ) (v : ℝ → ℂ) (hv : ContDiff ℝ 2 v) (h0 : ∀ t, v t ≠ 0) :
    ContDiff ℝ 2 fun t => singleBranch σ (v t) := by
  have hpos : ∀ t, 0 < (v t).re ^ 2 + (v t).im ^ 2 := fun t => by
    rw [normsq_eq]; have := norm_pos_iff.mpr (h0 t); positivity
  have hre : ContDiff ℝ 2 fun t => (v t).re := reCLM.contDiff.comp hv
  have him : ContDiff ℝ 2 fun t => (v t).im := imCLM.contDiff.comp hv
  have hn : ContDiff ℝ 2 fun t => (v t).re ^ 2 + (v t).im ^ 2 := (hre.pow 2).add (him.pow 2)
  have hG : ContDiff ℝ 2 fun t => regGain 0 ((v t).re ^ 2 + (v t).im ^ 2) := by
    unfold regGain
    refine ContDiff.div ((hn.add contDiff_const).sqrt fun t => ?_) ((hn.add contDiff_const).sqrt fun t => ?_) fun t => ?_
    · have := hpos t
      linarith
    · have := hpos t
      linarith
    · have := hpos t
      exact (Real.sqrt_pos.mpr (by linarith)).ne'
  have hk : ContDiff ℝ 2 fun t => branchFactor σ (v t) :=
    contDiff_const.mul (contDiff_const.add (contDiff_const.mul hG))
  have hkC : ContDiff ℝ 2 fun t => (branchFactor σ (v t) : ℂ) := ofRealCLM.contDiff.comp hk
  exact hkC.mul hv

theorem contDiff2_limb (w : ℂ) (rho : ℝ) : ContDiff ℝ 2 fun t : ℝ => (rho : ℂ) * exp (I * t) + w := by
  have h1 : ContDiff ℝ 2 fun t : ℝ => (t : ℂ) := ofRealCLM.contDiff
  exact (contDiff_const.mul (contDiff_const.mul h1).cexp).add contDiff_const

/-- The limb runs counter-clockwise around a point inside the disc. -/
theorem limb_swept (w : ℂ) (rho : ℝ) (hrho : 0 < rho) (hw : ‖w‖ < rho) (src : ℝ → ℂ)
    (hsrc : src = fun t : ℝ => (rho : ℂ) * exp (I * t) + w) (t : ℝ) : 0 < (conj (src t) * deriv src t).im := by
  have hd : HasDerivAt src (rho * (exp (I * t) * I)) t := by
    rw [hsrc]
    have h1 : HasDerivAt (fun t : ℝ => I * (t : ℂ)) (I * 1) t := (ofRealCLM.hasDerivAt (x := t)).const_mul I
    rw [mul_one] at h1
    exact (h1.cexp.const_mul (rho : ℂ)).add_const w
  rw [hd.deriv, hsrc]
  simp only
  have hn : conj (exp (I * t)) * exp (I * t) = 1 := by
    rw [conj_mul', mul_comm I, norm_exp_ofReal_mul_I]; simp
  have e : conj ((rho : ℂ) * exp (I * t) + w) * (rho * (exp (I * t) * I))
      = ((rho ^ 2 : ℝ) : ℂ) * I + (rho : ℂ) * (conj w * exp (I * t)) * I := by
    rw [map_add, map_mul, conj_ofReal]
    push_cast
    linear_combination (rho : ℂ) ^ 2 * I * hn
  rw [e]
  have h2 : |((rho : ℂ) * (conj w * exp (I * t))).re| ≤ rho * ‖w‖ := by
    refine (abs_re_le_norm _).trans (le_of_eq ?_)
    rw [norm_mul, norm_mul, RCLike.norm_conj, mul_comm I, norm_exp_ofReal_mul_I, norm_real, Real.norm_eq_abs, abs_of_pos hrho, mul_one]
  have h3 := (abs_le.mp h2).1
  have h4 : (((rho ^ 2 : ℝ) : ℂ) * I + (rho : ℂ) * (conj w * exp (I * t)) * I).im
      = rho ^ 2 + ((rho : ℂ) * (conj w * exp (I * t))).re := by
    rw [add_im, mul_I_im, mul_I_im, ofReal_re]
  rw [h4]
  nlinarith

/-- The line integral of the primitives of `B` along the images of the limb. -/
def branchFlux (B : ℂ → ℝ) (o : ℝ × ℝ) (γ : ℝ → ℂ) : ℝ :=
  ∫ θ in (-Real.pi)..Real.pi, (greenP B o (γ θ) * (deriv γ θ).re + greenQ B o (γ θ) * (deriv γ θ).im)

theorem inside_flux (w : ℂ) (rho : ℝ) (hrho : 0 < rho) (hw : ‖w‖ < rho) (src : ℝ → ℂ)
    (hsrc : src = fun t : ℝ => (rho : ℂ) * exp (I * t) + w) (h0 : ∀ t, src t ≠ 0) (hcl : src Real.pi = src (-Real.pi))
    (B : ℂ → ℝ) (hB : Continuous B) (o o' : ℝ × ℝ) :
    branchFlux B o (fun t => singleBranch 1 (src t)) - branchFlux B o' (fun t => singleBranch (-1) (src t))
      = ∫ z in imageOfDisc single w rho, B z := by
  have hs2 : ContDiff ℝ 2 src := by rw [hsrc]; exact contDiff2_limb w rho
  have hb2 : ∀ σ, ContDiff ℝ 2 fun t => singleBranch σ (src t) := fun σ => contDiff2_branch σ src hs2 h0
  have hper : ∀ σ, singleBranch σ (src Real.pi) = singleBranch σ (src (-Real.pi)) := fun σ => by rw [hcl]
  have hpos : ∀ σ, σ = 1 ∨ σ = -1 → ∀ t, 0 < (conj (singleBranch σ (src t)) * deriv (fun t => singleBranch σ (src t)) t).im := by
    intro σ hσ t
    rw [(branch_curve σ src (hs2.of_le (by norm_num)) h0).2 t]
    have h1 := branchFactor_pos σ hσ (src t) (h0 t)
    have h2 : branchFactor σ (src t) ≠ 0 := fun h => by rw [h, mul_zero] at h1; exact lt_irrefl _ h1
    exact mul_pos (by have := sq_pos_of_ne_zero h2; exact this) (limb_swept w rho hrho hw src hsrc t)
  have hinj := fun σ hσ S hS => cone_inj σ hσ w rho hrho hw src hsrc h0 S hS
  obtain ⟨hreg, hsub⟩ := inside_region w rho hrho hw src hsrc h0
  unfold branchFlux
  rw [green_star B hB o _ (hb2 1) (hper 1) (hpos 1 (Or.inl rfl)) (Ioo 0 1) measurableSet_Ioo Ioo_subset_Ioc_self
      Ioo_ae_eq_Icc (hinj 1 (Or.inl rfl) _ Ioo_subset_Ioc_self),
    green_star B hB o' _ (hb2 (-1)) (hper (-1)) (hpos (-1) (Or.inr rfl)) (Ioc 0 1) measurableSet_Ioc subset_rfl
      Ioc_ae_eq_Icc (hinj (-1) (Or.inr rfl) _ subset_rfl), hreg]
  rw [integral_diff (measurable_cone _ (hb2 (-1)) _ _ measurableSet_Ioc measurableSet_Ioc (hinj (-1) (Or.inr rfl) _ subset_rfl)) ?_ hsub]
  have hK : IsCompact (cone (fun t => singleBranch 1 (src t)) '' (Icc 0 1 ×ˢ Icc (-Real.pi) Real.pi)) :=
    (isCompact_Icc.prod isCompact_Icc).image (contDiff_cone _ (hb2 1)).continuous
  exact (hB.continuousOn.integrableOn_compact hK).mono_set
    (image_mono (prod_mono Ioo_subset_Icc_self Ioc_subset_Icc_self))

/-! ### The lens outside the disc -/

theorem branch_images (v : ℂ) (hv : v ≠ 0) (z : ℂ) : IsImage single v z ↔ z = singleBranch 1 v ∨ z = singleBranch (-1) v := by
  obtain ⟨z1, z2, h1, -, h3, -, -⟩ := C01_single_images v hv
  rw [images1_branches v hv] at h1
  simp only [List.cons.injEq, Prod.mk.injEq, and_true] at h1
  rw [h3, h1.1, h1.2]

theorem shear_single (z : ℂ) (hz : z ≠ 0) : ‖shear single z‖ = 1 / ‖z‖ ^ 2 := by
  unfold shear single
  simp [norm_pow]

theorem branch_section (σ : ℝ) (hσ : σ = 1 ∨ σ = -1) (w : ℂ) : DiscSection single w ‖w‖ (singleBranch σ) ∧
    ∀ x ∈ Metric.ball w ‖w‖, σ = (SignType.sign (jacDet (lensMap single) (singleBranch σ x)) : ℝ) := by
  have hne : ∀ x ∈ Metric.ball w ‖w‖, x ≠ 0 := by
    rintro x hx rfl
    rw [Metric.mem_ball, dist_eq_norm, zero_sub, norm_neg] at hx
    exact lt_irrefl _ hx
  have hb : ∀ x ∈ Metric.ball w ‖w‖, singleBranch σ x ≠ 0 := fun x hx =>
    norm_pos_iff.mp (branch_radius σ hσ x (hne x hx)).1
  refine ⟨⟨?_, ?_, ?_⟩, ?_⟩
  · intro x hx
    refine ContinuousAt.continuousWithinAt ?_
    have hp : 0 < x.re ^ 2 + x.im ^ 2 := by
      rw [normsq_eq]; have := norm_pos_iff.mpr (hne x hx); positivity
    have hn : Continuous fun v : ℂ => v.re ^ 2 + v.im ^ 2 := by fun_prop
    have hG : ContinuousAt (fun v : ℂ => regGain 0 (v.re ^ 2 + v.im ^ 2)) x := by
      unfold regGain
      refine ContinuousAt.div ((hn.add continuous_const).sqrt.continuousAt) ((hn.add continuous_const).sqrt.continuousAt) ?_
      exact (Real.sqrt_pos.mpr (by linarith)).ne'
    have hk : ContinuousAt (fun v : ℂ => (branchFactor σ v : ℂ)) x :=
      ContinuousAt.comp (g := fun r : ℝ => (r : ℂ)) continuous_ofReal.continuousAt
        (continuousAt_const.mul (continuousAt_const.add (continuousAt_const.mul hG)))
    exact hk.mul continuousAt_id
  · intro x hx
    rw [branch_images x (hne x hx)]
    rcases hσ with rfl | rfl
    · exact Or.inl rfl
    · exact Or.inr rfl
  · intro x hx h
    rw [shear_single _ (hb x hx)] at h
    obtain ⟨b1, b2⟩ := branch_radius σ hσ x (hne x hx)
    have hA : ‖singleBranch σ x‖ = 1 := by
      have h2 : ‖singleBranch σ x‖ ^ 2 = 1 := by
        field_simp at h
        exact h.symm
      nlinarith
    rw [hA] at b2
    have hxp := norm_pos_iff.mpr (hne x hx)
    rcases hσ with rfl | rfl <;> linarith
  · intro x hx
    have hj : jacDet (lensMap single) (singleBranch σ x) = 1 - (1 / ‖singleBranch σ x‖ ^ 2) ^ 2 := by
      rw [(jacDet_lensMap single _ (by simpa [single] using hb x hx)).2, ← shear_single _ (hb x hx)]
      rfl
    rw [hj]
    rcases hσ with rfl | rfl
    · have h1 := norm_major x (hne x hx)
      have h2 : 1 / ‖singleBranch 1 x‖ ^ 2 < 1 := by rw [div_lt_one (by positivity)]; nlinarith
      have h3 : 0 < 1 / ‖singleBranch 1 x‖ ^ 2 := by positivity
      rw [sign_pos (by nlinarith)]
      simp
    · obtain ⟨h0, h1⟩ := norm_minor x (hne x hx)
      have h2 : 1 < 1 / ‖singleBranch (-1) x‖ ^ 2 := by rw [lt_div_iff₀ (by positivity)]; nlinarith
      rw [sign_neg (by nlinarith)]
      simp

theorem outside_flux (w : ℂ) (rho : ℝ) (hrho : 0 < rho) (hw : rho < ‖w‖) (src : ℝ → ℂ)
    (hsrc : src = fun t => polarAt w (rho, t)) (B : ℂ → ℝ) (hB : Continuous B) (o o' : ℝ × ℝ) :
    branchFlux B o (fun t => singleBranch 1 (src t)) - branchFlux B o' (fun t => singleBranch (-1) (src t))
      = ∫ z in imageOfDisc single w rho, B z := by
  have hsub : Metric.ball w rho ⊆ Metric.ball w ‖w‖ := Metric.ball_subset_ball hw.le
  have hwm : w ∈ Metric.ball w ‖w‖ := Metric.mem_ball_self (hrho.trans hw)
  obtain ⟨s1, p1⟩ := branch_section 1 (Or.inl rfl) w
  obtain ⟨s2, p2⟩ := branch_section (-1) (Or.inr rfl) w
  have hne : ∀ x ∈ Metric.ball w ‖w‖, x ≠ 0 := by
    rintro x hx rfl
    rw [Metric.mem_ball, dist_eq_norm, zero_sub, norm_neg] at hx
    exact lt_irrefl _ hx
  have w1 := s1.weight B hB o rho hrho hw 1 (p1 w hwm)
  have w2 := s2.weight B hB o' rho hrho hw (-1) (p2 w hwm)
  have hset : imageOfDisc single w rho = singleBranch 1 '' Metric.ball w rho ∪ singleBranch (-1) '' Metric.ball w rho := by
    ext z
    constructor
    · rintro ⟨h1, h2⟩
      have hy : lensMap single z ∈ Metric.ball w rho := by rwa [Metric.mem_ball, dist_eq_norm]
      rcases (branch_images _ (hne _ (hsub hy)) z).mp ⟨h1, rfl⟩ with h | h
      · exact Or.inl ⟨_, hy, h.symm⟩
      · exact Or.inr ⟨_, hy, h.symm⟩
    · rintro (⟨y, hy, rfl⟩ | ⟨y, hy, rfl⟩)
      · have := s1.img y (hsub hy)
        exact ⟨this.1, by rw [this.2, ← dist_eq_norm]; exact hy⟩
      · have := s2.img y (hsub hy)
        exact ⟨this.1, by rw [this.2, ← dist_eq_norm]; exact hy⟩
  have hdisj : Disjoint (singleBranch 1 '' Metric.ball w rho) (singleBranch (-1) '' Metric.ball w rho) := by
    rw [Set.disjoint_left]
    rintro _ ⟨x, hx, rfl⟩ ⟨y, hy, hxy⟩
    have h1 := norm_major x (hne x (hsub hx))
    have h2 := (norm_minor y (hne y (hsub hy))).2
    rw [hxy] at h2
    linarith
  have hmeas : MeasurableSet (singleBranch (-1) '' Metric.ball w rho) :=
    measurable_image_of_fderivWithin Metric.isOpen_ball.measurableSet
      (fun y hy => (((s2.smooth y (hsub hy)).1.differentiableAt (by norm_num)).hasFDerivAt).hasFDerivWithinAt)
      (s2.injOn.mono hsub)
  have hint : ∀ σ, DiscSection single w ‖w‖ (singleBranch σ) → IntegrableOn B (singleBranch σ '' Metric.ball w rho) := by
    intro σ hs
    have hc : IsCompact (singleBranch σ '' Metric.closedBall w rho) := (isCompact_closedBall w rho).image_of_continuousOn
      (hs.cont.mono (Metric.closedBall_subset_ball hw))
    exact (hB.continuousOn.integrableOn_compact hc).mono_set (image_mono Metric.ball_subset_closedBall)
  rw [hset, setIntegral_union hdisj hmeas (hint 1 s1) (hint (-1) s2), w1, w2, hsrc]
  unfold branchFlux
  ring

end Microjax.Props
