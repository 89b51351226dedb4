import Verif.Spec.ExtendedSource
import Mathlib.Analysis.SpecialFunctions.PolarCoord
import Mathlib.Analysis.Complex.Isometry
import Mathlib.MeasureTheory.Measure.Haar.InnerProductSpace
import Mathlib.MeasureTheory.Integral.IntervalIntegral.Basic
import Mathlib.MeasureTheory.Integral.Prod

/-! # Integrals over polar sectors -/

noncomputable section

namespace Microjax.Props

open Complex Spec MeasureTheory Set

theorem mem_sector_iff (a b α β φ r t : ℝ) (ha : 0 ≤ a) (hφ : φ = (α + β) / 2) (hβ : β ≤ α + 2 * Real.pi)
    (hr : 0 < r) (ht : t ∈ Ioo (-Real.pi) Real.pi) :
    exp (I * φ) * (r * exp (I * t)) ∈ sector ((a, b), (α, β)) ↔
      r ∈ Ioo a b ∧ t ∈ Ioo (α - φ) (β - φ) := by
  have hexp : exp (I * φ) * (r * exp (I * t)) = r * exp (I * (t + φ : ℝ)) := by
    push_cast
    rw [mul_add, exp_add]; ring
  have hn : ∀ x : ℝ, ‖exp (I * x)‖ = 1 := fun x => by rw [mul_comm]; exact norm_exp_ofReal_mul_I x
  rw [hexp]
  constructor
  · rintro ⟨r', θ, h1, h2, h3, h4, he⟩
    simp only at h1 h2 h3 h4
    have hnorm := congrArg norm he
    rw [norm_mul, norm_mul, hn, hn, mul_one, mul_one, norm_real, norm_real, Real.norm_of_nonneg hr.le,
      Real.norm_of_nonneg (ha.trans h1.le)] at hnorm
    subst hnorm
    have hne : (r : ℂ) ≠ 0 := by exact_mod_cast hr.ne'
    have he2 := mul_left_cancel₀ hne he
    rw [exp_eq_exp_iff_exists_int] at he2
    obtain ⟨k, hk⟩ := he2
    have hk2 : t + φ = θ + k * (2 * Real.pi) := by
      have : I * ((t + φ : ℝ) : ℂ) = I * ((θ + k * (2 * Real.pi) : ℝ) : ℂ) := by
        rw [hk]; push_cast; ring
      exact_mod_cast mul_left_cancel₀ I_ne_zero this
    have hk0 : k = 0 := by
      have hp := Real.pi_pos
      have e1 : (k : ℝ) * (2 * Real.pi) < 1 * (2 * Real.pi) := by
        have := ht.2; linarith
      have e2 : (-1 : ℝ) * (2 * Real.pi) < k * (2 * Real.pi) := by
        have := ht.1; linarith
      have e1' := lt_of_mul_lt_mul_right e1 (by positivity)
      have e2' := lt_of_mul_lt_mul_right e2 (by positivity)
      have a1 : k < 1 := by exact_mod_cast e1'
      have a2 : -1 < k := by exact_mod_cast e2'
      omega
    subst hk0
    simp only [Int.cast_zero, zero_mul, add_zero] at hk2
    exact ⟨⟨h1, h2⟩, ⟨by linarith, by linarith⟩⟩
  · rintro ⟨⟨h1, h2⟩, h3, h4⟩
    exact ⟨r, t + φ, h1, h2, by simp only; linarith, by simp only; linarith, rfl⟩

theorem isOpen_sector_aux (a b α β : ℝ) :
    sector ((a, b), (α, β)) = (fun z => exp (-(I * ((α + β) / 2 : ℝ))) * z) ⁻¹'
      (Complex.polarCoord.symm '' (Ioo a b ×ˢ Ioo (α - (α + β) / 2) (β - (α + β) / 2))) := by
  ext z
  simp only [mem_preimage, mem_image, mem_prod]
  have hp := Real.pi_pos
  constructor
  · rintro ⟨r, θ, h1, h2, h3, h4, rfl⟩
    simp only at h1 h2 h3 h4
    refine ⟨(r, θ - (α + β) / 2), ⟨⟨h1, h2⟩, ⟨by simp only; linarith, by simp only; linarith⟩⟩, ?_⟩
    rw [Complex.polarCoord_symm_apply]
    simp only
    rw [ofReal_cos, ofReal_sin, mul_comm _ I, mul_comm I, ← exp_mul_I, mul_left_comm, ← exp_add]
    congr 2; push_cast; ring
  · rintro ⟨⟨r, t⟩, ⟨⟨h1, h2⟩, h3, h4⟩, he⟩
    simp only at h1 h2 h3 h4
    refine ⟨r, t + (α + β) / 2, h1, h2, by simp only; linarith, by simp only; linarith, ?_⟩
    have : z = exp (I * ((α + β) / 2 : ℝ)) * (exp (-(I * ((α + β) / 2 : ℝ))) * z) := by
      rw [← mul_assoc, ← exp_add]; simp
    rw [this, ← he, Complex.polarCoord_symm_apply]
    simp only
    rw [ofReal_cos, ofReal_sin, ← exp_mul_I, mul_left_comm, ← exp_add]
    congr 2; push_cast; ring

theorem measurableSet_sector (a b α β : ℝ) (ha : 0 ≤ a) (hβ : β ≤ α + 2 * Real.pi) :
    MeasurableSet (sector ((a, b), (α, β))) := by
  rw [isOpen_sector_aux a b α β]
  have ho : IsOpen (Complex.polarCoord.symm '' (Ioo a b ×ˢ Ioo (α - (α + β) / 2) (β - (α + β) / 2))) := by
    apply Complex.polarCoord.isOpen_image_symm_of_subset_target (isOpen_Ioo.prod isOpen_Ioo)
    rintro ⟨r, t⟩ ⟨⟨h1, h2⟩, h3, h4⟩
    simp only at h1 h2 h3 h4
    rw [Complex.polarCoord_target]
    exact ⟨lt_of_le_of_lt ha h1, ⟨by simp only; linarith, by simp only; linarith⟩⟩
  exact (ho.preimage (by fun_prop)).measurableSet

/-- The area integral over a polar sector in polar coordinates. -/
theorem sector_integral (F : ℂ → ℝ) (hF : Measurable F) (C : ℝ) (hC : ∀ z, |F z| ≤ C) (a b α β : ℝ) (ha : 0 ≤ a)
    (hab : a ≤ b) (hαβ : α ≤ β) (hβ : β ≤ α + 2 * Real.pi) :
    ∫ r in a..b, ∫ θ in α..β, r * F (r * exp (I * θ)) = ∫ z in sector ((a, b), (α, β)), F z := by
  set φ := (α + β) / 2 with hφ
  set G : ℂ → ℝ := (sector ((a, b), (α, β))).indicator F with hG
  have hmeas := measurableSet_sector a b α β ha hβ
  rw [← integral_indicator hmeas]
  have hrot : ∫ z, G z = ∫ z, G (exp (I * φ) * z) := by
    have h := (rotation (Circle.exp φ)).measurePreserving.integral_comp
      (rotation (Circle.exp φ)).toHomeomorph.measurableEmbedding G
    rw [← h]
    congr 1; funext z
    rw [rotation_apply, Circle.coe_exp, mul_comm (φ : ℂ)]
  rw [← hG, hrot, ← Complex.integral_comp_polarCoord_symm (fun z => G (exp (I * φ) * z))]
  have hpol : ∀ p : ℝ × ℝ, Complex.polarCoord.symm p = p.1 * exp (I * p.2) := by
    intro p
    rw [Complex.polarCoord_symm_apply, ofReal_cos, ofReal_sin, ← exp_mul_I, mul_comm I]
  have hset : ∫ p in polarCoord.target, p.1 • G (exp (I * φ) * Complex.polarCoord.symm p)
      = ∫ p in Ioo a b ×ˢ Ioo (α - φ) (β - φ), p.1 * F (p.1 * exp (I * (p.2 + φ : ℝ))) := by
    rw [← integral_indicator polarCoord.open_target.measurableSet,
      ← integral_indicator (measurableSet_Ioo.prod measurableSet_Ioo)]
    congr 1
    funext p
    have hval : exp (I * φ) * (p.1 * exp (I * p.2)) = p.1 * exp (I * (p.2 + φ : ℝ)) := by
      push_cast
      rw [mul_add, exp_add]; ring
    by_cases hp : p ∈ polarCoord.target
    · rw [indicator_of_mem hp]
      obtain ⟨h1, h2⟩ := hp
      have := mem_sector_iff a b α β φ p.1 p.2 ha hφ hβ h1 h2
      rw [hpol, smul_eq_mul]
      by_cases hin : p ∈ Ioo a b ×ˢ Ioo (α - φ) (β - φ)
      · rw [indicator_of_mem hin, hG, indicator_of_mem (this.mpr ⟨hin.1, hin.2⟩), hval]
      · rw [indicator_of_notMem hin, hG, indicator_of_notMem fun h => hin (this.mp h), mul_zero]
    · rw [indicator_of_notMem hp, indicator_of_notMem]
      rintro ⟨h1, h2⟩
      apply hp
      have hp := Real.pi_pos
      exact ⟨lt_of_le_of_lt ha h1.1, ⟨by have := h2.1; linarith, by have := h2.2; linarith⟩⟩
  rw [hset]
  have hint : IntegrableOn (fun p : ℝ × ℝ => p.1 * F (p.1 * exp (I * (p.2 + φ : ℝ))))
      (Ioo a b ×ˢ Ioo (α - φ) (β - φ)) (volume.prod volume) := by
    refine Measure.integrableOn_of_bounded (M := b * C) ?_ ?_ ?_
    · rw [Measure.prod_prod]
      exact ENNReal.mul_ne_top measure_Ioo_lt_top.ne measure_Ioo_lt_top.ne
    · exact (by fun_prop : Measurable fun p : ℝ × ℝ => p.1 * F (p.1 * exp (I * (p.2 + φ : ℝ)))).aestronglyMeasurable
    · refine (ae_restrict_iff' (measurableSet_Ioo.prod measurableSet_Ioo)).mpr (Filter.Eventually.of_forall ?_)
      rintro p ⟨h1, _⟩
      rw [norm_mul, Real.norm_eq_abs, Real.norm_eq_abs, abs_of_pos (lt_of_le_of_lt ha h1.1)]
      exact mul_le_mul h1.2.le (hC _) (abs_nonneg _) (ha.trans hab)
  rw [Measure.volume_eq_prod, setIntegral_prod _ hint, intervalIntegral.integral_of_le hab, integral_Ioc_eq_integral_Ioo]
  refine setIntegral_congr_fun measurableSet_Ioo fun r _ => ?_
  simp only
  rw [← integral_Ioc_eq_integral_Ioo, ← intervalIntegral.integral_of_le (by linarith),
    intervalIntegral.integral_comp_add_right (fun t => r * F (r * exp (I * (t : ℝ))))]
  simp

end Microjax.Props
