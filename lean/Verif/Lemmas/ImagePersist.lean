import Verif.Lemmas.RootBranches
import Verif.Lemmas.DualSolutions
import Verif.Lemmas.Jvp
import Verif.Lemmas.PointMag

/-! # Images persist along branches, and the magnification differentiates branch by branch -/

noncomputable section

namespace Microjax.Props

open Complex ComplexConjugate Spec PointSource Filter
open scoped Topology

variable {n N : ℕ} {t₀ : ℝ}

theorem lensMap_continuousAt (m : ℝ → Fin n → ℝ) (pos : ℝ → Fin n → ℂ) (z : ℝ → ℂ)
    (hm : ∀ k, ContinuousAt (fun t => m t k) t₀) (hp : ∀ k, ContinuousAt (fun t => pos t k) t₀)
    (hz : ContinuousAt z t₀) (hne : ∀ k, z t₀ ≠ pos t₀ k) :
    ContinuousAt (fun t => lensMap (lensList (m t) (pos t)) (z t)) t₀ := by
  simp only [lensMap_lensList]
  refine hz.sub (tendsto_finsetSum _ fun k _ => ?_)
  have hne' : conj (z t₀) - conj (pos t₀ k) ≠ 0 :=
    fun h => hne k ((starRingEnd ℂ).injective (sub_eq_zero.mp h))
  have h1 : ContinuousAt (fun t => ((m t k : ℝ) : ℂ)) t₀ := Complex.continuous_ofReal.continuousAt.comp (hm k)
  have h2 : ContinuousAt (fun t => conj (z t)) t₀ := Complex.continuous_conj.continuousAt.comp hz
  have h3 : ContinuousAt (fun t => conj (pos t k)) t₀ := Complex.continuous_conj.continuousAt.comp (hp k)
  exact h1.div (h2.sub h3) hne'

theorem dualConj_continuousAt (m : ℝ → Fin n → ℝ) (pos : ℝ → Fin n → ℂ) (w z : ℝ → ℂ)
    (hm : ∀ k, ContinuousAt (fun t => m t k) t₀) (hp : ∀ k, ContinuousAt (fun t => pos t k) t₀)
    (hw : ContinuousAt w t₀) (hz : ContinuousAt z t₀) (hne : ∀ k, z t₀ ≠ pos t₀ k) :
    ContinuousAt (fun t => dualConj (m t) (pos t) (w t) (z t)) t₀ := by
  unfold dualConj dualOf
  refine Complex.continuous_conj.continuousAt.comp (f := fun t => conj (w t) + ∑ i, (m t i : ℂ) / (z t - pos t i)) ?_
  refine (Complex.continuous_conj.continuousAt.comp hw).add (tendsto_finsetSum _ fun k _ => ?_)
  have h1 : ContinuousAt (fun t => ((m t k : ℝ) : ℂ)) t₀ := Complex.continuous_ofReal.continuousAt.comp (hm k)
  exact h1.div (hz.sub (hp k)) (sub_ne_zero.mpr (hne k))

/-- If the complexified solutions near `t₀` are distinct continuous branches, then a branch that is an image at `t₀` stays
an image, and the validity flags do not change. -/
theorem images_persist (m : ℝ → Fin n → ℝ) (pos : ℝ → Fin n → ℂ) (w : ℝ → ℂ)
    (hm : ∀ k, ContinuousAt (fun t => m t k) t₀) (hp : ∀ k, ContinuousAt (fun t => pos t k) t₀)
    (hw : ContinuousAt w t₀) (z : Fin N → ℝ → ℂ) (hz : ∀ i, ContinuousAt (z i) t₀)
    (hinj : Function.Injective fun i => z i t₀)
    (hsol : ∀ᶠ t in 𝓝 t₀, ∀ i, DualSol (m t) (pos t) (w t) (z i t))
    (hall : ∀ᶠ t in 𝓝 t₀, ∀ ζ, DualSol (m t) (pos t) (w t) ζ → ∃ i, ζ = z i t)
    (leq : ℝ → ℂ → ℂ) (hleq : ∀ t x, leq t x = lensMap (lensList (m t) (pos t)) x) (tol : ℝ)
    (hsep : ∀ i, ‖leq t₀ (z i t₀) - w t₀‖ ≤ tol → leq t₀ (z i t₀) = w t₀) (htol : 0 < tol) :
    ∀ᶠ t in 𝓝 t₀, ∀ i, (‖leq t (z i t) - w t‖ < tol ↔ ‖leq t₀ (z i t₀) - w t₀‖ < tol) ∧
      (‖leq t (z i t) - w t‖ < tol → leq t (z i t) = w t) := by
  have hsol0 := hsol.self_of_nhds
  have hcont : ∀ i, ContinuousAt (fun t => leq t (z i t) - w t) t₀ := by
    intro i
    simp only [hleq]
    exact (lensMap_continuousAt m pos (z i) hm hp (hz i) (hsol0 i).hz).sub hw
  rw [eventually_all]
  intro i
  by_cases hi : leq t₀ (z i t₀) = w t₀
  · -- an image
    have himg : IsImage (lensList (m t₀) (pos t₀)) (w t₀) (z i t₀) := by
      refine ⟨?_, by rw [← hleq]; exact hi⟩
      intro l hl
      obtain ⟨k, rfl⟩ := List.mem_ofFn.mp hl
      exact (hsol0 i).hz k
    have hfix := ((isImage_iff_dual _ _ _ _).mp himg).2
    have hg := dualConj_continuousAt m pos w (z i) hm hp hw (hz i) (hsol0 i).hz
    have hne : ∀ j, ∀ᶠ t in 𝓝 t₀, j ≠ i → dualConj (m t) (pos t) (w t) (z i t) ≠ z j t := by
      intro j
      by_cases hj : j = i
      · exact Eventually.of_forall fun t h => absurd hj h
      · have h0 : dualConj (m t₀) (pos t₀) (w t₀) (z i t₀) - z j t₀ ≠ 0 := by
          rw [hfix, sub_ne_zero]
          exact fun h => hj (hinj h).symm
        filter_upwards [(hg.sub (hz j)).eventually_ne h0] with t ht _ h
        exact ht (sub_eq_zero.mpr h)
    filter_upwards [hsol, hall, eventually_all.mpr hne] with t h1 h2 h3
    obtain ⟨j, hj⟩ := h2 _ (dualSol_conj _ _ _ _ (h1 i))
    have hji : j = i := by
      by_contra h
      exact h3 j h hj
    rw [hji] at hj
    have himt := (isImage_iff_dual _ _ _ _).mpr ⟨h1 i, hj⟩
    have hl : leq t (z i t) = w t := by rw [hleq]; exact himt.2
    refine ⟨?_, fun _ => hl⟩
    rw [hl, hi]
    simp [htol]
  · have hgt : tol < ‖leq t₀ (z i t₀) - w t₀‖ := by
      by_contra h
      exact hi (hsep i (not_lt.mp h))
    filter_upwards [(hcont i).norm.eventually (lt_mem_nhds hgt)] with t ht
    refine ⟨?_, fun h => absurd h (not_lt.mpr ht.le)⟩
    constructor
    · intro h; exact absurd h (not_lt.mpr ht.le)
    · intro h; exact absurd h (not_lt.mpr hgt.le)

/-- The masked sum differentiates branch by branch. -/
theorem sumMag_hasDerivAt (det : ℝ → ℂ → ℝ) (ddet : ℂ → ℂ → ℝ) (leq : ℝ → ℂ → ℂ) (tol : ℝ) (w : ℝ → ℂ)
    (zs : ℝ → List ℂ) (z : Fin N → ℝ → ℂ) (dz : Fin N → ℂ)
    (hperm : ∀ᶠ t in 𝓝 t₀, (zs t).Perm (List.ofFn fun i => z i t))
    (hflag : ∀ᶠ t in 𝓝 t₀, ∀ i, (‖leq t (z i t) - w t‖ < tol ↔ ‖leq t₀ (z i t₀) - w t₀‖ < tol))
    (hdet : ∀ i, ‖leq t₀ (z i t₀) - w t₀‖ < tol →
      HasDerivAt (fun t => det t (z i t)) (ddet (z i t₀) (dz i)) t₀ ∧ det t₀ (z i t₀) ≠ 0) :
    HasDerivAt (fun t => sumMag (det t) (withMask (leq t) tol (w t) (zs t)))
      (sumMagTangent (det t₀) ddet (List.ofFn fun i => ((z i t₀, dz i), decide (‖leq t₀ (z i t₀) - w t₀‖ < tol)))) t₀ := by
  have hev : (fun t => sumMag (det t) (withMask (leq t) tol (w t) (zs t))) =ᶠ[𝓝 t₀]
      fun t => ∑ i, 1 / |det t (z i t)| * (if ‖leq t₀ (z i t₀) - w t₀‖ < tol then 1 else 0) := by
    filter_upwards [hperm, hflag] with t h1 h2
    unfold sumMag withMask
    rw [List.map_map, (h1.map _).sum_eq, List.map_ofFn, List.sum_ofFn]
    refine Finset.sum_congr rfl fun i _ => ?_
    simp only [Function.comp, decide_eq_true_eq, h2 i]
  have hsum : sumMagTangent (det t₀) ddet
      (List.ofFn fun i => ((z i t₀, dz i), decide (‖leq t₀ (z i t₀) - w t₀‖ < tol)))
      = ∑ i, (-(1 / |det t₀ (z i t₀)|) / |det t₀ (z i t₀)| *
          (SignType.sign (det t₀ (z i t₀)) * ddet (z i t₀) (dz i)))
          * (if ‖leq t₀ (z i t₀) - w t₀‖ < tol then 1 else 0) := by
    unfold sumMagTangent
    rw [List.map_ofFn, List.sum_ofFn]
    refine Finset.sum_congr rfl fun i _ => ?_
    simp only [Function.comp, decide_eq_true_eq]
  rw [hsum]
  refine HasDerivAt.congr_of_eventuallyEq ?_ hev
  refine HasDerivAt.fun_sum fun i _ => ?_
  by_cases hi : ‖leq t₀ (z i t₀) - w t₀‖ < tol
  · simp only [if_pos hi, mul_one]
    obtain ⟨h1, h2⟩ := hdet i hi
    exact hasDerivAt_invAbs _ _ h1 h2
  · simp only [if_neg hi, mul_zero]
    exact hasDerivAt_const _ _

end Microjax.Props
