import Verif.Props.Tracking
import Verif.Props.PolySolver
import Verif.Lemmas.DualSolutions

/-! # Simple roots form continuous branches -/

noncomputable section

namespace Microjax.Props

open Complex ComplexConjugate Spec Filter
open scoped Topology

/-- Points of a finite injective family have a positive minimal distance. -/
theorem exists_sep {n : ℕ} (ρ : Fin n → ℂ) (hinj : Function.Injective ρ) :
    ∃ δ > 0, ∀ i j, i ≠ j → δ ≤ ‖ρ i - ρ j‖ := by
  classical
  by_cases hne : ((Finset.univ : Finset (Fin n × Fin n)).filter fun p => p.1 ≠ p.2).Nonempty
  · obtain ⟨p, hp, hmin⟩ := Finset.exists_min_image _ (fun p : Fin n × Fin n => ‖ρ p.1 - ρ p.2‖) hne
    rw [Finset.mem_filter] at hp
    refine ⟨‖ρ p.1 - ρ p.2‖, norm_pos_iff.mpr (sub_ne_zero.mpr fun h => hp.2 (hinj h)), fun i j hij => ?_⟩
    exact hmin (i, j) (by simp [hij])
  · refine ⟨1, one_pos, fun i j hij => ?_⟩
    exact absurd ⟨(i, j), by simp [hij]⟩ hne

/-- Along coefficients that depend continuously on a parameter, the roots near a parameter value with distinct roots form
continuous branches. -/
theorem root_branches {X : Type*} [TopologicalSpace X] (c : X → List ℂ) (rs : X → List ℂ) (n : ℕ) (t₀ : X)
    (hlen : ∀ t, (c t).length = n + 1)
    (hn : n ≠ 0) (hc : ∀ k : ℕ, ContinuousAt (fun t => (c t).getD k 0) t₀) (hlead : (c t₀).headD 0 ≠ 0)
    (hrs : ∀ᶠ t in 𝓝 t₀, IsRootList (c t) (rs t)) (hnd : (rs t₀).Nodup) :
    ∃ r : Fin n → X → ℂ, (∀ i, ContinuousAt (r i) t₀) ∧ rs t₀ = List.ofFn (fun i => r i t₀) ∧
      ∀ᶠ t in 𝓝 t₀, (rs t).Perm (List.ofFn fun i => r i t) ∧ (List.ofFn fun i => r i t).Nodup := by
  classical
  have hrs0 := hrs.self_of_nhds
  have hl0 : (rs t₀).length = n := rootList_length hlead hrs0 (hlen t₀)
  obtain ⟨ρ, hρ⟩ : ∃ ρ : Fin n → ℂ, List.ofFn ρ = rs t₀ := by
    refine ⟨fun i => (rs t₀)[i.1]'(by rw [hl0]; exact i.2), ?_⟩
    apply List.ext_getElem
    · simp [hl0]
    · intro k h1 h2; simp
  have hinj : Function.Injective ρ := by rw [← List.nodup_ofFn, hρ]; exact hnd
  obtain ⟨δ, hδ, hsep⟩ := exists_sep ρ hinj
  have hheadc : ContinuousAt (fun t => (c t).headD 0) t₀ := by
    have : (fun t => (c t).headD 0) = fun t => (c t).getD 0 0 := by
      funext t; cases c t <;> rfl
    rw [this]; exact hc 0
  have hev : ∀ z, ContinuousAt (fun t => evalPoly (c t) z) t₀ := by
    intro z
    have e : (fun t => evalPoly (c t) z) = fun t => ((List.range (n + 1)).map fun k : ℕ =>
        (c t).getD k 0 * z ^ (n - k)).sum := by
      funext t
      rw [evalPoly_eq_sum, hlen]
      rfl
    rw [e]
    have key : ∀ l : List ℕ, ContinuousAt (fun t => (l.map fun k : ℕ => (c t).getD k 0 * z ^ (n - k)).sum) t₀ := by
      intro l
      induction l with
      | nil => exact continuousAt_const
      | cons k l ih =>
        simp only [List.map_cons, List.sum_cons]
        exact ((hc k).mul continuousAt_const).add ih
    exact key _
  -- every small ball eventually contains a root
  have near : ∀ η : ℝ, 0 < η → 2 * η < δ → ∀ᶠ t in 𝓝 t₀, ∃ ρ' : Fin n → ℂ, (List.ofFn ρ').Perm (rs t) ∧
      ∀ i, ‖ρ' i - ρ i‖ ≤ η := by
    intro η hη hη2
    have e1 : ∀ᶠ t in 𝓝 t₀, (c t).headD 0 ≠ 0 := hheadc.eventually_ne hlead
    have e2 : ∀ i, ∀ᶠ t in 𝓝 t₀, ‖evalPoly (c t) (ρ i)‖ < ‖(c t).headD 0‖ * η ^ n := by
      intro i
      refine (hev (ρ i)).norm.eventually_lt (hheadc.norm.mul continuousAt_const) ?_
      have : evalPoly (c t₀) (ρ i) = 0 :=
        IsRootList.eval_zero_of_mem hrs0 (by rw [← hρ]; exact List.mem_ofFn.mpr ⟨i, rfl⟩)
      rw [this, norm_zero]
      have := norm_pos_iff.mpr hlead
      positivity
    filter_upwards [e1, eventually_all.mpr e2, hrs] with t h1 h2 h3
    obtain ⟨ρ', h4, h5⟩ := roots_perturb ρ δ η hsep hη2 hη.le hn _ h1 (hlen t) fun i => (h2 i).le
    refine ⟨ρ', perm_of_prod_eq fun x => ?_, h5⟩
    have e := h3 x
    rw [h4 x] at e
    exact mul_left_cancel₀ h1 e
  -- the root in the ball of radius δ/4
  set r : Fin n → X → ℂ := fun i t => if h : ∃ x ∈ rs t, ‖x - ρ i‖ ≤ δ / 4 then h.choose else ρ i with hr
  have uniq : ∀ (t : X) (ρ' : Fin n → ℂ), (List.ofFn ρ').Perm (rs t) → (∀ i, ‖ρ' i - ρ i‖ ≤ δ / 4) →
      ∀ i, r i t = ρ' i := by
    intro t ρ' hp hb i
    have hex : ∃ x ∈ rs t, ‖x - ρ i‖ ≤ δ / 4 :=
      ⟨ρ' i, hp.mem_iff.mp (List.mem_ofFn.mpr ⟨i, rfl⟩), hb i⟩
    have hri : r i t = hex.choose := by simp only [hr]; rw [dif_pos hex]
    obtain ⟨hx1, hx2⟩ := hex.choose_spec
    rw [← hri] at hx1 hx2
    obtain ⟨j, hj⟩ := List.mem_ofFn.mp (hp.mem_iff.mpr hx1)
    by_cases hij : i = j
    · rw [← hj, hij]
    · exfalso
      have h1 := hsep i j hij
      have h2 := hb j
      rw [hj] at h2
      have h3 : ‖ρ i - ρ j‖ ≤ ‖r i t - ρ i‖ + ‖r i t - ρ j‖ := by
        rw [show ρ i - ρ j = (r i t - ρ j) - (r i t - ρ i) by ring, add_comm]
        exact norm_sub_le _ _
      linarith
  have hr0 : ∀ i, r i t₀ = ρ i := by
    refine uniq t₀ ρ (by rw [hρ]) fun i => ?_
    rw [sub_self, norm_zero]; positivity
  refine ⟨r, fun i => ?_, ?_, ?_⟩
  · rw [Metric.continuousAt_iff']
    intro ε hε
    have hη : 0 < min (ε / 2) (δ / 4) := by positivity
    filter_upwards [near _ hη (by have := min_le_right (ε / 2) (δ / 4); linarith)] with t ht
    obtain ⟨ρ', hp, hb⟩ := ht
    rw [uniq t ρ' hp (fun j => (hb j).trans (min_le_right _ _)) i, hr0 i, dist_eq_norm]
    have := (hb i).trans (min_le_left _ _)
    linarith
  · rw [← hρ]
    congr 1
    funext i
    exact (hr0 i).symm
  · filter_upwards [near (δ / 4) (by positivity) (by linarith)] with t ht
    obtain ⟨ρ', hp, hb⟩ := ht
    have e : (fun i => r i t) = ρ' := funext (uniq t ρ' hp hb)
    rw [e]
    refine ⟨hp.symm, List.nodup_ofFn.mpr fun i j hij => ?_⟩
    by_contra hne
    have h1 := hsep i j hne
    have h3 : ‖ρ i - ρ j‖ ≤ ‖ρ' i - ρ i‖ + ‖ρ' j - ρ j‖ := by
      rw [show ρ i - ρ j = (ρ' j - ρ j) - (ρ' i - ρ i) by rw [hij]; ring, add_comm]
      exact norm_sub_le _ _
    linarith [hb i, hb j]

/-- At a root that occurs once the derivative of the polynomial does not vanish. -/
theorem deriv_ne_zero_of_nodup (c rs : List ℂ) (h : IsRootList c rs) (hc : c.headD 0 ≠ 0) (hnd : rs.Nodup) (r : ℂ)
    (hr : r ∈ rs) : deriv (evalPoly c) r ≠ 0 := by
  have hd := C14_polyder c r
  rw [hd.deriv]
  have h0 := IsRootList.eval_zero_of_mem h hr
  refine simple_root_deriv c rs h hc hnd r 0 hr (fun _ => 1) (evalPoly c) _ (Eventually.of_forall fun x => ?_)
    continuousAt_const ?_ ?_
  · rw [sub_zero, one_mul]
  · rw [add_zero]; exact hd
  · rw [add_zero]; exact h0

end Microjax.Props
