import Verif.Lemmas.Interp
import Verif.Lemmas.QuadSums
import Verif.Lemmas.Jnp
import Verif.Props.Boundary
import Mathlib.MeasureTheory.Integral.IntervalIntegral.Basic
import Mathlib.Topology.Order.IntermediateValue

/-!
# C84: the angular sum of `mag_uniform` is fourth-order accurate at the limb

`_process_r` adds full cells and, where the limb is crossed, a fraction estimated by inverse cubic interpolation.
-/

noncomputable section

namespace Microjax.Props

open ExtendedSource Boundary Set MeasureTheory

/-- One if the point at angle `t` of the ring is inside the source, else zero. -/
def insideAt (dist : ℝ → ℝ) (rho t : ℝ) : ℝ := if dist t < rho then 1 else 0

/-- The limb is crossed transversally over the four samples `t, t+Δ, t+2Δ, t+3Δ`: the distance is continuous and strictly
monotone, its inverse `h` is four times differentiable with fourth derivative at most `K`, and the three differences of
consecutive distances lie between `g` and `κ g`. -/
def SmoothCrossing (dist : ℝ → ℝ) (t Δ g κ K : ℝ) : Prop :=
  ContinuousOn dist (Icc t (t + 3 * Δ)) ∧
  ∃ h h1 h2 h3 h4 : ℝ → ℝ, (∀ s ∈ Icc t (t + 3 * Δ), h (dist s) = s) ∧
    (∀ s ∈ Icc t (t + 3 * Δ), HasDerivAt h (h1 (dist s)) (dist s) ∧ HasDerivAt h1 (h2 (dist s)) (dist s) ∧
      HasDerivAt h2 (h3 (dist s)) (dist s) ∧ HasDerivAt h3 (h4 (dist s)) (dist s) ∧ |h4 (dist s)| ≤ K) ∧
    ((StrictMonoOn dist (Icc t (t + 3 * Δ)) ∧ ∀ k : ℕ, k ≤ 2 → g ≤ dist (t + (k + 1) * Δ) - dist (t + k * Δ) ∧
        dist (t + (k + 1) * Δ) - dist (t + k * Δ) ≤ κ * g) ∨
     (StrictAntiOn dist (Icc t (t + 3 * Δ)) ∧ ∀ k : ℕ, k ≤ 2 → g ≤ dist (t + k * Δ) - dist (t + (k + 1) * Δ) ∧
        dist (t + k * Δ) - dist (t + (k + 1) * Δ) ≤ κ * g))

theorem clip_close (a b : ℝ) (h0 : 0 ≤ b) (h1 : b ≤ 1) : |clip a 0 1 - b| ≤ |a - b| := by
  unfold clip
  rcases le_total a 0 with h | h
  · rw [max_eq_right h, min_eq_left (by norm_num), abs_sub_comm, abs_sub_comm a b, abs_of_nonneg (by linarith),
      abs_of_nonneg (by linarith)]; linarith
  · rw [max_eq_left h]
    rcases le_total a 1 with h' | h'
    · rw [min_eq_left h']
    · rw [min_eq_right h', abs_of_nonneg (by linarith), abs_of_nonneg (by linarith)]; linarith

theorem integral_step (f : ℝ → ℝ) (a s b : ℝ) (has : a ≤ s) (hsb : s ≤ b) (c1 c2 : ℝ) (h1 : ∀ x ∈ Ioo a s, f x = c1)
    (h2 : ∀ x ∈ Ioo s b, f x = c2) :
    IntervalIntegrable f volume a b ∧ ∫ x in a..b, f x = c1 * (s - a) + c2 * (b - s) := by
  have piece : ∀ p q c : ℝ, p ≤ q → (∀ x ∈ Ioo p q, f x = c) →
      IntervalIntegrable f volume p q ∧ ∫ x in p..q, f x = c * (q - p) := by
    intro p q c hpq hc
    have hae : ∀ᵐ x ∂(volume.restrict (Set.uIoc p q)), (fun _ => c) x = f x := by
      rw [uIoc_of_le hpq, ← restrict_Ioo_eq_restrict_Ioc]
      exact (ae_restrict_iff' measurableSet_Ioo).mpr (Filter.Eventually.of_forall fun x hx => (hc x hx).symm)
    refine ⟨(intervalIntegrable_const (c := c)).congr_ae hae, ?_⟩
    rw [← intervalIntegral.integral_congr_ae_restrict hae, intervalIntegral.integral_const, smul_eq_mul, mul_comm]
  obtain ⟨i1, e1⟩ := piece a s c1 has h1
  obtain ⟨i2, e2⟩ := piece s b c2 hsb h2
  exact ⟨i1.trans i2, by rw [← intervalIntegral.integral_add_adjacent_intervals i1 i2, e1, e2]⟩

/-- One crossed cell. -/
theorem cell_crossing (dist : ℝ → ℝ) (rho t Δ g κ K lo hi S : ℝ) (hΔ : 0 < Δ) (hg : 0 < g)
    (hS : max (hi - lo) zeroTerm ≤ S) (hgS : 10 * zeroTerm * S ≤ g) (hc : SmoothCrossing dist t Δ g κ K)
    (hx : dist (t + Δ) < rho ↔ ¬ dist (t + 2 * Δ) < rho) :
    IntervalIntegrable (insideAt dist rho) volume (t + Δ) (t + 2 * Δ) ∧
    |Δ * cellWeight (inSource (dist (t + Δ)) rho) (inSource (dist (t + 2 * Δ)) rho)
        (cubicCore lo hi zeroTerm rho (dist t) (dist (t + Δ)) (dist (t + 2 * Δ)) (dist (t + 3 * Δ)) 0 1 2 3) -
      ∫ s in (t + Δ)..(t + 2 * Δ), insideAt dist rho s| ≤
      K * κ ^ 4 * g ^ 4 / 6 + 15 * Δ * (zeroTerm * S / g) * (1 + 2 * κ) := by
  obtain ⟨hcont, h, h1, h2, h3, h4, hinv, hder, hmono⟩ := hc
  have ε0 : 0 < zeroTerm := by norm_num [zeroTerm]
  have m0 : t ∈ Icc t (t + 3 * Δ) := ⟨le_rfl, by linarith⟩
  have m1 : t + Δ ∈ Icc t (t + 3 * Δ) := ⟨by linarith, by linarith⟩
  have m2 : t + 2 * Δ ∈ Icc t (t + 3 * Δ) := ⟨by linarith, by linarith⟩
  have m3 : t + 3 * Δ ∈ Icc t (t + 3 * Δ) := ⟨by linarith, le_rfl⟩
  -- scaled inverse
  have hD : ∀ (f f' : ℝ → ℝ) (c : ℝ) (x : ℝ), HasDerivAt f (f' x) x → HasDerivAt (fun y => (f y - c) / Δ) (f' x / Δ) x :=
    fun f f' c x hf => (hf.sub_const c).div_const Δ
  have hD' : ∀ (f f' : ℝ → ℝ) (x : ℝ), HasDerivAt f (f' x) x → HasDerivAt (fun y => f y / Δ) (f' x / Δ) x :=
    fun f f' x hf => hf.div_const Δ
  have val : ∀ k : ℝ, t + k * Δ ∈ Icc t (t + 3 * Δ) → (h (dist (t + k * Δ)) - t) / Δ = k := by
    intro k hk
    rw [hinv _ hk]; field_simp; ring
  have v0 : (h (dist t) - t) / Δ = 0 := by rw [hinv _ m0]; simp
  have v1 : (h (dist (t + Δ)) - t) / Δ = 1 := by rw [hinv _ m1]; field_simp; ring
  have v2 := val 2 m2
  have v3 := val 3 m3
  have bound : K / Δ * κ ^ 4 * g ^ 4 / 6 + 15 * (zeroTerm * S / g) * (1 + 2 * κ) =
      (K * κ ^ 4 * g ^ 4 / 6 + 15 * Δ * (zeroTerm * S / g) * (1 + 2 * κ)) / Δ := by field_simp
  rcases hmono with ⟨hm, hk⟩ | ⟨hm, hk⟩
  · have k0 := hk 0 (by norm_num)
    have k1 := hk 1 (by norm_num)
    have k2 := hk 2 (by norm_num)
    norm_num at k0 k1 k2
    have hd : dist (t + Δ) < rho ∧ rho ≤ dist (t + 2 * Δ) := by
      rcases lt_or_ge (dist (t + Δ)) rho with h' | h'
      · exact ⟨h', not_lt.mp (hx.mp h')⟩
      · exfalso
        exact absurd h' (not_le.mpr (hx.mpr (not_lt.mpr (by linarith))))
    -- the range of the distance is the interval between the end values
    have hrange : ∀ y ∈ Icc (dist t) (dist (t + 3 * Δ)), ∃ s ∈ Icc t (t + 3 * Δ), dist s = y := by
      intro y hy
      exact intermediate_value_Icc (by linarith) hcont hy
    obtain ⟨s, hs, hsr⟩ := intermediate_value_Icc (by linarith : t + Δ ≤ t + 2 * Δ)
      (hcont.mono (Icc_subset_Icc (by linarith) (by linarith))) ⟨hd.1.le, hd.2⟩
    have hs' : s ∈ Icc t (t + 3 * Δ) := ⟨by linarith [hs.1], by linarith [hs.2]⟩
    obtain ⟨hint, hval⟩ := integral_step (insideAt dist rho) (t + Δ) s (t + 2 * Δ) hs.1 hs.2 1 0
      (fun x hx => if_pos (by rw [← hsr]; exact hm ⟨by linarith [hx.1], by linarith [hx.2, hs.2]⟩ hs' hx.2))
      (fun x hx => if_neg (by
        rw [← hsr, not_lt]; exact (hm hs' ⟨by linarith [hx.1, hs.1], by linarith [hx.2]⟩ hx.1).le))
    refine ⟨hint, ?_⟩
    have est := estimate_inc (fun y => (h y - t) / Δ) (fun y => h1 y / Δ) (fun y => h2 y / Δ) (fun y => h3 y / Δ)
      (fun y => h4 y / Δ) lo hi zeroTerm S rho (dist t) (dist (t + Δ)) (dist (t + 2 * Δ)) (dist (t + 3 * Δ)) (K / Δ) g κ
      ε0 hg hS hgS k0.1 k1.1 k2.1 (by linarith [k0.2]) (by linarith [k1.2]) (by linarith [k2.2]) hd.1.le hd.2
      (fun y hy => by obtain ⟨u, hu, rfl⟩ := hrange y hy; exact hD _ _ _ _ (hder u hu).1)
      (fun y hy => by obtain ⟨u, hu, rfl⟩ := hrange y hy; exact hD' _ _ _ (hder u hu).2.1)
      (fun y hy => by obtain ⟨u, hu, rfl⟩ := hrange y hy; exact hD' _ _ _ (hder u hu).2.2.1)
      (fun y hy => by obtain ⟨u, hu, rfl⟩ := hrange y hy; exact hD' _ _ _ (hder u hu).2.2.2.1)
      (fun y hy => by
        obtain ⟨u, hu, rfl⟩ := hrange y hy
        rw [abs_div, abs_of_pos hΔ]; exact div_le_div_of_nonneg_right (hder u hu).2.2.2.2 hΔ.le)
      v0 v1 v2 v3
    rw [bound] at est
    have hhs : (h rho - t) / Δ = (s - t) / Δ := by rw [← hsr, hinv s hs']
    simp only [hhs] at est
    generalize cubicCore lo hi zeroTerm rho (dist t) (dist (t + Δ)) (dist (t + 2 * Δ)) (dist (t + 3 * Δ)) 0 1 2 3 = e at est ⊢
    have hw : cellWeight (inSource (dist (t + Δ)) rho) (inSource (dist (t + 2 * Δ)) rho) e = clip (e - 1) 0 1 := by
      rw [inSource_eq, inSource_eq, if_pos hd.1, if_neg (not_lt.mpr hd.2)]
      simp [cellWeight]
    rw [hw, hval]
    have hcl := clip_close (e - 1) ((s - t) / Δ - 1) (by rw [sub_nonneg, le_div_iff₀ hΔ]; linarith [hs.1])
      (by rw [sub_le_iff_le_add, div_le_iff₀ hΔ]; linarith [hs.2])
    rw [show e - 1 - ((s - t) / Δ - 1) = e - (s - t) / Δ by ring] at hcl
    have := hcl.trans est
    rw [le_div_iff₀ hΔ, ← abs_of_pos hΔ, ← abs_mul, abs_of_pos hΔ] at this
    refine le_of_eq_of_le (congrArg _ ?_) this
    field_simp; ring
  · have k0 := hk 0 (by norm_num)
    have k1 := hk 1 (by norm_num)
    have k2 := hk 2 (by norm_num)
    norm_num at k0 k1 k2
    have hd : rho ≤ dist (t + Δ) ∧ dist (t + 2 * Δ) < rho := by
      rcases lt_or_ge (dist (t + 2 * Δ)) rho with h' | h'
      · exact ⟨not_lt.mp fun h'' => hx.mp h'' h', h'⟩
      · exfalso
        have := hx.mpr (not_lt.mpr h')
        linarith
    have hrange : ∀ y ∈ Icc (dist (t + 3 * Δ)) (dist t), ∃ s ∈ Icc t (t + 3 * Δ), dist s = y := by
      intro y hy
      exact intermediate_value_Icc' (by linarith) hcont hy
    obtain ⟨s, hs, hsr⟩ := intermediate_value_Icc' (by linarith : t + Δ ≤ t + 2 * Δ)
      (hcont.mono (Icc_subset_Icc (by linarith) (by linarith))) ⟨hd.2.le, hd.1⟩
    have hs' : s ∈ Icc t (t + 3 * Δ) := ⟨by linarith [hs.1], by linarith [hs.2]⟩
    obtain ⟨hint, hval⟩ := integral_step (insideAt dist rho) (t + Δ) s (t + 2 * Δ) hs.1 hs.2 0 1
      (fun x hx => if_neg (by
        rw [← hsr, not_lt]; exact (hm ⟨by linarith [hx.1], by linarith [hx.2, hs.2]⟩ hs' hx.2).le))
      (fun x hx => if_pos (by
        rw [← hsr]; exact (hm hs' ⟨by linarith [hx.1, hs.1], by linarith [hx.2]⟩ hx.1)))
    refine ⟨hint, ?_⟩
    have est := estimate_dec (fun y => (h y - t) / Δ) (fun y => h1 y / Δ) (fun y => h2 y / Δ) (fun y => h3 y / Δ)
      (fun y => h4 y / Δ) lo hi zeroTerm S rho (dist t) (dist (t + Δ)) (dist (t + 2 * Δ)) (dist (t + 3 * Δ)) (K / Δ) g κ
      ε0 hg hS hgS k0.1 k1.1 k2.1 (by linarith [k0.2]) (by linarith [k1.2]) (by linarith [k2.2]) hd.1 hd.2.le
      (fun y hy => by obtain ⟨u, hu, rfl⟩ := hrange y hy; exact hD _ _ _ _ (hder u hu).1)
      (fun y hy => by obtain ⟨u, hu, rfl⟩ := hrange y hy; exact hD' _ _ _ (hder u hu).2.1)
      (fun y hy => by obtain ⟨u, hu, rfl⟩ := hrange y hy; exact hD' _ _ _ (hder u hu).2.2.1)
      (fun y hy => by obtain ⟨u, hu, rfl⟩ := hrange y hy; exact hD' _ _ _ (hder u hu).2.2.2.1)
      (fun y hy => by
        obtain ⟨u, hu, rfl⟩ := hrange y hy
        rw [abs_div, abs_of_pos hΔ]; exact div_le_div_of_nonneg_right (hder u hu).2.2.2.2 hΔ.le)
      v0 v1 v2 v3
    rw [bound] at est
    have hhs : (h rho - t) / Δ = (s - t) / Δ := by rw [← hsr, hinv s hs']
    simp only [hhs] at est
    generalize cubicCore lo hi zeroTerm rho (dist t) (dist (t + Δ)) (dist (t + 2 * Δ)) (dist (t + 3 * Δ)) 0 1 2 3 = e at est ⊢
    have hw : cellWeight (inSource (dist (t + Δ)) rho) (inSource (dist (t + 2 * Δ)) rho) e = clip (2 - e) 0 1 := by
      rw [inSource_eq, inSource_eq, if_neg (not_lt.mpr hd.1), if_pos hd.2]
      simp [cellWeight]
    rw [hw, hval]
    have hcl := clip_close (2 - e) (2 - (s - t) / Δ) (by rw [sub_nonneg, div_le_iff₀ hΔ]; linarith [hs.2])
      (by rw [sub_le_comm, le_div_iff₀ hΔ]; linarith [hs.1])
    rw [show 2 - e - (2 - (s - t) / Δ) = -(e - (s - t) / Δ) by ring, abs_neg] at hcl
    have := hcl.trans est
    rw [le_div_iff₀ hΔ, ← abs_of_pos hΔ, ← abs_mul, abs_of_pos hΔ] at this
    refine le_of_eq_of_le (congrArg _ ?_) this
    field_simp; ring

/-- The ring sum with the estimates of the crossings written out. -/
theorem processR_core (dist : ℝ → ℝ) (rho r0 α β : ℝ) (M : ℕ) (hM : 4 ≤ M) :
    ∃ i k : ℕ, i < M ∧ k < M ∧ processR dist rho r0 (linspace α β M) =
      ∑ j ∈ Finset.range (M - 3), r0 * (spacing α β M *
        cellWeight (inSource (dist (node α β M (j + 1))) rho) (inSource (dist (node α β M (j + 2))) rho)
          (cubicCore (dist (node α β M i)) (dist (node α β M k)) zeroTerm rho (dist (node α β M j))
            (dist (node α β M (j + 1))) (dist (node α β M (j + 2))) (dist (node α β M (j + 3))) 0 1 2 3)) := by
  set ds := (linspace α β M).map dist with hds
  have hl : ds.length = M := by rw [hds, List.length_map, length_linspace]
  set all := slice 0 3 ds ++ slice 1 2 ds ++ slice 2 1 ds ++ slice 3 0 ds with hall
  have hne : all ≠ [] := by
    intro h
    have := congrArg List.length h
    simp only [hall, List.length_append, length_slice, hl, List.length_nil] at this
    omega
  have hmem : ∀ y ∈ all, ∃ i < M, y = dist (node α β M i) := by
    intro y hy
    have hy' : y ∈ ds := by
      simp only [hall, List.mem_append, slice] at hy
      rcases hy with ((hy | hy) | hy) | hy <;> exact List.mem_of_mem_drop (List.mem_of_mem_take hy)
    obtain ⟨i, hi, rfl⟩ := List.getElem_of_mem hy'
    refine ⟨i, by rwa [hl] at hi, ?_⟩
    simp only [hds, List.getElem_map, getElem_linspace, node]
  obtain ⟨i, hi, hi'⟩ := hmem _ (Jnp.amin_mem hne)
  obtain ⟨k, hk, hk'⟩ := hmem _ (Jnp.amax_mem hne)
  refine ⟨i, k, hi, hk, ?_⟩
  simp only [processR, linspace_step _ _ _ (by omega : 2 ≤ M), ← hds, cubicInterpArray, ← hall, hi', hk']
  rw [sum_eq_range]
  have hlen : ((((slice 1 2 (ds.map fun d => inSource d rho)).zip (slice 2 1 (ds.map fun d => inSource d rho))).zip
      ((((slice 0 3 ds).zip (slice 1 2 ds)).zip ((slice 2 1 ds).zip (slice 3 0 ds))).map fun c =>
        cubicCore (dist (node α β M i)) (dist (node α β M k)) zeroTerm rho c.1.1 c.1.2 c.2.1 c.2.2 0 1 2 3)).length) =
      M - 3 := by
    simp only [List.length_zip, length_slice, List.length_map, hl]
    omega
  rw [List.length_map, hlen]
  refine Finset.sum_congr rfl fun j hj => ?_
  have hj' := Finset.mem_range.mp hj
  rw [List.getD_eq_getElem _ _ (by rw [List.length_map, hlen]; exact hj')]
  simp only [List.getElem_map, List.getElem_zip, getElem_slice, hds, getElem_linspace, node]
  rw [Nat.add_comm 1 j, Nat.add_comm 2 j, Nat.add_comm 3 j, Nat.zero_add, mul_assoc]

/-- **C84**: on a ring whose limb crossings are transversal, the angular sum of `mag_uniform` equals `r0` times the total
angle inside the source between the second and the last but one sample, up to, for every crossing,
`K κ⁴ g⁴ / 6` (fourth order in the sample spacing) and `15 Δ · 1e-10 · (S / g) (1 + 2κ)` from the code's epsilon. -/
theorem C84_ring (dist : ℝ → ℝ) (rho r0 α β g κ K S : ℝ) (M : ℕ) (hM : 4 ≤ M) (hαβ : α < β) (hr : 0 ≤ r0) (hg : 0 < g)
    (hS : ∀ i k : ℕ, i < M → k < M → dist (node α β M k) - dist (node α β M i) ≤ S) (hS0 : 1 / 10 ^ 10 ≤ S)
    (hgS : S ≤ 10 ^ 9 * g)
    (hfull : ∀ j : ℕ, j < M - 3 → (dist (node α β M (j + 1)) < rho ↔ dist (node α β M (j + 2)) < rho) →
      ∀ t ∈ Ioo (node α β M (j + 1)) (node α β M (j + 2)), (dist t < rho ↔ dist (node α β M (j + 1)) < rho))
    (hcross : ∀ j : ℕ, j < M - 3 → (dist (node α β M (j + 1)) < rho ↔ ¬ dist (node α β M (j + 2)) < rho) →
      SmoothCrossing dist (node α β M j) (spacing α β M) g κ K) :
    |processR dist rho r0 (linspace α β M) -
        r0 * ∫ t in (node α β M 1)..(node α β M (M - 2)), insideAt dist rho t| ≤
      r0 * (((Finset.range (M - 3)).filter fun j =>
          (dist (node α β M (j + 1)) < rho ↔ ¬ dist (node α β M (j + 2)) < rho)).card *
        (K * κ ^ 4 * g ^ 4 / 6 + 15 * spacing α β M * (1 / 10 ^ 10 * S / g) * (1 + 2 * κ))) := by
  obtain ⟨i, k, hi, hk, hsum⟩ := processR_core dist rho r0 α β M hM
  have hM' : (4 : ℝ) ≤ M := by exact_mod_cast hM
  have hΔ : 0 < spacing α β M := by
    unfold spacing; exact div_pos (by linarith) (by linarith)
  set Δ := spacing α β M with hΔd
  have nd : ∀ j c : ℕ, node α β M (j + c) = node α β M j + c * Δ := by
    intro j c; simp only [node, ← hΔd]; push_cast; ring
  have n1 : ∀ j : ℕ, node α β M (j + 1) = node α β M j + Δ := fun j => by rw [nd]; push_cast; ring
  have n2 : ∀ j : ℕ, node α β M (j + 2) = node α β M j + 2 * Δ := fun j => by rw [nd]; push_cast; ring
  have n3 : ∀ j : ℕ, node α β M (j + 3) = node α β M j + 3 * Δ := fun j => by rw [nd]; push_cast; ring
  set E := K * κ ^ 4 * g ^ 4 / 6 + 15 * Δ * (1 / 10 ^ 10 * S / g) * (1 + 2 * κ) with hE
  set w : ℕ → ℝ := fun j => Δ *
    cellWeight (inSource (dist (node α β M (j + 1))) rho) (inSource (dist (node α β M (j + 2))) rho)
      (cubicCore (dist (node α β M i)) (dist (node α β M k)) zeroTerm rho (dist (node α β M j))
        (dist (node α β M (j + 1))) (dist (node α β M (j + 2))) (dist (node α β M (j + 3))) 0 1 2 3) with hw
  -- one cell
  have cell : ∀ j < M - 3, IntervalIntegrable (insideAt dist rho) volume (node α β M (j + 1)) (node α β M (j + 2)) ∧
      |w j - ∫ t in (node α β M (j + 1))..(node α β M (j + 2)), insideAt dist rho t| ≤
        if (dist (node α β M (j + 1)) < rho ↔ ¬ dist (node α β M (j + 2)) < rho) then E else 0 := by
    intro j hj
    by_cases hx : (dist (node α β M (j + 1)) < rho ↔ ¬ dist (node α β M (j + 2)) < rho)
    · rw [if_pos hx]
      have hc := hcross j hj hx
      simp only [hw]
      rw [n1 j, n2 j] at hx
      rw [n1 j, n2 j, n3 j]
      exact cell_crossing dist rho (node α β M j) Δ g κ K _ _ S hΔ hg
        (max_le (hS i k hi hk) (by rw [zeroTerm]; exact hS0)) (by rw [zeroTerm]; linarith) hc hx
    · rw [if_neg hx]
      have hsame : dist (node α β M (j + 1)) < rho ↔ dist (node α β M (j + 2)) < rho := by tauto
      have hf := hfull j hj hsame
      have hle : node α β M (j + 1) ≤ node α β M (j + 2) := by rw [n1 j, n2 j]; linarith
      obtain ⟨hint, hval⟩ := integral_step (insideAt dist rho) (node α β M (j + 1)) (node α β M (j + 1))
        (node α β M (j + 2)) le_rfl hle 0 (if dist (node α β M (j + 1)) < rho then 1 else 0)
        (fun x hx => absurd hx.2 (not_lt.mpr hx.1.le)) (fun x hx => by
          simp only [insideAt]
          by_cases hd : dist (node α β M (j + 1)) < rho
          · rw [if_pos hd, if_pos ((hf x hx).mpr hd)]
          · rw [if_neg hd, if_neg (fun h => hd ((hf x hx).mp h))])
      refine ⟨hint, le_of_eq ?_⟩
      rw [hval, hw]
      simp only
      rw [cellWeight_same _ _ _ _ hsame, show node α β M (j + 2) - node α β M (j + 1) = Δ by rw [n1 j, n2 j]; ring]
      rw [abs_eq_zero]; ring
  have hadd : ∑ j ∈ Finset.range (M - 3), ∫ t in (node α β M (j + 1))..(node α β M (j + 1 + 1)), insideAt dist rho t =
      ∫ t in (node α β M (0 + 1))..(node α β M (M - 3 + 1)), insideAt dist rho t :=
    intervalIntegral.sum_integral_adjacent_intervals (a := fun j => node α β M (j + 1)) fun j hj => (cell j hj).1
  rw [show M - 3 + 1 = M - 2 by omega, Nat.zero_add] at hadd
  rw [hsum, ← hadd, ← Finset.mul_sum, ← mul_sub, abs_mul, abs_of_nonneg hr, ← Finset.sum_sub_distrib]
  refine mul_le_mul_of_nonneg_left ?_ hr
  refine (Finset.abs_sum_le_sum_abs _ _).trans ?_
  refine (Finset.sum_le_sum fun j hj => (cell j (Finset.mem_range.mp hj)).2).trans (le_of_eq ?_)
  rw [← Finset.sum_filter, Finset.sum_const, nsmul_eq_mul]

/-! ## Limb-darkened source: boundary cells -/

/-- **C84**, limb-darkened source, entering crossing at `e1` between the samples 1 and 2: for a brightness that grows from
the limb like a square root, the weight of the cell of sample 2 is the integral of the brightness from the limb (moved
outwards by the code's `1e-10`) to the far edge of the cell. -/
theorem C84_limb_entering (d1 d2 d3 rho e1 e2 c delta_c : ℝ) (h1 : rho ≤ d1) (h2 : d2 < rho) (h3 : d3 < rho)
    (he : 1 ≤ e1) (he' : e1 ≤ 2) (hc : delta_c < 2 - (e1 - 1 / 10 ^ 10)) :
    cellWeightLD (inSource d1 rho) (inSource d2 rho) (inSource d3 rho) e1 e2
        (c * Real.sqrt (2 - (e1 - 1 / 10 ^ 10))) delta_c =
      ∫ t in (e1 - 1 / 10 ^ 10)..(5 / 2), c * Real.sqrt (t - (e1 - 1 / 10 ^ 10)) := by
  have hz : zeroTerm = 1 / 10 ^ 10 := rfl
  have hcl : clip (2 - e1) 0 1 = 2 - e1 := by
    rw [clip, max_eq_left (by linarith), min_eq_left (by linarith)]
  rw [inSource_eq, inSource_eq, inSource_eq, if_neg (not_lt.mpr h1), if_pos h2, if_pos h3]
  simp only [cellWeightLD, hcl, hz]
  have hq := C36_quadrature (2 - e1 + 1 / 10 ^ 10) delta_c (by norm_num; linarith) (by linarith)
  rw [intervalIntegral.integral_const_mul, intervalIntegral.integral_comp_sub_right (fun x => Real.sqrt x)]
  rw [sub_self (e1 - 1 / 10 ^ 10), show (5 : ℝ) / 2 - (e1 - 1 / 10 ^ 10) = 2 - e1 + 1 / 10 ^ 10 + 1 / 2 by ring, ← hq]
  rw [show 2 - (e1 - 1 / 10 ^ 10) = 2 - e1 + 1 / 10 ^ 10 by ring]
  ring

/-- **C84**, limb-darkened source, leaving crossing at `e2` (in the code's count, sample 2 is at 1 and sample 3 at 2). -/
theorem C84_limb_leaving (d1 d2 d3 rho e1 e2 c delta_c : ℝ) (h1 : d1 < rho) (h2 : d2 < rho) (h3 : rho ≤ d3)
    (he : 1 ≤ e2) (he' : e2 ≤ 2) (hc : delta_c < e2 + 1 / 10 ^ 10 - 1) :
    cellWeightLD (inSource d1 rho) (inSource d2 rho) (inSource d3 rho) e1 e2
        (c * Real.sqrt (e2 + 1 / 10 ^ 10 - 1)) delta_c =
      ∫ t in (1 / 2 : ℝ)..(e2 + 1 / 10 ^ 10), c * Real.sqrt (e2 + 1 / 10 ^ 10 - t) := by
  have hz : zeroTerm = 1 / 10 ^ 10 := rfl
  have hcl : clip (e2 - 1) 0 1 = e2 - 1 := by
    rw [clip, max_eq_left (by linarith), min_eq_left (by linarith)]
  rw [inSource_eq, inSource_eq, inSource_eq, if_pos h1, if_pos h2, if_neg (not_lt.mpr h3)]
  simp only [cellWeightLD, hcl, hz]
  have hq := C36_quadrature (e2 - 1 + 1 / 10 ^ 10) delta_c (by norm_num; linarith) (by linarith)
  rw [intervalIntegral.integral_const_mul, intervalIntegral.integral_comp_sub_left (fun x => Real.sqrt x)]
  rw [sub_self (e2 + 1 / 10 ^ 10), show e2 + 1 / 10 ^ 10 - 1 / 2 = e2 - 1 + 1 / 10 ^ 10 + 1 / 2 by ring, ← hq]
  rw [show e2 + 1 / 10 ^ 10 - 1 = e2 - 1 + 1 / 10 ^ 10 by ring]
  ring

/-- The hypotheses with a crossing a quarter of a cell from the sample. -/
example : cellWeightLD (inSource 2 1) (inSource (1 / 2) 1) (inSource (1 / 4) 1) (7 / 4) 0
    (3 * Real.sqrt (2 - (7 / 4 - 1 / 10 ^ 10))) (1 / 100) =
      ∫ t in (7 / 4 - 1 / 10 ^ 10 : ℝ)..(5 / 2), 3 * Real.sqrt (t - (7 / 4 - 1 / 10 ^ 10)) :=
  C84_limb_entering _ _ _ _ _ _ _ _ (by norm_num) (by norm_num) (by norm_num) (by norm_num) (by norm_num) (by norm_num)

/-! ## Example for the ring -/

/-- C84 applies: on the ring with `dist t = √(1+t)` and eight samples `0, …, 7`, a source of radius `√(9/2)` is left at
`t = 7/2`, and the sum is right to one part in a million. -/
example : |processR (fun t => Real.sqrt (1 + t)) (Real.sqrt (9 / 2)) 1 (linspace 0 7 8) -
    1 * ∫ t in (node 0 7 8 1)..(node 0 7 8 (8 - 2)), insideAt (fun t => Real.sqrt (1 + t)) (Real.sqrt (9 / 2)) t| ≤
      1 / 10 ^ 6 := by
  have hsp : spacing 0 7 8 = 1 := by norm_num [spacing]
  have hn : ∀ j : ℕ, node 0 7 8 j = j := by intro j; simp [node, hsp]
  have lt_iff : ∀ t : ℝ, (Real.sqrt (1 + t) < Real.sqrt (9 / 2) ↔ t < 7 / 2) := by
    intro t
    rw [Real.sqrt_lt_sqrt_iff_of_pos (by norm_num)]
    constructor <;> intro h <;> linarith
  have cross : ∀ j : ℕ, (((j + 1 : ℕ) : ℝ) < 7 / 2 ↔ ¬ ((j + 2 : ℕ) : ℝ) < 7 / 2) → j = 2 := by
    intro j hj
    push_cast at hj
    by_contra hne
    rcases lt_or_gt_of_ne hne with h | h
    · have : (j : ℝ) ≤ 1 := by exact_mod_cast Nat.lt_succ_iff.mp h
      exact hj.mp (by linarith) (by linarith)
    · have : (3 : ℝ) ≤ j := by exact_mod_cast h
      have := hj.mpr (by linarith)
      linarith
  have h := C84_ring (fun t => Real.sqrt (1 + t)) (Real.sqrt (9 / 2)) 1 0 7 (1 / 5) (3 / 2) 0 3 8 (by norm_num)
    (by norm_num) zero_le_one (by norm_num) (by
      intro i k hi hk
      simp only [hn]
      have h1 : Real.sqrt (1 + k) ≤ 3 := by
        rw [Real.sqrt_le_iff]
        have : (k : ℝ) ≤ 8 := by exact_mod_cast hk.le
        constructor <;> linarith
      have := Real.sqrt_nonneg (1 + (i : ℝ))
      linarith) (by norm_num) (by norm_num) (by
      intro j _ hs t ht
      simp only [hn, lt_iff] at hs ht ⊢
      push_cast at hs ht ⊢
      constructor
      · intro h'; linarith [ht.1]
      · intro h'
        have := hs.mp h'
        linarith [ht.2]) (by
      intro j _ hx
      simp only [hn, lt_iff] at hx
      rw [cross j hx, hsp, hn]
      have sq : ∀ s ∈ Icc (((2 : ℕ) : ℝ)) (((2 : ℕ) : ℝ) + 3 * 1), Real.sqrt (1 + s) ^ 2 - 1 = s := by
        intro s hs
        rw [Real.sq_sqrt (by have := hs.1; norm_num at this; linarith)]; ring
      refine ⟨by fun_prop, fun y => y ^ 2 - 1, fun y => 2 * y, fun _ => 2, fun _ => 0, fun _ => 0, sq, ?_, Or.inl ⟨?_, ?_⟩⟩
      · intro s _
        refine ⟨?_, ?_, hasDerivAt_const _ _, hasDerivAt_const _ _, by simp⟩
        · refine ((hasDerivAt_pow 2 _).sub_const 1).congr_deriv ?_
          norm_num
        · exact ((hasDerivAt_id _).const_mul 2).congr_deriv (by norm_num)
      · intro a ha b hb hab
        have h1 := ha.1
        norm_num at h1
        exact Real.sqrt_lt_sqrt (by linarith) (by linarith)
      · have b3 : (173 / 100 : ℝ) ≤ Real.sqrt 3 ∧ Real.sqrt 3 ≤ 174 / 100 :=
          ⟨Real.le_sqrt_of_sq_le (by norm_num), Real.sqrt_le_iff.mpr ⟨by norm_num, by norm_num⟩⟩
        have b4 : Real.sqrt 4 = 2 := by rw [show (4 : ℝ) = 2 ^ 2 by norm_num, Real.sqrt_sq (by norm_num)]
        have b5 : (223 / 100 : ℝ) ≤ Real.sqrt 5 ∧ Real.sqrt 5 ≤ 224 / 100 :=
          ⟨Real.le_sqrt_of_sq_le (by norm_num), Real.sqrt_le_iff.mpr ⟨by norm_num, by norm_num⟩⟩
        have b6 : (2445 / 1000 : ℝ) ≤ Real.sqrt 6 ∧ Real.sqrt 6 ≤ 245 / 100 :=
          ⟨Real.le_sqrt_of_sq_le (by norm_num), Real.sqrt_le_iff.mpr ⟨by norm_num, by norm_num⟩⟩
        intro k hk
        interval_cases k
        · norm_num [b4]; constructor <;> linarith [b3.1, b3.2]
        · norm_num [b4]; constructor <;> linarith [b5.1, b5.2]
        · norm_num; constructor <;> linarith [b5.1, b5.2, b6.1, b6.2])
  refine h.trans ?_
  rw [hsp]
  have hc : ((((Finset.range (8 - 3)).filter fun j => (Real.sqrt (1 + node 0 7 8 (j + 1)) < Real.sqrt (9 / 2) ↔
      ¬ Real.sqrt (1 + node 0 7 8 (j + 2)) < Real.sqrt (9 / 2))).card : ℕ) : ℝ) ≤ 5 := by
    have := Finset.card_filter_le (Finset.range (8 - 3)) fun j => (Real.sqrt (1 + node 0 7 8 (j + 1)) < Real.sqrt (9 / 2) ↔
      ¬ Real.sqrt (1 + node 0 7 8 (j + 2)) < Real.sqrt (9 / 2))
    rw [Finset.card_range] at this
    exact_mod_cast this
  rw [one_mul]
  exact (mul_le_mul_of_nonneg_right hc (by norm_num)).trans (by norm_num)

end Microjax.Props
