import Verif.Props.ContourTracks
import Verif.Props.TrackOrder
import Verif.Lemmas.ContourGreen
import Verif.Lemmas.PolygonContour
import Mathlib.Analysis.Real.Pi.Bounds

/-!
# The contour method away from the caustics: from the limb samples to the area of the images
-/

set_option linter.unusedVariables false

noncomputable section

namespace Microjax.Props

open Complex ComplexConjugate Microjax.Spec Segments Jnp Utils Contour PointSource Limb MeasureTheory Set

/-- A closed source disc that meets no caustic is contained in a larger open disc that meets none. -/
theorem regular_disc (L : Lenses) (hm : ∀ l ∈ L, l.1 ≠ 0) (hL : (L.map Prod.snd).Nodup) (w : ℂ) (rho : ℝ) (hrho : 0 ≤ rho)
    (h : ∀ z, (∀ l ∈ L, z ≠ l.2) → jacDet (lensMap L) z = 0 → rho < ‖lensMap L z - w‖) :
    ∃ R, rho < R ∧ ∀ y ∈ Metric.ball w R, ∀ z, IsImage L y z → ‖shear L z‖ ≠ 1 := by
  set G : Set ℂ := {y | ∀ z, IsImage L y z → ‖shear L z‖ ≠ 1} with hG
  have hopen : IsOpen G := by
    rw [isOpen_iff_mem_nhds]
    intro y hy
    have hU : IsOpen {z : ℂ | (∀ l ∈ L, z ≠ l.2) ∧ ‖shear L z‖ ≠ 1} := by
      rw [isOpen_iff_mem_nhds]
      rintro z ⟨h1, h2⟩
      filter_upwards [(isOpen_offLens L).mem_nhds h1,
        (continuousAt_shear L z h1).norm.eventually (isOpen_ne.mem_nhds h2)] with x k1 k2 using ⟨k1, k2⟩
    filter_upwards [images_upper L hm hL y _ hU fun z hz => ⟨hz.1, hy z hz⟩] with x hx z hz using (hx z hz).2
  have hsub : Metric.closedBall w rho ⊆ G := by
    intro y hy z hz hs
    have h1 := h z hz.1 ((shear_eq_one_iff' L z hz.1).mpr hs)
    rw [hz.2, ← dist_eq_norm] at h1
    exact absurd (Metric.mem_closedBall.mp hy) (not_le.mpr h1)
  obtain ⟨δ, hδ, hth⟩ := (isCompact_closedBall w rho).exists_thickening_subset_open hopen hsub
  rw [thickening_closedBall hδ hrho] at hth
  exact ⟨δ + rho, by linarith, fun y hy => hth hy⟩
where
  shear_eq_one_iff' (L : Lenses) (z : ℂ) (hz : ∀ l ∈ L, z ≠ l.2) : jacDet (lensMap L) z = 0 ↔ ‖shear L z‖ = 1 := by
    have e : jacDet (lensMap L) z = 1 - ‖shear L z‖ ^ 2 := by rw [(jacDet_lensMap L z hz).2]; rfl
    rw [e]
    constructor
    · intro h
      exact (pow_eq_one_iff_of_nonneg (norm_nonneg _) two_ne_zero).mp (by linarith)
    · intro h; rw [h]; norm_num

/-- If every track is either closed with real samples throughout or nulled throughout, the contour sum is the sum of the
terms of the tracks. -/
theorem contourSum_closed (N n : ℕ) (rows : List (List (Pt3 ℝ))) (hN : 0 < N) (hn : 0 < n) (hrows : rows ≠ [])
    (hlen : ∀ t ∈ rows, t.length = N)
    (h : ∀ t ∈ rows, (isClosed t = true ∧ ∀ s ∈ t, s.m = 1) ∨ t = List.replicate N 0) :
    contourSum geometry integrateUnif n rows = (rows.map fun t => contourTerm (samples t)).sum := by
  have hz : isClosed (List.replicate N (0 : Pt3 ℝ)) = false := by
    obtain ⟨N, rfl⟩ := Nat.exists_eq_succ_of_ne_zero hN.ne'
    unfold isClosed
    simp [List.replicate_succ]
    intro _ h
    exact absurd rfl h
  have hopen : ∀ t ∈ rows, isClosed t = false → t = List.replicate N 0 := by
    intro t ht hc
    rcases h t ht with ⟨h1, -⟩ | h1
    · rw [h1] at hc; exact absurd hc (by simp)
    · exact h1
  have hruns : runs (List.replicate N (0 : Pt3 ℝ)) = [] := by
    have : ∀ (n o : ℕ), runsFrom o (List.replicate n (0 : Pt3 ℝ)) = [] := by
      intro n
      induction n with
      | zero => intro o; rfl
      | succ n ih => intro o; rw [List.replicate_succ, runsFrom_cons_invalid _ _ _ rfl, ih]
    unfold runs; rw [this]; rfl
  have hlong : longRuns rows = [] := by
    unfold longRuns
    have : (rows.filter fun t => !isClosed t).flatMap runs = [] := by
      rw [List.flatMap_eq_nil_iff]
      intro t ht
      rw [List.mem_filter] at ht
      rw [hopen t ht.1 (by simpa using ht.2), hruns]
    rw [this]; rfl
  obtain ⟨used, left, h1, -, -, h4⟩ := C77_contour_sum N n rows hN hn hrows hlen
    (by
      intro t ht s hs
      rcases h t ht with ⟨-, h1⟩ | rfl
      · exact Or.inr (h1 s hs)
      · exact Or.inl (List.eq_of_mem_replicate hs))
    (by
      intro t ht hc
      rw [hopen t ht hc]
      refine ⟨fun s hs hm => absurd (by rw [List.eq_of_mem_replicate hs]; rfl) hm,
        fun s hs hm => absurd (by rw [List.eq_of_mem_replicate hs]; rfl) hm, ?_⟩
      rw [List.isChain_iff_getElem]
      intro i hi h1
      exact absurd (by rw [List.getElem_replicate]; rfl) h1)
    (by intro t ht hc; rw [hopen t ht hc, hruns]; simp)
    (by rw [hlong]; simp) (by rw [hlong]; simp; omega)
  rw [hlong, List.perm_nil, List.append_eq_nil_iff, List.map_eq_nil_iff] at h4
  have hused : (used.map fun u => contourTerm (chain u)).sum = 0 := by
    apply List.sum_eq_zero
    intro x hx
    obtain ⟨u, hu, rfl⟩ := List.mem_map.1 hx
    have : u = [] := by
      have := List.flatten_eq_nil_iff.mp h4.1 u hu
      exact this
    rw [this]
    simp [chain, contourTerm, vertices, polygonArea]
  rw [h1, hused, add_zero, List.map_map]
  clear h1 hused h4 hlong hrows
  induction rows with
  | nil => rfl
  | cons t ts ih =>
    have ih' := ih (fun t ht => hlen t (List.mem_cons_of_mem _ ht)) (fun t ht => h t (List.mem_cons_of_mem _ ht))
      (fun t ht => hopen t (List.mem_cons_of_mem _ ht))
    rw [List.map_cons, List.sum_cons, ← ih']
    by_cases hc : isClosed t
    · rw [List.filter_cons_of_pos hc, List.map_cons, List.sum_cons]
      rfl
    · rw [List.filter_cons_of_neg hc, hopen t (by simp) (by simpa using hc)]
      have : contourTerm (samples (List.replicate N (0 : Pt3 ℝ))) = 0 := by
        unfold contourTerm samples
        rw [List.map_replicate]
        have : ((List.replicate N (⟨(0 : Pt3 ℝ).x, (0 : Pt3 ℝ).y, (0 : Pt3 ℝ).p⟩ : Pt ℝ)).headD 0).p = 0 := by
          cases N <;> rfl
        rw [this, zero_mul]
      rw [this, zero_add]

/-- A column of the limb arrays holds the branches, shifted at most by the random numbers. -/
theorem column_branches {d : ℕ} (r : Fin d → ℂ) (m : Fin d → Bool) (det : ℂ → ℝ) (nz : ℕ → ℝ) (ν : ℝ) (hν0 : 0 ≤ ν)
    (hν : ∀ i, |nz i| ≤ ν) (hr : Function.Injective r) (l : List (ℂ × Bool))
    (hl : l.Perm (List.ofFn fun j => (r j, m j))) (c : List (ℂ × Bool × ℝ)) (hcl : c.length = d)
    (hc : ∀ (i : ℕ) z b p, c[i]? = some (z, b, p) → ∃ z0, (triples det l)[i]? = some (z0, b, p) ∧
      (z = z0 ∨ z = z0 + (nz i : ℂ))) :
    ∃ X : Fin d → ℂ × Bool × ℝ, c.Perm (List.ofFn X) ∧ ∀ j, ‖(X j).1 - r j‖ ≤ ν ∧
      (X j).2 = (m j, ((SignType.sign (det (r j)) : SignType) : ℝ)) := by
  obtain ⟨τ, hτ⟩ := perm_ofFn (fun j => (r j, m j)) (fun i j h => hr (by simpa using (Prod.ext_iff.mp h).1)) l hl
  refine ⟨fun j => c[(τ.symm j).1]'(by omega), ?_, fun j => ?_⟩
  · have e : c = List.ofFn fun i : Fin d => c[i.1]'(by omega) := by
      apply List.ext_getElem
      · rw [List.length_ofFn, hcl]
      · intro i h1 h2
        rw [List.getElem_ofFn]
    have h2 := Equiv.Perm.ofFn_comp_perm τ.symm (fun i : Fin d => c[i.1]'(by omega))
    exact (List.Perm.of_eq e).trans h2.symm
  · set i := (τ.symm j).1 with hi
    have hid : i < d := (τ.symm j).2
    obtain ⟨z0, h1, h2⟩ := hc i _ _ _ (List.getElem?_eq_getElem (by omega))
    unfold triples at h1
    rw [List.getElem?_map, hτ, List.getElem?_ofFn, dif_pos hid] at h1
    have hτi : τ ⟨i, hid⟩ = j := by
      have : (⟨i, hid⟩ : Fin d) = τ.symm j := Fin.ext rfl
      rw [this, Equiv.apply_symm_apply]
    simp only [hτi, Option.map_some, Option.some.injEq, Prod.mk.injEq] at h1
    obtain ⟨h3, h4, h5⟩ := h1
    refine ⟨?_, Prod.ext h4.symm h5.symm⟩
    change ‖(c.get ⟨i, by omega⟩).1 - r j‖ ≤ ν
    rcases h2 with h2 | h2
    · rw [h2, h3, sub_self, norm_zero]; exact hν0
    · rw [h2, h3, add_sub_cancel_left, norm_real, Real.norm_eq_abs]; exact hν i

/-- The angles of the limb samples, closed by `π`. -/
theorem limb_angles (seq : List ℝ → List (List (ℂ × Bool))) (fn : ℝ → List ℂ → List (ℂ × Bool)) (m : ℕ) (Q : List Sample)
    (hQ : LimbSampling seq fn m Q) (hm : 2 ≤ m) (hmax : m ≤ 10 ^ 8) (h : ℝ) (hh : h = 2 * Real.pi / ((m - 1 : ℕ) : ℝ)) :
    ∃ θ : ℕ → ℝ, 0 < Q.length ∧ θ 0 = -Real.pi ∧ θ Q.length = Real.pi ∧ θ (Q.length - 1) = Real.pi - 1 / 10 ^ 8 ∧
      (∀ k q, Q[k]? = some q → q.1 = θ k) ∧ (∀ k ≤ Q.length, θ k ∈ Icc (-Real.pi) Real.pi) ∧
      ∀ k < Q.length, θ k ≤ θ (k + 1) ∧ θ (k + 1) - θ k ≤ h := by
  have hmem : ∀ q ∈ Q, ∃ k, ∃ hk : k < Q.length, Q[k] = q := fun q hq => List.getElem_of_mem hq
  have hlt : ∀ i j (hi : i < Q.length) (hj : j < Q.length), i < j → Q[i].1 < Q[j].1 := fun i j hi hj hij =>
    List.pairwise_iff_getElem.mp hQ.sorted i j hi hj hij
  have hle : ∀ i j (hi : i < Q.length) (hj : j < Q.length), i ≤ j → Q[i].1 ≤ Q[j].1 := fun i j hi hj hij => by
    rcases hij.lt_or_eq with h | h
    · exact (hlt i j hi hj h).le
    · subst h; exact le_rfl
  obtain ⟨q0, hq0, hq0'⟩ := hQ.hasFirst
  obtain ⟨k0, hk0, hk0'⟩ := hmem q0 hq0
  obtain ⟨q1, hq1, hq1'⟩ := hQ.hasLast
  obtain ⟨k1, hk1, hk1'⟩ := hmem q1 hq1
  have hN : 0 < Q.length := by omega
  have hfirst : Q[0].1 = -Real.pi := by
    refine le_antisymm ?_ (hQ.ends _ (List.getElem_mem _)).1
    rw [← hq0', ← hk0']; exact hle 0 k0 hN hk0 (Nat.zero_le _)
  have hlast : (Q[Q.length - 1]'(by omega)).1 = Real.pi - 1 / 10 ^ 8 := by
    refine le_antisymm (hQ.ends _ (List.getElem_mem _)).2 ?_
    rw [← hq1', ← hk1']; exact hle k1 _ hk1 (by omega) (by omega)
  have hpi := Real.pi_pos
  have hsmall : (1 : ℝ) / 10 ^ 8 ≤ h := by
    have h1 : (0 : ℝ) < ((m - 1 : ℕ) : ℝ) := by exact_mod_cast (by omega : 0 < m - 1)
    have h2 : ((m - 1 : ℕ) : ℝ) ≤ 10 ^ 8 := by exact_mod_cast (by omega : m - 1 ≤ 10 ^ 8)
    rw [hh, le_div_iff₀ h1]
    have h3 : (1 : ℝ) / 10 ^ 8 * ((m - 1 : ℕ) : ℝ) ≤ 1 := by
      rw [div_mul_eq_mul_div, one_mul]
      exact (div_le_one (by norm_num)).mpr h2
    have := Real.pi_gt_three
    linarith
  refine ⟨fun k => if hk : k < Q.length then Q[k].1 else Real.pi, hN, ?_, ?_, ?_, ?_, ?_, ?_⟩
  · simp only [dif_pos hN, hfirst]
  · simp
  · simp only [dif_pos (by omega : Q.length - 1 < Q.length), hlast]
  · intro k q hq
    obtain ⟨hk, rfl⟩ := List.getElem?_eq_some_iff.1 hq
    simp only [dif_pos hk]
  · intro k hk
    simp only
    split_ifs with h
    · have := hQ.ends _ (List.getElem_mem h)
      refine ⟨this.1, this.2.trans ?_⟩
      have : (0 : ℝ) < 1 / 10 ^ 8 := by norm_num
      linarith
    · exact ⟨by linarith, le_rfl⟩
  · intro k hk
    simp only [dif_pos hk]
    split_ifs with h'
    · have h1 := hlt k (k + 1) hk h' (by omega)
      refine ⟨h1.le, ?_⟩
      obtain ⟨q', hq', h2, h3⟩ := hQ.gaps _ (List.getElem_mem hk) (h1.trans_le (hQ.ends _ (List.getElem_mem h')).2)
      obtain ⟨k', hk', rfl⟩ := hmem q' hq'
      have hkk : k < k' := by
        by_contra hcon
        exact absurd h2 (not_lt.mpr (hle k' k hk' hk (by omega)))
      have := hle (k + 1) k' h' hk' (by omega)
      rw [← hh] at h3
      linarith
    · have hk' : k = Q.length - 1 := by omega
      subst hk'
      rw [hlast]
      have : (0 : ℝ) < 1 / 10 ^ 8 := by norm_num
      exact ⟨by linarith, by linarith⟩

/-- A continuous curve that always is one of finitely many separated continuous branches is one of the branches. -/
theorem follows_branch {d : ℕ} (r : Fin d → ℝ → ℂ) (z : ℝ → ℂ) (a b δ : ℝ) (hab : a ≤ b) (hδ : 0 < δ)
    (hr : ∀ j, ContinuousOn (r j) (Icc a b)) (hz : ContinuousOn z (Icc a b))
    (hap : ∀ t ∈ Icc a b, ∀ i j, i ≠ j → δ ≤ ‖r i t - r j t‖) (h : ∀ t ∈ Icc a b, ∃ j, z t = r j t) (t0 : ℝ)
    (ht0 : t0 ∈ Icc a b) (j : Fin d) (hj : z t0 = r j t0) : ∀ t ∈ Icc a b, z t = r j t := by
  intro t ht
  set f : ℝ → ℝ := fun t => ‖z t - r j t‖ with hf
  have hfc : ContinuousOn f (Icc a b) := (hz.sub (hr j)).norm
  have hval : ∀ s ∈ Icc a b, f s = 0 ∨ δ ≤ f s := by
    intro s hs
    obtain ⟨i, hi⟩ := h s hs
    by_cases hij : i = j
    · left; simp only [hf]; rw [hi, hij, sub_self, norm_zero]
    · right; simp only [hf]; rw [hi]; exact hap s hs i j hij
  have hft0 : f t0 = 0 := by simp only [hf]; rw [hj, sub_self, norm_zero]
  have hft : f t = 0 := by
    by_contra hne
    have h1 := (hval t ht).resolve_left hne
    have hord : (Icc a b).OrdConnected := ordConnected_Icc
    have hpre : IsPreconnected (f '' Icc a b) := isPreconnected_Icc.image f hfc
    obtain ⟨s, hs, hfs⟩ := hpre.ordConnected.out (mem_image_of_mem f ht0) (mem_image_of_mem f ht)
      (⟨by rw [hft0]; linarith, by linarith⟩ : δ / 2 ∈ Icc (f t0) (f t))
    rcases hval s hs with h2 | h2 <;> linarith
  exact sub_eq_zero.mp (norm_eq_zero.mp hft)

end Microjax.Props
