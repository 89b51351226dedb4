import Verif.Props.ContourClosed
import Verif.Props.ImageCount
import Verif.Props.SmallSource
import Verif.Props.ContourSingleLens

/-!
# C128: the accuracy of the contour method away from the caustics
-/

set_option linter.unusedVariables false

noncomputable section

namespace Microjax.Props

open Complex ComplexConjugate Microjax.Spec Segments Jnp Utils Contour PointSource Limb MeasureTheory Set

/-- One track of a real image: closed, and its term is close to the contour integral along the image of the limb. -/
theorem track_term (z : ℝ → ℂ) (Λ Z ν h : ℝ) (N : ℕ) (hN : 0 < N) (θ : ℕ → ℝ) (h0 : θ 0 = -Real.pi) (hπ : θ N = Real.pi)
    (hlast : θ (N - 1) = Real.pi - 1 / 10 ^ 8)
    (hθ : ∀ k < N, θ k ≤ θ (k + 1) ∧ θ (k + 1) - θ k ≤ h) (hin : ∀ k ≤ N, θ k ∈ Icc (-Real.pi) Real.pi)
    (hz : ContDiff ℝ 1 z) (hlip : ∀ t ∈ Icc (-Real.pi) Real.pi, ∀ t' ∈ Icc (-Real.pi) Real.pi, ‖z t' - z t‖ ≤ Λ * |t' - t|)
    (hZ : ∀ t ∈ Icc (-Real.pi) Real.pi, ‖z t‖ ≤ Z) (hcl : z Real.pi = z (-Real.pi)) (σ : ℝ) (hσ : σ = 1 ∨ σ = -1)
    (X : ℕ → ℂ × Bool × ℝ) (hX : ∀ k < N, ‖(X k).1 - z (θ k)‖ ≤ ν ∧ (X k).2 = (true, σ))
    (hclose : Λ / 10 ^ 8 + 2 * ν < 1 / 10 ^ 5) (t : List (Pt3 ℝ)) (ht : t = (List.range N).map fun k => visible (X k)) :
    isClosed t = true ∧ (∀ s ∈ t, s.m = 1) ∧
    |contourTerm (samples t) - σ * ((1 / 2) * ∫ u in (-Real.pi)..Real.pi, (conj (z u) * deriv z u).im)|
      ≤ Real.pi * Λ ^ 2 * h + N * (Z * ν + ν ^ 2 / 2) := by
  have hpi := Real.pi_pos
  have hvis : ∀ k < N, visible (X k) = ⟨(X k).1.re, (X k).1.im, σ, 1⟩ := by
    intro k hk
    unfold visible
    rw [(hX k hk).2]
    simp
  have htl : t.length = N := by rw [ht]; simp
  have hget : ∀ k (hk : k < N), t[k]'(by omega) = ⟨(X k).1.re, (X k).1.im, σ, 1⟩ := by
    intro k hk
    subst ht
    rw [List.getElem_map, List.getElem_range, hvis k hk]
  have hm1 : ∀ s ∈ t, s.m = 1 := by
    intro s hs
    obtain ⟨k, hk, rfl⟩ := List.getElem_of_mem hs
    rw [hget k (by omega)]
  have hne : t ≠ [] := by
    intro h
    rw [h] at htl; simp at htl; omega
  have hzc : ContinuousOn (deriv z) (Icc (-Real.pi) Real.pi) := (hz.continuous_deriv le_rfl).continuousOn
  have hder : ∀ u, HasDerivAt z (deriv z u) u := fun u => (hz.differentiable one_ne_zero u).hasDerivAt
  have hΛ0 : 0 ≤ Λ := by
    have := (norm_nonneg _).trans (hlip (-Real.pi) ⟨le_rfl, by linarith⟩ Real.pi ⟨by linarith, le_rfl⟩)
    have h2 : |Real.pi - -Real.pi| = 2 * Real.pi := by rw [abs_of_nonneg (by linarith)]; ring
    rw [h2] at this
    exact nonneg_of_mul_nonneg_left this (by linarith)
  have hΛ : ∀ u ∈ Icc (-Real.pi) Real.pi, ‖deriv z u‖ ≤ Λ := by
    have hint : ∀ u ∈ Ioo (-Real.pi) Real.pi, ‖deriv z u‖ ≤ Λ := by
      intro u hu
      refine (hder u).le_of_lip' hΛ0 ?_
      filter_upwards [Ioo_mem_nhds hu.1 hu.2] with x hx
      simpa [Real.norm_eq_abs] using hlip u ⟨hu.1.le, hu.2.le⟩ x ⟨hx.1.le, hx.2.le⟩
    have hclosed : IsClosed {u | ‖deriv z u‖ ≤ Λ} := isClosed_le (hz.continuous_deriv le_rfl).norm continuous_const
    intro u hu
    rw [← closure_Ioo (by linarith : -Real.pi ≠ Real.pi)] at hu
    exact closure_minimal (fun x hx => hint x hx) hclosed hu
  refine ⟨(C100_closed t hne).mpr ⟨fun s hs => by rw [hm1 s hs]; norm_num, ?_⟩, hm1, ?_⟩
  · intro a b ha hb
    rw [List.head?_eq_getElem?, List.getElem?_eq_getElem (by omega : 0 < t.length), Option.some.injEq, hget 0 hN] at ha
    rw [List.getLast?_eq_getElem?, List.getElem?_eq_getElem (by omega : t.length - 1 < t.length), Option.some.injEq] at hb
    have hb' : b = ⟨(X (N - 1)).1.re, (X (N - 1)).1.im, σ, 1⟩ := by
      rw [← hb, ← hget (N - 1) (by omega)]
      congr 1
      omega
    subst ha hb'
    simp only
    rw [show (⟨(X 0).1.re, (X 0).1.im⟩ : ℂ) = (X 0).1 from rfl,
      show (⟨(X (N - 1)).1.re, (X (N - 1)).1.im⟩ : ℂ) = (X (N - 1)).1 from rfl]
    have e : (X 0).1 - (X (N - 1)).1 = ((X 0).1 - z (θ 0)) + (z Real.pi - z (θ (N - 1))) - ((X (N - 1)).1 - z (θ (N - 1))) := by
      rw [h0, hcl]; ring
    rw [e]
    have k1 := (hX 0 hN).1
    have k2 := (hX (N - 1) (by omega)).1
    have k3 := hlip (θ (N - 1)) (hin _ (by omega)) Real.pi ⟨by linarith, le_rfl⟩
    rw [hlast] at k3
    have k4 : |Real.pi - (Real.pi - 1 / 10 ^ 8)| = 1 / 10 ^ 8 := by
      rw [sub_sub_cancel, abs_of_pos (by norm_num)]
    rw [k4, ← hlast] at k3
    have k5 := norm_sub_le (((X 0).1 - z (θ 0)) + (z Real.pi - z (θ (N - 1)))) ((X (N - 1)).1 - z (θ (N - 1)))
    have k6 := norm_add_le ((X 0).1 - z (θ 0)) (z Real.pi - z (θ (N - 1)))
    have k7 : Λ * (1 / 10 ^ 8) = Λ / 10 ^ 8 := by ring
    linarith
  · have hpoly := polygon_contour z (deriv z) Λ Z ν h (-Real.pi) Real.pi N hN θ (fun k => (X k).1) h0 hπ hθ
      (fun u _ => hder u) hzc hΛ hZ hcl (fun k hk => (hX k hk).1)
    have hterm : contourTerm (samples t) = σ * polygonArea 0 ((List.range N).map fun k => ((X k).1.re, (X k).1.im)) := by
      unfold contourTerm
      have e1 : ((samples t).headD 0).p = σ := by
        rw [List.headD_eq_head?_getD, List.head?_eq_getElem?]
        unfold samples
        rw [List.getElem?_map, List.getElem?_eq_getElem (by omega : 0 < t.length), hget 0 hN]
        rfl
      have e2 : vertices (samples t) = (List.range N).map fun k => ((X k).1.re, (X k).1.im) := by
        unfold vertices samples
        rw [ht, List.map_map, List.map_map]
        apply List.map_congr_left
        intro k hk
        simp [hvis k (List.mem_range.mp hk)]
      rw [e1, e2]
    rw [hterm, ← mul_sub, abs_mul]
    have hs1 : |σ| = 1 := by rcases hσ with rfl | rfl <;> simp
    rw [hs1, one_mul]
    refine hpoly.trans (le_of_eq ?_)
    ring

/-- The track of a spurious root is nulled. -/
theorem spurious_track (N : ℕ) (X : ℕ → ℂ × Bool × ℝ) (hX : ∀ k < N, (X k).2.1 = false) :
    ((List.range N).map fun k => visible (X k)) = List.replicate N 0 := by
  rw [List.eq_replicate_iff]
  refine ⟨by simp, fun s hs => ?_⟩
  obtain ⟨k, hk, rfl⟩ := List.mem_map.1 hs
  unfold visible
  rw [if_neg (by rw [hX k (List.mem_range.mp hk)]; simp)]
  rfl

set_option maxHeartbeats 400000 in
/-- From the limb samples to the area of the images: for any lenses, a disc that meets no caustic, and a solver that returns
at every angle `d` values that form separated branches, flagged exactly when they are images. -/
theorem contour_area (L : Lenses) (hm : ∀ l ∈ L, l.1 ≠ 0) (hL : (L.map Prod.snd).Nodup) (w : ℂ) (rho R : ℝ) (hrho : 0 < rho)
    (hR : rho < R) (hS : ∀ y ∈ Metric.ball w R, ∀ z, IsImage L y z → ‖shear L z‖ ≠ 1) (d : ℕ) (hd0 : 0 < d)
    (seq : List ℝ → List (List (ℂ × Bool))) (fn : ℝ → List ℂ → List (ℂ × Bool)) (det : ℂ → ℝ) (noise : ℕ → ℕ → ℝ) (npts : ℕ)
    (hnpts : 4 ≤ npts) (hmax : npts ≤ 2 * 10 ^ 8) (src : ℝ → ℂ) (hsrc : src = fun t : ℝ => (rho : ℂ) * exp (I * t) + w)
    (r : Fin d → ℝ → ℂ) (m : Fin d → ℝ → Bool) (Λ δ Z ν h : ℝ) (hh : h = 2 * Real.pi / ((npts / 2 - 1 : ℕ) : ℝ))
    (hseq : ∀ th, (seq th).length = th.length) (hd1 : ∀ th, ∀ c ∈ seq th, c.length = d)
    (hd2 : ∀ t zi, (fn t zi).length = d)
    (hseqr : ∀ th : List ℝ, ∀ q ∈ th.zip (seq th), q.1 ∈ Icc (-Real.pi) Real.pi → q.2.Perm (List.ofFn fun j => (r j q.1, m j q.1)))
    (hfnr : ∀ t ∈ Icc (-Real.pi) Real.pi, ∀ zi, (fn t zi).Perm (List.ofFn fun j => (r j t, m j t)))
    (hmask : ∀ t ∈ Icc (-Real.pi) Real.pi, ∀ j, m j t = true ↔ IsImage L (src t) (r j t))
    (himg : ∀ t ∈ Icc (-Real.pi) Real.pi, ∀ z, IsImage L (src t) z → ∃ j, z = r j t)
    (hdet : ∀ z, (∀ l ∈ L, z ≠ l.2) → det z = jacDet (lensMap L) z)
    (hspeed : ∀ t ∈ Icc (-Real.pi) Real.pi, ∀ t' ∈ Icc (-Real.pi) Real.pi, ∀ j, ‖r j t' - r j t‖ ≤ Λ * |t' - t|)
    (hapart : ∀ t ∈ Icc (-Real.pi) Real.pi, ∀ i j, i ≠ j → δ ≤ ‖r i t - r j t‖)
    (hZ : ∀ t ∈ Icc (-Real.pi) Real.pi, ∀ j, ‖r j t‖ ≤ Z) (hν : ∀ i k, |noise i k| ≤ ν)
    (hsmall : 2 * (Λ * h) + 4 * ν < δ) (hclose : Λ / 10 ^ 8 + 2 * ν < 1 / 10 ^ 5) :
    |contourSum geometry integrateUnif d ((List.range d).map fun i =>
        (row (imagesOfSourceLimb seq fn det noise npts 10) i).map fun q => maskedPt q.1.re q.1.im q.2.2 q.2.1)
      - volume.real (imageOfDisc L w rho)|
      ≤ d * (Real.pi * Λ ^ 2 * h + (npts / 2 + 10 * (npts / 2 / 10) : ℕ) * (Z * ν + ν ^ 2 / 2)) := by
  classical
  have hpi := Real.pi_pos
  have hmpi : -Real.pi ∈ Icc (-Real.pi) Real.pi := ⟨le_rfl, by linarith⟩
  have hppi : Real.pi ∈ Icc (-Real.pi) Real.pi := ⟨by linarith, le_rfl⟩
  have hν0 : 0 ≤ ν := (abs_nonneg _).trans (hν 0 0)
  have hh0 : 0 ≤ h := by rw [hh]; positivity
  have hΛ0 : 0 ≤ Λ := by
    have := (norm_nonneg _).trans (hspeed (-Real.pi) hmpi Real.pi hppi ⟨0, hd0⟩)
    have h2 : |Real.pi - -Real.pi| = 2 * Real.pi := by rw [abs_of_nonneg (by linarith)]; ring
    rw [h2] at this
    exact nonneg_of_mul_nonneg_left this (by linarith)
  have hδ0 : 0 < δ := by
    have := mul_nonneg hΛ0 hh0
    linarith
  -- the samples
  obtain ⟨Q, cols, hQ, hQl, himgs, hcl, hcol⟩ := limb_columns d seq fn det noise npts 10 hnpts hmax (by norm_num) hseq hd1 hd2
  obtain ⟨θ, hN, h0, hπ, hlast, hQθ, hin, hgap⟩ := limb_angles seq fn (npts / 2) Q hQ (by omega) (by omega) h hh
  rw [← hQl]
  set N := Q.length with hNdef
  have hinj : ∀ t ∈ Icc (-Real.pi) Real.pi, Function.Injective fun j => r j t := by
    intro t ht i j hij
    by_contra hne
    have := hapart t ht i j hne
    simp only at hij
    rw [hij, sub_self, norm_zero] at this
    linarith
  have hXex : ∀ k, ∃ X : Fin d → ℂ × Bool × ℝ, ∀ c, cols[k]? = some c → c.Perm (List.ofFn X) ∧
      ∀ j, ‖(X j).1 - r j (θ k)‖ ≤ ν ∧ (X j).2 = (m j (θ k), ((SignType.sign (det (r j (θ k))) : SignType) : ℝ)) := by
    intro k
    rcases Nat.lt_or_ge k N with hk | hk
    · have hkc : k < cols.length := by omega
      obtain ⟨k1, k2, k3⟩ := hcol k _ _ (List.getElem?_eq_getElem hkc) (List.getElem?_eq_getElem hk)
      have hθk : Q[k].1 = θ k := hQθ k _ (List.getElem?_eq_getElem hk)
      have hIcc : Q[k].1 ∈ Icc (-Real.pi) Real.pi := by rw [hθk]; exact hin k hk.le
      have hperm : Q[k].2.Perm (List.ofFn fun j => (r j (θ k), m j (θ k))) := by
        rw [← hθk]
        rcases hQ.solved _ (List.getElem_mem hk) with h1 | ⟨zi, h1⟩
        · exact hseqr _ _ h1 hIcc
        · rw [h1]; exact hfnr _ hIcc zi
      obtain ⟨X, hX1, hX2⟩ := column_branches (fun j => r j (θ k)) (fun j => m j (θ k)) det (fun i => noise i k) ν hν0
        (fun i => hν i k) (hinj _ (hin k hk.le)) _ hperm _ k1 k3
      refine ⟨X, fun c hc => ?_⟩
      rw [List.getElem?_eq_getElem hkc, Option.some.injEq] at hc
      rw [← hc]; exact ⟨hX1, hX2⟩
    · refine ⟨fun _ => (0, false, 0), fun c hc => ?_⟩
      rw [List.getElem?_eq_none (by omega)] at hc
      exact absurd hc (by simp)
  choose X hX using hXex
  have hXk : ∀ k < N, ∀ j, ‖(X k j).1 - r j (θ k)‖ ≤ ν ∧
      (X k j).2 = (m j (θ k), ((SignType.sign (det (r j (θ k))) : SignType) : ℝ)) := fun k hk =>
    (hX k _ (List.getElem?_eq_getElem (by omega))).2
  obtain ⟨σ, hpl, hpk⟩ := permute_branches cols X (fun k j => r j (θ k)) (Λ * h) ν δ (fun k c hc => (hX k c hc).1)
    (fun k hk j => (hXk k (by omega) j).1)
    (fun k hk j => (hspeed _ (hin k (by omega)) _ (hin (k + 1) (by omega)) j).trans (by
      obtain ⟨g1, g2⟩ := hgap k (by omega)
      rw [abs_of_nonneg (by linarith)]
      exact mul_le_mul_of_nonneg_left g2 hΛ0))
    (fun k hk i j hij => hapart _ (hin k (by omega)) i j hij) hsmall (mul_nonneg hΛ0 hh0)
  -- the tracks
  set T : Fin d → List (Pt3 ℝ) := fun j => (List.range N).map fun k => visible (X k j) with hT
  have hrows : ((List.range d).map fun i =>
      (row (imagesOfSourceLimb seq fn det noise npts 10) i).map fun q => maskedPt q.1.re q.1.im q.2.2 q.2.1)
      = List.ofFn fun i => T (σ i) := by
    rw [himgs]
    apply List.ext_getElem
    · simp
    · intro i h1 h2
      have hi : i < d := by simpa using h1
      rw [List.getElem_map, List.getElem_range, List.getElem_ofFn]
      apply List.ext_getElem
      · simp [row, hT, hpl, hcl]
      · intro k k1 k2
        have hk : k < N := by simpa [hT] using k2
        have hpk' := hpk k (by omega)
        rw [List.getElem?_eq_getElem (by omega : k < (permuteImages cols).length), Option.some.injEq] at hpk'
        simp only [row, hT, List.getElem_map, List.getElem_range]
        rw [hpk', Jnp.get_of_lt _ _ (by simpa using hi), List.getElem_ofFn]
        rfl
  -- the images of the disc
  obtain ⟨S, g, hSI, hsec, huniq, harea⟩ := imageArea_contours L hm hL w rho R hrho hR hS
  have hpol : ∀ t : ℝ, polarAt w (rho, t) = src t := fun t => by
    rw [hsrc]; simp only [polarAt]; rw [mul_comm I, add_comm]
  have hball : ∀ t : ℝ, src t ∈ Metric.ball w R := fun t => by
    rw [← hpol]; exact polarAt_mem w R _ (by simpa [abs_of_pos hrho] using hR)
  have hsrcπ : src Real.pi = src (-Real.pi) := by
    rw [hsrc]
    simp only [ofReal_neg, mul_neg]
    rw [mul_comm I, exp_pi_mul_I, exp_neg, exp_pi_mul_I]
    norm_num
  set z : ℂ → ℝ → ℂ := fun z0 t => g z0 (polarAt w (rho, t)) with hz
  have hzd : ∀ z0 ∈ S, ContDiff ℝ 1 (z z0) := by
    intro z0 hz0
    rw [contDiff_iff_contDiffAt]
    intro t
    have h1 := ((hsec z0 hz0).2.smooth (polarAt w (rho, t)) (by rw [hpol]; exact hball t)).1
    have h2 : ContDiffAt ℝ 2 (fun t : ℝ => polarAt w (rho, t)) t :=
      ((contDiff_polarAt w).comp (contDiff_const.prodMk contDiff_id)).contDiffAt
    exact (h1.comp t h2).of_le (by norm_num)
  have hrc : ∀ j, ContinuousOn (r j) (Icc (-Real.pi) Real.pi) := by
    intro j
    have : LipschitzOnWith ⟨Λ, hΛ0⟩ (r j) (Icc (-Real.pi) Real.pi) :=
      LipschitzOnWith.of_dist_le_mul fun x hx y hy => by
        rw [dist_eq_norm, Real.dist_eq]; exact hspeed y hy x hx j
    exact this.continuousOn
  have hzimg : ∀ z0 ∈ S, ∀ t, IsImage L (src t) (z z0 t) := fun z0 hz0 t => by
    have := (hsec z0 hz0).2.img (src t) (hball t)
    simp only [hz]; rw [hpol]; exact this
  have hJex : ∀ z0, ∃ j : Fin d, z0 ∈ S → ∀ t ∈ Icc (-Real.pi) Real.pi, z z0 t = r j t := by
    intro z0
    by_cases hz0 : z0 ∈ S
    · obtain ⟨j, hj⟩ := himg (-Real.pi) hmpi _ (hzimg z0 hz0 (-Real.pi))
      exact ⟨j, fun _ => follows_branch r (z z0) (-Real.pi) Real.pi δ (by linarith) hδ0 hrc (hzd z0 hz0).continuous.continuousOn
        hapart (fun t ht => himg t ht _ (hzimg z0 hz0 t)) (-Real.pi) hmpi j hj⟩
    · exact ⟨⟨0, hd0⟩, fun h => absurd h hz0⟩
  choose J hJ using hJex
  have hJinj : InjOn J S := by
    intro a ha b hb hab
    have h1 := hJ a ha (-Real.pi) hmpi
    have h2 := hJ b hb (-Real.pi) hmpi
    rw [hab, ← h2] at h1
    simp only [hz, hpol] at h1
    exact (huniq (src (-Real.pi)) (hball _) (g a (src (-Real.pi))) ((hsec a ha).2.img _ (hball _))).unique ⟨ha, rfl⟩
      ⟨hb, h1.symm⟩
  have hnot : ∀ j, j ∉ S.image J → ∀ t ∈ Icc (-Real.pi) Real.pi, m j t = false := by
    intro j hj t ht
    by_contra hcon
    have h1 := (hmask t ht j).mp (by simpa using hcon)
    obtain ⟨z0, ⟨k1, k2⟩, -⟩ := huniq _ (hball t) _ h1
    have h2 := hJ z0 k1 t ht
    simp only [hz, hpol] at h2
    rw [k2] at h2
    exact hj (Finset.mem_image.mpr ⟨z0, k1, (hinj t ht h2).symm⟩)
  set B := Real.pi * Λ ^ 2 * h + N * (Z * ν + ν ^ 2 / 2) with hB
  have hreal : ∀ z0 ∈ S, isClosed (T (J z0)) = true ∧ (∀ s ∈ T (J z0), s.m = 1) ∧
      |contourTerm (samples (T (J z0))) - (SignType.sign (jacDet (lensMap L) z0) : ℝ) *
        ((1 / 2) * ∫ u in (-Real.pi)..Real.pi, (conj (z z0 u) * deriv (z z0) u).im)| ≤ B := by
    intro z0 hz0
    have hpar : ∀ t, (SignType.sign (jacDet (lensMap L) (z z0 t)) : ℝ) = (SignType.sign (jacDet (lensMap L) z0) : ℝ) := by
      intro t
      have := (hsec z0 hz0).2.parity (src t) w (hball t) (Metric.mem_ball_self (hrho.trans hR))
      rw [(hsec z0 hz0).1] at this
      simp only [hz, hpol]
      rw [this]
    have hdne : jacDet (lensMap L) z0 ≠ 0 := by
      have := (hsec z0 hz0).2.det_ne w (Metric.mem_ball_self (hrho.trans hR))
      rwa [(hsec z0 hz0).1] at this
    refine track_term (z z0) Λ Z ν h N hN θ h0 hπ hlast hgap hin (hzd z0 hz0)
      (fun t ht t' ht' => by rw [hJ z0 hz0 t ht, hJ z0 hz0 t' ht']; exact hspeed t ht t' ht' _)
      (fun t ht => by rw [hJ z0 hz0 t ht]; exact hZ t ht _) ?_ _ ?_ (fun k => X k (J z0)) ?_ hclose _ rfl
    · simp only [hz, hpol]
      rw [hsrcπ]
    · rcases lt_or_gt_of_ne hdne with h1 | h1
      · right; rw [sign_neg h1]; simp
      · left; rw [sign_pos h1]; simp
    · intro k hk
      obtain ⟨k1, k2⟩ := hXk k hk (J z0)
      have hk' := hin k hk.le
      refine ⟨by rw [hJ z0 hz0 _ hk']; exact k1, ?_⟩
      rw [k2]
      have hi := hzimg z0 hz0 (θ k)
      rw [hJ z0 hz0 _ hk'] at hi
      rw [(hmask _ hk' _).mpr hi, hdet _ hi.1, ← hJ z0 hz0 _ hk', hpar]
  have hspur : ∀ j, j ∉ S.image J → T j = List.replicate N 0 := fun j hj =>
    spurious_track N (fun k => X k j) fun k hk => by
      rw [(hXk k hk j).2]; exact hnot j hj _ (hin k hk.le)
  -- the sum
  have hTl : ∀ j, (T j).length = N := fun j => by simp [hT]
  have hsum := contourSum_closed N d (List.ofFn fun i => T (σ i)) hN hd0
    (by intro h; have := congrArg List.length h; simp at this; omega)
    (by
      intro t ht
      obtain ⟨i, rfl⟩ := List.mem_ofFn.mp ht
      exact hTl _)
    (by
      intro t ht
      obtain ⟨i, rfl⟩ := List.mem_ofFn.mp ht
      by_cases hi : σ i ∈ S.image J
      · obtain ⟨z0, hz0, e⟩ := Finset.mem_image.mp hi
        left
        rw [← e]
        exact ⟨(hreal z0 hz0).1, (hreal z0 hz0).2.1⟩
      · right; exact hspur _ hi)
  rw [hrows, hsum, List.map_ofFn, List.sum_ofFn]
  simp only [Function.comp_apply]
  rw [Equiv.sum_comp σ (fun j => contourTerm (samples (T j)))]
  have hzero : ∀ j, j ∉ S.image J → contourTerm (samples (T j)) = 0 := by
    intro j hj
    rw [hspur j hj]
    unfold contourTerm samples
    rw [List.map_replicate]
    have : ((List.replicate N (⟨(0 : Pt3 ℝ).x, (0 : Pt3 ℝ).y, (0 : Pt3 ℝ).p⟩ : Pt ℝ)).headD 0).p = 0 := by
      cases N <;> rfl
    rw [this, zero_mul]
  rw [← Finset.sum_subset (Finset.subset_univ (S.image J)) (fun j _ hj => hzero j hj), Finset.sum_image hJinj, harea,
    ← Finset.sum_sub_distrib]
  refine (Finset.abs_sum_le_sum_abs _ _).trans ((Finset.sum_le_sum fun z0 hz0 => (hreal z0 hz0).2.2).trans ?_)
  rw [Finset.sum_const, nsmul_eq_mul]
  have hB0 : 0 ≤ B := by
    have hZ0 : 0 ≤ Z := (norm_nonneg _).trans (hZ _ hmpi ⟨0, hd0⟩)
    positivity
  refine mul_le_mul_of_nonneg_right ?_ hB0
  have : S.card ≤ d := by
    rw [← Finset.card_image_of_injOn hJinj]
    exact (Finset.card_le_univ _).trans (by simp)
  exact_mod_cast this

/-- The roots of the lens polynomial along the limb: `d` Lipschitz branches that keep a distance from each other; at every
angle each of them either satisfies the lens equation or misses it by at least the tolerance of the mask. -/
structure LimbBranches (coeffs : ℂ → List ℂ) (shift : ℂ) (leq : ℂ → ℂ) (tol : ℝ) (src : ℝ → ℂ) {d : ℕ} (r : Fin d → ℝ → ℂ)
    (Λ δ Z : ℝ) : Prop where
  root : ∀ t ∈ Icc (-Real.pi) Real.pi, ∀ j, evalPoly (coeffs (src t)) (r j t - shift) = 0
  speed : ∀ t ∈ Icc (-Real.pi) Real.pi, ∀ t' ∈ Icc (-Real.pi) Real.pi, ∀ j, ‖r j t' - r j t‖ ≤ Λ * |t' - t|
  apart : ∀ t ∈ Icc (-Real.pi) Real.pi, ∀ i j, i ≠ j → δ ≤ ‖r i t - r j t‖
  bound : ∀ t ∈ Icc (-Real.pi) Real.pi, ∀ j, ‖r j t‖ ≤ Z
  clear : ∀ t ∈ Icc (-Real.pi) Real.pi, ∀ j, leq (r j t) = src t ∨ tol ≤ ‖leq (r j t) - src t‖

theorem sequential_solved (fn : ℂ → Option (List ℂ) → List (ℂ × Bool)) (ws : List ℂ) :
    ∀ q ∈ ws.zip (imagesSequential fn ws), ∃ init, q.2 = fn q.1 init := by
  have hgo : ∀ (ws : List ℂ) zp, ∀ q ∈ ws.zip (imagesSequential.go fn zp ws), ∃ init, q.2 = fn q.1 init := by
    intro ws
    induction ws with
    | nil => intro zp q hq; simp at hq
    | cons w ws ih =>
      intro zp q hq
      simp only [imagesSequential.go, List.zip_cons_cons, List.mem_cons] at hq
      rcases hq with rfl | hq
      · exact ⟨_, rfl⟩
      · exact ih _ q hq
  intro q hq
  cases ws with
  | nil => simp at hq
  | cons w ws =>
    simp only [imagesSequential, List.zip_cons_cons, List.mem_cons] at hq
    rcases hq with rfl | hq
    · exact ⟨_, rfl⟩
    · exact hgo _ _ q hq

/-- A list of as many roots as there are distinct branches, all of which are in it. -/
theorem branches_perm {d : ℕ} (x : Fin d → ℂ) (hx : Function.Injective x) (rs : List ℂ) (hl : rs.length = d)
    (hmem : ∀ j, x j ∈ rs) : rs.Perm (List.ofFn x) := by
  have hnd : (List.ofFn x).Nodup := List.nodup_ofFn.mpr hx
  have hsub : List.ofFn x ⊆ rs := fun z hz => by
    obtain ⟨j, rfl⟩ := List.mem_ofFn.mp hz
    exact hmem j
  exact ((hnd.subperm hsub).perm_of_length_le (by rw [hl, List.length_ofFn])).symm

/-- The contour method for any of the image finders: the value `contourSum / (π rho²)` for a disc that meets no caustic. -/
theorem contour_mag (L : Lenses) (hm : ∀ l ∈ L, l.1 ≠ 0) (hL : (L.map Prod.snd).Nodup) (w : ℂ) (rho : ℝ) (hrho : 0 < rho)
    (hcaus : ∀ z, (∀ l ∈ L, z ≠ l.2) → jacDet (lensMap L) z = 0 → rho < ‖lensMap L z - w‖) (d : ℕ) (hd0 : 0 < d)
    (F : ℂ → Option (List ℂ) → List (ℂ × Bool)) (perturb : ℝ → List ℂ → List ℂ) (det : ℂ → ℝ) (noise : ℕ → ℕ → ℝ) (npts : ℕ)
    (hnpts : 4 ≤ npts) (hmax : npts ≤ 2 * 10 ^ 8) (src : ℝ → ℂ) (hsrc : src = fun t : ℝ => (rho : ℂ) * exp (I * t) + w)
    (r : Fin d → ℝ → ℂ) (coeffs : ℂ → List ℂ) (shift : ℂ) (leq : ℂ → ℂ) (tol Λ δ Z ν h : ℝ)
    (hB : LimbBranches coeffs shift leq tol src r Λ δ Z) (hh : h = 2 * Real.pi / ((npts / 2 - 1 : ℕ) : ℝ))
    (hFl : ∀ w init, (F w init).length = d)
    (hF : ∀ t ∈ Icc (-Real.pi) Real.pi, ∀ init, ∃ rs, F (src t) init = withMask leq tol (src t) rs ∧ rs.Perm (List.ofFn fun j => r j t) ∧
      ∀ z, z ∈ flagged (F (src t) init) ↔ IsImage L (src t) z)
    (hdet : ∀ z, (∀ l ∈ L, z ≠ l.2) → det z = jacDet (lensMap L) z) (hν : ∀ i k, |noise i k| ≤ ν)
    (hsmall : 2 * (Λ * h) + 4 * ν < δ) (hclose : Λ / 10 ^ 8 + 2 * ν < 1 / 10 ^ 5) :
    |(|contourSum geometry integrateUnif d ((List.range d).map fun i =>
        (row (imagesOfSourceLimb (fun th => imagesSequential F (th.map src)) (fun t zi => F (src t) (some (perturb t zi)))
          det noise npts 10) i).map fun q => maskedPt q.1.re q.1.im q.2.2 q.2.1)|) / (Real.pi * rho ^ 2)
      - uniformMag L w rho|
      ≤ d * (Real.pi * Λ ^ 2 * h + (npts / 2 + 10 * (npts / 2 / 10) : ℕ) * (Z * ν + ν ^ 2 / 2)) / (Real.pi * rho ^ 2) := by
  obtain ⟨R, hR, hS⟩ := regular_disc L hm hL w rho hrho.le hcaus
  set m : Fin d → ℝ → Bool := fun j t => decide (‖leq (r j t) - src t‖ < tol) with hmdef
  have hperm : ∀ t ∈ Icc (-Real.pi) Real.pi, ∀ init, (F (src t) init).Perm (List.ofFn fun j => (r j t, m j t)) := by
    intro t ht init
    obtain ⟨rs, h1, h2, -⟩ := hF t ht init
    rw [h1]
    unfold withMask
    have := h2.map fun z => (z, decide (‖leq z - src t‖ < tol))
    rw [List.map_ofFn] at this
    exact this
  have hflag : ∀ t ∈ Icc (-Real.pi) Real.pi, ∀ z, IsImage L (src t) z ↔ ∃ j, z = r j t ∧ m j t = true := by
    intro t ht z
    obtain ⟨rs, -, -, h3⟩ := hF t ht none
    rw [← h3 z]
    unfold flagged
    simp only [List.mem_map, List.mem_filter, (hperm t ht none).mem_iff, List.mem_ofFn]
    constructor
    · rintro ⟨q, ⟨⟨j, rfl⟩, hq⟩, rfl⟩
      exact ⟨j, rfl, hq⟩
    · rintro ⟨j, rfl, hj⟩
      exact ⟨_, ⟨⟨j, rfl⟩, hj⟩, rfl⟩
  have hpi := Real.pi_pos
  have hν0 : 0 ≤ ν := (abs_nonneg _).trans (hν 0 0)
  have hδ0 : 0 < δ := by
    have h1 : -Real.pi ∈ Icc (-Real.pi) Real.pi := ⟨le_rfl, by linarith⟩
    have h2 : Real.pi ∈ Icc (-Real.pi) Real.pi := ⟨by linarith, le_rfl⟩
    have := (norm_nonneg _).trans (hB.speed _ h1 _ h2 ⟨0, hd0⟩)
    have h3 : 0 ≤ Λ := by
      rw [abs_of_nonneg (by linarith)] at this
      exact nonneg_of_mul_nonneg_left this (by linarith)
    have h4 : 0 ≤ h := by rw [hh]; positivity
    have := mul_nonneg h3 h4
    linarith
  have key := contour_area L hm hL w rho R hrho hR hS d hd0 (fun th => imagesSequential F (th.map src))
    (fun t zi => F (src t) (some (perturb t zi))) det noise npts hnpts hmax src hsrc r m Λ δ Z ν h hh
    (fun th => by rw [(sequential_length F d hFl _).1, List.length_map])
    (fun th => (sequential_length F d hFl _).2) (fun t zi => hFl _ _)
    (by
      intro th q hq hqI
      have hq' : (src q.1, q.2) ∈ (th.map src).zip (imagesSequential F (th.map src)) := by
        rw [List.zip_map_left, List.mem_map]
        exact ⟨q, hq, rfl⟩
      obtain ⟨init, hi⟩ := sequential_solved F _ _ hq'
      simp only at hi
      rw [hi]
      exact hperm _ hqI init)
    (fun t ht zi => hperm t ht _)
    (by
      intro t ht j
      rw [hflag t ht]
      constructor
      · intro h; exact ⟨j, rfl, h⟩
      · rintro ⟨i, h1, h2⟩
        by_cases hij : j = i
        · rw [hij]; exact h2
        · have := hB.apart t ht j i hij
          rw [h1, sub_self, norm_zero] at this
          linarith)
    (fun t ht z hz => by
      obtain ⟨j, h1, -⟩ := (hflag t ht z).mp hz
      exact ⟨j, h1⟩)
    hdet hB.speed hB.apart hB.bound hν hsmall hclose
  have hball : volume.real (Metric.ball w rho) = Real.pi * rho ^ 2 := by
    rw [Measure.real, Complex.volume_ball]
    simp [hrho.le]
    ring
  rw [uniformMag, hball, ← sub_div, abs_div, abs_of_pos (by positivity : 0 < Real.pi * rho ^ 2)]
  refine div_le_div_of_nonneg_right ?_ (by positivity)
  refine le_trans ?_ key
  have := abs_abs_sub_abs_le (contourSum geometry integrateUnif d ((List.range d).map fun i =>
        (row (imagesOfSourceLimb (fun th => imagesSequential F (th.map src)) (fun t zi => F (src t) (some (perturb t zi)))
          det noise npts 10) i).map fun q => maskedPt q.1.re q.1.im q.2.2 q.2.1)) (volume.real (imageOfDisc L w rho))
  rwa [abs_of_nonneg (measureReal_nonneg : 0 ≤ volume.real (imageOfDisc L w rho))] at this

end Microjax.Props
