import Verif.Props.ContourAccuracy
import Verif.Props.ContourQuadrature
import Verif.Lemmas.GreenTrapezoid

/-!
# C131: the accuracy of the limb-darkened contour method away from the caustics
-/

set_option linter.unusedVariables false

noncomputable section

namespace Microjax.Props

open Complex ComplexConjugate Microjax.Spec Segments Jnp Utils Contour PointSource Limb MeasureTheory Set Filter
open scoped Topology

/-! ### The contour sum for any integrand -/

/-- If no track has a run of real samples outside the closed tracks, the stitched contours carry parity zero. -/
theorem open_parity_zero (N n : ℕ) (tracks : List (List (Pt3 ℝ))) (hN : 0 < N) (hn : 0 < n) (hne : tracks ≠ [])
    (hz : ∀ t ∈ tracks, t = List.replicate N 0) :
    ∀ c ∈ contoursFromOpen geometry 3 20 ((processSegments tracks (3 * n)).map (·.map drop3)), c.2 = 0 := by
  have hruns : runs (List.replicate N (0 : Pt3 ℝ)) = [] := by
    have : ∀ (n o : ℕ), runsFrom o (List.replicate n (0 : Pt3 ℝ)) = [] := by
      intro n
      induction n with
      | zero => intro o; rfl
      | succ n ih => intro o; rw [List.replicate_succ, runsFrom_cons_invalid _ _ _ rfl, ih]
    unfold runs; rw [this]; rfl
  have hfm : tracks.flatMap runs = [] := by
    rw [List.flatMap_eq_nil_iff]
    intro t ht
    rw [hz t ht, hruns]
  obtain ⟨order, ho1, ho2⟩ := C76_process N (3 * n) tracks hN (fun t ht => by rw [hz t ht]; simp)
    (fun t ht => by rw [hz t ht]; intro s hs; exact Or.inl (List.eq_of_mem_replicate hs))
    (fun t ht s hs hsm => by
      rw [hz t ht] at hs
      rw [List.eq_of_mem_replicate hs] at hsm
      exact absurd rfl hsm)
    (fun t ht => by rw [hz t ht, hruns]; simp) (by rw [hfm]; simp)
  rw [hfm, List.filter_nil, List.perm_nil] at ho2
  have hempty : ∀ r ∈ order, r = [] := by
    intro r hr
    by_contra h
    have : r ∈ order.filter fun r => !r.isEmpty := by
      rw [List.mem_filter]; exact ⟨hr, by simpa using h⟩
    rw [ho2] at this
    simp at this
  have hold : List.Forall₂ (Holds N) ((processSegments tracks (3 * n)).map (·.map drop3)) (order.map samples) := by
    rw [List.forall₂_map_left_iff, List.forall₂_map_right_iff]
    refine ho1.imp ?_
    rintro row r ⟨h1, rfl⟩
    refine ⟨by simpa [samples] using h1, ?_⟩
    rw [List.map_append, List.map_replicate]
    simp only [samples, List.length_map]
    rfl
  have hpath : ∀ r ∈ order.map (samples : List (Pt3 ℝ) → List (Pt ℝ)), r = [] := by
    intro r hr
    obtain ⟨q, hq, rfl⟩ := List.mem_map.1 hr
    rw [hempty q hq]; rfl
  have hplen : 3 ≤ ((processSegments tracks (3 * n)).map (·.map drop3)).length := by
    have h1 : 1 ≤ tracks.length := List.length_pos_iff.2 hne
    have hspl : ∀ t : List (Pt3 ℝ), (splitSegment 5 t).length = 10 := by
      intro t
      unfold splitSegment idcsStart idcsEnd argwhere
      simp only [List.length_map, List.length_zipWith, List.length_append, List.length_replicate, List.length_take]
      omega
    have : 10 ≤ ((tracks.map (splitSegment 5)).flatten).length := by
      obtain ⟨a, l, e⟩ := List.exists_cons_of_ne_nil (List.length_pos_iff.1 h1)
      rw [e, List.map_cons, List.flatten_cons, List.length_append, hspl]; omega
    unfold processSegments
    simp only [List.length_map, List.length_take, List.length_reverse, argsort_length]
    omega
  obtain ⟨used, left, h1, -, h3⟩ := C43_merge_open N 3 20 _ _ hold (fun r hr => Or.inl (hpath r hr))
    (by
      have : ((order.map (samples : List (Pt3 ℝ) → List (Pt ℝ))).map List.length).sum = 0 := by
        apply List.sum_eq_zero
        intro x hx
        obtain ⟨r, hr, rfl⟩ := List.mem_map.1 hx
        rw [hpath r hr]; rfl
      omega) hplen
  have hfil : ((order.map (samples : List (Pt3 ℝ) → List (Pt ℝ))).filter fun r => !r.isEmpty) = [] := by
    rw [List.filter_eq_nil_iff]
    intro r hr
    rw [hpath r hr]; simp
  rw [hfil, List.perm_nil, List.append_eq_nil_iff, List.map_eq_nil_iff] at h3
  intro c hc
  unfold contoursFromOpen at hc
  obtain ⟨buf, hbuf, rfl⟩ := List.mem_map.1 hc
  obtain ⟨i, hi, hbi⟩ := List.getElem_of_mem hbuf
  have hi' : i < used.length := by rw [← h1.length_eq]; exact hi
  have hh := List.Forall₂.get h1 hi hi'
  simp only [List.get_eq_getElem, hbi] at hh
  have hu : used[i] = [] := List.flatten_eq_nil_iff.mp h3.1 _ (List.getElem_mem hi')
  rw [hu] at hh
  have hb := (holds_nil (4 * N) buf).1 (by simpa [chain] using hh)
  unfold closeContour
  simp only
  rw [hb]
  obtain ⟨m, hm⟩ : ∃ m, 4 * N = m + 1 := ⟨4 * N - 1, by omega⟩
  rw [hm]
  simp [Jnp.get, List.replicate_succ]
  rfl

/-- The term of one track for any integrand. -/
def trackTerm (integ : List (ℝ × ℝ) → ℕ → ℝ) (s : List (Pt ℝ)) : ℝ := (s.headD 0).p * integ (closedBuffer (vertices s) 0) s.length

theorem trackTerm_zero (integ : List (ℝ × ℝ) → ℕ → ℝ) (N : ℕ) : trackTerm integ (samples (List.replicate N (0 : Pt3 ℝ))) = 0 := by
  unfold trackTerm samples
  rw [List.map_replicate]
  have : ((List.replicate N (⟨(0 : Pt3 ℝ).x, (0 : Pt3 ℝ).y, (0 : Pt3 ℝ).p⟩ : Pt ℝ)).headD 0).p = 0 := by
    cases N <;> rfl
  rw [this, zero_mul]

/-- If every track is either closed with real samples throughout or nulled throughout, the contour sum is, for any integrand,
the sum of the terms of the tracks. -/
theorem contourSum_tracks (integ : List (ℝ × ℝ) → ℕ → ℝ) (N n : ℕ) (rows : List (List (Pt3 ℝ))) (hN : 0 < N) (hn : 0 < n)
    (hrows : rows ≠ []) (hlen : ∀ t ∈ rows, t.length = N)
    (h : ∀ t ∈ rows, (isClosed t = true ∧ ∀ s ∈ t, s.m = 1) ∨ t = List.replicate N 0) :
    contourSum geometry integ n rows = (rows.map fun t => trackTerm integ (samples t)).sum := by
  have hz : isClosed (List.replicate N (0 : Pt3 ℝ)) = false := by
    obtain ⟨N, rfl⟩ := Nat.exists_eq_succ_of_ne_zero hN.ne'
    unfold isClosed
    simp [List.replicate_succ]
    intro _ h
    exact absurd rfl h
  have hopen : ∀ t ∈ rows, isClosed t = false → t = List.replicate N 0 := by
    intro t ht hc
    rcases h t ht with ⟨h1, -⟩ | h1
    · rw [h1] at hc; exact absurd hc (by simp)
    · exact h1
  have hterm : ∀ s : List (Pt ℝ), s ≠ [] → integ (contourFromClosed s).1 ((contourFromClosed s).1.length - 1) * (contourFromClosed s).2
      = trackTerm integ s := by
    intro s hs
    obtain ⟨a, l, rfl⟩ := List.exists_cons_of_ne_nil hs
    have hc : (contourFromClosed (a :: l)).1 = closedBuffer (vertices (a :: l)) 0 := by
      simp [contourFromClosed, closedBuffer, vertices, Jnp.get]
    have hl : (closedBuffer (vertices (a :: l)) 0).length - 1 = (a :: l).length := by
      simp [closedBuffer, vertices]
    rw [hc, hl]
    unfold trackTerm contourFromClosed
    simp [Jnp.get, mul_comm]
  have hclosed : (magsClosed integ ((rows.map fun s => if isClosed s then s else s.map fun _ => (0 : Pt3 ℝ)).map
      (·.map drop3))).sum = (rows.map fun t => trackTerm integ (samples t)).sum := by
    unfold magsClosed
    rw [List.map_map, List.map_map]
    congr 1
    apply List.map_congr_left
    intro t ht
    have hne : t ≠ [] := by
      intro h0
      have := hlen t ht
      rw [h0] at this; simp at this; omega
    simp only [Function.comp_apply]
    by_cases hc : isClosed t
    · rw [if_pos hc]
      exact hterm (t.map drop3) (by simpa using hne)
    · rw [if_neg hc, hopen t ht (by simpa using hc)]
      have := hterm ((List.replicate N (0 : Pt3 ℝ)).map drop3) (by simp; omega)
      rw [show (List.replicate N (0 : Pt3 ℝ)).map (fun _ => (0 : Pt3 ℝ)) = List.replicate N 0 by simp]
      exact this
  unfold contourSum getSegments
  simp only
  rw [hclosed]
  by_cases hall : rows.all isClosed = true
  · rw [if_pos hall]
    simp
  · rw [if_neg hall, if_neg hall]
    have : (magsOpen geometry integ ((processSegments (rows.map fun s => if isClosed s then s.map fun _ => (0 : Pt3 ℝ) else s)
        (3 * n)).map (·.map drop3))).sum = 0 := by
      unfold magsOpen
      apply List.sum_eq_zero
      intro x hx
      obtain ⟨c, hc, rfl⟩ := List.mem_map.1 hx
      rw [open_parity_zero N n _ hN hn (by simpa using hrows) (by
        intro t ht
        obtain ⟨t', ht', rfl⟩ := List.mem_map.1 ht
        by_cases hc : isClosed t'
        · rw [if_pos hc, List.map_const', hlen t' ht']
        · rw [if_neg hc]; exact hopen t' ht' (by simpa using hc)) c hc, mul_zero]
    rw [this, add_zero]

set_option maxHeartbeats 400000 in
/-- From the limb samples to the flux of the images: for any lenses, a disc that meets no caustic, a solver that returns at
every angle `d` values that form separated branches, flagged exactly when they are images, and a family of contour integrals
that tends, along the samples of any closed curve, to something within `Bd` of the contour integral of the Green primitives. -/
theorem contour_flux (L : Lenses) (hm : ∀ l ∈ L, l.1 ≠ 0) (hL : (L.map Prod.snd).Nodup) (w : ℂ) (rho R : ℝ) (hrho : 0 < rho)
    (hR : rho < R) (hS : ∀ y ∈ Metric.ball w R, ∀ z, IsImage L y z → ‖shear L z‖ ≠ 1) (d : ℕ) (hd0 : 0 < d)
    (seq : List ℝ → List (List (ℂ × Bool))) (fn : ℝ → List ℂ → List (ℂ × Bool)) (det : ℂ → ℝ) (noise : ℕ → ℕ → ℝ) (npts : ℕ)
    (hnpts : 4 ≤ npts) (hmax : npts ≤ 2 * 10 ^ 8) (src : ℝ → ℂ) (hsrc : src = fun t : ℝ => (rho : ℂ) * exp (I * t) + w)
    (r : Fin d → ℝ → ℂ) (m : Fin d → ℝ → Bool) (Λ δ Z ν h : ℝ) (hh : h = 2 * Real.pi / ((npts / 2 - 1 : ℕ) : ℝ))
    (hseq : ∀ th, (seq th).length = th.length) (hd1 : ∀ th, ∀ c ∈ seq th, c.length = d)
    (hd2 : ∀ t zi, (fn t zi).length = d)
    (hseqr : ∀ th : List ℝ, ∀ q ∈ th.zip (seq th), q.1 ∈ Icc (-Real.pi) Real.pi → q.2.Perm (List.ofFn fun j => (r j q.1, m j q.1)))
    (hfnr : ∀ t ∈ Icc (-Real.pi) Real.pi, ∀ zi, (fn t zi).Perm (List.ofFn fun j => (r j t, m j t)))
    (hmask : ∀ t ∈ Icc (-Real.pi) Real.pi, ∀ j, m j t = true ↔ IsImage L (src t) (r j t))
    (himg : ∀ t ∈ Icc (-Real.pi) Real.pi, ∀ z, IsImage L (src t) z → ∃ j, z = r j t)
    (hdet : ∀ z, (∀ l ∈ L, z ≠ l.2) → det z = jacDet (lensMap L) z)
    (hspeed : ∀ t ∈ Icc (-Real.pi) Real.pi, ∀ t' ∈ Icc (-Real.pi) Real.pi, ∀ j, ‖r j t' - r j t‖ ≤ Λ * |t' - t|)
    (hapart : ∀ t ∈ Icc (-Real.pi) Real.pi, ∀ i j, i ≠ j → δ ≤ ‖r i t - r j t‖)
    (hZ : ∀ t ∈ Icc (-Real.pi) Real.pi, ∀ j, ‖r j t‖ ≤ Z) (hν : ∀ i k, |noise i k| ≤ ν)
    (hsmall : 2 * (Λ * h) + 4 * ν < δ) (hclose : Λ / 10 ^ 8 + 2 * ν < 1 / 10 ^ 5) (W : ℂ → ℝ) (hW : Continuous W)
    (integ : ℕ → List (ℝ × ℝ) → ℕ → ℝ) (Bd : ℕ → ℝ) (hBd : ∀ N, 0 ≤ Bd N)
    (hinteg : ∀ (z : ℝ → ℂ) (N : ℕ) (θ : ℕ → ℝ) (X : ℕ → ℂ), 0 < N → θ 0 = -Real.pi → θ N = Real.pi →
      (∀ k < N, θ k ≤ θ (k + 1) ∧ θ (k + 1) - θ k ≤ h) → ContDiff ℝ 1 z →
      (∀ t ∈ Icc (-Real.pi) Real.pi, ∀ t' ∈ Icc (-Real.pi) Real.pi, ‖z t' - z t‖ ≤ Λ * |t' - t|) →
      (∀ t ∈ Icc (-Real.pi) Real.pi, ‖z t‖ ≤ Z) → z Real.pi = z (-Real.pi) → (∀ k < N, ‖X k - z (θ k)‖ ≤ ν) →
      (∀ t, IsImage L (src t) (z t)) →
      ∃ (l : ℝ) (o : ℝ × ℝ), Tendsto (fun n => integ n (closedBuffer ((List.range N).map fun k => ((X k).re, (X k).im)) 0) N) atTop (𝓝 l) ∧
        |l - ∫ u in (-Real.pi)..Real.pi, (greenP W o (z u) * (deriv z u).re + greenQ W o (z u) * (deriv z u).im)| ≤ Bd N) :
    ∃ l, Tendsto (fun n => contourSum geometry (integ n) d ((List.range d).map fun i =>
        (row (imagesOfSourceLimb seq fn det noise npts 10) i).map fun q => maskedPt q.1.re q.1.im q.2.2 q.2.1)) atTop (𝓝 l) ∧
      |l - ∫ z in imageOfDisc L w rho, W z| ≤ d * Bd (npts / 2 + 10 * (npts / 2 / 10)) := by
  classical
  have hpi := Real.pi_pos
  have hmpi : -Real.pi ∈ Icc (-Real.pi) Real.pi := ⟨le_rfl, by linarith⟩
  have hppi : Real.pi ∈ Icc (-Real.pi) Real.pi := ⟨by linarith, le_rfl⟩
  have hν0 : 0 ≤ ν := (abs_nonneg _).trans (hν 0 0)
  have hh0 : 0 ≤ h := by rw [hh]; positivity
  have hΛ0 : 0 ≤ Λ := by
    have := (norm_nonneg _).trans (hspeed (-Real.pi) hmpi Real.pi hppi ⟨0, hd0⟩)
    have h2 : |Real.pi - -Real.pi| = 2 * Real.pi := by rw [abs_of_nonneg (by linarith)]; ring
    rw [h2] at this
    exact nonneg_of_mul_nonneg_left this (by linarith)
  have hδ0 : 0 < δ := by
    have := mul_nonneg hΛ0 hh0
    linarith
  -- the samples
  obtain ⟨Q, cols, hQ, hQl, himgs, hcl, hcol⟩ := limb_columns d seq fn det noise npts 10 hnpts hmax (by norm_num) hseq hd1 hd2
  obtain ⟨θ, hN, h0, hπ, hlast, hQθ, hin, hgap⟩ := limb_angles seq fn (npts / 2) Q hQ (by omega) (by omega) h hh
  rw [← hQl]
  set N := Q.length with hNdef
  have hinj : ∀ t ∈ Icc (-Real.pi) Real.pi, Function.Injective fun j => r j t := by
    intro t ht i j hij
    by_contra hne
    have := hapart t ht i j hne
    simp only at hij
    rw [hij, sub_self, norm_zero] at this
    linarith
  have hXex : ∀ k, ∃ X : Fin d → ℂ × Bool × ℝ, ∀ c, cols[k]? = some c → c.Perm (List.ofFn X) ∧
      ∀ j, ‖(X j).1 - r j (θ k)‖ ≤ ν ∧ (X j).2 = (m j (θ k), ((SignType.sign (det (r j (θ k))) : SignType) : ℝ)) := by
    intro k
    rcases Nat.lt_or_ge k N with hk | hk
    · have hkc : k < cols.length := by omega
      obtain ⟨k1, k2, k3⟩ := hcol k _ _ (List.getElem?_eq_getElem hkc) (List.getElem?_eq_getElem hk)
      have hθk : Q[k].1 = θ k := hQθ k _ (List.getElem?_eq_getElem hk)
      have hIcc : Q[k].1 ∈ Icc (-Real.pi) Real.pi := by rw [hθk]; exact hin k hk.le
      have hperm : Q[k].2.Perm (List.ofFn fun j => (r j (θ k), m j (θ k))) := by
        rw [← hθk]
        rcases hQ.solved _ (List.getElem_mem hk) with h1 | ⟨zi, h1⟩
        · exact hseqr _ _ h1 hIcc
        · rw [h1]; exact hfnr _ hIcc zi
      obtain ⟨X, hX1, hX2⟩ := column_branches (fun j => r j (θ k)) (fun j => m j (θ k)) det (fun i => noise i k) ν hν0
        (fun i => hν i k) (hinj _ (hin k hk.le)) _ hperm _ k1 k3
      refine ⟨X, fun c hc => ?_⟩
      rw [List.getElem?_eq_getElem hkc, Option.some.injEq] at hc
      rw [← hc]; exact ⟨hX1, hX2⟩
    · refine ⟨fun _ => (0, false, 0), fun c hc => ?_⟩
      rw [List.getElem?_eq_none (by omega)] at hc
      exact absurd hc (by simp)
  choose X hX using hXex
  have hXk : ∀ k < N, ∀ j, ‖(X k j).1 - r j (θ k)‖ ≤ ν ∧
      (X k j).2 = (m j (θ k), ((SignType.sign (det (r j (θ k))) : SignType) : ℝ)) := fun k hk =>
    (hX k _ (List.getElem?_eq_getElem (by omega))).2
  obtain ⟨σ, hpl, hpk⟩ := permute_branches cols X (fun k j => r j (θ k)) (Λ * h) ν δ (fun k c hc => (hX k c hc).1)
    (fun k hk j => (hXk k (by omega) j).1)
    (fun k hk j => (hspeed _ (hin k (by omega)) _ (hin (k + 1) (by omega)) j).trans (by
      obtain ⟨g1, g2⟩ := hgap k (by omega)
      rw [abs_of_nonneg (by linarith)]
      exact mul_le_mul_of_nonneg_left g2 hΛ0))
    (fun k hk i j hij => hapart _ (hin k (by omega)) i j hij) hsmall (mul_nonneg hΛ0 hh0)
  -- the tracks
  set T : Fin d → List (Pt3 ℝ) := fun j => (List.range N).map fun k => visible (X k j) with hT
  have hrows : ((List.range d).map fun i =>
      (row (imagesOfSourceLimb seq fn det noise npts 10) i).map fun q => maskedPt q.1.re q.1.im q.2.2 q.2.1)
      = List.ofFn fun i => T (σ i) := by
    rw [himgs]
    apply List.ext_getElem
    · simp
    · intro i h1 h2
      have hi : i < d := by simpa using h1
      rw [List.getElem_map, List.getElem_range, List.getElem_ofFn]
      apply List.ext_getElem
      · simp [row, hT, hpl, hcl]
      · intro k k1 k2
        have hk : k < N := by simpa [hT] using k2
        have hpk' := hpk k (by omega)
        rw [List.getElem?_eq_getElem (by omega : k < (permuteImages cols).length), Option.some.injEq] at hpk'
        simp only [row, hT, List.getElem_map, List.getElem_range]
        rw [hpk', Jnp.get_of_lt _ _ (by simpa using hi), List.getElem_ofFn]
        rfl
  -- the images of the disc
  obtain ⟨S, g, hSI, hsec, huniq, harea⟩ := imageIntegral_contours L hm hL w rho R hrho hR hS
  have hpol : ∀ t : ℝ, polarAt w (rho, t) = src t := fun t => by
    rw [hsrc]; simp only [polarAt]; rw [mul_comm I, add_comm]
  have hball : ∀ t : ℝ, src t ∈ Metric.ball w R := fun t => by
    rw [← hpol]; exact polarAt_mem w R _ (by simpa [abs_of_pos hrho] using hR)
  have hsrcπ : src Real.pi = src (-Real.pi) := by
    rw [hsrc]
    simp only [ofReal_neg, mul_neg]
    rw [mul_comm I, exp_pi_mul_I, exp_neg, exp_pi_mul_I]
    norm_num
  set z : ℂ → ℝ → ℂ := fun z0 t => g z0 (polarAt w (rho, t)) with hz
  have hzd : ∀ z0 ∈ S, ContDiff ℝ 1 (z z0) := by
    intro z0 hz0
    rw [contDiff_iff_contDiffAt]
    intro t
    have h1 := ((hsec z0 hz0).2.smooth (polarAt w (rho, t)) (by rw [hpol]; exact hball t)).1
    have h2 : ContDiffAt ℝ 2 (fun t : ℝ => polarAt w (rho, t)) t :=
      ((contDiff_polarAt w).comp (contDiff_const.prodMk contDiff_id)).contDiffAt
    exact (h1.comp t h2).of_le (by norm_num)
  have hrc : ∀ j, ContinuousOn (r j) (Icc (-Real.pi) Real.pi) := by
    intro j
    have : LipschitzOnWith ⟨Λ, hΛ0⟩ (r j) (Icc (-Real.pi) Real.pi) :=
      LipschitzOnWith.of_dist_le_mul fun x hx y hy => by
        rw [dist_eq_norm, Real.dist_eq]; exact hspeed y hy x hx j
    exact this.continuousOn
  have hzimg : ∀ z0 ∈ S, ∀ t, IsImage L (src t) (z z0 t) := fun z0 hz0 t => by
    have := (hsec z0 hz0).2.img (src t) (hball t)
    simp only [hz]; rw [hpol]; exact this
  have hJex : ∀ z0, ∃ j : Fin d, z0 ∈ S → ∀ t ∈ Icc (-Real.pi) Real.pi, z z0 t = r j t := by
    intro z0
    by_cases hz0 : z0 ∈ S
    · obtain ⟨j, hj⟩ := himg (-Real.pi) hmpi _ (hzimg z0 hz0 (-Real.pi))
      exact ⟨j, fun _ => follows_branch r (z z0) (-Real.pi) Real.pi δ (by linarith) hδ0 hrc (hzd z0 hz0).continuous.continuousOn
        hapart (fun t ht => himg t ht _ (hzimg z0 hz0 t)) (-Real.pi) hmpi j hj⟩
    · exact ⟨⟨0, hd0⟩, fun h => absurd h hz0⟩
  choose J hJ using hJex
  have hJinj : InjOn J S := by
    intro a ha b hb hab
    have h1 := hJ a ha (-Real.pi) hmpi
    have h2 := hJ b hb (-Real.pi) hmpi
    rw [hab, ← h2] at h1
    simp only [hz, hpol] at h1
    exact (huniq (src (-Real.pi)) (hball _) (g a (src (-Real.pi))) ((hsec a ha).2.img _ (hball _))).unique ⟨ha, rfl⟩
      ⟨hb, h1.symm⟩
  have hnot : ∀ j, j ∉ S.image J → ∀ t ∈ Icc (-Real.pi) Real.pi, m j t = false := by
    intro j hj t ht
    by_contra hcon
    have h1 := (hmask t ht j).mp (by simpa using hcon)
    obtain ⟨z0, ⟨k1, k2⟩, -⟩ := huniq _ (hball t) _ h1
    have h2 := hJ z0 k1 t ht
    simp only [hz, hpol] at h2
    rw [k2] at h2
    exact hj (Finset.mem_image.mpr ⟨z0, k1, (hinj t ht h2).symm⟩)
  have hreal : ∀ z0 ∈ S, isClosed (T (J z0)) = true ∧ (∀ s ∈ T (J z0), s.m = 1) ∧
      ∃ (l : ℝ) (o : ℝ × ℝ), Tendsto (fun n => trackTerm (integ n) (samples (T (J z0)))) atTop (𝓝 l) ∧
        |l - (SignType.sign (jacDet (lensMap L) z0) : ℝ) * ∫ u in (-Real.pi)..Real.pi,
          (greenP W o (z z0 u) * (deriv (z z0) u).re + greenQ W o (z z0 u) * (deriv (z z0) u).im)| ≤ Bd N := by
    intro z0 hz0
    have hpar : ∀ t, (SignType.sign (jacDet (lensMap L) (z z0 t)) : ℝ) = (SignType.sign (jacDet (lensMap L) z0) : ℝ) := by
      intro t
      have := (hsec z0 hz0).2.parity (src t) w (hball t) (Metric.mem_ball_self (hrho.trans hR))
      rw [(hsec z0 hz0).1] at this
      simp only [hz, hpol]
      rw [this]
    have hdne : jacDet (lensMap L) z0 ≠ 0 := by
      have := (hsec z0 hz0).2.det_ne w (Metric.mem_ball_self (hrho.trans hR))
      rwa [(hsec z0 hz0).1] at this
    have hlip : ∀ t ∈ Icc (-Real.pi) Real.pi, ∀ t' ∈ Icc (-Real.pi) Real.pi, ‖z z0 t' - z z0 t‖ ≤ Λ * |t' - t| :=
      fun t ht t' ht' => by rw [hJ z0 hz0 t ht, hJ z0 hz0 t' ht']; exact hspeed t ht t' ht' _
    have hZz : ∀ t ∈ Icc (-Real.pi) Real.pi, ‖z z0 t‖ ≤ Z := fun t ht => by rw [hJ z0 hz0 t ht]; exact hZ t ht _
    have hclz : z z0 Real.pi = z z0 (-Real.pi) := by
      simp only [hz, hpol]
      rw [hsrcπ]
    have hsgn : (SignType.sign (jacDet (lensMap L) z0) : ℝ) = 1 ∨ (SignType.sign (jacDet (lensMap L) z0) : ℝ) = -1 := by
      rcases lt_or_gt_of_ne hdne with h1 | h1
      · right; rw [sign_neg h1]; simp
      · left; rw [sign_pos h1]; simp
    have hXz : ∀ k < N, ‖(X k (J z0)).1 - z z0 (θ k)‖ ≤ ν ∧ (X k (J z0)).2 = (true, (SignType.sign (jacDet (lensMap L) z0) : ℝ)) := by
      intro k hk
      obtain ⟨k1, k2⟩ := hXk k hk (J z0)
      have hk' := hin k hk.le
      refine ⟨by rw [hJ z0 hz0 _ hk']; exact k1, ?_⟩
      rw [k2]
      have hi := hzimg z0 hz0 (θ k)
      rw [hJ z0 hz0 _ hk'] at hi
      rw [(hmask _ hk' _).mpr hi, hdet _ hi.1, ← hJ z0 hz0 _ hk', hpar]
    obtain ⟨q1, q2, -⟩ := track_term (z z0) Λ Z ν h N hN θ h0 hπ hlast hgap hin (hzd z0 hz0) hlip hZz hclz _ hsgn
      (fun k => X k (J z0)) hXz hclose _ rfl
    refine ⟨q1, q2, ?_⟩
    obtain ⟨l, o, hl1, hl2⟩ := hinteg (z z0) N θ (fun k => (X k (J z0)).1) hN h0 hπ hgap (hzd z0 hz0) hlip hZz hclz
      (fun k hk => (hXz k hk).1) (hzimg z0 hz0)
    have hterm : ∀ n, trackTerm (integ n) (samples (T (J z0))) = (SignType.sign (jacDet (lensMap L) z0) : ℝ)
        * integ n (closedBuffer ((List.range N).map fun k => ((X k (J z0)).1.re, (X k (J z0)).1.im)) 0) N := by
      intro n
      unfold trackTerm
      have hvis : ∀ k < N, visible (X k (J z0)) = ⟨(X k (J z0)).1.re, (X k (J z0)).1.im, (SignType.sign (jacDet (lensMap L) z0) : ℝ), 1⟩ := by
        intro k hk
        unfold visible
        rw [(hXz k hk).2]
        simp
      have e1 : ((samples (T (J z0))).headD 0).p = (SignType.sign (jacDet (lensMap L) z0) : ℝ) := by
        rw [List.headD_eq_head?_getD, List.head?_eq_getElem?]
        simp only [samples, hT]
        rw [List.getElem?_map, List.getElem?_map, List.getElem?_range hN, Option.map_some, Option.map_some, hvis 0 hN]
        rfl
      have e2 : vertices (samples (T (J z0))) = (List.range N).map fun k => ((X k (J z0)).1.re, (X k (J z0)).1.im) := by
        simp only [vertices, samples, hT]
        rw [List.map_map, List.map_map]
        apply List.map_congr_left
        intro k hk
        simp [hvis k (List.mem_range.mp hk)]
      have e3 : (samples (T (J z0))).length = N := by simp [samples, hT]
      rw [e1, e2, e3]
    refine ⟨_, o, ((hl1.const_mul ((SignType.sign (jacDet (lensMap L) z0) : ℝ))).congr fun n => (hterm n).symm), ?_⟩
    rw [← mul_sub, abs_mul]
    have hs1 : |(SignType.sign (jacDet (lensMap L) z0) : ℝ)| = 1 := by rcases hsgn with h | h <;> rw [h] <;> simp
    rw [hs1, one_mul]
    exact hl2
  have hspur : ∀ j, j ∉ S.image J → T j = List.replicate N 0 := fun j hj =>
    spurious_track N (fun k => X k j) fun k hk => by
      rw [(hXk k hk j).2]; exact hnot j hj _ (hin k hk.le)
  -- the sum
  have hTl : ∀ j, (T j).length = N := fun j => by simp [hT]
  have hsum : ∀ n, contourSum geometry (integ n) d (List.ofFn fun i => T (σ i))
      = ∑ z0 ∈ S, trackTerm (integ n) (samples (T (J z0))) := by
    intro n
    rw [contourSum_tracks (integ n) N d (List.ofFn fun i => T (σ i)) hN hd0
      (by intro h; have := congrArg List.length h; simp at this; omega)
      (by
        intro t ht
        obtain ⟨i, rfl⟩ := List.mem_ofFn.mp ht
        exact hTl _)
      (by
        intro t ht
        obtain ⟨i, rfl⟩ := List.mem_ofFn.mp ht
        by_cases hi : σ i ∈ S.image J
        · obtain ⟨z0, hz0, e⟩ := Finset.mem_image.mp hi
          left
          rw [← e]
          exact ⟨(hreal z0 hz0).1, (hreal z0 hz0).2.1⟩
        · right; exact hspur _ hi), List.map_ofFn, List.sum_ofFn]
    simp only [Function.comp_apply]
    rw [Equiv.sum_comp σ (fun j => trackTerm (integ n) (samples (T j))),
      ← Finset.sum_subset (Finset.subset_univ (S.image J)) (fun j _ hj => by rw [hspur j hj, trackTerm_zero]),
      Finset.sum_image hJinj]
  have hlo : ∀ z0, ∃ (l : ℝ) (o : ℝ × ℝ), z0 ∈ S → Tendsto (fun n => trackTerm (integ n) (samples (T (J z0)))) atTop (𝓝 l) ∧
        |l - (SignType.sign (jacDet (lensMap L) z0) : ℝ) * ∫ u in (-Real.pi)..Real.pi,
          (greenP W o (z z0 u) * (deriv (z z0) u).re + greenQ W o (z z0 u) * (deriv (z z0) u).im)| ≤ Bd N := by
    intro z0
    by_cases hz0 : z0 ∈ S
    · obtain ⟨l, o, h⟩ := (hreal z0 hz0).2.2
      exact ⟨l, o, fun _ => h⟩
    · exact ⟨0, 0, fun h => absurd h hz0⟩
  choose l o hlo using hlo
  refine ⟨∑ z0 ∈ S, l z0, ?_, ?_⟩
  · simp only [hrows, hsum]
    exact tendsto_finsetSum _ fun z0 hz0 => (hlo z0 hz0).1
  · rw [harea W hW o, ← Finset.sum_sub_distrib]
    refine (Finset.abs_sum_le_sum_abs _ _).trans ((Finset.sum_le_sum fun z0 hz0 => (hlo z0 hz0).2).trans ?_)
    rw [Finset.sum_const, nsmul_eq_mul]
    refine mul_le_mul_of_nonneg_right ?_ (hBd N)
    have : S.card ≤ d := by
      rw [← Finset.card_image_of_injOn hJinj]
      exact (Finset.card_le_univ _).trans (by simp)
    exact_mod_cast this

end Microjax.Props
