import Verif.Props.Caustics

/-!
# C129: `mag_point_source` with roots that are only approximately right
-/

set_option linter.unusedVariables false

noncomputable section

namespace Microjax.Props

open Complex ComplexConjugate Microjax.Spec PointSource Set Filter
open scoped Topology

/-- Specification: up to order, the numbers of the second list are within `ε` of those of the first. -/
def WithinPerm (ε : ℝ) (exact approx : List ℂ) : Prop :=
  ∃ xs : List ℂ, xs.Perm exact ∧ List.Forall₂ (fun x y => ‖y - x‖ < ε) xs approx

theorem WithinPerm.mono {ε ε' : ℝ} (h : ε ≤ ε') {a b : List ℂ} (hab : WithinPerm ε a b) : WithinPerm ε' a b := by
  obtain ⟨xs, h1, h2⟩ := hab
  exact ⟨xs, h1, h2.imp fun {x y} hxy => hxy.trans_le h⟩

theorem sumMag_perm (det : ℂ → ℝ) (leq : ℂ → ℂ) (tol : ℝ) (w : ℂ) {a b : List ℂ} (h : a.Perm b) :
    sumMag det (withMask leq tol w a) = sumMag det (withMask leq tol w b) := by
  unfold sumMag withMask
  exact ((h.map _).map _).sum_eq

theorem sumMag_ofFn (det : ℂ → ℝ) (leq : ℂ → ℂ) (tol : ℝ) (w S : ℂ) {n : ℕ} (f : Fin n → ℂ) :
    sumMag det (withMask leq tol w ((List.ofFn f).map (· + S))) =
      ∑ i, 1 / |det (f i + S)| * (if decide (‖leq (f i + S) - w‖ < tol) then 1 else 0) := by
  unfold sumMag withMask
  rw [List.map_ofFn, List.map_ofFn, List.map_ofFn, List.sum_ofFn]
  rfl

/-- Near a regular position the sum over approximate roots is close to the sum over the roots. -/
theorem inexact_local (L : Lenses) (det : ℂ → ℝ) (n : ℕ) (hn : n ≠ 0) (c rs : ℂ → List ℂ) (w S : ℂ) (tol : ℝ) (htol : 0 < tol)
    (hlen : ∀ y, (c y).length = n + 1) (hc : ∀ k : ℕ, ContinuousAt (fun y => (c y).getD k 0) w) (hlead : (c w).headD 0 ≠ 0)
    (hrs : ∀ᶠ y in 𝓝 w, IsRootList (c y) (rs y)) (hnd : (rs w).Nodup) (hoff : ∀ r ∈ rs w, ∀ l ∈ L, r + S ≠ l.2)
    (hdet : ∀ z, (∀ l ∈ L, z ≠ l.2) → det z = jacDet (lensMap L) z)
    (hreg : ∀ z, IsImage L w z → jacDet (lensMap L) z ≠ 0)
    (hsep : ∀ r ∈ rs w, lensMap L (r + S) = w ∨ tol < ‖lensMap L (r + S) - w‖) (η : ℝ) (hη : 0 < η) :
    ∃ ε > 0, ∀ y, ‖y - w‖ < ε → ∀ zs, WithinPerm ε (rs y) zs →
      |sumMag det (withMask (lensMap L) tol y (zs.map (· + S))) -
        sumMag det (withMask (lensMap L) tol w ((rs w).map (· + S)))| < η := by
  obtain ⟨r, hr, hr0, hrp⟩ := root_branches c rs n w hlen hn hc hlead hrs hnd
  have hmem : ∀ i, r i w ∈ rs w := fun i => by rw [hr0]; exact List.mem_ofFn.mpr ⟨i, rfl⟩
  set T : ℂ × ℂ → ℝ := fun q => 1 / |det (q.2 + S)| * (if decide (‖lensMap L (q.2 + S) - q.1‖ < tol) then 1 else 0) with hT
  have hcont : ∀ i, ContinuousAt T (w, r i w) := by
    intro i
    have hz : ∀ l ∈ L, r i w + S ≠ l.2 := hoff _ (hmem i)
    have hadd : ContinuousAt (fun q : ℂ × ℂ => q.2 + S) (w, r i w) := continuousAt_snd.add continuousAt_const
    have hlm : ContinuousAt (fun q : ℂ × ℂ => lensMap L (q.2 + S) - q.1) (w, r i w) :=
      (ContinuousAt.comp (g := lensMap L) (f := fun q : ℂ × ℂ => q.2 + S)
        (contDiffAt_lensMap L _ hz).continuousAt hadd).sub continuousAt_fst
    rcases hsep _ (hmem i) with h | h
    · have e1 : ∀ᶠ q in 𝓝 (w, r i w), ‖lensMap L (q.2 + S) - q.1‖ < tol :=
        hlm.norm.eventually_lt_const (by simp only [h, sub_self, norm_zero]; exact htol)
      have e2 : ∀ᶠ q : ℂ × ℂ in 𝓝 (w, r i w), ∀ l ∈ L, q.2 + S ≠ l.2 :=
        hadd.eventually ((isOpen_offLens L).mem_nhds hz)
      have hj : ContinuousAt (fun q : ℂ × ℂ => 1 / |jacDet (lensMap L) (q.2 + S)|) (w, r i w) := by
        have hne := hreg _ ⟨hz, h⟩
        have hcj : ContinuousAt (jacDet (lensMap L)) (r i w + S) := by
          have hev : jacDet (lensMap L) =ᶠ[𝓝 (r i w + S)] fun z => 1 - ‖shear L z‖ ^ 2 := by
            filter_upwards [(isOpen_offLens L).mem_nhds hz] with z hz
            exact norm_shear_of_jacDet L z hz
          refine ContinuousAt.congr ?_ hev.symm
          exact continuousAt_const.sub ((continuousAt_shear L _ hz).norm.pow 2)
        have := ContinuousAt.comp (g := jacDet (lensMap L)) (f := fun q : ℂ × ℂ => q.2 + S) hcj hadd
        exact continuousAt_const.div this.abs (by simpa using hne)
      refine hj.congr ?_
      filter_upwards [e1, e2] with q h1 h2
      simp only [hT]
      rw [hdet _ h2, decide_eq_true h1, if_pos rfl, mul_one]
    · have e1 : ∀ᶠ q in 𝓝 (w, r i w), tol < ‖lensMap L (q.2 + S) - q.1‖ := hlm.norm.eventually_const_lt h
      refine ContinuousAt.congr (f := fun _ => (0 : ℝ)) continuousAt_const ?_
      filter_upwards [e1] with q h1
      simp only [hT]
      rw [decide_eq_false (not_lt.mpr h1.le), if_neg (by simp), mul_zero]
  have hloc : ∃ ε1 > 0, ∀ i, ∀ y z, ‖y - w‖ < ε1 → ‖z - r i w‖ < ε1 → |T (y, z) - T (w, r i w)| < η / (n + 1) := by
    have hev : ∀ i, ∃ ε1 > 0, ∀ y z, ‖y - w‖ < ε1 → ‖z - r i w‖ < ε1 → |T (y, z) - T (w, r i w)| < η / (n + 1) := by
      intro i
      obtain ⟨ε1, h1, h2⟩ := Metric.continuousAt_iff.mp (hcont i) (η / (n + 1)) (by positivity)
      refine ⟨ε1, h1, fun y z hy hz => ?_⟩
      have := h2 (x := (y, z)) (by rw [Prod.dist_eq, dist_eq_norm, dist_eq_norm]; exact max_lt hy hz)
      rwa [Real.dist_eq] at this
    choose e he1 he2 using hev
    have hne : (Finset.univ : Finset (Fin n)).Nonempty := ⟨⟨0, Nat.pos_of_ne_zero hn⟩, Finset.mem_univ _⟩
    refine ⟨Finset.univ.inf' hne e, (Finset.lt_inf'_iff hne).mpr fun i _ => he1 i, fun i y z hy hz => ?_⟩
    have hle := Finset.inf'_le e (Finset.mem_univ i)
    exact he2 i y z (hy.trans_le hle) (hz.trans_le hle)
  obtain ⟨ε1, hε1, hloc⟩ := hloc
  have hbr : ∀ᶠ y in 𝓝 w, ∀ i, ‖r i y - r i w‖ < ε1 / 2 := by
    refine eventually_all.mpr fun i => ?_
    have := (hr i).sub (continuousAt_const (y := r i w))
    have h0 : ‖r i w - r i w‖ < ε1 / 2 := by rw [sub_self, norm_zero]; positivity
    exact this.norm.eventually_lt_const h0
  obtain ⟨ε2, hε2, hball⟩ := Metric.eventually_nhds_iff_ball.mp (hbr.and hrp)
  refine ⟨min (ε1 / 2) ε2, lt_min (by positivity) hε2, fun y hy zs hzs => ?_⟩
  have y1 : ‖y - w‖ < ε1 / 2 := hy.trans_le (min_le_left _ _)
  obtain ⟨b1, b2, -⟩ := hball y (by rw [Metric.mem_ball, dist_eq_norm]; exact hy.trans_le (min_le_right _ _))
  obtain ⟨xs, hx1, hx2⟩ := hzs
  obtain ⟨zs', hz1, hz2⟩ := List.perm_comp_forall₂ (hx1.trans b2).symm hx2
  have hl : zs'.length = n := by rw [← hz1.length_eq, List.length_ofFn]
  obtain ⟨g, rfl⟩ : ∃ g : Fin n → ℂ, zs' = List.ofFn g := by
    refine ⟨fun i => zs'[i.1]'(by rw [hl]; exact i.2), ?_⟩
    apply List.ext_getElem
    · simp [hl]
    · intro k h1 h2; simp
  have hg : ∀ i, ‖g i - r i y‖ < min (ε1 / 2) ε2 := by
    intro i
    have := (List.forall₂_iff_get.mp hz1).2 i.1 (by simp) (by simp)
    simpa using this
  rw [← sumMag_perm _ _ _ _ (hz2.map (· + S)), hr0, sumMag_ofFn, sumMag_ofFn, ← Finset.sum_sub_distrib]
  have hterm : ∀ i, |T (y, g i) - T (w, r i w)| < η / (n + 1) := by
    intro i
    refine hloc i y (g i) (y1.trans (by linarith)) ?_
    have h1 := (hg i).trans_le (min_le_left _ _)
    have h2 := b1 i
    calc ‖g i - r i w‖ = ‖(g i - r i y) + (r i y - r i w)‖ := by congr 1; ring
      _ ≤ ‖g i - r i y‖ + ‖r i y - r i w‖ := norm_add_le _ _
      _ < ε1 := by linarith
  have hsum : |∑ i, (T (y, g i) - T (w, r i w))| ≤ n * (η / (n + 1)) := by
    refine (Finset.abs_sum_le_sum_abs _ _).trans ?_
    have := Finset.sum_le_sum (s := Finset.univ) fun i (_ : i ∈ Finset.univ) => (hterm i).le
    refine this.trans (le_of_eq ?_)
    simp
  refine lt_of_le_of_lt hsum ?_
  rw [mul_div_assoc', div_lt_iff₀ (by positivity)]
  nlinarith

/-- A local bound that is uniform near every point of a compact set is uniform on the set. -/
theorem compact_uniform (W : Set ℂ) (hW : IsCompact W) (P : ℝ → ℂ → Prop) (hmono : ∀ ε ε' w, ε ≤ ε' → P ε' w → P ε w)
    (hloc : ∀ w ∈ W, ∃ ε > 0, ∀ y, ‖y - w‖ < ε → y ∈ W → P ε y) : ∃ ε > 0, ∀ w ∈ W, P ε w := by
  refine hW.induction_on (p := fun s => ∃ ε > 0, ∀ w ∈ s, P ε w) ⟨1, one_pos, fun w hw => absurd hw (notMem_empty w)⟩ ?_ ?_ ?_
  · rintro s t hst ⟨ε, h1, h2⟩
    exact ⟨ε, h1, fun w hw => h2 w (hst hw)⟩
  · rintro s t ⟨ε, h1, h2⟩ ⟨ε', h1', h2'⟩
    refine ⟨min ε ε', lt_min h1 h1', fun w hw => ?_⟩
    rcases hw with hw | hw
    · exact hmono _ _ _ (min_le_left _ _) (h2 w hw)
    · exact hmono _ _ _ (min_le_right _ _) (h2' w hw)
  · intro w hw
    obtain ⟨ε, h1, h2⟩ := hloc w hw
    refine ⟨Metric.ball w ε ∩ W, inter_mem (mem_nhdsWithin_of_mem_nhds (Metric.ball_mem_nhds w h1)) self_mem_nhdsWithin,
      ε, h1, fun y hy => h2 y ?_ hy.2⟩
    have := hy.1
    rwa [Metric.mem_ball, dist_eq_norm] at this

/-- **C129, binaries**: on every compact set of regular positions and for every accuracy `η` there is an `ε` such that with
every root finder whose five numbers are, in whatever order, within `ε` of the roots, `mag_point_source` is within `η` of the
magnification. -/
theorem C129_binary (roots : Option (List ℂ) → List ℂ → List ℂ) (u : UserParams) (hs : u.s ≠ 0) (hq : 0 < u.q)
    (hroots : ∀ cs : List ℂ, cs.headD 0 ≠ 0 → IsRootList cs (roots none cs)) (W : Set ℂ) (hW : IsCompact W)
    (hreg : ∀ w ∈ W, Regular2 roots u w) (η : ℝ) (hη : 0 < η) :
    ∃ ε > 0, ∀ w ∈ W, ∀ solver : Option (List ℂ) → List ℂ → List ℂ,
      WithinPerm ε (roots none (polyCoeffsBinary (w - xCM u) (midParams2 u).a (midParams2 u).e1))
        (solver none (polyCoeffsBinary (w - xCM u) (midParams2 u).a (midParams2 u).e1)) →
      ∃ m, magPointSource solver 2 u w = .ok m ∧ |m - pointMag (binary u.s u.q) w| < η := by
  set p := midParams2 u with hp
  have ha : p.a ≠ 0 := by simp [hp, midParams2, hs]
  obtain ⟨⟨he, he'⟩, -, -⟩ := mass2_pos u hq
  rw [← hp] at he he'
  have hq1 : 1 + u.q ≠ 0 := by positivity
  have hdeg : ∀ v : ℂ, v ≠ p.a → v ≠ -p.a → conj v ^ 2 ≠ (p.a : ℂ) ^ 2 := by
    intro v h1 h2 h
    have h3 : v ^ 2 = (p.a : ℂ) ^ 2 := by
      have := congrArg (starRingEnd ℂ) h
      simpa using this
    rcases sq_eq_sq_iff_eq_or_eq_neg.mp h3 with h4 | h4
    · exact h1 h4
    · exact h2 h4
  have hlead : ∀ v : ℂ, v ≠ p.a → v ≠ -p.a → (polyCoeffsBinary v p.a p.e1).headD 0 ≠ 0 := by
    intro v h1 h2
    rw [binary_headD]; exact sub_ne_zero.mpr (hdeg v h1 h2)
  have hmagE : ∀ (solver : Option (List ℂ) → List ℂ → List ℂ) (w : ℂ), magPointSource solver 2 u w =
      .ok (sumMag (detJac2 p) (withMask (lensMap (midBinary p)) (1 / 10 ^ 6) (w - xCM u)
        ((solver none (polyCoeffsBinary (w - xCM u) p.a p.e1)).map (· + 0)))) := by
    intro solver w
    have e : lensMap (midBinary p) = lensEq2 p := by funext z; rw [lensEq2_eq]
    rw [e]
    simp [magPointSource, images2, hp]
  have hexact : ∀ w ∈ W, magPointSource roots 2 u w = .ok (pointMag (binary u.s u.q) w) := by
    intro w hw
    obtain ⟨h1, h2, h3, h4⟩ := hreg w hw
    have hr := hroots _ (hlead _ h1 h2)
    obtain ⟨b1, -, -⟩ := binary_roots p (w - xCM u) _ ha he he' hr (hdeg _ h1 h2) h3
    refine C06_binary_mag roots u w hq1 hr (hdeg _ h1 h2) h3 fun r hr hlt => ?_
    obtain ⟨d1, -⟩ := b1 r hr
    exact ⟨(h4 r hr).resolve_right (not_lt.mpr hlt.le), d1.hz 0, d1.hz 1⟩
  obtain ⟨-, ⟨f, hf1, hf2⟩, -⟩ := C112_binary roots u hs hq hroots
  have hfe : ∀ w ∈ W, f w = pointMag (binary u.s u.q) w := by
    intro w hw
    have := (hf1 w (hreg w hw)).symm.trans (hexact w hw)
    simpa using this
  refine compact_uniform W hW (fun ε w => ∀ solver : Option (List ℂ) → List ℂ → List ℂ,
      WithinPerm ε (roots none (polyCoeffsBinary (w - xCM u) p.a p.e1)) (solver none (polyCoeffsBinary (w - xCM u) p.a p.e1)) →
      ∃ m, magPointSource solver 2 u w = .ok m ∧ |m - pointMag (binary u.s u.q) w| < η)
    (fun ε ε' w h hP solver hs => hP solver (hs.mono h)) fun w hw => ?_
  obtain ⟨h1, h2, h3, h4⟩ := hreg w hw
  have hr := hroots _ (hlead _ h1 h2)
  obtain ⟨b1, -, -⟩ := binary_roots p (w - xCM u) _ ha he he' hr (hdeg _ h1 h2) h3
  obtain ⟨c1, -, c3, -⟩ := binary_count roots none p (w - xCM u) ha he he' hr h1 h2 h3
    (fun r hr hlt => (h4 r hr).resolve_right (not_lt.mpr hlt.le)) _ rfl
  have ev1 : ∀ᶠ v : ℂ in 𝓝 (w - (xCM u : ℂ)), v ≠ p.a ∧ v ≠ -p.a :=
    (isOpen_ne.eventually_mem h1).and (isOpen_ne.eventually_mem h2)
  obtain ⟨ε1, hε1, hloc⟩ := inexact_local (midBinary p) (detJac2 p) 5 (by norm_num) (fun v => polyCoeffsBinary v p.a p.e1)
    (fun v => roots none (polyCoeffsBinary v p.a p.e1)) (w - xCM u) 0 (1 / 10 ^ 6) (by norm_num)
    (fun y => (C04_binary_leading _ _ _).1) (fun k => (continuous_coeffsBinary p.a p.e1 k).continuousAt)
    (hlead _ h1 h2) (by filter_upwards [ev1] with v hv using hroots _ (hlead v hv.1 hv.2)) h3
    (by
      intro r hr l hl
      obtain ⟨d1, -⟩ := b1 r hr
      rw [add_zero]
      simp only [midBinary, List.mem_cons, List.not_mem_nil, or_false] at hl
      rcases hl with rfl | rfl
      · exact d1.hz 0
      · exact d1.hz 1)
    (fun z hz => by rw [detJac2_eq, (jacDet_lensMap _ z hz).2])
    (fun z hz => (c3 z ((c1 z).mpr hz)).1)
    (fun r hr => by
      rw [add_zero, ← lensEq2_eq]
      refine (h4 r hr).imp_right fun h => ?_
      norm_num at h ⊢; exact h) (η / 2) (by positivity)
  obtain ⟨ε2, hε2, hcont⟩ := Metric.continuousWithinAt_iff.mp (hf2 w (hreg w hw)) (η / 2) (by positivity)
  refine ⟨min ε1 ε2, lt_min hε1 hε2, fun y hy hyW solver hsol => ⟨_, hmagE solver y, ?_⟩⟩
  have k1 := hloc (y - xCM u) (by rw [sub_sub_sub_cancel_right]; exact hy.trans_le (min_le_left _ _)) _
    (hsol.mono (min_le_left _ _))
  have k2 := hcont (hreg y hyW) (by rw [dist_eq_norm]; exact hy.trans_le (min_le_right _ _))
  rw [Real.dist_eq, hfe y hyW, hfe w hw] at k2
  have k3 := (hmagE roots w).symm.trans (hexact w hw)
  rw [Except.ok.injEq] at k3
  rw [k3] at k1
  rw [abs_lt] at k1 k2 ⊢
  exact ⟨by linarith [k1.1, k2.2], by linarith [k1.2, k2.1]⟩

/-- **C129, triples**: the same for three distinct lenses and ten roots. -/
theorem C129_triple (roots : Option (List ℂ) → List ℂ → List ℂ) (u : UserParams) (hs : u.s ≠ 0) (hq : 0 < u.q)
    (hq3 : 0 < u.q3) (hr1 : r3Complex (midParams3 u) ≠ (midParams3 u).a)
    (hr2 : r3Complex (midParams3 u) ≠ -(midParams3 u).a)
    (hroots : ∀ cs : List ℂ, cs.headD 0 ≠ 0 → IsRootList cs (roots none cs)) (W : Set ℂ) (hW : IsCompact W)
    (hreg : ∀ w ∈ W, Regular3 roots u w) (cs : ℂ → List ℂ)
    (hcs : ∀ w, cs w = polyCoeffsTripleCM (w - xCM u) (midParams3 u).a (r3Complex (midParams3 u)) (midParams3 u).e1
      (midParams3 u).e2) (η : ℝ) (hη : 0 < η) :
    ∃ ε > 0, ∀ w ∈ W, ∀ solver : Option (List ℂ) → List ℂ → List ℂ,
      WithinPerm ε (roots none (cs w)) (solver none (cs w)) →
      ∃ m, magPointSource solver 3 u w = .ok m ∧ |m - pointMag (triple u.s u.q u.q3 u.r3 u.psi) w| < η := by
  obtain ⟨-, ⟨f, hf1, hf2⟩, -⟩ := C112_triple roots u hs hq hq3 hr1 hr2 hroots
  set p := midParams3 u with hp
  set S := shiftCM p.a (r3Complex p) p.e1 p.e2 with hS
  have ha : p.a ≠ 0 := by simp [hp, midParams3, hs]
  have hsum : 0 < 1 + u.q + u.q3 := by positivity
  have he1 : 0 < p.e1 := by show 0 < u.q / (1 + u.q + u.q3); positivity
  have he2 : 0 < p.e2 := by show 0 < 1 / (1 + u.q + u.q3); positivity
  have he3 : p.e1 + p.e2 < 1 := by
    show u.q / (1 + u.q + u.q3) + 1 / (1 + u.q + u.q3) < 1
    rw [← add_div, div_lt_one hsum]; linarith
  have hq1 : 1 + u.q ≠ 0 := by positivity
  have hlead : ∀ v : ℂ, v ≠ p.a → v ≠ -p.a → v ≠ r3Complex p →
      (polyCoeffsTripleCM v p.a (r3Complex p) p.e1 p.e2).headD 0 ≠ 0 := by
    intro v h1 h2 h3
    have hi : ∀ x : ℂ, x ≠ 0 → conj x ≠ 0 := fun x hx => by simpa using hx
    rw [(triple_head _ _ _ _ _).2]
    refine mul_ne_zero (mul_ne_zero (hi _ (sub_ne_zero.mpr h1)) (hi _ ?_)) (hi _ (sub_ne_zero.mpr h3))
    exact fun h => h2 (by linear_combination h)
  have hmagE : ∀ (solver : Option (List ℂ) → List ℂ → List ℂ) (w : ℂ), magPointSource solver 3 u w =
      .ok (sumMag (detJac3 p) (withMask (lensMap (midTriple p)) (1 / 10 ^ 3) (w - xCM u)
        ((solver none (cs w)).map (· + S)))) := by
    intro solver w
    have e : lensMap (midTriple p) = lensEq3 p := by funext z; rw [lensEq3_eq]
    rw [e, hcs]
    simp [magPointSource, images3, hp, hS]
  have hexact : ∀ w ∈ W, magPointSource roots 3 u w = .ok (pointMag (triple u.s u.q u.q3 u.r3 u.psi) w) := by
    intro w hw
    obtain ⟨h1, h2, h3, h4, h5⟩ := hreg w hw
    have hr := hroots _ (hlead _ h1 h2 h3)
    obtain ⟨b1, -, -⟩ := triple_roots p (w - xCM u) _ ha hr1 hr2 he1.ne' he2.ne' (by linarith) hr h1 h2 h3 h4
    refine C06_triple_mag roots u w hq1 hsum.ne' _ rfl S hS hr (hlead _ h1 h2 h3) h4 fun r hr hlt => ?_
    obtain ⟨d1, -⟩ := b1 r hr
    exact ⟨(h5 r hr).resolve_right (not_lt.mpr hlt.le), d1.hz 0, d1.hz 1, d1.hz 2⟩
  have hfe : ∀ w ∈ W, f w = pointMag (triple u.s u.q u.q3 u.r3 u.psi) w := by
    intro w hw
    have := (hf1 w (hreg w hw)).symm.trans (hexact w hw)
    simpa using this
  refine compact_uniform W hW (fun ε w => ∀ solver : Option (List ℂ) → List ℂ → List ℂ,
      WithinPerm ε (roots none (cs w)) (solver none (cs w)) →
      ∃ m, magPointSource solver 3 u w = .ok m ∧ |m - pointMag (triple u.s u.q u.q3 u.r3 u.psi) w| < η)
    (fun ε ε' w h hP solver hs => hP solver (hs.mono h)) fun w hw => ?_
  obtain ⟨h1, h2, h3, h4, h5⟩ := hreg w hw
  have hr := hroots _ (hlead _ h1 h2 h3)
  obtain ⟨b1, -, -⟩ := triple_roots p (w - xCM u) _ ha hr1 hr2 he1.ne' he2.ne' (by linarith) hr h1 h2 h3 h4
  obtain ⟨c1, -, c3, -⟩ := triple_count roots p (w - xCM u) ha hr1 hr2 he1 he2 he3 _ rfl S hS hr h1 h2 h3 h4
    (fun r hr hlt => (h5 r hr).resolve_right (not_lt.mpr hlt.le)) _ rfl
  have ev1 : ∀ᶠ v : ℂ in 𝓝 (w - (xCM u : ℂ)), v ≠ p.a ∧ v ≠ -p.a ∧ v ≠ r3Complex p :=
    (isOpen_ne.eventually_mem h1).and ((isOpen_ne.eventually_mem h2).and (isOpen_ne.eventually_mem h3))
  obtain ⟨ε1, hε1, hloc⟩ := inexact_local (midTriple p) (detJac3 p) 10 (by norm_num)
    (fun v => polyCoeffsTripleCM v p.a (r3Complex p) p.e1 p.e2)
    (fun v => roots none (polyCoeffsTripleCM v p.a (r3Complex p) p.e1 p.e2)) (w - xCM u) S (1 / 10 ^ 3) (by norm_num)
    (fun y => (triple_head _ _ _ _ _).1)
    (fun k => (continuous_coeffsTriple p.a (r3Complex p) p.e1 p.e2 k).continuousAt)
    (hlead _ h1 h2 h3) (by filter_upwards [ev1] with v hv using hroots _ (hlead v hv.1 hv.2.1 hv.2.2)) h4
    (by
      intro r hr l hl
      obtain ⟨d1, -⟩ := b1 r hr
      simp only [midTriple, List.mem_cons, List.not_mem_nil, or_false] at hl
      rcases hl with rfl | rfl | rfl
      · exact d1.hz 0
      · exact d1.hz 1
      · exact d1.hz 2)
    (fun z hz => by rw [detJac3_eq, (jacDet_lensMap _ z hz).2])
    (fun z hz => (c3 z ((c1 z).mpr hz)).1)
    (fun r hr => by
      rw [← lensEq3_eq]
      refine (h5 r hr).imp_right fun h => ?_
      norm_num at h ⊢; exact h) (η / 2) (by positivity)
  obtain ⟨ε2, hε2, hcont⟩ := Metric.continuousWithinAt_iff.mp (hf2 w (hreg w hw)) (η / 2) (by positivity)
  refine ⟨min ε1 ε2, lt_min hε1 hε2, fun y hy hyW solver hsol => ⟨_, hmagE solver y, ?_⟩⟩
  have k1 := hloc (y - xCM u) (by rw [sub_sub_sub_cancel_right]; exact hy.trans_le (min_le_left _ _)) _
    (by have := hsol.mono (min_le_left ε1 ε2); rw [hcs y] at this; exact this)
  have k2 := hcont (hreg y hyW) (by rw [dist_eq_norm]; exact hy.trans_le (min_le_right _ _))
  rw [Real.dist_eq, hfe y hyW, hfe w hw] at k2
  have k3 := (hmagE roots w).symm.trans (hexact w hw)
  rw [Except.ok.injEq, hcs w] at k3
  rw [k3] at k1
  rw [hcs y]
  rw [abs_lt] at k1 k2 ⊢
  exact ⟨by linarith [k1.1, k2.2], by linarith [k1.2, k2.1]⟩

/-- Around the centre of the equal-mass binary: a closed disc of regular positions, and a solver with errors. -/
example : ∃ (roots : Option (List ℂ) → List ℂ → List ℂ) (R : ℝ), 0 < R ∧ (∀ w ∈ Metric.closedBall (0 : ℂ) R, Regular2 roots exU w) ∧
    ∀ η > 0, ∃ ε : ℝ, 0 < ε ∧ ∀ w ∈ Metric.closedBall (0 : ℂ) R,
      ∃ m, magPointSource (fun _ c => ((roots none c).map (· + (ε : ℂ))).reverse) 2 exU w = .ok m ∧
        |m - pointMag (binary exU.s exU.q) w| < η := by
  obtain ⟨roots, hroots⟩ := exists_exact_roots
  have hs : exU.s ≠ 0 := by norm_num [exU]
  have hq : 0 < exU.q := by norm_num [exU]
  obtain ⟨h1, -, -⟩ := C112_binary roots exU hs hq fun cs hcs => hroots none cs hcs
  have hx : (0 : ℂ) - (xCM exU : ℂ) = 0 := by rw [exU_x]; simp
  set cs := polyCoeffsBinary 0 (midParams2 exU).a (midParams2 exU).e1 with hcs
  have hlead : cs.headD 0 ≠ 0 := by rw [hcs, binary_headD, exU_a]; norm_num
  have hperm : (roots none cs).Perm exRoots := by
    refine perm_of_prod_eq fun x => ?_
    have e := hroots none cs hlead x
    rw [exRoots_isRootList x] at e
    exact (mul_left_cancel₀ hlead e).symm
  have hreg : Regular2 roots exU 0 := by
    unfold Regular2
    rw [hx, ← hcs]
    refine ⟨?_, ?_, hperm.nodup_iff.mpr exRoots_nodup, fun r hr => Or.inl (exRoots_images r (hperm.mem_iff.mp hr)).1⟩
    · rw [exU_a]; norm_num
    · rw [exU_a]; norm_num
  obtain ⟨R, hR, hball⟩ := Metric.isOpen_iff.mp h1 0 hreg
  have hW : ∀ w ∈ Metric.closedBall (0 : ℂ) (R / 2), Regular2 roots exU w := fun w hw =>
    hball (Metric.closedBall_subset_ball (by linarith) hw)
  refine ⟨roots, R / 2, by positivity, hW, fun η hη => ?_⟩
  obtain ⟨ε, hε, key⟩ := C129_binary roots exU hs hq (fun cs hcs => hroots none cs hcs) _ (isCompact_closedBall 0 (R / 2)) hW η hη
  refine ⟨ε / 2, by positivity, fun w hw => key w hw _ ?_⟩
  refine ⟨_, List.reverse_perm _, ?_⟩
  rw [← List.map_reverse, List.forall₂_map_right_iff]
  refine List.forall₂_same.mpr fun x _ => ?_
  rw [add_sub_cancel_left]
  push_cast
  rw [norm_div, norm_real, Real.norm_eq_abs, abs_of_pos hε]
  norm_num
  linarith

/-- At the centroid of the equilateral triple. -/
example (roots : Option (List ℂ) → List ℂ → List ℂ) (hroots : ∀ cs : List ℂ, cs.headD 0 ≠ 0 → IsRootList cs (roots none cs))
    (η : ℝ) (hη : 0 < η) : ∃ ε > 0, ∀ solver : Option (List ℂ) → List ℂ → List ℂ,
      WithinPerm ε exRootsT (solver none exTc) → ∃ m, magPointSource solver 3 exT exTw = .ok m ∧
        |m - pointMag (triple exT.s exT.q exT.q3 exT.r3 exT.psi) exTw| < η := by
  obtain ⟨d1, d2, d3, d4, d5⟩ := exT_points
  have hx : exTw - (xCM exT : ℂ) = exTw := by rw [exT_x]; simp
  have hlead : exTc.headD 0 ≠ 0 := by
    have hi : ∀ x : ℂ, x ≠ 0 → conj x ≠ 0 := fun x hx => by simpa using hx
    rw [exTc, (triple_head _ _ _ _ _).2]
    refine mul_ne_zero (mul_ne_zero (hi _ (sub_ne_zero.mpr d3)) (hi _ ?_)) (hi _ (sub_ne_zero.mpr d5))
    exact fun h => d4 (by linear_combination h)
  have hperm : (roots none exTc).Perm exRootsT := by
    refine perm_of_prod_eq fun x => ?_
    have e := hroots exTc hlead x
    rw [exRootsT_isRootList x] at e
    exact (mul_left_cancel₀ hlead e).symm
  have hreg : Regular3 roots exT exTw := by
    unfold Regular3
    simp only [hx, exT_S]
    exact ⟨d3, d4, d5, hperm.nodup_iff.mpr exRootsT_nodup, fun r hr => Or.inl (exRootsT_images r (hperm.mem_iff.mp hr)).1⟩
  have hs : exT.s ≠ 0 := by
    have : 0 < Real.sqrt 3 * (tm * tk) := by have := tm_pos; have := tk_pos; positivity
    exact this.ne'
  obtain ⟨ε, hε, key⟩ := C129_triple roots exT hs (by norm_num [exT]) (by norm_num [exT]) d1 d2 hroots {exTw} isCompact_singleton
    (fun w hw => by rw [Set.mem_singleton_iff.mp hw]; exact hreg) _ (fun w => rfl) η hη
  refine ⟨ε, hε, fun solver hsol => key exTw rfl solver ?_⟩
  rw [hx]
  obtain ⟨xs, hx1, hx2⟩ := hsol
  exact ⟨xs, hx1.trans hperm.symm, hx2⟩

end Microjax.Props
