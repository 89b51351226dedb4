import Verif.Props.LightcurveEnd
import Verif.Props.DiscAverage

/-!
# C116: the light curve of `mag_triple` from end to end

What the light curve of three lenses is: the exact finite-source magnification in the limit at the first `MAX_FULL_CALLS`
points; after them the multipole value, which is correct to fifth order in the radius if the third lens is on the axis, and
which stays above the magnification by a fixed amount, however far away and however small the source, if it is not.
-/

noncomputable section

namespace Microjax.Props

open Complex ComplexConjugate Microjax.PointSource Microjax.Spec Microjax.Lightcurve Microjax.ExtendedSource Filter
open Microjax.Multipole
open scoped Topology

/-- The coefficients that the root finder gets for the source `w`. -/
def tripleCoeffs (u : UserParams) (w : ℂ) : List ℂ :=
  polyCoeffsTripleCM (w - xCM u) (midParams3 u).a (r3Complex (midParams3 u)) (midParams3 u).e1 (midParams3 u).e2

/-- A source position at which the root finder returns all roots, distinct, and none comes within the tolerance of the mask
without solving the lens equation; the source is not exactly behind a lens. -/
structure RegularSource3 (roots : Option (List ℂ) → List ℂ → List ℂ) (u : UserParams) (w : ℂ) : Prop where
  roots_all : IsRootList (tripleCoeffs u w) (roots none (tripleCoeffs u w))
  off1 : w - xCM u ≠ (midParams3 u).a
  off2 : w - xCM u ≠ -(midParams3 u).a
  off3 : w - xCM u ≠ r3Complex (midParams3 u)
  simple : (roots none (tripleCoeffs u w)).Nodup
  sep : ∀ r ∈ roots none (tripleCoeffs u w),
    ‖lensEq3 (midParams3 u) (r + shiftCM (midParams3 u).a (r3Complex (midParams3 u)) (midParams3 u).e1 (midParams3 u).e2)
      - (w - xCM u)‖ < 1e-3 →
    lensEq3 (midParams3 u) (r + shiftCM (midParams3 u).a (r3Complex (midParams3 u)) (midParams3 u).e1 (midParams3 u).e2)
      = w - xCM u

/-- `mag_triple` with the ray-shooting functions at the resolutions `n.1`, `n.2` as its full solvers. -/
def lightCurve3 (roots : Option (List ℂ) → List ℂ → List ℂ) (u : UserParams) (ρ u1 delta_c : ℝ)
    (regions : ℂ → List ((ℝ × ℝ) × (ℝ × ℝ))) (m c : ℕ) (ws : List ℂ) (n : ℕ × ℕ) : List ℝ :=
  magTriple roots (fun w => magUniform 3 u w ρ n.1 n.2 (regions w))
    (fun w => magLimbDark 3 u w ρ u1 delta_c n.1 n.2 (regions w)) ws ρ u1 m c u

/-- The full solver converges to the limb-darkened magnification (the uniform one for `u1 = 0`). -/
theorem full_converges3 (u : UserParams) (ρ u1 delta_c : ℝ) (hq : 0 < u.q) (hq3 : 0 < u.q3) (hρ : 0 < ρ) (h1 : u1 < 1)
    (w : ℂ) (R : List ((ℝ × ℝ) × (ℝ × ℝ))) (hR : ∀ r ∈ R, ProperRegion r)
    (hcov : CoversOnce R (imageOfDisc (triple u.s u.q u.q3 u.r3 u.psi) w ρ)) :
    Tendsto (fun n : ℕ × ℕ => if u1 = 0 then magUniform 3 u w ρ n.1 n.2 R
      else magLimbDark 3 u w ρ u1 delta_c n.1 n.2 R) (atTop ×ˢ atTop)
      (𝓝 (limbMag (triple u.s u.q u.q3 u.r3 u.psi) w ρ u1)) := by
  have hul : userLens 3 u = triple u.s u.q u.q3 u.r3 u.psi := by simp [userLens]
  have hq1 : 1 + u.q ≠ 0 := by positivity
  have hq2 : 1 + u.q + u.q3 ≠ 0 := by positivity
  by_cases hu : u1 = 0
  · simp only [hu, if_true]
    rw [limbMag_zero, ← hul]
    exact C71_uniform_converges 3 _ w ρ hρ hq1 (fun _ => hq2) R hR (by rw [hul]; exact hcov)
  · simp only [hu, if_false]
    rw [← hul]
    exact C72_limb_converges 3 _ w ρ u1 delta_c hρ (by linarith) hq1 (fun _ => hq2) R hR (by rw [hul]; exact hcov)

/-- **C116, the points of the full solver**: for every triple lens, every limb darkening and every light curve, the light
curve has one value per point; at the first `MAX_FULL_CALLS` points it converges to the exact finite-source magnification as
the resolutions grow; at all later points it is the multipole value, whatever the resolutions.  Missing for the full
property: that the later points converge to the magnification too, see `C116_small_sources_partial` and
`C116_far_violated`. -/
theorem C116_light_curve_partial (roots : Option (List ℂ) → List ℂ → List ℂ) (u : UserParams) (ρ u1 delta_c : ℝ)
    (hq : 0 < u.q) (hq3 : 0 < u.q3) (hρ : 0 < ρ) (h1 : u1 < 1) (ws : List ℂ) (regions : ℂ → List ((ℝ × ℝ) × (ℝ × ℝ)))
    (hR : ∀ w ∈ ws, ∀ r ∈ regions w, ProperRegion r)
    (hcov : ∀ w ∈ ws, CoversOnce (regions w) (imageOfDisc (triple u.s u.q u.q3 u.r3 u.psi) w ρ)) (m c : ℕ) (hc : 1 ≤ c) :
    (∀ n, (lightCurve3 roots u ρ u1 delta_c regions m c ws n).length = ws.length) ∧
      ∀ (i : ℕ) (hi : i < ws.length), ∃ v : ℕ × ℕ → ℝ,
        (∀ n, (lightCurve3 roots u ρ u1 delta_c regions m c ws n)[i]? = some (v n)) ∧
        (i < m → Tendsto v (atTop ×ˢ atTop) (𝓝 (limbMag (triple u.s u.q u.q3 u.r3 u.psi) ws[i] ρ u1))) ∧
        (m ≤ i → ∃ mu err, magHexadecapole 3 (midParams3 u) (images3 roots (midParams3 u) (ws[i] - xCM u)) ρ u1
          = .ok (mu, err) ∧ ∀ n, v n = mu) := by
  have hsel := fun n : ℕ × ℕ => C31_selection roots (fun w => magUniform 3 u w ρ n.1 n.2 (regions w))
    (fun w => magLimbDark 3 u w ρ u1 delta_c n.1 n.2 (regions w)) ws ρ u1 m c hc u
  refine ⟨fun n => (hsel n).1, fun i hi => ?_⟩
  obtain ⟨mu, err, hmu, -⟩ := (hsel (0, 0)).2 i hi
  have hval : ∀ n, (lightCurve3 roots u ρ u1 delta_c regions m c ws n)[i]? = some (if i < m then
      (if u1 = 0 then magUniform 3 u ws[i] ρ n.1 n.2 (regions ws[i])
        else magLimbDark 3 u ws[i] ρ u1 delta_c n.1 n.2 (regions ws[i])) else mu) := by
    intro n
    obtain ⟨mu', err', g1, g2⟩ := (hsel n).2 i hi
    rw [hmu, Except.ok.injEq, Prod.mk.injEq] at g1
    rw [lightCurve3, g2, g1.1]
  refine ⟨_, hval, fun h => ?_, fun h => ⟨mu, err, hmu, fun n => ?_⟩⟩
  · simp only [h, if_true]
    exact full_converges3 u ρ u1 delta_c hq hq3 hρ h1 ws[i] _ (hR _ (List.getElem_mem hi)) (hcov _ (List.getElem_mem hi))
  · rw [if_neg (by omega)]

theorem limbMag_triple_mid (u : UserParams) (hq : 0 < u.q) (hq3 : 0 < u.q3) (w : ℂ) (ρ u1 : ℝ) :
    limbMag (triple u.s u.q u.q3 u.r3 u.psi) w ρ u1 = limbMag (midTriple (midParams3 u)) (w - xCM u) ρ u1 := by
  rw [← (C08_triple_frame u (by positivity) (by positivity)).1]
  conv_lhs => rw [show w = (w - xCM u) + xCM u by ring]
  exact limbMag_translate _ _ _ _ _

/-- The multipole value for one regular source, with the third lens on the axis. -/
theorem multi3_small (roots : Option (List ℂ) → List ℂ → List ℂ) (u : UserParams) (u1 : ℝ) (hs : u.s ≠ 0) (hq : 0 < u.q)
    (hq3 : 0 < u.q3) (hr1 : r3Complex (midParams3 u) ≠ (midParams3 u).a)
    (hr2 : r3Complex (midParams3 u) ≠ -(midParams3 u).a) (haxis : r3Complex (midParams3 u) = (midParams3 u).r3)
    (h0 : 0 ≤ u1) (h1 : u1 < 1) (w : ℂ) (H : RegularSource3 roots u w) :
    ∃ K ρ₀ : ℝ, 0 < ρ₀ ∧ ∀ ρ, 0 < ρ → ρ < ρ₀ → ∃ mu err,
      magHexadecapole 3 (midParams3 u) (images3 roots (midParams3 u) (w - xCM u)) ρ u1 = .ok (mu, err) ∧
      |mu - limbMag (triple u.s u.q u.q3 u.r3 u.psi) w ρ u1| ≤ K * ρ ^ 5 := by
  obtain ⟨hm, hsum⟩ := mass3_pos u hq hq3
  set p := midParams3 u with hp
  have ha : p.a ≠ 0 := by simp [hp, midParams3, hs]
  have he3 : 0 < 1 - p.e1 - p.e2 := hm 2
  obtain ⟨c1, c2, c3, -⟩ := triple_count roots p (w - xCM u) ha hr1 hr2 (hm 0) (hm 1) (by linarith) _ rfl _ rfl
    H.roots_all H.off1 H.off2 H.off3 H.simple H.sep _ rfl
  have hcrit : ∀ z, IsImage (midTriple p) (w - xCM u) z → jacDet (lensMap (midTriple p)) z ≠ 0 :=
    fun z hz => (c3 z ((c1 z).mpr hz)).1
  have hac : (p.a : ℂ) ≠ 0 := by exact_mod_cast ha
  have hnd : ((midTriple p).map Prod.snd).Nodup := by
    simp only [midTriple, List.map_cons, List.map_nil, List.nodup_cons, List.mem_cons, List.not_mem_nil,
      not_false_eq_true, List.nodup_nil, and_true, or_false, not_or]
    exact ⟨⟨fun h => hac (by linear_combination h / 2), fun h => hr1 h.symm⟩, fun h => hr2 h.symm⟩
  have hm0 : ∀ l ∈ midTriple p, l.1 ≠ 0 := by
    intro l hl
    simp only [midTriple, List.mem_cons, List.not_mem_nil, or_false] at hl
    rcases hl with rfl | rfl | rfl
    · exact (hm 0).ne'
    · exact (hm 1).ne'
    · exact he3.ne'
  obtain ⟨K, ρ₀, hρ₀, hK⟩ := limb_multipole (midTriple p) hm0 hnd (w - xCM u) hcrit u1 h0 h1
    (images3 roots p (w - xCM u)) c2 c1
  refine ⟨K, ρ₀, hρ₀, fun ρ hρ hlt => ⟨_, _, magHex_eq 3 (by simp) p _ ρ u1, ?_⟩⟩
  have hL : hexLens 3 p = midTriple p := by simp [hexLens, realTriple, midTriple, haxis]
  rw [hL, limbMag_triple_mid u hq hq3, abs_sub_comm]
  exact (hK ρ hρ hlt).1

/-- **C116, small sources**: three lenses on a line (`psi` a multiple of `π` with `r3 e^{i psi} = r3`).  For every finite
list of regular source positions there are a constant and a radius below which every entry of the light curve converges to
within `K ρ⁵` of the exact finite-source magnification, however many full evaluations are allowed.  Missing for the full
property: a third lens off the axis, see `C116_far_violated`. -/
theorem C116_small_sources_partial (roots : Option (List ℂ) → List ℂ → List ℂ) (u : UserParams) (u1 : ℝ) (hs : u.s ≠ 0)
    (hq : 0 < u.q) (hq3 : 0 < u.q3) (hr1 : r3Complex (midParams3 u) ≠ (midParams3 u).a)
    (hr2 : r3Complex (midParams3 u) ≠ -(midParams3 u).a) (haxis : r3Complex (midParams3 u) = (midParams3 u).r3)
    (h0 : 0 ≤ u1) (h1 : u1 < 1) (ws : List ℂ) (hws : ∀ w ∈ ws, RegularSource3 roots u w) :
    ∃ K ρ₀ : ℝ, 0 < ρ₀ ∧ ∀ (ρ delta_c : ℝ), 0 < ρ → ρ < ρ₀ → ∀ regions : ℂ → List ((ℝ × ℝ) × (ℝ × ℝ)),
      (∀ w ∈ ws, ∀ r ∈ regions w, ProperRegion r) →
      (∀ w ∈ ws, CoversOnce (regions w) (imageOfDisc (triple u.s u.q u.q3 u.r3 u.psi) w ρ)) → ∀ m c : ℕ, 1 ≤ c →
      ∀ (i : ℕ) (hi : i < ws.length), ∃ (v : ℕ × ℕ → ℝ) (l : ℝ),
        (∀ n, (lightCurve3 roots u ρ u1 delta_c regions m c ws n)[i]? = some (v n)) ∧
        Tendsto v (atTop ×ˢ atTop) (𝓝 l) ∧ |l - limbMag (triple u.s u.q u.q3 u.r3 u.psi) ws[i] ρ u1| ≤ K * ρ ^ 5 := by
  have key : ∃ K ρ₀ : ℝ, 0 ≤ K ∧ 0 < ρ₀ ∧ ∀ w ∈ ws, ∀ (ρ : ℝ), 0 < ρ → ρ < ρ₀ → ∃ mu err,
      magHexadecapole 3 (midParams3 u) (images3 roots (midParams3 u) (w - xCM u)) ρ u1 = .ok (mu, err) ∧
      |mu - limbMag (triple u.s u.q u.q3 u.r3 u.psi) w ρ u1| ≤ K * ρ ^ 5 := by
    induction ws with
    | nil => exact ⟨0, 1, le_rfl, one_pos, fun w hw => absurd hw (List.not_mem_nil)⟩
    | cons w ws ih =>
      obtain ⟨K, ρ₀, hK, hρ₀, h⟩ := ih fun v hv => hws v (List.mem_cons_of_mem _ hv)
      obtain ⟨K', ρ₀', hρ₀', h'⟩ := multi3_small roots u u1 hs hq hq3 hr1 hr2 haxis h0 h1 w (hws w List.mem_cons_self)
      refine ⟨max K K', min ρ₀ ρ₀', hK.trans (le_max_left _ _), lt_min hρ₀ hρ₀', fun v hv ρ hρ hlt => ?_⟩
      rcases List.mem_cons.mp hv with rfl | hv
      · obtain ⟨mu, err, g1, g2⟩ := h' ρ hρ (hlt.trans_le (min_le_right _ _))
        exact ⟨mu, err, g1, g2.trans (mul_le_mul_of_nonneg_right (le_max_right _ _) (by positivity))⟩
      · obtain ⟨mu, err, g1, g2⟩ := h v hv ρ hρ (hlt.trans_le (min_le_left _ _))
        exact ⟨mu, err, g1, g2.trans (mul_le_mul_of_nonneg_right (le_max_left _ _) (by positivity))⟩
  obtain ⟨K, ρ₀, hK, hρ₀, h⟩ := key
  refine ⟨K, ρ₀, hρ₀, fun ρ delta_c hρ hlt regions hR hcov m c hc i hi => ?_⟩
  obtain ⟨v, k1, k2, k3⟩ := (C116_light_curve_partial roots u ρ u1 delta_c hq hq3 hρ h1 ws regions hR hcov m c hc).2 i hi
  by_cases him : i < m
  · refine ⟨v, _, k1, k2 him, ?_⟩
    rw [sub_self, abs_zero]; positivity
  · obtain ⟨mu, err, g1, g2⟩ := k3 (by omega)
    obtain ⟨mu', err', g3, g4⟩ := h ws[i] (List.getElem_mem hi) ρ hρ hlt
    rw [g1, Except.ok.injEq, Prod.mk.injEq] at g3
    refine ⟨v, mu, k1, ?_, by rw [g3.1]; exact g4⟩
    rw [show v = fun _ => mu from funext g2]
    exact tendsto_const_nhds

/-! ### The third lens off the axis -/

theorem continuous_sumTerms (wk : ℂ → ℕ → ℂ) (zs : List (ℂ × Bool)) (u1 : ℝ) :
    Continuous fun ρ : ℝ => (sumTerms wk zs ρ u1).1 := by
  simp only [sumTerms, List.map_map, Function.comp_def]
  induction zs with
  | nil => simpa using continuous_const
  | cons a zs ih =>
    simp only [List.map_cons, List.sum_cons]
    refine Continuous.add ?_ ih
    simp only [cassan]
    fun_prop

/-- Two terms of a sum of non-negative terms. -/
theorem two_le_sum (l : List ℂ) (hnd : l.Nodup) (f : ℂ → ℝ) (hf : ∀ z, 0 ≤ f z) (a b : ℂ) (ha : a ∈ l) (hb : b ∈ l)
    (hab : a ≠ b) : f a + f b ≤ (l.map f).sum := by
  classical
  rw [← List.sum_toFinset _ hnd, ← Finset.sum_pair hab]
  refine Finset.sum_le_sum_of_subset_of_nonneg ?_ fun z _ _ => hf z
  intro z hz
  rcases Finset.mem_insert.mp hz with rfl | hz
  · exact List.mem_toFinset.mpr ha
  · rw [Finset.mem_singleton.mp hz]; exact List.mem_toFinset.mpr hb

theorem detFormula_le_one (L : Lenses) (z : ℂ) : detFormula L z ≤ 1 := by
  unfold detFormula; nlinarith [sq_nonneg ‖(L.map fun l => (l.1 : ℂ) / (conj z - conj l.2) ^ 2).sum‖]

theorem continuousAt_detFormula (L : Lenses) (z₀ : ℂ) (h : ∀ l ∈ L, z₀ ≠ l.2) : ContinuousAt (detFormula L) z₀ := by
  have h1 : ContinuousAt (fun z : ℂ => (L.map fun l => (l.1 : ℂ) / (conj z - conj l.2) ^ 2).sum) z₀ := by
    induction L with
    | nil => simpa using continuousAt_const
    | cons a L ih =>
      simp only [List.map_cons, List.sum_cons]
      refine ContinuousAt.add ?_ (ih fun l hl => h l (List.mem_cons_of_mem _ hl))
      refine ContinuousAt.div continuousAt_const ?_ ?_
      · exact ((Complex.continuous_conj.sub continuous_const).pow 2).continuousAt
      · refine pow_ne_zero 2 ?_
        rw [← map_sub]
        exact (map_ne_zero (starRingEnd ℂ)).mpr (sub_ne_zero.mpr (h a List.mem_cons_self))
  exact continuousAt_const.sub (h1.norm.pow 2)

/-- Far out the determinant is positive. -/
theorem detFormula_far (L : Lenses) : ∃ B : ℝ, ∀ z : ℂ, B ≤ ‖z‖ → 0 < detFormula L z := by
  have h1 : Tendsto (fun z : ℂ => (L.map fun l => (l.1 : ℂ) / (conj z - conj l.2) ^ 2).sum) (comap norm atTop) (𝓝 0) := by
    induction L with
    | nil => simp
    | cons a L ih =>
      simp only [List.map_cons, List.sum_cons]
      rw [show (0 : ℂ) = 0 + 0 by ring]
      refine Tendsto.add ?_ ih
      rw [tendsto_zero_iff_norm_tendsto_zero]
      have hn : Tendsto (fun z : ℂ => ‖conj z - conj a.2‖) (comap norm atTop) atTop := by
        refine tendsto_atTop_mono (f := fun z : ℂ => ‖z‖ - ‖a.2‖) (fun z => ?_) ?_
        · rw [← map_sub, Complex.norm_conj]; exact norm_sub_norm_le z a.2
        · exact tendsto_atTop_add_const_right _ _ tendsto_comap
      have := ((tendsto_pow_atTop two_ne_zero).comp hn).const_div_atTop ‖(a.1 : ℂ)‖
      simpa [norm_div, norm_pow, Function.comp_def] using this
  have h2 : Tendsto (detFormula L) (comap norm atTop) (𝓝 1) := by
    have := (tendsto_const_nhds (x := (1 : ℝ)) (f := comap (norm : ℂ → ℝ) atTop)).sub (h1.norm.pow 2)
    have e : detFormula L = fun z : ℂ => 1 - ‖(L.map fun l => (l.1 : ℂ) / (conj z - conj l.2) ^ 2).sum‖ ^ 2 := rfl
    rw [e]
    simpa using this
  have h3 : ∀ᶠ z in comap (norm : ℂ → ℝ) atTop, 0 < detFormula L z := h2.eventually (lt_mem_nhds one_pos)
  rw [eventually_comap] at h3
  obtain ⟨B, hB⟩ := eventually_atTop.mp h3
  exact ⟨B, fun z hz => hB _ hz z rfl⟩

/-- **C116 does not hold if the third lens is off the axis**: there are an amount `δ > 0` and a distance `W`, depending on the
lens only, such that for every source beyond `W`, every limb darkening, every sufficiently small radius, however the full
solver is chosen, every entry of the light curve after the first `MAX_FULL_CALLS` exceeds the exact finite-source magnification by at
least `δ`. -/
theorem C116_far_violated (u : UserParams) (hs : u.s ≠ 0) (hq : 0 < u.q) (hq3 : 0 < u.q3)
    (hr1 : r3Complex (midParams3 u) ≠ (midParams3 u).a) (hr2 : r3Complex (midParams3 u) ≠ -(midParams3 u).a)
    (hr3 : r3Complex (midParams3 u) ≠ (midParams3 u).r3)
    (hdet : detFormula (realTriple (midParams3 u)) (r3Complex (midParams3 u)) ≠ 0) :
    ∃ δ W : ℝ, 0 < δ ∧ 0 < W ∧ ∀ w : ℂ, W ≤ ‖w‖ → ∀ roots : Option (List ℂ) → List ℂ → List ℂ,
      IsRootList (tripleCoeffs u w) (roots none (tripleCoeffs u w)) → ∀ u1, 0 ≤ u1 → u1 < 1 →
      ∃ ρ₀ > 0, ∀ ρ, 0 < ρ → ρ < ρ₀ → ∀ (unif limb : ℂ → ℝ) (ws : List ℂ) (m c : ℕ), 1 ≤ c →
        ∀ (i : ℕ) (hi : i < ws.length), m ≤ i → ws[i] = w →
        ∃ v, (magTriple roots unif limb ws ρ u1 m c u)[i]? = some v ∧
          limbMag (triple u.s u.q u.q3 u.r3 u.psi) w ρ u1 + δ ≤ v := by
  obtain ⟨hm, hsum⟩ := mass3_pos u hq hq3
  obtain ⟨C, W1, hW1, hfarmag⟩ := C110_triple_far u hs hq hq3 hr1 hr2
  set p := midParams3 u with hp
  have ha : p.a ≠ 0 := by simp [hp, midParams3, hs]
  obtain ⟨e, D, d, W2, he, hW2, hfar⟩ := far_shifted (mass3 p) (pos3 p) hm hsum (pos3_inj p ha hr1 hr2) (xCM u)
  -- the wrong determinant near the third lens
  have hcont : ContinuousAt (detFormula (realTriple p)) (r3Complex p) := by
    refine continuousAt_detFormula _ _ fun l hl => ?_
    simp only [realTriple, List.mem_cons, List.not_mem_nil, or_false] at hl
    rcases hl with rfl | rfl | rfl
    · exact hr1
    · exact hr2
    · exact hr3
  set D0 := |detFormula (realTriple p) (r3Complex p)| with hD0
  have hD0pos : 0 < D0 := abs_pos.mpr hdet
  obtain ⟨η, hη, hnear⟩ : ∃ η > 0, ∀ z, ‖z - r3Complex p‖ < η → 1 / (2 * D0) ≤ 1 / |detFormula (realTriple p) z| := by
    have h1 : ∀ᶠ z in 𝓝 (r3Complex p), |detFormula (realTriple p) z| ∈ Set.Ioo (D0 / 2) (2 * D0) :=
      hcont.abs.eventually (Ioo_mem_nhds (by linarith) (by linarith))
    obtain ⟨η, hη, h⟩ := Metric.eventually_nhds_iff.mp h1
    refine ⟨η, hη, fun z hz => ?_⟩
    obtain ⟨k1, k2⟩ := h (by rwa [dist_eq_norm])
    exact one_div_le_one_div_of_le (by linarith) k2.le
  obtain ⟨B, hB⟩ := detFormula_far (realTriple p)
  set δ : ℝ := 1 / (2 * D0) / 4 with hδ
  have hδpos : 0 < δ := by positivity
  refine ⟨δ, 1 + W1 + W2 + 16 / η + 4 * (|B| + D + 1) + |C| / δ + 1, hδpos, by
    have := abs_nonneg B
    have hD : 0 ≤ D := by
      have hx : W2 ≤ ‖(W2 : ℂ)‖ := by rw [Complex.norm_of_nonneg hW2.le]
      exact (norm_nonneg _).trans ((hfar _ hx).1.hc 0)
    positivity, fun w hw roots hroots u1 h0 h1 => ?_⟩
  have hBn := abs_nonneg B
  have hηn : 0 < 16 / η := by positivity
  have hCn : 0 ≤ |C| / δ := by positivity
  have hD : 0 ≤ D := by
    have hx : W2 ≤ ‖(W2 : ℂ)‖ := by rw [Complex.norm_of_nonneg hW2.le]
    exact (norm_nonneg _).trans ((hfar _ hx).1.hc 0)
  obtain ⟨F, hhalf⟩ := hfar w (by linarith)
  obtain ⟨-, -, b1, b2, b3, b4⟩ := triple_far_roots p ha hr1 hr2 (hm 0).ne' (hm 1).ne' (hm 2).ne' F _ hroots _ rfl
  set zs := (roots none (tripleCoeffs u w)).map (· + shiftCM p.a (r3Complex p) p.e1 p.e2) with hzs
  have hmag : (sumTerms (wk3 p) (images3 roots p (w - xCM u)) 0 u1).1
      = ((accepted (midTriple p) (1 / 10 ^ 3) (w - xCM u) zs).map fun z => 1 / |detFormula (realTriple p) z|).sum := by
    have h2 := magHex_zero 3 (by simp) p (images3 roots p (w - xCM u)) u1
    have h3 : magHexadecapole 3 p (images3 roots p (w - xCM u)) 0 u1
        = .ok (sumTerms (wk3 p) (images3 roots p (w - xCM u)) 0 u1) := rfl
    rw [h3, Except.ok.injEq] at h2
    rw [h2]
    simp only
    rw [images3, sumMag_withMask, accepted]
    simp only [lensEq3_eq]
    rfl
  -- the image at the third lens and the far image
  obtain ⟨z1, hz1, k1⟩ := F.kind_surj zs b1 b2 b4 (some (2, 2))
  obtain ⟨z2, hz2, k2⟩ := F.kind_surj zs b1 b2 b4 none
  have i1 := image_accepted zs b3 (1 / 10 ^ 3) (by norm_num) z1 (F.diag_image z1 (b2 z1 hz1) 2 k1)
  have i2 := image_accepted zs b3 (1 / 10 ^ 3) (by norm_num) z2 (F.far_image z2 (b2 z2 hz2) k2)
  rw [lensList3] at i1 i2
  have hR := F.Rpos
  have n1 : ‖z1 - r3Complex p‖ < η := by
    have : ‖z1 - r3Complex p‖ < 4 / ‖w - xCM u‖ := k1.1
    refine this.trans_le ?_
    rw [div_le_iff₀ hR]
    have : 16 / η ≤ ‖w‖ := by linarith
    rw [div_le_iff₀ hη] at this
    nlinarith
  have n2 : 0 < detFormula (realTriple p) z2 := by
    refine hB z2 ?_
    have q1 : ‖w - xCM u‖ / 2 ≤ ‖z2 - pos3 p 0‖ := k2.1 0
    have q2 := norm_sub_le z2 (pos3 p 0)
    have q3 := F.hc 0
    linarith [le_abs_self B]
  have hne : z1 ≠ z2 := by
    rintro rfl
    have q1 : ‖w - xCM u‖ / 2 ≤ ‖z1 - pos3 p 2‖ := k2.1 2
    have q2 : ‖z1 - pos3 p 2‖ < 4 / ‖w - xCM u‖ := k1.1
    have q3 : 4 / ‖w - xCM u‖ ≤ 1 := by rw [div_le_one hR]; exact F.h4
    linarith [F.h4]
  have hlow : 4 * δ + 1 ≤ (sumTerms (wk3 p) (images3 roots p (w - xCM u)) 0 u1).1 := by
    rw [hmag]
    refine le_trans ?_ (two_le_sum _ (b1.filter _) _ (fun z => by positivity) z1 z2 i1 i2 hne)
    have q1 := hnear z1 n1
    have q2 : 1 ≤ 1 / |detFormula (realTriple p) z2| := by
      rw [abs_of_pos n2, le_div_iff₀ n2, one_mul]; exact detFormula_le_one _ _
    have : 4 * δ = 1 / (2 * D0) := by rw [hδ]; ring
    linarith
  -- small radii
  have hev : ∀ᶠ ρ in 𝓝 (0 : ℝ), 3 * δ + 1 < (sumTerms (wk3 p) (images3 roots p (w - xCM u)) ρ u1).1 :=
    (continuous_sumTerms (wk3 p) (images3 roots p (w - xCM u)) u1).continuousAt.eventually (lt_mem_nhds (by linarith))
  obtain ⟨ρ₀, hρ₀, hsmall⟩ := Metric.eventually_nhds_iff.mp hev
  refine ⟨min ρ₀ 1, lt_min hρ₀ one_pos, fun ρ hρ hlt unif limb ws m c hc i hi hmi hwi => ?_⟩
  obtain ⟨mu, err, g1, g2⟩ := (C31_selection roots unif limb ws ρ u1 m c hc u).2 i hi
  rw [if_neg (by omega)] at g2
  refine ⟨mu, g2, ?_⟩
  have hmu : mu = (sumTerms (wk3 p) (images3 roots p (w - xCM u)) ρ u1).1 := by
    rw [hwi] at g1
    have h3 : magHexadecapole 3 p (images3 roots p (w - xCM u)) ρ u1
        = .ok (sumTerms (wk3 p) (images3 roots p (w - xCM u)) ρ u1) := rfl
    rw [h3, Except.ok.injEq] at g1
    rw [g1]
  have hρ1 : ρ < 1 := hlt.trans_le (min_le_right _ _)
  have hbig := hsmall (y := ρ) (by
    rw [Real.dist_eq, sub_zero, abs_of_pos hρ]; exact hlt.trans_le (min_le_left _ _))
  -- the true magnification
  obtain ⟨B', hB', hp', hcov⟩ := annulus_covers (userLens 3 u) w ρ
  obtain ⟨A, A', -, -, -, t1, -, t2⟩ := hfarmag w ρ u1 0 hρ h0 h1 (by linarith) [((0, B'), (0, 2 * Real.pi))]
    (fun R hR => by rw [List.mem_singleton.mp hR]; exact hp') hcov
  have hA : A' = limbMag (triple u.s u.q u.q3 u.r3 u.psi) w ρ u1 := by
    have hul : userLens 3 u = triple u.s u.q u.q3 u.r3 u.psi := by simp [userLens]
    rw [← hul]
    exact tendsto_nhds_unique t1 (C72_limb_converges 3 u w ρ u1 0 hρ (by linarith) (by positivity) (fun _ => by positivity)
      _ (fun R hR => by rw [List.mem_singleton.mp hR]; exact hp') hcov)
  have hx : |C| / δ + 1 ≤ ‖w‖ - ρ := by linarith
  have hx1 : 1 ≤ ‖w‖ - ρ := by linarith
  have ht : C / (‖w‖ - ρ) ^ 4 ≤ δ := by
    rw [div_le_iff₀ (by positivity)]
    have y1 : ‖w‖ - ρ ≤ (‖w‖ - ρ) ^ 4 := by simpa using pow_le_pow_right₀ hx1 (show 1 ≤ 4 by norm_num)
    have y2 : |C| ≤ δ * (‖w‖ - ρ) := by
      have : |C| / δ ≤ ‖w‖ - ρ := by linarith
      rw [div_le_iff₀ hδpos] at this; linarith
    calc C ≤ |C| := le_abs_self C
      _ ≤ δ * (‖w‖ - ρ) := y2
      _ ≤ δ * (‖w‖ - ρ) ^ 4 := mul_le_mul_of_nonneg_left y1 hδpos.le
  rw [← hA, hmu]
  linarith

/-! ### The hypotheses can be met -/

/-- Far sources are regular for every root finder that returns all roots, if the lenses are further apart than the tolerance
of the mask. -/
theorem regularSource3_far (u : UserParams) (hs : u.s ≠ 0) (hq : 0 < u.q) (hq3 : 0 < u.q3)
    (h12 : 2e-3 < |2 * (midParams3 u).a|) (h13 : 2e-3 < ‖r3Complex (midParams3 u) - (midParams3 u).a‖)
    (h23 : 2e-3 < ‖r3Complex (midParams3 u) + (midParams3 u).a‖) :
    ∃ W : ℝ, ∀ w : ℂ, W ≤ ‖w‖ → ∀ roots : Option (List ℂ) → List ℂ → List ℂ,
      (∀ c : List ℂ, c.headD 0 ≠ 0 → IsRootList c (roots none c)) → RegularSource3 roots u w := by
  obtain ⟨hm, hsum⟩ := mass3_pos u hq hq3
  set p := midParams3 u with hp
  have ha : p.a ≠ 0 := by simp [hp, midParams3, hs]
  have hr1 : r3Complex p ≠ p.a := by rintro h; rw [h, sub_self, norm_zero] at h13; norm_num at h13
  have hr2 : r3Complex p ≠ -p.a := by rintro h; rw [h, neg_add_cancel, norm_zero] at h23; norm_num at h23
  obtain ⟨e, D, d, W, hW, hfar⟩ := far_margin (mass3 p) (pos3 p) hm hsum (pos3_inj p ha hr1 hr2) 1e-3 (by norm_num)
  refine ⟨W + ‖(xCM u : ℂ)‖, fun w hw roots hr => ?_⟩
  obtain ⟨F, h8⟩ := hfar (w - xCM u) (by linarith [norm_sub_norm_le w (xCM u : ℂ)])
  have hne : ∀ i, w - xCM u ≠ pos3 p i := by
    intro i h
    have h1 := F.hc i
    have h2 := F.hD
    rw [h] at h2
    linarith [norm_nonneg (pos3 p i)]
  obtain ⟨hw1, hw2, hw3⟩ := (forall3 p fun c => w - xCM u ≠ c).mp hne
  have hhead : (tripleCoeffs u w).headD 0 ≠ 0 := by
    rw [tripleCoeffs, (triple_head _ _ _ _ _).2]
    have hi : ∀ x : ℂ, x ≠ 0 → conj x ≠ 0 := fun x hx => by simpa using hx
    refine mul_ne_zero (mul_ne_zero (hi _ (sub_ne_zero.mpr hw1)) (hi _ ?_)) (hi _ (sub_ne_zero.mpr hw3))
    exact fun hc => hw2 (by linear_combination hc)
  have hroots := hr _ hhead
  obtain ⟨-, b0, b1, b2, b3, b4⟩ := triple_far_roots p ha hr1 hr2 (hm 0).ne' (hm 1).ne' (hm 2).ne' F _ hroots _ rfl
  obtain ⟨c1, -⟩ := far_accepted_exact F _ b1 b2 b3 b4 1e-3 (by norm_num) (fun i j hij => by
    have := pos3_dist p (fun x => 2e-3 < x) h12 h13 h23 i j hij
    norm_num at h8 this ⊢
    linarith)
  rw [lensList3] at c1
  refine ⟨hroots, hw1, hw2, hw3, b0, fun r hr' hlt => ?_⟩
  rw [lensEq3_eq] at hlt ⊢
  exact ((c1 _).mp ((mem_accepted _ _ _ _ _).mpr ⟨List.mem_map.mpr ⟨r, hr', rfl⟩, hlt⟩)).2

/-- Three equal lenses on a line, a light curve of `k` points at a distance, an annulus as region: every entry converges to
within a hundredth of the magnification. -/
example (u1 : ℝ) (h0 : 0 ≤ u1) (h1 : u1 < 1) (k m c : ℕ) (hc : 1 ≤ c) :
    ∃ (roots : Option (List ℂ) → List ℂ → List ℂ) (w : ℂ), ∃ ρ > 0, ∃ regions : ℂ → List ((ℝ × ℝ) × (ℝ × ℝ)),
      ∀ i < k, ∃ (v : ℕ × ℕ → ℝ) (l : ℝ),
        (∀ n, (lightCurve3 roots ⟨1, 1, 1, 2, 0⟩ ρ u1 0 regions m c (List.replicate k w) n)[i]? = some (v n)) ∧
        Tendsto v (atTop ×ˢ atTop) (𝓝 l) ∧ |l - limbMag (triple 1 1 1 2 0) w ρ u1| ≤ 1 / 100 := by
  obtain ⟨roots, hr⟩ := exists_exact_roots
  have hrc : r3Complex (midParams3 ⟨1, 1, 1, 2, 0⟩) = 2 := by simp [r3Complex, midParams3]
  have hac : (midParams3 ⟨1, 1, 1, 2, 0⟩).a = 1 / 2 := by norm_num [midParams3]
  obtain ⟨W, hreg⟩ := regularSource3_far ⟨1, 1, 1, 2, 0⟩ one_ne_zero one_pos one_pos (by rw [hac]; norm_num)
    (by rw [hac, hrc]; norm_num) (by rw [hac, hrc]; norm_num)
  set w : ℂ := ((|W| : ℝ) : ℂ) with hw
  have hn : ‖w‖ = |W| := by rw [hw, Complex.norm_of_nonneg (abs_nonneg W)]
  have hws : ∀ v ∈ List.replicate k w, RegularSource3 roots ⟨1, 1, 1, 2, 0⟩ v := by
    intro v hv
    obtain rfl := (List.mem_replicate.mp hv).2
    exact hreg _ (by rw [hn]; exact le_abs_self W) roots fun c hc => hr none c hc
  obtain ⟨K, ρ₀, hρ₀, h⟩ := C116_small_sources_partial roots ⟨1, 1, 1, 2, 0⟩ u1 one_ne_zero one_pos one_pos
    (by rw [hac, hrc]; norm_num) (by rw [hac, hrc]; norm_num) (by rw [hrc]; simp [midParams3]) h0 h1
    (List.replicate k w) hws
  set ρ : ℝ := min (ρ₀ / 2) (1 / (100 * (|K| + 1))) with hρdef
  have hρ : 0 < ρ := lt_min (by linarith) (by positivity)
  have hρ1 : ρ ≤ 1 / (100 * (|K| + 1)) := min_le_right _ _
  obtain ⟨B, hB, hp, hcov⟩ := annulus_covers (triple 1 1 1 2 0) w ρ
  refine ⟨roots, w, ρ, hρ, fun _ => [((0, B), (0, 2 * Real.pi))], fun i hi => ?_⟩
  obtain ⟨v, l, k1, k2, k3⟩ := h ρ 0 hρ (lt_of_le_of_lt (min_le_left _ _) (by linarith))
    (fun _ => [((0, B), (0, 2 * Real.pi))]) (fun w _ r hr => by rw [List.mem_singleton.mp hr]; exact hp)
    (fun v hv => by obtain rfl := (List.mem_replicate.mp hv).2; exact hcov) m c hc i (by simpa using hi)
  refine ⟨v, l, k1, k2, ?_⟩
  rw [List.getElem_replicate] at k3
  refine k3.trans ?_
  have e1 : ρ ≤ 1 := hρ1.trans (by rw [div_le_one (by positivity)]; linarith [abs_nonneg K])
  have e2 : ρ ^ 5 ≤ ρ := by simpa using pow_le_pow_of_le_one hρ.le e1 (show 1 ≤ 5 by norm_num)
  calc K * ρ ^ 5 ≤ |K| * ρ ^ 5 := mul_le_mul_of_nonneg_right (le_abs_self K) (by positivity)
    _ ≤ (|K| + 1) * ρ := by nlinarith [abs_nonneg K, pow_pos hρ 5]
    _ ≤ (|K| + 1) * (1 / (100 * (|K| + 1))) := mul_le_mul_of_nonneg_left hρ1 (by positivity)
    _ = 1 / 100 := by field_simp

/-- Three equal lenses with the third at `psi = π`: a complete root finder, a source, a radius and an entry that is too
large. -/
example : ∃ (roots : Option (List ℂ) → List ℂ → List ℂ) (w : ℂ) (ρ δ v : ℝ), 0 < ρ ∧ 0 < δ ∧
    (magTriple roots (fun _ => 0) (fun _ => 0) [0, w] ρ 0 1 1 ⟨1, 1, 1, 2, Real.pi⟩)[1]? = some v ∧
    limbMag (triple 1 1 1 2 Real.pi) w ρ 0 + δ ≤ v := by
  obtain ⟨roots, hr⟩ := exists_exact_roots
  have hrc : r3Complex (midParams3 ⟨1, 1, 1, 2, Real.pi⟩) = -2 := by
    simp only [r3Complex, midParams3]; rw [mul_comm I, Complex.exp_pi_mul_I]; push_cast; ring
  have hac : (midParams3 ⟨1, 1, 1, 2, Real.pi⟩).a = 1 / 2 := by norm_num [midParams3]
  obtain ⟨δ, W, hδ, hW, h⟩ := C116_far_violated ⟨1, 1, 1, 2, Real.pi⟩ one_ne_zero one_pos one_pos
    (by rw [hac, hrc]; norm_num) (by rw [hac, hrc]; norm_num) (by rw [hrc]; simp [midParams3]; norm_num) (by
      rw [hrc]
      have h2 : ((starRingEnd ℂ) 2 : ℂ) = 2 := Complex.conj_ofNat 2
      simp only [detFormula, realTriple, midParams3]
      norm_num [h2])
  obtain ⟨W', hreg⟩ := regularSource3_far ⟨1, 1, 1, 2, Real.pi⟩ one_ne_zero one_pos one_pos (by rw [hac]; norm_num)
    (by rw [hac, hrc]; norm_num) (by rw [hac, hrc]; norm_num)
  set w : ℂ := ((W + |W'| : ℝ) : ℂ) with hw
  have hn : ‖w‖ = W + |W'| := by rw [hw, Complex.norm_of_nonneg (by positivity)]
  obtain ⟨ρ₀, hρ₀, h'⟩ := h w (by rw [hn]; linarith [abs_nonneg W']) roots
    (hreg w (by rw [hn]; linarith [le_abs_self W']) roots fun c hc => hr none c hc).roots_all 0 le_rfl one_pos
  obtain ⟨v, v1, v2⟩ := h' (ρ₀ / 2) (by linarith) (by linarith) (fun _ => 0) (fun _ => 0) [0, w] 1 1 le_rfl 1 (by simp)
    le_rfl rfl
  exact ⟨roots, w, ρ₀ / 2, δ, v, by linarith, hδ, v1, v2⟩

end Microjax.Props
