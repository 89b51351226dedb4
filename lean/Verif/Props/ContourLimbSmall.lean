import Verif.Props.ContourLimbEnd
import Verif.Lemmas.ProfileModulus

/-!
# C131: small limb-darkened sources at regular positions
-/

set_option linter.unusedVariables false

noncomputable section

namespace Microjax.Props

open Complex ComplexConjugate Microjax.Spec Segments Jnp Utils Contour PointSource Limb MeasureTheory Set Filter
open scoped Topology

/-- Radii small enough for the step and closing conditions, for shifts of at most the radius. -/
theorem small_radius_shift (M κ : ℝ) (hM : 0 ≤ M) (hκ : 0 < κ) : ∃ ε : ℝ, 0 < ε ∧ ∀ rho ν : ℝ, 0 < rho → rho < ε → ν ≤ rho →
    ∀ k : ℕ, 1 ≤ k → 2 * (M * rho * (2 * Real.pi / (k : ℝ))) + 4 * ν < κ ∧ M * rho / 10 ^ 8 + 2 * ν < 1 / 10 ^ 5 := by
  have hpi := Real.pi_pos
  refine ⟨min (κ / (4 * Real.pi * M + 4)) (1 / 10 ^ 5 / (M + 2)), lt_min (by positivity) (by positivity),
    fun rho ν h0 h hν k hk => ?_⟩
  have h1 := (lt_div_iff₀ (by positivity)).mp (h.trans_le (min_le_left _ _))
  have h2 := (lt_div_iff₀ (by positivity)).mp (h.trans_le (min_le_right _ _))
  have hk' : (1 : ℝ) ≤ k := by exact_mod_cast hk
  have h3 : 2 * Real.pi / (k : ℝ) ≤ 2 * Real.pi := div_le_self (by positivity) hk'
  have h4 : M * rho * (2 * Real.pi / (k : ℝ)) ≤ M * rho * (2 * Real.pi) := mul_le_mul_of_nonneg_left h3 (by positivity)
  have h5 : 0 ≤ M * rho := by positivity
  exact ⟨by nlinarith, by norm_num at h2 ⊢; nlinarith⟩

/-- The bound for one contour of a small source, in units of the area of the disc. -/
theorem ldBound_small (M C1 rho ν : ℝ) (k N : ℕ) (hM : 0 ≤ M) (hC : 0 ≤ C1) (hrho : 0 < rho) (hν0 : 0 ≤ ν) (hν : ν ≤ rho)
    (hk : 1 ≤ k) :
    ldBound (M * rho) ν (2 * Real.pi / (k : ℝ)) (C1 * Real.sqrt ((M * rho * (2 * Real.pi / (k : ℝ)) + ν) / rho)) N
        / (Real.pi * rho ^ 2)
      ≤ (6 * (2 * Real.pi * M + 1) / Real.pi + 2 * M * (3 * (2 * Real.pi * M + 1)
          + 2 * (2 * Real.pi * M + 1) * (C1 * Real.sqrt (2 * Real.pi * M + 1))))
        * (Real.sqrt (1 / (k : ℝ) + ν / rho) + N * (ν / rho)) := by
  have hpi := Real.pi_pos
  have hk' : (1 : ℝ) ≤ k := by exact_mod_cast hk
  set A := 2 * Real.pi * M + 1 with hA
  have hA0 : 0 < A := by positivity
  set t := ν / rho with ht
  have hνt : ν = t * rho := by rw [ht]; field_simp
  have ht0 : 0 ≤ t := by positivity
  have ht1 : t ≤ 1 := (div_le_one hrho).mpr hν
  set q := 1 / (k : ℝ) with hq
  have hq0 : 0 ≤ q := by positivity
  have hq1 : q ≤ 1 := (div_le_one (by positivity)).mpr hk'
  have eh : 2 * Real.pi / (k : ℝ) = 2 * Real.pi * q := by rw [hq]; ring
  set s := Real.sqrt (q + t) with hs
  have hs0 : 0 ≤ s := Real.sqrt_nonneg _
  have hs2 : s ^ 2 = q + t := Real.sq_sqrt (by positivity)
  have hs3 : q + t ≤ 2 * s := by
    have : s ≤ 2 := Real.sqrt_le_iff.mpr ⟨by norm_num, by linarith⟩
    nlinarith
  have earg : (M * rho * (2 * Real.pi / (k : ℝ)) + ν) / rho = 2 * Real.pi * M * q + t := by
    rw [eh, hνt]; field_simp
  have hle : 2 * Real.pi * M * q + t ≤ A * (q + t) := by
    rw [hA]; nlinarith [mul_nonneg (by positivity : 0 ≤ 2 * Real.pi * M) ht0]
  have hω : C1 * Real.sqrt (2 * Real.pi * M * q + t) ≤ C1 * Real.sqrt A * s := by
    rw [mul_assoc C1 (Real.sqrt A), hs, ← Real.sqrt_mul hA0.le]
    exact mul_le_mul_of_nonneg_left (Real.sqrt_le_sqrt hle) hC
  rw [earg]
  set ω := C1 * Real.sqrt (2 * Real.pi * M * q + t) with hωd
  have hω0 : 0 ≤ ω := by positivity
  have hCA : 0 ≤ C1 * Real.sqrt A := by positivity
  set E := C1 * Real.sqrt A with hE
  have e : ldBound (M * rho) ν (2 * Real.pi / (k : ℝ)) ω N / (Real.pi * rho ^ 2)
      = 6 * N * (2 * Real.pi * M + t) * t / Real.pi
        + 2 * M * (3 / 2 * (2 * Real.pi * M * q + t) + 2 * (2 * Real.pi * M + t) * ω) := by
    unfold ldBound
    rw [eh, hνt]
    field_simp
    ring
  rw [e]
  have b1 : 6 * N * (2 * Real.pi * M + t) * t / Real.pi ≤ 6 * A / Real.pi * (N * t) := by
    have : 6 * N * (2 * Real.pi * M + t) * t / Real.pi = 6 * (2 * Real.pi * M + t) / Real.pi * (N * t) := by ring
    rw [this]
    refine mul_le_mul_of_nonneg_right ?_ (by positivity)
    exact div_le_div_of_nonneg_right (by rw [hA]; linarith) hpi.le
  have b2 : 2 * M * (3 / 2 * (2 * Real.pi * M * q + t) + 2 * (2 * Real.pi * M + t) * ω) ≤ 2 * M * (3 * A + 2 * A * E) * s := by
    rw [mul_assoc (2 * M)]
    refine mul_le_mul_of_nonneg_left ?_ (by positivity)
    have c1 : 3 / 2 * (2 * Real.pi * M * q + t) ≤ 3 * A * s := by nlinarith
    have c2 : 2 * (2 * Real.pi * M + t) * ω ≤ 2 * A * (E * s) :=
      mul_le_mul (by rw [hA]; linarith) hω hω0 (by positivity)
    nlinarith
  have p1 : 0 ≤ 6 * A / Real.pi * s := by positivity
  have p2 : 0 ≤ 2 * M * (3 * A + 2 * A * E) * (N * t) := by positivity
  nlinarith

/-- The bound on the profile that `C131_binary` and `C131_triple` ask for, for small sources. -/
theorem small_profile (L : Lenses) (hm : ∀ l ∈ L, l.1 ≠ 0) (hL : (L.map Prod.snd).Nodup) (w : ℂ) (M : ℝ) (hM : 0 ≤ M) :
    ∃ C ε : ℝ, 0 ≤ C ∧ 0 < ε ∧ ∀ rho ν, 0 < rho → rho < ε → 0 ≤ ν → ν ≤ rho → ∀ u1, 0 ≤ u1 → u1 ≤ 1 → ∀ h : ℝ, 0 ≤ h →
      ∀ x, IsImage L ((rho : ℂ) * exp (I * (-Real.pi : ℝ)) + w) x → ∀ z z', ‖z - x‖ ≤ 2 * (2 * Real.pi * (M * rho) + ν) →
        ‖z' - x‖ ≤ 2 * (2 * Real.pi * (M * rho) + ν) → ‖z - z'‖ ≤ M * rho * h + ν →
        |imageProfile L w rho u1 z - imageProfile L w rho u1 z'| ≤ C * Real.sqrt ((M * rho * h + ν) / rho) := by
  have hpi := Real.pi_pos
  obtain ⟨C, ε, hC, hε, key⟩ := small_modulus L hm hL w (2 * (2 * Real.pi * M + 1)) (by positivity)
  refine ⟨C, ε, hC, hε, fun rho ν h0 hrho hν0 hν u1 hu0 hu1 h hh x hx z z' hz hz' hd => ?_⟩
  refine (key rho h0 hrho u1 hu0 hu1 _ x ?_ hx z z' (by nlinarith) (by nlinarith)).trans
    (mul_le_mul_of_nonneg_left (Real.sqrt_le_sqrt (div_le_div_of_nonneg_right hd h0.le)) hC)
  rw [add_sub_cancel_right, norm_mul, mul_comm I, norm_exp_ofReal_mul_I, mul_one, norm_real, Real.norm_eq_abs,
    abs_of_pos h0]

/-- **C131, small sources behind a binary**: at every regular position of the source (five distinct roots, none of them
spurious within the tolerance) there are a constant and a radius such that for all smaller limb-darkened sources, all numbers
of samples and all random shifts up to the radius, `mag_extended_source` converges as the number of quadrature points grows;
the limit differs from the magnification of the disc by at most the constant times
`√(1 / (npts/2 - 1) + ν/ρ) + N ν/ρ`.  The constant depends neither on the radius nor on the limb darkening. -/
theorem C131_binary_small (roots : Option (List ℂ) → List ℂ → List ℂ) (u : UserParams) (w0 : ℂ) (hs : u.s ≠ 0) (hq : 0 < u.q)
    (hlen : ∀ init cs, (roots init cs).length = cs.length - 1)
    (hroots : ∀ init cs, cs.headD 0 ≠ 0 → IsRootList cs (roots init cs)) (κ : ℝ)
    (hκ0 : 0 < κ) (hreg : Regular2 roots u w0)
    (hκ : (roots none (polyCoeffsBinary (w0 - xCM u) (midParams2 u).a (midParams2 u).e1)).Pairwise
      fun x y => κ < ‖x - y‖) :
    ∃ C rho0 : ℝ, 0 < rho0 ∧ ∀ rho, 0 < rho → rho < rho0 → ∀ lib : Lib, lib.roots = roots →
      (∀ n, 1 ≤ n → IsGauss n (lib.leggauss n)) → ∀ ν, (∀ i k, |lib.noise i k| ≤ ν) → ν ≤ rho → ∀ npts u1, 4 ≤ npts →
      npts ≤ 2 * 10 ^ 8 → 0 ≤ u1 → u1 ≤ 1 →
      ∃ m : ℕ → ℝ, (∀ npts_ld, magExtendedSource lib 2 npts npts_ld true u u1 rho w0 = .ok (m npts_ld)) ∧
        ∃ l, Tendsto m atTop (𝓝 l) ∧ |l - limbMag (binary u.s u.q) w0 rho u1|
          ≤ C * (Real.sqrt (1 / ((npts / 2 - 1 : ℕ) : ℝ) + ν / rho) + (npts / 2 + 10 * (npts / 2 / 10) : ℕ) * (ν / rho)) := by
  have hpi := Real.pi_pos
  have hq1 : 1 + u.q ≠ 0 := by positivity
  set p := midParams2 u with hp
  have hpe : p = extParams 2 u := by simp [hp, extParams, midParams2]
  have hwe : extSource 2 u w0 = w0 - xCM u := by simp [extSource, xCM]
  have ha : p.a ≠ 0 := by simp [hp, midParams2, hs]
  obtain ⟨⟨he, he'⟩, -, -⟩ := mass2_pos u hq
  rw [← hp] at he he'
  have hdeg : ∀ v : ℂ, v ≠ p.a → v ≠ -p.a → conj v ^ 2 ≠ (p.a : ℂ) ^ 2 := by
    intro v h1 h2 h
    have h3 : v ^ 2 = (p.a : ℂ) ^ 2 := by
      have := congrArg (starRingEnd ℂ) h
      simpa using this
    rcases sq_eq_sq_iff_eq_or_eq_neg.mp h3 with h4 | h4
    · exact h1 h4
    · exact h2 h4
  have hlead : ∀ v : ℂ, v ≠ p.a → v ≠ -p.a → (polyCoeffsBinary v p.a p.e1).headD 0 ≠ 0 := by
    intro v h1 h2
    rw [binary_headD]; exact sub_ne_zero.mpr (hdeg v h1 h2)
  set w : ℂ := w0 - xCM u with hw
  obtain ⟨h1, h2, h3, h4⟩ := hreg
  rw [← hp, ← hw] at h1 h2 h3 h4
  have hr := hroots none _ (hlead _ h1 h2)
  obtain ⟨b1, -, -⟩ := binary_roots p w _ ha he he' hr (hdeg _ h1 h2) h3
  have ev1 : ∀ᶠ v : ℂ in 𝓝 w, v ≠ p.a ∧ v ≠ -p.a :=
    (isOpen_ne.eventually_mem h1).and (isOpen_ne.eventually_mem h2)
  have hcount : ∀ v : ℂ, v ≠ p.a → v ≠ -p.a → (roots none (polyCoeffsBinary v p.a p.e1)).Nodup →
      (∀ r ∈ roots none (polyCoeffsBinary v p.a p.e1), lensEq2 p r = v ∨ 1 / 10 ^ 6 < ‖lensEq2 p r - v‖) →
      ∀ z, IsImage (midBinary p) v z → jacDet (lensMap (midBinary p)) z ≠ 0 := by
    intro v v1 v2 v3 v4 z hz
    obtain ⟨c1, c2, c3, -⟩ := binary_count roots none p v ha he he' (hroots none _ (hlead _ v1 v2)) v1 v2 v3
      (fun r hr hlt => (v4 r hr).resolve_right (not_lt.mpr (by norm_num at hlt ⊢; exact hlt.le))) _ rfl
    exact (c3 z ((c1 z).mpr hz)).1
  have h4' : ∀ r ∈ roots none (polyCoeffsBinary w p.a p.e1), lensEq2 p r = w ∨ 1 / 10 ^ 6 < ‖lensEq2 p r - w‖ := by
    intro r hr
    refine (h4 r hr).imp_right fun h => ?_
    norm_num at h ⊢; exact h
  obtain ⟨M, Z, ε1, hM, hε1, hreg', hbr⟩ := small_branches (midBinary p) 5 (by norm_num)
    (fun v => polyCoeffsBinary v p.a p.e1) (fun v => roots none (polyCoeffsBinary v p.a p.e1)) w 0 (1 / 10 ^ 6)
    (fun y => (C04_binary_leading _ _ _).1) (contDiff_coeffsBinary p.a p.e1)
    (hlead _ h1 h2) (by filter_upwards [ev1] with v hv using hroots none _ (hlead v hv.1 hv.2)) κ hκ0 hκ
    (by
      filter_upwards [ev1] with v hv z hz
      rw [sub_zero]
      exact images_mem_roots_binary p v _ (hroots none _ (hlead v hv.1 hv.2)) (hdeg v hv.1 hv.2) z hz)
    (by
      intro r hr l hl
      obtain ⟨d1, -⟩ := b1 r hr
      rw [add_zero]
      simp only [midBinary, List.mem_cons, List.not_mem_nil, or_false] at hl
      rcases hl with rfl | rfl
      · exact d1.hz 0
      · exact d1.hz 1)
    (fun z hz h => hcount w h1 h2 h3 h4' z hz ((shear_eq_one_iff _ z hz.1).mpr h))
    (fun r hr => by rw [add_zero, ← lensEq2_eq]; exact h4' r hr)
  obtain ⟨ε2, hε2, hsmall⟩ := small_radius_shift M κ hM hκ0
  obtain ⟨ε3, hε3, hoff⟩ := Metric.eventually_nhds_iff_ball.mp ev1
  have hframe := (C08_binary_frame u hq1).1
  rw [← hp] at hframe
  have hw0 : w0 = w + (xCM u : ℂ) := by rw [hw]; ring
  have hac : (p.a : ℂ) ≠ 0 := by exact_mod_cast ha
  have hnd : ((midBinary p).map Prod.snd).Nodup := by
    simp only [midBinary, List.map_cons, List.map_nil, List.nodup_cons, List.mem_singleton, List.not_mem_nil,
      not_false_eq_true, List.nodup_nil, and_true]
    exact fun h => hac (by linear_combination h / 2)
  have hm0 : ∀ l ∈ midBinary p, l.1 ≠ 0 := by
    intro l hl
    simp only [midBinary, List.mem_cons, List.not_mem_nil, or_false] at hl
    rcases hl with rfl | rfl
    · exact he.ne'
    · simp only; linarith
  obtain ⟨C1, ε4, hC1, hε4, hprof⟩ := small_profile (midBinary p) hm0 hnd w M hM
  refine ⟨5 * (6 * (2 * Real.pi * M + 1) / Real.pi + 2 * M * (3 * (2 * Real.pi * M + 1)
      + 2 * (2 * Real.pi * M + 1) * (C1 * Real.sqrt (2 * Real.pi * M + 1)))), min (min ε1 ε4) (min ε2 ε3),
    lt_min (lt_min hε1 hε4) (lt_min hε2 hε3), fun rho h0 hrho lib hlib hg ν hν hνr npts u1 hn hmax hu0 hu1 => ?_⟩
  subst hlib
  have hν0 : 0 ≤ ν := (abs_nonneg _).trans (hν 0 0)
  have r4 := hrho.trans_le ((min_le_left _ _).trans (min_le_right _ _))
  have r1 := hrho.trans_le ((min_le_left _ _).trans (min_le_left _ _))
  have r2 := hrho.trans_le ((min_le_right _ _).trans (min_le_left _ _))
  have r3 := hrho.trans_le ((min_le_right _ _).trans (min_le_right _ _))
  obtain ⟨r, hB⟩ := hbr rho h0 r1
  have hk : 1 ≤ npts / 2 - 1 := by omega
  obtain ⟨s1, s2⟩ := hsmall rho ν h0 r2 hνr _ hk
  obtain ⟨m, k1, l, k2, k3⟩ := C131_binary lib npts u u1 rho w0 hs hq h0 hn hmax hlen hroots ν hν
    (by
      intro l hl h
      rw [← hframe, List.mem_map] at hl
      obtain ⟨l', hl', rfl⟩ := hl
      rw [hw0, add_sub_add_right_eq_sub] at h
      obtain ⟨f1, f2⟩ := hoff l'.2 (by rw [Metric.mem_ball, dist_eq_norm, h]; exact r3)
      simp only [midBinary, List.mem_cons, List.not_mem_nil, or_false] at hl'
      rcases hl' with rfl | rfl
      · exact f1 rfl
      · exact f2 rfl)
    (by
      intro z hz hd
      by_contra hle
      rw [not_lt] at hle
      set z' : ℂ := z - xCM u with hz'
      have ez : z = z' + xCM u := by rw [hz']; ring
      have hz0 : ∀ l ∈ midBinary p, z' ≠ l.2 := by
        intro l hl h
        refine hz (l.1, l.2 + (xCM u : ℂ)) (by rw [← hframe]; exact List.mem_map_of_mem hl) ?_
        rw [ez, h]
      rw [← hframe, ez, jacDet_translate _ _ _ hz0] at hd
      rw [← hframe, ez, lensMap_translate, hw0, add_sub_add_right_eq_sub] at hle
      set v := lensMap (midBinary p) z' with hv
      obtain ⟨f1, f2⟩ := hoff v (by rw [Metric.mem_ball, dist_eq_norm]; exact hle.trans_lt r3)
      obtain ⟨g1, g2⟩ := hreg' v (hle.trans_lt r1)
      refine hcount v f1 f2 g1 (fun r hr => ?_) z' ⟨hz0, hv.symm⟩ hd
      have := g2 r hr
      rwa [add_zero, ← lensEq2_eq] at this)
    p hpe r (M * rho) κ Z _ rfl (by
      rw [hwe]
      have e : (fun z => lensMap (midBinary p) z) = lensEq2 p := by funext z; rw [lensEq2_eq]
      rw [← e]; exact hB) s1 s2 hg hu0 hu1 (C1 * Real.sqrt ((M * rho * (2 * Real.pi / ((npts / 2 - 1 : ℕ) : ℝ)) + ν) / rho)) (by positivity)
    (by rw [hwe]; exact hprof rho ν h0 r4 hν0 hνr u1 hu0 hu1 _ (by positivity))
  refine ⟨m, k1, l, k2, k3.trans ?_⟩
  rw [mul_div_assoc]
  refine (mul_le_mul_of_nonneg_left (ldBound_small M C1 rho ν _ _ hM hC1 h0 hν0 hνr hk)
    (by norm_num : (0 : ℝ) ≤ 5)).trans (le_of_eq ?_)
  ring

/-- **C131, small sources behind a triple**: the same for the ten roots and the lenses that the code uses. -/
theorem C131_triple_small (roots : Option (List ℂ) → List ℂ → List ℂ) (u : UserParams) (w0 : ℂ) (hq : 0 < u.q) (hq3 : 0 < u.q3)
    (hq3' : u.q3 < 1) (hpos : ((contourTriple u).map Prod.snd).Nodup)
    (hlen : ∀ init cs, (roots init cs).length = cs.length - 1)
    (hroots : ∀ init cs, cs.headD 0 ≠ 0 → IsRootList cs (roots init cs)) (κ : ℝ)
    (hκ0 : 0 < κ) (p : MidParams) (hp : p = extParams 3 u) (w S : ℂ)
    (hw : w = extSource 3 u w0) (hS : S = shiftCM p.a (r3Complex p) p.e1 p.e2)
    (hlens : ∀ l ∈ contourTriple u, w0 ≠ l.2)
    (hκ : (roots none (polyCoeffsTripleCM w p.a (r3Complex p) p.e1 p.e2)).Pairwise fun x y => κ < ‖x - y‖)
    (hreg : ∀ r ∈ roots none (polyCoeffsTripleCM w p.a (r3Complex p) p.e1 p.e2),
      lensEq3 p (r + S) = w ∨ 1 / 10 ^ 3 < ‖lensEq3 p (r + S) - w‖) :
    ∃ C rho0 : ℝ, 0 < rho0 ∧ ∀ rho, 0 < rho → rho < rho0 → ∀ lib : Lib, lib.roots = roots →
      (∀ n, 1 ≤ n → IsGauss n (lib.leggauss n)) → ∀ ν, (∀ i k, |lib.noise i k| ≤ ν) → ν ≤ rho → ∀ npts u1, 4 ≤ npts →
      npts ≤ 2 * 10 ^ 8 → 0 ≤ u1 → u1 ≤ 1 →
      ∃ m : ℕ → ℝ, (∀ npts_ld, magExtendedSource lib 3 npts npts_ld true u u1 rho w0 = .ok (m npts_ld)) ∧
        ∃ l, Tendsto m atTop (𝓝 l) ∧ |l - limbMag (contourTriple u) w0 rho u1|
          ≤ C * (Real.sqrt (1 / ((npts / 2 - 1 : ℕ) : ℝ) + ν / rho) + (npts / 2 + 10 * (npts / 2 / 10) : ℕ) * (ν / rho)) := by
  have hpi := Real.pi_pos
  have hM : 0 < 1 + u.q + u.q3 := by positivity
  have hq1 : (1 + u.q : ℂ) ≠ 0 := by exact_mod_cast (by positivity : (1 + u.q) ≠ 0)
  set c := w0 - w with hc
  have hframe : (midTriple p).map (fun l => (l.1, l.2 + c)) = contourTriple u := by
    have hcx : c = (((1 / 2) * u.s * (1 - u.q) / (1 + u.q) : ℝ) : ℂ) := by
      rw [hc, hw]; simp [extSource]
    rw [hcx, hp]
    simp only [midTriple, extParams, contourTriple, r3Complex, List.map_cons, List.map_nil, List.cons.injEq, Prod.mk.injEq,
      and_true]
    norm_num
    refine ⟨?_, ?_, ?_, ?_⟩
    · field_simp; ring
    · field_simp; ring
    · field_simp; ring
    · field_simp; ring
  have hw0 : w0 = w + c := by rw [hc]; ring
  have hnd : ((midTriple p).map Prod.snd).Nodup := by
    have e : (contourTriple u).map Prod.snd = ((midTriple p).map Prod.snd).map (· + c) := by
      rw [← hframe, List.map_map, List.map_map]; rfl
    rw [e] at hpos
    exact List.Nodup.of_map _ hpos
  obtain ⟨ha, hr1, hr2⟩ : p.a ≠ 0 ∧ r3Complex p ≠ p.a ∧ r3Complex p ≠ -p.a := by
    have := hnd
    simp only [midTriple, List.map_cons, List.map_nil, List.nodup_cons, List.mem_cons, List.not_mem_nil, or_false,
      not_or, not_false_eq_true, List.nodup_nil, and_true] at this
    refine ⟨fun h0 => this.1.1 ?_, fun h => this.1.2 h.symm, fun h => this.2 h.symm⟩
    rw [h0]; simp
  have he1 : 0 < p.e1 := by rw [hp]; simp only [extParams]; norm_num; positivity
  have he2 : 0 < p.e2 := by
    rw [hp]; simp only [extParams]; norm_num
    exact div_pos (by linarith) hM
  have he3 : p.e1 + p.e2 < 1 := by
    rw [hp]; simp only [extParams]; norm_num
    rw [← add_div, div_lt_one hM]; linarith
  have hlead : ∀ v : ℂ, v ≠ p.a → v ≠ -p.a → v ≠ r3Complex p →
      (polyCoeffsTripleCM v p.a (r3Complex p) p.e1 p.e2).headD 0 ≠ 0 := by
    intro v h1 h2 h3
    have hi : ∀ x : ℂ, x ≠ 0 → conj x ≠ 0 := fun x hx => by simpa using hx
    rw [(triple_head _ _ _ _ _).2]
    refine mul_ne_zero (mul_ne_zero (hi _ (sub_ne_zero.mpr h1)) (hi _ ?_)) (hi _ (sub_ne_zero.mpr h3))
    exact fun h => h2 (by linear_combination h)
  have hwl : ∀ l ∈ midTriple p, w ≠ l.2 := by
    intro l hl h
    refine hlens (l.1, l.2 + c) (by rw [← hframe]; exact List.mem_map_of_mem hl) ?_
    rw [hw0, h]
  have h1 : w ≠ p.a := hwl (p.e1, (p.a : ℂ)) (by simp [midTriple])
  have h2 : w ≠ -p.a := hwl (p.e2, -(p.a : ℂ)) (by simp [midTriple])
  have h3 : w ≠ r3Complex p := hwl (1 - p.e1 - p.e2, r3Complex p) (by simp [midTriple])
  have hsimple : (roots none (polyCoeffsTripleCM w p.a (r3Complex p) p.e1 p.e2)).Nodup := by
    refine hκ.imp fun {x y} h => ?_
    rintro rfl
    rw [sub_self, norm_zero] at h
    linarith
  have hr := hroots none _ (hlead _ h1 h2 h3)
  obtain ⟨b1, -, -⟩ := triple_roots p w _ ha hr1 hr2 he1.ne' he2.ne' (by linarith) hr h1 h2 h3 hsimple
  have ev1 : ∀ᶠ v : ℂ in 𝓝 w, v ≠ p.a ∧ v ≠ -p.a ∧ v ≠ r3Complex p :=
    (isOpen_ne.eventually_mem h1).and ((isOpen_ne.eventually_mem h2).and (isOpen_ne.eventually_mem h3))
  have hcount : ∀ v : ℂ, v ≠ p.a → v ≠ -p.a → v ≠ r3Complex p →
      (roots none (polyCoeffsTripleCM v p.a (r3Complex p) p.e1 p.e2)).Nodup →
      (∀ r ∈ roots none (polyCoeffsTripleCM v p.a (r3Complex p) p.e1 p.e2),
        lensEq3 p (r + S) = v ∨ 1 / 10 ^ 3 < ‖lensEq3 p (r + S) - v‖) →
      ∀ z, IsImage (midTriple p) v z → jacDet (lensMap (midTriple p)) z ≠ 0 := by
    intro v v1 v2 v3 v4 v5 z hz
    obtain ⟨c1, c2, c3, -⟩ := triple_count roots p v ha hr1 hr2 he1 he2 he3 _ rfl S hS
      (hroots none _ (hlead _ v1 v2 v3)) v1 v2 v3 v4
      (fun r hr hlt => (v5 r hr).resolve_right (not_lt.mpr (by norm_num at hlt ⊢; exact hlt.le))) _ rfl
    exact (c3 z ((c1 z).mpr hz)).1
  obtain ⟨M, Z, ε1, hM0, hε1, hreg', hbr⟩ := small_branches (midTriple p) 10 (by norm_num)
    (fun v => polyCoeffsTripleCM v p.a (r3Complex p) p.e1 p.e2)
    (fun v => roots none (polyCoeffsTripleCM v p.a (r3Complex p) p.e1 p.e2)) w S (1 / 10 ^ 3)
    (fun y => (triple_head _ _ _ _ _).1) (contDiff_coeffsTriple p.a (r3Complex p) p.e1 p.e2)
    (hlead _ h1 h2 h3) (by filter_upwards [ev1] with v hv using hroots none _ (hlead v hv.1 hv.2.1 hv.2.2)) κ hκ0 hκ
    (by
      filter_upwards [ev1] with v hv z hz
      rw [hS]
      refine IsRootList.mem_of_eval_zero (hroots none _ (hlead v hv.1 hv.2.1 hv.2.2)) (hlead v hv.1 hv.2.1 hv.2.2) ?_
      refine C05_triple_complete p v z (hz.1 (p.e1, (p.a : ℂ)) (by simp [midTriple]))
        (hz.1 (p.e2, -(p.a : ℂ)) (by simp [midTriple]))
        (hz.1 (1 - p.e1 - p.e2, r3Complex p) (by simp [midTriple])) ?_
      rw [lensEq3_eq]; exact hz.2)
    (by
      intro r hr l hl
      obtain ⟨d1, -⟩ := b1 r hr
      rw [hS]
      simp only [midTriple, List.mem_cons, List.not_mem_nil, or_false] at hl
      rcases hl with rfl | rfl | rfl
      · exact d1.hz 0
      · exact d1.hz 1
      · exact d1.hz 2)
    (fun z hz h => hcount w h1 h2 h3 hsimple hreg z hz ((shear_eq_one_iff _ z hz.1).mpr h))
    (fun r hr => by rw [← lensEq3_eq]; exact hreg r hr)
  obtain ⟨ε2, hε2, hsmall⟩ := small_radius_shift M κ hM0 hκ0
  obtain ⟨ε3, hε3, hoff⟩ := Metric.eventually_nhds_iff_ball.mp ev1
  have hm0 : ∀ l ∈ midTriple p, l.1 ≠ 0 := by
    intro l hl
    simp only [midTriple, List.mem_cons, List.not_mem_nil, or_false] at hl
    rcases hl with rfl | rfl | rfl
    · exact he1.ne'
    · exact he2.ne'
    · simp only; linarith
  obtain ⟨C1, ε4, hC1, hε4, hprof⟩ := small_profile (midTriple p) hm0 hnd w M hM0
  refine ⟨10 * (6 * (2 * Real.pi * M + 1) / Real.pi + 2 * M * (3 * (2 * Real.pi * M + 1)
      + 2 * (2 * Real.pi * M + 1) * (C1 * Real.sqrt (2 * Real.pi * M + 1)))), min (min ε1 ε4) (min ε2 ε3),
    lt_min (lt_min hε1 hε4) (lt_min hε2 hε3), fun rho h0 hrho lib hlib hg ν hν hνr npts u1 hn hmax hu0 hu1 => ?_⟩
  subst hlib
  have hν0 : 0 ≤ ν := (abs_nonneg _).trans (hν 0 0)
  have r4 := hrho.trans_le ((min_le_left _ _).trans (min_le_right _ _))
  have r1 := hrho.trans_le ((min_le_left _ _).trans (min_le_left _ _))
  have r2 := hrho.trans_le ((min_le_right _ _).trans (min_le_left _ _))
  have r3 := hrho.trans_le ((min_le_right _ _).trans (min_le_right _ _))
  obtain ⟨r, hB⟩ := hbr rho h0 r1
  have hk : 1 ≤ npts / 2 - 1 := by omega
  obtain ⟨s1, s2⟩ := hsmall rho ν h0 r2 hνr _ hk
  obtain ⟨m, k1, l, k2, k3⟩ := C131_triple lib npts u u1 rho w0 hq hq3 hq3' hpos h0 hn hmax hlen hroots ν hν
    (by
      intro l hl h
      rw [← hframe, List.mem_map] at hl
      obtain ⟨l', hl', rfl⟩ := hl
      rw [hw0, add_sub_add_right_eq_sub] at h
      obtain ⟨f1, f2, f3⟩ := hoff l'.2 (by rw [Metric.mem_ball, dist_eq_norm, h]; exact r3)
      simp only [midTriple, List.mem_cons, List.not_mem_nil, or_false] at hl'
      rcases hl' with rfl | rfl | rfl
      · exact f1 rfl
      · exact f2 rfl
      · exact f3 rfl)
    (by
      intro z hz hd
      by_contra hle
      rw [not_lt] at hle
      set z' : ℂ := z - c with hz'
      have ez : z = z' + c := by rw [hz']; ring
      have hz0 : ∀ l ∈ midTriple p, z' ≠ l.2 := by
        intro l hl h
        refine hz (l.1, l.2 + c) (by rw [← hframe]; exact List.mem_map_of_mem hl) ?_
        rw [ez, h]
      rw [← hframe, ez, jacDet_translate _ _ _ hz0] at hd
      rw [← hframe, ez, lensMap_translate, hw0, add_sub_add_right_eq_sub] at hle
      set v := lensMap (midTriple p) z' with hv
      obtain ⟨f1, f2, f3⟩ := hoff v (by rw [Metric.mem_ball, dist_eq_norm]; exact hle.trans_lt r3)
      obtain ⟨g1, g2⟩ := hreg' v (hle.trans_lt r1)
      refine hcount v f1 f2 f3 g1 (fun r hr => ?_) z' ⟨hz0, hv.symm⟩ hd
      have := g2 r hr
      rwa [← lensEq3_eq] at this)
    p hp r (M * rho) κ Z _ rfl (by
      rw [← hw, ← hS]
      have e : (fun z => lensMap (midTriple p) z) = lensEq3 p := by funext z; rw [lensEq3_eq]
      rw [← e]; exact hB) s1 s2 hg hu0 hu1 (C1 * Real.sqrt ((M * rho * (2 * Real.pi / ((npts / 2 - 1 : ℕ) : ℝ)) + ν) / rho)) (by positivity)
    (by rw [← hw]; exact hprof rho ν h0 r4 hν0 hνr u1 hu0 hu1 _ (by positivity))
  refine ⟨m, k1, l, k2, k3.trans ?_⟩
  rw [mul_div_assoc]
  refine (mul_le_mul_of_nonneg_left (ldBound_small M C1 rho ν _ _ hM0 hC1 h0 hν0 hνr hk)
    (by norm_num : (0 : ℝ) ≤ 10)).trans (le_of_eq ?_)
  ring

/-! ### Concrete cases -/

theorem exists_gauss_rules : ∃ lg : ℕ → List (ℝ × ℝ), ∀ n, 1 ≤ n → IsGauss n (lg n) := by
  classical
  have hex : ∀ n : ℕ, ∃ rule, 1 ≤ n → IsGauss n rule := by
    intro n
    by_cases hn : 1 ≤ n
    · obtain ⟨r, hr⟩ := exists_gauss n hn; exact ⟨r, fun _ => hr⟩
    · exact ⟨[], fun h => absurd h hn⟩
  choose lg hlg using hex
  exact ⟨lg, hlg⟩

/-- A source at the centre of the equal-mass binary, with shifts of `10⁻⁹` of its radius: for some radius the contours give the
magnification for every limb darkening, up to a constant times the given numbers. -/
example : ∃ (lib : Lib) (C rho : ℝ), 0 < rho ∧ (∀ i k, lib.noise i k = rho / 10 ^ 9) ∧ ∀ npts u1, 4 ≤ npts →
    npts ≤ 2 * 10 ^ 8 → 0 ≤ u1 → u1 ≤ 1 →
      ∃ m : ℕ → ℝ, (∀ npts_ld, magExtendedSource lib 2 npts npts_ld true exU u1 rho 0 = .ok (m npts_ld)) ∧
        ∃ l, Tendsto m atTop (𝓝 l) ∧ |l - limbMag (binary exU.s exU.q) 0 rho u1|
          ≤ C * (Real.sqrt (1 / ((npts / 2 - 1 : ℕ) : ℝ) + 1 / 10 ^ 9) + (npts / 2 + 10 * (npts / 2 / 10) : ℕ) * (1 / 10 ^ 9)) := by
  obtain ⟨lg, hlg⟩ := exists_gauss_rules
  obtain ⟨roots, hlen, hroots⟩ := exists_exact_roots_length
  have hx : (0 : ℂ) - (xCM exU : ℂ) = 0 := by rw [exU_x]; simp
  set cs := polyCoeffsBinary 0 (midParams2 exU).a (midParams2 exU).e1 with hcs
  have hlead : cs.headD 0 ≠ 0 := by rw [hcs, binary_headD, exU_a]; norm_num
  have hperm : (roots none cs).Perm exRoots := by
    refine perm_of_prod_eq fun x => ?_
    have e := hroots none cs hlead x
    rw [exRoots_isRootList x] at e
    exact (mul_left_cancel₀ hlead e).symm
  have hreg : Regular2 roots exU 0 := by
    unfold Regular2
    rw [hx, ← hcs]
    refine ⟨?_, ?_, hperm.nodup_iff.mpr exRoots_nodup, fun r hr => Or.inl (exRoots_images r (hperm.mem_iff.mp hr)).1⟩
    · rw [exU_a]; norm_num
    · rw [exU_a]; norm_num
  have hκ : (roots none (polyCoeffsBinary (0 - xCM exU) (midParams2 exU).a (midParams2 exU).e1)).Pairwise
      fun x y => 1 / 4 < ‖x - y‖ := by
    rw [hx, ← hcs]
    refine (hperm.pairwise_iff (fun {x y} h => by rwa [norm_sub_rev])).mpr ?_
    obtain ⟨ρ, h1, h2⟩ := exRoots_sep
    rw [← h1, List.pairwise_ofFn]
    intro i j hij
    have := h2 i j hij.ne
    linarith
  obtain ⟨C, rho0, h0, key⟩ := C131_binary_small roots exU 0 (by norm_num [exU]) (by norm_num [exU]) hlen hroots (1 / 4)
    (by norm_num) hreg hκ
  refine ⟨{ roots := roots, perturb := fun _ zs => zs, noise := fun _ _ => rho0 / 2 / 10 ^ 9, leggauss := lg }, C, rho0 / 2,
    by positivity, fun _ _ => rfl, fun npts u1 n1 n2 hu0 hu1 => ?_⟩
  have hle : rho0 / 2 / 10 ^ 9 ≤ rho0 / 2 := div_le_self (by positivity) (by norm_num)
  have := key (rho0 / 2) (by positivity) (by linarith) ⟨roots, fun _ zs => zs, fun _ _ => rho0 / 2 / 10 ^ 9, lg⟩
    rfl hlg (rho0 / 2 / 10 ^ 9)
    (fun i k => (abs_of_pos (by positivity)).le) hle npts u1 n1 n2 hu0 hu1
  rwa [show rho0 / 2 / 10 ^ 9 / (rho0 / 2) = 1 / 10 ^ 9 by field_simp] at this

/-- The same at the centre of three equal masses, where ten images are followed. -/
example : ∃ (lib : Lib) (C rho : ℝ), 0 < rho ∧ (∀ i k, lib.noise i k = rho / 10 ^ 9) ∧ ∀ npts u1, 4 ≤ npts →
    npts ≤ 2 * 10 ^ 8 → 0 ≤ u1 → u1 ≤ 1 →
      ∃ m : ℕ → ℝ, (∀ npts_ld, magExtendedSource lib 3 npts npts_ld true exTc3 u1 rho (exTw + ((exTc3.s / 10 : ℝ) : ℂ)) = .ok (m npts_ld)) ∧
        ∃ l, Tendsto m atTop (𝓝 l) ∧ |l - limbMag (contourTriple exTc3) (exTw + ((exTc3.s / 10 : ℝ) : ℂ)) rho u1|
          ≤ C * (Real.sqrt (1 / ((npts / 2 - 1 : ℕ) : ℝ) + 1 / 10 ^ 9) + (npts / 2 + 10 * (npts / 2 / 10) : ℕ) * (1 / 10 ^ 9)) := by
  obtain ⟨lg, hlg⟩ := exists_gauss_rules
  obtain ⟨roots, hlen, hroots⟩ := exists_exact_roots_length
  obtain ⟨d1, d2, d3, d4, d5⟩ := exT_points
  have hlead : exTc.headD 0 ≠ 0 := by
    have hi : ∀ x : ℂ, x ≠ 0 → conj x ≠ 0 := fun x hx => by simpa using hx
    rw [exTc, (triple_head _ _ _ _ _).2]
    refine mul_ne_zero (mul_ne_zero (hi _ (sub_ne_zero.mpr d3)) (hi _ ?_)) (hi _ (sub_ne_zero.mpr d5))
    exact fun h => d4 (by linear_combination h)
  have hperm : (roots none exTc).Perm exRootsT := by
    refine perm_of_prod_eq fun x => ?_
    have e := hroots none exTc hlead x
    rw [exRootsT_isRootList x] at e
    exact (mul_left_cancel₀ hlead e).symm
  obtain ⟨ρ, hρ⟩ : ∃ ρ : Fin exRootsT.length → ℂ, List.ofFn ρ = exRootsT := ⟨fun i => exRootsT[i], List.ofFn_getElem⟩
  obtain ⟨δ, hδ, hsep⟩ := exists_sep ρ (by rw [← List.nodup_ofFn, hρ]; exact exRootsT_nodup)
  have hκ : (roots none exTc).Pairwise fun x y => δ / 2 < ‖x - y‖ := by
    refine (hperm.pairwise_iff (fun {x y} h => by rwa [norm_sub_rev])).mpr ?_
    rw [← hρ, List.pairwise_ofFn]
    intro i j hij
    have := hsep i j hij.ne
    linarith
  have hpt : 0 < tm * tk := mul_pos tm_pos tk_pos
  set w0 : ℂ := exTw + ((exTc3.s / 10 : ℝ) : ℂ) with hw0
  have hframe : (midTriple (midParams3 exT)).map (fun l => (l.1, l.2 + ((exTc3.s / 10 : ℝ) : ℂ))) = contourTriple exTc3 := by
    rw [← exTc3_params]
    simp only [midTriple, extParams, contourTriple, r3Complex, List.map_cons, List.map_nil, List.cons.injEq, Prod.mk.injEq,
      and_true, exTc3]
    norm_num
    repeat' apply And.intro
    all_goals first | trivial | ring
  have hnd : ((midTriple (midParams3 exT)).map Prod.snd).Nodup := by
    have ha : ((midParams3 exT).a : ℂ) ≠ 0 := by
      rw [exT_a]; exact_mod_cast (by positivity : 1 / 2 * (Real.sqrt 3 * (tm * tk)) ≠ 0)
    simp only [midTriple, List.map_cons, List.map_nil, List.nodup_cons, List.mem_cons, List.not_mem_nil, or_false,
      not_false_eq_true, List.nodup_nil, and_true, not_or]
    exact ⟨⟨fun h => ha (by linear_combination h / 2), d1.symm⟩, d2.symm⟩
  have hpos : ((contourTriple exTc3).map Prod.snd).Nodup := by
    rw [← hframe, List.map_map]
    have e : (Prod.snd ∘ fun l : ℝ × ℂ => (l.1, l.2 + ((exTc3.s / 10 : ℝ) : ℂ))) = (· + ((exTc3.s / 10 : ℝ) : ℂ)) ∘ Prod.snd := rfl
    rw [e, ← List.map_map]
    exact hnd.map (add_left_injective _)
  obtain ⟨C, rho0, h0, key⟩ := C131_triple_small roots exTc3 w0 (by norm_num [exTc3]) (by norm_num [exTc3])
    (by norm_num [exTc3]) hpos hlen hroots (δ / 2) (by linarith) (midParams3 exT) exTc3_params.symm exTw _ exTc3_source.symm rfl
    (by
      intro l hl h
      rw [← hframe, List.mem_map] at hl
      obtain ⟨l', hl', rfl⟩ := hl
      have h' := add_right_cancel h
      simp only [midTriple, List.mem_cons, List.not_mem_nil, or_false] at hl'
      rcases hl' with rfl | rfl | rfl
      · exact d3 h'
      · exact d4 h'
      · exact d5 h')
    hκ (fun r hr => Or.inl (by rw [exT_S]; exact (exRootsT_images r (hperm.mem_iff.mp hr)).1))
  refine ⟨{ roots := roots, perturb := fun _ zs => zs, noise := fun _ _ => rho0 / 2 / 10 ^ 9, leggauss := lg }, C, rho0 / 2,
    by positivity, fun _ _ => rfl, fun npts u1 n1 n2 hu0 hu1 => ?_⟩
  have hle : rho0 / 2 / 10 ^ 9 ≤ rho0 / 2 := div_le_self (by positivity) (by norm_num)
  have := key (rho0 / 2) (by positivity) (by linarith) ⟨roots, fun _ zs => zs, fun _ _ => rho0 / 2 / 10 ^ 9, lg⟩
    rfl hlg (rho0 / 2 / 10 ^ 9)
    (fun i k => (abs_of_pos (by positivity)).le) hle npts u1 n1 n2 hu0 hu1
  rwa [show rho0 / 2 / 10 ^ 9 / (rho0 / 2) = 1 / 10 ^ 9 by field_simp] at this

end Microjax.Props
