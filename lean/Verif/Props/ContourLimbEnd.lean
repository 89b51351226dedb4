import Verif.Props.ContourLimbDark
import Verif.Props.ContourRegular

/-!
# C131: `mag_extended_source` with limb darkening away from the caustics
-/

set_option linter.unusedVariables false

noncomputable section

namespace Microjax.Props

open Complex ComplexConjugate Microjax.Spec Segments Jnp Utils Contour PointSource Limb MeasureTheory Set Filter
open scoped Topology

/-- The error of one contour of `N` samples: the shifts of the samples by at most `ν`, and the trapezoidal rule, whose
integrands vary by at most `3/4 (Λ h + ν) + (2 π Λ + ν) ω` over a step.  The contour is at most `2 π Λ` long. -/
def ldBound (Λ ν h ω : ℝ) (N : ℕ) : ℝ :=
  4 * N * (3 / 2 * (2 * Real.pi * Λ + ν)) * ν
    + 2 * Real.pi * Λ * (3 / 2 * (Λ * h + ν) + 2 * (2 * Real.pi * Λ + ν) * ω)

/-- The contour method for a limb-darkened disc and any of the image finders. -/
theorem contour_mag_ld (L : Lenses) (hm : ∀ l ∈ L, l.1 ≠ 0) (hL : (L.map Prod.snd).Nodup) (w : ℂ) (rho : ℝ) (hrho : 0 < rho)
    (hcaus : ∀ z, (∀ l ∈ L, z ≠ l.2) → jacDet (lensMap L) z = 0 → rho < ‖lensMap L z - w‖) (d : ℕ) (hd0 : 0 < d)
    (F : ℂ → Option (List ℂ) → List (ℂ × Bool)) (perturb : ℝ → List ℂ → List ℂ) (det : ℂ → ℝ) (noise : ℕ → ℕ → ℝ) (npts : ℕ)
    (hnpts : 4 ≤ npts) (hmax : npts ≤ 2 * 10 ^ 8) (src : ℝ → ℂ) (hsrc : src = fun t : ℝ => (rho : ℂ) * exp (I * t) + w)
    (r : Fin d → ℝ → ℂ) (coeffs : ℂ → List ℂ) (shift : ℂ) (leq : ℂ → ℂ) (tol Λ δ Z ν h : ℝ)
    (hB : LimbBranches coeffs shift leq tol src r Λ δ Z) (hh : h = 2 * Real.pi / ((npts / 2 - 1 : ℕ) : ℝ))
    (hFl : ∀ w init, (F w init).length = d)
    (hF : ∀ t ∈ Icc (-Real.pi) Real.pi, ∀ init, ∃ rs, F (src t) init = withMask leq tol (src t) rs ∧ rs.Perm (List.ofFn fun j => r j t) ∧
      ∀ z, z ∈ flagged (F (src t) init) ↔ IsImage L (src t) z)
    (hdet : ∀ z, (∀ l ∈ L, z ≠ l.2) → det z = jacDet (lensMap L) z) (hν : ∀ i k, |noise i k| ≤ ν)
    (hsmall : 2 * (Λ * h) + 4 * ν < δ) (hclose : Λ / 10 ^ 8 + 2 * ν < 1 / 10 ^ 5)
    (leggauss : ℕ → List (ℝ × ℝ)) (hg : ∀ n, 1 ≤ n → IsGauss n (leggauss n)) (u1 : ℝ) (hu0 : 0 ≤ u1) (hu1 : u1 ≤ 1)
    (hleq : ∀ z, leq z = lensMap L z) (ω : ℝ) (hω0 : 0 ≤ ω)
    (hω : ∀ x, IsImage L (src (-Real.pi)) x → ∀ z z', ‖z - x‖ ≤ 2 * (2 * Real.pi * Λ + ν) →
      ‖z' - x‖ ≤ 2 * (2 * Real.pi * Λ + ν) → ‖z - z'‖ ≤ Λ * h + ν → |imageProfile L w rho u1 z - imageProfile L w rho u1 z'| ≤ ω) :
    ∃ l, Tendsto (fun n => |contourSum geometry (integrateLd leggauss leq w rho u1 n) d ((List.range d).map fun i =>
        (row (imagesOfSourceLimb (fun th => imagesSequential F (th.map src)) (fun t zi => F (src t) (some (perturb t zi)))
          det noise npts 10) i).map fun q => maskedPt q.1.re q.1.im q.2.2 q.2.1)| / (Real.pi * rho ^ 2)) atTop (𝓝 l) ∧
      |l - limbMag L w rho u1| ≤ d * ldBound Λ ν h ω (npts / 2 + 10 * (npts / 2 / 10)) / (Real.pi * rho ^ 2) := by
  obtain ⟨R, hR, hS⟩ := regular_disc L hm hL w rho hrho.le hcaus
  set m : Fin d → ℝ → Bool := fun j t => decide (‖leq (r j t) - src t‖ < tol) with hmdef
  have hperm : ∀ t ∈ Icc (-Real.pi) Real.pi, ∀ init, (F (src t) init).Perm (List.ofFn fun j => (r j t, m j t)) := by
    intro t ht init
    obtain ⟨rs, h1, h2, -⟩ := hF t ht init
    rw [h1]
    unfold withMask
    have := h2.map fun z => (z, decide (‖leq z - src t‖ < tol))
    rw [List.map_ofFn] at this
    exact this
  have hflag : ∀ t ∈ Icc (-Real.pi) Real.pi, ∀ z, IsImage L (src t) z ↔ ∃ j, z = r j t ∧ m j t = true := by
    intro t ht z
    obtain ⟨rs, -, -, h3⟩ := hF t ht none
    rw [← h3 z]
    unfold flagged
    simp only [List.mem_map, List.mem_filter, (hperm t ht none).mem_iff, List.mem_ofFn]
    constructor
    · rintro ⟨q, ⟨⟨j, rfl⟩, hq⟩, rfl⟩
      exact ⟨j, rfl, hq⟩
    · rintro ⟨j, rfl, hj⟩
      exact ⟨_, ⟨⟨j, rfl⟩, hj⟩, rfl⟩
  have hpi := Real.pi_pos
  have hν0 : 0 ≤ ν := (abs_nonneg _).trans (hν 0 0)
  have hδ0 : 0 < δ := by
    have h1 : -Real.pi ∈ Icc (-Real.pi) Real.pi := ⟨le_rfl, by linarith⟩
    have h2 : Real.pi ∈ Icc (-Real.pi) Real.pi := ⟨by linarith, le_rfl⟩
    have := (norm_nonneg _).trans (hB.speed _ h1 _ h2 ⟨0, hd0⟩)
    have h3 : 0 ≤ Λ := by
      rw [abs_of_nonneg (by linarith)] at this
      exact nonneg_of_mul_nonneg_left this (by linarith)
    have h4 : 0 ≤ h := by rw [hh]; positivity
    have := mul_nonneg h3 h4
    linarith
  have hh0 : 0 ≤ h := by rw [hh]; positivity
  have hmp : -Real.pi ∈ Icc (-Real.pi) Real.pi := ⟨le_rfl, by linarith⟩
  have hΛ0 : 0 ≤ Λ := by
    have h2 : Real.pi ∈ Icc (-Real.pi) Real.pi := ⟨by linarith, le_rfl⟩
    have := (norm_nonneg _).trans (hB.speed _ hmp _ h2 ⟨0, hd0⟩)
    rw [abs_of_nonneg (by linarith)] at this
    exact nonneg_of_mul_nonneg_left this (by linarith)
  have hBd : ∀ N, 0 ≤ ldBound Λ ν h ω N := fun N => by unfold ldBound; positivity
  obtain ⟨l, k1, k2⟩ := contour_flux L hm hL w rho R hrho hR hS d hd0 (fun th => imagesSequential F (th.map src))
    (fun t zi => F (src t) (some (perturb t zi))) det noise npts hnpts hmax src hsrc r m Λ δ Z ν h hh
    (fun th => by rw [(sequential_length F d hFl _).1, List.length_map])
    (fun th => (sequential_length F d hFl _).2) (fun t zi => hFl _ _)
    (by
      intro th q hq hqI
      have hq' : (src q.1, q.2) ∈ (th.map src).zip (imagesSequential F (th.map src)) := by
        rw [List.zip_map_left, List.mem_map]
        exact ⟨q, hq, rfl⟩
      obtain ⟨init, hi⟩ := sequential_solved F _ _ hq'
      simp only at hi
      rw [hi]
      exact hperm _ hqI init)
    (fun t ht zi => hperm t ht _)
    (by
      intro t ht j
      rw [hflag t ht]
      constructor
      · intro h; exact ⟨j, rfl, h⟩
      · rintro ⟨i, h1, h2⟩
        by_cases hij : j = i
        · rw [hij]; exact h2
        · have := hB.apart t ht j i hij
          rw [h1, sub_self, norm_zero] at this
          linarith)
    (fun t ht z hz => by
      obtain ⟨j, h1, -⟩ := (hflag t ht z).mp hz
      exact ⟨j, h1⟩)
    hdet hB.speed hB.apart hB.bound hν hsmall hclose
    (imageProfile L w rho u1) (continuous_imageProfile L hm hL w rho u1 hrho) (fun n => integrateLd leggauss leq w rho u1 n)
    (ldBound Λ ν h ω) hBd
    (fun z N θ X a1 a2 a3 a4 a5 a6 a7 a8 a9 a10 => ld_track leggauss hg leq w rho u1 _
      (continuous_imageProfile L hm hL w rho u1 hrho) (L.map Prod.snd).toFinset
      (fun z hz => by
        rw [imageProfile_off L w rho u1 z fun l hl h => hz (List.mem_toFinset.mpr (by rw [h]; exact List.mem_map_of_mem hl))]
        unfold Boundary.brightnessProfile
        rw [hleq z])
      (3 / 2) Λ ν h ω (imageProfile_bound L w rho u1 hu0 hu1) hν0 z (hω _ (a10 _)) N θ X a1 a2 a3 a4 a5 a6 a8 a9)
  obtain ⟨f1, f2⟩ := imageProfile_flux L w rho u1 hrho hu0 hu1
  refine ⟨_, k1.abs.div_const _, ?_⟩
  rw [← f1, ← sub_div, abs_div, abs_of_pos (by positivity : 0 < Real.pi * rho ^ 2)]
  refine div_le_div_of_nonneg_right ?_ (by positivity)
  refine le_trans ?_ k2
  have := abs_abs_sub_abs_le l (∫ z in imageOfDisc L w rho, imageProfile L w rho u1 z)
  rwa [abs_of_nonneg f2] at this

/-- **C131, binaries**: a limb-darkened source in the situation of `C128_binary`, with the documented Gauss-Legendre rules.  As
the number of quadrature points grows, `mag_extended_source` converges, and the limit differs from the magnification of the
disc (flux of the images over flux of the source) by at most five times the error of one contour, over `π ρ²`.  Here `ω` bounds
the variation of the profile over the distance `Λ h + ν`, which is a step of a contour.  Lenses may lie on the lines along
which the profile is integrated. -/
theorem C131_binary (lib : Lib) (npts : ℕ) (u : UserParams) (u1 rho : ℝ) (w0 : ℂ) (hs : u.s ≠ 0) (hq : 0 < u.q)
    (hrho : 0 < rho) (hnpts : 4 ≤ npts) (hmax : npts ≤ 2 * 10 ^ 8)
    (hlen : ∀ init cs, (lib.roots init cs).length = cs.length - 1)
    (hroots : ∀ init cs, cs.headD 0 ≠ 0 → IsRootList cs (lib.roots init cs)) (ν : ℝ) (hν : ∀ i k, |lib.noise i k| ≤ ν)
    (hlens : ∀ l ∈ binary u.s u.q, ‖l.2 - w0‖ ≠ rho)
    (hcaus : ∀ z, (∀ l ∈ binary u.s u.q, z ≠ l.2) → jacDet (lensMap (binary u.s u.q)) z = 0 →
      rho < ‖lensMap (binary u.s u.q) z - w0‖)
    (p : MidParams) (hp : p = extParams 2 u) (r : Fin 5 → ℝ → ℂ) (Λ δ Z h : ℝ)
    (hh : h = 2 * Real.pi / ((npts / 2 - 1 : ℕ) : ℝ))
    (hB : LimbBranches (fun w => polyCoeffsBinary w p.a p.e1) 0 (lensEq2 p) (1 / 10 ^ 6)
      (fun t : ℝ => (rho : ℂ) * exp (I * t) + extSource 2 u w0) r Λ δ Z)
    (hsmall : 2 * (Λ * h) + 4 * ν < δ) (hclose : Λ / 10 ^ 8 + 2 * ν < 1 / 10 ^ 5)
    (hg : ∀ n, 1 ≤ n → IsGauss n (lib.leggauss n)) (hu0 : 0 ≤ u1) (hu1 : u1 ≤ 1) (ω : ℝ) (hω0 : 0 ≤ ω)
    (hω : ∀ x, IsImage (midBinary p) ((rho : ℂ) * exp (I * (-Real.pi : ℝ)) + extSource 2 u w0) x → ∀ z z',
      ‖z - x‖ ≤ 2 * (2 * Real.pi * Λ + ν) → ‖z' - x‖ ≤ 2 * (2 * Real.pi * Λ + ν) → ‖z - z'‖ ≤ Λ * h + ν →
      |imageProfile (midBinary p) (extSource 2 u w0) rho u1 z - imageProfile (midBinary p) (extSource 2 u w0) rho u1 z'| ≤ ω) :
    ∃ m : ℕ → ℝ, (∀ npts_ld, magExtendedSource lib 2 npts npts_ld true u u1 rho w0 = .ok (m npts_ld)) ∧
      ∃ l, Tendsto m atTop (𝓝 l) ∧ |l - limbMag (binary u.s u.q) w0 rho u1|
        ≤ 5 * ldBound Λ ν h ω (npts / 2 + 10 * (npts / 2 / 10)) / (Real.pi * rho ^ 2) := by
  have hq1 : 1 + u.q ≠ 0 := by positivity
  set w := extSource 2 u w0 with hw
  set c := w0 - w with hc
  have hbin : (midBinary p).map (fun l => (l.1, l.2 + c)) = binary u.s u.q := by
    rw [hp, hc]; exact C08_contour_binary u w0 hq1
  have hw0 : w0 = w + c := by rw [hc]; ring
  have ha : p.a ≠ 0 := by rw [hp]; simp [extParams, hs]
  have he : 0 < p.e1 := by rw [hp]; simp only [extParams, if_true]; positivity
  have he' : p.e1 < 1 := by
    rw [hp]; simp only [extParams, if_true]
    rw [div_lt_one (by positivity)]; linarith
  have hac : (p.a : ℂ) ≠ 0 := by exact_mod_cast ha
  have hnd : ((midBinary p).map Prod.snd).Nodup := by
    simp only [midBinary, List.map_cons, List.map_nil, List.nodup_cons, List.mem_singleton, List.not_mem_nil,
      not_false_eq_true, List.nodup_nil, and_true]
    exact fun h => hac (by linear_combination h / 2)
  have hm0 : ∀ l ∈ midBinary p, l.1 ≠ 0 := by
    intro l hl
    simp only [midBinary, List.mem_cons, List.not_mem_nil, or_false] at hl
    rcases hl with rfl | rfl
    · exact he.ne'
    · simp only; linarith
  have hoff : ∀ z, (∀ l ∈ midBinary p, z ≠ l.2) → ∀ l ∈ binary u.s u.q, z + c ≠ l.2 := by
    intro z hz l hl
    rw [← hbin, List.mem_map] at hl
    obtain ⟨l', hl', rfl⟩ := hl
    exact fun h => hz l' hl' (add_right_cancel h)
  have hcaus' : ∀ z, (∀ l ∈ midBinary p, z ≠ l.2) → jacDet (lensMap (midBinary p)) z = 0 →
      rho < ‖lensMap (midBinary p) z - w‖ := by
    intro z hz hd
    have h1 := hcaus (z + c) (hoff z hz) (by rw [← hbin, jacDet_translate _ _ _ hz]; exact hd)
    rw [← hbin, lensMap_translate, hw0] at h1
    simpa using h1
  set src : ℝ → ℂ := fun t : ℝ => (rho : ℂ) * exp (I * t) + w with hsrc
  have hsrcn : ∀ t, ‖src t - w‖ = rho := by
    intro t
    simp only [hsrc]
    rw [add_sub_cancel_right, norm_mul, mul_comm I, norm_exp_ofReal_mul_I, mul_one, norm_real, Real.norm_eq_abs,
      abs_of_pos hrho]
  have hsl : ∀ t, ∀ l ∈ midBinary p, src t ≠ l.2 := by
    intro t l hl h
    have h1 := hlens (l.1, l.2 + c) (by rw [← hbin]; exact List.mem_map_of_mem hl)
    refine h1 ?_
    simp only
    rw [hw0, add_sub_add_right_eq_sub, ← h]
    exact hsrcn t
  have hs1 : ∀ t, src t ≠ p.a := fun t => hsl t (p.e1, (p.a : ℂ)) (by simp [midBinary])
  have hs2 : ∀ t, src t ≠ -p.a := fun t => hsl t (1 - p.e1, -(p.a : ℂ)) (by simp [midBinary])
  have hlead : ∀ t, (polyCoeffsBinary (src t) p.a p.e1).headD 0 ≠ 0 := by
    intro t
    rw [(C04_binary_leading _ _ _).2]
    refine sub_ne_zero.mpr fun h => ?_
    have h3 : src t ^ 2 = (p.a : ℂ) ^ 2 := by
      have := congrArg (starRingEnd ℂ) h
      simpa using this
    rcases sq_eq_sq_iff_eq_or_eq_neg.mp h3 with h4 | h4
    · exact hs1 t h4
    · exact hs2 t h4
  have hν0 : 0 ≤ ν := (abs_nonneg _).trans (hν 0 0)
  have hpi := Real.pi_pos
  have hδ0 : 0 < δ := by
    have h1 : -Real.pi ∈ Icc (-Real.pi) Real.pi := ⟨le_rfl, by linarith⟩
    have h2 : Real.pi ∈ Icc (-Real.pi) Real.pi := ⟨by linarith, le_rfl⟩
    have := (norm_nonneg _).trans (hB.speed _ h1 _ h2 0)
    have h3 : 0 ≤ Λ := by
      rw [abs_of_nonneg (by linarith)] at this
      exact nonneg_of_mul_nonneg_left this (by linarith)
    have h4 : 0 ≤ h := by rw [hh]; positivity
    have := mul_nonneg h3 h4
    linarith
  obtain ⟨l, key1, key2⟩ := contour_mag_ld (midBinary p) hm0 hnd w rho hrho hcaus' 5 (by norm_num) (finder lib 2 p) lib.perturb (detOf 2 p)
    lib.noise npts hnpts hmax src hsrc r _ _ _ _ Λ δ Z ν h hB hh
    (fun v init => by
      have := finder_length lib 2 (Or.inl rfl) p hlen v init
      simpa [trackCount] using this)
    (by
      intro t ht init
      have hF : finder lib 2 p (src t) init = images2 lib.roots init p (src t) := by simp [finder]
      have hinj : Function.Injective fun j => r j t := by
        intro i j hij
        by_contra hne
        have := hB.apart t ht i j hne
        simp only at hij
        rw [hij, sub_self, norm_zero] at this
        linarith
      have hperm := branches_perm (fun j => r j t) hinj (lib.roots init (polyCoeffsBinary (src t) p.a p.e1))
        (by rw [hlen, (C04_binary_leading _ _ _).1])
        (fun j => IsRootList.mem_of_eval_zero (hroots _ _ (hlead t)) (hlead t) (by
          have := hB.root t ht j
          rwa [sub_zero] at this))
      refine ⟨_, hF, hperm, ?_⟩
      rw [hF]
      refine (binary_count lib.roots init p (src t) ha he he' (hroots _ _ (hlead t)) (hs1 t) (hs2 t)
        (hperm.nodup_iff.mpr (List.nodup_ofFn.mpr hinj)) ?_ _ rfl).1
      intro z hz hlt
      obtain ⟨j, rfl⟩ := List.mem_ofFn.mp (hperm.mem_iff.mp hz)
      refine (hB.clear t ht j).resolve_right (not_le.mpr ?_)
      norm_num at hlt ⊢
      exact hlt)
    (fun z hz => by
      have e : detOf 2 p z = detJac2 p z := by simp [detOf]
      rw [e, detJac2_eq, (jacDet_lensMap _ z hz).2])
    hν hsmall hclose lib.leggauss hg u1 hu0 hu1 (lensEq2_eq p) ω hω0 hω
  refine ⟨fun n => magFromLimb (integrateLd lib.leggauss (leqOf 2 p) w rho u1 n) rho 5 (limbColumns lib 2 p w rho npts),
    fun n => ?_, l, ?_, ?_⟩
  · unfold magExtendedSource
    rw [if_pos (Or.inr (Or.inl rfl))]
    simp only
    rw [if_neg (by norm_num), ← hp]
    rfl
  · have e : leqOf 2 p = lensEq2 p := by funext z; simp [leqOf]
    rw [e]
    exact key1
  · rw [← hbin, hw0, limbMag_translate]
    exact_mod_cast key2

/-- **C131, triples**: the same for three lenses and the ten roots of the polynomial, for the lenses that the code uses. -/
theorem C131_triple (lib : Lib) (npts : ℕ) (u : UserParams) (u1 rho : ℝ) (w0 : ℂ) (hq : 0 < u.q) (hq3 : 0 < u.q3)
    (hq3' : u.q3 < 1) (hpos : ((contourTriple u).map Prod.snd).Nodup) (hrho : 0 < rho) (hnpts : 4 ≤ npts)
    (hmax : npts ≤ 2 * 10 ^ 8) (hlen : ∀ init cs, (lib.roots init cs).length = cs.length - 1)
    (hroots : ∀ init cs, cs.headD 0 ≠ 0 → IsRootList cs (lib.roots init cs)) (ν : ℝ) (hν : ∀ i k, |lib.noise i k| ≤ ν)
    (hlens : ∀ l ∈ contourTriple u, ‖l.2 - w0‖ ≠ rho)
    (hcaus : ∀ z, (∀ l ∈ contourTriple u, z ≠ l.2) → jacDet (lensMap (contourTriple u)) z = 0 →
      rho < ‖lensMap (contourTriple u) z - w0‖)
    (p : MidParams) (hp : p = extParams 3 u) (r : Fin 10 → ℝ → ℂ) (Λ δ Z h : ℝ)
    (hh : h = 2 * Real.pi / ((npts / 2 - 1 : ℕ) : ℝ))
    (hB : LimbBranches (fun w => polyCoeffsTripleCM w p.a (r3Complex p) p.e1 p.e2) (shiftCM p.a (r3Complex p) p.e1 p.e2)
      (lensEq3 p) (1 / 10 ^ 3) (fun t : ℝ => (rho : ℂ) * exp (I * t) + extSource 3 u w0) r Λ δ Z)
    (hsmall : 2 * (Λ * h) + 4 * ν < δ) (hclose : Λ / 10 ^ 8 + 2 * ν < 1 / 10 ^ 5)
    (hg : ∀ n, 1 ≤ n → IsGauss n (lib.leggauss n)) (hu0 : 0 ≤ u1) (hu1 : u1 ≤ 1) (ω : ℝ) (hω0 : 0 ≤ ω)
    (hω : ∀ x, IsImage (midTriple p) ((rho : ℂ) * exp (I * (-Real.pi : ℝ)) + extSource 3 u w0) x → ∀ z z',
      ‖z - x‖ ≤ 2 * (2 * Real.pi * Λ + ν) → ‖z' - x‖ ≤ 2 * (2 * Real.pi * Λ + ν) → ‖z - z'‖ ≤ Λ * h + ν →
      |imageProfile (midTriple p) (extSource 3 u w0) rho u1 z - imageProfile (midTriple p) (extSource 3 u w0) rho u1 z'| ≤ ω) :
    ∃ m : ℕ → ℝ, (∀ npts_ld, magExtendedSource lib 3 npts npts_ld true u u1 rho w0 = .ok (m npts_ld)) ∧
      ∃ l, Tendsto m atTop (𝓝 l) ∧ |l - limbMag (contourTriple u) w0 rho u1|
        ≤ 10 * ldBound Λ ν h ω (npts / 2 + 10 * (npts / 2 / 10)) / (Real.pi * rho ^ 2) := by
  have hM : 0 < 1 + u.q + u.q3 := by positivity
  have hq1 : (1 + u.q : ℂ) ≠ 0 := by exact_mod_cast (by positivity : (1 + u.q) ≠ 0)
  set w := extSource 3 u w0 with hw
  set c := w0 - w with hc
  have hbin : (midTriple p).map (fun l => (l.1, l.2 + c)) = contourTriple u := by
    have hcx : c = (((1 / 2) * u.s * (1 - u.q) / (1 + u.q) : ℝ) : ℂ) := by
      rw [hc, hw]; simp [extSource]
    rw [hcx, hp]
    simp only [midTriple, extParams, contourTriple, r3Complex, List.map_cons, List.map_nil, List.cons.injEq, Prod.mk.injEq,
      and_true]
    norm_num
    refine ⟨?_, ?_, ?_, ?_⟩
    · field_simp; ring
    · field_simp; ring
    · field_simp; ring
    · field_simp; ring
  have hw0 : w0 = w + c := by rw [hc]; ring
  have hnd : ((midTriple p).map Prod.snd).Nodup := by
    have e : (contourTriple u).map Prod.snd = ((midTriple p).map Prod.snd).map (· + c) := by
      rw [← hbin, List.map_map, List.map_map]; rfl
    rw [e] at hpos
    exact List.Nodup.of_map _ hpos
  obtain ⟨ha, hr1, hr2⟩ : p.a ≠ 0 ∧ r3Complex p ≠ p.a ∧ r3Complex p ≠ -p.a := by
    have := hnd
    simp only [midTriple, List.map_cons, List.map_nil, List.nodup_cons, List.mem_cons, List.not_mem_nil, or_false,
      not_or, not_false_eq_true, List.nodup_nil, and_true] at this
    refine ⟨fun h0 => this.1.1 ?_, fun h => this.1.2 h.symm, fun h => this.2 h.symm⟩
    rw [h0]; simp
  have he1 : 0 < p.e1 := by rw [hp]; simp only [extParams]; norm_num; positivity
  have he2 : 0 < p.e2 := by
    rw [hp]; simp only [extParams]; norm_num
    exact div_pos (by linarith) hM
  have he3 : p.e1 + p.e2 < 1 := by
    rw [hp]; simp only [extParams]; norm_num
    rw [← add_div, div_lt_one hM]; linarith
  have hm0 : ∀ l ∈ midTriple p, l.1 ≠ 0 := by
    intro l hl
    simp only [midTriple, List.mem_cons, List.not_mem_nil, or_false] at hl
    rcases hl with rfl | rfl | rfl
    · exact he1.ne'
    · exact he2.ne'
    · simp only; linarith
  have hoff : ∀ z, (∀ l ∈ midTriple p, z ≠ l.2) → ∀ l ∈ contourTriple u, z + c ≠ l.2 := by
    intro z hz l hl
    rw [← hbin, List.mem_map] at hl
    obtain ⟨l', hl', rfl⟩ := hl
    exact fun h => hz l' hl' (add_right_cancel h)
  have hcaus' : ∀ z, (∀ l ∈ midTriple p, z ≠ l.2) → jacDet (lensMap (midTriple p)) z = 0 →
      rho < ‖lensMap (midTriple p) z - w‖ := by
    intro z hz hd
    have h1 := hcaus (z + c) (hoff z hz) (by rw [← hbin, jacDet_translate _ _ _ hz]; exact hd)
    rw [← hbin, lensMap_translate, hw0] at h1
    simpa using h1
  set src : ℝ → ℂ := fun t : ℝ => (rho : ℂ) * exp (I * t) + w with hsrc
  have hsrcn : ∀ t, ‖src t - w‖ = rho := by
    intro t
    simp only [hsrc]
    rw [add_sub_cancel_right, norm_mul, mul_comm I, norm_exp_ofReal_mul_I, mul_one, norm_real, Real.norm_eq_abs,
      abs_of_pos hrho]
  have hsl : ∀ t, ∀ l ∈ midTriple p, src t ≠ l.2 := by
    intro t l hl h
    have h1 := hlens (l.1, l.2 + c) (by rw [← hbin]; exact List.mem_map_of_mem hl)
    refine h1 ?_
    simp only
    rw [hw0, add_sub_add_right_eq_sub, ← h]
    exact hsrcn t
  have hs1 : ∀ t, src t ≠ p.a := fun t => hsl t (p.e1, (p.a : ℂ)) (by simp [midTriple])
  have hs2 : ∀ t, src t ≠ -p.a := fun t => hsl t (p.e2, -(p.a : ℂ)) (by simp [midTriple])
  have hs3 : ∀ t, src t ≠ r3Complex p := fun t => hsl t (1 - p.e1 - p.e2, r3Complex p) (by simp [midTriple])
  have hlead : ∀ t, (polyCoeffsTripleCM (src t) p.a (r3Complex p) p.e1 p.e2).headD 0 ≠ 0 := by
    intro t
    rw [(triple_head (src t) p.a (r3Complex p) p.e1 p.e2).2]
    have hi : ∀ x : ℂ, x ≠ 0 → conj x ≠ 0 := fun x hx => by simpa using hx
    refine mul_ne_zero (mul_ne_zero (hi _ (sub_ne_zero.mpr (hs1 t))) (hi _ ?_)) (hi _ (sub_ne_zero.mpr (hs3 t)))
    intro h; exact hs2 t (eq_neg_of_add_eq_zero_left h)
  have hν0 : 0 ≤ ν := (abs_nonneg _).trans (hν 0 0)
  have hpi := Real.pi_pos
  have hδ0 : 0 < δ := by
    have h1 : -Real.pi ∈ Icc (-Real.pi) Real.pi := ⟨le_rfl, by linarith⟩
    have h2 : Real.pi ∈ Icc (-Real.pi) Real.pi := ⟨by linarith, le_rfl⟩
    have := (norm_nonneg _).trans (hB.speed _ h1 _ h2 0)
    have h3 : 0 ≤ Λ := by
      rw [abs_of_nonneg (by linarith)] at this
      exact nonneg_of_mul_nonneg_left this (by linarith)
    have h4 : 0 ≤ h := by rw [hh]; positivity
    have := mul_nonneg h3 h4
    linarith
  set S := shiftCM p.a (r3Complex p) p.e1 p.e2 with hSdef
  obtain ⟨l, key1, key2⟩ := contour_mag_ld (midTriple p) hm0 hnd w rho hrho hcaus' 10 (by norm_num) (finder lib 3 p) lib.perturb (detOf 3 p)
    lib.noise npts hnpts hmax src hsrc r _ _ _ _ Λ δ Z ν h hB hh
    (fun v init => by
      have := finder_length lib 3 (Or.inr rfl) p hlen v init
      simpa [trackCount] using this)
    (by
      intro t ht init
      have hF : finder lib 3 p (src t) init = images3 lib.roots p (src t) := by simp [finder]
      have hinj : Function.Injective fun j => r j t := by
        intro i j hij
        by_contra hne
        have := hB.apart t ht i j hne
        simp only at hij
        rw [hij, sub_self, norm_zero] at this
        linarith
      set cs := polyCoeffsTripleCM (src t) p.a (r3Complex p) p.e1 p.e2 with hcs
      have hperm := branches_perm (fun j => r j t) hinj ((lib.roots none cs).map (· + S))
        (by rw [List.length_map, hlen, hcs, (triple_head _ _ _ _ _).1])
        (fun j => List.mem_map.mpr ⟨r j t - S, IsRootList.mem_of_eval_zero (hroots _ _ (hlead t)) (hlead t)
          (hB.root t ht j), by ring⟩)
      have hnd' : (lib.roots none cs).Nodup := List.Nodup.of_map _ (hperm.nodup_iff.mpr (List.nodup_ofFn.mpr hinj))
      refine ⟨_, hF, hperm, ?_⟩
      rw [hF]
      refine (triple_count lib.roots p (src t) ha hr1 hr2 he1 he2 he3 cs rfl S rfl (hroots _ _ (hlead t)) (hs1 t) (hs2 t)
        (hs3 t) hnd' ?_ _ rfl).1
      intro z hz hlt
      obtain ⟨j, hj⟩ := List.mem_ofFn.mp (hperm.mem_iff.mp (List.mem_map_of_mem (f := (· + S)) hz))
      rw [← hj] at hlt ⊢
      refine (hB.clear t ht j).resolve_right (not_le.mpr ?_)
      norm_num at hlt ⊢
      exact hlt)
    (fun z hz => by
      have e : detOf 3 p z = detJac3 p z := by simp [detOf]
      rw [e, detJac3_eq, (jacDet_lensMap _ z hz).2])
    hν hsmall hclose lib.leggauss hg u1 hu0 hu1 (lensEq3_eq p) ω hω0 hω
  refine ⟨fun n => magFromLimb (integrateLd lib.leggauss (leqOf 3 p) w rho u1 n) rho 10 (limbColumns lib 3 p w rho npts),
    fun n => ?_, l, ?_, ?_⟩
  · unfold magExtendedSource
    rw [if_pos (Or.inr (Or.inr rfl))]
    simp only
    rw [if_neg (by norm_num), ← hp]
    rfl
  · have e : leqOf 3 p = lensEq3 p := by funext z; simp [leqOf]
    rw [e]
    exact key1
  · rw [← hbin, hw0, limbMag_translate]
    exact_mod_cast key2

end Microjax.Props
