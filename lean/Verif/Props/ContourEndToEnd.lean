import Verif.Props.ContourAccuracy
import Verif.Props.CriticalDense

/-!
# C128: `mag_extended_source` away from the caustics
-/

set_option linter.unusedVariables false

noncomputable section

namespace Microjax.Props

open Complex ComplexConjugate Microjax.Spec Segments Jnp Utils Contour PointSource Limb MeasureTheory Set

theorem uniformMag_translate (L : Lenses) (c w : ℂ) (rho : ℝ) :
    uniformMag (L.map fun l => (l.1, l.2 + c)) (w + c) rho = uniformMag L w rho := by
  rw [← limbMag_zero, ← limbMag_zero, limbMag_translate]

/-- **C128, binaries**: a uniform source whose closed disc meets no caustic and whose limb passes through no lens, a root
finder that returns all roots from every initial guess, random shifts of at most `ν`; along the limb the five roots form
branches with Lipschitz constant `Λ` and mutual distance `δ`, with no spurious root within the tolerance of the mask.  Then
`mag_extended_source` differs from the magnification of the disc (area of the images over area of the source) by at most five
times `π Λ² h + N (Z ν + ν²/2)`, over `π ρ²`, where `h` is the initial spacing of the limb angles and `N` the number of
samples.  No hypothesis on the order in which the roots come. -/
theorem C128_binary (lib : Lib) (npts npts_ld : ℕ) (u : UserParams) (u1 rho : ℝ) (w0 : ℂ) (hs : u.s ≠ 0) (hq : 0 < u.q)
    (hrho : 0 < rho) (hnpts : 4 ≤ npts) (hmax : npts ≤ 2 * 10 ^ 8)
    (hlen : ∀ init cs, (lib.roots init cs).length = cs.length - 1)
    (hroots : ∀ init cs, cs.headD 0 ≠ 0 → IsRootList cs (lib.roots init cs)) (ν : ℝ) (hν : ∀ i k, |lib.noise i k| ≤ ν)
    (hlens : ∀ l ∈ binary u.s u.q, ‖l.2 - w0‖ ≠ rho)
    (hcaus : ∀ z, (∀ l ∈ binary u.s u.q, z ≠ l.2) → jacDet (lensMap (binary u.s u.q)) z = 0 →
      rho < ‖lensMap (binary u.s u.q) z - w0‖)
    (p : MidParams) (hp : p = extParams 2 u) (r : Fin 5 → ℝ → ℂ) (Λ δ Z h : ℝ)
    (hh : h = 2 * Real.pi / ((npts / 2 - 1 : ℕ) : ℝ))
    (hB : LimbBranches (fun w => polyCoeffsBinary w p.a p.e1) 0 (lensEq2 p) (1 / 10 ^ 6)
      (fun t : ℝ => (rho : ℂ) * exp (I * t) + extSource 2 u w0) r Λ δ Z)
    (hsmall : 2 * (Λ * h) + 4 * ν < δ) (hclose : Λ / 10 ^ 8 + 2 * ν < 1 / 10 ^ 5) :
    ∃ m, magExtendedSource lib 2 npts npts_ld false u u1 rho w0 = .ok m ∧
      |m - uniformMag (binary u.s u.q) w0 rho| ≤ 5 * (Real.pi * Λ ^ 2 * h +
        (npts / 2 + 10 * (npts / 2 / 10) : ℕ) * (Z * ν + ν ^ 2 / 2)) / (Real.pi * rho ^ 2) := by
  have hq1 : 1 + u.q ≠ 0 := by positivity
  set w := extSource 2 u w0 with hw
  set c := w0 - w with hc
  have hbin : (midBinary p).map (fun l => (l.1, l.2 + c)) = binary u.s u.q := by
    rw [hp, hc]; exact C08_contour_binary u w0 hq1
  have hw0 : w0 = w + c := by rw [hc]; ring
  have ha : p.a ≠ 0 := by rw [hp]; simp [extParams, hs]
  have he : 0 < p.e1 := by rw [hp]; simp only [extParams, if_true]; positivity
  have he' : p.e1 < 1 := by
    rw [hp]; simp only [extParams, if_true]
    rw [div_lt_one (by positivity)]; linarith
  have hac : (p.a : ℂ) ≠ 0 := by exact_mod_cast ha
  have hnd : ((midBinary p).map Prod.snd).Nodup := by
    simp only [midBinary, List.map_cons, List.map_nil, List.nodup_cons, List.mem_singleton, List.not_mem_nil,
      not_false_eq_true, List.nodup_nil, and_true]
    exact fun h => hac (by linear_combination h / 2)
  have hm0 : ∀ l ∈ midBinary p, l.1 ≠ 0 := by
    intro l hl
    simp only [midBinary, List.mem_cons, List.not_mem_nil, or_false] at hl
    rcases hl with rfl | rfl
    · exact he.ne'
    · simp only; linarith
  have hoff : ∀ z, (∀ l ∈ midBinary p, z ≠ l.2) → ∀ l ∈ binary u.s u.q, z + c ≠ l.2 := by
    intro z hz l hl
    rw [← hbin, List.mem_map] at hl
    obtain ⟨l', hl', rfl⟩ := hl
    exact fun h => hz l' hl' (add_right_cancel h)
  have hcaus' : ∀ z, (∀ l ∈ midBinary p, z ≠ l.2) → jacDet (lensMap (midBinary p)) z = 0 →
      rho < ‖lensMap (midBinary p) z - w‖ := by
    intro z hz hd
    have h1 := hcaus (z + c) (hoff z hz) (by rw [← hbin, jacDet_translate _ _ _ hz]; exact hd)
    rw [← hbin, lensMap_translate, hw0] at h1
    simpa using h1
  set src : ℝ → ℂ := fun t : ℝ => (rho : ℂ) * exp (I * t) + w with hsrc
  have hsrcn : ∀ t, ‖src t - w‖ = rho := by
    intro t
    simp only [hsrc]
    rw [add_sub_cancel_right, norm_mul, mul_comm I, norm_exp_ofReal_mul_I, mul_one, norm_real, Real.norm_eq_abs,
      abs_of_pos hrho]
  have hsl : ∀ t, ∀ l ∈ midBinary p, src t ≠ l.2 := by
    intro t l hl h
    have h1 := hlens (l.1, l.2 + c) (by rw [← hbin]; exact List.mem_map_of_mem hl)
    refine h1 ?_
    simp only
    rw [hw0, add_sub_add_right_eq_sub, ← h]
    exact hsrcn t
  have hs1 : ∀ t, src t ≠ p.a := fun t => hsl t (p.e1, (p.a : ℂ)) (by simp [midBinary])
  have hs2 : ∀ t, src t ≠ -p.a := fun t => hsl t (1 - p.e1, -(p.a : ℂ)) (by simp [midBinary])
  have hlead : ∀ t, (polyCoeffsBinary (src t) p.a p.e1).headD 0 ≠ 0 := by
    intro t
    rw [(C04_binary_leading _ _ _).2]
    refine sub_ne_zero.mpr fun h => ?_
    have h3 : src t ^ 2 = (p.a : ℂ) ^ 2 := by
      have := congrArg (starRingEnd ℂ) h
      simpa using this
    rcases sq_eq_sq_iff_eq_or_eq_neg.mp h3 with h4 | h4
    · exact hs1 t h4
    · exact hs2 t h4
  have hν0 : 0 ≤ ν := (abs_nonneg _).trans (hν 0 0)
  have hpi := Real.pi_pos
  have hδ0 : 0 < δ := by
    have h1 : -Real.pi ∈ Icc (-Real.pi) Real.pi := ⟨le_rfl, by linarith⟩
    have h2 : Real.pi ∈ Icc (-Real.pi) Real.pi := ⟨by linarith, le_rfl⟩
    have := (norm_nonneg _).trans (hB.speed _ h1 _ h2 0)
    have h3 : 0 ≤ Λ := by
      rw [abs_of_nonneg (by linarith)] at this
      exact nonneg_of_mul_nonneg_left this (by linarith)
    have h4 : 0 ≤ h := by rw [hh]; positivity
    have := mul_nonneg h3 h4
    linarith
  have key := contour_mag (midBinary p) hm0 hnd w rho hrho hcaus' 5 (by norm_num) (finder lib 2 p) lib.perturb (detOf 2 p)
    lib.noise npts hnpts hmax src hsrc r _ _ _ _ Λ δ Z ν h hB hh
    (fun v init => by
      have := finder_length lib 2 (Or.inl rfl) p hlen v init
      simpa [trackCount] using this)
    (by
      intro t ht init
      have hF : finder lib 2 p (src t) init = images2 lib.roots init p (src t) := by simp [finder]
      have hinj : Function.Injective fun j => r j t := by
        intro i j hij
        by_contra hne
        have := hB.apart t ht i j hne
        simp only at hij
        rw [hij, sub_self, norm_zero] at this
        linarith
      have hperm := branches_perm (fun j => r j t) hinj (lib.roots init (polyCoeffsBinary (src t) p.a p.e1))
        (by rw [hlen, (C04_binary_leading _ _ _).1])
        (fun j => IsRootList.mem_of_eval_zero (hroots _ _ (hlead t)) (hlead t) (by
          have := hB.root t ht j
          rwa [sub_zero] at this))
      refine ⟨_, hF, hperm, ?_⟩
      rw [hF]
      refine (binary_count lib.roots init p (src t) ha he he' (hroots _ _ (hlead t)) (hs1 t) (hs2 t)
        (hperm.nodup_iff.mpr (List.nodup_ofFn.mpr hinj)) ?_ _ rfl).1
      intro z hz hlt
      obtain ⟨j, rfl⟩ := List.mem_ofFn.mp (hperm.mem_iff.mp hz)
      refine (hB.clear t ht j).resolve_right (not_le.mpr ?_)
      norm_num at hlt ⊢
      exact hlt)
    (fun z hz => by
      have e : detOf 2 p z = detJac2 p z := by simp [detOf]
      rw [e, detJac2_eq, (jacDet_lensMap _ z hz).2])
    hν hsmall hclose
  refine ⟨magFromLimb integrateUnif rho 5 (limbColumns lib 2 p w rho npts), ?_, ?_⟩
  · unfold magExtendedSource
    rw [if_pos (Or.inr (Or.inl rfl))]
    simp only
    rw [if_neg (by norm_num), ← hp]
    rfl
  · rw [← hbin, hw0, uniformMag_translate]
    exact_mod_cast key

/-- The lenses with which `mag_extended_source` computes a triple (`C08_contour_triple_violated`): at the positions of the
triple, but with masses proportional to `q`, `1 - q3` and `2 q3`. -/
def contourTriple (u : UserParams) : Lenses :=
  [(u.q / (1 + u.q + u.q3), ((u.s / (1 + u.q) : ℝ) : ℂ)),
   ((1 - u.q3) / (1 + u.q + u.q3), ((-(u.q * u.s / (1 + u.q)) : ℝ) : ℂ)),
   (2 * u.q3 / (1 + u.q + u.q3), u.r3 * exp (I * u.psi) + ((u.s / (1 + u.q) - u.s / 2 : ℝ) : ℂ))]

/-- **C128, triples**: the same for three lenses and the ten roots of the polynomial, for the lenses that the code uses. -/
theorem C128_triple (lib : Lib) (npts npts_ld : ℕ) (u : UserParams) (u1 rho : ℝ) (w0 : ℂ) (hq : 0 < u.q) (hq3 : 0 < u.q3)
    (hq3' : u.q3 < 1) (hpos : ((contourTriple u).map Prod.snd).Nodup) (hrho : 0 < rho) (hnpts : 4 ≤ npts)
    (hmax : npts ≤ 2 * 10 ^ 8) (hlen : ∀ init cs, (lib.roots init cs).length = cs.length - 1)
    (hroots : ∀ init cs, cs.headD 0 ≠ 0 → IsRootList cs (lib.roots init cs)) (ν : ℝ) (hν : ∀ i k, |lib.noise i k| ≤ ν)
    (hlens : ∀ l ∈ contourTriple u, ‖l.2 - w0‖ ≠ rho)
    (hcaus : ∀ z, (∀ l ∈ contourTriple u, z ≠ l.2) → jacDet (lensMap (contourTriple u)) z = 0 →
      rho < ‖lensMap (contourTriple u) z - w0‖)
    (p : MidParams) (hp : p = extParams 3 u) (r : Fin 10 → ℝ → ℂ) (Λ δ Z h : ℝ)
    (hh : h = 2 * Real.pi / ((npts / 2 - 1 : ℕ) : ℝ))
    (hB : LimbBranches (fun w => polyCoeffsTripleCM w p.a (r3Complex p) p.e1 p.e2) (shiftCM p.a (r3Complex p) p.e1 p.e2)
      (lensEq3 p) (1 / 10 ^ 3) (fun t : ℝ => (rho : ℂ) * exp (I * t) + extSource 3 u w0) r Λ δ Z)
    (hsmall : 2 * (Λ * h) + 4 * ν < δ) (hclose : Λ / 10 ^ 8 + 2 * ν < 1 / 10 ^ 5) :
    ∃ m, magExtendedSource lib 3 npts npts_ld false u u1 rho w0 = .ok m ∧
      |m - uniformMag (contourTriple u) w0 rho| ≤ 10 * (Real.pi * Λ ^ 2 * h +
        (npts / 2 + 10 * (npts / 2 / 10) : ℕ) * (Z * ν + ν ^ 2 / 2)) / (Real.pi * rho ^ 2) := by
  have hM : 0 < 1 + u.q + u.q3 := by positivity
  have hq1 : (1 + u.q : ℂ) ≠ 0 := by exact_mod_cast (by positivity : (1 + u.q) ≠ 0)
  set w := extSource 3 u w0 with hw
  set c := w0 - w with hc
  have hbin : (midTriple p).map (fun l => (l.1, l.2 + c)) = contourTriple u := by
    have hcx : c = (((1 / 2) * u.s * (1 - u.q) / (1 + u.q) : ℝ) : ℂ) := by
      rw [hc, hw]; simp [extSource]
    rw [hcx, hp]
    simp only [midTriple, extParams, contourTriple, r3Complex, List.map_cons, List.map_nil, List.cons.injEq, Prod.mk.injEq,
      and_true]
    norm_num
    refine ⟨?_, ?_, ?_, ?_⟩
    · field_simp; ring
    · field_simp; ring
    · field_simp; ring
    · field_simp; ring
  have hw0 : w0 = w + c := by rw [hc]; ring
  have hnd : ((midTriple p).map Prod.snd).Nodup := by
    have e : (contourTriple u).map Prod.snd = ((midTriple p).map Prod.snd).map (· + c) := by
      rw [← hbin, List.map_map, List.map_map]; rfl
    rw [e] at hpos
    exact List.Nodup.of_map _ hpos
  obtain ⟨ha, hr1, hr2⟩ : p.a ≠ 0 ∧ r3Complex p ≠ p.a ∧ r3Complex p ≠ -p.a := by
    have := hnd
    simp only [midTriple, List.map_cons, List.map_nil, List.nodup_cons, List.mem_cons, List.not_mem_nil, or_false,
      not_or, not_false_eq_true, List.nodup_nil, and_true] at this
    refine ⟨fun h0 => this.1.1 ?_, fun h => this.1.2 h.symm, fun h => this.2 h.symm⟩
    rw [h0]; simp
  have he1 : 0 < p.e1 := by rw [hp]; simp only [extParams]; norm_num; positivity
  have he2 : 0 < p.e2 := by
    rw [hp]; simp only [extParams]; norm_num
    exact div_pos (by linarith) hM
  have he3 : p.e1 + p.e2 < 1 := by
    rw [hp]; simp only [extParams]; norm_num
    rw [← add_div, div_lt_one hM]; linarith
  have hm0 : ∀ l ∈ midTriple p, l.1 ≠ 0 := by
    intro l hl
    simp only [midTriple, List.mem_cons, List.not_mem_nil, or_false] at hl
    rcases hl with rfl | rfl | rfl
    · exact he1.ne'
    · exact he2.ne'
    · simp only; linarith
  have hoff : ∀ z, (∀ l ∈ midTriple p, z ≠ l.2) → ∀ l ∈ contourTriple u, z + c ≠ l.2 := by
    intro z hz l hl
    rw [← hbin, List.mem_map] at hl
    obtain ⟨l', hl', rfl⟩ := hl
    exact fun h => hz l' hl' (add_right_cancel h)
  have hcaus' : ∀ z, (∀ l ∈ midTriple p, z ≠ l.2) → jacDet (lensMap (midTriple p)) z = 0 →
      rho < ‖lensMap (midTriple p) z - w‖ := by
    intro z hz hd
    have h1 := hcaus (z + c) (hoff z hz) (by rw [← hbin, jacDet_translate _ _ _ hz]; exact hd)
    rw [← hbin, lensMap_translate, hw0] at h1
    simpa using h1
  set src : ℝ → ℂ := fun t : ℝ => (rho : ℂ) * exp (I * t) + w with hsrc
  have hsrcn : ∀ t, ‖src t - w‖ = rho := by
    intro t
    simp only [hsrc]
    rw [add_sub_cancel_right, norm_mul, mul_comm I, norm_exp_ofReal_mul_I, mul_one, norm_real, Real.norm_eq_abs,
      abs_of_pos hrho]
  have hsl : ∀ t, ∀ l ∈ midTriple p, src t ≠ l.2 := by
    intro t l hl h
    have h1 := hlens (l.1, l.2 + c) (by rw [← hbin]; exact List.mem_map_of_mem hl)
    refine h1 ?_
    simp only
    rw [hw0, add_sub_add_right_eq_sub, ← h]
    exact hsrcn t
  have hs1 : ∀ t, src t ≠ p.a := fun t => hsl t (p.e1, (p.a : ℂ)) (by simp [midTriple])
  have hs2 : ∀ t, src t ≠ -p.a := fun t => hsl t (p.e2, -(p.a : ℂ)) (by simp [midTriple])
  have hs3 : ∀ t, src t ≠ r3Complex p := fun t => hsl t (1 - p.e1 - p.e2, r3Complex p) (by simp [midTriple])
  have hlead : ∀ t, (polyCoeffsTripleCM (src t) p.a (r3Complex p) p.e1 p.e2).headD 0 ≠ 0 := by
    intro t
    rw [(triple_head (src t) p.a (r3Complex p) p.e1 p.e2).2]
    have hi : ∀ x : ℂ, x ≠ 0 → conj x ≠ 0 := fun x hx => by simpa using hx
    refine mul_ne_zero (mul_ne_zero (hi _ (sub_ne_zero.mpr (hs1 t))) (hi _ ?_)) (hi _ (sub_ne_zero.mpr (hs3 t)))
    intro h; exact hs2 t (eq_neg_of_add_eq_zero_left h)
  have hν0 : 0 ≤ ν := (abs_nonneg _).trans (hν 0 0)
  have hpi := Real.pi_pos
  have hδ0 : 0 < δ := by
    have h1 : -Real.pi ∈ Icc (-Real.pi) Real.pi := ⟨le_rfl, by linarith⟩
    have h2 : Real.pi ∈ Icc (-Real.pi) Real.pi := ⟨by linarith, le_rfl⟩
    have := (norm_nonneg _).trans (hB.speed _ h1 _ h2 0)
    have h3 : 0 ≤ Λ := by
      rw [abs_of_nonneg (by linarith)] at this
      exact nonneg_of_mul_nonneg_left this (by linarith)
    have h4 : 0 ≤ h := by rw [hh]; positivity
    have := mul_nonneg h3 h4
    linarith
  set S := shiftCM p.a (r3Complex p) p.e1 p.e2 with hSdef
  have key := contour_mag (midTriple p) hm0 hnd w rho hrho hcaus' 10 (by norm_num) (finder lib 3 p) lib.perturb (detOf 3 p)
    lib.noise npts hnpts hmax src hsrc r _ _ _ _ Λ δ Z ν h hB hh
    (fun v init => by
      have := finder_length lib 3 (Or.inr rfl) p hlen v init
      simpa [trackCount] using this)
    (by
      intro t ht init
      have hF : finder lib 3 p (src t) init = images3 lib.roots p (src t) := by simp [finder]
      have hinj : Function.Injective fun j => r j t := by
        intro i j hij
        by_contra hne
        have := hB.apart t ht i j hne
        simp only at hij
        rw [hij, sub_self, norm_zero] at this
        linarith
      set cs := polyCoeffsTripleCM (src t) p.a (r3Complex p) p.e1 p.e2 with hcs
      have hperm := branches_perm (fun j => r j t) hinj ((lib.roots none cs).map (· + S))
        (by rw [List.length_map, hlen, hcs, (triple_head _ _ _ _ _).1])
        (fun j => List.mem_map.mpr ⟨r j t - S, IsRootList.mem_of_eval_zero (hroots _ _ (hlead t)) (hlead t)
          (hB.root t ht j), by ring⟩)
      have hnd' : (lib.roots none cs).Nodup := List.Nodup.of_map _ (hperm.nodup_iff.mpr (List.nodup_ofFn.mpr hinj))
      refine ⟨_, hF, hperm, ?_⟩
      rw [hF]
      refine (triple_count lib.roots p (src t) ha hr1 hr2 he1 he2 he3 cs rfl S rfl (hroots _ _ (hlead t)) (hs1 t) (hs2 t)
        (hs3 t) hnd' ?_ _ rfl).1
      intro z hz hlt
      obtain ⟨j, hj⟩ := List.mem_ofFn.mp (hperm.mem_iff.mp (List.mem_map_of_mem (f := (· + S)) hz))
      rw [← hj] at hlt ⊢
      refine (hB.clear t ht j).resolve_right (not_le.mpr ?_)
      norm_num at hlt ⊢
      exact hlt)
    (fun z hz => by
      have e : detOf 3 p z = detJac3 p z := by simp [detOf]
      rw [e, detJac3_eq, (jacDet_lensMap _ z hz).2])
    hν hsmall hclose
  refine ⟨magFromLimb integrateUnif rho 10 (limbColumns lib 3 p w rho npts), ?_, ?_⟩
  · unfold magExtendedSource
    rw [if_pos (Or.inr (Or.inr rfl))]
    simp only
    rw [if_neg (by norm_num), ← hp]
    rfl
  · rw [← hbin, hw0, uniformMag_translate]
    exact_mod_cast key

end Microjax.Props
