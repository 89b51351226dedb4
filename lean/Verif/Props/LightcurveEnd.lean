import Verif.Props.SmallSource
import Verif.Props.Acceptance

/-!
# C114: the light curve of `mag_binary` from end to end

The selection of C30, the convergence of C71 and C72 and the expansion of C111 combined: what the returned light curve is,
whichever method was chosen at each point.
-/

noncomputable section

namespace Microjax.Props

open Complex ComplexConjugate Microjax.PointSource Microjax.Spec Microjax.Lightcurve Microjax.ExtendedSource Filter
open scoped Topology

/-- A source position at which the root finder returns all roots, distinct, and none comes within the tolerance of the mask
without solving the lens equation; the source is not exactly behind a lens. -/
structure RegularSource (roots : Option (List ℂ) → List ℂ → List ℂ) (s q : ℝ) (w : ℂ) : Prop where
  roots_all : IsRootList
    (polyCoeffsBinary (w - xCM (binParams s q)) (midParams2 (binParams s q)).a (midParams2 (binParams s q)).e1)
    (roots none
      (polyCoeffsBinary (w - xCM (binParams s q)) (midParams2 (binParams s q)).a (midParams2 (binParams s q)).e1))
  off1 : w - xCM (binParams s q) ≠ (midParams2 (binParams s q)).a
  off2 : w - xCM (binParams s q) ≠ -(midParams2 (binParams s q)).a
  simple : (roots none
    (polyCoeffsBinary (w - xCM (binParams s q)) (midParams2 (binParams s q)).a (midParams2 (binParams s q)).e1)).Nodup
  sep : ∀ r ∈ roots none
      (polyCoeffsBinary (w - xCM (binParams s q)) (midParams2 (binParams s q)).a (midParams2 (binParams s q)).e1),
    ‖lensEq2 (midParams2 (binParams s q)) r - (w - xCM (binParams s q))‖ < 1e-6 →
      lensEq2 (midParams2 (binParams s q)) r = w - xCM (binParams s q)

/-- `mag_binary` with the ray-shooting functions at the resolutions `n.1`, `n.2` as its full solvers. -/
def lightCurve (roots : Option (List ℂ) → List ℂ → List ℂ) (s q ρ u1 delta_c : ℝ)
    (regions : ℂ → List ((ℝ × ℝ) × (ℝ × ℝ))) (m c : ℕ) (ws : List ℂ) (n : ℕ × ℕ) : Except Err (List ℝ) :=
  magBinary roots (fun w => magUniform 2 (binParams s q) w ρ n.1 n.2 (regions w))
    (fun w => magLimbDark 2 (binParams s q) w ρ u1 delta_c n.1 n.2 (regions w)) ws ρ u1 m c (some s) (some q)

/-- The full solver converges to the limb-darkened magnification (the uniform one for `u1 = 0`). -/
theorem full_converges (s q ρ u1 delta_c : ℝ) (hq : 0 < q) (hρ : 0 < ρ) (h1 : u1 < 1) (w : ℂ)
    (R : List ((ℝ × ℝ) × (ℝ × ℝ))) (hR : ∀ r ∈ R, ProperRegion r) (hcov : CoversOnce R (imageOfDisc (binary s q) w ρ)) :
    Tendsto (fun n : ℕ × ℕ => if u1 = 0 then magUniform 2 (binParams s q) w ρ n.1 n.2 R
      else magLimbDark 2 (binParams s q) w ρ u1 delta_c n.1 n.2 R) (atTop ×ˢ atTop) (𝓝 (limbMag (binary s q) w ρ u1)) := by
  have hul : userLens 2 (binParams s q) = binary s q := by simp [userLens, binParams]
  have hq1 : 1 + (binParams s q).q ≠ 0 := by show 1 + q ≠ 0; positivity
  by_cases hu : u1 = 0
  · simp only [hu, if_true]
    rw [limbMag_zero, ← hul]
    exact C71_uniform_converges 2 _ w ρ hρ hq1 (by norm_num) R hR (by rw [hul]; exact hcov)
  · simp only [hu, if_false]
    rw [← hul]
    exact C72_limb_converges 2 _ w ρ u1 delta_c hρ (by linarith) hq1 (by norm_num) R hR (by rw [hul]; exact hcov)

/-- **C114**: for every binary, every limb darkening and every light curve whatever
`MAX_FULL_CALLS` and the chunk size, the light curve has one value per point, each value converges as the resolutions grow,
to the exact finite-source magnification at the first `MAX_FULL_CALLS` rejected points, and to the multipole value, which at
accepted points is within 0.01 of the point-source value, at all others. -/
theorem C114_light_curve (roots : Option (List ℂ) → List ℂ → List ℂ) (s q ρ u1 delta_c : ℝ) (hq : 0 < q) (hρ : 0 < ρ)
    (h1 : u1 < 1) (ws : List ℂ) (regions : ℂ → List ((ℝ × ℝ) × (ℝ × ℝ)))
    (hR : ∀ w ∈ ws, ∀ r ∈ regions w, ProperRegion r)
    (hcov : ∀ w ∈ ws, CoversOnce (regions w) (imageOfDisc (binary s q) w ρ)) (m c : ℕ) (hc : 1 ≤ c) :
    ∃ out : ℕ × ℕ → List ℝ, (∀ n, lightCurve roots s q ρ u1 delta_c regions m c ws n = .ok (out n)) ∧
      ∀ (i : ℕ) (hi : i < ws.length), ∃ (v : ℕ × ℕ → ℝ) (l : ℝ), (∀ n, (out n)[i]? = some (v n)) ∧
        Tendsto v (atTop ×ˢ atTop) (𝓝 l) ∧
        (chosen (fun w => ¬ binaryAccepts roots ρ u1 s q w) ws m i → l = limbMag (binary s q) ws[i] ρ u1) ∧
        (¬ chosen (fun w => ¬ binaryAccepts roots ρ u1 s q w) ws m i →
          ∃ mu err, binaryMulti roots ρ u1 s q ws[i] = .ok (mu, err) ∧ l = mu ∧ ∀ n, v n = mu) ∧
        (binaryAccepts roots ρ u1 s q ws[i] →
          ∃ pm, magPointSource roots 2 (binParams s q) ws[i] = .ok pm ∧ |l - pm| < 1 / 100) := by
  classical
  have hsel := fun n : ℕ × ℕ => C30_selection roots (fun w => magUniform 2 (binParams s q) w ρ n.1 n.2 (regions w))
    (fun w => magLimbDark 2 (binParams s q) w ρ u1 delta_c n.1 n.2 (regions w)) ws ρ u1 s q m c hc
  choose out ho hlen hval using hsel
  refine ⟨out, ho, fun i hi => ?_⟩
  obtain ⟨mu, err, hmu⟩ : ∃ mu err, binaryMulti roots ρ u1 s q ws[i] = .ok (mu, err) := ⟨_, _, binaryMulti_ok ..⟩
  have hval' : ∀ n, (out n)[i]? = some (if chosen (fun w => ¬ binaryAccepts roots ρ u1 s q w) ws m i then
      (if u1 = 0 then magUniform 2 (binParams s q) ws[i] ρ n.1 n.2 (regions ws[i])
        else magLimbDark 2 (binParams s q) ws[i] ρ u1 delta_c n.1 n.2 (regions ws[i])) else mu) := by
    intro n
    obtain ⟨mu', err', g1, g2⟩ := hval n i hi
    rw [hmu, Except.ok.injEq, Prod.mk.injEq] at g1
    rw [g2, g1.1]
  have hacc : binaryAccepts roots ρ u1 s q ws[i] →
      ∃ pm, magPointSource roots 2 (binParams s q) ws[i] = .ok pm ∧ |mu - pm| < 1 / 100 := by
    intro h
    obtain ⟨mu', err', pm, g1, g2, -, g4, g5⟩ := C83_close roots ρ u1 s q ws[i] h
    rw [hmu, Except.ok.injEq, Prod.mk.injEq] at g1
    rw [← g1.1] at g5
    exact ⟨pm, g2, lt_of_le_of_lt g5 g4⟩
  by_cases hch : chosen (fun w => ¬ binaryAccepts roots ρ u1 s q w) ws m i
  · refine ⟨_, _, hval', ?_, fun _ => rfl, fun h => absurd hch h, fun h => absurd h hch.2.1⟩
    simp only [hch, if_true]
    exact full_converges s q ρ u1 delta_c hq hρ h1 ws[i] _ (hR _ (List.getElem_mem hi)) (hcov _ (List.getElem_mem hi))
  · refine ⟨fun _ => mu, mu, fun n => ?_, tendsto_const_nhds, fun h => absurd h hch, fun _ => ⟨mu, err, hmu, rfl, fun _ => rfl⟩,
      hacc⟩
    rw [hval', if_neg hch]

/-- **C114, small sources**: for every finite list of regular source positions there are a constant and a radius below which
every entry of the light curve converges to within `K ρ⁵` of the exact finite-source magnification of its point, whatever the
tests decide and however many full evaluations are allowed. -/
theorem C114_small_sources (roots : Option (List ℂ) → List ℂ → List ℂ) (s q u1 : ℝ) (hs : s ≠ 0) (hq : 0 < q)
    (h0 : 0 ≤ u1) (h1 : u1 < 1) (ws : List ℂ) (hws : ∀ w ∈ ws, RegularSource roots s q w) :
    ∃ K ρ₀ : ℝ, 0 < ρ₀ ∧ ∀ (ρ delta_c : ℝ), 0 < ρ → ρ < ρ₀ → ∀ regions : ℂ → List ((ℝ × ℝ) × (ℝ × ℝ)),
      (∀ w ∈ ws, ∀ r ∈ regions w, ProperRegion r) →
      (∀ w ∈ ws, CoversOnce (regions w) (imageOfDisc (binary s q) w ρ)) → ∀ m c : ℕ, 1 ≤ c →
      ∃ out : ℕ × ℕ → List ℝ, (∀ n, lightCurve roots s q ρ u1 delta_c regions m c ws n = .ok (out n)) ∧
        ∀ (i : ℕ) (hi : i < ws.length), ∃ (v : ℕ × ℕ → ℝ) (l : ℝ), (∀ n, (out n)[i]? = some (v n)) ∧
          Tendsto v (atTop ×ˢ atTop) (𝓝 l) ∧ |l - limbMag (binary s q) ws[i] ρ u1| ≤ K * ρ ^ 5 := by
  -- one constant and one radius for the whole list
  have key : ∃ K ρ₀ : ℝ, 0 ≤ K ∧ 0 < ρ₀ ∧ ∀ w ∈ ws, ∀ (ρ : ℝ), 0 < ρ → ρ < ρ₀ →
      ∀ R : List ((ℝ × ℝ) × (ℝ × ℝ)), (∀ r ∈ R, ProperRegion r) → CoversOnce R (imageOfDisc (binary s q) w ρ) →
      ∃ mu err, binaryMulti roots ρ u1 s q w = .ok (mu, err) ∧ |mu - limbMag (binary s q) w ρ u1| ≤ K * ρ ^ 5 := by
    induction ws with
    | nil => exact ⟨0, 1, le_rfl, one_pos, fun w hw => absurd hw (List.not_mem_nil)⟩
    | cons w ws ih =>
      obtain ⟨K, ρ₀, hK, hρ₀, h⟩ := ih fun v hv => hws v (List.mem_cons_of_mem _ hv)
      obtain ⟨r1, r2, r3, r4, r5⟩ := hws w List.mem_cons_self
      obtain ⟨K', ρ₀', pm, hρ₀', -, h'⟩ := C111_binary roots s q u1 w hs hq h0 h1 _ rfl _ rfl r1 r2 r3 r4 r5
      refine ⟨max K K', min ρ₀ ρ₀', hK.trans (le_max_left _ _), lt_min hρ₀ hρ₀', fun v hv ρ hρ hlt R hR hcov => ?_⟩
      rcases List.mem_cons.mp hv with rfl | hv
      · obtain ⟨mu, err, A, g1, g2, g3, -⟩ := h' ρ 0 hρ (hlt.trans_le (min_le_right _ _)) R hR hcov
        have hul : userLens 2 (binParams s q) = binary s q := by simp [userLens, binParams]
        have hA : A = limbMag (binary s q) v ρ u1 := by
          refine tendsto_nhds_unique g2 ?_
          rw [← hul]
          exact C72_limb_converges 2 _ v ρ u1 0 hρ (by linarith) (by show 1 + q ≠ 0; positivity) (by norm_num) R hR
            (by rw [hul]; exact hcov)
        refine ⟨mu, err, g1, ?_⟩
        rw [← hA, abs_sub_comm]
        exact g3.trans (mul_le_mul_of_nonneg_right (le_max_right _ _) (by positivity))
      · obtain ⟨mu, err, g1, g2⟩ := h v hv ρ hρ (hlt.trans_le (min_le_left _ _)) R hR hcov
        exact ⟨mu, err, g1, g2.trans (mul_le_mul_of_nonneg_right (le_max_left _ _) (by positivity))⟩
  obtain ⟨K, ρ₀, hK, hρ₀, h⟩ := key
  refine ⟨K, ρ₀, hρ₀, fun ρ delta_c hρ hlt regions hR hcov m c hc => ?_⟩
  obtain ⟨out, ho, hv⟩ := C114_light_curve roots s q ρ u1 delta_c hq hρ h1 ws regions hR hcov m c hc
  refine ⟨out, ho, fun i hi => ?_⟩
  obtain ⟨v, l, k1, k2, k3, k4, -⟩ := hv i hi
  refine ⟨v, l, k1, k2, ?_⟩
  by_cases hch : chosen (fun w => ¬ binaryAccepts roots ρ u1 s q w) ws m i
  · rw [k3 hch, sub_self, abs_zero]; positivity
  · obtain ⟨mu, err, g1, g2, -⟩ := k4 hch
    obtain ⟨mu', err', g3, g4⟩ := h ws[i] (List.getElem_mem hi) ρ hρ hlt _ (hR _ (List.getElem_mem hi))
      (hcov _ (List.getElem_mem hi))
    rw [g1, Except.ok.injEq, Prod.mk.injEq] at g3
    rw [g2, g3.1]; exact g4

/-- The hypotheses are met: the equal-mass binary of unit separation, a light curve that stays at the centre, an annulus as
region. -/
example (u1 : ℝ) (h0 : 0 ≤ u1) (h1 : u1 < 1) (k m c : ℕ) (hc : 1 ≤ c) : ∃ ρ > 0, ∃ regions : ℂ → List ((ℝ × ℝ) × (ℝ × ℝ)),
    ∃ out : ℕ × ℕ → List ℝ, (∀ n, lightCurve exFinder 1 1 ρ u1 0 regions m c (List.replicate k 0) n = .ok (out n)) ∧
      ∀ i < k, ∃ (v : ℕ × ℕ → ℝ) (l : ℝ), (∀ n, (out n)[i]? = some (v n)) ∧ Tendsto v (atTop ×ˢ atTop) (𝓝 l) ∧
        |l - limbMag (binary 1 1) 0 ρ u1| ≤ 1 / 100 := by
  have hx : (0 : ℂ) - (xCM (binParams 1 1) : ℂ) = 0 := by
    show (0 : ℂ) - (xCM exU : ℂ) = 0
    rw [exU_x]; simp
  have hreg : ∀ w ∈ List.replicate k (0 : ℂ), RegularSource exFinder 1 1 w := by
    intro w hw
    obtain rfl := (List.mem_replicate.mp hw).2
    refine ⟨?_, ?_, ?_, exRoots_nodup, ?_⟩
    · rw [hx]; exact exRoots_isRootList
    · rw [hx]; exact exU_lens.1
    · rw [hx]; exact exU_lens.2
    · intro r hr _
      rw [hx]; exact (exRoots_images r hr).1
  obtain ⟨K, ρ₀, hρ₀, h⟩ := C114_small_sources exFinder 1 1 u1 one_ne_zero one_pos h0 h1 (List.replicate k 0) hreg
  set ρ : ℝ := min (ρ₀ / 2) (1 / (100 * (|K| + 1))) with hρdef
  have hρ : 0 < ρ := lt_min (by linarith) (by positivity)
  have hρ1 : ρ ≤ 1 / (100 * (|K| + 1)) := min_le_right _ _
  obtain ⟨B, hB, hp, hcov⟩ := annulus_covers (binary 1 1) 0 ρ
  obtain ⟨out, o1, o2⟩ := h ρ 0 hρ (lt_of_le_of_lt (min_le_left _ _) (by linarith)) (fun _ => [((0, B), (0, 2 * Real.pi))])
    (fun w _ r hr => by rw [List.mem_singleton.mp hr]; exact hp)
    (fun w hw => by obtain rfl := (List.mem_replicate.mp hw).2; exact hcov) m c hc
  refine ⟨ρ, hρ, _, out, o1, fun i hi => ?_⟩
  obtain ⟨v, l, k1, k2, k3⟩ := o2 i (by simpa using hi)
  refine ⟨v, l, k1, k2, ?_⟩
  rw [List.getElem_replicate] at k3
  refine k3.trans ?_
  have e1 : ρ ≤ 1 := hρ1.trans (by rw [div_le_one (by positivity)]; linarith [abs_nonneg K])
  have e2 : ρ ^ 5 ≤ ρ := by simpa using pow_le_pow_of_le_one hρ.le e1 (show 1 ≤ 5 by norm_num)
  calc K * ρ ^ 5 ≤ |K| * ρ ^ 5 := mul_le_mul_of_nonneg_right (le_abs_self K) (by positivity)
    _ ≤ (|K| + 1) * ρ := by nlinarith [abs_nonneg K, pow_pos hρ 5]
    _ ≤ (|K| + 1) * (1 / (100 * (|K| + 1))) := mul_le_mul_of_nonneg_left hρ1 (by positivity)
    _ = 1 / 100 := by field_simp

end Microjax.Props
