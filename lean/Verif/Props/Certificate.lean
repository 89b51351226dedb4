import Verif.Lemmas.Spurious
import Verif.Props.Tolerance
import Verif.Props.ImageCount
import Verif.Props.FarField

/-!
# C113: moderate values of the point-source magnification are exact

A root that passes the tolerance of the mask without being an image has a small Jacobian determinant, so that its
contribution to the returned sum is large.  A returned value below an explicit limit therefore contains no such root.
-/

noncomputable section

namespace Microjax.Props

open Complex ComplexConjugate Microjax.PointSource Microjax.Spec Filter
open scoped Topology

/-- The limit below which a returned magnification is certified, for lenses at mutual distances of at least `2 a` with mass
fractions of at least `M` and a mask of tolerance `tol`. -/
def certLimit (a M tol : ℝ) : ℝ :=
  let T := 1 + 3 / a ^ 2
  let d := Real.sqrt (M / T) / 2
  let ε := T * tol / d
  1 / (ε * (2 + ε))

/-- The tolerance is small compared to the distances of the lenses and to their Einstein radii. -/
def TolSmall (a M tol : ℝ) : Prop := tol ≤ a / 8 ∧ tol ≤ Real.sqrt (M / (1 + 3 / a ^ 2)) / 2

/-- A root at which the eliminated equation has a nonzero derivative occurs once in the list of roots. -/
theorem count_le_one_of_deriv (cs rs : List ℂ) (h : IsRootList cs rs) (r T : ℂ) (G H : ℂ → ℂ) (κ : ℂ)
    (hev : ∀ᶠ x : ℂ in 𝓝 (r + T), evalPoly cs (x - T) = G x * H x) (hG : ContinuousAt G (r + T)) (hG0 : G (r + T) ≠ 0)
    (hH : HasDerivAt H κ (r + T)) (hH0 : H (r + T) = 0) (hκ : κ ≠ 0) : rs.count r ≤ 1 := by
  by_contra hcount
  push Not at hcount
  have hsub : (List.replicate 2 r).Sublist rs := List.replicate_sublist_iff.mpr hcount
  obtain ⟨l, hl⟩ := hsub.exists_perm_append
  set Q : ℂ → ℂ := fun x => cs.headD 0 * (l.map fun s => x - T - s).prod with hQ
  have hfac : ∀ x, evalPoly cs (x - T) = (x - (r + T)) * ((x - (r + T)) * Q x) := by
    intro x
    rw [h (x - T), (hl.map _).prod_eq, hQ]
    simp only [List.replicate_succ, List.replicate_zero, List.cons_append, List.nil_append, List.map_cons, List.prod_cons]
    ring
  have hQc : ContinuousAt Q (r + T) := by
    refine continuousAt_const.mul ?_
    have : ∀ l : List ℂ, Continuous fun x : ℂ => (l.map fun s => x - T - s).prod := by
      intro l
      induction l with
      | nil => simpa using continuous_const
      | cons s l ih => simp only [List.map_cons, List.prod_cons]; exact (by fun_prop : Continuous fun x => x - T - s).mul ih
    exact (this l).continuousAt
  have t1 : Tendsto (fun x => (x - (r + T)) * Q x) (𝓝[≠] (r + T)) (𝓝 0) := by
    have : ContinuousAt (fun x => (x - (r + T)) * Q x) (r + T) := (continuousAt_id.sub continuousAt_const).mul hQc
    have h0 : (fun x => (x - (r + T)) * Q x) (r + T) = 0 := by simp
    rw [← h0]; exact this.tendsto.mono_left nhdsWithin_le_nhds
  have t2 : Tendsto (fun x => G x * slope H (r + T) x) (𝓝[≠] (r + T)) (𝓝 (G (r + T) * κ)) :=
    (hG.tendsto.mono_left nhdsWithin_le_nhds).mul (hasDerivAt_iff_tendsto_slope.mp hH)
  have heq : (fun x => G x * slope H (r + T) x) =ᶠ[𝓝[≠] (r + T)] fun x => (x - (r + T)) * Q x := by
    filter_upwards [hev.filter_mono nhdsWithin_le_nhds, self_mem_nhdsWithin] with x hx hne
    have hx' : x - (r + T) ≠ 0 := sub_ne_zero.mpr hne
    rw [slope_def_field, hH0, sub_zero]
    rw [hfac] at hx
    field_simp
    linear_combination -hx
  have := tendsto_nhds_unique (t2.congr' heq) t1
  exact mul_ne_zero hG0 hκ this

variable {n : ℕ}

/-- For candidates that are complexified solutions, a sum below the limit contains only images, each once. -/
theorem certified (m : Fin n → ℝ) (c : Fin n → ℂ) (w : ℂ) (hm : ∀ i, 0 < m i) (hsum : ∑ i, m i = 1) (a M tol : ℝ)
    (ha : 0 < a) (hsep : ∀ i j, i ≠ j → 2 * a ≤ ‖c i - c j‖) (hM : 0 < M) (hMm : ∀ i, M ≤ m i) (htol : 0 < tol)
    (hsmall : TolSmall a M tol) (zs : List ℂ) (hS : ∀ z ∈ zs, DualSol m c w z)
    (hone : ∀ z ∈ zs, dualDet m c w z ≠ 0 → zs.count z ≤ 1)
    (hall : ∀ z, IsImage (lensList m c) w z → z ∈ zs) (V : List ℂ)
    (hV : V = zs.filter fun z => decide (‖lensMap (lensList m c) z - w‖ < tol))
    (hfin : ∀ z ∈ V, detFormula (lensList m c) z ≠ 0)
    (hA : (V.map fun z => 1 / |detFormula (lensList m c) z|).sum < certLimit a M tol) :
    V.Nodup ∧ (∀ z, z ∈ V ↔ IsImage (lensList m c) w z) ∧
      (V.map fun z => 1 / |detFormula (lensList m c) z|).sum = pointMag (lensList m c) w := by
  have hVmem : ∀ z, z ∈ V ↔ z ∈ zs ∧ ‖lensMap (lensList m c) z - w‖ < tol := by
    intro z; rw [hV, List.mem_filter, decide_eq_true_eq]
  have himg : ∀ z ∈ V, dualConj m c w z = z := by
    intro z hz
    by_contra hne
    obtain ⟨h1, h2⟩ := (hVmem z).mp hz
    have hdet := spurious_det hm hsum a M tol ha hsep hM hMm _ _ _ rfl rfl rfl hsmall.1 hsmall.2 (hS z h1) hne h2.le
    have hle : 1 / |detFormula (lensList m c) z| ≤ (V.map fun z => 1 / |detFormula (lensList m c) z|).sum := by
      refine List.single_le_sum (fun x hx => ?_) _ (List.mem_map.mpr ⟨z, hz, rfl⟩)
      obtain ⟨y, -, rfl⟩ := List.mem_map.mp hx
      positivity
    have hpos : 0 < |detFormula (lensList m c) z| := abs_pos.mpr (hfin z hz)
    have h3 : certLimit a M tol ≤ 1 / |detFormula (lensList m c) z| := by
      unfold certLimit
      exact one_div_le_one_div_of_le hpos hdet
    linarith
  have hiff : ∀ z, z ∈ V ↔ IsImage (lensList m c) w z := by
    intro z
    constructor
    · intro hz
      exact (isImage_iff_dual m c w z).mpr ⟨hS z ((hVmem z).mp hz).1, himg z hz⟩
    · intro hz
      refine (hVmem z).mpr ⟨hall z hz, ?_⟩
      rw [hz.2, sub_self, norm_zero]; exact htol
  have hnd : V.Nodup := by
    rw [List.nodup_iff_count_le_one]
    intro z
    by_cases hz : z ∈ V
    · have h1 := ((hVmem z).mp hz).1
      have h2 : dualDet m c w z ≠ 0 := by
        rw [dualDet_image m c w z (himg z hz)]
        exact_mod_cast hfin z hz
      refine le_trans ?_ (hone z h1 h2)
      rw [hV]
      exact List.filter_sublist.count_le z
    · rw [List.count_eq_zero_of_not_mem hz]; exact zero_le_one
  exact ⟨hnd, hiff, (pointMag_of_list _ w V hnd hiff).symm⟩

/-- **C113, binaries**: let `m` be the smaller mass fraction.  If the root finder returns all roots, no flagged root is
exactly critical (the code would divide by zero) and `mag_point_source` returns a value below
`certLimit (|s|/2) m 1e-6`, then the value is the exact magnification and the flagged positions are exactly the images of
the source, each once. -/
theorem C113_binary (roots : Option (List ℂ) → List ℂ → List ℂ) (u : UserParams) (w : ℂ) (hs : u.s ≠ 0) (hq : 0 < u.q)
    (hroots : IsRootList (polyCoeffsBinary (w - xCM u) (midParams2 u).a (midParams2 u).e1)
      (roots none (polyCoeffsBinary (w - xCM u) (midParams2 u).a (midParams2 u).e1)))
    (hw1 : w - xCM u ≠ (midParams2 u).a) (hw2 : w - xCM u ≠ -(midParams2 u).a) (M : ℝ)
    (hM : M = min (u.q / (1 + u.q)) (1 / (1 + u.q))) (hsmall : TolSmall (|u.s| / 2) M 1e-6)
    (zs : List (ℂ × Bool)) (hzs : imagesPointSource roots 2 none (midParams2 u) (w - xCM u) = .ok zs)
    (hfin : ∀ z ∈ flagged zs, detJac2 (midParams2 u) z ≠ 0) (A : ℝ) (hA : magPointSource roots 2 u w = .ok A)
    (hlt : A < certLimit (|u.s| / 2) M 1e-6) :
    A = pointMag (binary u.s u.q) w ∧ (flagged zs).Nodup ∧
      ∀ z, z ∈ flagged zs ↔ IsImage (midBinary (midParams2 u)) (w - xCM u) z := by
  set p := midParams2 u with hp
  have hq1 : 1 + u.q ≠ 0 := by positivity
  have ha : p.a ≠ 0 := by simp [hp, midParams2, hs]
  obtain ⟨⟨he, he'⟩, hmpos, hmsum⟩ := mass2_pos u hq
  have hdeg : conj (w - xCM u) ^ 2 ≠ (p.a : ℂ) ^ 2 := by
    intro h
    have h3 : (w - xCM u) ^ 2 = (p.a : ℂ) ^ 2 := by
      have := congrArg (starRingEnd ℂ) h
      simpa using this
    rcases sq_eq_sq_iff_eq_or_eq_neg.mp h3 with h4 | h4
    · exact hw1 h4
    · exact hw2 h4
  have hz : zs = images2 roots none p (w - xCM u) := by simpa [imagesPointSource] using hzs.symm
  set rs := roots none (polyCoeffsBinary (w - xCM u) p.a p.e1) with hrs
  have hflag : flagged zs = rs.filter fun z => decide (‖lensMap (lensList (mass2 p) (pos2 p)) z - (w - xCM u)‖ < 1e-6) := by
    rw [hz, images2, flagged_withMask, lensList2, ← hrs]
    refine List.filter_congr fun z _ => ?_
    rw [lensEq2_eq]; norm_num
  have hAV : A = ((flagged zs).map fun z => 1 / |detFormula (lensList (mass2 p) (pos2 p)) z|).sum := by
    have h2 : magPointSource roots 2 u w = .ok (sumMag (detJac2 p) (withMask (lensEq2 p) (1 / 10 ^ 6) (w - xCM u) rs)) := by
      simp [magPointSource, images2, hp, hrs]
    rw [h2, sumMag_withMask] at hA
    have hA' := Except.ok.inj hA
    rw [← hA', hflag]
    have e1 : (rs.filter fun z => decide (‖lensEq2 p z - (w - xCM u)‖ < 1 / 10 ^ 6))
        = rs.filter fun z => decide (‖lensMap (lensList (mass2 p) (pos2 p)) z - (w - xCM u)‖ < 1e-6) := by
      refine List.filter_congr fun z _ => ?_
      rw [lensEq2_eq, lensList2]; norm_num
    rw [e1]
    congr 1
    refine List.map_congr_left fun z _ => ?_
    rw [detJac2_eq, lensList2]; rfl
  have hac : 0 < |u.s| / 2 := by positivity
  have hMpos : 0 < M := by rw [hM]; exact lt_min (by positivity) (by positivity)
  obtain ⟨c1, c2, c3⟩ := certified (mass2 p) (pos2 p) (w - xCM u) hmpos hmsum (|u.s| / 2) M 1e-6 hac
    (by
      have hd : ‖(p.a : ℂ) - -(p.a : ℂ)‖ = |u.s| := by
        rw [show (p.a : ℂ) - -(p.a : ℂ) = ((u.s : ℝ) : ℂ) by
          simp only [hp, midParams2]; push_cast; ring, norm_real, Real.norm_eq_abs]
      have hd' : ‖-(p.a : ℂ) - (p.a : ℂ)‖ = |u.s| := by rw [norm_sub_rev, hd]
      intro i j hij
      fin_cases i <;> fin_cases j
      · exact absurd rfl hij
      · show 2 * (|u.s| / 2) ≤ ‖(p.a : ℂ) - -(p.a : ℂ)‖
        rw [hd]; linarith
      · show 2 * (|u.s| / 2) ≤ ‖-(p.a : ℂ) - (p.a : ℂ)‖
        rw [hd']; linarith
      · exact absurd rfl hij)
    hMpos
    (by
      rw [Fin.forall_fin_two, hM]
      refine ⟨min_le_left _ _, (min_le_right _ _).trans (le_of_eq ?_)⟩
      show 1 / (1 + u.q) = 1 - u.q / (1 + u.q)
      field_simp; ring)
    (by norm_num) hsmall rs
    (fun z hz => (binary_local p (w - xCM u) ha he he' hdeg z (IsRootList.eval_zero_of_mem hroots hz)).1)
    (by
      intro z hz hd
      obtain ⟨hs, G, hG, hG0, hev⟩ := binary_local p (w - xCM u) ha he he' hdeg z (IsRootList.eval_zero_of_mem hroots hz)
      refine count_le_one_of_deriv _ rs hroots z 0 G (dualRes (mass2 p) (pos2 p) (w - xCM u)) _ ?_ ?_ ?_ ?_ ?_ hd
      · simpa using hev
      · simpa using hG
      · simpa using hG0
      · rw [add_zero]; exact hasDerivAt_dualRes _ _ _ z hs.hz hs.hy
      · rw [add_zero]; exact (dualSol_iff _ _ _ z hs.hz hs.hy).mp hs)
    (fun z hz => images_mem_roots_binary p (w - xCM u) rs hroots hdeg z (by rwa [lensList2] at hz))
    (flagged zs) hflag
    (fun z hz h0 => hfin z hz (by rw [detJac2_eq, ← lensList2]; exact h0))
    (by rw [← hAV]; exact hlt)
  rw [lensList2] at c2 c3
  rw [lensList2] at hAV
  refine ⟨?_, c1, c2⟩
  rw [hAV, c3, ← (C08_binary_frame u hq1).1]
  conv_rhs => rw [show w = (w - (xCM u : ℂ)) + (xCM u : ℂ) by ring]
  exact (pointMag_translate _ _ _).symm

/-- **C113, three lenses**: if all distances between the lenses are at least `2 a` and all mass fractions at least `M`, a
value below `certLimit a M 1e-3` is exact, and the flagged positions are exactly the images, each once. -/
theorem C113_triple (roots : Option (List ℂ) → List ℂ → List ℂ) (u : UserParams) (w : ℂ) (hq : 0 < u.q) (hq3 : 0 < u.q3)
    (cs : List ℂ) (hcs : cs = polyCoeffsTripleCM (w - xCM u) (midParams3 u).a (r3Complex (midParams3 u))
      (midParams3 u).e1 (midParams3 u).e2) (hroots : IsRootList cs (roots none cs))
    (hw1 : w - xCM u ≠ (midParams3 u).a) (hw2 : w - xCM u ≠ -(midParams3 u).a)
    (hw3 : w - xCM u ≠ r3Complex (midParams3 u)) (a M : ℝ) (ha : 0 < a) (h12 : 2 * a ≤ |2 * (midParams3 u).a|)
    (h13 : 2 * a ≤ ‖r3Complex (midParams3 u) - (midParams3 u).a‖)
    (h23 : 2 * a ≤ ‖r3Complex (midParams3 u) + (midParams3 u).a‖)
    (hM : M = min (u.q / (1 + u.q + u.q3)) (min (1 / (1 + u.q + u.q3)) (u.q3 / (1 + u.q + u.q3))))
    (hsmall : TolSmall a M 1e-3)
    (zs : List (ℂ × Bool)) (hzs : imagesPointSource roots 3 none (midParams3 u) (w - xCM u) = .ok zs)
    (hfin : ∀ z ∈ flagged zs, detJac3 (midParams3 u) z ≠ 0) (A : ℝ) (hA : magPointSource roots 3 u w = .ok A)
    (hlt : A < certLimit a M 1e-3) :
    A = pointMag (triple u.s u.q u.q3 u.r3 u.psi) w ∧ (flagged zs).Nodup ∧
      ∀ z, z ∈ flagged zs ↔ IsImage (midTriple (midParams3 u)) (w - xCM u) z := by
  set p := midParams3 u with hp
  obtain ⟨hmpos, hmsum⟩ := mass3_pos u hq hq3
  have hpa : p.a ≠ 0 := by rintro h; rw [h, mul_zero, abs_zero] at h12; linarith
  have hr1 : r3Complex p ≠ p.a := by rintro h; rw [h, sub_self, norm_zero] at h13; linarith
  have hr2 : r3Complex p ≠ -p.a := by rintro h; rw [h, neg_add_cancel, norm_zero] at h23; linarith
  have hhead : cs.headD 0 ≠ 0 := by
    rw [hcs, (triple_head (w - xCM u) p.a (r3Complex p) p.e1 p.e2).2]
    have hi : ∀ x : ℂ, x ≠ 0 → conj x ≠ 0 := fun x hx => by simpa using hx
    refine mul_ne_zero (mul_ne_zero (hi _ (sub_ne_zero.mpr hw1)) (hi _ ?_)) (hi _ (sub_ne_zero.mpr hw3))
    exact fun hc => hw2 (by linear_combination hc)
  have hz : zs = images3 roots p (w - xCM u) := by simpa [imagesPointSource] using hzs.symm
  set S := shiftCM p.a (r3Complex p) p.e1 p.e2 with hS
  set rs := (roots none cs).map (· + S) with hrs
  have hflag : flagged zs = rs.filter fun z => decide (‖lensMap (lensList (mass3 p) (pos3 p)) z - (w - xCM u)‖ < 1e-3) := by
    rw [hz, flagged_images3, lensList3, ← hcs, ← hS, ← hrs, accepted]
    refine List.filter_congr fun z _ => ?_
    norm_num
  have hAV : A = ((flagged zs).map fun z => 1 / |detFormula (lensList (mass3 p) (pos3 p)) z|).sum := by
    have h2 : magPointSource roots 3 u w = .ok (sumMag (detJac3 p) (withMask (lensEq3 p) (1 / 10 ^ 3) (w - xCM u) rs)) := by
      simp [magPointSource, images3, hp, hrs, hS, hcs]
    rw [h2, sumMag_withMask] at hA
    have hA' := Except.ok.inj hA
    rw [← hA', hflag]
    have e1 : (rs.filter fun z => decide (‖lensEq3 p z - (w - xCM u)‖ < 1 / 10 ^ 3))
        = rs.filter fun z => decide (‖lensMap (lensList (mass3 p) (pos3 p)) z - (w - xCM u)‖ < 1e-3) := by
      refine List.filter_congr fun z _ => ?_
      rw [lensEq3_eq, lensList3]; norm_num
    rw [e1]
    congr 1
    refine List.map_congr_left fun z _ => ?_
    rw [detJac3_eq, lensList3]; rfl
  have hMpos : 0 < M := by
    rw [hM]; exact lt_min (by positivity) (lt_min (by positivity) (by positivity))
  have hloc : ∀ r ∈ roots none cs, evalPoly cs (r + S - S) = 0 := fun r hr => by
    rw [add_sub_cancel_right]; exact IsRootList.eval_zero_of_mem hroots hr
  obtain ⟨c1, c2, c3⟩ := certified (mass3 p) (pos3 p) (w - xCM u) hmpos hmsum a M 1e-3 ha
    (pos3_dist p (fun x => 2 * a ≤ x) h12 h13 h23) hMpos
    (by
      have h0 : 0 < 1 + u.q + u.q3 := by positivity
      intro i
      rw [hM]
      fin_cases i
      · exact min_le_left _ _
      · exact (min_le_right _ _).trans (min_le_left _ _)
      · refine (min_le_right _ _).trans ((min_le_right _ _).trans (le_of_eq ?_))
        show u.q3 / (1 + u.q + u.q3) = 1 - u.q / (1 + u.q + u.q3) - 1 / (1 + u.q + u.q3)
        field_simp; ring)
    (by norm_num) hsmall rs
    (by
      intro z hz
      obtain ⟨r, hr, rfl⟩ := List.mem_map.mp hz
      have := hloc r hr
      rw [hcs] at this
      exact (triple_local p (w - xCM u) hpa hr1 hr2 (hmpos 0).ne' (hmpos 1).ne' (hmpos 2).ne' hw1 hw2 hw3 _ this).1)
    (by
      intro z hz hd
      obtain ⟨r, hr, rfl⟩ := List.mem_map.mp hz
      have h0 := hloc r hr
      rw [hcs] at h0
      obtain ⟨hs, G, hG, hG0, hev⟩ := triple_local p (w - xCM u) hpa hr1 hr2 (hmpos 0).ne' (hmpos 1).ne' (hmpos 2).ne'
        hw1 hw2 hw3 _ h0
      rw [hrs, List.count_map_of_injective _ _ (add_left_injective S)]
      refine count_le_one_of_deriv cs _ hroots r S G (dualRes (mass3 p) (pos3 p) (w - xCM u)) _ ?_ hG hG0
        (hasDerivAt_dualRes _ _ _ _ hs.hz hs.hy) ((dualSol_iff _ _ _ _ hs.hz hs.hy).mp hs) hd
      rw [hcs]; exact hev)
    (by
      intro z hz
      rw [lensList3] at hz
      refine List.mem_map.mpr ⟨z - S, IsRootList.mem_of_eval_zero hroots hhead ?_, by ring⟩
      rw [hcs, hS]
      refine C05_triple_complete p (w - xCM u) z (hz.1 (p.e1, (p.a : ℂ)) (by simp [midTriple]))
        (hz.1 (p.e2, -(p.a : ℂ)) (by simp [midTriple]))
        (hz.1 (1 - p.e1 - p.e2, r3Complex p) (by simp [midTriple])) ?_
      rw [lensEq3_eq]; exact hz.2)
    (flagged zs) hflag
    (fun z hz h0 => hfin z hz (by rw [detJac3_eq, ← lensList3]; exact h0))
    (by rw [← hAV]; exact hlt)
  rw [lensList3] at c2 c3
  rw [lensList3] at hAV
  refine ⟨?_, c1, c2⟩
  rw [hAV, c3, ← (C08_triple_frame u (by positivity) (by positivity)).1]
  conv_rhs => rw [show w = (w - (xCM u : ℂ)) + (xCM u : ℂ) by ring]
  exact (pointMag_translate _ _ _).symm

/-! ### The limit in numbers, and concrete cases -/

/-- A lower bound of the limit. -/
theorem certLimit_ge (a M tol d0 : ℝ) (ha : 0 < a) (htol : 0 < tol) (hd0 : 0 < d0)
    (hd : d0 ≤ Real.sqrt (M / (1 + 3 / a ^ 2)) / 2) (hε : (1 + 3 / a ^ 2) * tol / d0 ≤ 1) :
    1 / (3 * ((1 + 3 / a ^ 2) * tol / d0)) ≤ certLimit a M tol := by
  have hT : 0 < 1 + 3 / a ^ 2 := by positivity
  set d := Real.sqrt (M / (1 + 3 / a ^ 2)) / 2 with hdd
  have hdpos : 0 < d := lt_of_lt_of_le hd0 hd
  have h1 : (1 + 3 / a ^ 2) * tol / d ≤ (1 + 3 / a ^ 2) * tol / d0 :=
    div_le_div_of_nonneg_left (by positivity) hd0 hd
  have h0 : 0 < (1 + 3 / a ^ 2) * tol / d := by positivity
  unfold certLimit
  simp only
  rw [← hdd]
  refine one_div_le_one_div_of_le (by positivity) ?_
  nlinarith

/-- Determinants at the five images of the equal-mass binary of unit separation. -/
theorem exU_det (z : ℂ) (hz : z ∈ exRoots) :
    detJac2 (midParams2 exU) z = -15 ∨ detJac2 (midParams2 exU) z = -5 / 4 ∨ detJac2 (midParams2 exU) z = 3 / 4 := by
  have h5 := sq5
  have h3 := sq3
  have hsq : (conj z) ^ 2 = 0 ∨ (conj z) ^ 2 = 5 / 4 ∨ (conj z) ^ 2 = -3 / 4 := by
    simp only [exRoots, List.mem_cons, List.not_mem_nil, or_false] at hz
    rcases hz with rfl | rfl | rfl | rfl | rfl
    · simp
    · right; left; rw [conj_ofReal]; push_cast; rw [div_pow, h5]; norm_num
    · right; left; rw [conj_ofReal]; push_cast; rw [neg_sq, div_pow, h5]; norm_num
    · right; right; rw [map_mul, conj_ofReal, conj_I]; push_cast; rw [mul_pow, div_pow, h3, neg_sq, I_sq]; norm_num
    · right; right; rw [map_mul, conj_ofReal, conj_I]; push_cast
      rw [mul_pow, neg_sq, div_pow, h3, neg_sq, I_sq]; norm_num
  have hval : ((midBinary (midParams2 exU)).map fun l => (l.1 : ℂ) / (conj z - conj l.2) ^ 2).sum
      = ((conj z) ^ 2 + 1 / 4) / ((conj z) ^ 2 - 1 / 4) ^ 2 := by
    simp only [midBinary, exU_a, exU_e1, List.map_cons, List.map_nil, List.sum_cons, List.sum_nil, conj_ofReal, map_neg,
      add_zero]
    have k : (conj z) ^ 2 - 1 / 4 ≠ 0 := by rcases hsq with h | h | h <;> rw [h] <;> norm_num
    have k1 : conj z - 1 / 2 ≠ 0 := fun hc => k (by linear_combination (conj z + 1 / 2) * hc)
    have k2 : conj z + 1 / 2 ≠ 0 := fun hc => k (by linear_combination (conj z - 1 / 2) * hc)
    have k3 : ((conj z) ^ 2 - 1 / 4) = (conj z - 1 / 2) * (conj z + 1 / 2) := by ring
    rw [k3]
    push_cast
    rw [show conj z - -(1 / 2) = conj z + 1 / 2 by ring]
    rw [mul_pow, div_add_div _ _ (pow_ne_zero 2 k1) (pow_ne_zero 2 k2)]
    congr 1
    ring
  rw [detJac2_eq, hval]
  rcases hsq with h | h | h <;> rw [h]
  · left; norm_num
  · right; left; norm_num
  · right; right; norm_num

/-- The equal-mass binary of unit separation, source at the centre: the value is below the limit, which exceeds 2000. -/
example : ∃ A, magPointSource exFinder 2 exU 0 = .ok A ∧ A < 2000 ∧
    2000 ≤ certLimit (|exU.s| / 2) (min (exU.q / (1 + exU.q)) (1 / (1 + exU.q))) 1e-6 ∧
    A = pointMag (binary exU.s exU.q) 0 := by
  have hx : (0 : ℂ) - (xCM exU : ℂ) = 0 := by rw [exU_x]; simp
  have hs : |exU.s| / 2 = 1 / 2 := by norm_num [exU]
  have hM : min (exU.q / (1 + exU.q)) (1 / (1 + exU.q)) = 1 / 2 := by norm_num [exU]
  have hd : (1 / 11 : ℝ) ≤ Real.sqrt ((1 / 2) / (1 + 3 / (1 / 2) ^ 2)) / 2 := by
    have : (2 / 11 : ℝ) ≤ Real.sqrt ((1 / 2) / (1 + 3 / (1 / 2) ^ 2)) := Real.le_sqrt_of_sq_le (by norm_num)
    linarith
  have hlim : 2000 ≤ certLimit (|exU.s| / 2) (min (exU.q / (1 + exU.q)) (1 / (1 + exU.q))) 1e-6 := by
    rw [hs, hM]
    refine le_trans ?_ (certLimit_ge (1 / 2) (1 / 2) 1e-6 (1 / 11) (by norm_num) (by norm_num) (by norm_num) hd (by norm_num))
    norm_num
  have himg : images2 exFinder none (midParams2 exU) 0 = exRoots.map fun z => (z, true) := by
    simp only [images2, withMask, exFinder]
    refine List.map_congr_left fun z hz => ?_
    rw [(exRoots_images z hz).1]; simp
  have hfl : flagged (images2 exFinder none (midParams2 exU) 0) = exRoots := by
    rw [himg]; simp [flagged, List.filter_map, Function.comp_def]
  have hA : magPointSource exFinder 2 exU 0 = .ok (exRoots.map fun z => 1 / |detJac2 (midParams2 exU) z|).sum := by
    have : magPointSource exFinder 2 exU 0
        = .ok (sumMag (detJac2 (midParams2 exU)) (withMask (lensEq2 (midParams2 exU)) (1 / 10 ^ 6) 0 exRoots)) := by
      simp [magPointSource, images2, hx, exFinder]
    rw [this, sumMag_withMask, ← flagged_withMask]
    congr 3
  have hlt : (exRoots.map fun z => 1 / |detJac2 (midParams2 exU) z|).sum < 2000 := by
    have h1 : ∀ x ∈ exRoots.map (fun z => 1 / |detJac2 (midParams2 exU) z|), x ≤ 4 / 3 := by
      intro x hx
      obtain ⟨z, hz, rfl⟩ := List.mem_map.mp hx
      rcases exU_det z hz with h | h | h <;> rw [h] <;> norm_num [abs_of_neg, abs_of_pos]
    have h2 := List.sum_le_card_nsmul _ _ h1
    have h3 : (exRoots.map fun z => 1 / |detJac2 (midParams2 exU) z|).length = 5 := by simp [exRoots]
    rw [h3] at h2
    norm_num at h2 ⊢
    linarith
  refine ⟨_, hA, hlt, hlim, ?_⟩
  refine (C113_binary exFinder exU 0 (by norm_num [exU]) (by norm_num [exU]) ?_ ?_ ?_ _ rfl ?_
    (images2 exFinder none (midParams2 exU) (0 - xCM exU)) (by simp [imagesPointSource]) ?_ _ hA (hlt.trans_le hlim)).1
  · rw [hx]; exact exRoots_isRootList
  · rw [hx]; exact exU_lens.1
  · rw [hx]; exact exU_lens.2
  · rw [hs, hM]; exact ⟨by norm_num, le_trans (by norm_num) hd⟩
  · rw [hx, hfl]
    intro z hz
    rcases exU_det z hz with h | h | h <;> rw [h] <;> norm_num

/-- Three equal lenses at `±5` and `15` from the midpoint, a distant source, a complete root finder: the limit exceeds 60. -/
example : ∃ (roots : Option (List ℂ) → List ℂ → List ℂ) (w : ℂ) (A : ℝ),
    magPointSource roots 3 { s := 10, q := 1, q3 := 1, r3 := 15, psi := 0 } w = .ok A ∧ A < 60 ∧
    60 ≤ certLimit 5 (1 / 3) 1e-3 ∧ A = pointMag (triple 10 1 1 15 0) w := by
  obtain ⟨roots, hr⟩ := exists_exact_roots
  set u : UserParams := { s := 10, q := 1, q3 := 1, r3 := 15, psi := 0 } with hu
  set p := midParams3 u with hp
  have pa : p.a = 5 := by norm_num [hp, hu, midParams3]
  have pr : r3Complex p = 15 := by simp [hp, hu, midParams3, r3Complex]
  have px : xCM u = 0 := by norm_num [hu, xCM]
  have hd : (1 / 4 : ℝ) ≤ Real.sqrt ((1 / 3) / (1 + 3 / 5 ^ 2)) / 2 := by
    have : (1 / 2 : ℝ) ≤ Real.sqrt ((1 / 3) / (1 + 3 / 5 ^ 2)) := Real.le_sqrt_of_sq_le (by norm_num)
    linarith
  have hlim : (60 : ℝ) ≤ certLimit 5 (1 / 3) 1e-3 := by
    refine le_trans ?_ (certLimit_ge 5 (1 / 3) 1e-3 (1 / 4) (by norm_num) (by norm_num) (by norm_num) hd (by norm_num))
    norm_num
  obtain ⟨C, W, hW, h1⟩ := C108_triple u (by norm_num [hu]) (by norm_num [hu]) (by norm_num [hu])
    (by rw [← hp, pr, pa]; norm_num) (by rw [← hp, pr, pa]; norm_num)
  have hm := mass3_pos u (by norm_num [hu]) (by norm_num [hu])
  obtain ⟨e, D, d, W2, he, hW2, h2⟩ := far_shifted (mass3 p) (pos3 p) hm.1 hm.2
    (pos3_inj p (by rw [pa]; norm_num) (by rw [pr, pa]; norm_num) (by rw [pr, pa]; norm_num)) (xCM u)
  set R : ℝ := max (max W W2) (20 + |C|) with hR
  have hR20 : 20 + |C| ≤ R := le_max_right _ _
  have hRpos : 0 < R := by linarith [abs_nonneg C]
  have hnR : ‖(R : ℂ)‖ = R := Complex.norm_of_nonneg hRpos.le
  have hxw : (R : ℂ) - (xCM u : ℂ) = R := by rw [px]; simp
  have hne : ∀ x : ℝ, |x| < R → (R : ℂ) - (xCM u : ℂ) ≠ x := by
    intro x hx h
    rw [hxw] at h
    have : R = x := by exact_mod_cast h
    linarith [le_abs_self x]
  have hw1 : (R : ℂ) - (xCM u : ℂ) ≠ p.a := hne _ (by rw [pa]; norm_num; linarith [abs_nonneg C])
  have hw2 : (R : ℂ) - (xCM u : ℂ) ≠ -p.a := by
    have := hne (-p.a) (by rw [pa]; norm_num; linarith [abs_nonneg C])
    simpa using this
  have hw3 : (R : ℂ) - (xCM u : ℂ) ≠ r3Complex p := by
    rw [pr]; have := hne 15 (by norm_num; linarith [abs_nonneg C]); simpa using this
  have hhead : (polyCoeffsTripleCM ((R : ℂ) - xCM u) p.a (r3Complex p) p.e1 p.e2).headD 0 ≠ 0 := by
    rw [(triple_head _ _ _ _ _).2]
    have hi : ∀ x : ℂ, x ≠ 0 → conj x ≠ 0 := fun x hx => by simpa using hx
    refine mul_ne_zero (mul_ne_zero (hi _ (sub_ne_zero.mpr hw1)) (hi _ ?_)) (hi _ (sub_ne_zero.mpr hw3))
    exact fun hc => hw2 (by linear_combination hc)
  have hroots := hr none _ hhead
  obtain ⟨A, a1, a2, a3, a4⟩ := h1 (R : ℂ) (by rw [hnR]; exact (le_max_left _ _).trans (le_max_left _ _)) roots _ rfl hroots
  obtain ⟨F, -⟩ := h2 (R : ℂ) (by rw [hnR]; exact (le_max_right _ _).trans (le_max_left _ _))
  have hlt : A < 60 := by
    refine lt_of_le_of_lt a4 ?_
    rw [hnR]
    have k1 : C / R ^ 4 ≤ 1 := by
      rw [div_le_one (by positivity)]
      have : C ≤ R := (le_abs_self C).trans (by linarith)
      have : R ≤ R ^ 4 := le_self_pow₀ (by linarith [abs_nonneg C]) (by norm_num)
      linarith
    linarith
  refine ⟨roots, R, A, a1, hlt, hlim, ?_⟩
  refine (C113_triple roots u R (by norm_num [hu]) (by norm_num [hu]) _ rfl hroots hw1 hw2 hw3 5 (1 / 3) (by norm_num)
    ?_ ?_ ?_ (by norm_num [hu]) ⟨by norm_num, le_trans (by norm_num) hd⟩ (images3 roots p ((R : ℂ) - xCM u))
    (by simp [imagesPointSource, hp]) ?_ A a1 (hlt.trans_le hlim)).1
  · rw [← hp, pa]; norm_num
  · rw [← hp, pa, pr]; norm_num
  · rw [← hp, pa, pr]; norm_num
  · intro z hz
    obtain ⟨-, -, b1, b2, b3, b4⟩ := triple_far_roots p (by rw [pa]; norm_num) (by rw [pr, pa]; norm_num)
      (by rw [pr, pa]; norm_num) (hm.1 0).ne' (hm.1 1).ne' (hm.1 2).ne' F _ hroots _ rfl
    have h8 : 8 / ‖(R : ℂ) - (xCM u : ℂ)‖ ≤ 1 := by
      rw [hxw, hnR, div_le_one hRpos]; linarith [abs_nonneg C]
    obtain ⟨c1, -⟩ := far_accepted_exact F _ b1 b2 b3 b4 (1 / 10 ^ 3) (by norm_num) (fun i j hij => by
      refine le_trans ?_ (pos3_dist p (fun x => 10 ≤ x) ?_ ?_ ?_ i j hij)
      · norm_num at h8 ⊢; linarith
      · rw [pa]; norm_num
      · rw [pa, pr]; norm_num
      · rw [pa, pr]; norm_num)
    rw [flagged_images3, ← lensList3] at hz
    have himg := (isImage_iff_dual _ _ _ _).mp ((c1 z).mp hz)
    have hdet := F.det_ne_zero z himg.1
    rw [dualDet_image _ _ _ _ himg.2] at hdet
    rw [← hp, detJac3_eq, ← lensList3]
    intro h0
    exact hdet (by exact_mod_cast h0)

end Microjax.Props
