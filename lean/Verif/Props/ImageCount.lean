import Verif.Lemmas.DualSolutions
import Verif.Props.AtLeastOne

/-!
# C85, C86: number, parities and signed sum of the images

How many of the roots are flagged as images, how many of them have positive and negative parity, and what the
magnification is bounded by when all roots are images.
-/

noncomputable section

namespace Microjax.Spec

/-- The positions flagged valid in a returned array. -/
def flagged (zs : List (ℂ × Bool)) : List ℂ := (zs.filter fun z => z.2).map Prod.fst

open Classical in
/-- Number of positions in a list at which the lens map preserves orientation. -/
def nPos (L : Lenses) (zs : List ℂ) : ℕ := (zs.filter fun z => decide (0 < jacDet (lensMap L) z)).length

open Classical in
/-- Number of positions in a list at which the lens map reverses orientation. -/
def nNeg (L : Lenses) (zs : List ℂ) : ℕ := (zs.filter fun z => decide (jacDet (lensMap L) z < 0)).length

end Microjax.Spec

namespace Microjax.Props

open Complex ComplexConjugate Spec PointSource

variable {n : ℕ}

theorem flagged_withMask (leq : ℂ → ℂ) (tol : ℝ) (w : ℂ) (zs : List ℂ) :
    flagged (withMask leq tol w zs) = zs.filter fun z => decide (‖leq z - w‖ < tol) := by
  unfold flagged withMask
  induction zs with
  | nil => rfl
  | cons z zs ih =>
    rw [List.map_cons, List.filter_cons, List.filter_cons]
    by_cases h : ‖leq z - w‖ < tol
    · simp only [h, decide_true, if_true, List.map_cons, ih]
    · simp only [h, decide_false, Bool.false_eq_true, if_false, ih]

/-- Counting and summing over the flagged candidates, for any lens system whose candidates are exactly the
complexified solutions. -/
theorem count_generic (m : Fin n → ℝ) (hm : ∀ i, 0 < m i) (c : Fin n → ℂ) (w : ℂ) (L : Lenses)
    (hL : lensList m c = L) (zs : List ℂ) (hnd : zs.Nodup)
    (hS : ∀ z ∈ zs, DualSol m c w z ∧ dualDet m c w z ≠ 0) (hall : ∀ z, DualSol m c w z → z ∈ zs)
    (A B : ℕ) (hA : Fintype.card {p : Fin n × Fin n // p.1 < p.2} + 1 = A)
    (hB : Fintype.card {p : Fin n × Fin n // p.1 ≤ p.2} = B) (hlen : zs.length = A + B) (hn : A + B = n ^ 2 + 1)
    (leq : ℂ → ℂ) (hleq : ∀ z, leq z = lensMap L z) (tol : ℝ) (htol : 0 < tol)
    (hsep : ∀ z ∈ zs, ‖leq z - w‖ < tol → leq z = w)
    (V : List ℂ) (hV : V = flagged (withMask leq tol w zs)) :
    (∀ z, z ∈ V ↔ IsImage L w z) ∧ V.Nodup ∧ (∀ z ∈ V, jacDet (lensMap L) z ≠ 0 ∧ jacDet (lensMap L) z ≤ 1) ∧
    (∃ k : ℕ, nPos L V + k = A ∧ nNeg L V + k = B ∧ V.length + 2 * k = A + B) ∧ 1 ≤ nPos L V ∧
    (V.length = A + B → (V.map fun z => 1 / jacDet (lensMap L) z).sum = 1 ∧
      2 * (A : ℝ) - 1 ≤ (V.map fun z => 1 / |jacDet (lensMap L) z|).sum) := by
  classical
  subst hL
  rw [flagged_withMask] at hV
  set S := zs.toFinset with hSdef
  have hmemS : ∀ z, z ∈ S ↔ z ∈ zs := fun z => by rw [hSdef, List.mem_toFinset]
  have hcardS : S.card = A + B := by rw [hSdef, List.toFinset_card_of_nodup hnd, hlen]
  have hVnd : V.Nodup := by rw [hV]; exact hnd.filter _
  have himg : ∀ z, z ∈ V ↔ IsImage (lensList m c) w z := by
    intro z
    rw [hV, List.mem_filter, decide_eq_true_eq]
    constructor
    · rintro ⟨h1, h2⟩
      have h3 := hsep z h1 h2
      rw [hleq] at h3
      refine ⟨?_, h3⟩
      intro l hl
      have := (hS z h1).1.hz
      simp only [lensList, List.mem_ofFn] at hl
      obtain ⟨i, rfl⟩ := hl
      exact this i
    · intro h
      have h2 := (isImage_iff_dual m c w z).mp h
      refine ⟨hall z h2.1, ?_⟩
      rw [hleq, h.2, sub_self, norm_zero]; exact htol
  have hjac : ∀ z ∈ V, dualDet m c w z = ((jacDet (lensMap (lensList m c)) z : ℝ) : ℂ) := by
    intro z hz
    have h := (himg z).mp hz
    rw [dualDet_image m c w z ((isImage_iff_dual m c w z).mp h).2, (jacDet_lensMap _ z h.1).2]; rfl
  have hmem : ∀ z, z ∈ V ↔ z ∈ S ∧ dualConj m c w z = z := by
    intro z
    rw [himg, isImage_iff_dual, hmemS]
    constructor
    · rintro ⟨h1, h2⟩; exact ⟨hall z h1, h2⟩
    · rintro ⟨h1, h2⟩; exact ⟨(hS z h1).1, h2⟩
  have hle : ∀ z ∈ V, jacDet (lensMap (lensList m c)) z ≠ 0 ∧ jacDet (lensMap (lensList m c)) z ≤ 1 := by
    intro z hz
    constructor
    · intro h0
      have h := hjac z hz
      rw [h0, ofReal_zero] at h
      exact (hS z ((hmemS z).mp ((hmem z).mp hz).1)).2 h
    · rw [(jacDet_lensMap _ z ((himg z).mp hz).1).2]
      have : 0 ≤ ‖((lensList m c).map fun l => (l.1 : ℂ) / (conj z - conj l.2) ^ 2).sum‖ ^ 2 := by positivity
      linarith
  obtain ⟨k, k1, k2, k3⟩ := image_index m hm c w S (fun z hz => (hS z ((hmemS z).mp hz)).1)
    (fun z hz => (hS z ((hmemS z).mp hz)).2)
    (fun z hz => (hmemS _).mpr (hall _ (dualSol_conj m c w z (hS z ((hmemS z).mp hz)).1)))
    (by rw [hA, hB]; exact hcardS)
  rw [hA] at k1
  rw [hB] at k2
  have cP : nPos (lensList m c) V = {ζ ∈ S | dualConj m c w ζ = ζ ∧ 0 < (dualDet m c w ζ).re}.card := by
    rw [nPos, ← List.toFinset_card_of_nodup (hVnd.filter _)]
    congr 1
    ext z
    rw [List.mem_toFinset, List.mem_filter, decide_eq_true_eq, Finset.mem_filter]
    constructor
    · rintro ⟨h1, h2⟩
      obtain ⟨h3, h4⟩ := (hmem z).mp h1
      exact ⟨h3, h4, by rw [hjac z h1, ofReal_re]; exact h2⟩
    · rintro ⟨h3, h4, h5⟩
      have h1 := (hmem z).mpr ⟨h3, h4⟩
      rw [hjac z h1, ofReal_re] at h5
      exact ⟨h1, h5⟩
  have cN : nNeg (lensList m c) V = {ζ ∈ S | dualConj m c w ζ = ζ ∧ (dualDet m c w ζ).re < 0}.card := by
    rw [nNeg, ← List.toFinset_card_of_nodup (hVnd.filter _)]
    congr 1
    ext z
    rw [List.mem_toFinset, List.mem_filter, decide_eq_true_eq, Finset.mem_filter]
    constructor
    · rintro ⟨h1, h2⟩
      obtain ⟨h3, h4⟩ := (hmem z).mp h1
      exact ⟨h3, h4, by rw [hjac z h1, ofReal_re]; exact h2⟩
    · rintro ⟨h3, h4, h5⟩
      have h1 := (hmem z).mpr ⟨h3, h4⟩
      rw [hjac z h1, ofReal_re] at h5
      exact ⟨h1, h5⟩
  have cV : V.length = {ζ ∈ S | dualConj m c w ζ = ζ}.card := by
    rw [← List.toFinset_card_of_nodup hVnd]
    congr 1
    ext z
    rw [List.mem_toFinset, Finset.mem_filter, hmem]
  have hone : 1 ≤ nPos (lensList m c) V := by
    have hmL : ∀ l ∈ lensList m c, 0 < l.1 := by
      intro l hl
      simp only [lensList, List.mem_ofFn] at hl
      obtain ⟨i, rfl⟩ := hl
      exact hm i
    obtain ⟨z, hz, h0, -⟩ := exists_minimum_image (lensList m c) w hmL
    have hzV := (himg z).mpr hz
    rw [nPos]
    refine List.length_pos_of_mem (a := z) ?_
    rw [List.mem_filter, decide_eq_true_eq]
    exact ⟨hzV, lt_of_le_of_ne h0 (hle z hzV).1.symm⟩
  refine ⟨himg, hVnd, hle, ⟨k, by rw [cP]; exact k1, by rw [cN]; exact k2, by rw [cV, k3, hcardS]⟩, hone, ?_⟩
  intro hfull
  have hk0 : k = 0 := by
    rw [cV] at hfull; omega
  have hsum : (V.map fun z => 1 / jacDet (lensMap (lensList m c)) z).sum = 1 := by
    have h := sum_inv_det m c w S (fun z hz => (hS z ((hmemS z).mp hz)).1)
      (fun z hz => (hS z ((hmemS z).mp hz)).2) (by rw [hcardS, hn])
    have hSV : S = V.toFinset := by
      symm
      refine Finset.eq_of_subset_of_card_le ?_ ?_
      · intro z hz
        exact ((hmem z).mp (List.mem_toFinset.mp hz)).1
      · rw [List.toFinset_card_of_nodup hVnd, hfull, hcardS]
    rw [hSV, List.sum_toFinset _ hVnd] at h
    have e : (V.map fun z => 1 / dualDet m c w z)
        = (V.map fun z => 1 / jacDet (lensMap (lensList m c)) z).map (fun x : ℝ => (x : ℂ)) := by
      rw [List.map_map]
      refine List.map_congr_left fun z hz => ?_
      rw [hjac z hz]; simp
    rw [e] at h
    have h' : (((V.map fun z => 1 / jacDet (lensMap (lensList m c)) z).sum : ℝ) : ℂ) = 1 := by
      rw [← h]
      exact map_list_sum Complex.ofRealHom _
    exact_mod_cast h'
  refine ⟨hsum, ?_⟩
  have hPA : nPos (lensList m c) V = A := by rw [cP]; omega
  have key : ∀ W : List ℂ, (∀ z ∈ W, jacDet (lensMap (lensList m c)) z ≠ 0 ∧ jacDet (lensMap (lensList m c)) z ≤ 1) →
      2 * (nPos (lensList m c) W : ℝ) - (W.map fun z => 1 / jacDet (lensMap (lensList m c)) z).sum
        ≤ (W.map fun z => 1 / |jacDet (lensMap (lensList m c)) z|).sum := by
    intro W
    induction W with
    | nil => intro _; simp [nPos]
    | cons z W ih =>
      intro h
      have ih' := ih fun y hy => h y (List.mem_cons_of_mem _ hy)
      obtain ⟨hz0, hz1⟩ := h z List.mem_cons_self
      simp only [List.map_cons, List.sum_cons]
      unfold nPos at ih' ⊢
      rw [List.filter_cons]
      rcases lt_or_gt_of_ne hz0 with hneg | hpos
      · rw [if_neg (by simpa using hneg.le), abs_of_neg hneg, one_div_neg_eq_neg_one_div]
        linarith
      · rw [if_pos (by simpa using hpos), abs_of_pos hpos, List.length_cons]
        push_cast
        have : 1 ≤ 1 / jacDet (lensMap (lensList m c)) z := by
          rw [le_div_iff₀ hpos, one_mul]; exact hz1
        linarith
  have := key V hle
  rw [hPA, hsum] at this
  exact this

/-! ## Two lenses -/

theorem binary_count (roots) (init) (p : MidParams) (w : ℂ) (ha : p.a ≠ 0) (he : 0 < p.e1) (he' : p.e1 < 1)
    (hroots : IsRootList (polyCoeffsBinary w p.a p.e1) (roots init (polyCoeffsBinary w p.a p.e1)))
    (hw1 : w ≠ p.a) (hw2 : w ≠ -p.a) (hsimple : (roots init (polyCoeffsBinary w p.a p.e1)).Nodup)
    (hsep : ∀ r ∈ roots init (polyCoeffsBinary w p.a p.e1), ‖lensEq2 p r - w‖ < 1e-6 → lensEq2 p r = w)
    (V : List ℂ) (hV : V = flagged (images2 roots init p w)) :
    (∀ z, z ∈ V ↔ IsImage (midBinary p) w z) ∧ V.Nodup ∧
    (∀ z ∈ V, jacDet (lensMap (midBinary p)) z ≠ 0 ∧ jacDet (lensMap (midBinary p)) z ≤ 1) ∧
    (∃ k : ℕ, nPos (midBinary p) V + k = 2 ∧ nNeg (midBinary p) V + k = 3 ∧ V.length + 2 * k = 2 + 3) ∧
    1 ≤ nPos (midBinary p) V ∧
    (V.length = 2 + 3 → (V.map fun z => 1 / jacDet (lensMap (midBinary p)) z).sum = 1 ∧
      2 * ((2 : ℕ) : ℝ) - 1 ≤ (V.map fun z => 1 / |jacDet (lensMap (midBinary p)) z|).sum) := by
  have hdeg : conj w ^ 2 ≠ (p.a : ℂ) ^ 2 := by
    intro h
    have h' := congrArg conj h
    simp only [map_pow, conj_conj, conj_ofReal] at h'
    rcases sq_eq_sq_iff_eq_or_eq_neg.mp h' with h1 | h1
    · exact hw1 h1
    · exact hw2 h1
  obtain ⟨b1, b2, b3⟩ := binary_roots p w _ ha he he' hroots hdeg hsimple
  refine count_generic (mass2 p) ?_ (pos2 p) w (midBinary p) (lensList2 p) _ hsimple b1 b2 2 3 (by rfl) (by rfl)
    b3 (by norm_num) (lensEq2 p) (lensEq2_eq p) (1 / 10 ^ 6) (by norm_num) ?_ V hV
  · rw [Fin.forall_fin_two]
    exact ⟨he, by simp only [mass2, Matrix.cons_val_one, Matrix.cons_val_zero]; linarith⟩
  · intro z hz h
    exact hsep z hz (by norm_num at h ⊢; exact h)

/-- **C85, binary**: for every separation `s ≠ 0` and mass ratio `q > 0`, every source that is not at a lens and every
root finder that returns all roots, if the roots are distinct and none of them misses the lens equation by less than
`1e-6` without satisfying it, then the number of positions `_images_point_source` flags is three or five; they are the
images of the source; one or two of them have positive parity, and there is exactly one more of negative parity. -/
theorem C85_binary (roots) (init) (p : MidParams) (w : ℂ) (ha : p.a ≠ 0) (he : 0 < p.e1) (he' : p.e1 < 1)
    (hroots : IsRootList (polyCoeffsBinary w p.a p.e1) (roots init (polyCoeffsBinary w p.a p.e1)))
    (hw1 : w ≠ p.a) (hw2 : w ≠ -p.a) (hsimple : (roots init (polyCoeffsBinary w p.a p.e1)).Nodup)
    (hsep : ∀ r ∈ roots init (polyCoeffsBinary w p.a p.e1), ‖lensEq2 p r - w‖ < 1e-6 → lensEq2 p r = w) :
    ∃ zs, imagesPointSource roots 2 init p w = .ok zs ∧ (flagged zs).Nodup ∧
      (∀ z, z ∈ flagged zs ↔ IsImage (midBinary p) w z) ∧
      ((flagged zs).length = 3 ∨ (flagged zs).length = 5) ∧
      nNeg (midBinary p) (flagged zs) = nPos (midBinary p) (flagged zs) + 1 ∧
      nPos (midBinary p) (flagged zs) + nNeg (midBinary p) (flagged zs) = (flagged zs).length := by
  obtain ⟨c1, c2, -, ⟨k, k1, k2, k3⟩, c4, -⟩ :=
    binary_count roots init p w ha he he' hroots hw1 hw2 hsimple hsep _ rfl
  exact ⟨images2 roots init p w, by simp [imagesPointSource], c2, c1, by omega, by omega, by omega⟩

/-- **C86, binary**: if all five roots are images then the signed magnifications `1/det J` add up to one and
`mag_point_source` returns at least three. -/
theorem C86_binary (roots : Option (List ℂ) → List ℂ → List ℂ) (u : UserParams) (w : ℂ) (hs : u.s ≠ 0) (hq : 0 < u.q)
    (c : List ℂ) (hc : c = polyCoeffsBinary (w - xCM u) (midParams2 u).a (midParams2 u).e1)
    (hroots : IsRootList c (roots none c)) (hw1 : w - xCM u ≠ (midParams2 u).a) (hw2 : w - xCM u ≠ -(midParams2 u).a)
    (hsimple : (roots none c).Nodup)
    (hsol : ∀ r ∈ roots none c, lensEq2 (midParams2 u) r = w - xCM u) :
    ((roots none c).map fun z => 1 / detJac2 (midParams2 u) z).sum = 1 ∧
    ∃ μ, magPointSource roots 2 u w = .ok μ ∧ 3 ≤ μ := by
  subst hc
  have h1 : 0 < u.q / (1 + u.q) := by positivity
  have h2 : u.q / (1 + u.q) < 1 := by rw [div_lt_one (by positivity)]; linarith
  obtain ⟨c1, c2, -, -, -, c6⟩ := binary_count roots none (midParams2 u) (w - xCM u)
    (by simp [midParams2, hs]) h1 h2 hroots hw1 hw2 hsimple (fun r hr _ => hsol r hr) _ rfl
  have hfull : flagged (images2 roots none (midParams2 u) (w - xCM u))
      = roots none (polyCoeffsBinary (w - xCM u) (midParams2 u).a (midParams2 u).e1) := by
    rw [images2, flagged_withMask, List.filter_eq_self]
    intro z hz
    rw [hsol z hz]; simp
  have hdeg : (polyCoeffsBinary (w - xCM u) (midParams2 u).a (midParams2 u).e1).headD 0 ≠ 0 := by
    rw [(C04_binary_leading _ _ _).2, sub_ne_zero]
    intro h
    have h' := congrArg conj h
    simp only [map_pow, conj_conj, conj_ofReal] at h'
    rcases sq_eq_sq_iff_eq_or_eq_neg.mp h' with h1 | h1
    · exact hw1 h1
    · exact hw2 h1
  have hlen := rootList_length hdeg hroots (C04_binary_leading _ _ _).1
  obtain ⟨d1, d2⟩ := c6 (by rw [hfull, hlen])
  have hdet : ∀ z ∈ flagged (images2 roots none (midParams2 u) (w - xCM u)),
      detJac2 (midParams2 u) z = jacDet (lensMap (midBinary (midParams2 u))) z := by
    intro z hz
    rw [detJac2_eq, (jacDet_lensMap _ z ((c1 z).mp hz).1).2]
  constructor
  · rw [← hfull, List.map_congr_left (g := fun z => 1 / jacDet (lensMap (midBinary (midParams2 u))) z)
      fun z hz => by rw [hdet z hz]]
    exact d1
  · refine ⟨_, by simp only [magPointSource]; rfl, ?_⟩
    rw [images2, sumMag_withMask, ← flagged_withMask, ← images2,
      List.map_congr_left (g := fun z => 1 / |jacDet (lensMap (midBinary (midParams2 u))) z|)
        fun z hz => by rw [hdet z hz]]
    refine le_trans ?_ d2
    norm_num

/-! ## Three lenses -/

theorem triple_count (roots) (p : MidParams) (w : ℂ) (ha : p.a ≠ 0) (hr1 : r3Complex p ≠ p.a)
    (hr2 : r3Complex p ≠ -p.a) (he1 : 0 < p.e1) (he2 : 0 < p.e2) (he3 : p.e1 + p.e2 < 1)
    (c : List ℂ) (hc : c = polyCoeffsTripleCM w p.a (r3Complex p) p.e1 p.e2)
    (S : ℂ) (hS : S = shiftCM p.a (r3Complex p) p.e1 p.e2)
    (hroots : IsRootList c (roots none c)) (hw1 : w ≠ p.a) (hw2 : w ≠ -p.a) (hw3 : w ≠ r3Complex p)
    (hsimple : (roots none c).Nodup)
    (hsep : ∀ r ∈ roots none c, ‖lensEq3 p (r + S) - w‖ < 1e-3 → lensEq3 p (r + S) = w)
    (V : List ℂ) (hV : V = flagged (images3 roots p w)) :
    (∀ z, z ∈ V ↔ IsImage (midTriple p) w z) ∧ V.Nodup ∧
    (∀ z ∈ V, jacDet (lensMap (midTriple p)) z ≠ 0 ∧ jacDet (lensMap (midTriple p)) z ≤ 1) ∧
    (∃ k : ℕ, nPos (midTriple p) V + k = 4 ∧ nNeg (midTriple p) V + k = 6 ∧ V.length + 2 * k = 4 + 6) ∧
    1 ≤ nPos (midTriple p) V ∧
    (V.length = 4 + 6 → (V.map fun z => 1 / jacDet (lensMap (midTriple p)) z).sum = 1 ∧
      2 * ((4 : ℕ) : ℝ) - 1 ≤ (V.map fun z => 1 / |jacDet (lensMap (midTriple p)) z|).sum) := by
  subst hc hS
  obtain ⟨b1, b2, b3⟩ := triple_roots p w _ ha hr1 hr2 he1.ne' he2.ne' (by linarith) hroots hw1 hw2 hw3 hsimple
  refine count_generic (mass3 p) ?_ (pos3 p) w (midTriple p) (lensList3 p)
    ((roots none (polyCoeffsTripleCM w p.a (r3Complex p) p.e1 p.e2)).map
      (· + shiftCM p.a (r3Complex p) p.e1 p.e2)) (hsimple.map (add_left_injective _)) ?_ ?_ 4 6 (by rfl) (by rfl)
    (by rw [List.length_map, b3]) (by norm_num) (lensEq3 p) (lensEq3_eq p) (1 / 10 ^ 3) (by norm_num) ?_ V hV
  · simp only [Fin.forall_fin_succ, mass3]
    refine ⟨he1, he2, ?_, fun i => i.elim0⟩
    show 0 < 1 - p.e1 - p.e2
    linarith
  · intro z hz
    obtain ⟨r, hr, rfl⟩ := List.mem_map.mp hz
    exact b1 r hr
  · intro z hz
    exact List.mem_map.mpr ⟨_, b2 z hz, by ring⟩
  · intro z hz h
    obtain ⟨r, hr, rfl⟩ := List.mem_map.mp hz
    exact hsep r hr (by norm_num at h ⊢; exact h)

/-- **C85, triple**: with three distinct lenses of positive mass, a source that is not at a lens and a root finder that
returns all roots, if the roots are distinct and none of them misses the lens equation by less than `1e-3` without
satisfying it, then `_images_point_source` flags four, six, eight or ten positions; they are the images of the source,
and exactly two more of them have negative than positive parity. -/
theorem C85_triple (roots) (init) (p : MidParams) (w : ℂ) (ha : p.a ≠ 0) (hr1 : r3Complex p ≠ p.a)
    (hr2 : r3Complex p ≠ -p.a) (he1 : 0 < p.e1) (he2 : 0 < p.e2) (he3 : p.e1 + p.e2 < 1)
    (c : List ℂ) (hc : c = polyCoeffsTripleCM w p.a (r3Complex p) p.e1 p.e2)
    (S : ℂ) (hS : S = shiftCM p.a (r3Complex p) p.e1 p.e2)
    (hroots : IsRootList c (roots none c)) (hw1 : w ≠ p.a) (hw2 : w ≠ -p.a) (hw3 : w ≠ r3Complex p)
    (hsimple : (roots none c).Nodup)
    (hsep : ∀ r ∈ roots none c, ‖lensEq3 p (r + S) - w‖ < 1e-3 → lensEq3 p (r + S) = w) :
    ∃ zs, imagesPointSource roots 3 init p w = .ok zs ∧ (flagged zs).Nodup ∧
      (∀ z, z ∈ flagged zs ↔ IsImage (midTriple p) w z) ∧
      ((flagged zs).length = 4 ∨ (flagged zs).length = 6 ∨ (flagged zs).length = 8 ∨ (flagged zs).length = 10) ∧
      nNeg (midTriple p) (flagged zs) = nPos (midTriple p) (flagged zs) + 2 ∧
      nPos (midTriple p) (flagged zs) + nNeg (midTriple p) (flagged zs) = (flagged zs).length := by
  obtain ⟨c1, c2, -, ⟨k, k1, k2, k3⟩, c4, -⟩ :=
    triple_count roots p w ha hr1 hr2 he1 he2 he3 c hc S hS hroots hw1 hw2 hw3 hsimple hsep _ rfl
  exact ⟨images3 roots p w, by simp [imagesPointSource], c2, c1, by omega, by omega, by omega⟩

/-- **C86, triple**: if all ten roots are images then the signed magnifications `1/det J` add up to one and
`mag_point_source` returns at least seven. -/
theorem C86_triple (roots : Option (List ℂ) → List ℂ → List ℂ) (u : UserParams) (w : ℂ) (hs : u.s ≠ 0) (hq : 0 < u.q)
    (hq3 : 0 < u.q3) (hr1 : r3Complex (midParams3 u) ≠ (midParams3 u).a)
    (hr2 : r3Complex (midParams3 u) ≠ -(midParams3 u).a)
    (c : List ℂ) (hc : c = polyCoeffsTripleCM (w - xCM u) (midParams3 u).a (r3Complex (midParams3 u))
      (midParams3 u).e1 (midParams3 u).e2)
    (S : ℂ) (hS : S = shiftCM (midParams3 u).a (r3Complex (midParams3 u)) (midParams3 u).e1 (midParams3 u).e2)
    (hroots : IsRootList c (roots none c)) (hw1 : w - xCM u ≠ (midParams3 u).a) (hw2 : w - xCM u ≠ -(midParams3 u).a)
    (hw3 : w - xCM u ≠ r3Complex (midParams3 u)) (hsimple : (roots none c).Nodup)
    (hsol : ∀ r ∈ roots none c, lensEq3 (midParams3 u) (r + S) = w - xCM u) :
    (((roots none c).map (· + S)).map fun z => 1 / detJac3 (midParams3 u) z).sum = 1 ∧
    ∃ μ, magPointSource roots 3 u w = .ok μ ∧ 7 ≤ μ := by
  have hsum : 0 < 1 + u.q + u.q3 := by positivity
  have h1 : 0 < u.q / (1 + u.q + u.q3) := by positivity
  have h2 : 0 < 1 / (1 + u.q + u.q3) := by positivity
  have h3 : u.q / (1 + u.q + u.q3) + 1 / (1 + u.q + u.q3) < 1 := by
    rw [← add_div, div_lt_one hsum]; linarith
  obtain ⟨c1, c2, -, -, -, c6⟩ := triple_count roots (midParams3 u) (w - xCM u)
    (by simp [midParams3, hs]) hr1 hr2 h1 h2 h3 c hc S hS hroots hw1 hw2 hw3 hsimple (fun r hr _ => hsol r hr) _ rfl
  have hfull : flagged (images3 roots (midParams3 u) (w - xCM u)) = (roots none c).map (· + S) := by
    simp only [images3]
    rw [flagged_withMask, ← hc, ← hS, List.filter_eq_self]
    intro z hz
    obtain ⟨r, hr, rfl⟩ := List.mem_map.mp hz
    rw [hsol r hr]; simp
  have hdeg : c.headD 0 ≠ 0 := by
    rw [hc, (triple_head _ _ _ _ _).2]
    have hi : ∀ x : ℂ, x ≠ 0 → conj x ≠ 0 := fun x hx => by simpa using hx
    refine mul_ne_zero (mul_ne_zero (hi _ (sub_ne_zero.mpr hw1)) (hi _ ?_)) (hi _ (sub_ne_zero.mpr hw3))
    exact fun hc => hw2 (by linear_combination hc)
  have hlen := rootList_length hdeg hroots (n := 10) (by rw [hc]; rfl)
  obtain ⟨d1, d2⟩ := c6 (by rw [hfull, List.length_map, hlen])
  have hdet : ∀ z ∈ flagged (images3 roots (midParams3 u) (w - xCM u)),
      detJac3 (midParams3 u) z = jacDet (lensMap (midTriple (midParams3 u))) z := by
    intro z hz
    rw [detJac3_eq, (jacDet_lensMap _ z ((c1 z).mp hz).1).2]
  constructor
  · rw [← hfull, List.map_congr_left (g := fun z => 1 / jacDet (lensMap (midTriple (midParams3 u))) z)
      fun z hz => by rw [hdet z hz]]
    exact d1
  · refine ⟨sumMag (detJac3 (midParams3 u)) (images3 roots (midParams3 u) (w - xCM u)),
      by simp [magPointSource], ?_⟩
    have hsm : sumMag (detJac3 (midParams3 u)) (images3 roots (midParams3 u) (w - xCM u))
        = ((flagged (images3 roots (midParams3 u) (w - xCM u))).map fun z => 1 / |detJac3 (midParams3 u) z|).sum := by
      simp only [images3]
      rw [sumMag_withMask, ← flagged_withMask]
    rw [hsm, List.map_congr_left (g := fun z => 1 / |jacDet (lensMap (midTriple (midParams3 u))) z|)
        fun z hz => by rw [hdet z hz]]
    refine le_trans ?_ d2
    norm_num

/-! ## Concrete cases -/

theorem exU_lens : (0 : ℂ) ≠ (midParams2 exU).a ∧ (0 : ℂ) ≠ -(midParams2 exU).a := by
  rw [exU_a]; norm_num

/-- Five images: the equal-mass binary of unit separation with the source at the centre. -/
example : ∃ zs, imagesPointSource exFinder 2 none (midParams2 exU) 0 = .ok zs ∧ (flagged zs).length = 5 ∧
    nPos (midBinary (midParams2 exU)) (flagged zs) = 2 ∧ nNeg (midBinary (midParams2 exU)) (flagged zs) = 3 := by
  obtain ⟨zs, h1, -, -, h4, h5, h6⟩ := C85_binary exFinder none (midParams2 exU) 0 (by rw [exU_a]; norm_num)
    (by rw [exU_e1]; norm_num) (by rw [exU_e1]; norm_num) exRoots_isRootList exU_lens.1 exU_lens.2 exRoots_nodup
    (fun r hr _ => (exRoots_images r hr).1)
  have hz : zs = images2 exFinder none (midParams2 exU) 0 := by
    simpa [imagesPointSource] using h1.symm
  have hl : (flagged zs).length = 5 := by
    rw [hz, images2, flagged_withMask, List.filter_eq_self.mpr]
    · rfl
    · intro z hz
      rw [(exRoots_images z hz).1]; simp
  exact ⟨zs, h1, hl, by omega, by omega⟩

example : (exRoots.map fun z => 1 / detJac2 (midParams2 exU) z).sum = 1 ∧
    ∃ μ, magPointSource exFinder 2 exU 0 = .ok μ ∧ 3 ≤ μ := by
  have hx : (0 : ℂ) - (xCM exU : ℂ) = 0 := by rw [exU_x]; simp
  refine C86_binary exFinder exU 0 (by norm_num [exU]) (by norm_num [exU]) _ rfl ?_ ?_ ?_ exRoots_nodup ?_
  · rw [hx]; exact exRoots_isRootList
  · rw [hx]; exact exU_lens.1
  · rw [hx]; exact exU_lens.2
  · intro r hr; rw [hx]; exact (exRoots_images r hr).1

/-- The equal-mass binary of separation four. -/
def exW : UserParams := { s := 4, q := 1 }

theorem exW_a : (midParams2 exW).a = 2 := by simp [midParams2, exW]; norm_num
theorem exW_e1 : (midParams2 exW).e1 = 1 / 2 := by simp [midParams2, exW]; norm_num

/-- Its roots for a source at the centre: three images and two points `±√3` that are not. -/
def exRootsW : List ℂ :=
  [0, ((Real.sqrt 5 : ℝ) : ℂ), ((-(Real.sqrt 5) : ℝ) : ℂ), ((Real.sqrt 3 : ℝ) : ℂ), ((-(Real.sqrt 3) : ℝ) : ℂ)]

theorem exRootsW_isRootList :
    IsRootList (polyCoeffsBinary 0 (midParams2 exW).a (midParams2 exW).e1) exRootsW := by
  intro x
  rw [evalPoly_binary, (C04_binary_leading _ _ _).2, exW_a, exW_e1]
  simp only [exRootsW, List.map_cons, List.map_nil, List.prod_cons, List.prod_nil, map_zero]
  push_cast
  have h5 := sq5
  have h3 := sq3
  linear_combination (-4 * x * (x ^ 2 - (Real.sqrt 3 : ℂ) ^ 2)) * h5 + (-4 * x * (x ^ 2 - 5)) * h3

theorem exRootsW_nodup : exRootsW.Nodup := by
  have h3 : 0 < Real.sqrt 3 := Real.sqrt_pos.mpr (by norm_num)
  have h5 : Real.sqrt 3 < Real.sqrt 5 := Real.sqrt_lt_sqrt (by norm_num) (by norm_num)
  have key : (exRootsW.map fun z => z.re).Nodup := by
    simp [exRootsW]
    and_intros <;> intro h <;> linarith
  exact List.Nodup.of_map _ key

theorem exRootsW_res (t : ℝ) (h : t ^ 2 ≠ 4) :
    lensEq2 (midParams2 exW) (t : ℂ) = ((t - t / (t ^ 2 - 4) : ℝ) : ℂ) := by
  have h1 : t - 2 ≠ 0 := fun hc => h (by rw [sub_eq_zero.mp hc]; norm_num)
  have h2 : t + 2 ≠ 0 := fun hc => h (by rw [eq_neg_of_add_eq_zero_left hc]; norm_num)
  have h3 : t ^ 2 - 4 ≠ 0 := sub_ne_zero.mpr h
  have e : (t - t / (t ^ 2 - 4) : ℝ) = t - 1 / 2 / (t - 2) - (1 - 1 / 2) / (t + 2) := by
    field_simp; ring
  rw [e]
  simp only [lensEq2, exW_a, exW_e1, conj_ofReal]
  push_cast
  ring

/-- A root finder that is right on the example. -/
def exFinderW : Option (List ℂ) → List ℂ → List ℂ := fun _ _ => exRootsW

/-- Three images: the equal-mass binary of separation four with the source at the centre. -/
example : ∃ zs, imagesPointSource exFinderW 2 none (midParams2 exW) 0 = .ok zs ∧ (flagged zs).length = 3 ∧
    nPos (midBinary (midParams2 exW)) (flagged zs) = 1 ∧ nNeg (midBinary (midParams2 exW)) (flagged zs) = 2 := by
  have s5 : Real.sqrt 5 ^ 2 = 5 := Real.sq_sqrt (by norm_num)
  have s3 : Real.sqrt 3 ^ 2 = 3 := Real.sq_sqrt (by norm_num)
  have p3 : 1 < Real.sqrt 3 := by rw [Real.lt_sqrt (by norm_num)]; norm_num
  have a0 : lensEq2 (midParams2 exW) (0 : ℂ) = 0 := by
    have := exRootsW_res 0 (by norm_num); simpa using this
  have a1 : lensEq2 (midParams2 exW) ((Real.sqrt 5 : ℝ) : ℂ) = 0 := by
    rw [exRootsW_res _ (by rw [s5]; norm_num), s5]; norm_num
  have a2 : lensEq2 (midParams2 exW) ((-(Real.sqrt 5) : ℝ) : ℂ) = 0 := by
    rw [exRootsW_res _ (by rw [neg_sq, s5]; norm_num), neg_sq, s5]; norm_num
  have b1 : ¬ ‖lensEq2 (midParams2 exW) ((Real.sqrt 3 : ℝ) : ℂ) - 0‖ < 1 / 10 ^ 6 := by
    rw [exRootsW_res _ (by rw [s3]; norm_num), s3, sub_zero, Complex.norm_real, Real.norm_eq_abs, not_lt]
    refine le_trans ?_ (le_abs_self _)
    norm_num; linarith
  have b2 : ¬ ‖lensEq2 (midParams2 exW) ((-(Real.sqrt 3) : ℝ) : ℂ) - 0‖ < 1 / 10 ^ 6 := by
    rw [exRootsW_res _ (by rw [neg_sq, s3]; norm_num), neg_sq, s3, sub_zero, Complex.norm_real, Real.norm_eq_abs, not_lt]
    refine le_trans ?_ (neg_le_abs _)
    norm_num; linarith
  obtain ⟨zs, h1, -, -, h4, h5, h6⟩ := C85_binary exFinderW none (midParams2 exW) 0 (by rw [exW_a]; norm_num)
    (by rw [exW_e1]; norm_num) (by rw [exW_e1]; norm_num) exRootsW_isRootList (by rw [exW_a]; norm_num)
    (by rw [exW_a]; norm_num) exRootsW_nodup (by
      intro r hr hlt
      simp only [exFinderW, exRootsW, List.mem_cons, List.not_mem_nil, or_false] at hr
      rcases hr with rfl | rfl | rfl | rfl | rfl
      · exact a0
      · exact a1
      · exact a2
      · exact absurd (by norm_num at hlt ⊢; exact hlt) b1
      · exact absurd (by norm_num at hlt ⊢; exact hlt) b2)
  have hz : zs = images2 exFinderW none (midParams2 exW) 0 := by
    simpa [imagesPointSource] using h1.symm
  have hl : (flagged zs).length = 3 := by
    rw [hz, images2, flagged_withMask]
    simp only [exFinderW, exRootsW, List.filter_cons, List.filter_nil, b1, b2, a0, a1, a2]
    norm_num
  exact ⟨zs, h1, hl, by omega, by omega⟩

/-- The lenses and the source of the equilateral triple are distinct points. -/
theorem exT_points : r3Complex (midParams3 exT) ≠ (midParams3 exT).a ∧ r3Complex (midParams3 exT) ≠ -(midParams3 exT).a ∧
    exTw ≠ (midParams3 exT).a ∧ exTw ≠ -(midParams3 exT).a ∧ exTw ≠ r3Complex (midParams3 exT) := by
  have hp : 0 < tm * tk := mul_pos tm_pos tk_pos
  have e1 : exTw = ((1 / 2 * (tm * tk) : ℝ) : ℂ) * I := by rw [exTw]; push_cast; ring
  have e2 : r3Complex (midParams3 exT) = ((3 / 2 * (tm * tk) : ℝ) : ℂ) * I := by rw [exT_r3]; push_cast; ring
  have i1 : exTw.im = 1 / 2 * (tm * tk) := by rw [e1, Complex.im_ofReal_mul, I_im, mul_one]
  have i2 : (r3Complex (midParams3 exT)).im = 3 / 2 * (tm * tk) := by rw [e2, Complex.im_ofReal_mul, I_im, mul_one]
  refine ⟨?_, ?_, ?_, ?_, ?_⟩ <;> intro h <;> have h' := congrArg Complex.im h <;>
    simp only [i1, i2, ofReal_im, neg_im, neg_zero] at h' <;> linarith

/-- Ten images: the equilateral equal-mass triple with the source at the centroid. -/
example : (∃ zs, imagesPointSource (fun _ _ => exRootsT) 3 none (midParams3 exT) exTw = .ok zs ∧
      (flagged zs).length = 10 ∧
      nPos (midTriple (midParams3 exT)) (flagged zs) = 4 ∧ nNeg (midTriple (midParams3 exT)) (flagged zs) = 6) ∧
    ((exRootsT.map (· + 1 / 2 * (tm * tk) * I)).map fun z => 1 / detJac3 (midParams3 exT) z).sum = 1 ∧
    ∃ μ, magPointSource (fun _ _ => exRootsT) 3 exT exTw = .ok μ ∧ 7 ≤ μ := by
  obtain ⟨d1, d2, d3, d4, d5⟩ := exT_points
  have hx : exTw - (xCM exT : ℂ) = exTw := by rw [exT_x]; simp
  have hs : exT.s ≠ 0 := by
    have : 0 < Real.sqrt 3 * (tm * tk) := mul_pos (Real.sqrt_pos.mpr (by norm_num)) (mul_pos tm_pos tk_pos)
    exact this.ne'
  have ha : (midParams3 exT).a ≠ 0 := by
    rw [exT_a]
    have : 0 < Real.sqrt 3 * (tm * tk) := mul_pos (Real.sqrt_pos.mpr (by norm_num)) (mul_pos tm_pos tk_pos)
    linarith
  constructor
  · obtain ⟨zs, h1, -, -, h4, h5, h6⟩ := C85_triple (fun _ _ => exRootsT) none (midParams3 exT) exTw ha d1 d2
      (by rw [exT_e1]; norm_num) (by rw [exT_e2]; norm_num) (by rw [exT_e1, exT_e2]; norm_num) exTc rfl _
      exT_S.symm exRootsT_isRootList d3 d4 d5 exRootsT_nodup (fun r hr _ => (exRootsT_images r hr).1)
    have hz : zs = images3 (fun _ _ => exRootsT) (midParams3 exT) exTw := by
      simpa [imagesPointSource] using h1.symm
    have hl : (flagged zs).length = 10 := by
      rw [hz]
      simp only [images3]
      rw [flagged_withMask, exT_S, List.filter_eq_self.mpr]
      · rfl
      · intro z hz
        obtain ⟨r, hr, rfl⟩ := List.mem_map.mp hz
        rw [(exRootsT_images r hr).1]; simp
    exact ⟨zs, h1, hl, by omega, by omega⟩
  · refine C86_triple (fun _ _ => exRootsT) exT exTw hs (by norm_num [exT]) (by norm_num [exT]) d1 d2 exTc
      (by rw [hx]) _ exT_S.symm exRootsT_isRootList ?_ ?_ ?_ exRootsT_nodup ?_
    · rw [hx]; exact d3
    · rw [hx]; exact d4
    · rw [hx]; exact d5
    · intro r hr; rw [hx]; exact (exRootsT_images r hr).1

end Microjax.Props
