import Verif.Model.NonFinite
import Verif.Props.VanishingThird

/-!
# C119: where `mag_point_source` returns a number, where `inf` and where `nan`
-/

noncomputable section

namespace Microjax.Props

open Complex ComplexConjugate Microjax.PointSource Microjax.Spec Microjax.NonFinite

/-! ### Sums of extended values -/

theorem sum_nan (l : List Ext) : NonFinite.sum l = .nan ↔ Ext.nan ∈ l := by
  induction l with
  | nil => simp [NonFinite.sum]
  | cons x l ih =>
    rw [List.mem_cons, ← ih, NonFinite.sum]
    cases x <;> cases NonFinite.sum l <;> simp [NonFinite.add]

theorem sum_inf (l : List Ext) : NonFinite.sum l = .inf ↔ Ext.nan ∉ l ∧ Ext.inf ∈ l := by
  induction l with
  | nil => simp [NonFinite.sum]
  | cons x l ih =>
    have h1 := sum_nan l
    rw [List.mem_cons, List.mem_cons, not_or, NonFinite.sum]
    cases x <;> cases h : NonFinite.sum l <;> simp_all [NonFinite.add]

theorem sum_fin (l : List ℂ) (f : ℂ → Ext) (g : ℂ → ℝ) (h : ∀ z ∈ l, f z = .fin (g z)) :
    NonFinite.sum (l.map f) = .fin (l.map g).sum := by
  induction l with
  | nil => rfl
  | cons a l ih =>
    rw [List.map_cons, NonFinite.sum, h a List.mem_cons_self, ih fun z hz => h z (List.mem_cons_of_mem _ hz), List.map_cons,
      List.sum_cons, NonFinite.add]

/-- One root off the lenses. -/
theorem term_off (dz : DivZero) (on : ℂ → Prop) [DecidablePred on] (leq : ℂ → ℂ) (det : ℂ → ℝ) (tol : ℝ) (w z : ℂ)
    (h : ¬ on z) : mulMask (recip (absDet dz on det z)) (mask on leq tol w z) =
      if det z = 0 then (if ‖leq z - w‖ < tol then .inf else .nan)
      else .fin (1 / |det z| * if ‖leq z - w‖ < tol then 1 else 0) := by
  by_cases h0 : det z = 0
  · by_cases h1 : ‖leq z - w‖ < tol
    · simp [absDet, mask, h, h0, recip, mulMask, h1]
    · simp [absDet, mask, h, h0, recip, mulMask, h1]
  · simp [absDet, mask, h, h0, recip, mulMask]

/-- **The value for given roots off the lenses.** -/
theorem sumExt_classify (dz : DivZero) (on : ℂ → Prop) [DecidablePred on] (leq : ℂ → ℂ) (det : ℂ → ℝ) (tol : ℝ) (w : ℂ)
    (zs : List ℂ) (hoff : ∀ z ∈ zs, ¬ on z) :
    (sumExt dz on leq det tol w zs = .nan ↔ ∃ z ∈ zs, det z = 0 ∧ tol ≤ ‖leq z - w‖) ∧
    (sumExt dz on leq det tol w zs = .inf ↔ (∃ z ∈ zs, det z = 0) ∧ ∀ z ∈ zs, det z = 0 → ‖leq z - w‖ < tol) ∧
    ∀ x, sumExt dz on leq det tol w zs = .fin x ↔ (∀ z ∈ zs, det z ≠ 0) ∧ x = sumMag det (withMask leq tol w zs) := by
  set f : ℂ → Ext := fun z => mulMask (recip (absDet dz on det z)) (mask on leq tol w z) with hf
  have hterm : ∀ z ∈ zs, f z = if det z = 0 then (if ‖leq z - w‖ < tol then .inf else .nan)
      else .fin (1 / |det z| * if ‖leq z - w‖ < tol then 1 else 0) := fun z hz => term_off dz on leq det tol w z (hoff z hz)
  have hnan : Ext.nan ∈ zs.map f ↔ ∃ z ∈ zs, det z = 0 ∧ tol ≤ ‖leq z - w‖ := by
    rw [List.mem_map]
    refine exists_congr fun z => and_congr_right fun hz => ?_
    rw [hterm z hz]
    split_ifs with h0 h1
    · simp [h1]
    · simp [h0, not_lt.mp h1]
    · simp [h0]
  have hinf : Ext.inf ∈ zs.map f ↔ ∃ z ∈ zs, det z = 0 ∧ ‖leq z - w‖ < tol := by
    rw [List.mem_map]
    refine exists_congr fun z => and_congr_right fun hz => ?_
    rw [hterm z hz]
    split_ifs with h0 h1
    · simp [h0, h1]
    · simp [h1]
    · simp [h0]
  have c1 : sumExt dz on leq det tol w zs = .nan ↔ ∃ z ∈ zs, det z = 0 ∧ tol ≤ ‖leq z - w‖ := (sum_nan _).trans hnan
  have c2 : sumExt dz on leq det tol w zs = .inf ↔
      (∃ z ∈ zs, det z = 0) ∧ ∀ z ∈ zs, det z = 0 → ‖leq z - w‖ < tol := by
    refine (sum_inf _).trans ?_
    rw [hnan, hinf]
    constructor
    · rintro ⟨h1, z, hz, h2, -⟩
      exact ⟨⟨z, hz, h2⟩, fun y hy h0 => not_le.mp fun h => h1 ⟨y, hy, h0, h⟩⟩
    · rintro ⟨⟨z, hz, h2⟩, h3⟩
      exact ⟨fun ⟨y, hy, h0, h⟩ => absurd (h3 y hy h0) (not_lt.mpr h), z, hz, h2, h3 z hz h2⟩
  refine ⟨c1, c2, fun x => ?_⟩
  have hval : (∀ z ∈ zs, det z ≠ 0) → sumExt dz on leq det tol w zs = .fin (sumMag det (withMask leq tol w zs)) := by
    intro h
    have := sum_fin zs f (fun z => 1 / |det z| * if ‖leq z - w‖ < tol then 1 else 0) (fun z hz => by
      rw [hterm z hz, if_neg (h z hz)])
    refine this.trans ?_
    simp [sumMag, withMask, Function.comp_def]
  constructor
  · intro h
    have h0 : ∀ z ∈ zs, det z ≠ 0 := by
      intro z hz h0
      by_cases hn : ∃ z ∈ zs, det z = 0 ∧ tol ≤ ‖leq z - w‖
      · rw [c1.mpr hn] at h; cases h
      · rw [c2.mpr ⟨⟨z, hz, h0⟩, fun y hy g => not_le.mp fun g' => hn ⟨y, hy, g, g'⟩⟩] at h; cases h
    refine ⟨h0, ?_⟩
    rw [hval h0] at h
    exact (Ext.fin.inj h).symm
  · rintro ⟨h1, rfl⟩
    exact hval h1

/-- The roots as the code sees them: in the frame of the mid-point, shifted back for triples. -/
def codeRoots2 (roots : Option (List ℂ) → List ℂ → List ℂ) (u : UserParams) (w : ℂ) : List ℂ :=
  roots none (polyCoeffsBinary (w - (xCM u : ℂ)) (midParams2 u).a (midParams2 u).e1)

/-- The roots of the triple polynomial, shifted back. -/
def codeRoots3 (roots : Option (List ℂ) → List ℂ → List ℂ) (u : UserParams) (w : ℂ) : List ℂ :=
  (roots none (polyCoeffsTripleCM (w - (xCM u : ℂ)) (midParams3 u).a (r3Complex (midParams3 u)) (midParams3 u).e1
    (midParams3 u).e2)).map (· + shiftCM (midParams3 u).a (r3Complex (midParams3 u)) (midParams3 u).e1 (midParams3 u).e2)

/-- What the returned value `e` is, for lenses `L`, a source at `w`, the roots `zs` found and the value `m` of the model with
total division: `nan` if a root that fails the test of the mask is critical, otherwise `inf` if a root is critical, otherwise
`m`. -/
structure Classified (L : Lenses) (tol : ℝ) (w : ℂ) (zs : List ℂ) (m : ℝ) (e : Ext) : Prop where
  isNan : e = .nan ↔ ∃ z ∈ zs, jacDet (lensMap L) z = 0 ∧ tol ≤ ‖lensMap L z - w‖
  isInf : e = .inf ↔ (∃ z ∈ zs, jacDet (lensMap L) z = 0) ∧
    ∀ z ∈ zs, jacDet (lensMap L) z = 0 → ‖lensMap L z - w‖ < tol
  isFin : ∀ x, e = .fin x ↔ (∀ z ∈ zs, jacDet (lensMap L) z ≠ 0) ∧ x = m

theorem sumExt_classified (dz : DivZero) (on : ℂ → Prop) [DecidablePred on] (L : Lenses) (leq : ℂ → ℂ) (det : ℂ → ℝ)
    (tol : ℝ) (w : ℂ) (zs : List ℂ) (hoff : ∀ z ∈ zs, ¬ on z) (hleq : ∀ z, leq z = lensMap L z)
    (hdet : ∀ z ∈ zs, det z = jacDet (lensMap L) z) :
    Classified L tol w zs (sumMag det (withMask leq tol w zs)) (sumExt dz on leq det tol w zs) := by
  obtain ⟨h1, h2, h3⟩ := sumExt_classify dz on leq det tol w zs hoff
  refine ⟨h1.trans ?_, h2.trans ?_, fun x => (h3 x).trans ?_⟩
  · refine exists_congr fun z => and_congr_right fun hz => ?_
    rw [hdet z hz, hleq]
  · refine and_congr (exists_congr fun z => and_congr_right fun hz => by rw [hdet z hz]) ?_
    refine forall_congr' fun z => forall_congr' fun hz => ?_
    rw [hdet z hz, hleq]
  · refine and_congr_left fun _ => forall_congr' fun z => forall_congr' fun hz => ?_
    rw [hdet z hz]

/-- **C119, binary**: for every binary with two masses, every source not exactly behind a lens and every root finder that
returns all roots, whatever a complex division by zero gives: `mag_point_source(w, nlenses=2, s, q)` is `nan` if and only if a
root that fails the test of the mask lies on the critical curve, `inf` if and only if roots lie on the critical curve and all
of these pass the test, and otherwise the number that the model with total division returns. -/
theorem C119_binary (dz : DivZero) (roots : Option (List ℂ) → List ℂ → List ℂ)
    (hroots : ∀ cs : List ℂ, cs.headD 0 ≠ 0 → IsRootList cs (roots none cs)) (u : UserParams) (hs : u.s ≠ 0) (hq : 0 < u.q)
    (w : ℂ) (hw1 : w - xCM u ≠ (midParams2 u).a) (hw2 : w - xCM u ≠ -((midParams2 u).a : ℂ)) :
    ∃ m e, magPointSource roots 2 u w = .ok m ∧ magPointSourceExt dz roots 2 u w = .ok e ∧
      Classified (midBinary (midParams2 u)) (1 / 10 ^ 6) (w - xCM u) (codeRoots2 roots u w) m e := by
  classical
  have ha : (midParams2 u).a ≠ 0 := by simp [midParams2, hs]
  have ee : (midParams2 u).e1 = u.q / (1 + u.q) := rfl
  have he : 0 < (midParams2 u).e1 := by rw [ee]; positivity
  have he' : (midParams2 u).e1 < 1 := by rw [ee, div_lt_one (by positivity)]; linarith
  have hdeg : conj (w - xCM u) ^ 2 ≠ ((midParams2 u).a : ℂ) ^ 2 := by
    intro h
    have h' := congrArg conj h
    simp only [map_pow, conj_conj, conj_ofReal] at h'
    rcases sq_eq_sq_iff_eq_or_eq_neg.mp h' with h1 | h1
    · exact hw1 h1
    · exact hw2 h1
  have hr := hroots (polyCoeffsBinary (w - (xCM u : ℂ)) (midParams2 u).a (midParams2 u).e1) (by
    rw [(C04_binary_leading _ _ _).2]; exact sub_ne_zero.mpr hdeg)
  have hlens : ∀ z ∈ codeRoots2 roots u w, z ≠ (midParams2 u).a ∧ z ≠ -((midParams2 u).a : ℂ) := by
    intro z hz
    have := ((binary_mem_iff (midParams2 u) _ _ ha he he' hr hdeg z).mp hz).hz
    exact (forall2 (midParams2 u) fun c => z ≠ c).mp this
  refine ⟨sumMag (detJac2 (midParams2 u)) (withMask (lensEq2 (midParams2 u)) (1 / 10 ^ 6) (w - xCM u) (codeRoots2 roots u w)),
    _, by simp [magPointSource, images2, codeRoots2],
    by simp only [magPointSourceExt, if_neg (show ¬ (2 : ℕ) = 1 by norm_num), if_true]; rfl, ?_⟩
  · refine sumExt_classified dz (onLens2 (midParams2 u)) (midBinary (midParams2 u)) (lensEq2 (midParams2 u))
      (detJac2 (midParams2 u)) (1 / 10 ^ 6) (w - xCM u) (codeRoots2 roots u w) ?_ (lensEq2_eq _) ?_
    · rintro z hz (h | h)
      · refine (hlens z hz).1 ?_
        have := congrArg conj (sub_eq_zero.mp h)
        simpa using this
      · refine (hlens z hz).2 ?_
        have := congrArg conj (eq_neg_of_add_eq_zero_left h)
        simpa using this
    · intro z hz
      rw [(C03_det_binary _ z (hlens z hz).1 (hlens z hz).2).2, show lensEq2 (midParams2 u) = _ from funext (lensEq2_eq _)]

/-- **C119, triple**: the same for three lenses and the tolerance of their mask. -/
theorem C119_triple (dz : DivZero) (roots : Option (List ℂ) → List ℂ → List ℂ)
    (hroots : ∀ cs : List ℂ, cs.headD 0 ≠ 0 → IsRootList cs (roots none cs)) (u : UserParams) (hs : u.s ≠ 0) (hq : 0 < u.q)
    (hq3 : 0 < u.q3) (w : ℂ) (hr1 : r3Complex (midParams3 u) ≠ (midParams3 u).a)
    (hr2 : r3Complex (midParams3 u) ≠ -((midParams3 u).a : ℂ)) (hw1 : w - xCM u ≠ (midParams3 u).a)
    (hw2 : w - xCM u ≠ -((midParams3 u).a : ℂ)) (hw3 : w - xCM u ≠ r3Complex (midParams3 u)) :
    ∃ m e, magPointSource roots 3 u w = .ok m ∧ magPointSourceExt dz roots 3 u w = .ok e ∧
      Classified (midTriple (midParams3 u)) (1 / 10 ^ 3) (w - xCM u) (codeRoots3 roots u w) m e := by
  classical
  obtain ⟨hm, hsum⟩ := mass3_pos u hq hq3
  have ha : (midParams3 u).a ≠ 0 := by simp [midParams3, hs]
  have he1 : (midParams3 u).e1 ≠ 0 := (hm 0).ne'
  have he2 : (midParams3 u).e2 ≠ 0 := (hm 1).ne'
  have he3 : 1 - (midParams3 u).e1 - (midParams3 u).e2 ≠ 0 := (hm 2).ne'
  have hr := hroots (polyCoeffsTripleCM (w - (xCM u : ℂ)) (midParams3 u).a (r3Complex (midParams3 u)) (midParams3 u).e1
      (midParams3 u).e2) (by
    rw [(triple_head _ _ _ _ _).2]
    have hi : ∀ x : ℂ, x ≠ 0 → conj x ≠ 0 := fun x hx => by simpa using hx
    refine mul_ne_zero (mul_ne_zero (hi _ (sub_ne_zero.mpr hw1)) (hi _ ?_)) (hi _ (sub_ne_zero.mpr hw3))
    exact fun hc => hw2 (by linear_combination hc))
  have hlens : ∀ z ∈ codeRoots3 roots u w, z ≠ (midParams3 u).a ∧ z ≠ -((midParams3 u).a : ℂ) ∧
      z ≠ r3Complex (midParams3 u) := by
    intro z hz
    have := ((triple_mem_iff (midParams3 u) _ _ ha hr1 hr2 he1 he2 he3 hr hw1 hw2 hw3 z).mp hz).hz
    exact (forall3 (midParams3 u) fun c => z ≠ c).mp this
  refine ⟨sumMag (detJac3 (midParams3 u)) (withMask (lensEq3 (midParams3 u)) (1 / 10 ^ 3) (w - xCM u) (codeRoots3 roots u w)),
    _, by simp [magPointSource, images3, codeRoots3],
    by simp only [magPointSourceExt, if_neg (show ¬ (3 : ℕ) = 1 by norm_num),
      if_neg (show ¬ (3 : ℕ) = 2 by norm_num), if_true]; rfl, ?_⟩
  · refine sumExt_classified dz (onLens3 (midParams3 u)) (midTriple (midParams3 u)) (lensEq3 (midParams3 u))
      (detJac3 (midParams3 u)) (1 / 10 ^ 3) (w - xCM u) (codeRoots3 roots u w) ?_ (lensEq3_eq _) ?_
    · rintro z hz (h | h | h)
      · refine (hlens z hz).1 ?_
        have := congrArg conj (sub_eq_zero.mp h)
        simpa using this
      · refine (hlens z hz).2.1 ?_
        have := congrArg conj (eq_neg_of_add_eq_zero_left h)
        simpa using this
      · exact (hlens z hz).2.2 ((starRingEnd ℂ).injective (sub_eq_zero.mp h))
    · intro z hz
      rw [(C03_det_triple _ z (hlens z hz).1 (hlens z hz).2.1 (hlens z hz).2.2).2,
        show lensEq3 (midParams3 u) = _ from funext (lensEq3_eq _)]

/-- A critical image in the frame of the user is one in the frame of the mid-point. -/
theorem critical_translate (L : Lenses) (c w z : ℂ) (h : IsImage (L.map fun l => (l.1, l.2 + c)) w z)
    (h0 : jacDet (lensMap (L.map fun l => (l.1, l.2 + c))) z = 0) :
    IsImage L (w - c) (z - c) ∧ jacDet (lensMap L) (z - c) = 0 := by
  have h1 : IsImage L (w - c) (z - c) := by
    rw [← isImage_translate L c (w - c) (z - c)]
    simpa using h
  refine ⟨h1, ?_⟩
  rw [(jacDet_lensMap L _ h1.1).2]
  rw [(jacDet_lensMap _ _ h.1).2] at h0
  have := detFormula_translate L c (z - c)
  rw [sub_add_cancel] at this
  exact this.symm.trans h0

theorem Classified.not_fin {L : Lenses} {tol : ℝ} {w : ℂ} {zs : List ℂ} {m : ℝ} {e : Ext} (h : Classified L tol w zs m e)
    {z : ℂ} (hz : z ∈ zs) (h0 : jacDet (lensMap L) z = 0) : e = .inf ∨ e = .nan := by
  cases e with
  | fin x => exact absurd h0 (((h.isFin x).mp rfl).1 z hz)
  | inf => exact Or.inl rfl
  | nan => exact Or.inr rfl

/-- **C119, sources on a caustic**: for a binary, if the source has an image on the critical curve, then
`mag_point_source(w, nlenses=2, s, q)` is not a number: it is `inf` or `nan`. -/
theorem C119_binary_caustic (dz : DivZero) (roots : Option (List ℂ) → List ℂ → List ℂ)
    (hroots : ∀ cs : List ℂ, cs.headD 0 ≠ 0 → IsRootList cs (roots none cs)) (u : UserParams) (hs : u.s ≠ 0) (hq : 0 < u.q)
    (w : ℂ) (hw1 : w - xCM u ≠ (midParams2 u).a) (hw2 : w - xCM u ≠ -((midParams2 u).a : ℂ))
    (hc : ∃ z, IsImage (binary u.s u.q) w z ∧ jacDet (lensMap (binary u.s u.q)) z = 0) :
    magPointSourceExt dz roots 2 u w = .ok .inf ∨ magPointSourceExt dz roots 2 u w = .ok .nan := by
  obtain ⟨m, e, -, he, H⟩ := C119_binary dz roots hroots u hs hq w hw1 hw2
  obtain ⟨z, hz, h0⟩ := hc
  have hfr := (C08_binary_frame u (by positivity)).1
  rw [← hfr] at hz h0
  obtain ⟨h1, h2⟩ := critical_translate _ _ _ _ hz h0
  have hdeg : conj (w - xCM u) ^ 2 ≠ ((midParams2 u).a : ℂ) ^ 2 := by
    intro h
    have h' := congrArg conj h
    simp only [map_pow, conj_conj, conj_ofReal] at h'
    rcases sq_eq_sq_iff_eq_or_eq_neg.mp h' with h1 | h1
    · exact hw1 h1
    · exact hw2 h1
  have hmem : z - xCM u ∈ codeRoots2 roots u w := by
    refine IsRootList.mem_of_eval_zero (hroots _ ?_) ?_ ?_
    · rw [(C04_binary_leading _ _ _).2]; exact sub_ne_zero.mpr hdeg
    · rw [(C04_binary_leading _ _ _).2]; exact sub_ne_zero.mpr hdeg
    · refine C04_binary_complete (midParams2 u) _ _ (h1.1 ((midParams2 u).e1, ((midParams2 u).a : ℂ)) (by simp [midBinary]))
        (h1.1 (1 - (midParams2 u).e1, -((midParams2 u).a : ℂ)) (by simp [midBinary])) ?_
      rw [lensEq2_eq]; exact h1.2
  rcases H.not_fin hmem h2 with rfl | rfl
  · exact Or.inl he
  · exact Or.inr he

/-- **C119, sources on a caustic of a triple.** -/
theorem C119_triple_caustic (dz : DivZero) (roots : Option (List ℂ) → List ℂ → List ℂ)
    (hroots : ∀ cs : List ℂ, cs.headD 0 ≠ 0 → IsRootList cs (roots none cs)) (u : UserParams) (hs : u.s ≠ 0) (hq : 0 < u.q)
    (hq3 : 0 < u.q3) (w : ℂ) (hr1 : r3Complex (midParams3 u) ≠ (midParams3 u).a)
    (hr2 : r3Complex (midParams3 u) ≠ -((midParams3 u).a : ℂ)) (hw1 : w - xCM u ≠ (midParams3 u).a)
    (hw2 : w - xCM u ≠ -((midParams3 u).a : ℂ)) (hw3 : w - xCM u ≠ r3Complex (midParams3 u))
    (hc : ∃ z, IsImage (triple u.s u.q u.q3 u.r3 u.psi) w z ∧ jacDet (lensMap (triple u.s u.q u.q3 u.r3 u.psi)) z = 0) :
    magPointSourceExt dz roots 3 u w = .ok .inf ∨ magPointSourceExt dz roots 3 u w = .ok .nan := by
  obtain ⟨m, e, -, he, H⟩ := C119_triple dz roots hroots u hs hq hq3 w hr1 hr2 hw1 hw2 hw3
  obtain ⟨z, hz, h0⟩ := hc
  have hfr := (C08_triple_frame u (by positivity) (by positivity)).1
  rw [← hfr] at hz h0
  obtain ⟨h1, h2⟩ := critical_translate _ _ _ _ hz h0
  have hhead : (polyCoeffsTripleCM (w - (xCM u : ℂ)) (midParams3 u).a (r3Complex (midParams3 u)) (midParams3 u).e1
      (midParams3 u).e2).headD 0 ≠ 0 := by
    rw [(triple_head _ _ _ _ _).2]
    have hi : ∀ x : ℂ, x ≠ 0 → conj x ≠ 0 := fun x hx => by simpa using hx
    refine mul_ne_zero (mul_ne_zero (hi _ (sub_ne_zero.mpr hw1)) (hi _ ?_)) (hi _ (sub_ne_zero.mpr hw3))
    exact fun hc => hw2 (by linear_combination hc)
  have hmem : z - xCM u ∈ codeRoots3 roots u w := by
    refine List.mem_map.mpr ⟨z - xCM u - shiftCM (midParams3 u).a (r3Complex (midParams3 u)) (midParams3 u).e1
      (midParams3 u).e2, IsRootList.mem_of_eval_zero (hroots _ hhead) hhead ?_, by ring⟩
    refine C05_triple_complete (midParams3 u) _ _
      (h1.1 ((midParams3 u).e1, ((midParams3 u).a : ℂ)) (by simp [midTriple]))
      (h1.1 ((midParams3 u).e2, -((midParams3 u).a : ℂ)) (by simp [midTriple]))
      (h1.1 (1 - (midParams3 u).e1 - (midParams3 u).e2, r3Complex (midParams3 u)) (by simp [midTriple])) ?_
    rw [lensEq3_eq]; exact h1.2
  rcases H.not_fin hmem h2 with rfl | rfl
  · exact Or.inl he
  · exact Or.inr he

/-- **C119, sources off the caustics**: for a binary, if the roots are distinct, those within the tolerance of the mask are
images, and no root that is not an image lies on the critical curve, then `mag_point_source(w, nlenses=2, s, q)` is a number,
the sum of `1/|det J|` over all images.  Missing for the full property: that the last hypothesis always holds off the
caustics, which is false, see `C119_nan_violated`. -/
theorem C119_binary_regular_partial (dz : DivZero) (roots : Option (List ℂ) → List ℂ → List ℂ)
    (hroots : ∀ cs : List ℂ, cs.headD 0 ≠ 0 → IsRootList cs (roots none cs)) (u : UserParams) (hs : u.s ≠ 0) (hq : 0 < u.q)
    (w : ℂ) (hw1 : w - xCM u ≠ (midParams2 u).a) (hw2 : w - xCM u ≠ -((midParams2 u).a : ℂ))
    (hsimple : (codeRoots2 roots u w).Nodup)
    (hsep : ∀ r ∈ codeRoots2 roots u w, ‖lensEq2 (midParams2 u) r - (w - xCM u)‖ < 1e-6 →
      lensEq2 (midParams2 u) r = w - xCM u)
    (hmasked : ∀ r ∈ codeRoots2 roots u w, lensEq2 (midParams2 u) r ≠ w - xCM u → jacDet (lensEq2 (midParams2 u)) r ≠ 0) :
    magPointSourceExt dz roots 2 u w = .ok (.fin (pointMag (binary u.s u.q) w)) := by
  obtain ⟨m, e, hm, he, H⟩ := C119_binary dz roots hroots u hs hq w hw1 hw2
  have ha : (midParams2 u).a ≠ 0 := by simp [midParams2, hs]
  have ee : (midParams2 u).e1 = u.q / (1 + u.q) := rfl
  have hp : 0 < (midParams2 u).e1 := by rw [ee]; positivity
  have hp' : (midParams2 u).e1 < 1 := by rw [ee, div_lt_one (by positivity)]; linarith
  have hdeg : conj (w - xCM u) ^ 2 ≠ ((midParams2 u).a : ℂ) ^ 2 := by
    intro h
    have h' := congrArg conj h
    simp only [map_pow, conj_conj, conj_ofReal] at h'
    rcases sq_eq_sq_iff_eq_or_eq_neg.mp h' with h1 | h1
    · exact hw1 h1
    · exact hw2 h1
  have hr := hroots (polyCoeffsBinary (w - (xCM u : ℂ)) (midParams2 u).a (midParams2 u).e1) (by
    rw [(C04_binary_leading _ _ _).2]; exact sub_ne_zero.mpr hdeg)
  have hleq : lensEq2 (midParams2 u) = lensMap (midBinary (midParams2 u)) := funext (lensEq2_eq _)
  obtain ⟨c1, -, c3, -⟩ := binary_count roots none (midParams2 u) (w - xCM u) ha hp hp' hr hw1 hw2 hsimple hsep _ rfl
  have hlens : ∀ z ∈ codeRoots2 roots u w, z ≠ (midParams2 u).a ∧ z ≠ -((midParams2 u).a : ℂ) := fun z hz =>
    (forall2 (midParams2 u) fun c => z ≠ c).mp ((binary_mem_iff (midParams2 u) _ _ ha hp hp' hr hdeg z).mp hz).hz
  have h6 := C06_binary_mag roots u w (by positivity) hr hdeg hsimple fun z hz hlt => ⟨hsep z hz hlt, hlens z hz⟩
  rw [hm, Except.ok.injEq] at h6
  rw [he, ← h6]
  congr 1
  refine (H.isFin m).mpr ⟨fun z hz => ?_, rfl⟩
  by_cases h : lensEq2 (midParams2 u) z = w - xCM u
  · refine (c3 z ((c1 z).mpr ⟨fun l hl => ?_, by rw [← hleq]; exact h⟩)).1
    simp only [midBinary, List.mem_cons, List.not_mem_nil, or_false] at hl
    rcases hl with rfl | rfl
    · exact (hlens z hz).1
    · exact (hlens z hz).2
  · rw [← hleq]; exact hmasked z hz h

/-- **C119, one lens**: off the origin the value is a number, the one of the model with total division; at the origin it is
`nan`. -/
theorem C119_single (dz : DivZero) (roots : Option (List ℂ) → List ℂ → List ℂ) (u : UserParams) (w : ℂ) :
    (w ≠ 0 → ∃ m, magPointSource roots 1 u w = .ok m ∧ magPointSourceExt dz roots 1 u w = .ok (.fin m)) ∧
    magPointSourceExt dz roots 1 u 0 = .ok .nan := by
  refine ⟨fun hw => ?_, by simp [magPointSourceExt, magSingleExt]⟩
  have hn := normSq_pos' hw
  refine ⟨sumMag detJac1 (images1 w), by simp only [magPointSource, if_true], ?_⟩
  simp only [magPointSourceExt, if_true, magSingleExt, if_neg hn.ne']
  congr 1
  have key : ∀ zm ∈ images1 w, zm.2 = true ∧ zm.1 ≠ 0 ∧ detJac1 zm.1 ≠ 0 := by
    intro zm hzm
    have himg : zm.2 = true ∧ IsImage single w zm.1 := by
      rw [single_image_iff w _ hw]
      simp only [images1, List.mem_cons, List.not_mem_nil, or_false] at hzm
      rcases hzm with rfl | rfl
      · exact ⟨rfl, Or.inl rfl⟩
      · exact ⟨rfl, Or.inr rfl⟩
    obtain ⟨h1, h2, h3⟩ := himg
    have h0 : zm.1 ≠ 0 := h2 (1, 0) (by simp [single])
    refine ⟨h1, h0, fun hd => hw ?_⟩
    have hnz : ‖zm.1‖ ^ 2 ≠ 0 := by simp [h0]
    have hd' : ‖zm.1‖ ^ 2 = 1 := by
      simp only [detJac1, norm_pow, Complex.norm_conj] at hd
      field_simp at hd
      linarith
    have hc : zm.1 * conj zm.1 = 1 := by
      rw [Complex.mul_conj, Complex.normSq_eq_norm_sq, hd']; simp
    have hcz : conj zm.1 ≠ 0 := by simpa using h0
    rw [← h3, ← lensEq1_eq, lensEq1]
    field_simp
    linear_combination hc
  generalize images1 w = l at key
  induction l with
  | nil => simp [NonFinite.sum, sumMag]
  | cons a l ih =>
    have h1 := key a List.mem_cons_self
    have ih' := ih fun zm hz => key zm (List.mem_cons_of_mem _ hz)
    rw [List.map_cons, NonFinite.sum, ih']
    have h2 : ¬ ‖conj a.1 ^ 2‖ = 0 := by simp [h1.2.1]
    have h3 : |detJac1 a.1| ≠ 0 := abs_ne_zero.mpr h1.2.2
    rw [if_neg h2, h1.1, recip, if_neg h3, mulMask, NonFinite.add]
    simp [sumMag, h1.1]

/-! ### A source off the caustics with a critical root that is not an image -/

/-- The equal-mass binary of separation two. -/
def nanU : UserParams := { s := 2, q := 1 }

theorem nanU_a : (midParams2 nanU).a = 1 := by simp [midParams2, nanU]
theorem nanU_e1 : (midParams2 nanU).e1 = 1 / 2 := by simp [midParams2, nanU]; norm_num
theorem nanU_x : xCM nanU = 0 := by simp [xCM, nanU]

/-- The cubic of the images has three real roots. -/
theorem nan_cubic (z : ℂ) (h : z ^ 3 + Real.sqrt 3 * z ^ 2 - 2 * z - Real.sqrt 3 = 0) : ∃ x : ℝ, z = x := by
  have h3r : Real.sqrt 3 ^ 2 = 3 := Real.sq_sqrt (by norm_num)
  have h3p : 0 < Real.sqrt 3 := Real.sqrt_pos.mpr (by norm_num)
  set f : ℝ → ℝ := fun x => x ^ 3 + Real.sqrt 3 * x ^ 2 - 2 * x - Real.sqrt 3 with hf
  have hfc : Continuous f := by rw [hf]; fun_prop
  have f1 : f (-Real.sqrt 3) = Real.sqrt 3 := by simp only [hf]; linear_combination 0 * h3r
  have f2 : f 0 = -Real.sqrt 3 := by simp [hf]
  have f3 : f (Real.sqrt 3) = 3 * Real.sqrt 3 := by simp only [hf]; linear_combination 2 * Real.sqrt 3 * h3r
  obtain ⟨a, ha, ha0⟩ := intermediate_value_Icc' (show -Real.sqrt 3 ≤ 0 by linarith) hfc.continuousOn
    (show (0 : ℝ) ∈ Set.Icc (f 0) (f (-Real.sqrt 3)) by rw [f1, f2]; constructor <;> linarith)
  obtain ⟨b, hb, hb0⟩ := intermediate_value_Icc (show 0 ≤ Real.sqrt 3 by linarith) hfc.continuousOn
    (show (0 : ℝ) ∈ Set.Icc (f 0) (f (Real.sqrt 3)) by rw [f2, f3]; constructor <;> linarith)
  have hab : (b : ℂ) - a ≠ 0 := by
    intro h
    have h' : b = a := by
      have := sub_eq_zero.mp h
      exact_mod_cast this
    have hb00 : b = 0 := le_antisymm (h' ▸ ha.2) hb.1
    rw [hb00, f2] at hb0
    linarith
  simp only [hf] at ha0 hb0
  have ha0c : (a : ℂ) ^ 3 + Real.sqrt 3 * a ^ 2 - 2 * a - Real.sqrt 3 = 0 := by exact_mod_cast ha0
  have hb0c : (b : ℂ) ^ 3 + Real.sqrt 3 * b ^ 2 - 2 * b - Real.sqrt 3 = 0 := by exact_mod_cast hb0
  have hfac : (z - a) * ((z - b) * (z + a + b + Real.sqrt 3)) = 0 := by
    refine (mul_eq_zero.mp (show ((b : ℂ) - a) * ((z - a) * ((z - b) * (z + a + b + Real.sqrt 3))) = 0 from ?_)).resolve_left hab
    linear_combination ((b : ℂ) - a) * h - (b - z) * ha0c - (z - a) * hb0c
  rcases mul_eq_zero.mp hfac with h | h
  · exact ⟨a, sub_eq_zero.mp h⟩
  · rcases mul_eq_zero.mp h with h | h
    · exact ⟨b, sub_eq_zero.mp h⟩
    · exact ⟨-a - b - Real.sqrt 3, by push_cast; linear_combination h⟩

/-- **C119 does not hold off the caustics**: for the equal-mass binary of separation two and the source at `-√3`, which has no
image on the critical curve, every root finder that returns all roots and whatever a complex division by zero gives,
`mag_point_source(w, nlenses=2, s=2, q=1)` is `nan`. -/
theorem C119_nan_violated (dz : DivZero) (roots : Option (List ℂ) → List ℂ → List ℂ)
    (hroots : ∀ cs : List ℂ, cs.headD 0 ≠ 0 → IsRootList cs (roots none cs)) :
    magPointSourceExt dz roots 2 nanU (-(Real.sqrt 3 : ℂ)) = .ok .nan ∧
    ∀ z, IsImage (binary 2 1) (-(Real.sqrt 3 : ℂ)) z → jacDet (lensMap (binary 2 1)) z ≠ 0 := by
  have h3 : (Real.sqrt 3 : ℂ) ^ 2 = 3 := sq3
  have h3r : Real.sqrt 3 ^ 2 = 3 := Real.sq_sqrt (by norm_num)
  have h3p : 0 < Real.sqrt 3 := Real.sqrt_pos.mpr (by norm_num)
  constructor
  · have hx : -(Real.sqrt 3 : ℂ) - (xCM nanU : ℂ) = -(Real.sqrt 3 : ℂ) := by rw [nanU_x]; simp
    have hne1 : (Real.sqrt 3 : ℂ) ≠ 1 := fun h => by rw [h] at h3; norm_num at h3
    have hne2 : (Real.sqrt 3 : ℂ) ≠ -1 := fun h => by rw [h] at h3; norm_num at h3
    obtain ⟨m, e, -, he, H⟩ := C119_binary dz roots hroots nanU (by norm_num [nanU]) (by norm_num [nanU])
      (-(Real.sqrt 3 : ℂ)) (by
        rw [hx, nanU_a]; intro h; exact hne2 (by push_cast at h; linear_combination -h)) (by
        rw [hx, nanU_a]; intro h; exact hne1 (by push_cast at h; linear_combination -h))
    rw [he, H.isNan.mpr]
    have hleq : lensEq2 (midParams2 nanU) = lensMap (midBinary (midParams2 nanU)) := funext (lensEq2_eq _)
    have hA : (Real.sqrt 3 : ℂ) - 1 ≠ 0 := sub_ne_zero.mpr hne1
    have hB : (Real.sqrt 3 : ℂ) + 1 ≠ 0 := fun h => hne2 (by linear_combination h)
    refine ⟨(Real.sqrt 3 : ℂ), ?_, ?_, ?_⟩
    · refine IsRootList.mem_of_eval_zero (hroots _ ?_) ?_ ?_
      · rw [(C04_binary_leading _ _ _).2, hx, nanU_a]; simp [h3]; norm_num
      · rw [(C04_binary_leading _ _ _).2, hx, nanU_a]; simp [h3]; norm_num
      · rw [hx, evalPoly_binary, nanU_a, nanU_e1]
        simp only [map_neg, conj_ofReal]
        push_cast
        linear_combination (Real.sqrt 3 : ℂ) ^ 3 * (2 * (Real.sqrt 3 : ℂ) ^ 2 - 3) * h3
    · rw [← hleq, ← (C03_det_binary _ _ (by rw [nanU_a]; exact_mod_cast hne1) (by rw [nanU_a]; exact_mod_cast hne2)).2]
      simp only [detJac2, nanU_a, nanU_e1, conj_ofReal]
      have : ((1 / 2 : ℝ) : ℂ) / ((Real.sqrt 3 : ℂ) - ((1 : ℝ) : ℂ)) ^ 2 +
          (1 - ((1 / 2 : ℝ) : ℂ)) / ((Real.sqrt 3 : ℂ) + ((1 : ℝ) : ℂ)) ^ 2 = 1 := by
        push_cast
        rw [div_add_div _ _ (pow_ne_zero 2 hA) (pow_ne_zero 2 hB), div_eq_one_iff_eq (mul_ne_zero (pow_ne_zero 2 hA)
          (pow_ne_zero 2 hB))]
        linear_combination -(Real.sqrt 3 : ℂ) ^ 2 * h3
      rw [this]; simp
    · rw [← hleq, hx]
      have : lensEq2 (midParams2 nanU) (Real.sqrt 3 : ℂ) - -(Real.sqrt 3 : ℂ) = ((3 / 2 * Real.sqrt 3 : ℝ) : ℂ) := by
        simp only [lensEq2, nanU_a, nanU_e1, conj_ofReal]
        push_cast
        have e : 1 / 2 / ((Real.sqrt 3 : ℂ) - 1) + (1 - 1 / 2) / ((Real.sqrt 3 : ℂ) + 1) = (Real.sqrt 3 : ℂ) / 2 := by
          rw [div_add_div _ _ hA hB, div_eq_iff (mul_ne_zero hA hB)]
          linear_combination -(Real.sqrt 3 : ℂ) / 2 * h3
        linear_combination -e
      rw [this, Complex.norm_real, Real.norm_of_nonneg (by positivity)]
      have : 1 ≤ Real.sqrt 3 := by rw [Real.one_le_sqrt]; norm_num
      norm_num
      linarith
  · intro z hz h0
    have hfr := (C08_binary_frame nanU (by norm_num [nanU])).1
    have hb : binary nanU.s nanU.q = binary 2 1 := rfl
    rw [← hb, ← hfr] at hz h0
    obtain ⟨h1, h2⟩ := critical_translate _ _ _ _ hz h0
    rw [nanU_x] at h1 h2
    simp only [Complex.ofReal_zero, sub_zero] at h1 h2
    have l1 : z ≠ 1 := by
      have := h1.1 ((midParams2 nanU).e1, ((midParams2 nanU).a : ℂ)) (by simp [midBinary])
      rw [nanU_a] at this; exact_mod_cast this
    have l2 : z ≠ -1 := by
      have := h1.1 (1 - (midParams2 nanU).e1, -((midParams2 nanU).a : ℂ)) (by simp [midBinary])
      rw [nanU_a] at this; exact_mod_cast this
    have hleq : lensEq2 (midParams2 nanU) = lensMap (midBinary (midParams2 nanU)) := funext (lensEq2_eq _)
    have hP := C04_binary_complete (midParams2 nanU) (-(Real.sqrt 3 : ℂ)) z (by rw [nanU_a]; exact_mod_cast l1)
      (by rw [nanU_a]; exact_mod_cast l2) (by rw [hleq]; exact h1.2)
    rw [evalPoly_binary, nanU_a, nanU_e1] at hP
    simp only [map_neg, conj_ofReal] at hP
    push_cast at hP
    have hleqv : lensEq2 (midParams2 nanU) z = -(Real.sqrt 3 : ℂ) := by rw [hleq]; exact h1.2
    have hdet : detJac2 (midParams2 nanU) z = 0 := by
      rw [(C03_det_binary _ z (by rw [nanU_a]; exact_mod_cast l1) (by rw [nanU_a]; exact_mod_cast l2)).2, hleq]; exact h2
    have hfac : (z - Real.sqrt 3) * (z + Real.sqrt 3 / 2) * (z ^ 3 + Real.sqrt 3 * z ^ 2 - 2 * z - Real.sqrt 3) = 0 := by
      linear_combination hP / 2 + ((1 / 2) * z ^ 2 * (Real.sqrt 3 : ℂ) - (1 / 2) * z ^ 4 * (Real.sqrt 3 : ℂ) + z ^ 3
        - (1 / 2) * z ^ 5) * h3
    have hreal : ∃ x : ℝ, z = x := by
      rcases mul_eq_zero.mp hfac with h | h
      · rcases mul_eq_zero.mp h with h | h
        · exact ⟨Real.sqrt 3, sub_eq_zero.mp h⟩
        · exact ⟨-(Real.sqrt 3 / 2), by push_cast; linear_combination h⟩
      · exact nan_cubic z h
    obtain ⟨x, rfl⟩ := hreal
    have x1 : x - 1 ≠ 0 := fun h => l1 (by rw [sub_eq_zero.mp h]; norm_num)
    have x2 : x + 1 ≠ 0 := fun h => l2 (by rw [eq_neg_of_add_eq_zero_left h]; norm_num)
    -- the lens equation and the critical equation on the axis
    have k1 : x - 1 / 2 / (x - 1) - (1 - 1 / 2) / (x + 1) = -Real.sqrt 3 := by
      simp only [lensEq2, nanU_a, nanU_e1, conj_ofReal] at hleqv
      exact_mod_cast hleqv
    have k2 : (1 / 2 / (x - 1) ^ 2 + (1 - 1 / 2) / (x + 1) ^ 2) ^ 2 = 1 := by
      simp only [detJac2, nanU_a, nanU_e1, conj_ofReal] at hdet
      have e : ((1 / 2 : ℝ) : ℂ) / ((x : ℂ) - ((1 : ℝ) : ℂ)) ^ 2 + (1 - ((1 / 2 : ℝ) : ℂ)) / ((x : ℂ) + ((1 : ℝ) : ℂ)) ^ 2 =
          ((1 / 2 / (x - 1) ^ 2 + (1 - 1 / 2) / (x + 1) ^ 2 : ℝ) : ℂ) := by push_cast; ring
      rw [e, Complex.norm_real, Real.norm_eq_abs, sq_abs] at hdet
      linarith
    have k3 : 1 / 2 / (x - 1) ^ 2 + (1 - 1 / 2) / (x + 1) ^ 2 = 1 := by
      have hp : 0 ≤ 1 / 2 / (x - 1) ^ 2 + (1 - 1 / 2) / (x + 1) ^ 2 := by
        have : (0 : ℝ) ≤ 1 - 1 / 2 := by norm_num
        positivity
      nlinarith
    have k4 : x ^ 2 * (x ^ 2 - 3) = 0 := by
      rw [div_add_div _ _ (pow_ne_zero 2 x1) (pow_ne_zero 2 x2), div_eq_one_iff_eq (mul_ne_zero (pow_ne_zero 2 x1)
          (pow_ne_zero 2 x2))] at k3
      linear_combination -k3
    have k5 : x * (x ^ 2 - 1) - x = -Real.sqrt 3 * (x ^ 2 - 1) := by
      have : 1 / 2 / (x - 1) + (1 - 1 / 2) / (x + 1) = x / (x ^ 2 - 1) := by
        have h : x ^ 2 - 1 = (x - 1) * (x + 1) := by ring
        rw [h]; field_simp; ring
      have h4 : x ^ 2 - 1 ≠ 0 := by
        have h : x ^ 2 - 1 = (x - 1) * (x + 1) := by ring
        rw [h]; exact mul_ne_zero x1 x2
      have h5 : x - x / (x ^ 2 - 1) = -Real.sqrt 3 := by linarith
      field_simp at h5
      linear_combination h5
    rcases mul_eq_zero.mp k4 with h | h
    · have : x = 0 := by simpa using h
      rw [this] at k5; nlinarith
    · have h5 : x ^ 2 = 3 := by linarith
      rw [h5] at k5
      nlinarith

/-! ### Concrete cases -/

/-- One lens: the value at `1` is a number. -/
example (dz : DivZero) (roots) : ∃ m, magPointSourceExt dz roots 1 nanU 1 = .ok (.fin m) := by
  obtain ⟨m, -, h⟩ := (C119_single dz roots nanU 1).1 one_ne_zero
  exact ⟨m, h⟩

/-- All five roots of the source at the centre of the equal-mass binary of unit separation are images: the value is a number. -/
example (dz : DivZero) : ∃ roots, magPointSourceExt dz roots 2 exU 0 = .ok (.fin (pointMag (binary 1 1) 0)) := by
  obtain ⟨roots, hroots⟩ := exists_finder
  have hx : (0 : ℂ) - (xCM exU : ℂ) = 0 := by rw [exU_x]; simp
  have hperm : (codeRoots2 (fun _ => roots) exU 0).Perm exRoots := by
    have hh : (polyCoeffsBinary 0 (midParams2 exU).a (midParams2 exU).e1).headD 0 ≠ 0 := by
      rw [(C04_binary_leading _ _ _).2, exU_a]; norm_num
    have h := hroots _ hh
    rw [codeRoots2, hx]
    apply perm_of_prod_eq
    intro y
    have h3 := h y
    rw [exRoots_isRootList y] at h3
    exact (mul_left_cancel₀ hh h3).symm
  have himg : ∀ z ∈ codeRoots2 (fun _ => roots) exU 0, lensEq2 (midParams2 exU) z = 0 - xCM exU := fun z hz => by
    rw [hx]; exact (exRoots_images z (hperm.mem_iff.mp hz)).1
  exact ⟨fun _ => roots, C119_binary_regular_partial dz (fun _ => roots) hroots exU (by norm_num [exU]) (by norm_num [exU]) 0
    (by rw [hx, exU_a]; norm_num) (by rw [hx, exU_a]; norm_num) (hperm.nodup_iff.mpr exRoots_nodup)
    (fun z hz _ => himg z hz) (fun z hz h => absurd (himg z hz) h)⟩

/-- A source on the caustic of the equal-mass binary of separation two: its image `√3` is critical. -/
example (dz : DivZero) : ∃ roots, magPointSourceExt dz roots 2 nanU ((Real.sqrt 3 / 2 : ℝ) : ℂ) = .ok .inf ∨
    magPointSourceExt dz roots 2 nanU ((Real.sqrt 3 / 2 : ℝ) : ℂ) = .ok .nan := by
  obtain ⟨roots, hroots⟩ := exists_finder
  have h3 : (Real.sqrt 3 : ℂ) ^ 2 = 3 := sq3
  have h3r : Real.sqrt 3 ^ 2 = 3 := Real.sq_sqrt (by norm_num)
  have h3p : 0 < Real.sqrt 3 := Real.sqrt_pos.mpr (by norm_num)
  have hx : ((Real.sqrt 3 / 2 : ℝ) : ℂ) - (xCM nanU : ℂ) = ((Real.sqrt 3 / 2 : ℝ) : ℂ) := by rw [nanU_x]; simp
  have hne1 : (Real.sqrt 3 : ℂ) ≠ 1 := fun h => by rw [h] at h3; norm_num at h3
  have hne2 : (Real.sqrt 3 : ℂ) ≠ -1 := fun h => by rw [h] at h3; norm_num at h3
  have hA : (Real.sqrt 3 : ℂ) - 1 ≠ 0 := sub_ne_zero.mpr hne1
  have hB : (Real.sqrt 3 : ℂ) + 1 ≠ 0 := fun h => hne2 (by linear_combination h)
  have himg : IsImage (binary nanU.s nanU.q) ((Real.sqrt 3 / 2 : ℝ) : ℂ) (Real.sqrt 3 : ℂ) := by
    refine ⟨?_, ?_⟩
    · intro l hl
      simp only [binary, nanU, List.mem_cons, List.not_mem_nil, or_false] at hl
      rcases hl with rfl | rfl
      · norm_num
      · norm_num; exact_mod_cast hne2
    · simp only [lensMap, binary, nanU, List.map_cons, List.map_nil, List.sum_cons, List.sum_nil, conj_ofReal]
      push_cast
      norm_num
      have e : 1 / 2 / ((Real.sqrt 3 : ℂ) - 1) + 1 / 2 / ((Real.sqrt 3 : ℂ) + 1) = (Real.sqrt 3 : ℂ) / 2 := by
        rw [div_add_div _ _ hA hB, div_eq_iff (mul_ne_zero hA hB)]
        linear_combination -(Real.sqrt 3 : ℂ) / 2 * h3
      linear_combination -e
  refine ⟨fun _ => roots, C119_binary_caustic dz (fun _ => roots) hroots nanU (by norm_num [nanU]) (by norm_num [nanU])
    ((Real.sqrt 3 / 2 : ℝ) : ℂ) ?_ ?_ ⟨(Real.sqrt 3 : ℂ), himg, ?_⟩⟩
  · rw [hx, nanU_a]
    intro h
    have h' : Real.sqrt 3 / 2 = 1 := by exact_mod_cast h
    nlinarith
  · rw [hx, nanU_a]
    intro h
    have h' : Real.sqrt 3 / 2 = -1 := by exact_mod_cast h
    linarith
  · rw [(jacDet_lensMap _ _ himg.1).2]
    simp only [binary, nanU, List.map_cons, List.map_nil, List.sum_cons, List.sum_nil, conj_ofReal]
    push_cast
    norm_num
    have e : 1 / 2 / ((Real.sqrt 3 : ℂ) - 1) ^ 2 + 1 / 2 / ((Real.sqrt 3 : ℂ) + 1) ^ 2 = 1 := by
      rw [div_add_div _ _ (pow_ne_zero 2 hA) (pow_ne_zero 2 hB), div_eq_one_iff_eq (mul_ne_zero (pow_ne_zero 2 hA)
        (pow_ne_zero 2 hB))]
      linear_combination -(Real.sqrt 3 : ℂ) ^ 2 * h3
    norm_num at e
    rw [e]; simp

/-- Two equal lenses at `±1` and a third, eight times as heavy, half-way. -/
def nanU3 : UserParams := { s := 2, q := 1, q3 := 8, r3 := 0, psi := 0 }

theorem nanU3_a : (midParams3 nanU3).a = 1 := by simp [midParams3, nanU3]
theorem nanU3_r : r3Complex (midParams3 nanU3) = 0 := by simp [r3Complex, midParams3, nanU3]
theorem nanU3_x : xCM nanU3 = 0 := by simp [xCM, nanU3]

example (dz : DivZero) : ∃ roots m e, magPointSource roots 3 nanU3 5 = .ok m ∧ magPointSourceExt dz roots 3 nanU3 5 = .ok e ∧
    Classified (midTriple (midParams3 nanU3)) (1 / 10 ^ 3) (5 - xCM nanU3) (codeRoots3 roots nanU3 5) m e := by
  obtain ⟨roots, hroots⟩ := exists_finder
  exact ⟨fun _ => roots, C119_triple dz (fun _ => roots) hroots nanU3 (by norm_num [nanU3]) (by norm_num [nanU3])
    (by norm_num [nanU3]) 5 (by rw [nanU3_r, nanU3_a]; norm_num) (by rw [nanU3_r, nanU3_a]; norm_num)
    (by rw [nanU3_x, nanU3_a]; norm_num) (by rw [nanU3_x, nanU3_a]; norm_num [neg_eq_iff_add_eq_zero])
    (by rw [nanU3_x, nanU3_r]; norm_num)⟩

example (dz : DivZero) : ∃ roots, magPointSourceExt dz roots 3 nanU3 ((2 / 5 * Real.sqrt 2 : ℝ) : ℂ) = .ok .inf ∨
    magPointSourceExt dz roots 3 nanU3 ((2 / 5 * Real.sqrt 2 : ℝ) : ℂ) = .ok .nan := by
  obtain ⟨roots, hroots⟩ := exists_finder
  have h2r : Real.sqrt 2 ^ 2 = 2 := Real.sq_sqrt (by norm_num)
  have h2 : (Real.sqrt 2 : ℂ) ^ 2 = 2 := by exact_mod_cast h2r
  have h2p : 0 < Real.sqrt 2 := Real.sqrt_pos.mpr (by norm_num)
  have hx : ((2 / 5 * Real.sqrt 2 : ℝ) : ℂ) - (xCM nanU3 : ℂ) = ((2 / 5 * Real.sqrt 2 : ℝ) : ℂ) := by rw [nanU3_x]; simp
  have hne1 : (Real.sqrt 2 : ℂ) ≠ 1 := fun h => by rw [h] at h2; norm_num at h2
  have hne2 : (Real.sqrt 2 : ℂ) ≠ -1 := fun h => by rw [h] at h2; norm_num at h2
  have hC : (Real.sqrt 2 : ℂ) ≠ 0 := fun h => by rw [h] at h2; norm_num at h2
  have hA : (Real.sqrt 2 : ℂ) - 1 ≠ 0 := sub_ne_zero.mpr hne1
  have hB : (Real.sqrt 2 : ℂ) + 1 ≠ 0 := fun h => hne2 (by linear_combination h)
  have himg : IsImage (triple nanU3.s nanU3.q nanU3.q3 nanU3.r3 nanU3.psi) ((2 / 5 * Real.sqrt 2 : ℝ) : ℂ)
      (Real.sqrt 2 : ℂ) := by
    refine ⟨?_, ?_⟩
    · intro l hl
      simp only [triple, nanU3, List.mem_cons, List.not_mem_nil, or_false] at hl
      rcases hl with rfl | rfl | rfl
      · norm_num
      · norm_num; exact_mod_cast hne2
      · norm_num
    · simp only [lensMap, triple, nanU3, List.map_cons, List.map_nil, List.sum_cons, List.sum_nil, conj_ofReal]
      push_cast
      norm_num
      have e : 1 / 10 / ((Real.sqrt 2 : ℂ) - 1) + (1 / 10 / ((Real.sqrt 2 : ℂ) + 1) + 4 / 5 / (Real.sqrt 2 : ℂ)) =
          3 / 5 * (Real.sqrt 2 : ℂ) := by
        have e1 : 1 / 10 / ((Real.sqrt 2 : ℂ) - 1) + 1 / 10 / ((Real.sqrt 2 : ℂ) + 1) = (Real.sqrt 2 : ℂ) / 5 := by
          rw [div_add_div _ _ hA hB, div_eq_iff (mul_ne_zero hA hB)]
          linear_combination -(Real.sqrt 2 : ℂ) / 5 * h2
        have e2 : 4 / 5 / (Real.sqrt 2 : ℂ) = 2 / 5 * (Real.sqrt 2 : ℂ) := by
          rw [div_eq_iff hC]; linear_combination -(2 / 5 : ℂ) * h2
        linear_combination e1 + e2
      linear_combination -e
  refine ⟨fun _ => roots, C119_triple_caustic dz (fun _ => roots) hroots nanU3 (by norm_num [nanU3]) (by norm_num [nanU3])
    (by norm_num [nanU3]) ((2 / 5 * Real.sqrt 2 : ℝ) : ℂ) (by rw [nanU3_r, nanU3_a]; norm_num)
    (by rw [nanU3_r, nanU3_a]; norm_num) ?_ ?_ ?_ ⟨(Real.sqrt 2 : ℂ), himg, ?_⟩⟩
  · rw [hx, nanU3_a]
    intro h
    have h' : 2 / 5 * Real.sqrt 2 = 1 := by exact_mod_cast h
    nlinarith
  · rw [hx, nanU3_a]
    intro h
    have h' : 2 / 5 * Real.sqrt 2 = -1 := by exact_mod_cast h
    linarith
  · rw [hx, nanU3_r, Complex.ofReal_ne_zero]
    positivity
  · rw [(jacDet_lensMap _ _ himg.1).2]
    simp only [triple, nanU3, List.map_cons, List.map_nil, List.sum_cons, List.sum_nil, conj_ofReal]
    push_cast
    norm_num
    have e : 1 / 10 / ((Real.sqrt 2 : ℂ) - 1) ^ 2 + (1 / 10 / ((Real.sqrt 2 : ℂ) + 1) ^ 2 + 4 / 5 / (Real.sqrt 2 : ℂ) ^ 2) =
        1 := by
      have e1 : 1 / 10 / ((Real.sqrt 2 : ℂ) - 1) ^ 2 + 1 / 10 / ((Real.sqrt 2 : ℂ) + 1) ^ 2 = 3 / 5 := by
        rw [div_add_div _ _ (pow_ne_zero 2 hA) (pow_ne_zero 2 hB), div_eq_iff (mul_ne_zero (pow_ne_zero 2 hA)
          (pow_ne_zero 2 hB))]
        linear_combination (-(3 / 5) * (Real.sqrt 2 : ℂ) ^ 2 + 1 / 5) * h2
      rw [h2]
      linear_combination e1
    norm_num at e
    rw [h2] at e ⊢
    norm_num at e ⊢
    rw [e]; simp

end Microjax.Props
