import Verif.Props.NonFinite

/-!
# C119 for every root finder

What `mag_point_source` returns for whatever finite numbers the root finder yields, also at the positions of the lenses (the
source exactly behind a lens makes the leading coefficient vanish, so nothing is known of the roots).
-/

noncomputable section

namespace Microjax.Props

open Complex ComplexConjugate Microjax.PointSource Microjax.Spec Microjax.NonFinite

open Classical in
/-- What the returned value `e` is, for lenses `L`, a source at `w` and arbitrary candidates `zs`; `dz` is what a complex
division by zero gives. -/
structure ClassifiedAny (dz : DivZero) (L : Lenses) (tol : ℝ) (w : ℂ) (zs : List ℂ) (e : Ext) : Prop where
  isNan : e = .nan ↔ (dz = .nan ∧ ∃ z ∈ zs, ∃ l ∈ L, z = l.2) ∨
    ∃ z ∈ zs, (∀ l ∈ L, z ≠ l.2) ∧ jacDet (lensMap L) z = 0 ∧ tol ≤ ‖lensMap L z - w‖
  isInf : e = .inf ↔ e ≠ .nan ∧ ∃ z ∈ zs, (∀ l ∈ L, z ≠ l.2) ∧ jacDet (lensMap L) z = 0
  isFin : ∀ x, e = .fin x → x = (zs.map fun z =>
    if (∀ l ∈ L, z ≠ l.2) ∧ ‖lensMap L z - w‖ < tol then 1 / |jacDet (lensMap L) z| else 0).sum

/-- What a candidate at a lens contributes. -/
def atLens : DivZero → Ext
  | .inf => .fin 0
  | .nan => .nan

theorem term_on (dz : DivZero) (on : ℂ → Prop) [DecidablePred on] (leq : ℂ → ℂ) (det : ℂ → ℝ) (tol : ℝ) (w z : ℂ)
    (h : on z) : mulMask (recip (absDet dz on det z)) (mask on leq tol w z) =
      atLens dz := by
  cases dz <;> simp [atLens, absDet, mask, h, recip, mulMask, DivZero.toExt]

theorem sumExt_any (dz : DivZero) (on : ℂ → Prop) [DecidablePred on] (L : Lenses) (leq : ℂ → ℂ) (det : ℂ → ℝ)
    (tol : ℝ) (w : ℂ) (zs : List ℂ) (hon : ∀ z, on z ↔ ∃ l ∈ L, z = l.2) (hleq : ∀ z, leq z = lensMap L z)
    (hdet : ∀ z, (∀ l ∈ L, z ≠ l.2) → det z = jacDet (lensMap L) z) :
    ClassifiedAny dz L tol w zs (sumExt dz on leq det tol w zs) := by
  classical
  set f : ℂ → Ext := fun z => mulMask (recip (absDet dz on det z)) (mask on leq tol w z) with hf
  have hoff : ∀ z, ¬ on z ↔ ∀ l ∈ L, z ≠ l.2 := fun z => by rw [hon]; push Not; rfl
  have h1 : ∀ z, on z → f z = atLens dz := fun z hz => term_on dz on leq det tol w z hz
  have h2 : ∀ z, ¬ on z → f z = if jacDet (lensMap L) z = 0 then (if ‖lensMap L z - w‖ < tol then .inf else .nan)
      else .fin (1 / |jacDet (lensMap L) z| * if ‖lensMap L z - w‖ < tol then 1 else 0) := fun z hz => by
    rw [← hdet z ((hoff z).mp hz), ← hleq]
    exact term_off dz on leq det tol w z hz
  have hnan : Ext.nan ∈ zs.map f ↔ (dz = .nan ∧ ∃ z ∈ zs, ∃ l ∈ L, z = l.2) ∨
      ∃ z ∈ zs, (∀ l ∈ L, z ≠ l.2) ∧ jacDet (lensMap L) z = 0 ∧ tol ≤ ‖lensMap L z - w‖ := by
    rw [List.mem_map]
    constructor
    · rintro ⟨z, hz, he⟩
      by_cases ho : on z
      · rw [h1 z ho] at he
        cases dz
        · simp [atLens] at he
        · exact Or.inl ⟨rfl, z, hz, (hon z).mp ho⟩
      · rw [h2 z ho] at he
        split_ifs at he with g1 g2
        exact Or.inr ⟨z, hz, (hoff z).mp ho, g1, not_lt.mp g2⟩
    · rintro (⟨rfl, z, hz, hl⟩ | ⟨z, hz, hl, g1, g2⟩)
      · exact ⟨z, hz, by rw [h1 z ((hon z).mpr hl)]; rfl⟩
      · exact ⟨z, hz, by rw [h2 z ((hoff z).mpr hl), if_pos g1, if_neg (not_lt.mpr g2)]⟩
  have hinf : Ext.inf ∈ zs.map f ↔
      ∃ z ∈ zs, (∀ l ∈ L, z ≠ l.2) ∧ jacDet (lensMap L) z = 0 ∧ ‖lensMap L z - w‖ < tol := by
    rw [List.mem_map]
    constructor
    · rintro ⟨z, hz, he⟩
      by_cases ho : on z
      · rw [h1 z ho] at he
        cases dz <;> simp [atLens] at he
      · rw [h2 z ho] at he
        split_ifs at he with g1 g2
        exact ⟨z, hz, (hoff z).mp ho, g1, g2⟩
    · rintro ⟨z, hz, hl, g1, g2⟩
      exact ⟨z, hz, by rw [h2 z ((hoff z).mpr hl), if_pos g1, if_pos g2]⟩
  refine ⟨(sum_nan _).trans hnan, ?_, ?_⟩
  · refine (sum_inf _).trans ?_
    have e1 : sumExt dz on leq det tol w zs ≠ .nan ↔ Ext.nan ∉ zs.map f := not_congr (sum_nan _)
    rw [e1]
    refine and_congr_right fun hn => hinf.trans ⟨fun ⟨z, hz, hl, g1, _⟩ => ⟨z, hz, hl, g1⟩, fun ⟨z, hz, hl, g1⟩ =>
      ⟨z, hz, hl, g1, not_le.mp fun g2 => hn (hnan.mpr (Or.inr ⟨z, hz, hl, g1, g2⟩))⟩⟩
  · intro x hx
    have hn : Ext.nan ∉ zs.map f := fun h => by
      have : sumExt dz on leq det tol w zs = .nan := (sum_nan _).mpr h
      rw [this] at hx; cases hx
    have hi : Ext.inf ∉ zs.map f := fun h => by
      have : sumExt dz on leq det tol w zs = .inf := (sum_inf _).mpr ⟨hn, h⟩
      rw [this] at hx; cases hx
    have hs := sum_fin zs f (fun z => if (∀ l ∈ L, z ≠ l.2) ∧ ‖lensMap L z - w‖ < tol then 1 / |jacDet (lensMap L) z| else 0)
      (fun z hz => by
        by_cases ho : on z
        · have h0 : ¬ ((∀ l ∈ L, z ≠ l.2) ∧ ‖lensMap L z - w‖ < tol) := fun h => (hoff z).mpr h.1 ho
          rw [if_neg h0, h1 z ho]
          cases dz
          · rfl
          · exact absurd (List.mem_map.mpr ⟨z, hz, h1 z ho⟩) hn
        · have g : jacDet (lensMap L) z ≠ 0 := fun g => by
            by_cases g2 : ‖lensMap L z - w‖ < tol
            · exact hi (hinf.mpr ⟨z, hz, (hoff z).mp ho, g, g2⟩)
            · exact hn (hnan.mpr (Or.inr ⟨z, hz, (hoff z).mp ho, g, not_lt.mp g2⟩))
          rw [h2 z ho, if_neg g]
          by_cases g2 : ‖lensMap L z - w‖ < tol
          · rw [if_pos g2, if_pos ⟨(hoff z).mp ho, g2⟩, mul_one]
          · rw [if_neg g2, if_neg fun h => g2 h.2, mul_zero])
    have : sumExt dz on leq det tol w zs = .fin _ := hs
    rw [this] at hx
    exact (Ext.fin.inj hx).symm

/-- **C119, binary, every root finder**: for every binary, every source (also one exactly behind a lens) and whatever finite
numbers the root finder returns: the value is `nan` if and only if a candidate is at a lens and the division by zero there gives
`nan`, or a candidate that fails the test of the mask lies on the critical curve; `inf` if and only if it is not `nan` and a
candidate lies on the critical curve; a number is the sum of `1/|det J|` over the candidates off the lenses that pass. -/
theorem C119_binary_any (dz : DivZero) (roots : Option (List ℂ) → List ℂ → List ℂ) (u : UserParams) (w : ℂ) :
    ∃ e, magPointSourceExt dz roots 2 u w = .ok e ∧
      ClassifiedAny dz (midBinary (midParams2 u)) (1 / 10 ^ 6) (w - xCM u) (codeRoots2 roots u w) e := by
  classical
  refine ⟨_, by simp only [magPointSourceExt, if_neg (show ¬ (2 : ℕ) = 1 by norm_num), if_true]; rfl, ?_⟩
  have hpos : ∀ z, (∀ l ∈ midBinary (midParams2 u), z ≠ l.2) ↔ z ≠ (midParams2 u).a ∧ z ≠ -((midParams2 u).a : ℂ) := fun z => by
    simp [midBinary]
  refine sumExt_any dz (onLens2 (midParams2 u)) (midBinary (midParams2 u)) (lensEq2 (midParams2 u))
    (detJac2 (midParams2 u)) (1 / 10 ^ 6) (w - xCM u) (codeRoots2 roots u w) ?_ (lensEq2_eq _) ?_
  · intro z
    rw [← not_iff_not]
    push Not
    rw [hpos z]
    constructor
    · intro h
      refine ⟨fun hz => h (Or.inl ?_), fun hz => h (Or.inr ?_)⟩ <;> simp [hz]
    · rintro ⟨h1, h2⟩ (h | h)
      · refine h1 ?_
        have := congrArg conj (sub_eq_zero.mp h)
        simpa using this
      · refine h2 ?_
        have := congrArg conj (eq_neg_of_add_eq_zero_left h)
        simpa using this
  · intro z hz
    obtain ⟨h1, h2⟩ := (hpos z).mp hz
    rw [(C03_det_binary _ z h1 h2).2, show lensEq2 (midParams2 u) = _ from funext (lensEq2_eq _)]

/-- **C119, triple, every root finder.** -/
theorem C119_triple_any (dz : DivZero) (roots : Option (List ℂ) → List ℂ → List ℂ) (u : UserParams) (w : ℂ) :
    ∃ e, magPointSourceExt dz roots 3 u w = .ok e ∧
      ClassifiedAny dz (midTriple (midParams3 u)) (1 / 10 ^ 3) (w - xCM u) (codeRoots3 roots u w) e := by
  classical
  refine ⟨_, by simp only [magPointSourceExt, if_neg (show ¬ (3 : ℕ) = 1 by norm_num),
      if_neg (show ¬ (3 : ℕ) = 2 by norm_num), if_true]; rfl, ?_⟩
  have hpos : ∀ z, (∀ l ∈ midTriple (midParams3 u), z ≠ l.2) ↔ z ≠ (midParams3 u).a ∧ z ≠ -((midParams3 u).a : ℂ) ∧
      z ≠ r3Complex (midParams3 u) := fun z => by simp [midTriple]
  refine sumExt_any dz (onLens3 (midParams3 u)) (midTriple (midParams3 u)) (lensEq3 (midParams3 u))
    (detJac3 (midParams3 u)) (1 / 10 ^ 3) (w - xCM u) (codeRoots3 roots u w) ?_ (lensEq3_eq _) ?_
  · intro z
    rw [← not_iff_not]
    push Not
    rw [hpos z]
    constructor
    · intro h
      refine ⟨fun hz => h (Or.inl ?_), fun hz => h (Or.inr (Or.inl ?_)), fun hz => h (Or.inr (Or.inr ?_))⟩ <;> simp [hz]
    · rintro ⟨h1, h2, h3⟩ (h | h | h)
      · refine h1 ?_
        have := congrArg conj (sub_eq_zero.mp h)
        simpa using this
      · refine h2 ?_
        have := congrArg conj (eq_neg_of_add_eq_zero_left h)
        simpa using this
      · exact h3 ((starRingEnd ℂ).injective (sub_eq_zero.mp h))
  · intro z hz
    obtain ⟨h1, h2, h3⟩ := (hpos z).mp hz
    rw [(C03_det_triple _ z h1 h2 h3).2, show lensEq3 (midParams3 u) = _ from funext (lensEq3_eq _)]

/-- A case for `C119_binary_any`: a source exactly behind the right lens of the equal-mass binary of separation two, and a root
finder that returns the position of this lens five times: `nan` if the division by zero gives `nan`, zero if it gives `inf`. -/
example : magPointSourceExt .nan (fun _ _ => List.replicate 5 1) 2 nanU 1 = .ok .nan ∧
    magPointSourceExt .inf (fun _ _ => List.replicate 5 1) 2 nanU 1 = .ok (.fin 0) := by
  have hmem : ∀ z ∈ codeRoots2 (fun _ _ => List.replicate 5 1) nanU 1, z = 1 := fun z hz => List.eq_of_mem_replicate hz
  have h1 : (1 : ℂ) ∈ codeRoots2 (fun _ _ => List.replicate 5 1) nanU 1 := by simp [codeRoots2]
  have hl : ((midParams2 nanU).e1, (1 : ℂ)) ∈ midBinary (midParams2 nanU) := by
    simp [midBinary, nanU_a]
  constructor
  · obtain ⟨e, he, H⟩ := C119_binary_any .nan (fun _ _ => List.replicate 5 1) nanU 1
    rw [he, H.isNan.mpr (Or.inl ⟨rfl, 1, h1, _, hl, rfl⟩)]
  · obtain ⟨e, he, H⟩ := C119_binary_any .inf (fun _ _ => List.replicate 5 1) nanU 1
    rw [he]
    have hoff : ∀ z ∈ codeRoots2 (fun _ _ => List.replicate 5 1) nanU 1, ¬ ∀ l ∈ midBinary (midParams2 nanU), z ≠ l.2 :=
      fun z hz h => h _ hl (hmem z hz)
    cases e with
    | nan =>
      rcases H.isNan.mp rfl with ⟨h, -⟩ | ⟨z, hz, h, -⟩
      · cases h
      · exact absurd h (hoff z hz)
    | inf =>
      obtain ⟨-, z, hz, h, -⟩ := H.isInf.mp rfl
      exact absurd h (hoff z hz)
    | fin x =>
      rw [H.isFin x rfl, List.sum_eq_zero]
      intro y hy
      obtain ⟨z, hz, rfl⟩ := List.mem_map.mp hy
      rw [if_neg fun h => hoff z hz h.1]

end Microjax.Props
