import Verif.Lemmas.ImageIndex
import Verif.Lemmas.Fermat
import Verif.Props.PointSource
import Mathlib.Data.List.OfFn
import Mathlib.Algebra.BigOperators.Fin
import Mathlib.Data.Fintype.Prod

/-! # Complexified solutions and the roots of the image polynomials -/

noncomputable section

namespace Microjax.Props

open Complex ComplexConjugate Spec PointSource Filter
open scoped Topology

variable {n : ℕ}

/-- The lens system with masses `m` at the positions `c`. -/
def lensList (m : Fin n → ℝ) (c : Fin n → ℂ) : Lenses := List.ofFn fun i => (m i, c i)

theorem lensMap_lensList (m : Fin n → ℝ) (c : Fin n → ℂ) (z : ℂ) :
    lensMap (lensList m c) z = z - ∑ i, (m i : ℂ) / (conj z - conj (c i)) := by
  simp [lensMap, lensList, List.map_ofFn, List.sum_ofFn]

theorem detFormula_lensList (m : Fin n → ℝ) (c : Fin n → ℂ) (z : ℂ) :
    detFormula (lensList m c) z = 1 - ‖∑ i, (m i : ℂ) / (conj z - conj (c i)) ^ 2‖ ^ 2 := by
  simp [detFormula, lensList, List.map_ofFn, List.sum_ofFn]

theorem isImage_iff_dual (m : Fin n → ℝ) (c : Fin n → ℂ) (w z : ℂ) :
    IsImage (lensList m c) w z ↔ DualSol m c w z ∧ dualConj m c w z = z := by
  have hpos : (∀ l ∈ lensList m c, z ≠ l.2) ↔ ∀ i, z ≠ c i := by
    simp [lensList]
  unfold IsImage
  rw [hpos, lensMap_lensList]
  constructor
  · rintro ⟨h1, h2⟩
    have hy : dualOf m c w z = conj z := by
      rw [dualOf, ← h2]
      simp
    refine ⟨⟨h1, fun i e => h1 i ?_, ?_⟩, by rw [dualConj, hy, Complex.conj_conj]⟩
    · rw [hy] at e; exact (starRingEnd ℂ).injective e
    · rw [hy]; linear_combination h2
  · rintro ⟨h, e⟩
    have hy : dualOf m c w z = conj z := by
      rw [← e, dualConj, Complex.conj_conj, ← dualConj, e]
    refine ⟨h.hz, ?_⟩
    have := h.ez
    rw [hy] at this
    linear_combination this

theorem dualDet_image (m : Fin n → ℝ) (c : Fin n → ℂ) (w z : ℂ) (e : dualConj m c w z = z) :
    dualDet m c w z = (detFormula (lensList m c) z : ℝ) := by
  have hy : dualOf m c w z = conj z := by
    rw [← e, dualConj, Complex.conj_conj, ← dualConj, e]
  rw [detFormula_lensList, dualDet, hy, Complex.ofReal_sub, Complex.ofReal_one]
  congr 1
  rw [← Complex.normSq_eq_norm_sq, ← Complex.mul_conj, mul_comm]
  simp

/-- What the eliminated equation demands of `z`. -/
def dualRes (m : Fin n → ℝ) (c : Fin n → ℂ) (w z : ℂ) : ℂ :=
  z - w - ∑ i, (m i : ℂ) / (dualOf m c w z - conj (c i))

theorem hasDerivAt_dualOf (m : Fin n → ℝ) (c : Fin n → ℂ) (w z : ℂ) (hz : ∀ i, z ≠ c i) :
    HasDerivAt (dualOf m c w) (-∑ i, (m i : ℂ) / (z - c i) ^ 2) z := by
  unfold dualOf
  have h := HasDerivAt.fun_sum (u := Finset.univ) fun (i : Fin n) _ =>
    hasDerivAt_simple (m i : ℂ) (c i) z (sub_ne_zero.mpr (hz i))
  refine (h.const_add (conj w)).congr_deriv ?_
  rw [Finset.sum_neg_distrib]

theorem hasDerivAt_dualRes (m : Fin n → ℝ) (c : Fin n → ℂ) (w z : ℂ) (hz : ∀ i, z ≠ c i)
    (hy : ∀ i, dualOf m c w z ≠ conj (c i)) : HasDerivAt (dualRes m c w) (dualDet m c w z) z := by
  unfold dualRes
  have hY := hasDerivAt_dualOf m c w z hz
  have h := HasDerivAt.fun_sum (u := Finset.univ) fun (i : Fin n) _ =>
    (hasDerivAt_simple (m i : ℂ) (conj (c i)) (dualOf m c w z) (sub_ne_zero.mpr (hy i))).comp z hY
  refine (((hasDerivAt_id z).sub_const w).fun_sub h).congr_deriv ?_
  rw [← Finset.sum_mul, Finset.sum_neg_distrib, dualDet]
  ring

theorem dualSol_iff (m : Fin n → ℝ) (c : Fin n → ℂ) (w z : ℂ) (hz : ∀ i, z ≠ c i)
    (hy : ∀ i, dualOf m c w z ≠ conj (c i)) : DualSol m c w z ↔ dualRes m c w z = 0 := by
  unfold dualRes
  constructor
  · intro h; have := h.ez; linear_combination this
  · intro h; exact ⟨hz, hy, by linear_combination h⟩

/-- At a simple root of a polynomial the other factor's derivative does not vanish. -/
theorem simple_root_deriv (cs rs : List ℂ) (h : IsRootList cs rs) (hc : cs.headD 0 ≠ 0) (hnd : rs.Nodup) (r T : ℂ)
    (hr : r ∈ rs) (G H : ℂ → ℂ) (κ : ℂ) (hev : ∀ᶠ x : ℂ in 𝓝 (r + T), evalPoly cs (x - T) = G x * H x)
    (hG : ContinuousAt G (r + T)) (hH : HasDerivAt H κ (r + T)) (hH0 : H (r + T) = 0) : κ ≠ 0 := by
  obtain ⟨l1, l2, rfl⟩ := List.append_of_mem hr
  rw [List.nodup_middle, List.nodup_cons] at hnd
  set Q : ℂ → ℂ := fun x => cs.headD 0 * ((l1 ++ l2).map fun s => x - T - s).prod with hQ
  have hfac : ∀ x, evalPoly cs (x - T) = (x - (r + T)) * Q x := by
    intro x
    rw [h (x - T), hQ]
    simp only [List.map_append, List.map_cons, List.prod_append, List.prod_cons]
    ring
  have hQ0 : Q (r + T) ≠ 0 := by
    refine mul_ne_zero hc ?_
    refine List.prod_ne_zero ?_
    intro h0
    obtain ⟨s, hs, hs'⟩ := List.mem_map.mp h0
    apply hnd.1
    have : r = s := by linear_combination hs'
    rw [this]; exact hs
  have hQc : ContinuousAt Q (r + T) := by
    rw [hQ]
    refine continuousAt_const.mul ?_
    refine Continuous.continuousAt ?_
    refine continuous_list_prod _ fun s _ => by fun_prop
  intro hκ
  apply hQ0
  have t1 : Tendsto Q (𝓝[≠] (r + T)) (𝓝 (Q (r + T))) := hQc.tendsto.mono_left nhdsWithin_le_nhds
  have t2 : Tendsto (fun x => G x * slope H (r + T) x) (𝓝[≠] (r + T)) (𝓝 (G (r + T) * κ)) :=
    (hG.tendsto.mono_left nhdsWithin_le_nhds).mul hH.tendsto_slope
  have e : Q =ᶠ[𝓝[≠] (r + T)] fun x => G x * slope H (r + T) x := by
    filter_upwards [nhdsWithin_le_nhds hev, self_mem_nhdsWithin] with x hx hne
    have hne' : x - (r + T) ≠ 0 := sub_ne_zero.mpr hne
    rw [hfac] at hx
    rw [slope_def_field, hH0, sub_zero]
    field_simp
    rw [← hx]; ring
  have := tendsto_nhds_unique (t2.congr' e.symm) t1
  rw [← this, hκ, mul_zero]

/-- A root occurs twice only if the derivative of the other factor vanishes there. -/
theorem nodup_of_deriv (cs rs : List ℂ) (h : IsRootList cs rs) (T : ℂ) (H : ℂ → ℂ) (κ : ℂ → ℂ)
    (hloc : ∀ r ∈ rs, (∃ G : ℂ → ℂ, ContinuousAt G (r + T) ∧ G (r + T) ≠ 0 ∧
      ∀ᶠ x : ℂ in 𝓝 (r + T), evalPoly cs (x - T) = G x * H x) ∧
      HasDerivAt H (κ (r + T)) (r + T) ∧ H (r + T) = 0 ∧ κ (r + T) ≠ 0) : rs.Nodup := by
  by_contra hnd
  obtain ⟨r, hr⟩ := List.exists_duplicate_iff_not_nodup.mpr hnd
  obtain ⟨l, hl⟩ := (List.duplicate_iff_sublist.mp hr).exists_perm_append
  obtain ⟨⟨G, hG, hG0, hev⟩, hH, hH0, hκ⟩ := hloc r (hr.mem)
  set Q : ℂ → ℂ := fun x => cs.headD 0 * (l.map fun s => x - T - s).prod with hQ
  have hfac : ∀ x, evalPoly cs (x - T) = (x - (r + T)) * ((x - (r + T)) * Q x) := by
    intro x
    rw [h (x - T), (hl.map _).prod_eq, hQ]
    simp only [List.map_append, List.map_cons, List.map_nil, List.prod_append, List.prod_cons, List.prod_nil]
    ring
  have hQc : ContinuousAt Q (r + T) := by
    rw [hQ]
    refine continuousAt_const.mul ?_
    refine Continuous.continuousAt ?_
    refine continuous_list_prod _ fun s _ => by fun_prop
  have t1 : Tendsto (fun x => (x - (r + T)) * Q x) (𝓝[≠] (r + T)) (𝓝 ((r + T - (r + T)) * Q (r + T))) :=
    (((continuousAt_id.sub continuousAt_const).mul hQc).tendsto).mono_left nhdsWithin_le_nhds
  have t2 : Tendsto (fun x => G x * slope H (r + T) x) (𝓝[≠] (r + T)) (𝓝 (G (r + T) * κ (r + T))) :=
    (hG.tendsto.mono_left nhdsWithin_le_nhds).mul hH.tendsto_slope
  have e : (fun x => (x - (r + T)) * Q x) =ᶠ[𝓝[≠] (r + T)] fun x => G x * slope H (r + T) x := by
    filter_upwards [nhdsWithin_le_nhds hev, self_mem_nhdsWithin] with x hx hne
    have hne' : x - (r + T) ≠ 0 := sub_ne_zero.mpr hne
    rw [hfac] at hx
    rw [slope_def_field, hH0, sub_zero]
    field_simp
    rw [← hx]; ring
  have := tendsto_nhds_unique (t2.congr' e.symm) t1
  rw [sub_self, zero_mul] at this
  exact mul_ne_zero hG0 hκ this

/-! ### Two lenses -/

/-- Masses of the binary. -/
def mass2 (p : MidParams) : Fin 2 → ℝ := ![p.e1, 1 - p.e1]

/-- Positions of the binary. -/
def pos2 (p : MidParams) : Fin 2 → ℂ := ![(p.a : ℂ), -(p.a : ℂ)]

theorem lensList2 (p : MidParams) : lensList (mass2 p) (pos2 p) = midBinary p := by
  simp [lensList, mass2, pos2, midBinary, List.ofFn_succ]

theorem dualOf2 (p : MidParams) (w z : ℂ) :
    dualOf (mass2 p) (pos2 p) w z = conj w + p.e1 / (z - p.a) + (1 - p.e1) / (z + p.a) := by
  simp [dualOf, mass2, pos2, Fin.sum_univ_two]; ring

theorem dualRes2 (p : MidParams) (w z : ℂ) :
    dualRes (mass2 p) (pos2 p) w z = z - w - p.e1 / (dualOf (mass2 p) (pos2 p) w z - p.a)
      - (1 - p.e1) / (dualOf (mass2 p) (pos2 p) w z + p.a) := by
  simp [dualRes, mass2, pos2, Fin.sum_univ_two]; ring

theorem forall2 (p : MidParams) (P : ℂ → Prop) : (∀ i, P (pos2 p i)) ↔ P p.a ∧ P (-p.a) := by
  simp [Fin.forall_fin_two, pos2]

/-- Numerator form of the binary polynomial. -/
theorem evalPoly_binary_num (p : MidParams) (w z : ℂ) (h1 : z ≠ p.a) (h2 : z ≠ -p.a) :
    evalPoly (polyCoeffsBinary w p.a p.e1) z = ((z - p.a) * (z + p.a)) ^ 2 *
      ((dualOf (mass2 p) (pos2 p) w z - p.a) * (dualOf (mass2 p) (pos2 p) w z + p.a) * (z - w)
        - p.e1 * (dualOf (mass2 p) (pos2 p) w z + p.a) - (1 - p.e1) * (dualOf (mass2 p) (pos2 p) w z - p.a)) := by
  rw [evalPoly_binary]
  have A : z - p.a ≠ 0 := sub_ne_zero.mpr h1
  have B : z + p.a ≠ 0 := fun hc => h2 (by linear_combination hc)
  have hN : conj w * ((z - p.a) * (z + p.a)) + p.e1 * (z + p.a) + (1 - p.e1) * (z - p.a)
      = dualOf (mass2 p) (pos2 p) w z * ((z - p.a) * (z + p.a)) := by
    rw [dualOf2]; field_simp
  rw [hN]
  ring

theorem evalPoly_binary_res (p : MidParams) (w z : ℂ) (h1 : z ≠ p.a) (h2 : z ≠ -p.a)
    (h3 : dualOf (mass2 p) (pos2 p) w z ≠ p.a) (h4 : dualOf (mass2 p) (pos2 p) w z ≠ -p.a) :
    evalPoly (polyCoeffsBinary w p.a p.e1) z = (((z - p.a) * (z + p.a)) ^ 2 *
      ((dualOf (mass2 p) (pos2 p) w z - p.a) * (dualOf (mass2 p) (pos2 p) w z + p.a))) *
        dualRes (mass2 p) (pos2 p) w z := by
  rw [evalPoly_binary_num p w z h1 h2, dualRes2]
  have C : dualOf (mass2 p) (pos2 p) w z - p.a ≠ 0 := sub_ne_zero.mpr h3
  have D : dualOf (mass2 p) (pos2 p) w z + p.a ≠ 0 := fun hc => h4 (by linear_combination hc)
  field_simp

/-- Every root of the binary polynomial is a complexified solution, near which the polynomial is the eliminated
equation times a factor that does not vanish. -/
theorem binary_local (p : MidParams) (w : ℂ) (ha : p.a ≠ 0) (he : 0 < p.e1) (he' : p.e1 < 1)
    (hw : conj w ^ 2 ≠ (p.a : ℂ) ^ 2) (z : ℂ) (h0 : evalPoly (polyCoeffsBinary w p.a p.e1) z = 0) :
    DualSol (mass2 p) (pos2 p) w z ∧ ∃ G : ℂ → ℂ, ContinuousAt G z ∧ G z ≠ 0 ∧
      ∀ᶠ x : ℂ in 𝓝 z, evalPoly (polyCoeffsBinary w p.a p.e1) x = G x * dualRes (mass2 p) (pos2 p) w x := by
  have hac : (p.a : ℂ) ≠ 0 := by exact_mod_cast ha
  have hec : (p.e1 : ℂ) ≠ 0 := by exact_mod_cast he.ne'
  have hec2 : (1 - p.e1 : ℂ) ≠ 0 := by
    have : (1 - p.e1 : ℝ) ≠ 0 := by linarith
    exact_mod_cast this
  have hw1 : w ≠ p.a := by rintro rfl; simp at hw
  have hw2 : w ≠ -p.a := by rintro rfl; simp at hw
  have hlens := C04_root_not_on_lens w p.a p.e1 ha he.ne' he'.ne hw1 hw2
  have h1 : z ≠ p.a := by rintro rfl; exact hlens.1 h0
  have h2 : z ≠ -p.a := by rintro rfl; exact hlens.2 h0
  have A : z - p.a ≠ 0 := sub_ne_zero.mpr h1
  have B : z + p.a ≠ 0 := fun hc => h2 (by linear_combination hc)
  have hnum := evalPoly_binary_num p w z h1 h2
  rw [h0] at hnum
  have hnum' := (mul_eq_zero.mp hnum.symm).resolve_left (pow_ne_zero _ (mul_ne_zero A B))
  have h3 : dualOf (mass2 p) (pos2 p) w z ≠ p.a := by
    intro e
    rw [e] at hnum'
    have : (p.e1 : ℂ) * (2 * p.a) = 0 := by linear_combination -hnum'
    rcases mul_eq_zero.mp this with h | h
    · exact hec h
    · exact hac (by linear_combination h / 2)
  have h4 : dualOf (mass2 p) (pos2 p) w z ≠ -p.a := by
    intro e
    rw [e] at hnum'
    have : (1 - p.e1 : ℂ) * (2 * p.a) = 0 := by linear_combination hnum'
    rcases mul_eq_zero.mp this with h | h
    · exact hec2 h
    · exact hac (by linear_combination h / 2)
  have hz' : ∀ i, z ≠ pos2 p i := (forall2 p _).mpr ⟨h1, h2⟩
  have hy' : ∀ i, dualOf (mass2 p) (pos2 p) w z ≠ conj (pos2 p i) := by
    rw [forall2 p fun c => dualOf (mass2 p) (pos2 p) w z ≠ conj c]
    simpa using ⟨h3, h4⟩
  have hC : dualOf (mass2 p) (pos2 p) w z - p.a ≠ 0 := sub_ne_zero.mpr h3
  have hD : dualOf (mass2 p) (pos2 p) w z + p.a ≠ 0 := fun hc => h4 (by linear_combination hc)
  have hres : dualRes (mass2 p) (pos2 p) w z = 0 := by
    have := evalPoly_binary_res p w z h1 h2 h3 h4
    rw [h0] at this
    exact (mul_eq_zero.mp this.symm).resolve_left
      (mul_ne_zero (pow_ne_zero _ (mul_ne_zero A B)) (mul_ne_zero hC hD))
  refine ⟨(dualSol_iff _ _ w z hz' hy').mpr hres, fun x => ((x - p.a) * (x + p.a)) ^ 2 *
      ((dualOf (mass2 p) (pos2 p) w x - p.a) * (dualOf (mass2 p) (pos2 p) w x + p.a)), ?_,
    mul_ne_zero (pow_ne_zero _ (mul_ne_zero A B)) (mul_ne_zero hC hD), ?_⟩
  · have hYc : ContinuousAt (dualOf (mass2 p) (pos2 p) w) z := (hasDerivAt_dualOf _ _ w z hz').continuousAt
    fun_prop
  · have hYc : ContinuousAt (dualOf (mass2 p) (pos2 p) w) z := (hasDerivAt_dualOf _ _ w z hz').continuousAt
    filter_upwards [isOpen_ne.mem_nhds h1, isOpen_ne.mem_nhds h2, hYc.eventually_ne h3, hYc.eventually_ne h4]
      with x e1 e2 e3 e4
    exact evalPoly_binary_res p w x e1 e2 e3 e4

/-- Every root of the binary polynomial is a complexified solution, with nonzero determinant if the roots are
simple, and there are no others. -/
theorem binary_roots (p : MidParams) (w : ℂ) (rs : List ℂ) (ha : p.a ≠ 0) (he : 0 < p.e1) (he' : p.e1 < 1)
    (hr : IsRootList (polyCoeffsBinary w p.a p.e1) rs) (hw : conj w ^ 2 ≠ (p.a : ℂ) ^ 2) (hnd : rs.Nodup) :
    (∀ z ∈ rs, DualSol (mass2 p) (pos2 p) w z ∧ dualDet (mass2 p) (pos2 p) w z ≠ 0) ∧
    (∀ z, DualSol (mass2 p) (pos2 p) w z → z ∈ rs) ∧ rs.length = 5 := by
  have hhead : (polyCoeffsBinary w p.a p.e1).headD 0 ≠ 0 := by
    rw [(C04_binary_leading w p.a p.e1).2]; exact sub_ne_zero.mpr hw
  refine ⟨?_, ?_, rootList_length hhead hr (C04_binary_leading w p.a p.e1).1⟩
  · intro z hz
    obtain ⟨hs, G, hG, -, hev⟩ := binary_local p w ha he he' hw z (IsRootList.eval_zero_of_mem hr hz)
    refine ⟨hs, simple_root_deriv _ rs hr hhead hnd z 0 hz G (dualRes (mass2 p) (pos2 p) w) _ ?_ ?_ ?_ ?_⟩
    · simpa using hev
    · simpa using hG
    · rw [add_zero]; exact hasDerivAt_dualRes _ _ w z hs.hz hs.hy
    · rw [add_zero]; exact (dualSol_iff _ _ w z hs.hz hs.hy).mp hs
  · intro z hz
    obtain ⟨h1, h2⟩ := (forall2 p _).mp hz.hz
    have hy := (forall2 p fun c => dualOf (mass2 p) (pos2 p) w z ≠ conj c).mp hz.hy
    simp only [conj_ofReal, map_neg] at hy
    refine IsRootList.mem_of_eval_zero hr hhead ?_
    rw [evalPoly_binary_res p w z h1 h2 hy.1 hy.2, (dualSol_iff _ _ w z hz.hz hz.hy).mp hz, mul_zero]

/-! ### Three lenses -/

/-- Masses of the triple. -/
def mass3 (p : MidParams) : Fin 3 → ℝ := ![p.e1, p.e2, 1 - p.e1 - p.e2]

/-- Positions of the triple. -/
def pos3 (p : MidParams) : Fin 3 → ℂ := ![(p.a : ℂ), -(p.a : ℂ), r3Complex p]

theorem lensList3 (p : MidParams) : lensList (mass3 p) (pos3 p) = midTriple p := by
  simp [lensList, mass3, pos3, midTriple, List.ofFn_succ]

theorem dualOf3 (p : MidParams) (w z : ℂ) :
    dualOf (mass3 p) (pos3 p) w z = conj w + p.e1 / (z - p.a) + p.e2 / (z + p.a)
      + (1 - p.e1 - p.e2) / (z - r3Complex p) := by
  simp [dualOf, mass3, pos3, Fin.sum_univ_three]; ring

theorem dualRes3 (p : MidParams) (w z : ℂ) :
    dualRes (mass3 p) (pos3 p) w z = z - w - p.e1 / (dualOf (mass3 p) (pos3 p) w z - p.a)
      - p.e2 / (dualOf (mass3 p) (pos3 p) w z + p.a)
      - (1 - p.e1 - p.e2) / (dualOf (mass3 p) (pos3 p) w z - conj (r3Complex p)) := by
  simp [dualRes, mass3, pos3, Fin.sum_univ_three]; ring

theorem forall3 (p : MidParams) (P : ℂ → Prop) :
    (∀ i, P (pos3 p i)) ↔ P p.a ∧ P (-p.a) ∧ P (r3Complex p) := by
  simp [Fin.forall_fin_succ, pos3]

/-- Numerator form of the triple polynomial. -/
theorem evalPoly_triple_num (p : MidParams) (w z : ℂ) (h1 : z ≠ p.a) (h2 : z ≠ -p.a) (h3 : z ≠ r3Complex p) :
    evalPoly (polyCoeffsTripleCM w p.a (r3Complex p) p.e1 p.e2) (z - shiftCM p.a (r3Complex p) p.e1 p.e2) =
      ((z + p.a) * (z - p.a) * (z - r3Complex p)) ^ 3 *
      ((dualOf (mass3 p) (pos3 p) w z - p.a) * (dualOf (mass3 p) (pos3 p) w z + p.a)
          * (dualOf (mass3 p) (pos3 p) w z - conj (r3Complex p)) * (z - w)
        - p.e1 * (dualOf (mass3 p) (pos3 p) w z + p.a) * (dualOf (mass3 p) (pos3 p) w z - conj (r3Complex p))
        - p.e2 * (dualOf (mass3 p) (pos3 p) w z - p.a) * (dualOf (mass3 p) (pos3 p) w z - conj (r3Complex p))
        - (1 - p.e1 - p.e2) * (dualOf (mass3 p) (pos3 p) w z - p.a)
          * (dualOf (mass3 p) (pos3 p) w z + p.a)) := by
  have key := evalPoly_tripleCM w p.a (r3Complex p) p.e1 p.e2 (z - shiftCM p.a (r3Complex p) p.e1 p.e2)
  simp only at key
  rw [key]
  generalize shiftCM p.a (r3Complex p) p.e1 p.e2 = S
  have hY := dualOf3 p w z
  generalize dualOf (mass3 p) (pos3 p) w z = Y at *
  generalize hr : r3Complex p = r at *
  have A : z - p.a ≠ 0 := sub_ne_zero.mpr h1
  have B : z + p.a ≠ 0 := fun hc => h2 (by linear_combination hc)
  have R : z - r ≠ 0 := sub_ne_zero.mpr h3
  have eB : z - S - (-p.a - S) = z + p.a := by ring
  have eA : z - S - (p.a - S) = z - p.a := by ring
  have eR : z - S - (r - S) = z - r := by ring
  have cB : conj (w - S - (-p.a - S)) = conj w + p.a := by simp
  have cA : conj (w - S - (p.a - S)) = conj w - p.a := by simp
  have cR : conj (w - S - (r - S)) = conj w - conj r := by simp
  have eW : z - S - (w - S) = z - w := by ring
  rw [eA, eB, eR, cA, cB, cR, eW]
  have hQ : (p.e2 : ℂ) * (z - p.a) * (z - r) + p.e1 * (z + p.a) * (z - r)
      + (1 - p.e1 - p.e2) * (z + p.a) * (z - p.a)
      = (Y - conj w) * ((z + p.a) * (z - p.a) * (z - r)) := by
    rw [hY]; field_simp; ring
  rw [hQ]
  ring

theorem evalPoly_triple_res (p : MidParams) (w z : ℂ) (h1 : z ≠ p.a) (h2 : z ≠ -p.a) (h3 : z ≠ r3Complex p)
    (h4 : dualOf (mass3 p) (pos3 p) w z ≠ p.a) (h5 : dualOf (mass3 p) (pos3 p) w z ≠ -p.a)
    (h6 : dualOf (mass3 p) (pos3 p) w z ≠ conj (r3Complex p)) :
    evalPoly (polyCoeffsTripleCM w p.a (r3Complex p) p.e1 p.e2) (z - shiftCM p.a (r3Complex p) p.e1 p.e2) =
      (((z + p.a) * (z - p.a) * (z - r3Complex p)) ^ 3 *
        ((dualOf (mass3 p) (pos3 p) w z - p.a) * (dualOf (mass3 p) (pos3 p) w z + p.a)
          * (dualOf (mass3 p) (pos3 p) w z - conj (r3Complex p)))) * dualRes (mass3 p) (pos3 p) w z := by
  rw [evalPoly_triple_num p w z h1 h2 h3, dualRes3]
  have C : dualOf (mass3 p) (pos3 p) w z - p.a ≠ 0 := sub_ne_zero.mpr h4
  have D : dualOf (mass3 p) (pos3 p) w z + p.a ≠ 0 := fun hc => h5 (by linear_combination hc)
  have E : dualOf (mass3 p) (pos3 p) w z - conj (r3Complex p) ≠ 0 := sub_ne_zero.mpr h6
  field_simp

theorem triple_head (w : ℂ) (a : ℝ) (r : ℂ) (e1 e2 : ℝ) :
    (polyCoeffsTripleCM w a r e1 e2).length = 11 ∧
    (polyCoeffsTripleCM w a r e1 e2).headD 0 = conj (w - a) * conj (w + a) * conj (w - r) := by
  refine ⟨rfl, ?_⟩
  simp only [polyCoeffsTripleCM, List.headD_cons]
  generalize shiftCM a r e1 e2 = S
  simp only [map_sub, map_add, map_neg, conj_ofReal]
  ring

/-- The value of the triple polynomial at a lens. -/
theorem evalPoly_triple_lens (p : MidParams) (w : ℂ) :
    evalPoly (polyCoeffsTripleCM w p.a (r3Complex p) p.e1 p.e2) (p.a - shiftCM p.a (r3Complex p) p.e1 p.e2)
        = (p.e1 * (2 * p.a) * (p.a - r3Complex p)) ^ 3 * (p.a - w) ∧
    evalPoly (polyCoeffsTripleCM w p.a (r3Complex p) p.e1 p.e2) (-p.a - shiftCM p.a (r3Complex p) p.e1 p.e2)
        = (p.e2 * (-2 * p.a) * (-p.a - r3Complex p)) ^ 3 * (-p.a - w) ∧
    evalPoly (polyCoeffsTripleCM w p.a (r3Complex p) p.e1 p.e2)
        (r3Complex p - shiftCM p.a (r3Complex p) p.e1 p.e2)
        = ((1 - p.e1 - p.e2) * (r3Complex p + p.a) * (r3Complex p - p.a)) ^ 3 * (r3Complex p - w) := by
  refine ⟨?_, ?_, ?_⟩ <;>
  · have key := evalPoly_tripleCM w p.a (r3Complex p) p.e1 p.e2
    simp only at key
    rw [key]
    ring

/-- Every root of the triple polynomial is, after adding the shift, a complexified solution, near which the polynomial
is the eliminated equation times a factor that does not vanish. -/
theorem triple_local (p : MidParams) (w : ℂ) (ha : p.a ≠ 0) (hr1 : r3Complex p ≠ p.a)
    (hr2 : r3Complex p ≠ -p.a) (he1 : p.e1 ≠ 0) (he2 : p.e2 ≠ 0) (he3 : 1 - p.e1 - p.e2 ≠ 0)
    (hw1 : w ≠ p.a) (hw2 : w ≠ -p.a) (hw3 : w ≠ r3Complex p) (z : ℂ)
    (h0 : evalPoly (polyCoeffsTripleCM w p.a (r3Complex p) p.e1 p.e2)
      (z - shiftCM p.a (r3Complex p) p.e1 p.e2) = 0) :
    DualSol (mass3 p) (pos3 p) w z ∧ ∃ G : ℂ → ℂ, ContinuousAt G z ∧ G z ≠ 0 ∧
      ∀ᶠ x : ℂ in 𝓝 z, evalPoly (polyCoeffsTripleCM w p.a (r3Complex p) p.e1 p.e2)
        (x - shiftCM p.a (r3Complex p) p.e1 p.e2) = G x * dualRes (mass3 p) (pos3 p) w x := by
  have hac : (p.a : ℂ) ≠ 0 := by exact_mod_cast ha
  have hec : (p.e1 : ℂ) ≠ 0 := by exact_mod_cast he1
  have hec2 : (p.e2 : ℂ) ≠ 0 := by exact_mod_cast he2
  have hec3 : (1 - p.e1 - p.e2 : ℂ) ≠ 0 := by exact_mod_cast he3
  set T := shiftCM p.a (r3Complex p) p.e1 p.e2 with hT
  obtain ⟨l1, l2, l3⟩ := evalPoly_triple_lens p w
  rw [← hT] at l1 l2 l3
  have d1 : (p.a : ℂ) - r3Complex p ≠ 0 := sub_ne_zero.mpr hr1.symm
  have d2 : -(p.a : ℂ) - r3Complex p ≠ 0 := sub_ne_zero.mpr hr2.symm
  have two : (2 : ℂ) ≠ 0 := two_ne_zero
  have n1 : ((p.e1 * (2 * p.a) * (p.a - r3Complex p)) ^ 3 * (p.a - w) : ℂ) ≠ 0 :=
    mul_ne_zero (pow_ne_zero _ (mul_ne_zero (mul_ne_zero hec (mul_ne_zero two hac)) d1)) (sub_ne_zero.mpr hw1.symm)
  have n2 : ((p.e2 * (-2 * p.a) * (-p.a - r3Complex p)) ^ 3 * (-p.a - w) : ℂ) ≠ 0 :=
    mul_ne_zero (pow_ne_zero _ (mul_ne_zero (mul_ne_zero hec2 (mul_ne_zero (neg_ne_zero.mpr two) hac)) d2))
      (sub_ne_zero.mpr hw2.symm)
  have n3 : (((1 - p.e1 - p.e2) * (r3Complex p + p.a) * (r3Complex p - p.a)) ^ 3 * (r3Complex p - w) : ℂ) ≠ 0 := by
    refine mul_ne_zero (pow_ne_zero _ (mul_ne_zero (mul_ne_zero hec3 ?_) (sub_ne_zero.mpr hr1)))
      (sub_ne_zero.mpr hw3.symm)
    exact fun hc => hr2 (by linear_combination hc)
  have h1 : z ≠ p.a := by intro e; rw [e, l1] at h0; exact n1 h0
  have h2 : z ≠ -p.a := by intro e; rw [e, l2] at h0; exact n2 h0
  have h3 : z ≠ r3Complex p := by intro e; rw [e, l3] at h0; exact n3 h0
  have A : z - p.a ≠ 0 := sub_ne_zero.mpr h1
  have B : z + p.a ≠ 0 := fun hc => h2 (by linear_combination hc)
  have C : z - r3Complex p ≠ 0 := sub_ne_zero.mpr h3
  have hnum := evalPoly_triple_num p w z h1 h2 h3
  rw [← hT, h0] at hnum
  have hnum' := (mul_eq_zero.mp hnum.symm).resolve_left (pow_ne_zero _ (mul_ne_zero (mul_ne_zero B A) C))
  have hcr1 : conj (r3Complex p) ≠ p.a := fun e => hr1 (by simpa using congrArg conj e)
  have hcr2 : conj (r3Complex p) ≠ -p.a := fun e => hr2 (by simpa using congrArg conj e)
  have f1 : (p.a : ℂ) - conj (r3Complex p) ≠ 0 := sub_ne_zero.mpr hcr1.symm
  have f2 : -(p.a : ℂ) - conj (r3Complex p) ≠ 0 := sub_ne_zero.mpr hcr2.symm
  have h4 : dualOf (mass3 p) (pos3 p) w z ≠ p.a := by
    intro e
    rw [e] at hnum'
    exact mul_ne_zero (mul_ne_zero hec (mul_ne_zero two hac)) f1 (by linear_combination -hnum')
  have h5 : dualOf (mass3 p) (pos3 p) w z ≠ -p.a := by
    intro e
    rw [e] at hnum'
    exact mul_ne_zero (mul_ne_zero hec2 (mul_ne_zero two hac)) f2 (by linear_combination hnum')
  have h6 : dualOf (mass3 p) (pos3 p) w z ≠ conj (r3Complex p) := by
    intro e
    rw [e] at hnum'
    exact mul_ne_zero (mul_ne_zero hec3 f1) f2 (by linear_combination -hnum')
  have hz' : ∀ i, z ≠ pos3 p i := (forall3 p _).mpr ⟨h1, h2, h3⟩
  have hy' : ∀ i, dualOf (mass3 p) (pos3 p) w z ≠ conj (pos3 p i) := by
    rw [forall3 p fun c => dualOf (mass3 p) (pos3 p) w z ≠ conj c]
    simpa using ⟨h4, h5, h6⟩
  have D : dualOf (mass3 p) (pos3 p) w z - p.a ≠ 0 := sub_ne_zero.mpr h4
  have E : dualOf (mass3 p) (pos3 p) w z + p.a ≠ 0 := fun hc => h5 (by linear_combination hc)
  have F : dualOf (mass3 p) (pos3 p) w z - conj (r3Complex p) ≠ 0 := sub_ne_zero.mpr h6
  have hres : dualRes (mass3 p) (pos3 p) w z = 0 := by
    have := evalPoly_triple_res p w z h1 h2 h3 h4 h5 h6
    rw [← hT, h0] at this
    exact (mul_eq_zero.mp this.symm).resolve_left
      (mul_ne_zero (pow_ne_zero _ (mul_ne_zero (mul_ne_zero B A) C)) (mul_ne_zero (mul_ne_zero D E) F))
  refine ⟨(dualSol_iff _ _ w z hz' hy').mpr hres, fun x => ((x + p.a) * (x - p.a) * (x - r3Complex p)) ^ 3 *
        ((dualOf (mass3 p) (pos3 p) w x - p.a) * (dualOf (mass3 p) (pos3 p) w x + p.a)
          * (dualOf (mass3 p) (pos3 p) w x - conj (r3Complex p))), ?_,
    mul_ne_zero (pow_ne_zero _ (mul_ne_zero (mul_ne_zero B A) C)) (mul_ne_zero (mul_ne_zero D E) F), ?_⟩
  · have hYc : ContinuousAt (dualOf (mass3 p) (pos3 p) w) z := (hasDerivAt_dualOf _ _ w z hz').continuousAt
    fun_prop
  · have hYc : ContinuousAt (dualOf (mass3 p) (pos3 p) w) z := (hasDerivAt_dualOf _ _ w z hz').continuousAt
    filter_upwards [isOpen_ne.mem_nhds h1, isOpen_ne.mem_nhds h2, isOpen_ne.mem_nhds h3,
      hYc.eventually_ne h4, hYc.eventually_ne h5, hYc.eventually_ne h6] with x e1 e2 e3 e4 e5 e6
    exact evalPoly_triple_res p w x e1 e2 e3 e4 e5 e6

/-- Every root of the triple polynomial is, after adding the shift, a complexified solution, with nonzero
determinant if the roots are simple, and there are no others. -/
theorem triple_roots (p : MidParams) (w : ℂ) (rs : List ℂ) (ha : p.a ≠ 0) (hr1 : r3Complex p ≠ p.a)
    (hr2 : r3Complex p ≠ -p.a) (he1 : p.e1 ≠ 0) (he2 : p.e2 ≠ 0) (he3 : 1 - p.e1 - p.e2 ≠ 0)
    (hr : IsRootList (polyCoeffsTripleCM w p.a (r3Complex p) p.e1 p.e2) rs)
    (hw1 : w ≠ p.a) (hw2 : w ≠ -p.a) (hw3 : w ≠ r3Complex p) (hnd : rs.Nodup) :
    (∀ r ∈ rs, DualSol (mass3 p) (pos3 p) w (r + shiftCM p.a (r3Complex p) p.e1 p.e2) ∧
      dualDet (mass3 p) (pos3 p) w (r + shiftCM p.a (r3Complex p) p.e1 p.e2) ≠ 0) ∧
    (∀ z, DualSol (mass3 p) (pos3 p) w z → z - shiftCM p.a (r3Complex p) p.e1 p.e2 ∈ rs) ∧ rs.length = 10 := by
  have hhead : (polyCoeffsTripleCM w p.a (r3Complex p) p.e1 p.e2).headD 0 ≠ 0 := by
    rw [(triple_head w p.a (r3Complex p) p.e1 p.e2).2]
    have hi : ∀ x : ℂ, x ≠ 0 → conj x ≠ 0 := fun x hx => by simpa using hx
    refine mul_ne_zero (mul_ne_zero (hi _ (sub_ne_zero.mpr hw1)) (hi _ ?_)) (hi _ (sub_ne_zero.mpr hw3))
    exact fun hc => hw2 (by linear_combination hc)
  set T := shiftCM p.a (r3Complex p) p.e1 p.e2 with hT
  refine ⟨?_, ?_, rootList_length hhead hr (triple_head w p.a (r3Complex p) p.e1 p.e2).1⟩
  · intro r hrm
    have h0 : evalPoly (polyCoeffsTripleCM w p.a (r3Complex p) p.e1 p.e2) (r + T - T) = 0 := by
      rw [add_sub_cancel_right]; exact IsRootList.eval_zero_of_mem hr hrm
    obtain ⟨hs, G, hG, -, hev⟩ := triple_local p w ha hr1 hr2 he1 he2 he3 hw1 hw2 hw3 (r + T) h0
    exact ⟨hs, simple_root_deriv _ rs hr hhead hnd r T hrm G (dualRes (mass3 p) (pos3 p) w) _ hev hG
      (hasDerivAt_dualRes _ _ w _ hs.hz hs.hy) ((dualSol_iff _ _ w _ hs.hz hs.hy).mp hs)⟩
  · intro z hz
    obtain ⟨h1, h2, h3⟩ := (forall3 p _).mp hz.hz
    have hy := (forall3 p fun c => dualOf (mass3 p) (pos3 p) w z ≠ conj c).mp hz.hy
    simp only [conj_ofReal, map_neg] at hy
    refine IsRootList.mem_of_eval_zero hr hhead ?_
    rw [hT, evalPoly_triple_res p w z h1 h2 h3 hy.1 hy.2.1 hy.2.2, (dualSol_iff _ _ w z hz.hz hz.hy).mp hz,
      mul_zero]

end Microjax.Props
