import Verif.Props.VanishingPlanet
import Verif.Props.TripleLightcurve

/-!
# C118: a third body of vanishing mass

As the mass of the third body tends to zero, `mag_point_source(w, nlenses=3, ...)` tends to
`mag_point_source(w, nlenses=2, ...)`.
-/

noncomputable section

namespace Microjax.Props

open Complex ComplexConjugate Microjax.PointSource Microjax.Spec Filter
open scoped Topology

@[fun_prop] theorem continuous_shiftCM {Y : Type*} [TopologicalSpace Y] (a : ℝ) (r : ℂ) (f g : Y → ℝ)
    (hf : Continuous f) (hg : Continuous g) : Continuous fun y => shiftCM a r (f y) (g y) := by
  simp only [shiftCM]; fun_prop

theorem continuous_coeffsTriple2 (w : ℂ) (a : ℝ) (r : ℂ) (k : ℕ) :
    Continuous fun y : ℝ × ℝ => (polyCoeffsTripleCM w a r y.1 y.2).getD k 0 := by
  rcases k with _ | _ | _ | _ | _ | _ | _ | _ | _ | _ | _ | k <;> simp only [polyCoeffsTripleCM, List.getD_cons_zero,
    List.getD_cons_succ, List.getD_nil] <;> fun_prop

/-- The roots of the triple polynomial, with the shift, are the complexified solutions. -/
theorem triple_mem_iff (p : MidParams) (w : ℂ) (rs : List ℂ) (ha : p.a ≠ 0) (hr1 : r3Complex p ≠ p.a)
    (hr2 : r3Complex p ≠ -p.a) (he1 : p.e1 ≠ 0) (he2 : p.e2 ≠ 0) (he3 : 1 - p.e1 - p.e2 ≠ 0)
    (hr : IsRootList (polyCoeffsTripleCM w p.a (r3Complex p) p.e1 p.e2) rs)
    (hw1 : w ≠ p.a) (hw2 : w ≠ -p.a) (hw3 : w ≠ r3Complex p) (z : ℂ) :
    z ∈ rs.map (· + shiftCM p.a (r3Complex p) p.e1 p.e2) ↔ DualSol (mass3 p) (pos3 p) w z := by
  have hhead : (polyCoeffsTripleCM w p.a (r3Complex p) p.e1 p.e2).headD 0 ≠ 0 := by
    rw [(triple_head w p.a (r3Complex p) p.e1 p.e2).2]
    have hi : ∀ x : ℂ, x ≠ 0 → conj x ≠ 0 := fun x hx => by simpa using hx
    refine mul_ne_zero (mul_ne_zero (hi _ (sub_ne_zero.mpr hw1)) (hi _ ?_)) (hi _ (sub_ne_zero.mpr hw3))
    exact fun hc => hw2 (by linear_combination hc)
  constructor
  · intro hz
    obtain ⟨x, hx, rfl⟩ := List.mem_map.mp hz
    refine (triple_local p w ha hr1 hr2 he1 he2 he3 hw1 hw2 hw3 _ ?_).1
    rw [add_sub_cancel_right]
    exact IsRootList.eval_zero_of_mem hr hx
  · intro hz
    obtain ⟨h1, h2, h3⟩ := (forall3 p _).mp hz.hz
    have hy := (forall3 p fun c => dualOf (mass3 p) (pos3 p) w z ≠ conj c).mp hz.hy
    simp only [conj_ofReal, map_neg] at hy
    refine List.mem_map.mpr ⟨z - shiftCM p.a (r3Complex p) p.e1 p.e2, IsRootList.mem_of_eval_zero hr hhead ?_, by ring⟩
    rw [evalPoly_triple_res p w z h1 h2 h3 hy.1 hy.2.1 hy.2.2, (dualSol_iff _ _ w z hz.hz hz.hy).mp hz, mul_zero]

/-- The coefficients of the quadratic whose roots map to the massless third body. -/
def strayCoeffs (v : ℂ) (a : ℝ) (r : ℂ) (e : ℝ) : List ℂ :=
  [conj v - conj r, 1, -(conj v - conj r) * a ^ 2 + (e - (1 - e)) * a]

/-- The triple polynomial without the mass of the third body. -/
theorem third_factor (v : ℂ) (a : ℝ) (r : ℂ) (e : ℝ) (z : ℂ) :
    evalPoly (polyCoeffsTripleCM v a r e (1 - e)) (z - shiftCM a r e (1 - e)) =
      (z - r) ^ 3 * evalPoly (strayCoeffs v a r e) z * evalPoly (polyCoeffsBinary v a e) z := by
  have key := evalPoly_tripleCM v a r e (1 - e) (z - shiftCM a r e (1 - e))
  simp only at key
  rw [key, evalPoly_binary]
  generalize shiftCM a r e (1 - e) = S
  simp only [evalPoly, strayCoeffs, List.foldl_cons, List.foldl_nil, map_sub, map_neg, conj_ofReal]
  push_cast
  ring

theorem third_roots (v : ℂ) (a : ℝ) (r : ℂ) (e : ℝ) (h1 : v ≠ a) (h2 : v ≠ -a) (h3 : v ≠ r) (rs : List ℂ)
    (hrs : IsRootList (polyCoeffsBinary v a e) rs) : ∃ ζ : List ℂ, (∀ z ∈ ζ, evalPoly (strayCoeffs v a r e) z = 0) ∧
      (polyCoeffsTripleCM v a r e (1 - e)).headD 0 ≠ 0 ∧
      IsRootList (polyCoeffsTripleCM v a r e (1 - e)) (([r, r, r] ++ ζ ++ rs).map (· - shiftCM a r e (1 - e))) := by
  have hi : ∀ x : ℂ, x ≠ 0 → conj x ≠ 0 := fun x hx => by simpa using hx
  have hq : (strayCoeffs v a r e).headD 0 ≠ 0 := by
    have := hi _ (sub_ne_zero.mpr h3)
    rw [map_sub] at this
    simpa [strayCoeffs] using this
  obtain ⟨ζ, hζ⟩ := exists_rootList _ hq
  have hhead := (triple_head v a r e (1 - e)).2
  refine ⟨ζ, fun z hz => IsRootList.eval_zero_of_mem hζ hz, ?_, fun x => ?_⟩
  · rw [hhead]
    refine mul_ne_zero (mul_ne_zero (hi _ (sub_ne_zero.mpr h1)) (hi _ ?_)) (hi _ (sub_ne_zero.mpr h3))
    exact fun hc => h2 (by linear_combination hc)
  · have e1 : x = (x + shiftCM a r e (1 - e)) - shiftCM a r e (1 - e) := by ring
    conv_lhs => rw [e1]
    rw [third_factor, hζ, hrs, hhead]
    generalize shiftCM a r e (1 - e) = S
    have hm : ∀ l : List ℂ, ((l.map (· - S)).map fun y => x - y).prod = (l.map fun y => x + S - y).prod := by
      intro l
      rw [List.map_map]
      congr 1
      refine List.map_congr_left fun y _ => ?_
      simp only [Function.comp]; ring
    rw [hm, List.map_append, List.map_append, List.prod_append, List.prod_append]
    have hb : (polyCoeffsBinary v a e).headD 0 = conj (v - a) * conj (v + a) := by
      rw [(C04_binary_leading v a e).2]
      simp only [map_sub, map_add, conj_ofReal]; ring
    have hst : (strayCoeffs v a r e).headD 0 = conj (v - r) := by simp [strayCoeffs]
    rw [hb, hst]
    simp only [List.map_cons, List.map_nil, List.prod_cons, List.prod_nil]
    ring

/-- Masses in the limit. -/
def pairMass (u : UserParams) : Fin 3 → ℝ := ![u.q / (1 + u.q), 1 - u.q / (1 + u.q), 0]

/-- Positions of the pair and of the third body. -/
def pairPos (u : UserParams) : Fin 3 → ℂ :=
  ![((1 / 2 * u.s : ℝ) : ℂ), -((1 / 2 * u.s : ℝ) : ℂ), r3Complex (midParams3 u)]

/-- The position of the third body in the frame of the mid-point. -/
def thirdPos (u : UserParams) : ℂ := r3Complex (midParams3 u)

theorem pairPos_eq (u : UserParams) (t : ℝ) : pos3 (midParams3 { u with q3 := t }) = pairPos u := rfl

theorem lensMap_pair (u : UserParams) (z : ℂ) :
    lensMap (lensList (pairMass u) (pairPos u)) z = lensMap (midBinary (midParams2 u)) z := by
  rw [← lensList2, lensMap_lensList, lensMap_lensList]
  simp [Fin.sum_univ_three, pairMass, pairPos, mass2, pos2, midParams2]

theorem det_pair (u : UserParams) (z : ℂ) :
    detFormula (lensList (pairMass u) (pairPos u)) z = detFormula (midBinary (midParams2 u)) z := by
  rw [← lensList2, detFormula_lensList, detFormula_lensList]
  simp [Fin.sum_univ_three, pairMass, pairPos, mass2, pos2, midParams2]

theorem dualOf_pair (u : UserParams) (v z : ℂ) :
    dualOf (pairMass u) (pairPos u) v z = dualOf (mass2 (midParams2 u)) (pos2 (midParams2 u)) v z := by
  simp [dualOf, Fin.sum_univ_three, pairMass, pairPos, mass2, pos2, midParams2]

/-- The lens map misses the source by the distance between the position and the conjugate of its dual. -/
theorem lensMap_dual {n : ℕ} (m : Fin n → ℝ) (c : Fin n → ℂ) (v z : ℂ) :
    lensMap (lensList m c) z - v = z - conj (dualOf m c v z) := by
  rw [lensMap_lensList, dualOf]
  simp
  ring

/-- The coefficients given to the root finder as a function of the third mass. -/
def thirdCoeffs (u : UserParams) (w : ℂ) (t : ℝ) : List ℂ :=
  polyCoeffsTripleCM (w - (xCM u : ℂ)) (1 / 2 * u.s) (thirdPos u) (u.q / (1 + u.q + t)) (1 / (1 + u.q + t))

/-- The shift as a function of the third mass. -/
def thirdShift (u : UserParams) (t : ℝ) : ℂ :=
  shiftCM (1 / 2 * u.s) (thirdPos u) (u.q / (1 + u.q + t)) (1 / (1 + u.q + t))

theorem masses_tendsto (u : UserParams) (hq : 0 < u.q) :
    Tendsto (fun t : ℝ => (u.q / (1 + u.q + t), 1 / (1 + u.q + t))) (𝓝[>] 0)
      (𝓝 (u.q / (1 + u.q), 1 - u.q / (1 + u.q))) := by
  have ht : Tendsto (fun t : ℝ => 1 + u.q + t) (𝓝[>] 0) (𝓝 (1 + u.q)) := by
    have : Tendsto (fun t : ℝ => t) (𝓝[>] 0) (𝓝 0) := tendsto_nhdsWithin_of_tendsto_nhds tendsto_id
    have h2 := (tendsto_const_nhds (x := 1 + u.q)).add this
    rwa [add_zero] at h2
  have h1 : 1 + u.q ≠ 0 := by positivity
  have e : 1 - u.q / (1 + u.q) = 1 / (1 + u.q) := by field_simp; ring
  rw [e]
  have a1 : Tendsto (fun t : ℝ => u.q / (1 + u.q + t)) (𝓝[>] 0) (𝓝 (u.q / (1 + u.q))) := tendsto_const_nhds.div ht h1
  have a2 : Tendsto (fun t : ℝ => 1 / (1 + u.q + t)) (𝓝[>] 0) (𝓝 (1 / (1 + u.q))) := tendsto_const_nhds.div ht h1
  exact a1.prodMk_nhds a2

theorem thirdCoeffs_tendsto (u : UserParams) (hq : 0 < u.q) (w : ℂ) (k : ℕ) :
    Tendsto (fun t : ℝ => (thirdCoeffs u w t).getD k 0) (𝓝[>] 0)
      (𝓝 ((polyCoeffsTripleCM (w - (xCM u : ℂ)) (1 / 2 * u.s) (thirdPos u) (u.q / (1 + u.q))
        (1 - u.q / (1 + u.q))).getD k 0)) := by
  have h1 := (continuous_coeffsTriple2 (w - (xCM u : ℂ)) (1 / 2 * u.s) (thirdPos u) k).tendsto
    (u.q / (1 + u.q), 1 - u.q / (1 + u.q))
  have h2 := h1.comp (masses_tendsto u hq)
  simp only [Function.comp_def] at h2
  simp only [thirdCoeffs]
  exact h2

theorem thirdShift_tendsto (u : UserParams) (hq : 0 < u.q) :
    Tendsto (thirdShift u) (𝓝[>] 0)
      (𝓝 (shiftCM (1 / 2 * u.s) (thirdPos u) (u.q / (1 + u.q)) (1 - u.q / (1 + u.q)))) := by
  have h1 := (continuous_shiftCM (1 / 2 * u.s) (thirdPos u) (fun y : ℝ × ℝ => y.1) (fun y => y.2) continuous_fst
    continuous_snd).tendsto (u.q / (1 + u.q), 1 - u.q / (1 + u.q))
  have h2 := h1.comp (masses_tendsto u hq)
  simp only [Function.comp_def] at h2
  exact h2

theorem third_mem_iff (u : UserParams) (hs : u.s ≠ 0) (hq : 0 < u.q) (w : ℂ) (t : ℝ) (ht : 0 < t) (rs : List ℂ)
    (hr1 : thirdPos u ≠ ((1 / 2 * u.s : ℝ) : ℂ)) (hr2 : thirdPos u ≠ -((1 / 2 * u.s : ℝ) : ℂ))
    (hw1 : w - xCM u ≠ ((1 / 2 * u.s : ℝ) : ℂ)) (hw2 : w - xCM u ≠ -((1 / 2 * u.s : ℝ) : ℂ))
    (hw3 : w - xCM u ≠ thirdPos u) (hr : IsRootList (thirdCoeffs u w t) rs) (z : ℂ) :
    z ∈ rs.map (· + thirdShift u t) ↔ DualSol (mass3 (midParams3 { u with q3 := t })) (pairPos u) (w - (xCM u : ℂ)) z := by
  have ea : (midParams3 { u with q3 := t }).a = 1 / 2 * u.s := rfl
  have e1 : (midParams3 { u with q3 := t }).e1 = u.q / (1 + u.q + t) := rfl
  have e2 : (midParams3 { u with q3 := t }).e2 = 1 / (1 + u.q + t) := rfl
  have er : r3Complex (midParams3 { u with q3 := t }) = thirdPos u := rfl
  have hsum : 0 < 1 + u.q + t := by positivity
  have key := triple_mem_iff (midParams3 { u with q3 := t }) (w - (xCM u : ℂ)) rs (by rw [ea]; simp [hs])
    (by rw [ea, er]; exact hr1) (by rw [ea, er]; exact hr2) (by rw [e1]; positivity) (by rw [e2]; positivity)
    (by
      rw [e1, e2]
      have : 1 - u.q / (1 + u.q + t) - 1 / (1 + u.q + t) = t / (1 + u.q + t) := by field_simp; ring
      rw [this]; positivity)
    (by rw [ea, er, e1, e2]; exact hr) (by rw [ea]; exact hw1) (by rw [ea]; exact hw2) (by rw [er]; exact hw3) z
  rw [ea, er, e1, e2, pairPos_eq] at key
  exact key

/-- The limit of everything that enters the triple branch. -/
theorem third_limit (u : UserParams) (hs : u.s ≠ 0) (hq : 0 < u.q) (w : ℂ)
    (hr1 : thirdPos u ≠ ((1 / 2 * u.s : ℝ) : ℂ)) (hr2 : thirdPos u ≠ -((1 / 2 * u.s : ℝ) : ℂ))
    (hw1 : w - xCM u ≠ ((1 / 2 * u.s : ℝ) : ℂ)) (hw2 : w - xCM u ≠ -((1 / 2 * u.s : ℝ) : ℂ))
    (hw3 : w - xCM u ≠ thirdPos u) (roots : Option (List ℂ) → List ℂ → List ℂ)
    (hroots : ∀ cs : List ℂ, cs.headD 0 ≠ 0 → IsRootList cs (roots none cs)) (rs : List ℂ)
    (hrs : IsRootList (polyCoeffsBinary (w - (xCM u : ℂ)) (1 / 2 * u.s) (u.q / (1 + u.q))) rs) :
    (∀ i, Tendsto (fun t : ℝ => mass3 (midParams3 { u with q3 := t }) i) (𝓝[>] 0) (𝓝 (pairMass u i))) ∧
    (∃ ζ : List ℂ, (∀ z ∈ ζ, evalPoly (strayCoeffs (w - (xCM u : ℂ)) (1 / 2 * u.s) (thirdPos u) (u.q / (1 + u.q))) z = 0) ∧
      ListTendsto (𝓝[>] 0) (fun t : ℝ => (roots none (thirdCoeffs u w t)).map (· + thirdShift u t))
        ([thirdPos u, thirdPos u, thirdPos u] ++ ζ ++ rs)) ∧
    ∀ᶠ t : ℝ in 𝓝[>] 0, ∀ z, z ∈ (roots none (thirdCoeffs u w t)).map (· + thirdShift u t) ↔
      DualSol (mass3 (midParams3 { u with q3 := t })) (pairPos u) (w - (xCM u : ℂ)) z := by
  obtain ⟨ζ, h1, hlead, h3⟩ := third_roots (w - (xCM u : ℂ)) (1 / 2 * u.s) (thirdPos u) (u.q / (1 + u.q)) hw1 hw2 hw3 rs hrs
  have hgh : ∀ l : List ℂ, l.getD 0 0 = l.headD 0 := fun l => by cases l <;> rfl
  have hheadq : ∀ᶠ t : ℝ in 𝓝[>] 0, (thirdCoeffs u w t).headD 0 ≠ 0 := by
    have h0 := thirdCoeffs_tendsto u hq w 0
    simp only [hgh] at h0
    exact h0.eventually_ne hlead
  refine ⟨fun i => ?_, ⟨ζ, h1, ?_⟩, ?_⟩
  · have hm := masses_tendsto u hq
    have m1 := (continuous_fst.tendsto _).comp hm
    have m2 := (continuous_snd.tendsto _).comp hm
    fin_cases i
    · exact m1
    · exact m2
    · have := (tendsto_const_nhds (x := (1 : ℝ)).sub m1).sub m2
      have e : 1 - (u.q / (1 + u.q), 1 - u.q / (1 + u.q)).1 - (u.q / (1 + u.q), 1 - u.q / (1 + u.q)).2 = 0 := by
        simp only; ring
      rw [e] at this
      exact this
  · have h4 := roots_listTendsto (𝓝[>] 0) 10 (thirdCoeffs u w) (fun t => roots none (thirdCoeffs u w t)) _ _
      (fun t => (triple_head _ _ _ _ _).1) (triple_head _ _ _ _ _).1 (thirdCoeffs_tendsto u hq w) hlead
      (hheadq.mono fun t h => hroots _ h) h3
    have h5 := listTendsto_add h4 (thirdShift u) _ (thirdShift_tendsto u hq)
    have e : ∀ (l : List ℂ) (S : ℂ), (l.map (· - S)).map (· + S) = l := by
      intro l S
      rw [List.map_map]
      conv_rhs => rw [← List.map_id l]
      refine List.map_congr_left fun y _ => ?_
      simp
    rw [e] at h5
    exact h5
  · filter_upwards [hheadq, self_mem_nhdsWithin] with t g1 g2
    exact third_mem_iff u hs hq w t g2 _ hr1 hr2 hw1 hw2 hw3 (hroots _ g1)

theorem stray_dual (u : UserParams) (hs : u.s ≠ 0) (hq : 0 < u.q) (v z : ℂ)
    (h : evalPoly (strayCoeffs v (1 / 2 * u.s) (thirdPos u) (u.q / (1 + u.q))) z = 0) :
    z ≠ ((1 / 2 * u.s : ℝ) : ℂ) ∧ z ≠ -((1 / 2 * u.s : ℝ) : ℂ) ∧
    dualOf (pairMass u) (pairPos u) v z = conj (thirdPos u) := by
  have hE : ((u.q / (1 + u.q) : ℝ) : ℂ) ≠ 0 := by
    rw [Complex.ofReal_ne_zero]; positivity
  have hE' : 1 - ((u.q / (1 + u.q) : ℝ) : ℂ) ≠ 0 := by
    have : 1 - u.q / (1 + u.q) ≠ 0 := by
      have e : 1 - u.q / (1 + u.q) = 1 / (1 + u.q) := by field_simp; ring
      rw [e]; positivity
    exact_mod_cast this
  have hA : ((1 / 2 * u.s : ℝ) : ℂ) ≠ 0 := by rw [Complex.ofReal_ne_zero]; simp [hs]
  have hd : dualOf (pairMass u) (pairPos u) v z = conj v + ((u.q / (1 + u.q) : ℝ) : ℂ) / (z - ((1 / 2 * u.s : ℝ) : ℂ)) +
      (1 - ((u.q / (1 + u.q) : ℝ) : ℂ)) / (z + ((1 / 2 * u.s : ℝ) : ℂ)) := by
    simp only [dualOf, Fin.sum_univ_three, pairMass, pairPos, Matrix.cons_val_zero, Matrix.cons_val_one, Matrix.cons_val]
    push_cast; ring
  rw [hd]
  clear hd
  simp only [evalPoly, strayCoeffs, List.foldl_cons, List.foldl_nil] at h
  generalize ((u.q / (1 + u.q) : ℝ) : ℂ) = E at *
  generalize ((1 / 2 * u.s : ℝ) : ℂ) = a at *
  have h1 : z ≠ a := by
    rintro rfl
    exact mul_ne_zero hE hA (by linear_combination h / 2)
  have h2 : z ≠ -a := by
    rintro rfl
    exact mul_ne_zero hE' hA (by linear_combination -h / 2)
  refine ⟨h1, h2, ?_⟩
  have h3 : z - a ≠ 0 := sub_ne_zero.mpr h1
  have h4 : z + a ≠ 0 := fun hc => h2 (by linear_combination hc)
  field_simp
  linear_combination h

theorem third_common (u : UserParams) (hs : u.s ≠ 0) (hq : 0 < u.q) (w : ℂ)
    (hw1 : w - xCM u ≠ ((1 / 2 * u.s : ℝ) : ℂ)) (hw2 : w - xCM u ≠ -((1 / 2 * u.s : ℝ) : ℂ)) (rs : List ℂ)
    (hr1 : thirdPos u ≠ ((1 / 2 * u.s : ℝ) : ℂ)) (hr2 : thirdPos u ≠ -((1 / 2 * u.s : ℝ) : ℂ))
    (hrs : IsRootList (polyCoeffsBinary (w - (xCM u : ℂ)) (1 / 2 * u.s) (u.q / (1 + u.q))) rs) (hnd : rs.Nodup)
    (hr : thirdPos u ∉ rs) :
    (∀ ρ ∈ rs, (∀ i, ρ ≠ pairPos u i) ∧ (lensMap (lensList (pairMass u) (pairPos u)) ρ = w - (xCM u : ℂ) →
      detFormula (lensList (pairMass u) (pairPos u)) ρ ≠ 0)) ∧
    dualOf (pairMass u) (pairPos u) (w - (xCM u : ℂ)) (thirdPos u) ≠ conj (thirdPos u) ∧
    ((∀ i, dualOf (pairMass u) (pairPos u) (w - (xCM u : ℂ)) (thirdPos u) ≠ conj (pairPos u i)) →
      thirdPos u ≠ w - (xCM u : ℂ) + ∑ i, (pairMass u i : ℂ) /
        (dualOf (pairMass u) (pairPos u) (w - (xCM u : ℂ)) (thirdPos u) - conj (pairPos u i))) := by
  set v : ℂ := w - (xCM u : ℂ) with hv
  have ea : (midParams2 u).a = 1 / 2 * u.s := rfl
  have ee : (midParams2 u).e1 = u.q / (1 + u.q) := rfl
  have hdeg : conj v ^ 2 ≠ (((midParams2 u).a : ℝ) : ℂ) ^ 2 := by
    intro h
    have h' := congrArg conj h
    simp only [map_pow, conj_conj, conj_ofReal] at h'
    rcases sq_eq_sq_iff_eq_or_eq_neg.mp h' with h1 | h1
    · exact hw1 h1
    · exact hw2 h1
  obtain ⟨b1, b2, -⟩ := binary_roots (midParams2 u) v rs (by rw [ea]; simp [hs]) (by rw [ee]; positivity)
    (by rw [ee, div_lt_one (by positivity)]; linarith) hrs hdeg hnd
  have hgen : (∀ i, dualOf (pairMass u) (pairPos u) v (thirdPos u) ≠ conj (pos2 (midParams2 u) i)) →
      thirdPos u ≠ v + ∑ i, (pairMass u i : ℂ) / (dualOf (pairMass u) (pairPos u) v (thirdPos u) - conj (pairPos u i)) := by
    intro h1 h2
    refine hr (b2 _ ⟨?_, ?_, ?_⟩)
    · rw [Fin.forall_fin_two]; exact ⟨hr1, hr2⟩
    · intro i; rw [← dualOf_pair]; exact h1 i
    · rw [← dualOf_pair]
      rw [Fin.sum_univ_three] at h2
      rw [Fin.sum_univ_two]
      refine h2.trans ?_
      simp [pairMass, pairPos, mass2, pos2, midParams2]
  refine ⟨fun ρ hρ => ⟨?_, fun h => ?_⟩, fun h => ?_, fun h => hgen fun i => ?_⟩
  · have h1 := (b1 ρ hρ).1.hz
    rw [Fin.forall_fin_two] at h1
    intro i
    fin_cases i
    · exact h1.1
    · exact h1.2
    · rintro rfl; exact hr hρ
  · rw [lensMap_pair] at h
    rw [det_pair]
    intro h0
    have himg : IsImage (lensList (mass2 (midParams2 u)) (pos2 (midParams2 u))) v ρ := by
      refine ⟨fun l hl => ?_, by rw [lensList2]; exact h⟩
      simp only [lensList, List.mem_ofFn] at hl
      obtain ⟨i, rfl⟩ := hl
      exact (b1 ρ hρ).1.hz i
    have h3 := dualDet_image (mass2 (midParams2 u)) (pos2 (midParams2 u)) v ρ ((isImage_iff_dual _ _ _ _).mp himg).2
    rw [lensList2, h0, Complex.ofReal_zero] at h3
    exact (b1 ρ hρ).2 h3
  · refine hgen ?_ ?_
    · rw [h, Fin.forall_fin_two]
      have hinj : Function.Injective (starRingEnd ℂ) := (starRingEnd ℂ).injective
      exact ⟨fun h' => hr1 (hinj h'), fun h' => hr2 (hinj h')⟩
    · have h1 := lensMap_dual (pairMass u) (pairPos u) v (thirdPos u)
      rw [h, Complex.conj_conj, sub_self, lensMap_lensList] at h1
      rw [h]
      linear_combination h1
  · have := h i.castSucc
    fin_cases i
    · exact this
    · exact this

theorem magPointSource_mask3 (roots) (u : UserParams) (w : ℂ) (t : ℝ) :
    magPointSource roots 3 { u with q3 := t } w =
      .ok (maskSum (lensList (mass3 (midParams3 { u with q3 := t })) (pairPos u)) (1 / 10 ^ 3) (w - (xCM u : ℂ))
        ((roots none (thirdCoeffs u w t)).map (· + thirdShift u t))) := by
  rw [← pairPos_eq u t, lensList3]
  simp only [magPointSource, if_neg (show ¬ (3 : ℕ) = 1 by norm_num), if_neg (show ¬ (3 : ℕ) = 2 by norm_num), if_true,
    images3, withMask, sumMag, List.map_map, maskSum, thirdCoeffs, thirdShift]
  congr 2
  refine List.map_congr_left fun z _ => ?_
  simp only [Function.comp, lensEq3_eq, detJac3_eq, detFormula, decide_eq_true_eq]
  rfl

/-- A source position at which the limit is regular: the lenses are at three different places, the source is not behind one
of them, the polynomial of the pair has distinct roots, the third body is not at one of them. -/
structure RegularPair (u : UserParams) (w : ℂ) (rs : List ℂ) : Prop where
  sep : u.s ≠ 0
  ratio : 0 < u.q
  third1 : thirdPos u ≠ ((1 / 2 * u.s : ℝ) : ℂ)
  third2 : thirdPos u ≠ -((1 / 2 * u.s : ℝ) : ℂ)
  off1 : w - xCM u ≠ ((1 / 2 * u.s : ℝ) : ℂ)
  off2 : w - xCM u ≠ -((1 / 2 * u.s : ℝ) : ℂ)
  off3 : w - xCM u ≠ thirdPos u
  roots_all : IsRootList (polyCoeffsBinary (w - (xCM u : ℂ)) (1 / 2 * u.s) (u.q / (1 + u.q))) rs
  simple : rs.Nodup
  third : thirdPos u ∉ rs

/-- **C118, triple**: for every pair of lenses, every position of the third body and every source position at which the limit
is regular, such that the roots of the pair either solve the lens equation or miss the source by more than the tolerance
`1e-3` of the mask of triples, and such that the positions which the pair maps as the massless third body would are further
from that body than the tolerance, whatever the root finder as long as it returns all roots:
`mag_point_source(w, nlenses=3, s, q, q3, r3, psi)` tends to `mag_point_source(w, nlenses=2, s, q)` as `q3` tends to zero,
and this is the true magnification by the pair.
Missing for the full property: the sources within the tolerance, see `C118_tolerance_violated`. -/
theorem C118_triple_partial (roots : Option (List ℂ) → List ℂ → List ℂ)
    (hroots : ∀ cs : List ℂ, cs.headD 0 ≠ 0 → IsRootList cs (roots none cs)) (u : UserParams) (w : ℂ)
    (H : RegularPair u w (roots none (polyCoeffsBinary (w - (xCM u : ℂ)) (1 / 2 * u.s) (u.q / (1 + u.q)))))
    (hsharp : ∀ z ∈ roots none (polyCoeffsBinary (w - (xCM u : ℂ)) (1 / 2 * u.s) (u.q / (1 + u.q))),
      lensEq2 (midParams2 u) z = w - (xCM u : ℂ) ∨ 1 / 10 ^ 3 < ‖lensEq2 (midParams2 u) z - (w - (xCM u : ℂ))‖)
    (hstray : ∀ z : ℂ, z ≠ ((1 / 2 * u.s : ℝ) : ℂ) → z ≠ -((1 / 2 * u.s : ℝ) : ℂ) →
      lensEq2 (midParams2 u) z - (w - (xCM u : ℂ)) = z - thirdPos u → 1 / 10 ^ 3 < ‖z - thirdPos u‖) :
    ∃ (A : ℝ → ℝ) (B : ℝ), (∀ t, magPointSource roots 3 { u with q3 := t } w = .ok (A t)) ∧
      magPointSource roots 2 u w = .ok B ∧ Tendsto A (𝓝[>] 0) (𝓝 B) ∧ B = pointMag (binary u.s u.q) w := by
  have hs := H.sep
  have hq := H.ratio
  set rs := roots none (polyCoeffsBinary (w - (xCM u : ℂ)) (1 / 2 * u.s) (u.q / (1 + u.q))) with hrs
  obtain ⟨l1, ⟨ζ, l2, l3⟩, l4⟩ := third_limit u hs hq w H.third1 H.third2 H.off1 H.off2 H.off3 roots hroots rs H.roots_all
  obtain ⟨c1, c2, c3⟩ := third_common u hs hq w H.off1 H.off2 rs H.third1 H.third2 H.roots_all H.simple H.third
  have hinj : Function.Injective (pairPos u) := pos3_inj (midParams3 u) (by simp [midParams3, hs]) H.third1 H.third2
  have ezeta : ∀ ρ ∈ ζ, lensMap (lensList (pairMass u) (pairPos u)) ρ - (w - (xCM u : ℂ)) = ρ - thirdPos u ∧
      1 / 10 ^ 3 < ‖ρ - thirdPos u‖ := by
    intro ρ hρ
    obtain ⟨k1, k2, k3⟩ := stray_dual u hs hq _ ρ (l2 ρ hρ)
    have k4 := lensMap_dual (pairMass u) (pairPos u) (w - (xCM u : ℂ)) ρ
    rw [k3, Complex.conj_conj] at k4
    refine ⟨k4, hstray ρ k1 k2 ?_⟩
    rw [lensEq2_eq, ← lensMap_pair, k4]
  have hsharp' : ∀ ρ ∈ rs, lensMap (lensList (pairMass u) (pairPos u)) ρ = w - (xCM u : ℂ) ∨
      1 / 10 ^ 3 < ‖lensMap (lensList (pairMass u) (pairPos u)) ρ - (w - (xCM u : ℂ))‖ := by
    intro ρ hρ
    rw [lensMap_pair, ← lensEq2_eq]; exact hsharp ρ hρ
  refine ⟨_, _, fun t => magPointSource_mask3 roots u w t, magPointSource_mask2 roots u w, ?_, ?_⟩
  · have key := vanishing_maskSum (𝓝[>] 0) _ (pairMass u) l1 (pairPos u) hinj (fun _ => w - (xCM u : ℂ)) _
      tendsto_const_nhds 2 rfl (by
      intro i hi; fin_cases i
      · show u.q / (1 + u.q) ≠ 0
        positivity
      · show 1 - u.q / (1 + u.q) ≠ 0
        have e : 1 - u.q / (1 + u.q) = 1 / (1 + u.q) := by field_simp; ring
        rw [e]; positivity
      · exact absurd rfl hi) c2 c3 _ _ l3 (l4.mono fun t ht z hz => (ht z).mp hz) (1 / 10 ^ 3) (by
      intro ρ hρ hne
      rw [List.mem_append, List.mem_append] at hρ
      rcases hρ with (hρ | hρ) | hρ
      · simp only [List.mem_cons, List.not_mem_nil, or_false, or_self] at hρ
        exact absurd hρ hne
      · obtain ⟨k1, k2, -⟩ := stray_dual u hs hq _ ρ (l2 ρ hρ)
        refine ⟨fun i => ?_, Or.inl ?_⟩
        · fin_cases i
          · exact k1
          · exact k2
          · exact hne
        · rw [(ezeta ρ hρ).1]; exact (ezeta ρ hρ).2
      · refine ⟨(c1 ρ hρ).1, ?_⟩
        rcases hsharp' ρ hρ with h | h
        · refine Or.inr ⟨?_, (c1 ρ hρ).2 h⟩
          rw [h, sub_self, norm_zero]; norm_num
        · exact Or.inl h)
    convert key using 2
    have hz : ∀ l : List ℂ, (∀ ρ ∈ l, lensMap (lensList (pairMass u) (pairPos u)) ρ - (w - (xCM u : ℂ)) = ρ - thirdPos u ∧
        1 / 10 ^ 3 < ‖ρ - thirdPos u‖) → maskSum (lensList (pairMass u) (pairPos u)) (1 / 10 ^ 3) (w - (xCM u : ℂ))
          (l.filter (· ≠ pairPos u 2)) = 0 := by
      intro l hl
      unfold maskSum
      refine List.sum_eq_zero fun x hx => ?_
      obtain ⟨ρ, hρ, rfl⟩ := List.mem_map.mp hx
      have h := hl ρ (List.mem_of_mem_filter hρ)
      rw [h.1, if_neg (not_lt.mpr h.2.le), mul_zero]
    have happ : ∀ l l' : List ℂ, maskSum (lensList (pairMass u) (pairPos u)) (1 / 10 ^ 3) (w - (xCM u : ℂ)) (l ++ l') =
        maskSum (lensList (pairMass u) (pairPos u)) (1 / 10 ^ 3) (w - (xCM u : ℂ)) l +
        maskSum (lensList (pairMass u) (pairPos u)) (1 / 10 ^ 3) (w - (xCM u : ℂ)) l' := by
      intro l l'
      simp only [maskSum, List.map_append, List.sum_append]
    have h3 : [thirdPos u, thirdPos u, thirdPos u].filter (· ≠ pairPos u 2) = [] := by
      rw [List.filter_eq_nil_iff]
      intro x hx
      simp only [List.mem_cons, List.not_mem_nil, or_false, or_self] at hx
      rw [hx]
      simp [thirdPos, pairPos]
    have h4 : rs.filter (· ≠ pairPos u 2) = rs := by
      rw [List.filter_eq_self]
      intro x hx
      simpa using (c1 x hx).1 2
    rw [List.filter_append, List.filter_append, happ, happ, h3, h4, hz ζ ezeta]
    simp only [maskSum, List.map_nil, List.sum_nil, zero_add]
    congr 1
    refine List.map_congr_left fun ρ hρ => ?_
    rw [det_pair, lensMap_pair, lensList2]
    congr 1
    rcases hsharp ρ hρ with h | h
    · rw [← lensEq2_eq, h, sub_self, norm_zero, if_pos (by norm_num), if_pos (by norm_num)]
    · rw [← lensEq2_eq, if_neg (not_lt.mpr h.le), if_neg]
      exact not_lt.mpr (le_trans (by norm_num) h.le)
  · have h6 := C06_binary_mag roots u w (by positivity) H.roots_all (by
      intro h
      have h' := congrArg conj h
      simp only [map_pow, conj_conj, conj_ofReal] at h'
      rcases sq_eq_sq_iff_eq_or_eq_neg.mp h' with h1 | h1
      · exact H.off1 h1
      · exact H.off2 h1) H.simple (by
      intro z hz hlt
      refine ⟨?_, (c1 z hz).1 0, (c1 z hz).1 1⟩
      rcases hsharp z hz with h | h
      · exact h
      · exact absurd (h.trans hlt) (by norm_num))
    rw [magPointSource_mask2, Except.ok.injEq] at h6
    exact h6

/-- **C118, the true magnification by three lenses**: at every source position at which the limit is regular, whatever the
tolerance, the magnification by the triple tends to that by the pair as the third mass tends to zero. -/
theorem C118_triple_true (u : UserParams) (w : ℂ) (rs : List ℂ) (H : RegularPair u w rs) :
    Tendsto (fun t : ℝ => pointMag (triple u.s u.q t u.r3 u.psi) w) (𝓝[>] 0) (𝓝 (pointMag (binary u.s u.q) w)) := by
  classical
  have hs := H.sep
  have hq := H.ratio
  obtain ⟨roots, hroots⟩ := exists_finder
  obtain ⟨l1, ⟨ζ, l2, l3⟩, l4⟩ := third_limit u hs hq w H.third1 H.third2 H.off1 H.off2 H.off3 (fun _ => roots) hroots rs
    H.roots_all
  obtain ⟨c1, c2, c3⟩ := third_common u hs hq w H.off1 H.off2 rs H.third1 H.third2 H.roots_all H.simple H.third
  have hinj : Function.Injective (pairPos u) := pos3_inj (midParams3 u) (by simp [midParams3, hs]) H.third1 H.third2
  have ezeta : ∀ ρ ∈ ζ, lensMap (lensList (pairMass u) (pairPos u)) ρ - (w - (xCM u : ℂ)) = ρ - thirdPos u := by
    intro ρ hρ
    obtain ⟨k1, k2, k3⟩ := stray_dual u hs hq _ ρ (l2 ρ hρ)
    have k4 := lensMap_dual (pairMass u) (pairPos u) (w - (xCM u : ℂ)) ρ
    rwa [k3, Complex.conj_conj] at k4
  set V : List ℂ := rs.filter fun ρ => decide (lensMap (lensList (pairMass u) (pairPos u)) ρ = w - (xCM u : ℂ)) with hV
  have hfil : ([thirdPos u, thirdPos u, thirdPos u] ++ ζ ++ rs).filter (fun ρ => decide (ρ ≠ pairPos u 2 ∧
      lensMap (lensList (pairMass u) (pairPos u)) ρ = w - (xCM u : ℂ))) = V := by
    rw [List.filter_append, List.filter_append]
    have h3 : [thirdPos u, thirdPos u, thirdPos u].filter (fun ρ => decide (ρ ≠ pairPos u 2 ∧
        lensMap (lensList (pairMass u) (pairPos u)) ρ = w - (xCM u : ℂ))) = [] := by
      rw [List.filter_eq_nil_iff]
      intro x hx
      simp only [List.mem_cons, List.not_mem_nil, or_false, or_self] at hx
      rw [hx, decide_eq_true_eq]
      exact fun h => h.1 rfl
    have h4 : ζ.filter (fun ρ => decide (ρ ≠ pairPos u 2 ∧
        lensMap (lensList (pairMass u) (pairPos u)) ρ = w - (xCM u : ℂ))) = [] := by
      rw [List.filter_eq_nil_iff]
      intro x hx
      rw [decide_eq_true_eq]
      intro h
      have h5 := ezeta x hx
      rw [h.2, sub_self] at h5
      exact h.1 (sub_eq_zero.mp h5.symm)
    rw [h3, h4, List.nil_append, List.nil_append, hV]
    refine List.filter_congr fun x hx => ?_
    have := (c1 x hx).1 2
    simp [this]
  have key := vanishing_pointMag (𝓝[>] 0) _ (pairMass u) l1 (pairPos u) hinj (fun _ => w - (xCM u : ℂ)) _
    tendsto_const_nhds 2 rfl (by
    intro i hi; fin_cases i
    · show u.q / (1 + u.q) ≠ 0
      positivity
    · show 1 - u.q / (1 + u.q) ≠ 0
      have e : 1 - u.q / (1 + u.q) = 1 / (1 + u.q) := by field_simp; ring
      rw [e]; positivity
    · exact absurd rfl hi) c2 c3 _ _ l3 l4 (by
    intro ρ hρ hne
    rw [List.mem_append, List.mem_append] at hρ
    rcases hρ with (hρ | hρ) | hρ
    · simp only [List.mem_cons, List.not_mem_nil, or_false, or_self] at hρ
      exact absurd hρ hne
    · obtain ⟨k1, k2, -⟩ := stray_dual u hs hq _ ρ (l2 ρ hρ)
      refine ⟨fun i => ?_, fun h => ?_⟩
      · fin_cases i
        · exact k1
        · exact k2
        · exact hne
      · have h5 := ezeta ρ hρ
        rw [h, sub_self] at h5
        exact absurd (sub_eq_zero.mp h5.symm) hne
    · exact c1 ρ hρ) V (by rw [hfil]) (H.simple.filter _)
  have e0 : pointMag (binary u.s u.q) w = (V.map fun z => 1 / |detFormula (lensList (pairMass u) (pairPos u)) z|).sum := by
    have h1 : pointMag (binary u.s u.q) w = pointMag (midBinary (midParams2 u)) (w - xCM u) := by
      rw [← (C08_binary_frame u (by positivity)).1, show w = (w - xCM u) + xCM u by ring, pointMag_translate]
      simp
    rw [h1, pointMag_of_list _ _ V (H.simple.filter _) ?_]
    · congr 1
      exact List.map_congr_left fun z _ => by rw [det_pair]
    · intro z
      rw [hV, List.mem_filter, decide_eq_true_eq, lensMap_pair]
      constructor
      · rintro ⟨h1, h2⟩
        refine ⟨fun l hl => ?_, h2⟩
        simp only [midBinary, List.mem_cons, List.not_mem_nil, or_false] at hl
        rcases hl with rfl | rfl
        · exact (c1 z h1).1 0
        · exact (c1 z h1).1 1
      · intro h
        refine ⟨IsRootList.mem_of_eval_zero H.roots_all ?_ ?_, h.2⟩
        · rw [(C04_binary_leading _ _ _).2]
          intro hc
          have h' := congrArg conj (sub_eq_zero.mp hc)
          simp only [map_pow, conj_conj, conj_ofReal] at h'
          rcases sq_eq_sq_iff_eq_or_eq_neg.mp h' with h1 | h1
          · exact H.off1 h1
          · exact H.off2 h1
        · refine C04_binary_complete (midParams2 u) _ z (h.1 ((midParams2 u).e1, ((midParams2 u).a : ℂ)) (by simp [midBinary]))
            (h.1 (1 - (midParams2 u).e1, -((midParams2 u).a : ℂ)) (by simp [midBinary])) ?_
          rw [lensEq2_eq]; exact h.2
  rw [e0]
  refine key.congr' ?_
  filter_upwards [self_mem_nhdsWithin] with t ht
  have ht' : (0 : ℝ) < t := ht
  have e2 := (C08_triple_frame { u with q3 := t } (by show 1 + u.q ≠ 0; positivity)
    (by show 1 + u.q + t ≠ 0; positivity)).1
  have e3 : xCM { u with q3 := t } = xCM u := rfl
  rw [← pairPos_eq u t, lensList3, ← e2, e3]
  rw [show w = (w - xCM u) + xCM u by ring, pointMag_translate]
  simp

/-! ### A concrete case: a third body at distance two of the equal-mass pair of unit separation, source at the centre -/

/-- The equal-mass pair of unit separation with a third body at distance two. -/
def exPair : UserParams := { s := 1, q := 1, q3 := 1, r3 := 2, psi := 0 }

theorem exPair_third : thirdPos exPair = 2 := by simp [thirdPos, r3Complex, midParams3, exPair]

theorem exPair_regular (rs : List ℂ)
    (h : IsRootList (polyCoeffsBinary (0 - (xCM exPair : ℂ)) (1 / 2 * exPair.s) (exPair.q / (1 + exPair.q))) rs) :
    RegularPair exPair 0 rs ∧ rs.Perm exRoots := by
  have hx : (0 : ℂ) - (xCM exPair : ℂ) = 0 := by simp [xCM, exPair]
  have ha : 1 / 2 * exPair.s = (midParams2 exU).a := by simp [exPair, exU, midParams2]
  have he : exPair.q / (1 + exPair.q) = (midParams2 exU).e1 := by simp [exPair, exU, midParams2]
  have ha' : ((1 / 2 * exPair.s : ℝ) : ℂ) = 1 / 2 := by simp [exPair]
  have hperm : rs.Perm exRoots := by
    have h2 := exRoots_isRootList
    rw [hx, ha, he] at h
    apply perm_of_prod_eq
    intro y
    have h3 := h y
    rw [h2 y] at h3
    refine (mul_left_cancel₀ ?_ h3).symm
    rw [(C04_binary_leading _ _ _).2, exU_a]
    norm_num
  refine ⟨⟨one_ne_zero, one_pos, ?_, ?_, ?_, ?_, ?_, h, hperm.nodup_iff.mpr exRoots_nodup, ?_⟩, hperm⟩
  · rw [exPair_third, ha']; norm_num
  · rw [exPair_third, ha']; norm_num
  · rw [hx, ha']; norm_num
  · rw [hx, ha']; norm_num
  · rw [hx, exPair_third]; norm_num
  · rw [exPair_third, hperm.mem_iff]
    intro hm
    have h5 : Real.sqrt 5 ^ 2 = 5 := Real.sq_sqrt (by norm_num)
    have h50 := Real.sqrt_nonneg 5
    simp only [exRoots, List.mem_cons, List.not_mem_nil, or_false] at hm
    rcases hm with h | h | h | h | h
    · norm_num at h
    · have := congrArg Complex.re h
      simp at this
      nlinarith
    · have := congrArg Complex.re h
      simp at this
      nlinarith
    · have := congrArg Complex.re h
      simp at this
    · have := congrArg Complex.re h
      simp at this

example : ∃ (roots : Option (List ℂ) → List ℂ → List ℂ) (A : ℝ → ℝ),
    (∀ t, magPointSource roots 3 { exPair with q3 := t } 0 = .ok (A t)) ∧
      Tendsto A (𝓝[>] 0) (𝓝 (pointMag (binary 1 1) 0)) := by
  obtain ⟨roots, hroots⟩ := exists_finder
  have hx : (0 : ℂ) - (xCM exPair : ℂ) = 0 := by simp [xCM, exPair]
  have ha' : ((1 / 2 * exPair.s : ℝ) : ℂ) = 1 / 2 := by simp [exPair]
  have hp : midParams2 exPair = midParams2 exU := by simp [midParams2, exPair, exU]
  have hr := hroots (polyCoeffsBinary (0 - (xCM exPair : ℂ)) (1 / 2 * exPair.s) (exPair.q / (1 + exPair.q))) (by
    rw [(C04_binary_leading _ _ _).2, hx, ha']; norm_num)
  obtain ⟨H, hperm⟩ := exPair_regular _ hr
  obtain ⟨A, B, h1, -, h3, h4⟩ := C118_triple_partial (fun _ => roots) hroots exPair 0 H
    (fun z hz => Or.inl (by rw [hx, hp]; exact (exRoots_images z (hperm.mem_iff.mp hz)).1)) (by
    intro z z1 z2 hz
    rw [hx, exPair_third, hp] at hz
    rw [exPair_third]
    rw [ha'] at z1 z2
    by_contra hle
    rw [not_lt] at hle
    have g1 : conj z - 1 / 2 ≠ 0 := fun hc => z1 (by
      have := congrArg conj (sub_eq_zero.mp hc); simpa [Complex.conj_ofNat] using this)
    have g2 : conj z + 1 / 2 ≠ 0 := fun hc => z2 (by
      have := congrArg conj (eq_neg_of_add_eq_zero_left hc); simpa [Complex.conj_ofNat] using this)
    have k : 2 * conj z ^ 2 - conj z - 1 / 2 = 0 := by
      simp only [lensEq2, exU_a, exU_e1] at hz
      push_cast at hz
      have g3 : 2 * conj z - 1 ≠ 0 := fun hc => g1 (by linear_combination hc / 2)
      have g4 : 2 * conj z + 1 ≠ 0 := fun hc => g2 (by linear_combination hc / 2)
      have : 1 / 2 / (conj z - 1 / 2) + (1 - 1 / 2) / (conj z + 1 / 2) = (2 : ℂ) := by linear_combination -hz
      field_simp at this
      linear_combination -this / 4
    set d : ℂ := conj z - 2 with hd
    have hdn : ‖d‖ ≤ 1 / 10 ^ 3 := by
      have : d = conj (z - 2) := by rw [hd, map_sub, Complex.conj_ofNat]
      rw [this, Complex.norm_conj]; exact hle
    have k2 : (11 / 2 : ℂ) = -(7 * d) - 2 * d ^ 2 := by rw [hd]; linear_combination k
    have k3 := norm_sub_le (-(7 * d)) (2 * d ^ 2)
    rw [← k2, norm_neg, norm_mul, norm_mul, norm_pow] at k3
    norm_num at k3 hdn
    nlinarith [norm_nonneg d])
  exact ⟨fun _ => roots, A, h1, by rw [h4] at h3; exact h3⟩

example : Tendsto (fun t : ℝ => pointMag (triple 1 1 t 2 0) 0) (𝓝[>] 0) (𝓝 (pointMag (binary 1 1) 0)) := by
  obtain ⟨roots, hroots⟩ := exists_finder
  have hx : (0 : ℂ) - (xCM exPair : ℂ) = 0 := by simp [xCM, exPair]
  have ha' : ((1 / 2 * exPair.s : ℝ) : ℂ) = 1 / 2 := by simp [exPair]
  exact C118_triple_true exPair 0 _ (exPair_regular _ (hroots _ (by
    rw [(C04_binary_leading _ _ _).2, hx, ha']; norm_num))).1

end Microjax.Props
