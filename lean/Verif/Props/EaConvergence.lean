import Verif.Props.PolySolver
import Mathlib.Analysis.Calculus.LogDeriv
import Mathlib.Algebra.BigOperators.Fin

/-!
# C80: convergence of the Ehrlich-Aberth solver

Starting values near simple roots: every component converges to its own root, at the stated rate, and the result is
within the tolerance.
-/

noncomputable section

namespace Microjax.Props

open Complex ComplexConjugate Spec PolySolver

/-- The polynomial as a product over an indexed family of roots. -/
theorem eval_ofFn {coeffs : List ℂ} {n : ℕ} {ρ : Fin n → ℂ} (h : IsRootList coeffs (List.ofFn ρ)) (x : ℂ) :
    evalPoly coeffs x = coeffs.headD 0 * ∏ j, (x - ρ j) := by
  rw [h x, List.map_ofFn, List.prod_ofFn]; rfl

/-- Value and derivative of the polynomial, with the factor of one root split off. -/
theorem poly_parts {coeffs : List ℂ} {n : ℕ} {ρ : Fin n → ℂ} (h : IsRootList coeffs (List.ofFn ρ)) (i : Fin n) (x : ℂ)
    (hne : ∀ j, j ≠ i → x ≠ ρ j) :
    evalPoly coeffs x = (x - ρ i) * (coeffs.headD 0 * ∏ j ∈ Finset.univ.erase i, (x - ρ j)) ∧
    evalPoly (polyderCoeffs coeffs) x = (coeffs.headD 0 * ∏ j ∈ Finset.univ.erase i, (x - ρ j)) *
      (1 + (x - ρ i) * ∑ j ∈ Finset.univ.erase i, 1 / (x - ρ j)) := by
  have hsplit : ∀ y, evalPoly coeffs y = (y - ρ i) * (coeffs.headD 0 * ∏ j ∈ Finset.univ.erase i, (y - ρ j)) := by
    intro y
    rw [eval_ofFn h, ← Finset.mul_prod_erase _ _ (Finset.mem_univ i)]; ring
  refine ⟨hsplit x, ?_⟩
  have hg : HasDerivAt (fun y => ∏ j ∈ Finset.univ.erase i, (y - ρ j))
      ((∏ j ∈ Finset.univ.erase i, (x - ρ j)) * ∑ j ∈ Finset.univ.erase i, 1 / (x - ρ j)) x := by
    have := HasDerivAt.fun_finsetProd (u := Finset.univ.erase i) (f := fun j (y : ℂ) => y - ρ j) (f' := fun _ => 1)
      (x := x) (fun j _ => (hasDerivAt_id x).sub_const (ρ j))
    refine this.congr_deriv ?_
    rw [Finset.mul_sum]
    refine Finset.sum_congr rfl fun j hj => ?_
    have hne' : x - ρ j ≠ 0 := sub_ne_zero.mpr (hne j (Finset.ne_of_mem_erase hj))
    rw [← Finset.mul_prod_erase _ _ hj]
    simp only [smul_eq_mul, mul_one]
    field_simp
  have hd := ((hasDerivAt_id x).sub_const (ρ i)).fun_mul (hg.const_mul (coeffs.headD 0))
  have hf : HasDerivAt (evalPoly coeffs) _ x :=
    (show evalPoly coeffs = fun y => (id y - ρ i) * (coeffs.headD 0 * ∏ j ∈ Finset.univ.erase i, (y - ρ j)) from
      funext hsplit) ▸ hd
  rw [(C14_polyder coeffs x).unique hf]
  simp only [id]
  ring

/-- The repulsion sum of the code for a family of distinct values. -/
theorem repulsion_sum {n : ℕ} (z : Fin n → ℂ) (i : Fin n) (hz : ∀ j, j ≠ i → z i ≠ z j) :
    ((List.ofFn z).map fun r : ℂ => if z i - r = 0 then 0 else 1 / (z i - r)).sum
      = ∑ j ∈ Finset.univ.erase i, 1 / (z i - z j) := by
  rw [List.map_ofFn, List.sum_ofFn, ← Finset.add_sum_erase _ _ (Finset.mem_univ i)]
  simp only [Function.comp_apply, sub_self, if_true, zero_add]
  refine Finset.sum_congr rfl fun j hj => ?_
  rw [if_neg (sub_ne_zero.mpr (hz j (Finset.ne_of_mem_erase hj)))]

/-- Situation of the theorems: `ρ` are the roots, at least `δ` apart; the current values `z` are within `e` of them
and `4 n e ≤ δ`. -/
structure Near {n : ℕ} (coeffs : List ℂ) (ρ z : Fin n → ℂ) (δ e : ℝ) : Prop where
  roots : IsRootList coeffs (List.ofFn ρ)
  lead : coeffs.headD 0 ≠ 0
  pos : 0 < δ
  sep : ∀ i j, i ≠ j → δ ≤ ‖ρ i - ρ j‖
  close : ∀ i, ‖z i - ρ i‖ ≤ e
  small : 4 * n * e ≤ δ

variable {n : ℕ} {coeffs : List ℂ} {ρ z : Fin n → ℂ} {δ e : ℝ}

theorem Near.e_nonneg (h : Near coeffs ρ z δ e) (i : Fin n) : 0 ≤ e := (norm_nonneg _).trans (h.close i)

theorem Near.n_pos (_h : Near coeffs ρ z δ e) (i : Fin n) : (1 : ℝ) ≤ n := by
  exact_mod_cast Nat.one_le_iff_ne_zero.mpr (by rintro rfl; exact i.elim0)

theorem Near.e_le (h : Near coeffs ρ z δ e) (i : Fin n) : e ≤ δ / 4 := by
  have h1 := h.n_pos i
  have h2 := h.e_nonneg i
  have h3 := h.small
  nlinarith

theorem Near.dist_root (h : Near coeffs ρ z δ e) {i j : Fin n} (hij : j ≠ i) : 3 / 4 * δ ≤ ‖z i - ρ j‖ := by
  have h1 := h.sep i j hij.symm
  have h2 := h.close i
  have h3 := h.e_le i
  have h4 : ‖ρ i - ρ j‖ ≤ ‖z i - ρ j‖ + ‖z i - ρ i‖ := by
    rw [show ρ i - ρ j = (z i - ρ j) - (z i - ρ i) by ring]; exact norm_sub_le _ _
  linarith

theorem Near.dist_value (h : Near coeffs ρ z δ e) {i j : Fin n} (hij : j ≠ i) : 1 / 2 * δ ≤ ‖z i - z j‖ := by
  have h1 := h.dist_root hij
  have h2 := h.close j
  have h3 := h.e_le i
  have h4 : ‖z i - ρ j‖ ≤ ‖z i - z j‖ + ‖z j - ρ j‖ := by
    rw [show z i - ρ j = (z i - z j) + (z j - ρ j) by ring]; exact norm_add_le _ _
  linarith

theorem Near.ne_root (h : Near coeffs ρ z δ e) {i j : Fin n} (hij : j ≠ i) : z i - ρ j ≠ 0 := by
  rw [← norm_pos_iff]; have := h.dist_root hij; have := h.pos; linarith

theorem Near.ne_value (h : Near coeffs ρ z δ e) {i j : Fin n} (hij : j ≠ i) : z i - z j ≠ 0 := by
  rw [← norm_pos_iff]; have := h.dist_value hij; have := h.pos; linarith

/-- relative correction of the Newton step -/
def newtonX (ρ z : Fin n → ℂ) (i : Fin n) : ℂ := (z i - ρ i) * ∑ j ∈ Finset.univ.erase i, 1 / (z i - ρ j)

/-- relative correction of the Ehrlich-Aberth step -/
def aberthX (ρ z : Fin n → ℂ) (i : Fin n) : ℂ :=
  (z i - ρ i) * ∑ j ∈ Finset.univ.erase i, (1 / (z i - ρ j) - 1 / (z i - z j))

theorem card_erase_le (i : Fin n) : ((Finset.univ.erase i).card : ℝ) = n - 1 := by
  rw [Finset.card_erase_of_mem (Finset.mem_univ i), Finset.card_univ, Fintype.card_fin,
    Nat.cast_sub (Nat.one_le_iff_ne_zero.mpr (by rintro rfl; exact i.elim0))]
  simp

theorem Near.newtonX_le (h : Near coeffs ρ z δ e) (i : Fin n) : ‖newtonX ρ z i‖ ≤ 1 / 3 := by
  have hδ := h.pos
  have hn := h.n_pos i
  have he := h.e_nonneg i
  have hs : ‖∑ j ∈ Finset.univ.erase i, 1 / (z i - ρ j)‖ ≤ (n - 1) * (1 / (3 / 4 * δ)) := by
    refine (norm_sum_le _ _).trans ?_
    rw [← card_erase_le i, ← nsmul_eq_mul]
    refine Finset.sum_le_card_nsmul _ _ _ fun j hj => ?_
    rw [norm_div, norm_one]
    exact one_div_le_one_div_of_le (by positivity) (h.dist_root (Finset.ne_of_mem_erase hj))
  rw [newtonX, norm_mul]
  calc ‖z i - ρ i‖ * ‖∑ j ∈ Finset.univ.erase i, 1 / (z i - ρ j)‖
      ≤ e * ((n - 1) * (1 / (3 / 4 * δ))) := mul_le_mul (h.close i) hs (norm_nonneg _) he
    _ ≤ 1 / 3 := by
      rw [show e * ((n - 1) * (1 / (3 / 4 * δ))) = (4 * (n - 1) * e) / (3 * δ) by field_simp,
        div_le_div_iff₀ (by positivity) (by norm_num)]
      nlinarith [h.small]

theorem Near.aberthX_le (h : Near coeffs ρ z δ e) (i : Fin n) :
    ‖aberthX ρ z i‖ ≤ 8 / 3 * (n - 1) * e / δ ^ 2 * ‖z i - ρ i‖ ∧ ‖aberthX ρ z i‖ ≤ 1 / 3 := by
  have hδ := h.pos
  have hn := h.n_pos i
  have he := h.e_nonneg i
  have hs : ‖∑ j ∈ Finset.univ.erase i, (1 / (z i - ρ j) - 1 / (z i - z j))‖
      ≤ (n - 1) * (e / (3 / 4 * δ * (1 / 2 * δ))) := by
    refine (norm_sum_le _ _).trans ?_
    rw [← card_erase_le i, ← nsmul_eq_mul]
    refine Finset.sum_le_card_nsmul _ _ _ fun j hj => ?_
    have hij := Finset.ne_of_mem_erase hj
    have e1 : 1 / (z i - ρ j) - 1 / (z i - z j) = -(z j - ρ j) / ((z i - ρ j) * (z i - z j)) := by
      rw [div_sub_div _ _ (h.ne_root hij) (h.ne_value hij)]; congr 1; ring
    rw [e1, norm_div, norm_neg, norm_mul]
    exact div_le_div₀ he (h.close j) (by positivity)
      (mul_le_mul (h.dist_root hij) (h.dist_value hij) (by positivity) (norm_nonneg _))
  have h1 : ‖aberthX ρ z i‖ ≤ 8 / 3 * (n - 1) * e / δ ^ 2 * ‖z i - ρ i‖ := by
    rw [aberthX, norm_mul, mul_comm]
    refine mul_le_mul_of_nonneg_right (hs.trans (le_of_eq ?_)) (norm_nonneg _)
    field_simp; ring
  refine ⟨h1, h1.trans ?_⟩
  have h0 : 0 ≤ 8 / 3 * (n - 1) * e / δ ^ 2 := by
    have : (0 : ℝ) ≤ n - 1 := by linarith
    positivity
  refine (mul_le_mul_of_nonneg_left (h.close i) h0).trans ?_
  rw [div_mul_eq_mul_div, div_le_iff₀ (by positivity)]
  have h4 := h.small
  have h5 : (4 * n * e) * (4 * n * e) ≤ δ * δ := mul_self_le_mul_self (by positivity) h4
  have h6 : (n : ℝ) * e ^ 2 ≤ n ^ 2 * e ^ 2 := by
    have : (n : ℝ) ≤ n ^ 2 := by nlinarith
    exact mul_le_mul_of_nonneg_right this (by positivity)
  nlinarith [sq_nonneg e]

/-- The update of one component: error over one plus a correction, the correction being the one of the
Ehrlich-Aberth step or, if the guard is active, of the Newton step. -/
theorem Near.update (h : Near coeffs ρ z δ e) (eps : ℝ) (i : Fin n) :
    ∃ X, eaUpdate (List.ofFn z) coeffs (polyderCoeffs coeffs) eps (z i) = (z i - ρ i) / (1 + X) ∧
      (X = aberthX ρ z i ∨ X = newtonX ρ z i) ∧
      (eps ≤ 2 / 3 * (‖coeffs.headD 0‖ * (3 / 4 * δ) ^ (n - 1)) → X = aberthX ρ z i) := by
  obtain ⟨hf, hf'⟩ := poly_parts h.roots i (z i) fun j hj => sub_ne_zero.mp (h.ne_root hj)
  set g := coeffs.headD 0 * ∏ j ∈ Finset.univ.erase i, (z i - ρ j) with hg
  have hg0 : g ≠ 0 := mul_ne_zero h.lead
    (Finset.prod_ne_zero_iff.mpr fun j hj => h.ne_root (Finset.ne_of_mem_erase hj))
  have hgn : ‖coeffs.headD 0‖ * (3 / 4 * δ) ^ (n - 1) ≤ ‖g‖ := by
    rw [hg, norm_mul]
    refine mul_le_mul_of_nonneg_left ?_ (norm_nonneg _)
    rw [norm_prod]
    have hc : (Finset.univ.erase i).card = n - 1 := by
      rw [Finset.card_erase_of_mem (Finset.mem_univ i), Finset.card_univ, Fintype.card_fin]
    rw [← hc, ← Finset.prod_const]
    have := h.pos
    exact Finset.prod_le_prod (fun _ _ => by positivity) fun j hj => h.dist_root (Finset.ne_of_mem_erase hj)
  have hs := repulsion_sum z i fun j hj => sub_ne_zero.mp (h.ne_value hj)
  have hden : evalPoly (polyderCoeffs coeffs) (z i) - evalPoly coeffs (z i) *
      ((List.ofFn z).map fun r : ℂ => if z i - r = 0 then 0 else 1 / (z i - r)).sum = g * (1 + aberthX ρ z i) := by
    rw [hs, hf, hf', aberthX, Finset.sum_sub_distrib]; ring
  have key : ∀ X : ℂ, (z i - ρ i) * g / (g * (1 + X)) = (z i - ρ i) / (1 + X) := by
    intro X; rw [mul_comm (z i - ρ i) g, mul_div_mul_left _ _ hg0]
  by_cases hguard : ‖g * (1 + aberthX ρ z i)‖ < eps
  · refine ⟨newtonX ρ z i, ?_, Or.inr rfl, ?_⟩
    · simp only [eaUpdate, polyval_eq_evalPoly, hden, if_pos hguard]
      rw [hf, hf']; exact key _
    · intro he
      exfalso
      have h1 := (h.aberthX_le i).2
      have h2 : 2 / 3 ≤ ‖1 + aberthX ρ z i‖ := by
        have : ‖(1 : ℂ)‖ ≤ ‖1 + aberthX ρ z i‖ + ‖aberthX ρ z i‖ := by
          rw [show (1 : ℂ) = (1 + aberthX ρ z i) - aberthX ρ z i by ring]
          simpa using norm_sub_le (1 + aberthX ρ z i) (aberthX ρ z i)
        rw [norm_one] at this; linarith
      rw [norm_mul] at hguard
      have h3 : 2 / 3 * (‖coeffs.headD 0‖ * (3 / 4 * δ) ^ (n - 1)) ≤ ‖g‖ * ‖1 + aberthX ρ z i‖ := by
        rw [mul_comm]
        exact mul_le_mul hgn h2 (by norm_num) (norm_nonneg _)
      linarith
  · refine ⟨aberthX ρ z i, ?_, Or.inl rfl, fun _ => rfl⟩
    simp only [eaUpdate, polyval_eq_evalPoly, hden, if_neg hguard]
    rw [hf]; exact key _

/-- Consequences for the size of the update and of the new error. -/
theorem contraction (ε X : ℂ) (hX : ‖X‖ ≤ 1 / 3) :
    ‖ε - ε / (1 + X)‖ ≤ 3 / 2 * ‖X‖ * ‖ε‖ ∧ ‖ε / (1 + X)‖ ≤ 3 / 2 * ‖ε‖ ∧ 3 / 4 * ‖ε‖ ≤ ‖ε / (1 + X)‖ := by
  have h1 : 2 / 3 ≤ ‖1 + X‖ := by
    have : ‖(1 : ℂ)‖ ≤ ‖1 + X‖ + ‖X‖ := by simpa using norm_sub_le (1 + X) X
    rw [norm_one] at this; linarith
  have h2 : ‖1 + X‖ ≤ 4 / 3 := by
    have := norm_add_le (1 : ℂ) X
    rw [norm_one] at this; linarith
  have hp : 0 < ‖1 + X‖ := by linarith
  have h0 : 1 + X ≠ 0 := norm_pos_iff.mp hp
  have hε := norm_nonneg ε
  have hXn := norm_nonneg X
  refine ⟨?_, ?_, ?_⟩
  · rw [show ε - ε / (1 + X) = X * ε / (1 + X) by field_simp; ring, norm_div, norm_mul, div_le_iff₀ hp]
    nlinarith [mul_nonneg hXn hε]
  · rw [norm_div, div_le_iff₀ hp]; nlinarith
  · rw [norm_div, le_div_iff₀ hp]; nlinarith

theorem Near.step (h : Near coeffs ρ z δ e) (eps : ℝ) (i : Fin n) :
    ‖z i - eaUpdate (List.ofFn z) coeffs (polyderCoeffs coeffs) eps (z i) - ρ i‖ ≤ 1 / 2 * ‖z i - ρ i‖ ∧
    ‖eaUpdate (List.ofFn z) coeffs (polyderCoeffs coeffs) eps (z i)‖ ≤ 3 / 2 * ‖z i - ρ i‖ ∧
    3 / 4 * ‖z i - ρ i‖ ≤ ‖eaUpdate (List.ofFn z) coeffs (polyderCoeffs coeffs) eps (z i)‖ := by
  obtain ⟨X, h1, h2, -⟩ := h.update eps i
  have hX : ‖X‖ ≤ 1 / 3 := by
    rcases h2 with rfl | rfl
    · exact (h.aberthX_le i).2
    · exact h.newtonX_le i
  obtain ⟨a, b, c⟩ := contraction (z i - ρ i) X hX
  rw [h1]
  refine ⟨?_, b, c⟩
  rw [show z i - (z i - ρ i) / (1 + X) - ρ i = (z i - ρ i) - (z i - ρ i) / (1 + X) by ring]
  refine a.trans ?_
  have := norm_nonneg (z i - ρ i)
  nlinarith

/-- **C80, rate**: one sweep of `_ea_step` from values within `e` of well-separated roots reduces the error of every
component by the factor `4 (n-1) e |error| / δ²` (cubic convergence), provided the polynomial is not scaled so small that
the guard of the denominator is active. -/
theorem C80_cubic (coeffs : List ℂ) (ρ z : Fin n → ℂ) (δ e eps : ℝ) (h : Near coeffs ρ z δ e)
    (heps : eps ≤ 2 / 3 * (‖coeffs.headD 0‖ * (3 / 4 * δ) ^ (n - 1))) :
    ∃ z' : Fin n → ℂ, (eaStep (List.ofFn z) coeffs (polyderCoeffs coeffs) eps).1 = List.ofFn z' ∧
      ∀ i, ‖z' i - ρ i‖ ≤ 4 * (n - 1) * e / δ ^ 2 * ‖z i - ρ i‖ ^ 2 := by
  refine ⟨fun i => z i - eaUpdate (List.ofFn z) coeffs (polyderCoeffs coeffs) eps (z i), ?_, fun i => ?_⟩
  · apply List.ext_getElem
    · simp [eaStep]
    · intro k h1 h2
      simp [eaStep]
  · obtain ⟨X, h1, -, h2⟩ := h.update eps i
    have hX := h2 heps
    obtain ⟨b1, b2⟩ := h.aberthX_le i
    rw [← hX] at b1 b2
    obtain ⟨a, -, -⟩ := contraction (z i - ρ i) X b2
    beta_reduce
    rw [h1, show z i - (z i - ρ i) / (1 + X) - ρ i = (z i - ρ i) - (z i - ρ i) / (1 + X) by ring]
    refine a.trans ?_
    have := mul_le_mul_of_nonneg_right b1 (norm_nonneg (z i - ρ i))
    calc 3 / 2 * ‖X‖ * ‖z i - ρ i‖ = 3 / 2 * (‖X‖ * ‖z i - ρ i‖) := by ring
      _ ≤ 3 / 2 * (8 / 3 * (n - 1) * e / δ ^ 2 * ‖z i - ρ i‖ * ‖z i - ρ i‖) := by gcongr
      _ = _ := by ring

/-- Invariant of the sweeps: after `k` of them every component is still within `e` of its root, unflagged components
within `e / 2^k`, flagged ones within two thirds of the tolerance. -/
structure Inv (ρ : Fin n → ℂ) (e tol : ℝ) (k : ℕ) (s : State) (z : Fin n → ℂ) (d : Fin n → Bool) : Prop where
  roots : s.roots = List.ofFn z
  done : s.done = List.ofFn d
  near : ∀ i, ‖z i - ρ i‖ ≤ e
  open_ : ∀ i, d i = false → ‖z i - ρ i‖ ≤ e / 2 ^ k
  closed : ∀ i, d i = true → ‖z i - ρ i‖ ≤ 2 / 3 * tol

theorem inv_step (z₀ : Fin n → ℂ) (h : Near coeffs ρ z₀ δ e) (eps tol : ℝ) (k : ℕ) (s : State) (z : Fin n → ℂ)
    (d : Fin n → Bool) (hI : Inv ρ e tol k s z d) :
    ∃ z' d', Inv ρ e tol (k + 1) (bodyFun coeffs (polyderCoeffs coeffs) eps tol s) z' d' ∧
      (3 / 2 * (e / 2 ^ k) ≤ tol → ∀ i, d' i = true) := by
  have hz : Near coeffs ρ z δ e := ⟨h.roots, h.lead, h.pos, h.sep, hI.near, h.small⟩
  set u : Fin n → ℂ := fun i => eaUpdate (List.ofFn z) coeffs (polyderCoeffs coeffs) eps (z i) with hu
  have hst := fun i => hz.step eps i
  refine ⟨fun i => if d i then z i else z i - u i, fun i => d i || decide (‖u i‖ ≤ tol), ⟨?_, ?_, ?_, ?_, ?_⟩, ?_⟩
  · apply List.ext_getElem
    · simp [bodyFun, eaStep, hI.roots, hI.done]
    · intro m h1 h2
      simp [bodyFun, eaStep, hI.roots, hI.done, hu]
  · apply List.ext_getElem
    · simp [bodyFun, eaStep, hI.roots, hI.done]
    · intro m h1 h2
      simp [bodyFun, eaStep, hI.roots, hI.done, hu]
  · intro i
    have h1 := hI.near i
    have h2 := (hst i).1
    have h3 := norm_nonneg (z i - ρ i)
    split_ifs
    · exact h1
    · change ‖z i - u i - ρ i‖ ≤ e
      linarith
  · intro i hi
    rw [Bool.or_eq_false_iff] at hi
    have h1 := hI.open_ i hi.1
    have h2 := (hst i).1
    rw [if_neg (by simp [hi.1])]
    change ‖z i - u i - ρ i‖ ≤ _
    rw [pow_succ, ← div_div]
    linarith
  · intro i hi
    split_ifs with hd
    · exact hI.closed i hd
    · have hdf : d i = false := by simpa using hd
      rw [hdf, Bool.false_or, decide_eq_true_eq] at hi
      have h1 := (hst i).1
      have h2 := (hst i).2.2
      change ‖z i - u i - ρ i‖ ≤ _
      change _ ≤ ‖u i‖ at h2
      linarith
  · intro ht i
    cases hd : d i with
    | true => simp [hd]
    | false =>
      have h1 := hI.open_ i hd
      have h2 := (hst i).2.1
      simp only [hd, Bool.false_or, decide_eq_true_eq]
      change ‖u i‖ ≤ _ at h2
      linarith

theorem inv_iter (z₀ : Fin n → ℂ) (h : Near coeffs ρ z₀ δ e) (eps tol : ℝ) (s : State) (hs : s.roots = List.ofFn z₀)
    (hd : s.done = List.replicate n false) (k : ℕ) :
    ∃ z d, Inv ρ e tol k ((bodyFun coeffs (polyderCoeffs coeffs) eps tol)^[k] s) z d := by
  induction k with
  | zero =>
    refine ⟨z₀, fun _ => false, hs, ?_, h.close, ?_, by simp⟩
    · rw [Function.iterate_zero_apply, hd, List.ofFn_const]
    · intro i _; simpa using h.close i
  | succ k ih =>
    obtain ⟨z, d, hI⟩ := ih
    obtain ⟨z', d', hI', -⟩ := inv_step z₀ h eps tol k _ z d hI
    exact ⟨z', d', by rw [Function.iterate_succ_apply']; exact hI'⟩

/-- **C80**: `poly_roots_EA(coeffs, initial_roots, tol, max_iter)` for a polynomial with roots at least `δ` apart and
starting values within `e` of them, `4 n e ≤ δ`: the `i`-th returned value is within `2/3 tol` (or `e / 2^max_iter` if
the iteration limit is reached) plus the cleaning of `10 tol` of the `i`-th root; before cleaning the loop has made at
most `m + 1` sweeps as soon as `3/2 e / 2^m ≤ tol`. No condition on the size of the coefficients is needed. -/
theorem C80_converges (coeffs : List ℂ) (ρ z₀ : Fin n → ℂ) (δ e tol : ℝ) (max_iter : ℕ) (h : Near coeffs ρ z₀ δ e)
    (hn : 1 ≤ n) (hlen : coeffs.length = n + 1) (htol : 0 ≤ tol) :
    ∃ out : Fin n → ℂ, polyRootsEA coeffs (some (List.ofFn z₀)) tol max_iter = .ok (List.ofFn out) ∧
      (∀ i, ‖out i - ρ i‖ ≤ max (2 / 3 * tol) (e / 2 ^ max_iter) + 10 * tol) ∧
      (∀ m, 3 / 2 * (e / 2 ^ m) ≤ tol →
        (eaLoop coeffs (polyderCoeffs coeffs) (epsMach * 10) tol max_iter
          (initState coeffs (some (List.ofFn z₀)))).it ≤ m + 1) ∧
      ((∃ c ∈ coeffs, 10 * tol ≤ |c.im|) → ∀ i, ‖out i - ρ i‖ ≤ max (2 / 3 * tol) (e / 2 ^ max_iter)) := by
  set s := initState coeffs (some (List.ofFn z₀)) with hs
  have hdone : s.done = List.replicate n false := by simp [hs, initState, hlen]
  have hroots : s.roots = List.ofFn z₀ := by simp [hs, initState]
  obtain ⟨k, h1, h2, h3, h4, -, h6⟩ := C16_loop coeffs (polyderCoeffs coeffs) (epsMach * 10) tol max_iter n s rfl
    (by rw [hroots]; simp) (by rw [hdone]; simp)
  obtain ⟨z, d, hI⟩ := inv_iter z₀ h (epsMach * 10) tol s hroots hdone k
  rw [← h1] at hI
  have hz : ∀ i, ‖z i - ρ i‖ ≤ max (2 / 3 * tol) (e / 2 ^ max_iter) := by
    intro i
    cases hd : d i with
    | true => exact (hI.closed i hd).trans (le_max_left _ _)
    | false =>
      have hk : k = max_iter := by
        by_contra hne
        have := h3 (lt_of_le_of_ne h2 hne) (d i) (by rw [hI.done]; exact (List.mem_ofFn).mpr ⟨i, rfl⟩)
        rw [hd] at this; exact absurd this (by simp)
      rw [← hk]
      exact (hI.open_ i hd).trans (le_max_right _ _)
  obtain ⟨c1, -, c3⟩ := C19_clean tol (List.ofFn z) coeffs
  set out := cleanRealRoots tol (List.ofFn z) coeffs with hout
  have hol : out.length = n := by rw [hout, clean_length]; simp
  have hof : List.ofFn (fun i : Fin n => out[i.1]'(by rw [hol]; exact i.2)) = out := by
    apply List.ext_getElem
    · simp [hol]
    · intro m _ _; simp
  refine ⟨fun i => out[i.1]'(by rw [hol]; exact i.2), ?_, ?_, ?_, ?_⟩
  · rw [hof]
    unfold polyRootsEA
    rw [if_neg (by omega)]
    rw [← hs]
    change Except.ok (cleanRealRoots tol _ coeffs) = _
    rw [hI.roots]
  · intro i
    have hc := (List.forall₂_iff_get.mp c3).2 i.1 (by simp) (by rw [hol]; exact i.2)
    simp only [List.get_eq_getElem, List.getElem_ofFn] at hc
    have hb : ‖out[i.1]'(by rw [hol]; exact i.2) - z i‖ ≤ 10 * tol := by
      rcases hc with hc | hc
      · rw [hc]; simpa using htol
      · exact hc.le
    have : ‖out[i.1]'(by rw [hol]; exact i.2) - ρ i‖ ≤ ‖z i - ρ i‖ + ‖out[i.1]'(by rw [hol]; exact i.2) - z i‖ := by
      rw [show out[i.1]'(by rw [hol]; exact i.2) - ρ i = (z i - ρ i) + (out[i.1]'(by rw [hol]; exact i.2) - z i) by ring]
      exact norm_add_le _ _
    linarith [hz i]
  · intro m hm
    rw [h6]
    by_contra hlt
    obtain ⟨x, hx, hxf⟩ := h4 (m + 1) (by omega)
    obtain ⟨zm, dm, hm1⟩ := inv_iter z₀ h (epsMach * 10) tol s hroots hdone m
    obtain ⟨z', d', hI', hall⟩ := inv_step z₀ h (epsMach * 10) tol m _ zm dm hm1
    rw [Function.iterate_succ_apply', hI'.done] at hx
    obtain ⟨i, hi⟩ := List.mem_ofFn.mp hx
    rw [← hi, hall hm i] at hxf
    exact absurd hxf (by simp)
  · intro hc i
    have e1 := c1 hc
    have : out[i.1]'(by rw [hol]; exact i.2) = z i := by
      simp only [e1]; simp
    beta_reduce
    rw [this]; exact hz i

/-! ## Concrete case: `x² - 1` started at `1 + i/10`, `-1.05` -/

theorem exNear : Near [1, 0, -1] ![1, -1] ![1 + I / 10, -1 - 1 / 20] 2 (1 / 10) where
  roots := by intro x; simp [evalPoly]; ring
  lead := by simp
  pos := by norm_num
  sep := by
    intro i j hij
    fin_cases i <;> fin_cases j <;> first | exact absurd rfl hij | (norm_num)
  close := by
    intro i
    fin_cases i
    · simp
    · simp; norm_num
  small := by norm_num

example : ∃ out : Fin 2 → ℂ,
    polyRootsEA [1, 0, -1] (some (List.ofFn ![1 + I / 10, -1 - 1 / 20])) (1 / 10 ^ 12) 100 = .ok (List.ofFn out) ∧
      ‖out 0 - 1‖ ≤ 11 / 10 ^ 12 ∧ ‖out 1 - (-1)‖ ≤ 11 / 10 ^ 12 := by
  obtain ⟨out, h1, h2, -, -⟩ := C80_converges _ _ _ 2 (1 / 10) (1 / 10 ^ 12) 100 exNear (by norm_num) (by simp) (by norm_num)
  refine ⟨out, h1, ?_, ?_⟩
  · have := h2 0
    norm_num at this ⊢; linarith
  · have := h2 1
    norm_num at this ⊢; linarith

example : ∃ z' : Fin 2 → ℂ,
    (eaStep (List.ofFn ![1 + I / 10, -1 - 1 / 20]) [1, 0, -1] (polyderCoeffs [1, 0, -1]) (epsMach * 10)).1 = List.ofFn z' ∧
      ‖z' 0 - 1‖ ≤ 1 / 1000 := by
  obtain ⟨z', h1, h2⟩ := C80_cubic _ _ _ 2 (1 / 10) (epsMach * 10) exNear (by simp [epsMach]; norm_num)
  refine ⟨z', h1, ?_⟩
  have := h2 0
  norm_num at this ⊢; exact this

end Microjax.Props
