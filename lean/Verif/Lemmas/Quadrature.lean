import Verif.Spec.Quadrature
import Mathlib.LinearAlgebra.Lagrange
import Mathlib.Topology.ContinuousMap.Weierstrass
import Mathlib.Analysis.Polynomial.Basic
import Mathlib.RingTheory.Polynomial.Basic
import Mathlib.MeasureTheory.Integral.IntervalIntegral.FundThmCalculus

/-! # Gauss-Legendre rules: nodes inside, weights positive, existence -/

namespace Microjax.Props

open Microjax.Spec Polynomial Set

/-- a non-zero polynomial that is non-negative on `[-1, 1]` has positive integral -/
theorem poly_integral_pos (p : ℝ[X]) (hp : p ≠ 0) (h : ∀ x ∈ Ioo (-1 : ℝ) 1, 0 ≤ p.eval x) :
    0 < ∫ x in (-1 : ℝ)..1, p.eval x := by
  have hcont : Continuous fun x : ℝ => p.eval x := p.continuous
  have hex : ∃ c ∈ Ioo (-1 : ℝ) 1, 0 < p.eval c := by
    by_contra hno
    push Not at hno
    apply hp
    apply Polynomial.eq_zero_of_infinite_isRoot
    apply (Ioo_infinite (show (-1 : ℝ) < 1 by norm_num)).mono
    intro x hx
    exact le_antisymm (hno x hx) (h x hx)
  obtain ⟨c, hc, hpc⟩ := hex
  have hcl : ∀ x ∈ Icc (-1 : ℝ) 1, 0 ≤ p.eval x := by
    intro x hx
    have hcl : Icc (-1 : ℝ) 1 ⊆ closure (Ioo (-1) 1) := by rw [closure_Ioo (by norm_num)]
    have : IsClosed {x : ℝ | 0 ≤ p.eval x} := isClosed_le continuous_const hcont
    exact (this.closure_subset_iff.2 fun y hy => h y hy) (hcl hx)
  exact intervalIntegral.integral_pos (by norm_num) hcont.continuousOn
    (fun x hx => hcl x ⟨hx.1.le, hx.2⟩) ⟨c, Ioo_subset_Icc_self hc, hpc⟩

section Nodes

variable {n : ℕ} {rule : List (ℝ × ℝ)}

/-- the nodes of a Gauss rule are distinct -/
theorem gauss_nodup (hn : 1 ≤ n) (h : IsGauss n rule) : (rule.map Prod.fst).Nodup := by
  by_contra hnd
  set S := (rule.map Prod.fst).toFinset with hS
  have hcard : S.card < n := by
    rcases lt_or_eq_of_le (List.toFinset_card_le (rule.map Prod.fst)) with hl | hl
    · rw [List.length_map, h.1] at hl; exact hl
    · exact absurd (Multiset.coe_nodup.1 ((Multiset.toFinset_card_eq_card_iff_nodup
        (m := (↑(rule.map Prod.fst) : Multiset ℝ))).1 hl)) hnd
  set W := Lagrange.nodal S (id : ℝ → ℝ) with hW
  have hdeg : (W ^ 2).natDegree ≤ 2 * n - 1 := by
    rw [natDegree_pow, hW, Lagrange.natDegree_nodal]; omega
  have h0 : (rule.map fun q => q.2 * (W ^ 2).eval q.1).sum = 0 := by
    apply List.sum_eq_zero
    intro v hv
    rw [List.mem_map] at hv
    obtain ⟨q, hq, rfl⟩ := hv
    have : q.1 ∈ S := by rw [hS, List.mem_toFinset]; exact List.mem_map_of_mem hq
    have e : W.eval q.1 = 0 := Lagrange.eval_nodal_at_node (v := (id : ℝ → ℝ)) this
    rw [eval_pow, e]; simp
  have := poly_integral_pos (W ^ 2) (pow_ne_zero _ Lagrange.nodal_ne_zero)
    (fun x _ => by rw [eval_pow]; positivity)
  rw [← h.2 _ hdeg, h0] at this
  exact lt_irrefl _ this

/-- evaluation of a Gauss rule on a polynomial that vanishes at all other nodes -/
theorem gauss_single (hn : 1 ≤ n) (h : IsGauss n rule) (q : ℝ × ℝ) (hq : q ∈ rule) (p : ℝ[X])
    (hp : p.natDegree ≤ 2 * n - 1) (h0 : ∀ x ∈ (rule.map Prod.fst).toFinset.erase q.1, p.eval x = 0) :
    q.2 * p.eval q.1 = ∫ x in (-1 : ℝ)..1, p.eval x := by
  have hnd := gauss_nodup hn h
  have hnd' : rule.Nodup := List.Nodup.of_map _ hnd
  rw [← h.2 p hp, ← List.sum_toFinset _ hnd', Finset.sum_eq_single q]
  · intro r hr hrq
    rw [List.mem_toFinset] at hr
    have hne : r.1 ≠ q.1 := fun e => hrq (List.inj_on_of_nodup_map hnd hr hq e)
    rw [h0 r.1 (Finset.mem_erase.2 ⟨hne, List.mem_toFinset.2 (List.mem_map_of_mem hr)⟩), mul_zero]
  · intro hn; exact absurd (List.mem_toFinset.2 hq) hn

theorem gauss_card (hn : 1 ≤ n) (h : IsGauss n rule) : (rule.map Prod.fst).toFinset.card = n := by
  rw [List.toFinset_card_of_nodup (gauss_nodup hn h), List.length_map, h.1]

/-- the weights of a Gauss rule are positive -/
theorem gauss_weight_pos (hn : 1 ≤ n) (h : IsGauss n rule) (q : ℝ × ℝ) (hq : q ∈ rule) : 0 < q.2 := by
  set S := (rule.map Prod.fst).toFinset with hS
  have hqS : q.1 ∈ S := List.mem_toFinset.2 (List.mem_map_of_mem hq)
  set W := Lagrange.nodal (S.erase q.1) (id : ℝ → ℝ) with hW
  have hdeg : (W ^ 2).natDegree ≤ 2 * n - 1 := by
    rw [natDegree_pow, hW, Lagrange.natDegree_nodal, Finset.card_erase_of_mem hqS, gauss_card hn h]; omega
  have e := gauss_single hn h q hq (W ^ 2) hdeg (fun x hx => by
    rw [eval_pow, show W.eval x = 0 from Lagrange.eval_nodal_at_node (v := (id : ℝ → ℝ)) hx]; simp)
  have hpos := poly_integral_pos (W ^ 2) (pow_ne_zero _ Lagrange.nodal_ne_zero)
    (fun x _ => by rw [eval_pow]; positivity)
  rw [← e] at hpos
  by_contra hneg
  push Not at hneg
  have : q.2 * (W ^ 2).eval q.1 ≤ 0 := mul_nonpos_of_nonpos_of_nonneg hneg (by rw [eval_pow]; positivity)
  linarith

/-- the nodes of a Gauss rule lie strictly inside the interval -/
theorem gauss_node_mem (hn : 1 ≤ n) (h : IsGauss n rule) (q : ℝ × ℝ) (hq : q ∈ rule) : q.1 ∈ Ioo (-1 : ℝ) 1 := by
  set S := (rule.map Prod.fst).toFinset with hS
  have hqS : q.1 ∈ S := List.mem_toFinset.2 (List.mem_map_of_mem hq)
  set W := Lagrange.nodal (S.erase q.1) (id : ℝ → ℝ) with hW
  have hW0 : W ≠ 0 := Lagrange.nodal_ne_zero
  have hWd : W.natDegree = n - 1 := by
    rw [hW, Lagrange.natDegree_nodal, Finset.card_erase_of_mem hqS, gauss_card hn h]
  have hWz : ∀ x ∈ S.erase q.1, W.eval x = 0 := fun x hx => Lagrange.eval_nodal_at_node (v := (id : ℝ → ℝ)) hx
  have key : ∀ s : ℝ, s ≠ 0 → (∀ x ∈ Ioo (-1 : ℝ) 1, 0 ≤ s * (x - q.1)) → False := by
    intro s hs hx
    set p : ℝ[X] := W ^ 2 * (C s * (X - C q.1)) with hp
    have hp0 : p ≠ 0 := mul_ne_zero (pow_ne_zero _ hW0) (mul_ne_zero (C_ne_zero.2 hs) (X_sub_C_ne_zero _))
    have hpd : p.natDegree ≤ 2 * n - 1 := by
      have h1 : p.natDegree ≤ (W ^ 2).natDegree + (C s * (X - C q.1)).natDegree := natDegree_mul_le
      have h2 : (C s * (X - C q.1)).natDegree ≤ 1 := by
        rw [natDegree_C_mul hs, natDegree_X_sub_C]
      rw [natDegree_pow, hWd] at h1
      omega
    have e := gauss_single hn h q hq p hpd (fun x hx => by
      rw [hp, eval_mul, eval_pow, hWz x hx]; simp)
    have hpos := poly_integral_pos p hp0 (fun x hx' => by
      rw [hp, eval_mul, eval_pow, eval_mul, eval_C, eval_sub, eval_X, eval_C]
      exact mul_nonneg (by positivity) (hx x hx'))
    rw [← e, hp] at hpos
    simp at hpos
  constructor
  · by_contra hle
    push Not at hle
    exact key 1 one_ne_zero (fun x hx => by linarith [hx.1])
  · by_contra hle
    push Not at hle
    exact key (-1) (by norm_num) (fun x hx => by linarith [hx.2])

/-- the weights of an exact rule sum to 2 -/
theorem exactTo_weights {d : ℕ} (h : ExactTo rule d) : (rule.map Prod.snd).sum = 2 := by
  have := h 1 (by simp)
  simp only [eval_one, mul_one] at this
  rw [this]; norm_num

end Nodes

/-! ## Existence -/

/-- every polynomial becomes of one sign on `(-1, 1)` after multiplication by simple factors at some of its roots there -/
theorem poly_sign_factor (m : ℕ) : ∀ P : ℝ[X], P ≠ 0 → P.natDegree = m →
    ∃ S : Finset ℝ, (∀ s ∈ S, s ∈ Ioo (-1 : ℝ) 1 ∧ P.IsRoot s) ∧
      ((∀ x ∈ Ioo (-1 : ℝ) 1, 0 ≤ (P * Lagrange.nodal S (id : ℝ → ℝ)).eval x) ∨
       (∀ x ∈ Ioo (-1 : ℝ) 1, (P * Lagrange.nodal S (id : ℝ → ℝ)).eval x ≤ 0)) := by
  induction m with
  | zero =>
    intro P hP hd
    refine ⟨∅, by simp, ?_⟩
    rw [Polynomial.natDegree_eq_zero] at hd
    obtain ⟨c, rfl⟩ := hd
    simp only [Lagrange.nodal_empty, mul_one, eval_C]
    rcases le_total 0 c with h | h
    · left; intro _ _; exact h
    · right; intro _ _; exact h
  | succ m ih =>
    intro P hP hd
    by_cases hr : ∃ r ∈ Ioo (-1 : ℝ) 1, P.IsRoot r
    · obtain ⟨r, hr, hroot⟩ := hr
      obtain ⟨R, hR⟩ := dvd_iff_isRoot.2 hroot
      have hR0 : R ≠ 0 := by rintro rfl; apply hP; rw [hR, mul_zero]
      have hRd : R.natDegree = m := by
        rw [hR, natDegree_mul (X_sub_C_ne_zero _) hR0, natDegree_X_sub_C] at hd
        omega
      obtain ⟨S, hS, hsign⟩ := ih R hR0 hRd
      by_cases hrS : r ∈ S
      · refine ⟨S.erase r, fun s hs => ⟨(hS s (Finset.mem_of_mem_erase hs)).1, ?_⟩, ?_⟩
        · have := (hS s (Finset.mem_of_mem_erase hs)).2
          rw [hR, IsRoot, eval_mul, this.eq_zero, mul_zero]
        · have e : P * Lagrange.nodal (S.erase r) (id : ℝ → ℝ) = R * Lagrange.nodal S (id : ℝ → ℝ) := by
            rw [Lagrange.nodal_eq_mul_nodal_erase hrS, hR, id]; ring
          rw [e]; exact hsign
      · refine ⟨insert r S, fun s hs => ?_, ?_⟩
        · rcases Finset.mem_insert.1 hs with rfl | hs
          · exact ⟨hr, hroot⟩
          · refine ⟨(hS s hs).1, ?_⟩
            rw [hR, IsRoot, eval_mul, (hS s hs).2.eq_zero, mul_zero]
        · have e : P * Lagrange.nodal (insert r S) (id : ℝ → ℝ)
              = (X - C r) ^ 2 * (R * Lagrange.nodal S (id : ℝ → ℝ)) := by
            rw [Lagrange.nodal_insert_eq_nodal hrS, hR, id]; ring
          rw [e]
          rcases hsign with h | h
          · left; intro x hx
            rw [eval_mul, eval_pow]
            exact mul_nonneg (by positivity) (h x hx)
          · right; intro x hx
            rw [eval_mul, eval_pow]
            exact mul_nonpos_of_nonneg_of_nonpos (by positivity) (h x hx)
    · push Not at hr
      refine ⟨∅, by simp, ?_⟩
      simp only [Lagrange.nodal_empty, mul_one]
      by_contra hno
      push Not at hno
      obtain ⟨⟨x, hx, hx0⟩, y, hy, hy0⟩ := hno
      have hsub : uIcc x y ⊆ Ioo (-1 : ℝ) 1 := (ordConnected_Ioo).uIcc_subset hx hy
      obtain ⟨c, hc, hc0⟩ := intermediate_value_uIcc (f := fun t => P.eval t) P.continuous.continuousOn
        (show (0 : ℝ) ∈ uIcc (P.eval x) (P.eval y) from by rw [uIcc_of_le (by linarith)]; exact ⟨hx0.le, hy0.le⟩)
      exact hr c (hsub hc) hc0

/-- there is a non-zero polynomial of degree at most `n` orthogonal to all of lower degree -/
theorem exists_orthogonal (n : ℕ) : ∃ P : ℝ[X], P ≠ 0 ∧ P.natDegree ≤ n ∧
    ∀ q : ℝ[X], q.natDegree < n → ∫ x in (-1 : ℝ)..1, (P * q).eval x = 0 := by
  have hint : ∀ p : ℝ[X], IntervalIntegrable (fun x => p.eval x) MeasureTheory.volume (-1) 1 :=
    fun p => p.continuous.intervalIntegrable _ _
  let F : degreeLT ℝ (n + 1) →ₗ[ℝ] (Fin n → ℝ) :=
    { toFun := fun p i => ∫ x in (-1 : ℝ)..1, ((p : ℝ[X]) * X ^ (i : ℕ)).eval x
      map_add' := by
        intro p q; funext i
        simp only [Submodule.coe_add, add_mul, eval_add, Pi.add_apply]
        exact intervalIntegral.integral_add (hint _) (hint _)
      map_smul' := by
        intro c p; funext i
        simp only [Submodule.coe_smul, smul_mul_assoc, eval_smul, smul_eq_mul, RingHom.id_apply, Pi.smul_apply]
        exact intervalIntegral.integral_const_mul _ _ }
  have hfr : Module.finrank ℝ (Fin n → ℝ) < Module.finrank ℝ (degreeLT ℝ (n + 1)) := by
    rw [(degreeLTEquiv ℝ (n + 1)).finrank_eq, Module.finrank_fin_fun, Module.finrank_fin_fun]
    omega
  have : Module.Finite ℝ (degreeLT ℝ (n + 1)) := Module.Finite.equiv (degreeLTEquiv ℝ (n + 1)).symm
  obtain ⟨⟨P, hPd⟩, hker, hne⟩ := (Submodule.ne_bot_iff _).mp (LinearMap.ker_ne_bot_of_finrank_lt (f := F) hfr)
  have hP0 : P ≠ 0 := fun h => hne (by ext1; exact h)
  refine ⟨P, hP0, ?_, ?_⟩
  · rw [mem_degreeLT] at hPd
    have := (natDegree_lt_iff_degree_lt hP0).2 hPd
    omega
  · intro q hq
    have h1 : ∀ i < n, ∫ x in (-1 : ℝ)..1, (P * X ^ i).eval x = 0 := by
      intro i hi
      exact congrFun (LinearMap.mem_ker.1 hker) ⟨i, hi⟩
    have e : ∀ x : ℝ, (P * q).eval x = ∑ i ∈ Finset.range n, q.coeff i * (P * X ^ i).eval x := by
      intro x
      rw [eval_mul, eval_eq_sum_range' hq, Finset.mul_sum]
      apply Finset.sum_congr rfl
      intro i _
      simp only [eval_mul, eval_pow, eval_X]; ring
    rw [intervalIntegral.integral_congr (fun x _ => e x), intervalIntegral.integral_finsetSum
      (fun i _ => (hint _).const_mul _)]
    apply Finset.sum_eq_zero
    intro i hi
    rw [intervalIntegral.integral_const_mul, h1 i (Finset.mem_range.1 hi), mul_zero]

/-- Gauss-Legendre rules exist for every number of nodes. -/
theorem exists_gauss (n : ℕ) (hn : 1 ≤ n) : ∃ rule, IsGauss n rule := by
  obtain ⟨P, hP0, hPd, horth⟩ := exists_orthogonal n
  obtain ⟨S, hS, hsign⟩ := poly_sign_factor _ P hP0 rfl
  set W := Lagrange.nodal S (id : ℝ → ℝ) with hW
  have hPW0 : P * W ≠ 0 := mul_ne_zero hP0 Lagrange.nodal_ne_zero
  have hcard : n ≤ S.card := by
    by_contra hlt
    push Not at hlt
    have h0 := horth W (by rw [hW, Lagrange.natDegree_nodal]; exact hlt)
    rcases hsign with h | h
    · have := poly_integral_pos (P * W) hPW0 h
      linarith
    · have := poly_integral_pos (-(P * W)) (neg_ne_zero.2 hPW0) (fun x hx => by
        rw [eval_neg]; linarith [h x hx])
      simp only [eval_neg, intervalIntegral.integral_neg] at this
      linarith
  have hdvd : W ∣ P := by
    rw [hW, Lagrange.nodal_eq]
    apply Finset.prod_dvd_of_coprime
    · intro a _ b _ hab
      exact isCoprime_X_sub_C_of_isUnit_sub (sub_ne_zero.2 hab).isUnit
    · intro s hs
      exact dvd_iff_isRoot.2 (hS s hs).2
  have hWd : W.natDegree = S.card := by rw [hW, Lagrange.natDegree_nodal]
  have hle : W.natDegree ≤ P.natDegree := natDegree_le_of_dvd hdvd hP0
  have hSn : S.card = n := by omega
  obtain ⟨R, hR⟩ := hdvd
  have hR0 : R ≠ 0 := by rintro rfl; apply hP0; rw [hR, mul_zero]
  have hRd : R.natDegree = 0 := by
    have : P.natDegree = W.natDegree + R.natDegree := by
      conv_lhs => rw [hR]
      exact natDegree_mul Lagrange.nodal_ne_zero hR0
    omega
  obtain ⟨c, rfl⟩ := natDegree_eq_zero.1 hRd
  have hc : c ≠ 0 := by rintro rfl; simp at hR0
  have horthW : ∀ q : ℝ[X], q.natDegree < n → ∫ x in (-1 : ℝ)..1, (W * q).eval x = 0 := by
    intro q hq
    have := horth (q * C c⁻¹) (lt_of_le_of_lt natDegree_mul_le (by simpa using! hq))
    rw [hR, show W * C c * (q * C c⁻¹) = W * q * (C c * C c⁻¹) by ring, ← C_mul, mul_inv_cancel₀ hc, C_1,
      mul_one] at this
    exact this
  have hint : ∀ p : ℝ[X], IntervalIntegrable (fun x => p.eval x) MeasureTheory.volume (-1) 1 :=
    fun p => p.continuous.intervalIntegrable _ _
  let w : ℝ → ℝ := fun s => ∫ x in (-1 : ℝ)..1, (Lagrange.basis S (id : ℝ → ℝ) s).eval x
  refine ⟨S.toList.map fun s => (s, w s), by simp [hSn], ?_⟩
  intro p hp
  have hmonic : W.Monic := Lagrange.nodal_monic
  have hdiv : p %ₘ W + W * (p /ₘ W) = p := modByMonic_add_div p W
  have hWne1 : W ≠ 1 := by
    intro h1; rw [h1, natDegree_one] at hWd; omega
  have hr : (p %ₘ W).natDegree < W.natDegree := natDegree_modByMonic_lt p hmonic hWne1
  have hrdeg : (p %ₘ W).degree < S.card := by
    rw [← hWd]
    exact lt_of_lt_of_le (degree_modByMonic_lt p hmonic) degree_le_natDegree
  have hq : (p /ₘ W).natDegree < n := by
    rw [natDegree_divByMonic p hmonic, hWd, hSn]; omega
  have hI : ∫ x in (-1 : ℝ)..1, p.eval x = ∫ x in (-1 : ℝ)..1, (p %ₘ W).eval x := by
    have : ∀ x : ℝ, p.eval x = (p %ₘ W).eval x + (W * (p /ₘ W)).eval x := by
      intro x; rw [← eval_add, hdiv]
    rw [intervalIntegral.integral_congr (fun x _ => this x), intervalIntegral.integral_add (hint _) (hint _),
      horthW _ hq, add_zero]
  have hev : ∀ s ∈ S, p.eval s = (p %ₘ W).eval s := by
    intro s hs
    conv_lhs => rw [← hdiv]
    rw [eval_add, eval_mul, show W.eval s = 0 from Lagrange.eval_nodal_at_node (v := (id : ℝ → ℝ)) hs]
    simp
  have hinterp := Lagrange.eq_interpolate (s := S) (v := (id : ℝ → ℝ)) (f := p %ₘ W) (injOn_id _) hrdeg
  have hexp : ∀ x : ℝ, (p %ₘ W).eval x
      = ∑ s ∈ S, p.eval s * (Lagrange.basis S (id : ℝ → ℝ) s).eval x := by
    intro x
    conv_lhs => rw [hinterp]
    rw [Lagrange.interpolate_apply, eval_finsetSum]
    apply Finset.sum_congr rfl
    intro s hs
    rw [eval_mul, eval_C, id, hev s hs]
  rw [hI, intervalIntegral.integral_congr (fun x _ => hexp x), intervalIntegral.integral_finsetSum
    (fun i _ => (hint _).const_mul _), List.map_map]
  simp only [Function.comp_def]
  rw [Finset.sum_map_toList S (fun s => w s * p.eval s)]
  apply Finset.sum_congr rfl
  intro s _
  rw [intervalIntegral.integral_const_mul, mul_comm]

end Microjax.Props
