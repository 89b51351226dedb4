import Verif.Model.PolySolver
import Verif.Lemmas.PointMag
import Verif.Lemmas.Jnp
import Mathlib.Analysis.Calculus.Deriv.Pow
import Mathlib.Analysis.Calculus.Deriv.Add
import Mathlib.Analysis.Calculus.Deriv.Mul
import Mathlib.Analysis.Calculus.DSlope
import Mathlib.Analysis.SpecialFunctions.Complex.Log
import Mathlib.Data.List.GetD

/-! # Properties C14-C20: the polynomial root finder -/

noncomputable section

namespace Microjax.Props

open Complex ComplexConjugate Spec PolySolver

theorem polyval_eq_evalPoly (c : List ℂ) (x : ℂ) : polyval c x = evalPoly c x := rfl

/-- The specification's Horner evaluation is the usual sum of powers. -/
theorem evalPoly_eq_sum (c : List ℂ) (x : ℂ) :
    evalPoly c x = ((List.range c.length).map fun i : ℕ => c.getD i 0 * x ^ (c.length - 1 - i)).sum := by
  induction c using List.reverseRecOn with
  | nil => simp [evalPoly]
  | append_singleton c a ih =>
    have h1 : evalPoly (c ++ [a]) x = evalPoly c x * x + a := by
      simp [evalPoly, List.foldl_append]
    rw [h1, ih, List.length_append, List.length_singleton, List.range_succ, List.map_append,
      List.sum_append, ← List.sum_map_mul_right]
    congr 1
    · congr 1
      apply List.map_congr_left
      intro i hi
      have hi := List.mem_range.mp hi
      rw [List.getD_append _ _ _ _ hi, mul_assoc, ← pow_succ]
      congr 2; omega
    · simp

/-! ## C14 -/

/-- C14: for every coefficient list, the list computed by `_polyder_coeffs` evaluates to the derivative of the
polynomial. -/
theorem C14_polyder (c : List ℂ) (x : ℂ) :
    HasDerivAt (evalPoly c) (evalPoly (polyderCoeffs c) x) x := by
  have hsum : evalPoly c = fun x =>
      ((List.range c.length).map fun i : ℕ => c.getD i 0 * x ^ (c.length - 1 - i)).sum :=
    funext (evalPoly_eq_sum c)
  have hterm : ∀ i : ℕ, HasDerivAt (fun x : ℂ => c.getD i 0 * x ^ (c.length - 1 - i))
      (c.getD i 0 * (((c.length - 1 - i : ℕ) : ℂ) * x ^ (c.length - 1 - i - 1))) x := by
    intro i
    exact (hasDerivAt_pow _ x).const_mul _
  have hd : ∀ l : List ℕ, HasDerivAt
      (fun x : ℂ => (l.map fun i : ℕ => c.getD i 0 * x ^ (c.length - 1 - i)).sum)
      ((l.map fun i : ℕ => c.getD i 0 *
        (((c.length - 1 - i : ℕ) : ℂ) * x ^ (c.length - 1 - i - 1))).sum) x := by
    intro l
    induction l with
    | nil => simpa using hasDerivAt_const x (0 : ℂ)
    | cons i l ih =>
      simp only [List.map_cons, List.sum_cons]
      exact HasDerivAt.fun_add (hterm i) ih
  rw [hsum]
  have hval : evalPoly (polyderCoeffs c) x = ((List.range c.length).map fun i : ℕ => c.getD i 0 *
        (((c.length - 1 - i : ℕ) : ℂ) * x ^ (c.length - 1 - i - 1))).sum := by
    unfold polyderCoeffs
    split_ifs with h
    · rcases c with _ | ⟨a, _ | ⟨b, c⟩⟩
      · simp [evalPoly]
      · simp [evalPoly]
      · simp at h
    · push Not at h
      rw [evalPoly_eq_sum]
      simp only [List.length_zipWith, List.length_dropLast, List.length_map, List.length_range, min_self]
      have hn : c.length = (c.length - 1) + 1 := by omega
      conv_rhs => rw [hn, List.range_succ, List.map_append, List.sum_append]
      simp only [Nat.add_sub_cancel, List.map_cons, List.map_nil, List.sum_cons, List.sum_nil,
        Nat.sub_self, Nat.cast_zero, zero_mul, mul_zero, add_zero]
      congr 1
      apply List.map_congr_left
      intro i hi
      have hi := List.mem_range.mp hi
      rw [List.getD_eq_getElem _ _ (by simp; omega), List.getElem_zipWith, List.getElem_map,
        List.getElem_range, List.getElem_dropLast, List.getD_eq_getElem _ _ (by omega)]
      rw [mul_assoc]
      congr 3; omega
  rw [hval]
  exact hd _

example : polyderCoeffs [2, 0, -3, 5] = [2 * 3, 0 * 2, -3 * 1] := by simp [polyderCoeffs, List.range_succ]

/-! ## C15 -/

theorem le_amax {xs : List ℝ} {v : ℝ} (h : v ∈ xs) : v ≤ Jnp.amax xs := by
  cases xs with
  | nil => simp at h
  | cons x xs =>
    have key : ∀ (l : List ℝ) (a : ℝ), a ≤ l.foldl max a ∧ ∀ v ∈ l, v ≤ l.foldl max a := by
      intro l
      induction l with
      | nil => intro a; simp
      | cons b l ih =>
        intro a
        obtain ⟨h1, h2⟩ := ih (max a b)
        refine ⟨(le_max_left a b).trans h1, ?_⟩
        intro v hv
        rcases List.mem_cons.mp hv with rfl | hv
        · exact (le_max_right a _).trans h1
        · exact h2 v hv
    rcases List.mem_cons.mp h with rfl | h
    · exact (key xs _).1
    · exact (key xs _).2 v h

/-- C15: if the leading coefficient is not below the machine epsilon, every complex root lies strictly inside
the circle on which the default starting points are placed. -/
theorem C15_cauchy (c : List ℂ) (hc : c ≠ []) (h0 : epsMach ≤ ‖c.headD 0‖) (z : ℂ)
    (hz : evalPoly c z = 0) :
    ‖z‖ < cauchyRadius c ∧ ∀ g ∈ initialCircle c, ‖g‖ = cauchyRadius c := by
  obtain ⟨c0, cs, rfl⟩ := List.exists_cons_of_ne_nil hc
  simp only [List.headD_cons] at h0
  have heps : (0 : ℝ) < epsMach := by unfold epsMach; positivity
  have hpos : 0 < ‖c0‖ := lt_of_lt_of_le heps h0
  set M := Jnp.amax (cs.map fun ci : ℂ => ‖ci‖ / ‖c0‖) with hM
  have hR : cauchyRadius (c0 :: cs) = 1 + M := by
    simp [cauchyRadius, max_eq_left h0, hM]
  have hM0 : 0 ≤ M := by
    cases cs with
    | nil => simp [hM, Jnp.amax]
    | cons a cs =>
      have := le_amax (xs := (a :: cs).map fun ci : ℂ => ‖ci‖ / ‖c0‖) (v := ‖a‖ / ‖c0‖) (by simp)
      exact le_trans (by positivity) this
  constructor
  · rw [hR]
    by_contra hcon
    push Not at hcon
    have key : ∀ (l : List ℂ), (∀ ci ∈ l, ‖ci‖ / ‖c0‖ ≤ M) → ∀ acc : ℂ, ‖c0‖ ≤ ‖acc‖ →
        ‖c0‖ ≤ ‖l.foldl (fun acc ck => acc * z + ck) acc‖ := by
      intro l
      induction l with
      | nil => intro _ acc h; exact h
      | cons a l ih =>
        intro hl acc h
        refine ih (fun ci hci => hl ci (by simp [hci])) _ ?_
        have ha : ‖a‖ ≤ M * ‖c0‖ := (div_le_iff₀ hpos).mp (hl a (by simp))
        have h1 : ‖acc * z‖ - ‖a‖ ≤ ‖acc * z + a‖ := by
          have := norm_sub_norm_le (acc * z) (-a); simpa using this
        have h2 : ‖c0‖ * (1 + M) ≤ ‖acc * z‖ := by
          rw [norm_mul]; exact mul_le_mul h hcon (by linarith) (norm_nonneg _)
        nlinarith
    have h1 := key cs (fun ci hci => le_amax (List.mem_map.mpr ⟨ci, hci, rfl⟩)) c0 le_rfl
    have h2 : evalPoly (c0 :: cs) z = cs.foldl (fun acc ck => acc * z + ck) c0 := by
      simp [evalPoly]
    rw [← h2, hz, norm_zero] at h1
    linarith
  · intro g hg
    obtain ⟨k, _, rfl⟩ := List.mem_map.mp hg
    rw [norm_mul, norm_real, Real.norm_of_nonneg (by rw [hR]; linarith)]
    have : (2 * I * Real.pi * k / ((c0 :: cs).length - 1 : ℕ) : ℂ)
        = ((2 * Real.pi * k / ((c0 :: cs).length - 1 : ℕ) : ℝ) : ℂ) * I := by push_cast; ring
    rw [this, Complex.norm_exp_ofReal_mul_I, mul_one]

/-- C15: the starting points are as many as the degree and pairwise distinct. -/
theorem C15_start_distinct (c : List ℂ) (hR : 0 < cauchyRadius c) :
    (initialCircle c).length = c.length - 1 ∧ (initialCircle c).Nodup := by
  refine ⟨by simp [initialCircle], ?_⟩
  unfold initialCircle
  refine List.Nodup.map_on ?_ List.nodup_range
  intro k hk j hj h
  have hk := List.mem_range.mp hk
  have hj := List.mem_range.mp hj
  set n := c.length - 1
  have hR' : (cauchyRadius c : ℂ) ≠ 0 := by exact_mod_cast hR.ne'
  have hn : (n : ℂ) ≠ 0 := by exact_mod_cast (by omega : n ≠ 0)
  have h1 := mul_left_cancel₀ hR' h
  obtain ⟨m, hm⟩ := Complex.exp_eq_exp_iff_exists_int.mp h1
  have h2 : (k : ℂ) = j + m * n := by
    field_simp at hm
    linear_combination hm
  have h4 : (k : ℤ) = j + m * n := by exact_mod_cast h2
  have hm0 : m = 0 := by
    by_contra hne
    rcases lt_or_gt_of_ne hne with hlt | hgt
    · nlinarith
    · nlinarith
  rw [hm0] at h4; simpa using h4

/-- C15, the floor on the leading coefficient is needed: with a leading coefficient below the machine epsilon
a root lies outside the starting circle. -/
theorem C15_needs_floor : ∃ (c : List ℂ) (z : ℂ), c.headD 0 ≠ 0 ∧ evalPoly c z = 0 ∧
    cauchyRadius c < ‖z‖ := by
  refine ⟨[1 / 2 ^ 60, 1], -2 ^ 60, by norm_num, by simp [evalPoly], ?_⟩
  have h1 : ‖(1 / 2 ^ 60 : ℂ)‖ = 1 / 2 ^ 60 := by simp
  have h2 : ‖(-2 ^ 60 : ℂ)‖ = 2 ^ 60 := by simp
  rw [h2]
  simp only [cauchyRadius, List.headD_cons, h1, List.tail_cons, List.map_cons, List.map_nil, Jnp.amax,
    List.foldl_nil, epsMach, norm_one]
  rw [max_eq_right (by norm_num)]
  norm_num

example : ‖(2 : ℂ)‖ < cauchyRadius [1, -5, 6] :=
  (C15_cauchy [1, -5, 6] (by simp) (by simp [epsMach]; norm_num) 2 (by simp [evalPoly]; norm_num)).1

/-! ## C16 -/

theorem body_get (coeffs dcoeffs : List ℂ) (eps tol : ℝ) (s : State) (i : ℕ) (r : ℂ) (d : Bool)
    (hr : s.roots[i]? = some r) (hd : s.done[i]? = some d) :
    (bodyFun coeffs dcoeffs eps tol s).roots[i]?
        = some (if d then r else r - eaUpdate s.roots coeffs dcoeffs eps r) ∧
    (bodyFun coeffs dcoeffs eps tol s).done[i]?
        = some (d || decide (‖eaUpdate s.roots coeffs dcoeffs eps r‖ ≤ tol)) := by
  simp [bodyFun, eaStep, List.getElem?_zipWith, List.zip, hr, hd]

theorem body_length (coeffs dcoeffs : List ℂ) (eps tol : ℝ) (s : State) (n : ℕ)
    (hr : s.roots.length = n) (hd : s.done.length = n) :
    (bodyFun coeffs dcoeffs eps tol s).roots.length = n ∧
    (bodyFun coeffs dcoeffs eps tol s).done.length = n := by
  simp [bodyFun, eaStep, hr, hd]

theorem iter_length (coeffs dcoeffs : List ℂ) (eps tol : ℝ) (s : State) (n : ℕ)
    (hr : s.roots.length = n) (hd : s.done.length = n) (k : ℕ) :
    ((bodyFun coeffs dcoeffs eps tol)^[k] s).roots.length = n ∧
    ((bodyFun coeffs dcoeffs eps tol)^[k] s).done.length = n ∧
    ((bodyFun coeffs dcoeffs eps tol)^[k] s).it = s.it + k := by
  induction k with
  | zero => exact ⟨hr, hd, rfl⟩
  | succ k ih =>
    rw [Function.iterate_succ_apply']
    have := body_length coeffs dcoeffs eps tol _ n ih.1 ih.2.1
    refine ⟨this.1, this.2, ?_⟩
    simp only [bodyFun]
    rw [ih.2.2]; omega

/-- C16: the loop runs some number `k` of sweeps; it performs a sweep exactly as long as fewer than `max_iter`
sweeps have been made and some component is not flagged; the number of components does not change.  So at
most `max_iter` sweeps are made, and if fewer are made all components are flagged. -/
theorem C16_loop (coeffs dcoeffs : List ℂ) (eps tol : ℝ) (max_iter n : ℕ) (s : State)
    (h0 : s.it = 0) (hr : s.roots.length = n) (hd : s.done.length = n) :
    ∃ k, eaLoop coeffs dcoeffs eps tol max_iter s = (bodyFun coeffs dcoeffs eps tol)^[k] s ∧
      k ≤ max_iter ∧
      (k < max_iter → ∀ d ∈ (eaLoop coeffs dcoeffs eps tol max_iter s).done, d = true) ∧
      (∀ j < k, ∃ d ∈ ((bodyFun coeffs dcoeffs eps tol)^[j] s).done, d = false) ∧
      (eaLoop coeffs dcoeffs eps tol max_iter s).roots.length = n ∧
      (eaLoop coeffs dcoeffs eps tol max_iter s).it = k := by
  have main : ∀ (m : ℕ) (s : State), max_iter - s.it = m → s.it ≤ max_iter →
      ∃ k, eaLoop coeffs dcoeffs eps tol max_iter s = (bodyFun coeffs dcoeffs eps tol)^[k] s ∧
        s.it + k ≤ max_iter ∧
        (s.it + k < max_iter → ∀ d ∈ (eaLoop coeffs dcoeffs eps tol max_iter s).done, d = true) ∧
        (∀ j < k, ∃ d ∈ ((bodyFun coeffs dcoeffs eps tol)^[j] s).done, d = false) := by
    intro m
    induction m with
    | zero =>
      intro s hm hle
      refine ⟨0, ?_, by omega, by omega, by omega⟩
      rw [eaLoop, if_neg]
      · rfl
      · simp [condFun]; omega
    | succ m ih =>
      intro s hm hle
      by_cases hc : condFun max_iter s = true
      · have hb : (bodyFun coeffs dcoeffs eps tol s).it = s.it + 1 := rfl
        have hc' := hc
        simp only [condFun, Bool.and_eq_true, decide_eq_true_eq, List.any_eq_true, Bool.not_eq_true'] at hc'
        obtain ⟨k, h1, h2, h3, h4⟩ := ih (bodyFun coeffs dcoeffs eps tol s) (by omega) (by omega)
        have he : eaLoop coeffs dcoeffs eps tol max_iter s
            = eaLoop coeffs dcoeffs eps tol max_iter (bodyFun coeffs dcoeffs eps tol s) := by
          conv_lhs => rw [eaLoop]
          rw [if_pos hc]
        refine ⟨k + 1, ?_, by omega, ?_, ?_⟩
        · rw [he, h1, ← Function.iterate_succ_apply]
        · intro hlt; rw [he]; exact h3 (by omega)
        · intro j hj
          cases j with
          | zero => exact hc'.2
          | succ j =>
            rw [Function.iterate_succ_apply]
            exact h4 j (by omega)
      · have he : eaLoop coeffs dcoeffs eps tol max_iter s = s := by
          rw [eaLoop, if_neg hc]
        refine ⟨0, by rw [he]; rfl, by omega, ?_, by omega⟩
        intro hlt d hdm
        rw [he] at hdm
        by_contra hne
        apply hc
        simp only [condFun, Bool.and_eq_true, decide_eq_true_eq, List.any_eq_true, Bool.not_eq_true']
        exact ⟨by omega, d, hdm, by simpa using hne⟩
  obtain ⟨k, h1, h2, h3, h4⟩ := main max_iter s (by omega) (by omega)
  have hl := iter_length coeffs dcoeffs eps tol s n hr hd k
  refine ⟨k, h1, by omega, fun h => h3 (by omega), h4, by rw [h1]; exact hl.1, ?_⟩
  rw [h1, hl.2.2]; omega

/-- C16: a component flagged converged keeps its value and its flag in all later sweeps. -/
theorem C16_freeze (coeffs dcoeffs : List ℂ) (eps tol : ℝ) (s : State) (n : ℕ)
    (hr : s.roots.length = n) (hd : s.done.length = n) (i j k : ℕ) (hjk : j ≤ k)
    (hdone : ((bodyFun coeffs dcoeffs eps tol)^[j] s).done[i]? = some true) :
    ((bodyFun coeffs dcoeffs eps tol)^[k] s).done[i]? = some true ∧
    ((bodyFun coeffs dcoeffs eps tol)^[k] s).roots[i]?
      = ((bodyFun coeffs dcoeffs eps tol)^[j] s).roots[i]? := by
  induction k, hjk using Nat.le_induction with
  | base => exact ⟨hdone, rfl⟩
  | succ k _ ih =>
    have hl := iter_length coeffs dcoeffs eps tol s n hr hd k
    have hi : i < n := by
      have := (List.getElem?_eq_some_iff.mp ih.1).1; omega
    have hri : ((bodyFun coeffs dcoeffs eps tol)^[k] s).roots[i]?
        = some (((bodyFun coeffs dcoeffs eps tol)^[k] s).roots[i]'(by omega)) :=
      List.getElem?_eq_getElem (by omega)
    have := body_get coeffs dcoeffs eps tol _ i _ true hri ih.1
    rw [Function.iterate_succ_apply']
    refine ⟨by rw [this.2]; simp, ?_⟩
    rw [this.1, if_pos rfl, ← hri, ih.2]

/-- C16: a component is newly flagged in a sweep if and only if its value moved by at most `tol` in that
sweep. -/
theorem C16_flag (coeffs dcoeffs : List ℂ) (eps tol : ℝ) (s : State) (i : ℕ) (r r' : ℂ)
    (hr : s.roots[i]? = some r) (hd : s.done[i]? = some false)
    (hr' : (bodyFun coeffs dcoeffs eps tol s).roots[i]? = some r') :
    (bodyFun coeffs dcoeffs eps tol s).done[i]? = some true ↔ ‖r' - r‖ ≤ tol := by
  obtain ⟨h1, h2⟩ := body_get coeffs dcoeffs eps tol s i r false hr hd
  rw [h1] at hr'
  simp only [Bool.false_eq_true, if_false, Option.some.injEq] at hr'
  rw [h2, ← hr']
  simp

/-! ## C17 -/

/-- C17: started from exact simple roots the solver makes at most one sweep, leaves every component where it is
and returns the cleaned starting values; this needs no separation of the guesses.  (Simplicity keeps the code's
quotient `f/den` away from `0/0`, which Lean would also evaluate to zero.) -/
theorem C17_fixed_point (coeffs : List ℂ) (init : List ℂ) (tol : ℝ) (htol : 0 ≤ tol) (max_iter : ℕ)
    (hdeg : 1 ≤ coeffs.length - 1) (hlen : init.length = coeffs.length - 1)
    (hroot : ∀ r ∈ init, evalPoly coeffs r = 0)
    (_hsimple : ∀ r ∈ init, evalPoly (polyderCoeffs coeffs) r ≠ 0) :
    polyRootsEA coeffs (some init) tol max_iter = .ok (cleanRealRoots tol init coeffs) ∧
    (eaLoop coeffs (polyderCoeffs coeffs) (epsMach * 10) tol max_iter
      (initState coeffs (some init))).roots = init ∧
    (eaLoop coeffs (polyderCoeffs coeffs) (epsMach * 10) tol max_iter
      (initState coeffs (some init))).it ≤ 1 := by
  have hupd : ∀ r ∈ init, eaUpdate init coeffs (polyderCoeffs coeffs) (epsMach * 10) r = 0 := by
    intro r hr
    simp [eaUpdate, polyval_eq_evalPoly, hroot r hr]
  set s := initState coeffs (some init) with hs
  have hb : bodyFun coeffs (polyderCoeffs coeffs) (epsMach * 10) tol s
      = { it := 1, roots := init, done := List.replicate (coeffs.length - 1) true } := by
    have e1 : init.map (eaUpdate init coeffs (polyderCoeffs coeffs) (epsMach * 10))
        = List.replicate (coeffs.length - 1) 0 := by
      rw [← hlen, ← List.map_const']
      exact List.map_congr_left hupd
    simp only [bodyFun, hs, initState, Option.getD_some, eaStep, e1, ← hlen]
    congr 1
    · apply List.ext_getElem
      · simp
      · intro i h1 h2; simp
    · apply List.ext_getElem
      · simp
      · intro i h1 h2; simp [htol]
  have hloop : (eaLoop coeffs (polyderCoeffs coeffs) (epsMach * 10) tol max_iter s).roots = init ∧
      (eaLoop coeffs (polyderCoeffs coeffs) (epsMach * 10) tol max_iter s).it ≤ 1 := by
    rw [eaLoop]
    split_ifs with hc
    · rw [hb, eaLoop, if_neg]
      · exact ⟨rfl, le_rfl⟩
      · simp [condFun]
    · exact ⟨rfl, Nat.zero_le _⟩
  refine ⟨?_, hloop⟩
  unfold polyRootsEA
  rw [if_neg (by omega)]
  simp only
  rw [← hs, hloop.1]

/-! ## C18 -/

/-- C18: the tangent returned for a root is the derivative of that root.  `c t` are the coefficients along any
path, differentiable at `t₀` with derivative `dc`; `r t` is any continuous choice of a root of the polynomial
`c t`; if the root is simple at `t₀`, then `r` is differentiable there and its derivative is the tangent the
JVP rule computes. -/
theorem C18_root_tangent (c : ℝ → List ℂ) (dc : List ℂ) (n : ℕ) (t₀ : ℝ) (r : ℝ → ℂ)
    (hlen : ∀ t, (c t).length = n + 1)
    (hc : ∀ k ≤ n, HasDerivAt (fun t => (c t).getD k 0) (dc.getD k 0) t₀)
    (hr : ContinuousAt r t₀)
    (hroot : ∀ᶠ t in nhds t₀, evalPoly (c t) (r t) = 0)
    (hsimple : deriv (evalPoly (c t₀)) (r t₀) ≠ 0) :
    HasDerivAt r (rootTangent (c t₀) dc (r t₀)) t₀ := by
  have hD := C14_polyder (c t₀) (r t₀)
  have hDe := hD.deriv
  set D := evalPoly (polyderCoeffs (c t₀)) (r t₀) with hDdef
  rw [hDe] at hsimple
  set P := evalPoly (c t₀) with hP
  have h0 : P (r t₀) = 0 := hroot.self_of_nhds
  set g : ℝ → ℂ := fun t => dslope P (r t₀) (r t) with hg
  have hgc : ContinuousAt g t₀ := by
    apply ContinuousAt.comp (g := dslope P (r t₀)) (f := r) _ hr
    exact continuousAt_dslope_same.mpr hD.differentiableAt
  have hg0 : g t₀ = D := by simp only [hg, dslope_same, hDe]
  have hgne : ∀ᶠ t in nhds t₀, g t ≠ 0 := hgc.eventually_ne (by rw [hg0]; exact hsimple)
  rw [hasDerivAt_iff_tendsto_slope]
  have hlim : Filter.Tendsto (fun t => (-((List.range (n + 1)).map fun k : ℕ =>
      (r t) ^ (n - k) * slope (fun t => (c t).getD k 0) t₀ t).sum) / g t) (nhdsWithin t₀ {t₀}ᶜ)
      (nhds (rootTangent (c t₀) dc (r t₀))) := by
    have hv : rootTangent (c t₀) dc (r t₀) = (-((List.range (n + 1)).map fun k : ℕ =>
        (r t₀) ^ (n - k) * dc.getD k 0).sum) / D := by
      simp only [rootTangent, hlen, Nat.add_sub_cancel, polyval_eq_evalPoly, hDdef]
    rw [hv]
    apply Filter.Tendsto.div
    · apply Filter.Tendsto.neg
      have : ∀ l : List ℕ, (∀ k ∈ l, k ≤ n) →
          Filter.Tendsto (fun t => (l.map fun k : ℕ =>
            (r t) ^ (n - k) * slope (fun t => (c t).getD k 0) t₀ t).sum) (nhdsWithin t₀ {t₀}ᶜ)
            (nhds (l.map fun k : ℕ => (r t₀) ^ (n - k) * dc.getD k 0).sum) := by
        intro l
        induction l with
        | nil => intro _; simp
        | cons k l ih =>
          intro hl
          simp only [List.map_cons, List.sum_cons]
          apply Filter.Tendsto.add _ (ih fun j hj => hl j (List.mem_cons_of_mem _ hj))
          apply Filter.Tendsto.mul
          · exact ((hr.pow (n - k)).tendsto).mono_left nhdsWithin_le_nhds
          · exact hasDerivAt_iff_tendsto_slope.mp (hc k (hl k List.mem_cons_self))
      exact this _ fun k hk => by have := List.mem_range.mp hk; omega
    · rw [← hg0]; exact hgc.tendsto.mono_left nhdsWithin_le_nhds
    · exact hsimple
  refine hlim.congr' ?_
  have hev := (hroot.and hgne).filter_mono (nhdsWithin_le_nhds (s := {t₀}ᶜ))
  filter_upwards [hev, self_mem_nhdsWithin] with t ht hne
  obtain ⟨ht1, ht2⟩ := ht
  have hne' : ((t - t₀ : ℝ) : ℂ) ≠ 0 := by
    rw [Complex.ofReal_ne_zero]; exact sub_ne_zero.mpr hne
  have hPt : P (r t) = (r t - r t₀) * g t := by
    have := sub_smul_dslope P (r t₀) (r t)
    rw [smul_eq_mul, h0, sub_zero] at this
    exact this.symm
  have hsum : ((List.range (n + 1)).map fun k : ℕ =>
      (r t) ^ (n - k) * slope (fun t => (c t).getD k 0) t₀ t).sum
      = ((t - t₀ : ℝ) : ℂ)⁻¹ * (evalPoly (c t) (r t) - P (r t)) := by
    rw [hP, evalPoly_eq_sum, evalPoly_eq_sum, hlen, hlen]
    generalize List.range (n + 1) = l
    induction l with
    | nil => simp
    | cons k l ih =>
      simp only [List.map_cons, List.sum_cons]
      rw [ih, slope_def_module, Complex.real_smul]
      push_cast
      ring
  rw [hsum, ht1, hPt, slope_def_module, Complex.real_smul]
  push_cast at hne' ⊢
  field_simp
  ring

/-! ## C19 -/

/-- C19: nothing happens unless all coefficients are real to within `10 tol`; then real parts are kept, and
imaginary parts are kept unless they are below `10 tol`, in which case they become exactly zero. -/
theorem C19_clean (tol : ℝ) (roots coeffs : List ℂ) :
    ((∃ c ∈ coeffs, 10 * tol ≤ |c.im|) → cleanRealRoots tol roots coeffs = roots) ∧
    ((∀ c ∈ coeffs, |c.im| < 10 * tol) →
      List.Forall₂ (fun r r' : ℂ => r'.re = r.re ∧
        ((|r.im| < 10 * tol ∧ r'.im = 0) ∨ (10 * tol ≤ |r.im| ∧ r'.im = r.im)))
        roots (cleanRealRoots tol roots coeffs)) ∧
    List.Forall₂ (fun r r' : ℂ => r' = r ∨ ‖r' - r‖ < 10 * tol) roots (cleanRealRoots tol roots coeffs) := by
  have hall : coeffs.all (fun c => decide (|c.im| < 10 * tol)) = true ↔ ∀ c ∈ coeffs, |c.im| < 10 * tol := by
    simp
  have h2 : (∀ c ∈ coeffs, |c.im| < 10 * tol) →
      List.Forall₂ (fun r r' : ℂ => r'.re = r.re ∧
        ((|r.im| < 10 * tol ∧ r'.im = 0) ∨ (10 * tol ≤ |r.im| ∧ r'.im = r.im)))
        roots (cleanRealRoots tol roots coeffs) := by
    intro h
    rw [cleanRealRoots, if_pos (hall.mpr h), List.forall₂_map_right_iff, List.forall₂_same]
    intro r _
    refine ⟨by simp, ?_⟩
    by_cases hr : |r.im| < 10 * tol
    · left; refine ⟨hr, ?_⟩; simp [hr]
    · right; refine ⟨not_lt.mp hr, ?_⟩; simp [hr]
  refine ⟨?_, h2, ?_⟩
  · rintro ⟨c, hc, hle⟩
    rw [cleanRealRoots, if_neg]
    rw [hall]; push Not; exact ⟨c, hc, hle⟩
  · by_cases h : ∀ c ∈ coeffs, |c.im| < 10 * tol
    · refine (h2 h).imp ?_
      rintro r r' ⟨hre, (⟨h1, h3⟩ | ⟨_, h3⟩)⟩
      · right
        have : r' - r = ((-r.im : ℝ) : ℂ) * I := by
          apply Complex.ext <;> simp [hre, h3]
        rw [this, norm_mul, norm_I, norm_real, mul_one, Real.norm_eq_abs, abs_neg]; exact h1
      · left; exact Complex.ext hre h3
    · rw [cleanRealRoots, if_neg (by rwa [hall]), List.forall₂_same]
      intro r _; exact Or.inl rfl

/-! ## C20 -/

theorem eaLoop_of_cond {coeffs dcoeffs : List ℂ} {eps tol : ℝ} {max_iter : ℕ} {s : State}
    (h : condFun max_iter s = true) :
    eaLoop coeffs dcoeffs eps tol max_iter s
      = eaLoop coeffs dcoeffs eps tol max_iter (bodyFun coeffs dcoeffs eps tol s) := by
  conv_lhs => rw [eaLoop]
  rw [if_pos h]

theorem eaLoop_of_not_cond {coeffs dcoeffs : List ℂ} {eps tol : ℝ} {max_iter : ℕ} {s : State}
    (h : ¬ condFun max_iter s = true) : eaLoop coeffs dcoeffs eps tol max_iter s = s := by
  rw [eaLoop, if_neg h]

/-- The batched while loop does to every lane what the single loop does, however many extra sweeps the
other lanes need. -/
theorem C20_batch_loop (eps tol : ℝ) (max_iter : ℕ) (lanes : List (List ℂ × State)) :
    batchLoop eps tol max_iter lanes
      = lanes.map fun l => (l.1, eaLoop l.1 (polyderCoeffs l.1) eps tol max_iter l.2) := by
  induction lanes using batchLoop.induct eps tol max_iter with
  | case1 lanes h ih =>
    rw [batchLoop, if_pos h, ih, batchStep, List.map_map]
    apply List.map_congr_left
    intro l _
    simp only [Function.comp, laneStep]
    by_cases hc : condFun max_iter l.2 = true
    · rw [if_pos hc, ← eaLoop_of_cond hc]
    · rw [if_neg hc]
  | case2 lanes h =>
    rw [batchLoop, if_neg h]
    conv_lhs => rw [← List.map_id lanes]
    apply List.map_congr_left
    intro l hl
    have hc : ¬ condFun max_iter l.2 = true := by
      intro hc; exact h (List.any_eq_true.mpr ⟨l, hl, hc⟩)
    rw [eaLoop_of_not_cond hc]; rfl

theorem flatten_row {α : Type*} (k : ℕ) (L : List (List α)) (hL : ∀ l ∈ L, l.length = k) (i : ℕ)
    (hi : i < L.length) : (L.flatten.drop (i * k)).take k = L[i] := by
  induction L generalizing i with
  | nil => simp at hi
  | cons l L ih =>
    have hl := hL l List.mem_cons_self
    cases i with
    | zero => simp [← hl]
    | succ i =>
      simp only [List.flatten_cons, List.getElem_cons_succ]
      have : (i + 1) * k = l.length + i * k := by rw [hl]; ring
      rw [this, List.drop_append]
      simp only [Nat.le_add_right, List.drop_eq_nil_of_le, List.nil_append, Nat.add_sub_cancel_left]
      exact ih (fun l' h => hL l' (List.mem_cons_of_mem _ h)) i (by simpa using hi)

theorem chunk_getElem (k : ℕ) (hk : 0 < k) (xs : List ℂ) (N : ℕ) (hx : xs.length = N * k) (i : ℕ) (hi : i < N) :
    (chunk k xs).length = N ∧ (chunk k xs)[i]? = some ((xs.drop (i * k)).take k) ∧
      ((xs.drop (i * k)).take k).length = k := by
  have hN : xs.length / k = N := by rw [hx]; exact Nat.mul_div_cancel _ hk
  refine ⟨by simp [chunk, hN], by simp [chunk, hN, hi], ?_⟩
  have : (i + 1) * k ≤ N * k := Nat.mul_le_mul_right _ hi
  rw [List.length_take, List.length_drop, hx]
  have : (i + 1) * k = i * k + k := by ring
  omega

theorem eaLoop_length (coeffs dcoeffs : List ℂ) (eps tol : ℝ) (max_iter n : ℕ) (s : State)
    (h0 : s.it = 0) (hr : s.roots.length = n) (hd : s.done.length = n) :
    (eaLoop coeffs dcoeffs eps tol max_iter s).roots.length = n := by
  obtain ⟨k, _, _, _, _, h, _⟩ := C16_loop coeffs dcoeffs eps tol max_iter n s h0 hr hd
  exact h

theorem clean_length (tol : ℝ) (roots coeffs : List ℂ) :
    (cleanRealRoots tol roots coeffs).length = roots.length := by
  unfold cleanRealRoots; split_ifs <;> simp

/-- C20: the roots of the `i`-th polynomial of an array of any leading shape (`N` polynomials in row-major
order) are the roots the single-polynomial solver returns for it alone, with the corresponding slice of
the initial guesses. -/
theorem C20_batch (nc N : ℕ) (hnc : 2 ≤ nc) (data : List ℂ) (hdata : data.length = N * nc)
    (init : Option (List ℂ)) (hinit : ∀ g, init = some g → g.length = N * (nc - 1)) :
    ∃ out, polyRoots nc data init = .ok out ∧ out.length = N * (nc - 1) ∧
      ∀ i < N, polyRootsEA ((data.drop (i * nc)).take nc)
          (init.map fun g => (g.drop (i * (nc - 1))).take (nc - 1)) (1 / 10 ^ 12) 100
        = .ok ((out.drop (i * (nc - 1))).take (nc - 1)) := by
  set single : List ℂ → Option (List ℂ) → List ℂ := fun c i =>
    cleanRealRoots (1 / 10 ^ 12) (eaLoop c (polyderCoeffs c) (epsMach * 10) (1 / 10 ^ 12) 100
      (initState c i)).roots c with hsingle
  have hEA : ∀ c : List ℂ, c.length = nc → ∀ i, polyRootsEA c i (1 / 10 ^ 12) 100 = .ok (single c i) := by
    intro c hc i
    unfold polyRootsEA
    rw [if_neg (by omega)]
  have hsl : ∀ c : List ℂ, c.length = nc → ∀ i : Option (List ℂ), (∀ g, i = some g → g.length = nc - 1) →
      (single c i).length = nc - 1 := by
    intro c hc i hi
    rw [hsingle]
    simp only
    rw [clean_length]
    apply eaLoop_length _ _ _ _ _ _ _ rfl
    · cases i with
      | none => simp [initState, initialCircle, hc]
      | some g => simpa [initState] using hi g rfl
    · simp [initState, hc]
  set rows := polyRootsMulti (chunk nc data) (init.map (chunk (nc - 1))) (1 / 10 ^ 12) 100 with hrows
  have hrow : rows.length = N ∧ ∀ i < N, rows[i]? = some (single ((data.drop (i * nc)).take nc)
      (init.map fun g => (g.drop (i * (nc - 1))).take (nc - 1))) := by
    have hcl : (chunk nc data).length = N := by
      simp [chunk, hdata, Nat.mul_div_cancel _ (show 0 < nc by omega)]
    cases init with
    | none =>
      refine ⟨by simp [hrows, polyRootsMulti, C20_batch_loop, hcl], fun i hi => ?_⟩
      have := (chunk_getElem nc (by omega) data N hdata i hi).2.1
      simp [hrows, polyRootsMulti, C20_batch_loop, this, hsingle]
    | some g =>
      have hg := hinit g rfl
      have hgl : (chunk (nc - 1) g).length = N := by
        simp [chunk, hg, Nat.mul_div_cancel _ (show 0 < nc - 1 by omega)]
      refine ⟨by simp [hrows, polyRootsMulti, C20_batch_loop, hcl, hgl], fun i hi => ?_⟩
      have h1 := (chunk_getElem nc (by omega) data N hdata i hi).2.1
      have h2 := (chunk_getElem (nc - 1) (by omega) g N hg i hi).2.1
      simp [hrows, polyRootsMulti, C20_batch_loop, List.getElem?_zipWith, h1, h2, hsingle]
  have hlenrow : ∀ l ∈ rows, l.length = nc - 1 := by
    intro l hl
    obtain ⟨i, hi, rfl⟩ := List.mem_iff_getElem.mp hl
    have hi' : i < N := by rw [← hrow.1]; exact hi
    have := hrow.2 i hi'
    rw [List.getElem?_eq_getElem hi, Option.some.injEq] at this
    rw [this]
    apply hsl _ (chunk_getElem nc (by omega) data N hdata i hi').2.2
    intro g' hg'
    cases init with
    | none => simp at hg'
    | some g =>
      simp only [Option.map_some, Option.some.injEq] at hg'
      rw [← hg']
      exact (chunk_getElem (nc - 1) (by omega) g N (hinit g rfl) i hi').2.2
  refine ⟨rows.flatten, ?_, ?_, ?_⟩
  · unfold polyRoots
    rw [if_neg (by omega)]
  · rw [List.length_flatten, List.eq_replicate_of_mem (l := rows.map List.length) (a := nc - 1)]
    · simp [hrow.1]
    · intro b hb
      obtain ⟨l, hl, rfl⟩ := List.mem_map.mp hb
      exact hlenrow l hl
  · intro i hi
    rw [hEA _ (chunk_getElem nc (by omega) data N hdata i hi).2.2]
    congr 1
    rw [flatten_row (nc - 1) rows hlenrow i (by rw [hrow.1]; exact hi)]
    have := hrow.2 i hi
    rw [List.getElem?_eq_getElem (by rw [hrow.1]; exact hi), Option.some.injEq] at this
    exact this.symm

/-- C16, totality: `poly_roots_EA` raises the assertion exactly for polynomials of degree below one; otherwise it
returns as many values as the degree, whatever the coefficients, tolerance and iteration limit. -/
theorem C16_total (coeffs : List ℂ) (init : Option (List ℂ)) (hinit : ∀ g, init = some g → g.length = coeffs.length - 1)
    (tol : ℝ) (max_iter : ℕ) :
    (coeffs.length ≤ 1 ↔ ∃ e, polyRootsEA coeffs init tol max_iter = .error e) ∧
    (2 ≤ coeffs.length → ∃ out, polyRootsEA coeffs init tol max_iter = .ok out ∧ out.length = coeffs.length - 1) := by
  by_cases h : coeffs.length - 1 < 1
  · refine ⟨⟨fun _ => ⟨_, by rw [polyRootsEA, if_pos h]⟩, fun _ => by omega⟩, fun h2 => by omega⟩
  · have hr : (initState coeffs init).roots.length = coeffs.length - 1 := by
      cases init with
      | none => simp [initState, initialCircle]
      | some g => simpa [initState] using hinit g rfl
    obtain ⟨k, -, -, -, -, hl, -⟩ := C16_loop coeffs (polyderCoeffs coeffs) (epsMach * 10) tol max_iter (coeffs.length - 1)
      (initState coeffs init) rfl hr (by simp [initState])
    have e : polyRootsEA coeffs init tol max_iter = .ok (cleanRealRoots tol
        (eaLoop coeffs (polyderCoeffs coeffs) (epsMach * 10) tol max_iter (initState coeffs init)).roots coeffs) := by
      rw [polyRootsEA, if_neg h]
    refine ⟨⟨fun _ => by omega, fun ⟨_, he⟩ => by rw [e] at he; cases he⟩, fun _ => ⟨_, e, by rw [clean_length, hl]⟩⟩

/-! ## Concrete cases -/

/-- C16: a quadratic is accepted and a constant rejected. -/
example : (∃ out, polyRootsEA [1, 0, -1] none (1 / 10 ^ 12) 100 = .ok out ∧ out.length = 2) ∧
    ∃ e, polyRootsEA [5] none (1 / 10 ^ 12) 100 = .error e :=
  ⟨(C16_total [1, 0, -1] none (by simp) _ _).2 (by simp), (C16_total [5] none (by simp) _ _).1.mp (by simp)⟩

/-- C16: `x² - 1` started from `2` and `-3`: at least one sweep is made. -/
example : ∃ k, eaLoop [1, 0, -1] [2, 0] (epsMach * 10) (1 / 10) 7 (initState [1, 0, -1] (some [2, -3]))
      = (bodyFun [1, 0, -1] [2, 0] (epsMach * 10) (1 / 10))^[k] (initState [1, 0, -1] (some [2, -3])) ∧
      1 ≤ k := by
  obtain ⟨k, h1, _, h3, _, _, _⟩ := C16_loop [1, 0, -1] [2, 0] (epsMach * 10) (1 / 10) 7 2
    (initState [1, 0, -1] (some [2, -3])) rfl rfl rfl
  refine ⟨k, h1, ?_⟩
  by_contra hk
  have hk0 : k = 0 := by omega
  have := h3 (by omega) false (by rw [h1, hk0]; simp [initState])
  exact absurd this (by simp)

/-- C17: `x² - 1` started at its roots. -/
example : polyRootsEA [1, 0, -1] (some [1, -1]) (1 / 10 ^ 12) 100
    = .ok (cleanRealRoots (1 / 10 ^ 12) [1, -1] [1, 0, -1]) :=
  (C17_fixed_point [1, 0, -1] [1, -1] (1 / 10 ^ 12) (by norm_num) 100 (by simp) (by simp)
    (by intro r hr; fin_cases hr <;> simp [evalPoly])
    (by intro r hr; fin_cases hr <;> simp [evalPoly, polyderCoeffs, List.range_succ])).1

/-- C18: the root `√(1+t)` of `x² - (1+t)` at `t = 0` has tangent `1/2`. -/
example : HasDerivAt (fun t : ℝ => ((Real.sqrt (1 + t) : ℝ) : ℂ))
    (rootTangent [1, 0, -1] [0, 0, -1] 1) 0 ∧ rootTangent [1, 0, -1] [0, 0, -1] 1 = 1 / 2 := by
  refine ⟨?_, by norm_num [rootTangent, polyval, polyderCoeffs, List.range_succ]⟩
  have := C18_root_tangent (fun t : ℝ => [1, 0, -(1 + (t : ℂ))]) [0, 0, -1] 2 0
    (fun t : ℝ => ((Real.sqrt (1 + t) : ℝ) : ℂ)) (fun _ => rfl) ?_ ?_ ?_ ?_
  · simpa using this
  · intro k hk
    interval_cases k
    · simpa using hasDerivAt_const (0 : ℝ) (1 : ℂ)
    · simpa using hasDerivAt_const (0 : ℝ) (0 : ℂ)
    · have h : HasDerivAt (fun t : ℝ => (t : ℂ)) 1 0 := by
        simpa using (hasDerivAt_id (0 : ℝ)).ofReal_comp
      simpa using h.fun_neg
  · exact (Complex.continuous_ofReal.comp (Real.continuous_sqrt.comp
      (continuous_const.add continuous_id))).continuousAt
  · filter_upwards [lt_mem_nhds (show (-1 : ℝ) < 0 by norm_num)] with t ht
    have h : Real.sqrt (1 + t) * Real.sqrt (1 + t) = 1 + t := Real.mul_self_sqrt (by linarith)
    simp only [evalPoly, List.foldl_cons, List.foldl_nil]
    have h' : ((Real.sqrt (1 + t) : ℝ) : ℂ) * ((Real.sqrt (1 + t) : ℝ) : ℂ) = 1 + t := by
      exact_mod_cast h
    linear_combination h'
  · rw [(C14_polyder _ _).deriv]
    simp [evalPoly, polyderCoeffs, List.range_succ]

/-- C19: a root with a tiny imaginary part becomes real, the conjugate pair stays. -/
example : cleanRealRoots (1 / 10) [2 + (1 / 2 : ℝ) * I, 3 * I] [1, 2, 3] = [2, 3 * I] := by
  simp [cleanRealRoots]
  norm_num
  ring

/-- C20: two quadratics. -/
example : ∃ out, polyRoots 3 [1, 0, -1, 1, 0, 1] none = .ok out ∧ out.length = 4 ∧
    polyRootsEA [1, 0, 1] none (1 / 10 ^ 12) 100 = .ok ((out.drop 2).take 2) := by
  obtain ⟨out, h1, h2, h3⟩ := C20_batch 3 2 (by norm_num) [1, 0, -1, 1, 0, 1] (by simp) none (by simp)
  exact ⟨out, h1, h2, by simpa using h3 1 (by norm_num)⟩

end Microjax.Props
