import Verif.Props.InexactRoots
import Verif.Props.EaConvergence
import Verif.Props.Tracking
import Verif.Props.Critical

/-!
# C130: `poly_roots` from its own starting values
-/

set_option linter.unusedVariables false
set_option linter.unusedSectionVars false

noncomputable section

namespace Microjax.Props

open Complex ComplexConjugate Microjax.Spec PointSource PolySolver

/-- Specification: all coefficients are real. -/
def RealCoeffs (c : List ℂ) : Prop := ∀ x ∈ c, x.im = 0

theorem RealCoeffs.map_conj {c : List ℂ} (h : RealCoeffs c) : c.map conj = c := by
  conv_rhs => rw [← List.map_id c]
  exact List.map_congr_left fun x hx => conj_eq_iff_im.mpr (h x hx)

theorem polyval_conj (c : List ℂ) (h : RealCoeffs c) (x : ℂ) : polyval c (conj x) = conj (polyval c x) := by
  have key : ∀ (c : List ℂ) (a : ℂ), RealCoeffs c →
      c.foldl (fun acc ck => acc * conj x + ck) (conj a) = conj (c.foldl (fun acc ck => acc * x + ck) a) := by
    intro c
    induction c with
    | nil => intro a _; rfl
    | cons b c ih =>
      intro a hb
      simp only [List.foldl_cons]
      rw [← ih (a * x + b) fun y hy => hb y (List.mem_cons_of_mem _ hy)]
      congr 1
      rw [map_add, map_mul, conj_eq_iff_im.mpr (hb b List.mem_cons_self)]
  have := key c 0 h
  rw [map_zero] at this
  exact this

theorem polyder_real (c : List ℂ) (h : RealCoeffs c) : RealCoeffs (polyderCoeffs c) := by
  unfold polyderCoeffs
  split_ifs with hl
  · intro x hx
    obtain ⟨y, -, rfl⟩ := List.mem_map.mp hx
    rfl
  · intro x hx
    rw [List.mem_iff_getElem] at hx
    obtain ⟨k, hk, rfl⟩ := hx
    simp only [List.getElem_zipWith, List.getElem_dropLast]
    rw [mul_im, h _ (List.getElem_mem _), natCast_im]
    ring

theorem eaUpdate_conj (roots c d : List ℂ) (eps : ℝ) (hc : RealCoeffs c) (hd : RealCoeffs d)
    (hr : (roots.map conj).Perm roots) (z : ℂ) : eaUpdate roots c d eps (conj z) = conj (eaUpdate roots c d eps z) := by
  have hs : (roots.map fun r : ℂ => if conj z - r = 0 then 0 else 1 / (conj z - r)).sum =
      conj (roots.map fun r : ℂ => if z - r = 0 then 0 else 1 / (z - r)).sum := by
    rw [← (hr.map fun r : ℂ => if conj z - r = 0 then 0 else 1 / (conj z - r)).sum_eq, List.map_map, map_list_sum, List.map_map]
    congr 1
    refine List.map_congr_left fun r _ => ?_
    simp only [Function.comp]
    have e : conj z - conj r = conj (z - r) := (map_sub _ _ _).symm
    by_cases h0 : z - r = 0
    · rw [e, h0]; simp
    · rw [if_neg h0, e, if_neg ((map_ne_zero _).mpr h0), map_div₀, map_one]
  unfold eaUpdate
  simp only
  rw [hs, polyval_conj c hc, polyval_conj d hd]
  have e : conj (polyval d z) - conj (polyval c z) * conj (roots.map fun r : ℂ => if z - r = 0 then 0 else 1 / (z - r)).sum =
      conj (polyval d z - polyval c z * (roots.map fun r : ℂ => if z - r = 0 then 0 else 1 / (z - r)).sum) := by
    rw [map_sub, map_mul]
  rw [e, norm_conj]
  split_ifs
  · rw [map_div₀]
  · rw [map_div₀]

variable {n : ℕ} [NeZero n]

/-- The state is symmetric under complex conjugation, which exchanges the places `k` and `n - k`. -/
structure ConjState (s : State) (z : Fin n → ℂ) (d : Fin n → Bool) : Prop where
  roots : s.roots = List.ofFn z
  done : s.done = List.ofFn d
  sym : ∀ i, z (-i) = conj (z i)
  flags : ∀ i, d (-i) = d i

theorem conj_perm (z : Fin n → ℂ) (h : ∀ i, z (-i) = conj (z i)) : ((List.ofFn z).map conj).Perm (List.ofFn z) := by
  have e : (List.ofFn z).map conj = List.ofFn (z ∘ (Equiv.neg (Fin n))) := by
    rw [List.map_ofFn]
    congr 1
    funext i
    exact (h i).symm
  rw [e]
  exact Equiv.Perm.ofFn_comp_perm _ _

theorem conjState_step (c : List ℂ) (hc : RealCoeffs c) (eps tol : ℝ) (s : State) (z : Fin n → ℂ) (d : Fin n → Bool)
    (h : ConjState s z d) : ∃ z' d', ConjState (n := n) (bodyFun c (polyderCoeffs c) eps tol s) z' d' := by
  set u : Fin n → ℂ := fun i => eaUpdate (List.ofFn z) c (polyderCoeffs c) eps (z i) with hu
  have hus : ∀ i, u (-i) = conj (u i) := by
    intro i
    simp only [hu]
    rw [h.sym i]
    exact eaUpdate_conj _ _ _ _ hc (polyder_real c hc) (conj_perm z h.sym) _
  refine ⟨fun i => if d i then z i else z i - u i, fun i => d i || decide (‖u i‖ ≤ tol), ⟨?_, ?_, fun i => ?_, fun i => ?_⟩⟩
  · apply List.ext_getElem
    · simp [bodyFun, eaStep, h.roots, h.done]
    · intro m h1 h2
      simp [bodyFun, eaStep, h.roots, h.done, hu]
  · apply List.ext_getElem
    · simp [bodyFun, eaStep, h.roots, h.done]
    · intro m h1 h2
      simp [bodyFun, eaStep, h.roots, h.done, hu]
  · rw [h.flags i, h.sym i, hus i]
    split_ifs
    · rfl
    · rw [map_sub]
  · rw [h.flags i, hus i, norm_conj]

theorem circle_conj (R : ℝ) (i : Fin n) :
    (R : ℂ) * exp (2 * I * Real.pi * ((-i : Fin n) : ℕ) / n) = conj ((R : ℂ) * exp (2 * I * Real.pi * (i : ℕ) / n)) := by
  have hn : (n : ℂ) ≠ 0 := by exact_mod_cast NeZero.ne n
  rw [map_mul, conj_ofReal, ← exp_conj]
  congr 1
  have e1 : conj (2 * I * Real.pi * (i : ℕ) / n : ℂ) = -(2 * I * Real.pi * (i : ℕ) / n) := by
    rw [map_div₀, map_mul, map_mul, map_mul, conj_I, conj_ofReal, map_natCast, map_natCast, map_ofNat]; ring
  rw [e1, Fin.val_neg]
  split_ifs with h0
  · rw [h0]; simp
  · rw [Nat.cast_sub i.2.le, show 2 * I * Real.pi * ((n : ℂ) - (i : ℕ)) / n = 2 * Real.pi * I + -(2 * I * Real.pi * (i : ℕ) / n) by
      field_simp; ring, exp_add, exp_two_pi_mul_I, one_mul]

/-- **C130, symmetry**: for real coefficients the values that `poly_roots_EA` returns from its own starting circle come in
complex conjugate pairs at the places `k` and `n - k`, whatever the tolerance and the number of iterations; the value at
place `0` is real. -/
theorem C130_conjugate (c : List ℂ) (hlen : c.length = n + 1) (hc : RealCoeffs c) (tol : ℝ) (max_iter : ℕ) :
    ∃ out : Fin n → ℂ, polyRootsEA c none tol max_iter = .ok (List.ofFn out) ∧ ∀ i, out (-i) = conj (out i) := by
  have hn : 1 ≤ n := Nat.pos_of_ne_zero (NeZero.ne n)
  set s := initState c none with hs
  have h0 : ConjState (n := n) s (fun k => (cauchyRadius c : ℂ) * exp (2 * I * Real.pi * (k : ℕ) / n)) (fun _ => false) := by
    refine ⟨?_, ?_, fun i => circle_conj _ i, fun i => rfl⟩
    · apply List.ext_getElem
      · simp [hs, initState, initialCircle, hlen]
      · intro m h1 h2
        simp [hs, initState, initialCircle, hlen]
    · simp [hs, initState, hlen]
  obtain ⟨k, h1, -⟩ := C16_loop c (polyderCoeffs c) (epsMach * 10) tol max_iter n s rfl
    (by rw [h0.roots]; simp) (by rw [h0.done]; simp)
  have hk : ∀ k : ℕ, ∃ z d, ConjState (n := n) ((bodyFun c (polyderCoeffs c) (epsMach * 10) tol)^[k] s) z d := by
    intro k
    induction k with
    | zero => exact ⟨_, _, h0⟩
    | succ k ih =>
      obtain ⟨z, d, h⟩ := ih
      rw [Function.iterate_succ_apply']
      exact conjState_step c hc _ _ _ z d h
  obtain ⟨z, d, hz⟩ := hk k
  rw [← h1] at hz
  have e : polyRootsEA c none tol max_iter = .ok (cleanRealRoots tol (List.ofFn z) c) := by
    rw [polyRootsEA, if_neg (by omega)]
    simp only
    rw [← hz.roots]
  rw [e]
  unfold cleanRealRoots
  split_ifs with h
  · refine ⟨fun i => ((z i).re : ℂ) + I * ((if |(z i).im| < 10 * tol then 0 else (z i).im : ℝ) : ℂ), ?_, fun i => ?_⟩
    · rw [List.map_ofFn]; rfl
    · simp only
      rw [hz.sym i, conj_re, conj_im, abs_neg, map_add, map_mul, conj_ofReal, conj_I, conj_ofReal]
      split_ifs
      · simp
      · push_cast; ring
  · exact ⟨z, rfl, hz.sym⟩

/-- **C130, violated**: for a polynomial with real coefficients and distinct roots the values from the starting circle can be
close to the roots only if exactly one root is real (odd degree) or exactly two are (even degree). -/
theorem C130_real_roots_violated (c rs : List ℂ) (hlen : c.length = n + 1) (hc : RealCoeffs c) (hlead : c.headD 0 ≠ 0)
    (hrs : IsRootList c rs) (ε : ℝ) (hsep : rs.Pairwise fun x y => 2 * ε < ‖x - y‖) (hε : 0 < ε)
    (hreal : (rs.filter fun z => decide (z.im = 0)).length ≠ if n % 2 = 0 then 2 else 1) (tol : ℝ) (max_iter : ℕ) :
    ∃ out, polyRootsEA c none tol max_iter = .ok out ∧ ¬ WithinPerm ε rs out := by
  classical
  obtain ⟨o, ho, hsym⟩ := C130_conjugate c hlen hc tol max_iter
  refine ⟨_, ho, fun ⟨xs, hp, hx⟩ => hreal ?_⟩
  have hl : xs.length = n := by rw [hx.length_eq, List.length_ofFn]
  obtain ⟨x, rfl⟩ : ∃ x : Fin n → ℂ, xs = List.ofFn x := by
    refine ⟨fun i => xs[i.1]'(by rw [hl]; exact i.2), ?_⟩
    apply List.ext_getElem
    · simp [hl]
    · intro k h1 h2; simp
  have hnear : ∀ i, ‖o i - x i‖ < ε := by
    intro i
    have := (List.forall₂_iff_get.mp hx).2 i.1 (by simp) (by simp)
    simpa using this
  have hsep' : ∀ i j, i ≠ j → 2 * ε < ‖x i - x j‖ := by
    have := (hp.pairwise_iff (fun {x y} (h : 2 * ε < ‖x - y‖) => by rwa [norm_sub_rev])).mpr hsep
    rw [List.pairwise_ofFn] at this
    intro i j hij
    rcases lt_or_gt_of_ne hij with h | h
    · exact this h
    · rw [norm_sub_rev]; exact this h
  have hroot : ∀ i, conj (x i) ∈ rs := by
    intro i
    refine IsRootList.mem_of_eval_zero hrs hlead ?_
    have h1 := IsRootList.eval_zero_of_mem hrs (hp.mem_iff.mp (List.mem_ofFn.mpr ⟨i, rfl⟩))
    have h2 : evalPoly c (x i) = polyval c (x i) := rfl
    have h3 : evalPoly c (conj (x i)) = polyval c (conj (x i)) := rfl
    rw [h3, polyval_conj c hc, ← h2, h1, map_zero]
  -- conjugation acts on the roots as on the places
  have hconj : ∀ i, x (-i) = conj (x i) := by
    intro i
    obtain ⟨j, hj⟩ := List.mem_ofFn.mp (hp.mem_iff.mpr (hroot i))
    by_cases hij : -i = j
    · rw [hij, hj]
    · exfalso
      have h1 := hsep' _ _ hij
      have h2 := hnear (-i)
      have h3 : ‖o (-i) - x j‖ < ε := by
        rw [hsym i, hj, ← map_sub, norm_conj]; exact hnear i
      have h4 : ‖x (-i) - x j‖ ≤ ‖o (-i) - x (-i)‖ + ‖o (-i) - x j‖ := by
        rw [show x (-i) - x j = (o (-i) - x j) - (o (-i) - x (-i)) by ring, add_comm]
        exact norm_sub_le _ _
      linarith
  have hfix : ∀ i, (x i).im = 0 ↔ -i = i := by
    intro i
    rw [← conj_eq_iff_im, ← hconj i]
    constructor
    · intro h
      by_contra hne
      have := hsep' _ _ hne
      rw [h, sub_self, norm_zero] at this
      linarith
    · intro h; rw [h]
  have hlen2 : (rs.filter fun z => decide (z.im = 0)).length = (Finset.univ.filter fun i : Fin n => -i = i).card := by
    rw [← (hp.filter _).length_eq, ← List.countP_eq_length_filter, List.ofFn_eq_map, List.countP_map,
      List.countP_eq_length_filter]
    rw [← List.toFinset_card_of_nodup ((List.nodup_finRange n).filter _)]
    congr 1
    ext i
    simp [hfix]
  rw [hlen2]
  have hn : 0 < n := Nat.pos_of_ne_zero (NeZero.ne n)
  have hval : ∀ i : Fin n, -i = i ↔ i.1 = 0 ∨ 2 * i.1 = n := by
    intro i
    rw [Fin.ext_iff, Fin.val_neg]
    split_ifs with h0
    · rw [h0]; simp
    · have : i.1 ≠ 0 := fun h => h0 (Fin.ext (by simpa using h))
      have := i.2
      omega
  simp only [hval]
  split_ifs with hpar
  · have e : (Finset.univ.filter fun i : Fin n => i.1 = 0 ∨ 2 * i.1 = n) =
        {(⟨0, hn⟩ : Fin n), (⟨n / 2, by omega⟩ : Fin n)} := by
      ext i
      simp only [Finset.mem_filter, Finset.mem_univ, true_and, Finset.mem_insert, Finset.mem_singleton, Fin.ext_iff]
      omega
    rw [e, Finset.card_pair]
    intro h
    have := congrArg Fin.val h
    simp only at this
    omega
  · have e : (Finset.univ.filter fun i : Fin n => i.1 = 0 ∨ 2 * i.1 = n) = {(⟨0, hn⟩ : Fin n)} := by
      ext i
      simp only [Finset.mem_filter, Finset.mem_univ, true_and, Finset.mem_singleton, Fin.ext_iff]
      omega
    rw [e, Finset.card_singleton]

theorem exists_separation (rs : List ℂ) (h : rs.Nodup) : ∃ ε : ℝ, 0 < ε ∧ rs.Pairwise fun x y => 2 * ε < ‖x - y‖ := by
  induction rs with
  | nil => exact ⟨1, one_pos, List.Pairwise.nil⟩
  | cons a rs ih =>
    obtain ⟨h1, h2⟩ := List.nodup_cons.mp h
    obtain ⟨ε, hε, hp⟩ := ih h2
    have key : ∀ l : List ℂ, a ∉ l → ∃ δ : ℝ, 0 < δ ∧ ∀ y ∈ l, 2 * δ < ‖a - y‖ := by
      intro l
      induction l with
      | nil => exact fun _ => ⟨1, one_pos, fun y hy => by simp at hy⟩
      | cons b l ih =>
        intro hl
        obtain ⟨δ, hδ, hd⟩ := ih fun h => hl (List.mem_cons_of_mem _ h)
        have hb : 0 < ‖a - b‖ := norm_pos_iff.mpr (sub_ne_zero.mpr fun h => hl (h ▸ List.mem_cons_self))
        refine ⟨min δ (‖a - b‖ / 4), lt_min hδ (by positivity), fun y hy => ?_⟩
        rcases List.mem_cons.mp hy with rfl | hy
        · have := min_le_right δ (‖a - y‖ / 4); linarith
        · have := min_le_left δ (‖a - b‖ / 4); have := hd y hy; linarith
    obtain ⟨δ, hδ, hd⟩ := key rs h1
    refine ⟨min ε δ, lt_min hε hδ, List.pairwise_cons.mpr ⟨fun y hy => ?_, hp.imp fun {x y} hxy => ?_⟩⟩
    · have := min_le_right ε δ; have := hd y hy; linarith
    · have := min_le_left ε δ; linarith

/-- Three images of a source on the axis of a binary lie on the axis: one beyond each lens and one between them. -/
theorem axis_images (a e1 w : ℝ) (ha : 0 < a) (he : 0 < e1) (he' : e1 < 1) :
    ∃ x y z : ℝ, x < y ∧ y < z ∧ ∀ t ∈ [x, y, z], t ≠ a ∧ t ≠ -a ∧ t - e1 / (t - a) - (1 - e1) / (t + a) = w := by
  set g : ℝ → ℝ := fun t => (t - w) * (t ^ 2 - a ^ 2) - e1 * (t + a) - (1 - e1) * (t - a) with hg
  have hc : Continuous g := by rw [hg]; fun_prop
  set X := |w| + a + 2 with hX
  have hw1 := le_abs_self w
  have hw2 := neg_abs_le w
  have hw0 := abs_nonneg w
  have g1 : g a < 0 := by simp only [hg]; nlinarith [mul_pos ha he]
  have g2 : 0 < g (-a) := by simp only [hg]; nlinarith [mul_pos ha (sub_pos.mpr he')]
  have hXa : 4 * X ≤ 2 * (X ^ 2 - a ^ 2) := by
    have : 2 * X ≤ (X - a) * (X + a) := by nlinarith
    nlinarith
  have g3 : 0 < g X := by
    simp only [hg]
    have h1 : 2 * (X ^ 2 - a ^ 2) ≤ (X - w) * (X ^ 2 - a ^ 2) := mul_le_mul_of_nonneg_right (by linarith) (by nlinarith)
    nlinarith
  have g4 : g (-X) < 0 := by
    simp only [hg]
    have h1 : 2 * (X ^ 2 - a ^ 2) ≤ (X + w) * (X ^ 2 - a ^ 2) := mul_le_mul_of_nonneg_right (by linarith) (by nlinarith)
    nlinarith
  obtain ⟨x, hx, hx0⟩ := intermediate_value_Ioo (show -X ≤ -a by linarith) hc.continuousOn ⟨g4, g2⟩
  obtain ⟨y, hy, hy0⟩ := intermediate_value_Ioo' (show -a ≤ a by linarith) hc.continuousOn ⟨g1, g2⟩
  obtain ⟨z, hz, hz0⟩ := intermediate_value_Ioo (show a ≤ X by linarith) hc.continuousOn ⟨g1, g3⟩
  have key : ∀ t : ℝ, t ≠ a → t ≠ -a → g t = 0 → t - e1 / (t - a) - (1 - e1) / (t + a) = w := by
    intro t h1 h2 h
    have h3 : t - a ≠ 0 := sub_ne_zero.mpr h1
    have h4 : t + a ≠ 0 := fun h => h2 (by linarith)
    simp only [hg] at h
    field_simp
    linear_combination h
  refine ⟨x, y, z, hx.2.trans hy.1, hy.2.trans hz.1, fun t ht => ?_⟩
  simp only [List.mem_cons, List.not_mem_nil, or_false] at ht
  have hne : t ≠ a ∧ t ≠ -a := by
    rcases ht with rfl | rfl | rfl
    · exact ⟨(hx.2.trans (by linarith)).ne, hx.2.ne⟩
    · exact ⟨hy.2.ne, hy.1.ne'⟩
    · exact ⟨hz.1.ne', ((show -a < a by linarith).trans hz.1).ne'⟩
  refine ⟨hne.1, hne.2, key t hne.1 hne.2 ?_⟩
  rcases ht with rfl | rfl | rfl <;> assumption

theorem binary_real (w a e1 : ℝ) : RealCoeffs (polyCoeffsBinary (w : ℂ) a e1) := by
  intro x hx
  simp only [polyCoeffsBinary, conj_ofReal, List.mem_cons, List.not_mem_nil, or_false] at hx
  rcases hx with rfl | rfl | rfl | rfl | rfl | rfl <;>
  · rw [← conj_eq_iff_im]
    simp only [map_add, map_sub, map_mul, map_neg, map_one, map_ofNat, conj_ofReal]

/-- `poly_roots` for one polynomial without an initial guess is the single-polynomial solver with its default tolerance and
iteration limit. -/
theorem polyRoots1_none_eq (c out : List ℂ) (hc : 2 ≤ c.length) (hout : out.length = c.length - 1)
    (h : polyRootsEA c none (1 / 10 ^ 12) 100 = .ok out) : polyRoots1 none c = out := by
  obtain ⟨o, h1, h2, h3⟩ := C20_batch c.length 1 hc c (by simp) none (by intro g' hg'; cases hg')
  have h4 := h3 0 one_pos
  simp only [zero_mul, List.drop_zero, Option.map_none, List.take_length] at h4
  rw [h] at h4
  have h5 : out = o := by
    have := Except.ok.inj h4
    rw [this, List.take_of_length_le (by omega)]
  simp only [polyRoots1, h1, h5]

/-- **C130, sources on the axis, violated**: for every binary and every source on the axis of the lenses, off the lenses and
with distinct roots, there is an `ε` such that what the solver returns is never within `ε` of the roots of the lens
polynomial, whatever the tolerance and the number of iterations. -/
theorem C130_axis_violated (u : UserParams) (hs : 0 < u.s) (hq : 0 < u.q) (w : ℝ)
    (hw : w ^ 2 ≠ (midParams2 u).a ^ 2) (rs : List ℂ)
    (hrs : IsRootList (polyCoeffsBinary (w : ℂ) (midParams2 u).a (midParams2 u).e1) rs) (hnd : rs.Nodup) :
    ∃ ε : ℝ, 0 < ε ∧ ∀ (tol : ℝ) (max_iter : ℕ), ∃ out,
      polyRootsEA (polyCoeffsBinary (w : ℂ) (midParams2 u).a (midParams2 u).e1) none tol max_iter = .ok out ∧
        ¬ WithinPerm ε rs out := by
  classical
  set p := midParams2 u with hp
  have ha : 0 < p.a := by simp only [hp, midParams2]; positivity
  obtain ⟨⟨he, he'⟩, -, -⟩ := mass2_pos u hq
  rw [← hp] at he he'
  have hlead : (polyCoeffsBinary (w : ℂ) p.a p.e1).headD 0 ≠ 0 := by
    rw [binary_headD, conj_ofReal]
    exact_mod_cast sub_ne_zero.mpr hw
  obtain ⟨ε, hε, hsep⟩ := exists_separation rs hnd
  refine ⟨ε, hε, fun tol max_iter => ?_⟩
  refine C130_real_roots_violated (n := 5) _ rs (C04_binary_leading _ _ _).1 (binary_real w p.a p.e1) hlead hrs ε hsep hε ?_
    tol max_iter
  rw [if_neg (by norm_num)]
  obtain ⟨x, y, z, hxy, hyz, himg⟩ := axis_images p.a p.e1 w ha he he'
  have hmem : ∀ t ∈ [x, y, z], (t : ℂ) ∈ rs := by
    intro t ht
    obtain ⟨h1, h2, h3⟩ := himg t ht
    refine IsRootList.mem_of_eval_zero hrs hlead (C04_binary_complete p w t ?_ ?_ ?_)
    · exact_mod_cast h1
    · exact_mod_cast h2
    · rw [← h3]
      simp only [lensEq2, conj_ofReal]
      push_cast
      ring
  have hsub : ([x, y, z].map fun t : ℝ => (t : ℂ)) ⊆ rs.filter fun z => decide (z.im = 0) := by
    intro v hv
    obtain ⟨t, ht, rfl⟩ := List.mem_map.mp hv
    rw [List.mem_filter]
    exact ⟨hmem t ht, by simp⟩
  have hnd3 : ([x, y, z].map fun t : ℝ => (t : ℂ)).Nodup := by
    refine List.Nodup.map ofReal_injective ?_
    simp [hxy.ne, hyz.ne, (hxy.trans hyz).ne]
  have := (List.subperm_of_subset hnd3 hsub).length_le
  simp at this
  omega

/-- **C130, critical curves, violated**: for every binary the polynomial of the first and of the last phase of
`critical_and_caustic_curves` has no real root, but two of the four values that the solver returns are real; so these are
never within some `ε` of the points of the critical curve with that phase. -/
theorem C130_critical_violated (u : UserParams) (hs : 0 < u.s) (hq : 0 < u.q) (φ : ℝ) (hφ : φ = -Real.pi ∨ φ = Real.pi)
    (rs : List ℂ) (hrs : IsRootList (polyCoeffsCriticalBinary φ (midParams2 u).a (midParams2 u).e1) rs) (hnd : rs.Nodup) :
    ∃ ε : ℝ, 0 < ε ∧ ∀ (tol : ℝ) (max_iter : ℕ), ∃ out,
      polyRootsEA (polyCoeffsCriticalBinary φ (midParams2 u).a (midParams2 u).e1) none tol max_iter = .ok out ∧
        ¬ WithinPerm ε rs out := by
  classical
  set p := midParams2 u with hp
  have ha : 0 < p.a := by simp only [hp, midParams2]; positivity
  obtain ⟨⟨he, he'⟩, -, -⟩ := mass2_pos u hq
  rw [← hp] at he he'
  have hx : exp (-I * φ) = -1 := by
    rcases hφ with rfl | rfl
    · rw [show -I * ((-Real.pi : ℝ) : ℂ) = Real.pi * I by push_cast; ring, exp_pi_mul_I]
    · rw [show -I * (Real.pi : ℂ) = -(Real.pi * I) by ring, exp_neg, exp_pi_mul_I]; norm_num
  have hcs : polyCoeffsCriticalBinary φ p.a p.e1 = [((-1 : ℝ) : ℂ), ((0 : ℝ) : ℂ), ((2 * p.a ^ 2 - 1 : ℝ) : ℂ),
      ((-4 * p.a * p.e1 + 2 * p.a : ℝ) : ℂ), ((-p.a ^ 4 - p.a ^ 2 : ℝ) : ℂ)] := by
    simp only [polyCoeffsCriticalBinary, hx]
    push_cast
    simp only [List.cons.injEq, and_true, true_and]
    refine ⟨by ring, by ring⟩
  rw [hcs] at hrs ⊢
  obtain ⟨ε, hε, hsep⟩ := exists_separation rs hnd
  refine ⟨ε, hε, fun tol max_iter => C130_real_roots_violated (n := 4) _ rs rfl ?_ (by simp) hrs ε hsep hε ?_ tol max_iter⟩
  · intro x hx
    simp only [List.mem_cons, List.not_mem_nil, or_false] at hx
    rcases hx with rfl | rfl | rfl | rfl | rfl <;> exact ofReal_im _
  · rw [if_pos (by norm_num)]
    have : rs.filter (fun z => decide (z.im = 0)) = [] := by
      rw [List.filter_eq_nil_iff]
      intro z hz hz0
      have hz0 := of_decide_eq_true hz0
      obtain ⟨t, rfl⟩ : ∃ t : ℝ, z = t := ⟨z.re, by apply Complex.ext <;> simp [hz0]⟩
      have h0 := IsRootList.eval_zero_of_mem hrs hz
      have h1 : ((-(t ^ 2 - p.a ^ 2) ^ 2 - (t - p.a * (1 - 2 * p.e1)) ^ 2 - 4 * p.a ^ 2 * (p.e1 * (1 - p.e1)) : ℝ) : ℂ) = 0 := by
        rw [← h0]
        simp only [evalPoly, List.foldl_cons, List.foldl_nil]
        push_cast
        ring
      have h2 : -(t ^ 2 - p.a ^ 2) ^ 2 - (t - p.a * (1 - 2 * p.e1)) ^ 2 - 4 * p.a ^ 2 * (p.e1 * (1 - p.e1)) = 0 := by
        exact_mod_cast h1
      have h3 : 0 < 4 * p.a ^ 2 * (p.e1 * (1 - p.e1)) := by
        have := sub_pos.mpr he'
        positivity
      nlinarith [sq_nonneg (t ^ 2 - p.a ^ 2), sq_nonneg (t - p.a * (1 - 2 * p.e1))]
    rw [this]
    norm_num

/-! ## Examples -/

/-- `z² + 1`: both starting values are real and stay real, whereas both roots are imaginary. -/
example (tol : ℝ) (max_iter : ℕ) : ∃ out, polyRootsEA [1, 0, 1] none tol max_iter = .ok out ∧ ¬ WithinPerm (1 / 2) [I, -I] out := by
  refine C130_real_roots_violated (n := 2) [1, 0, 1] [I, -I] rfl ?_ (by simp) ?_ (1 / 2) ?_ (by norm_num) (by simp) tol max_iter
  · intro x hx
    simp only [List.mem_cons, List.not_mem_nil, or_false] at hx
    rcases hx with rfl | rfl | rfl <;> simp
  · intro x
    simp [evalPoly]
    linear_combination I_sq
  · simp only [List.pairwise_cons, List.mem_cons, List.not_mem_nil, or_false, forall_eq, IsEmpty.forall_iff, implies_true,
      List.Pairwise.nil, and_true]
    rw [sub_neg_eq_add, ← two_mul, norm_mul, norm_I]
    norm_num

/-- The five images of a source midway between two equal lenses: `poly_roots`, as called by `mag_point_source`, does not come
near them. -/
example : ∃ ε : ℝ, 0 < ε ∧ ¬ WithinPerm ε exRoots (polyRoots1 none (polyCoeffsBinary 0 (midParams2 exU).a (midParams2 exU).e1)) := by
  have h0 := C130_axis_violated exU (by simp [exU]) (by simp [exU]) 0 (by rw [exU_a]; norm_num) exRoots
    (by rw [ofReal_zero]; exact exRoots_isRootList) exRoots_nodup
  rw [ofReal_zero] at h0
  obtain ⟨ε, hε, h⟩ := h0
  obtain ⟨out, h1, h2⟩ := h (1 / 10 ^ 12) 100
  have hl : (polyCoeffsBinary 0 (midParams2 exU).a (midParams2 exU).e1).length = 5 + 1 := (C04_binary_leading _ _ _).1
  obtain ⟨o, h3, -⟩ := C130_conjugate (n := 5) _ hl (by have := binary_real 0 (midParams2 exU).a (midParams2 exU).e1; rwa [ofReal_zero] at this)
    (1 / 10 ^ 12) 100
  have h4 : out = List.ofFn o := Except.ok.inj (h1.symm.trans h3)
  refine ⟨ε, hε, ?_⟩
  rw [polyRoots1_none_eq _ out (by rw [hl]; norm_num) (by rw [hl, h4]; simp) h1]
  exact h2

/-- The critical points of phase `π` of two equal lenses at distance `2/3`. -/
example (tol : ℝ) (max_iter : ℕ) : ∃ rs : List ℂ, ∃ ε : ℝ, 0 < ε ∧
    IsRootList (polyCoeffsCriticalBinary Real.pi (1 / 3) (1 / 2)) rs ∧ ∃ out,
      polyRootsEA (polyCoeffsCriticalBinary Real.pi (1 / 3) (1 / 2)) none tol max_iter = .ok out ∧ ¬ WithinPerm ε rs out := by
  set u : UserParams := { s := 2 / 3, q := 1 } with hu
  have ha : (midParams2 u).a = 1 / 3 := by simp [midParams2, hu]; norm_num
  have he : (midParams2 u).e1 = 1 / 2 := by simp [midParams2, hu]; norm_num
  have s2 : ((Real.sqrt 2 : ℝ) : ℂ) ^ 2 = 2 := by rw [← ofReal_pow, Real.sq_sqrt (by norm_num)]; norm_num
  set rs : List ℂ := [((Real.sqrt 2 / 3 : ℝ) : ℂ) * I, ((-(Real.sqrt 2 / 3) : ℝ) : ℂ) * I,
    ((Real.sqrt 5 / 3 : ℝ) : ℂ) * I, ((-(Real.sqrt 5 / 3) : ℝ) : ℂ) * I] with hrs
  have h1 : IsRootList (polyCoeffsCriticalBinary Real.pi (1 / 3) (1 / 2)) rs := by
    intro x
    have hx : exp (-I * (Real.pi : ℂ)) = -1 := by
      rw [show -I * (Real.pi : ℂ) = -(Real.pi * I) by ring, exp_neg, exp_pi_mul_I]; norm_num
    simp only [polyCoeffsCriticalBinary, hx, evalPoly, List.foldl_cons, List.foldl_nil, hrs, List.map_cons, List.map_nil,
      List.prod_cons, List.prod_nil, List.headD_cons]
    push_cast
    have h5 := sq5
    have e : ∀ s : ℂ, (x - s / 3 * I) * (x - -(s / 3) * I) = x ^ 2 + s ^ 2 / 9 := fun s => by
      linear_combination -(s ^ 2 / 9) * I_sq
    rw [show ∀ A B C D : ℂ, A * (B * (C * (D * 1))) = (A * B) * (C * D) from fun A B C D => by ring, e, e, s2, h5]
    ring
  have h2 : rs.Nodup := by
    have p2 : 0 < Real.sqrt 2 := Real.sqrt_pos.mpr (by norm_num)
    have p5 : Real.sqrt 2 < Real.sqrt 5 := Real.sqrt_lt_sqrt (by norm_num) (by norm_num)
    have key : (rs.map fun z => (z.re, z.im)).Nodup := by
      simp [hrs]
      refine ⟨⟨?_, ?_⟩, ?_, ?_⟩ <;> intro h <;> linarith
    exact List.Nodup.of_map _ key
  obtain ⟨ε, hε, h⟩ := C130_critical_violated u (by norm_num [hu]) (by norm_num [hu]) Real.pi (Or.inr rfl) rs
    (by rw [ha, he]; exact_mod_cast h1) h2
  have h3 := h tol max_iter
  rw [ha, he] at h3
  exact ⟨rs, ε, hε, h1, h3⟩

end Microjax.Props
