import Verif.Lemmas.Lightcurve
import Verif.Lemmas.Lensing
import Verif.Props.PointSource
import Verif.Lemmas.MultipoleNumbers
import Verif.Props.Multipole

/-! # C29–C31, C47–C49, C70: light curves and accuracy tests -/

noncomputable section

namespace Microjax.Props

open Complex ComplexConjugate Spec PointSource Multipole Tests Lightcurve

/-! ## C29 -/

/-- **C29**: evaluating in chunks of any positive size gives exactly the per-point values in order. -/
theorem C29_chunking {α β : Type*} (zero : α) (f : α → β) (data : List α) (c : ℕ) (hc : 1 ≤ c) :
    chunkedVmap zero f data c = data.map f := chunkedVmap_eq zero f data c hc

/-- Five points in chunks of two: one padding entry, which is dropped. -/
example : chunkedVmap 0 (fun n : ℕ => n + 10) [1, 2, 3, 4, 5] 2 = [11, 12, 13, 14, 15] := by decide

/-! ## C30, C31 -/

/-- The points to be evaluated in full: rejected, and fewer than `m` rejected points come before it. -/
def chosen (reject : ℂ → Prop) (w : List ℂ) (m i : ℕ) : Prop :=
  ∃ h : i < w.length, reject w[i] ∧ {j | ∃ hj : j < w.length, j < i ∧ reject w[j]}.ncard < m

theorem count_false_ncard (t : ℂ → Bool) (w : List ℂ) (i : ℕ) (hi : i ≤ w.length) :
    {j | ∃ hj : j < w.length, j < i ∧ t w[j] = false}.ncard = ((w.map t).take i).count false := by
  induction i with
  | zero => simp
  | succ i ih =>
    have hlt : i < w.length := by omega
    have hlt' : i < (w.map t).length := by simpa using hlt
    rw [List.take_add_one, List.count_append, ← ih (by omega), List.getElem?_eq_getElem hlt']
    have hfin : {j | ∃ hj : j < w.length, j < i ∧ t w[j] = false}.Finite :=
      (Set.finite_lt_nat i).subset fun j hj => hj.2.1
    by_cases hb : t w[i] = false
    · have : {j | ∃ hj : j < w.length, j < i + 1 ∧ t w[j] = false} =
          insert i {j | ∃ hj : j < w.length, j < i ∧ t w[j] = false} := by
        ext j
        simp only [Set.mem_ofPred_eq, Set.mem_insert_iff]
        constructor
        · rintro ⟨h1, h2, h3⟩
          by_cases hj : j = i
          · exact .inl hj
          · exact .inr ⟨h1, by omega, h3⟩
        · rintro (rfl | ⟨h1, h2, h3⟩)
          · exact ⟨hlt, by omega, hb⟩
          · exact ⟨h1, by omega, h3⟩
      rw [this, Set.ncard_insert_of_notMem (by simp) hfin]
      simp [hb]
    · have : {j | ∃ hj : j < w.length, j < i + 1 ∧ t w[j] = false} =
          {j | ∃ hj : j < w.length, j < i ∧ t w[j] = false} := by
        ext j
        simp only [Set.mem_ofPred_eq]
        constructor
        · rintro ⟨h1, h2, h3⟩
          refine ⟨h1, ?_, h3⟩
          by_contra hc
          have : j = i := by omega
          subst this; exact hb h3
        · rintro ⟨h1, h2, h3⟩
          exact ⟨h1, by omega, h3⟩
      rw [this]; simp [hb]

open Classical in
theorem refine_spec (t : ℂ → Bool) (mu : ℂ → ℝ) (full : ℂ → ℝ) (w : List ℂ) (m c : ℕ) (hc : 1 ≤ c) :
    (refine (w.map t) (w.map mu) full w m c).length = w.length ∧
    ∀ (i : ℕ) (hi : i < w.length), (refine (w.map t) (w.map mu) full w m c)[i]? =
      some (if chosen (fun w => t w = false) w m i then full w[i] else mu w[i]) := by
  refine ⟨refine_length _ _ _ _ _ _ (by simp) (by simp), fun i hi => ?_⟩
  rw [refine_get _ _ _ _ _ _ hc (by simp) (by simp) i hi]
  have hk := count_false_ncard t w i hi.le
  congr 1
  have hiff : chosen (fun w => t w = false) w m i ↔
      ¬ ((w.map t)[i]'(by simpa using hi) = true ∨ m ≤ ((w.map t).take i).count false) := by
    unfold chosen
    rw [← hk]
    simp [hi]
  by_cases h : (w.map t)[i]'(by simpa using hi) = true ∨ m ≤ ((w.map t).take i).count false
  · rw [if_pos h, if_neg (by rw [hiff]; exact not_not.mpr h)]; simp
  · rw [if_neg h, if_pos (hiff.mpr h)]

/-- The multipole value `mag_binary` uses at a point of the user's frame. -/
def binaryMulti (roots : Option (List ℂ) → List ℂ → List ℂ) (rho u1 s q : ℝ) (w : ℂ) : Except Err (ℝ × ℝ) :=
  let u : UserParams := { s := s, q := q, q3 := 0, r3 := 0, psi := 0 }
  magHexadecapole 2 (midParams2 u) (images2 roots none (midParams2 u) (w - xCM u)) rho u1

/-- `mag_binary` accepts the multipole value at a point of the user's frame: the caustic-proximity test passes,
and so does the planetary test when `q < 0.01`. -/
def binaryAccepts (roots : Option (List ℂ) → List ℂ → List ℂ) (rho u1 s q : ℝ) (w : ℂ) : Prop :=
  let u : UserParams := { s := s, q := q, q3 := 0, r3 := 0, psi := 0 }
  ∃ mu err, binaryMulti roots rho u1 s q w = .ok (mu, err) ∧
    proximityTest (field2 (midParams2 u)) (w - xCM u) (images2 roots none (midParams2 u) (w - xCM u)) rho err
      = true ∧
    (q < 1 / 100 → planetaryTest (midParams2 u) (w - xCM u) rho = true)

theorem binaryMulti_ok (roots : Option (List ℂ) → List ℂ → List ℂ) (rho u1 s q : ℝ) (w : ℂ) :
    binaryMulti roots rho u1 s q w = .ok (multi2 roots (midParams2 { s := s, q := q, q3 := 0, r3 := 0, psi := 0 })
      rho u1 (w - xCM { s := s, q := q, q3 := 0, r3 := 0, psi := 0 })) := rfl

theorem binaryAccepts_iff (roots : Option (List ℂ) → List ℂ → List ℂ) (rho u1 s q : ℝ) (w : ℂ) :
    binaryAccepts roots rho u1 s q w ↔ test2 roots (midParams2 { s := s, q := q, q3 := 0, r3 := 0, psi := 0 })
      q rho u1 (w - xCM { s := s, q := q, q3 := 0, r3 := 0, psi := 0 }) = true := by
  unfold binaryAccepts
  simp only [binaryMulti_ok, Except.ok.injEq, test2]
  constructor
  · rintro ⟨mu, err, h1, h2, h3⟩
    rw [h1]
    split_ifs with hq
    · simp [h2, h3 hq]
    · exact h2
  · intro h
    refine ⟨_, _, rfl, ?_⟩
    split_ifs at h with hq
    · simp only [Bool.and_eq_true] at h
      exact ⟨h.1, fun _ => h.2⟩
    · exact ⟨h, fun h => absurd h hq⟩

open Classical in
/-- **C30**: `mag_binary` returns one value per point in input order; the finite-source value (of the solver for
the limb darkening in use, at that same point) exactly at the first `MAX_FULL_CALLS` points that the tests
reject, and the multipole value at all the others. -/
theorem C30_selection (roots : Option (List ℂ) → List ℂ → List ℂ) (unif limb : ℂ → ℝ) (w : List ℂ)
    (rho u1 s q : ℝ) (m c : ℕ) (hc : 1 ≤ c) :
    ∃ out, magBinary roots unif limb w rho u1 m c (some s) (some q) = .ok out ∧ out.length = w.length ∧
      ∀ (i : ℕ) (hi : i < w.length), ∃ mu err, binaryMulti roots rho u1 s q w[i] = .ok (mu, err) ∧
        out[i]? = some (if chosen (fun w => ¬ binaryAccepts roots rho u1 s q w) w m i then
            (if u1 = 0 then unif w[i] else limb w[i]) else mu) := by
  set u : UserParams := { s := s, q := q, q3 := 0, r3 := 0, psi := 0 } with hu
  refine ⟨_, rfl, ?_⟩
  have h := refine_spec (fun w => test2 roots (midParams2 u) q rho u1 (w - xCM u))
    (fun w => (multi2 roots (midParams2 u) rho u1 (w - xCM u)).1) (if u1 = 0 then unif else limb) w m c hc
  simp only [List.map_map, Function.comp_def] at h ⊢
  refine ⟨h.1, fun i hi => ⟨_, _, binaryMulti_ok roots rho u1 s q w[i], ?_⟩⟩
  rw [h.2 i hi]
  have e : (fun w => ¬ binaryAccepts roots rho u1 s q w) =
      fun w => test2 roots (midParams2 u) q rho u1 (w - xCM u) = false := by
    funext w
    rw [binaryAccepts_iff]
    simp [hu]
  rw [e]
  by_cases h0 : u1 = 0
  · simp only [h0, if_true]; rfl
  · simp only [h0, if_false]; rfl

/-- **C30**: with `MAX_FULL_CALLS = 0` the light curve is the multipole one, whatever the tests say. -/
theorem C30_zero_calls (roots : Option (List ℂ) → List ℂ → List ℂ) (unif limb : ℂ → ℝ) (w : List ℂ)
    (rho u1 s q : ℝ) (c : ℕ) (hc : 1 ≤ c) :
    ∃ out, magBinary roots unif limb w rho u1 0 c (some s) (some q) = .ok out ∧ out.length = w.length ∧
      ∀ (i : ℕ) (hi : i < w.length), ∃ mu err, binaryMulti roots rho u1 s q w[i] = .ok (mu, err) ∧
        out[i]? = some mu := by
  classical
  obtain ⟨out, h1, h2, h3⟩ := C30_selection roots unif limb w rho u1 s q 0 c hc
  refine ⟨out, h1, h2, fun i hi => ?_⟩
  obtain ⟨mu, err, h4, h5⟩ := h3 i hi
  refine ⟨mu, err, h4, ?_⟩
  rw [h5, if_neg]
  rintro ⟨_, _, h⟩
  omega

open Classical in
/-- **C30**: with `MAX_FULL_CALLS` at least the number of points, every point gets the value chosen by its own
test. -/
theorem C30_enough_calls (roots : Option (List ℂ) → List ℂ → List ℂ) (unif limb : ℂ → ℝ) (w : List ℂ)
    (rho u1 s q : ℝ) (m c : ℕ) (hc : 1 ≤ c) (hm : w.length ≤ m) :
    ∃ out, magBinary roots unif limb w rho u1 m c (some s) (some q) = .ok out ∧ out.length = w.length ∧
      ∀ (i : ℕ) (hi : i < w.length), ∃ mu err, binaryMulti roots rho u1 s q w[i] = .ok (mu, err) ∧
        out[i]? = some (if binaryAccepts roots rho u1 s q w[i] then mu else
            (if u1 = 0 then unif w[i] else limb w[i])) := by
  obtain ⟨out, h1, h2, h3⟩ := C30_selection roots unif limb w rho u1 s q m c hc
  refine ⟨out, h1, h2, fun i hi => ?_⟩
  obtain ⟨mu, err, h4, h5⟩ := h3 i hi
  refine ⟨mu, err, h4, ?_⟩
  rw [h5]
  congr 1
  have : chosen (fun w => ¬ binaryAccepts roots rho u1 s q w) w m i ↔ ¬ binaryAccepts roots rho u1 s q w[i] := by
    constructor
    · rintro ⟨_, h, _⟩; exact h
    · intro h
      refine ⟨hi, h, lt_of_le_of_lt (Set.ncard_le_ncard (t := Set.Iio i) (fun j hj => hj.2.1)
        (Set.finite_lt_nat i)) ?_⟩
      rw [← Finset.coe_Iio, Set.ncard_coe_finset, Nat.card_Iio]; omega
  by_cases h : binaryAccepts roots rho u1 s q w[i]
  · rw [if_neg (by rw [this]; exact not_not.mpr h), if_pos h]
  · rw [if_pos (this.mpr h), if_neg h]

/-- **C30**: `mag_binary` without `s` or without `q` raises. -/
theorem C30_missing (roots : Option (List ℂ) → List ℂ → List ℂ) (unif limb : ℂ → ℝ) (w : List ℂ)
    (rho u1 : ℝ) (m c : ℕ) (s q : Option ℝ) :
    (∃ out, magBinary roots unif limb w rho u1 m c s q = .ok out) ↔ s ≠ none ∧ q ≠ none := by
  cases s <;> cases q <;> simp [magBinary]

/-- A pattern where rejected and accepted points alternate and the budget of two runs out: points 1 and 3 are
evaluated in full, point 4 is not. -/
example (full : ℂ → ℝ) : refine [true, false, true, false, false] [1, 2, 3, 4, 5] full [10, 11, 12, 13, 14] 2 3
    = [1, full 11, 3, full 13, 5] := by
  refine List.ext_getElem? fun i => ?_
  by_cases hi : i < 5
  · rw [refine_get _ _ _ _ _ _ (by norm_num) (by simp) (by simp) i (by simpa using hi)]
    interval_cases i <;> simp
  · rw [List.getElem?_eq_none (by rw [refine_length _ _ _ _ _ _ rfl rfl]; simp; omega),
      List.getElem?_eq_none (by simp; omega)]

/-- **C31**: `mag_triple` gives the finite-source value at the first `MAX_FULL_CALLS` points and the multipole
value at the others. -/
theorem C31_selection (roots : Option (List ℂ) → List ℂ → List ℂ) (unif limb : ℂ → ℝ) (w : List ℂ)
    (rho u1 : ℝ) (m c : ℕ) (hc : 1 ≤ c) (u : UserParams) :
    (magTriple roots unif limb w rho u1 m c u).length = w.length ∧
    ∀ (i : ℕ) (hi : i < w.length), ∃ mu err,
      magHexadecapole 3 (midParams3 u) (images3 roots (midParams3 u) (w[i] - xCM u)) rho u1 = .ok (mu, err) ∧
      (magTriple roots unif limb w rho u1 m c u)[i]? =
        some (if i < m then (if u1 = 0 then unif w[i] else limb w[i]) else mu) := by
  have h := refine_spec (fun _ => false)
    (fun w => (sumTerms (wk3 (midParams3 u)) (images3 roots (midParams3 u) (w - xCM u)) rho u1).1)
    (if u1 = 0 then unif else limb) w m c hc
  unfold magTriple
  simp only [List.map_map, Function.comp_def] at h ⊢
  refine ⟨h.1, fun i hi => ⟨_, _, rfl, ?_⟩⟩
  rw [h.2 i hi]
  have hch : chosen (fun w => false = false) w m i ↔ i < m := by
    have : {j | ∃ _ : j < w.length, j < i ∧ false = false} = Set.Iio i := by
      ext j; simp only [Set.mem_ofPred_eq, Set.mem_Iio, and_true, exists_prop]
      constructor
      · exact fun h => h.2
      · exact fun h => ⟨by omega, h⟩
    unfold chosen
    simp only [true_and]
    rw [show {j | ∃ _ : j < w.length, j < i ∧ True} = Set.Iio i by simpa using this,
      ← Finset.coe_Iio, Set.ncard_coe_finset, Nat.card_Iio]
    simp [hi]
  by_cases hm : i < m
  · rw [if_pos (hch.mpr hm), if_pos hm]; split_ifs <;> rfl
  · rw [if_neg (fun h => hm (hch.mp h)), if_neg hm]; rfl

/-- Three points with a budget of two. -/
example (roots : Option (List ℂ) → List ℂ → List ℂ) (unif limb : ℂ → ℝ) (u : UserParams) :
    ∃ mu, magTriple roots unif limb [1, 2, 3] (1 / 10) 0 2 2 u = [unif 1, unif 2, mu] := by
  obtain ⟨h1, h2⟩ := C31_selection roots unif limb [1, 2, 3] (1 / 10) 0 2 2 (by norm_num) u
  obtain ⟨_, _, _, e0⟩ := h2 0 (by simp)
  obtain ⟨_, _, _, e1⟩ := h2 1 (by simp)
  obtain ⟨mu, _, _, e2⟩ := h2 2 (by simp)
  refine ⟨mu, List.ext_getElem? fun i => ?_⟩
  by_cases hi : i < 3
  · interval_cases i
    · simpa using e0
    · simpa using e1
    · simpa using e2
  · rw [List.getElem?_eq_none (by rw [h1]; simp; omega), List.getElem?_eq_none (by simp; omega)]

/-! ## C47, C70 -/

theorem map_zip_self {β γ δ : Type*} (w : List ℂ) (f : ℂ → β) (g : ℂ → γ) (h : β × γ × ℂ → δ) :
    ((w.map f).zip ((w.map g).zip w)).map h = w.map fun z => h (f z, g z, z) := by
  induction w with
  | nil => rfl
  | cons z w ih => simp [ih]

/-- A point passes the one-lens test of `magnifications`. -/
def oneLensAccepts (rho : ℝ) (z : ℂ) : Prop := 2 * rho < z.re ∨ (z.re = 2 * rho ∧ 0 < z.im)

open Classical in
/-- **C47**, one lens: each output is the multipole value of its own point or the contour value of its own
point; the multipole value is only used at `|w| ≥ 2 rho`. -/
theorem C47_one_lens (roots : Option (List ℂ) → List ℂ → List ℂ) (full : ℝ → ℂ → ℝ) (w : List ℂ)
    (rho u1 : ℝ) (u : UserParams) :
    (∀ z, oneLensAccepts rho z → 2 * rho ≤ ‖z‖) ∧
      ∃ mu : ℂ → ℝ, (∀ z, ∃ err, magHexadecapole 1 (midParams2 u) (images1 z) rho 0 = .ok (mu z, err)) ∧
      magnifications roots full 1 w rho u1 u =
        .ok (w.map fun z => if oneLensAccepts rho z then mu z else full u1 z) := by
  refine ⟨fun z h => ?_, fun z => (sumTerms wk1 (images1 z) rho 0).1, fun z => ⟨_, rfl⟩, ?_⟩
  · have hre : 2 * rho ≤ z.re := by
      rcases h with h | h
      · exact h.le
      · exact h.1.ge
    exact hre.trans ((le_abs_self _).trans (abs_re_le_norm z))
  · unfold magnifications
    simp only [if_true]
    rw [map_zip_self]
    congr 1
    apply List.map_congr_left
    intro z _
    have : complexGt z (2 * rho) = true ↔ oneLensAccepts rho z := by
      unfold complexGt oneLensAccepts
      rw [decide_eq_true_eq]
      split_ifs with h
      · simp [h]
      · simp [h]
    by_cases h : oneLensAccepts rho z
    · simp [h, this.mpr h]
    · simp [h, mt this.mp h]

/-- Both branches occur: with `rho = 1/2` the point 2 is accepted and the point 1/2 is not. -/
example : oneLensAccepts (1 / 2) 2 ∧ ¬ oneLensAccepts (1 / 2) (1 / 2) := by
  constructor
  · left; norm_num
  · norm_num [oneLensAccepts]

open Classical in
/-- **C47**, two lenses: each output is the multipole value of its own point if the accuracy tests accept it and
the contour value of its own point otherwise. -/
theorem C47_two_lenses (roots : Option (List ℂ) → List ℂ → List ℂ) (full : ℝ → ℂ → ℝ) (w : List ℂ)
    (rho u1 s q q3 r3 psi : ℝ) :
    ∃ mu : ℂ → ℝ, (∀ z, ∃ err, binaryMulti roots rho 0 s q z = .ok (mu z, err)) ∧
      magnifications roots full 2 w rho u1 { s := s, q := q, q3 := q3, r3 := r3, psi := psi } =
        .ok (w.map fun z => if binaryAccepts roots rho 0 s q z then mu z else full u1 z) := by
  set u : UserParams := { s := s, q := q, q3 := 0, r3 := 0, psi := 0 } with hu
  refine ⟨fun z => (multi2 roots (midParams2 u) rho 0 (z - xCM u)).1, fun z => ⟨_, rfl⟩, ?_⟩
  have e1 : midParams2 { s := s, q := q, q3 := q3, r3 := r3, psi := psi } = midParams2 u := rfl
  have e2 : xCM { s := s, q := q, q3 := q3, r3 := r3, psi := psi } = xCM u := rfl
  unfold magnifications
  simp only [show ¬ (2 = 1) by norm_num, if_false, if_true, e1, e2, List.map_map, Function.comp_def]
  rw [map_zip_self]
  congr 1
  apply List.map_congr_left
  intro z _
  have := binaryAccepts_iff roots rho 0 s q z
  rw [← hu] at this
  by_cases h : binaryAccepts roots rho 0 s q z
  · simp [h, this.mp h]
  · simp [h, mt this.mpr h]

/-- **C47**, three lenses: every point is evaluated in full. -/
theorem C47_three_lenses (roots : Option (List ℂ) → List ℂ → List ℂ) (full : ℝ → ℂ → ℝ) (w : List ℂ)
    (rho u1 : ℝ) (u : UserParams) : magnifications roots full 3 w rho u1 u = .ok (w.map (full u1)) := by
  unfold magnifications
  simp only [show ¬ (3 = 1) by norm_num, show ¬ (3 = 2) by norm_num, if_false, if_true]
  rw [map_zip_self]
  simp

/-- **C47**: other lens numbers are refused. -/
theorem C47_dispatch (roots : Option (List ℂ) → List ℂ → List ℂ) (full : ℝ → ℂ → ℝ) (n : ℕ) (w : List ℂ)
    (rho u1 : ℝ) (u : UserParams) :
    (∃ out, magnifications roots full n w rho u1 u = .ok out) ↔ n = 1 ∨ n = 2 ∨ n = 3 := by
  unfold magnifications
  split_ifs with h1 h2 h3 <;> simp [*]

theorem wStackA : wStack (wk1 2) = wA := by
  simp only [wStack, wk1, factorial_eq, WStack.mk.injEq]
  norm_num [Nat.factorial]

theorem wStackB : wStack (wk1 (-1 / 2)) = wB := by
  simp only [wStack, wk1, factorial_eq, WStack.mk.injEq]
  norm_num [Nat.factorial]

/-- The multipole value of a single lens at `w = 3/2`. -/
theorem multi_three_halves (p : MidParams) (rho u1 : ℝ) (hu' : gammaLD u1 ≤ 1) :
    ∃ err, magHexadecapole 1 p (images1 (3 / 2)) rho u1 = .ok
      (17 / 15 + 3328 / 84375 * (1 - 1 / 5 * gammaLD u1) * rho ^ 2
        + 944128 / 126562500 * (1 - 11 / 35 * gammaLD u1) * rho ^ 4, err) := by
  have him : images1 (3 / 2) = [(2, true), (-1 / 2, true)] := by
    have h1 : (3 / 2 : ℂ).re = 3 / 2 := by norm_num
    have h2 : (3 / 2 : ℂ).im = 0 := by norm_num
    have h3 : Real.sqrt (1 + 4 / ((3 / 2) ^ 2 + 0 ^ 2)) = 5 / 3 := by
      rw [show (1 : ℝ) + 4 / ((3 / 2) ^ 2 + 0 ^ 2) = (5 / 3) ^ 2 by norm_num]
      exact Real.sqrt_sq (by norm_num)
    simp only [images1, h1, h2, h3]
    norm_num
  have hA : cassan (wStack (wk1 2)) rho u1 = ⟨16 / 15, 1 / 2 * (3328 / 84375) * (1 - 1 / 5 * gammaLD u1) * rho ^ 2,
      1 / 24 * (944128 / 10546875) * (1 - 11 / 35 * gammaLD u1) * rho ^ 4⟩ := by
    rw [wStackA]
    simp only [cassan, c70_order1A, c70_order2A, c70_order3A, c70_order4A, c70_order5A, c70_mu2A, c70_mu4A, c70_mu0A]
  have hB : cassan (wStack (wk1 (-1 / 2))) rho u1 =
      ⟨-1 / 15, 1 / 2 * (-3328 / 84375) * (1 - 1 / 5 * gammaLD u1) * rho ^ 2,
      1 / 24 * (-944128 / 10546875) * (1 - 11 / 35 * gammaLD u1) * rho ^ 4⟩ := by
    rw [wStackB]
    simp only [cassan, c70_order1B, c70_order2B, c70_order3B, c70_order4B, c70_order5B, c70_mu2B, c70_mu4B, c70_mu0B]
  refine ⟨(sumTerms wk1 (images1 (3 / 2)) rho u1).2, ?_⟩
  change Except.ok (sumTerms wk1 (images1 (3 / 2)) rho u1) = _
  congr 1
  refine Prod.ext ?_ rfl
  simp only [sumTerms, him, List.map_cons, List.map_nil, hA, hB, if_true, List.sum_cons, List.sum_nil]
  have h1 : 0 ≤ (1 - 1 / 5 * gammaLD u1) * rho ^ 2 := mul_nonneg (by linarith) (by positivity)
  have h2 : 0 ≤ (1 - 11 / 35 * gammaLD u1) * rho ^ 4 := mul_nonneg (by linarith) (by positivity)
  rw [abs_of_nonneg (by linarith), abs_of_nonpos (by linarith)]
  ring

/-- **C70** fails: `magnifications` uses the multipole value of a uniform source whatever `u1`; for a single lens,
the point `w = 3/2` is accepted for every `rho < 3/4`, and the value returned is strictly larger than the
multipole value of the limb-darkened source for every `u1` in `(0, 1]`. -/
theorem C70_limb_darkening_violated (roots : Option (List ℂ) → List ℂ → List ℂ) (full : ℝ → ℂ → ℝ)
    (rho u1 : ℝ) (hrho : 0 < rho) (hrho' : rho < 3 / 4) (hu : 0 < u1) (hu' : u1 ≤ 1) (u : UserParams) :
    ∃ out mu err, magnifications roots full 1 [3 / 2] rho u1 u = .ok [out] ∧
      magHexadecapole 1 (midParams2 u) (images1 (3 / 2)) rho u1 = .ok (mu, err) ∧ mu < out := by
  classical
  obtain ⟨-, mu, hmu, hout⟩ := C47_one_lens roots full [3 / 2] rho u1 u
  have hg : 0 < gammaLD u1 := by unfold gammaLD; exact div_pos (by linarith) (by linarith)
  have hg' : gammaLD u1 ≤ 1 := by unfold gammaLD; rw [div_le_one (by linarith)]; linarith
  obtain ⟨err, h1⟩ := multi_three_halves (midParams2 u) rho u1 hg'
  have hg0 : gammaLD 0 = 0 := by simp [gammaLD]
  obtain ⟨err0, h0⟩ := multi_three_halves (midParams2 u) rho 0 (by rw [hg0]; norm_num)
  obtain ⟨err', hm⟩ := hmu (3 / 2)
  rw [h0, Except.ok.injEq, Prod.mk.injEq] at hm
  have hacc : oneLensAccepts rho (3 / 2) := by
    left
    have : ((3 / 2 : ℂ)).re = 3 / 2 := by norm_num
    rw [this]; linarith
  refine ⟨mu (3 / 2), _, err, by simpa [hacc] using hout, h1, ?_⟩
  rw [← hm.1, hg0]
  have h2 : 0 < gammaLD u1 * rho ^ 2 := by positivity
  have h4 : 0 < gammaLD u1 * rho ^ 4 := by positivity
  linarith

/-! ## C48 -/

/-- The source position (mid-point frame) whose image, lensed by the host of mass `m` at `-a` alone, falls on the
planet at `a`: the centre of the planetary caustic. -/
def planetaryCentre (a m : ℝ) : ℂ := lensMap [(m, -(a : ℂ))] (a : ℂ)

theorem planetaryCentre_eq (a m : ℝ) : planetaryCentre a m = ((a - m / (2 * a) : ℝ) : ℂ) := by
  simp [planetaryCentre, lensMap]
  ring_nf

/-- **C48** in part: exactly for which lenses the test rejects (`false`, so that the point is evaluated in full) a
source on the centre of the planetary caustic of a host of mass 1: `s ^ 4 ≤ 8 rho² s² + 72 q`.  Missing: all
other lenses, for which `C48_violated` holds. -/
theorem C48_rejects_centre_partial (p : MidParams) (rho : ℝ) (ha : 0 < p.a) (he : 0 ≤ p.e1) (he' : p.e1 < 1) :
    planetaryTest p (planetaryCentre p.a 1) rho = false ↔
      (2 * p.a) ^ 4 ≤ 8 * rho ^ 2 * (2 * p.a) ^ 2 + 72 * (p.e1 / (1 - p.e1)) := by
  have hq : 0 ≤ p.e1 / (1 - p.e1) := div_nonneg he (by linarith)
  have hs : 0 < 2 * p.a := by linarith
  rw [planetaryCentre_eq]
  unfold planetaryTest
  simp only [decide_eq_false_iff_not, not_lt, gt_iff_lt]
  rw [← ofReal_sub, ofReal_re, ofReal_im, div_pow, mul_pow, Real.sq_sqrt hq]
  have e : -1 / (2 * p.a) - (p.a - 1 / (2 * p.a)) = -p.a := by field_simp; ring
  rw [e]
  generalize p.e1 / (1 - p.e1) = q at *
  have hs2 : 0 < (2 * p.a) ^ 2 := by positivity
  rw [← mul_le_mul_iff_left₀ (show (0 : ℝ) < 4 * (2 * p.a) ^ 2 by positivity)]
  have : 2 * (rho ^ 2 + 3 ^ 2 * q / (2 * p.a) ^ 2) * (4 * (2 * p.a) ^ 2) =
      8 * rho ^ 2 * (2 * p.a) ^ 2 + 72 * q := by field_simp; ring
  rw [this]
  constructor <;> intro h <;> nlinarith

/-- **C48** fails: whenever `a² > 2 (rho² + 9 q / s²)`, the source on the centre of the planetary caustic passes
the test (for any host mass between 0 and 1), because the test measures the distance from `-1/s` in the mid-point
frame, where the caustic is at `a - 1/s`. -/
theorem C48_violated (p : MidParams) (rho m : ℝ) (ha : 0 < p.a) (he : 0 ≤ p.e1) (he' : p.e1 < 1)
    (hm : m ≤ 1) (h : 2 * (rho ^ 2 + 9 * (p.e1 / (1 - p.e1)) / (2 * p.a) ^ 2) < p.a ^ 2) :
    planetaryTest p (planetaryCentre p.a m) rho = true := by
  have hq : 0 ≤ p.e1 / (1 - p.e1) := div_nonneg he (by linarith)
  rw [planetaryCentre_eq]
  unfold planetaryTest
  simp only [decide_eq_true_eq, gt_iff_lt]
  rw [← ofReal_sub, ofReal_re, ofReal_im, div_pow, mul_pow, Real.sq_sqrt hq]
  have e : -1 / (2 * p.a) - (p.a - m / (2 * p.a)) = -(p.a + (1 - m) / (2 * p.a)) := by field_simp; ring
  rw [e]
  have h1 : 0 ≤ (1 - m) / (2 * p.a) := div_nonneg (by linarith) (by linarith)
  have : (3 : ℝ) ^ 2 = 9 := by norm_num
  rw [this]
  nlinarith

/-- The hypotheses of `C48_violated` at an ordinary planetary lens: `s = 1`, `q = 1/1000`, `rho = 1/1000`. -/
example : ∃ p : MidParams, p = midParams2 { s := 1, q := 1 / 1000, q3 := 0, r3 := 0, psi := 0 } ∧
    planetaryTest p (planetaryCentre p.a 1) (1 / 1000) = true :=
  ⟨_, rfl, C48_violated _ _ _ (by norm_num [midParams2]) (by norm_num [midParams2]) (by norm_num [midParams2])
    le_rfl (by norm_num [midParams2])⟩

/-- Both outcomes of `C48_rejects_centre_partial` occur: a close lens `s = 1/2`, `q = 1/1000` is rejected. -/
example : ∃ p : MidParams, p = midParams2 { s := 1 / 2, q := 1 / 1000, q3 := 0, r3 := 0, psi := 0 } ∧
    planetaryTest p (planetaryCentre p.a 1) (1 / 1000) = false :=
  ⟨_, rfl, (C48_rejects_centre_partial _ _ (by norm_num [midParams2]) (by norm_num [midParams2])
    (by norm_num [midParams2])).mpr (by norm_num [midParams2])⟩

/-! ## C49 -/

theorem hasDerivAt_inv_sq (m c z : ℂ) (h : z - c ≠ 0) :
    HasDerivAt (fun x : ℂ => m / (x - c) ^ 2) (-2 * m / (z - c) ^ 3) z := by
  have h1 : HasDerivAt (fun x : ℂ => (x - c) ^ 2) (2 * (z - c)) z := by
    simpa using ((hasDerivAt_id z).sub_const c).fun_pow 2
  have h2 := (h1.fun_inv (pow_ne_zero 2 h)).const_mul m
  refine (h2.congr_deriv ?_)
  field_simp

/-- **C49**, two lenses: the first function is minus the conjugate deflection of the lens described by the
parameters, the second its derivative, the third the derivative of the second, away from the lenses; and the
quantity `J` formed from the second is the Jacobian determinant of the lens map. -/
theorem C49_binary (p : MidParams) (z : ℂ) (h1 : z ≠ p.a) (h2 : z ≠ -(p.a : ℂ)) :
    lensMap [(p.e1, (p.a : ℂ)), (1 - p.e1, -(p.a : ℂ))] z = z + conj ((field2 p).f z) ∧
    HasDerivAt (field2 p).f ((field2 p).fp z) z ∧ HasDerivAt (field2 p).fp ((field2 p).fpp z) z ∧
    1 - ‖(field2 p).fp z * (field2 p).fp (conj z)‖ =
      jacDet (lensMap [(p.e1, (p.a : ℂ)), (1 - p.e1, -(p.a : ℂ))]) z := by
  have s1 : z - p.a ≠ 0 := sub_ne_zero.mpr h1
  have s2 : z - -(p.a : ℂ) ≠ 0 := sub_ne_zero.mpr h2
  have s2' : z + p.a ≠ 0 := by simpa using s2
  refine ⟨?_, ?_, ?_, ?_⟩
  · simp [lensMap, field2]; ring
  · have := ((hasDerivAt_simple p.e1 p.a z s1).fun_neg).fun_sub (hasDerivAt_simple ((1 - p.e1 : ℝ) : ℂ) _ z s2)
    simp only [sub_neg_eq_add] at this
    refine this.congr_deriv ?_
    simp [field2]
  · have := (hasDerivAt_inv_sq p.e1 p.a z s1).fun_add (hasDerivAt_inv_sq ((1 - p.e1 : ℝ) : ℂ) _ z s2)
    simp only [sub_neg_eq_add] at this
    refine this.congr_deriv ?_
    have s3 : (p.a : ℂ) - z ≠ 0 := by rw [← neg_sub]; exact neg_ne_zero.mpr s1
    have s4 : (p.a : ℂ) + z ≠ 0 := by rw [add_comm]; exact s2'
    simp only [field2]
    rw [show (p.a : ℂ) - z = -(z - p.a) by ring, show (p.a : ℂ) + z = z + p.a by ring]
    field_simp
    ring
  · rw [(jacDet_lensMap _ z (by simp [h1, h2])).2]
    have e : (field2 p).fp (conj z) = conj ((field2 p).fp z) := by simp [field2]
    have e' : (field2 p).fp (conj z) = ([(p.e1, (p.a : ℂ)), (1 - p.e1, -(p.a : ℂ))].map
        fun l : ℝ × ℂ => (l.1 : ℂ) / (conj z - conj l.2) ^ 2).sum := by simp [field2]
    rw [← e', norm_mul, e, RCLike.norm_conj, pow_two]

/-- The hypotheses at a concrete image. -/
example : (1 : ℂ) ≠ ((1 / 2 : ℝ) : ℂ) ∧ (1 : ℂ) ≠ -((1 / 2 : ℝ) : ℂ) := by
  constructor <;> intro h <;> have := congrArg Complex.re h <;> norm_num at this

/-- **C49**, three lenses, in part: the second function is the derivative of the first, and the first is the
deflection field of the lens whose third component is *reflected* through the origin (so it is the right one when
that component is at the origin).  Missing: the third component's true position, and the second derivative
(`C49_triple_violated`). -/
theorem C49_triple_partial (p : MidParams) (c3 z : ℂ) (h1 : z ≠ p.a) (h2 : z ≠ -(p.a : ℂ)) (h3 : z ≠ -c3) :
    HasDerivAt (field3 p c3).f ((field3 p c3).fp z) z ∧
    lensMap [(p.e1, (p.a : ℂ)), (p.e2, -(p.a : ℂ)), (1 - p.e1 - p.e2, -c3)] z = z + conj ((field3 p c3).f z) := by
  have s1 : z - p.a ≠ 0 := sub_ne_zero.mpr h1
  have s2 : z - -(p.a : ℂ) ≠ 0 := sub_ne_zero.mpr h2
  have s3 : z - -c3 ≠ 0 := sub_ne_zero.mpr h3
  constructor
  · have := (((hasDerivAt_simple p.e1 p.a z s1).fun_neg).fun_sub
      (hasDerivAt_simple p.e2 _ z s2)).fun_sub (hasDerivAt_simple (1 - p.e1 - p.e2 : ℂ) _ z s3)
    simp only [sub_neg_eq_add] at this
    refine this.congr_deriv ?_
    simp [field3]
  · simp [lensMap, field3]; ring

/-- **C49** fails for three lenses, for every third mass and position off the origin and at every point: the first
function is not the deflection field of the lens, and the third is not the derivative of the second.  (`c3` is
`r3` in `inverse_ray/cond_extended.py` and `r3 e^{iψ}` in `caustics/lightcurve.py`.) -/
theorem C49_triple_violated (p : MidParams) (c3 z : ℂ) (h1 : z ≠ p.a) (h2 : z ≠ -(p.a : ℂ)) (h3 : z ≠ -c3)
    (h3' : z ≠ c3) (hc : c3 ≠ 0) (hm : 1 - p.e1 - p.e2 ≠ 0) :
    lensMap [(p.e1, (p.a : ℂ)), (p.e2, -(p.a : ℂ)), (1 - p.e1 - p.e2, c3)] z ≠ z + conj ((field3 p c3).f z) ∧
    ¬ HasDerivAt (field3 p c3).fp ((field3 p c3).fpp z) z := by
  have s1 : z - p.a ≠ 0 := sub_ne_zero.mpr h1
  have s2 : z - -(p.a : ℂ) ≠ 0 := sub_ne_zero.mpr h2
  have s3 : z - -c3 ≠ 0 := sub_ne_zero.mpr h3
  have s3' : z - c3 ≠ 0 := sub_ne_zero.mpr h3'
  have hm' : (1 - p.e1 - p.e2 : ℂ) ≠ 0 := by exact_mod_cast hm
  constructor
  · intro h
    have h0 := (C49_triple_partial p c3 z h1 h2 h3).2
    rw [← h0] at h
    simp only [lensMap, List.map_cons, List.map_nil, List.sum_cons, List.sum_nil] at h
    have h4 : (((1 - p.e1 - p.e2 : ℝ) : ℂ)) / (conj z - conj c3) =
        ((1 - p.e1 - p.e2 : ℝ) : ℂ) / (conj z - conj (-c3)) := by linear_combination -h
    have t1 : conj z - conj c3 ≠ 0 := by rw [← map_sub]; exact (map_ne_zero _).mpr s3'
    have t2 : conj z - conj (-c3) ≠ 0 := by rw [← map_sub]; exact (map_ne_zero _).mpr s3
    rw [div_eq_div_iff t1 t2] at h4
    have h5 := mul_left_cancel₀ (by exact_mod_cast hm) h4
    rw [map_neg] at h5
    have : conj c3 = 0 := by linear_combination h5 / 2
    exact hc (by simpa using this)
  · intro h
    have h0 := ((hasDerivAt_inv_sq p.e1 p.a z s1).fun_add (hasDerivAt_inv_sq p.e2 _ z s2)).fun_add
      (hasDerivAt_inv_sq (1 - p.e1 - p.e2 : ℂ) _ z s3)
    simp only [sub_neg_eq_add] at h0
    have hu := h.unique h0
    have s2' : z + p.a ≠ 0 := by simpa using s2
    have s3'' : z + c3 ≠ 0 := by simpa using s3
    simp only [field3] at hu
    rw [show (p.a : ℂ) - z = -(z - p.a) by ring, show (p.a : ℂ) + z = z + p.a by ring] at hu
    have h6 : (1 - p.e1 - p.e2 : ℂ) / (z + c3) ^ 3 = 0 := by
      have e1 : (p.e1 : ℂ) / (-(z - p.a)) ^ 3 = -(p.e1 / (z - p.a) ^ 3) := by
        rw [Odd.neg_pow (by decide), div_neg]
      rw [e1] at hu
      linear_combination hu / 3
    exact (div_ne_zero hm' (pow_ne_zero 3 s3'')) h6

/-- Hypotheses of `C49_triple_violated` at a concrete lens and point. -/
example : ∃ (p : MidParams) (c3 z : ℂ), z ≠ p.a ∧ z ≠ -(p.a : ℂ) ∧ z ≠ -c3 ∧ z ≠ c3 ∧ c3 ≠ 0 ∧
    1 - p.e1 - p.e2 ≠ 0 := by
  refine ⟨{ a := 1 / 2, e1 := 1 / 4, e2 := 1 / 2 }, I, 2, ?_, ?_, ?_, ?_, I_ne_zero, by norm_num⟩ <;>
    intro h <;> have := congrArg Complex.re h <;> norm_num at this

end Microjax.Props
