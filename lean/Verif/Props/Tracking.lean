import Verif.Props.EaConvergence
import Verif.Props.PointSourceExamples
import Mathlib.Analysis.Complex.Polynomial.Basic
import Mathlib.Topology.MetricSpace.Pseudo.Lemmas
import Mathlib.Topology.UniformSpace.Compact

/-!
# C81: sequential image tracking follows every root branch
-/

noncomputable section

namespace Microjax.Props

open Complex ComplexConjugate Spec PolySolver PointSource Filter Topology

/-! ## Continuity of roots -/

/-- Every coefficient list with non-zero leading coefficient has a complete root list. -/
theorem exists_rootList (c : List ℂ) (hc : c.headD 0 ≠ 0) : ∃ rs, IsRootList c rs := by
  cases c with
  | nil => simp at hc
  | cons c0 cs =>
    have hs := IsAlgClosed.splits (toPoly (c0 :: cs))
    refine ⟨(toPoly (c0 :: cs)).roots.toList, fun x => ?_⟩
    have h1 := hs.eval_eq_prod_roots x
    rw [eval_toPoly] at h1
    have hl : (toPoly (c0 :: cs)).leadingCoeff = c0 := by
      have key : ∀ (c : List ℂ) (acc : Polynomial ℂ), acc ≠ 0 →
          (c.foldl (fun acc ck => acc * Polynomial.X + Polynomial.C ck) acc).leadingCoeff = acc.leadingCoeff := by
        intro c
        induction c with
        | nil => intro acc _; rfl
        | cons a c ih =>
          intro acc h
          have hd : 0 < (acc * Polynomial.X).degree := by
            rw [Polynomial.degree_mul_X]
            have := Polynomial.zero_le_degree_iff.mpr h
            exact lt_of_lt_of_le (by norm_num) (add_le_add_left this 1)
          have hlt : (Polynomial.C a).degree < (acc * Polynomial.X).degree :=
            lt_of_le_of_lt Polynomial.degree_C_le hd
          have hne : acc * Polynomial.X + Polynomial.C a ≠ 0 := by
            intro h0
            have := Polynomial.degree_add_eq_left_of_degree_lt hlt
            rw [h0, Polynomial.degree_zero] at this
            rw [← this] at hd
            exact absurd hd (by simp)
          rw [List.foldl_cons, ih _ hne, Polynomial.leadingCoeff_add_of_degree_lt' hlt, Polynomial.leadingCoeff_mul_X]
      simp only [List.headD_cons] at hc
      rw [toPoly, List.foldl_cons, key _ _ (by simpa using hc)]
      simp
    rw [h1, hl, List.headD_cons]
    congr 1
    conv_lhs => rw [← Multiset.coe_toList (toPoly (c0 :: cs)).roots]
    rw [Multiset.map_coe, Multiset.prod_coe]

/-- If every one of `n` well-separated points has a root of the second polynomial within `η`, the roots of the second
polynomial can be labelled accordingly. -/
theorem match_roots {n : ℕ} (ρ : Fin n → ℂ) (δ η : ℝ) (hsep : ∀ i j, i ≠ j → δ ≤ ‖ρ i - ρ j‖) (hη : 2 * η < δ)
    (c : List ℂ) (rs : List ℂ) (hrs : IsRootList c rs) (hlen : rs.length = n)
    (h : ∀ i, ∃ r ∈ rs, ‖r - ρ i‖ ≤ η) :
    ∃ ρ' : Fin n → ℂ, IsRootList c (List.ofFn ρ') ∧ ∀ i, ‖ρ' i - ρ i‖ ≤ η := by
  choose f hf1 hf2 using h
  have hinj : Function.Injective f := by
    intro i j hij
    by_contra hne
    have h1 := hsep i j hne
    have h2 : ‖ρ i - ρ j‖ ≤ ‖f i - ρ i‖ + ‖f j - ρ j‖ := by
      rw [show ρ i - ρ j = (f j - ρ j) - (f i - ρ i) by rw [hij]; ring, add_comm]
      exact norm_sub_le _ _
    linarith [hf2 i, hf2 j]
  have hnd : (List.ofFn f).Nodup := List.nodup_ofFn.mpr hinj
  have hsub : (List.ofFn f).Subset rs := by
    intro x hx
    obtain ⟨i, rfl⟩ := List.mem_ofFn.mp hx
    exact hf1 i
  have hp : (List.ofFn f).Perm rs :=
    (List.subperm_of_subset hnd hsub).perm_of_length_le (by simp [hlen])
  refine ⟨f, fun x => ?_, hf2⟩
  rw [hrs x, (hp.map _).prod_eq]

/-- Roots depend continuously on the coefficients. -/
theorem roots_perturb {n : ℕ} (ρ : Fin n → ℂ) (δ η : ℝ) (hsep : ∀ i j, i ≠ j → δ ≤ ‖ρ i - ρ j‖) (hη : 2 * η < δ)
    (hη0 : 0 ≤ η) (hn : n ≠ 0) (c : List ℂ) (hlead : c.headD 0 ≠ 0) (hlen : c.length = n + 1)
    (h : ∀ i, ‖evalPoly c (ρ i)‖ ≤ ‖c.headD 0‖ * η ^ n) :
    ∃ ρ' : Fin n → ℂ, IsRootList c (List.ofFn ρ') ∧ ∀ i, ‖ρ' i - ρ i‖ ≤ η := by
  obtain ⟨rs, hrs⟩ := exists_rootList c hlead
  have hl := rootList_length hlead hrs hlen
  refine match_roots ρ δ η hsep hη c rs hrs hl fun i => ?_
  by_contra hno
  push Not at hno
  have h1 := h i
  rw [hrs (ρ i), norm_mul] at h1
  have h2 := le_of_mul_le_mul_left h1 (norm_pos_iff.mpr hlead)
  have key : ∀ l : List ℂ, (∀ r ∈ l, η < ‖r - ρ i‖) → l ≠ [] → η ^ l.length < ‖(l.map fun r => ρ i - r).prod‖ := by
    intro l
    induction l with
    | nil => intro _ h; exact absurd rfl h
    | cons r l ih =>
      intro hl _
      have hr := hl r List.mem_cons_self
      rw [norm_sub_rev] at hr
      rw [List.map_cons, List.prod_cons, norm_mul, List.length_cons, pow_succ']
      by_cases hl0 : l = []
      · subst hl0; simpa using hr
      · have := ih (fun r hr => hl r (List.mem_cons_of_mem _ hr)) hl0
        exact mul_lt_mul'' hr this hη0 (by positivity)
  have h3 := key rs (fun r hr => hno r hr) (by rintro rfl; exact hn (by simpa using hl.symm))
  rw [hl] at h3
  linarith

/-! ## Tracking -/

/-- `poly_roots` for one polynomial with an initial guess is the single-polynomial solver with its default tolerance
and iteration limit. -/
theorem polyRoots1_eq (c : List ℂ) (g out : List ℂ) (hc : 2 ≤ c.length) (hg : g.length = c.length - 1)
    (hout : out.length = c.length - 1) (h : polyRootsEA c (some g) (1 / 10 ^ 12) 100 = .ok out) :
    polyRoots1 (some g) c = out := by
  obtain ⟨o, h1, h2, h3⟩ := C20_batch c.length 1 hc c (by simp) (some g) (by intro g' hg'; cases hg'; simp [hg])
  have h4 := h3 0 one_pos
  simp only [zero_mul, List.drop_zero, Option.map_some, List.take_length] at h4
  rw [← hg, List.take_length, h] at h4
  have h5 : out = o := by
    have := Except.ok.inj h4
    rw [this, hg, List.take_of_length_le (by omega)]
  simp only [polyRoots1, h1, h5]

/-- The error bound of the solver with default settings, `2/3 tol + 10 tol < 11 tol`. -/
def trackTol : ℝ := 11 / 10 ^ 12

/-- One call of the solver from nearby starting values. -/
theorem solver_near {n : ℕ} (c : List ℂ) (ρ z : Fin n → ℂ) (δ e : ℝ) (h : Near c ρ z δ e) (hn : 1 ≤ n)
    (hlen : c.length = n + 1) (he : e ≤ 10 ^ 17) :
    ∃ z' : Fin n → ℂ, polyRoots1 (some (List.ofFn z)) c = List.ofFn z' ∧ ∀ i, ‖z' i - ρ i‖ ≤ trackTol := by
  obtain ⟨out, h1, h2, -, -⟩ := C80_converges c ρ z δ e (1 / 10 ^ 12) 100 h hn hlen (by norm_num)
  refine ⟨out, polyRoots1_eq c _ _ (by omega) (by simp [hlen]) (by simp [hlen]) h1, fun i => (h2 i).trans ?_⟩
  have : max (2 / 3 * (1 / 10 ^ 12)) (e / 2 ^ 100) ≤ (2 / 3 * (1 / 10 ^ 12) : ℝ) := by
    refine max_le le_rfl ?_
    rw [div_le_iff₀ (by positivity)]
    refine he.trans ?_
    norm_num
  rw [trackTol]
  linarith

/-- **C81**: `_images_point_source_sequential` with the solver of the package (`roots` is arbitrary for the first point
and `poly_roots` with initial guess afterwards), two lenses.  Let `ρ k` be the roots of the image polynomial at the
`k`-th source position, at least `δ` apart and labelled so that each moves by at most `μ` from one position to the
next, `20 (μ + η) ≤ δ`; if the first column is within `η` of `ρ 0`, then row `i` of the result follows root `i` to
`1.1e-11` at every later position, however long the path. -/
theorem C81_tracking (roots : Option (List ℂ) → List ℂ → List ℂ) (hroots : ∀ g c, roots (some g) c = polyRoots1 (some g) c)
    (p : MidParams) (ws : List ℂ) (ρ : ℕ → Fin 5 → ℂ) (δ μ η : ℝ) (hδ : 0 < δ)
    (hρ : ∀ k w, ws[k]? = some w → IsRootList (polyCoeffsBinary w p.a p.e1) (List.ofFn (ρ k)) ∧
      (conj w) ^ 2 ≠ (p.a : ℂ) ^ 2 ∧ ∀ i j, i ≠ j → δ ≤ ‖ρ k i - ρ k j‖)
    (hμ : ∀ k, k + 1 < ws.length → ∀ i, ‖ρ (k + 1) i - ρ k i‖ ≤ μ)
    (hη : trackTol ≤ η) (hsmall : 20 * (μ + η) ≤ δ) (hbig : μ + η ≤ 10 ^ 17)
    (hfirst : ∀ w, ws[0]? = some w → ∃ z : Fin 5 → ℂ, roots none (polyCoeffsBinary w p.a p.e1) = List.ofFn z ∧
      ∀ i, ‖z i - ρ 0 i‖ ≤ η) (k : ℕ) (hk : k < ws.length) :
    ∃ col, (imagesSequential (fun w init => images2 roots init p w) ws)[k]? = some col ∧
      ∃ z : Fin 5 → ℂ, col.map Prod.fst = List.ofFn z ∧ (∀ i, ‖z i - ρ k i‖ ≤ η) ∧
        (k ≠ 0 → ∀ i, ‖z i - ρ k i‖ ≤ trackTol) := by
  obtain ⟨-, h0, hs⟩ := C13_sequential (fun w init => images2 roots init p w) ws
  have hfst : ∀ init w, (images2 roots init p w).map Prod.fst = roots init (polyCoeffsBinary w p.a p.e1) := by
    intro init w
    simp [images2, withMask, Function.comp_def]
  induction k with
  | zero =>
    have hw := List.getElem?_eq_getElem hk
    obtain ⟨z, hz1, hz2⟩ := hfirst _ hw
    exact ⟨_, h0 _ hw, z, by rw [hfst, hz1], hz2, fun h => absurd rfl h⟩
  | succ k ih =>
    have hw := List.getElem?_eq_getElem hk
    obtain ⟨col, hc1, z, hc2, hc3, -⟩ := ih (by omega)
    obtain ⟨prev, hp1, hp2⟩ := hs k _ hw
    rw [hc1, Option.some.injEq] at hp1
    subst hp1
    obtain ⟨r1, r2, r3⟩ := hρ (k + 1) _ hw
    have hlead := (C04_binary_leading (ws[k + 1]) p.a p.e1).2
    have hnear : Near (polyCoeffsBinary (ws[k + 1]) p.a p.e1) (ρ (k + 1)) z δ (μ + η) :=
      ⟨r1, by rw [hlead]; exact sub_ne_zero.mpr r2, hδ, r3, fun i => by
        have h1 := hμ k hk i
        have h2 := hc3 i
        have h3 : ‖z i - ρ (k + 1) i‖ ≤ ‖z i - ρ k i‖ + ‖ρ (k + 1) i - ρ k i‖ := by
          rw [show z i - ρ (k + 1) i = (z i - ρ k i) - (ρ (k + 1) i - ρ k i) by ring]; exact norm_sub_le _ _
        linarith, by push_cast; linarith⟩
    obtain ⟨z', hz1, hz2⟩ := solver_near _ _ _ δ _ hnear (by norm_num) rfl hbig
    refine ⟨_, hp2, z', ?_, fun i => (hz2 i).trans hη, fun _ => hz2⟩
    rw [hfst, hc2, hroots, hz1]

/-- The image polynomial depends continuously on the source position. -/
theorem continuous_binary (p : MidParams) (w : ℝ → ℂ) (hw : Continuous w) (z : ℂ) :
    Continuous (fun t => evalPoly (polyCoeffsBinary (w t) p.a p.e1) z) ∧
    Continuous fun t => (polyCoeffsBinary (w t) p.a p.e1).headD 0 := by
  constructor
  · simp only [evalPoly_binary]
    fun_prop
  · simp only [C04_binary_leading]
    fun_prop

theorem local_roots (p : MidParams) (w : ℝ → ℂ) (hw : Continuous w) (t : ℝ) (ρ : Fin 5 → ℂ) (δ η : ℝ)
    (hr : IsRootList (polyCoeffsBinary (w t) p.a p.e1) (List.ofFn ρ)) (hl : (conj (w t)) ^ 2 ≠ (p.a : ℂ) ^ 2)
    (hsep : ∀ i j, i ≠ j → δ ≤ ‖ρ i - ρ j‖) (hη0 : 0 < η) (hη : 2 * η < δ) :
    ∀ᶠ s in 𝓝 t, (conj (w s)) ^ 2 ≠ (p.a : ℂ) ^ 2 ∧
      ∃ ρ' : Fin 5 → ℂ, IsRootList (polyCoeffsBinary (w s) p.a p.e1) (List.ofFn ρ') ∧ ∀ i, ‖ρ' i - ρ i‖ ≤ η := by
  have hlead : (polyCoeffsBinary (w t) p.a p.e1).headD 0 ≠ 0 := by
    rw [(C04_binary_leading _ _ _).2]; exact sub_ne_zero.mpr hl
  have c2 := (continuous_binary p w hw 0).2
  have e1 : ∀ᶠ s in 𝓝 t, (polyCoeffsBinary (w s) p.a p.e1).headD 0 ≠ 0 := c2.continuousAt.eventually_ne hlead
  have e2 : ∀ i, ∀ᶠ s in 𝓝 t, ‖evalPoly (polyCoeffsBinary (w s) p.a p.e1) (ρ i)‖
      < ‖(polyCoeffsBinary (w s) p.a p.e1).headD 0‖ * η ^ 5 := by
    intro i
    have c1 := (continuous_binary p w hw (ρ i)).1
    refine c1.norm.continuousAt.eventually_lt (c2.norm.mul continuous_const).continuousAt ?_
    have : evalPoly (polyCoeffsBinary (w t) p.a p.e1) (ρ i) = 0 :=
      IsRootList.eval_zero_of_mem hr (List.mem_ofFn.mpr ⟨i, rfl⟩)
    rw [this, norm_zero]
    have := norm_pos_iff.mpr hlead
    positivity
  filter_upwards [e1, eventually_all.mpr e2] with s h1 h2
  refine ⟨?_, roots_perturb ρ δ η hsep hη hη0.le (by norm_num) _ h1 rfl fun i => (h2 i).le⟩
  rw [(C04_binary_leading _ _ _).2] at h1
  exact sub_ne_zero.mp h1

/-- **C81, continuous paths**: along any continuous source path on which the roots of the image polynomial stay at least
`δ` apart, every sufficiently fine sampling is tracked without ever exchanging two roots: there are labelled roots
`ρ k` of the polynomials at the samples, each moving by at most `μ` per step, and row `i` of the tracked table stays
within `1.1e-11` of `ρ k i`. -/
theorem C81_path (roots : Option (List ℂ) → List ℂ → List ℂ) (hroots : ∀ g c, roots (some g) c = polyRoots1 (some g) c)
    (p : MidParams) (w : ℝ → ℂ) (hw : Continuous w) (δ μ : ℝ) (hμ : 0 < μ) (hsmall : 20 * (μ + trackTol) ≤ δ)
    (hbig : μ + trackTol ≤ 10 ^ 17)
    (hsimple : ∀ t ∈ Set.Icc (0 : ℝ) 1, (conj (w t)) ^ 2 ≠ (p.a : ℂ) ^ 2 ∧
      ∃ ρ : Fin 5 → ℂ, IsRootList (polyCoeffsBinary (w t) p.a p.e1) (List.ofFn ρ) ∧ ∀ i j, i ≠ j → δ ≤ ‖ρ i - ρ j‖)
    (z₀ ρ₀ : Fin 5 → ℂ) (hz₀ : roots none (polyCoeffsBinary (w 0) p.a p.e1) = List.ofFn z₀)
    (hρ₀ : IsRootList (polyCoeffsBinary (w 0) p.a p.e1) (List.ofFn ρ₀)) (hzρ : ∀ i, ‖z₀ i - ρ₀ i‖ ≤ trackTol) :
    ∃ N₀ : ℕ, 0 < N₀ ∧ ∀ N : ℕ, N₀ ≤ N → ∃ ρ : ℕ → Fin 5 → ℂ, ρ 0 = ρ₀ ∧
      (∀ k : ℕ, k ≤ N → IsRootList (polyCoeffsBinary (w ((k : ℝ) / (N : ℝ))) p.a p.e1) (List.ofFn (ρ k))) ∧
      (∀ k < N, ∀ i, ‖ρ (k + 1) i - ρ k i‖ ≤ μ) ∧
      ∀ k : ℕ, k ≤ N → ∃ col, (imagesSequential (fun w init => images2 roots init p w)
          ((List.range (N + 1)).map fun k : ℕ => w ((k : ℝ) / (N : ℝ))))[k]? = some col ∧
        ∃ z : Fin 5 → ℂ, col.map Prod.fst = List.ofFn z ∧ ∀ i, ‖z i - ρ k i‖ ≤ trackTol := by
  have htt : 0 < trackTol := by unfold trackTol; positivity
  have hδ : 0 < δ := by linarith
  -- every complete root list along the path is separated
  have hall : ∀ t ∈ Set.Icc (0 : ℝ) 1, ∀ ρ : Fin 5 → ℂ,
      IsRootList (polyCoeffsBinary (w t) p.a p.e1) (List.ofFn ρ) → ∀ i j, i ≠ j → δ ≤ ‖ρ i - ρ j‖ := by
    intro t ht ρ hρ
    obtain ⟨hl, ρ', hρ', hs'⟩ := hsimple t ht
    have hlead : (polyCoeffsBinary (w t) p.a p.e1).headD 0 ≠ 0 := by
      rw [(C04_binary_leading _ _ _).2]; exact sub_ne_zero.mpr hl
    have hprod : ∀ x, ((List.ofFn ρ').map fun r => x - r).prod = ((List.ofFn ρ).map fun r => x - r).prod := by
      intro x
      have := (hρ' x).symm.trans (hρ x)
      exact mul_left_cancel₀ hlead this
    have hperm : (List.ofFn ρ').Perm (List.ofFn ρ) := perm_of_prod_eq hprod
    have hnd' : (List.ofFn ρ').Nodup := by
      rw [List.nodup_ofFn]
      intro i j hij
      by_contra hne
      have := hs' i j hne
      rw [hij, sub_self, norm_zero] at this
      linarith
    have hnd : Function.Injective ρ := List.nodup_ofFn.mp (hperm.nodup_iff.mp hnd')
    intro i j hij
    obtain ⟨i', hi'⟩ := List.mem_ofFn.mp (hperm.mem_iff.mpr (List.mem_ofFn.mpr ⟨i, rfl⟩))
    obtain ⟨j', hj'⟩ := List.mem_ofFn.mp (hperm.mem_iff.mpr (List.mem_ofFn.mpr ⟨j, rfl⟩))
    rw [← hi', ← hj']
    refine hs' i' j' ?_
    rintro rfl
    exact hij (hnd (hi'.symm.trans hj'))
  -- neighbourhoods
  have hU : ∀ t ∈ Set.Icc (0 : ℝ) 1, ∃ U ∈ 𝓝 t, ∃ ρ : Fin 5 → ℂ, (∀ i j, i ≠ j → δ ≤ ‖ρ i - ρ j‖) ∧
      ∀ s ∈ U, ∃ ρ' : Fin 5 → ℂ, IsRootList (polyCoeffsBinary (w s) p.a p.e1) (List.ofFn ρ') ∧ ∀ i, ‖ρ' i - ρ i‖ ≤ μ / 2 := by
    intro t ht
    obtain ⟨hl, ρ, hρ, hs⟩ := hsimple t ht
    have := local_roots p w hw t ρ δ (μ / 2) hρ hl hs (by linarith) (by linarith)
    exact ⟨_, this, ρ, hs, fun s hs => hs.2⟩
  choose! U hU1 ρc hU2 hU3 using hU
  obtain ⟨ε, hε, hleb⟩ := lebesgue_number_lemma_of_metric (isCompact_Icc (a := (0 : ℝ)) (b := 1))
    (c := fun t : Set.Icc (0 : ℝ) 1 => interior (U t)) (fun _ => isOpen_interior)
    (fun t ht => Set.mem_iUnion.mpr ⟨⟨t, ht⟩, mem_interior_iff_mem_nhds.mpr (hU1 t ht)⟩)
  -- one step
  have hstep : ∀ s ∈ Set.Icc (0 : ℝ) 1, ∀ s' ∈ Set.Icc (0 : ℝ) 1, |s' - s| < ε → ∀ ρ : Fin 5 → ℂ,
      IsRootList (polyCoeffsBinary (w s) p.a p.e1) (List.ofFn ρ) → ∃ ρ' : Fin 5 → ℂ,
      IsRootList (polyCoeffsBinary (w s') p.a p.e1) (List.ofFn ρ') ∧ ∀ i, ‖ρ' i - ρ i‖ ≤ μ := by
    intro s hs s' hs' hd ρ hρ
    obtain ⟨⟨t, ht⟩, hball⟩ := hleb s hs
    have m1 : s ∈ U t := interior_subset (hball (Metric.mem_ball_self hε))
    have m2 : s' ∈ U t := interior_subset (hball (by rw [Metric.mem_ball, Real.dist_eq]; exact hd))
    obtain ⟨ρ1, h1, h1'⟩ := hU3 t ht s m1
    obtain ⟨ρ2, h2, h2'⟩ := hU3 t ht s' m2
    have hlead : (polyCoeffsBinary (w s) p.a p.e1).headD 0 ≠ 0 := by
      rw [(C04_binary_leading _ _ _).2]; exact sub_ne_zero.mpr (hsimple s hs).1
    refine match_roots ρ δ μ (hall s hs ρ hρ) (by linarith) _ (List.ofFn ρ2) h2 (by simp) fun i => ?_
    have hm : ρ i ∈ List.ofFn ρ1 := IsRootList.mem_of_eval_zero h1 hlead
      (IsRootList.eval_zero_of_mem hρ (List.mem_ofFn.mpr ⟨i, rfl⟩))
    obtain ⟨j, hj⟩ := List.mem_ofFn.mp hm
    refine ⟨ρ2 j, List.mem_ofFn.mpr ⟨j, rfl⟩, ?_⟩
    have a := h1' j
    have b := h2' j
    rw [← hj, show ρ2 j - ρ1 j = (ρ2 j - ρc t j) - (ρ1 j - ρc t j) by ring]
    refine (norm_sub_le _ _).trans ?_
    linarith
  obtain ⟨N₀, hN₀⟩ := exists_nat_gt (1 / ε)
  have hN₀pos : 0 < N₀ := by
    have : (0 : ℝ) < N₀ := lt_trans (by positivity) hN₀
    exact_mod_cast this
  refine ⟨N₀, hN₀pos, fun N hN => ?_⟩
  have hNpos : (0 : ℝ) < N := by exact_mod_cast lt_of_lt_of_le hN₀pos hN
  have hin : ∀ k : ℕ, k ≤ N → ((k : ℝ) / (N : ℝ)) ∈ Set.Icc (0 : ℝ) 1 := by
    intro k hk
    refine ⟨by positivity, ?_⟩
    rw [div_le_one hNpos]; exact_mod_cast hk
  have hdist : ∀ k : ℕ, |((k + 1 : ℕ) : ℝ) / (N : ℝ) - (k : ℝ) / (N : ℝ)| < ε := by
    intro k
    rw [← sub_div, Nat.cast_add, Nat.cast_one, add_sub_cancel_left, abs_of_pos (by positivity)]
    rw [div_lt_iff₀ hNpos, mul_comm, ← div_lt_iff₀ hε]
    exact lt_of_lt_of_le hN₀ (by exact_mod_cast hN)
  -- the labelled roots
  have hnext : ∀ (k : ℕ) (ρ : Fin 5 → ℂ), ∃ ρ' : Fin 5 → ℂ, k < N →
      IsRootList (polyCoeffsBinary (w ((k : ℝ) / (N : ℝ))) p.a p.e1) (List.ofFn ρ) →
      IsRootList (polyCoeffsBinary (w (((k + 1 : ℕ) : ℝ) / (N : ℝ))) p.a p.e1) (List.ofFn ρ') ∧ ∀ i, ‖ρ' i - ρ i‖ ≤ μ := by
    intro k ρ
    by_cases h : k < N ∧ IsRootList (polyCoeffsBinary (w ((k : ℝ) / (N : ℝ))) p.a p.e1) (List.ofFn ρ)
    · obtain ⟨ρ', h'⟩ := hstep _ (hin k h.1.le) _ (hin (k + 1) h.1) (hdist k) ρ h.2
      exact ⟨ρ', fun _ _ => h'⟩
    · exact ⟨ρ, fun h1 h2 => absurd ⟨h1, h2⟩ h⟩
  choose nx hnx using hnext
  set ρ : ℕ → Fin 5 → ℂ := fun k => Nat.rec ρ₀ (fun k r => nx k r) k with hρdef
  have hρs : ∀ k, ρ (k + 1) = nx k (ρ k) := fun _ => rfl
  have hroot : ∀ k : ℕ, k ≤ N → IsRootList (polyCoeffsBinary (w ((k : ℝ) / (N : ℝ))) p.a p.e1) (List.ofFn (ρ k)) := by
    intro k
    induction k with
    | zero => intro _; simpa [hρdef] using hρ₀
    | succ k ih =>
      intro hk
      rw [hρs]
      exact (hnx k (ρ k) hk (ih (by omega))).1
  have hmove : ∀ k < N, ∀ i, ‖ρ (k + 1) i - ρ k i‖ ≤ μ := by
    intro k hk
    rw [hρs]
    exact (hnx k (ρ k) hk (hroot k hk.le)).2
  refine ⟨ρ, rfl, hroot, hmove, fun k hk => ?_⟩
  have hget : ∀ (k : ℕ) (v : ℂ), ((List.range (N + 1)).map fun k : ℕ => w ((k : ℝ) / (N : ℝ)))[k]? = some v →
      k ≤ N ∧ v = w ((k : ℝ) / (N : ℝ)) := by
    intro k v hv
    rw [List.getElem?_map, Option.map_eq_some_iff] at hv
    obtain ⟨a, ha, rfl⟩ := hv
    have hka := List.getElem?_eq_some_iff.mp ha
    obtain ⟨hlt, hra⟩ := hka
    rw [List.getElem_range] at hra
    rw [List.length_range] at hlt
    exact ⟨by omega, by rw [hra]⟩
  have hρ : ∀ k v, ((List.range (N + 1)).map fun k : ℕ => w ((k : ℝ) / (N : ℝ)))[k]? = some v →
      IsRootList (polyCoeffsBinary v p.a p.e1) (List.ofFn (ρ k)) ∧
      (conj v) ^ 2 ≠ (p.a : ℂ) ^ 2 ∧ ∀ i j, i ≠ j → δ ≤ ‖ρ k i - ρ k j‖ := by
    intro k v hv
    obtain ⟨hk, rfl⟩ := hget k v hv
    exact ⟨hroot k hk, (hsimple _ (hin k hk)).1, hall _ (hin k hk) _ (hroot k hk)⟩
  obtain ⟨col, hcol, z, hz1, hz2, -⟩ := C81_tracking roots hroots p
    ((List.range (N + 1)).map fun k : ℕ => w ((k : ℝ) / (N : ℝ))) ρ δ μ trackTol hδ hρ
    (by
      intro k hk
      rw [List.length_map, List.length_range] at hk
      exact hmove k (by omega)) le_rfl hsmall hbig
    (by
      intro v hv
      obtain ⟨-, rfl⟩ := hget 0 v hv
      exact ⟨z₀, by simpa using hz₀, hzρ⟩) k
    (by simp only [List.length_map, List.length_range]; omega)
  exact ⟨col, hcol, z, hz1, hz2⟩

/-! ## Concrete case: the equal-mass binary, source moving away from the centre of mass -/

set_option linter.unusedTactic false in
/-- The five roots of the example as a family, at least `1/2` apart. -/
theorem exRoots_sep : ∃ ρ : Fin 5 → ℂ, List.ofFn ρ = exRoots ∧ ∀ i j, i ≠ j → 1 / 2 ≤ ‖ρ i - ρ j‖ := by
  refine ⟨![0, ((Real.sqrt 5 / 2 : ℝ) : ℂ), ((-(Real.sqrt 5 / 2) : ℝ) : ℂ),
   ((Real.sqrt 3 / 2 : ℝ) : ℂ) * I, ((-(Real.sqrt 3 / 2) : ℝ) : ℂ) * I], by simp [exRoots, List.ofFn_succ], ?_⟩
  have h5 : 2 ≤ Real.sqrt 5 := Real.le_sqrt_of_sq_le (by norm_num)
  have h3 : 1 ≤ Real.sqrt 3 := Real.le_sqrt_of_sq_le (by norm_num)
  intro i j hij
  have hre := abs_re_le_norm
  have him := abs_im_le_norm
  have key : ∀ x : ℂ, (1 / 2 ≤ |x.re| ∨ 1 / 2 ≤ |x.im|) → 1 / 2 ≤ ‖x‖ := by
    rintro x (h | h)
    · exact h.trans (hre x)
    · exact h.trans (him x)
  have a5 : |Real.sqrt 5| = Real.sqrt 5 := abs_of_nonneg (by linarith)
  have a3 : |Real.sqrt 3| = Real.sqrt 3 := abs_of_nonneg (by linarith)
  apply key
  fin_cases i <;> fin_cases j <;> first
    | exact absurd rfl hij
    | (left; simp [abs_div, a5]; done)
    | (right; simp [abs_div, a3]; done)
    | (left; simp [abs_div, a5]; linarith)
    | (right; simp [abs_div, a3]; linarith)
    | (left; rw [le_abs]; simp; left; linarith)
    | (left; rw [le_abs]; simp; right; linarith)
    | (right; rw [le_abs]; simp; left; linarith)
    | (right; rw [le_abs]; simp; right; linarith)

/-- The root finder of the example: the exact roots at the first position, the package's solver afterwards. -/
def exTracker : Option (List ℂ) → List ℂ → List ℂ
  | none, _ => exRoots
  | some g, c => polyRoots1 (some g) c

/-- There is a whole segment of source positions starting at the centre of mass along which the roots stay `0.48`
apart, so C81 applies to the source moving along it: the hypotheses of `C81_path` hold. -/
example : ∃ h : ℝ, 0 < h ∧ ∃ ρ₀ : Fin 5 → ℂ, List.ofFn ρ₀ = exRoots ∧
    ∃ N₀ : ℕ, 0 < N₀ ∧ ∀ N : ℕ, N₀ ≤ N → ∃ ρ : ℕ → Fin 5 → ℂ, ρ 0 = ρ₀ ∧
      (∀ k : ℕ, k ≤ N → IsRootList (polyCoeffsBinary (((k : ℝ) / (N : ℝ) * h : ℝ) : ℂ) (midParams2 exU).a (midParams2 exU).e1)
        (List.ofFn (ρ k))) ∧
      (∀ k < N, ∀ i, ‖ρ (k + 1) i - ρ k i‖ ≤ 1 / 100) ∧
      ∀ k : ℕ, k ≤ N → ∃ col, (imagesSequential (fun w init => images2 exTracker init (midParams2 exU) w)
          ((List.range (N + 1)).map fun k : ℕ => (((k : ℝ) / (N : ℝ) * h : ℝ) : ℂ)))[k]? = some col ∧
        ∃ z : Fin 5 → ℂ, col.map Prod.fst = List.ofFn z ∧ ∀ i, ‖z i - ρ k i‖ ≤ trackTol := by
  obtain ⟨ρ₀, hρ₀, hsep⟩ := exRoots_sep
  have hloc := local_roots (midParams2 exU) (fun t : ℝ => (t : ℂ)) (by fun_prop) 0 ρ₀ (1 / 2) (1 / 100)
    (by rw [hρ₀]; simpa using exRoots_isRootList) (by rw [exU_a]; norm_num) hsep (by norm_num) (by norm_num)
  obtain ⟨h, hh, hball⟩ := Metric.eventually_nhds_iff.mp hloc
  refine ⟨h / 2, by positivity, ρ₀, hρ₀, ?_⟩
  refine C81_path exTracker (fun _ _ => rfl) (midParams2 exU) (fun t : ℝ => ((t * (h / 2) : ℝ) : ℂ)) (by fun_prop) (48 / 100) (1 / 100)
    (by norm_num) (by norm_num [trackTol]) (by norm_num [trackTol]) ?_ ρ₀ ρ₀ ?_ ?_ ?_
  · intro t ht
    have hd : dist (t * (h / 2)) 0 < h := by
      rw [Real.dist_eq, sub_zero, abs_of_nonneg (mul_nonneg ht.1 (by positivity))]
      nlinarith [ht.2]
    obtain ⟨h1, ρ', h2, h3⟩ := hball hd
    refine ⟨h1, ρ', h2, fun i j hij => ?_⟩
    have a := hsep i j hij
    have b := h3 i
    have c := h3 j
    have d : ‖ρ₀ i - ρ₀ j‖ ≤ ‖ρ' i - ρ' j‖ + ‖ρ' i - ρ₀ i‖ + ‖ρ' j - ρ₀ j‖ := by
      rw [show ρ₀ i - ρ₀ j = (ρ' i - ρ' j) - (ρ' i - ρ₀ i) + (ρ' j - ρ₀ j) by ring]
      exact (norm_add_le _ _).trans (by gcongr; exact norm_sub_le _ _)
    linarith
  · exact hρ₀.symm
  · rw [hρ₀]; simpa using exRoots_isRootList
  · intro i; norm_num [trackTol]

end Microjax.Props
