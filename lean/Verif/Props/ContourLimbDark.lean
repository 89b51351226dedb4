import Verif.Props.ContourLimb

/-!
# C131: the quadrature along a contour and the profile outside the disc
-/

set_option linter.unusedVariables false

noncomputable section

namespace Microjax.Props

open Complex ComplexConjugate Microjax.Spec Segments Jnp Utils Contour PointSource Limb MeasureTheory Set Filter
open scoped Topology

/-! ### Quadrature of a function that is continuous apart from finitely many values -/

/-- A tent of half-width `η` about every point of `F`. -/
def tents (F : Finset ℝ) (η x : ℝ) : ℝ := ∑ c ∈ F, max 0 (1 - |x - c| / η)

theorem continuous_tents (F : Finset ℝ) (η : ℝ) : Continuous (tents F η) := by
  unfold tents
  fun_prop

theorem tents_nonneg (F : Finset ℝ) (η x : ℝ) : 0 ≤ tents F η x :=
  Finset.sum_nonneg fun _ _ => le_max_left _ _

theorem tents_mem (F : Finset ℝ) (η x : ℝ) (hx : x ∈ F) : 1 ≤ tents F η x := by
  unfold tents
  refine le_trans ?_ (Finset.single_le_sum (f := fun c => max 0 (1 - |x - c| / η)) (fun _ _ => le_max_left _ _) hx)
  simp

theorem tent_integral (c η a b : ℝ) (hη : 0 < η) : |∫ x in a..b, max 0 (1 - |x - c| / η)| ≤ 2 * η := by
  have hcont : Continuous fun x : ℝ => max 0 (1 - |x - c| / η) := by fun_prop
  have hle : ∀ x : ℝ, max 0 (1 - |x - c| / η) ≤ (Icc (c - η) (c + η)).indicator (fun _ => (1 : ℝ)) x := by
    intro x
    by_cases hx : x ∈ Icc (c - η) (c + η)
    · rw [indicator_of_mem hx]
      have : 0 ≤ |x - c| / η := by positivity
      exact max_le (by norm_num) (by linarith)
    · rw [indicator_of_notMem hx]
      refine max_le le_rfl ?_
      have h1 : η < |x - c| := by
        by_contra h
        rw [not_lt, abs_le] at h
        exact hx ⟨by linarith [h.1], by linarith [h.2]⟩
      have := (one_lt_div hη).mpr h1
      linarith
  have hind : Integrable ((Icc (c - η) (c + η)).indicator fun _ => (1 : ℝ)) :=
    (integrable_indicator_iff measurableSet_Icc).mpr (by simp [IntegrableOn])
  rw [← Real.norm_eq_abs, intervalIntegral.norm_integral_eq_norm_integral_uIoc, Real.norm_eq_abs,
    abs_of_nonneg (integral_nonneg fun x => le_max_left _ _)]
  calc ∫ x in uIoc a b, max 0 (1 - |x - c| / η) ≤ ∫ x in uIoc a b, (Icc (c - η) (c + η)).indicator (fun _ => (1 : ℝ)) x :=
        setIntegral_mono (hcont.integrableOn_uIoc) hind.integrableOn hle
    _ ≤ ∫ x, (Icc (c - η) (c + η)).indicator (fun _ => (1 : ℝ)) x :=
        setIntegral_le_integral hind (Eventually.of_forall fun x => indicator_nonneg (fun _ _ => zero_le_one) x)
    _ = 2 * η := by
        rw [integral_indicator measurableSet_Icc]
        simp [Measure.real, Real.volume_Icc]
        rw [ENNReal.toReal_ofReal (by linarith)]; ring

theorem tents_integral (F : Finset ℝ) (η a b : ℝ) (hη : 0 < η) : |∫ x in a..b, tents F η x| ≤ F.card * (2 * η) := by
  unfold tents
  rw [intervalIntegral.integral_finsetSum fun c _ => Continuous.intervalIntegrable (by fun_prop) _ _]
  refine (Finset.abs_sum_le_sum_abs _ _).trans ((Finset.sum_le_sum fun c _ => tent_integral c η a b hη).trans ?_)
  simp

/-- The quadrature does not see in the limit what the integrand does at finitely many points. -/
theorem quadrature_tendsto_off (leggauss : ℕ → List (ℝ × ℝ)) (hg : ∀ n, 1 ≤ n → IsGauss n (leggauss n))
    (f fh : ℝ → ℝ) (hf : Continuous fh) (F : Finset ℝ) (hF : ∀ x, x ∉ F → f x = fh x) (a b : ℝ) :
    Tendsto (fun n => integrateGaussLegendre (leggauss n) f a b) atTop (𝓝 (∫ x in a..b, fh x)) := by
  set M : ℝ := ∑ c ∈ F, |f c - fh c| with hM
  have hM0 : 0 ≤ M := Finset.sum_nonneg fun _ _ => abs_nonneg _
  have hdom : ∀ η x, |f x - fh x| ≤ M * tents F η x := by
    intro η x
    by_cases hx : x ∈ F
    · have h1 := tents_mem F η x hx
      have h2 : |f x - fh x| ≤ M := Finset.single_le_sum (f := fun c => |f c - fh c|) (fun _ _ => abs_nonneg _) hx
      nlinarith
    · rw [hF x hx, sub_self, abs_zero]
      exact mul_nonneg hM0 (tents_nonneg _ _ _)
  have hq : ∀ η n, 1 ≤ n → |integrateGaussLegendre (leggauss n) f a b - integrateGaussLegendre (leggauss n) fh a b|
      ≤ M * |integrateGaussLegendre (leggauss n) (tents F η) a b| := by
    intro η n hn
    have hpos := gauss_weight_pos hn (hg n hn)
    have hgen : ∀ l : List (ℝ × ℝ), (∀ r ∈ l, 0 < r.2) →
        |integrateGaussLegendre l f a b - integrateGaussLegendre l fh a b|
          ≤ M * (|1 / 2 * (b - a)| * (l.map fun r => tents F η (1 / 2 * (b - a) * r.1 + 1 / 2 * (b + a)) * r.2).sum) ∧
        integrateGaussLegendre l (tents F η) a b
          = 1 / 2 * (b - a) * (l.map fun r => tents F η (1 / 2 * (b - a) * r.1 + 1 / 2 * (b + a)) * r.2).sum ∧
        0 ≤ (l.map fun r => tents F η (1 / 2 * (b - a) * r.1 + 1 / 2 * (b + a)) * r.2).sum := by
      intro l
      unfold integrateGaussLegendre
      induction l with
      | nil => intro _; simp
      | cons r l ih =>
        intro hl
        obtain ⟨i1, i2, i3⟩ := ih fun r hr => hl r (List.mem_cons_of_mem _ hr)
        have hr := hl r List.mem_cons_self
        simp only [List.map_cons, List.sum_cons]
        set x := 1 / 2 * (b - a) * r.1 + 1 / 2 * (b + a) with hx
        have h0 := hdom η x
        have h1 : |1 / 2 * (b - a) * f x * r.2 - 1 / 2 * (b - a) * fh x * r.2|
            ≤ M * (|1 / 2 * (b - a)| * (tents F η x * r.2)) := by
          have e : 1 / 2 * (b - a) * f x * r.2 - 1 / 2 * (b - a) * fh x * r.2 = 1 / 2 * (b - a) * (f x - fh x) * r.2 := by ring
          rw [e, abs_mul, abs_mul, abs_of_pos hr]
          calc |1 / 2 * (b - a)| * |f x - fh x| * r.2 ≤ |1 / 2 * (b - a)| * (M * tents F η x) * r.2 := by gcongr
            _ = _ := by ring
        refine ⟨?_, by rw [i2]; ring, add_nonneg (mul_nonneg (tents_nonneg _ _ _) hr.le) i3⟩
        rw [add_sub_add_comm]
        refine (abs_add_le _ _).trans ((add_le_add h1 i1).trans (le_of_eq ?_))
        ring
    obtain ⟨g1, g2, g3⟩ := hgen _ hpos
    rw [g2, abs_mul, abs_of_nonneg g3]
    exact g1
  have hz : Tendsto (fun n => integrateGaussLegendre (leggauss n) f a b - integrateGaussLegendre (leggauss n) fh a b)
      atTop (𝓝 0) := by
    rw [Metric.tendsto_atTop]
    intro ε hε
    set η : ℝ := ε / ((M + 1) * (2 * F.card + 1)) with hη
    have hη0 : 0 < η := by positivity
    have ht := quadrature_tendsto leggauss hg (tents F η) a b (continuous_tents F η).continuousOn
    have hlt : M * |∫ x in a..b, tents F η x| < ε := by
      have h1 := tents_integral F η a b hη0
      have h2 : η * ((M + 1) * (2 * F.card + 1)) = ε := by rw [hη]; field_simp
      have h3 : 0 ≤ (F.card : ℝ) := Nat.cast_nonneg _
      calc M * |∫ x in a..b, tents F η x| ≤ M * (F.card * (2 * η)) := mul_le_mul_of_nonneg_left h1 hM0
        _ < ε := by nlinarith [mul_nonneg hM0 hη0.le, mul_nonneg h3 hη0.le]
    have h1 : ∀ᶠ n in atTop, M * |integrateGaussLegendre (leggauss n) (tents F η) a b| < ε :=
      (ht.abs.const_mul M).eventually (gt_mem_nhds hlt)
    obtain ⟨N, hN⟩ := eventually_atTop.mp h1
    refine ⟨max N 1, fun n hn => ?_⟩
    rw [Real.dist_eq, sub_zero]
    exact (hq η n ((le_max_right _ _).trans hn)).trans_lt (hN n ((le_max_left _ _).trans hn))
  have := hz.add (quadrature_tendsto leggauss hg fh a b hf.continuousOn)
  rw [zero_add] at this
  exact this.congr fun n => by ring

/-- `C99_converges` for a brightness that agrees with a continuous one outside a finite set. -/
theorem ld_tendsto (leggauss : ℕ → List (ℝ × ℝ)) (hg : ∀ n, 1 ≤ n → IsGauss n (leggauss n))
    (leq : ℂ → ℂ) (w0 : ℂ) (rho u1 : ℝ) (pts : List (ℝ × ℝ)) (hne : pts ≠ []) (k : ℕ)
    (W : ℂ → ℝ) (hW : Continuous W) (S : Finset ℂ) (hS : ∀ z, z ∉ S → Boundary.brightnessProfile leq z rho w0 u1 = W z)
    (o : ℝ × ℝ) (ho : o = centroid (closedBuffer pts k) pts.length) :
    Tendsto (fun npts => integrateLd leggauss leq w0 rho u1 npts (closedBuffer pts k) pts.length) atTop
      (𝓝 (greenTrapezoid W o (fun i => (closedBuffer pts k).getD i 0) pts.length)) := by
  have t1 : Tendsto (fun npts : ℕ => npts / 2) atTop atTop := Nat.tendsto_div_const_atTop (by norm_num)
  have t2 : Tendsto (fun npts : ℕ => npts - npts / 2) atTop atTop :=
    tendsto_atTop_mono (fun n => by omega) t1
  have line : ∀ (f fh : ℝ → ℝ) (a b : ℝ), Continuous fh → (∃ F : Finset ℝ, ∀ x, x ∉ F → f x = fh x) →
      Tendsto (fun npts : ℕ => integrateGaussLegendre (leggauss (npts / 2)) f a (splitPoint rho a b)
        + integrateGaussLegendre (leggauss (npts - npts / 2)) f (splitPoint rho a b) b) atTop
        (𝓝 (∫ x in a..b, fh x)) := by
    rintro f fh a b hf ⟨F, hF⟩
    rw [← intervalIntegral.integral_add_adjacent_intervals (hf.intervalIntegrable a (splitPoint rho a b))
      (hf.intervalIntegrable (splitPoint rho a b) b)]
    exact ((quadrature_tendsto_off leggauss hg f fh hf F hF _ _).comp t1).add
      ((quadrature_tendsto_off leggauss hg f fh hf F hF _ _).comp t2)
  unfold integrateLd
  simp only
  set B : ℂ → ℝ := fun p => Boundary.brightnessProfile leq p rho w0 u1 with hB
  simp only [integrateLdWith_closed _ _ B rho pts k o ho]
  unfold greenTrapezoid
  apply tendsto_finsetSum
  intro i hi
  have hp : ∀ p : ℝ × ℝ, Tendsto (fun npts : ℕ => ldP (integrateGaussLegendre (leggauss (npts / 2)))
      (integrateGaussLegendre (leggauss (npts - npts / 2))) B rho o.2 p.1 p.2) atTop
      (𝓝 (-(1 / 2) * ∫ y in o.2..p.2, W (p.1 + Complex.I * y))) := fun p =>
    (line _ (fun y : ℝ => W (p.1 + Complex.I * y)) _ _ (by fun_prop) ⟨S.image Complex.im, fun y hy => hS _ fun h =>
      hy (Finset.mem_image.mpr ⟨_, h, by simp⟩)⟩).const_mul _
  have hq : ∀ p : ℝ × ℝ, Tendsto (fun npts : ℕ => ldQ (integrateGaussLegendre (leggauss (npts / 2)))
      (integrateGaussLegendre (leggauss (npts - npts / 2))) B rho o.1 p.1 p.2) atTop
      (𝓝 ((1 / 2) * ∫ x in o.1..p.1, W (x + Complex.I * p.2))) := fun p =>
    (line _ (fun x : ℝ => W (x + Complex.I * p.2)) _ _ (by fun_prop) ⟨S.image Complex.re, fun y hy => hS _ fun h =>
      hy (Finset.mem_image.mpr ⟨_, h, by simp⟩)⟩).const_mul _
  exact ((((hp _).add (hp _)).div_const 2).mul_const _).add ((((hq _).add (hq _)).div_const 2).mul_const _)

/-- The average of points near `p`. -/
theorem centroid_bound (pts : List (ℝ × ℝ)) (hne : pts ≠ []) (a b Y : ℝ) (h1 : ∀ p ∈ pts, |p.1 - a| ≤ Y)
    (h2 : ∀ p ∈ pts, |p.2 - b| ≤ Y) :
    |(centroid (closedBuffer pts 0) pts.length).1 - a| ≤ Y ∧ |(centroid (closedBuffer pts 0) pts.length).2 - b| ≤ Y := by
  have hsum : ∀ (f : ℝ × ℝ → ℝ) (a : ℝ) (l : List (ℝ × ℝ)), (∀ p ∈ l, |f p - a| ≤ Y) →
      |(l.map f).sum - l.length * a| ≤ l.length * Y := by
    intro f a l
    induction l with
    | nil => intro _; simp
    | cons p l ih =>
      intro h
      have i1 := ih fun p hp => h p (List.mem_cons_of_mem _ hp)
      have i2 := h p List.mem_cons_self
      simp only [List.map_cons, List.sum_cons, List.length_cons]
      push_cast
      have e : f p + (l.map f).sum - ((l.length : ℝ) + 1) * a = (f p - a) + ((l.map f).sum - l.length * a) := by ring
      rw [e]
      refine (abs_add_le _ _).trans ?_
      linarith
  have hmem : ∀ p ∈ closedBuffer pts 0, p ∈ pts := by
    intro p hp
    obtain ⟨a, l, rfl⟩ := List.exists_cons_of_ne_nil hne
    simp only [closedBuffer, List.replicate_zero, List.append_nil, List.mem_append, List.mem_singleton, List.headD_cons] at hp
    rcases hp with h | rfl
    · exact h
    · simp
  have hl : ((closedBuffer pts 0).length : ℝ) = pts.length + 1 := by
    rw [closedBuffer_length]; push_cast; ring
  have hpos : (0 : ℝ) < pts.length + 1 := by positivity
  have a1 := hsum Prod.fst a (closedBuffer pts 0) fun p hp => h1 p (hmem p hp)
  have a2 := hsum Prod.snd b (closedBuffer pts 0) fun p hp => h2 p (hmem p hp)
  rw [hl] at a1 a2
  have hd : ∀ x a : ℝ, |x - (pts.length + 1) * a| ≤ (pts.length + 1) * Y → |x / ((pts.length : ℝ) + 1) - a| ≤ Y := by
    intro x a h
    have e : x / ((pts.length : ℝ) + 1) - a = (x - (pts.length + 1) * a) / (pts.length + 1) := by field_simp
    rw [e, abs_div, abs_of_pos hpos, div_le_iff₀ hpos]
    linarith
  exact ⟨hd _ _ a1, hd _ _ a2⟩

/-- One image of the limb: the quadratures along the contour converge, to a number that differs from the contour integral of
the exact primitives by the error of the trapezoidal rule. -/
theorem ld_track (leggauss : ℕ → List (ℝ × ℝ)) (hg : ∀ n, 1 ≤ n → IsGauss n (leggauss n))
    (leq : ℂ → ℂ) (w0 : ℂ) (rho u1 : ℝ) (W : ℂ → ℝ) (hW : Continuous W) (S : Finset ℂ)
    (hS : ∀ z, z ∉ S → Boundary.brightnessProfile leq z rho w0 u1 = W z) (M Λ ν h ω : ℝ) (hM : ∀ z, |W z| ≤ M)
    (hν : 0 ≤ ν) (z : ℝ → ℂ)
    (hω : ∀ x x', ‖x - z (-Real.pi)‖ ≤ 2 * (2 * Real.pi * Λ + ν) → ‖x' - z (-Real.pi)‖ ≤ 2 * (2 * Real.pi * Λ + ν) →
      ‖x - x'‖ ≤ Λ * h + ν → |W x - W x'| ≤ ω)
    (N : ℕ) (θ : ℕ → ℝ) (X : ℕ → ℂ) (hN : 0 < N) (h0 : θ 0 = -Real.pi) (hπ : θ N = Real.pi)
    (hθ : ∀ k < N, θ k ≤ θ (k + 1) ∧ θ (k + 1) - θ k ≤ h) (hz : ContDiff ℝ 1 z)
    (hlip : ∀ t ∈ Icc (-Real.pi) Real.pi, ∀ t' ∈ Icc (-Real.pi) Real.pi, ‖z t' - z t‖ ≤ Λ * |t' - t|)
    (hcl : z Real.pi = z (-Real.pi)) (hX : ∀ k < N, ‖X k - z (θ k)‖ ≤ ν) :
    ∃ (l : ℝ) (o : ℝ × ℝ), Tendsto (fun n => integrateLd leggauss leq w0 rho u1 n
        (closedBuffer ((List.range N).map fun k => ((X k).re, (X k).im)) 0) N) atTop (𝓝 l) ∧
      |l - ∫ u in (-Real.pi)..Real.pi, (greenP W o (z u) * (deriv z u).re + greenQ W o (z u) * (deriv z u).im)|
        ≤ 4 * N * (M * (2 * Real.pi * Λ + ν)) * ν + 2 * Real.pi * Λ * (M * (Λ * h + ν) + 2 * (2 * Real.pi * Λ + ν) * ω) := by
  have hpi := Real.pi_pos
  set pts : List (ℝ × ℝ) := (List.range N).map fun k => ((X k).re, (X k).im) with hpts
  have hlen : pts.length = N := by rw [hpts]; simp
  have hne : pts ≠ [] := by
    intro h; rw [h] at hlen; simp at hlen; omega
  have hmono : ∀ i ≤ N, ∀ j ≤ i, θ j ≤ θ i := by
    intro i hi
    induction i with
    | zero => intro j hj; rw [Nat.le_zero.mp hj]
    | succ i ih =>
      intro j hj
      rcases Nat.lt_or_ge j (i + 1) with h | h
      · exact (ih (by omega) j (by omega)).trans (hθ i (by omega)).1
      · rw [le_antisymm hj h]
  have hin : ∀ i ≤ N, θ i ∈ Icc (-Real.pi) Real.pi :=
    fun i hi => ⟨h0 ▸ hmono i hi 0 (Nat.zero_le _), hπ ▸ hmono N le_rfl i hi⟩
  have hmp : -Real.pi ∈ Icc (-Real.pi) Real.pi := ⟨le_rfl, by linarith⟩
  have hΛ0 : 0 ≤ Λ := by
    have := (norm_nonneg _).trans (hlip (-Real.pi) hmp Real.pi ⟨by linarith, le_rfl⟩)
    have h2 : |Real.pi - -Real.pi| = 2 * Real.pi := by rw [abs_of_nonneg (by linarith)]; ring
    rw [h2] at this
    exact nonneg_of_mul_nonneg_left this (by linarith)
  set p := z (-Real.pi) with hp
  have hzn : ∀ u ∈ Icc (-Real.pi) Real.pi, ‖z u - p‖ ≤ 2 * Real.pi * Λ := by
    intro u hu
    refine (hlip _ hmp u hu).trans ?_
    rw [abs_of_nonneg (by linarith [hu.1])]
    have := mul_le_mul_of_nonneg_left (by linarith [hu.2] : u - -Real.pi ≤ 2 * Real.pi) hΛ0
    linarith
  have hXn : ∀ k < N, ‖X k - p‖ ≤ 2 * Real.pi * Λ + ν := by
    intro k hk
    have := norm_add_le (z (θ k) - p) (X k - z (θ k))
    rw [add_comm, sub_add_sub_cancel] at this
    linarith [hX k hk, hzn _ (hin k hk.le)]
  set o := centroid (closedBuffer pts 0) pts.length with ho
  have hpm : ∀ q ∈ pts, |q.1 - p.re| ≤ 2 * Real.pi * Λ + ν ∧ |q.2 - p.im| ≤ 2 * Real.pi * Λ + ν := by
    intro q hq
    rw [hpts, List.mem_map] at hq
    obtain ⟨k, hk, rfl⟩ := hq
    rw [List.mem_range] at hk
    simp only
    rw [← sub_re, ← sub_im]
    exact ⟨(abs_re_le_norm _).trans (hXn k hk), (abs_im_le_norm _).trans (hXn k hk)⟩
  obtain ⟨ho1, ho2⟩ := centroid_bound pts hne p.re p.im _ (fun q hq => (hpm q hq).1) (fun q hq => (hpm q hq).2)
  rw [← ho] at ho1 ho2
  have ht := ld_tendsto leggauss hg leq w0 rho u1 pts hne 0 W hW S hS o ho
  rw [hlen] at ht
  refine ⟨_, o, ht, ?_⟩
  set c : ℕ → ℂ := fun i => X (i % N) with hc
  have hget : ∀ i ≤ N, (closedBuffer pts 0).getD i 0 = ((c i).re, (c i).im) := by
    intro i hi
    rw [closedBuffer_getD pts 0 i hne (by omega), hlen]
    have hlt := Nat.mod_lt i hN
    rw [List.getD_eq_getElem _ _ (by rw [hlen]; exact hlt)]
    simp only [hpts, List.getElem_map, List.getElem_range, hc]
  have hcz : ∀ i ≤ N, ‖c i - z (θ i)‖ ≤ ν := by
    intro i hi
    rcases Nat.lt_or_ge i N with h | h
    · simp only [hc]; rw [Nat.mod_eq_of_lt h]; exact hX i h
    · have : i = N := le_antisymm hi h
      subst this
      simp only [hc]
      rw [Nat.mod_self, hπ, hcl, hp, ← h0]; exact hX 0 hN
  have hcn : ∀ i, ‖c i - p‖ ≤ 2 * Real.pi * Λ + ν := fun i => hXn _ (Nat.mod_lt i hN)
  have hder : ∀ u, HasDerivAt z (deriv z u) u := fun u => (hz.differentiable one_ne_zero u).hasDerivAt
  have hΛ : ∀ u ∈ Icc (-Real.pi) Real.pi, ‖deriv z u‖ ≤ Λ := by
    have hint : ∀ u ∈ Ioo (-Real.pi) Real.pi, ‖deriv z u‖ ≤ Λ := by
      intro u hu
      refine (hder u).le_of_lip' hΛ0 ?_
      filter_upwards [Ioo_mem_nhds hu.1 hu.2] with x hx
      simpa [Real.norm_eq_abs] using hlip u ⟨hu.1.le, hu.2.le⟩ x ⟨hx.1.le, hx.2.le⟩
    have hclosed : IsClosed {u | ‖deriv z u‖ ≤ Λ} := isClosed_le (hz.continuous_deriv le_rfl).norm continuous_const
    intro u hu
    rw [← closure_Ioo (by linarith : -Real.pi ≠ Real.pi)] at hu
    exact closure_minimal (fun x hx => hint x hx) hclosed hu
  obtain ⟨p1, p2⟩ := green_bounds_at W hW o p (2 * Real.pi * Λ + ν) M (Λ * h + ν) ω ho1 ho2 hM hω
  have hzn' : ∀ u ∈ Icc (-Real.pi) Real.pi, ‖z u - p‖ ≤ 2 * Real.pi * Λ + ν := fun u hu => by linarith [hzn u hu]
  have key := trapezoid_contour z (deriv z) (greenP W o) (greenQ W o) (continuous_greenP W hW o) (continuous_greenQ W hW o)
    Λ ν h (M * (2 * Real.pi * Λ + ν)) _ (-Real.pi) Real.pi N θ c h0 hπ hθ (fun u _ => hder u)
    (hz.continuous_deriv le_rfl).continuousOn hΛ hcz (fun i _ => p1 _ (hcn i))
    (fun i _ u hu hd => p2 _ _ (hcn i) (hzn' u hu) hd)
  have e : greenTrapezoid W o (fun i => (closedBuffer pts 0).getD i 0) N
      = ∑ i ∈ Finset.range N, ((greenP W o (c i) + greenP W o (c (i + 1))) / 2 * ((c (i + 1)).re - (c i).re)
        + (greenQ W o (c i) + greenQ W o (c (i + 1))) / 2 * ((c (i + 1)).im - (c i).im)) := by
    unfold greenTrapezoid
    refine Finset.sum_congr rfl fun i hi => ?_
    rw [Finset.mem_range] at hi
    simp only [hget i hi.le, hget (i + 1) hi]
    rfl
  rw [e]
  refine key.trans (le_of_eq ?_)
  ring

/-! ### The profile outside the disc -/

/-- The profile that `_brightness_profile` assigns to a point of the lens plane, with its limit in the place of the value at
the lenses. -/
def imageProfile (L : Lenses) (w : ℂ) (rho u1 : ℝ) (z : ℂ) : ℝ :=
  open Classical in if ∃ l ∈ L, z = l.2 then 3 / (3 - u1) * (1 - 2 * u1)
    else Boundary.brightnessProfile (lensMap L) z rho w u1

theorem imageProfile_off (L : Lenses) (w : ℂ) (rho u1 : ℝ) (z : ℂ) (hz : ∀ l ∈ L, z ≠ l.2) :
    imageProfile L w rho u1 z = Boundary.brightnessProfile (lensMap L) z rho w u1 := by
  unfold imageProfile
  rw [if_neg]
  rintro ⟨l, hl, h⟩
  exact hz l hl h

theorem profile_factor (u1 B : ℝ) (h0 : 0 ≤ u1) (h1 : u1 ≤ 1) (hB0 : 0 ≤ B) (hB2 : B ≤ 2) :
    |3 / (3 - u1) * (u1 * B + 1 - 2 * u1)| ≤ 3 / 2 := by
  have h3 : 0 < 3 - u1 := by linarith
  rw [abs_mul, abs_of_pos (by positivity)]
  have h4 : 3 / (3 - u1) ≤ 3 / 2 := div_le_div_of_nonneg_left (by norm_num) (by norm_num) (by linarith)
  have h5 : |u1 * B + 1 - 2 * u1| ≤ 1 := by
    rw [abs_le]
    constructor <;> nlinarith [mul_nonneg h0 hB0, mul_nonneg h0 (sub_nonneg.mpr hB2)]
  calc 3 / (3 - u1) * |u1 * B + 1 - 2 * u1| ≤ 3 / 2 * 1 := mul_le_mul h4 h5 (abs_nonneg _) (by norm_num)
    _ = 3 / 2 := by norm_num

theorem imageProfile_bound (L : Lenses) (w : ℂ) (rho u1 : ℝ) (h0 : 0 ≤ u1) (h1 : u1 ≤ 1) (z : ℂ) :
    |imageProfile L w rho u1 z| ≤ 3 / 2 := by
  unfold imageProfile
  split_ifs with h
  · have := profile_factor u1 0 h0 h1 le_rfl (by norm_num)
    rwa [mul_zero, zero_add] at this
  · unfold Boundary.brightnessProfile
    simp only
    have hs1 : ∀ x : ℝ, 0 ≤ x → Real.sqrt (1 - x) ≤ 1 := fun x hx => by
      exact Real.sqrt_le_one.mpr (by linarith)
    refine profile_factor u1 _ h0 h1 ?_ ?_
    · split_ifs with hr
      · positivity
      · have := hs1 (1 / (‖lensMap L z - w‖ / rho) ^ 2) (by positivity)
        linarith
    · split_ifs with hr
      · have := hs1 ((‖lensMap L z - w‖ / rho) ^ 2) (by positivity)
        linarith
      · have := Real.sqrt_nonneg (1 - 1 / (‖lensMap L z - w‖ / rho) ^ 2)
        linarith

theorem lensMap_tendsto_lens (L : Lenses) (hm : ∀ l ∈ L, l.1 ≠ 0) (hL : (L.map Prod.snd).Nodup) (w : ℂ) (l : ℝ × ℂ)
    (hl : l ∈ L) : Tendsto (fun z => ‖lensMap L z - w‖) (𝓝[≠] l.2) atTop := by
  have hlist := list_eq_lensList L
  have hinj : Function.Injective fun i : Fin L.length => (L.get i).2 := by
    intro i j hij
    have h := List.nodup_iff_injective_get.mp hL
    have := @h ⟨i, by simp⟩ ⟨j, by simp⟩ (by simpa using hij)
    exact Fin.ext (by simpa using this)
  obtain ⟨k, rfl⟩ := List.get_of_mem hl
  rw [tendsto_atTop]
  intro R
  have := lensMap_blowup (fun i : Fin L.length => (L.get i).1) (fun i => (L.get i).2)
    (fun i => hm _ (List.get_mem L i)) hinj k (R + ‖w‖)
  rw [← hlist] at this
  filter_upwards [this] with z hz
  have := norm_sub_norm_le (lensMap L z) w
  linarith

theorem continuous_imageProfile (L : Lenses) (hm : ∀ l ∈ L, l.1 ≠ 0) (hL : (L.map Prod.snd).Nodup) (w : ℂ) (rho u1 : ℝ)
    (hrho : 0 < rho) : Continuous (imageProfile L w rho u1) := by
  have hfin : {z | z ∈ L.map Prod.snd}.Finite := List.finite_toSet _
  have hoff : ∀ z0 : ℂ, ∀ᶠ z in 𝓝[≠] z0, ∀ l ∈ L, z ≠ l.2 := by
    intro z0
    have h1 : IsClosed ({z | z ∈ L.map Prod.snd} \ {z0}) := (hfin.subset sdiff_subset).isClosed
    have h2 : ∀ᶠ z in 𝓝 z0, z ∉ ({z | z ∈ L.map Prod.snd} \ {z0} : Set ℂ) :=
      h1.isOpen_compl.eventually_mem (by simp)
    rw [eventually_nhdsWithin_iff]
    filter_upwards [h2] with z hz hne l hl h
    exact hz ⟨by rw [h]; exact List.mem_map_of_mem hl, hne⟩
  rw [continuous_iff_continuousAt]
  intro z0
  by_cases hz0 : ∃ l ∈ L, z0 = l.2
  · obtain ⟨l, hl, rfl⟩ := hz0
    have hval : imageProfile L w rho u1 l.2 = 3 / (3 - u1) * (u1 * (1 - Real.sqrt (1 - 0)) + 1 - 2 * u1) := by
      unfold imageProfile
      rw [if_pos ⟨l, hl, rfl⟩, sub_zero, Real.sqrt_one]; ring
    have hr : Tendsto (fun z => ‖lensMap L z - w‖ / rho) (𝓝[≠] l.2) atTop :=
      (lensMap_tendsto_lens L hm hL w l hl).atTop_div_const hrho
    have hr2 : Tendsto (fun z => 1 / (‖lensMap L z - w‖ / rho) ^ 2) (𝓝[≠] l.2) (𝓝 0) := by
      simp only [one_div]
      exact ((tendsto_pow_atTop (by norm_num)).comp hr).inv_tendsto_atTop
    have key : Tendsto (imageProfile L w rho u1) (𝓝[≠] l.2) (𝓝 (imageProfile L w rho u1 l.2)) := by
      rw [hval]
      refine Tendsto.congr' ?_ (((((((tendsto_const_nhds (x := (1 : ℝ))).sub hr2).sqrt).const_sub 1).const_mul u1).add_const 1
        |>.sub_const (2 * u1)).const_mul (3 / (3 - u1)))
      filter_upwards [hoff l.2, hr.eventually_gt_atTop 1] with z h1 h2
      rw [imageProfile_off _ _ _ _ _ h1]
      unfold Boundary.brightnessProfile
      simp only
      rw [if_neg (not_le.mpr h2)]
    rw [continuousAt_iff_punctured_nhds]
    exact key
  · have hz0' : ∀ l ∈ L, z0 ≠ l.2 := fun l hl h => hz0 ⟨l, hl, h⟩
    have hc : ContinuousAt (lensMap L) z0 := (contDiffAt_lensMap L z0 hz0').continuousAt
    have h1 : ContinuousAt (fun z => Boundary.brightnessProfile (lensMap L) z rho w u1) z0 :=
      (continuous_profile rho w u1).continuousAt.comp hc
    refine h1.congr ?_
    have := hoff z0
    rw [eventually_nhdsWithin_iff] at this
    filter_upwards [this] with z hz
    refine (imageProfile_off _ _ _ _ _ ?_).symm
    by_cases h : z = z0
    · rw [h]; exact hz0'
    · exact hz h

/-- On the images of the disc the profile is the limb-darkening law, normalised by the flux of the disc. -/
theorem imageProfile_flux (L : Lenses) (w : ℂ) (rho u1 : ℝ) (hrho : 0 < rho) (h0 : 0 ≤ u1) (h1 : u1 ≤ 1) :
    (∫ z in imageOfDisc L w rho, imageProfile L w rho u1 z) / (Real.pi * rho ^ 2) = limbMag L w rho u1 ∧
    0 ≤ ∫ z in imageOfDisc L w rho, imageProfile L w rho u1 z := by
  have hpi := Real.pi_pos
  have h3 : 0 < 3 - u1 := by linarith
  have hin : ∀ z ∈ imageOfDisc L w rho,
      imageProfile L w rho u1 z = 3 / (3 - u1) * brightness u1 (‖lensMap L z - w‖ / rho) := by
    rintro z ⟨hz, hlt⟩
    rw [imageProfile_off _ _ _ _ _ hz]
    unfold Boundary.brightnessProfile brightness
    simp only
    rw [if_pos ((div_lt_one hrho).mpr hlt).le]
    ring
  have hI : ∫ z in imageOfDisc L w rho, imageProfile L w rho u1 z
      = 3 / (3 - u1) * ∫ z in imageOfDisc L w rho, brightness u1 (‖lensMap L z - w‖ / rho) := by
    rw [← integral_const_mul]
    exact setIntegral_congr_fun (measurableSet_imageOfDisc L w rho) hin
  have hfl := brightness_flux w rho u1 hrho (by linarith)
  set D := ∫ y in Metric.ball w rho, brightness u1 (‖y - w‖ / rho) with hD
  have hD0 : D ≠ 0 := by
    intro h
    rw [h, mul_zero] at hfl
    exact absurd hfl.symm (by positivity)
  constructor
  · rw [hI, limbMag, ← hD, ← hfl]
    field_simp
  · rw [hI]
    refine mul_nonneg (by positivity) (setIntegral_nonneg (measurableSet_imageOfDisc L w rho) fun z _ => ?_)
    unfold brightness
    have := Real.sqrt_nonneg (1 - (‖lensMap L z - w‖ / rho) ^ 2)
    nlinarith [mul_nonneg h0 this]

/-- The profile is uniformly continuous on bounded sets. -/
theorem imageProfile_modulus (L : Lenses) (hm : ∀ l ∈ L, l.1 ≠ 0) (hL : (L.map Prod.snd).Nodup) (w : ℂ) (rho u1 : ℝ)
    (hrho : 0 < rho) (Y ε : ℝ) (hε : 0 < ε) : ∃ η : ℝ, 0 < η ∧ ∀ z z', ‖z‖ ≤ Y → ‖z'‖ ≤ Y → ‖z - z'‖ ≤ η →
      |imageProfile L w rho u1 z - imageProfile L w rho u1 z'| ≤ ε := by
  have hu := (isCompact_closedBall (0 : ℂ) Y).uniformContinuousOn_of_continuous
    (continuous_imageProfile L hm hL w rho u1 hrho).continuousOn
  obtain ⟨η, hη, h⟩ := Metric.uniformContinuousOn_iff.mp hu ε hε
  refine ⟨η / 2, by positivity, fun z z' hz hz' hd => ?_⟩
  have := h z (by simpa using hz) z' (by simpa using hz') (by rw [dist_eq_norm]; linarith)
  rw [Real.dist_eq] at this
  exact this.le

end Microjax.Props
