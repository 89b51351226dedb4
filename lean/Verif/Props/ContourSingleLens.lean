import Verif.Props.Limb
import Verif.Props.ContourIntegral
import Verif.Model.Contours
import Verif.Props.PointSource
import Mathlib.Analysis.SpecialFunctions.Trigonometric.Bounds
import Mathlib.Analysis.SpecialFunctions.Complex.Log

/-!
# C78: the contour method for one lens; C08: which lenses `mag_extended_source` lenses with

End to end for a source behind the lens: sampling, refinement, de-duplication, tracking, contours and integration give the
known magnification `sqrt (1 + 4 / rho^2)` up to the chord error of the polygon and the missing closing edge.
-/

set_option linter.unusedVariables false
set_option linter.unusedSectionVars false

namespace Microjax.Props

open Microjax.Spec Segments Contour Limb Jnp Utils PointSource

/-! ## The closing edge -/

section

variable {K : Type*} [Field K] [LinearOrder K] [CharZero K]

/-- the sum of the triangles spanned by the origin and the edges of an open path -/
def openArea (pts : List (K × K)) : K :=
  ((List.range (pts.length - 1)).map fun i => triArea 0 (pts.getD i 0) (pts.getD (i + 1) 0)).sum

/-- C78, single-lens contours are not closed: with the tail index used for one lens (`mag.py` 133) the integral stops at
the last sample; the edge back to the first sample is missing, so the value is the polygon area minus one triangle. -/
theorem C78_closing_edge_violated (pts : List (K × K)) (hne : pts ≠ []) :
    integrateUnif (pts ++ [pts.headD 0]) (pts.length - 1) = openArea pts ∧
    integrateUnif (pts ++ [pts.headD 0]) (pts.length - 1)
      = polygonArea 0 pts - triArea 0 (pts.getD (pts.length - 1) 0) (pts.headD 0) := by
  have hpos : 0 < pts.length := List.length_pos_iff.2 hne
  have hb : pts ++ [pts.headD 0] = closedBuffer pts 0 := by simp [closedBuffer]
  have hc := C42_polygon_area pts 0 hne 0
  have hl : (closedBuffer pts 0).length = pts.length + 1 := by rw [closedBuffer_length]
  have h2 : (2 : K) ≠ 0 := two_ne_zero
  have e1 : Jnp.get (0 : K × K) (closedBuffer pts 0) (pts.length - 1) = pts.getD (pts.length - 1) 0 := by
    rw [get_of_lt _ _ (by rw [hl]; omega), List.getD_eq_getElem _ _ (by omega)]
    simp only [closedBuffer, List.replicate_zero, List.append_nil]
    rw [List.getElem_append_left (by omega)]
  have e2 : Jnp.get (0 : K × K) (closedBuffer pts 0) (pts.length - 1 + 1) = pts.headD 0 := by
    rw [get_of_lt _ _ (by rw [hl]; omega)]
    simp only [closedBuffer, List.replicate_zero, List.append_nil, show pts.length - 1 + 1 = pts.length by omega]
    rw [List.getElem_append_right (le_refl _)]
    simp
  have gmap : ∀ (f : K × K → K) (i : ℕ), f 0 = 0 → Jnp.get 0 ((closedBuffer pts 0).map f) i
      = f (Jnp.get 0 (closedBuffer pts 0) i) := by
    intro f i hf
    unfold Jnp.get
    rw [List.length_map, List.getD_eq_getElem?_getD, List.getD_eq_getElem?_getD, List.getElem?_map]
    cases (closedBuffer pts 0)[min i ((closedBuffer pts 0).length - 1)]? <;> simp [hf]
  have main : integrateUnif (closedBuffer pts 0) (pts.length - 1)
      = polygonArea 0 pts - triArea 0 (pts.getD (pts.length - 1) 0) (pts.headD 0) := by
    rw [← hc]
    unfold integrateUnif trapzZeroAvoiding
    simp only [List.length_map, hl]
    rw [if_neg (by omega), if_neg (by omega), if_pos trivial, if_pos trivial]
    rw [gmap _ _ (by simp), gmap _ _ (by simp), gmap _ _ (by simp), gmap _ _ (by simp), gmap _ _ (by simp),
      gmap _ _ (by simp), gmap _ _ (by simp), gmap _ _ (by simp), e1, e2]
    simp only [triArea, Prod.fst_zero, Prod.snd_zero]
    field_simp
    ring
  rw [hb]
  refine ⟨?_, main⟩
  rw [main]
  unfold polygonArea openArea
  obtain ⟨n, hn⟩ : ∃ n, pts.length = n + 1 := ⟨pts.length - 1, by omega⟩
  rw [hn, List.range_succ, List.map_append, List.sum_append]
  simp only [List.map_cons, List.map_nil, List.sum_cons, List.sum_nil, add_zero, Nat.add_sub_cancel, Nat.mod_self]
  have : (List.range n).map (fun i => triArea 0 (pts.getD i 0) (pts.getD ((i + 1) % (n + 1)) 0))
      = (List.range n).map fun i => triArea 0 (pts.getD i 0) (pts.getD (i + 1) 0) := by
    apply List.map_congr_left
    intro i hi
    rw [List.mem_range] at hi
    rw [Nat.mod_eq_of_lt (by omega)]
  rw [this]
  have hh : pts.headD 0 = pts.getD 0 0 := by
    cases pts <;> rfl
  rw [hh]
  ring

end

example : -- a unit square seen from the origin outside of it: the closing edge matters
    integrateUnif ([(1, 1), (2, 1), (2, 2), (1, 2)] ++ [(1, 1)] : List (ℚ × ℚ)) 3 = 3/2 ∧
    polygonArea 0 ([(1, 1), (2, 1), (2, 2), (1, 2)] : List (ℚ × ℚ)) = 1 := by decide +kernel

/-! ## Source behind the lens -/

/-- position of an image at (signed) radius `A` and angle `t` -/
noncomputable def polar (A t : ℝ) : ℂ := (A : ℂ) * Complex.exp (Complex.I * t)

theorem polar_re (A t : ℝ) : (polar A t).re = A * Real.cos t := by
  unfold polar
  rw [mul_comm Complex.I, Complex.exp_mul_I, ← Complex.ofReal_cos, ← Complex.ofReal_sin, Complex.re_ofReal_mul]
  simp only [Complex.add_re, Complex.ofReal_re, Complex.mul_re, Complex.ofReal_im, Complex.I_re, Complex.I_im]
  ring

theorem polar_im (A t : ℝ) : (polar A t).im = A * Real.sin t := by
  unfold polar
  rw [mul_comm Complex.I, Complex.exp_mul_I, ← Complex.ofReal_cos, ← Complex.ofReal_sin, Complex.im_ofReal_mul]
  simp only [Complex.add_im, Complex.ofReal_re, Complex.mul_im, Complex.ofReal_im, Complex.I_re, Complex.I_im]
  ring

theorem polar_norm (A t : ℝ) : ‖polar A t‖ = |A| := by
  unfold polar
  rw [norm_mul, mul_comm Complex.I, Complex.norm_exp_ofReal_mul_I, mul_one, Complex.norm_real, Real.norm_eq_abs]

theorem polar_dist_sq (A B s t : ℝ) : ‖polar A t - polar B s‖ ^ 2 = A ^ 2 + B ^ 2 - 2 * A * B * Real.cos (t - s) := by
  rw [← Complex.normSq_eq_norm_sq, Complex.normSq_apply, Complex.sub_re, Complex.sub_im, polar_re, polar_re, polar_im,
    polar_im, Real.cos_sub]
  nlinarith [Real.sin_sq_add_cos_sq t, Real.sin_sq_add_cos_sq s]

theorem polar_inj (A s t : ℝ) (hA : A ≠ 0) (h1 : s < t) (h2 : t < s + 2 * Real.pi) : polar A s ≠ polar A t := by
  intro h
  have hd := polar_dist_sq A A s t
  rw [h, sub_self, norm_zero] at hd
  have hc : Real.cos (t - s) = 1 := by
    have hA2 : 0 < A ^ 2 := by positivity
    have : 2 * A ^ 2 * (1 - Real.cos (t - s)) = 0 := by linarith
    have := (mul_eq_zero.1 this).resolve_left (by positivity)
    linarith
  rw [Real.cos_eq_one_iff_of_lt_of_lt (by linarith [Real.pi_pos]) (by linarith)] at hc
  linarith

/-- the two images of the limb point at angle `t` -/
theorem images1_polar (rho t : ℝ) (hrho : 0 < rho) :
    images1 ((rho : ℂ) * Complex.exp (Complex.I * t) + 0)
      = [(polar (1 / 2 * rho * (1 + Real.sqrt (1 + 4 / rho ^ 2))) t, true),
         (polar (1 / 2 * rho * (1 - Real.sqrt (1 + 4 / rho ^ 2))) t, true)] := by
  unfold images1
  simp only
  have hn : ((rho : ℂ) * Complex.exp (Complex.I * t) + 0).re ^ 2 + ((rho : ℂ) * Complex.exp (Complex.I * t) + 0).im ^ 2
      = rho ^ 2 := by
    rw [add_zero]
    have h1 := polar_re rho t
    have h2 := polar_im rho t
    unfold polar at h1 h2
    rw [h1, h2]
    nlinarith [Real.sin_sq_add_cos_sq t]
  rw [hn]
  unfold polar
  have e1 : ((1 / 2 : ℝ) : ℂ) * ((rho : ℂ) * Complex.exp (Complex.I * t) + 0) * ((1 + Real.sqrt (1 + 4 / rho ^ 2) : ℝ) : ℂ)
      = ((1 / 2 * rho * (1 + Real.sqrt (1 + 4 / rho ^ 2)) : ℝ) : ℂ) * Complex.exp (Complex.I * t) := by
    push_cast
    ring
  have e2 : ((1 / 2 : ℝ) : ℂ) * ((rho : ℂ) * Complex.exp (Complex.I * t) + 0) * ((1 - Real.sqrt (1 + 4 / rho ^ 2) : ℝ) : ℂ)
      = ((1 / 2 * rho * (1 - Real.sqrt (1 + 4 / rho ^ 2)) : ℝ) : ℂ) * Complex.exp (Complex.I * t) := by
    push_cast
    ring
  rw [← e1, ← e2]

/-- With an image finder that ignores the initial guess, sequential tracking is a map. -/
theorem imagesSequential_map (fn : ℂ → Option (List ℂ) → List (ℂ × Bool)) (f : ℂ → List (ℂ × Bool))
    (h : ∀ w i, fn w i = f w) (ws : List ℂ) : imagesSequential fn ws = ws.map f := by
  have hgo : ∀ (ws : List ℂ) zp, imagesSequential.go fn zp ws = ws.map f := by
    intro ws
    induction ws with
    | nil => intro zp; rfl
    | cons w ws ih => intro zp; simp [imagesSequential.go, h, ih]
  cases ws with
  | nil => rfl
  | cons w ws => simp [imagesSequential, h, hgo]

/-- Facts about the two image radii. -/
structure Radii (A B : ℝ) : Prop where
  pos : 1 < A
  neg : B < 0
  small : -1 < B
  prod : A * B = -1

theorem radii (rho : ℝ) (hrho : 0 < rho) :
    Radii (1 / 2 * rho * (1 + Real.sqrt (1 + 4 / rho ^ 2))) (1 / 2 * rho * (1 - Real.sqrt (1 + 4 / rho ^ 2))) := by
  set S := Real.sqrt (1 + 4 / rho ^ 2) with hS
  have hpos : 0 ≤ 1 + 4 / rho ^ 2 := by positivity
  have hsq : S ^ 2 = 1 + 4 / rho ^ 2 := Real.sq_sqrt hpos
  have hS1 : 1 < S := by
    rw [hS, Real.lt_sqrt (by norm_num)]
    have : 0 < 4 / rho ^ 2 := by positivity
    linarith
  have hrs : rho ^ 2 * S ^ 2 = rho ^ 2 + 4 := by rw [hsq]; field_simp
  have hrS : 2 < rho * S := by
    by_contra h
    push Not at h
    have h0 : 0 ≤ rho * S := by positivity
    have : (rho * S) ^ 2 ≤ 2 ^ 2 := by nlinarith
    nlinarith
  have hrS2 : rho * S < rho + 2 := by
    by_contra h
    push Not at h
    nlinarith
  refine ⟨by nlinarith, by nlinarith, by nlinarith, ?_⟩
  nlinarith

/-- the matching keeps the order of the two images when the angle changes by at most 60 degrees -/
theorem match_identity (A B s t : ℝ) (h : Radii A B) (hc : 1 / 2 ≤ Real.cos (t - s)) (col : List (ℂ × Bool × ℝ))
    (hcol : col.map (fun q => q.1) = [polar A t, polar B t]) :
    applyMatch [polar A s, polar B s] col = col := by
  have hcl : col.length = 2 := by
    have := congrArg List.length hcol
    simpa using this
  have hg := C12_match_points_greedy (fun a b : ℂ => ‖b - a‖) [polar A s, polar B s] [polar A t, polar B t] (by simp)
  unfold applyMatch
  rw [hcol]
  set r := matchPoints (fun a b : ℂ => ‖b - a‖) [polar A s, polar B s] [polar A t, polar B t] with hr
  have hl : r.length = 2 := hg.length
  clear_value r
  obtain ⟨a, b, rfl⟩ : ∃ a b, r = [a, b] := by
    match r, hl with
    | [a, b], _ => exact ⟨a, b, rfl⟩
  have ha : a < 2 := by simpa using hg.inRange a (by simp)
  have hb : b < 2 := by simpa using hg.inRange b (by simp)
  have hab : a ≠ b := by have := hg.nodup; simpa using this
  have ha0 : a = 0 := by
    by_contra hne
    have ha1 : a = 1 := by omega
    subst ha1
    have ht := hg.tieBreak 0 (polar A s) rfl 1 rfl (polar B t) rfl 0 (polar A t) rfl (by simp) (by norm_num)
    have h1 := polar_dist_sq A A s t
    have h2 := polar_dist_sq B A s t
    have hlt : ‖polar B t - polar A s‖ ^ 2 < ‖polar A t - polar A s‖ ^ 2 := by
      have := norm_nonneg (polar B t - polar A s)
      nlinarith
    rw [h1, h2] at hlt
    have hA := h.pos
    have hB := h.neg
    have hprod := h.prod
    have hcle := Real.cos_le_one (t - s)
    nlinarith [mul_pos (by linarith : 0 < A) (neg_pos.2 hB), sq_nonneg B, sq_nonneg A]
  have hb1 : b = 1 := by omega
  subst ha0; subst hb1
  apply List.ext_getElem
  · simp [hcl]
  · intro i h1 h2
    have hi : i = 0 ∨ i = 1 := by rw [hcl] at h2; omega
    rcases hi with rfl | rfl
    · simp only [List.map_cons, List.getElem_cons_zero]; rw [get_of_lt _ _ h2]
    · simp only [List.map_cons, List.getElem_cons_succ, List.getElem_cons_zero]; rw [get_of_lt _ _ h2]

/-- tracking leaves the columns alone -/
theorem permute_identity (A B : ℝ) (h : Radii A B) (f : ℝ → List (ℂ × Bool × ℝ))
    (hf : ∀ t, (f t).map (fun q => q.1) = [polar A t, polar B t]) (ts : List ℝ)
    (hgap : ts.IsChain fun s t => 1 / 2 ≤ Real.cos (t - s)) :
    permuteImages (ts.map f) = ts.map f := by
  have hgo : ∀ (ts : List ℝ) (s : ℝ), (s :: ts).IsChain (fun s t => 1 / 2 ≤ Real.cos (t - s)) →
      permuteImages.go [polar A s, polar B s] (ts.map f) = ts.map f := by
    intro ts
    induction ts with
    | nil => intro s _; rfl
    | cons t ts ih =>
      intro s hs
      obtain ⟨h1, h2⟩ := List.isChain_cons_cons.1 hs
      rw [List.map_cons, permuteImages.go]
      rw [match_identity A B s t h h1 (f t) (hf t), hf t, ih t h2]
  cases ts with
  | nil => rfl
  | cons t ts =>
    unfold permuteImages
    rw [List.map_cons, List.headD_cons, hf t]
    have := hgo (t :: ts) t (List.isChain_cons_cons.2 ⟨by rw [sub_self, Real.cos_zero]; norm_num, hgap⟩)
    rwa [List.map_cons] at this

/-- no two samples coincide, so nothing is perturbed -/
theorem dedupe_identity (A B : ℝ) (h : Radii A B) (noise : ℕ → ℕ → ℝ) (ts : List ℝ) (hs : ts.Pairwise (· < ·))
    (hr : ∀ s ∈ ts, ∀ t ∈ ts, t < s + 2 * Real.pi) :
    dedupe noise (ts.map fun t => [polar A t, polar B t]) = ts.map fun t => [polar A t, polar B t] := by
  set z := ts.map fun t => [polar A t, polar B t] with hz
  have hAB : |A| ≠ |B| := by
    rw [abs_of_pos (by linarith [h.pos]), abs_of_neg h.neg]
    have := h.pos; have := h.small
    intro he; linarith
  have hzk : ∀ k (hk : k < ts.length), z.getD k [] = [polar A ts[k], polar B ts[k]] := by
    intro k hk
    rw [hz, List.getD_eq_getElem _ _ (by simpa using hk), List.getElem_map]
  unfold dedupe
  simp only
  apply List.ext_getElem
  · simp
  · intro k h1 h2
    have hk : k < ts.length := by simpa [hz] using h2
    rw [List.getElem_mapIdx]
    have hcol : z[k] = [polar A ts[k], polar B ts[k]] := by simp [hz]
    rw [hcol]
    have hnone : ∀ (i : ℕ) v, [polar A ts[k], polar B ts[k]][i]? = some v → ¬ ∃ i' k' : ℕ, k' < z.length ∧
        i' < (z.getD k' []).length ∧ (i' < i ∨ (i' = i ∧ k' < k)) ∧ (z.getD k' []).getD i' 0 = v := by
      rintro i v hv ⟨i', k', hk', hi', hlt, he⟩
      have hk'' : k' < ts.length := by simpa [hz] using hk'
      rw [hzk k' hk''] at he hi'
      have hi2 : i < 2 := by
        obtain ⟨hlt2, _⟩ := List.getElem?_eq_some_iff.1 hv
        simpa using hlt2
      have hi'2 : i' < 2 := by simpa using hi'
      have hcase : (i' = 0 ∧ i = 1) ∨ (i' = 0 ∧ i = 0 ∧ k' < k) ∨ (i' = 1 ∧ i = 1 ∧ k' < k) := by omega
      have hin : ∀ R : ℝ, R ≠ 0 → k' < k → polar R ts[k'] ≠ polar R ts[k] := by
        intro R hR hkk
        exact polar_inj R _ _ hR (List.pairwise_iff_getElem.1 hs k' k hk'' hk hkk)
          (hr _ (List.getElem_mem hk'') _ (List.getElem_mem hk))
      rcases hcase with ⟨rfl, rfl⟩ | ⟨rfl, rfl, hkk⟩ | ⟨rfl, rfl, hkk⟩
      · simp only [List.getElem?_cons_succ, List.getElem?_cons_zero, Option.some.injEq, List.getD_cons_zero] at hv he
        rw [← hv] at he
        have := congrArg norm he
        rw [polar_norm, polar_norm] at this
        exact hAB this
      · simp only [List.getElem?_cons_zero, Option.some.injEq, List.getD_cons_zero] at hv he
        rw [← hv] at he
        exact hin A (by linarith [h.pos]) hkk he
      · simp only [List.getElem?_cons_succ, List.getElem?_cons_zero, Option.some.injEq, List.getD_cons_succ,
          List.getD_cons_zero] at hv he
        rw [← hv] at he
        exact hin B (ne_of_lt h.neg) hkk he
    apply List.ext_getElem
    · simp
    · intro i h3 h4
      rw [List.getElem_mapIdx, if_neg (hnone i _ (List.getElem?_eq_getElem h4))]

/-- the open area of points on a circle -/
theorem openArea_polar (A : ℝ) (ts : List ℝ) :
    openArea (ts.map fun t => ((polar A t).re, (polar A t).im))
      = A ^ 2 / 2 * ((List.range (ts.length - 1)).map fun i => Real.sin (ts.getD (i + 1) 0 - ts.getD i 0)).sum := by
  unfold openArea
  rw [List.length_map, ← List.sum_map_mul_left]
  congr 1
  apply List.map_congr_left
  intro i hi
  rw [List.mem_range] at hi
  rw [List.getD_eq_getElem _ _ (by simp; omega), List.getD_eq_getElem _ _ (by simp; omega),
    List.getD_eq_getElem _ _ (by omega), List.getD_eq_getElem _ _ (by omega), List.getElem_map, List.getElem_map]
  simp only [triArea, Prod.fst_zero, Prod.snd_zero, polar_re, polar_im, Real.sin_sub]
  ring

/-- sine sum over a fine increasing list of angles -/
theorem sine_sum (ts : List ℝ) (h : ℝ) (hne : ts ≠ []) (hs : ts.Pairwise (· < ·))
    (hg : ts.IsChain fun s t => t - s ≤ h) :
    ((List.range (ts.length - 1)).map fun i => Real.sin (ts.getD (i + 1) 0 - ts.getD i 0)).sum
      ≤ ts.getLastD 0 - ts.headD 0 ∧
    (ts.getLastD 0 - ts.headD 0) * (1 - h ^ 2 / 6)
      ≤ ((List.range (ts.length - 1)).map fun i => Real.sin (ts.getD (i + 1) 0 - ts.getD i 0)).sum := by
  induction ts with
  | nil => exact absurd rfl hne
  | cons a l ih =>
    cases l with
    | nil => simp
    | cons b l =>
      obtain ⟨hg1, hg2⟩ := List.isChain_cons_cons.1 hg
      have hs' := (List.pairwise_cons.1 hs).2
      have hab : a < b := (List.pairwise_cons.1 hs).1 b (by simp)
      obtain ⟨i1, i2⟩ := ih (by simp) hs' hg2
      have e : ((List.range ((a :: b :: l).length - 1)).map fun i => Real.sin ((a :: b :: l).getD (i + 1) 0
          - (a :: b :: l).getD i 0)).sum = Real.sin (b - a)
          + ((List.range ((b :: l).length - 1)).map fun i => Real.sin ((b :: l).getD (i + 1) 0 - (b :: l).getD i 0)).sum := by
        rw [show (a :: b :: l).length - 1 = ((b :: l).length - 1) + 1 by simp, List.range_succ_eq_map, List.map_cons,
          List.map_map, List.sum_cons]
        rfl
      have elast : (a :: b :: l).getLastD 0 = (b :: l).getLastD 0 := rfl
      rw [e, elast]
      simp only [List.headD_cons] at i1 i2 ⊢
      have hd : 0 < b - a := by linarith
      have hsin1 := (Real.sin_lt hd).le
      have hsin2 := (Real.sin_gt_sub_cube hd).le
      constructor
      · linarith
      · have : (b - a) * (1 - h ^ 2 / 6) ≤ Real.sin (b - a) := by
          have : (b - a) ^ 2 ≤ h ^ 2 := by nlinarith
          nlinarith
        nlinarith

/-- value of one circular track -/
theorem track_value (ts : List ℝ) (hne : ts ≠ []) (R σ : ℝ) (g : ℝ → ℂ × Bool × ℝ) (hg1 : ∀ t, (g t).1 = polar R t)
    (hg2 : ∀ t, (g t).2.2 = σ) :
    integrateUnif (contourFromClosed ((ts.map g).map fun q => (⟨q.1.re, q.1.im, q.2.2⟩ : Pt ℝ))).1
        (((ts.map g).map fun q => (⟨q.1.re, q.1.im, q.2.2⟩ : Pt ℝ)).length - 1)
      * (contourFromClosed ((ts.map g).map fun q => (⟨q.1.re, q.1.im, q.2.2⟩ : Pt ℝ))).2
      = R ^ 2 / 2 * ((List.range (ts.length - 1)).map fun i => Real.sin (ts.getD (i + 1) 0 - ts.getD i 0)).sum * σ := by
  set pts := ts.map (fun t => ((polar R t).re, (polar R t).im)) with hpts
  have hc1 : (contourFromClosed ((ts.map g).map fun q => (⟨q.1.re, q.1.im, q.2.2⟩ : Pt ℝ))).1
      = pts ++ [pts.headD 0] := by
    have hv : ((ts.map g).map fun q => (⟨q.1.re, q.1.im, q.2.2⟩ : Pt ℝ)).map (fun s => (s.x, s.y)) = pts := by
      rw [List.map_map, List.map_map, hpts]
      apply List.map_congr_left
      intro t _
      simp only [Function.comp, hg1]
    unfold contourFromClosed
    simp only
    rw [hv]
    congr 2
    obtain ⟨a, l, he⟩ := List.exists_cons_of_ne_nil hne
    rw [hpts, he]; rfl
  have hc2 : (contourFromClosed ((ts.map g).map fun q => (⟨q.1.re, q.1.im, q.2.2⟩ : Pt ℝ))).2 = σ := by
    unfold contourFromClosed
    simp only
    obtain ⟨a, l, he⟩ := List.exists_cons_of_ne_nil hne
    rw [he]
    exact hg2 a
  rw [hc1, hc2]
  have hlen : ((ts.map g).map fun q => (⟨q.1.re, q.1.im, q.2.2⟩ : Pt ℝ)).length - 1 = pts.length - 1 := by
    simp [hpts]
  rw [hlen, (C78_closing_edge_violated pts (by simpa [hpts] using hne)).1, openArea_polar]

/-- value of two circular tracks of opposite parity -/
theorem two_tracks (ts : List ℝ) (hne : ts ≠ []) (A B rho : ℝ) :
    magFromLimb1 integrateUnif rho (ts.map fun t => [(polar A t, true, 1), (polar B t, true, -1)])
      = |A ^ 2 / 2 * ((List.range (ts.length - 1)).map fun i => Real.sin (ts.getD (i + 1) 0 - ts.getD i 0)).sum * 1
          + (B ^ 2 / 2 * ((List.range (ts.length - 1)).map fun i => Real.sin (ts.getD (i + 1) 0 - ts.getD i 0)).sum
            * (-1) + 0)| / (Real.pi * rho ^ 2) := by
  unfold magFromLimb1 contourSum1
  have h0 : row (ts.map fun t => [(polar A t, true, (1 : ℝ)), (polar B t, true, -1)]) 0 = ts.map fun t => (polar A t, true, (1 : ℝ)) := by
    unfold row; rw [List.map_map]; rfl
  have h1 : row (ts.map fun t => [(polar A t, true, (1 : ℝ)), (polar B t, true, -1)]) 1 = ts.map fun t => (polar B t, true, (-1 : ℝ)) := by
    unfold row; rw [List.map_map]; rfl
  have hr2 : List.range 2 = [0, 1] := rfl
  rw [hr2]
  simp only [List.map_cons, List.map_nil, List.sum_cons, List.sum_nil]
  rw [h0, h1, track_value ts hne A 1 _ (fun t => rfl) (fun t => rfl), track_value ts hne B (-1) _ (fun t => rfl) (fun t => rfl)]

/-- C78, end to end: for every source radius and every number of limb samples from 18 to 2·10^8, the contour method for a
uniform source centred behind a single lens returns a value between `S·(1 - (2π/(m-1))²/6 - 1e-8)` and `S`, where
`S = sqrt(1 + 4/rho²)` is the exact magnification of a uniform disc (C59) and `m = npts_limb / 2`, whatever the root
finder, the random numbers and the other parameters are. -/
theorem C78_disc_centre (lib : Lib) (npts_limb npts_ld : ℕ) (u : UserParams) (u1 rho : ℝ) (hrho : 0 < rho)
    (hmin : 18 ≤ npts_limb) (hmax : npts_limb ≤ 2 * 10 ^ 8) :
    ∃ v, magExtendedSource lib 1 npts_limb npts_ld false u u1 rho 0 = .ok v ∧
      v ≤ Real.sqrt (1 + 4 / rho ^ 2) ∧
      Real.sqrt (1 + 4 / rho ^ 2) * (1 - (2 * Real.pi / ((npts_limb / 2 - 1 : ℕ) : ℝ)) ^ 2 / 6 - 1 / 10 ^ 8) ≤ v := by
  set S := Real.sqrt (1 + 4 / rho ^ 2) with hS
  set A := 1 / 2 * rho * (1 + S) with hA
  set B := 1 / 2 * rho * (1 - S) with hB
  have hrad : Radii A B := radii rho hrho
  set m := npts_limb / 2 with hm
  have hm9 : 9 ≤ m := by omega
  set h := 2 * Real.pi / ((m - 1 : ℕ) : ℝ) with hh
  have hm8 : (8 : ℝ) ≤ ((m - 1 : ℕ) : ℝ) := by
    have : 8 ≤ m - 1 := by omega
    exact_mod_cast this
  have hpi := Real.pi_pos
  have hpi4 : Real.pi < 4 := by linarith [Real.pi_lt_four]
  have hhpos : 0 < h := by rw [hh]; positivity
  have hh3 : h ≤ Real.pi / 3 := by
    rw [hh, div_le_div_iff₀ (by linarith) (by norm_num)]
    nlinarith
  -- the solver
  set p := extParams 1 u with hp
  set src : ℝ → ℂ := fun t => (rho : ℂ) * Complex.exp (Complex.I * t) + 0 with hsrc
  have hfind : ∀ w i, finder lib 1 p w i = images1 w := fun w i => by simp [finder]
  have himg : ∀ t, images1 (src t) = [(polar A t, true), (polar B t, true)] := fun t => images1_polar rho t hrho
  set seq : List ℝ → List (List (ℂ × Bool)) := fun th => imagesSequential (finder lib 1 p) (th.map src) with hseqdef
  set fn : ℝ → List ℂ → List (ℂ × Bool) := fun t zi => finder lib 1 p (src t) (some (lib.perturb t zi)) with hfndef
  have hseq : ∀ th, seq th = th.map fun t => [(polar A t, true), (polar B t, true)] := by
    intro th
    rw [hseqdef]
    simp only
    rw [imagesSequential_map _ images1 hfind, List.map_map]
    apply List.map_congr_left
    intro t _
    exact himg t
  obtain ⟨Q, hAr, hQ, hQl⟩ := C45_sampling seq fn detJac1 npts_limb 10 (by omega) hmax (by norm_num)
    (by intro th; rw [hseq]; simp)
  -- every sample
  have hq : ∀ q ∈ Q, q.2 = [(polar A q.1, true), (polar B q.1, true)] := by
    intro q hq
    rcases hQ.solved q hq with h | ⟨zi, h⟩
    · rw [hseq, ← List.map_id (thetaInit (npts_limb / 2)), List.map_map, List.zip_map', List.mem_map] at h
      obtain ⟨t, _, rfl⟩ := h
      rfl
    · rw [h, hfndef]
      simp only
      rw [hfind, himg]
  set ts := Q.map (fun q => q.1) with hts
  have hdetA : ∀ t, ((SignType.sign (detJac1 (polar A t)) : SignType) : ℝ) = 1 := by
    intro t
    have : 0 < detJac1 (polar A t) := by
      unfold detJac1
      rw [norm_pow, RCLike.norm_conj, polar_norm, abs_of_pos (by linarith [hrad.pos])]
      rw [sub_pos, div_lt_one (by nlinarith [hrad.pos])]
      nlinarith [hrad.pos]
    rw [sign_pos this]; rfl
  have hdetB : ∀ t, ((SignType.sign (detJac1 (polar B t)) : SignType) : ℝ) = -1 := by
    intro t
    have : detJac1 (polar B t) < 0 := by
      unfold detJac1
      rw [norm_pow, RCLike.norm_conj, polar_norm, abs_of_neg hrad.neg]
      have h1 := hrad.neg
      have h2 := hrad.small
      have h3 : 0 < (-B) ^ 2 := by nlinarith
      rw [sub_neg, lt_div_iff₀ h3]
      nlinarith
    rw [sign_neg this]; rfl
  have hmapQ : ∀ {β : Type} (f : List (ℂ × Bool) → β), (Q.map fun q => f q.2)
      = ts.map fun t => f [(polar A t, true), (polar B t, true)] := by
    intro β f
    rw [hts, List.map_map]
    apply List.map_congr_left
    intro q hqQ
    simp only [Function.comp]
    rw [hq q hqQ]
  set s := sampling seq fn detJac1 npts_limb 10 with hs
  have hz : s.z = ts.map fun t => [polar A t, polar B t] := by
    rw [hAr.z, hmapQ (fun l => l.map Prod.fst)]; rfl
  have hmk : s.mask = ts.map fun t => [true, true] := by
    rw [hAr.mask, hmapQ (fun l => l.map Prod.snd)]; rfl
  have hpar : s.parity = ts.map fun t => [1, -1] := by
    rw [hAr.parity, hmapQ (fun l => l.map fun i => ((SignType.sign (detJac1 i.1) : SignType) : ℝ))]
    apply List.map_congr_left
    intro t _
    simp only [List.map_cons, List.map_nil, hdetA, hdetB]
  have hsorted : ts.Pairwise (· < ·) := by rw [hts, List.pairwise_map]; exact hQ.sorted
  have htsr : ∀ t ∈ ts, -Real.pi ≤ t ∧ t ≤ Real.pi - 1 / 10 ^ 8 := by
    intro t ht
    obtain ⟨q, hqQ, rfl⟩ := List.mem_map.1 ht
    exact hQ.ends q hqQ
  have heps : (0 : ℝ) < 1 / 10 ^ 8 := by norm_num
  have hded : dedupe lib.noise s.z = ts.map fun t => [polar A t, polar B t] := by
    rw [hz]
    apply dedupe_identity A B hrad lib.noise ts hsorted
    intro a ha b hb
    have := htsr a ha; have := htsr b hb
    linarith
  set f : ℝ → List (ℂ × Bool × ℝ) := fun t => [(polar A t, true, 1), (polar B t, true, -1)] with hf
  have hstack : stack (dedupe lib.noise s.z) s.mask s.parity = ts.map f := by
    rw [hded, hmk, hpar]
    unfold stack
    rw [List.zipWith_map, List.zipWith_self, List.zipWith_map, List.zipWith_self]
    rfl
  -- the gaps
  have hgap : ts.IsChain fun a b => b - a ≤ h := by
    rw [List.isChain_iff_getElem]
    intro i hi
    have hi1 : i < ts.length := by omega
    have hQi : i < Q.length := by rw [hts] at hi1; simpa using hi1
    have hlt := List.pairwise_iff_getElem.1 hsorted i (i + 1) hi1 hi (by omega)
    have hmem : ts[i] ∈ ts := List.getElem_mem hi1
    have hti : ts[i] = (Q[i]).1 := by simp [hts]
    have hlast : (Q[i]).1 < Real.pi - 1 / 10 ^ 8 := by
      rw [← hti]
      exact hlt.trans_le (htsr _ (List.getElem_mem hi)).2
    obtain ⟨q', hq', h1, h2⟩ := hQ.gaps _ (List.getElem_mem hQi) hlast
    have hq't : q'.1 ∈ ts := List.mem_map_of_mem hq'
    obtain ⟨j, hj, hje⟩ := List.getElem_of_mem hq't
    rw [← hje, ← hti] at h1 h2
    have hij : i < j := by
      by_contra hc
      rcases Nat.lt_or_ge j i with hji | hji
      · exact absurd (List.pairwise_iff_getElem.1 hsorted j i hj hi1 hji) (not_lt.2 h1.le)
      · have : j = i := by omega
        subst this; exact lt_irrefl _ h1
    have : ts[i + 1] ≤ ts[j] := by
      rcases Nat.lt_or_ge (i + 1) j with hc | hc
      · exact (List.pairwise_iff_getElem.1 hsorted (i + 1) j hi hj hc).le
      · have : j = i + 1 := by omega
        subst this; exact le_rfl
    rw [hh]; linarith
  have hcos : ts.IsChain fun a b => 1 / 2 ≤ Real.cos (b - a) := by
    have hlt : ts.IsChain fun a b => a < b := hsorted.isChain
    rw [List.isChain_iff_getElem] at hgap hlt ⊢
    intro i hi
    rw [← Real.cos_pi_div_three]
    have h1 := hgap i hi
    have h2 := hlt i hi
    exact Real.cos_le_cos_of_nonneg_of_le_pi (by linarith) (by linarith) (by linarith)
  have hcols : limbColumns lib 1 p 0 rho npts_limb = ts.map f := by
    have : limbColumns lib 1 p 0 rho npts_limb
        = permuteImages (stack (dedupe lib.noise s.z) s.mask s.parity) := by
      rfl
    rw [this, hstack]
    exact permute_identity A B hrad f (fun t => rfl) ts hcos
  -- the two rows
  have hne : ts ≠ [] := by
    obtain ⟨q, hq', _⟩ := hQ.hasFirst
    exact List.ne_nil_of_mem (List.mem_map_of_mem hq')
  have hfirst : ts.headD 0 = -Real.pi := by
    obtain ⟨q, hqQ, hqe⟩ := hQ.hasFirst
    have hqt : -Real.pi ∈ ts := by rw [← hqe]; exact List.mem_map_of_mem hqQ
    obtain ⟨a, l, he⟩ := List.exists_cons_of_ne_nil hne
    rw [he] at hqt hsorted htsr ⊢
    rcases List.mem_cons.1 hqt with h1 | h1
    · rw [h1]; rfl
    · have := (List.pairwise_cons.1 hsorted).1 _ h1
      have := (htsr a (by simp)).1
      linarith
  have hlast : ts.getLastD 0 = Real.pi - 1 / 10 ^ 8 := by
    obtain ⟨q, hqQ, hqe⟩ := hQ.hasLast
    have hqt : Real.pi - 1 / 10 ^ 8 ∈ ts := by rw [← hqe]; exact List.mem_map_of_mem hqQ
    obtain ⟨l, a, he⟩ : ∃ l a, ts = l ++ [a] := ⟨ts.dropLast, ts.getLast hne, (List.dropLast_append_getLast hne).symm⟩
    rw [he] at hqt hsorted htsr ⊢
    rw [List.getLastD_concat]
    rcases List.mem_append.1 hqt with h1 | h1
    · have := (List.pairwise_append.1 hsorted).2.2 _ h1 a (by simp)
      have := (htsr a (by simp)).2
      linarith
    · rw [List.mem_singleton] at h1; exact h1.symm
  set sg := ((List.range (ts.length - 1)).map fun i => Real.sin (ts.getD (i + 1) 0 - ts.getD i 0)).sum with hsg
  have hval := two_tracks ts hne A B rho
  rw [← hsg] at hval
  have hABS : A ^ 2 - B ^ 2 = rho ^ 2 * S := by rw [hA, hB]; ring
  have hSpos : 0 < S := by rw [hS]; positivity
  obtain ⟨hub, hlb⟩ := sine_sum ts h hne hsorted hgap
  rw [← hsg, hfirst, hlast] at hub hlb
  have hh6 : h ^ 2 / 6 < 1 := by nlinarith
  have hsg0 : 0 ≤ sg := by
    refine le_trans ?_ hlb
    apply mul_nonneg
    · norm_num; linarith [Real.pi_gt_three]
    · linarith
  have hv : |A ^ 2 / 2 * sg * 1 + (B ^ 2 / 2 * sg * (-1) + 0)| / (Real.pi * rho ^ 2) = S * (sg / (2 * Real.pi)) := by
    have e : A ^ 2 / 2 * sg * 1 + (B ^ 2 / 2 * sg * (-1) + 0) = rho ^ 2 * S * sg / 2 := by
      rw [← hABS]; ring
    rw [e, abs_of_nonneg (by positivity)]
    field_simp
  refine ⟨S * (sg / (2 * Real.pi)), ?_, ?_, ?_⟩
  · unfold magExtendedSource
    rw [if_pos (Or.inl rfl)]
    have hw : extSource 1 u 0 = 0 := by simp [extSource]
    simp only [hw, if_true, Bool.false_eq_true, if_false]
    rw [hcols, hval, hv]
  · have : sg / (2 * Real.pi) ≤ 1 := by
      rw [div_le_one (by positivity)]; linarith
    nlinarith
  · have : 1 - h ^ 2 / 6 - 1 / 10 ^ 8 ≤ sg / (2 * Real.pi) := by
      rw [le_div_iff₀ (by positivity)]
      have h1 : (Real.pi - 1 / 10 ^ 8 - -Real.pi) * (1 - h ^ 2 / 6)
          = 2 * Real.pi * (1 - h ^ 2 / 6) - 1 / 10 ^ 8 * (1 - h ^ 2 / 6) := by ring
      have h2 : 1 / 10 ^ 8 * (1 - h ^ 2 / 6) ≤ 1 / 10 ^ 8 * 1 :=
        mul_le_mul_of_nonneg_left (by nlinarith [sq_nonneg h]) heps.le
      have h3 : 1 / 10 ^ 8 * 1 ≤ (1 / 10 ^ 8 : ℝ) * (2 * Real.pi) :=
        mul_le_mul_of_nonneg_left (by linarith [Real.pi_gt_three]) heps.le
      nlinarith
    exact mul_le_mul_of_nonneg_left this hSpos.le

/-- a source of radius 1 with the default 300 limb samples: whatever the library does, the value is below `√5` and off by
less than 4 parts in 10^4 -/
example (lib : Lib) (u : UserParams) :
    ∃ v, magExtendedSource lib 1 300 100 false u 0 1 0 = .ok v ∧ v ≤ Real.sqrt 5 ∧
      Real.sqrt 5 * (1 - 4 / 10 ^ 4) ≤ v := by
  obtain ⟨v, h1, h2, h3⟩ := C78_disc_centre lib 300 100 u 0 1 (by norm_num) (by norm_num) (by norm_num)
  have e : (1 : ℝ) + 4 / 1 ^ 2 = 5 := by norm_num
  rw [e] at h2 h3
  refine ⟨v, h1, h2, le_trans ?_ h3⟩
  apply mul_le_mul_of_nonneg_left _ (Real.sqrt_nonneg 5)
  have hc : ((300 / 2 - 1 : ℕ) : ℝ) = 149 := by norm_num
  rw [hc]
  have hpi := Real.pi_pos
  have hpi4 : Real.pi < 3.15 := Real.pi_lt_d2
  have : (2 * Real.pi / 149) ^ 2 ≤ (2 * 3.15 / 149) ^ 2 := by
    apply pow_le_pow_left₀ (by positivity)
    apply div_le_div_of_nonneg_right _ (by norm_num)
    linarith
  norm_num at this ⊢
  linarith

/-! ## C08: the lenses of the contour method -/

/-- C08, contour method, two lenses: `mag_extended_source(w0, rho, nlenses=2, s, q)` uses, after shifting the frame by the same amount as
the source, exactly the binary of separation `s` and mass ratio `q` with its centre of mass at the origin. -/
theorem C08_contour_binary (u : UserParams) (w0 : ℂ) (hq : 1 + u.q ≠ 0) :
    (midBinary (extParams 2 u)).map (fun l => (l.1, l.2 + (w0 - extSource 2 u w0))) = binary u.s u.q := by
  have h1 : extParams 2 u = midParams2 u := by simp [extParams, midParams2]
  have h2 : w0 - extSource 2 u w0 = (xCM u : ℂ) := by simp [extSource, xCM]
  rw [h1, h2]
  exact (C08_binary_frame u hq).1

/-- C08 fails for three lenses whenever there is a third lens: the masses that `mag_extended_source` lenses with are
`q : 1 - q3 : 2 q3`, not `q : 1 : q3`; the configuration is not the triple that `mag_point_source` and the other entry
points use for the same arguments (`C08_triple_frame`). -/
theorem C08_contour_triple_violated (u : UserParams) (w0 : ℂ) (hq : 1 + u.q + u.q3 ≠ 0) (hq3 : u.q3 ≠ 0) :
    (midTriple (extParams 3 u)).map (fun l => l.1)
      = [u.q / (1 + u.q + u.q3), (1 - u.q3) / (1 + u.q + u.q3), 2 * u.q3 / (1 + u.q + u.q3)] ∧
    (midTriple (extParams 3 u)).map (fun l => (l.1, l.2 + (w0 - extSource 3 u w0)))
      ≠ triple u.s u.q u.q3 u.r3 u.psi := by
  have h1 : (midTriple (extParams 3 u)).map (fun l => l.1)
      = [u.q / (1 + u.q + u.q3), (1 - u.q3) / (1 + u.q + u.q3), 2 * u.q3 / (1 + u.q + u.q3)] := by
    simp only [midTriple, extParams, List.map_cons, List.map_nil]
    norm_num
    field_simp
    ring
  refine ⟨h1, ?_⟩
  intro h
  have h2 := congrArg (List.map fun l => l.1) h
  rw [List.map_map] at h2
  have h3 : (List.map (fun l : ℝ × ℂ => l.1) (midTriple (extParams 3 u)))
      = (triple u.s u.q u.q3 u.r3 u.psi).map fun l => l.1 := h2
  rw [h1] at h3
  simp only [triple, List.map_cons, List.map_nil, List.cons.injEq, and_true, true_and] at h3
  obtain ⟨-, h4⟩ := h3
  rw [div_left_inj' hq] at h4
  apply hq3
  linarith

/-- C08, contour method, what remains: without a third mass (`q3 = 0`) the triple's configuration is the right one. -/
theorem C08_contour_triple_partial (u : UserParams) (w0 : ℂ) (hq : 1 + u.q ≠ 0) (hq3 : u.q3 = 0) :
    (midTriple (extParams 3 u)).map (fun l => (l.1, l.2 + (w0 - extSource 3 u w0)))
      = triple u.s u.q u.q3 u.r3 u.psi := by
  have h1 : extParams 3 u = midParams3 u := by simp [extParams, midParams3, hq3]
  have h2 : w0 - extSource 3 u w0 = (xCM u : ℂ) := by simp [extSource, xCM]
  rw [h1, h2]
  exact (C08_triple_frame u hq (by rw [hq3]; simpa using hq)).1

/-- a triple with `q = 1/2`, `q3 = 1/2`: equal lighter lenses, masses should be `1/4, 1/2, 1/4`, but are `1/4, 1/4, 1/2` -/
example : (midTriple (extParams 3 { s := 1, q := 1 / 2, q3 := 1 / 2, r3 := 1, psi := 0 })).map (fun l => l.1)
    = [1 / 4, 1 / 4, 1 / 2] := by
  rw [(C08_contour_triple_violated _ 0 (by norm_num) (by norm_num)).1]
  norm_num

end Microjax.Props
