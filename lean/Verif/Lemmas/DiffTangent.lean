import Verif.Lemmas.DiffValue
import Verif.Props.Boundary
import Verif.Lemmas.Jnp
import Mathlib.Analysis.Calculus.Deriv.Inv

/-! Rules for the tangents of `Verif/Model/Differentiated`: each operation preserves "the tangent is the derivative of the value". -/

namespace Microjax.Props

open Filter Topology Jnp PointSource Boundary ExtendedSource Differentiated

noncomputable section

/-- Along the curve `X` of pairs the tangent at `s` is the derivative of the value. -/
def Tracks (X : ℝ → Dual) (s : ℝ) : Prop := HasDerivAt (fun t => (X t).v) (X s).d s

variable {X Y : ℝ → Dual} {s : ℝ}

theorem Tracks.cont (h : Tracks X s) : ContinuousAt (fun t => (X t).v) s := HasDerivAt.continuousAt h

theorem tracks_const (c : ℝ) : Tracks (fun _ => Dual.const c) s := hasDerivAt_const s c

theorem Tracks.add (hX : Tracks X s) (hY : Tracks Y s) : Tracks (fun t => X t + Y t) s := HasDerivAt.fun_add hX hY

theorem Tracks.sub (hX : Tracks X s) (hY : Tracks Y s) : Tracks (fun t => X t - Y t) s := HasDerivAt.fun_sub hX hY

theorem Tracks.mul (hX : Tracks X s) (hY : Tracks Y s) : Tracks (fun t => X t * Y t) s := HasDerivAt.fun_mul hX hY

theorem Tracks.div (hX : Tracks X s) (hY : Tracks Y s) (h0 : (Y s).v ≠ 0) : Tracks (fun t => X t / Y t) s := by
  refine (HasDerivAt.fun_div hX hY h0).congr_deriv ?_
  rw [dual_div_d]
  field_simp

theorem Tracks.maximum (hX : Tracks X s) (hY : Tracks Y s) (hne : (X s).v ≠ (Y s).v) :
    Tracks (fun t => Dual.maximum (X t) (Y t)) s := by
  rcases lt_or_gt_of_ne hne with h | h
  · have hev : ∀ᶠ t in 𝓝 s, (X t).v < (Y t).v := hX.cont.eventually_lt hY.cont h
    refine (HasDerivAt.congr_of_eventuallyEq hY ?_).congr_deriv ?_
    · filter_upwards [hev] with t ht
      exact max_eq_right ht.le
    · simp [Dual.maximum, h, h.not_gt]
  · have hev : ∀ᶠ t in 𝓝 s, (Y t).v < (X t).v := hY.cont.eventually_lt hX.cont h
    refine (HasDerivAt.congr_of_eventuallyEq hX ?_).congr_deriv ?_
    · filter_upwards [hev] with t ht
      exact max_eq_left ht.le
    · simp [Dual.maximum, h]

theorem Tracks.minimum (hX : Tracks X s) (hY : Tracks Y s) (hne : (X s).v ≠ (Y s).v) :
    Tracks (fun t => Dual.minimum (X t) (Y t)) s := by
  rcases lt_or_gt_of_ne hne with h | h
  · have hev : ∀ᶠ t in 𝓝 s, (X t).v < (Y t).v := hX.cont.eventually_lt hY.cont h
    refine (HasDerivAt.congr_of_eventuallyEq hX ?_).congr_deriv ?_
    · filter_upwards [hev] with t ht
      exact min_eq_left ht.le
    · simp [Dual.minimum, h]
  · have hev : ∀ᶠ t in 𝓝 s, (Y t).v < (X t).v := hY.cont.eventually_lt hX.cont h
    refine (HasDerivAt.congr_of_eventuallyEq hY ?_).congr_deriv ?_
    · filter_upwards [hev] with t ht
      exact min_eq_right ht.le
    · simp [Dual.minimum, h, h.not_gt]

theorem Tracks.clip01 (hX : Tracks X s) (h0 : (X s).v ≠ 0) (h1 : (X s).v ≠ 1) : Tracks (fun t => (X t).clip01) s := by
  refine (hX.maximum (tracks_const 0) h0).minimum (tracks_const 1) ?_
  simp only [Dual.maximum, Dual.const]
  rcases max_cases (X s).v 0 with ⟨h, -⟩ | ⟨h, -⟩ <;> rw [h]
  · exact h1
  · norm_num

theorem Tracks.inSource (hX : Tracks X s) (hY : Tracks Y s) (h0 : (Y s).v ≠ 0) : Tracks (fun t => inSourceD (X t) (Y t)) s :=
  C35_in_source (fun t => (X t).v) (fun t => (Y t).v) _ _ s hX hY h0 (0, 0)

theorem tracks_sum (cs : List (ℝ → Dual)) (h : ∀ c ∈ cs, Tracks c s) : Tracks (fun t => Dual.sum (cs.map fun c => c t)) s := by
  induction cs with
  | nil => simpa [Tracks, Dual.sum] using hasDerivAt_const s (0 : ℝ)
  | cons c cs ih =>
    have h1 := h c (by simp)
    have h2 := ih fun c' hc' => h c' (by simp [hc'])
    simp only [Tracks, Dual.sum, List.map_cons, List.sum_cons, List.map_map] at h1 h2 ⊢
    exact HasDerivAt.fun_add h1 h2

theorem choose_same (m : ℝ) (l : List Dual) (x : Dual) (hx : x ∈ l) (hm : x.v = m) (h : ∀ y ∈ l, y.v = m → y = x) :
    (Dual.choose m l).d = x.d := by
  classical
  simp only [Dual.choose]
  set f := l.filter fun y => y.v = m with hf
  have hmem : x ∈ f := by simp [hf, hx, hm]
  have hall : ∀ y ∈ f, y = x := fun y hy => by
    simp only [hf, List.mem_filter, decide_eq_true_eq] at hy
    exact h y hy.1 hy.2
  have hrep : f = List.replicate f.length x := List.eq_replicate_iff.mpr ⟨rfl, hall⟩
  have hpos : (f.length : ℝ) ≠ 0 := by
    have := List.length_pos_of_mem hmem
    positivity
  have hfe : (List.filter (fun x => decide (x.v = m)) l) = f := by rw [hf]
  have hsum : (f.map Dual.d).sum = f.length * x.d := by
    rw [hrep]
    simp
  rw [show (List.map Dual.d f).sum = f.length * x.d from hsum]
  field_simp

theorem eventually_list {α : Type*} (cs : List α) (p : ℝ → α → Prop) (h : ∀ c ∈ cs, ∀ᶠ t in 𝓝 s, p t c) :
    ∀ᶠ t in 𝓝 s, ∀ c ∈ cs, p t c := by
  induction cs with
  | nil => simp
  | cons c cs ih =>
    filter_upwards [h c (by simp), ih fun c' hc' => h c' (by simp [hc'])] with t h1 h2 c' hc'
    rcases List.mem_cons.mp hc' with rfl | h'
    · exact h1
    · exact h2 c' h'

theorem tracks_amin (cs : List (ℝ → Dual)) (h : ∀ c ∈ cs, Tracks c s) (c0 : ℝ → Dual) (h0 : c0 ∈ cs)
    (hmin : ∀ c ∈ cs, c = c0 ∨ (c0 s).v < (c s).v) :
    Tracks (fun t => Dual.amin (cs.map fun c => c t)) s ∧ (Dual.amin (cs.map fun c => c s)).v = (c0 s).v := by
  have hev : ∀ᶠ t in 𝓝 s, ∀ c ∈ cs, (c0 t).v ≤ (c t).v := by
    refine eventually_list cs _ fun c hc => ?_
    rcases hmin c hc with rfl | hlt
    · exact Eventually.of_forall fun t => le_rfl
    · filter_upwards [(h c0 h0).cont.eventually_lt (h c hc).cont hlt] with t ht
      exact ht.le
  have hval : ∀ t, (∀ c ∈ cs, (c0 t).v ≤ (c t).v) → (Dual.amin (cs.map fun c => c t)).v = (c0 t).v := by
    intro t ht
    simp only [Dual.amin, Dual.choose, List.map_map]
    have hne : (cs.map (Dual.v ∘ fun c => c t)) ≠ [] := by
      simpa using List.ne_nil_of_mem h0
    refine le_antisymm (Jnp.amin_le (List.mem_map.mpr ⟨c0, h0, rfl⟩)) ?_
    obtain ⟨c, hc, he⟩ := List.mem_map.mp (Jnp.amin_mem hne)
    rw [← he]
    exact ht c hc
  have hs := hval s hev.self_of_nhds
  refine ⟨(HasDerivAt.congr_of_eventuallyEq (h c0 h0) ?_).congr_deriv ?_, hs⟩
  · filter_upwards [hev] with t ht
    exact hval t ht
  · refine (choose_same _ _ (c0 s) (List.mem_map.mpr ⟨c0, h0, rfl⟩) hs.symm fun y hy hyv => ?_).symm
    obtain ⟨c, hc, rfl⟩ := List.mem_map.mp hy
    rcases hmin c hc with rfl | hlt
    · rfl
    · exact absurd (hyv.trans hs) hlt.ne'

theorem tracks_amax (cs : List (ℝ → Dual)) (h : ∀ c ∈ cs, Tracks c s) (c0 : ℝ → Dual) (h0 : c0 ∈ cs)
    (hmax : ∀ c ∈ cs, c = c0 ∨ (c s).v < (c0 s).v) :
    Tracks (fun t => Dual.amax (cs.map fun c => c t)) s ∧ (Dual.amax (cs.map fun c => c s)).v = (c0 s).v := by
  have hev : ∀ᶠ t in 𝓝 s, ∀ c ∈ cs, (c t).v ≤ (c0 t).v := by
    refine eventually_list cs _ fun c hc => ?_
    rcases hmax c hc with rfl | hlt
    · exact Eventually.of_forall fun t => le_rfl
    · filter_upwards [(h c hc).cont.eventually_lt (h c0 h0).cont hlt] with t ht
      exact ht.le
  have hval : ∀ t, (∀ c ∈ cs, (c t).v ≤ (c0 t).v) → (Dual.amax (cs.map fun c => c t)).v = (c0 t).v := by
    intro t ht
    simp only [Dual.amax, Dual.choose, List.map_map]
    have hne : (cs.map (Dual.v ∘ fun c => c t)) ≠ [] := by
      simpa using List.ne_nil_of_mem h0
    refine le_antisymm ?_ (Jnp.le_amax (List.mem_map.mpr ⟨c0, h0, rfl⟩))
    obtain ⟨c, hc, he⟩ := List.mem_map.mp (Jnp.amax_mem hne)
    rw [← he]
    exact ht c hc
  have hs := hval s hev.self_of_nhds
  refine ⟨(HasDerivAt.congr_of_eventuallyEq (h c0 h0) ?_).congr_deriv ?_, hs⟩
  · filter_upwards [hev] with t ht
    exact hval t ht
  · refine (choose_same _ _ (c0 s) (List.mem_map.mpr ⟨c0, h0, rfl⟩) hs.symm fun y hy hyv => ?_).symm
    obtain ⟨c, hc, rfl⟩ := List.mem_map.mp hy
    rcases hmax c hc with rfl | hlt
    · rfl
    · exact absurd (hyv.trans hs) hlt.ne

/-- The denominators of the cubic through four distances do not vanish. -/
def SplitNodes (scale x0 x1 x2 x3 : ℝ) : Prop :=
  x0 - x1 + zeroTerm * scale ≠ 0 ∧ x0 - x2 + zeroTerm * scale ≠ 0 ∧ x0 - x3 + zeroTerm * scale ≠ 0 ∧
  x1 - x0 + zeroTerm * scale ≠ 0 ∧ x1 - x2 + zeroTerm * scale ≠ 0 ∧ x1 - x3 + zeroTerm * scale ≠ 0 ∧
  x2 - x0 + zeroTerm * scale ≠ 0 ∧ x2 - x1 + zeroTerm * scale ≠ 0 ∧ x2 - x3 + zeroTerm * scale ≠ 0 ∧
  x3 - x0 + zeroTerm * scale ≠ 0 ∧ x3 - x1 + zeroTerm * scale ≠ 0 ∧ x3 - x2 + zeroTerm * scale ≠ 0

theorem tracks_cubicCore {lo hi x x0 x1 x2 x3 : ℝ → Dual} (hlo : Tracks lo s) (hhi : Tracks hi s) (hx : Tracks x s)
    (h0 : Tracks x0 s) (h1 : Tracks x1 s) (h2 : Tracks x2 s) (h3 : Tracks x3 s)
    (hscale : zeroTerm < (hi s).v - (lo s).v)
    (hsplit : SplitNodes ((hi s).v - (lo s).v) (x0 s).v (x1 s).v (x2 s).v (x3 s).v) (y0 y1 y2 y3 : ℝ) :
    Tracks (fun t => cubicCoreD (lo t) (hi t) (Dual.const zeroTerm) (x t) (x0 t) (x1 t) (x2 t) (x3 t)
      (Dual.const y0) (Dual.const y1) (Dual.const y2) (Dual.const y3)) s := by
  have hz : 0 < zeroTerm := by unfold zeroTerm; positivity
  have hsc : Tracks (fun t => Dual.maximum (hi t - lo t) (Dual.const zeroTerm)) s :=
    (hhi.sub hlo).maximum (tracks_const _) hscale.ne'
  have hscv : (Dual.maximum (hi s - lo s) (Dual.const zeroTerm)).v = (hi s).v - (lo s).v := max_eq_left hscale.le
  have hsc0 : (Dual.maximum (hi s - lo s) (Dual.const zeroTerm)).v ≠ 0 := by rw [hscv]; linarith
  have hpos : (hi s).v - (lo s).v ≠ 0 := by linarith
  have hat : ∀ {y : ℝ → Dual}, Tracks y s →
      Tracks (fun t => (y t - lo t) / Dual.maximum (hi t - lo t) (Dual.const zeroTerm)) s := fun hy =>
    (hy.sub hlo).div hsc hsc0
  have hden : ∀ {y z : ℝ → Dual}, (y s).v - (z s).v + zeroTerm * ((hi s).v - (lo s).v) ≠ 0 →
      ((y s - lo s) / Dual.maximum (hi s - lo s) (Dual.const zeroTerm)
        - (z s - lo s) / Dual.maximum (hi s - lo s) (Dual.const zeroTerm) + Dual.const zeroTerm).v ≠ 0 := by
    intro y z h
    rw [dual_add_v, dual_sub_v, dual_div_v, dual_div_v, hscv, dual_sub_v, dual_sub_v, show (Dual.const zeroTerm).v = zeroTerm from rfl]
    intro h'
    apply h
    field_simp at h'
    linear_combination h'
  have hep := tracks_const (s := s) zeroTerm
  obtain ⟨a01, a02, a03, a10, a12, a13, a20, a21, a23, a30, a31, a32⟩ := hsplit
  have t0 := (((hat hx).sub (hat h1)).mul ((hat hx).sub (hat h2))).mul ((hat hx).sub (hat h3))
  have d0 := ((((hat h0).sub (hat h1)).add hep).mul (((hat h0).sub (hat h2)).add hep)).mul (((hat h0).sub (hat h3)).add hep)
  have t1 := (((hat hx).sub (hat h0)).mul ((hat hx).sub (hat h2))).mul ((hat hx).sub (hat h3))
  have d1 := ((((hat h1).sub (hat h0)).add hep).mul (((hat h1).sub (hat h2)).add hep)).mul (((hat h1).sub (hat h3)).add hep)
  have t2 := (((hat hx).sub (hat h0)).mul ((hat hx).sub (hat h1))).mul ((hat hx).sub (hat h3))
  have d2 := ((((hat h2).sub (hat h0)).add hep).mul (((hat h2).sub (hat h1)).add hep)).mul (((hat h2).sub (hat h3)).add hep)
  have t3 := (((hat hx).sub (hat h0)).mul ((hat hx).sub (hat h1))).mul ((hat hx).sub (hat h2))
  have d3 := ((((hat h3).sub (hat h0)).add hep).mul (((hat h3).sub (hat h1)).add hep)).mul (((hat h3).sub (hat h2)).add hep)
  have l0 := t0.div d0 (mul_ne_zero (mul_ne_zero (hden a01) (hden a02)) (hden a03))
  have l1 := t1.div d1 (mul_ne_zero (mul_ne_zero (hden a10) (hden a12)) (hden a13))
  have l2 := t2.div d2 (mul_ne_zero (mul_ne_zero (hden a20) (hden a21)) (hden a23))
  have l3 := t3.div d3 (mul_ne_zero (mul_ne_zero (hden a30) (hden a31)) (hden a32))
  exact ((((tracks_const y0).mul l0).add ((tracks_const y1).mul l1)).add ((tracks_const y2).mul l2)).add
    ((tracks_const y3).mul l3)

theorem cubicCoreD_v (lo hi e x x0 x1 x2 x3 y0 y1 y2 y3 : Dual) : (cubicCoreD lo hi e x x0 x1 x2 x3 y0 y1 y2 y3).v =
    cubicCore lo.v hi.v e.v x.v x0.v x1.v x2.v x3.v y0.v y1.v y2.v y3.v := rfl

theorem tracks_cellWeight {a b e : ℝ → Dual} (ha : Tracks a s) (hb : Tracks b s) (he : Tracks e s) (h1 : (e s).v ≠ 1)
    (h2 : (e s).v ≠ 2) : Tracks (fun t => cellWeightD (a t) (b t) (e t)) s := by
  have c1 := (he.sub (tracks_const 1)).clip01 (by simpa [dual_sub_v, Dual.const, sub_eq_zero] using h1)
    (by simp only [dual_sub_v, Dual.const]; intro h; exact h2 (by linarith))
  have c2 := ((tracks_const 2).sub he).clip01 (by simp only [dual_sub_v, Dual.const]; intro h; exact h2 (by linarith))
    (by simp only [dual_sub_v, Dual.const]; intro h; exact h1 (by linarith))
  exact (ha.mul hb).add (((ha.mul ((tracks_const 1).sub hb)).mul c1).add ((((tracks_const 1).sub ha).mul hb).mul c2))

theorem slice_map {α β : Type*} (f : α → β) (i j : ℕ) (l : List α) : slice i j (l.map f) = (slice i j l).map f := by
  simp [slice, List.map_take, List.map_drop]

/-- What excludes ties and vanishing denominators on a ring with distances `d`: one smallest and one largest distance, four
neighbouring distances that the cubic can separate, no crossing estimated exactly at a sample. -/
def GenericRing (rho : ℝ) (d : ℕ → ℝ) (M : ℕ) : Prop :=
  ∃ m < M, ∃ n < M, (∀ i < M, i ≠ m → d m < d i) ∧ (∀ i < M, i ≠ n → d i < d n) ∧ zeroTerm < d n - d m ∧
    ∀ k, k + 3 < M → SplitNodes (d n - d m) (d k) (d (k + 1)) (d (k + 2)) (d (k + 3)) ∧
      cubicCore (d m) (d n) zeroTerm rho (d k) (d (k + 1)) (d (k + 2)) (d (k + 3)) 0 1 2 3 ≠ 1 ∧
      cubicCore (d m) (d n) zeroTerm rho (d k) (d (k + 1)) (d (k + 2)) (d (k + 3)) 0 1 2 3 ≠ 2

/-- The sum over the cells of a ring, given the distances. -/
def ringSum (distances : List Dual) (rho r0 dth : Dual) : Dual :=
  let in_num := distances.map fun d => inSourceD d rho
  let th_est := cubicInterpArrayD rho (slice 0 3 distances) (slice 1 2 distances) (slice 2 1 distances)
    (slice 3 0 distances)
  Dual.sum ((((slice 1 2 in_num).zip (slice 2 1 in_num)).zip th_est).map
    fun c => r0 * dth * cellWeightD c.1.1 c.1.2 c.2)

theorem mem_slices {α : Type*} (l : List α) (i : ℕ) (hl : 4 ≤ l.length) (hi : i < l.length) :
    l[i] ∈ slice 0 3 l ++ slice 1 2 l ++ slice 2 1 l ++ slice 3 0 l := by
  have hmem : ∀ a b, a ≤ i → i + b < l.length → l[i] ∈ slice a b l := by
    intro a b h1 h2
    refine List.mem_iff_getElem.mpr ⟨i - a, by rw [length_slice]; omega, ?_⟩
    rw [getElem_slice]
    congr 1
    omega
  simp only [List.mem_append]
  by_cases h : i + 3 < l.length
  · exact Or.inl (Or.inl (Or.inl (hmem 0 3 (by omega) h)))
  by_cases h' : i + 2 < l.length
  · exact Or.inl (Or.inl (Or.inr (hmem 1 2 (by omega) h')))
  by_cases h'' : i + 1 < l.length
  · exact Or.inl (Or.inr (hmem 2 1 (by omega) h''))
  · exact Or.inr (hmem 3 0 (by omega) (by omega))

theorem mem_of_slice {α : Type*} (l : List α) (i j : ℕ) (x : α) (h : x ∈ slice i j l) : x ∈ l :=
  List.mem_of_mem_drop (List.mem_of_mem_take h)

theorem tracks_ring (D : ℕ → ℝ → Dual) {rho r0 dth : ℝ → Dual} (M : ℕ) (hM : 4 ≤ M) (hD : ∀ i < M, Tracks (D i) s)
    (hrho : Tracks rho s) (hrho0 : (rho s).v ≠ 0) (hr : Tracks r0 s) (hdth : Tracks dth s)
    (hg : GenericRing (rho s).v (fun i => (D i s).v) M) :
    Tracks (fun t => ringSum ((List.range M).map fun i => D i t) (rho t) (r0 t) (dth t)) s := by
  obtain ⟨m, hm, n, hn, hmin, hmax, hscale, hcell⟩ := hg
  set cs : List (ℝ → Dual) := (List.range M).map D with hcs
  have hlen : cs.length = M := by simp [hcs]
  have hget : ∀ i (h : i < cs.length), cs[i] = D i := fun i h => by simp [hcs]
  set all := slice 0 3 cs ++ slice 1 2 cs ++ slice 2 1 cs ++ slice 3 0 cs with hall
  have hsub : ∀ c ∈ all, ∃ i < M, c = D i := by
    intro c hc
    have : c ∈ cs := by
      simp only [hall, List.mem_append] at hc
      rcases hc with ((h | h) | h) | h <;> exact mem_of_slice _ _ _ _ h
    simp only [hcs, List.mem_map, List.mem_range] at this
    obtain ⟨i, hi, rfl⟩ := this
    exact ⟨i, hi, rfl⟩
  have hin : ∀ i < M, D i ∈ all := fun i hi => by
    have := mem_slices cs i (by omega) (by omega)
    rwa [hget] at this
  have hallT : ∀ c ∈ all, Tracks c s := fun c hc => by
    obtain ⟨i, hi, rfl⟩ := hsub c hc
    exact hD i hi
  obtain ⟨hlo, hlov⟩ := tracks_amin all hallT (D m) (hin m hm) fun c hc => by
    obtain ⟨i, hi, rfl⟩ := hsub c hc
    by_cases h : i = m
    · exact Or.inl (by rw [h])
    · exact Or.inr (hmin i hi h)
  obtain ⟨hhi, hhiv⟩ := tracks_amax all hallT (D n) (hin n hn) fun c hc => by
    obtain ⟨i, hi, rfl⟩ := hsub c hc
    by_cases h : i = n
    · exact Or.inl (by rw [h])
    · exact Or.inr (hmax i hi h)
  set ins : List (ℝ → Dual) := cs.map fun c t => inSourceD (c t) (rho t) with hins
  set E : List (ℝ → Dual) := (((slice 0 3 cs).zip (slice 1 2 cs)).zip ((slice 2 1 cs).zip (slice 3 0 cs))).map fun c t =>
    cubicCoreD (Dual.amin (all.map fun c => c t)) (Dual.amax (all.map fun c => c t)) (Dual.const zeroTerm) (rho t)
      (c.1.1 t) (c.1.2 t) (c.2.1 t) (c.2.2 t) (Dual.const 0) (Dual.const 1) (Dual.const 2) (Dual.const 3) with hE
  set F : List (ℝ → Dual) := (((slice 1 2 ins).zip (slice 2 1 ins)).zip E).map fun c t =>
    r0 t * dth t * cellWeightD (c.1.1 t) (c.1.2 t) (c.2 t) with hF
  have heq : (fun t => ringSum ((List.range M).map fun i => D i t) (rho t) (r0 t) (dth t)) =
      fun t => Dual.sum (F.map fun c => c t) := by
    funext t
    have e1 : ((List.range M).map fun i => D i t) = cs.map fun c => c t := by
      rw [hcs, List.map_map]; rfl
    have e2 : (cs.map fun c => c t).map (fun d => inSourceD d (rho t)) = ins.map fun c => c t := by
      simp only [hins, List.map_map]; rfl
    have e3 : cubicInterpArrayD (rho t) (slice 0 3 (cs.map fun c => c t)) (slice 1 2 (cs.map fun c => c t))
        (slice 2 1 (cs.map fun c => c t)) (slice 3 0 (cs.map fun c => c t)) = E.map fun c => c t := by
      simp only [cubicInterpArrayD, slice_map, ← List.map_append, List.zip_map, List.map_map]
      rw [hE, List.map_map]
      rfl
    simp only [ringSum]
    rw [e1, e2, e3, slice_map (fun c : ℝ → Dual => c t) 1 2 ins, slice_map (fun c : ℝ → Dual => c t) 2 1 ins, List.zip_map, List.zip_map, List.map_map, hF, List.map_map]
    rfl
  rw [heq]
  refine tracks_sum F fun c hc => ?_
  obtain ⟨k, hk, rfl⟩ := List.mem_iff_getElem.mp hc
  have hk' : k + 3 < M := by
    simp only [hF, hE, hins, List.length_map, List.length_zip, length_slice, hlen] at hk
    omega
  simp only [hF, hE, hins, List.getElem_map, List.getElem_zip, getElem_slice, hget]
  obtain ⟨hsplit, h1, h2⟩ := hcell k hk'
  have i1 : 1 + k = k + 1 := by omega
  have i2 : 2 + k = k + 2 := by omega
  have i3 : 3 + k = k + 3 := by omega
  simp only [i1, i2, i3, Nat.zero_add]
  have hest := tracks_cubicCore hlo hhi hrho (hD k (by omega)) (hD (k + 1) (by omega)) (hD (k + 2) (by omega))
    (hD (k + 3) (by omega)) (by rw [hlov, hhiv]; exact hscale) (by rw [hlov, hhiv]; exact hsplit) 0 1 2 3
  refine (hr.mul hdth).mul (tracks_cellWeight ((hD (k + 1) (by omega)).inSource hrho hrho0)
    ((hD (k + 2) (by omega)).inSource hrho hrho0) hest ?_ ?_)
  · rw [cubicCoreD_v, hlov, hhiv]; exact h1
  · rw [cubicCoreD_v, hlov, hhiv]; exact h2

/-- The node of `linspace`. -/
def nodeD (a b : Dual) (n i : ℕ) : Dual := a + Dual.const i * ((b - a) / Dual.const ((n : ℝ) - 1))

theorem linspaceD_eq (a b : Dual) (n : ℕ) : linspaceD a b n = (List.range n).map (nodeD a b n) := rfl

theorem tracks_node {a b : ℝ → Dual} (ha : Tracks a s) (hb : Tracks b s) (n i : ℕ) (hn : 2 ≤ n) :
    Tracks (fun t => nodeD (a t) (b t) n i) s := by
  have hn' : (2 : ℝ) ≤ n := by exact_mod_cast hn
  exact ha.add ((tracks_const _).mul ((hb.sub ha).div (tracks_const _) (by simp only [Dual.const]; linarith)))

theorem nodeD_v (a b : Dual) (n i : ℕ) : (nodeD a b n i).v = node a.v b.v n i := by
  simp [nodeD, spacing, node, dual_add_v, dual_mul_v, dual_div_v, dual_sub_v, Dual.const]

theorem get_linspaceD (a b : Dual) (n i : ℕ) (hi : i < n) : Jnp.get (Dual.const 0) (linspaceD a b n) i = nodeD a b n i := by
  rw [Jnp.get, length_linspaceD, min_eq_left (by omega), linspaceD_eq, List.getD_eq_getElem _ _ (by simpa using hi)]
  simp

theorem processRD_ring (dist : Dual → Dual) (rho r0 α β : Dual) (M : ℕ) (hM : 2 ≤ M) :
    processRD dist rho r0 (linspaceD α β M) = ringSum ((List.range M).map fun j => dist (nodeD α β M j)) rho r0
      (nodeD α β M 1 - nodeD α β M 0) := by
  simp only [processRD, get_linspaceD α β M 1 (by omega), get_linspaceD α β M 0 (by omega), ringSum]
  rw [linspaceD_eq, List.map_map (f := nodeD α β M)]
  rfl

theorem tracks_range (dist : ℝ → Dual → Dual → Dual) {rho a b α β : ℝ → Dual} (N M : ℕ) (hN : 2 ≤ N) (hM : 4 ≤ M)
    (ha : Tracks a s) (hb : Tracks b s) (hα : Tracks α s) (hβ : Tracks β s)
    (hdist : ∀ i < N, ∀ j < M, Tracks (fun t => dist t (nodeD (a t) (b t) N i) (nodeD (α t) (β t) M j)) s)
    (hrho : Tracks rho s) (hrho0 : (rho s).v ≠ 0)
    (hg : ∀ i < N, GenericRing (rho s).v (fun j => (dist s (nodeD (a s) (b s) N i) (nodeD (α s) (β s) M j)).v) M) :
    Tracks (fun t => computeForRangeD (dist t) (rho t) N M ((a t, b t), (α t, β t))) s := by
  have hstep : Tracks (fun t => nodeD (α t) (β t) M 1 - nodeD (α t) (β t) M 0) s :=
    (tracks_node hα hβ M 1 (by omega)).sub (tracks_node hα hβ M 0 (by omega))
  have hrow : ∀ i < N, Tracks (fun t => processRD (dist t (nodeD (a t) (b t) N i)) (rho t) (nodeD (a t) (b t) N i)
      (linspaceD (α t) (β t) M)) s := by
    intro i hi
    simp only [processRD_ring _ _ _ _ _ M (by omega)]
    exact tracks_ring (fun j t => dist t (nodeD (a t) (b t) N i) (nodeD (α t) (β t) M j)) M hM (hdist i hi) hrho hrho0
      (tracks_node ha hb N i hN) hstep (hg i hi)
  have hsum := tracks_sum ((List.range N).map fun i t => processRD (dist t (nodeD (a t) (b t) N i)) (rho t)
    (nodeD (a t) (b t) N i) (linspaceD (α t) (β t) M)) (s := s) (fun c hc => by
      simp only [List.mem_map, List.mem_range] at hc
      obtain ⟨i, hi, rfl⟩ := hc
      exact hrow i hi)
  have hdr : Tracks (fun t => nodeD (a t) (b t) N 1 - nodeD (a t) (b t) N 0) s :=
    (tracks_node ha hb N 1 hN).sub (tracks_node ha hb N 0 hN)
  have hall := hdr.mul hsum
  have heq : (fun t => computeForRangeD (dist t) (rho t) N M ((a t, b t), (α t, β t))) = fun t =>
      (nodeD (a t) (b t) N 1 - nodeD (a t) (b t) N 0) * Dual.sum (((List.range N).map fun i t =>
        processRD (dist t (nodeD (a t) (b t) N i)) (rho t) (nodeD (a t) (b t) N i) (linspaceD (α t) (β t) M)).map
          fun c => c t) := by
    funext t
    simp only [computeForRangeD, get_linspaceD (a t) (b t) N 1 (by omega), get_linspaceD (a t) (b t) N 0 (by omega)]
    rw [linspaceD_eq (a t), List.map_map, List.map_map]
    rfl
  rw [heq]
  exact hall

end

end Microjax.Props
