import Verif.Props.Tangent

/-!
# C122: gradient of `mag_limb_dark` with respect to the limb-darkening coefficient

The rule of `Is_limb_1st` has the wrong sign in the derivative of the normalisation `3/π/(3-u1)`.  The tangent that
`mag_limb_dark` reports in the direction of `u1` is therefore not the derivative of the value: it is smaller by `2/(3-u1)` times
the magnification.
-/

noncomputable section

namespace Microjax.Props

open Complex ComplexConjugate Spec PointSource Boundary ExtendedSource Differentiated Filter
open scoped Topology

/-- A pair that does not move. -/
def Still (x : Dual) : Prop := x.d = 0

theorem still_const (c : ℝ) : Still (Dual.const c) := rfl

theorem Still.add {x y : Dual} (hx : Still x) (hy : Still y) : Still (x + y) := by
  simp only [Still, dual_add_d] at *; rw [hx, hy]; ring

theorem Still.sub {x y : Dual} (hx : Still x) (hy : Still y) : Still (x - y) := by
  simp only [Still, dual_sub_d] at *; rw [hx, hy]; ring

theorem Still.mul {x y : Dual} (hx : Still x) (hy : Still y) : Still (x * y) := by
  simp only [Still, dual_mul_d] at *; rw [hx, hy]; ring

theorem Still.div {x y : Dual} (hx : Still x) (hy : Still y) : Still (x / y) := by
  simp only [Still, dual_div_d] at *; rw [hx, hy]; ring

theorem Still.maximum {x y : Dual} (hx : Still x) (hy : Still y) : Still (Dual.maximum x y) := by
  simp only [Still, Dual.maximum] at *; rw [hx, hy]; simp

theorem Still.minimum {x y : Dual} (hx : Still x) (hy : Still y) : Still (Dual.minimum x y) := by
  simp only [Still, Dual.minimum] at *; rw [hx, hy]; simp

theorem Still.clip01 {x : Dual} (hx : Still x) : Still x.clip01 := (hx.maximum (still_const 0)).minimum (still_const 1)

theorem still_choose (m : ℝ) (l : List Dual) (h : ∀ x ∈ l, Still x) : Still (Dual.choose m l) := by
  simp only [Still, Dual.choose]
  rw [List.sum_eq_zero, zero_div]
  intro d hd
  obtain ⟨x, hx, rfl⟩ := List.mem_map.mp hd
  exact h x (List.mem_of_mem_filter hx)

theorem Still.inSource {x y : Dual} (hx : Still x) (hy : Still y) : Still (inSourceD x y) := by
  simp only [Still, inSourceD, inSourceJvp] at *; rw [hx, hy]; ring

theorem Still.facB {x y : Dual} (hx : Still x) : Still (calcFacBD x y) := by
  simp only [Still, calcFacBD, calcFacBJvp] at *; rw [hx]; ring

theorem still_node {a b : Dual} (ha : Still a) (hb : Still b) (n i : ℕ) : Still (nodeD a b n i) :=
  ha.add ((still_const _).mul ((hb.sub ha).div (still_const _)))

theorem still_linspace {a b : Dual} (ha : Still a) (hb : Still b) (n : ℕ) : ∀ x ∈ linspaceD a b n, Still x := by
  intro x hx
  rw [linspaceD_eq] at hx
  obtain ⟨i, -, rfl⟩ := List.mem_map.mp hx
  exact still_node ha hb n i

theorem still_get (l : List Dual) (h : ∀ x ∈ l, Still x) (i : ℕ) : Still (Jnp.get (Dual.const 0) l i) := by
  rcases get_mem_or l i with hm | hm
  · exact h _ hm
  · rw [hm]; exact still_const 0

theorem still_cubic {x : Dual} (hx : Still x) (d0 d1 d2 d3 : List Dual) (h0 : ∀ y ∈ d0, Still y) (h1 : ∀ y ∈ d1, Still y)
    (h2 : ∀ y ∈ d2, Still y) (h3 : ∀ y ∈ d3, Still y) : ∀ e ∈ cubicInterpArrayD x d0 d1 d2 d3, Still e := by
  intro e he
  simp only [cubicInterpArrayD] at he
  obtain ⟨⟨⟨c0, c1⟩, ⟨c2, c3⟩⟩, hc, rfl⟩ := List.mem_map.mp he
  obtain ⟨hc01, hc23⟩ := List.of_mem_zip hc
  obtain ⟨k0, k1⟩ := List.of_mem_zip hc01
  obtain ⟨k2, k3⟩ := List.of_mem_zip hc23
  have s0 := h0 _ k0
  have s1 := h1 _ k1
  have s2 := h2 _ k2
  have s3 := h3 _ k3
  have hall : ∀ y ∈ d0 ++ d1 ++ d2 ++ d3, Still y := by
    intro y hy
    simp only [List.mem_append] at hy
    rcases hy with ((h | h) | h) | h
    · exact h0 y h
    · exact h1 y h
    · exact h2 y h
    · exact h3 y h
  have hlo : Still (Dual.amin (d0 ++ d1 ++ d2 ++ d3)) := still_choose _ _ hall
  have hhi : Still (Dual.amax (d0 ++ d1 ++ d2 ++ d3)) := still_choose _ _ hall
  have hep := still_const zeroTerm
  have hsc := (hhi.sub hlo).maximum hep
  have hat : ∀ {y : Dual}, Still y → Still ((y - Dual.amin (d0 ++ d1 ++ d2 ++ d3)) /
      Dual.maximum (Dual.amax (d0 ++ d1 ++ d2 ++ d3) - Dual.amin (d0 ++ d1 ++ d2 ++ d3)) (Dual.const zeroTerm)) :=
    fun hy => (hy.sub hlo).div hsc
  have l0 := ((((hat hx).sub (hat s1)).mul ((hat hx).sub (hat s2))).mul ((hat hx).sub (hat s3))).div
    (((((hat s0).sub (hat s1)).add hep).mul (((hat s0).sub (hat s2)).add hep)).mul (((hat s0).sub (hat s3)).add hep))
  have l1 := ((((hat hx).sub (hat s0)).mul ((hat hx).sub (hat s2))).mul ((hat hx).sub (hat s3))).div
    (((((hat s1).sub (hat s0)).add hep).mul (((hat s1).sub (hat s2)).add hep)).mul (((hat s1).sub (hat s3)).add hep))
  have l2 := ((((hat hx).sub (hat s0)).mul ((hat hx).sub (hat s1))).mul ((hat hx).sub (hat s3))).div
    (((((hat s2).sub (hat s0)).add hep).mul (((hat s2).sub (hat s1)).add hep)).mul (((hat s2).sub (hat s3)).add hep))
  have l3 := ((((hat hx).sub (hat s0)).mul ((hat hx).sub (hat s1))).mul ((hat hx).sub (hat s2))).div
    (((((hat s3).sub (hat s0)).add hep).mul (((hat s3).sub (hat s1)).add hep)).mul (((hat s3).sub (hat s2)).add hep))
  exact ((((still_const 0).mul l0).add ((still_const 1).mul l1)).add ((still_const 2).mul l2)).add ((still_const 3).mul l3)

/-- The lens parameters do not move. -/
def noMotion : UserParams := { s := 0, q := 0 }

theorem still_rayDistance (nlenses : ℕ) (u : UserParams) (w : ℂ) {r th : Dual} (hr : Still r) (hth : Still th) :
    Still (rayDistanceD nlenses u noMotion w 0 r th) := by
  simp only [Still] at hr hth
  simp [Still, rayDistanceD, hr, hth, noMotion, xCMTangent, lensEq3Tangent, lensEq2Tangent, lensTermTangent,
    midParams2Tangent, midParams3Tangent, r3ComplexTangent]

/-- Along the curve `X` the tangent at `x` falls short of the derivative of the value by `2/(3-x)` times the value. -/
def Lacks (X : ℝ → Dual) (x : ℝ) : Prop :=
  ∃ D' : ℝ, HasDerivAt (fun t => (X t).v) D' x ∧ D' - (X x).d = 2 / (3 - x) * (X x).v

variable {X Y : ℝ → Dual} {x : ℝ}

theorem lacks_zero {c : Dual} (h : c.v = 0) (hc : Still c) : Lacks (fun _ => c) x :=
  ⟨0, hasDerivAt_const _ _, by rw [show c.d = 0 from hc, h]; ring⟩

theorem Lacks.add (hX : Lacks X x) (hY : Lacks Y x) : Lacks (fun t => X t + Y t) x := by
  obtain ⟨A, hA, eA⟩ := hX
  obtain ⟨B, hB, eB⟩ := hY
  refine ⟨A + B, hA.fun_add hB, ?_⟩
  rw [dual_add_d, dual_add_v]
  linear_combination eA + eB

theorem Lacks.mul_left (hX : Lacks X x) {c : Dual} (hc : Still c) : Lacks (fun t => c * X t) x := by
  obtain ⟨A, hA, eA⟩ := hX
  refine ⟨c.v * A, hA.const_mul c.v, ?_⟩
  rw [dual_mul_d, dual_mul_v, show c.d = 0 from hc]
  linear_combination c.v * eA

theorem Lacks.mul_right (hX : Lacks X x) {c : Dual} (hc : Still c) : Lacks (fun t => X t * c) x := by
  obtain ⟨A, hA, eA⟩ := hX
  refine ⟨A * c.v, hA.mul_const c.v, ?_⟩
  rw [dual_mul_d, dual_mul_v, show c.d = 0 from hc]
  linear_combination c.v * eA

theorem Lacks.div_right (hX : Lacks X x) {c : Dual} (hc : Still c) : Lacks (fun t => X t / c) x := by
  obtain ⟨A, hA, eA⟩ := hX
  refine ⟨A / c.v, hA.div_const c.v, ?_⟩
  rw [dual_div_d, dual_div_v, show c.d = 0 from hc]
  linear_combination eA / c.v

theorem lacks_sum {α : Type*} (L : List α) (f : α → ℝ → Dual) (h : ∀ c ∈ L, Lacks (f c) x) :
    Lacks (fun t => Dual.sum (L.map fun c => f c t)) x := by
  induction L with
  | nil => exact lacks_zero (c := Dual.sum []) (by simp [Dual.sum]) (by simp [Still, Dual.sum])
  | cons c L ih =>
    have := (h c (by simp)).add (ih fun c' hc' => h c' (by simp [hc']))
    obtain ⟨A, hA, eA⟩ := this
    refine ⟨A, ?_, ?_⟩
    · simpa [Dual.sum, dual_add_v] using hA
    · simpa [Dual.sum, dual_add_v, dual_add_d] using eA

theorem lacks_foldl {α : Type*} (L : List α) (f : α → ℝ → Dual) (c : ℝ → Dual) (hc : Lacks c x)
    (h : ∀ a ∈ L, Lacks (f a) x) : Lacks (fun t => L.foldl (fun carry a => carry + f a t) (c t)) x := by
  induction L generalizing c with
  | nil => exact hc
  | cons a L ih =>
    exact ih (fun t => c t + f a t) (hc.add (h a (by simp))) fun b hb => h b (by simp [hb])

theorem lacks_limb (d : Dual) (hd : Still d) (h0 : 0 ≤ x) (h1 : x ≤ 1) : Lacks (fun t => isLimb1stD d ⟨t, 1⟩) x := by
  obtain ⟨D', hD, he, -⟩ := C35_profile_u1_violated d.v x h0 h1 (0, 0)
  refine ⟨D', hD, ?_⟩
  have h3 : 3 - x ≠ 0 := by linarith
  have hpi := Real.pi_ne_zero
  have e1 : (isLimb1stD d ⟨x, 1⟩).d = (isLimb1stJvp (d.v, x) (0, 1)).2 := by
    simp only [isLimb1stD, show d.d = 0 from hd]
  rw [e1, he]
  simp only [isLimb1stD, isLimb1stJvp]
  field_simp
  ring

theorem lacks_cell {i1 i2 i3 f1 f2 d rho delta_c r : Dual} (s1 : Still i1) (s2 : Still i2) (s3 : Still i3) (k1 : Still f1)
    (k2 : Still f2) (sd : Still d) (hrho : Still rho) (hr : Still r) (h0 : 0 ≤ x) (h1 : x ≤ 1) :
    Lacks (fun t => r * cellWeightLDD i1 i2 i3 f1 f2 (isLimb1stD (d / rho) ⟨t, 1⟩) delta_c) x := by
  have hB := lacks_limb (d / rho) (sd.div hrho) h0 h1
  have o := still_const 1
  have fb1 : Still (calcFacBD (Dual.clip01 (Dual.const 2 - f1) + Dual.const zeroTerm) delta_c) :=
    (((still_const 2).sub k1).clip01.add (still_const zeroTerm)).facB
  have fb2 : Still (calcFacBD (Dual.clip01 (f2 - Dual.const 1) + Dual.const zeroTerm) delta_c) :=
    ((k2.sub o).clip01.add (still_const zeroTerm)).facB
  exact (((hB.mul_right ((s1.mul s2).mul s3)).add ((hB.mul_right fb1).mul_right (((o.sub s1).mul s2).mul s3))).add
    ((hB.mul_right fb2).mul_right ((s1.mul s2).mul (o.sub s3)))).mul_left hr

theorem lacks_ring (distances : List Dual) (hdist : ∀ d ∈ distances, Still d) {rho delta_c r0 dth : Dual} (hrho : Still rho)
    (hr : Still r0) (hdth : Still dth) (h0 : 0 ≤ x) (h1 : x ≤ 1) (dist : Dual → Dual) (th : List Dual) (hth : th.map dist = distances)
    (hd : dth = Jnp.get (Dual.const 0) th 1 - Jnp.get (Dual.const 0) th 0) :
    Lacks (fun t => processRLDD dist rho ⟨t, 1⟩ delta_c r0 th) x := by
  have hin : ∀ y ∈ distances.map (fun d => inSourceD d rho), Still y := by
    intro y hy
    obtain ⟨d, hd, rfl⟩ := List.mem_map.mp hy
    exact (hdist d hd).inSource hrho
  have hsl : ∀ i j, ∀ y ∈ slice i j distances, Still y := fun i j y hy => hdist y (mem_of_slice _ _ _ _ hy)
  obtain ⟨ins, hins⟩ : ∃ l, l = distances.map fun d => inSourceD d rho := ⟨_, rfl⟩
  rw [← hins] at hin
  have hsi : ∀ i j, ∀ y ∈ slice i j ins, Still y := fun i j y hy => hin y (mem_of_slice _ _ _ _ hy)
  obtain ⟨e1, he1⟩ : ∃ l, l = cubicInterpArrayD rho (slice 0 4 distances) (slice 1 3 distances) (slice 2 2 distances)
    (slice 3 1 distances) := ⟨_, rfl⟩
  obtain ⟨e2, he2⟩ : ∃ l, l = cubicInterpArrayD rho (slice 1 3 distances) (slice 2 2 distances) (slice 3 1 distances)
    (slice 4 0 distances) := ⟨_, rfl⟩
  have hs1 : ∀ y ∈ e1, Still y := he1 ▸ still_cubic hrho _ _ _ _ (hsl 0 4) (hsl 1 3) (hsl 2 2) (hsl 3 1)
  have hs2 : ∀ y ∈ e2, Still y := he2 ▸ still_cubic hrho _ _ _ _ (hsl 1 3) (hsl 2 2) (hsl 3 1) (hsl 4 0)
  have heq : (fun t => processRLDD dist rho ⟨t, 1⟩ delta_c r0 th) = fun t =>
      Dual.sum (((((slice 1 3 ins).zip (slice 2 2 ins)).zip ((slice 3 1 ins).zip (slice 2 2 distances))).zip (e1.zip e2)).map
        fun c => r0 * dth * cellWeightLDD c.1.1.1 c.1.1.2 c.1.2.1 c.2.1 c.2.2 (isLimb1stD (c.1.2.2 / rho) ⟨t, 1⟩) delta_c) := by
    funext t
    simp only [processRLDD, hth, ← hd, ← hins, ← he1, ← he2]
    rw [slice_map (fun d => isLimb1stD (d / rho) ⟨t, 1⟩) 2 2 distances, List.zip_map_right, List.zip_map_right, List.zip_map_left,
      List.map_map]
    refine congrArg Dual.sum (List.map_congr_left ?_)
    rintro ⟨⟨⟨i1, i2⟩, ⟨i3, d⟩⟩, ⟨f1, f2⟩⟩ -
    rfl
  have hcell : ∀ c ∈ (((slice 1 3 ins).zip (slice 2 2 ins)).zip ((slice 3 1 ins).zip (slice 2 2 distances))).zip (e1.zip e2),
      Lacks (fun t => r0 * dth * cellWeightLDD c.1.1.1 c.1.1.2 c.1.2.1 c.2.1 c.2.2 (isLimb1stD (c.1.2.2 / rho) ⟨t, 1⟩) delta_c)
        x := by
    rintro ⟨⟨⟨i1, i2⟩, ⟨i3, d⟩⟩, ⟨f1, f2⟩⟩ hc
    obtain ⟨ha, hb⟩ := List.of_mem_zip hc
    obtain ⟨hb1, hb2⟩ := List.of_mem_zip hb
    obtain ⟨hp, hq⟩ := List.of_mem_zip ha
    obtain ⟨hp1, hp2⟩ := List.of_mem_zip hp
    obtain ⟨hq1, hq2⟩ := List.of_mem_zip hq
    have s1 := hsi 1 3 _ hp1
    have s2 := hsi 2 2 _ hp2
    have s3 := hsi 3 1 _ hq1
    have sd := hsl 2 2 _ hq2
    have k1 := hs1 _ hb1
    have k2 := hs2 _ hb2
    exact lacks_cell (r := r0 * dth) s1 s2 s3 k1 k2 sd hrho (hr.mul hdth) h0 h1
  rw [heq]
  exact lacks_sum _ _ hcell

/-- A region that does not move. -/
def fixedRegion (R : (ℝ × ℝ) × (ℝ × ℝ)) : (Dual × Dual) × (Dual × Dual) :=
  ((Dual.const R.1.1, Dual.const R.1.2), (Dual.const R.2.1, Dual.const R.2.2))

/-- **C122** (violated): in the direction of `u1` the tangent of `mag_limb_dark` is not the derivative of the value that it
reports: it falls short of it by `2/(3-u1)` times the value. -/
theorem C122_u1_violated (nlenses : ℕ) (u : UserParams) (w : ℂ) (rho delta_c u1 : ℝ) (h0 : 0 ≤ u1) (h1 : u1 ≤ 1)
    (hrho : 0 < rho) (regions : List ((ℝ × ℝ) × (ℝ × ℝ))) (N M : ℕ) :
    ∃ D' : ℝ, HasDerivAt (fun t => (magLimbDarkD nlenses u noMotion w 0 (Dual.const rho) ⟨t, 1⟩ (Dual.const delta_c) N M
        (regions.map fixedRegion)).v) D' u1 ∧
      (magLimbDarkD nlenses u noMotion w 0 (Dual.const rho) ⟨u1, 1⟩ (Dual.const delta_c) N M (regions.map fixedRegion)).d =
        D' - 2 / (3 - u1) * (magLimbDarkD nlenses u noMotion w 0 (Dual.const rho) ⟨u1, 1⟩ (Dual.const delta_c) N M
          (regions.map fixedRegion)).v ∧
      (2 ≤ N → 5 ≤ M → regions ≠ [] → (∀ R ∈ regions, 0 ≤ R.1.1 ∧ R.1.1 < R.1.2 ∧ R.2.1 < R.2.2) →
        (magLimbDarkD nlenses u noMotion w 0 (Dual.const rho) ⟨u1, 1⟩ (Dual.const delta_c) N M (regions.map fixedRegion)).d
          < D') := by
  have hr := still_const rho
  have hrange : ∀ R ∈ regions.map fixedRegion, Lacks (fun t => computeForRangeLDD (rayDistanceD nlenses u noMotion w 0)
      (Dual.const rho) ⟨t, 1⟩ (Dual.const delta_c) N M R) u1 := by
    intro R hR
    obtain ⟨R, -, rfl⟩ := List.mem_map.mp hR
    have hrv := still_linspace (still_const R.1.1) (still_const R.1.2) N
    have htv := still_linspace (still_const R.2.1) (still_const R.2.2) M
    simp only [computeForRangeLDD, fixedRegion]
    refine Lacks.mul_left (lacks_sum _ (fun r t => processRLDD (rayDistanceD nlenses u noMotion w 0 r) (Dual.const rho) ⟨t, 1⟩
      (Dual.const delta_c) r _) fun r hr' => ?_) ((still_get _ hrv 1).sub (still_get _ hrv 0))
    refine lacks_ring _ (fun d hd => ?_) hr (hrv r hr') ((still_get _ htv 1).sub (still_get _ htv 0)) h0 h1 _ _ rfl rfl
    obtain ⟨θ, hθ, rfl⟩ := List.mem_map.mp hd
    exact still_rayDistance nlenses u w (hrv r hr') (htv θ hθ)
  have hall := (lacks_foldl _ _ (fun _ => Dual.const 0) (lacks_zero rfl rfl) hrange).div_right (hr.mul hr)
  obtain ⟨D', hD, he⟩ := hall
  refine ⟨D', hD, ?_, ?_⟩
  · simp only [magLimbDarkD]
    linarith
  · intro hN hM hne hreg
    have hpos : 0 < (magLimbDarkD nlenses u noMotion w 0 (Dual.const rho) ⟨u1, 1⟩ (Dual.const delta_c) N M
        (regions.map fixedRegion)).v := by
      simp only [magLimbDarkD, dual_div_v, dual_mul_v, foldl_add_v, List.map_map]
      refine div_pos ?_ (mul_pos hrho hrho)
      rw [show (Dual.const 0).v = 0 from rfl, zero_add]
      refine List.sum_pos _ (fun y hy => ?_) (by simpa using hne)
      obtain ⟨R, hR, rfl⟩ := List.mem_map.mp hy
      obtain ⟨k1, k2, k3⟩ := hreg R hR
      obtain ⟨e1, e2, hv⟩ := computeForRangeLDD_v (rayDistanceD nlenses u noMotion w 0) (rayDistance nlenses u w)
        (rayDistanceD_v nlenses u noMotion w 0) (Dual.const rho) ⟨u1, 1⟩ (Dual.const delta_c) (Dual.const R.1.1)
        (Dual.const R.1.2) (Dual.const R.2.1) (Dual.const R.2.2) N M hN (by omega)
      simp only [Function.comp_apply, fixedRegion, hv]
      exact double_sum_pos _ _ _ _ k1 k2 k3 N M 4 hN (by omega) (by omega) _ fun i j =>
        cellWeightLD_pos _ _ _ _ _ _ _ (softIn_mem _ _) (softIn_mem _ _) (softIn_mem _ _) (softLimb_pos _ _ h0 h1)
    have : 0 < 2 / (3 - u1) := by apply div_pos <;> linarith
    have := mul_pos this hpos
    simp only [magLimbDarkD] at this ⊢
    linarith

/-- A case for `C122_u1_violated`: the Sun-like coefficient `u1 = 1/2`, an equal-mass binary, an annulus. -/
example : (0 : ℝ) ≤ 1 / 2 ∧ (1 / 2 : ℝ) ≤ 1 ∧ [(((1 / 2 : ℝ), (3 / 2 : ℝ)), ((0 : ℝ), 2 * Real.pi))] ≠ [] ∧
    ∀ R ∈ [(((1 / 2 : ℝ), (3 / 2 : ℝ)), ((0 : ℝ), 2 * Real.pi))], 0 ≤ R.1.1 ∧ R.1.1 < R.1.2 ∧ R.2.1 < R.2.2 := by
  refine ⟨by norm_num, by norm_num, by simp, ?_⟩
  intro R hR
  rw [List.mem_singleton.mp hR]
  exact ⟨by norm_num, by norm_num, by simp [Real.pi_pos]⟩

end Microjax.Props
