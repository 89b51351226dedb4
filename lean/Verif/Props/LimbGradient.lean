import Verif.Props.LimbTangent

/-!
# C123: gradient of `mag_limb_dark` with respect to everything but `u1`

The rules of `Is_limb_1st` (which keeps `d mu/d d` where `mu` is held fixed) and of `calc_facB` (slope 2/3 for every gap) are not
the derivatives of the values that they return.  The theorem gives the exact difference between the derivative of the reported
value and the reported tangent, for every path of lens parameters, source position, radius and regions.
-/

noncomputable section

namespace Microjax.Props

open Complex ComplexConjugate Spec PointSource Boundary ExtendedSource Differentiated Filter
open scoped Topology

variable {X Y : ℝ → Dual} {s e e' : ℝ}

/-- Along the curve `X` the derivative of the value at `s` is the tangent plus `e`. -/
def Off (X : ℝ → Dual) (s e : ℝ) : Prop := HasDerivAt (fun t => (X t).v) ((X s).d + e) s

theorem Tracks.off (h : Tracks X s) : Off X s 0 := by
  unfold Off; rw [add_zero]; exact h

theorem Off.add (hX : Off X s e) (hY : Off Y s e') : Off (fun t => X t + Y t) s (e + e') := by
  refine (HasDerivAt.fun_add hX hY).congr_deriv ?_
  rw [dual_add_d]; ring

theorem Off.mul (hX : Off X s e) (hY : Off Y s e') : Off (fun t => X t * Y t) s (e * (Y s).v + (X s).v * e') := by
  refine (HasDerivAt.fun_mul hX hY).congr_deriv ?_
  rw [dual_mul_d]; ring

theorem Off.div_right (hX : Off X s e) (hY : Tracks Y s) (h0 : (Y s).v ≠ 0) : Off (fun t => X t / Y t) s (e / (Y s).v) := by
  refine (HasDerivAt.fun_div hX hY h0).congr_deriv ?_
  rw [dual_div_d]
  field_simp
  ring

theorem off_sum {α : Type*} (L : List α) (f : α → ℝ → Dual) (g : α → ℝ) (h : ∀ c ∈ L, Off (f c) s (g c)) :
    Off (fun t => Dual.sum (L.map fun c => f c t)) s (L.map g).sum := by
  induction L with
  | nil => simpa [Off, Dual.sum] using hasDerivAt_const s (0 : ℝ)
  | cons c L ih =>
    have := (h c (by simp)).add (ih fun c' hc' => h c' (by simp [hc']))
    simpa [Off, Dual.sum, dual_add_v, dual_add_d] using this

theorem off_foldl {α : Type*} (L : List α) (f : α → ℝ → Dual) (g : α → ℝ) (c : ℝ → Dual) (hc : Off c s e)
    (h : ∀ a ∈ L, Off (f a) s (g a)) :
    Off (fun t => L.foldl (fun carry a => carry + f a t) (c t)) s (e + (L.map g).sum) := by
  induction L generalizing c e with
  | nil => simpa using hc
  | cons a L ih =>
    have := ih (fun t => c t + f a t) (hc.add (h a (by simp))) fun b hb => h b (by simp [hb])
    rw [List.map_cons, List.sum_cons, ← add_assoc]
    exact this

/-- Derivative minus tangent of `Is_limb_1st` at the normalised distance `x`: where `1 - x²` is below `1/1000` the code holds `mu`
fixed but keeps its derivative. -/
def profileGap (x : Dual) (u1 : ℝ) : ℝ :=
  if 1 / 1000 < 1 - x.v ^ 2 then 0
  else 3 / Real.pi / (3 - u1) * u1 * (x.v / Real.sqrt (1 / 1000)) * Real.sigmoid (100 * (1 - x.v)) * x.d

/-- Derivative minus tangent of `calc_facB` at the gap `δ`: above the threshold the slope is not 2/3. -/
def edgeGap (δ : Dual) (delta_c : ℝ) : ℝ :=
  if δ.v < delta_c then 0 else (2 / 3 * Real.sqrt (1 + 1 / 2 / δ.v) * (1 - 1 / (4 * δ.v)) - 2 / 3) * δ.d

theorem off_limb {x : ℝ → Dual} (hx : Tracks x s) (u1 : ℝ) (hne : 1 - (x s).v ^ 2 ≠ 1 / 1000) :
    Off (fun t => isLimb1stD (x t) (Dual.const u1)) s (profileGap (x s) u1) := by
  by_cases h : 1 / 1000 < 1 - (x s).v ^ 2
  · have h1 := C35_profile_distance_partial (fun t => (x t).v) (x s).d s u1 hx h (0, 0)
    unfold Off
    rw [profileGap, if_pos h, add_zero]
    exact h1
  · have hlt : 1 - (x s).v ^ 2 < 1 / 1000 := lt_of_le_of_ne (not_lt.mp h) hne
    have hx' : HasDerivAt (fun t => (x t).v) (x s).d s := hx
    have hsq : HasDerivAt (fun t => 1 - (x t).v ^ 2) (-(2 * (x s).v * (x s).d)) s := by
      simpa using (hx'.fun_pow 2).const_sub 1
    have hev : ∀ᶠ t in 𝓝 s, 1 - (x t).v ^ 2 < 1 / 1000 := hsq.continuousAt.eventually (gt_mem_nhds hlt)
    have hsig := (Real.hasDerivAt_sigmoid (100 * (1 - (x s).v))).comp s ((hx'.const_sub 1).const_mul 100)
    have hall := hsig.const_mul (3 / Real.pi / (3 - u1) * (1 - u1 * (1 - Real.sqrt (1 / 1000))))
    refine (hall.congr_of_eventuallyEq ?_).congr_deriv ?_
    · filter_upwards [hev] with t ht
      simp only [isLimb1stD, isLimb1stJvp, Dual.const, max_eq_left ht.le, Function.comp_apply]
    · simp only [isLimb1stD, isLimb1stJvp, Dual.const, max_eq_left hlt.le, Function.comp_apply, zero_mul, zero_add,
        profileGap, if_neg h]
      ring

theorem off_facB {δ : ℝ → Dual} (hδ : Tracks δ s) (delta_c : ℝ) (hpos : 0 < (δ s).v) (hne : (δ s).v ≠ delta_c) :
    Off (fun t => calcFacBD (δ t) (Dual.const delta_c)) s (edgeGap (δ s) delta_c) := by
  have hδ' : HasDerivAt (fun t => (δ t).v) (δ s).d s := hδ
  rcases lt_or_gt_of_ne hne with h | h
  · have h1 := C35_facB_partial (fun t => (δ t).v) (δ s).d s delta_c hδ h
    unfold Off
    rw [edgeGap, if_pos h, add_zero]
    exact h1
  · have hS : 0 < 1 + 1 / 2 / (δ s).v := by positivity
    have h1 : HasDerivAt (fun t => 1 + 1 / 2 / (δ t).v) (-(1 / 2 / (δ s).v ^ 2) * (δ s).d) s := by
      refine (((hasDerivAt_const s (1 / 2 : ℝ)).fun_div hδ' hpos.ne').const_add 1).congr_deriv ?_
      field_simp
      ring
    have h2 := ((h1.sqrt hS.ne').const_mul (2 / 3)).fun_mul (hδ'.const_add (1 / 2))
    refine (h2.congr_of_eventuallyEq ?_).congr_deriv ?_
    · filter_upwards [hδ'.continuousAt.eventually (lt_mem_nhds h)] with t ht
      simp only [calcFacBD, calcFacBJvp, calcFacB, Dual.const, gt_iff_lt, if_pos ht]
    · simp only [calcFacBD, calcFacBJvp, Dual.const, edgeGap, if_neg h.not_gt]
      set S := Real.sqrt (1 + 1 / 2 / (δ s).v) with hSdef
      have hS0 : 0 < S := Real.sqrt_pos.mpr hS
      have hSS : S ^ 2 = 1 + 1 / 2 / (δ s).v := Real.sq_sqrt hS.le
      have hk : (1 / 2 + (δ s).v) = (δ s).v * S ^ 2 := by rw [hSS]; field_simp; ring
      rw [hk]
      field_simp
      ring

/-- Width of a partial cell next to the first or the last sample of three. -/
def edge1 (th : Dual) : Dual := Dual.clip01 (Dual.const 2 - th) + Dual.const zeroTerm

def edge2 (th : Dual) : Dual := Dual.clip01 (th - Dual.const 1) + Dual.const zeroTerm

/-- Derivative minus tangent of the weight of one cell: three neighbouring rays with weights `in1`, `in2`, `in3`, crossings at
`th1`, `th2`, the middle ray at the normalised distance `x`. -/
def cellGap (in1 in2 in3 th1 th2 x : Dual) (u1 delta_c : ℝ) : ℝ :=
  profileGap x u1 * (in1.v * in2.v * in3.v + calcFacB (edge1 th1).v delta_c * ((1 - in1.v) * in2.v * in3.v)
      + calcFacB (edge2 th2).v delta_c * (in1.v * in2.v * (1 - in3.v)))
    + softLimb x.v u1 * (edgeGap (edge1 th1) delta_c * ((1 - in1.v) * in2.v * in3.v)
      + edgeGap (edge2 th2) delta_c * (in1.v * in2.v * (1 - in3.v)))

theorem clip01_minmax (x : Dual) : x.clip01.v = min (max x.v 0) 1 := rfl

theorem edge_pos (x : Dual) : 0 < (Dual.clip01 x + Dual.const zeroTerm).v := by
  have hz : 0 < zeroTerm := by unfold zeroTerm; positivity
  rw [dual_add_v, clip01_minmax]
  have : 0 ≤ min (max x.v 0) 1 := le_min (le_max_right _ _) zero_le_one
  simp only [Dual.const]
  linarith

/-- What excludes ties on a ring of the limb-darkened source: as for the uniform source, and no estimated gap is at the threshold of
`calc_facB`. -/
def GenericLimb (rho delta_c : ℝ) (d : ℕ → ℝ) (M : ℕ) : Prop :=
  ∃ m < M, ∃ n < M, (∀ i < M, i ≠ m → d m < d i) ∧ (∀ i < M, i ≠ n → d i < d n) ∧ zeroTerm < d n - d m ∧
    ∀ k, k + 3 < M → SplitNodes (d n - d m) (d k) (d (k + 1)) (d (k + 2)) (d (k + 3)) ∧
      ∀ est, est = cubicCore (d m) (d n) zeroTerm rho (d k) (d (k + 1)) (d (k + 2)) (d (k + 3)) 0 1 2 3 →
        est ≠ 1 ∧ est ≠ 2 ∧ min (max (2 - est) 0) 1 + zeroTerm ≠ delta_c ∧ min (max (est - 1) 0) 1 + zeroTerm ≠ delta_c

/-- An estimate of a crossing that the rules of the gaps can follow. -/
def GoodEst (E : ℝ → Dual) (s delta_c : ℝ) : Prop :=
  Tracks E s ∧ (E s).v ≠ 1 ∧ (E s).v ≠ 2 ∧ (edge1 (E s)).v ≠ delta_c ∧ (edge2 (E s)).v ≠ delta_c

theorem GoodEst.edge1 {E : ℝ → Dual} {delta_c : ℝ} (h : GoodEst E s delta_c) : Tracks (fun t => edge1 (E t)) s := by
  refine ((((tracks_const 2).sub h.1).clip01 ?_ ?_).add (tracks_const zeroTerm))
  · simp only [dual_sub_v, Dual.const]; intro h'; exact h.2.2.1 (by linarith)
  · simp only [dual_sub_v, Dual.const]; intro h'; exact h.2.1 (by linarith)

theorem GoodEst.edge2 {E : ℝ → Dual} {delta_c : ℝ} (h : GoodEst E s delta_c) : Tracks (fun t => edge2 (E t)) s := by
  refine (((h.1.sub (tracks_const 1)).clip01 ?_ ?_).add (tracks_const zeroTerm))
  · simp only [dual_sub_v, Dual.const]; intro h'; exact h.2.1 (by linarith)
  · simp only [dual_sub_v, Dual.const]; intro h'; exact h.2.2.1 (by linarith)

theorem off_cell {a b c E1 E2 x r : ℝ → Dual} (ha : Tracks a s) (hb : Tracks b s) (hc : Tracks c s) (u1 delta_c : ℝ)
    (h1 : GoodEst E1 s delta_c) (h2 : GoodEst E2 s delta_c) (hx : Tracks x s) (hne : 1 - (x s).v ^ 2 ≠ 1 / 1000)
    (hr : Tracks r s) :
    Off (fun t => r t * cellWeightLDD (a t) (b t) (c t) (E1 t) (E2 t) (isLimb1stD (x t) (Dual.const u1)) (Dual.const delta_c)) s
      ((r s).v * cellGap (a s) (b s) (c s) (E1 s) (E2 s) (x s) u1 delta_c) := by
  have hB := off_limb hx u1 hne
  have f1 := off_facB h1.edge1 delta_c (edge_pos _) h1.2.2.2.1
  have f2 := off_facB h2.edge2 delta_c (edge_pos _) h2.2.2.2.2
  have o := tracks_const (s := s) 1
  have hall := hr.off.mul (((hB.mul ((ha.mul hb).mul hc).off).add ((hB.mul f1).mul (((o.sub ha).mul hb).mul hc).off)).add
    ((hB.mul f2).mul ((ha.mul hb).mul (o.sub hc)).off))
  refine HasDerivAt.congr_deriv hall ?_
  refine congrArg₂ (· + ·) rfl ?_
  simp only [dual_mul_v, dual_sub_v, isLimb1stD_v, Dual.const, cellGap]
  simp only [calcFacBD, calcFacBJvp]
  ring

theorem tracks_est (D : ℕ → ℝ → Dual) {rho : ℝ → Dual} (M : ℕ) (hM : 4 ≤ M) (hD : ∀ i < M, Tracks (D i) s)
    (hrho : Tracks rho s) (delta_c : ℝ) (hg : GenericLimb (rho s).v delta_c (fun i => (D i s).v) M) :
    ∃ E : ℕ → ℝ → Dual, (∀ k, k + 3 < M → GoodEst (E k) s delta_c) ∧
      ∀ t L, L = ((List.range M).map fun i => D i t) → cubicInterpArrayD (rho t) (slice 0 3 L) (slice 1 2 L) (slice 2 1 L)
        (slice 3 0 L) = (List.range (M - 3)).map fun k => E k t := by
  obtain ⟨m, hm, n, hn, hmin, hmax, hscale, hcell⟩ := hg
  set cs : List (ℝ → Dual) := (List.range M).map D with hcs
  have hlen : cs.length = M := by simp [hcs]
  have hget : ∀ i (h : i < cs.length), cs[i] = D i := fun i h => by simp [hcs]
  set all := slice 0 3 cs ++ slice 1 2 cs ++ slice 2 1 cs ++ slice 3 0 cs with hall
  have hsub : ∀ c ∈ all, ∃ i < M, c = D i := by
    intro c hc
    have : c ∈ cs := by
      simp only [hall, List.mem_append] at hc
      rcases hc with ((h | h) | h) | h <;> exact mem_of_slice _ _ _ _ h
    simp only [hcs, List.mem_map, List.mem_range] at this
    obtain ⟨i, hi, rfl⟩ := this
    exact ⟨i, hi, rfl⟩
  have hin : ∀ i < M, D i ∈ all := fun i hi => by
    have := mem_slices cs i (by omega) (by omega)
    rwa [hget] at this
  have hallT : ∀ c ∈ all, Tracks c s := fun c hc => by
    obtain ⟨i, hi, rfl⟩ := hsub c hc
    exact hD i hi
  obtain ⟨hlo, hlov⟩ := tracks_amin all hallT (D m) (hin m hm) fun c hc => by
    obtain ⟨i, hi, rfl⟩ := hsub c hc
    by_cases h : i = m
    · exact Or.inl (by rw [h])
    · exact Or.inr (hmin i hi h)
  obtain ⟨hhi, hhiv⟩ := tracks_amax all hallT (D n) (hin n hn) fun c hc => by
    obtain ⟨i, hi, rfl⟩ := hsub c hc
    by_cases h : i = n
    · exact Or.inl (by rw [h])
    · exact Or.inr (hmax i hi h)
  refine ⟨fun k t => cubicCoreD (Dual.amin (all.map fun c => c t)) (Dual.amax (all.map fun c => c t)) (Dual.const zeroTerm)
      (rho t) (D k t) (D (k + 1) t) (D (k + 2) t) (D (k + 3) t) (Dual.const 0) (Dual.const 1) (Dual.const 2) (Dual.const 3),
    ?_, ?_⟩
  · intro k hk
    obtain ⟨hsplit, hest⟩ := hcell k hk
    have hT := tracks_cubicCore hlo hhi hrho (hD k (by omega)) (hD (k + 1) (by omega)) (hD (k + 2) (by omega))
      (hD (k + 3) (by omega)) (by rw [hlov, hhiv]; exact hscale) (by rw [hlov, hhiv]; exact hsplit) 0 1 2 3
    obtain ⟨h1, h2, h3, h4⟩ := hest _ rfl
    refine ⟨hT, ?_, ?_, ?_, ?_⟩
    · rw [cubicCoreD_v, hlov, hhiv]; exact h1
    · rw [cubicCoreD_v, hlov, hhiv]; exact h2
    · simp only [Props.edge1, dual_add_v, clip01_minmax, dual_sub_v, cubicCoreD_v, hlov, hhiv]; exact h3
    · simp only [Props.edge2, dual_add_v, clip01_minmax, dual_sub_v, cubicCoreD_v, hlov, hhiv]; exact h4
  · intro t L hL
    have e1 : L = cs.map fun c => c t := by
      rw [hL, hcs, List.map_map]; rfl
    rw [e1]
    simp only [cubicInterpArrayD, slice_map, ← List.map_append, List.zip_map, List.map_map]
    refine List.ext_getElem ?_ ?_
    · simp only [List.length_map, List.length_zip, length_slice, hlen, List.length_range]; omega
    · intro k hk1 hk2
      simp only [List.getElem_map, List.getElem_zip, getElem_slice, Function.comp, Prod.map, hget, List.getElem_range]
      have i1 : 1 + k = k + 1 := by omega
      have i2 : 2 + k = k + 2 := by omega
      have i3 : 3 + k = k + 3 := by omega
      simp only [i1, i2, i3, Nat.zero_add]
      rfl

theorem slice_front {α : Type*} (f : ℕ → α) (a b M : ℕ) :
    slice a (b + 1) ((List.range M).map f) = slice a b ((List.range (M - 1)).map f) := by
  refine List.ext_getElem ?_ ?_
  · simp only [length_slice, List.length_map, List.length_range]; omega
  · intro k h1 h2
    simp [getElem_slice]

theorem slice_back {α : Type*} (f : ℕ → α) (a b M : ℕ) :
    slice (a + 1) b ((List.range M).map f) = slice a b ((List.range (M - 1)).map fun i => f (i + 1)) := by
  refine List.ext_getElem ?_ ?_
  · simp only [length_slice, List.length_map, List.length_range]; omega
  · intro k h1 h2
    simp only [getElem_slice, List.getElem_map, List.getElem_range]
    congr 1
    omega

theorem cells_eq {α β γ : Type*} (A : ℕ → α) (B : ℕ → β) (e1 e2 : ℕ → γ) (M : ℕ) :
    (((slice 1 3 ((List.range M).map A)).zip (slice 2 2 ((List.range M).map A))).zip
      ((slice 3 1 ((List.range M).map A)).zip (slice 2 2 ((List.range M).map B)))).zip
      (((List.range (M - 4)).map e1).zip ((List.range (M - 4)).map e2)) =
    (List.range (M - 4)).map fun k => (((A (k + 1), A (k + 2)), (A (k + 3), B (k + 2))), (e1 k, e2 k)) := by
  refine List.ext_getElem ?_ ?_
  · simp only [List.length_zip, length_slice, List.length_map, List.length_range]; omega
  · intro k h1 h2
    simp only [List.getElem_zip, getElem_slice, List.getElem_map, List.getElem_range]
    rw [Nat.add_comm 1 k, Nat.add_comm 2 k, Nat.add_comm 3 k]

/-- The sum over the cells of a ring of the limb-darkened source, given the distances. -/
def ringSumLD (distances : List Dual) (rho r0 dth u1 delta_c : Dual) : Dual :=
  let in_num := distances.map fun d => inSourceD d rho
  let Is := distances.map fun d => isLimb1stD (d / rho) u1
  let th1 := cubicInterpArrayD rho (slice 0 4 distances) (slice 1 3 distances) (slice 2 2 distances) (slice 3 1 distances)
  let th2 := cubicInterpArrayD rho (slice 1 3 distances) (slice 2 2 distances) (slice 3 1 distances) (slice 4 0 distances)
  Dual.sum (((((slice 1 3 in_num).zip (slice 2 2 in_num)).zip ((slice 3 1 in_num).zip (slice 2 2 Is))).zip (th1.zip th2)).map
    fun c => r0 * dth * cellWeightLDD c.1.1.1 c.1.1.2 c.1.2.1 c.2.1 c.2.2 c.1.2.2 delta_c)

theorem processRLDD_ring (dist : Dual → Dual) (rho r0 u1 delta_c α β : Dual) (M : ℕ) (hM : 2 ≤ M) :
    processRLDD dist rho u1 delta_c r0 (linspaceD α β M) = ringSumLD ((List.range M).map fun j => dist (nodeD α β M j)) rho r0
      (nodeD α β M 1 - nodeD α β M 0) u1 delta_c := by
  simp only [processRLDD, get_linspaceD α β M 1 (by omega), get_linspaceD α β M 0 (by omega), ringSumLD]
  rw [linspaceD_eq, List.map_map (f := nodeD α β M)]
  rfl

/-- Derivative minus tangent of the sum over a ring with these distances, per unit of `r0 * dth`. -/
def ringGap (distances : List Dual) (rho : Dual) (u1 delta_c : ℝ) : ℝ :=
  let in_num := distances.map fun d => inSourceD d rho
  let th1 := cubicInterpArrayD rho (slice 0 4 distances) (slice 1 3 distances) (slice 2 2 distances) (slice 3 1 distances)
  let th2 := cubicInterpArrayD rho (slice 1 3 distances) (slice 2 2 distances) (slice 3 1 distances) (slice 4 0 distances)
  (((((slice 1 3 in_num).zip (slice 2 2 in_num)).zip ((slice 3 1 in_num).zip (slice 2 2 distances))).zip (th1.zip th2)).map
    fun c => cellGap c.1.1.1 c.1.1.2 c.1.2.1 c.2.1 c.2.2 (c.1.2.2 / rho) u1 delta_c).sum

theorem off_ring (D : ℕ → ℝ → Dual) {rho r0 dth : ℝ → Dual} (M : ℕ) (hM : 5 ≤ M) (hD : ∀ i < M, Tracks (D i) s)
    (hrho : Tracks rho s) (hrho0 : (rho s).v ≠ 0) (hr : Tracks r0 s) (hdth : Tracks dth s) (u1 delta_c : ℝ)
    (hg1 : GenericLimb (rho s).v delta_c (fun i => (D i s).v) (M - 1))
    (hg2 : GenericLimb (rho s).v delta_c (fun i => (D (i + 1) s).v) (M - 1))
    (hlimb : ∀ i < M, 1 - ((D i s).v / (rho s).v) ^ 2 ≠ 1 / 1000) :
    Off (fun t => ringSumLD ((List.range M).map fun i => D i t) (rho t) (r0 t) (dth t) (Dual.const u1) (Dual.const delta_c)) s
      ((r0 s).v * (dth s).v * ringGap ((List.range M).map fun i => D i s) (rho s) u1 delta_c) := by
  obtain ⟨E1, hE1, he1⟩ := tracks_est D (M - 1) (by omega) (fun i hi => hD i (by omega)) hrho delta_c hg1
  obtain ⟨E2, hE2, he2⟩ := tracks_est (fun i => D (i + 1)) (M - 1) (by omega) (fun i hi => hD (i + 1) (by omega)) hrho delta_c hg2
  have hm : M - 1 - 3 = M - 4 := by omega
  rw [hm] at he1 he2
  have c1 : ∀ t, cubicInterpArrayD (rho t) (slice 0 4 ((List.range M).map fun i => D i t))
      (slice 1 3 ((List.range M).map fun i => D i t)) (slice 2 2 ((List.range M).map fun i => D i t))
      (slice 3 1 ((List.range M).map fun i => D i t)) = (List.range (M - 4)).map fun k => E1 k t := fun t => by
    rw [slice_front _ 0 3 M, slice_front _ 1 2 M, slice_front _ 2 1 M, slice_front _ 3 0 M]
    exact he1 t _ rfl
  have c2 : ∀ t, cubicInterpArrayD (rho t) (slice 1 3 ((List.range M).map fun i => D i t))
      (slice 2 2 ((List.range M).map fun i => D i t)) (slice 3 1 ((List.range M).map fun i => D i t))
      (slice 4 0 ((List.range M).map fun i => D i t)) = (List.range (M - 4)).map fun k => E2 k t := fun t => by
    rw [slice_back _ 0 3 M, slice_back _ 1 2 M, slice_back _ 2 1 M, slice_back _ 3 0 M]
    exact he2 t _ rfl
  have hfun := off_sum (s := s) (List.range (M - 4)) (fun k t => r0 t * dth t * cellWeightLDD (inSourceD (D (k + 1) t) (rho t))
      (inSourceD (D (k + 2) t) (rho t)) (inSourceD (D (k + 3) t) (rho t)) (E1 k t) (E2 k t)
      (isLimb1stD (D (k + 2) t / rho t) (Dual.const u1)) (Dual.const delta_c))
    (fun k => (r0 s * dth s).v * cellGap (inSourceD (D (k + 1) s) (rho s))
      (inSourceD (D (k + 2) s) (rho s)) (inSourceD (D (k + 3) s) (rho s)) (E1 k s) (E2 k s) (D (k + 2) s / rho s) u1 delta_c)
    (fun k hk => by
      have hk' : k < M - 4 := List.mem_range.mp hk
      have h1 := (hD (k + 1) (by omega)).inSource hrho hrho0
      have h2 := (hD (k + 2) (by omega)).inSource hrho hrho0
      have h3 := (hD (k + 3) (by omega)).inSource hrho hrho0
      exact off_cell h1 h2 h3 u1 delta_c (hE1 k (by omega)) (hE2 k (by omega)) ((hD (k + 2) (by omega)).div hrho hrho0)
        (by rw [dual_div_v]; exact hlimb (k + 2) (by omega)) (hr.mul hdth))
  have hgap : (r0 s).v * (dth s).v * ringGap ((List.range M).map fun i => D i s) (rho s) u1 delta_c =
      ((List.range (M - 4)).map fun k => (r0 s * dth s).v * cellGap (inSourceD (D (k + 1) s) (rho s))
      (inSourceD (D (k + 2) s) (rho s)) (inSourceD (D (k + 3) s) (rho s)) (E1 k s) (E2 k s) (D (k + 2) s / rho s) u1
        delta_c).sum := by
    simp only [ringGap, c1 s, c2 s]
    rw [List.map_map, cells_eq, List.map_map, List.sum_map_mul_left]
    rfl
  rw [hgap]
  have heq : (fun t => ringSumLD ((List.range M).map fun i => D i t) (rho t) (r0 t) (dth t) (Dual.const u1) (Dual.const delta_c)) =
      fun t => Dual.sum ((List.range (M - 4)).map fun k => r0 t * dth t * cellWeightLDD (inSourceD (D (k + 1) t) (rho t))
      (inSourceD (D (k + 2) t) (rho t)) (inSourceD (D (k + 3) t) (rho t)) (E1 k t) (E2 k t)
      (isLimb1stD (D (k + 2) t / rho t) (Dual.const u1)) (Dual.const delta_c)) := by
    funext t
    simp only [ringSumLD, c1 t, c2 t]
    rw [List.map_map, List.map_map, cells_eq, List.map_map]
    rfl
  rw [heq]
  exact hfun

/-- Derivative minus tangent of the contribution of one region. -/
def rangeGap (dist : Dual → Dual → Dual) (rho : Dual) (u1 delta_c : ℝ) (N M : ℕ) (R : (Dual × Dual) × (Dual × Dual)) : ℝ :=
  spacing R.1.1.v R.1.2.v N * ((List.range N).map fun i => node R.1.1.v R.1.2.v N i * spacing R.2.1.v R.2.2.v M
    * ringGap ((linspaceD R.2.1 R.2.2 M).map (dist (nodeD R.1.1 R.1.2 N i))) rho u1 delta_c).sum

theorem off_range (dist : ℝ → Dual → Dual → Dual) {rho a b α β : ℝ → Dual} (N M : ℕ) (hN : 2 ≤ N) (hM : 5 ≤ M)
    (ha : Tracks a s) (hb : Tracks b s) (hα : Tracks α s) (hβ : Tracks β s)
    (hdist : ∀ i < N, ∀ j < M, Tracks (fun t => dist t (nodeD (a t) (b t) N i) (nodeD (α t) (β t) M j)) s)
    (hrho : Tracks rho s) (hrho0 : (rho s).v ≠ 0) (u1 delta_c : ℝ)
    (hg1 : ∀ i < N, GenericLimb (rho s).v delta_c
      (fun j => (dist s (nodeD (a s) (b s) N i) (nodeD (α s) (β s) M j)).v) (M - 1))
    (hg2 : ∀ i < N, GenericLimb (rho s).v delta_c
      (fun j => (dist s (nodeD (a s) (b s) N i) (nodeD (α s) (β s) M (j + 1))).v) (M - 1))
    (hlimb : ∀ i < N, ∀ j < M, 1 - ((dist s (nodeD (a s) (b s) N i) (nodeD (α s) (β s) M j)).v / (rho s).v) ^ 2 ≠ 1 / 1000) :
    Off (fun t => computeForRangeLDD (dist t) (rho t) (Dual.const u1) (Dual.const delta_c) N M ((a t, b t), (α t, β t))) s
      (rangeGap (dist s) (rho s) u1 delta_c N M ((a s, b s), (α s, β s))) := by
  have hstep : Tracks (fun t => nodeD (α t) (β t) M 1 - nodeD (α t) (β t) M 0) s :=
    (tracks_node hα hβ M 1 (by omega)).sub (tracks_node hα hβ M 0 (by omega))
  have hdr : Tracks (fun t => nodeD (a t) (b t) N 1 - nodeD (a t) (b t) N 0) s :=
    (tracks_node ha hb N 1 hN).sub (tracks_node ha hb N 0 hN)
  have hnode : ∀ (x y : Dual) (n : ℕ), (nodeD x y n 1 - nodeD x y n 0).v = spacing x.v y.v n := fun x y n => by
    rw [dual_sub_v, nodeD_v, nodeD_v, node, node]; push_cast; ring
  have hrow : ∀ i ∈ List.range N, Off (fun t => processRLDD (dist t (nodeD (a t) (b t) N i)) (rho t) (Dual.const u1)
      (Dual.const delta_c) (nodeD (a t) (b t) N i) (linspaceD (α t) (β t) M)) s
      (node (a s).v (b s).v N i * spacing (α s).v (β s).v M
        * ringGap ((linspaceD (α s) (β s) M).map (dist s (nodeD (a s) (b s) N i))) (rho s) u1 delta_c) := by
    intro i hi
    have hi' := List.mem_range.mp hi
    have := off_ring (fun j t => dist t (nodeD (a t) (b t) N i) (nodeD (α t) (β t) M j)) M hM (hdist i hi') hrho hrho0
      (tracks_node ha hb N i hN) hstep u1 delta_c (hg1 i hi') (hg2 i hi') (hlimb i hi')
    rw [hnode, nodeD_v] at this
    rw [linspaceD_eq (α s), List.map_map]
    simp only [processRLDD_ring _ _ _ _ _ _ _ M (show 2 ≤ M by omega)]
    exact this
  have hall := hdr.off.mul (off_sum (List.range N) _ _ hrow)
  have heq : (fun t => computeForRangeLDD (dist t) (rho t) (Dual.const u1) (Dual.const delta_c) N M ((a t, b t), (α t, β t))) =
      fun t => (nodeD (a t) (b t) N 1 - nodeD (a t) (b t) N 0) * Dual.sum ((List.range N).map fun i =>
        processRLDD (dist t (nodeD (a t) (b t) N i)) (rho t) (Dual.const u1) (Dual.const delta_c) (nodeD (a t) (b t) N i)
          (linspaceD (α t) (β t) M)) := by
    funext t
    simp only [computeForRangeLDD, get_linspaceD (a t) (b t) N 1 (by omega), get_linspaceD (a t) (b t) N 0 (by omega)]
    rw [linspaceD_eq (a t), List.map_map]
    rfl
  rw [heq]
  rw [zero_mul, zero_add, hnode] at hall
  exact hall

/-- **C123**: along every path of lens parameters, source position, radius and regions, the derivative of the value that
`mag_limb_dark` reports under differentiation is the tangent plus the sum of the errors of the rules of `Is_limb_1st` and
`calc_facB` over the cells. -/
theorem C123_gap (nlenses : ℕ) (u : ℝ → UserParams) (du : UserParams) (w : ℝ → ℂ) (dw : ℂ) (rho : ℝ → Dual)
    (u1 delta_c t₀ : ℝ) (regions : List (ℝ → (Dual × Dual) × (Dual × Dual))) (N M : ℕ) (hN : 2 ≤ N) (hM : 5 ≤ M)
    (hu : UserPath u du t₀) (hw : HasDerivAt w dw t₀) (hrho : Tracks rho t₀) (hrho0 : 0 < (rho t₀).v)
    (hq : 1 + (u t₀).q ≠ 0) (hq3 : nlenses = 3 → 1 + (u t₀).q + (u t₀).q3 ≠ 0)
    (hreg : ∀ R ∈ regions, RegionPath R t₀)
    (hgrid : ∀ R ∈ regions, ∀ i < N,
      (∀ j < M, (∀ l ∈ userLens nlenses (u t₀), (node (regionV (R t₀)).1.1 (regionV (R t₀)).1.2 N i : ℂ)
          * exp (I * node (regionV (R t₀)).2.1 (regionV (R t₀)).2.2 M j) ≠ l.2) ∧
        nodeDistance (userLens nlenses (u t₀)) (w t₀) (regionV (R t₀)) N M i j ≠ 0 ∧
        1 - (nodeDistance (userLens nlenses (u t₀)) (w t₀) (regionV (R t₀)) N M i j / (rho t₀).v) ^ 2 ≠ 1 / 1000) ∧
      GenericLimb (rho t₀).v delta_c (nodeDistance (userLens nlenses (u t₀)) (w t₀) (regionV (R t₀)) N M i) (M - 1) ∧
      GenericLimb (rho t₀).v delta_c (fun j => nodeDistance (userLens nlenses (u t₀)) (w t₀) (regionV (R t₀)) N M i (j + 1))
        (M - 1)) :
    HasDerivAt (fun t => (magLimbDarkD nlenses (u t) du (w t) dw (rho t) (Dual.const u1) (Dual.const delta_c) N M
        (regions.map fun R => R t)).v)
      ((magLimbDarkD nlenses (u t₀) du (w t₀) dw (rho t₀) (Dual.const u1) (Dual.const delta_c) N M
        (regions.map fun R => R t₀)).d
        + (regions.map fun R => rangeGap (rayDistanceD nlenses (u t₀) du (w t₀) dw) (rho t₀) u1 delta_c N M (R t₀)).sum
          / ((rho t₀).v * (rho t₀).v)) t₀ := by
  have hray : ∀ r θ, rayDistance nlenses (u t₀) (w t₀) r θ = ‖lensMap (userLens nlenses (u t₀)) (r * exp (I * θ)) - w t₀‖ :=
    rayDistance_user nlenses (u t₀) (w t₀) hq hq3
  have hrange : ∀ R ∈ regions, Off (fun t => computeForRangeLDD (rayDistanceD nlenses (u t) du (w t) dw) (rho t)
      (Dual.const u1) (Dual.const delta_c) N M (R t)) t₀
      (rangeGap (rayDistanceD nlenses (u t₀) du (w t₀) dw) (rho t₀) u1 delta_c N M (R t₀)) := by
    intro R hR
    obtain ⟨h1, h2, h3, h4⟩ := hreg R hR
    refine off_range (fun t => rayDistanceD nlenses (u t) du (w t) dw) N M hN hM h1 h2 h3 h4 ?_ hrho hrho0.ne' u1 delta_c
      ?_ ?_ ?_
    · intro i hi j hj
      obtain ⟨hl, hd, -⟩ := (hgrid R hR i hi).1 j hj
      refine tracks_rayDistance nlenses u du w dw _ _ hu hw (tracks_node h1 h2 N i hN) (tracks_node h3 h4 M j (by omega)) hq hq3
        ?_ ?_
      · simpa only [nodeD_v, regionV] using hl
      · rw [hray, nodeD_v, nodeD_v]; exact hd
    · intro i hi
      have := (hgrid R hR i hi).2.1
      simp only [rayDistanceD_v, nodeD_v, hray]
      exact this
    · intro i hi
      have := (hgrid R hR i hi).2.2
      simp only [rayDistanceD_v, nodeD_v, hray]
      exact this
    · intro i hi j hj
      have := ((hgrid R hR i hi).1 j hj).2.2
      simp only [rayDistanceD_v, nodeD_v, hray]
      exact this
  have hsum := off_foldl regions (fun R t => computeForRangeLDD (rayDistanceD nlenses (u t) du (w t) dw) (rho t)
    (Dual.const u1) (Dual.const delta_c) N M (R t)) _ (fun _ => Dual.const 0) (tracks_const 0).off hrange
  have hall := hsum.div_right (hrho.mul hrho) (by rw [dual_mul_v]; positivity)
  have heq : (fun t => magLimbDarkD nlenses (u t) du (w t) dw (rho t) (Dual.const u1) (Dual.const delta_c) N M
      (regions.map fun R => R t)) = fun t =>
      (regions.foldl (fun carry R => carry + computeForRangeLDD (rayDistanceD nlenses (u t) du (w t) dw) (rho t)
        (Dual.const u1) (Dual.const delta_c) N M (R t)) (Dual.const 0)) / (rho t * rho t) := by
    funext t
    simp only [magLimbDarkD, List.foldl_map]
  rw [zero_add, dual_mul_v] at hall
  change Off (fun t => magLimbDarkD nlenses (u t) du (w t) dw (rho t) (Dual.const u1) (Dual.const delta_c) N M
      (regions.map fun R => R t)) t₀ _
  rw [heq]
  exact hall

theorem edgeGap_zero (x : Dual) (delta_c : ℝ) (h : 1 + zeroTerm < delta_c) :
    edgeGap (Dual.clip01 x + Dual.const zeroTerm) delta_c = 0 := by
  rw [edgeGap, if_pos]
  rw [dual_add_v, clip01_minmax]
  have : min (max x.v 0) 1 ≤ 1 := min_le_right _ _
  simp only [Dual.const]
  linarith

theorem cellGap_large (in1 in2 in3 th1 th2 x : Dual) (u1 delta_c : ℝ) (h : 1 + zeroTerm < delta_c) :
    cellGap in1 in2 in3 th1 th2 x u1 delta_c = profileGap x u1 * (in1.v * in2.v * in3.v
      + calcFacB (edge1 th1).v delta_c * ((1 - in1.v) * in2.v * in3.v)
      + calcFacB (edge2 th2).v delta_c * (in1.v * in2.v * (1 - in3.v))) := by
  rw [cellGap, show edgeGap (edge1 th1) delta_c = 0 from edgeGap_zero _ _ h,
    show edgeGap (edge2 th2) delta_c = 0 from edgeGap_zero _ _ h]
  ring

/-- **C123** (what holds): for a disc without limb darkening, and a threshold above every gap, the tangent is the derivative. -/
theorem C123_flat_partial (nlenses : ℕ) (u : ℝ → UserParams) (du : UserParams) (w : ℝ → ℂ) (dw : ℂ) (rho : ℝ → Dual)
    (delta_c t₀ : ℝ) (hdc : 1 + zeroTerm < delta_c) (regions : List (ℝ → (Dual × Dual) × (Dual × Dual))) (N M : ℕ)
    (hN : 2 ≤ N) (hM : 5 ≤ M)
    (hu : UserPath u du t₀) (hw : HasDerivAt w dw t₀) (hrho : Tracks rho t₀) (hrho0 : 0 < (rho t₀).v)
    (hq : 1 + (u t₀).q ≠ 0) (hq3 : nlenses = 3 → 1 + (u t₀).q + (u t₀).q3 ≠ 0)
    (hreg : ∀ R ∈ regions, RegionPath R t₀)
    (hgrid : ∀ R ∈ regions, ∀ i < N,
      (∀ j < M, (∀ l ∈ userLens nlenses (u t₀), (node (regionV (R t₀)).1.1 (regionV (R t₀)).1.2 N i : ℂ)
          * exp (I * node (regionV (R t₀)).2.1 (regionV (R t₀)).2.2 M j) ≠ l.2) ∧
        nodeDistance (userLens nlenses (u t₀)) (w t₀) (regionV (R t₀)) N M i j ≠ 0 ∧
        1 - (nodeDistance (userLens nlenses (u t₀)) (w t₀) (regionV (R t₀)) N M i j / (rho t₀).v) ^ 2 ≠ 1 / 1000) ∧
      GenericLimb (rho t₀).v delta_c (nodeDistance (userLens nlenses (u t₀)) (w t₀) (regionV (R t₀)) N M i) (M - 1) ∧
      GenericLimb (rho t₀).v delta_c (fun j => nodeDistance (userLens nlenses (u t₀)) (w t₀) (regionV (R t₀)) N M i (j + 1))
        (M - 1)) :
    HasDerivAt (fun t => (magLimbDarkD nlenses (u t) du (w t) dw (rho t) (Dual.const 0) (Dual.const delta_c) N M
        (regions.map fun R => R t)).v)
      (magLimbDarkD nlenses (u t₀) du (w t₀) dw (rho t₀) (Dual.const 0) (Dual.const delta_c) N M
        (regions.map fun R => R t₀)).d t₀ := by
  have h := C123_gap nlenses u du w dw rho 0 delta_c t₀ regions N M hN hM hu hw hrho hrho0 hq hq3 hreg hgrid
  have hcell : ∀ in1 in2 in3 th1 th2 x : Dual, cellGap in1 in2 in3 th1 th2 x 0 delta_c = 0 := fun in1 in2 in3 th1 th2 x => by
    rw [cellGap_large _ _ _ _ _ _ _ _ hdc, show profileGap x 0 = 0 by simp [profileGap], zero_mul]
  have hring : ∀ d r, ringGap d r 0 delta_c = 0 := fun d r => by
    simp only [ringGap, hcell]
    simp
  have hsum : (regions.map fun R => rangeGap (rayDistanceD nlenses (u t₀) du (w t₀) dw) (rho t₀) 0 delta_c N M (R t₀)).sum = 0 := by
    simp [rangeGap, hring]
  rw [hsum, zero_div, add_zero] at h
  exact h

theorem sum_nonpos_of {L : List ℝ} (h : ∀ x ∈ L, x ≤ 0) : L.sum ≤ 0 := by
  induction L with
  | nil => simp
  | cons a L ih =>
    rw [List.sum_cons]
    have := h a (by simp)
    have := ih fun x hx => h x (by simp [hx])
    linarith

theorem sum_neg_of {L : List ℝ} (h : ∀ x ∈ L, x ≤ 0) (hex : ∃ x ∈ L, x < 0) : L.sum < 0 := by
  obtain ⟨x, hx, hlt⟩ := hex
  have h' : ∀ y ∈ L, 0 ≤ -y := fun y hy => by have := h y hy; linarith
  have : 0 < (L.map fun y => -y).sum := by
    refine lt_of_lt_of_le (show 0 < -x by linarith) (List.single_le_sum (l := L.map fun y => -y) ?_ _ (List.mem_map.mpr ⟨x, hx, rfl⟩))
    intro y hy
    obtain ⟨z, hz, rfl⟩ := List.mem_map.mp hy
    exact h' z hz
  have e : (L.map fun y => -y).sum = -L.sum := by
    clear this h' hlt hx h
    induction L with
    | nil => simp
    | cons a L ih => rw [List.map_cons, List.sum_cons, ih, List.sum_cons]; ring
  linarith

/-- Radius direction: the error of the profile is never positive, and negative beyond `sqrt 0.999` radii. -/
theorem profileGap_radius (d rho u1 : ℝ) (hd : 0 ≤ d) (hrho : 0 < rho) (h0 : 0 < u1) (h1 : u1 ≤ 1) :
    profileGap (⟨d, 0⟩ / ⟨rho, 1⟩) u1 ≤ 0 ∧ (rho < d → profileGap (⟨d, 0⟩ / ⟨rho, 1⟩) u1 < 0) := by
  have hv : ((⟨d, 0⟩ : Dual) / ⟨rho, 1⟩).v = d / rho := by rw [dual_div_v]
  have hdv : ((⟨d, 0⟩ : Dual) / ⟨rho, 1⟩).d = -(d / rho ^ 2) := by rw [dual_div_d]; ring
  have h3 : 0 < 3 - u1 := by linarith
  have hs : 0 < Real.sqrt (1 / 1000) := Real.sqrt_pos.mpr (by norm_num)
  have hg := Real.sigmoid_pos (100 * (1 - d / rho))
  have hpi := Real.pi_pos
  constructor
  · rw [profileGap]
    split_ifs
    · exact le_rfl
    · rw [hv, hdv, mul_neg]
      refine neg_nonpos.mpr (by positivity)
  · intro hlt
    have hd' : 0 < d := hrho.trans hlt
    have h1x : 1 < d / rho := (one_lt_div hrho).mpr hlt
    rw [profileGap, if_neg (by rw [hv]; nlinarith), hv, hdv, mul_neg]
    exact neg_neg_of_pos (by positivity)

/-- **C123** (violated): in the direction of the source radius, with limb darkening and a threshold above every gap, the tangent
is strictly larger than the derivative as soon as one ray of the interior of a grid misses the source. -/
theorem C123_radius_violated (nlenses : ℕ) (u : UserParams) (w : ℂ) (rho u1 delta_c : ℝ) (h0 : 0 < u1) (h1 : u1 ≤ 1)
    (hdc : 1 + zeroTerm < delta_c) (hrho : 0 < rho) (regions : List ((ℝ × ℝ) × (ℝ × ℝ))) (N M : ℕ) (hN : 2 ≤ N) (hM : 5 ≤ M)
    (hq : 1 + u.q ≠ 0) (hq3 : nlenses = 3 → 1 + u.q + u.q3 ≠ 0)
    (hreg : ∀ R ∈ regions, 0 ≤ R.1.1 ∧ R.1.1 < R.1.2 ∧ R.2.1 < R.2.2)
    (hgrid : ∀ R ∈ regions, ∀ i < N,
      (∀ j < M, (∀ l ∈ userLens nlenses u, (node R.1.1 R.1.2 N i : ℂ) * exp (I * node R.2.1 R.2.2 M j) ≠ l.2) ∧
        nodeDistance (userLens nlenses u) w R N M i j ≠ 0 ∧
        1 - (nodeDistance (userLens nlenses u) w R N M i j / rho) ^ 2 ≠ 1 / 1000) ∧
      GenericLimb rho delta_c (nodeDistance (userLens nlenses u) w R N M i) (M - 1) ∧
      GenericLimb rho delta_c (fun j => nodeDistance (userLens nlenses u) w R N M i (j + 1)) (M - 1))
    (hmiss : ∃ R ∈ regions, ∃ i < N, 0 < node R.1.1 R.1.2 N i ∧ ∃ j, 2 ≤ j ∧ j + 2 < M ∧
      rho < nodeDistance (userLens nlenses u) w R N M i j) :
    ∃ D' : ℝ, HasDerivAt (fun t => (magLimbDarkD nlenses u noMotion w 0 ⟨t, 1⟩ (Dual.const u1) (Dual.const delta_c) N M
        (regions.map fixedRegion)).v) D' rho ∧
      D' < (magLimbDarkD nlenses u noMotion w 0 ⟨rho, 1⟩ (Dual.const u1) (Dual.const delta_c) N M
        (regions.map fixedRegion)).d := by
  have hzero : ∀ x : ℝ, HasDerivAt (fun _ : ℝ => x) 0 rho := fun x => hasDerivAt_const _ _
  have hray : ∀ r θ, rayDistance nlenses u w r θ = ‖lensMap (userLens nlenses u) (r * exp (I * θ)) - w‖ :=
    rayDistance_user nlenses u w hq hq3
  have h := C123_gap nlenses (fun _ => u) noMotion (fun _ => w) 0 (fun t => ⟨t, 1⟩) u1 delta_c rho
    (regions.map fun R _ => fixedRegion R) N M hN hM ⟨hzero _, hzero _, hzero _, hzero _, hzero _⟩
    (hasDerivAt_const _ _) (hasDerivAt_id' rho) hrho hq hq3
    (by
      intro R hR
      obtain ⟨R, -, rfl⟩ := List.mem_map.mp hR
      exact ⟨tracks_const _, tracks_const _, tracks_const _, tracks_const _⟩)
    (by
      intro R hR
      obtain ⟨R, hR', rfl⟩ := List.mem_map.mp hR
      exact hgrid R hR')
  simp only [List.map_map, Function.comp_def] at h
  refine ⟨_, h, ?_⟩
  have hpos : 0 < rho * rho := by positivity
  suffices hs : (regions.map fun R => rangeGap (rayDistanceD nlenses u noMotion w 0) ⟨rho, 1⟩ u1 delta_c N M
      (fixedRegion R)).sum < 0 by
    have := div_neg_of_neg_of_pos hs hpos
    show _ + _ < (magLimbDarkD nlenses u noMotion w 0 ⟨rho, 1⟩ (Dual.const u1) (Dual.const delta_c) N M
        (regions.map fixedRegion)).d
    linarith
  -- one cell
  have hcell : ∀ (d1 d2 d3 th1 th2 x : Dual), Still x → 0 ≤ x.v →
      cellGap (inSourceD d1 ⟨rho, 1⟩) (inSourceD d2 ⟨rho, 1⟩) (inSourceD d3 ⟨rho, 1⟩) th1 th2 (x / ⟨rho, 1⟩) u1 delta_c ≤ 0 ∧
      (rho < x.v → cellGap (inSourceD d1 ⟨rho, 1⟩) (inSourceD d2 ⟨rho, 1⟩) (inSourceD d3 ⟨rho, 1⟩) th1 th2 (x / ⟨rho, 1⟩) u1
        delta_c < 0) := by
    intro d1 d2 d3 th1 th2 x hx hx0
    have hxe : x = ⟨x.v, 0⟩ := by rw [← show x.d = 0 from hx]
    obtain ⟨g1, g2⟩ := profileGap_radius x.v rho u1 hx0 hrho h0 h1
    rw [← hxe] at g1 g2
    rw [cellGap_large _ _ _ _ _ _ _ _ hdc]
    have p1 := softIn_mem d1.v rho
    have p2 := softIn_mem d2.v rho
    have p3 := softIn_mem d3.v rho
    have f1 := calcFacB_pos (edge1 th1).v delta_c (edge_pos _)
    have f2 := calcFacB_pos (edge2 th2).v delta_c (edge_pos _)
    simp only [inSourceD_v]
    set a := softIn d1.v rho
    set b := softIn d2.v rho
    set c := softIn d3.v rho
    have ha : 0 < 1 - a := by linarith [p1.2]
    have hc : 0 < 1 - c := by linarith [p3.2]
    have hw : 0 < a * b * c + calcFacB (edge1 th1).v delta_c * ((1 - a) * b * c)
        + calcFacB (edge2 th2).v delta_c * (a * b * (1 - c)) := by
      have := p1.1; have := p2.1; have := p3.1
      positivity
    exact ⟨mul_nonpos_of_nonpos_of_nonneg g1 hw.le, fun hlt => mul_neg_of_neg_of_pos (g2 hlt) hw⟩
  -- one ring
  have hring : ∀ (distances : List Dual), (∀ x ∈ distances, Still x ∧ 0 ≤ x.v) → distances.length = M →
      ringGap distances ⟨rho, 1⟩ u1 delta_c ≤ 0 ∧
      ((∃ j, ∃ hj : j < distances.length, 2 ≤ j ∧ j + 2 < M ∧ rho < distances[j].v) →
        ringGap distances ⟨rho, 1⟩ u1 delta_c < 0) := by
    intro distances hd hlen
    simp only [ringGap]
    have hall : ∀ g ∈ ((((slice 1 3 (distances.map fun d => inSourceD d ⟨rho, 1⟩)).zip
        (slice 2 2 (distances.map fun d => inSourceD d ⟨rho, 1⟩))).zip
        ((slice 3 1 (distances.map fun d => inSourceD d ⟨rho, 1⟩)).zip (slice 2 2 distances))).zip
        ((cubicInterpArrayD ⟨rho, 1⟩ (slice 0 4 distances) (slice 1 3 distances) (slice 2 2 distances) (slice 3 1 distances)).zip
          (cubicInterpArrayD ⟨rho, 1⟩ (slice 1 3 distances) (slice 2 2 distances) (slice 3 1 distances)
            (slice 4 0 distances)))).map
        (fun c => cellGap c.1.1.1 c.1.1.2 c.1.2.1 c.2.1 c.2.2 (c.1.2.2 / ⟨rho, 1⟩) u1 delta_c), g ≤ 0 := by
      intro g hg
      obtain ⟨⟨⟨⟨i1, i2⟩, ⟨i3, d⟩⟩, ⟨f1, f2⟩⟩, hc, rfl⟩ := List.mem_map.mp hg
      obtain ⟨hp, -⟩ := List.of_mem_zip hc
      obtain ⟨hp, hq'⟩ := List.of_mem_zip hp
      obtain ⟨hp1, hp2⟩ := List.of_mem_zip hp
      obtain ⟨hq1, hq2⟩ := List.of_mem_zip hq'
      obtain ⟨d1, -, rfl⟩ := List.mem_map.mp (mem_of_slice _ _ _ _ hp1)
      obtain ⟨d2, -, rfl⟩ := List.mem_map.mp (mem_of_slice _ _ _ _ hp2)
      obtain ⟨d3, -, rfl⟩ := List.mem_map.mp (mem_of_slice _ _ _ _ hq1)
      obtain ⟨s1, s2⟩ := hd d (mem_of_slice _ _ _ _ hq2)
      exact (hcell d1 d2 d3 f1 f2 d s1 s2).1
    refine ⟨sum_nonpos_of hall, ?_⟩
    rintro ⟨j, hj, h2, h3, hlt⟩
    refine sum_neg_of hall ?_
    refine ⟨_, List.getElem_mem (n := j - 2) ?_, ?_⟩
    · simp only [List.length_map, List.length_zip, length_slice, cubicInterpArrayD, hlen]
      omega
    · simp only [List.getElem_map, List.getElem_zip, getElem_slice]
      have hj2 : 2 + (j - 2) = j := by omega
      simp only [hj2]
      obtain ⟨s1, s2⟩ := hd _ (List.getElem_mem hj)
      exact (hcell _ _ _ _ _ _ s1 s2).2 hlt
  -- one region
  have hdist : ∀ R : (ℝ × ℝ) × (ℝ × ℝ), ∀ i, ∀ x ∈ (linspaceD (fixedRegion R).2.1 (fixedRegion R).2.2 M).map
      (rayDistanceD nlenses u noMotion w 0 (nodeD (fixedRegion R).1.1 (fixedRegion R).1.2 N i)), Still x ∧ 0 ≤ x.v := by
    intro R i x hx
    obtain ⟨θ, hθ, rfl⟩ := List.mem_map.mp hx
    refine ⟨still_rayDistance nlenses u w (still_node (still_const _) (still_const _) N i)
      (still_linspace (still_const _) (still_const _) M θ hθ), norm_nonneg _⟩
  have hnode0 : ∀ R ∈ regions, ∀ i : ℕ, 0 ≤ node R.1.1 R.1.2 N i ∧ 0 < spacing R.1.1 R.1.2 N ∧ 0 < spacing R.2.1 R.2.2 M := by
    intro R hR i
    obtain ⟨r0, r1, r2⟩ := hreg R hR
    have hN' : (2 : ℝ) ≤ N := by exact_mod_cast hN
    have hM' : (5 : ℝ) ≤ M := by exact_mod_cast hM
    have s1 : 0 < spacing R.1.1 R.1.2 N := div_pos (by linarith) (by linarith)
    have s2 : 0 < spacing R.2.1 R.2.2 M := div_pos (by linarith) (by linarith)
    refine ⟨?_, s1, s2⟩
    rw [node]
    positivity
  have hle : ∀ R ∈ regions, ∀ i ∈ List.range N, node R.1.1 R.1.2 N i * spacing R.2.1 R.2.2 M
      * ringGap ((linspaceD (fixedRegion R).2.1 (fixedRegion R).2.2 M).map
        (rayDistanceD nlenses u noMotion w 0 (nodeD (fixedRegion R).1.1 (fixedRegion R).1.2 N i))) ⟨rho, 1⟩ u1 delta_c ≤ 0 := by
    intro R hR i _
    obtain ⟨n0, -, n2⟩ := hnode0 R hR i
    exact mul_nonpos_of_nonneg_of_nonpos (by positivity) (hring _ (hdist R i) (by simp [length_linspaceD])).1
  refine sum_neg_of ?_ ?_
  · intro g hg
    obtain ⟨R, hR, rfl⟩ := List.mem_map.mp hg
    refine mul_nonpos_of_nonneg_of_nonpos (hnode0 R hR 0).2.1.le (sum_nonpos_of ?_)
    intro y hy
    obtain ⟨i, hi, rfl⟩ := List.mem_map.mp hy
    exact hle R hR i hi
  · obtain ⟨R, hR, i, hi, hn, j, hj2, hjM, hlt⟩ := hmiss
    refine ⟨_, List.mem_map.mpr ⟨R, hR, rfl⟩, ?_⟩
    refine mul_neg_of_pos_of_neg (hnode0 R hR 0).2.1 (sum_neg_of ?_ ?_)
    · intro y hy
      obtain ⟨i, hi, rfl⟩ := List.mem_map.mp hy
      exact hle R hR i hi
    · refine ⟨_, List.mem_map.mpr ⟨i, List.mem_range.mpr hi, rfl⟩, ?_⟩
      refine mul_neg_of_pos_of_neg (mul_pos hn (hnode0 R hR 0).2.2) ?_
      refine (hring _ (hdist R i) (by simp [length_linspaceD])).2 ⟨j, by simp [length_linspaceD]; omega, hj2, hjM, ?_⟩
      rw [List.getElem_map, rayDistanceD_v, hray]
      simp only [linspaceD_eq, List.getElem_map, List.getElem_range, nodeD_v]
      exact hlt

end Microjax.Props
