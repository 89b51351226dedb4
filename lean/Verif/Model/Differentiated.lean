import Verif.Model.ExtendedSource
import Verif.Model.PointSourceJvp

/-!
# Model of `mag_uniform` and `mag_limb_dark` under differentiation (`jax.jvp`, `jax.value_and_grad`)

JAX evaluates the code on pairs (value, tangent).  The arithmetic follows the rules of the primitives; at a `custom_jvp`
function (`in_source`, `Is_limb_1st`, `calc_facB`) the pair that its rule returns replaces the value as well as the tangent
(`boundary.py` 37-44, 78-93, `limb_darkening.py` 36-57).  The model is for differentiation with respect to parameters that
the distances or the radius depend on (every lens parameter, `w_center`, `rho`), so that the rules are used; the tangents of the
regions, which `define_regions` passes on, are arguments.  `vmap`, `lax.scan` and `checkpoint` do not change values.
-/

noncomputable section

namespace Microjax.Differentiated

open Complex ComplexConjugate PointSource Boundary ExtendedSource

/-- A float64 with its tangent. -/
structure Dual where
  v : ℝ
  d : ℝ

namespace Dual

/-- A constant of the code, e.g. `0.0`, `1.0` (`extended_source.py` 289-295). -/
def const (c : ℝ) : Dual := ⟨c, 0⟩

/-- JVP of `+`, used throughout `extended_source.py` 126-330. -/
def add (x y : Dual) : Dual := ⟨x.v + y.v, x.d + y.d⟩

/-- JVP of `-`, used throughout `extended_source.py` 126-330. -/
def sub (x y : Dual) : Dual := ⟨x.v - y.v, x.d - y.d⟩

/-- JVP of `*`, used throughout `extended_source.py` 126-330. -/
def mul (x y : Dual) : Dual := ⟨x.v * y.v, x.d * y.v + x.v * y.d⟩

/-- JVP of `/`, used throughout `extended_source.py` 126-330. -/
def div (x y : Dual) : Dual := ⟨x.v / y.v, x.d / y.v - x.v * y.d / y.v ^ 2⟩

instance : Add Dual := ⟨add⟩
instance : Sub Dual := ⟨sub⟩
instance : Mul Dual := ⟨mul⟩
instance : Div Dual := ⟨div⟩

/-- JVP of `jnp.maximum` (`extended_source.py` 378, and the lower half of `jnp.clip`): the tangent of the larger argument, the
mean at a tie. -/
def maximum (x y : Dual) : Dual :=
  ⟨max x.v y.v, if x.v > y.v then x.d else if x.v < y.v then y.d else (x.d + y.d) / 2⟩

/-- JVP of `jnp.minimum` (the upper half of `jnp.clip`). -/
def minimum (x y : Dual) : Dual :=
  ⟨min x.v y.v, if x.v < y.v then x.d else if x.v > y.v then y.d else (x.d + y.d) / 2⟩

/-- JVP of `jnp.clip(x, 0.0, 1.0)` (`extended_source.py` 146-147, 293-294). -/
def clip01 (x : Dual) : Dual := minimum (maximum x (const 0)) (const 1)

/-- JVP of `jnp.sum` (`extended_source.py` 156, 297). -/
def sum (l : List Dual) : Dual := ⟨(l.map v).sum, (l.map d).sum⟩

open Classical in
/-- JVP of `jnp.min`/`jnp.max` of all entries (`extended_source.py` 376-377): the mean tangent of the entries that attain the
value `m`. -/
def choose (m : ℝ) (l : List Dual) : Dual :=
  let at_m := l.filter fun x => x.v = m
  ⟨m, (at_m.map d).sum / at_m.length⟩

/-- `jnp.min` (`extended_source.py` 376). -/
def amin (l : List Dual) : Dual := choose (Jnp.amin (l.map v)) l

/-- `jnp.max` (`extended_source.py` 377). -/
def amax (l : List Dual) : Dual := choose (Jnp.amax (l.map v)) l

end Dual

open _root_.Microjax.Differentiated.Dual

/-- `boundary.py` 78-93: `in_source` under differentiation. -/
def inSourceD (x rho : Dual) : Dual :=
  let r := inSourceJvp (x.v, rho.v) (x.d, rho.d)
  ⟨r.1, r.2⟩

/-- `boundary.py` 37-44: `calc_facB` under differentiation. -/
def calcFacBD (delta_B delta_c : Dual) : Dual :=
  let r := calcFacBJvp (delta_B.v, delta_c.v) (delta_B.d, delta_c.d)
  ⟨r.1, r.2⟩

/-- `limb_darkening.py` 36-57: `Is_limb_1st` under differentiation. -/
def isLimb1stD (x u1 : Dual) : Dual :=
  let r := isLimb1stJvp (x.v, u1.v) (x.d, u1.d)
  ⟨r.1, r.2⟩

/-- `extended_source.py` 378-389: the algebraic part of `cubic_interp`. -/
def cubicCoreD (x_min x_max epsilon x x0 x1 x2 x3 y0 y1 y2 y3 : Dual) : Dual :=
  let scale := maximum (x_max - x_min) epsilon
  let x_hat := (x - x_min) / scale
  let x0_hat := (x0 - x_min) / scale
  let x1_hat := (x1 - x_min) / scale
  let x2_hat := (x2 - x_min) / scale
  let x3_hat := (x3 - x_min) / scale
  let L0 := ((x_hat - x1_hat) * (x_hat - x2_hat) * (x_hat - x3_hat)) /
    ((x0_hat - x1_hat + epsilon) * (x0_hat - x2_hat + epsilon) * (x0_hat - x3_hat + epsilon))
  let L1 := ((x_hat - x0_hat) * (x_hat - x2_hat) * (x_hat - x3_hat)) /
    ((x1_hat - x0_hat + epsilon) * (x1_hat - x2_hat + epsilon) * (x1_hat - x3_hat + epsilon))
  let L2 := ((x_hat - x0_hat) * (x_hat - x1_hat) * (x_hat - x3_hat)) /
    ((x2_hat - x0_hat + epsilon) * (x2_hat - x1_hat + epsilon) * (x2_hat - x3_hat + epsilon))
  let L3 := ((x_hat - x0_hat) * (x_hat - x1_hat) * (x_hat - x2_hat)) /
    ((x3_hat - x0_hat + epsilon) * (x3_hat - x1_hat + epsilon) * (x3_hat - x2_hat + epsilon))
  y0 * L0 + y1 * L1 + y2 * L2 + y3 * L3

/-- `extended_source.py` 332-389 `cubic_interp` as `_process_r` calls it: minimum and maximum over all entries, ordinates
`jnp.arange(4)`. -/
def cubicInterpArrayD (x : Dual) (d0 d1 d2 d3 : List Dual) : List Dual :=
  let all := d0 ++ d1 ++ d2 ++ d3
  ((d0.zip d1).zip (d2.zip d3)).map fun c =>
    cubicCoreD (amin all) (amax all) (const zeroTerm) x c.1.1 c.1.2 c.2.1 c.2.2 (const 0) (const 1) (const 2) (const 3)

/-- `jnp.linspace(a, b, n, endpoint=True)`. -/
def linspaceD (a b : Dual) (n : ℕ) : List Dual :=
  (List.range n).map fun i : ℕ => a + const i * ((b - a) / const ((n : ℝ) - 1))

/-- `extended_source.py` 288-297: weight of one angular cell (without `r0 * dth`) of the uniform source. -/
def cellWeightD (in1 in2 th_est : Dual) : Dual :=
  let num_inside := in1 * in2
  let num_in2out := in1 * (const 1 - in2)
  let num_out2in := (const 1 - in1) * in2
  let frac_in2out := clip01 (th_est - const 1)
  let frac_out2in := clip01 (const 2 - th_est)
  num_inside + (num_in2out * frac_in2out + num_out2in * frac_out2in)

/-- `extended_source.py` 274-297 `_process_r` of `mag_uniform`; `dist` is `distance_from_source` at radius `r0`. -/
def processRD (dist : Dual → Dual) (rho r0 : Dual) (th_values : List Dual) : Dual :=
  let dth := Jnp.get (const 0) th_values 1 - Jnp.get (const 0) th_values 0
  let distances := th_values.map dist
  let in_num := distances.map fun d => inSourceD d rho
  let th_est := cubicInterpArrayD rho (slice 0 3 distances) (slice 1 2 distances) (slice 2 1 distances)
    (slice 3 0 distances)
  Dual.sum ((((slice 1 2 in_num).zip (slice 2 1 in_num)).zip th_est).map
    fun c => r0 * dth * cellWeightD c.1.1 c.1.2 c.2)

/-- `extended_source.py` 299-312 `_compute_for_range` of `mag_uniform`. -/
def computeForRangeD (dist : Dual → Dual → Dual) (rho : Dual) (r_resolution th_resolution : ℕ)
    (region : (Dual × Dual) × (Dual × Dual)) : Dual :=
  let r_values := linspaceD region.1.1 region.1.2 r_resolution
  let th_values := linspaceD region.2.1 region.2.2 th_resolution
  let area_r := r_values.map fun r => processRD (dist r) rho r th_values
  let dr := Jnp.get (const 0) r_values 1 - Jnp.get (const 0) r_values 0
  dr * Dual.sum area_r

/-- `point_source.py` 98-119: tangent of a term `m / x` of the lens equation (quotient rule). -/
def lensTermTangent (m dm x dx : ℂ) : ℂ := dm / x - m / x ^ 2 * dx

/-- `point_source.py` 98-103: tangent of `lens_eq`, two lenses. -/
def lensEq2Tangent (p dp : MidParams) (z dz : ℂ) : ℂ :=
  dz - lensTermTangent p.e1 dp.e1 (conj z - p.a) (conj dz - dp.a)
    - lensTermTangent (1 - p.e1) (-dp.e1) (conj z + p.a) (conj dz + dp.a)

/-- `point_source.py` 105-119: tangent of `lens_eq`, three lenses. -/
def lensEq3Tangent (p dp : MidParams) (z dz : ℂ) : ℂ :=
  dz - lensTermTangent p.e1 dp.e1 (conj z - p.a) (conj dz - dp.a)
    - lensTermTangent p.e2 dp.e2 (conj z + p.a) (conj dz + dp.a)
    - lensTermTangent (1 - p.e1 - p.e2) (-dp.e1 - dp.e2) (conj z - conj (r3Complex p))
        (conj dz - conj (r3ComplexTangent p dp))

/-- `extended_source.py` 248-268, 283, `boundary.py` 118-132: distance to the source centre of the ray through `(r, th)`, for
user parameters `u` with tangents `du`; JAX differentiates the modulus as `Re (conj x * dx) / |x|`. -/
def rayDistanceD (nlenses : ℕ) (u du : UserParams) (w_center dw_center : ℂ) (r th : Dual) : Dual :=
  let shifted := xCM u
  let dshifted := xCMTangent u du
  let z : ℂ := (r.v * Real.cos th.v : ℝ) + I * (r.v * Real.sin th.v : ℝ) - shifted
  let dz : ℂ := (r.d * Real.cos th.v + r.v * (-Real.sin th.v * th.d) : ℝ)
    + I * (r.d * Real.sin th.v + r.v * (Real.cos th.v * th.d) : ℝ) - dshifted
  let x := lensEqN nlenses u z - (w_center - shifted)
  let dx := (if nlenses = 3 then lensEq3Tangent (midParams3 u) (midParams3Tangent u du) z dz
    else lensEq2Tangent (midParams2 u) (midParams2Tangent u du) z dz) - (dw_center - dshifted)
  ⟨‖x‖, (conj x * dx).re / ‖x‖⟩

/-- `extended_source.py` 192-330 `mag_uniform` under differentiation, from line 273 on. -/
def magUniformD (nlenses : ℕ) (u du : UserParams) (w_center dw_center : ℂ) (rho : Dual) (r_resolution th_resolution : ℕ)
    (regions : List ((Dual × Dual) × (Dual × Dual))) : Dual :=
  let magnification_unnorm := regions.foldl (fun carry region => carry +
    computeForRangeD (rayDistanceD nlenses u du w_center dw_center) rho r_resolution th_resolution region) (const 0)
  magnification_unnorm / (rho * rho) / const Real.pi

/-- `extended_source.py` 143-155: weight of one angular cell (without `r0 * dth`) of the limb-darkened source. -/
def cellWeightLDD (in1 in2 in3 th_est_B1 th_est_B2 brightness delta_c : Dual) : Dual :=
  let num_inside := in1 * in2 * in3
  let num_B1 := (const 1 - in1) * in2 * in3
  let num_B2 := in1 * in2 * (const 1 - in3)
  let delta_B1 := clip01 (const 2 - th_est_B1) + const zeroTerm
  let delta_B2 := clip01 (th_est_B2 - const 1) + const zeroTerm
  let fac_B1 := calcFacBD delta_B1 delta_c
  let fac_B2 := calcFacBD delta_B2 delta_c
  brightness * num_inside + brightness * fac_B1 * num_B1 + brightness * fac_B2 * num_B2

/-- `extended_source.py` 126-156 `_process_r` of `mag_limb_dark`. -/
def processRLDD (dist : Dual → Dual) (rho u1 delta_c r0 : Dual) (th_values : List Dual) : Dual :=
  let dth := Jnp.get (const 0) th_values 1 - Jnp.get (const 0) th_values 0
  let distances := th_values.map dist
  let in_num := distances.map fun d => inSourceD d rho
  let Is := distances.map fun d => isLimb1stD (d / rho) u1
  let th_est_B1 := cubicInterpArrayD rho (slice 0 4 distances) (slice 1 3 distances) (slice 2 2 distances)
    (slice 3 1 distances)
  let th_est_B2 := cubicInterpArrayD rho (slice 1 3 distances) (slice 2 2 distances) (slice 3 1 distances)
    (slice 4 0 distances)
  Dual.sum (((((slice 1 3 in_num).zip (slice 2 2 in_num)).zip ((slice 3 1 in_num).zip (slice 2 2 Is))).zip
    (th_est_B1.zip th_est_B2)).map
    fun c => r0 * dth * cellWeightLDD c.1.1.1 c.1.1.2 c.1.2.1 c.2.1 c.2.2 c.1.2.2 delta_c)

/-- `extended_source.py` 159-175 `_compute_for_range` of `mag_limb_dark`. -/
def computeForRangeLDD (dist : Dual → Dual → Dual) (rho u1 delta_c : Dual) (r_resolution th_resolution : ℕ)
    (region : (Dual × Dual) × (Dual × Dual)) : Dual :=
  let r_values := linspaceD region.1.1 region.1.2 r_resolution
  let th_values := linspaceD region.2.1 region.2.2 th_resolution
  let area_r := r_values.map fun r => processRLDD (dist r) rho u1 delta_c r th_values
  let dr := Jnp.get (const 0) r_values 1 - Jnp.get (const 0) r_values 0
  dr * Dual.sum area_r

/-- `extended_source.py` 41-189 `mag_limb_dark` under differentiation, from line 126 on. -/
def magLimbDarkD (nlenses : ℕ) (u du : UserParams) (w_center dw_center : ℂ) (rho u1 delta_c : Dual)
    (r_resolution th_resolution : ℕ) (regions : List ((Dual × Dual) × (Dual × Dual))) : Dual :=
  let magnification_unnorm := regions.foldl (fun carry region => carry + computeForRangeLDD
    (rayDistanceD nlenses u du w_center dw_center) rho u1 delta_c r_resolution th_resolution region) (const 0)
  magnification_unnorm / (rho * rho)

end Microjax.Differentiated
