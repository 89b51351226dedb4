import Verif.Model.Jnp
import Mathlib.Analysis.SpecialFunctions.Complex.Circle
import Mathlib.Analysis.Complex.Basic

/-!
# Model of `src/microjax/poly_solver.py` (Ehrlich-Aberth root finder)

complex128 is `ℂ`, float64 is `ℝ` (exact arithmetic).  A division by zero, inf/NaN in the code, is Lean's
total division; theorems that need a non-zero denominator say so.
-/

noncomputable section

namespace Microjax.PolySolver

open Complex Jnp

/-- Exceptions. -/
inductive Err
  | assertion (msg : String)

/-- `jnp.polyval` (Horner), used at `poly_solver.py` 139-140, 246. -/
def polyval (c : List ℂ) (x : ℂ) : ℂ := c.foldl (fun acc ck => acc * x + ck) 0

/-- `poly_solver.py` 64-88 `_polyder_coeffs`. -/
def polyderCoeffs (c : List ℂ) : List ℂ :=
  if c.length ≤ 1 then c.map fun _ => (0 : ℂ)
  else
    let n := c.length - 1
    List.zipWith (fun (ck : ℂ) (p : ℕ) => ck * (p : ℂ)) c.dropLast
      ((List.range n).map fun i : ℕ => n - i)

/-- `jnp.finfo(float64).eps` (106, 202). -/
def epsMach : ℝ := 1 / 2 ^ 52

/-- `poly_solver.py` 91-110 `_cauchy_radius`. -/
def cauchyRadius (c : List ℂ) : ℝ :=
  let denom := max ‖c.headD 0‖ epsMach
  1 + amax (c.tail.map fun ci : ℂ => ‖ci‖ / denom)

/-- `poly_solver.py` 139-149: the update of one component. -/
def eaUpdate (roots coeffs dcoeffs : List ℂ) (eps : ℝ) (z : ℂ) : ℂ :=
  let f := polyval coeffs z
  let fp := polyval dcoeffs z
  let s := (roots.map fun r : ℂ => if z - r = 0 then 0 else 1 / (z - r)).sum
  let den := fp - f * s
  let den := if ‖den‖ < eps then fp else den
  f / den

/-- `poly_solver.py` 113-151 `_ea_step`: the list of updates; `new_roots = roots - update`. -/
def eaStep (roots coeffs dcoeffs : List ℂ) (eps : ℝ) : List ℂ × List ℂ :=
  let update := roots.map (eaUpdate roots coeffs dcoeffs eps)
  (List.zipWith (fun r u : ℂ => r - u) roots update, update)

/-- The carry of the while loop (204-216). -/
structure State where
  it : ℕ
  roots : List ℂ
  done : List Bool

/-- `poly_solver.py` 204-206 `cond_fun`. -/
def condFun (max_iter : ℕ) (s : State) : Bool := decide (s.it < max_iter) && s.done.any (fun d => !d)

/-- `poly_solver.py` 208-213 `body_fun`. -/
def bodyFun (coeffs dcoeffs : List ℂ) (eps tol : ℝ) (s : State) : State :=
  let st := eaStep s.roots coeffs dcoeffs eps
  { it := s.it + 1
    roots := List.zipWith (fun (d : Bool) (rn : ℂ × ℂ) => if d then rn.1 else rn.2) s.done
      (List.zip s.roots st.1)
    done := List.zipWith (fun (d : Bool) (u : ℂ) => d || decide (‖u‖ ≤ tol)) s.done st.2 }

/-- `poly_solver.py` 217 `lax.while_loop(cond_fun, body_fun, init_state)`. -/
def eaLoop (coeffs dcoeffs : List ℂ) (eps tol : ℝ) (max_iter : ℕ) (s : State) : State :=
  if condFun max_iter s then eaLoop coeffs dcoeffs eps tol max_iter (bodyFun coeffs dcoeffs eps tol s)
  else s
termination_by max_iter - s.it
decreasing_by
  rename_i h
  simp only [condFun, Bool.and_eq_true, decide_eq_true_eq] at h
  simp only [bodyFun]; omega

/-- `poly_solver.py` 193-197: default starting circle. -/
def initialCircle (c : List ℂ) : List ℂ :=
  let n := c.length - 1
  (List.range n).map fun k : ℕ => (cauchyRadius c : ℂ) * exp (2 * I * Real.pi * k / n)

/-- `poly_solver.py` 219-229 `_clean_real_roots`. -/
def cleanRealRoots (tol : ℝ) (roots coeffs : List ℂ) : List ℂ :=
  if coeffs.all (fun c => decide (|c.im| < 10 * tol)) then
    roots.map fun r : ℂ => (r.re : ℂ) + I * ((if |r.im| < 10 * tol then 0 else r.im : ℝ) : ℂ)
  else roots

/-- `poly_solver.py` 193-199 and 215-216: the initial state. -/
def initState (coeffs : List ℂ) (init : Option (List ℂ)) : State :=
  { it := 0
    roots := init.getD (initialCircle coeffs)
    done := List.replicate (coeffs.length - 1) false }

/-- `poly_solver.py` 154-232 `poly_roots_EA` (a negative `max_iter` behaves like 0 and is not modelled
separately; `eps = finfo.eps * 10`, 202). -/
def polyRootsEA (coeffs : List ℂ) (init : Option (List ℂ)) (tol : ℝ) (max_iter : ℕ) :
    Except Err (List ℂ) :=
  if coeffs.length - 1 < 1 then .error (.assertion "Polynomial degree must be >= 1")
  else
    let dcoeffs := polyderCoeffs coeffs
    let s := eaLoop coeffs dcoeffs (epsMach * 10) tol max_iter (initState coeffs init)
    .ok (cleanRealRoots tol s.roots coeffs)

/-- `poly_solver.py` 235-251: tangent of one root (`dz` at 250); `V @ dcoeffs` is
`Σ_k root^(n-k) dcoeffs[k]`. -/
def rootTangent (coeffs dcoeffs : List ℂ) (root : ℂ) : ℂ :=
  let n := coeffs.length - 1
  let df_dz := polyval (polyderCoeffs coeffs) root
  let Vd := ((List.range (n + 1)).map fun k : ℕ => root ^ (n - k) * dcoeffs.getD k 0).sum
  (-Vd) / df_dz

/-- `poly_solver.py` 235-251 `_poly_roots_EA_jvp` (primal and tangent; only the coefficients carry a
tangent). -/
def polyRootsJVP (coeffs dcoeffs : List ℂ) (init : Option (List ℂ)) (tol : ℝ) (max_iter : ℕ) :
    Except Err (List ℂ × List ℂ) :=
  match polyRootsEA coeffs init tol max_iter with
  | .error e => .error e
  | .ok roots => .ok (roots, roots.map (rootTangent coeffs dcoeffs))

/-! ## Batches -/

/-- `poly_solver.py` 204-217 under the `vmap` of 284/286: one step of the batched loop for one lane
(coefficients and state), see `batchLoop`. -/
def laneStep (eps tol : ℝ) (max_iter : ℕ) (l : List ℂ × State) : List ℂ × State :=
  (l.1, if condFun max_iter l.2 then bodyFun l.1 (polyderCoeffs l.1) eps tol l.2 else l.2)

/-- `poly_solver.py` 204-217 under the `vmap` of 284/286: one step of the batched loop for all lanes. -/
def batchStep (eps tol : ℝ) (max_iter : ℕ) (lanes : List (List ℂ × State)) : List (List ℂ × State) :=
  lanes.map (laneStep eps tol max_iter)

/-- `jax.vmap` of the loop (`poly_solver.py` 217 under 284 and 286).  A `lax.while_loop` with a batched
predicate runs while *any* lane wants to continue, evaluates the body for all lanes and selects, lane by
lane, the new carry where that lane's own predicate holds and the old one otherwise. -/
def batchLoop (eps tol : ℝ) (max_iter : ℕ) (lanes : List (List ℂ × State)) :
    List (List ℂ × State) :=
  if lanes.any (fun l => condFun max_iter l.2) then
    batchLoop eps tol max_iter (batchStep eps tol max_iter lanes)
  else lanes
termination_by (lanes.map fun l => max_iter - l.2.it).sum
decreasing_by
  rename_i h
  rw [batchStep, List.map_map]
  have one : ∀ l : List ℂ × State, max_iter - (laneStep eps tol max_iter l).2.it ≤ max_iter - l.2.it ∧
      (condFun max_iter l.2 = true →
        max_iter - (laneStep eps tol max_iter l).2.it < max_iter - l.2.it) := by
    intro l
    by_cases hc : condFun max_iter l.2 = true
    · have hlt : l.2.it < max_iter := by
        simp only [condFun, Bool.and_eq_true, decide_eq_true_eq] at hc; exact hc.1
      simp only [laneStep, hc, if_true, bodyFun]
      omega
    · simp [laneStep, hc]
  have key : ∀ ls : List (List ℂ × State),
      (ls.map fun l => max_iter - (laneStep eps tol max_iter l).2.it).sum
        ≤ (ls.map fun l => max_iter - l.2.it).sum ∧
      (ls.any (fun l => condFun max_iter l.2) = true →
        (ls.map fun l => max_iter - (laneStep eps tol max_iter l).2.it).sum
          < (ls.map fun l => max_iter - l.2.it).sum) := by
    intro ls
    induction ls with
    | nil => simp
    | cons l ls ih =>
      simp only [List.map_cons, List.sum_cons, List.any_cons, Bool.or_eq_true]
      have h1 := one l
      refine ⟨by omega, ?_⟩
      rintro (h | h)
      · have := h1.2 h; omega
      · have := ih.2 h; omega
  exact (key lanes).2 h

/-- `poly_solver.py` 254-286 `poly_roots_EA_multi` on the rows of the flattened coefficient matrix; the
initial guesses, if given, are paired row by row.  All rows have the same length (matrix), so the `assert`
is the same for all. -/
def polyRootsMulti (rows : List (List ℂ)) (inits : Option (List (List ℂ))) (tol : ℝ) (max_iter : ℕ) :
    List (List ℂ) :=
  let lanes : List (List ℂ × State) := match inits with
    | none => rows.map fun c => (c, initState c none)
    | some is => List.zipWith (fun c i => (c, initState c (some i))) rows is
  (batchLoop (epsMach * 10) tol max_iter lanes).map fun l =>
    cleanRealRoots tol l.2.roots l.1

/-- `reshape((-1, k))` of row-major data: cut into consecutive rows of length `k`. -/
def chunk (k : ℕ) (xs : List ℂ) : List (List ℂ) :=
  (List.range (xs.length / k)).map fun i => (xs.drop (i * k)).take k

/-- `poly_solver.py` 289-321 `poly_roots`.  An array of shape `dims ++ [ncoeffs]` is given by `ncoeffs` and its
row-major data; the result is the row-major data of the array of shape `dims ++ [ncoeffs - 1]`.  Defaults
`tol = 1e-12`, `max_iter = 100` (254-259). -/
def polyRoots (ncoeffs : ℕ) (data : List ℂ) (rootsInit : Option (List ℂ)) : Except Err (List ℂ) :=
  if ncoeffs - 1 < 1 then .error (.assertion "Polynomial degree must be >= 1")
  else
    .ok (polyRootsMulti (chunk ncoeffs data) (rootsInit.map (chunk (ncoeffs - 1))) (1 / 10 ^ 12) 100).flatten

/-- `poly_solver.py` 289-321 `poly_roots` for one polynomial (a coefficient array with one row), as called by
`point_source.py` 345-347; an exception (degree zero, which cannot happen there) gives no roots. -/
def polyRoots1 (init : Option (List ℂ)) (c : List ℂ) : List ℂ :=
  match polyRoots c.length c init with
  | .ok out => out
  | .error _ => []

end Microjax.PolySolver
