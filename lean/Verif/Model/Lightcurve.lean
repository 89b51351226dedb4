import Verif.Model.Jnp
import Verif.Model.Multipole
import Verif.Model.Tests

/-!
# Model of `inverse_ray/lightcurve.py` and of `caustics/lightcurve.py` (`magnifications`)

The finite-source solvers called for the points that fail the accuracy tests are parameters of these
definitions (`mag_uniform`, `mag_limb_dark`, `mag_extended_source` are modelled in their own files); so is the
polynomial root finder `roots`, as in `PointSource`.  `jit`, `checkpoint` and `vmap` do not change values.
-/

noncomputable section

namespace Microjax.Lightcurve

open Complex PointSource Multipole Tests

/-- `reshape(-1, c)` of a one-dimensional array. -/
def reshape {α : Type*} (c : ℕ) (x : List α) : List (List α) :=
  (List.range (x.length / c)).map fun k => (x.drop (k * c)).take c

/-- `inverse_ray/lightcurve.py` 192-196 and 350-354 `chunked_vmap`: pad with zeros to a multiple of the chunk
size, map over the chunks, flatten, drop the padding. -/
def chunkedVmap {α β : Type*} (zero : α) (func : α → β) (data : List α) (chunk_size : ℕ) : List β :=
  let N := data.length
  let pad_len := (chunk_size - N % chunk_size) % chunk_size
  let chunks := reshape chunk_size (data ++ List.replicate pad_len zero)
  ((chunks.map fun c => c.map func).flatten).take N

/-- `x.at[idx].set(v)` (the indices are distinct here). -/
def scatterSet {α : Type*} (x : List α) (idx : List ℕ) (v : List α) : List α :=
  (idx.zip v).foldl (fun acc iv => acc.set iv.1 iv.2) x

/-- `inverse_ray/lightcurve.py` 189-190 and 211-215 (binary), 347-348 and 357-360 (triple): choose the points to
evaluate in full, evaluate them in chunks, put the values back, keep accepted points. -/
def refine (test : List Bool) (mu_multi : List ℝ) (mag_full : ℂ → ℝ) (w_points : List ℂ)
    (MAX_FULL_CALLS chunk_size : ℕ) : List ℝ :=
  let idx_sorted := Jnp.argsort test
  let idx_full := idx_sorted.take MAX_FULL_CALLS
  let mag_extended := chunkedVmap 0 mag_full (idx_full.map (Jnp.get 0 w_points)) chunk_size
  let mags := scatterSet mu_multi idx_full mag_extended
  List.zipWith (fun t mg => if t then mg.1 else mg.2) test (mu_multi.zip mags)

/-- `inverse_ray/lightcurve.py` 172-173: multipole magnification and error estimate of one shifted point. -/
def multi2 (roots : Option (List ℂ) → List ℂ → List ℂ) (p : MidParams) (rho u1 : ℝ) (w : ℂ) : ℝ × ℝ :=
  sumTerms (wk2 p) (images2 roots none p w) rho u1

/-- `inverse_ray/lightcurve.py` 174-176: the accept/reject test of one shifted point. -/
def test2 (roots : Option (List ℂ) → List ℂ → List ℂ) (p : MidParams) (q rho u1 : ℝ) (w : ℂ) : Bool :=
  let test1 := proximityTest (field2 p) w (images2 roots none p w) rho (multi2 roots p rho u1 w).2
  let test2 := planetaryTest p w rho
  if q < 1 / 100 then test1 && test2 else test1

/-- `inverse_ray/lightcurve.py` 62-215 `mag_binary`; `s`, `q` are the optional entries of `**params` (lines
159-162).  `mag_uniform`, `mag_limb_dark` are the finite-source solvers of lines 178-187 with the remaining
arguments supplied. -/
def magBinary (roots : Option (List ℂ) → List ℂ → List ℂ) (mag_uniform mag_limb_dark : ℂ → ℝ)
    (w_points : List ℂ) (rho u1 : ℝ) (MAX_FULL_CALLS chunk_size : ℕ) (s q : Option ℝ) :
    Except Err (List ℝ) :=
  match s, q with
  | some s, some q =>
    let u : UserParams := { s := s, q := q, q3 := 0, r3 := 0, psi := 0 }
    let p := midParams2 u
    let w_points_shifted := w_points.map (· - (xCM u : ℂ))
    let mu_multi := w_points_shifted.map fun w => (multi2 roots p rho u1 w).1
    let test := w_points_shifted.map (test2 roots p q rho u1)
    let mag_full := if u1 = 0 then mag_uniform else mag_limb_dark
    .ok (refine test mu_multi mag_full w_points MAX_FULL_CALLS chunk_size)
  | _, _ => .error (.valueError "For nlenses=2, 's' and 'q' must be provided.")

/-- `inverse_ray/lightcurve.py` 217-360 `mag_triple`. -/
def magTriple (roots : Option (List ℂ) → List ℂ → List ℂ) (mag_uniform mag_limb_dark : ℂ → ℝ)
    (w_points : List ℂ) (rho u1 : ℝ) (MAX_FULL_CALLS chunk_size : ℕ) (u : UserParams) : List ℝ :=
  let p := midParams3 u
  let w_points_shifted := w_points.map (· - (xCM u : ℂ))
  let mu_multi := w_points_shifted.map fun w => (sumTerms (wk3 p) (images3 roots p w) rho u1).1
  let test := w_points.map fun _ => false
  let mag_full := if u1 = 0 then mag_uniform else mag_limb_dark
  refine test mu_multi mag_full w_points MAX_FULL_CALLS chunk_size

/-- `w_points > 2*rho` for complex `w` and real `rho` (`caustics/lightcurve.py` 248): JAX compares complex
numbers lexicographically. -/
def complexGt (w : ℂ) (x : ℝ) : Bool := decide (if w.re = x then w.im > 0 else w.re > x)

/-- `caustics/lightcurve.py` 132-293 `magnifications`.  `mag_full` is `mag_extended_source` with the remaining
arguments supplied, as a function of `u1` and the position.  `u1` is not passed to `mag_hexadecapole`
(lines 249, 253), whose default is 0. -/
def magnifications (roots : Option (List ℂ) → List ℂ → List ℂ) (mag_full_u1 : ℝ → ℂ → ℝ) (nlenses : ℕ)
    (w_points : List ℂ) (rho u1 : ℝ) (u : UserParams) : Except Err (List ℝ) :=
  let mag_full := mag_full_u1 u1
  if nlenses = 1 then
    let test := w_points.map fun w => complexGt w (2 * rho)
    let mu_multi := w_points.map fun w => (sumTerms wk1 (images1 w) rho 0).1
    .ok ((test.zip (mu_multi.zip w_points)).map fun xs => if xs.1 then xs.2.1 else mag_full xs.2.2)
  else if nlenses = 2 then
    let p := midParams2 u
    let shifted := w_points.map (· - (xCM u : ℂ))
    let test := shifted.map (test2 roots p u.q rho 0)
    let mu_multi := shifted.map fun w => (multi2 roots p rho 0 w).1
    .ok ((test.zip (mu_multi.zip w_points)).map fun xs => if xs.1 then xs.2.1 else mag_full xs.2.2)
  else if nlenses = 3 then
    let test := w_points.map fun _ => false
    let mu_multi := w_points.map fun _ => (0 : ℝ)
    .ok ((test.zip (mu_multi.zip w_points)).map fun xs => if xs.1 then xs.2.1 else mag_full xs.2.2)
  else .error (.valueError "nlenses must be <= 3")

end Microjax.Lightcurve
