import Verif.Model.Utils
import Verif.Model.PointSource

/-!
# Model of `src/microjax/caustics/extended_source/limb.py`

The arrays `z`, `z_mask`, `z_parity` of shape `(n_images, n_samples)` are lists of columns (one column per
limb sample).  The image finder, the initial-guess perturbation and the random numbers are parameters.
-/

namespace Microjax.Limb

open Jnp Utils PointSource

/-- `jnp.insert(arr, idcs, vals)` (library function): `vals[k]` is inserted before `arr[idcs[k]]`; several
values for the same position keep their order. -/
def insertMany {α : Type*} (arr : List α) (idcs : List ℕ) (vals : List α) : List α :=
  (List.range (arr.length + 1)).flatMap fun i =>
    ((idcs.zip vals).filter fun q => decide (q.1 = i)).map Prod.snd ++ arr[i]?.toList

/-- The arrays kept by the refinement loop (`limb.py` 136-164). -/
structure State where
  theta : List ℝ
  z : List (List ℂ)
  mask : List (List Bool)
  parity : List (List ℝ)

/-- `limb.py` 149-155: `delta_z_max`, for the gap between two consecutive columns. -/
noncomputable def deltaMax (z0 z1 : List ℂ) (m0 m1 : List Bool) : ℝ :=
  amax (List.zipWith (fun (d : ℝ) (m : Bool) => if m then d else 0)
    (List.zipWith (fun a b => ‖b - a‖) z0 z1) (List.zipWith (fun a b => b || a) m0 m1))

/-- `limb.py` 149-155 for all gaps. -/
noncomputable def deltas (s : State) : List ℝ :=
  List.zipWith (fun (a b : List ℂ × List Bool) => deltaMax a.1 b.1 a.2 b.2)
    (s.z.zip s.mask) (s.z.zip s.mask).tail

/-- `limb.py` 156: `jnp.argsort(delta_z_max)[::-1][:n]`. -/
noncomputable def idcsTheta (n : ℕ) (d : List ℝ) : List ℕ := (argsort d).reverse.take n

/-- `limb.py` 118-133 `fn` and 142: mask and parity of the images found at one angle.  `imgs θ init` is
`_images_point_source` at `w0 + rho e^{iθ}`, `det` the Jacobian determinant. -/
noncomputable def column (imgs : List (ℂ × Bool)) (det : ℂ → ℝ) : List ℂ × List Bool × List ℝ :=
  (imgs.map Prod.fst, imgs.map Prod.snd, imgs.map fun q => SignType.sign (det q.1) |> fun s => (s : ℝ))

/-- `limb.py` 149-164: one refinement pass.  `fn θ z_init` are the images with the perturbed initial guess
(118-130). -/
noncomputable def refineStep (fn : ℝ → List ℂ → List (ℂ × Bool)) (det : ℂ → ℝ) (n : ℕ) (s : State) :
    State :=
  let idcs := idcsTheta n (deltas s)
  let theta_new := idcs.map fun i => (1 / 2) * (get 0 s.theta i + get 0 s.theta (i + 1))
  let cols := List.zipWith (fun t zi => column (fn t zi) det) theta_new (idcs.map fun i => get [] s.z i)
  { theta := insertMany s.theta (idcs.map (· + 1)) theta_new
    z := insertMany s.z (idcs.map (· + 1)) (cols.map fun c => c.1)
    mask := insertMany s.mask (idcs.map (· + 1)) (cols.map fun c => c.2.1)
    parity := insertMany s.parity (idcs.map (· + 1)) (cols.map fun c => c.2.2) }

/-- `limb.py` 136-138: the initial angles: `linspace(-π, π, npts_init - 1, endpoint=False)` followed by
`π - 1e-8`. -/
noncomputable def thetaInit (npts_init : ℕ) : List ℝ :=
  ((List.range (npts_init - 1)).map fun i : ℕ =>
    -Real.pi + (i : ℝ) * (2 * Real.pi / ((npts_init - 1 : ℕ) : ℝ))) ++ [Real.pi - 1 / 10 ^ 8]

/-- `limb.py` 136-142: the initial sampling. `fnInit ws` are the columns of
`_images_point_source_sequential` at the given angles. -/
noncomputable def initState (seq : List ℝ → List (List (ℂ × Bool))) (det : ℂ → ℝ) (npts_init : ℕ) :
    State :=
  let theta := thetaInit npts_init
  let cols := (seq theta).map fun c => column c det
  { theta := theta, z := cols.map fun c => c.1, mask := cols.map fun c => c.2.1,
    parity := cols.map fun c => c.2.2 }

/-- `limb.py` 136-164: sampling and refinement; `niter` passes with `n = int(npts_additional / niter)`
insertions each. -/
noncomputable def sampling (seq : List ℝ → List (List (ℂ × Bool))) (fn : ℝ → List ℂ → List (ℂ × Bool))
    (det : ℂ → ℝ) (npts niter : ℕ) : State :=
  let n := npts / 2 / niter
  (List.range niter).foldl (fun s _ => refineStep fn det n s) (initState seq det (npts / 2))

open Classical in
/-- `limb.py` 167-176: add a random number to every entry of `z` that is not the first occurrence (in the
order of `reshape(-1)`: image by image) of its value. `noise i k` is the random number for image `i`, sample
`k`. -/
noncomputable def dedupe (noise : ℕ → ℕ → ℝ) (z : List (List ℂ)) : List (List ℂ) :=
  let entry := fun i k : ℕ => (z.getD k []).getD i 0
  z.mapIdx fun k col => col.mapIdx fun i v =>
    if ∃ i' k' : ℕ, k' < z.length ∧ i' < (z.getD k' []).length ∧ (i' < i ∨ (i' = i ∧ k' < k)) ∧
        entry i' k' = v
    then v + (noise i k : ℂ) else v

/-- `limb.py` 54-57 `apply_match_points`: one column of (position, mask, parity). -/
noncomputable def applyMatch (carry : List ℂ) (col : List (ℂ × Bool × ℝ)) : List (ℂ × Bool × ℝ) :=
  (matchPoints (fun a b : ℂ => ‖b - a‖) carry (col.map fun q => q.1)).map fun i => get (0, false, 0) col i

/-- `limb.py` 52-63 `_permute_images`: scan over the columns, starting from the first one.  The cast of
the mask to complex and back is the identity. -/
noncomputable def permuteImages (cols : List (List (ℂ × Bool × ℝ))) : List (List (ℂ × Bool × ℝ)) :=
  go ((cols.headD []).map fun q => q.1) cols
where
  /-- the scan (60) -/
  go (carry : List ℂ) : List (List (ℂ × Bool × ℝ)) → List (List (ℂ × Bool × ℝ))
    | [] => []
    | c :: cs =>
      let r := applyMatch carry c
      r :: go (r.map fun q => q.1) cs

/-- the three arrays as columns of triples (`limb.py` 52 `jnp.stack`) -/
def stack (z : List (List ℂ)) (mask : List (List Bool)) (parity : List (List ℝ)) :
    List (List (ℂ × Bool × ℝ)) :=
  List.zipWith (fun zc mp => List.zipWith (fun a (b : Bool × ℝ) => (a, b.1, b.2)) zc mp)
    z (List.zipWith (fun m p => m.zip p) mask parity)

/-- `limb.py` 66-180 `_images_of_source_limb`: columns of (position, mask, parity). -/
noncomputable def imagesOfSourceLimb (seq : List ℝ → List (List (ℂ × Bool)))
    (fn : ℝ → List ℂ → List (ℂ × Bool)) (det : ℂ → ℝ) (noise : ℕ → ℕ → ℝ) (npts niter : ℕ) :
    List (List (ℂ × Bool × ℝ)) :=
  let s := sampling seq fn det npts niter
  permuteImages (stack (dedupe noise s.z) s.mask s.parity)

end Microjax.Limb
