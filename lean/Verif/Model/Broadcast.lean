import Verif.Model.PointSource

/-!
# Model of `mag_point_source` for arrays: broadcasting of sources and lens parameters

`point_source.py` 409-469 and 268-355, `coeffs.py` 53-193 for arguments that are arrays.  The per-element arithmetic is that of
`Verif.Model.PointSource`; what is modelled here is which elements meet: the shapes, the broadcasting of NumPy (and JAX, whose
default allows rank promotion), the axis of the roots, `moveaxis`, `sum(axis=0)` and `reshape`.

Simplification: an expression of several elementwise operations is one elementwise operation here.  Broadcasting is associative
and every intermediate array of such an expression is broadcast into the result, so the shape, the elements and the error of the
whole expression are the same.
-/

noncomputable section

namespace Microjax.Broadcast

open Complex ComplexConjugate Microjax.PointSource

/-- An array.  The shape is listed from the trailing axis (NumPy aligns shapes there), a multi-index `i` gives the position on
the axis `k` counted from the trailing one as `i k`. -/
structure Arr (α : Type) where
  shape : List ℕ
  get : (ℕ → ℕ) → α

/-- A scalar argument. -/
def Arr.scalar {α : Type} (c : α) : Arr α := ⟨[], fun _ => c⟩

/-- Length of the axis `k` (from the trailing one); axes that an array does not have count as axes of length one. -/
def dim (s : List ℕ) (k : ℕ) : ℕ := s.getD k 1

/-- The element of a broadcast array at a multi-index: axes of length one are repeated. -/
def Arr.read {α : Type} (x : Arr α) (i : ℕ → ℕ) : α := x.get fun k => if dim x.shape k = 1 then 0 else i k

/-- The broadcast of two shapes (NumPy's rule, used by every operator of `point_source.py` 98-176, 326-339, 350-353, 443-469). -/
def bdims : List ℕ → List ℕ → Option (List ℕ)
  | [], t => some t
  | s, [] => some s
  | a :: s, b :: t =>
    if a = 1 then (bdims s t).map (b :: ·)
    else if b = 1 ∨ a = b then (bdims s t).map (a :: ·)
    else none

/-- A binary elementwise operation with broadcasting; incompatible shapes raise (`TypeError`/`ValueError` of `jax.numpy`). -/
def map2 {α β γ : Type} (f : α → β → γ) (x : Arr α) (y : Arr β) : Except Err (Arr γ) :=
  match bdims x.shape y.shape with
  | none => .error (.valueError "Incompatible shapes for broadcasting")
  | some s => .ok ⟨s, fun i => f (x.read i) (y.read i)⟩

/-- `point_source.py` 344-347 and 334 with `poly_solver.py` 315-325 (`output_shape = coeffs.shape[:-1] + (n,)`): the roots of an
array of polynomials have the batch axes first and the `n` roots on the trailing axis. -/
def rootsArr (n : ℕ) (roots : Option (List ℂ) → List ℂ → List ℂ) (c : Arr (List ℂ)) : Arr ℂ :=
  ⟨n :: c.shape, fun i => (roots none (c.read fun k => i (k + 1))).getD (i 0) 0⟩

/-- `point_source.py` 336, 349: `jnp.moveaxis(z, -1, 0)`. -/
def moveLastFirst {α : Type} (x : Arr α) : Arr α :=
  ⟨x.shape.tail ++ [x.shape.headD 1],
    fun i => x.read fun k => if k = 0 then i (x.shape.length - 1) else i (k - 1)⟩

/-- `point_source.py` 469: `mag.sum(axis=0)`, the sum over the leading axis. -/
def sumFirst (x : Arr ℝ) : Arr ℝ :=
  ⟨x.shape.dropLast, fun i => ((List.range (x.shape.getLastD 1)).map fun j =>
    x.read fun k => if k = x.shape.length - 1 then j else i k).sum⟩

/-- Row-major position of a multi-index (trailing axis fastest). -/
def flat : List ℕ → (ℕ → ℕ) → ℕ
  | [], _ => 0
  | d :: s, i => i 0 + d * flat s fun k => i (k + 1)

/-- The multi-index at a row-major position. -/
def unflat : List ℕ → ℕ → ℕ → ℕ
  | [], _, _ => 0
  | d :: _, m, 0 => m % d
  | d :: s, m, k + 1 => unflat s (m / d) k

/-- `point_source.py` 469: `.reshape(w.shape)`; row-major, raises if the sizes differ. -/
def reshape {α : Type} (t : List ℕ) (x : Arr α) : Except Err (Arr α) :=
  if t.prod = x.shape.prod then .ok ⟨t, fun i => x.get (unflat x.shape (flat t i))⟩
  else .error (.valueError "cannot reshape array")

/-- `point_source.py` 467-469 for arrays: determinant, mask, sum over the images, `reshape(w.shape)`. -/
def magOf (leq : MidParams → ℂ → ℂ) (det : MidParams → ℂ → ℝ) (tol : ℝ) (p : Arr MidParams) (w : Arr ℂ) (z : Arr ℂ) :
    Except Err (Arr ℝ) := do
  let lens_eq_z ← map2 (fun z p => leq p z) z p
  let mask ← map2 (fun y w => decide (‖y - w‖ < tol)) lens_eq_z w
  let d ← map2 (fun z p => det p z) z p
  let mag ← map2 (fun (d : ℝ) (m : Bool) => (1 / |d|) * (if m then 1 else 0)) d mask
  reshape w.shape (sumFirst mag)

/-- `point_source.py` 442-449, 325-327, 344-355, 467-469: `mag_point_source(w, nlenses=2, s=s, q=q)` for arrays `w, s, q`. -/
def magBinary (roots : Option (List ℂ) → List ℂ → List ℂ) (w : Arr ℂ) (s q : Arr ℝ) : Except Err (Arr ℝ) := do
  let u ← map2 (fun s q => ({ s := s, q := q } : UserParams)) s q
  let p : Arr MidParams := ⟨u.shape, fun i => midParams2 (u.get i)⟩
  let w ← map2 (fun (w : ℂ) u => w - xCM u) w u
  let coeffs ← map2 (fun w (p : MidParams) => polyCoeffsBinary w p.a p.e1) w p
  let z := moveLastFirst (rootsArr 5 roots coeffs)
  magOf lensEq2 detJac2 (1 / 10 ^ 6) p w z

/-- `point_source.py` 450-463, 329-339, 467-469: `mag_point_source(w, nlenses=3, s=s, q=q, q3=q3, r3=r3, psi=psi)` for arrays.
`x_cm` (461) uses `s` and `q` only.  In line 335 the array `shift_cm`, which has the shape of the lens parameters, is added to the
array of roots, which has the roots on its trailing axis; the roots are moved to the front afterwards (336). -/
def magTriple (roots : Option (List ℂ) → List ℂ → List ℂ) (w : Arr ℂ) (s q q3 r3 psi : Arr ℝ) : Except Err (Arr ℝ) := do
  let u2 ← map2 (fun s q => ({ s := s, q := q } : UserParams)) s q
  let u3 ← map2 (fun (u : UserParams) q3 => { u with q3 := q3 }) u2 q3
  let u4 ← map2 (fun (u : UserParams) r3 => { u with r3 := r3 }) u3 r3
  let u ← map2 (fun (u : UserParams) psi => { u with psi := psi }) u4 psi
  let p : Arr MidParams := ⟨u.shape, fun i => midParams3 (u.get i)⟩
  let w ← map2 (fun (w : ℂ) u => w - xCM u) w u2
  let coeffs ← map2 (fun w (p : MidParams) => polyCoeffsTripleCM w p.a (r3Complex p) p.e1 p.e2) w p
  let shift_cm : Arr ℂ := ⟨p.shape, fun i => shiftCM (p.get i).a (r3Complex (p.get i)) (p.get i).e1 (p.get i).e2⟩
  let z ← map2 (fun z c : ℂ => z + c) (rootsArr 10 roots coeffs) shift_cm
  magOf lensEq3 detJac3 (1 / 10 ^ 3) p w (moveLastFirst z)

end Microjax.Broadcast
