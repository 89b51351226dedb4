import Mathlib.Data.List.Sort
import Mathlib.Algebra.Order.Field.Basic
import Mathlib.Algebra.BigOperators.Group.List.Basic

/-!
# Meaning given to the `jax.numpy` primitives used by microjax

These definitions do not model lines of `/repo`; they are the meaning given to the library
functions that the modelled code calls.  They are part of the trusted base.
-/

namespace Microjax.Jnp

/-- `x[i]` for a traced (non-static) index `i ≥ 0`: JAX clamps out-of-range reads to the last
entry.  The default is only used for the empty array, which the real code cannot index. -/
def get {α : Type*} (d : α) (x : List α) (i : ℕ) : α :=
  x.getD (min i (x.length - 1)) d

/-- `jnp.argmax` of a boolean array: index of the first `True`, `0` if there is none. -/
def argmaxBool (x : List Bool) : ℕ :=
  if x.findIdx id < x.length then x.findIdx id else 0

/-- `jnp.min` of a one-dimensional array (the real function raises on an empty array). -/
def amin {K : Type*} [LinearOrder K] [Zero K] : List K → K
  | [] => 0
  | x :: xs => xs.foldl min x

/-- `jnp.max` of a one-dimensional array (the real function raises on an empty array). -/
def amax {K : Type*} [LinearOrder K] [Zero K] : List K → K
  | [] => 0
  | x :: xs => xs.foldl max x

/-- `jnp.sort` of a one-dimensional array. -/
def sort {K : Type*} [LinearOrder K] (x : List K) : List K :=
  x.insertionSort (· ≤ ·)

/-- The order in which a stable sort by `key` lists indices: first by key, then by position. -/
def keyLe {K : Type*} [LinearOrder K] (key : ℕ → K) (i j : ℕ) : Prop :=
  key i < key j ∨ (key i = key j ∧ i ≤ j)

instance {K : Type*} [LinearOrder K] (key : ℕ → K) : DecidableRel (keyLe key) :=
  fun i j => by unfold keyLe; infer_instance

/-- `jnp.argsort` (stable by default): the indices `0 … n-1` sorted by key, ties by position. -/
def argsortKey {K : Type*} [LinearOrder K] (n : ℕ) (key : ℕ → K) : List ℕ :=
  (List.range n).insertionSort (keyLe key)

/-- `jnp.argsort(x)` for a one-dimensional array. -/
def argsort {K : Type*} [LinearOrder K] [Inhabited K] (x : List K) : List ℕ :=
  argsortKey x.length (fun i => x.getD i default)

/-- `jax.scipy.integrate.trapezoid(y, x)`: sum over consecutive samples of
`0.5 * (x[i+1]-x[i]) * (y[i+1]+y[i])`. -/
def trapezoid {K : Type*} [Field K] : List K → List K → K
  | y0 :: y1 :: ys, x0 :: x1 :: xs =>
      (1 / 2) * ((x1 - x0) * (y1 + y0)) + trapezoid (y1 :: ys) (x1 :: xs)
  | _, _ => 0

end Microjax.Jnp
