import Verif.Model.Jnp
import Mathlib.Data.List.Basic

/-!
# Model of `src/microjax/utils.py`

All numerical helpers are modelled over an arbitrary linearly ordered field `K` (the code runs on
float64); arrays are lists.
-/

namespace Microjax.Utils

open Jnp

variable {K : Type*} [Field K] [LinearOrder K]

/-- `utils.py` 62-78 `first_nonzero`: `jnp.argmax(x != 0.0)`. -/
def firstNonzero (x : List K) : ℕ := argmaxBool (x.map fun v => decide (v ≠ 0))

/-- `utils.py` 62-78 `first_nonzero` on a boolean array (as called from `match_points`):
`True != 0.0` is `True`. -/
def firstNonzeroBool (x : List Bool) : ℕ := argmaxBool x

/-- `utils.py` 81-102 `last_nonzero`: `(n - 1) - argmax(flip(x) != 0)` if any entry is non-zero,
else `0`. -/
def lastNonzero (x : List K) : ℕ :=
  if x.any (fun v => decide (v ≠ 0)) then
    (x.length - 1) - argmaxBool (x.reverse.map fun v => decide (v ≠ 0))
  else 0

/-- `utils.py` 105-120 `first_zero`: `jnp.argmax(x == 0.0)`. -/
def firstZero (x : List K) : ℕ := argmaxBool (x.map fun v => decide (v = 0))

/-- `utils.py` 123-139 `min_zero_avoiding`. -/
def minZeroAvoiding (x : List K) : K :=
  let xs := sort x
  let min_x := amin xs
  if min_x = 0 then get 0 xs (argmaxBool (xs.map fun v => decide (v ≠ 0))) else min_x

/-- `utils.py` 142-158 `max_zero_avoiding`. -/
def maxZeroAvoiding (x : List K) : K :=
  let xs := sort x
  let max_x := amax xs
  if max_x = 0 then - minZeroAvoiding (xs.map fun v => |v|) else max_x

/-- `utils.py` 161-175 `mean_zero_avoiding`: zeros are replaced by NaN and `jnp.nanmean` averages
the rest (sum of the non-NaN entries divided by their number). -/
def meanZeroAvoiding (x : List K) : K :=
  let mask := x.map fun v => decide (v = 0)
  if mask.all id then 0
  else
    let kept := x.filter fun v => !decide (v = 0)
    kept.sum / (kept.length : K)

/-- `utils.py` 178-191 `sparse_argsort`: zeros are replaced by NaN, and `argsort` puts NaN last.
NaN is modelled by `⊤` of `WithTop K`, which is greater than every number; two NaNs tie. -/
def sparseArgsort (a : List K) : List ℕ :=
  argsort (K := WithTop K) (a.map fun v : K => if v ≠ 0 then (v : WithTop K) else ⊤)

/-- `utils.py` 194-223 `trapz_zero_avoiding`.  The index `tail_idx` is a natural number; reads past
the end clamp (they are discarded by the `cond` in that case). -/
def trapzZeroAvoiding (y x : List K) (tail_idx : ℕ) : K :=
  let I := trapezoid y x
  let xt := get 0 x tail_idx
  let yt := get 0 y tail_idx
  let xtp1 := get 0 x (tail_idx + 1)
  let ytp1 := get 0 y (tail_idx + 1)
  if tail_idx + 1 = x.length then I else I - (1 / 2) * ((yt + ytp1) * (xtp1 - xt))

/-- `utils.py` 53-57, body of the loop of `match_points`: `vals` is row `i` of the argsort,
`idcs` the indices chosen so far.  `mask = ~isin(vals, idcs)`, then `vals[first_nonzero(mask)]`. -/
def matchPick (vals idcs : List ℕ) : ℕ :=
  let mask := vals.map fun v => !decide (v ∈ idcs)
  get 0 vals (firstNonzeroBool mask)

/-- `utils.py` 30-59 `match_points(a, b)`.  The distance `|b - a|` of the code is the parameter
`dist a b`, with values in a linear order (`ℝ` for the code). -/
def matchPoints {P D : Type*} [LinearOrder D] [Inhabited D] (dist : P → P → D)
    (a b : List P) : List ℕ :=
  a.foldl (fun idcs ai => idcs ++ [matchPick (argsort (b.map (dist ai))) idcs]) []

end Microjax.Utils
