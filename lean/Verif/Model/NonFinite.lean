import Verif.Model.PointSource

/-!
# Model of the non-finite values of `mag_point_source` (`src/microjax/point_source.py` 98-177, 317-355, 466-469)

`Verif.Model.PointSource` uses Lean's total division.  Here a division by zero gives what it gives in the code, an infinite
value or not-a-number, and these are propagated as by IEEE 754 up to the returned value.  Finite values are exact real numbers
as in `Verif.Model.PointSource`; overflow and signed zeros are not modelled (all quantities below are absolute values, hence
not negative).
-/

noncomputable section

namespace Microjax.NonFinite

open Complex ComplexConjugate Microjax.PointSource

/-- A nonnegative float64: a number, `inf` or `nan`. -/
inductive Ext
  | fin (x : ℝ)
  | inf
  | nan

/-- The absolute value (`jnp.abs`, `point_source.py` 154-156, 168-175, 338, 353) of a complex number in which a division by
zero has occurred: its parts are infinite or not-a-number in a combination that depends on the platform, its absolute value is
`inf` or `nan`.  All theorems are for both. -/
inductive DivZero
  | inf
  | nan

/-- The value of `DivZero` as a float. -/
def DivZero.toExt : DivZero → Ext
  | .inf => .inf
  | .nan => .nan

/-- `point_source.py` 468 `1.0 / x` for `x >= 0`. -/
def recip : Ext → Ext
  | .fin x => if x = 0 then .inf else .fin (1 / x)
  | .inf => .fin 0
  | .nan => .nan

/-- `point_source.py` 468 `x * z_mask`: a Boolean is converted to 0 or 1; `inf * 0` is `nan`. -/
def mulMask (x : Ext) (b : Bool) : Ext :=
  match x with
  | .fin x => .fin (x * if b then 1 else 0)
  | .inf => if b then .inf else .nan
  | .nan => .nan

/-- Addition of two nonnegative values, for the sum in `point_source.py` 469. -/
def add : Ext → Ext → Ext
  | .fin x, .fin y => .fin (x + y)
  | .nan, _ => .nan
  | _, .nan => .nan
  | .inf, _ => .inf
  | _, .inf => .inf

/-- `point_source.py` 469 `mag.sum(axis=0)`. -/
def sum : List Ext → Ext
  | [] => .fin 0
  | x :: l => add x (sum l)

/-- `point_source.py` 150-177 and 468: `jnp.abs(lens_eq_det_jac(z))` for two or three lenses; `on` says that `z` is at the
position of a lens (then the complex sum has a division by zero, and `1 - x ** 2` keeps `inf` and `nan`), `det` is the
determinant elsewhere. -/
def absDet (dz : DivZero) (on : ℂ → Prop) [DecidablePred on] (det : ℂ → ℝ) (z : ℂ) : Ext :=
  if on z then dz.toExt else .fin |det z|

/-- `point_source.py` 337-338, 351-353: the mask `jnp.abs(lens_eq(z) - w) < tol`; a comparison with `inf` or `nan` on its left
is false. -/
def mask (on : ℂ → Prop) [DecidablePred on] (leq : ℂ → ℂ) (tol : ℝ) (w z : ℂ) : Bool :=
  if on z then false else decide (‖leq z - w‖ < tol)

/-- `point_source.py` 466-469 for given roots. -/
def sumExt (dz : DivZero) (on : ℂ → Prop) [DecidablePred on] (leq : ℂ → ℂ) (det : ℂ → ℝ) (tol : ℝ) (w : ℂ)
    (zs : List ℂ) : Ext :=
  sum (zs.map fun z => mulMask (recip (absDet dz on det z)) (mask on leq tol w z))

/-- `point_source.py` 98-103: `z` is at a lens, two lenses. -/
def onLens2 (p : MidParams) (z : ℂ) : Prop := conj z - p.a = 0 ∨ conj z + p.a = 0

/-- `point_source.py` 105-119: `z` is at a lens, three lenses. -/
def onLens3 (p : MidParams) (z : ℂ) : Prop :=
  conj z - p.a = 0 ∨ conj z + p.a = 0 ∨ conj z - conj (r3Complex p) = 0

open Classical in
/-- `point_source.py` 317-323, 466-469, one lens: for `w = 0` the quotient `4 / w_abs_sq` and its square root are `inf`, both
images are `0 * inf`, hence not-a-number, and so is everything computed from them; otherwise the images are finite and the
determinant of `point_source.py` 150 is evaluated at them. -/
def magSingleExt (w : ℂ) : Ext :=
  if w.re ^ 2 + w.im ^ 2 = 0 then .nan
  else sum ((images1 w).map fun zm =>
    mulMask (recip (if ‖conj zm.1 ^ 2‖ = 0 then .inf else .fin |detJac1 zm.1|)) zm.2)

open Classical in
/-- `point_source.py` 409-469 `mag_point_source` for one source position, with its non-finite values.  The root finder is a
parameter and returns finite numbers. -/
def magPointSourceExt (dz : DivZero) (roots : Option (List ℂ) → List ℂ → List ℂ) (nlenses : ℕ) (u : UserParams) (w : ℂ) :
    Except Err Ext :=
  if nlenses = 1 then .ok (magSingleExt w)
  else if nlenses = 2 then
    let p := midParams2 u
    .ok (sumExt dz (onLens2 p) (lensEq2 p) (detJac2 p) (1 / 10 ^ 6) (w - xCM u)
      (roots none (polyCoeffsBinary (w - xCM u) p.a p.e1)))
  else if nlenses = 3 then
    let p := midParams3 u
    .ok (sumExt dz (onLens3 p) (lensEq3 p) (detJac3 p) (1 / 10 ^ 3) (w - xCM u)
      ((roots none (polyCoeffsTripleCM (w - xCM u) p.a (r3Complex p) p.e1 p.e2)).map
        (· + shiftCM p.a (r3Complex p) p.e1 p.e2)))
  else .error (.valueError "`nlenses` has to be set to be <= 3.")

end Microjax.NonFinite
