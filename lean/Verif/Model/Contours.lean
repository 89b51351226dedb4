import Verif.Model.ContourIntegrate
import Verif.Model.Segments
import Verif.Model.Limb

/-!
# Model of `src/microjax/caustics/extended_source/contours.py` and `mag.py`
-/

namespace Microjax.Contour

open Jnp Utils Segments PointSource

section

variable {K : Type*} [Field K] [LinearOrder K]

/-- `contours.py` 21-42 `_contours_from_closed_segments`, one segment: the closed contour and its parity. -/
def contourFromClosed (seg : List (Pt K)) : List (K × K) × K :=
  let contour := seg.map fun s => (s.x, s.y)
  (contour ++ [get (0, 0) contour 0], (get 0 seg 0).p)

/-- `contours.py` 73-76, one merged segment: write the first point after the tail (a write past the end is
dropped by JAX, as `List.set` does). -/
def closeContour (seg : List (Pt K)) : List (K × K) × K :=
  let contour := seg.map fun s => (s.x, s.y)
  let tail := lastNonzero (contour.map Prod.fst)
  (contour.set (tail + 1) (get (0, 0) contour 0), (get 0 seg 0).p)

/-- `contours.py` 45-78 `_contours_from_open_segments`. -/
def contoursFromOpen [Inhabited K] (g : Geometry K) (max_nr_of_contours max_nr_of_segments : ℕ)
    (segments : List (List (Pt K))) : List (List (K × K) × K) :=
  (mergeOpenSegments g max_nr_of_contours max_nr_of_segments segments).map closeContour

/-- `mag.py` 143-146: the terms `I * contours_p` of the closed segments. -/
def magsClosed (integrate : List (K × K) → ℕ → K) (segments : List (List (Pt K))) : List K :=
  segments.map fun s =>
    let c := contourFromClosed s
    integrate c.1 (c.1.length - 1) * c.2

/-- `mag.py` 150-156 `branch2`. -/
def magsOpen [Inhabited K] (g : Geometry K) (integrate : List (K × K) → ℕ → K)
    (segments : List (List (Pt K))) : List K :=
  (contoursFromOpen g 3 20 segments).map fun c =>
    integrate c.1 (lastNonzero (c.1.map Prod.fst)) * c.2

/-- `mag.py` 139-159, before taking the absolute value and dividing by `π rho²`: the sum of the contour
terms for the image tracks `rows` (already masked, `segments.py` 164-167). -/
def contourSum [Inhabited K] (g : Geometry K) (integrate : List (K × K) → ℕ → K) (n_images : ℕ)
    (rows : List (List (Pt3 K))) : K :=
  let r := getSegments n_images rows
  let mags1 := magsClosed integrate r.1
  let mags2 := if r.2.2 then List.replicate 3 0 else magsOpen g integrate r.2.1
  mags1.sum + mags2.sum

/-- `mag.py` 129-135, before the absolute value: the single-lens branch on the rows of `(z, parity)`. -/
def contourSum1 (integrate : List (K × K) → ℕ → K) (rows : List (List (Pt K))) : K :=
  (rows.map fun s =>
    let c := contourFromClosed s
    integrate c.1 (s.length - 1) * c.2).sum

end

/-- `mag.py` 88-102: mid-point parameters used by `mag_extended_source`.  The masses of the triple differ
from the other entry points: `e2 = (1 - q3) / (1 + q + q3)` (100). -/
noncomputable def extParams (nlenses : ℕ) (u : UserParams) : MidParams :=
  if nlenses = 2 then { a := (1 / 2) * u.s, e1 := u.q / (1 + u.q) }
  else { a := (1 / 2) * u.s, e1 := u.q / (1 + u.q + u.q3), e2 := (1 - u.q3) / (1 + u.q + u.q3),
         r3 := u.r3, psi := u.psi }

/-- `mag.py` 93-94, 102-103: the source position in the mid-point frame. -/
noncomputable def extSource (nlenses : ℕ) (u : UserParams) (w0 : ℂ) : ℂ :=
  if nlenses = 1 then w0 else w0 - (((1 / 2) * u.s * (1 - u.q) / (1 + u.q) : ℝ) : ℂ)

/-- The `i`-th row (image track) of the limb columns. -/
noncomputable def row (cols : List (List (ℂ × Bool × ℝ))) (i : ℕ) : List (ℂ × Bool × ℝ) :=
  cols.map fun c => get (0, false, 0) c i

/-- `mag.py` 126-161 from the limb images on, for two or three lenses. -/
noncomputable def magFromLimb (integrate : List (ℝ × ℝ) → ℕ → ℝ) (rho : ℝ) (n_images : ℕ)
    (cols : List (List (ℂ × Bool × ℝ))) : ℝ :=
  let rows := (List.range n_images).map fun i =>
    (row cols i).map fun q => maskedPt q.1.re q.1.im q.2.2 q.2.1
  |contourSum geometry integrate n_images rows| / (Real.pi * rho ^ 2)

/-- `mag.py` 126-135 from the limb images on, for one lens (two images, masks ignored). -/
noncomputable def magFromLimb1 (integrate : List (ℝ × ℝ) → ℕ → ℝ) (rho : ℝ)
    (cols : List (List (ℂ × Bool × ℝ))) : ℝ :=
  let rows := (List.range 2).map fun i => (row cols i).map fun q => (⟨q.1.re, q.1.im, q.2.2⟩ : Pt ℝ)
  |contourSum1 integrate rows| / (Real.pi * rho ^ 2)

/-- The library ingredients of `mag_extended_source`: root finder, random perturbations (`limb.py` 118-122
and 174), Gauss-Legendre nodes.  The random numbers added to the initial guesses are drawn per sample; as the angles of
the samples are distinct (`C45_sampling`), a perturbation that depends on the angle covers them. -/
structure Lib where
  roots : Option (List ℂ) → List ℂ → List ℂ
  perturb : ℝ → List ℂ → List ℂ
  noise : ℕ → ℕ → ℝ
  leggauss : ℕ → List (ℝ × ℝ)

/-- image finder of `mag_extended_source` (`limb.py` 124-130, 139-141) for valid `nlenses` -/
noncomputable def finder (lib : Lib) (nlenses : ℕ) (p : MidParams) (w : ℂ) (init : Option (List ℂ)) :
    List (ℂ × Bool) :=
  if nlenses = 1 then images1 w else if nlenses = 2 then images2 lib.roots init p w
  else images3 lib.roots p w

/-- lens equation for valid `nlenses` -/
noncomputable def leqOf (nlenses : ℕ) (p : MidParams) : ℂ → ℂ :=
  if nlenses = 1 then lensEq1 else if nlenses = 2 then lensEq2 p else lensEq3 p

/-- Jacobian determinant for valid `nlenses` -/
noncomputable def detOf (nlenses : ℕ) (p : MidParams) : ℂ → ℝ :=
  if nlenses = 1 then detJac1 else if nlenses = 2 then detJac2 p else detJac3 p

/-- `limb.py` 66-180 called from `mag.py` 107-113 (`niter` is the default 10). -/
noncomputable def limbColumns (lib : Lib) (nlenses : ℕ) (p : MidParams) (w0 : ℂ) (rho : ℝ)
    (npts_limb : ℕ) : List (List (ℂ × Bool × ℝ)) :=
  let src := fun t : ℝ => (rho : ℂ) * Complex.exp (Complex.I * t) + w0
  Limb.imagesOfSourceLimb
    (fun th => imagesSequential (finder lib nlenses p) (th.map src))
    (fun t zi => finder lib nlenses p (src t) (some (lib.perturb t zi)))
    (detOf nlenses p) lib.noise npts_limb 10

/-- `mag.py` 36-164 `mag_extended_source`. -/
noncomputable def magExtendedSource (lib : Lib) (nlenses npts_limb npts_ld : ℕ) (limb_darkening : Bool)
    (u : UserParams) (u1 rho : ℝ) (w0 : ℂ) : Except Err ℝ :=
  if nlenses = 1 ∨ nlenses = 2 ∨ nlenses = 3 then
    let p := extParams nlenses u
    let w := extSource nlenses u w0
    let cols := limbColumns lib nlenses p w rho npts_limb
    let integrate := if limb_darkening
      then integrateLd lib.leggauss (leqOf nlenses p) w rho u1 npts_ld else integrateUnif
    if nlenses = 1 then .ok (magFromLimb1 integrate rho cols)
    else .ok (magFromLimb integrate rho (nlenses ^ 2 + 1) cols)
  else .error (.valueError "`nlenses` has to be set to be <= 3.")

end Microjax.Contour
