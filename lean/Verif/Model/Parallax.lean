import Verif.Model.Jnp
import Mathlib.LinearAlgebra.CrossProduct
import Mathlib.LinearAlgebra.Matrix.Notation
import Mathlib.Analysis.SpecialFunctions.Complex.Arg
import Mathlib.Analysis.SpecialFunctions.Trigonometric.Basic
import Mathlib.Data.Real.Sign

/-!
# Model of `trajectory/parallax.py`

float64 is `ℝ`.  Vectors of the code with three entries are `Fin 3 → ℝ`, the rotation matrices are
`Matrix (Fin 3) (Fin 3) ℝ`, a `(2, N)` array of projected positions is a list of `N` pairs (north, east).
Divisions by zero (`period = 0`, `dt = 0`, a target at a pole), which give NaN in the code, are `0` here; the
theorems carry hypotheses that exclude them.
-/

noncomputable section

namespace Microjax.Parallax

open Matrix

/-- `jnp.argmin` on a table (`parallax.py` 109): the first index of the smallest entry. -/
def argmin (x : List ℝ) : ℕ :=
  x.findIdx fun v => decide (v = Jnp.amin x)

/-- `parallax.py` 95-101: the tabulated perihelia. -/
def peris : List ℝ :=
  [1546.70833, 1913.87500, 2277.08333, 2643.70833, 3009.25000, 3372.54167,
   3740.16667, 4104.33333, 4468.50000, 4836.12500, 5199.50000, 5565.29167,
   5931.54167, 6294.70833, 6662.00000, 7026.79167, 7390.45833, 7758.08333,
   8121.75000, 8486.70833, 8853.83333]

/-- `parallax.py` 102-107: the tabulated vernal equinoxes. -/
def vernals : List ℝ :=
  [1623.81597, 1989.06319, 2354.30278, 2719.54167, 3084.78403, 3450.02292,
   3815.26806, 4180.50486, 4545.74167, 4910.98889, 5276.23056, 5641.47292,
   6006.71806, 6371.95972, 6737.20625, 7102.44792, 7467.68750, 7832.93611,
   8198.17708, 8563.41528, 8928.65903]

/-- `parallax.py` 60-111 `peri_vernal` for a scalar `tref` (the only use in the package, `set_parallax`). -/
def periVernal (tref : ℝ) : ℝ × ℝ :=
  let tref := if tref > 2450000 then tref - 2450000 else tref
  let dperi := peris.map fun p => |p - tref|
  let imin := argmin dperi
  (Jnp.get 0 peris imin, Jnp.get 0 vernals imin)

/-- `parallax.py` 140-143: one Newton step of `getpsi`. -/
def newtonStep (ecc phi psi : ℝ) : ℝ :=
  let f := psi - ecc * Real.sin psi - phi
  let f_prime := 1 - ecc * Real.cos psi
  psi - f / f_prime

/-- `parallax.py` 113-144 `getpsi` (one mean anomaly; the code maps over arrays). -/
def getpsi (phi ecc : ℝ) : ℝ :=
  let psi := phi + Real.sign (Real.sin phi) * 0.85 * ecc
  (newtonStep ecc phi)^[5] psi

/-- `jnp.deg2rad`. -/
def deg2rad (x : ℝ) : ℝ := x * (Real.pi / 180)

/-- `jnp.linalg.norm` of a vector with three entries. -/
def norm3 (v : Fin 3 → ℝ) : ℝ := Real.sqrt (v ⬝ᵥ v)

/-- `parallax.py` 183-187: rotation about the z axis. -/
def rotZ (psi_offset : ℝ) : Matrix (Fin 3) (Fin 3) ℝ :=
  !![Real.cos (-psi_offset), -Real.sin (-psi_offset), 0;
     Real.sin (-psi_offset), Real.cos (-psi_offset), 0;
     0, 0, 1]

/-- `parallax.py` 190-195: rotation about the x axis. -/
def rotX (rotaxis : ℝ) : Matrix (Fin 3) (Fin 3) ℝ :=
  !![1, 0, 0;
     0, Real.cos rotaxis, -Real.sin rotaxis;
     0, Real.sin rotaxis, Real.cos rotaxis]

/-- `parallax.py` 198-203: the line of sight. -/
def los (RA Dec : ℝ) : Fin 3 → ℝ :=
  let alpha := deg2rad RA
  let delta := deg2rad Dec
  ![Real.cos alpha * Real.cos delta, Real.sin alpha * Real.cos delta, Real.sin delta]

/-- `parallax.py` 146-211 `prepare_projection_basis`: the matrix, north and east. -/
def prepareProjectionBasis (rotaxis_deg psi_offset RA Dec : ℝ) :
    Matrix (Fin 3) (Fin 3) ℝ × (Fin 3 → ℝ) × (Fin 3 → ℝ) :=
  let R := rotX (deg2rad rotaxis_deg) * rotZ psi_offset
  let z_eq : Fin 3 → ℝ := ![0, 0, 1]
  let east := crossProduct z_eq (los RA Dec)
  let east := (norm3 east)⁻¹ • east
  let north := crossProduct (los RA Dec) east
  let north := (norm3 north)⁻¹ • north
  (R, north, east)

/-- `parallax.py` 257-263: the position on the orbit for eccentric anomaly `psi`. -/
def orbit (ecc psi : ℝ) : Fin 3 → ℝ :=
  ![Real.cos psi - ecc, Real.sin psi * Real.sqrt (1 - ecc ^ 2), 0]

/-- `parallax.py` 213-270 `project_earth_position`, one time: (north, east). -/
def projectAt (t tperi period ecc : ℝ) (R : Matrix (Fin 3) (Fin 3) ℝ) (north east : Fin 3 → ℝ) : ℝ × ℝ :=
  let phi := 2 * Real.pi * (t - tperi) / period
  let psi := getpsi phi ecc
  let r_eq := R *ᵥ orbit ecc psi
  (north ⬝ᵥ r_eq, east ⬝ᵥ r_eq)

/-- `parallax.py` 213-270 `project_earth_position` on an array of times. -/
def projectEarthPosition (t : List ℝ) (tperi period ecc : ℝ) (R : Matrix (Fin 3) (Fin 3) ℝ)
    (north east : Fin 3 → ℝ) : List (ℝ × ℝ) :=
  t.map fun s => projectAt s tperi period ecc R north east

/-- The tuple returned by `set_parallax`, `parallax.py` 349. -/
structure Params where
  /-- position (north, east) at the reference time -/
  qne0 : ℝ × ℝ
  /-- finite-difference velocity -/
  vne0 : ℝ × ℝ
  /-- orbital to equatorial matrix -/
  R : Matrix (Fin 3) (Fin 3) ℝ
  /-- north basis vector -/
  north : Fin 3 → ℝ
  /-- east basis vector -/
  east : Fin 3 → ℝ
  /-- reference time -/
  tref : ℝ
  /-- perihelion time in use -/
  tperi : ℝ
  /-- orbital period -/
  period : ℝ
  /-- eccentricity -/
  ecc : ℝ

/-- `parallax.py` 339-341: the rotation angle, the true anomaly of the equinox in `[0, 2π)`
(`arctan2(s, c)` is the argument of `c + i s`, `jnp.mod x y = x - y⌊x/y⌋`). -/
def fRot (ecc psi_offset : ℝ) : ℝ :=
  let costh := (Real.cos psi_offset - ecc) / (1 - ecc * Real.cos psi_offset)
  let sinth := Real.sqrt (1 - ecc ^ 2) * Real.sin psi_offset / (1 - ecc * Real.cos psi_offset)
  let th := Complex.arg ⟨costh, sinth⟩
  th - 2 * Real.pi * ⌊th / (2 * Real.pi)⌋

/-- `parallax.py` 272-350 `set_parallax`. -/
def setParallax (tref tperi tvernal RA Dec rotaxis_deg ecc period dt : ℝ) : Params :=
  let info := if tperi * tvernal = 0 then periVernal tref else (tperi, tvernal)
  let tperi := info.1
  let tvernal := info.2
  let phi_offset := 2 * Real.pi * (tvernal - tperi) / period
  let psi_offset := getpsi phi_offset ecc
  let f_rot := fRot ecc psi_offset
  let basis := prepareProjectionBasis rotaxis_deg f_rot RA Dec
  let R := basis.1
  let north := basis.2.1
  let east := basis.2.2
  let qne0 := projectAt tref tperi period ecc R north east
  let qne1 := projectAt (tref - dt) tperi period ecc R north east
  let qne2 := projectAt (tref + dt) tperi period ecc R north east
  let vne0 := (0.5 * (qne2.1 - qne1.1) / dt, 0.5 * (qne2.2 - qne1.2) / dt)
  ⟨qne0, vne0, R, north, east, tref, tperi, period, ecc⟩

/-- `parallax.py` 390-393: the projected displacement left after removing the linear motion, one time. -/
def qneDelta (t : ℝ) (p : Params) : ℝ × ℝ :=
  let qne := projectAt t p.tperi p.period p.ecc p.R p.north p.east
  let dt_ref := t - p.tref
  (qne.1 - (p.qne0.1 + p.vne0.1 * dt_ref), qne.2 - (p.qne0.2 + p.vne0.2 * dt_ref))

/-- `parallax.py` 352-397 `compute_parallax`, one time: `(dtn, dum)`. -/
def computeAt (t piEN piEE : ℝ) (p : Params) : ℝ × ℝ :=
  let d := qneDelta t p
  (piEN * d.1 + piEE * d.2, piEN * d.2 - piEE * d.1)

/-- `parallax.py` 352-397 `compute_parallax` on an array of times. -/
def computeParallax (t : List ℝ) (piEN piEE : ℝ) (p : Params) : List ℝ × List ℝ :=
  (t.map fun s => (computeAt s piEN piEE p).1, t.map fun s => (computeAt s piEN piEE p).2)

end Microjax.Parallax
