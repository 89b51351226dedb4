import Verif.Model.ExtendedSource
import Verif.Model.Jnp
import Mathlib.Algebra.Order.Field.Basic
import Mathlib.Analysis.SpecialFunctions.Complex.Arg
import Mathlib.Algebra.Order.Round

/-!
# Model of `inverse_ray/merge_area.py`

float64 is a linearly ordered field `K` (`ℝ` in `defineRegions`, which needs the argument of a complex number); `2π` is
a parameter `twoPi : K` where it occurs.  An array of shape `(M, 2)` is a list of pairs.  `refine_final`
(116-149) is not called anywhere and is not modelled.
-/

namespace Microjax.MergeArea

open Jnp ExtendedSource

section
variable {K : Type*} [Field K] [LinearOrder K]

/-- `jnp.isclose(a, b)` with its default tolerances. -/
def isclose (a b : K) : Bool := |a - b| ≤ 1 / 10 ^ 8 + 1 / 10 ^ 5 * |b|

/-- Multiplication of a row by a boolean (as `r_masked`, `th_masked`, `bin_edges * start_mask`). -/
def mulBool (x : K) (b : Bool) : K := x * (if b then 1 else 0)

/-- The last `n` entries, `x[-n:]` for `n > 0`. -/
def lastN {α : Type*} (n : ℕ) (x : List α) : List α := x.drop (x.length - n)

/-- `merge_area.py` 167: the `bins + 3` bin edges. -/
def binEdges (bin_min bin_max : K) (bins : ℕ) : List K :=
  let delta := (bin_max - bin_min) / bins
  linspace (bin_min - delta) (bin_max + delta) (bins + 3)

/-- `merge_area.py` 168-169: `clip(digitize(x, bin_edges) - 1, 1, bins)`; `digitize` counts the (increasing) edges
`≤ x`. -/
def binIndex (edges : List K) (bins : ℕ) (x : K) : ℕ :=
  min (max (edges.countP (fun e => decide (e ≤ x)) - 1) 1) bins

/-- `merge_area.py` 170-171: `bincount(bin_indices, length = bins + 2) > 0`. -/
def binMask (arr : List K) (edges : List K) (bins : ℕ) : List Bool :=
  (List.range (bins + 2)).map fun k => decide (0 < (arr.map (binIndex edges bins)).count k)

/-- `merge_area.py` 172-173: `diff(bin_mask) == 1`. -/
def startMask (mask : List Bool) : List Bool := (mask.zip mask.tail).map fun p => !p.1 && p.2

/-- `merge_area.py` 172, 174: `diff(bin_mask) == -1`. -/
def endMask (mask : List Bool) : List Bool := (mask.zip mask.tail).map fun p => p.1 && !p.2

/-- `merge_area.py` 166-178: `cluster_1d` once `bin_min` and `bin_max` are known; `(start, end)` pairs as in
`jnp.array([mins, maxs]).T` (line 52-53). -/
def cluster1dRange (arr : List K) (bin_min bin_max : K) (bins max_cluster : ℕ) : List (K × K) :=
  let bin_edges := binEdges bin_min bin_max bins
  let bin_mask := binMask arr bin_edges bins
  let inner := slice 1 1 bin_edges
  let start_edges := lastN max_cluster (sort (List.zipWith mulBool inner (startMask bin_mask)))
  let end_edges := lastN max_cluster (sort (List.zipWith mulBool inner (endMask bin_mask)))
  start_edges.zip end_edges

/-- `merge_area.py` 151-178 `cluster_1d` with `mode_r=True`: the bin range is the range of the non-zero entries (if
all entries are zero the code gets infinite bounds; the model then uses zero). -/
def cluster1dR (arr : List K) (bins max_cluster : ℕ) : List (K × K) :=
  let nz := arr.filter fun x => decide (x ≠ 0)
  cluster1dRange arr (amin nz) (amax nz) bins max_cluster

/-- `merge_area.py` 151-178 `cluster_1d` with `mode_r=False`. -/
def cluster1dTh (twoPi : K) (arr : List K) (bins max_cluster : ℕ) : List (K × K) :=
  cluster1dRange arr 0 twoPi bins max_cluster

/-- `merge_area.py` 230-243: refine each range to the limb points strictly inside, add the margin (`amin []` and
`amax []` are 0 as the code's `where(any(cond_in), …, 0.0)`). -/
def refineAddMargin (r_limb : List K) (r_ranges : List (K × K)) (margin : K) : List (K × K) :=
  r_ranges.map fun row =>
    let inside := r_limb.filter fun r => decide (row.1 < r) && decide (r < row.2)
    let r_min := amin inside
    let r_max := amax inside
    (max 0 (r_min - margin), if r_max ≠ 0 then r_max + margin else 0)

/-- `merge_area.py` 244-258: one pass over consecutive rows merging overlapping ones into the later row. The loop is
written as a recursion on the list: `row_0` is the current (already merged) row. -/
def mergeRows : List (K × K) → List (K × K)
  | row0 :: row1 :: rest =>
    if row0.2 > row1.1 then (0, 0) :: mergeRows ((row0.1, row1.2) :: rest)
    else row0 :: mergeRows (row1 :: rest)
  | rows => rows
termination_by rows => rows.length

/-- `merge_area.py` 227-258 `_refine_addmargin_merge_r`. -/
def refineAddmarginMergeR (r_limb : List K) (r_ranges : List (K × K)) (margin : K) : List (K × K) :=
  mergeRows (refineAddMargin r_limb r_ranges margin)

/-- `merge_area.py` 180-198 `_compute_in_mask`, one entry. `limb` is the list of `(r_limb, th_limb)` pairs. -/
def inMask (limb : List (K × K)) (r_use th_use : K × K) : Bool :=
  limb.any fun p => decide (p.1 > r_use.1) && decide (p.1 < r_use.2) && decide (p.2 > th_use.1) && decide (p.2 < th_use.2)

/-- `merge_area.py` 60-61: `r_masked`, `th_masked`: all pairs of rows, the radial row varying slowest, multiplied by the
mask. Row = `(r range, th range)`. -/
def maskedRows (limb : List (K × K)) (r_map th_map : List (K × K)) : List ((K × K) × (K × K)) :=
  r_map.flatMap fun r => th_map.map fun th =>
    let b := inMask limb r th
    ((mulBool r.1 b, mulBool r.2 b), (mulBool th.1 b, mulBool th.2 b))

/-- `x[jnp.argsort(flag)]` for a boolean flag per row: a stable partition, rows with `False` first. -/
def sortFlag {α : Type*} (flag : α → Bool) (x : List α) : List α :=
  (x.filter fun a => !flag a) ++ x.filter flag

/-- `merge_area.py` 63-64: zero rows last, separately for `r` and `th`, then the first `nimages_init`. -/
def excessRows (rows : List ((K × K) × (K × K))) (nimages_init : ℕ) : List ((K × K) × (K × K)) :=
  ((sortFlag (fun r : K × K => isclose r.2 0) (rows.map Prod.fst)).take nimages_init).zip
    ((sortFlag (fun th : K × K => isclose th.2 0) (rows.map Prod.snd)).take nimages_init)

/-- `merge_area.py` 211: same radial range and not the same row. -/
def sameR (a b : (K × K) × (K × K)) : Bool := decide (a.1 = b.1) && !decide (a = b)

/-- `merge_area.py` 200-225 `_merge_final` (rows are `(r range, th range)`). -/
def mergeFinal (twoPi : K) (rows : List ((K × K) × (K × K))) : List ((K × K) × (K × K)) :=
  let new := rows.map fun a =>
    let th_min_sum := (rows.map fun b =>
      if decide (a.2.1 = 0) && sameR a b && decide (b.2.2 = twoPi) then b.2.1 - twoPi else 0).sum
    let th_min_new := if th_min_sum = 0 then a.2.1 else th_min_sum
    (a.1, (th_min_new, a.2.2))
  let any_vanish := rows.any fun a => rows.any (sameR a) && decide (a.2.1 = 0)
  let new' := (rows.zip new).map fun p =>
    if any_vanish && decide (p.1.2.2 = twoPi) then ((0, 0), (0, 0)) else p.2
  sortFlag (fun m => decide (m.1.2 = 0)) new'

/-- `merge_area.py` 86-91: `cond_flip` of `_refine_final`. -/
def condFlip (twoPi : K) (th : K × K) : Bool :=
  decide (-(twoPi / 2) < th.1) && decide (th.1 < 0) && decide (0 < th.2) && decide (th.2 < twoPi / 2)

/-- `merge_area.py` 89-91: `th_limb_new` of `_refine_final`. -/
def thLimbNew (twoPi : K) (flip : Bool) (th : K) : K :=
  if flip then (if th > twoPi / 2 then th - twoPi else th) else th

/-- `merge_area.py` 74-114 `_refine_final`, one row. -/
def refineFinalRow (twoPi : K) (limb : List (K × K)) (margin_r margin_th : K) (row : (K × K) × (K × K)) :
    (K × K) × (K × K) :=
  let (r, th) := row
  let flip := condFlip twoPi th
  let pts := limb.map fun p => (p.1, thLimbNew twoPi flip p.2)
  let in_mask := fun p : K × K => decide (r.1 < p.1) && decide (p.1 < r.2) && decide (th.1 < p.2) && decide (p.2 < th.2)
    && decide (p.2 ≠ 0) && decide (p.1 ≠ 0)
  let r_min_ref := max 0 (amin (pts.map fun p => if in_mask p then p.1 else 10 ^ 5) - margin_r)
  let r_max_raw := amax (pts.map fun p => if in_mask p then p.1 else 0)
  let r_max_ref := if r_max_raw ≠ 0 then r_max_raw + margin_r else 0
  let th_min_ref := amin (pts.map fun p => if in_mask p then p.2 else 10 ^ 5)
  let th_max_ref := amax (pts.map fun p => if in_mask p then p.2 else -10 ^ 5)
  let case_org := decide (th.1 > 0) || flip
  let r_min_new := if case_org then r_min_ref else r.1
  let r_max_new := if case_org then r_max_ref else r.2
  let th_min_new := (if case_org then th_min_ref else th.1) - margin_th
  let th_max_new := (if case_org then th_max_ref else th.2) + margin_th
  let z := decide (r_min_new = 0) && decide (r_max_new = 0)
  ((r_min_new, r_max_new), (if z then 0 else th_min_new, if z then 0 else th_max_new))

/-- `merge_area.py` 47-72: `define_regions` from the polar coordinates `limb = [(r_limb, th_limb), …]` on; `margin_r` and
`margin_th` are `margin_r*rho` and `deg2rad(margin_th)`. -/
def regionsOfLimb (twoPi : K) (nimages_init nimage_real : ℕ) (limb : List (K × K)) (bins_r bins_th : ℕ)
    (margin_r margin_th : K) : List ((K × K) × (K × K)) :=
  let r_limb := limb.map Prod.fst
  let th_limb := limb.map Prod.snd
  let r_map := cluster1dR r_limb bins_r nimages_init
  let th_map := cluster1dTh twoPi th_limb bins_th nimages_init
  let snap := fun x : K => (fun y : K => if isclose y twoPi then twoPi else y) (if isclose x 0 then 0 else x)
  let th_map := th_map.map fun row => (snap row.1, snap row.2)
  let r_map_refine := refineAddmarginMergeR r_limb r_map margin_r
  let rows := excessRows (maskedRows limb r_map_refine th_map) nimages_init
  ((mergeFinal twoPi rows).take nimage_real).map (refineFinalRow twoPi limb margin_r margin_th)

end

noncomputable section

open Complex PointSource

/-- `merge_area.py` 47-48: `r_limb = |image * mask|`, `th_limb = mod(arctan2(im, re), 2π) * mask` for one image. -/
def limbPolar (zm : ℂ × Bool) : ℝ × ℝ :=
  (‖zm.1 * (if zm.2 then 1 else 0)‖,
    (arg zm.1 - 2 * Real.pi * ⌊arg zm.1 / (2 * Real.pi)⌋) * (if zm.2 then 1 else 0))

/-- `merge_area.py` 17-72 `define_regions`. -/
def defineRegions (limb : List (ℂ × Bool)) (rho : ℝ) (bins_r bins_th : ℕ) (margin_r margin_th : ℝ) (nlenses : ℕ) :
    Except Err (List ((ℝ × ℝ) × (ℝ × ℝ))) :=
  if nlenses = 2 then
    .ok (regionsOfLimb (2 * Real.pi) 10 5 (limb.map limbPolar) bins_r bins_th (margin_r * rho)
      (margin_th * (Real.pi / 180)))
  else if nlenses = 3 then
    .ok (regionsOfLimb (2 * Real.pi) 18 9 (limb.map limbPolar) bins_r bins_th (margin_r * rho)
      (margin_th * (Real.pi / 180)))
  else .error (.valueError "Only 2 or 3 lenses are supported.")

/-- `merge_area.py` 272, 290: the points of the source limb. -/
def sourceLimb (w_center : ℂ) (rho : ℝ) (Nlimb : ℕ) : List ℂ :=
  (linspace 0 (2 * Real.pi) Nlimb).map fun t : ℝ => w_center + rho * exp (I * t)

/-- `merge_area.py` 260-297 `calc_source_limb`; `roots` is the polynomial root finder.  The result lists the images
(with their mask) of all limb points; the code's array has the images in its first axis, which the subsequent
`ravel` only permutes. -/
def calcSourceLimb (roots : Option (List ℂ) → List ℂ → List ℂ) (w_center : ℂ) (rho : ℝ) (Nlimb nlenses : ℕ)
    (u : UserParams) : Except Err (List (ℂ × Bool)) :=
  if nlenses = 2 then
    .ok ((sourceLimb w_center rho Nlimb).flatMap fun w =>
      (images2 roots none (midParams2 u) (w - xCM u)).map fun zm => (zm.1 + xCM u, zm.2))
  else if nlenses = 3 then
    .ok ((sourceLimb w_center rho Nlimb).flatMap fun w =>
      (images3 roots (midParams3 u) (w - xCM u)).map fun zm => (zm.1 + xCM u, zm.2))
  else .error (.valueError "Only 2 or 3 lenses are supported.")

/-- `extended_source.py` 192-330 `mag_uniform` with its region construction (line 269 passes `nlenses`). -/
def magUniformFull (roots : Option (List ℂ) → List ℂ → List ℂ) (w_center : ℂ) (rho : ℝ) (nlenses : ℕ)
    (r_resolution th_resolution Nlimb bins_r bins_th : ℕ) (margin_r margin_th : ℝ) (u : UserParams) : Except Err ℝ := do
  let limb ← calcSourceLimb roots w_center rho Nlimb nlenses u
  let regions ← defineRegions limb rho bins_r bins_th margin_r margin_th nlenses
  pure (magUniform nlenses u w_center rho r_resolution th_resolution regions)

/-- `extended_source.py` 41-189 `mag_limb_dark` with its region construction (line 122 does not pass `nlenses`, so
`calc_source_limb` uses its default 2). -/
def magLimbDarkFull (roots : Option (List ℂ) → List ℂ → List ℂ) (w_center : ℂ) (rho : ℝ) (nlenses : ℕ) (u1 : ℝ)
    (r_resolution th_resolution Nlimb bins_r bins_th : ℕ) (margin_r margin_th delta_c : ℝ) (u : UserParams) :
    Except Err ℝ := do
  let limb ← calcSourceLimb roots w_center rho Nlimb 2 u
  let regions ← defineRegions limb rho bins_r bins_th margin_r margin_th nlenses
  pure (magLimbDark nlenses u w_center rho u1 delta_c r_resolution th_resolution regions)

end

end Microjax.MergeArea
