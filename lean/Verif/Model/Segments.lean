import Verif.Model.Utils
import Mathlib.Data.List.Rotate
import Mathlib.Analysis.SpecialFunctions.Trigonometric.Inverse
import Mathlib.Analysis.Complex.Norm

/-!
# Model of `src/microjax/caustics/extended_source/segments.py`

A segment of the code is an array of shape `(3, n)` or `(2, n)` whose rows hold position, parity and
(first shape) mask.  Here it is the list of its columns.  Splitting, filtering, rolling and joining are
modelled over any ordered field; the geometric stitching test, which needs square roots and `arccos`, over
`ℝ`.  The float `0.1**2` is the rational `1/100`.
-/

namespace Microjax.Segments

open Jnp Utils

/-- One column of a `(3, n)` segment (`segments.py` 50): position, parity, mask. -/
structure Pt3 (K : Type*) where
  x : K
  y : K
  p : K
  m : K
deriving DecidableEq, Repr

/-- One column of a `(2, n)` segment (`segments.py` 182-183): position, parity. -/
@[ext] structure Pt (K : Type*) where
  x : K
  y : K
  p : K
deriving DecidableEq, Repr

variable {K : Type*}

/-- the all-zero column -/
instance [Zero K] : Zero (Pt3 K) := ⟨⟨0, 0, 0, 0⟩⟩

/-- the all-zero column -/
instance [Zero K] : Zero (Pt K) := ⟨⟨0, 0, 0⟩⟩

/-- array addition, one column -/
instance [Add K] : Add (Pt K) := ⟨fun a b => ⟨a.x + b.x, a.y + b.y, a.p + b.p⟩⟩

/-- `jnp.roll(x, k, axis=-1)` for `k ≥ 0`: entry `i` moves to `i + k` modulo the length (library
function). -/
def roll {α : Type*} (x : List α) (k : ℕ) : List α := x.rotate (x.length - k % x.length)

/-- `jnp.roll(x, -k, axis=-1)` for `k ≥ 0` (library function). -/
def rollBack {α : Type*} (x : List α) (k : ℕ) : List α := x.rotate k

/-- `jnp.argwhere(b, size=n)[:, 0]`: the positions of `True`, truncated to `n`, padded with `0` (library
function). -/
def argwhere (b : List Bool) (n : ℕ) : List ℕ :=
  let w := (List.range b.length).filter fun i => b.getD i false
  w.take n ++ List.replicate (n - w.length) 0

section Split

variable [Field K] [LinearOrder K]

/-- `segments.py` 53-57: is there a change between two consecutive samples? -/
def changed (a b : Pt3 K) : Bool :=
  decide ((b.x - a.x) ^ 2 + (b.y - a.y) ^ 2 > 1 / 100) || decide (b.p - a.p ≠ 0)
    || decide (b.m - a.m ≠ 0)

/-- `segments.py` 53-63: `changepoints`. -/
def changepoints (seg : List (Pt3 K)) : List Bool :=
  [!decide ((seg.headD 0).m = 0)] ++ List.zipWith changed seg seg.tail
    ++ [!decide ((seg.getLastD 0).m = 0)]

/-- `segments.py` 56, 64-68: `diff_mask`. -/
def diffMask (seg : List (Pt3 K)) : List K :=
  [if (seg.headD 0).m = 0 then 0 else 1] ++ List.zipWith (fun a b => b.m - a.m) seg seg.tail
    ++ [if (seg.getLastD 0).m = 0 then 0 else -1]

/-- `segments.py` 70-74, 81: `idcs_start`. -/
def idcsStart (seg : List (Pt3 K)) (n_parts : ℕ) : List ℕ :=
  argwhere (List.zipWith (fun c d => c && decide (d ≥ 0)) (changepoints seg) (diffMask seg)) (2 * n_parts)

/-- `segments.py` 75-79, 82: `idcs_end`. -/
def idcsEnd (seg : List (Pt3 K)) (n_parts : ℕ) : List ℕ :=
  argwhere (List.zipWith (fun c d => c && decide (d ≤ 0)) (changepoints seg) (diffMask seg)) (2 * n_parts)

/-- `segments.py` 86-93 `mask_region`. -/
def maskRegion (npts l r : ℕ) : List Bool :=
  if l = 0 ∧ r = 0 then List.replicate npts false
  else (List.range npts).map fun n => decide (n ≥ l) && decide (n < r)

/-- `segment * mask` for a 0/1 mask (`segments.py` 96). -/
def applyMask (seg : List (Pt3 K)) (mask : List Bool) : List (Pt3 K) :=
  List.zipWith (fun s b => if b then s else 0) seg mask

/-- `segments.py` 24-97 `_split_segment`. -/
def splitSegment (n_parts : ℕ) (seg : List (Pt3 K)) : List (List (Pt3 K)) :=
  (List.zipWith (maskRegion seg.length) (idcsStart seg n_parts) (idcsEnd seg n_parts)).map (applyMask seg)

/-- `segments[:, 0] != 0 + 0j` for one column (`segments.py` 123); also `abs(·) > 0` (126) and
`abs(·) != 0` (130). -/
def nonzero3 (s : Pt3 K) : Bool := decide (s.x ≠ 0 ∨ s.y ≠ 0)

/-- `segments.py` 100-137 `_process_segments`. -/
def processSegments (segments : List (List (Pt3 K))) (nr_of_segments : ℕ) : List (List (Pt3 K)) :=
  let segments := (segments.map (splitSegment 5)).flatten
  let segments := segments.map fun s =>
    if (s.filter nonzero3).length < 2 then s.map (fun _ => 0) else s
  let sorted_idcs := (argsort (segments.map fun s => s.any nonzero3)).reverse
  let segments := sorted_idcs.map fun i => get [] segments i
  let segments := segments.take nr_of_segments
  segments.map fun s => rollBack s (argmaxBool (s.map nonzero3))

/-- `segments[:, :2, :]` (`segments.py` 182-183), one column. -/
def drop3 (s : Pt3 K) : Pt K := ⟨s.x, s.y, s.p⟩

/-- `segments.py` 164-167: `z * z_mask`, `z_parity * z_mask`, stacked with the mask, one sample.  The mask
is a boolean (0 or 1). -/
def maskedPt (x y p : K) (mask : Bool) : Pt3 K := if mask then ⟨x, y, p, 1⟩ else 0

/-- `segments.py` 169: `(abs(z[:, 0] - z[:, -1]) < 1e-5) & all(z_mask)` for one track (`abs` squared). -/
def isClosed (seg : List (Pt3 K)) : Bool :=
  decide (((seg.headD 0).x - (seg.getLastD 0).x) ^ 2 + ((seg.headD 0).y - (seg.getLastD 0).y) ^ 2
    < (1 / 10 ^ 5) ^ 2) && seg.all fun s => decide (s.m ≠ 0)

/-- `segments.py` 140-185 `_get_segments`: the tracks (after masking, 164-167) are separated into closed
and open ones; the others are nulled in place. -/
def getSegments (n_images : ℕ) (segments : List (List (Pt3 K))) :
    List (List (Pt K)) × List (List (Pt K)) × Bool :=
  let nr_of_segments := 3 * n_images
  let segments_closed := segments.map fun s => if isClosed s then s else s.map fun _ => 0
  let segments_open := segments.map fun s => if isClosed s then s.map (fun _ => 0) else s
  let all_closed := segments.all isClosed
  let segments_open :=
    if all_closed then
      segments_open ++ List.replicate (nr_of_segments - segments_open.length)
        ((segments_open.headD []).map fun _ => 0)
    else processSegments segments_open nr_of_segments
  (segments_closed.map (·.map drop3), segments_open.map (·.map drop3), all_closed)

end Split

section Merge

variable [Field K] [LinearOrder K]

/-- `abs(segment[0]) == 0` for one column. -/
def isZeroPos (s : Pt K) : Bool := decide (s.x = 0 ∧ s.y = 0)

/-- `segments.py` 188-191 `_concatenate_segments`; `first_zero` on the absolute values is the position of
the first column with zero position (`0` if there is none). -/
def concatenateSegments (first second : List (Pt K)) : List (Pt K) :=
  let n := argmaxBool (first.map isZeroPos)
  List.zipWith (· + ·) first (roll second n)

/-- `seg2.at[1].set(-1 * seg2[1])` (`segments.py` 284, 291), one column. -/
def negParity (s : Pt K) : Pt K := ⟨s.x, s.y, -1 * s.p⟩

/-- `segments.py` 282-284 and 289-291: reverse a segment and bring its head to the front. -/
def reverseSegment (seg : List (Pt K)) (tidx : ℕ) : List (Pt K) :=
  (rollBack seg.reverse (seg.length - tidx - 1)).map negParity

/-- `segments.py` 278-311 `_merge_two_segments`; `ctype` 0 tail-head, 1 head-tail, 2 head-head, otherwise
tail-tail (`lax.switch` clamps). -/
def mergeTwoSegments (seg1 seg2 : List (Pt K)) (tidx1 tidx2 ctype : ℕ) : List (Pt K) × ℕ :=
  if ctype = 0 then (concatenateSegments seg1 seg2, tidx1 + tidx2 + 1)
  else if ctype = 1 then (concatenateSegments seg2 seg1, tidx1 + tidx2 + 1)
  else if ctype = 2 then (concatenateSegments (reverseSegment seg2 tidx2) seg1, tidx1 + tidx2 + 1)
  else (concatenateSegments seg1 (reverseSegment seg2 tidx2), tidx1 + tidx2 + 1)

/-- The state of the stitching loop (`segments.py` 412, 442): active segment, its tail index, remaining
segments, their tail indices. -/
structure MergeState (K : Type*) where
  active : List (Pt K)
  tidx : ℕ
  segments : List (List (Pt K))
  tidcs : List ℕ

/-- The geometric ingredients of the stitching loop that need real functions: the distance of two
positions, the stitching test `_connection_condition`, and the segment length. -/
structure Geometry (K : Type*) where
  /-- `jnp.abs(z1 - z2)` (347-354) -/
  dist : Pt K → Pt K → K
  /-- `_connection_condition(seg1, seg2, tidx1, tidx2, ctype)` -/
  connect : List (Pt K) → List (Pt K) → ℕ → ℕ → ℕ → Bool
  /-- `_get_segment_length(segment, tail_idx)` -/
  length : List (Pt K) → ℕ → K

/-- `segments.py` 347-356, flattened as in 358: the distances tail-head, head-tail, head-head, tail-tail
of the active segment to all segments. -/
def distances (g : Geometry K) (s : MergeState K) : List K :=
  let st := List.zip s.segments s.tidcs
  st.map (fun q => g.dist (get 0 s.active s.tidx) (get 0 q.1 0))
    ++ st.map (fun q => g.dist (get 0 s.active 0) (get 0 q.1 q.2))
    ++ st.map (fun q => g.dist (get 0 s.active 0) (get 0 q.1 0))
    ++ st.map (fun q => g.dist (get 0 s.active s.tidx) (get 0 q.1 q.2))

/-- `segments.py` 358-361: the four nearest candidates as `(ctype, idx)`; `unravel_index` on shape
`(4, m)`. -/
def candidates [Inhabited K] (g : Geometry K) (s : MergeState K) : List (ℕ × ℕ) :=
  let order := argsort (distances g s)
  ([0, 1, 2, 3] : List ℕ).map fun k =>
    let i := get 0 order k
    (i / s.segments.length, i % s.segments.length)

/-- `segments.py` 344-409 `merge_with_another_segment`. -/
def mergeWithAnother [Inhabited K] (g : Geometry K) (s : MergeState K) : MergeState K :=
  let cands := candidates g s
  let success := cands.map fun c =>
    g.connect s.active (get [] s.segments c.2) s.tidx (get 0 s.tidcs c.2) c.1
  if success.any id then
    let idx_best := argmaxBool success
    let best := get (0, 0) cands idx_best
    let r := mergeTwoSegments s.active (get [] s.segments best.2) s.tidx (get 0 s.tidcs best.2) best.1
    { active := r.1, tidx := r.2,
      segments := s.segments.set best.2 ((get [] s.segments best.2).map fun _ => 0),
      tidcs := s.tidcs }
  else s

/-- `segments.py` 411-426 `body_fn`; `jnp.any(segments[:, 0, 0])` asks for a non-zero head position. -/
def bodyFn [Inhabited K] (g : Geometry K) (s : MergeState K) : MergeState K :=
  if !(s.segments.any fun q => !isZeroPos (get 0 q 0)) then s else mergeWithAnother g s

/-- `lax.scan(body_fn, init, arange(n))` (`segments.py` 441-443). -/
def scanBody [Inhabited K] (g : Geometry K) (n : ℕ) (s : MergeState K) : MergeState K :=
  (List.range n).foldl (fun s _ => bodyFn g s) s

/-- `segments.py` 437-443: one pass of the contour loop, from the current segments and tail indices. -/
def contourPass [Inhabited K] (g : Geometry K) (n : ℕ) (segments : List (List (Pt K)))
    (tidcs : List ℕ) : MergeState K :=
  let lengths := List.zipWith g.length segments tidcs
  let idcs := sparseArgsort lengths
  let segments := idcs.map fun i => get [] segments i
  let tidcs := idcs.map fun i => get 0 tidcs i
  scanBody g n ⟨get [] segments 0, get 0 tidcs 0, segments.tail, tidcs.tail⟩

/-- `segments.py` 436-446: the loop over contours; `max_nr_of_segments_in_contour` decreases by 2. -/
def contourLoop [Inhabited K] (g : Geometry K) :
    ℕ → ℕ → List (List (Pt K)) → List ℕ → List (List (Pt K))
  | 0, _, _, _ => []
  | c + 1, n, segments, tidcs =>
    let s := contourPass g n segments tidcs
    s.active :: contourLoop g c (n - 2) s.segments s.tidcs

/-- `segments.py` 428-432: pad a segment to four times its length. -/
def pad4 (seg : List (Pt K)) : List (Pt K) := seg ++ List.replicate (3 * seg.length) 0

/-- `segments.py` 314-448 `_merge_open_segments`. -/
def mergeOpenSegments [Inhabited K] (g : Geometry K) (max_nr_of_contours max_nr_of_segments : ℕ)
    (segments : List (List (Pt K))) : List (List (Pt K)) :=
  let tail_idcs := segments.map fun s => lastNonzero (s.map Pt.x)
  contourLoop g max_nr_of_contours max_nr_of_segments (segments.map pad4) tail_idcs

end Merge

section Real

/-- the complex position of a column -/
def Pt.z (s : Pt ℝ) : ℂ := ⟨s.x, s.y⟩

/-- `segments.py` 218-226 `get_segment_head`: the pair (`line[0]`, `line[1]`), reversed. -/
noncomputable def segmentHead (seg : List (Pt ℝ)) (t : ℕ) : ℂ × ℂ :=
  let x := fun i : ℕ => (get 0 seg i).z
  if ‖x 1 - x 0‖ > 1 / 10 ^ 5 ∨ t ≤ 1 then (x 1, x 0) else (x 2, x 1)

/-- `lax.dynamic_slice(x, (i,), (2,))`: the start index is clamped to `[0, n - 2]` (library function). -/
noncomputable def slice2 (seg : List (Pt ℝ)) (i : ℕ) : ℂ × ℂ :=
  let j := min i (seg.length - 2)
  ((get 0 seg j).z, (get 0 seg (j + 1)).z)

/-- `segments.py` 228-236 `get_segment_tail`.  (For `t = 0` the index `t - 1 = -1` reads the last column in
`x[t - 1]`; the condition `t ≤ 1` makes that value irrelevant, and the slice start is clamped to 0.) -/
noncomputable def segmentTail (seg : List (Pt ℝ)) (t : ℕ) : ℂ × ℂ :=
  let x := fun i : ℕ => (get 0 seg i).z
  if ‖x t - x (t - 1)‖ > 1 / 10 ^ 5 ∨ t ≤ 1 then slice2 seg (t - 1) else slice2 seg (t - 2)

/-- `segments.py` 201-275 `_connection_condition` with the default tolerances.  A zero-length line gives a
zero direction (the code has NaN there: both make `cond2` false). -/
noncomputable def connectionCondition (seg1 seg2 : List (Pt ℝ)) (tidx1 tidx2 ctype : ℕ) : Bool :=
  let same_parity := decide ((get 0 seg1 0).p * (get 0 seg2 0).p > 0)
  let cond_parity := if ctype ≤ 1 then same_parity else !same_parity
  let line1 := if ctype = 0 ∨ ctype ≥ 3 then segmentTail seg1 tidx1 else segmentHead seg1 tidx1
  let line2 := if ctype = 0 ∨ ctype = 2 then segmentHead seg2 tidx2 else segmentTail seg2 tidx2
  let dist := ‖line1.2 - line2.2‖
  let cond1 := decide (dist < 1 / 10)
  let vec1 := (line1.2 - line1.1) / ‖line1.2 - line1.1‖
  let vec2 := (line2.2 - line2.1) / ‖line2.2 - line2.1‖
  let alpha := Real.arccos (vec1.re * vec2.re + vec1.im * vec2.im)
  let cond2 := decide (180 - alpha * 180 / Real.pi < 60)
  let cond3 := decide (‖line1.2 - line2.2‖ < ‖line1.1 - line2.1‖)
  cond_parity && ((cond1 && cond2 && cond3) || decide (dist < 1 / 10 ^ 5))

/-- `segments.py` 194-198 `_get_segment_length`: sum of the steps, without the step leaving `tail_idx`
(an index past the end is dropped by JAX). -/
noncomputable def segmentLength (seg : List (Pt ℝ)) (tail_idx : ℕ) : ℝ :=
  (((List.zipWith (fun a b => ‖b.z - a.z‖) seg seg.tail)).set tail_idx 0).sum

/-- The real geometry of the code. -/
noncomputable def geometry : Geometry ℝ :=
  { dist := fun a b => ‖a.z - b.z‖, connect := connectionCondition, length := segmentLength }

end Real

end Microjax.Segments
