import Mathlib.Algebra.Field.Defs
import Mathlib.Algebra.Group.Prod
import Mathlib.Algebra.BigOperators.Group.List.Basic

/-! # Independent specification: signed area of a polygon (no reference to the model) -/

namespace Microjax.Spec

variable {K : Type*} [Field K]

/-- Signed area of the triangle `o p q` (positive when counter-clockwise). -/
def triArea (o p q : K × K) : K :=
  ((p.1 - o.1) * (q.2 - o.2) - (p.2 - o.2) * (q.1 - o.1)) / 2

/-- Signed area of the closed polygon with vertices `pts`, as the sum of the signed triangles spanned by the
apex `o` and the edges (the last edge returns to the first vertex). -/
def polygonArea (o : K × K) (pts : List (K × K)) : K :=
  ((List.range pts.length).map fun i =>
    triArea o (pts.getD i 0) (pts.getD ((i + 1) % pts.length) 0)).sum

/-- The contour buffer for a polygon: its vertices, the first vertex again, then `k` zeros. -/
def closedBuffer (pts : List (K × K)) (k : ℕ) : List (K × K) :=
  pts ++ [pts.headD 0] ++ List.replicate k 0

end Microjax.Spec
