import Verif.Model.Segments

/-! # Independent specification: point buffers, oriented segments and contours -/

namespace Microjax.Spec

open Microjax.Segments

variable {K : Type*} [Field K]

/-- The zero-padded buffer `buf` of length `L` holds the path `pts`. -/
def Holds (L : ℕ) (buf pts : List (Pt K)) : Prop :=
  pts.length ≤ L ∧ buf = pts ++ List.replicate (L - pts.length) 0

/-- The same path traversed backwards; the parity label changes sign with the direction. -/
def reversePath (pts : List (Pt K)) : List (Pt K) := pts.reverse.map fun s => ⟨s.x, s.y, -s.p⟩

/-- A segment used forwards (`false`) or backwards (`true`). -/
def orient (o : Bool) (pts : List (Pt K)) : List (Pt K) := if o then reversePath pts else pts

/-- The path obtained by traversing whole segments one after the other. -/
def chain (used : List (Bool × List (Pt K))) : List (Pt K) := (used.map fun u => orient u.1 u.2).flatten

/-- All points carry the parity label `σ`. -/
def HasParity (σ : K) (pts : List (Pt K)) : Prop := ∀ s ∈ pts, s.p = σ

/-- An open piece of an image track as the stitching expects it: at least two points, off the imaginary axis by
`1e-5`, not all at the same place, steps of at most 0.1, and one parity `±1`. -/
structure OpenSegment (pts : List (Pt ℝ)) : Prop where
  two : 2 ≤ pts.length
  offAxis : ∀ s ∈ pts, 1 / 10 ^ 5 ≤ |s.x|
  moves : ∃ s t, [s, t] <:+: pts ∧ s.z ≠ t.z
  steps : pts.IsChain fun s t => ‖s.z - t.z‖ ≤ 1 / 10
  parity : ∃ σ : ℝ, (σ = 1 ∨ σ = -1) ∧ HasParity σ pts

/-- Consecutive points of a stitched contour are at most this far apart: the stitching tolerance 0.1 plus twice the
tolerance `1e-5` below which an end point is replaced by its neighbour. -/
def NoJump (pts : List (Pt ℝ)) : Prop := pts.IsChain fun s t => ‖s.z - t.z‖ ≤ 1 / 10 + 2 / 10 ^ 5

end Microjax.Spec
