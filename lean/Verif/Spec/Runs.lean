import Verif.Model.Segments

/-! # Independent specification: the pieces of an image track -/

namespace Microjax.Spec

open Microjax.Segments

variable {K : Type*} [Field K] [LinearOrder K]

/-- Two consecutive samples of a track belong to the same piece: both are real images, they have the same parity, and
they are at most 0.1 apart. -/
def Joined (a b : Pt3 K) : Prop :=
  a.m ≠ 0 ∧ b.m ≠ 0 ∧ a.p = b.p ∧ (b.x - a.x) ^ 2 + (b.y - a.y) ^ 2 ≤ (1 / 10) ^ 2

instance (a b : Pt3 K) : Decidable (Joined a b) := by unfold Joined; infer_instance

/-- Put a real sample `a` at index `o` in front of the runs `rs` of the samples `l` that follow it: it extends the run
that starts at the next sample if it is joined to it, and is a new run otherwise. -/
def addRun (o : ℕ) (a : Pt3 K) : List (Pt3 K) → List (ℕ × List (Pt3 K)) → List (ℕ × List (Pt3 K))
  | b :: _, (k, r) :: rs => if Joined a b then (o, a :: r) :: rs else (o, [a]) :: (k, r) :: rs
  | _, rs => (o, [a]) :: rs

/-- The maximal runs of joined real samples of a track, in order, with the index of their first sample (counted from
`o`). -/
def runsFrom (o : ℕ) : List (Pt3 K) → List (ℕ × List (Pt3 K))
  | [] => []
  | a :: l => if a.m = 0 then runsFrom (o + 1) l else addRun o a l (runsFrom (o + 1) l)

/-- The maximal runs of a track. -/
def runs (seg : List (Pt3 K)) : List (List (Pt3 K)) := (runsFrom 0 seg).map Prod.snd

/-- A track as the code builds it: a sample is either masked (all rows zero) or real (mask 1). -/
def Masked (seg : List (Pt3 K)) : Prop := ∀ s ∈ seg, s = 0 ∨ s.m = 1

end Microjax.Spec
