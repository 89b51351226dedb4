import Mathlib.Data.List.Basic

/-!
# What broadcasting means (NumPy's documentation), independent of the model

Shapes are listed from the trailing axis; an axis that a shape does not have counts as an axis of length one.
-/

namespace Microjax.Spec

/-- Shapes can be broadcast together: on every axis two lengths other than one agree. -/
def Compatible (shapes : List (List ℕ)) : Prop :=
  ∀ s ∈ shapes, ∀ t ∈ shapes, ∀ k, s.getD k 1 = 1 ∨ t.getD k 1 = 1 ∨ s.getD k 1 = t.getD k 1

/-- `r` is the broadcast of the shapes: the longest rank, and on every axis the length that the shapes have there. -/
def IsBroadcast (r : List ℕ) (shapes : List (List ℕ)) : Prop :=
  (∀ s ∈ shapes, s.length ≤ r.length) ∧ (∃ s ∈ shapes, s.length = r.length) ∧
    ∀ k, (∃ s ∈ shapes, s.getD k 1 = r.getD k 1) ∧ ∀ s ∈ shapes, s.getD k 1 = 1 ∨ s.getD k 1 = r.getD k 1

/-- A multi-index of an array of shape `r`. -/
def InRange (r : List ℕ) (i : ℕ → ℕ) : Prop := ∀ k < r.length, i k < r.getD k 1

end Microjax.Spec
