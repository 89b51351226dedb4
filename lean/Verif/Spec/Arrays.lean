import Mathlib.Data.List.Basic
import Mathlib.Algebra.Field.Defs
import Mathlib.Order.Defs.LinearOrder
import Mathlib.Algebra.BigOperators.Group.List.Basic

/-! # Independent specifications for the array helpers (no reference to the model) -/

namespace Microjax.Spec

/-- `i` is the first position of `x` whose entry satisfies `p`. -/
def IsFirst {α : Type*} (p : α → Prop) (x : List α) (i : ℕ) : Prop :=
  (∃ v, x[i]? = some v ∧ p v) ∧ ∀ j < i, ∀ v, x[j]? = some v → ¬ p v

/-- `i` is the last position of `x` whose entry satisfies `p`. -/
def IsLast {α : Type*} (p : α → Prop) (x : List α) (i : ℕ) : Prop :=
  (∃ v, x[i]? = some v ∧ p v) ∧ ∀ j, i < j → ∀ v, x[j]? = some v → ¬ p v

/-- `m` is the least non-zero entry of `x`. -/
def IsLeastNonzero {K : Type*} [Zero K] [LE K] (x : List K) (m : K) : Prop :=
  m ∈ x ∧ m ≠ 0 ∧ ∀ y ∈ x, y ≠ 0 → m ≤ y

/-- `m` is the greatest non-zero entry of `x`. -/
def IsGreatestNonzero {K : Type*} [Zero K] [LE K] (x : List K) (m : K) : Prop :=
  m ∈ x ∧ m ≠ 0 ∧ ∀ y ∈ x, y ≠ 0 → y ≤ m

/-- Trapezoid sum over the samples `0 … t` given as functions of the index. -/
def trapezoidUpTo {K : Type*} [Field K] (y x : ℕ → K) (t : ℕ) : K :=
  ((List.range t).map fun i => (y i + y (i + 1)) / 2 * (x (i + 1) - x i)).sum

/-- `r` is a greedy nearest-neighbour matching of the points `a` into the candidates `b`: it has one
index per point, no index is used twice, and the `i`-th index is a nearest one among all candidates not
used for an earlier point (the smallest such index when several are nearest). -/
structure IsGreedyMatching {P D : Type*} [LE D] [LT D] (dist : P → P → D) (a b : List P)
    (r : List ℕ) : Prop where
  length : r.length = a.length
  inRange : ∀ j ∈ r, j < b.length
  nodup : r.Nodup
  nearest : ∀ i p, a[i]? = some p → ∀ k, r[i]? = some k → ∀ u, b[k]? = some u →
    ∀ j v, b[j]? = some v → j ∉ r.take i → dist p u ≤ dist p v
  tieBreak : ∀ i p, a[i]? = some p → ∀ k, r[i]? = some k → ∀ u, b[k]? = some u →
    ∀ j v, b[j]? = some v → j ∉ r.take i → j < k → dist p u < dist p v

end Microjax.Spec
