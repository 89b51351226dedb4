import Mathlib.Algebra.Order.Field.Basic
import Mathlib.Data.Finset.Card
import Mathlib.Data.Finset.Range

/-!
# Specification of clustering and of ring-sector coverage

Independent of the model: values are sorted into `n` equal bins of `[lo, hi]`; a run is a maximal set of consecutive
occupied bins; a table of ring sectors covers a point if one of the sectors contains it (angles modulo a full turn).
-/

namespace Microjax.Spec

variable {K : Type*} [Field K] [LinearOrder K]

/-- `x` lies in bin `k` (`0 ≤ k < n`) of the `n` equal bins of `[lo, hi]`: half-open bins, the last one closed. -/
def InBin (lo hi : K) (n k : ℕ) (x : K) : Prop :=
  lo + k * ((hi - lo) / n) ≤ x ∧ (x < lo + (k + 1) * ((hi - lo) / n) ∨ (k + 1 = n ∧ x ≤ hi))

/-- Some value lies in bin `k`. -/
def Occupied (arr : List K) (lo hi : K) (n k : ℕ) : Prop := k < n ∧ ∃ x ∈ arr, InBin lo hi n k x

/-- Bin `k` is the first bin of a run. -/
def RunStart (arr : List K) (lo hi : K) (n k : ℕ) : Prop :=
  Occupied arr lo hi n k ∧ (k = 0 ∨ ¬ Occupied arr lo hi n (k - 1))

open Classical in
/-- Number of runs of occupied bins. -/
noncomputable def runCount (arr : List K) (lo hi : K) (n : ℕ) : ℕ :=
  ((Finset.range n).filter (RunStart arr lo hi n)).card

/-- The bins `i, …, j - 1` form a run. -/
def IsRun (arr : List K) (lo hi : K) (n i j : ℕ) : Prop :=
  i < j ∧ j ≤ n ∧ (∀ k, i ≤ k → k < j → Occupied arr lo hi n k) ∧ (i = 0 ∨ ¬ Occupied arr lo hi n (i - 1)) ∧
    (j = n ∨ ¬ Occupied arr lo hi n j)

/-- A ring sector `((r_min, r_max), (th_min, th_max))`. -/
abbrev RingSector (K : Type*) := (K × K) × (K × K)

/-- The sector contains the point with polar coordinates `(r, θ)`, the angle counted modulo `twoPi`. -/
def SectorContains (twoPi : K) (s : RingSector K) (r th : K) : Prop :=
  s.1.1 ≤ r ∧ r ≤ s.1.2 ∧ ((s.2.1 ≤ th ∧ th ≤ s.2.2) ∨ (s.2.1 ≤ th - twoPi ∧ th - twoPi ≤ s.2.2))

/-- As `SectorContains`, in the interior. -/
def SectorContainsStrict (twoPi : K) (s : RingSector K) (r th : K) : Prop :=
  s.1.1 < r ∧ r < s.1.2 ∧ ((s.2.1 < th ∧ th < s.2.2) ∨ (s.2.1 < th - twoPi ∧ th - twoPi < s.2.2))

/-- The sector contains the point with polar coordinates `(r, θ)` and everything within `mr` of its radius and `mt` of its
angle, counted modulo `twoPi`. -/
def SectorContainsMargin (twoPi : K) (s : RingSector K) (r th mr mt : K) : Prop :=
  s.1.1 ≤ max 0 (r - mr) ∧ r + mr ≤ s.1.2 ∧
    ((s.2.1 ≤ th - mt ∧ th + mt ≤ s.2.2) ∨ (s.2.1 ≤ th - twoPi - mt ∧ th - twoPi + mt ≤ s.2.2))

end Microjax.Spec
