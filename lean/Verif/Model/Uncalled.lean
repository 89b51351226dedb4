import Verif.Model.MergeArea
import Verif.Model.Boundary

/-!
# Public functions that nothing in the package calls

`merge_area.py` 116-149 `refine_final` (superseded by `_refine_final`) and `boundary.py` 95-116
`distance_from_source_adaptive`.
-/

namespace Microjax.Uncalled

open Jnp MergeArea Boundary

variable {K : Type*} [Field K] [LinearOrder K]

/-- `merge_area.py` 127-145, the body of the loop of `refine_final` for one region; `limb = [(r_limb, th_limb), …]`. -/
def refineRow (limb : List (K × K)) (margin_r margin_th : K) (row : (K × K) × (K × K)) : (K × K) × (K × K) :=
  let (r, th) := row
  let case_0 := decide (th.1 > 0)
  let in_mask := fun p : K × K => decide (r.1 < p.1) && decide (p.1 < r.2)
    && (decide (th.1 < p.2) && decide (p.2 < th.2) && decide (p.2 ≠ 0))
  let th_min := amin (limb.map fun p => if in_mask p then p.2 else 10 ^ 10)
  let th_max := amax (limb.map fun p => if in_mask p then p.2 else -10 ^ 10)
  let r_min_new := amin (limb.map fun p => if in_mask p then p.1 else 10 ^ 10)
  let r_max_new := amax (limb.map fun p => if in_mask p then p.1 else -10 ^ 10)
  let r_min_new := max 0 (r_min_new - margin_r)
  let r_max_new := r_max_new + margin_r
  let th_min_new := if case_0 then th_min else th.1
  let th_max_new := if case_0 then th_max else th.2
  ((r_min_new, r_max_new), (th_min_new - margin_th, th_max_new + margin_th))

/-- `merge_area.py` 116-149 `refine_final`. -/
def refineFinal (limb : List (K × K)) (scan : List ((K × K) × (K × K))) (margin_r margin_th : K) :
    List ((K × K) × (K × K)) := scan.map (refineRow limb margin_r margin_th)

/-- `boundary.py` 95-116 `distance_from_source_adaptive` for one entry of `th_unit`. -/
noncomputable def distanceFromSourceAdaptive (leq : ℂ → ℂ) (r0 th_unit th_min th_max : ℝ) (w_center_shifted : ℂ)
    (shifted : ℝ) : ℝ :=
  let th_values := th_min + (th_max - th_min) * th_unit
  let z_th : ℂ := (r0 * Real.cos th_values : ℝ) + Complex.I * (r0 * Real.sin th_values : ℝ)
  ‖leq (z_th - shifted) - w_center_shifted‖

end Microjax.Uncalled
