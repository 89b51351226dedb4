import Verif.Model.MagFft
import Mathlib.Data.List.GetD

/-!
# C96: interpolation and logarithmic grids
-/

noncomputable section

set_option linter.unusedVariables false

namespace Microjax.Props

open MagFft

/-- On a non-decreasing list the search stops right after `i`. -/
theorem takeWhile_length (xp : List ℝ) (hs : xp.Pairwise (· ≤ ·)) (x : ℝ) (i : ℕ) (hi : i < xp.length)
    (h1 : xp.getD i 0 ≤ x) (h2 : i + 1 < xp.length → x < xp.getD (i + 1) 0) :
    (xp.takeWhile fun v => decide (v ≤ x)).length = i + 1 := by
  induction xp generalizing i with
  | nil => simp at hi
  | cons a t ih =>
    rw [List.pairwise_cons] at hs
    rcases i with _ | i
    · have ha : a ≤ x := by simpa using h1
      rw [List.takeWhile_cons_of_pos (by simpa using ha)]
      rcases t with _ | ⟨b, t⟩
      · simp
      · have hb : x < b := by simpa using h2 (by simp)
        rw [List.takeWhile_cons_of_neg (by simpa using hb)]
        rfl
    · have hi' : i < t.length := by simpa using hi
      have h1' : t.getD i 0 ≤ x := by simpa using h1
      have ha : a ≤ x := le_trans (hs.1 _ (by rw [List.getD_eq_getElem _ _ hi']; exact List.getElem_mem hi')) h1'
      rw [List.takeWhile_cons_of_pos (by simpa using ha), List.length_cons, ih hs.2 i hi' h1' (fun h => by
        simpa using h2 (by simpa using h))]

theorem getD_zero_le (xp : List ℝ) (hs : xp.Pairwise (· ≤ ·)) (i : ℕ) (hi : i < xp.length) : xp.getD 0 0 ≤ xp.getD i 0 := by
  rw [List.getD_eq_getElem _ _ hi, List.getD_eq_getElem _ _ (by omega)]
  rcases Nat.eq_zero_or_pos i with rfl | h
  · exact le_rfl
  · exact List.pairwise_iff_getElem.mp hs 0 i (by omega) hi h

theorem le_getD_last (xp : List ℝ) (hs : xp.Pairwise (· ≤ ·)) (i : ℕ) (hi : i < xp.length) :
    xp.getD i 0 ≤ xp.getD (xp.length - 1) 0 := by
  rw [List.getD_eq_getElem _ _ hi, List.getD_eq_getElem _ _ (by omega)]
  rcases Nat.lt_or_ge i (xp.length - 1) with h | h
  · exact List.pairwise_iff_getElem.mp hs i (xp.length - 1) hi (by omega) h
  · have : i = xp.length - 1 := by omega
    subst this
    exact le_rfl

/-- **C96.**  `interp` is the piecewise linear function through the samples: in every cell of a non-decreasing grid its
value is the chord between the two samples of that cell. -/
theorem C96_cell (xp fp : List ℝ) (right : Option ℝ) (hs : xp.Pairwise (· ≤ ·)) (x : ℝ) (i : ℕ)
    (hi : i + 1 < xp.length) (h1 : xp.getD i 0 ≤ x) (h2 : x < xp.getD (i + 1) 0) :
    interp x xp fp right = fp.getD i 0 + (x - xp.getD i 0) * ((fp.getD (i + 1) 0 - fp.getD i 0) / (xp.getD (i + 1) 0 - xp.getD i 0)) := by
  have hl := takeWhile_length xp hs x i (by omega) h1 fun _ => h2
  have hm : min (max (i + 1) 1) (xp.length - 1) = i + 1 := by omega
  have hd : xp.getD (i + 1) 0 - xp.getD i 0 ≠ 0 := by intro h; linarith
  have h0 := getD_zero_le xp hs i (by omega)
  have hn := le_getD_last xp hs (i + 1) hi
  simp only [interp, hl, hm, Nat.add_sub_cancel, if_neg hd, if_neg (show ¬ x < xp.getD 0 0 by linarith),
    if_neg (show ¬ x > xp.getD (xp.length - 1) 0 by linarith)]
  ring

/-- **C96.**  The samples are reproduced at the nodes of an increasing stretch: at every node that differs from its
neighbours. -/
theorem C96_node (xp fp : List ℝ) (right : Option ℝ) (hs : xp.Pairwise (· ≤ ·)) (i : ℕ) (hi : i < xp.length)
    (hprev : 1 ≤ i → xp.getD (i - 1) 0 < xp.getD i 0) (hnext : i + 1 < xp.length → xp.getD i 0 < xp.getD (i + 1) 0) :
    interp (xp.getD i 0) xp fp right = fp.getD i 0 := by
  rcases Nat.lt_or_ge (i + 1) xp.length with h | h
  · rw [C96_cell xp fp right hs _ i h le_rfl (hnext h)]
    ring
  · have hl := takeWhile_length xp hs _ i hi le_rfl fun h' => hnext h'
    have hlen : xp.length - 1 = i := by omega
    have h0 := getD_zero_le xp hs i hi
    simp only [interp, hl, hlen, if_neg (not_lt.mpr h0), gt_iff_lt, lt_irrefl, if_false]
    rcases Nat.eq_zero_or_pos i with rfl | hp
    · simp
    · have hm : min (max (i + 1) 1) i = i := by omega
      have hd : xp.getD i 0 - xp.getD (i - 1) 0 ≠ 0 := by
        have := hprev hp
        intro h'
        linarith
      rw [hm, if_neg hd, div_self hd]
      ring

/-- **C96.**  Outside the grid: the first sample to the left; to the right the value asked for, by default the last
sample. -/
theorem C96_outside (xp fp : List ℝ) (hs : xp.Pairwise (· ≤ ·)) (hne : xp ≠ []) (hlen : fp.length = xp.length) (x : ℝ) :
    (x < xp.getD 0 0 → ∀ right, interp x xp fp right = fp.head (by rw [← List.length_pos_iff, hlen, List.length_pos_iff]; exact hne)) ∧
    (xp.getD (xp.length - 1) 0 < x → (∀ v, interp x xp fp (some v) = v) ∧
      interp x xp fp none = fp.getLast (by rw [← List.length_pos_iff, hlen, List.length_pos_iff]; exact hne)) := by
  have hp : 0 < xp.length := List.length_pos_iff.mpr hne
  constructor
  · intro h right
    simp only [interp, if_pos h]
    rw [List.getD_eq_getElem _ _ (by omega), List.head_eq_getElem]
  · intro h
    have h0 := le_getD_last xp hs 0 hp
    have hn : ¬ x < xp.getD 0 0 := by linarith
    constructor
    · intro v
      simp only [interp, if_neg hn, gt_iff_lt, if_pos h, Option.getD_some]
    · simp only [interp, if_neg hn, gt_iff_lt, if_pos h, Option.getD_none]
      rw [List.getD_eq_getElem _ _ (by omega), List.getLast_eq_getElem]

/-- **C96.**  The interpolated value lies between the two samples of its cell. -/
theorem C96_between (xp fp : List ℝ) (right : Option ℝ) (hs : xp.Pairwise (· ≤ ·)) (x : ℝ) (i : ℕ)
    (hi : i + 1 < xp.length) (h1 : xp.getD i 0 ≤ x) (h2 : x < xp.getD (i + 1) 0) :
    min (fp.getD i 0) (fp.getD (i + 1) 0) ≤ interp x xp fp right ∧
      interp x xp fp right ≤ max (fp.getD i 0) (fp.getD (i + 1) 0) := by
  rw [C96_cell xp fp right hs x i hi h1 h2]
  set a := fp.getD i 0
  set b := fp.getD (i + 1) 0
  have hd : 0 < xp.getD (i + 1) 0 - xp.getD i 0 := by linarith
  set t := (x - xp.getD i 0) / (xp.getD (i + 1) 0 - xp.getD i 0) with ht
  have ht0 : 0 ≤ t := div_nonneg (by linarith) hd.le
  have ht1 : t ≤ 1 := by rw [ht, div_le_one hd]; linarith
  have e : a + (x - xp.getD i 0) * ((b - a) / (xp.getD (i + 1) 0 - xp.getD i 0)) = (1 - t) * a + t * b := by
    rw [ht]
    field_simp
    ring
  rw [e]
  constructor
  · have h3 := mul_le_mul_of_nonneg_left (min_le_left a b) (by linarith : 0 ≤ 1 - t)
    have h4 := mul_le_mul_of_nonneg_left (min_le_right a b) ht0
    linarith
  · have h3 := mul_le_mul_of_nonneg_left (le_max_left a b) (by linarith : 0 ≤ 1 - t)
    have h4 := mul_le_mul_of_nonneg_left (le_max_right a b) ht0
    linarith

/-- **C96.**  `logspace(lo, hi, n)` for `n ≥ 2`: `n` positive abscissae from `10^lo` to `10^hi` in geometric progression
(the form of the grid that the theorems on the transforms ask for). -/
theorem C96_logspace (lo hi : ℝ) (n : ℕ) (hn : 2 ≤ n) :
    (logspace lo hi n).length = n ∧ (logspace lo hi n).getD 0 0 = (10 : ℝ) ^ lo ∧
    (logspace lo hi n).getD (n - 1) 0 = (10 : ℝ) ^ hi ∧
    ∃ q : ℝ, 0 < q ∧ (lo < hi → 1 < q) ∧ logspace lo hi n = (List.range n).map fun k : ℕ => (10 : ℝ) ^ lo * q ^ k := by
  have hn1 : (0 : ℝ) < (n : ℝ) - 1 := by
    have : (2 : ℝ) ≤ n := by exact_mod_cast hn
    linarith
  refine ⟨by simp [logspace], ?_, ?_, (10 : ℝ) ^ ((hi - lo) / ((n : ℝ) - 1)), by positivity, fun h => ?_, ?_⟩
  · rw [List.getD_eq_getElem _ _ (by simp [logspace]; omega)]
    simp [logspace]
  · rw [List.getD_eq_getElem _ _ (by simp [logspace]; omega)]
    simp only [logspace, List.getElem_map, List.getElem_range]
    rw [Nat.cast_sub (by omega), Nat.cast_one]
    congr 1
    field_simp
    ring
  · exact Real.one_lt_rpow (by norm_num) (div_pos (by linarith) hn1)
  · rw [logspace]
    refine List.map_congr_left fun k _ => ?_
    rw [← Real.rpow_natCast, ← Real.rpow_mul (by norm_num), ← Real.rpow_add (by norm_num)]
    congr 1
    ring

/-- Three nodes, a point in the second cell, one at a node and one outside. -/
example : interp (5 / 2) [1, 2, 4] [10, 20, 0] none = 15 ∧ interp 2 [1, 2, 4] [10, 20, 0] none = 20 ∧
    interp 9 [1, 2, 4] [10, 20, 0] (some 1) = 1 := by
  have hs : ([1, 2, 4] : List ℝ).Pairwise (· ≤ ·) := by norm_num [List.pairwise_cons]
  refine ⟨?_, ?_, ?_⟩
  · rw [C96_cell _ _ _ hs (5 / 2) 1 (by simp) (by norm_num [List.getD]) (by norm_num [List.getD])]
    norm_num [List.getD]
  · have := C96_node [1, 2, 4] [10, 20, 0] none hs 1 (by simp) (by norm_num [List.getD]) (by norm_num [List.getD])
    simpa [List.getD] using this
  · exact ((C96_outside [1, 2, 4] [10, 20, 0] hs (by simp) (by simp) 9).2 (by norm_num [List.getD])).1 1

end Microjax.Props
