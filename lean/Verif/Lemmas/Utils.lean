import Verif.Model.Utils
import Verif.Spec.Arrays
import Verif.Lemmas.Jnp
import Mathlib.Data.List.Induction
import Mathlib.Data.List.Perm.Subperm
import Mathlib.Tactic.FieldSimp

/-! # Helper lemmas for `utils.py` -/

namespace Microjax.Props

open Jnp Utils Spec

variable {K : Type*} [Field K] [LinearOrder K]

theorem argmaxBool_isFirst {α : Type*} (p : α → Prop) [DecidablePred p] (x : List α)
    (h : ∃ v ∈ x, p v) : IsFirst p x (argmaxBool (x.map fun v => decide (p v))) := by
  have hm : true ∈ x.map fun v => decide (p v) := by
    obtain ⟨v, hv, hp⟩ := h
    exact List.mem_map.mpr ⟨v, hv, by simpa using hp⟩
  obtain ⟨h1, h2⟩ := argmaxBool_spec hm
  refine ⟨?_, fun j hj v hv hp => ?_⟩
  · rw [List.getElem?_map] at h1
    cases hx : x[argmaxBool (x.map fun v => decide (p v))]? with
    | none => rw [hx] at h1; simp at h1
    | some v => rw [hx] at h1; exact ⟨v, rfl, by simpa using h1⟩
  · have := h2 j hj
    rw [List.getElem?_map, hv] at this
    simp at this; exact this hp

theorem argmaxBool_decide_none {α : Type*} (p : α → Prop) [DecidablePred p] (x : List α)
    (h : ∀ v ∈ x, ¬ p v) : argmaxBool (x.map fun v => decide (p v)) = 0 := by
  apply argmaxBool_none
  simp only [List.mem_map, decide_eq_true_eq, not_exists, not_and]
  exact h

theorem get_argmax_nonzero (xs : List K) (h : ∃ v ∈ xs, v ≠ 0) :
    ∃ (i : ℕ) (v : K), xs[i]? = some v ∧ v ≠ 0 ∧ (∀ j < i, ∀ w, xs[j]? = some w → w = 0) ∧
      get 0 xs (argmaxBool (xs.map fun v => decide (v ≠ 0))) = v := by
  obtain ⟨⟨v, hv, hv0⟩, h2⟩ := argmaxBool_isFirst (fun v : K => v ≠ 0) xs h
  refine ⟨_, v, hv, hv0, fun j hj w hw => ?_, ?_⟩
  · by_contra hc; exact h2 j hj w hw hc
  · obtain ⟨hl, he⟩ := List.getElem?_eq_some_iff.mp hv
    rw [get_of_lt 0 xs hl]; exact he

theorem minZeroAvoiding_isLeast (x : List K) (h : ∃ v ∈ x, v ≠ 0) :
    IsLeastNonzero x (minZeroAvoiding x) := by
  have hne : sort x ≠ [] := by
    obtain ⟨v, hv, _⟩ := h
    intro hc; have := mem_sort.mpr hv; rw [hc] at this; simp at this
  unfold minZeroAvoiding
  simp only
  split_ifs with h0
  · have h' : ∃ v ∈ sort x, v ≠ 0 := by
      obtain ⟨v, hv, hv0⟩ := h; exact ⟨v, mem_sort.mpr hv, hv0⟩
    obtain ⟨i, v, hi, hv0, hz, he⟩ := get_argmax_nonzero (sort x) h'
    rw [he]
    refine ⟨mem_sort.mp (List.mem_of_getElem? hi), hv0, fun y hy hy0 => ?_⟩
    obtain ⟨j, hj⟩ := List.getElem?_of_mem (mem_sort.mpr hy)
    obtain ⟨hjl, hje⟩ := List.getElem?_eq_some_iff.mp hj
    obtain ⟨hil, hie⟩ := List.getElem?_eq_some_iff.mp hi
    by_contra hlt
    have hij : ¬ i ≤ j := by
      intro hij
      rcases eq_or_lt_of_le hij with rfl | hij
      · rw [hi] at hj; simp at hj; exact hlt hj.le
      · have := List.pairwise_iff_getElem.mp (sort_sorted x) i j hil hjl hij
        rw [hie, hje] at this; exact hlt this
    exact hy0 (hz j (by omega) y hj)
  · refine ⟨mem_sort.mp (amin_mem hne), h0, fun y hy _ => amin_le (mem_sort.mpr hy)⟩

theorem minZeroAvoiding_zero (x : List K) (hne : x ≠ []) (h : ∀ v ∈ x, v = 0) :
    minZeroAvoiding x = 0 := by
  have hne : sort x ≠ [] := by
    intro hc; have := (sort_perm x).length_eq; rw [hc] at this
    exact hne (List.length_eq_zero_iff.mp this.symm)
  unfold minZeroAvoiding
  simp only
  split_ifs with h0
  · exact h _ (mem_sort.mp (get_mem _ _ _ hne))
  · exact absurd (h _ (mem_sort.mp (amin_mem hne))) h0

omit [LinearOrder K] in
theorem trapezoid_eq_sum (y x : List K) (h : y.length = x.length) :
    trapezoid y x = ((List.range (x.length - 1)).map fun i =>
      (y.getD i 0 + y.getD (i + 1) 0) / 2 * (x.getD (i + 1) 0 - x.getD i 0)).sum := by
  induction x generalizing y with
  | nil => cases y <;> simp [trapezoid]
  | cons x0 xs ih =>
    cases xs with
    | nil =>
      match y, h with
      | [y0], _ => simp [trapezoid]
    | cons x1 xs =>
      match y, h with
      | y0 :: y1 :: ys, h =>
        have := ih (y1 :: ys) (by simpa using h)
        simp only [trapezoid, this, List.length_cons, Nat.add_sub_cancel]
        rw [List.range_succ_eq_map]
        simp only [List.map_cons, List.sum_cons, List.map_map]
        congr 1
        simp; ring

omit [LinearOrder K] in
theorem sum_range_eq_of_zero_tail (f : ℕ → K) (m n : ℕ) (h : m ≤ n) (hz : ∀ i, m ≤ i → f i = 0) :
    ((List.range n).map f).sum = ((List.range m).map f).sum := by
  induction n, h using Nat.le_induction with
  | base => rfl
  | succ n hn ih => rw [List.range_succ, List.map_append, List.sum_append, ih]; simp [hz n hn]

/-- One greedy step picks the first entry of the sorted row that was not used. -/
theorem matchPick_spec (vals idcs : List ℕ) (h : ∃ v ∈ vals, v ∉ idcs) :
    ∃ i : ℕ, vals[i]? = some (matchPick vals idcs) ∧ matchPick vals idcs ∉ idcs ∧
      ∀ j < i, ∀ v, vals[j]? = some v → v ∈ idcs := by
  have hf := argmaxBool_isFirst (fun v : ℕ => v ∉ idcs) vals h
  obtain ⟨⟨v, hv, hvi⟩, h2⟩ := hf
  have e : (vals.map fun v => !decide (v ∈ idcs)) = vals.map fun v => decide (v ∉ idcs) := by
    simp
  have hp : matchPick vals idcs = v := by
    unfold matchPick firstNonzeroBool
    simp only
    rw [e]
    obtain ⟨hl, he⟩ := List.getElem?_eq_some_iff.mp hv
    rw [get_of_lt 0 vals hl]; exact he
  rw [hp]
  refine ⟨_, hv, hvi, fun j hj w hw => ?_⟩
  by_contra hc; exact h2 j hj w hw hc

section

variable {P D : Type*} [LinearOrder D] [Inhabited D] (dist : P → P → D)

theorem matchPick_lt (b : List P) (p : P) (idcs : List ℕ) (hb : b ≠ []) :
    matchPick (argsort (b.map (dist p))) idcs < b.length := by
  have : matchPick (argsort (b.map (dist p))) idcs ∈ argsort (b.map (dist p)) := by
    unfold matchPick
    apply get_mem
    intro hc
    have := argsort_length (b.map (dist p)); rw [hc] at this
    exact hb (List.length_eq_zero_iff.mp (by simpa using this.symm))
  simpa using mem_argsort.mp this

/-- The greedy loop processes the points from left to right. -/
theorem matchPoints_append (a a' b : List P) :
    matchPoints dist (a ++ a') b =
      a'.foldl (fun idcs ai => idcs ++ [matchPick (argsort (b.map (dist ai))) idcs])
        (matchPoints dist a b) := by
  unfold matchPoints; rw [List.foldl_append]

theorem matchPoints_snoc (a b : List P) (p : P) :
    matchPoints dist (a ++ [p]) b = matchPoints dist a b ++
      [matchPick (argsort (b.map (dist p))) (matchPoints dist a b)] := by
  rw [matchPoints_append]; rfl

theorem matchPoints_length (a b : List P) : (matchPoints dist a b).length = a.length := by
  induction a using List.reverseRecOn with
  | nil => rfl
  | append_singleton a p ih => rw [matchPoints_snoc]; simp [ih]

theorem matchPoints_lt (a b : List P) (hb : b ≠ []) : ∀ j ∈ matchPoints dist a b, j < b.length := by
  induction a using List.reverseRecOn with
  | nil => simp [matchPoints]
  | append_singleton a p ih =>
    rw [matchPoints_snoc]
    intro j hj
    rcases List.mem_append.mp hj with hj | hj
    · exact ih j hj
    · simp only [List.mem_singleton] at hj; subst hj
      exact matchPick_lt dist b p _ hb

end

/-- Pigeonhole: fewer used indices than candidates leaves an unused candidate. -/
theorem exists_unused (idcs : List ℕ) (n : ℕ) (h : idcs.length < n) :
    ∃ v < n, v ∉ idcs := by
  by_contra hc
  push Not at hc
  have hsub : List.range n ⊆ idcs := fun v hv => hc v (List.mem_range.mp hv)
  have := (List.nodup_range (n := n)).subperm hsub |>.length_le
  simp at this; omega

end Microjax.Props
