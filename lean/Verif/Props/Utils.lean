import Verif.Model.Utils
import Verif.Spec.Arrays
import Verif.Lemmas.Jnp
import Verif.Lemmas.Utils
import Mathlib.Data.List.Induction
import Mathlib.Data.List.Perm.Subperm
import Mathlib.Tactic.FieldSimp
import Mathlib.Tactic.NormNum
import Mathlib.Algebra.Order.Field.Rat

/-! # Properties C12, C66-C69: helpers of `utils.py` -/

namespace Microjax.Props

open Jnp Utils Spec

variable {K : Type*} [Field K] [LinearOrder K]

/-! ## C66: index helpers -/

/-- C66, `first_nonzero`: the index of the first non-zero entry; `0` if there is none. -/
theorem C66_first_nonzero (x : List K) :
    ((∃ v ∈ x, v ≠ 0) → IsFirst (· ≠ 0) x (firstNonzero x)) ∧
    ((∀ v ∈ x, v = 0) → firstNonzero x = 0) :=
  ⟨argmaxBool_isFirst (fun v : K => v ≠ 0) x,
   fun h => argmaxBool_decide_none (fun v : K => v ≠ 0) x fun v hv => by simpa using h v hv⟩

/-- C66, `first_zero`: the index of the first zero entry; `0` if there is none. -/
theorem C66_first_zero (x : List K) :
    (0 ∈ x → IsFirst (· = 0) x (firstZero x)) ∧ (0 ∉ x → firstZero x = 0) :=
  ⟨fun h => argmaxBool_isFirst (fun v : K => v = 0) x ⟨0, h, rfl⟩,
   fun h => argmaxBool_decide_none (fun v : K => v = 0) x fun _ hv h0 => h (h0 ▸ hv)⟩

/-- C66, `last_nonzero`: the index of the last non-zero entry; `0` if there is none. -/
theorem C66_last_nonzero (x : List K) :
    ((∃ v ∈ x, v ≠ 0) → IsLast (· ≠ 0) x (lastNonzero x)) ∧
    ((∀ v ∈ x, v = 0) → lastNonzero x = 0) := by
  constructor
  · intro h
    have hany : x.any (fun v => decide (v ≠ 0)) = true := by
      rw [List.any_eq_true]; simpa using h
    unfold lastNonzero
    rw [if_pos hany]
    have hr : ∃ v ∈ x.reverse, v ≠ 0 := by simpa using h
    obtain ⟨⟨v, hv, hv0⟩, h2⟩ := argmaxBool_isFirst (fun v : K => v ≠ 0) x.reverse hr
    set i := argmaxBool (x.reverse.map fun v => decide (v ≠ 0)) with hi
    have hil : i < x.length := by
      have := (List.getElem?_eq_some_iff.mp hv).1; simpa using this
    refine ⟨⟨v, ?_, hv0⟩, fun j hj w hw hw0 => ?_⟩
    · rw [List.getElem?_reverse (by simpa using hil)] at hv
      exact hv
    · have hjl : j < x.length := (List.getElem?_eq_some_iff.mp hw).1
      refine h2 (x.length - 1 - j) (by omega) w ?_ hw0
      rw [List.getElem?_reverse (by omega)]
      rw [show x.length - 1 - (x.length - 1 - j) = j by omega]; exact hw
  · intro h
    unfold lastNonzero
    rw [if_neg]
    simp only [List.any_eq_true, not_exists, not_and]
    intro v hv; simp [h v hv]

example : firstNonzero ([0, 0, 3, 0, 5] : List ℚ) = 2 ∧ lastNonzero ([0, 0, 3, 0, 5, 0] : List ℚ) = 4
    ∧ firstZero ([1, 2, 0, 3, 0] : List ℚ) = 2 ∧ firstZero ([1, 2] : List ℚ) = 0 := by
  refine ⟨?_, ?_, ?_, ?_⟩ <;> decide +kernel

/-! ## C67: zero-avoiding minimum, maximum, mean -/

/-- C67, `min_zero_avoiding`: for every non-empty real array of any signs, the least non-zero entry
if there is a non-zero entry, and `0` otherwise.  (On an empty array `jnp.min` raises.) -/
theorem C67_min_zero_avoiding (x : List K) (hne : x ≠ []) :
    ((∃ v ∈ x, v ≠ 0) → IsLeastNonzero x (minZeroAvoiding x)) ∧
    ((∀ v ∈ x, v = 0) → minZeroAvoiding x = 0) :=
  ⟨minZeroAvoiding_isLeast x, minZeroAvoiding_zero x hne⟩

/-- C67, `max_zero_avoiding`: the greatest non-zero entry if there is one, and `0` otherwise. -/
theorem C67_max_zero_avoiding [IsStrictOrderedRing K] (x : List K) (hne : x ≠ []) :
    ((∃ v ∈ x, v ≠ 0) → IsGreatestNonzero x (maxZeroAvoiding x)) ∧
    ((∀ v ∈ x, v = 0) → maxZeroAvoiding x = 0) := by
  have hne' : sort x ≠ [] := by
    intro hc; have := (sort_perm x).length_eq; rw [hc] at this
    exact hne (List.length_eq_zero_iff.mp this.symm)
  have hcase : amax (sort x) = 0 → ∀ y ∈ x, y ≤ 0 := fun h0 y hy =>
    h0 ▸ le_amax (mem_sort.mpr hy)
  constructor
  · intro h
    unfold maxZeroAvoiding
    simp only
    split_ifs with h0
    · have hle := hcase h0
      obtain ⟨v, hv, hv0⟩ := h
      obtain ⟨hm, hm0, hmin⟩ := minZeroAvoiding_isLeast ((sort x).map fun v => |v|)
        ⟨|v|, List.mem_map.mpr ⟨v, mem_sort.mpr hv, rfl⟩, by simpa using hv0⟩
      obtain ⟨w, hw, hwe⟩ := List.mem_map.mp hm
      have hwx := mem_sort.mp hw
      have hw' : minZeroAvoiding ((sort x).map fun v => |v|) = -w := by
        rw [← hwe]; exact abs_of_nonpos (hle w hwx)
      rw [hw'] at hm0 hmin ⊢
      rw [neg_neg]
      refine ⟨hwx, fun hc => hm0 (by simp [hc]), fun y hy hy0 => ?_⟩
      have := hmin |y| (List.mem_map.mpr ⟨y, mem_sort.mpr hy, rfl⟩) (by simpa using hy0)
      rw [abs_of_nonpos (hle y hy)] at this
      exact neg_le_neg_iff.mp this
    · exact ⟨mem_sort.mp (amax_mem hne'), h0, fun y hy _ => le_amax (mem_sort.mpr hy)⟩
  · intro h
    unfold maxZeroAvoiding
    simp only
    split_ifs with h0
    · rw [minZeroAvoiding_zero, neg_zero]
      · simpa using hne'
      · intro v hv
        obtain ⟨w, hw, rfl⟩ := List.mem_map.mp hv
        rw [h w (mem_sort.mp hw), abs_zero]
    · exact absurd (h _ (mem_sort.mp (amax_mem hne'))) h0

/-- C67, `mean_zero_avoiding`: `0` when all entries are zero, otherwise the number `m` with
(number of non-zero entries) * m = sum of all entries (equivalently of the non-zero entries). -/
theorem C67_mean_zero_avoiding [IsStrictOrderedRing K] (x : List K) :
    ((∀ v ∈ x, v = 0) → meanZeroAvoiding x = 0) ∧
    ((∃ v ∈ x, v ≠ 0) →
      meanZeroAvoiding x * (x.countP (fun v => decide (v ≠ 0)) : K) = x.sum) := by
  constructor
  · intro h
    unfold meanZeroAvoiding
    rw [if_pos]
    simp only [List.all_map, List.all_eq_true]
    intro v hv; simpa using h v hv
  · rintro ⟨v, hv, hv0⟩
    unfold meanZeroAvoiding
    rw [if_neg]
    · simp only
      have h1 : (x.filter fun v => !decide (v = 0)).length
          = x.countP (fun v => decide (v ≠ 0)) := by
        rw [List.countP_eq_length_filter]; simp
      have h2 : ∀ l : List K, (l.filter fun v => !decide (v = 0)).sum = l.sum := by
        intro l
        induction l with
        | nil => rfl
        | cons a l ih =>
          by_cases ha : a = 0
          · simp [ha]; simpa using ih
          · rw [List.filter_cons_of_pos (by simpa using ha)]; simp only [List.sum_cons, ih]
      rw [h1, h2, div_mul_cancel₀]
      have : 0 < x.countP (fun v => decide (v ≠ 0)) :=
        List.countP_pos_iff.mpr ⟨v, hv, by simpa using hv0⟩
      exact_mod_cast this.ne'
    · simp only [List.all_map, List.all_eq_true, not_forall]
      exact ⟨v, hv, by simpa using hv0⟩

example : minZeroAvoiding ([0, 2, 0, 1, 3] : List ℚ) = 1 ∧ minZeroAvoiding ([0, -2, 1] : List ℚ) = -2
    ∧ maxZeroAvoiding ([0, -2, -1] : List ℚ) = -1 ∧ maxZeroAvoiding ([0, -2, 5] : List ℚ) = 5
    ∧ meanZeroAvoiding ([0, 2, 0, 4] : List ℚ) = 3 := by
  refine ⟨?_, ?_, ?_, ?_, ?_⟩ <;> decide +kernel

/-! ## C68: sparse_argsort -/

/-- C68: the result is a permutation of all indices in which every non-zero entry precedes every
zero entry, non-zero entries are in ascending order, ties and zeros keep their input order. -/
theorem C68_sparse_argsort (a : List K) :
    (sparseArgsort a).Perm (List.range a.length) ∧
    (sparseArgsort a).Pairwise (fun i j => ∀ u v, a[i]? = some u → a[j]? = some v →
      (u ≠ 0 ∧ v ≠ 0 ∧ (u < v ∨ (u = v ∧ i < j))) ∨ (u ≠ 0 ∧ v = 0) ∨
      (u = 0 ∧ v = 0 ∧ i < j)) := by
  set b : List (WithTop K) := a.map fun v : K => if v ≠ 0 then (v : WithTop K) else ⊤ with hb
  have hlen : b.length = a.length := by simp [hb]
  have hperm : (sparseArgsort a).Perm (List.range a.length) := by
    have := argsort_perm b; rw [hlen] at this; exact this
  refine ⟨hperm, ?_⟩
  have hs := argsortKey_pairwise b.length (fun i => b.getD i default)
  have hnd : (sparseArgsort a).Nodup := hperm.nodup_iff.mpr List.nodup_range
  have hs2 : (sparseArgsort a).Pairwise (fun i j => keyLe (fun i => b.getD i default) i j ∧ i ≠ j) :=
    List.Pairwise.and hs hnd
  refine hs2.imp ?_
  rintro i j ⟨hk, hij⟩ u v hu hv
  have hkey : ∀ (k : ℕ) (w : K), a[k]? = some w →
      b.getD k default = if w ≠ 0 then (w : WithTop K) else ⊤ := by
    intro k w hw
    rw [List.getD_eq_getElem?_getD, hb, List.getElem?_map, hw]; rfl
  unfold keyLe at hk
  simp only [hkey i u hu, hkey j v hv] at hk
  by_cases hu0 : u = 0 <;> by_cases hv0 : v = 0
  · right; right
    refine ⟨hu0, hv0, ?_⟩
    rcases hk with hk | hk
    · simp [hu0, hv0] at hk
    · omega
  · exfalso
    rcases hk with hk | hk
    · simp [hu0, hv0] at hk
    · simp [hu0, hv0] at hk
  · exact Or.inr (Or.inl ⟨hu0, hv0⟩)
  · left
    refine ⟨hu0, hv0, ?_⟩
    simp only [ne_eq, hu0, not_false_eq_true, if_true, hv0, WithTop.coe_lt_coe,
      WithTop.coe_eq_coe] at hk
    rcases hk with hk | ⟨hk, hk'⟩
    · exact Or.inl hk
    · exact Or.inr ⟨hk, by omega⟩

example : sparseArgsort ([0, 2, 0, -1, 3] : List ℚ) = [3, 1, 4, 0, 2] := by decide +kernel

/-! ## C69: trapz_zero_avoiding -/

omit [LinearOrder K] in
/-- C69: on buffers whose abscissae are zero after the tail index (zero-padded buffers, as the code uses
them) the result is the trapezoid sum over the samples `0 … tail`. -/
theorem C69_trapz_zero_avoiding (y x : List K) (t : ℕ) (hlen : y.length = x.length)
    (ht : t < x.length) (hx : ∀ i, t < i → x.getD i 0 = 0) :
    trapzZeroAvoiding y x t = trapezoidUpTo (fun i => y.getD i 0) (fun i => x.getD i 0) t := by
  unfold trapzZeroAvoiding trapezoidUpTo
  simp only
  rw [trapezoid_eq_sum y x hlen]
  set f : ℕ → K := fun i => (y.getD i 0 + y.getD (i + 1) 0) / 2 * (x.getD (i + 1) 0 - x.getD i 0)
    with hf
  split_ifs with h
  · rw [show x.length - 1 = t by omega]
  · have h1 : ((List.range (x.length - 1)).map f).sum = ((List.range (t + 1)).map f).sum := by
      apply sum_range_eq_of_zero_tail _ _ _ (by omega)
      intro i hi
      simp only [hf]
      rw [hx (i + 1) (by omega), hx i (by omega)]; ring
    rw [h1, List.range_succ, List.map_append, List.sum_append]
    have g : ∀ (z : List K) (i : ℕ), i < z.length → get 0 z i = z.getD i 0 := by
      intro z i hi; rw [get_of_lt 0 z hi, List.getD_eq_getElem _ _ hi]
    rw [g x t ht, g y t (by omega), g x (t + 1) (by omega), g y (t + 1) (by omega)]
    simp [hf]; ring

example : trapzZeroAvoiding ([1, 2, 3, 0, 0, 0] : List ℚ) [0, 1, 3, 0, 0, 0] 2 = 13 / 2 := by
  decide +kernel

/-- C69, negation of the docstring equivalence: without zero padding the result is *not* the
trapezoid sum up to the tail — only the one segment after the tail is removed. -/
theorem C69_not_general : ∃ (y x : List ℚ) (t : ℕ), y.length = x.length ∧ t < x.length ∧
    trapzZeroAvoiding y x t ≠ trapezoidUpTo (fun i => y.getD i 0) (fun i => x.getD i 0) t :=
  ⟨[1, 1, 1, 1], [0, 1, 2, 3], 1, rfl, by decide, by decide +kernel⟩

/-! ## C12: match_points -/

section matchPoints

variable {P D : Type*} [LinearOrder D] [Inhabited D] (dist : P → P → D)

/-- C12: for every distance function, all point lists and all candidate lists with at least as many
candidates as points, `match_points` is a greedy nearest-neighbour matching. -/
theorem C12_match_points_greedy (a b : List P) (hab : a.length ≤ b.length) :
    IsGreedyMatching dist a b (matchPoints dist a b) := by
  induction a using List.reverseRecOn with
  | nil =>
    refine ⟨rfl, by simp [matchPoints], by simp [matchPoints], ?_, ?_⟩ <;> simp
  | append_singleton a p ih =>
    simp only [List.length_append, List.length_cons, List.length_nil] at hab
    have ih := ih (by omega)
    have hb : b ≠ [] := by intro hc; rw [hc] at hab; simp at hab
    have hr : (matchPoints dist a b).length = a.length := matchPoints_length dist a b
    set r := matchPoints dist a b with hrdef
    set row := argsort (b.map (dist p)) with hrow
    have hrowlen : row.length = b.length := by rw [hrow, argsort_length]; simp
    have hex : ∃ v ∈ row, v ∉ r := by
      obtain ⟨v, hv, hvr⟩ := exists_unused r b.length (by omega)
      exact ⟨v, mem_argsort.mpr (by simpa using hv), hvr⟩
    obtain ⟨i0, hi0, hnew, hbefore⟩ := matchPick_spec row r hex
    set k0 := matchPick row r with hk0
    have hk0lt : k0 < b.length := matchPick_lt dist b p r hb
    -- the chosen index is first in the stable order among unused candidates
    have hkey : ∀ (k : ℕ) (u : P), b[k]? = some u →
        (b.map (dist p)).getD k default = dist p u := by
      intro k u hu
      rw [List.getD_eq_getElem?_getD, List.getElem?_map, hu]; rfl
    have hfirst : ∀ (j : ℕ) (v : P), b[j]? = some v → j ∉ r → j ≠ k0 →
        keyLe (fun i => (b.map (dist p)).getD i default) k0 j := by
      intro j v hj hjr hjk
      have hjl : j < b.length := (List.getElem?_eq_some_iff.mp hj).1
      have hjrow : j ∈ row := mem_argsort.mpr (by simpa using hjl)
      obtain ⟨i1, hi1⟩ := List.getElem?_of_mem hjrow
      obtain ⟨hi0l, hi0e⟩ := List.getElem?_eq_some_iff.mp hi0
      obtain ⟨hi1l, hi1e⟩ := List.getElem?_eq_some_iff.mp hi1
      have hlt : i0 < i1 := by
        rcases lt_trichotomy i0 i1 with h | h | h
        · exact h
        · subst h; rw [hi0] at hi1; simp at hi1; exact absurd hi1.symm hjk
        · exact absurd (hbefore i1 h j hi1) hjr
      have := List.pairwise_iff_getElem.mp
        (argsortKey_pairwise (b.map (dist p)).length (fun i => (b.map (dist p)).getD i default))
        i0 i1 hi0l hi1l hlt
      have e0 : (argsortKey (b.map (dist p)).length (fun i => (b.map (dist p)).getD i default))[i0]'hi0l
          = k0 := hi0e
      have e1 : (argsortKey (b.map (dist p)).length (fun i => (b.map (dist p)).getD i default))[i1]'hi1l
          = j := hi1e
      rw [e0, e1] at this
      exact this
    rw [matchPoints_snoc]
    change IsGreedyMatching dist (a ++ [p]) b (r ++ [k0])
    have hlen : (r ++ [k0]).length = (a ++ [p]).length := by simp [hr]
    refine ⟨hlen, ?_, ?_, ?_, ?_⟩
    · intro j hj
      rcases List.mem_append.mp hj with hj | hj
      · exact ih.inRange j hj
      · simp only [List.mem_singleton] at hj; rw [hj]; exact hk0lt
    · rw [List.nodup_append]
      refine ⟨ih.nodup, by simp, ?_⟩
      intro x hx y hy; simp only [List.mem_singleton] at hy; subst hy
      rintro rfl; exact hnew hx
    · intro i q hq k hk u hu j v hv hj
      rcases Nat.lt_or_ge i a.length with hi | hi
      · rw [List.getElem?_append_left hi] at hq
        rw [List.getElem?_append_left (by omega)] at hk
        rw [List.take_append_of_le_length (by omega)] at hj
        exact ih.nearest i q hq k hk u hu j v hv hj
      · have hia : i = a.length := by
          have := (List.getElem?_eq_some_iff.mp hq).1; simp at this; omega
        subst hia
        rw [List.getElem?_append_right le_rfl] at hq
        rw [List.getElem?_append_right (by omega)] at hk
        simp [hr] at hq hk
        subst hq hk
        rw [List.take_append_of_le_length (by omega), ← hr, List.take_length] at hj
        by_cases hjk : j = k0
        · subst hjk; rw [hu] at hv; simp at hv; subst hv; exact le_rfl
        · have := hfirst j v hv hj hjk
          unfold keyLe at this
          simp only [hkey k0 u hu, hkey j v hv] at this
          rcases this with h | h
          · exact h.le
          · exact h.1.le
    · intro i q hq k hk u hu j v hv hj hjk
      rcases Nat.lt_or_ge i a.length with hi | hi
      · rw [List.getElem?_append_left hi] at hq
        rw [List.getElem?_append_left (by omega)] at hk
        rw [List.take_append_of_le_length (by omega)] at hj
        exact ih.tieBreak i q hq k hk u hu j v hv hj hjk
      · have hia : i = a.length := by
          have := (List.getElem?_eq_some_iff.mp hq).1; simp at this; omega
        subst hia
        rw [List.getElem?_append_right le_rfl] at hq
        rw [List.getElem?_append_right (by omega)] at hk
        simp [hr] at hq hk
        subst hq hk
        rw [List.take_append_of_le_length (by omega), ← hr, List.take_length] at hj
        have := hfirst j v hv hj (by omega)
        unfold keyLe at this
        simp only [hkey k0 u hu, hkey j v hv] at this
        rcases this with h | h
        · exact h
        · omega

/-- C12: with equally many points and candidates the result is a permutation of the indices. -/
theorem C12_match_points_perm (a b : List P) (hab : a.length = b.length) :
    (matchPoints dist a b).Perm (List.range b.length) := by
  have h := C12_match_points_greedy dist a b hab.le
  have hsub : (matchPoints dist a b).Subperm (List.range b.length) :=
    h.nodup.subperm fun j hj => List.mem_range.mpr (h.inRange j hj)
  exact hsub.perm_of_length_le (by simp [h.length, hab])

/-- C12: with more points than (at least one) candidates some index is necessarily repeated. -/
theorem C12_match_points_repeats (a b : List P) (hb : b ≠ []) (hab : b.length < a.length) :
    ¬ (matchPoints dist a b).Nodup := by
  intro hnd
  have hsub : (matchPoints dist a b).Subperm (List.range b.length) :=
    hnd.subperm fun j hj => List.mem_range.mpr (matchPoints_lt dist a b hb j hj)
  have := hsub.length_le
  rw [matchPoints_length] at this; simp at this; omega

example : matchPoints (fun p q : ℚ => |q - p|) [0, 1, -1] [1, -1, 0] = [2, 0, 1] := by
  decide +kernel
-- a contested candidate: both points are nearest to candidate 0, the second takes the next best
example : matchPoints (fun p q : ℚ => |q - p|) [0, 1] [0, 5] = [0, 1] := by decide +kernel

end matchPoints

end Microjax.Props
