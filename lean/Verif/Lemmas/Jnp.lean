import Verif.Model.Jnp
import Mathlib.Data.List.Perm.Basic
import Mathlib.Data.List.Nodup
import Mathlib.Data.List.GetD
import Mathlib.Tactic.Linarith
import Mathlib.Tactic.Ring

/-! # Helper lemmas about the `jnp` primitives -/

namespace Microjax.Jnp

section get
variable {α : Type*}

theorem get_of_lt (d : α) (x : List α) {i : ℕ} (h : i < x.length) : get d x i = x[i] := by
  unfold get
  have : min i (x.length - 1) = i := by omega
  rw [this, List.getD_eq_getElem _ _ h]

theorem get_mem (d : α) (x : List α) (i : ℕ) (h : x ≠ []) : get d x i ∈ x := by
  unfold get
  have hl : 0 < x.length := List.length_pos_iff.mpr h
  rw [List.getD_eq_getElem _ _ (by omega)]
  exact List.getElem_mem _

end get

section argmax

theorem argmaxBool_lt {x : List Bool} (h : true ∈ x) : argmaxBool x < x.length := by
  have : x.findIdx id < x.length := List.findIdx_lt_length.mpr ⟨true, h, rfl⟩
  unfold argmaxBool; rw [if_pos this]; exact this

theorem argmaxBool_spec {x : List Bool} (h : true ∈ x) :
    x[argmaxBool x]? = some true ∧ ∀ j < argmaxBool x, x[j]? = some false := by
  have hlt : x.findIdx id < x.length := List.findIdx_lt_length.mpr ⟨true, h, rfl⟩
  have e : argmaxBool x = x.findIdx id := by unfold argmaxBool; rw [if_pos hlt]
  rw [e]
  refine ⟨?_, fun j hj => ?_⟩
  · rw [List.getElem?_eq_getElem hlt]
    have := List.findIdx_getElem (w := hlt)
    simpa using this
  · have hjl : j < x.length := lt_trans hj hlt
    rw [List.getElem?_eq_getElem hjl]
    have := List.not_of_lt_findIdx hj
    simpa using this

theorem argmaxBool_none {x : List Bool} (h : true ∉ x) : argmaxBool x = 0 := by
  unfold argmaxBool
  rw [if_neg]
  rw [List.findIdx_lt_length]
  rintro ⟨b, hb, hb'⟩
  simp at hb'; subst hb'; exact h hb

end argmax

section minmax
variable {K : Type*} [LinearOrder K]

theorem foldl_min_spec (l : List K) (a : K) :
    (l.foldl min a ∈ a :: l) ∧ ∀ y ∈ a :: l, l.foldl min a ≤ y := by
  induction l generalizing a with
  | nil => simp
  | cons b l ih =>
    obtain ⟨h1, h2⟩ := ih (min a b)
    simp only [List.foldl_cons]
    constructor
    · rcases List.mem_cons.mp h1 with h | h
      · rw [h]; rcases min_choice a b with h' | h' <;> rw [h'] <;> simp
      · simp [h]
    · intro y hy
      have hm := h2 (min a b) (by simp)
      rcases List.mem_cons.mp hy with rfl | hy
      · exact hm.trans (min_le_left _ _)
      rcases List.mem_cons.mp hy with rfl | hy
      · exact hm.trans (min_le_right _ _)
      · exact h2 y (by simp [hy])

theorem foldl_max_spec (l : List K) (a : K) :
    (l.foldl max a ∈ a :: l) ∧ ∀ y ∈ a :: l, y ≤ l.foldl max a := by
  induction l generalizing a with
  | nil => simp
  | cons b l ih =>
    obtain ⟨h1, h2⟩ := ih (max a b)
    simp only [List.foldl_cons]
    constructor
    · rcases List.mem_cons.mp h1 with h | h
      · rw [h]; rcases max_choice a b with h' | h' <;> rw [h'] <;> simp
      · simp [h]
    · intro y hy
      have hm := h2 (max a b) (by simp)
      rcases List.mem_cons.mp hy with rfl | hy
      · exact (le_max_left _ _).trans hm
      rcases List.mem_cons.mp hy with rfl | hy
      · exact (le_max_right _ _).trans hm
      · exact h2 y (by simp [hy])

variable [Zero K]

theorem amin_mem {x : List K} (h : x ≠ []) : amin x ∈ x := by
  cases x with
  | nil => exact absurd rfl h
  | cons a l => exact (foldl_min_spec l a).1

theorem amin_le {x : List K} {y : K} (h : y ∈ x) : amin x ≤ y := by
  cases x with
  | nil => simp at h
  | cons a l => exact (foldl_min_spec l a).2 y h

theorem amax_mem {x : List K} (h : x ≠ []) : amax x ∈ x := by
  cases x with
  | nil => exact absurd rfl h
  | cons a l => exact (foldl_max_spec l a).1

theorem le_amax {x : List K} {y : K} (h : y ∈ x) : y ≤ amax x := by
  cases x with
  | nil => simp at h
  | cons a l => exact (foldl_max_spec l a).2 y h

end minmax

section sort
variable {K : Type*} [LinearOrder K]

theorem sort_perm (x : List K) : (sort x).Perm x := List.perm_insertionSort _ _

theorem mem_sort {x : List K} {y : K} : y ∈ sort x ↔ y ∈ x := (sort_perm x).mem_iff

theorem sort_sorted (x : List K) : (sort x).Pairwise (· ≤ ·) := List.pairwise_insertionSort _ _

instance (key : ℕ → K) : Std.Total (keyLe key) := ⟨fun i j => by
  unfold keyLe
  rcases lt_trichotomy (key i) (key j) with h | h | h
  · exact Or.inl (Or.inl h)
  · rcases le_total i j with h' | h'
    · exact Or.inl (Or.inr ⟨h, h'⟩)
    · exact Or.inr (Or.inr ⟨h.symm, h'⟩)
  · exact Or.inr (Or.inl h)⟩

instance (key : ℕ → K) : IsTrans ℕ (keyLe key) := ⟨fun i j k => by
  unfold keyLe
  rintro (h1 | ⟨h1, h1'⟩) (h2 | ⟨h2, h2'⟩)
  · exact Or.inl (h1.trans h2)
  · exact Or.inl (h2 ▸ h1)
  · exact Or.inl (h1 ▸ h2)
  · exact Or.inr ⟨h1.trans h2, h1'.trans h2'⟩⟩

theorem keyLe_antisymm (key : ℕ → K) {i j : ℕ} (h1 : keyLe key i j) (h2 : keyLe key j i) :
    i = j := by
  unfold keyLe at *
  rcases h1 with h1 | ⟨h1, h1'⟩ <;> rcases h2 with h2 | ⟨h2, h2'⟩
  · exact absurd h1 (not_lt_of_gt h2)
  · exact absurd h2.symm (ne_of_lt h1)
  · exact absurd h1.symm (ne_of_lt h2)
  · omega

theorem argsortKey_perm (n : ℕ) (key : ℕ → K) : (argsortKey n key).Perm (List.range n) :=
  List.perm_insertionSort _ _

theorem argsortKey_pairwise (n : ℕ) (key : ℕ → K) :
    (argsortKey n key).Pairwise (keyLe key) := List.pairwise_insertionSort _ _

/-- Any list that is a permutation of the indices and is ordered by the stable order is the
stable argsort. -/
theorem argsortKey_unique (n : ℕ) (key : ℕ → K) (l : List ℕ) (hp : l.Perm (List.range n))
    (hs : l.Pairwise (keyLe key)) : argsortKey n key = l :=
  List.Perm.eq_of_pairwise (fun _ _ _ _ h1 h2 => keyLe_antisymm key h1 h2)
    (argsortKey_pairwise n key) hs ((argsortKey_perm n key).trans hp.symm)

variable [Inhabited K]

theorem argsort_perm (x : List K) : (argsort x).Perm (List.range x.length) :=
  argsortKey_perm _ _

theorem argsort_length (x : List K) : (argsort x).length = x.length := by
  simpa using (argsort_perm x).length_eq

theorem mem_argsort {x : List K} {i : ℕ} : i ∈ argsort x ↔ i < x.length := by
  rw [(argsort_perm x).mem_iff, List.mem_range]

theorem argsort_nodup (x : List K) : (argsort x).Nodup :=
  (argsort_perm x).nodup_iff.mpr List.nodup_range

end sort

end Microjax.Jnp
