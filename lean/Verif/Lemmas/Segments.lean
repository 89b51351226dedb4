import Verif.Spec.Segments
import Verif.Lemmas.Jnp
import Mathlib.Tactic.Ring

/-! # Helper lemmas about segment buffers -/

set_option linter.unusedVariables false
set_option linter.unusedSectionVars false

namespace Microjax.Props

open Microjax.Spec Segments Jnp

variable {K : Type*} [Field K] [LinearOrder K]

theorem Pt.add_def (a b : Pt K) : a + b = ⟨a.x + b.x, a.y + b.y, a.p + b.p⟩ := rfl

theorem Pt.zero_def : (0 : Pt K) = ⟨0, 0, 0⟩ := rfl

theorem Pt.add_zero' (a : Pt K) : a + 0 = a := by
  rw [Pt.add_def, Pt.zero_def]; simp

theorem Pt.zero_add' (a : Pt K) : 0 + a = a := by
  rw [Pt.add_def, Pt.zero_def]; simp

theorem negParity_eq (s : Pt K) : negParity s = ⟨s.x, s.y, -s.p⟩ := by
  simp [negParity]

theorem zipWith_add_zeros (a : List (Pt K)) (n : ℕ) (h : a.length = n) :
    List.zipWith (· + ·) a (List.replicate n 0) = a := by
  subst h
  induction a with
  | nil => rfl
  | cons x a ih => simp [List.replicate_succ, ih, Pt.add_zero']

theorem zipWith_zeros_add (a : List (Pt K)) (n : ℕ) (h : a.length = n) :
    List.zipWith (· + ·) (List.replicate n 0) a = a := by
  subst h
  induction a with
  | nil => rfl
  | cons x a ih => simp [List.replicate_succ, ih, Pt.zero_add']

/-- rolling a padded buffer forward within its padding -/
theorem roll_padded {α : Type*} (z : α) (b : List α) (L n : ℕ) (h : n + b.length ≤ L) (hn : n < L) :
    roll (b ++ List.replicate (L - b.length) z) n
      = List.replicate n z ++ (b ++ List.replicate (L - b.length - n) z) := by
  have hl : (b ++ List.replicate (L - b.length) z).length = L := by simp; omega
  unfold roll
  rw [hl, Nat.mod_eq_of_lt hn, List.rotate_eq_drop_append_take (by omega)]
  rw [List.drop_append, List.take_append, List.drop_of_length_le (by omega), List.take_of_length_le (by omega),
    List.nil_append, List.drop_replicate, List.take_replicate]
  congr 1
  · congr 1; omega
  · congr 2; omega

/-- rolling a left-padded buffer back to the front -/
theorem rollBack_padded {α : Type*} (z : α) (b : List α) (n : ℕ) :
    rollBack (List.replicate n z ++ b) n = b ++ List.replicate n z := by
  unfold rollBack
  have := List.rotate_append_length_eq (List.replicate n z) b
  rwa [List.length_replicate] at this

theorem argmaxBool_isZeroPos (a : List (Pt K)) (k : ℕ) (ha : ∀ s ∈ a, isZeroPos s = false) :
    argmaxBool ((a ++ List.replicate k (0 : Pt K)).map isZeroPos) = if k = 0 then 0 else a.length := by
  split_ifs with hk
  · subst hk
    apply argmaxBool_none
    simp only [List.replicate_zero, List.append_nil, List.mem_map, not_exists, not_and]
    intro s hs; rw [ha s hs]; decide
  · have hz : isZeroPos (0 : Pt K) = true := by simp [isZeroPos, Pt.zero_def]
    have hmem : true ∈ (a ++ List.replicate k (0 : Pt K)).map isZeroPos := by
      rw [List.mem_map]
      exact ⟨0, by simp [hk], hz⟩
    obtain ⟨h1, h2⟩ := argmaxBool_spec hmem
    set i := argmaxBool ((a ++ List.replicate k (0 : Pt K)).map isZeroPos)
    rcases Nat.lt_trichotomy i a.length with h | h | h
    · exfalso
      rw [List.getElem?_map, List.getElem?_append_left h, List.getElem?_eq_getElem h] at h1
      simp only [Option.map_some, Option.some.injEq] at h1
      rw [ha _ (List.getElem_mem h)] at h1; exact absurd h1 (by decide)
    · exact h
    · exfalso
      have := h2 a.length h
      rw [List.getElem?_map, List.getElem?_append_right le_rfl, Nat.sub_self, List.getElem?_replicate,
        if_pos (by omega)] at this
      simp [hz] at this

theorem concat_holds (L : ℕ) (s1 s2 a b : List (Pt K)) (h1 : Holds L s1 a) (h2 : Holds L s2 b)
    (ha : ∀ s ∈ a, isZeroPos s = false) (hL : a.length + b.length ≤ L) :
    Holds L (concatenateSegments s1 s2) (a ++ b) := by
  obtain ⟨ha1, rfl⟩ := h1
  obtain ⟨hb1, rfl⟩ := h2
  refine ⟨by simpa using hL, ?_⟩
  unfold concatenateSegments
  simp only
  rw [argmaxBool_isZeroPos _ _ ha]
  split_ifs with hk
  · have hal : a.length = L := by omega
    have hbl : b = [] := List.length_eq_zero_iff.1 (by omega)
    subst hbl
    have hz : roll ([] ++ List.replicate (L - ([] : List (Pt K)).length) (0 : Pt K)) 0 = List.replicate L 0 := by
      unfold roll
      simp only [List.nil_append, List.length_nil, Nat.sub_zero, List.length_replicate, Nat.zero_mod]
      rw [List.rotate_replicate]
    rw [hz, hk]
    simp only [List.replicate_zero, List.append_nil]
    rw [zipWith_add_zeros a L hal, hk]; simp
  · rw [roll_padded 0 b L a.length hL (by omega), List.zipWith_append (by simp),
      zipWith_add_zeros a _ rfl, zipWith_zeros_add _ _ (by simp; omega), List.append_assoc]
    simp only [List.length_append]
    congr 3; omega

theorem reverse_holds (L : ℕ) (s a : List (Pt K)) (h : Holds L s a) (hne : a ≠ []) :
    Holds L (reverseSegment s (a.length - 1)) (reversePath a) := by
  obtain ⟨ha1, rfl⟩ := h
  have hpos : 0 < a.length := List.length_pos_iff.2 hne
  refine ⟨by simpa [reversePath] using ha1, ?_⟩
  unfold reverseSegment reversePath
  have hl : (a ++ List.replicate (L - a.length) (0 : Pt K)).length = L := by simp; omega
  rw [hl, show L - (a.length - 1) - 1 = L - a.length by omega, List.reverse_append, List.reverse_replicate,
    rollBack_padded, List.map_append, List.map_replicate]
  simp only [List.length_map, List.length_reverse]
  have hz : negParity (0 : Pt K) = 0 := by simp [negParity_eq, Pt.zero_def]
  rw [hz]
  congr 1
  apply List.map_congr_left
  intro s _
  exact negParity_eq s

theorem isZeroPos_reversePath (a : List (Pt K)) (ha : ∀ s ∈ a, isZeroPos s = false) :
    ∀ s ∈ reversePath a, isZeroPos s = false := by
  intro s hs
  simp only [reversePath, List.mem_map, List.mem_reverse] at hs
  obtain ⟨t, ht, rfl⟩ := hs
  simpa [isZeroPos] using ha t ht

theorem reversePath_length (a : List (Pt K)) : (reversePath a).length = a.length := by simp [reversePath]

theorem orient_length (o : Bool) (a : List (Pt K)) : (orient o a).length = a.length := by
  cases o <;> simp [orient, reversePath]

theorem chain_nil : chain ([] : List (Bool × List (Pt K))) = [] := rfl

theorem chain_append (u v : List (Bool × List (Pt K))) : chain (u ++ v) = chain u ++ chain v := by
  simp [chain]

theorem chain_cons (a : Bool × List (Pt K)) (v : List (Bool × List (Pt K))) :
    chain (a :: v) = orient a.1 a.2 ++ chain v := by
  simp [chain]

theorem chain_single (o : Bool) (a : List (Pt K)) : chain [(o, a)] = orient o a := by
  simp [chain]

theorem holds_nil (L : ℕ) (s : List (Pt K)) : Holds L s [] ↔ s = List.replicate L 0 := by
  simp [Holds]

theorem holds_length {L : ℕ} {s a : List (Pt K)} (h : Holds L s a) : s.length = L := by
  obtain ⟨h1, rfl⟩ := h; simp; omega

theorem holds_get {L : ℕ} {s a : List (Pt K)} (h : Holds L s a) (i : ℕ) (hi : i < a.length) :
    get 0 s i = a[i] := by
  obtain ⟨h1, rfl⟩ := h
  rw [get_of_lt 0 _ (by simp; omega), List.getElem_append_left hi]

theorem holds_get_zero {L : ℕ} {s a : List (Pt K)} (h : Holds L s a) (i : ℕ) (hi : a.length ≤ i)
    (hL : a.length < L) : get 0 s i = 0 := by
  obtain ⟨h1, rfl⟩ := h
  unfold Jnp.get
  rw [List.getD_append_right _ _ _ _ (by simp; omega)]
  simp only [List.getD_eq_getElem?_getD, List.getElem?_replicate]
  split_ifs <;> rfl

end Microjax.Props
