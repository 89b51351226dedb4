import Verif.Model.Lightcurve
import Verif.Lemmas.Jnp
import Mathlib.Data.List.GetD
import Mathlib.Data.List.Count
import Mathlib.Data.List.Range

/-! # Lemmas on chunking, index selection and scatter -/

noncomputable section

namespace Microjax.Props

open Lightcurve

theorem flatten_blocks {α : Type*} (x : List α) (c k : ℕ) :
    ((List.range k).map fun j => (x.drop (j * c)).take c).flatten = x.take (k * c) := by
  induction k with
  | zero => simp
  | succ k ih =>
    rw [List.range_succ, List.map_append, List.flatten_append, ih, Nat.succ_mul, List.take_add]
    simp

theorem reshape_flatten {α : Type*} (c : ℕ) (x : List α) (h : c ∣ x.length) :
    (reshape c x).flatten = x := by
  rw [reshape, flatten_blocks, Nat.div_mul_cancel h, List.take_length]

theorem pad_dvd (N c : ℕ) (hc : 0 < c) : c ∣ N + (c - N % c) % c := by
  rw [Nat.dvd_iff_mod_eq_zero, Nat.add_mod, Nat.mod_mod]
  have := Nat.mod_lt N hc
  rcases Nat.eq_zero_or_pos (N % c) with h | h
  · simp [h]
  · rw [Nat.mod_eq_of_lt (a := c - N % c) (by omega)]
    have : N % c + (c - N % c) = c := by omega
    rw [this, Nat.mod_self]

theorem chunkedVmap_eq {α β : Type*} (zero : α) (f : α → β) (data : List α) (c : ℕ) (hc : 0 < c) :
    chunkedVmap zero f data c = data.map f := by
  unfold chunkedVmap
  simp only
  rw [← List.map_flatten, reshape_flatten, List.map_append, List.take_append_of_le_length (by simp),
    List.take_of_length_le (by simp)]
  simpa using pad_dvd data.length c hc

theorem scatterSet_length {α : Type*} (x : List α) (idx : List ℕ) (v : List α) :
    (scatterSet x idx v).length = x.length := by
  unfold scatterSet
  induction idx generalizing x v with
  | nil => simp
  | cons i idx ih =>
    cases v with
    | nil => simp
    | cons b v => simpa using ih (x.set i b) v

theorem scatterSet_get {α : Type*} (x : List α) (idx : List ℕ) (g : ℕ → α) (hn : idx.Nodup)
    (i : ℕ) (hi : i < x.length) :
    (scatterSet x idx (idx.map g))[i]? = if i ∈ idx then some (g i) else x[i]? := by
  unfold scatterSet
  induction idx generalizing x with
  | nil => simp
  | cons j idx ih =>
    have hj := List.nodup_cons.mp hn
    simp only [List.map_cons, List.zip_cons_cons, List.foldl_cons]
    rw [ih (x.set j (g j)) hj.2 (by simpa using hi)]
    by_cases h1 : i ∈ idx
    · simp [h1]
    · simp only [h1, if_false, List.mem_cons, or_false]
      by_cases h2 : i = j
      · subst h2; simp [hi]
      · rw [List.getElem?_set_ne (by omega)]; simp [h2]

/-- Indices whose value is `b`, in order. -/
def idxOf (test : List Bool) (b : Bool) : List ℕ :=
  (List.range test.length).filter fun i => test.getD i default == b

theorem argsort_bool (test : List Bool) :
    Jnp.argsort test = idxOf test false ++ idxOf test true := by
  unfold Jnp.argsort
  apply Jnp.argsortKey_unique
  · unfold idxOf
    have := List.filter_append_perm (fun i => test.getD i default == false) (List.range test.length)
    refine List.Perm.trans (List.Perm.append_left _ ?_) this
    apply List.Perm.of_eq
    congr 1
    funext i
    cases test.getD i default <;> rfl
  · rw [List.pairwise_append]
    have hr : (List.range test.length).Pairwise (· < ·) := List.pairwise_lt_range
    refine ⟨?_, ?_, ?_⟩
    · refine (List.Pairwise.and_mem.mp (hr.sublist List.filter_sublist)).imp ?_
      rintro a b ⟨ha, hb, hab⟩
      simp only [List.mem_filter, beq_iff_eq] at ha hb
      exact .inr ⟨ha.2.trans hb.2.symm, hab.le⟩
    · refine (List.Pairwise.and_mem.mp (hr.sublist List.filter_sublist)).imp ?_
      rintro a b ⟨ha, hb, hab⟩
      simp only [List.mem_filter, beq_iff_eq] at ha hb
      exact .inr ⟨ha.2.trans hb.2.symm, hab.le⟩
    · intro a ha b hb
      simp only [idxOf, List.mem_filter, beq_iff_eq] at ha hb
      refine .inl ?_
      simp only [ha.2, hb.2]; decide

theorem length_filter_range (test : List Bool) (b : Bool) (i : ℕ) (hi : i ≤ test.length) :
    ((List.range i).filter fun j => test.getD j default == b).length = (test.take i).count b := by
  induction i with
  | zero => simp
  | succ i ih =>
    rw [List.range_succ, List.filter_append, List.length_append, ih (by omega),
      List.take_add_one, List.count_append]
    congr 1
    have : i < test.length := by omega
    rw [List.filter_singleton, List.getElem?_eq_getElem this, Option.toList_some, List.getD_eq_getElem _ _ this]
    by_cases h : test[i] = b
    · simp [h]
    · have : (test[i] == b) = false := by simpa using h
      simp [this, h]

theorem mem_take_idx (test : List Bool) (i m : ℕ) (hi : i < test.length) (hf : test[i] = false) :
    i ∈ (Jnp.argsort test).take m ↔ (test.take i).count false < m := by
  rw [argsort_bool]
  have hsplit : idxOf test false = ((List.range i).filter fun j => test.getD j default == false) ++
      i :: (((List.range test.length).drop (i + 1)).filter fun j => test.getD j default == false) := by
    unfold idxOf
    have h1 : List.range test.length = List.range i ++ i :: (List.range test.length).drop (i + 1) := by
      conv_lhs => rw [← List.take_append_drop i (List.range test.length)]
      rw [List.take_range, min_eq_left hi.le]
      congr 1
      rw [List.drop_eq_getElem_cons (by simpa using hi)]
      simp
    conv_lhs => rw [h1]
    rw [List.filter_append, List.filter_cons_of_pos]
    simp [List.getElem?_eq_getElem hi, hf]
  have hlen := length_filter_range test false i hi.le
  rw [hsplit]
  set A := (List.range i).filter fun j => test.getD j default == false with hA
  have hiA : i ∉ A := by simp [hA]
  rw [List.append_assoc, List.take_append, List.mem_append]
  have hnt : i ∉ List.take m A := fun h => hiA (List.mem_of_mem_take h)
  simp only [hnt, false_or, hlen]
  by_cases hm : (test.take i).count false < m
  · obtain ⟨k, hk⟩ : ∃ k, m - (test.take i).count false = k + 1 := ⟨m - (test.take i).count false - 1, by omega⟩
    rw [hk]; simp [hm]
  · have : m - (test.take i).count false = 0 := by omega
    rw [this]; simp [hm]

theorem refine_length (test : List Bool) (mu : List ℝ) (full : ℂ → ℝ) (w : List ℂ) (m c : ℕ)
    (h1 : test.length = w.length) (h2 : mu.length = w.length) :
    (refine test mu full w m c).length = w.length := by
  simp [Lightcurve.refine, scatterSet_length, h1, h2]

theorem refine_get (test : List Bool) (mu : List ℝ) (full : ℂ → ℝ) (w : List ℂ) (m c : ℕ) (hc : 0 < c)
    (h1 : test.length = w.length) (h2 : mu.length = w.length) (i : ℕ) (hi : i < w.length) :
    (refine test mu full w m c)[i]? =
      some (if test[i] = true ∨ m ≤ (test.take i).count false then mu[i] else full w[i]) := by
  unfold Lightcurve.refine
  simp only
  rw [chunkedVmap_eq _ _ _ _ hc, List.map_map]
  have hs := scatterSet_get mu ((Jnp.argsort test).take m) (full ∘ Jnp.get 0 w)
    ((Jnp.argsort_nodup test).sublist (List.take_sublist _ _)) i (by omega)
  have hw : Jnp.get 0 w i = w[i] := by
    exact Jnp.get_of_lt _ _ hi
  have hlt : i < test.length := by omega
  have hmu : i < mu.length := by omega
  rw [List.getElem?_zipWith, List.getElem?_eq_getElem hlt, List.zip, List.getElem?_zipWith, hs,
    List.getElem?_eq_getElem hmu]
  by_cases ht : test[i] = true
  · split_ifs <;> simp [ht] at *
  · have hf : test[i] = false := by simpa using ht
    have hm := mem_take_idx test i m hlt hf
    by_cases hk : (test.take i).count false < m
    · simp [hm, hk, hf, hw]
    · simp [hm, hk, hf, Nat.le_of_not_lt hk]

end Microjax.Props
