import Verif.Lemmas.SegmentMerge

/-! # The loop over contours -/

set_option linter.unusedVariables false
set_option linter.unusedSectionVars false

namespace Microjax.Props

open Microjax.Spec Segments Jnp Utils

theorem map_get_perm {α : Type*} (d : α) (l : List α) (idcs : List ℕ) (h : idcs.Perm (List.range l.length)) :
    (idcs.map fun i => Jnp.get d l i).Perm l := by
  have h1 := h.map (fun i => Jnp.get d l i)
  refine h1.trans ?_
  have : (List.range l.length).map (fun i => Jnp.get d l i) = l := by
    apply List.ext_getElem
    · simp
    · intro i h1 h2
      rw [List.getElem_map, List.getElem_range, get_of_lt _ _ h2]
  rw [this]

variable {K : Type*} [Field K] [LinearOrder K]

/-- Invariant between contours. -/
structure LoopInv (L : ℕ) (Seg : List (Pt K) → Prop) (segments : List (List (Pt K))) (tidcs : List ℕ)
    (rest : List (List (Pt K))) : Prop where
  len1 : segments.length = rest.length
  len2 : tidcs.length = rest.length
  each : ∀ (i : ℕ) q r, segments[i]? = some q → rest[i]? = some r → Holds L q r
  seg : ∀ (i : ℕ) t r, tidcs[i]? = some t → rest[i]? = some r → r = [] ∨ (Seg r ∧ t = r.length - 1)
  cap : (rest.map List.length).sum ≤ L

variable [IsStrictOrderedRing K] [Inhabited K]

theorem pass_step (g : Geometry K) (L : ℕ) (Good : Pt K → Prop) (Seg : List (Pt K) → Prop)
    (Near : Pt K → Pt K → Prop) (hg : Sound g L Good Seg Near) (n : ℕ) (segments : List (List (Pt K))) (tidcs : List ℕ)
    (rest : List (List (Pt K))) (hI : LoopInv L Seg segments tidcs rest) (hpos : 0 < rest.length) :
    ∃ used rest', MergeInv L Seg Near (contourPass g n segments tidcs) used rest' ∧
      rest'.length + 1 = rest.length ∧
      (inventory used rest').Perm (inventory [] rest) := by
  unfold contourPass
  simp only
  set lengths := List.zipWith g.length segments tidcs with hlengths
  set idcs := sparseArgsort lengths with hidcs
  have hll : lengths.length = rest.length := by
    rw [hlengths, List.length_zipWith, hI.len1, hI.len2, Nat.min_self]
  obtain ⟨hperm, hpw⟩ := C68_sparse_argsort lengths
  rw [← hidcs, hll] at hperm
  rw [← hidcs] at hpw
  have hil : idcs.length = rest.length := by rw [hperm.length_eq, List.length_range]
  have hmem : ∀ i ∈ idcs, i < rest.length := fun i hi => by
    have := hperm.mem_iff.1 hi; simpa using this
  set segs' := idcs.map fun i => Jnp.get [] segments i with hsegs'
  set tid' := idcs.map fun i => Jnp.get 0 tidcs i with htid'
  set rest0 := idcs.map fun i => Jnp.get [] rest i with hrest0
  have hrp : rest0.Perm rest := map_get_perm [] rest idcs hperm
  -- the permuted lists keep the invariant
  have heach : ∀ (i : ℕ) q r, segs'[i]? = some q → rest0[i]? = some r → Holds L q r := by
    intro i q r hq hr
    rw [hsegs', List.getElem?_map, Option.map_eq_some_iff] at hq
    rw [hrest0, List.getElem?_map, Option.map_eq_some_iff] at hr
    obtain ⟨k, hk, hq⟩ := hq
    obtain ⟨k', hk', hr⟩ := hr
    rw [hk] at hk'; cases hk'
    have hkl := hmem k (List.mem_of_getElem? hk)
    have hkl1 : k < segments.length := by rw [hI.len1]; exact hkl
    rw [get_of_lt _ _ hkl1] at hq
    rw [get_of_lt _ _ hkl] at hr
    exact hI.each k q r (by rw [List.getElem?_eq_getElem hkl1, hq]) (by rw [List.getElem?_eq_getElem hkl, hr])
  have hseg : ∀ (i : ℕ) t r, tid'[i]? = some t → rest0[i]? = some r → r = [] ∨ (Seg r ∧ t = r.length - 1) := by
    intro i t r hq hr
    rw [htid', List.getElem?_map, Option.map_eq_some_iff] at hq
    rw [hrest0, List.getElem?_map, Option.map_eq_some_iff] at hr
    obtain ⟨k, hk, hq⟩ := hq
    obtain ⟨k', hk', hr⟩ := hr
    rw [hk] at hk'; cases hk'
    have hkl := hmem k (List.mem_of_getElem? hk)
    have hkl1 : k < tidcs.length := by rw [hI.len2]; exact hkl
    rw [get_of_lt _ _ hkl1] at hq
    rw [get_of_lt _ _ hkl] at hr
    exact hI.seg k t r (by rw [List.getElem?_eq_getElem hkl1, hq]) (by rw [List.getElem?_eq_getElem hkl, hr])
  have hl1 : segs'.length = rest.length := by simp [hsegs', hil]
  have hl2 : tid'.length = rest.length := by simp [htid', hil]
  have hl3 : rest0.length = rest.length := by simp [hrest0, hil]
  obtain ⟨r0, rt, hr0⟩ : ∃ r0 rt, rest0 = r0 :: rt := by
    cases hh : rest0 with
    | nil => rw [hh] at hl3; simp at hl3; omega
    | cons a l => exact ⟨a, l, rfl⟩
  obtain ⟨q0, qt, hq0⟩ : ∃ q0 qt, segs' = q0 :: qt := by
    cases hh : segs' with
    | nil => rw [hh] at hl1; simp at hl1; omega
    | cons a l => exact ⟨a, l, rfl⟩
  obtain ⟨t0, tt, ht0⟩ : ∃ t0 tt, tid' = t0 :: tt := by
    cases hh : tid' with
    | nil => rw [hh] at hl2; simp at hl2; omega
    | cons a l => exact ⟨a, l, rfl⟩
  -- an empty first segment means that all are empty
  have hempty : r0 = [] → ∀ r ∈ rt, r = [] := by
    intro hr00 r hr
    obtain ⟨j, hj, hjr⟩ := List.getElem_of_mem hr
    obtain ⟨i0, it, hi0⟩ : ∃ i0 it, idcs = i0 :: it := by
      cases hh : idcs with
      | nil => rw [hh] at hil; simp at hil; omega
      | cons a l => exact ⟨a, l, rfl⟩
    have hrt : rt = it.map fun i => Jnp.get [] rest i := by
      have : rest0 = Jnp.get [] rest i0 :: it.map fun i => Jnp.get [] rest i := by rw [hrest0, hi0]; rfl
      rw [hr0] at this; exact (List.cons.inj this).2
    have hr0' : r0 = Jnp.get [] rest i0 := by
      have : rest0 = Jnp.get [] rest i0 :: it.map fun i => Jnp.get [] rest i := by rw [hrest0, hi0]; rfl
      rw [hr0] at this; exact (List.cons.inj this).1
    have hjt : j < it.length := by rw [hrt] at hj; simpa using hj
    set k := it[j] with hk
    have hkm : k ∈ it := List.getElem_mem hjt
    rw [hi0] at hpw hmem
    have hrel := (List.pairwise_cons.1 hpw).1 k hkm
    have hi0l : i0 < rest.length := hmem i0 (by simp)
    have hkl : k < rest.length := hmem k (by simp [hkm])
    have hlen : ∀ i (hi : i < rest.length), lengths[i]? = some (g.length
        (segments[i]'(by rw [hI.len1]; exact hi)) (tidcs[i]'(by rw [hI.len2]; exact hi))) := by
      intro i hi
      rw [hlengths, List.getElem?_eq_getElem (by rw [← hlengths, hll]; exact hi), List.getElem_zipWith]
    have hrelk := hrel _ _ (hlen i0 hi0l) (hlen k hkl)
    rw [get_of_lt _ _ hi0l] at hr0'
    have hz0 : g.length (segments[i0]'(by rw [hI.len1]; exact hi0l)) (tidcs[i0]'(by rw [hI.len2]; exact hi0l)) = 0 := by
      apply hg.len_zero
      have := hI.each i0 _ _ (List.getElem?_eq_getElem (by rw [hI.len1]; exact hi0l))
        (List.getElem?_eq_getElem hi0l)
      rwa [← hr0', hr00] at this
    have hzk : g.length (segments[k]'(by rw [hI.len1]; exact hkl)) (tidcs[k]'(by rw [hI.len2]; exact hkl)) = 0 := by
      rcases hrelk with h | h | h
      · exact absurd hz0 h.1
      · exact h.2
      · exact h.2.1
    have hrk : r = rest[k] := by
      rw [← hjr]
      simp only [hrt, List.getElem_map]
      rw [← hk, get_of_lt _ _ hkl]
    rcases hI.seg k _ _ (List.getElem?_eq_getElem (by rw [hI.len2]; exact hkl)) (List.getElem?_eq_getElem hkl)
      with h | ⟨h1, h2⟩
    · rw [hrk, h]
    · exfalso
      have := hg.len_pos _ _ (hI.each k _ _ (List.getElem?_eq_getElem (by rw [hI.len1]; exact hkl))
        (List.getElem?_eq_getElem hkl)) h1
      rw [← h2] at this
      exact this hzk
  have hh0 : Holds L q0 r0 := heach 0 q0 r0 (by rw [hq0]; rfl) (by rw [hr0]; rfl)
  have hs0 := hseg 0 t0 r0 (by rw [ht0]; rfl) (by rw [hr0]; rfl)
  set used0 : List (Bool × List (Pt K)) := if r0 = [] then [] else [(false, r0)] with hused0
  have hch0 : chain used0 = r0 := by
    rw [hused0]; split_ifs with h
    · rw [h]; rfl
    · rw [chain_single]; rfl
  have hg0 : Jnp.get [] segs' 0 = q0 := by rw [get_of_lt _ _ (by omega)]; simp [hq0]
  have hg1 : Jnp.get 0 tid' 0 = t0 := by rw [get_of_lt _ _ (by omega)]; simp [ht0]
  have hcap : r0.length + (rt.map List.length).sum ≤ L := by
    have h1 := (hrp.map List.length).sum_eq
    rw [hr0] at h1
    simp only [List.map_cons, List.sum_cons] at h1
    rw [h1]; exact hI.cap
  have hinit : MergeInv L Seg Near ⟨Jnp.get [] segs' 0, Jnp.get 0 tid' 0, segs'.tail, tid'.tail⟩ used0 rt := by
    rw [hg0, hg1, hq0, ht0]
    refine ⟨?_, ?_, ?_, ?_, ?_, ?_, ?_, ?_, ?_, ?_, ?_⟩
    · intro u hu
      rw [hused0] at hu
      split_ifs at hu with h
      · simp at hu
      · simp only [List.mem_singleton] at hu
        subst hu
        rcases hs0 with h' | h'
        · exact absurd h' h
        · exact h'.1
    · rw [hch0]; exact hh0
    · intro hne
      have : r0 ≠ [] := by intro h; apply hne; rw [hused0, if_pos h]
      rcases hs0 with h' | h'
      · exact absurd h' this
      · rw [hch0]; exact h'.2
    · simp only [List.tail_cons]
      have := hl1; rw [hq0] at this; have h3 := hl3; rw [hr0] at h3
      simp at this h3; omega
    · simp only [List.tail_cons]
      have := hl2; rw [ht0] at this; have h3 := hl3; rw [hr0] at h3
      simp at this h3; omega
    · intro i q r hq hr
      exact heach (i + 1) q r (by rw [hq0]; simpa using hq) (by rw [hr0]; simpa using hr)
    · intro i t r ht hr
      exact hseg (i + 1) t r (by rw [ht0]; simpa using ht) (by rw [hr0]; simpa using hr)
    · rw [hch0]; exact hcap
    · intro hu
      apply hempty
      by_contra h
      rw [hused0, if_neg h] at hu
      simp at hu
    · rw [hch0]
      rcases hs0 with h | ⟨h, _⟩
      · refine ⟨1, Or.inl rfl, ?_⟩
        rw [h]; intro s hs; simp at hs
      · exact hg.seg_parity _ h
    · rw [hch0]
      rcases hs0 with h | ⟨h, _⟩
      · rw [h]; exact List.IsChain.nil
      · exact hg.seg_path _ h
  obtain ⟨u, r, h1, h2⟩ := scan_step g L Good Seg Near hg n _ used0 rt hinit
  refine ⟨u, r, h1, ?_, h2.trans ?_⟩
  · have e1 := h1.len1
    have hb : ∀ (m : ℕ) (s : MergeState K), (scanBody g m s).segments.length = s.segments.length := by
      intro m s
      unfold scanBody
      induction m with
      | zero => rfl
      | succ m ih =>
        rw [List.range_succ, List.foldl_append]
        simp only [List.foldl_cons, List.foldl_nil]
        rw [← ih]
        unfold bodyFn mergeWithAnother
        split_ifs
        · rfl
        · simp only
          split_ifs
          · simp
          · rfl
    rw [hb] at e1
    simp only [List.length_tail] at e1
    omega
  · have : (inventory used0 rt) = inventory [] rest0 := by
      rw [hr0, hused0]
      unfold inventory
      split_ifs with h
      · simp [h]
      · simp
    rw [this]
    unfold inventory
    simpa using hrp.filter (fun r => !r.isEmpty)

/-- The loop over contours: every contour holds a chain of whole segments, no segment is used twice, and used and
left-over segments together are the given ones. -/
theorem loop_step (g : Geometry K) (L : ℕ) (Good : Pt K → Prop) (Seg : List (Pt K) → Prop)
    (Near : Pt K → Pt K → Prop) (hg : Sound g L Good Seg Near) (c : ℕ) : ∀ (n : ℕ) (segments : List (List (Pt K))) (tidcs : List ℕ)
    (rest : List (List (Pt K))), LoopInv L Seg segments tidcs rest → c ≤ rest.length →
    ∃ (used : List (List (Bool × List (Pt K)))) (left : List (List (Pt K))),
      List.Forall₂ (fun buf u => Holds L buf (chain u)) (contourLoop g c n segments tidcs) used ∧
      (∀ u ∈ used, (∀ x ∈ u, Seg x.2) ∧ (∃ σ : K, (σ = 1 ∨ σ = -1) ∧ HasParity σ (chain u)) ∧
        (chain u).IsChain Near) ∧
      (inventory used.flatten left).Perm (inventory [] rest) := by
  induction c with
  | zero =>
    intro n segments tidcs rest _ _
    exact ⟨[], rest, by simp [contourLoop], by simp, by simp⟩
  | succ c ih =>
    intro n segments tidcs rest hI hc
    obtain ⟨u, r, h1, h2, h3⟩ := pass_step g L Good Seg Near hg n segments tidcs rest hI (by omega)
    have hI' : LoopInv L Seg (contourPass g n segments tidcs).segments (contourPass g n segments tidcs).tidcs r :=
      ⟨h1.len1, h1.len2, h1.each, h1.seg, by have := h1.cap; omega⟩
    obtain ⟨us, l, g1, g2, g3⟩ := ih (n - 2) _ _ r hI' (by omega)
    refine ⟨u :: us, l, ?_, ?_, ?_⟩
    · simp only [contourLoop]
      exact List.Forall₂.cons h1.hold g1
    · intro x hx
      rcases List.mem_cons.1 hx with rfl | hx
      · exact ⟨h1.used_seg, h1.parity, h1.path⟩
      · exact g2 x hx
    · refine List.Perm.trans ?_ h3
      unfold inventory at g3 ⊢
      simp only [List.flatten_cons, List.map_append, List.append_assoc, List.filter_append, List.map_nil,
        List.nil_append] at g3 ⊢
      exact List.Perm.append_left _ g3

end Microjax.Props
