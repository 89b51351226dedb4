import Verif.Lemmas.Split
import Verif.Lemmas.SegmentLoop
import Verif.Spec.Segments
import Mathlib.Data.Rat.Defs
import Mathlib.Algebra.Order.Field.Rat

/-!
# C44 (splitting an image track) and C76 (the list of open segments handed to the stitching)
-/

set_option linter.unusedVariables false
set_option linter.unusedSectionVars false

namespace Microjax.Props

open Microjax.Spec Segments Jnp

variable {K : Type*} [Field K] [LinearOrder K]

/-- C44, the specification means what it says: the runs of a track contain exactly its real samples, each once and in
order; a run is not empty and its consecutive samples are joined. -/
theorem C44_runs (seg : List (Pt3 K)) :
    (runs seg).flatten = seg.filter (fun s => decide (s.m ≠ 0)) ∧
    (∀ r ∈ runs seg, r ≠ [] ∧ r.IsChain Joined ∧ r <:+: seg) := by
  have key : ∀ (o : ℕ) (l : List (Pt3 K)), ((runsFrom o l).map Prod.snd).flatten
      = l.filter (fun s => decide (s.m ≠ 0)) ∧ ∀ q ∈ runsFrom o l, q.2.IsChain Joined := by
    intro o l
    induction l generalizing o with
    | nil => simp [runsFrom]
    | cons a l ih =>
      obtain ⟨ih1, ih2⟩ := ih (o + 1)
      by_cases ha : a.m = 0
      · rw [runsFrom_cons_invalid _ _ _ ha]
        exact ⟨by rw [ih1]; simp [ha], ih2⟩
      · cases l with
        | nil => rw [runsFrom_single _ _ ha]; simp [ha]
        | cons b l =>
          by_cases hj : Joined a b
          · obtain ⟨r, rs, e1, e2⟩ := runsFrom_joined o a b l hj
            rw [e2]
            rw [e1] at ih1 ih2
            refine ⟨?_, ?_⟩
            · rw [List.filter_cons_of_pos (by simpa using ha), ← ih1]; rfl
            · intro q hq
              rcases List.mem_cons.1 hq with rfl | hq
              · exact List.isChain_cons_cons.2 ⟨hj, ih2 (o + 1, b :: r) List.mem_cons_self⟩
              · exact ih2 q (List.mem_cons_of_mem _ hq)
          · rw [runsFrom_not_joined o a b l ha hj]
            refine ⟨?_, ?_⟩
            · rw [List.filter_cons_of_pos (by simpa using ha), ← ih1]; rfl
            · intro q hq
              rcases List.mem_cons.1 hq with rfl | hq
              · simp
              · exact ih2 q hq
  refine ⟨(key 0 seg).1, ?_⟩
  intro r hr
  unfold runs at hr
  obtain ⟨q, hq, rfl⟩ := List.mem_map.1 hr
  obtain ⟨_, h2, t, h3⟩ := runsFrom_mem seg 0 q hq
  refine ⟨h2, (key 0 seg).2 q hq, ?_⟩
  rw [Nat.sub_zero] at h3
  exact ⟨seg.take q.1, t, by rw [List.append_assoc, ← h3, List.take_append_drop]⟩

variable [IsStrictOrderedRing K]

/-- C44 `_split_segment`: the pieces are, in order, the maximal runs of the track, each left in place in a buffer of
the length of the track that is zero everywhere else; the remaining buffers are zero.  Needs room for all runs. -/
theorem C44_split (n_parts : ℕ) (seg : List (Pt3 K)) (hne : seg ≠ []) (hm : Masked seg)
    (hcount : (runs seg).length ≤ 2 * n_parts) :
    List.Forall₂ (fun piece r => ∃ i j, piece = List.replicate i 0 ++ r ++ List.replicate j 0 ∧
        piece.length = seg.length ∧ (r ≠ [] → ∀ k s, r[k]? = some s → seg[i + k]? = some s))
      (splitSegment n_parts seg) (runs seg ++ List.replicate (2 * n_parts - (runs seg).length) []) := by
  rw [splitSegment_eq n_parts seg hne hm hcount]
  apply List.rel_append
  · unfold runs
    rw [List.forall₂_map_left_iff, List.forall₂_map_right_iff, List.forall₂_same]
    intro q hq
    have hle := (applyMask_run seg q hq).1
    obtain ⟨_, h2, t, h3⟩ := runsFrom_mem seg 0 q hq
    rw [Nat.sub_zero] at h3
    refine ⟨q.1, _, rfl, by simp; omega, ?_⟩
    intro _ k s hk
    rw [← List.getElem?_drop, h3]
    obtain ⟨hlt, _⟩ := List.getElem?_eq_some_iff.1 hk
    rw [List.getElem?_append_left hlt, hk]
  · rw [List.forall₂_iff_get]
    refine ⟨by simp, ?_⟩
    intro i h1 h2
    refine ⟨0, seg.length, by simp, by simp, ?_⟩
    intro h; simp at h

/-- C44, the count matters: with more runs than `2 n_parts` the surplus runs are silently lost (here 3 isolated
samples and `n_parts = 1`). -/
theorem C44_split_overflow :
    let seg : List (Pt3 ℚ) := [⟨1, 0, 1, 1⟩, 0, ⟨1, 0, 1, 1⟩, 0, ⟨1, 0, 1, 1⟩]
    (runs seg).length = 3 ∧ (splitSegment 1 seg).length = 2 ∧
      ((splitSegment 1 seg).map (fun p => (p.filter fun s => decide (s.m ≠ 0)).length)).sum = 2 := by
  decide +kernel

example : -- a track with a gap, a jump and a parity change: four runs
    let seg : List (Pt3 ℚ) := [⟨1, 0, 1, 1⟩, ⟨1, 1/20, 1, 1⟩, ⟨2, 0, 1, 1⟩, 0, 0, ⟨1, 0, 1, 1⟩, ⟨1, 1/20, -1, 1⟩,
      ⟨1, 1/10, -1, 1⟩]
    Masked seg ∧ (runs seg).map List.length = [2, 1, 1, 2] ∧ (runs seg).length ≤ 2 * 5 := by
  unfold Masked; decide +kernel

/-! ## C76 -/

/-- a row of length `N` that contains the path `r` somewhere and zeros elsewhere -/
def Placed (N : ℕ) (row r : List (Pt3 K)) : Prop :=
  (∃ i j, row = List.replicate i 0 ++ r ++ List.replicate j 0) ∧ row.length = N ∧ ∀ s ∈ r, nonzero3 s = true

omit [IsStrictOrderedRing K] in
theorem nonzero3_zero : nonzero3 (0 : Pt3 K) = false := by simp [nonzero3, Pt3.zero_def]

omit [IsStrictOrderedRing K] in
theorem Placed.count {N : ℕ} {row r : List (Pt3 K)} (h : Placed N row r) :
    (row.filter nonzero3).length = r.length := by
  obtain ⟨⟨i, j, rfl⟩, _, h3⟩ := h
  rw [List.filter_append, List.filter_append, List.filter_eq_self.2 h3]
  have : ∀ k, (List.replicate k (0 : Pt3 K)).filter nonzero3 = [] := by
    intro k
    rw [List.filter_eq_nil_iff]
    intro a ha
    rw [List.eq_of_mem_replicate ha, nonzero3_zero]; decide
  rw [this, this]; simp

omit [IsStrictOrderedRing K] in
theorem Placed.any {N : ℕ} {row r : List (Pt3 K)} (h : Placed N row r) :
    row.any nonzero3 = !r.isEmpty := by
  obtain ⟨⟨i, j, rfl⟩, _, h3⟩ := h
  cases r with
  | nil => simp [nonzero3_zero]
  | cons a l => simp [h3 a (by simp)]

omit [IsStrictOrderedRing K] in
theorem Placed.roll {N : ℕ} {row r : List (Pt3 K)} (h : Placed N row r) :
    rollBack row (argmaxBool (row.map nonzero3)) = r ++ List.replicate (N - r.length) 0 ∧ r.length ≤ N := by
  obtain ⟨⟨i, j, rfl⟩, h2, h3⟩ := h
  have hl : N = i + r.length + j := by rw [← h2]; simp; omega
  refine ⟨?_, by omega⟩
  cases r with
  | nil =>
    have hn : true ∉ ((List.replicate i (0 : Pt3 K) ++ [] ++ List.replicate j 0).map nonzero3) := by
      simp [nonzero3_zero]
    rw [argmaxBool_none hn]
    simp [rollBack, hl]
  | cons a l =>
    have ha : nonzero3 a = true := h3 a (by simp)
    have hmem : true ∈ ((List.replicate i (0 : Pt3 K) ++ (a :: l) ++ List.replicate j 0).map nonzero3) := by
      rw [List.mem_map]; exact ⟨a, by simp, ha⟩
    obtain ⟨e1, e2⟩ := argmaxBool_spec hmem
    set k := argmaxBool ((List.replicate i (0 : Pt3 K) ++ (a :: l) ++ List.replicate j 0).map nonzero3) with hk
    have hki : k = i := by
      rcases Nat.lt_trichotomy k i with h | h | h
      · exfalso
        rw [List.append_assoc, List.getElem?_map, List.getElem?_append_left (by simpa using h),
          List.getElem?_replicate, if_pos h] at e1
        simp [nonzero3_zero] at e1
      · exact h
      · exfalso
        have := e2 i h
        rw [List.append_assoc, List.getElem?_map, List.getElem?_append_right (by simp)] at this
        simp [ha] at this
    rw [hki, List.append_assoc, rollBack_padded, List.append_assoc, List.replicate_append_replicate]
    congr 2
    omega

omit [IsStrictOrderedRing K] in
theorem placed_nil_zero (N : ℕ) (row : List (Pt3 K)) (h : row.length = N) :
    Placed N (row.map fun _ => (0 : Pt3 K)) [] := by
  refine ⟨⟨N, 0, ?_⟩, by simpa using h, by simp⟩
  simp [List.map_const', h]

/-- in a list whose non-empty entries come first, a prefix that is long enough contains all of them -/
theorem filter_take_of_front {α : Type*} (p : α → Bool) (l : List α) (n : ℕ)
    (h : l.Pairwise fun a b => p b = true → p a = true) (hn : (l.filter p).length ≤ n) :
    (l.take n).filter p = l.filter p := by
  induction l generalizing n with
  | nil => simp
  | cons a l ih =>
    rw [List.pairwise_cons] at h
    cases hp : p a with
    | true =>
      rw [List.filter_cons_of_pos hp, List.length_cons] at hn
      obtain ⟨m, rfl⟩ : ∃ m, n = m + 1 := ⟨n - 1, by omega⟩
      rw [List.take_succ_cons, List.filter_cons_of_pos hp, List.filter_cons_of_pos hp, ih m h.2 (by omega)]
    | false =>
      have h0 : (a :: l).filter p = [] := by
        rw [List.filter_eq_nil_iff]
        intro b hb
        rcases List.mem_cons.1 hb with rfl | hb
        · simp [hp]
        · intro hpb
          have := h.1 b hb hpb
          rw [hp] at this; exact absurd this (by decide)
      rw [h0, List.filter_eq_nil_iff]
      intro b hb
      exact (List.filter_eq_nil_iff.1 h0) b (List.mem_of_mem_take hb)

omit [IsStrictOrderedRing K] in
theorem filter_long (Q : List (List (Pt3 K))) :
    (Q.map fun r => if r.length < 2 then [] else r).filter (fun r => !r.isEmpty)
      = Q.filter fun r => decide (2 ≤ r.length) := by
  induction Q with
  | nil => rfl
  | cons r Q ih =>
    rw [List.map_cons]
    by_cases h : r.length < 2
    · rw [if_pos h, List.filter_cons_of_neg (by simp), List.filter_cons_of_neg (by simp; omega), ih]
    · rw [if_neg h, List.filter_cons_of_pos (by cases r <;> simp_all),
        List.filter_cons_of_pos (by simp; omega), ih]

/-- C76 `_process_segments`: every run of at least two samples of every track becomes exactly one row of the output,
moved to the front of a zero-padded row; all other rows are zero.  Needs at most 10 runs per track, at most
`nr_of_segments` long runs in total, and no real sample at the origin. -/
theorem C76_process (N nr : ℕ) (tracks : List (List (Pt3 K))) (hN : 0 < N) (hlen : ∀ t ∈ tracks, t.length = N)
    (hm : ∀ t ∈ tracks, Masked t) (hz : ∀ t ∈ tracks, ∀ s ∈ t, s.m ≠ 0 → s.x ≠ 0 ∨ s.y ≠ 0)
    (hparts : ∀ t ∈ tracks, (runs t).length ≤ 10)
    (hnr : ((tracks.flatMap runs).filter fun r => decide (2 ≤ r.length)).length ≤ nr) :
    ∃ order : List (List (Pt3 K)),
      List.Forall₂ (fun row r => r.length ≤ N ∧ row = r ++ List.replicate (N - r.length) 0)
        (processSegments tracks nr) order ∧
      (order.filter fun r => !r.isEmpty).Perm ((tracks.flatMap runs).filter fun r => decide (2 ≤ r.length)) := by
  -- the pieces
  set R0 := tracks.flatMap (fun t => runs t ++ List.replicate (2 * 5 - (runs t).length) []) with hR0
  have hp0 : List.Forall₂ (Placed N) (tracks.map (splitSegment 5)).flatten R0 := by
    rw [hR0, List.flatMap_def]
    apply List.rel_flatten
    rw [List.forall₂_map_left_iff, List.forall₂_map_right_iff, List.forall₂_same]
    intro t ht
    have hne : t ≠ [] := by
      intro h; have := hlen t ht; rw [h] at this; simp at this; omega
    have h := C44_split 5 t hne (hm t ht) (by simpa using hparts t ht)
    rw [List.forall₂_iff_get] at h ⊢
    refine ⟨h.1, ?_⟩
    intro i h1 h2
    obtain ⟨a, b, e1, e2, _⟩ := h.2 i h1 h2
    refine ⟨⟨a, b, e1⟩, by rw [e2, hlen t ht], ?_⟩
    intro s hs
    have hr : (runs t ++ List.replicate (2 * 5 - (runs t).length) []).get ⟨i, h2⟩
        ∈ runs t ++ List.replicate (2 * 5 - (runs t).length) [] := List.get_mem _ _
    rcases List.mem_append.1 hr with hr | hr
    · have hmem : s ∈ (runs t).flatten := List.mem_flatten.2 ⟨_, hr, hs⟩
      rw [(C44_runs t).1, List.mem_filter] at hmem
      have := hz t ht s hmem.1 (by simpa using hmem.2)
      simpa [nonzero3] using this
    · rw [List.eq_of_mem_replicate hr] at hs; simp at hs
  -- drop the short ones
  unfold processSegments
  simp only
  set P0 := (tracks.map (splitSegment 5)).flatten with hP0
  set P1 := P0.map (fun s => if (s.filter nonzero3).length < 2 then s.map (fun _ => (0 : Pt3 K)) else s) with hP1
  set R1 := R0.map (fun r => if r.length < 2 then [] else r) with hR1
  have hp1 : List.Forall₂ (Placed N) P1 R1 := by
    rw [hP1, hR1, List.forall₂_map_left_iff, List.forall₂_map_right_iff]
    refine hp0.imp ?_
    intro row r h
    rw [h.count]
    split_ifs
    · exact placed_nil_zero N row h.2.1
    · exact h
  have hkeys : P1.map (fun s => s.any nonzero3) = R1.map (fun r => !r.isEmpty) := by
    rw [← List.forall₂_eq_eq_eq, List.forall₂_map_left_iff, List.forall₂_map_right_iff]
    exact hp1.imp fun _ _ h => h.any
  rw [hkeys]
  set keys := R1.map (fun r => !r.isEmpty) with hk
  set idcs := (argsort keys).reverse with hidcs
  have hlen1 : P1.length = R1.length := hp1.length_eq
  have hkl : keys.length = R1.length := by rw [hk]; simp
  have hperm : idcs.Perm (List.range R1.length) := by
    rw [← hkl]; exact (List.reverse_perm _).trans (argsort_perm keys)
  have hlt : ∀ i ∈ idcs, i < R1.length := fun i hi => List.mem_range.1 (hperm.mem_iff.1 hi)
  set R2 := idcs.map (fun i => Jnp.get [] R1 i) with hR2
  have hp2 : List.Forall₂ (Placed N) (idcs.map fun i => Jnp.get [] P1 i) R2 := by
    rw [hR2, List.forall₂_map_left_iff, List.forall₂_map_right_iff, List.forall₂_same]
    intro i hi
    rw [get_of_lt _ _ (hlt i hi), get_of_lt _ _ (by rw [hlen1]; exact hlt i hi)]
    exact hp1.get (by rw [hlen1]; exact hlt i hi) (hlt i hi)
  have hfront : R2.Pairwise fun a b => (!b.isEmpty) = true → (!a.isEmpty) = true := by
    rw [hR2, List.pairwise_map, hidcs, List.pairwise_reverse]
    have hpw : (argsort keys).Pairwise _ := argsortKey_pairwise keys.length (fun i => keys.getD i default)
    refine hpw.imp_of_mem ?_
    intro a b ha hb hab
    have ha' := mem_argsort.1 ha
    have hb' := mem_argsort.1 hb
    rw [hkl] at ha' hb'
    rw [get_of_lt _ _ ha', get_of_lt _ _ hb']
    intro hA
    have eA : keys.getD a default = true := by
      rw [List.getD_eq_getElem _ _ (by rw [hkl]; exact ha')]
      simpa [hk] using hA
    have eB : keys.getD b default = (!(R1[b]).isEmpty) := by
      rw [List.getD_eq_getElem _ _ (by rw [hkl]; exact hb')]
      simp [hk]
    unfold keyLe at hab
    beta_reduce at hab
    rw [eA, eB] at hab
    rcases hab with h | ⟨h, _⟩
    · exact absurd h (by cases (!(R1[b]).isEmpty) <;> decide)
    · exact h.symm
  have hR2p : R2.Perm R1 := map_get_perm [] R1 idcs hperm
  have hfil : (R2.filter fun r => !r.isEmpty).Perm ((tracks.flatMap runs).filter fun r => decide (2 ≤ r.length)) := by
    refine (hR2p.filter _).trans ?_
    rw [hR1, filter_long]
    have : R0.filter (fun r => decide (2 ≤ r.length)) = (tracks.flatMap runs).filter fun r => decide (2 ≤ r.length) := by
      rw [hR0]
      clear_value R0
      clear * -
      induction tracks with
      | nil => rfl
      | cons t ts ih =>
        rw [List.flatMap_cons, List.flatMap_cons, List.filter_append, List.filter_append, List.filter_append, ih]
        have : (List.replicate (2 * 5 - (runs t).length) ([] : List (Pt3 K))).filter
            (fun r => decide (2 ≤ r.length)) = [] := by
          rw [List.filter_eq_nil_iff]
          intro a ha; rw [List.eq_of_mem_replicate ha]; simp
        rw [this, List.append_nil]
    rw [this]
  refine ⟨R2.take nr, ?_, ?_⟩
  · rw [List.forall₂_map_left_iff]
    exact (List.forall₂_take nr hp2).imp fun row r h => ⟨h.roll.2, h.roll.1⟩
  · rw [filter_take_of_front _ _ _ hfront (by rw [hfil.length_eq]; exact hnr)]
    exact hfil

example : -- the track above: two runs of two samples survive, both at the front of their rows
    let seg : List (Pt3 ℚ) := [⟨1, 0, 1, 1⟩, ⟨1, 1/20, 1, 1⟩, ⟨2, 0, 1, 1⟩, 0, 0, ⟨1, 0, 1, 1⟩, ⟨1, 1/20, -1, 1⟩,
      ⟨1, 1/10, -1, 1⟩]
    Masked seg ∧ (∀ s ∈ seg, s.m ≠ 0 → s.x ≠ 0 ∨ s.y ≠ 0) ∧
      ((runs seg).filter fun r => decide (2 ≤ r.length)).length = 2 ∧
      (processSegments [seg] 15).map (fun s => (s.take 2, s.any nonzero3)) =
        [([⟨1, 1/20, -1, 1⟩, ⟨1, 1/10, -1, 1⟩], true), ([⟨1, 0, 1, 1⟩, ⟨1, 1/20, 1, 1⟩], true)]
          ++ List.replicate 8 ([0, 0], false) := by
  unfold Masked; decide +kernel

end Microjax.Props
