import Verif.Spec.Runs
import Verif.Lemmas.Jnp
import Mathlib.Tactic.Ring
import Mathlib.Tactic.NormNum
import Mathlib.Tactic.Linarith

/-! # Helper lemmas: splitting a track -/

set_option linter.unusedVariables false
set_option linter.unusedSectionVars false

namespace Microjax.Props

open Microjax.Spec Segments Jnp

/-- positions of `true`, counted from `o` -/
def posTrue (o : ℕ) : List Bool → List ℕ
  | [] => []
  | b :: l => (if b then [o] else []) ++ posTrue (o + 1) l

theorem posTrue_append (o : ℕ) (l m : List Bool) : posTrue o (l ++ m) = posTrue o l ++ posTrue (o + l.length) m := by
  induction l generalizing o with
  | nil => simp [posTrue]
  | cons b l ih => simp [posTrue, ih, Nat.add_assoc, Nat.add_comm 1]

theorem filter_range_eq_posTrue (b : List Bool) :
    (List.range b.length).filter (fun i => b.getD i false) = posTrue 0 b := by
  have h : ∀ (o : ℕ) (b : List Bool), (List.range' o b.length).filter (fun i => b.getD (i - o) false)
      = posTrue o b := by
    intro o b
    induction b generalizing o with
    | nil => simp [posTrue]
    | cons x b ih =>
      rw [List.length_cons, List.range'_succ, posTrue, List.filter_cons]
      have e : (List.range' (o + 1) b.length).filter (fun i => (x :: b).getD (i - o) false)
          = (List.range' (o + 1) b.length).filter (fun i => b.getD (i - (o + 1)) false) := by
        apply List.filter_congr
        intro i hi
        rw [List.mem_range'] at hi
        obtain ⟨k, hk, rfl⟩ := hi
        rw [show o + 1 + 1 * k - o = k + 1 by omega, show o + 1 + 1 * k - (o + 1) = k by omega]
        rfl
      rw [e, ih]
      simp only [Nat.sub_self, List.getD_cons_zero]
      cases x <;> rfl
  have := h 0 b
  rwa [← List.range_eq_range'] at this

variable {K : Type*} [Field K] [LinearOrder K]

theorem Pt3.zero_def : (0 : Pt3 K) = ⟨0, 0, 0, 0⟩ := rfl

/-- the two bits the code computes for an interior index -/
def startBit (a b : Pt3 K) : Bool := changed a b && decide (b.m - a.m ≥ 0)

/-- see `startBit` -/
def endBit (a b : Pt3 K) : Bool := changed a b && decide (b.m - a.m ≤ 0)

variable [IsStrictOrderedRing K]

theorem startBit_eq (a b : Pt3 K) (ha : a = 0 ∨ a.m = 1) (hb : b = 0 ∨ b.m = 1) :
    startBit a b = (decide (b.m ≠ 0) && !decide (Joined a b)) := by
  have h01 : (0 : K) < 1 := zero_lt_one
  unfold startBit changed Joined
  rcases ha with rfl | ha <;> rcases hb with rfl | hb
  · simp [Pt3.zero_def]
  · simp [Pt3.zero_def, hb]
  · simp [Pt3.zero_def, ha]
  · simp only [ha, hb, sub_self, ne_eq, not_true_eq_false, decide_false, Bool.or_false, ge_iff_le, le_refl,
      decide_true, Bool.and_true, one_ne_zero, not_false_eq_true, Bool.true_and, true_and]
    rw [← Bool.decide_or, ← decide_not]
    congr 1
    rw [eq_iff_iff, not_and_or, not_le, sub_eq_zero]
    norm_num
    constructor
    · rintro (h | h)
      · exact Or.inr h
      · exact Or.inl fun e => h e.symm
    · rintro (h | h)
      · exact Or.inr fun e => h e.symm
      · exact Or.inl h

theorem endBit_eq (a b : Pt3 K) (ha : a = 0 ∨ a.m = 1) (hb : b = 0 ∨ b.m = 1) :
    endBit a b = (decide (a.m ≠ 0) && !decide (Joined a b)) := by
  have h01 : (0 : K) < 1 := zero_lt_one
  unfold endBit changed Joined
  rcases ha with rfl | ha <;> rcases hb with rfl | hb
  · simp [Pt3.zero_def]
  · simp [Pt3.zero_def, hb]
  · simp [Pt3.zero_def, ha]
  · simp only [ha, hb, sub_self, ne_eq, not_true_eq_false, decide_false, Bool.or_false, le_refl,
      decide_true, Bool.and_true, one_ne_zero, not_false_eq_true, Bool.true_and, true_and]
    rw [← Bool.decide_or, ← decide_not]
    congr 1
    rw [eq_iff_iff, not_and_or, not_le, sub_eq_zero]
    norm_num
    constructor
    · rintro (h | h)
      · exact Or.inr h
      · exact Or.inl fun e => h e.symm
    · rintro (h | h)
      · exact Or.inr fun e => h e.symm
      · exact Or.inl h

omit [IsStrictOrderedRing K] in
/-- the runs of a track that starts with a real sample start with a run at its index -/
theorem runsFrom_cons_valid (o : ℕ) (a : Pt3 K) (l : List (Pt3 K)) (ha : a.m ≠ 0) :
    ∃ r rs, runsFrom o (a :: l) = (o, a :: r) :: rs := by
  rw [runsFrom, if_neg ha]
  unfold addRun
  split
  · split_ifs
    · exact ⟨_, _, rfl⟩
    · exact ⟨_, _, rfl⟩
  · exact ⟨_, _, rfl⟩

omit [IsStrictOrderedRing K] in
theorem runsFrom_cons_invalid (o : ℕ) (a : Pt3 K) (l : List (Pt3 K)) (ha : a.m = 0) :
    runsFrom o (a :: l) = runsFrom (o + 1) l := by
  rw [runsFrom, if_pos ha]

omit [IsStrictOrderedRing K] in
theorem runsFrom_joined (o : ℕ) (a b : Pt3 K) (l : List (Pt3 K)) (h : Joined a b) :
    ∃ r rs, runsFrom (o + 1) (b :: l) = (o + 1, b :: r) :: rs ∧
      runsFrom o (a :: b :: l) = (o, a :: b :: r) :: rs := by
  obtain ⟨r, rs, e⟩ := runsFrom_cons_valid (o + 1) b l h.2.1
  refine ⟨r, rs, e, ?_⟩
  rw [runsFrom, if_neg h.1, e, addRun, if_pos h]

omit [IsStrictOrderedRing K] in
theorem runsFrom_not_joined (o : ℕ) (a b : Pt3 K) (l : List (Pt3 K)) (ha : a.m ≠ 0) (h : ¬ Joined a b) :
    runsFrom o (a :: b :: l) = (o, [a]) :: runsFrom (o + 1) (b :: l) := by
  rw [runsFrom, if_neg ha]
  rcases hr : runsFrom (o + 1) (b :: l) with _ | ⟨⟨k, r⟩, rs⟩
  · rfl
  · rw [addRun, if_neg h]

omit [IsStrictOrderedRing K] in
theorem runsFrom_single (o : ℕ) (a : Pt3 K) (ha : a.m ≠ 0) : runsFrom o [a] = [(o, [a])] := by
  rw [runsFrom, if_neg ha]
  rfl

/-- the end index of a run -/
def runEnd (q : ℕ × List (Pt3 K)) : ℕ := q.1 + q.2.length

theorem bits_runs (prev : Pt3 K) (l : List (Pt3 K)) (o : ℕ) (hm : Masked (prev :: l)) :
    (if prev.m ≠ 0 then [o] else []) ++ posTrue (o + 1) (List.zipWith startBit (prev :: l) l)
      = (runsFrom o (prev :: l)).map Prod.fst ∧
    posTrue (o + 1) (List.zipWith endBit (prev :: l) l ++ [!decide (((prev :: l).getLastD 0).m = 0)])
      = (runsFrom o (prev :: l)).map runEnd := by
  induction l generalizing prev o with
  | nil =>
    by_cases h : prev.m = 0
    · simp [posTrue, h, runsFrom]
    · simp [posTrue, runsFrom_single _ _ h, h, runEnd]
  | cons b l ih =>
    have hmb : Masked (b :: l) := fun s hs => hm s (List.mem_cons_of_mem _ hs)
    obtain ⟨ih1, ih2⟩ := ih b (o + 1) hmb
    have hp := hm prev (by simp)
    have hb := hm b (by simp)
    have hz1 : List.zipWith startBit (prev :: b :: l) (b :: l) = startBit prev b :: List.zipWith startBit (b :: l) l :=
      rfl
    have hz2 : List.zipWith endBit (prev :: b :: l) (b :: l) = endBit prev b :: List.zipWith endBit (b :: l) l := rfl
    have hlast : (prev :: b :: l).getLastD 0 = (b :: l).getLastD 0 := rfl
    rw [hz1, hz2, hlast, List.cons_append, posTrue, posTrue, startBit_eq _ _ hp hb, endBit_eq _ _ hp hb, ih2]
    by_cases h : prev.m = 0
    · have hj : ¬ Joined prev b := fun hj => hj.1 h
      rw [runsFrom_cons_invalid _ _ _ h, ← ih1]
      simp [h, hj]
    · by_cases hj : Joined prev b
      · obtain ⟨r, rs, e1, e2⟩ := runsFrom_joined o prev b l hj
        rw [e1] at ih1 ⊢
        rw [e2]
        have hbm : b.m ≠ 0 := hj.2.1
        simp only [ne_eq, hbm, not_false_eq_true, if_true, List.map_cons, List.cons_append, List.nil_append,
          List.cons.injEq, true_and] at ih1
        rw [ih1]
        simp [h, hj, runEnd]; omega
      · rw [runsFrom_not_joined o prev b l h hj]
        simp only [List.map_cons, ← ih1]
        simp [h, hj, runEnd]

theorem zipWith_bits (seg : List (Pt3 K)) (f : Bool → K → Bool) :
    List.zipWith f (changepoints seg) (diffMask seg)
      = [f (!decide ((seg.headD 0).m = 0)) (if (seg.headD 0).m = 0 then 0 else 1)]
        ++ List.zipWith (fun a b => f (changed a b) (b.m - a.m)) seg seg.tail
        ++ [f (!decide ((seg.getLastD 0).m = 0)) (if (seg.getLastD 0).m = 0 then 0 else -1)] := by
  unfold changepoints diffMask
  rw [List.zipWith_append (by simp), List.zipWith_append (by simp)]
  congr 2
  generalize seg.tail = t
  induction seg generalizing t with
  | nil => simp
  | cons a l ih =>
    cases t with
    | nil => simp
    | cons b t => simp [ih]

theorem posTrue_last_start (o : ℕ) (c : K) :
    posTrue o [(!decide (c = 0)) && decide ((if c = 0 then (0 : K) else -1) ≥ 0)] = [] := by
  by_cases h : c = 0 <;> simp [posTrue, h]

theorem posTrue_first_end (o : ℕ) (c : K) :
    posTrue o [(!decide (c = 0)) && decide ((if c = 0 then (0 : K) else 1) ≤ 0)] = [] := by
  by_cases h : c = 0 <;> simp [posTrue, h]

theorem last_end (c : K) :
    ((!decide (c = 0)) && decide ((if c = 0 then (0 : K) else -1) ≤ 0)) = !decide (c = 0) := by
  by_cases h : c = 0 <;> simp [h]

/-- the start indices found by the code are the starts of the runs -/
theorem starts_eq (seg : List (Pt3 K)) (hne : seg ≠ []) (hm : Masked seg) :
    (List.range (List.zipWith (fun c (d : K) => c && decide (d ≥ 0)) (changepoints seg) (diffMask seg)).length).filter
      (fun i => (List.zipWith (fun c (d : K) => c && decide (d ≥ 0)) (changepoints seg) (diffMask seg)).getD i false)
      = (runsFrom 0 seg).map Prod.fst := by
  rw [filter_range_eq_posTrue, zipWith_bits]
  obtain ⟨a, l, rfl⟩ := List.exists_cons_of_ne_nil hne
  rw [← (bits_runs a l 0 hm).1]
  have e : List.zipWith (fun a b : Pt3 K => changed a b && decide (b.m - a.m ≥ 0)) (a :: l) (a :: l).tail
      = List.zipWith startBit (a :: l) l := rfl
  rw [posTrue_append, posTrue_append, e]
  simp only [List.headD_cons]
  rw [posTrue_last_start, List.append_nil]
  congr 1
  by_cases h : a.m = 0 <;> simp [posTrue, h]

theorem ends_eq (seg : List (Pt3 K)) (hne : seg ≠ []) (hm : Masked seg) :
    (List.range (List.zipWith (fun c (d : K) => c && decide (d ≤ 0)) (changepoints seg) (diffMask seg)).length).filter
      (fun i => (List.zipWith (fun c (d : K) => c && decide (d ≤ 0)) (changepoints seg) (diffMask seg)).getD i false)
      = (runsFrom 0 seg).map runEnd := by
  rw [filter_range_eq_posTrue, zipWith_bits]
  obtain ⟨a, l, rfl⟩ := List.exists_cons_of_ne_nil hne
  rw [← (bits_runs a l 0 hm).2]
  have e : List.zipWith (fun a b : Pt3 K => changed a b && decide (b.m - a.m ≤ 0)) (a :: l) (a :: l).tail
      = List.zipWith endBit (a :: l) l := rfl
  rw [List.append_assoc, posTrue_append, e]
  rw [posTrue_first_end, List.nil_append]
  rw [last_end]; rfl

omit [IsStrictOrderedRing K] in
/-- a run sits in the track at its index -/
theorem runsFrom_mem (l : List (Pt3 K)) : ∀ (o : ℕ) (q : ℕ × List (Pt3 K)), q ∈ runsFrom o l →
    o ≤ q.1 ∧ q.2 ≠ [] ∧ ∃ t, l.drop (q.1 - o) = q.2 ++ t := by
  induction l with
  | nil => intro o q hq; simp [runsFrom] at hq
  | cons a l ih =>
    intro o q hq
    have shift : ∀ q ∈ runsFrom (o + 1) l, o ≤ q.1 ∧ q.2 ≠ [] ∧ ∃ t, (a :: l).drop (q.1 - o) = q.2 ++ t := by
      intro q hq
      obtain ⟨h1, h2, t, h3⟩ := ih (o + 1) q hq
      refine ⟨by omega, h2, t, ?_⟩
      rw [show q.1 - o = (q.1 - (o + 1)) + 1 by omega, List.drop_succ_cons]; exact h3
    by_cases ha : a.m = 0
    · rw [runsFrom_cons_invalid _ _ _ ha] at hq
      exact shift q hq
    · cases l with
      | nil =>
        rw [runsFrom_single _ _ ha, List.mem_singleton] at hq
        subst hq
        exact ⟨le_rfl, by simp, [], by simp⟩
      | cons b l =>
        by_cases hj : Joined a b
        · obtain ⟨r, rs, e1, e2⟩ := runsFrom_joined o a b l hj
          rw [e2] at hq
          rcases List.mem_cons.1 hq with rfl | hq
          · obtain ⟨_, _, t, h3⟩ := ih (o + 1) (o + 1, b :: r) (by rw [e1]; simp)
            simp only [Nat.sub_self, List.drop_zero] at h3 ⊢
            exact ⟨le_rfl, by simp, t, by rw [h3]; rfl⟩
          · exact shift q (by rw [e1]; exact List.mem_cons_of_mem _ hq)
        · rw [runsFrom_not_joined o a b l ha hj] at hq
          rcases List.mem_cons.1 hq with rfl | hq
          · exact ⟨le_rfl, by simp, b :: l, by simp⟩
          · exact shift q hq

omit [IsStrictOrderedRing K] in
/-- masking a track to the range of a run gives the run in place -/
theorem applyMask_run (seg : List (Pt3 K)) (q : ℕ × List (Pt3 K)) (hq : q ∈ runsFrom 0 seg) :
    q.1 + q.2.length ≤ seg.length ∧
    applyMask seg (maskRegion seg.length q.1 (runEnd q))
      = List.replicate q.1 0 ++ q.2 ++ List.replicate (seg.length - (q.1 + q.2.length)) 0 := by
  obtain ⟨_, hne, t, ht⟩ := runsFrom_mem seg 0 q hq
  rw [Nat.sub_zero] at ht
  have hpos : 0 < q.2.length := List.length_pos_iff.2 hne
  have hle : q.1 + q.2.length ≤ seg.length := by
    have := congrArg List.length ht
    rw [List.length_drop, List.length_append] at this
    omega
  refine ⟨hle, ?_⟩
  unfold maskRegion runEnd applyMask
  rw [if_neg (by omega)]
  apply List.ext_getElem
  · simp; omega
  · intro i h1 h2
    have hi : i < seg.length := by simpa using h1
    rw [List.getElem_zipWith, List.getElem_map, List.getElem_range]
    rcases Nat.lt_or_ge i q.1 with h | h
    · rw [List.getElem_append_left (by simp; omega), List.getElem_append_left (by simpa using h)]
      simp [Nat.not_le.2 h]
    · rcases Nat.lt_or_ge i (q.1 + q.2.length) with h' | h'
      · rw [List.getElem_append_left (by simp; omega), List.getElem_append_right (by simpa using h)]
        simp only [ge_iff_le, h, decide_true, h', Bool.and_self, if_true, List.length_replicate]
        have e : (seg.drop q.1)[i - q.1]'(by rw [List.length_drop]; omega) = q.2[i - q.1]'(by omega) := by
          simp only [ht]
          rw [List.getElem_append_left (by omega)]
        rw [← e, List.getElem_drop]
        congr 1; omega
      · rw [List.getElem_append_right (by simp; omega)]
        simp [Nat.not_lt.2 h']

theorem splitSegment_eq (n_parts : ℕ) (seg : List (Pt3 K)) (hne : seg ≠ []) (hm : Masked seg)
    (hcount : (runs seg).length ≤ 2 * n_parts) :
    splitSegment n_parts seg = (runsFrom 0 seg).map (fun q =>
        List.replicate q.1 0 ++ q.2 ++ List.replicate (seg.length - (q.1 + q.2.length)) 0)
      ++ List.replicate (2 * n_parts - (runs seg).length) (List.replicate seg.length 0) := by
  have hc : (runsFrom 0 seg).length ≤ 2 * n_parts := by simpa [runs] using hcount
  unfold splitSegment idcsStart idcsEnd argwhere
  simp only
  rw [starts_eq seg hne hm, ends_eq seg hne hm]
  rw [List.take_of_length_le (by simpa using hc), List.take_of_length_le (by simpa using hc)]
  rw [List.zipWith_append (by simp), List.map_append]
  congr 1
  · rw [List.zipWith_map, List.zipWith_self, List.map_map]
    apply List.map_congr_left
    intro q hq
    exact (applyMask_run seg q hq).2
  · simp only [List.length_map, List.zipWith_replicate, Nat.min_self, List.map_replicate, runs]
    congr 1
    unfold maskRegion applyMask
    rw [if_pos ⟨rfl, rfl⟩]
    apply List.ext_getElem
    · simp
    · intro i h1 h2; simp

end Microjax.Props
