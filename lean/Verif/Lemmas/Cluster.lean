import Verif.Model.MergeArea
import Mathlib.Tactic.Linarith
import Mathlib.Tactic.FieldSimp
import Mathlib.Tactic.Ring
import Mathlib.Data.List.GetD

/-! # Runs of occupied bins -/

namespace Microjax.Props

open Jnp ExtendedSource MergeArea

/-! ### Counting in `range` -/

theorem countP_range_antitone (p : ℕ → Bool) (n : ℕ) (hp : ∀ i j, i ≤ j → p j = true → p i = true) :
    ∀ i, i < n → (p i = true ↔ i < (List.range n).countP p) := by
  induction n with
  | zero => intro i hi; omega
  | succ n ih =>
    intro i hi
    rw [List.range_succ, List.countP_append, List.countP_singleton]
    have hle : (List.range n).countP p ≤ n := by
      have := List.countP_le_length (p := p) (l := List.range n)
      simpa using this
    by_cases hn : p n = true
    · have hall : (List.range n).countP p = n := by
        rw [List.countP_eq_length.mpr]
        · simp
        · intro j hj
          exact hp j n (List.mem_range.mp hj).le hn
      rw [if_pos hn, hall]
      exact ⟨fun _ => hi, fun _ => hp i n (by omega) hn⟩
    · rw [if_neg hn, add_zero]
      rcases Nat.lt_succ_iff_lt_or_eq.mp hi with h | rfl
      · exact ih i h
      · exact ⟨fun h => absurd h hn, fun h => by omega⟩

/-- The `k`-th index satisfying `p` lies below `j` exactly if more than `k` indices below `j` satisfy `p`. -/
theorem filter_range_lt (p : ℕ → Bool) (n : ℕ) : ∀ k (hk : k < ((List.range n).filter p).length) j, j ≤ n →
    (((List.range n).filter p)[k] < j ↔ k < (List.range j).countP p) := by
  intro k hk j hj
  obtain ⟨d, rfl⟩ := Nat.exists_eq_add_of_le hj
  have hsplit : (List.range (j + d)).filter p = (List.range j).filter p ++ ((List.range d).map (j + ·)).filter p := by
    rw [List.range_add, List.filter_append]
  have hlen : ((List.range j).filter p).length = (List.range j).countP p := List.countP_eq_length_filter.symm
  constructor
  · intro h
    by_contra hcon
    have hge : ((List.range j).filter p).length ≤ k := by rw [hlen]; omega
    have hmem : ((List.range (j + d)).filter p)[k] ∈ ((List.range d).map (j + ·)).filter p := by
      simp only [hsplit]
      rw [List.getElem_append_right hge]
      exact List.getElem_mem _
    have := (List.mem_filter.mp hmem).1
    simp only [List.mem_map] at this
    obtain ⟨a, _, ha⟩ := this
    omega
  · intro h
    have hlt : k < ((List.range j).filter p).length := by rw [hlen]; exact h
    have hmem : ((List.range (j + d)).filter p)[k] ∈ (List.range j).filter p := by
      simp only [hsplit]
      rw [List.getElem_append_left hlt]
      exact List.getElem_mem _
    exact List.mem_range.mp (List.mem_filter.mp hmem).1

/-- A run starts at `i`: bin `i` is empty, bin `i + 1` is not. -/
def isStart (m : ℕ → Bool) (i : ℕ) : Bool := !m i && m (i + 1)
/-- A run ends at `i`. -/
def isEnd (m : ℕ → Bool) (i : ℕ) : Bool := m i && !m (i + 1)

theorem starts_ends (m : ℕ → Bool) (h0 : m 0 = false) (j : ℕ) :
    (List.range j).countP (isStart m) = (List.range j).countP (isEnd m) + (if m j then 1 else 0) := by
  induction j with
  | zero => simp [h0]
  | succ j ih =>
    rw [List.range_succ, List.countP_append, List.countP_append, List.countP_singleton, List.countP_singleton, ih]
    cases h1 : m j <;> cases h2 : m (j + 1) <;> simp [isStart, isEnd, h1, h2]

theorem countP_range_mono (p : ℕ → Bool) {i j : ℕ} (h : i ≤ j) :
    (List.range i).countP p ≤ (List.range j).countP p := by
  obtain ⟨d, rfl⟩ := Nat.exists_eq_add_of_le h
  rw [List.range_add, List.countP_append]; omega

section
variable {K : Type*} [Field K] [LinearOrder K] [IsStrictOrderedRing K]

/-- Edge `i` of the grid: `bin_min + (i - 1) δ`. -/
def edge (lo hi : K) (bins i : ℕ) : K := lo + ((i : K) - 1) * ((hi - lo) / bins)

theorem edge_mono (lo hi : K) (bins : ℕ) (h : lo ≤ hi) {i j : ℕ} (hij : i ≤ j) : edge lo hi bins i ≤ edge lo hi bins j := by
  unfold edge
  have h1 : 0 ≤ (hi - lo) / bins := div_nonneg (by linarith) (Nat.cast_nonneg _)
  have h2 : (i : K) ≤ j := by exact_mod_cast hij
  nlinarith

theorem edge_strictMono (lo hi : K) (bins : ℕ) (hb : 0 < bins) (h : lo < hi) {i j : ℕ} (hij : i < j) :
    edge lo hi bins i < edge lo hi bins j := by
  unfold edge
  have h1 : 0 < (hi - lo) / bins := div_pos (by linarith) (by exact_mod_cast hb)
  have h2 : (i : K) < j := by exact_mod_cast hij
  nlinarith

omit [LinearOrder K] [IsStrictOrderedRing K] in
theorem edge_one (lo hi : K) (bins : ℕ) : edge lo hi bins 1 = lo := by simp [edge]

theorem edge_last (lo hi : K) (bins : ℕ) (hb : 0 < bins) : edge lo hi bins (bins + 1) = hi := by
  have : (bins : K) ≠ 0 := by exact_mod_cast hb.ne'
  unfold edge; push_cast; field_simp; ring

theorem binEdges_eq (lo hi : K) (bins : ℕ) (hb : 0 < bins) :
    binEdges lo hi bins = (List.range (bins + 3)).map (edge lo hi bins) := by
  have h1 : (bins : K) ≠ 0 := by exact_mod_cast hb.ne'
  have h2 : (bins : K) + 2 ≠ 0 := by
    have : (0 : K) < bins := by exact_mod_cast hb
    linarith
  unfold binEdges linspace
  apply List.map_congr_left
  intro i _
  unfold edge
  push_cast
  have h3 : (bins : K) + 3 - 1 = bins + 2 := by ring
  rw [h3]
  field_simp
  ring

/-- The bin a value of the range is put in brackets it. -/
theorem binIndex_bracket (lo hi : K) (bins : ℕ) (hb : 0 < bins) (h : lo < hi) (x : K) (hx : lo ≤ x) (hx' : x ≤ hi) :
    let b := binIndex (binEdges lo hi bins) bins x
    edge lo hi bins b ≤ x ∧ x ≤ edge lo hi bins (b + 1) ∧ (x < edge lo hi bins (b + 1) ∨ b = bins) := by
  intro b
  rw [show b = binIndex (binEdges lo hi bins) bins x from rfl, binEdges_eq lo hi bins hb]
  unfold binIndex
  rw [List.countP_map]
  set p : ℕ → Bool := (fun e => decide (e ≤ x)) ∘ edge lo hi bins with hp
  have hpi : ∀ i, p i = true ↔ edge lo hi bins i ≤ x := fun i => by simp [hp]
  have hanti := countP_range_antitone p (bins + 3) fun i j hij hj => by
    rw [hpi] at *
    exact (edge_mono lo hi bins h.le hij).trans hj
  set c := (List.range (bins + 3)).countP p
  have h1 : 1 < c := (hanti 1 (by omega)).mp ((hpi 1).mpr (by rw [edge_one]; exact hx))
  have h2 : ¬ bins + 2 < c := by
    rw [← hanti (bins + 2) (by omega), hpi, not_le]
    refine lt_of_le_of_lt hx' ?_
    conv_lhs => rw [← edge_last lo hi bins hb]
    exact edge_strictMono lo hi bins hb h (by omega)
  have hmax : max (c - 1) 1 = c - 1 := by omega
  rw [hmax]
  rcases Nat.lt_or_ge bins (c - 1) with h3 | h3
  · have hc : c = bins + 2 := by omega
    rw [min_eq_right h3.le]
    have h4 := (hpi (bins + 1)).mp ((hanti (bins + 1) (by omega)).mpr (by omega))
    refine ⟨(edge_mono lo hi bins h.le (by omega)).trans h4, ?_, Or.inr rfl⟩
    rw [edge_last lo hi bins hb]; exact hx'
  · rw [min_eq_left h3]
    have h5 : ¬ p c = true := by
      rw [hanti c (by omega)]; omega
    rw [hpi, not_le] at h5
    have h6 : c - 1 + 1 = c := by omega
    refine ⟨(hpi _).mp ((hanti (c - 1) (by omega)).mpr (by omega)), ?_, Or.inl ?_⟩
    · rw [h6]; exact h5.le
    · rw [h6]; exact h5

omit [Field K] [IsStrictOrderedRing K] in
theorem binIndex_mem (edges : List K) (bins : ℕ) (hb : 0 < bins) (x : K) :
    1 ≤ binIndex edges bins x ∧ binIndex edges bins x ≤ bins := by
  unfold binIndex
  omega

/-- A value strictly inside bin `b` is put in bin `b`. -/
theorem binIndex_of_lt (lo hi : K) (bins : ℕ) (hb : 0 < bins) (h : lo < hi) (y : K) (b : ℕ) (hb1 : 1 ≤ b)
    (hb2 : b ≤ bins) (hy : edge lo hi bins b ≤ y) (hy' : y < edge lo hi bins (b + 1)) :
    binIndex (binEdges lo hi bins) bins y = b := by
  rw [binEdges_eq lo hi bins hb]
  unfold binIndex
  rw [List.countP_map]
  set p : ℕ → Bool := (fun e => decide (e ≤ y)) ∘ edge lo hi bins with hp
  have hpi : ∀ i, p i = true ↔ edge lo hi bins i ≤ y := fun i => by simp [hp]
  have hanti := countP_range_antitone p (bins + 3) fun i j hij hj => by
    rw [hpi] at *
    exact (edge_mono lo hi bins h.le hij).trans hj
  set c := (List.range (bins + 3)).countP p
  have h1 : b < c := (hanti b (by omega)).mp ((hpi b).mpr hy)
  have h2 : ¬ b + 1 < c := by
    rw [← hanti (b + 1) (by omega), hpi, not_le]; exact hy'
  omega

/-- Occupancy of bin `k`. -/
def occ (arr : List K) (lo hi : K) (bins k : ℕ) : Bool :=
  arr.any fun x => decide (binIndex (binEdges lo hi bins) bins x = k)

omit [IsStrictOrderedRing K] in
theorem occ_iff (arr : List K) (lo hi : K) (bins k : ℕ) :
    occ arr lo hi bins k = true ↔ ∃ x ∈ arr, binIndex (binEdges lo hi bins) bins x = k := by
  simp [occ]

omit [IsStrictOrderedRing K] in
theorem occ_zero (arr : List K) (lo hi : K) (bins : ℕ) (hb : 0 < bins) : occ arr lo hi bins 0 = false := by
  rw [Bool.eq_false_iff]
  intro h
  obtain ⟨x, _, hx⟩ := (occ_iff _ _ _ _ _).mp h
  have := (binIndex_mem (binEdges lo hi bins) bins hb x).1
  omega

omit [IsStrictOrderedRing K] in
theorem occ_top (arr : List K) (lo hi : K) (bins : ℕ) (hb : 0 < bins) : occ arr lo hi bins (bins + 1) = false := by
  rw [Bool.eq_false_iff]
  intro h
  obtain ⟨x, _, hx⟩ := (occ_iff _ _ _ _ _).mp h
  have := (binIndex_mem (binEdges lo hi bins) bins hb x).2
  omega

omit [IsStrictOrderedRing K] in
theorem binMask_eq (arr : List K) (lo hi : K) (bins : ℕ) :
    binMask arr (binEdges lo hi bins) bins = (List.range (bins + 2)).map (occ arr lo hi bins) := by
  unfold binMask
  apply List.map_congr_left
  intro k _
  rw [Bool.eq_iff_iff, occ_iff, decide_eq_true_iff, List.count_pos_iff, List.mem_map]

theorem zip_tail_range (f : ℕ → Bool) (n : ℕ) :
    ((List.range (n + 1)).map f).zip ((List.range (n + 1)).map f).tail = (List.range n).map fun i => (f i, f (i + 1)) := by
  apply List.ext_getElem
  · simp
  · intro i h1 h2
    simp

omit [IsStrictOrderedRing K] in
theorem startMask_eq (arr : List K) (lo hi : K) (bins : ℕ) :
    startMask (binMask arr (binEdges lo hi bins) bins) = (List.range (bins + 1)).map (isStart (occ arr lo hi bins)) := by
  rw [startMask, binMask_eq, zip_tail_range, List.map_map]; rfl

omit [IsStrictOrderedRing K] in
theorem endMask_eq (arr : List K) (lo hi : K) (bins : ℕ) :
    endMask (binMask arr (binEdges lo hi bins) bins) = (List.range (bins + 1)).map (isEnd (occ arr lo hi bins)) := by
  rw [endMask, binMask_eq, zip_tail_range, List.map_map]; rfl

theorem inner_eq (lo hi : K) (bins : ℕ) (hb : 0 < bins) :
    slice 1 1 (binEdges lo hi bins) = (List.range (bins + 1)).map fun i => edge lo hi bins (i + 1) := by
  rw [binEdges_eq lo hi bins hb]
  apply List.ext_getElem
  · simp [slice]
  · intro i h1 h2
    simp [slice]

omit [IsStrictOrderedRing K] in
/-- Sorting an increasing non-negative sequence with some entries zeroed. -/
theorem sort_masked (e : ℕ → K) (p : ℕ → Bool) (n : ℕ) (h0 : ∀ i, i < n → 0 ≤ e i)
    (hm : ∀ i j, i ≤ j → e i ≤ e j) :
    sort ((List.range n).map fun i => mulBool (e i) (p i)) =
      List.replicate (n - (List.range n).countP p) 0 ++ ((List.range n).filter p).map e := by
  unfold sort
  have hperm : ((List.range n).map fun i => mulBool (e i) (p i)).Perm
      (List.replicate (n - (List.range n).countP p) 0 ++ ((List.range n).filter p).map e) := by
    have h1 : (List.range n).Perm ((List.range n).filter (fun i => !p i) ++ (List.range n).filter p) := by
      have := List.filter_append_perm (fun i => !p i) (List.range n)
      simpa using this.symm
    refine (h1.map _).trans ?_
    rw [List.map_append]
    have e1 : ((List.range n).filter fun i => !p i).map (fun i => mulBool (e i) (p i))
        = List.replicate (n - (List.range n).countP p) 0 := by
      rw [List.eq_replicate_iff]
      constructor
      · rw [List.length_map, ← List.countP_eq_length_filter]
        have := List.length_eq_countP_add_countP p (l := List.range n)
        rw [List.length_range] at this
        have h2 : (List.range n).countP (fun i => !p i) = (List.range n).countP fun a => decide ¬ (p a = true) := by
          congr 1; funext a; cases p a <;> rfl
        omega
      · intro x hx
        obtain ⟨i, hi, rfl⟩ := List.mem_map.mp hx
        have := (List.mem_filter.mp hi).2
        simp only [Bool.not_eq_true'] at this
        simp [mulBool, this]
    have e2 : ((List.range n).filter p).map (fun i => mulBool (e i) (p i)) = ((List.range n).filter p).map e := by
      apply List.map_congr_left
      intro i hi
      have := (List.mem_filter.mp hi).2
      simp [mulBool, this]
    rw [e1, e2]
  refine List.Perm.eq_of_pairwise (le := (· ≤ ·)) (fun a b _ _ => le_antisymm) (List.pairwise_insertionSort _ _) ?_
    ((List.perm_insertionSort _ _).trans hperm)
  rw [List.pairwise_append]
  refine ⟨?_, ?_, ?_⟩
  · exact List.pairwise_replicate.mpr (Or.inr le_rfl)
  · rw [List.pairwise_map]
    have hs : (List.range n).Pairwise (· ≤ ·) := List.pairwise_lt_range.imp le_of_lt
    exact (hs.filter p).imp fun h => hm _ _ h
  · intro x hx y hy
    rw [(List.eq_of_mem_replicate hx)]
    obtain ⟨i, hi, rfl⟩ := List.mem_map.mp hy
    exact h0 i (List.mem_range.mp (List.mem_filter.mp hi).1)

omit [LinearOrder K] [IsStrictOrderedRing K] in
theorem lastN_replicate_append (m z : ℕ) (l : List K) (h : l.length ≤ m) :
    lastN m (List.replicate z 0 ++ l) = List.replicate (min m (z + l.length) - l.length) 0 ++ l := by
  unfold lastN
  have hle : z + l.length - m ≤ (List.replicate z (0 : K)).length := by simp; omega
  rw [List.length_append, List.length_replicate, List.drop_append_of_le_length hle, List.drop_replicate]
  congr 2
  omega

/-- Number of runs of occupied bins. -/
def numRuns (arr : List K) (lo hi : K) (bins : ℕ) : ℕ :=
  (List.range (bins + 1)).countP (isStart (occ arr lo hi bins))

/-- The list of runs: left and right edge of every maximal run of occupied bins, in order. -/
def runs (arr : List K) (lo hi : K) (bins : ℕ) : List (K × K) :=
  ((((List.range (bins + 1)).filter (isStart (occ arr lo hi bins))).map fun i => edge lo hi bins (i + 1)).zip
    (((List.range (bins + 1)).filter (isEnd (occ arr lo hi bins))).map fun i => edge lo hi bins (i + 1)))

omit [IsStrictOrderedRing K] in
theorem numRuns_eq_ends (arr : List K) (lo hi : K) (bins : ℕ) (hb : 0 < bins) :
    numRuns arr lo hi bins = (List.range (bins + 1)).countP (isEnd (occ arr lo hi bins)) := by
  rw [numRuns, starts_ends _ (occ_zero arr lo hi bins hb), occ_top arr lo hi bins hb]; simp

/-- The result is the list of runs, preceded by zero rows. -/
theorem cluster1dRange_eq (arr : List K) (lo hi : K) (bins mc : ℕ) (hb : 0 < bins) (h0 : 0 ≤ lo) (h : lo < hi)
    (hr : numRuns arr lo hi bins ≤ mc) :
    cluster1dRange arr lo hi bins mc =
      List.replicate (min mc (bins + 1) - numRuns arr lo hi bins) (0, 0) ++ runs arr lo hi bins := by
  have hE := numRuns_eq_ends arr lo hi bins hb
  have hle1 : numRuns arr lo hi bins ≤ bins + 1 := by
    have := List.countP_le_length (p := isStart (occ arr lo hi bins)) (l := List.range (bins + 1))
    simpa [numRuns] using this
  have hpos : ∀ i, i < bins + 1 → 0 ≤ edge lo hi bins (i + 1) := by
    intro i _
    refine h0.trans ?_
    conv_lhs => rw [← edge_one lo hi bins]
    exact edge_mono lo hi bins h.le (by omega)
  have hmono : ∀ i j, i ≤ j → edge lo hi bins (i + 1) ≤ edge lo hi bins (j + 1) :=
    fun i j hij => edge_mono lo hi bins h.le (by omega)
  have hzip : ∀ p : ℕ → Bool, List.zipWith mulBool ((List.range (bins + 1)).map fun i => edge lo hi bins (i + 1))
      ((List.range (bins + 1)).map p) = (List.range (bins + 1)).map fun i => mulBool (edge lo hi bins (i + 1)) (p i) := by
    intro p
    rw [List.zipWith_map, List.zipWith_self]
  simp only [cluster1dRange, startMask_eq, endMask_eq, inner_eq lo hi bins hb, hzip]
  rw [sort_masked _ _ _ hpos hmono, sort_masked _ _ _ hpos hmono]
  have hl1 : (((List.range (bins + 1)).filter (isStart (occ arr lo hi bins))).map fun i => edge lo hi bins (i + 1)).length
      = numRuns arr lo hi bins := by
    rw [List.length_map, ← List.countP_eq_length_filter]; rfl
  have hl2 : (((List.range (bins + 1)).filter (isEnd (occ arr lo hi bins))).map fun i => edge lo hi bins (i + 1)).length
      = numRuns arr lo hi bins := by
    rw [List.length_map, ← List.countP_eq_length_filter, hE]
  rw [lastN_replicate_append _ _ _ (by rw [hl1]; exact hr), lastN_replicate_append _ _ _ (by rw [hl2]; exact hr), hl1, hl2,
    ← hE, show (List.range (bins + 1)).countP (isStart (occ arr lo hi bins)) = numRuns arr lo hi bins from rfl,
    Nat.sub_add_cancel hle1]
  rw [List.zip_append (by simp)]
  congr 1
  rw [List.zip_replicate']

omit [IsStrictOrderedRing K] in
theorem runs_length (arr : List K) (lo hi : K) (bins : ℕ) (hb : 0 < bins) :
    (runs arr lo hi bins).length = numRuns arr lo hi bins := by
  rw [runs, List.length_zip, List.length_map, List.length_map, ← List.countP_eq_length_filter,
    ← List.countP_eq_length_filter, ← numRuns_eq_ends arr lo hi bins hb]
  simp [numRuns]

omit [IsStrictOrderedRing K] in
/-- What the `k`-th run is. -/
theorem runs_getElem (arr : List K) (lo hi : K) (bins : ℕ) (hb : 0 < bins) (k : ℕ)
    (hk : k < (runs arr lo hi bins).length) :
    ∃ s e : ℕ, s ≤ bins ∧ e ≤ bins ∧ (runs arr lo hi bins)[k] = (edge lo hi bins (s + 1), edge lo hi bins (e + 1)) ∧
      (∀ j, j ≤ bins + 1 → (s < j ↔ k < (List.range j).countP (isStart (occ arr lo hi bins)))) ∧
      (∀ j, j ≤ bins + 1 → (e < j ↔ k < (List.range j).countP (isEnd (occ arr lo hi bins)))) := by
  have hS : k < ((List.range (bins + 1)).filter (isStart (occ arr lo hi bins))).length := by
    rw [runs_length arr lo hi bins hb] at hk
    rwa [← List.countP_eq_length_filter]
  have hE : k < ((List.range (bins + 1)).filter (isEnd (occ arr lo hi bins))).length := by
    rw [runs_length arr lo hi bins hb, numRuns_eq_ends arr lo hi bins hb] at hk
    rwa [← List.countP_eq_length_filter]
  refine ⟨_, _, ?_, ?_, ?_, fun j hj => filter_range_lt _ _ k hS j hj, fun j hj => filter_range_lt _ _ k hE j hj⟩
  · have := List.mem_range.mp (List.mem_filter.mp (List.getElem_mem hS)).1
    omega
  · have := List.mem_range.mp (List.mem_filter.mp (List.getElem_mem hE)).1
    omega
  · simp [runs]

/-- Every value of the range lies in a run. -/
theorem runs_cover (arr : List K) (lo hi : K) (bins : ℕ) (hb : 0 < bins) (h : lo < hi) (x : K) (hx : x ∈ arr)
    (h1 : lo ≤ x) (h2 : x ≤ hi) : ∃ row ∈ runs arr lo hi bins, row.1 ≤ x ∧ x ≤ row.2 := by
  obtain ⟨hl, hr, _⟩ := binIndex_bracket lo hi bins hb h x h1 h2
  obtain ⟨hb1, hb2⟩ := binIndex_mem (binEdges lo hi bins) bins hb x
  set b := binIndex (binEdges lo hi bins) bins x with hbdef
  have hocc : occ arr lo hi bins b = true := (occ_iff _ _ _ _ _).mpr ⟨x, hx, rfl⟩
  have hse := starts_ends _ (occ_zero arr lo hi bins hb) b
  rw [hocc, if_pos rfl] at hse
  have hk : (List.range b).countP (isEnd (occ arr lo hi bins)) < (runs arr lo hi bins).length := by
    rw [runs_length arr lo hi bins hb, numRuns]
    have := countP_range_mono (isStart (occ arr lo hi bins)) (show b ≤ bins + 1 by omega)
    omega
  obtain ⟨s, e, _, _, hrow, hS, hE⟩ := runs_getElem arr lo hi bins hb _ hk
  refine ⟨_, List.getElem_mem hk, ?_⟩
  rw [hrow]
  have hs : s < b := (hS b (by omega)).mpr (by omega)
  have he : ¬ e < b := by rw [hE b (by omega)]; omega
  exact ⟨(edge_mono lo hi bins h.le (by omega)).trans hl, hr.trans (edge_mono lo hi bins h.le (by omega))⟩

omit [IsStrictOrderedRing K] in
/-- A run consists of occupied bins only. -/
theorem runs_sound (arr : List K) (lo hi : K) (bins : ℕ) (hb : 0 < bins) :
    ∀ row ∈ runs arr lo hi bins, ∃ i j : ℕ, 1 ≤ i ∧ i < j ∧ j ≤ bins + 1 ∧ row = (edge lo hi bins i, edge lo hi bins j) ∧
      (∀ b, i ≤ b → b < j → occ arr lo hi bins b = true) ∧ occ arr lo hi bins (i - 1) = false ∧
      occ arr lo hi bins j = false := by
  intro row hrow
  obtain ⟨k, hk, rfl⟩ := List.getElem_of_mem hrow
  obtain ⟨s, e, hsb, heb, hrow', hS, hE⟩ := runs_getElem arr lo hi bins hb _ hk
  have h0 := occ_zero arr lo hi bins hb
  have hocc : ∀ b, s + 1 ≤ b → b < e + 1 → occ arr lo hi bins b = true := by
    intro b hb1 hb2
    have hse := starts_ends _ h0 b
    have h1 := (hS b (by omega)).mp (by omega)
    have h2 : ¬ k < _ := fun hc => absurd ((hE b (by omega)).mpr hc) (by omega)
    by_contra hcon
    rw [if_neg hcon] at hse
    omega
  have hsuc : ∀ (p : ℕ → Bool) (i : ℕ), (List.range (i + 1)).countP p = (List.range i).countP p + if p i then 1 else 0 := by
    intro p i
    rw [List.range_succ, List.countP_append, List.countP_singleton]
  have hs1 : isStart (occ arr lo hi bins) s = true := by
    have h1 := (hS (s + 1) (by omega)).mp (by omega)
    have h2 : ¬ k < _ := fun hc => absurd ((hS s (by omega)).mpr hc) (by omega)
    rw [hsuc] at h1
    by_contra hcon
    rw [if_neg hcon] at h1
    omega
  have he1 : isEnd (occ arr lo hi bins) e = true := by
    have h1 := (hE (e + 1) (by omega)).mp (by omega)
    have h2 : ¬ k < _ := fun hc => absurd ((hE e (by omega)).mpr hc) (by omega)
    rw [hsuc] at h1
    by_contra hcon
    rw [if_neg hcon] at h1
    omega
  simp only [isStart, isEnd, Bool.and_eq_true, Bool.not_eq_true'] at hs1 he1
  have hlt : s < e := by
    by_contra hcon
    have h1 := (hE (e + 1) (by omega)).mp (by omega)
    have h2 : ¬ k < _ := fun hc => absurd ((hS (e + 1) (by omega)).mpr hc) ?_
    · have hse := starts_ends _ h0 (e + 1)
      omega
    · rcases Nat.lt_or_ge e s with h3 | h3
      · omega
      · have : s = e := by omega
        subst this
        rw [hs1.1] at he1
        exact absurd he1.1 (by simp)
  exact ⟨s + 1, e + 1, by omega, by omega, by omega, hrow', hocc, by simpa using hs1.1, he1.2⟩

/-- Runs are listed from left to right and separated. -/
theorem runs_pairwise (arr : List K) (lo hi : K) (bins : ℕ) (hb : 0 < bins) (h : lo < hi) :
    (runs arr lo hi bins).Pairwise fun a b => a.2 < b.1 := by
  rw [List.pairwise_iff_getElem]
  intro k l hk hl hkl
  obtain ⟨s, e, _, _, hrow, hS, hE⟩ := runs_getElem arr lo hi bins hb _ hk
  obtain ⟨s', e', hs', _, hrow', hS', hE'⟩ := runs_getElem arr lo hi bins hb _ hl
  rw [hrow, hrow']
  apply edge_strictMono lo hi bins hb h
  have h0 := occ_zero arr lo hi bins hb
  have h1 := (hS' (s' + 1) (by omega)).mp (by omega)
  have h2 : ¬ l < _ := fun hc => absurd ((hS' s' (by omega)).mpr hc) (by omega)
  have hse := starts_ends _ h0 s'
  have hst : isStart (occ arr lo hi bins) s' = true := by
    rw [List.range_succ, List.countP_append, List.countP_singleton] at h1
    by_contra hcon
    rw [if_neg hcon] at h1
    omega
  simp only [isStart, Bool.and_eq_true, Bool.not_eq_true'] at hst
  rw [hst.1] at hse
  rw [List.range_succ, List.countP_append, List.countP_singleton] at h1
  have h3 : (if isStart (occ arr lo hi bins) s' then 1 else 0) ≤ 1 := by split <;> omega
  have : e < s' := by
    rw [hE s' (by omega)]
    simp only [Bool.false_eq_true, if_false, add_zero] at hse
    omega
  omega

end

end Microjax.Props
