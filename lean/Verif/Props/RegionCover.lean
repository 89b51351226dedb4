import Verif.Props.MergeFinal

/-! # C38: the regions cover the limb images -/

set_option linter.unusedSectionVars false

namespace Microjax.Props

open Jnp ExtendedSource MergeArea Spec

section
variable {K : Type*} [Field K] [LinearOrder K] [IsStrictOrderedRing K]

/-! ### Merging of radial ranges -/

theorem mergeRows_nil : mergeRows ([] : List (K × K)) = [] := by rw [mergeRows]; intros; contradiction
theorem mergeRows_one (a : K × K) : mergeRows [a] = [a] := by
  rw [mergeRows]; intro _ _ _ h; simp at h
theorem mergeRows_cons (a b : K × K) (l : List (K × K)) : mergeRows (a :: b :: l) =
    if a.2 > b.1 then (0, 0) :: mergeRows ((a.1, b.2) :: l) else a :: mergeRows (b :: l) := by
  rw [mergeRows]

/-- Both ends increase along the table. -/
def RowsSorted (rows : List (K × K)) : Prop := rows.Pairwise fun a b => a.1 ≤ b.1 ∧ a.2 ≤ b.2

theorem mergeRows_cover (l : List (K × K)) (a : K × K) (hs : RowsSorted (a :: l)) (x : K)
    (h : ∃ row ∈ a :: l, row.1 < x ∧ x < row.2) : ∃ row ∈ mergeRows (a :: l), row.1 < x ∧ x < row.2 := by
  induction l generalizing a with
  | nil => rw [mergeRows_one]; exact h
  | cons b l ih =>
    rw [mergeRows_cons]
    obtain ⟨ha, hbl⟩ := List.pairwise_cons.mp hs
    obtain ⟨hb, hl⟩ := List.pairwise_cons.mp hbl
    have hab := ha b (by simp)
    split_ifs with hc
    · have hs' : RowsSorted ((a.1, b.2) :: l) := by
        refine List.pairwise_cons.mpr ⟨fun c hcl => ⟨(ha c (by simp [hcl])).1, (hb c hcl).2⟩, hl⟩
      obtain ⟨row, hrow, h1⟩ := ih (a.1, b.2) hs' (by
        obtain ⟨row, hrow, h1, h2⟩ := h
        rcases List.mem_cons.mp hrow with rfl | hrow
        · exact ⟨_, List.mem_cons_self, h1, lt_of_lt_of_le h2 hab.2⟩
        · rcases List.mem_cons.mp hrow with rfl | hrow
          · exact ⟨_, List.mem_cons_self, lt_of_le_of_lt hab.1 h1, h2⟩
          · exact ⟨row, by simp [hrow], h1, h2⟩)
      exact ⟨row, List.mem_cons_of_mem _ hrow, h1⟩
    · obtain ⟨row, hrow, h1, h2⟩ := h
      rcases List.mem_cons.mp hrow with rfl | hrow
      · exact ⟨_, List.mem_cons_self, h1, h2⟩
      · obtain ⟨row', hrow', h3⟩ := ih b hbl ⟨row, hrow, h1, h2⟩
        exact ⟨row', List.mem_cons_of_mem _ hrow', h3⟩

/-- Ends of merged rows are ends of rows. -/
theorem mergeRows_ends (l : List (K × K)) (a : K × K) : ∀ m ∈ mergeRows (a :: l), m = (0, 0) ∨
    ((∃ i ∈ a :: l, m.1 = i.1) ∧ ∃ j ∈ a :: l, m.2 = j.2) := by
  induction l generalizing a with
  | nil => rw [mergeRows_one]; intro m hm; simp at hm; subst hm; right; simp
  | cons b l ih =>
    rw [mergeRows_cons]
    intro m hm
    split_ifs at hm with hc
    · rcases List.mem_cons.mp hm with rfl | hm
      · exact Or.inl rfl
      · rcases ih _ m hm with h | ⟨⟨i, hi, h1⟩, j, hj, h2⟩
        · exact Or.inl h
        · right
          constructor
          · rcases List.mem_cons.mp hi with rfl | hi
            · exact ⟨a, by simp, h1⟩
            · exact ⟨i, by simp [hi], h1⟩
          · rcases List.mem_cons.mp hj with rfl | hj
            · exact ⟨b, by simp, h2⟩
            · exact ⟨j, by simp [hj], h2⟩
    · rcases List.mem_cons.mp hm with rfl | hm
      · exact Or.inr ⟨⟨m, by simp⟩, m, by simp⟩
      · rcases ih _ m hm with h | ⟨⟨i, hi, h1⟩, j, hj, h2⟩
        · exact Or.inl h
        · exact Or.inr ⟨⟨i, List.mem_cons_of_mem _ hi, h1⟩, j, List.mem_cons_of_mem _ hj, h2⟩

/-- The merged ranges do not overlap. -/
theorem mergeRows_separated (l : List (K × K)) (a : K × K) (hs : RowsSorted (a :: l)) :
    (mergeRows (a :: l)).Pairwise fun x y => x = (0, 0) ∨ y = (0, 0) ∨ x.2 ≤ y.1 := by
  induction l generalizing a with
  | nil => rw [mergeRows_one]; simp
  | cons b l ih =>
    rw [mergeRows_cons]
    obtain ⟨ha, hbl⟩ := List.pairwise_cons.mp hs
    obtain ⟨hb, hl⟩ := List.pairwise_cons.mp hbl
    split_ifs with hc
    · refine List.pairwise_cons.mpr ⟨fun _ _ => Or.inl rfl, ih _ ?_⟩
      exact List.pairwise_cons.mpr ⟨fun c hcl => ⟨(ha c (by simp [hcl])).1, (hb c hcl).2⟩, hl⟩
    · refine List.pairwise_cons.mpr ⟨fun m hm => ?_, ih _ hbl⟩
      rcases mergeRows_ends l b m hm with h | ⟨⟨i, hi, h1⟩, _⟩
      · exact Or.inr (Or.inl h)
      · right; right
        rw [h1]
        rcases List.mem_cons.mp hi with rfl | hi
        · exact not_lt.mp hc
        · exact (not_lt.mp hc).trans (hb i hi).1

/-- Every row ends up inside a merged row. -/
theorem mergeRows_contains (l : List (K × K)) (a : K × K) (hs : RowsSorted (a :: l)) :
    ∀ row ∈ a :: l, ∃ m ∈ mergeRows (a :: l), m.1 ≤ row.1 ∧ row.2 ≤ m.2 := by
  induction l generalizing a with
  | nil => rw [mergeRows_one]; intro row h; exact ⟨row, h, le_rfl, le_rfl⟩
  | cons b l ih =>
    rw [mergeRows_cons]
    obtain ⟨ha, hbl⟩ := List.pairwise_cons.mp hs
    obtain ⟨hb, hl⟩ := List.pairwise_cons.mp hbl
    obtain ⟨hab1, hab2⟩ := ha b (by simp)
    split_ifs with hc
    · have hs' : RowsSorted ((a.1, b.2) :: l) :=
        List.pairwise_cons.mpr ⟨fun c hc => ⟨(ha c (by simp [hc])).1, (hb c hc).2⟩, hl⟩
      intro row hrow
      have key : ∃ row' ∈ (a.1, b.2) :: l, row'.1 ≤ row.1 ∧ row.2 ≤ row'.2 := by
        simp only [List.mem_cons] at hrow
        rcases hrow with rfl | rfl | h
        · exact ⟨(row.1, b.2), by simp, le_rfl, hab2⟩
        · exact ⟨(a.1, row.2), by simp, hab1, le_rfl⟩
        · exact ⟨row, by simp [h], le_rfl, le_rfl⟩
      obtain ⟨row', hr', h1, h2⟩ := key
      obtain ⟨m, hm, g1, g2⟩ := ih _ hs' row' hr'
      exact ⟨m, by simp [hm], g1.trans h1, h2.trans g2⟩
    · intro row hrow
      rcases List.mem_cons.mp hrow with rfl | h
      · exact ⟨row, by simp, le_rfl, le_rfl⟩
      · obtain ⟨m, hm, g⟩ := ih b hbl row h
        exact ⟨m, by simp [hm], g⟩

/-! ### Refinement of radial ranges -/

/-- What the refinement of one range is. -/
theorem refine_row (r_limb : List K) (margin : K) (row : K × K) (h0 : 0 ≤ row.1)
    (hint : ∃ r ∈ r_limb, row.1 < r ∧ r < row.2) :
    ∃ mn mx, row.1 < mn ∧ mn ≤ mx ∧ mx < row.2 ∧ (∀ r ∈ r_limb, row.1 < r → r < row.2 → mn ≤ r ∧ r ≤ mx) ∧
      refineAddMargin r_limb [row] margin = [(max 0 (mn - margin), mx + margin)] := by
  obtain ⟨r, hr, h1, h2⟩ := hint
  set inside := r_limb.filter fun r => decide (row.1 < r) && decide (r < row.2) with hins
  have hmem : r ∈ inside := by rw [hins, List.mem_filter]; simp [hr, h1, h2]
  have hne := List.ne_nil_of_mem hmem
  have hin : ∀ y ∈ inside, row.1 < y ∧ y < row.2 := by
    intro y hy; rw [hins, List.mem_filter] at hy; simpa using hy.2
  refine ⟨amin inside, amax inside, (hin _ (amin_mem _ hne)).1, (amin_le' _ r hmem).trans (le_amax' _ r hmem),
    (hin _ (amax_mem _ hne)).2, ?_, ?_⟩
  · intro y hy h3 h4
    have : y ∈ inside := by rw [hins, List.mem_filter]; simp [hy, h3, h4]
    exact ⟨amin_le' _ y this, le_amax' _ y this⟩
  · have : amax inside ≠ 0 := by
      have := (hin _ (amax_mem _ hne)).1
      exact (lt_of_le_of_lt h0 this).ne'
    simp only [refineAddMargin, List.map_cons, List.map_nil, ← hins, if_pos this]

theorem refine_zero (r_limb : List K) (margin : K) (hm : 0 ≤ margin) :
    refineAddMargin r_limb [(0, 0)] margin = [(0, 0)] := by
  have : (r_limb.filter fun r => decide (0 < r) && decide (r < 0)) = [] := by
    rw [List.filter_eq_nil_iff]
    intro r _
    simp only [Bool.and_eq_true, decide_eq_true_eq, not_and, not_lt]
    exact fun h => h.le
  simp [refineAddMargin, this, amin, amax, hm]

/-- The table of radial ranges: padding first, then separated ranges of non-negative radii each with a limb point
strictly inside. -/
structure GoodRanges (r_limb : List K) (rows : List (K × K)) : Prop where
  sep : rows.Pairwise fun a b => a = (0, 0) ∨ a.2 < b.1
  int : ∀ row ∈ rows, row = (0, 0) ∨ (0 ≤ row.1 ∧ ∃ r ∈ r_limb, row.1 < r ∧ r < row.2)

/-- Refined row as a function of the row. -/
def refineOne (r_limb : List K) (margin : K) (row : K × K) : K × K :=
  let inside := r_limb.filter fun r => decide (row.1 < r) && decide (r < row.2)
  (max 0 (amin inside - margin), if amax inside ≠ 0 then amax inside + margin else 0)

theorem refineAddMargin_eq (r_limb : List K) (margin : K) (rows : List (K × K)) :
    refineAddMargin r_limb rows margin = rows.map (refineOne r_limb margin) := rfl

theorem refineOne_zero (r_limb : List K) (margin : K) (hm : 0 ≤ margin) :
    refineOne r_limb margin (0, 0) = (0, 0) := by
  have := refine_zero r_limb margin hm
  simpa [refineAddMargin_eq] using this

theorem refineOne_row (r_limb : List K) (margin : K) (row : K × K) (h0 : 0 ≤ row.1)
    (hint : ∃ r ∈ r_limb, row.1 < r ∧ r < row.2) :
    ∃ mn mx, row.1 < mn ∧ mn ≤ mx ∧ mx < row.2 ∧ (∀ r ∈ r_limb, row.1 < r → r < row.2 → mn ≤ r ∧ r ≤ mx) ∧
      refineOne r_limb margin row = (max 0 (mn - margin), mx + margin) := by
  obtain ⟨mn, mx, h1, h2, h3, h4, h5⟩ := refine_row r_limb margin row h0 hint
  exact ⟨mn, mx, h1, h2, h3, h4, by simpa [refineAddMargin_eq] using h5⟩

theorem refined_sorted (r_limb : List K) (margin : K) (hm : 0 ≤ margin) (rows : List (K × K))
    (hg : GoodRanges r_limb rows) : RowsSorted (refineAddMargin r_limb rows margin) := by
  rw [refineAddMargin_eq]
  unfold RowsSorted
  rw [List.pairwise_map]
  refine List.Pairwise.imp_of_mem ?_ hg.sep
  intro a b ha hb hab
  have hnn : ∀ c, 0 ≤ (refineOne r_limb margin c).1 := fun c => le_max_left _ _
  rcases hg.int a ha with rfl | ⟨ha0, haint⟩
  · rw [refineOne_zero r_limb margin hm]
    refine ⟨hnn b, ?_⟩
    rcases hg.int b hb with rfl | ⟨hb0, hbint⟩
    · rw [refineOne_zero r_limb margin hm]
    · obtain ⟨mn, mx, h1, h2, h3, _, h5⟩ := refineOne_row r_limb margin b hb0 hbint
      rw [h5]; simp only; linarith
  · obtain ⟨mn, mx, h1, h2, h3, _, h5⟩ := refineOne_row r_limb margin a ha0 haint
    have hab' : a.2 < b.1 := by
      rcases hab with rfl | h
      · obtain ⟨r, _, g1, g2⟩ := haint
        exact absurd (g1.trans g2) (lt_irrefl _)
      · exact h
    rcases hg.int b hb with rfl | ⟨hb0, hbint⟩
    · simp only at hab'; linarith
    · obtain ⟨mn', mx', g1, g2, g3, _, g5⟩ := refineOne_row r_limb margin b hb0 hbint
      rw [h5, g5]
      refine ⟨max_le_max le_rfl ?_, ?_⟩ <;> linarith

/-- Every radius strictly inside a range is strictly inside a merged range, with the margin. -/
theorem refined_cover (r_limb : List K) (margin : K) (hm : 0 < margin) (rows : List (K × K))
    (hg : GoodRanges r_limb rows) (r : K) (hr : r ∈ r_limb) (row : K × K) (hrow : row ∈ rows) (h1 : row.1 < r)
    (h2 : r < row.2) : ∃ m ∈ refineAddmarginMergeR r_limb rows margin, m.1 < r ∧ r < m.2 ∧ m.1 ≤ max 0 (r - margin) ∧
      r + margin ≤ m.2 := by
  unfold refineAddmarginMergeR
  have hs := refined_sorted r_limb margin hm.le rows hg
  have h0 : 0 ≤ row.1 := by
    rcases hg.int row hrow with rfl | ⟨h0, _⟩
    · exact le_rfl
    · exact h0
  have hex : ∃ m ∈ refineAddMargin r_limb rows margin, m.1 ≤ max 0 (r - margin) ∧ r + margin ≤ m.2 := by
    rw [refineAddMargin_eq]
    refine ⟨_, List.mem_map_of_mem hrow, ?_⟩
    obtain ⟨mn, mx, _, _, _, g4, g5⟩ := refineOne_row r_limb margin row h0 ⟨r, hr, h1, h2⟩
    have := g4 r hr h1 h2
    rw [g5]
    exact ⟨max_le_max le_rfl (by linarith), by simp only; linarith⟩
  obtain ⟨m, hm', g1, g2⟩ : ∃ m ∈ mergeRows (refineAddMargin r_limb rows margin), m.1 ≤ max 0 (r - margin) ∧ r + margin ≤ m.2 := by
    obtain ⟨m, hmem, g1, g2⟩ := hex
    cases hcase : refineAddMargin r_limb rows margin with
    | nil => rw [hcase] at hmem; simp at hmem
    | cons a l =>
      rw [hcase] at hs hmem
      obtain ⟨m', hm', e1, e2⟩ := mergeRows_contains l a hs m hmem
      exact ⟨m', hm', e1.trans g1, g2.trans e2⟩
  exact ⟨m, hm', lt_of_le_of_lt g1 (max_lt (lt_of_le_of_lt h0 h1) (by linarith)), by linarith, g1, g2⟩

/-- Merged ranges are padding or end beyond the margin, and they are separated. -/
theorem refined_rows (r_limb : List K) (margin : K) (hm : 0 < margin) (rows : List (K × K))
    (hg : GoodRanges r_limb rows) :
    (∀ m ∈ refineAddmarginMergeR r_limb rows margin, m.2 = 0 ∨ margin < m.2) ∧
    (refineAddmarginMergeR r_limb rows margin).Pairwise fun x y => x = (0, 0) ∨ y = (0, 0) ∨ x.2 ≤ y.1 := by
  unfold refineAddmarginMergeR
  have hs := refined_sorted r_limb margin hm.le rows hg
  have hhi : ∀ m ∈ refineAddMargin r_limb rows margin, m.2 = 0 ∨ margin < m.2 := by
    intro m hmem
    rw [refineAddMargin_eq] at hmem
    obtain ⟨row, hrow, rfl⟩ := List.mem_map.mp hmem
    rcases hg.int row hrow with rfl | ⟨h0, hint⟩
    · left; rw [refineOne_zero r_limb margin hm.le]
    · right
      obtain ⟨mn, mx, g1, g2, _, g4, g5⟩ := refineOne_row r_limb margin row h0 hint
      rw [g5]; simp only; linarith
  cases hcase : refineAddMargin r_limb rows margin with
  | nil => rw [mergeRows_nil]; simp
  | cons a l =>
    rw [hcase] at hs hhi
    refine ⟨?_, mergeRows_separated l a hs⟩
    intro m hmem
    rcases mergeRows_ends l a m hmem with rfl | ⟨_, j, hj, h2⟩
    · exact Or.inl rfl
    · rw [h2]; exact hhi j hj

/-! ### Excess rows -/

omit [Field K] [LinearOrder K] [IsStrictOrderedRing K] in
theorem sortFlag_map {α β : Type*} (f : α → β) (flag : β → Bool) (x : List α) :
    sortFlag flag (x.map f) = (sortFlag (fun a => flag (f a)) x).map f := by
  simp [sortFlag, List.filter_map, Function.comp_def]

omit [Field K] [LinearOrder K] [IsStrictOrderedRing K] in
theorem sortFlag_congr {α : Type*} (f g : α → Bool) (x : List α) (h : ∀ a ∈ x, f a = g a) : sortFlag f x = sortFlag g x := by
  unfold sortFlag
  rw [List.filter_congr (fun a ha => by rw [h a ha]), List.filter_congr h]

omit [Field K] [LinearOrder K] [IsStrictOrderedRing K] in
theorem sortFlag_perm {α : Type*} (flag : α → Bool) (x : List α) : (sortFlag flag x).Perm x := by
  unfold sortFlag
  have := List.filter_append_perm (fun a => !flag a) x
  simpa using this

omit [Field K] [LinearOrder K] [IsStrictOrderedRing K] in
theorem mem_take_sortFlag {α : Type*} (flag : α → Bool) (x : List α) (n : ℕ) (a : α) (ha : a ∈ x) (hf : flag a = false)
    (hn : x.countP (fun a => !flag a) ≤ n) : a ∈ (sortFlag flag x).take n := by
  unfold sortFlag
  rw [List.take_append, List.mem_append, List.take_of_length_le (by rwa [← List.countP_eq_length_filter])]
  left
  simp [ha, hf]

omit [Field K] [LinearOrder K] [IsStrictOrderedRing K] in
theorem zip_take_map {α β : Type*} (x : List (α × β)) (n : ℕ) :
    ((x.map Prod.fst).take n).zip ((x.map Prod.snd).take n) = x.take n := by
  apply List.ext_getElem <;> simp

/-- A row of the masked table: zero, or a radial range ending above `1e-8` with an angular range ending above `1e-8`. -/
def ZeroOrProper (row : RingSector K) : Prop := row = ((0, 0), (0, 0)) ∨ (1 / 10 ^ 8 < row.1.2 ∧ 1 / 10 ^ 8 < row.2.2)

theorem isclose_zero_iff (x : K) (hx : x = 0 ∨ 1 / 10 ^ 8 < x) : isclose x 0 = decide (x = 0) := by
  unfold isclose
  rcases hx with rfl | hx
  · simp
  · have hpos : (0 : K) < 1 / 10 ^ 8 := by positivity
    have h0 : 0 < x := hpos.trans hx
    have : ¬ |x| ≤ 1 / 10 ^ 8 := by rw [abs_of_pos h0]; exact not_le.mpr hx
    simp only [sub_zero, abs_zero, mul_zero, add_zero]
    simp [h0.ne']
    simpa using this

theorem excessRows_eq (rows : List (RingSector K)) (n : ℕ) (h : ∀ row ∈ rows, ZeroOrProper row) :
    excessRows rows n = (sortFlag (fun row : RingSector K => decide (row = ((0, 0), (0, 0)))) rows).take n := by
  unfold excessRows
  rw [sortFlag_map, sortFlag_map]
  have hpos : (0 : K) < 1 / 10 ^ 8 := by positivity
  have h1 : ∀ row ∈ rows, isclose row.1.2 0 = decide (row = ((0, 0), (0, 0))) := by
    intro row hrow
    rcases h row hrow with rfl | ⟨h1, _⟩
    · rw [isclose_zero_iff _ (Or.inl rfl)]; simp
    · rw [isclose_zero_iff _ (Or.inr h1)]
      have : row.1.2 ≠ 0 := (hpos.trans h1).ne'
      have h2 : row ≠ ((0, 0), (0, 0)) := fun hc => this (by rw [hc])
      simp [this, h2]
  have h2 : ∀ row ∈ rows, isclose row.2.2 0 = decide (row = ((0, 0), (0, 0))) := by
    intro row hrow
    rcases h row hrow with rfl | ⟨_, h1⟩
    · rw [isclose_zero_iff _ (Or.inl rfl)]; simp
    · rw [isclose_zero_iff _ (Or.inr h1)]
      have : row.2.2 ≠ 0 := (hpos.trans h1).ne'
      have h2 : row ≠ ((0, 0), (0, 0)) := fun hc => this (by rw [hc])
      simp [this, h2]
  rw [sortFlag_congr _ _ rows h1, sortFlag_congr _ _ rows h2, zip_take_map]

/-- Rows of the masked table. -/
theorem mem_maskedRows (limb : List (K × K)) (r_map th_map : List (K × K)) (row : RingSector K) :
    row ∈ maskedRows limb r_map th_map ↔ ∃ r ∈ r_map, ∃ th ∈ th_map,
      (inMask limb r th = true ∧ row = (r, th)) ∨ (inMask limb r th = false ∧ row = ((0, 0), (0, 0))) := by
  simp only [maskedRows, List.mem_flatMap, List.mem_map]
  constructor
  · rintro ⟨r, hr, th, hth, rfl⟩
    refine ⟨r, hr, th, hth, ?_⟩
    cases inMask limb r th <;> simp [mulBool]
  · rintro ⟨r, hr, th, hth, ⟨h, rfl⟩ | ⟨h, rfl⟩⟩
    · exact ⟨r, hr, th, hth, by simp [mulBool, h]⟩
    · exact ⟨r, hr, th, hth, by simp [mulBool, h]⟩

omit [Field K] [LinearOrder K] [IsStrictOrderedRing K] in
theorem countP_le_one_of_pairwise {α : Type*} (l : List α) (p : α → Bool) (h : l.Pairwise fun a b => ¬ (p a = true ∧ p b = true)) :
    l.countP p ≤ 1 := by
  induction l with
  | nil => simp
  | cons a l ih =>
    obtain ⟨ha, hl⟩ := List.pairwise_cons.mp h
    rw [List.countP_cons]
    by_cases hp : p a = true
    · rw [if_pos hp]
      have : l.countP p = 0 := List.countP_eq_zero.mpr fun b hb hpb => ha b hb ⟨hp, hpb⟩
      omega
    · rw [if_neg hp]; exact ih hl

/-- At most one sector of a ring ends at `2π`. -/
theorem maskedRows_unique (limb : List (K × K)) (r_map th_map : List (K × K)) (twoPi : K) (hpi : 0 < twoPi)
    (hr : r_map.Pairwise fun x y => x = (0, 0) ∨ y = (0, 0) ∨ x.2 ≤ y.1)
    (hth : th_map.Pairwise fun x y => x = (0, 0) ∨ x.2 < y.1) (hth' : ∀ t ∈ th_map, t.1 ≤ t.2) (rr : K × K) :
    (maskedRows limb r_map th_map).countP (fun b => decide (b.1 = rr) && decide (b.2.2 = twoPi)) ≤ 1 := by
  apply countP_le_one_of_pairwise
  unfold maskedRows
  rw [List.pairwise_flatMap]
  constructor
  · intro r hrm
    rw [List.pairwise_map]
    refine List.Pairwise.imp_of_mem ?_ hth
    intro t t' ht ht' htt
    simp only [Bool.and_eq_true, decide_eq_true_eq, not_and]
    rintro ⟨_, h1⟩ _ h2
    cases hm : inMask limb r t
    · simp [mulBool, hm] at h1; exact hpi.ne h1
    · cases hm' : inMask limb r t'
      · simp [mulBool, hm'] at h2; exact hpi.ne h2
      · simp only [mulBool, hm, hm', if_true, mul_one] at h1 h2
        rcases htt with rfl | h
        · simp only at h1; exact hpi.ne h1
        · linarith [hth' t' ht']
  · refine List.Pairwise.imp_of_mem ?_ hr
    intro r r' hrm hrm' hrr x hx y hy
    simp only [Bool.and_eq_true, decide_eq_true_eq, not_and]
    rintro ⟨h1, h2⟩ h3 h4
    obtain ⟨t, ht, rfl⟩ := List.mem_map.mp hx
    obtain ⟨t', ht', rfl⟩ := List.mem_map.mp hy
    simp only at h1 h2 h3 h4
    cases hm : inMask limb r t
    · simp [mulBool, hm] at h2; exact hpi.ne h2
    · cases hm' : inMask limb r' t'
      · simp [mulBool, hm'] at h4; exact hpi.ne h4
      · simp only [mulBool, hm, hm', if_true, mul_one] at h1 h3
        have hrr' : r = r' := by rw [← Prod.mk.eta (p := r), h1, ← h3]
        subst hrr'
        simp only [inMask, List.any_eq_true, Bool.and_eq_true, decide_eq_true_eq] at hm
        obtain ⟨p, _, ⟨⟨g1, g2⟩, _⟩, _⟩ := hm
        rcases hrr with rfl | rfl | h
        · simp only at g1 g2; exact absurd (g1.trans_le g2.le) (lt_irrefl _)
        · simp only at g1 g2; exact absurd (g1.trans_le g2.le) (lt_irrefl _)
        · exact absurd (g1.trans g2) (not_lt.mpr h)

/-! ### The final refinement -/

/-- The final refinement keeps every limb point of the sector, with the margins. -/
theorem refineFinalRow_cover (twoPi : K) (limb : List (K × K)) (mr mt : K) (hmr : 0 ≤ mr)
    (m : RingSector K) (r th : K) (hp : (r, th) ∈ limb) (hr : 0 < r) (hth : 0 < th) (hth' : th < twoPi)
    (hin : SectorContainsStrict twoPi m r th) (hm1 : m.1.1 ≤ max 0 (r - mr)) (hm2 : r + mr ≤ m.1.2) :
    SectorContainsMargin twoPi (refineFinalRow twoPi limb mr mt m) r th mr mt := by
  obtain ⟨⟨a, b⟩, α, β⟩ := m
  obtain ⟨h1, h2, h3⟩ := hin
  simp only at h1 h2 h3 hm1 hm2
  have hpi : 0 < twoPi := hth.trans hth'
  -- the angle after the flip lies in the sector
  have hcase : (decide (α > 0) || condFlip twoPi (α, β)) = true →
      α < thLimbNew twoPi (condFlip twoPi (α, β)) th ∧ thLimbNew twoPi (condFlip twoPi (α, β)) th < β ∧
      thLimbNew twoPi (condFlip twoPi (α, β)) th ≠ 0 ∧
      (thLimbNew twoPi (condFlip twoPi (α, β)) th = th ∨ thLimbNew twoPi (condFlip twoPi (α, β)) th = th - twoPi) := by
    intro hc
    cases hf : condFlip twoPi (α, β)
    · rw [hf] at hc
      simp only [Bool.or_false, decide_eq_true_eq] at hc
      simp only [thLimbNew, Bool.false_eq_true, if_false]
      rcases h3 with ⟨g1, g2⟩ | ⟨g1, g2⟩
      · exact ⟨g1, g2, hth.ne', Or.inl trivial⟩
      · linarith
    · simp only [condFlip, Bool.and_eq_true, decide_eq_true_eq] at hf
      obtain ⟨⟨⟨f1, f2⟩, f3⟩, f4⟩ := hf
      simp only [thLimbNew, if_true]
      rcases h3 with ⟨g1, g2⟩ | ⟨g1, g2⟩
      · rw [if_neg (by linarith)]
        exact ⟨g1, g2, hth.ne', Or.inl rfl⟩
      · rw [if_pos (by linarith)]
        exact ⟨g1, g2, ne_of_lt (sub_neg.mpr hth'), Or.inr rfl⟩
  set flip := condFlip twoPi (α, β) with hflip
  set pts := limb.map fun p => (p.1, thLimbNew twoPi flip p.2) with hpts
  have hmem : (r, thLimbNew twoPi flip th) ∈ pts := List.mem_map.mpr ⟨_, hp, rfl⟩
  set f := fun p : K × K => decide (a < p.1) && decide (p.1 < b) && decide (α < p.2) && decide (p.2 < β)
    && decide (p.2 ≠ 0) && decide (p.1 ≠ 0) with hf
  unfold SectorContainsMargin refineFinalRow
  simp only [← hflip, ← hpts]
  by_cases hc : (decide (α > 0) || flip) = true
  · obtain ⟨c1, c2, c3, c4⟩ := hcase hc
    have hfp : f (r, thLimbNew twoPi flip th) = true := by simp [hf, h1, h2, c1, c2, c3, hr.ne']
    have e1 : amin (pts.map fun p => if f p then p.1 else 10 ^ 5) ≤ r :=
      amin_le' _ _ (List.mem_map.mpr ⟨_, hmem, by simp [hfp]⟩)
    have e2 : r ≤ amax (pts.map fun p => if f p then p.1 else 0) :=
      le_amax' _ _ (List.mem_map.mpr ⟨_, hmem, by simp [hfp]⟩)
    have e3 : amin (pts.map fun p => if f p then p.2 else 10 ^ 5) ≤ thLimbNew twoPi flip th :=
      amin_le' _ _ (List.mem_map.mpr ⟨_, hmem, by simp [hfp]⟩)
    have e4 : thLimbNew twoPi flip th ≤ amax (pts.map fun p => if f p then p.2 else -10 ^ 5) :=
      le_amax' _ _ (List.mem_map.mpr ⟨_, hmem, by simp [hfp]⟩)
    have hne : amax (pts.map fun p => if f p then p.1 else 0) ≠ 0 := (hr.trans_le e2).ne'
    have hz : amax (pts.map fun p => if f p then p.1 else 0) + mr ≠ 0 := by
      have := hr.trans_le e2
      exact ne_of_gt (by linarith)
    simp only [hf] at e1 e2 e3 e4 hne hz
    rw [if_pos hc, if_pos hc, if_pos hc, if_pos hc, if_pos hne]
    simp only [hz, decide_false, Bool.and_false, Bool.false_eq_true, if_false]
    refine ⟨max_le_max le_rfl (by linarith), by linarith, ?_⟩
    rcases c4 with c4 | c4
    · left; rw [c4] at e3 e4; constructor <;> linarith
    · right; rw [c4] at e3 e4; constructor <;> linarith
  · rw [if_neg hc, if_neg hc, if_neg hc, if_neg hc]
    have hb : b ≠ 0 := (hr.trans h2).ne'
    simp only [hb, decide_false, Bool.and_false, Bool.false_eq_true, if_false]
    refine ⟨hm1, hm2, ?_⟩
    rcases h3 with ⟨g1, g2⟩ | ⟨g1, g2⟩
    · left; constructor <;> linarith
    · right; constructor <;> linarith

/-! ### The whole construction -/

/-- The angular table is not changed by snapping to 0 and `2π`. -/
theorem snap_id (twoPi : K) (hpi : 0 < twoPi) (bins : ℕ) (hb : 0 < bins)
    (htol : 1 / 10 ^ 8 + 1 / 10 ^ 5 * twoPi < twoPi / bins) (k : ℕ) (hk : k ≤ bins) :
    (fun y : K => if isclose y twoPi then twoPi else y)
      (if isclose ((k : K) * (twoPi / bins)) 0 then 0 else (k : K) * (twoPi / bins)) = (k : K) * (twoPi / bins) := by
  have hbK : (0 : K) < bins := by exact_mod_cast hb
  have hw : 0 < twoPi / bins := div_pos hpi hbK
  have hpos : (0 : K) < 1 / 10 ^ 8 := by positivity
  have hw8 : 1 / 10 ^ 8 < twoPi / bins := by
    have : 0 < 1 / 10 ^ 5 * twoPi := by positivity
    linarith
  have hx : (k : K) * (twoPi / bins) = 0 ∨ 1 / 10 ^ 8 < (k : K) * (twoPi / bins) := by
    rcases Nat.eq_zero_or_pos k with rfl | h
    · left; simp
    · right
      have : (1 : K) ≤ k := by exact_mod_cast h
      nlinarith
  have h1 : (if isclose ((k : K) * (twoPi / bins)) 0 then 0 else (k : K) * (twoPi / bins)) = (k : K) * (twoPi / bins) := by
    rw [isclose_zero_iff _ hx]
    by_cases h : (k : K) * (twoPi / bins) = 0
    · simp [h]
    · rw [decide_eq_false h]; simp
  rw [h1]
  simp only
  split_ifs with h
  · unfold isclose at h
    rw [decide_eq_true_iff, abs_of_pos hpi] at h
    rcases Nat.lt_or_ge k bins with hlt | hge
    · exfalso
      have h2 : (k : K) + 1 ≤ bins := by exact_mod_cast hlt
      have h3 : ((k : K) + 1) * (twoPi / bins) ≤ twoPi := by
        have := mul_le_mul_of_nonneg_right h2 hw.le
        rwa [mul_div_cancel₀ _ hbK.ne'] at this
      have h4 := neg_abs_le ((k : K) * (twoPi / bins) - twoPi)
      linarith
    · have : k = bins := le_antisymm hk hge
      rw [this, mul_div_cancel₀ _ hbK.ne']
  · rfl

/-- Radial ranges after refinement and merging. -/
def ringTable (limb : List (K × K)) (bins_r n : ℕ) (margin_r : K) : List (K × K) :=
  refineAddmarginMergeR (limb.map Prod.fst) (cluster1dR (limb.map Prod.fst) bins_r n) margin_r

/-- Occupied (ring, angular range) pairs. -/
def sectorTable (twoPi : K) (limb : List (K × K)) (bins_r bins_th n : ℕ) (margin_r : K) : List (RingSector K) :=
  maskedRows limb (ringTable limb bins_r n margin_r) (cluster1dTh twoPi (limb.map Prod.snd) bins_th n)

/-- Conditions under which the construction loses nothing. -/
structure CoverConditions (twoPi : K) (n nreal : ℕ) (limb : List (K × K)) (bins_r bins_th : ℕ) (margin_r : K) : Prop where
  hpi : 0 < twoPi
  bins_r_pos : 0 < bins_r
  bins_th_pos : 0 < bins_th
  /-- polar coordinates -/
  polar : ∀ p ∈ limb, 0 ≤ p.1 ∧ 0 ≤ p.2 ∧ p.2 < twoPi
  /-- the radii of the valid images are not all equal -/
  radii : ∃ x1 ∈ limb.map Prod.fst, ∃ x2 ∈ limb.map Prod.fst, 0 < x1 ∧ x1 < x2
  /-- angular bins are wider than the tolerance of `isclose` -/
  tol : 1 / 10 ^ 8 + 1 / 10 ^ 5 * twoPi < twoPi / bins_th
  /-- the absolute margin is above the absolute tolerance of `isclose` -/
  margin : 1 / 10 ^ 8 < margin_r
  /-- not more runs than cluster slots -/
  runs_r : runCount (limb.map Prod.fst) (nzMin (limb.map Prod.fst)) (nzMax (limb.map Prod.fst)) bins_r ≤ n
  runs_th : runCount (limb.map Prod.snd) 0 twoPi bins_th ≤ n
  /-- each radial run has a limb radius strictly between its ends -/
  inner : ∀ row ∈ cluster1dR (limb.map Prod.fst) bins_r n, row = (0, 0) ∨ ∃ r ∈ limb.map Prod.fst, row.1 < r ∧ r < row.2
  /-- not more sectors than slots, before and after merging across the axis -/
  sectors : (sectorTable twoPi limb bins_r bins_th n margin_r).countP (fun s => !decide (s = ((0, 0), (0, 0)))) ≤ n
  final : (mergeFinal twoPi (excessRows (sectorTable twoPi limb bins_r bins_th n margin_r) n)).countP
    (fun m => !decide (m.1.2 = 0)) ≤ nreal
  /-- if sectors ending at `2π` are removed, each has a partner starting at 0 -/
  partner : anyVanish (excessRows (sectorTable twoPi limb bins_r bins_th n margin_r) n) = true →
    ∀ c ∈ sectorTable twoPi limb bins_r bins_th n margin_r, c.2.2 = twoPi →
      ∃ a ∈ sectorTable twoPi limb bins_r bins_th n margin_r, a.1 = c.1 ∧ a ≠ c ∧ a.2.1 = 0

/-- **C38 (partial)**, with the margins: under `CoverConditions`, every limb image whose radius and angle are not exactly an
end of their run lies in one of the returned regions (angles modulo `2π`), and with it everything within `margin_r` of its
radius and `margin_th` of its angle.  Missing for the full claim: images at the ends of runs, and limbs violating the
conditions; `C38_violated` shows that without the condition `inner` the claim fails. -/
theorem C38_margin_partial (twoPi : K) (n nreal : ℕ) (limb : List (K × K)) (bins_r bins_th : ℕ) (margin_r margin_th : K)
    (hc : CoverConditions twoPi n nreal limb bins_r bins_th margin_r) (r th : K)
    (hp : (r, th) ∈ limb) (hr0 : r ≠ 0)
    (hr : ∀ row ∈ cluster1dR (limb.map Prod.fst) bins_r n, r ≠ row.1 ∧ r ≠ row.2)
    (hth : ∀ row ∈ cluster1dTh twoPi (limb.map Prod.snd) bins_th n, th ≠ row.1 ∧ th ≠ row.2) :
    ∃ region ∈ regionsOfLimb twoPi n nreal limb bins_r bins_th margin_r margin_th,
      SectorContainsMargin twoPi region r th margin_r margin_th := by
  obtain ⟨x1, hx1, x2, hx2, hx1p, hx12⟩ := hc.radii
  have hm8 : (0 : K) < 1 / 10 ^ 8 := by positivity
  have hmr : 0 < margin_r := hm8.trans hc.margin
  have hr_mem : r ∈ limb.map Prod.fst := List.mem_map.mpr ⟨_, hp, rfl⟩
  have hth_mem : th ∈ limb.map Prod.snd := List.mem_map.mpr ⟨_, hp, rfl⟩
  have hrnn : ∀ x ∈ limb.map Prod.fst, 0 ≤ x := by
    intro x hx; obtain ⟨p, hp', rfl⟩ := List.mem_map.mp hx; exact (hc.polar p hp').1
  have hthb : ∀ x ∈ limb.map Prod.snd, 0 ≤ x ∧ x ≤ twoPi := by
    intro x hx; obtain ⟨p, hp', rfl⟩ := List.mem_map.mp hx
    exact ⟨(hc.polar p hp').2.1, (hc.polar p hp').2.2.le⟩
  obtain ⟨hR1, hR2, hR3⟩ := C40_cluster_radii _ bins_r n hc.bins_r_pos hrnn x1 x2 hx1 hx2 hx1p hx12 hc.runs_r
  obtain ⟨hT1, hT2, hT3⟩ := C40_cluster_angles twoPi hc.hpi _ bins_th n hc.bins_th_pos hthb hc.runs_th
  obtain ⟨hnz, hnz2, _⟩ := nz_bounds _ hrnn x1 x2 hx1 hx2 hx1p hx12
  -- radial table
  have hgood : GoodRanges (limb.map Prod.fst) (cluster1dR (limb.map Prod.fst) bins_r n) := by
    refine ⟨hR3, fun row hrow => ?_⟩
    rcases hc.inner row hrow with h | h
    · exact Or.inl h
    · rcases hR2 row hrow with h' | ⟨i, j, _, h'⟩
      · exact Or.inl h'
      · refine Or.inr ⟨?_, h⟩
        rw [h']
        have : 0 ≤ (nzMax (limb.map Prod.fst) - nzMin (limb.map Prod.fst)) / (bins_r : K) :=
          div_nonneg (by linarith) (Nat.cast_nonneg _)
        have := mul_nonneg (Nat.cast_nonneg (α := K) i) this
        simp only; linarith
  obtain ⟨rrow, hrrow, hr1, hr2⟩ := hR1 r hr_mem hr0
  obtain ⟨hne1, hne2⟩ := hr rrow hrrow
  obtain ⟨rr, hrr, hrr1, hrr2, hrr3, hrr4⟩ := refined_cover _ margin_r hmr _ hgood r hr_mem rrow hrrow (lt_of_le_of_ne hr1 hne1.symm)
    (lt_of_le_of_ne hr2 hne2)
  obtain ⟨hRend, hRsep⟩ := refined_rows _ margin_r hmr _ hgood
  -- angular table
  obtain ⟨tt, htt, ht1, ht2⟩ := hT1 th hth_mem
  obtain ⟨hte1, hte2⟩ := hth tt htt
  have htt1 : tt.1 < th := lt_of_le_of_ne ht1 hte1.symm
  have htt2 : th < tt.2 := lt_of_le_of_ne ht2 hte2
  have hbK : (0 : K) < bins_th := by exact_mod_cast hc.bins_th_pos
  have hw : 0 < twoPi / bins_th := div_pos hc.hpi hbK
  have hw8 : 1 / 10 ^ 8 < twoPi / bins_th := by
    have : 0 < 1 / 10 ^ 5 * twoPi := mul_pos (by positivity) hc.hpi
    linarith [hc.tol]
  -- rows of the angular table
  have hTrow : ∀ t ∈ cluster1dTh twoPi (limb.map Prod.snd) bins_th n,
      t = (0, 0) ∨ (0 ≤ t.1 ∧ t.1 < t.2 ∧ t.1 < twoPi ∧ 1 / 10 ^ 8 < t.2) := by
    intro t ht
    rcases hT2 t ht with h | ⟨i, j, hij, h⟩
    · exact Or.inl h
    · right
      obtain ⟨h1, h2, _⟩ := hij
      have hij' : (i : K) + 1 ≤ j := by exact_mod_cast h1
      have hjb : (j : K) ≤ bins_th := by exact_mod_cast h2
      have hi0 : (0 : K) ≤ i := Nat.cast_nonneg _
      have hjw : (j : K) * (twoPi / bins_th) ≤ twoPi := by
        have := mul_le_mul_of_nonneg_right hjb hw.le
        rwa [mul_div_cancel₀ _ hbK.ne'] at this
      rw [h]
      simp only
      refine ⟨by positivity, ?_, ?_, ?_⟩ <;> nlinarith
  -- snapping does nothing
  have hsnap : (cluster1dTh twoPi (limb.map Prod.snd) bins_th n).map (fun row : K × K =>
      ((fun x : K => (fun y : K => if isclose y twoPi then twoPi else y) (if isclose x 0 then 0 else x)) row.1,
       (fun x : K => (fun y : K => if isclose y twoPi then twoPi else y) (if isclose x 0 then 0 else x)) row.2))
      = cluster1dTh twoPi (limb.map Prod.snd) bins_th n := by
    conv_rhs => rw [← List.map_id (cluster1dTh twoPi (limb.map Prod.snd) bins_th n)]
    apply List.map_congr_left
    intro t ht
    have hs := snap_id twoPi hc.hpi bins_th hc.bins_th_pos hc.tol
    rcases hT2 t ht with h | ⟨i, j, hij, h⟩
    · have h0 := hs 0 (by omega)
      simp only [Nat.cast_zero, zero_mul] at h0
      rw [h]
      exact Prod.ext h0 h0
    · obtain ⟨h1, h2, _⟩ := hij
      rw [h]
      exact Prod.ext (hs i (by omega)) (hs j h2)
  -- the sector of the point
  have hmask : inMask limb rr tt = true := by
    simp only [inMask, List.any_eq_true, Bool.and_eq_true, decide_eq_true_eq]
    exact ⟨(r, th), hp, ⟨⟨hrr1, hrr2⟩, htt1⟩, htt2⟩
  have hsec : (rr, tt) ∈ sectorTable twoPi limb bins_r bins_th n margin_r :=
    (mem_maskedRows _ _ _ _).mpr ⟨rr, hrr, tt, htt, Or.inl ⟨hmask, rfl⟩⟩
  -- all rows are zero or proper
  have hrowform : ∀ row ∈ sectorTable twoPi limb bins_r bins_th n margin_r, row = ((0, 0), (0, 0)) ∨
      (1 / 10 ^ 8 < row.1.2 ∧ (0 ≤ row.2.1 ∧ row.2.1 < row.2.2 ∧ row.2.1 < twoPi ∧ 1 / 10 ^ 8 < row.2.2) ∧
        row.2 ∈ cluster1dTh twoPi (limb.map Prod.snd) bins_th n) := by
    intro row hrow
    obtain ⟨r', hr', t', ht', ⟨hm, rfl⟩ | ⟨_, rfl⟩⟩ := (mem_maskedRows _ _ _ _).mp hrow
    · right
      simp only [inMask, List.any_eq_true, Bool.and_eq_true, decide_eq_true_eq] at hm
      obtain ⟨p, hp', ⟨⟨g1, g2⟩, g3⟩, g4⟩ := hm
      have hp0 := hc.polar p hp'
      have hr'2 : 1 / 10 ^ 8 < r'.2 := by
        rcases hRend r' hr' with h | h
        · linarith
        · exact hc.margin.trans h
      rcases hTrow t' ht' with h | h
      · rw [h] at g3 g4; simp only at g3 g4; exact absurd (g3.trans_le g4.le) (lt_irrefl _)
      · exact ⟨hr'2, h, ht'⟩
    · exact Or.inl rfl
  have hzp : ∀ row ∈ sectorTable twoPi limb bins_r bins_th n margin_r, ZeroOrProper row := by
    intro row hrow
    rcases hrowform row hrow with h | ⟨h1, h2, _⟩
    · exact Or.inl h
    · exact Or.inr ⟨h1, h2.2.2.2⟩
  have hex := excessRows_eq _ n hzp
  set E := excessRows (sectorTable twoPi limb bins_r bins_th n margin_r) n with hE
  have hnot0 : ∀ row ∈ sectorTable twoPi limb bins_r bins_th n margin_r, row ≠ ((0, 0), (0, 0)) → row ∈ E := by
    intro row hrow hne
    rw [hex]
    exact mem_take_sortFlag _ _ n row hrow (by simpa using hne) hc.sectors
  have hsub : ∀ row ∈ E, row ∈ sectorTable twoPi limb bins_r bins_th n margin_r := by
    intro row hrow
    rw [hex] at hrow
    exact (mem_sortFlag _ _ _).mp (List.mem_of_mem_take hrow)
  have hrpos : 0 < r := lt_of_le_of_ne (hc.polar _ hp).1 (Ne.symm hr0)
  have hrt_ne : (rr, tt) ≠ (((0, 0), (0, 0)) : RingSector K) := by
    intro h
    have : rr.2 = 0 := congrArg (fun x : RingSector K => x.1.2) h
    linarith
  have hsecE := hnot0 _ hsec hrt_ne
  -- merging across the axis
  have hmerge := C39_cover_partial twoPi E ?_ ?_ ?_ (rr, tt) hsecE r th ⟨hrr1, hrr2, htt1, htt2⟩
  · obtain ⟨m, hm, hm1, hmin⟩ := hmerge
    have hmE : m ∈ (mergeFinal twoPi E).take nreal := by
      have hm2 : m.1.2 ≠ 0 := by rw [hm1]; exact (hrpos.trans hrr2).ne'
      have hfin := hc.final
      rw [← hE] at hfin
      unfold mergeFinal at hm hfin ⊢
      simp only at hm hfin ⊢
      refine mem_take_sortFlag _ _ nreal m ((mem_sortFlag _ _ _).mp hm) (by simpa using hm2) ?_
      refine le_trans (le_of_eq ?_) hfin
      exact (List.Perm.countP_eq _ (sortFlag_perm _ _)).symm
    refine ⟨refineFinalRow twoPi limb margin_r margin_th m, ?_, ?_⟩
    · unfold regionsOfLimb
      simp only
      rw [hsnap]
      exact List.mem_map_of_mem hmE
    · have hth0 : 0 < th := by
        rcases hTrow tt htt with h | h
        · rw [h] at htt1 htt2; simp only at htt1 htt2; exact absurd (htt1.trans htt2) (lt_irrefl _)
        · linarith [h.1]
      exact refineFinalRow_cover twoPi limb margin_r margin_th hmr.le m r th hp hrpos hth0 (hc.polar _ hp).2.2 hmin
        (by rw [hm1]; exact hrr3) (by rw [hm1]; exact hrr4)
  · intro hv c hcE hc2
    have hcS := hsub c hcE
    obtain ⟨a, haS, ha1, hac, ha0⟩ := hc.partner hv c hcS hc2
    have hcn : c ≠ ((0, 0), (0, 0)) := by intro h; rw [h] at hc2; simp only at hc2; exact hc.hpi.ne hc2
    rcases hrowform c hcS with h | ⟨c1, _, ct⟩
    · exact absurd h hcn
    · rcases hrowform a haS with h | ⟨a1, a2, at'⟩
      · exfalso
        rw [h] at ha1
        rw [← ha1] at c1
        simp only at c1
        linarith
      · refine ⟨a, hnot0 a haS ?_, ha1, hac, ha0, by linarith [a2.2.2.2], ?_⟩
        · intro h; rw [h] at a1; simp only at a1; linarith
        · intro h2
          apply hac
          refine Prod.ext ha1 ?_
          -- two angular rows ending at 2π coincide
          by_contra hne
          have hpw : (cluster1dTh twoPi (limb.map Prod.snd) bins_th n).Pairwise
              (fun x y => ¬ (x.2 = twoPi ∧ y.2 = twoPi)) := by
            refine List.Pairwise.imp_of_mem ?_ hT3
            rintro x y hx hy hxy ⟨g1, g2⟩
            rcases hxy with rfl | hxy
            · simp only at g1; exact hc.hpi.ne g1
            · rcases hTrow y hy with rfl | h
              · simp only at g2; exact hc.hpi.ne g2
              · linarith [h.2.1]
          have hpw' : (cluster1dTh twoPi (limb.map Prod.snd) bins_th n).Pairwise
              (fun x y : K × K => x ≠ y → ¬ (x.2 = twoPi ∧ y.2 = twoPi)) :=
            List.Pairwise.imp (fun {a b} h (_ : a ≠ b) => h) hpw
          have : Std.Symm (fun x y : K × K => x ≠ y → ¬ (x.2 = twoPi ∧ y.2 = twoPi)) :=
            ⟨fun x y h hne hh => h hne.symm hh.symm⟩
          have := List.Pairwise.forall_of_forall (R := fun x y : K × K => x ≠ y → ¬ (x.2 = twoPi ∧ y.2 = twoPi))
            (fun x _ h => absurd rfl h) hpw' at' ct hne
          exact this ⟨h2, hc2⟩
  · intro a haE ha0
    have hu := maskedRows_unique limb (ringTable limb bins_r n margin_r)
      (cluster1dTh twoPi (limb.map Prod.snd) bins_th n) twoPi hc.hpi hRsep hT3 (fun t ht => by
        rcases hTrow t ht with h | h
        · rw [h]
        · exact h.2.1.le) a.1
    refine le_trans ?_ hu
    have hle : E.countP (fun b => decide (b.1 = a.1) && decide (b.2.2 = twoPi))
        ≤ (sectorTable twoPi limb bins_r bins_th n margin_r).countP (fun b => decide (b.1 = a.1) && decide (b.2.2 = twoPi)) := by
      rw [hex]
      refine (List.Sublist.countP_le (List.take_sublist _ _)).trans (le_of_eq ?_)
      exact List.Perm.countP_eq _ (sortFlag_perm _ _)
    refine le_trans (List.countP_mono_left ?_) hle
    intro b _ hb
    simp only [sameR, Bool.and_eq_true, decide_eq_true_eq] at hb ⊢
    exact ⟨hb.1.2.1.symm, hb.2⟩
  · intro c hcE
    rcases hrowform c (hsub c hcE) with rfl | ⟨_, h, _⟩
    · exact ⟨le_rfl, hc.hpi⟩
    · exact ⟨h.1, h.2.2.1⟩

/-- **C38 (partial).** Under `CoverConditions`, every limb image whose radius and angle are not exactly an end of their
run lies in one of the returned regions (angles modulo `2π`).  Missing for the full claim: images at the ends of runs, and
limbs violating the conditions; `C38_violated` shows that without the condition `inner` the claim fails. -/
theorem C38_cover_partial (twoPi : K) (n nreal : ℕ) (limb : List (K × K)) (bins_r bins_th : ℕ) (margin_r margin_th : K)
    (hc : CoverConditions twoPi n nreal limb bins_r bins_th margin_r) (hmt : 0 ≤ margin_th) (r th : K)
    (hp : (r, th) ∈ limb) (hr0 : r ≠ 0)
    (hr : ∀ row ∈ cluster1dR (limb.map Prod.fst) bins_r n, r ≠ row.1 ∧ r ≠ row.2)
    (hth : ∀ row ∈ cluster1dTh twoPi (limb.map Prod.snd) bins_th n, th ≠ row.1 ∧ th ≠ row.2) :
    ∃ region ∈ regionsOfLimb twoPi n nreal limb bins_r bins_th margin_r margin_th, SectorContains twoPi region r th := by
  obtain ⟨region, h, h1, h2, h3⟩ := C38_margin_partial twoPi n nreal limb bins_r bins_th margin_r margin_th hc r th hp hr0 hr hth
  have hm8 : (0 : K) < 1 / 10 ^ 8 := by positivity
  have hm := hc.margin
  refine ⟨region, h, h1.trans (max_le (hc.polar _ hp).1 (by linarith)), by linarith, ?_⟩
  rcases h3 with ⟨g1, g2⟩ | ⟨g1, g2⟩
  · left; constructor <;> linarith
  · right; constructor <;> linarith

end

/-- Points for the examples below: an arc across the positive axis and a second image at larger radius (6 stands for
`2π`; the last point is a masked image). -/
def exampleLimb : List (ℚ × ℚ) :=
  [(1, 1/10), (11/10, 2/10), (12/10, 59/10), (105/100, 57/10), (13/10, 3/10), (2, 3), (19/10, 29/10), (21/10, 31/10),
    (205/100, 3), (0, 0)]

theorem exampleLimb_conditions : CoverConditions (6 : ℚ) 10 5 exampleLimb 10 12 (1/20) where
  hpi := by norm_num
  bins_r_pos := by norm_num
  bins_th_pos := by norm_num
  polar := by decide +kernel
  radii := by decide +kernel
  tol := by norm_num
  margin := by norm_num
  runs_r := by
    obtain ⟨_, hlt, _, _, hv, _⟩ := nz_bounds (exampleLimb.map Prod.fst) (by decide +kernel) 1 2
      (by decide +kernel) (by decide +kernel) (by decide +kernel) (by decide +kernel)
    rw [← numRuns_eq_runCount _ _ _ _ (by norm_num) hlt hv]
    decide +kernel
  runs_th := by
    rw [← numRuns_eq_runCount _ _ _ _ (by norm_num) (by norm_num) ?_]
    · decide +kernel
    · intro x hx
      left
      revert x
      decide +kernel
  inner := by decide +kernel
  sectors := by decide +kernel
  final := by decide +kernel
  partner := by decide +kernel

/-- `C38_cover_partial` applies to an image of the arc beyond the axis. -/
example : ∃ region ∈ regionsOfLimb (6 : ℚ) 10 5 exampleLimb 10 12 (1/20) (1/100),
    SectorContains 6 region (12/10) (59/10) :=
  C38_cover_partial 6 10 5 exampleLimb 10 12 (1/20) (1/100) exampleLimb_conditions (by norm_num) _ _
    (by decide +kernel) (by norm_num) (by decide +kernel) (by decide +kernel)

/-- The regions returned there: the arc `[-0.3, 0.3]` across the axis and the second image, widened by the margins. The
image `(2.1, 3.1)` at the largest radius is *not* covered: its radius is an end of its run. -/
example : regionsOfLimb (6 : ℚ) 10 5 exampleLimb 10 12 (1/20) (1/100) =
    [((1, 27/20), (-31/100, 31/100)), ((37/20, 21/10), (289/100, 301/100)), ((0, 0), (0, 0)), ((0, 0), (0, 0)),
      ((0, 0), (0, 0))] := by decide +kernel

/-- **C38 (violated)**, end points: the conditions of `C38_cover_partial` hold, yet the limb image at the largest radius
lies in no returned region. -/
theorem C38_end_point_violated : ∃ limb : List (ℚ × ℚ), CoverConditions (6 : ℚ) 10 5 limb 10 12 (1/20) ∧
    (21/10, 31/10) ∈ limb ∧ ∀ region ∈ regionsOfLimb (6 : ℚ) 10 5 limb 10 12 (1/20) (1/100),
      ¬ SectorContains 6 region (21/10) (31/10) :=
  ⟨exampleLimb, exampleLimb_conditions, by decide +kernel, by unfold SectorContains; decide +kernel⟩

end Microjax.Props
