import Verif.Props.RegionRing

/-! # C125: when the returned regions do not overlap -/

set_option linter.unusedSectionVars false

namespace Microjax.Props

open Jnp ExtendedSource MergeArea Spec

section
variable {K : Type*} [Field K] [LinearOrder K] [IsStrictOrderedRing K]

/-- Conditions on the limb: those of `C38_cover_partial` without the ones on the number of slots and on merging. -/
structure LimbConditions (twoPi : K) (n : ℕ) (limb : List (K × K)) (bins_r bins_th : ℕ) (margin_r : K) : Prop where
  hpi : 0 < twoPi
  bins_r_pos : 0 < bins_r
  bins_th_pos : 0 < bins_th
  /-- polar coordinates -/
  polar : ∀ p ∈ limb, 0 ≤ p.1 ∧ 0 ≤ p.2 ∧ p.2 < twoPi
  /-- the radii of the valid images are not all equal -/
  radii : ∃ x1 ∈ limb.map Prod.fst, ∃ x2 ∈ limb.map Prod.fst, 0 < x1 ∧ x1 < x2
  /-- angular bins are wider than the tolerance of `isclose` -/
  tol : 1 / 10 ^ 8 + 1 / 10 ^ 5 * twoPi < twoPi / bins_th
  /-- the absolute margin is above the absolute tolerance of `isclose` -/
  margin : 1 / 10 ^ 8 < margin_r
  /-- not more runs than cluster slots -/
  runs_r : runCount (limb.map Prod.fst) (nzMin (limb.map Prod.fst)) (nzMax (limb.map Prod.fst)) bins_r ≤ n
  runs_th : runCount (limb.map Prod.snd) 0 twoPi bins_th ≤ n
  /-- each radial run has a limb radius strictly between its ends -/
  inner : ∀ row ∈ cluster1dR (limb.map Prod.fst) bins_r n, row = (0, 0) ∨ ∃ r ∈ limb.map Prod.fst, row.1 < r ∧ r < row.2

/-- An angular range made of whole bins. -/
def OnGrid (twoPi : K) (bins : ℕ) (t : K × K) : Prop :=
  ∃ i j : ℕ, i < j ∧ j ≤ bins ∧ t = (i * (twoPi / bins), j * (twoPi / bins))

/-- Two rows of the table are apart: one is empty, or their rings are apart, or they are in the same ring and at least one
empty bin lies between them. -/
def Apart (w : K) (a b : RingSector K) : Prop :=
  a = ((0, 0), (0, 0)) ∨ b = ((0, 0), (0, 0)) ∨ a.1.2 ≤ b.1.1 ∨ b.1.2 ≤ a.1.1 ∨
    (a.1 = b.1 ∧ (a.2.2 + w ≤ b.2.1 ∨ b.2.2 + w ≤ a.2.1))

theorem Apart.symm {w : K} {a b : RingSector K} (h : Apart w a b) : Apart w b a := by
  rcases h with h | h | h | h | ⟨h, h' | h'⟩
  · exact Or.inr (Or.inl h)
  · exact Or.inl h
  · exact Or.inr (Or.inr (Or.inr (Or.inl h)))
  · exact Or.inr (Or.inr (Or.inl h))
  · exact Or.inr (Or.inr (Or.inr (Or.inr ⟨h.symm, Or.inr h'⟩)))
  · exact Or.inr (Or.inr (Or.inr (Or.inr ⟨h.symm, Or.inl h'⟩)))

/-- Rows of the table before merging. -/
def RowForm (twoPi : K) (limb : List (K × K)) (bins_r bins_th n : ℕ) (mr : K) (row : RingSector K) : Prop :=
  row = ((0, 0), (0, 0)) ∨ (1 / 10 ^ 8 < row.1.2 ∧ row.1 ∈ ringTable limb bins_r n mr ∧ OnGrid twoPi bins_th row.2 ∧
    row.2 ∈ cluster1dTh twoPi (limb.map Prod.snd) bins_th n ∧
    ∃ p ∈ limb, row.1.1 < p.1 ∧ p.1 < row.1.2 ∧ row.2.1 < p.2 ∧ p.2 < row.2.2)

theorem goodRanges_of (twoPi : K) (n : ℕ) (limb : List (K × K)) (bins_r bins_th : ℕ) (mr : K)
    (hc : LimbConditions twoPi n limb bins_r bins_th mr) :
    GoodRanges (limb.map Prod.fst) (cluster1dR (limb.map Prod.fst) bins_r n) := by
  obtain ⟨x1, hx1, x2, hx2, hx1p, hx12⟩ := hc.radii
  have hrnn : ∀ x ∈ limb.map Prod.fst, 0 ≤ x := by
    intro x hx; obtain ⟨p, hp', rfl⟩ := List.mem_map.mp hx; exact (hc.polar p hp').1
  obtain ⟨_, hR2, hR3⟩ := C40_cluster_radii _ bins_r n hc.bins_r_pos hrnn x1 x2 hx1 hx2 hx1p hx12 hc.runs_r
  obtain ⟨hnz, hnz2, _⟩ := nz_bounds _ hrnn x1 x2 hx1 hx2 hx1p hx12
  refine ⟨hR3, fun row hrow => ?_⟩
  rcases hc.inner row hrow with h | h
  · exact Or.inl h
  · rcases hR2 row hrow with h' | ⟨i, j, _, h'⟩
    · exact Or.inl h'
    · refine Or.inr ⟨?_, h⟩
      rw [h']
      have : 0 ≤ (nzMax (limb.map Prod.fst) - nzMin (limb.map Prod.fst)) / (bins_r : K) :=
        div_nonneg (by linarith) (Nat.cast_nonneg _)
      have := mul_nonneg (Nat.cast_nonneg (α := K) i) this
      simp only; linarith

theorem grid_facts (twoPi : K) (hpi : 0 < twoPi) (bins : ℕ) (hb : 0 < bins) (t : K × K) (ht : OnGrid twoPi bins t) :
    0 ≤ t.1 ∧ t.1 + twoPi / bins ≤ t.2 ∧ t.2 ≤ twoPi ∧ (t.1 = 0 ∨ twoPi / bins ≤ t.1) ∧
      (t.2 = twoPi ∨ t.2 + twoPi / bins ≤ twoPi) := by
  obtain ⟨i, j, hij, hj, rfl⟩ := ht
  have hbK : (0 : K) < bins := by exact_mod_cast hb
  have hw : 0 < twoPi / bins := div_pos hpi hbK
  have htw : (bins : K) * (twoPi / bins) = twoPi := mul_div_cancel₀ _ hbK.ne'
  have h1 : (i : K) + 1 ≤ j := by exact_mod_cast hij
  have h2 : (j : K) ≤ bins := by exact_mod_cast hj
  have h0 : (0 : K) ≤ i := Nat.cast_nonneg _
  simp only
  refine ⟨by positivity, by nlinarith, by nlinarith, ?_, ?_⟩
  · rcases Nat.eq_zero_or_pos i with h | h
    · left; rw [h]; simp
    · right
      have : (1 : K) ≤ i := by exact_mod_cast h
      nlinarith
  · rcases Nat.lt_or_ge j bins with h | h
    · right
      have : (j : K) + 1 ≤ bins := by exact_mod_cast h
      nlinarith
    · left
      have : (j : K) = bins := by exact_mod_cast le_antisymm hj h
      rw [this, htw]

theorem grid_gap (twoPi : K) (hpi : 0 < twoPi) (bins : ℕ) (hb : 0 < bins) (t t' : K × K) (ht : OnGrid twoPi bins t)
    (ht' : OnGrid twoPi bins t') (h : t.2 < t'.1) : t.2 + twoPi / bins ≤ t'.1 := by
  obtain ⟨i, j, hij, hj, rfl⟩ := ht
  obtain ⟨i', j', hij', hj', rfl⟩ := ht'
  have hbK : (0 : K) < bins := by exact_mod_cast hb
  have hw : 0 < twoPi / bins := div_pos hpi hbK
  simp only at h ⊢
  have h1 : (j : K) < i' := lt_of_mul_lt_mul_right h hw.le
  have h2 : j < i' := by exact_mod_cast h1
  have h3 : (j : K) + 1 ≤ i' := by exact_mod_cast h2
  nlinarith

/-- The table before merging: its rows have the form above and are pairwise apart, and the regions come from it. -/
theorem table_facts (twoPi : K) (n : ℕ) (limb : List (K × K)) (bins_r bins_th : ℕ) (mr : K)
    (hc : LimbConditions twoPi n limb bins_r bins_th mr) :
    ∃ E : List (RingSector K), (∀ row ∈ E, RowForm twoPi limb bins_r bins_th n mr row) ∧
      E.Pairwise (Apart (twoPi / bins_th)) ∧
      ∀ nreal mt, regionsOfLimb twoPi n nreal limb bins_r bins_th mr mt
        = ((mergeFinal twoPi E).take nreal).map (refineFinalRow twoPi limb mr mt) := by
  have hm8 : (0 : K) < 1 / 10 ^ 8 := by positivity
  have hmr : 0 < mr := hm8.trans hc.margin
  have hthb : ∀ x ∈ limb.map Prod.snd, 0 ≤ x ∧ x ≤ twoPi := by
    intro x hx; obtain ⟨p, hp', rfl⟩ := List.mem_map.mp hx
    exact ⟨(hc.polar p hp').2.1, (hc.polar p hp').2.2.le⟩
  obtain ⟨_, hT2, hT3⟩ := C40_cluster_angles twoPi hc.hpi _ bins_th n hc.bins_th_pos hthb hc.runs_th
  obtain ⟨hRend, hRsep⟩ := refined_rows _ mr hmr _ (goodRanges_of twoPi n limb bins_r bins_th mr hc)
  have hbK : (0 : K) < bins_th := by exact_mod_cast hc.bins_th_pos
  have hw8 : 1 / 10 ^ 8 < twoPi / bins_th := by
    have : 0 < 1 / 10 ^ 5 * twoPi := mul_pos (by positivity) hc.hpi
    linarith [hc.tol]
  have hTgrid : ∀ t ∈ cluster1dTh twoPi (limb.map Prod.snd) bins_th n, t = (0, 0) ∨ OnGrid twoPi bins_th t := by
    intro t ht
    rcases hT2 t ht with h | ⟨i, j, hij, h⟩
    · exact Or.inl h
    · exact Or.inr ⟨i, j, hij.1, hij.2.1, h⟩
  have hsnap : (cluster1dTh twoPi (limb.map Prod.snd) bins_th n).map (fun row : K × K =>
      ((fun x : K => (fun y : K => if isclose y twoPi then twoPi else y) (if isclose x 0 then 0 else x)) row.1,
       (fun x : K => (fun y : K => if isclose y twoPi then twoPi else y) (if isclose x 0 then 0 else x)) row.2))
      = cluster1dTh twoPi (limb.map Prod.snd) bins_th n := by
    conv_rhs => rw [← List.map_id (cluster1dTh twoPi (limb.map Prod.snd) bins_th n)]
    apply List.map_congr_left
    intro t ht
    have hs := snap_id twoPi hc.hpi bins_th hc.bins_th_pos hc.tol
    rcases hT2 t ht with h | ⟨i, j, hij, h⟩
    · have h0 := hs 0 (by omega)
      simp only [Nat.cast_zero, zero_mul] at h0
      rw [h]
      exact Prod.ext h0 h0
    · obtain ⟨h1, h2, _⟩ := hij
      rw [h]
      exact Prod.ext (hs i (by omega)) (hs j h2)
  have hform : ∀ row ∈ sectorTable twoPi limb bins_r bins_th n mr, RowForm twoPi limb bins_r bins_th n mr row := by
    intro row hrow
    obtain ⟨r', hr', t', ht', ⟨hm, rfl⟩ | ⟨_, rfl⟩⟩ := (mem_maskedRows _ _ _ _).mp hrow
    · right
      simp only [inMask, List.any_eq_true, Bool.and_eq_true, decide_eq_true_eq] at hm
      obtain ⟨p, hp', ⟨⟨g1, g2⟩, g3⟩, g4⟩ := hm
      have hp0 := hc.polar p hp'
      refine ⟨?_, hr', ?_, ht', p, hp', g1, g2, g3, g4⟩
      · rcases hRend r' hr' with h | h
        · simp only; linarith
        · exact hc.margin.trans h
      · rcases hTgrid t' ht' with h | h
        · rw [h] at g3 g4; simp only at g3 g4; exact absurd (g3.trans_le g4.le) (lt_irrefl _)
        · exact h
    · exact Or.inl rfl
  have hzp : ∀ row ∈ sectorTable twoPi limb bins_r bins_th n mr, ZeroOrProper row := by
    intro row hrow
    rcases hform row hrow with h | ⟨h1, _, h3, _⟩
    · exact Or.inl h
    · obtain ⟨g1, g2, _⟩ := grid_facts twoPi hc.hpi bins_th hc.bins_th_pos _ h3
      exact Or.inr ⟨h1, by linarith⟩
  have hex := excessRows_eq _ n hzp
  refine ⟨excessRows (sectorTable twoPi limb bins_r bins_th n mr) n, ?_, ?_, ?_⟩
  · intro row hrow
    rw [hex] at hrow
    exact hform row ((mem_sortFlag _ _ _).mp (List.mem_of_mem_take hrow))
  · rw [hex]
    refine List.Pairwise.sublist (List.take_sublist _ _) ?_
    rw [(sortFlag_perm _ _).pairwise_iff (fun h => Apart.symm h)]
    unfold sectorTable maskedRows
    rw [List.pairwise_flatMap]
    constructor
    · intro r hr
      rw [List.pairwise_map]
      refine List.Pairwise.imp_of_mem ?_ hT3
      intro t t' ht ht' htt
      cases hb1 : inMask limb r t
      · left; simp [mulBool]
      cases hb2 : inMask limb r t'
      · right; left; simp [mulBool]
      right; right; right; right
      simp only [mulBool, if_true, mul_one, true_and]
      left
      have hne : ∀ s : K × K, inMask limb r s = true → s ≠ (0, 0) := by
        rintro s hs rfl
        simp only [inMask, List.any_eq_true, Bool.and_eq_true, decide_eq_true_eq] at hs
        obtain ⟨p, _, ⟨_, g3⟩, g4⟩ := hs
        exact absurd (g3.trans g4) (lt_irrefl _)
      rcases htt with h | h
      · exact absurd h (hne t hb1)
      · exact grid_gap twoPi hc.hpi bins_th hc.bins_th_pos t t' ((hTgrid t ht).resolve_left (hne t hb1))
          ((hTgrid t' ht').resolve_left (hne t' hb2)) h
    · refine List.Pairwise.imp ?_ hRsep
      intro r r' hrr x hx y hy
      obtain ⟨t, _, rfl⟩ := List.mem_map.mp hx
      obtain ⟨t', _, rfl⟩ := List.mem_map.mp hy
      cases hb1 : inMask limb r t
      · left; simp [mulBool]
      cases hb2 : inMask limb r' t'
      · right; left; simp [mulBool]
      have hne : ∀ (r s : K × K), inMask limb r s = true → r ≠ (0, 0) := by
        rintro r s hs rfl
        simp only [inMask, List.any_eq_true, Bool.and_eq_true, decide_eq_true_eq] at hs
        obtain ⟨p, _, ⟨⟨g1, g2⟩, _⟩, _⟩ := hs
        exact absurd (g1.trans g2) (lt_irrefl _)
      simp only [mulBool, if_true, mul_one]
      rcases hrr with h | h | h
      · exact absurd h (hne r t hb1)
      · exact absurd h (hne r' t' hb2)
      · exact Or.inr (Or.inr (Or.inl h))
  · intro nreal mt
    unfold regionsOfLimb
    simp only
    rw [hsnap]
    rfl

/-! ## Merging across the positive axis -/

/-- Two angular ranges are apart on the circle, with at least `w` between them on both sides. -/
def CircApart (twoPi w : K) (I J : K × K) : Prop :=
  (I.2 + w ≤ J.1 ∧ J.2 + w ≤ I.1 + twoPi) ∨ (J.2 + w ≤ I.1 ∧ I.2 + w ≤ J.1 + twoPi)

theorem CircApart.symm {twoPi w : K} {I J : K × K} (h : CircApart twoPi w I J) : CircApart twoPi w J I :=
  Or.symm h

/-- Two sectors are apart: one is an empty slot, or their rings are apart, or they lie in the same ring and their angles
are apart. -/
def SectorsApart (twoPi w : K) (a b : RingSector K) : Prop :=
  a = ((0, 0), (0, 0)) ∨ b = ((0, 0), (0, 0)) ∨ a.1.2 ≤ b.1.1 ∨ b.1.2 ≤ a.1.1 ∨ (a.1 = b.1 ∧ CircApart twoPi w a.2 b.2)

theorem SectorsApart.symm {twoPi w : K} {a b : RingSector K} (h : SectorsApart twoPi w a b) : SectorsApart twoPi w b a := by
  rcases h with h | h | h | h | ⟨h, h'⟩
  · exact Or.inr (Or.inl h)
  · exact Or.inl h
  · exact Or.inr (Or.inr (Or.inr (Or.inl h)))
  · exact Or.inr (Or.inr (Or.inl h))
  · exact Or.inr (Or.inr (Or.inr (Or.inr ⟨h.symm, h'.symm⟩)))

/-- What `mergeFinal` does to one row. -/
def mergeOne (twoPi : K) (E : List (RingSector K)) (a : RingSector K) : RingSector K :=
  if anyVanish E && decide (a.2.2 = twoPi) then ((0, 0), (0, 0)) else mergedRow twoPi E a

theorem mergeFinal_perm (twoPi : K) (E : List (RingSector K)) :
    (mergeFinal twoPi E).Perm (E.map (mergeOne twoPi E)) := by
  unfold mergeFinal
  refine (sortFlag_perm _ _).trans (List.Perm.of_eq ?_)
  rw [List.zip_map_right, List.map_map]
  apply List.ext_getElem
  · simp
  · intro i h1 h2
    simp only [List.getElem_map, List.getElem_zip]
    rfl

section merging
variable (twoPi : K) (n : ℕ) (limb : List (K × K)) (bins_r bins_th : ℕ) (mr : K) (E : List (RingSector K))

theorem apart_of_ne (w : K) (h : E.Pairwise (Apart w)) (a b : RingSector K) (ha : a ∈ E) (hb : b ∈ E) (hab : a ≠ b) :
    Apart w a b := by
  have hpw : E.Pairwise (fun x y : RingSector K => x ≠ y → Apart w x y) :=
    List.Pairwise.imp (fun {a b} h (_ : a ≠ b) => h) h
  have : Std.Symm (fun x y : RingSector K => x ≠ y → Apart w x y) := ⟨fun x y h hne => (h hne.symm).symm⟩
  exact List.Pairwise.forall_of_forall (R := fun x y : RingSector K => x ≠ y → Apart w x y)
    (fun x _ h => absurd rfl h) hpw ha hb hab

variable {twoPi n limb bins_r bins_th mr E}

theorem rowForm_ne (a : RingSector K) (h : RowForm twoPi limb bins_r bins_th n mr a) (hne : a ≠ ((0, 0), (0, 0))) :
    0 < a.1.2 ∧ a.1.1 < a.1.2 ∧ OnGrid twoPi bins_th a.2 := by
  rcases h with h | ⟨h1, _, h3, _, p, _, g1, g2, _⟩
  · exact absurd h hne
  · exact ⟨lt_trans (by positivity) h1, g1.trans g2, h3⟩

/-- Two rows of the same ring: one empty bin between them. -/
theorem same_ring (hE : ∀ row ∈ E, RowForm twoPi limb bins_r bins_th n mr row)
    (hA : E.Pairwise (Apart (twoPi / bins_th))) (a b : RingSector K) (ha : a ∈ E) (hb' : b ∈ E)
    (ha0 : a ≠ ((0, 0), (0, 0))) (hab : a ≠ b) (hr : a.1 = b.1) :
    a.2.2 + twoPi / bins_th ≤ b.2.1 ∨ b.2.2 + twoPi / bins_th ≤ a.2.1 := by
  obtain ⟨g1, g2, _⟩ := rowForm_ne a (hE a ha) ha0
  rcases apart_of_ne E _ hA a b ha hb' hab with h | h | h | h | ⟨_, h⟩
  · exact absurd h ha0
  · rw [hr, h] at g1; exact absurd g1 (lt_irrefl _)
  · rw [← hr] at h; linarith
  · rw [← hr] at h; linarith
  · exact h

/-- The three outcomes of merging for a non-empty row. -/
theorem mergedRow_cases (hpi : 0 < twoPi) (hb : 0 < bins_th) (hE : ∀ row ∈ E, RowForm twoPi limb bins_r bins_th n mr row)
    (hA : E.Pairwise (Apart (twoPi / bins_th))) (a : RingSector K) :
    (mergedRow twoPi E a = a ∧ ∀ c ∈ E, c ≠ a → c.1 = a.1 → a.2.1 = 0 → c.2.2 ≠ twoPi) ∨
    (a.2.1 = 0 ∧ ∃ c ∈ E, c ≠ a ∧ c.1 = a.1 ∧ c.2.2 = twoPi ∧
      mergedRow twoPi E a = (a.1, (c.2.1 - twoPi, a.2.2))) := by
  have hbK : (0 : K) < bins_th := by exact_mod_cast hb
  have hw : 0 < twoPi / bins_th := div_pos hpi hbK
  by_cases hex : a.2.1 = 0 ∧ ∃ c ∈ E, c ≠ a ∧ c.1 = a.1 ∧ c.2.2 = twoPi
  · right
    obtain ⟨h0, c, hc, hca, hc1, hc2⟩ := hex
    refine ⟨h0, c, hc, hca, hc1, hc2, ?_⟩
    have hnz : ∀ b ∈ E, b.2.2 = twoPi → b ≠ ((0, 0), (0, 0)) := by
      rintro b _ h rfl
      exact hpi.ne h
    have hcnt : E.countP (fun b => decide (a.2.1 = 0) && sameR a b && decide (b.2.2 = twoPi)) ≤ 1 := by
      apply countP_le_one_of_pairwise
      refine List.Pairwise.imp_of_mem ?_ hA
      rintro x y hx hy hxy ⟨px, py⟩
      simp only [Bool.and_eq_true, sameR, decide_eq_true_eq] at px py
      have hx1 : x.1 = a.1 := px.1.2.1.symm
      have hy1 : y.1 = a.1 := py.1.2.1.symm
      obtain ⟨g1, g2, g3⟩ := rowForm_ne x (hE x hx) (hnz x hx px.2)
      obtain ⟨k1, k2, k3⟩ := rowForm_ne y (hE y hy) (hnz y hy py.2)
      obtain ⟨_, f1, _⟩ := grid_facts twoPi hpi bins_th hb _ g3
      obtain ⟨_, f2, _⟩ := grid_facts twoPi hpi bins_th hb _ k3
      have e1 := px.2
      have e2 := py.2
      rcases hxy with h | h | h | h | ⟨_, h | h⟩
      · exact hnz x hx px.2 h
      · exact hnz y hy py.2 h
      · rw [hx1] at h g2; rw [hy1] at h; linarith
      · rw [hy1] at h k2; rw [hx1] at h; linarith
      · linarith
      · linarith
    have hs := sum_single E (fun b : RingSector K => b.2.1 - twoPi)
      (fun b => decide (a.2.1 = 0) && sameR a b && decide (b.2.2 = twoPi)) c hc
      (by simp [h0, sameR, hc1, hca.symm, hc2]) hcnt
    obtain ⟨_, _, g3⟩ := rowForm_ne c (hE c hc) (hnz c hc hc2)
    obtain ⟨_, f1, _⟩ := grid_facts twoPi hpi bins_th hb _ g3
    have hne : c.2.1 - twoPi ≠ 0 := by
      have : c.2.1 - twoPi < 0 := by linarith
      exact this.ne
    simp only [mergedRow]
    rw [hs, if_neg hne]
  · left
    push Not at hex
    refine ⟨?_, fun c hc hca hc1 h0 => hex h0 c hc hca hc1⟩
    have h0 : (E.map fun b : RingSector K => if decide (a.2.1 = 0) && sameR a b && decide (b.2.2 = twoPi) then
        b.2.1 - twoPi else 0).sum = 0 := by
      apply List.sum_eq_zero
      intro y hy
      obtain ⟨b, hb', rfl⟩ := List.mem_map.mp hy
      rw [if_neg]
      simp only [Bool.and_eq_true, sameR, decide_eq_true_eq, Bool.not_eq_true', decide_eq_false_iff_not, not_and]
      rintro ⟨g0, g1, g2⟩
      exact hex g0 b hb' (fun h => g2 h.symm) g1.symm
    simp only [mergedRow, h0, if_true]

theorem mergeOne_zero (hE : ∀ row ∈ E, RowForm twoPi limb bins_r bins_th n mr row) :
    mergeOne twoPi E ((0, 0), (0, 0)) = ((0, 0), (0, 0)) := by
  unfold mergeOne
  split_ifs
  · rfl
  · have h0 : (E.map fun b : RingSector K => if decide ((((0, 0), (0, 0)) : RingSector K).2.1 = 0) &&
        sameR ((0, 0), (0, 0)) b && decide (b.2.2 = twoPi) then b.2.1 - twoPi else 0).sum = 0 := by
      apply List.sum_eq_zero
      intro y hy
      obtain ⟨b, hb', rfl⟩ := List.mem_map.mp hy
      rw [if_neg]
      simp only [Bool.and_eq_true, sameR, decide_eq_true_eq, Bool.not_eq_true', decide_eq_false_iff_not, not_and]
      rintro ⟨_, g1, g2⟩
      exfalso
      have hbne : b ≠ ((0, 0), (0, 0)) := fun h => g2 h.symm
      have := (rowForm_ne b (hE b hb') hbne).1
      rw [← g1] at this
      exact absurd this (lt_irrefl _)
    simp only [mergedRow]
    rw [if_pos (by simpa using h0)]

/-- A row after merging: empty, unchanged, or joined to its partner across the axis. -/
def MergeForm (twoPi : K) (E : List (RingSector K)) (a m : RingSector K) : Prop :=
  m = ((0, 0), (0, 0)) ∨ (a ≠ ((0, 0), (0, 0)) ∧ ((m = a ∧ ∀ c ∈ E, c ≠ a → c.1 = a.1 → a.2.1 = 0 → c.2.2 ≠ twoPi) ∨
    (a.2.1 = 0 ∧ ∃ c ∈ E, c ≠ a ∧ c.1 = a.1 ∧ c.2.2 = twoPi ∧ m = (a.1, (c.2.1 - twoPi, a.2.2)))))

theorem mergeOne_form (hpi : 0 < twoPi) (hb : 0 < bins_th) (hE : ∀ row ∈ E, RowForm twoPi limb bins_r bins_th n mr row)
    (hA : E.Pairwise (Apart (twoPi / bins_th))) (a : RingSector K) :
    MergeForm twoPi E a (mergeOne twoPi E a) := by
  by_cases ha0 : a = ((0, 0), (0, 0))
  · left; rw [ha0]; exact mergeOne_zero hE
  · unfold mergeOne
    split_ifs
    · exact Or.inl rfl
    · exact Or.inr ⟨ha0, mergedRow_cases hpi hb hE hA a⟩

theorem merged_apart_aux (hpi : 0 < twoPi) (hb : 0 < bins_th)
    (hE : ∀ row ∈ E, RowForm twoPi limb bins_r bins_th n mr row) (hA : E.Pairwise (Apart (twoPi / bins_th)))
    (a b : RingSector K) (ha : a ∈ E) (hb' : b ∈ E) (ha0 : a ≠ ((0, 0), (0, 0))) (hb0 : b ≠ ((0, 0), (0, 0)))
    (hr : a.1 = b.1) (h : a.2.2 + twoPi / bins_th ≤ b.2.1) :
    SectorsApart twoPi (twoPi / bins_th) (mergeOne twoPi E a) (mergeOne twoPi E b) := by
  have hbK : (0 : K) < bins_th := by exact_mod_cast hb
  have hw : 0 < twoPi / bins_th := div_pos hpi hbK
  obtain ⟨a1, a2, a3⟩ := rowForm_ne a (hE a ha) ha0
  obtain ⟨b1, b2, b3⟩ := rowForm_ne b (hE b hb') hb0
  obtain ⟨fa1, fa2, fa3, fa4, fa5⟩ := grid_facts twoPi hpi bins_th hb _ a3
  obtain ⟨fb1, fb2, fb3, fb4, fb5⟩ := grid_facts twoPi hpi bins_th hb _ b3
  have hab : b ≠ a := by rintro rfl; linarith
  by_cases hvb : (anyVanish E && decide (b.2.2 = twoPi)) = true
  · right; left; unfold mergeOne; rw [if_pos hvb]
  have hmb : mergeOne twoPi E b = b := by
    rcases mergedRow_cases hpi hb hE hA b with ⟨h1, _⟩ | ⟨h1, _⟩
    · unfold mergeOne; rw [if_neg hvb, h1]
    · exfalso; linarith
  rcases mergeOne_form hpi hb hE hA a with h0 | ⟨_, ⟨h1, h2⟩ | ⟨h1, c, hc, hca, hc1, hc2, h2⟩⟩
  · exact Or.inl h0
  · rw [h1, hmb]
    refine Or.inr (Or.inr (Or.inr (Or.inr ⟨hr, Or.inl ⟨h, ?_⟩⟩)))
    rcases fb5 with g | g
    · rcases fa4 with g' | g'
      · exact absurd g (h2 b hb' hab hr.symm g')
      · linarith
    · linarith
  · rw [h2, hmb]
    have hv : anyVanish E = true := by
      simp only [anyVanish, List.any_eq_true, Bool.and_eq_true, decide_eq_true_eq]
      exact ⟨a, ha, ⟨c, hc, by simp [sameR, hc1, hca.symm]⟩, h1⟩
    have hb2 : b.2.2 ≠ twoPi := by
      intro hh
      exact hvb (by simp [hv, hh])
    have hbc : b ≠ c := by rintro rfl; exact hb2 hc2
    have hcut := same_ring hE hA b c hb' hc hb0 hbc (by rw [hc1, hr])
    refine Or.inr (Or.inr (Or.inr (Or.inr ⟨hr, Or.inl ⟨h, ?_⟩⟩)))
    rcases hcut with g | g
    · simp only; linarith
    · exfalso; linarith

theorem merged_apart (hpi : 0 < twoPi) (hb : 0 < bins_th)
    (hE : ∀ row ∈ E, RowForm twoPi limb bins_r bins_th n mr row) (hA : E.Pairwise (Apart (twoPi / bins_th))) :
    (mergeFinal twoPi E).Pairwise (SectorsApart twoPi (twoPi / bins_th)) := by
  rw [(mergeFinal_perm twoPi E).pairwise_iff (fun h => SectorsApart.symm h), List.pairwise_map]
  refine List.Pairwise.imp_of_mem ?_ hA
  intro a b ha hb' hab
  by_cases ha0 : a = ((0, 0), (0, 0))
  · left; rw [ha0]; exact mergeOne_zero hE
  by_cases hb0 : b = ((0, 0), (0, 0))
  · right; left; rw [hb0]; exact mergeOne_zero hE
  have hfst : ∀ x, mergeOne twoPi E x = ((0, 0), (0, 0)) ∨ (mergeOne twoPi E x).1 = x.1 := by
    intro x
    rcases mergeOne_form hpi hb hE hA x with h | ⟨_, ⟨h, _⟩ | ⟨_, c, _, _, _, _, h⟩⟩
    · exact Or.inl h
    · right; rw [h]
    · right; rw [h]
  rcases hab with h | h | h | h | ⟨h, h' | h'⟩
  · exact absurd h ha0
  · exact absurd h hb0
  · rcases hfst a with g | g
    · exact Or.inl g
    rcases hfst b with g' | g'
    · exact Or.inr (Or.inl g')
    right; right; left; rw [g, g']; exact h
  · rcases hfst a with g | g
    · exact Or.inl g
    rcases hfst b with g' | g'
    · exact Or.inr (Or.inl g')
    right; right; right; left; rw [g, g']; exact h
  · exact merged_apart_aux hpi hb hE hA a b ha hb' ha0 hb0 h h'
  · exact (merged_apart_aux hpi hb hE hA b a hb' ha hb0 ha0 h.symm h').symm

end merging

end

end Microjax.Props
