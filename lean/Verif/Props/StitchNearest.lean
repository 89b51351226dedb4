import Verif.Props.SegmentMerge

/-! # Property C101: the stitching joins the nearest pair of ends that passes the test -/

set_option linter.unusedSectionVars false

namespace Microjax.Props

open Microjax.Spec Segments Jnp Utils

section

variable {K : Type*} [Field K] [LinearOrder K]

/-- which ends are joined by the four connection types (tail-head, head-tail, head-head, tail-tail), and their
distance -/
def endDistance (g : Geometry K) (s : MergeState K) (c i : ℕ) : K :=
  let seg := s.segments.getD i []
  let head := seg.getD 0 0
  let tail := seg.getD (s.tidcs.getD i 0) 0
  let activeHead := s.active.getD 0 0
  let activeTail := s.active.getD s.tidx 0
  match c with
  | 0 => g.dist activeTail head
  | 1 => g.dist activeHead tail
  | 2 => g.dist activeHead head
  | _ => g.dist activeTail tail

/-- the stitching test for connection type `c` with remaining segment `i` -/
def passes (g : Geometry K) (s : MergeState K) (c i : ℕ) : Prop :=
  g.connect s.active (s.segments.getD i []) s.tidx (s.tidcs.getD i 0) c = true

/-- the arrays are consistent: all tail indices point into their segments -/
structure WellFormed (s : MergeState K) : Prop where
  some_segment : s.segments ≠ []
  lengths : s.tidcs.length = s.segments.length
  active_tail : s.tidx < s.active.length
  tails : ∀ i < s.segments.length, s.tidcs.getD i 0 < (s.segments.getD i []).length

theorem get_eq_getD {α : Type*} (d : α) (l : List α) (i : ℕ) (h : i < l.length) : Jnp.get d l i = l.getD i d := by
  rw [Jnp.get_of_lt d l h, List.getD_eq_getElem _ _ h]

theorem distances_length (g : Geometry K) (s : MergeState K) (h : WellFormed s) :
    (distances g s).length = 4 * s.segments.length := by
  unfold distances
  simp [h.lengths]; omega

/-- the flattened distance array, entry by entry -/
theorem distances_getD (g : Geometry K) (s : MergeState K) (h : WellFormed s) (d : K) (c i : ℕ) (hc : c < 4)
    (hi : i < s.segments.length) :
    (distances g s).getD (c * s.segments.length + i) d = endDistance g s c i := by
  set m := s.segments.length with hm
  have hzl : (List.zip s.segments s.tidcs).length = m := by simp [h.lengths, hm]
  have hz : ∀ f : List (Pt K) × ℕ → K, ((List.zip s.segments s.tidcs).map f).length = m := fun f => by
    rw [List.length_map, hzl]
  have hzi : (List.zip s.segments s.tidcs)[i]'(by omega) = (s.segments.getD i [], s.tidcs.getD i 0) := by
    rw [List.getElem_zip, List.getD_eq_getElem _ _ hi, List.getD_eq_getElem _ _ (by rw [h.lengths]; exact hi)]
  have hseg : 0 < (s.segments.getD i []).length := lt_of_le_of_lt (Nat.zero_le _) (h.tails i hi)
  have hact : 0 < s.active.length := lt_of_le_of_lt (Nat.zero_le _) h.active_tail
  have e0 : Jnp.get 0 (s.segments.getD i []) 0 = (s.segments.getD i []).getD 0 0 := get_eq_getD _ _ _ hseg
  have e1 : Jnp.get 0 (s.segments.getD i []) (s.tidcs.getD i 0) = (s.segments.getD i []).getD (s.tidcs.getD i 0) 0 :=
    get_eq_getD _ _ _ (h.tails i hi)
  have e2 : Jnp.get 0 s.active 0 = s.active.getD 0 0 := get_eq_getD _ _ _ hact
  have e3 : Jnp.get 0 s.active s.tidx = s.active.getD s.tidx 0 := get_eq_getD _ _ _ h.active_tail
  have hg : ∀ f : List (Pt K) × ℕ → K, ((List.zip s.segments s.tidcs).map f).getD i d
      = f (s.segments.getD i [], s.tidcs.getD i 0) := by
    intro f
    rw [List.getD_eq_getElem _ _ (by rw [hz]; exact hi), List.getElem_map, hzi]
  unfold distances
  simp only
  match c, hc with
  | 0, _ =>
    rw [List.getD_append _ _ _ _ (by simp only [List.length_append, hz]; omega),
      List.getD_append _ _ _ _ (by simp only [List.length_append, hz]; omega),
      List.getD_append _ _ _ _ (by simp only [hz]; omega)]
    rw [show 0 * m + i = i by omega, hg]
    simp only [endDistance, e0, e3]
  | 1, _ =>
    rw [List.getD_append _ _ _ _ (by simp only [List.length_append, hz]; omega),
      List.getD_append _ _ _ _ (by simp only [List.length_append, hz]; omega),
      List.getD_append_right _ _ _ _ (by simp only [hz]; omega)]
    rw [hz, show 1 * m + i - m = i by omega, hg]
    simp only [endDistance, e1, e2]
  | 2, _ =>
    rw [List.getD_append _ _ _ _ (by simp only [List.length_append, hz]; omega),
      List.getD_append_right _ _ _ _ (by simp only [List.length_append, hz]; omega)]
    rw [List.length_append, hz, hz, show 2 * m + i - (m + m) = i by omega, hg]
    simp only [endDistance, e0, e2]
  | 3, _ =>
    rw [List.getD_append_right _ _ _ _ (by simp only [List.length_append, hz]; omega)]
    rw [List.length_append, List.length_append, hz, hz, hz, show 3 * m + i - (m + m + m) = i by omega, hg]
    simp only [endDistance, e1, e3]

variable [Inhabited K]

/-- the candidates are four different pairs, sorted by distance, and no other pair is nearer than any of them -/
theorem candidates_spec (g : Geometry K) (s : MergeState K) (h : WellFormed s) :
    ∃ o : ℕ → ℕ, (candidates g s) = [0, 1, 2, 3].map (fun k => (o k / s.segments.length, o k % s.segments.length)) ∧
      (∀ k < 4, o k < 4 * s.segments.length) ∧
      (∀ k < 4, ∀ l < 4, o k = o l → k = l) ∧
      (∀ k l, k < l → l < 4 → endDistance g s (o k / s.segments.length) (o k % s.segments.length)
        ≤ endDistance g s (o l / s.segments.length) (o l % s.segments.length)) ∧
      (∀ c < 4, ∀ i < s.segments.length, (∃ k < 4, o k = c * s.segments.length + i) ∨
        ∀ k < 4, endDistance g s (o k / s.segments.length) (o k % s.segments.length) ≤ endDistance g s c i) := by
  set m := s.segments.length with hm
  have hm0 : 0 < m := List.length_pos_iff.2 h.some_segment
  have hdl := distances_length g s h
  rw [← hm] at hdl
  have hol : (argsort (distances g s)).length = 4 * m := by rw [Jnp.argsort_length, hdl]
  have hlt : ∀ k, k < 4 * m → (argsort (distances g s)).getD k 0 < 4 * m := by
    intro k hk
    rw [List.getD_eq_getElem _ _ (by omega), ← hdl]
    exact Jnp.mem_argsort.1 (List.getElem_mem _)
  have hdist : ∀ j < 4 * m, (distances g s).getD j default = endDistance g s (j / m) (j % m) := by
    intro j hj
    have hq : j / m < 4 := Nat.div_lt_of_lt_mul (by omega)
    have := distances_getD g s h default (j / m) (j % m) hq (Nat.mod_lt _ hm0)
    rw [← hm, mul_comm (j / m) m, Nat.div_add_mod] at this
    exact this
  have hsorted : ∀ k l, k < l → l < 4 * m →
      endDistance g s ((argsort (distances g s)).getD k 0 / m) ((argsort (distances g s)).getD k 0 % m)
      ≤ endDistance g s ((argsort (distances g s)).getD l 0 / m) ((argsort (distances g s)).getD l 0 % m) := by
    intro k l hkl hl
    have hp := Jnp.argsortKey_pairwise (distances g s).length (fun i => (distances g s).getD i default)
    have := List.pairwise_iff_getElem.1 hp k l (by have := hol; unfold argsort at this; omega)
      (by have := hol; unfold argsort at this; omega) hkl
    rw [← hdist _ (hlt k (by omega)), ← hdist _ (hlt l hl), List.getD_eq_getElem _ _ (by omega : k < _),
      List.getD_eq_getElem _ _ (by omega : l < _)]
    unfold keyLe at this
    rcases this with h | h
    · exact h.le
    · exact h.1.le
  refine ⟨fun k => (argsort (distances g s)).getD k 0, ?_, fun k hk => hlt k (by omega), ?_, ?_, ?_⟩
  · unfold candidates
    simp only
    apply List.map_congr_left
    intro k hk
    have hk4 : k < 4 := by fin_cases hk <;> norm_num
    rw [get_eq_getD _ _ _ (by omega)]
  · intro k hk l hl he
    have he' : (argsort (distances g s)).getD k 0 = (argsort (distances g s)).getD l 0 := he
    rw [List.getD_eq_getElem _ _ (by omega : k < _), List.getD_eq_getElem _ _ (by omega : l < _)] at he'
    exact (Jnp.argsort_nodup (distances g s)).getElem_inj_iff.1 he'
  · intro k l hkl hl
    exact hsorted k l hkl (by omega)
  · intro c hc i hi
    have hj : c * m + i < 4 * m := by nlinarith
    have hjm : c * m + i ∈ argsort (distances g s) := Jnp.mem_argsort.2 (by rw [hdl]; exact hj)
    obtain ⟨l, hl, he⟩ := List.getElem_of_mem hjm
    by_cases hl4 : l < 4
    · left; refine ⟨l, hl4, ?_⟩
      show (argsort (distances g s)).getD l 0 = _
      rw [List.getD_eq_getElem _ _ hl, he]
    · right
      intro k hk
      have := hsorted k l (by omega) (by omega)
      rw [List.getD_eq_getElem _ _ hl, he] at this
      have e1 : (c * m + i) / m = c := by
        rw [mul_comm, Nat.mul_add_div hm0, Nat.div_eq_of_lt hi, Nat.add_zero]
      have e2 : (c * m + i) % m = i := by
        rw [mul_comm, Nat.mul_add_mod, Nat.mod_eq_of_lt hi]
      rw [e1, e2] at this
      exact this

/-- C101: one stitching step, for every state, distance and test.  Either the active segment is merged with segment `i`
by connection type `c` where `(c, i)` passes the test and no pair of ends that passes it, among all segments and connection
types, is nearer; segment `i` is emptied, all others are untouched.  Or the state does not change, and then each
pair that would pass the test has at least four pairs in front of it, no further apart, that fail. -/
theorem C101_nearest (g : Geometry K) (s : MergeState K) (h : WellFormed s) :
    (mergeWithAnother g s = s ∧
      ∀ c < 4, ∀ i < s.segments.length, passes g s c i → ∃ J : Finset (ℕ × ℕ), J.card = 4 ∧
        ∀ p ∈ J, p.1 < 4 ∧ p.2 < s.segments.length ∧ ¬ passes g s p.1 p.2 ∧
          endDistance g s p.1 p.2 ≤ endDistance g s c i) ∨
    ∃ c i, c < 4 ∧ i < s.segments.length ∧ passes g s c i ∧
      (∀ c' < 4, ∀ i' < s.segments.length, passes g s c' i' → endDistance g s c i ≤ endDistance g s c' i') ∧
      (mergeWithAnother g s).active
        = (mergeTwoSegments s.active (s.segments.getD i []) s.tidx (s.tidcs.getD i 0) c).1 ∧
      (mergeWithAnother g s).tidx
        = (mergeTwoSegments s.active (s.segments.getD i []) s.tidx (s.tidcs.getD i 0) c).2 ∧
      (mergeWithAnother g s).tidcs = s.tidcs ∧
      (mergeWithAnother g s).segments
        = s.segments.set i (List.replicate (s.segments.getD i []).length 0) := by
  obtain ⟨o, hcand, hlt, hinj, hsort, hother⟩ := candidates_spec g s h
  set m := s.segments.length with hm
  have hm0 : 0 < m := List.length_pos_iff.2 h.some_segment
  have hq : ∀ k < 4, o k / m < 4 ∧ o k % m < m := fun k hk =>
    ⟨Nat.div_lt_of_lt_mul (by have := hlt k hk; omega), Nat.mod_lt _ hm0⟩
  have hsegget : ∀ i < m, Jnp.get [] s.segments i = s.segments.getD i [] := fun i hi => get_eq_getD _ _ _ hi
  have htget : ∀ i < m, Jnp.get 0 s.tidcs i = s.tidcs.getD i 0 := fun i hi =>
    get_eq_getD _ _ _ (by rw [h.lengths]; exact hi)
  set ok : ℕ → Bool := fun k => g.connect s.active (s.segments.getD (o k % m) []) s.tidx
    (s.tidcs.getD (o k % m) 0) (o k / m) with hok
  have hsucc : (candidates g s).map (fun c => g.connect s.active (Jnp.get [] s.segments c.2) s.tidx
      (Jnp.get 0 s.tidcs c.2) c.1) = [ok 0, ok 1, ok 2, ok 3] := by
    rw [hcand]
    simp only [List.map_cons, List.map_nil]
    rw [hsegget _ (hq 0 (by norm_num)).2, hsegget _ (hq 1 (by norm_num)).2, hsegget _ (hq 2 (by norm_num)).2,
      hsegget _ (hq 3 (by norm_num)).2, htget _ (hq 0 (by norm_num)).2, htget _ (hq 1 (by norm_num)).2,
      htget _ (hq 2 (by norm_num)).2, htget _ (hq 3 (by norm_num)).2]
  by_cases hany : ∃ k < 4, ok k = true
  · right
    classical
    have hfind := Nat.find_spec hany
    set k := Nat.find hany with hk
    have hmin : ∀ l < k, ok l = false := by
      intro l hl
      have := Nat.find_min hany hl
      by_contra hc
      exact this ⟨by omega, by simpa using hc⟩
    obtain ⟨hk4, hokk⟩ := hfind
    have harg : argmaxBool [ok 0, ok 1, ok 2, ok 3] = k := by
      have : [ok 0, ok 1, ok 2, ok 3].findIdx id = k := by
        interval_cases k
        · simp [List.findIdx_cons, hokk]
        · simp [List.findIdx_cons, hokk, hmin 0]
        · simp [List.findIdx_cons, hokk, hmin 0, hmin 1]
        · simp [List.findIdx_cons, hokk, hmin 0, hmin 1, hmin 2]
      unfold argmaxBool
      rw [this, if_pos (by simpa using hk4)]
    have hbest : Jnp.get (0, 0) (candidates g s) k = (o k / m, o k % m) := by
      rw [hcand]
      interval_cases k <;> rfl
    have hmerge : mergeWithAnother g s
        = { active := (mergeTwoSegments s.active (s.segments.getD (o k % m) []) s.tidx
              (s.tidcs.getD (o k % m) 0) (o k / m)).1,
            tidx := (mergeTwoSegments s.active (s.segments.getD (o k % m) []) s.tidx
              (s.tidcs.getD (o k % m) 0) (o k / m)).2,
            segments := s.segments.set (o k % m) ((s.segments.getD (o k % m) []).map fun _ => 0),
            tidcs := s.tidcs } := by
      unfold mergeWithAnother
      simp only
      rw [hsucc, if_pos, harg, hbest]
      · simp only
        rw [hsegget _ (hq k hk4).2, htget _ (hq k hk4).2]
      · simp only [List.any_cons, List.any_nil, id]
        interval_cases k <;> simp [hokk]
    refine ⟨o k / m, o k % m, (hq k hk4).1, (hq k hk4).2, hokk, ?_, by rw [hmerge], by rw [hmerge], by rw [hmerge],
      by rw [hmerge]; simp⟩
    intro c' hc' i' hi' hp
    rcases hother c' hc' i' hi' with ⟨l, hl, hl'⟩ | hall
    · have e1 : o l / m = c' := by
        rw [hl', mul_comm, Nat.mul_add_div hm0, Nat.div_eq_of_lt hi', Nat.add_zero]
      have e2 : o l % m = i' := by
        rw [hl', mul_comm, Nat.mul_add_mod, Nat.mod_eq_of_lt hi']
      have hokl : ok l = true := by rw [hok]; simp only; rw [e1, e2]; exact hp
      have hkl : k ≤ l := by
        by_contra hc
        rw [hmin l (by omega)] at hokl
        exact absurd hokl (by decide)
      rcases eq_or_lt_of_le hkl with he | hlt'
      · rw [he, e1, e2]
      · have := hsort k l hlt' hl
        rwa [e1, e2] at this
    · exact hall k hk4
  · left
    push Not at hany
    refine ⟨?_, ?_⟩
    · unfold mergeWithAnother
      simp only
      rw [hsucc, if_neg]
      simp [hany 0 (by norm_num), hany 1 (by norm_num), hany 2 (by norm_num), hany 3 (by norm_num)]
    · intro c hc i hi hp
      refine ⟨(Finset.range 4).image fun k => (o k / m, o k % m), ?_, ?_⟩
      · rw [Finset.card_image_of_injOn, Finset.card_range]
        intro k hk l hl he
        simp only [Finset.coe_range, Set.mem_Iio, Prod.mk.injEq] at hk hl he
        apply hinj k hk l hl
        rw [← Nat.div_add_mod (o k) m, ← Nat.div_add_mod (o l) m, he.1, he.2]
      · intro p hpm
        rw [Finset.mem_image] at hpm
        obtain ⟨k, hk, rfl⟩ := hpm
        rw [Finset.mem_range] at hk
        refine ⟨(hq k hk).1, (hq k hk).2, hany k hk, ?_⟩
        rcases hother c hc i hi with ⟨l, hl, hl'⟩ | hall
        · exfalso
          apply hany l hl
          have e1 : o l / m = c := by
            rw [hl', mul_comm, Nat.mul_add_div hm0, Nat.div_eq_of_lt hi, Nat.add_zero]
          have e2 : o l % m = i := by
            rw [hl', mul_comm, Nat.mul_add_mod, Nat.mod_eq_of_lt hi]
          rw [hok]; simp only; rw [e1, e2]; exact hp
        · exact hall k hk

/-- C101, completeness, the part that holds: if a pair passes the test and no four failing pairs are at most as far
apart, the step merges the active segment with the nearest passing one. -/
theorem C101_complete_partial (g : Geometry K) (s : MergeState K) (h : WellFormed s) (c i : ℕ) (hc : c < 4)
    (hi : i < s.segments.length) (hp : passes g s c i)
    (hrank : ∀ J : Finset (ℕ × ℕ), (∀ p ∈ J, p.1 < 4 ∧ p.2 < s.segments.length ∧ ¬ passes g s p.1 p.2 ∧
      endDistance g s p.1 p.2 ≤ endDistance g s c i) → J.card < 4) :
    ∃ c' i', c' < 4 ∧ i' < s.segments.length ∧ passes g s c' i' ∧
      endDistance g s c' i' ≤ endDistance g s c i ∧
      (mergeWithAnother g s).active
        = (mergeTwoSegments s.active (s.segments.getD i' []) s.tidx (s.tidcs.getD i' 0) c').1 := by
  rcases C101_nearest g s h with ⟨_, h2⟩ | ⟨c', i', h1, h2, h3, h4, h5, _⟩
  · obtain ⟨J, hJ, hJ'⟩ := h2 c hc i hi hp
    have := hrank J hJ'
    omega
  · exact ⟨c', i', h1, h2, h3, h4 c hc i hi hp, h5⟩

end

/-- an empty slot is at the origin, whatever the connection type -/
theorem endDistance_empty (s : MergeState ℝ) (L i : ℕ) (he : s.segments.getD i [] = List.replicate L 0) :
    endDistance geometry s 0 i = ‖(s.active.getD s.tidx 0).z‖ ∧
    endDistance geometry s 3 i = ‖(s.active.getD s.tidx 0).z‖ := by
  have hz : ∀ j : ℕ, (List.replicate L (0 : Pt ℝ)).getD j 0 = 0 := by
    intro j
    rw [List.getD_eq_getElem?_getD, List.getElem?_replicate]
    split_ifs <;> rfl
  simp only [endDistance, he, hz, geometry, Pt.z_zero, sub_zero, and_self]

/-- C101, completeness, violated: the empty slots of the segment array take part in the search as if they were
segments at the coordinate origin.  As soon as two slots are empty and the tail of the active segment is nearer to the
origin than any end of the active segment is to any end of a real one, the four candidates are empty slots: nothing is
merged, although the right partner may pass the test. -/
theorem C101_complete_violated (L : ℕ) (s : MergeState ℝ) (h : WellFormed s) (a : List (Pt ℝ))
    (ha : Holds L s.active a) (hlen : 2 ≤ a.length) (htail : s.tidx = a.length - 1)
    (hoff : ∀ q ∈ a, 1 / 10 ^ 5 ≤ |q.x|) (i1 i2 : ℕ) (hne : i1 ≠ i2) (hi1 : i1 < s.segments.length)
    (hi2 : i2 < s.segments.length) (he1 : s.segments.getD i1 [] = List.replicate L 0)
    (he2 : s.segments.getD i2 [] = List.replicate L 0)
    (hfar : ∀ i < s.segments.length, s.segments.getD i [] = List.replicate L 0 ∨
      ∀ c < 4, ‖(s.active.getD s.tidx 0).z‖ < endDistance geometry s c i) :
    mergeWithAnother geometry s = s := by
  set r := ‖(s.active.getD s.tidx 0).z‖ with hr
  have hnull : ∀ i, s.segments.getD i [] = List.replicate L 0 → ∀ c, ¬ passes geometry s c i := by
    intro i hi c hp
    unfold passes at hp
    have := (sound_geometry L).empty s.active (s.segments.getD i []) a (s.tidcs.getD i 0) c ha hlen hoff
      (by rw [hi, holds_nil])
    rw [htail, this] at hp
    exact absurd hp (by decide)
  obtain ⟨o, hcand, hlt, hinj, hsort, hother⟩ := candidates_spec geometry s h
  set m := s.segments.length with hm
  have hm0 : 0 < m := List.length_pos_iff.2 h.some_segment
  have hq : ∀ k < 4, o k / m < 4 ∧ o k % m < m := fun k hk =>
    ⟨Nat.div_lt_of_lt_mul (by have := hlt k hk; omega), Nat.mod_lt _ hm0⟩
  -- every candidate is an empty slot
  have hall : ∀ k < 4, s.segments.getD (o k % m) [] = List.replicate L 0 := by
    intro k hk
    rcases hfar _ (hq k hk).2 with hz | hz
    · exact hz
    · exfalso
      have hbig := hz _ (hq k hk).1
      have hmem : ∀ c i, c < 4 → i < m → endDistance geometry s c i = r →
          ∃ l < 4, l ≠ k ∧ o l = c * m + i := by
        intro c i hc hi hd
        rcases hother c hc i hi with ⟨l, hl, hl'⟩ | hh
        · refine ⟨l, hl, ?_, hl'⟩
          rintro rfl
          have e1 : o l / m = c := by
            rw [hl', mul_comm, Nat.mul_add_div hm0, Nat.div_eq_of_lt hi, Nat.add_zero]
          have e2 : o l % m = i := by
            rw [hl', mul_comm, Nat.mul_add_mod, Nat.mod_eq_of_lt hi]
          rw [e1, e2, hd] at hbig
          exact lt_irrefl _ hbig
        · have := hh k hk
          rw [hd] at this
          linarith
      obtain ⟨l1, hl1, hn1, ho1⟩ := hmem 0 i1 (by norm_num) hi1 (endDistance_empty s L i1 he1).1
      obtain ⟨l2, hl2, hn2, ho2⟩ := hmem 0 i2 (by norm_num) hi2 (endDistance_empty s L i2 he2).1
      obtain ⟨l3, hl3, hn3, ho3⟩ := hmem 3 i1 (by norm_num) hi1 (endDistance_empty s L i1 he1).2
      obtain ⟨l4, hl4, hn4, ho4⟩ := hmem 3 i2 (by norm_num) hi2 (endDistance_empty s L i2 he2).2
      have d12 : l1 ≠ l2 := by rintro rfl; omega
      have d13 : l1 ≠ l3 := by rintro rfl; omega
      have d14 : l1 ≠ l4 := by rintro rfl; omega
      have d23 : l2 ≠ l3 := by rintro rfl; omega
      have d24 : l2 ≠ l4 := by rintro rfl; omega
      have d34 : l3 ≠ l4 := by rintro rfl; omega
      omega
  have hsegget : ∀ i < m, Jnp.get [] s.segments i = s.segments.getD i [] := fun i hi => get_eq_getD _ _ _ hi
  have htget : ∀ i < m, Jnp.get 0 s.tidcs i = s.tidcs.getD i 0 := fun i hi =>
    get_eq_getD _ _ _ (by rw [h.lengths]; exact hi)
  unfold mergeWithAnother
  simp only
  rw [if_neg]
  rw [hcand]
  simp only [List.map_map, List.any_map, List.any_eq_true, not_exists, not_and, Function.comp_def, id]
  intro k hk
  have hk4 : k < 4 := by fin_cases hk <;> norm_num
  rw [hsegget _ (hq k hk4).2, htget _ (hq k hk4).2]
  exact hnull _ (hall k hk4) _

/-- A track that crosses the origin, cut between `x = -0.03` and `x = 0.03`, with two empty slots: the two halves pass
the test (they point at each other, 0.06 apart, with equal parity), but they are not joined. -/
example :
    let s : MergeState ℝ :=
      ⟨[⟨-1/5, 0, 1⟩, ⟨-1/10, 0, 1⟩, ⟨-3/100, 0, 1⟩, 0, 0, 0, 0, 0], 2,
        [[⟨3/100, 0, 1⟩, ⟨1/10, 0, 1⟩, ⟨1/5, 0, 1⟩, 0, 0, 0, 0, 0], List.replicate 8 0, List.replicate 8 0], [2, 0, 0]⟩
    passes geometry s 0 0 ∧ mergeWithAnother geometry s = s := by
  intro s
  have hn : ∀ x : ℝ, ‖(⟨x, 0⟩ : ℂ)‖ = |x| := fun x => by
    rw [show (⟨x, 0⟩ : ℂ) = ((x : ℝ) : ℂ) from rfl, Complex.norm_real, Real.norm_eq_abs]
  constructor
  · show connectionCondition _ _ _ _ _ = true
    have ht : segmentTail s.active 2 = ((⟨-1/10, 0⟩ : ℂ), (⟨-3/100, 0⟩ : ℂ)) := by
      unfold segmentTail
      rw [if_pos]
      · rfl
      · left
        show 1 / 10 ^ 5 < ‖(⟨-3/100, 0⟩ : ℂ) - ⟨-1/10, 0⟩‖
        rw [show (⟨-3/100, 0⟩ : ℂ) - ⟨-1/10, 0⟩ = ⟨-3/100 - -1/10, 0 - 0⟩ from rfl, sub_zero, hn]
        norm_num [abs_of_pos]
    have hh : segmentHead [⟨3/100, 0, 1⟩, ⟨1/10, 0, 1⟩, ⟨1/5, 0, 1⟩, 0, 0, 0, 0, 0] 2
        = ((⟨1/10, 0⟩ : ℂ), (⟨3/100, 0⟩ : ℂ)) := by
      unfold segmentHead
      rw [if_pos]
      · rfl
      · left
        show 1 / 10 ^ 5 < ‖(⟨1/10, 0⟩ : ℂ) - ⟨3/100, 0⟩‖
        rw [show (⟨1/10, 0⟩ : ℂ) - ⟨3/100, 0⟩ = ⟨1/10 - 3/100, 0 - 0⟩ from rfl, sub_zero, hn]
        norm_num [abs_of_pos]
    have s1 : (⟨-3/100, 0⟩ : ℂ) - ⟨3/100, 0⟩ = ⟨-3/50, 0⟩ := by
      apply Complex.ext <;> simp; norm_num
    have s2 : (⟨-3/100, 0⟩ : ℂ) - ⟨-1/10, 0⟩ = ⟨7/100, 0⟩ := by
      apply Complex.ext <;> simp; norm_num
    have s3 : (⟨3/100, 0⟩ : ℂ) - ⟨1/10, 0⟩ = ⟨-7/100, 0⟩ := by
      apply Complex.ext <;> simp; norm_num
    have s4 : (⟨-1/10, 0⟩ : ℂ) - ⟨1/10, 0⟩ = ⟨-1/5, 0⟩ := by
      apply Complex.ext <;> simp; norm_num
    have v1 : (⟨7/100, 0⟩ : ℂ) / ((|7/100| : ℝ) : ℂ) = 1 := by
      rw [abs_of_pos (by norm_num), show (⟨7/100, 0⟩ : ℂ) = ((7/100 : ℝ) : ℂ) from rfl]
      exact div_self (by rw [Complex.ofReal_ne_zero]; norm_num)
    have v2 : (⟨-7/100, 0⟩ : ℂ) / ((|-7/100| : ℝ) : ℂ) = -1 := by
      rw [abs_of_neg (by norm_num), show (⟨-7/100, 0⟩ : ℂ) = ((-7/100 : ℝ) : ℂ) from rfl, Complex.ofReal_neg, div_neg,
        div_self (by rw [Complex.ofReal_ne_zero]; norm_num)]
    unfold connectionCondition
    simp only
    rw [show s.tidx = 2 from rfl, show s.tidcs.getD 0 0 = 2 from rfl,
      show s.segments.getD 0 [] = [⟨3/100, 0, 1⟩, ⟨1/10, 0, 1⟩, ⟨1/5, 0, 1⟩, 0, 0, 0, 0, 0] from rfl]
    simp only [true_or, if_true, ht, hh, s1, s2, s3, s4, hn, v1, v2]
    have p1 : (Jnp.get 0 s.active 0).p = 1 := rfl
    have p2 : (Jnp.get (0 : Pt ℝ) [⟨3/100, 0, 1⟩, ⟨1/10, 0, 1⟩, ⟨1/5, 0, 1⟩, 0, 0, 0, 0, 0] 0).p = 1 := rfl
    rw [p1, p2]
    have hpi : Real.pi * 180 / Real.pi = 180 := by field_simp
    simp [Real.arccos_neg_one, hpi]
    norm_num [abs_of_pos, abs_of_neg]
  · have hw : WellFormed s := by
      refine ⟨by simp [s], rfl, by simp [s], ?_⟩
      intro i hi
      simp only [s, List.length_cons, List.length_nil] at hi
      interval_cases i <;> simp [s]
    refine C101_complete_violated 8 s hw [⟨-1/5, 0, 1⟩, ⟨-1/10, 0, 1⟩, ⟨-3/100, 0, 1⟩] ⟨by simp, rfl⟩ (by simp) rfl ?_
      1 2 (by norm_num) (by simp [s]) (by simp [s]) rfl rfl ?_
    · intro q hq
      fin_cases hq <;> norm_num [abs_of_neg]
    · intro i hi
      simp only [s, List.length_cons, List.length_nil] at hi
      interval_cases i
      · right
        intro c hc
        have e : ∀ x y : ℝ, ‖(⟨x, 0⟩ : ℂ) - ⟨y, 0⟩‖ = |x - y| := fun x y => by
          rw [show (⟨x, 0⟩ : ℂ) - ⟨y, 0⟩ = ⟨x - y, 0 - 0⟩ from rfl, sub_zero, hn]
        have hl : ‖(s.active.getD s.tidx 0).z‖ = 3 / 100 := by
          show ‖(⟨-3/100, 0⟩ : ℂ)‖ = _
          rw [hn]; norm_num [abs_of_neg]
        rw [hl]
        interval_cases c
        · show _ < ‖(⟨-3/100, 0⟩ : ℂ) - ⟨3/100, 0⟩‖
          rw [e]; norm_num [abs_of_neg]
        · show _ < ‖(⟨-1/5, 0⟩ : ℂ) - ⟨1/5, 0⟩‖
          rw [e]; norm_num [abs_of_neg]
        · show _ < ‖(⟨-1/5, 0⟩ : ℂ) - ⟨3/100, 0⟩‖
          rw [e]; norm_num [abs_of_neg]
        · show _ < ‖(⟨-3/100, 0⟩ : ℂ) - ⟨1/5, 0⟩‖
          rw [e]; norm_num [abs_of_neg]
      · left; rfl
      · left; rfl

end Microjax.Props
