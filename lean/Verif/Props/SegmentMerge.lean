import Verif.Lemmas.SegmentLoop
import Verif.Model.Contours
import Verif.Props.ContourIntegral
import Mathlib.Tactic.NormNum
import Mathlib.Tactic.Positivity

/-! # Property C43: stitching contour segments -/

set_option linter.unusedVariables false
set_option linter.unusedSectionVars false

namespace Microjax.Props

open Microjax.Spec Segments Jnp Utils Contour

section Two

variable {K : Type*} [Field K] [LinearOrder K]

/-- C43, two segments: for every pair of buffers that hold non-empty paths `a`, `b` fitting together into the
buffer, the four connection types give a buffer that holds exactly the points of both in path order (head-head and
tail-tail reverse the second path and change its parity labels), and the new tail index points at the last point. -/
theorem C43_merge_two (L : ℕ) (s1 s2 a b : List (Pt K)) (h1 : Holds L s1 a) (h2 : Holds L s2 b)
    (ha : ∀ s ∈ a, s.x ≠ 0 ∨ s.y ≠ 0) (hb : ∀ s ∈ b, s.x ≠ 0 ∨ s.y ≠ 0) (hane : a ≠ []) (hbne : b ≠ [])
    (hL : a.length + b.length ≤ L) (c : ℕ) :
    Holds L (mergeTwoSegments s1 s2 (a.length - 1) (b.length - 1) c).1
      (match c with
        | 0 => a ++ b
        | 1 => b ++ a
        | 2 => reversePath b ++ a
        | _ => a ++ reversePath b) ∧
    (mergeTwoSegments s1 s2 (a.length - 1) (b.length - 1) c).2 = a.length + b.length - 1 := by
  have hza : ∀ s ∈ a, isZeroPos s = false := fun s hs => by
    have := ha s hs; simp [isZeroPos]; tauto
  have hzb : ∀ s ∈ b, isZeroPos s = false := fun s hs => by
    have := hb s hs; simp [isZeroPos]; tauto
  have hal : 0 < a.length := List.length_pos_iff.2 hane
  have hbl : 0 < b.length := List.length_pos_iff.2 hbne
  have hrev := reverse_holds L s2 b h2 hbne
  have hzr := isZeroPos_reversePath b hzb
  unfold mergeTwoSegments
  match c with
  | 0 => exact ⟨concat_holds L _ _ _ _ h1 h2 hza hL, by simp; omega⟩
  | 1 => exact ⟨concat_holds L _ _ _ _ h2 h1 hzb (by omega), by simp; omega⟩
  | 2 => exact ⟨concat_holds L _ _ _ _ hrev h1 hzr (by rw [reversePath_length]; omega), by simp; omega⟩
  | (n + 3) =>
    exact ⟨concat_holds L _ _ _ _ h1 hrev hza (by rw [reversePath_length]; omega), by simp; omega⟩

/-- three points joined to two points, tail to tail, in a buffer of length 8 -/
example : mergeTwoSegments
    ([⟨1, 0, 1⟩, ⟨2, 0, 1⟩, ⟨3, 0, 1⟩, 0, 0, 0, 0, 0] : List (Pt ℚ))
    [⟨5, 1, -1⟩, ⟨4, 1, -1⟩, 0, 0, 0, 0, 0, 0] 2 1 3
    = ([⟨1, 0, 1⟩, ⟨2, 0, 1⟩, ⟨3, 0, 1⟩, ⟨4, 1, 1⟩, ⟨5, 1, 1⟩, 0, 0, 0], 4) := by decide +kernel

/-- C43, capacity is needed: when the paths do not fit, points are overlaid (added to each other) — here two full
buffers of length 2. -/
theorem C43_overflow : ∃ s1 s2 : List (Pt ℚ), s1.length = 2 ∧ s2.length = 2 ∧
    (∀ s ∈ s1 ++ s2, s.x ≠ 0) ∧
    ∀ s ∈ (mergeTwoSegments s1 s2 1 1 0).1, s ∉ s1 ++ s2 :=
  ⟨[⟨1, 0, 1⟩, ⟨2, 0, 1⟩], [⟨5, 0, 1⟩, ⟨7, 0, 1⟩], rfl, rfl, by decide, by decide +kernel⟩

end Two

/-! ## The geometric functions of the code are sound -/

theorem get_replicate_zero (L i : ℕ) : Jnp.get 0 (List.replicate L (0 : Pt ℝ)) i = 0 := by
  unfold Jnp.get
  simp only [List.getD_eq_getElem?_getD, List.getElem?_replicate]
  split_ifs <;> rfl

theorem Pt.z_zero : (0 : Pt ℝ).z = 0 := rfl

theorem segmentHead_zero (L t : ℕ) : segmentHead (List.replicate L (0 : Pt ℝ)) t = (0, 0) := by
  simp [segmentHead, get_replicate_zero, Pt.z_zero]

theorem segmentTail_zero (L t : ℕ) : segmentTail (List.replicate L (0 : Pt ℝ)) t = (0, 0) := by
  simp [segmentTail, slice2, get_replicate_zero, Pt.z_zero]

/-- the end point used by the stitching test is within `1e-5` of the head, and is one of the points -/
theorem segmentHead_near (L : ℕ) (s a : List (Pt ℝ)) (h : Holds L s a) (hl : 2 ≤ a.length) :
    (∃ p ∈ a, (segmentHead s (a.length - 1)).2 = p.z) ∧
    ∀ u ∈ a.head?, ‖(segmentHead s (a.length - 1)).2 - u.z‖ ≤ 1 / 10 ^ 5 := by
  have h0 : 0 < a.length := by omega
  have h1 : 1 < a.length := by omega
  have hhead : a.head? = some a[0] := List.head?_eq_getElem? .. ▸ List.getElem?_eq_getElem h0
  unfold segmentHead
  simp only
  rw [holds_get h 0 h0, holds_get h 1 h1]
  split_ifs with hc
  · refine ⟨⟨a[0], List.getElem_mem h0, rfl⟩, ?_⟩
    intro u hu
    rw [hhead, Option.mem_some] at hu
    rw [← hu]; simp
  · push Not at hc
    refine ⟨⟨a[1], List.getElem_mem h1, rfl⟩, ?_⟩
    intro u hu
    rw [hhead, Option.mem_some] at hu
    rw [← hu]; exact hc.1

theorem segmentTail_near (L : ℕ) (s a : List (Pt ℝ)) (h : Holds L s a) (hl : 2 ≤ a.length) :
    (∃ p ∈ a, (segmentTail s (a.length - 1)).2 = p.z) ∧
    ∀ u ∈ a.getLast?, ‖(segmentTail s (a.length - 1)).2 - u.z‖ ≤ 1 / 10 ^ 5 := by
  have h0 : a.length - 1 < a.length := by omega
  have h1 : a.length - 2 < a.length := by omega
  have hlast : a.getLast? = some a[a.length - 1] := List.getLast?_eq_getElem? .. ▸ List.getElem?_eq_getElem h0
  have hL : a.length ≤ L := h.1
  have hsl : s.length = L := holds_length h
  unfold segmentTail slice2
  simp only
  rw [holds_get h (a.length - 1) h0, show a.length - 1 - 1 = a.length - 2 by omega,
    holds_get h (a.length - 2) h1]
  split_ifs with hc
  · rw [hsl, show min (a.length - 2) (L - 2) + 1 = a.length - 1 by omega]
    simp only
    rw [holds_get h (a.length - 1) h0]
    refine ⟨⟨_, List.getElem_mem h0, rfl⟩, ?_⟩
    intro u hu
    rw [hlast, Option.mem_some] at hu
    rw [← hu]; simp
  · push Not at hc
    rw [hsl, show min (a.length - 1 - 2) (L - 2) + 1 = a.length - 2 by omega]
    simp only
    rw [holds_get h (a.length - 2) h1]
    refine ⟨⟨_, List.getElem_mem h1, rfl⟩, ?_⟩
    intro u hu
    rw [hlast, Option.mem_some] at hu
    rw [← hu, norm_sub_rev]; exact hc.1

theorem abs_x_le_norm (p : Pt ℝ) : |p.x| ≤ ‖p.z‖ := Complex.abs_re_le_norm p.z

/-- the distance tested by the stitching test -/
noncomputable def testDist (s1 s2 : List (Pt ℝ)) (t1 t2 c : ℕ) : ℝ :=
  ‖(if c = 0 ∨ c ≥ 3 then segmentTail s1 t1 else segmentHead s1 t1).2
    - (if c = 0 ∨ c = 2 then segmentHead s2 t2 else segmentTail s2 t2).2‖

theorem connect_dist (s1 s2 : List (Pt ℝ)) (t1 t2 c : ℕ)
    (h : connectionCondition s1 s2 t1 t2 c = true) : testDist s1 s2 t1 t2 c < 1 / 10 := by
  unfold connectionCondition at h
  simp only [Bool.and_eq_true, Bool.or_eq_true, decide_eq_true_eq] at h
  unfold testDist
  rcases h.2 with h' | h'
  · exact h'.1.1
  · exact lt_trans h' (by norm_num)

theorem sound_geometry (L : ℕ) : Sound geometry L (fun s => 1 / 10 ^ 5 ≤ |s.x|) OpenSegment
    (fun s t => ‖s.z - t.z‖ ≤ 1 / 10 + 2 / 10 ^ 5) where
  good := by
    intro s hs h0
    rw [h0, abs_zero] at hs
    norm_num at hs
  goodNeg := fun s hs => hs
  seg_good := fun a ha => ha.offAxis
  seg_len := fun a ha => ha.two
  seg_parity := fun a ha => ha.parity
  empty := by
    intro s1 s2 a t2 c h1 hl hgood h2
    rw [holds_nil] at h2
    subst h2
    show connectionCondition _ _ _ _ _ = false
    by_contra hc
    rw [Bool.not_eq_false] at hc
    have hd := hc
    unfold connectionCondition at hd
    simp only [Bool.and_eq_true, Bool.or_eq_true, decide_eq_true_eq, get_replicate_zero] at hd
    obtain ⟨hp, hd⟩ := hd
    -- the second line is `(0, 0)`
    have hl2 : (if c = 0 ∨ c = 2 then segmentHead (List.replicate L (0 : Pt ℝ)) t2
        else segmentTail (List.replicate L (0 : Pt ℝ)) t2) = (0, 0) := by
      split_ifs
      · exact segmentHead_zero L t2
      · exact segmentTail_zero L t2
    rw [hl2] at hd
    rcases hd with ⟨⟨_, hd⟩, _⟩ | hd
    · have hpi := Real.pi_pos
      simp only [sub_self, norm_zero, Complex.ofReal_zero, div_zero, Complex.zero_re, mul_zero,
        Complex.zero_im, add_zero, Real.arccos_zero] at hd
      have : Real.pi / 2 * 180 / Real.pi = 90 := by field_simp; norm_num
      rw [this] at hd
      norm_num at hd
    · have key : ∃ p ∈ a, (if c = 0 ∨ c ≥ 3 then segmentTail s1 (a.length - 1)
          else segmentHead s1 (a.length - 1)).2 = p.z := by
        split_ifs
        · exact (segmentTail_near L s1 a h1 hl).1
        · exact (segmentHead_near L s1 a h1 hl).1
      obtain ⟨p, hp, hpe⟩ := key
      rw [hpe, sub_zero] at hd
      have := hgood p hp
      have h3 := abs_x_le_norm p
      linarith
  parity := by
    intro s1 s2 t1 t2 c hc
    have hd : connectionCondition s1 s2 t1 t2 c = true := hc
    unfold connectionCondition at hd
    simp only [Bool.and_eq_true] at hd
    obtain ⟨hp, _⟩ := hd
    constructor
    · intro h
      rw [if_pos h] at hp
      simpa using hp
    · intro h
      rw [if_neg (by omega)] at hp
      simpa using hp
  near_symm := fun s t h => by rw [norm_sub_rev]; exact h
  near_pos := fun s t p p' h => h
  seg_path := fun a ha => ha.steps.imp fun s t h => by linarith [show (0 : ℝ) ≤ 2 / 10 ^ 5 by norm_num]
  join := by
    intro s1 s2 a b c h1 h2 hl1 hl2 hc
    have hd := connect_dist _ _ _ _ _ hc
    unfold testDist at hd
    have tri : ∀ x y u v : ℂ, ‖x - y‖ < 1 / 10 → ‖x - u‖ ≤ 1 / 10 ^ 5 → ‖y - v‖ ≤ 1 / 10 ^ 5 →
        ‖u - v‖ ≤ 1 / 10 + 2 / 10 ^ 5 := by
      intro x y u v h1 h2 h3
      have e : u - v = -(x - u) + (x - y) + (y - v) := by ring
      have := norm_add_le (-(x - u) + (x - y)) (y - v)
      have h4 := norm_add_le (-(x - u)) (x - y)
      rw [norm_neg] at h4
      rw [e]
      have : (2 : ℝ) / 10 ^ 5 = 1 / 10 ^ 5 + 1 / 10 ^ 5 := by norm_num
      linarith
    refine ⟨?_, ?_, ?_, ?_⟩
    · intro h0 u hu v hv
      rw [if_pos (Or.inl h0), if_pos (Or.inl h0)] at hd
      exact tri _ _ _ _ hd ((segmentTail_near L s1 a h1 hl1).2 u hu) ((segmentHead_near L s2 b h2 hl2).2 v hv)
    · intro h0 u hu v hv
      rw [if_neg (by omega), if_neg (by omega), norm_sub_rev] at hd
      exact tri _ _ _ _ hd ((segmentTail_near L s2 b h2 hl2).2 u hu) ((segmentHead_near L s1 a h1 hl1).2 v hv)
    · intro h0 u hu v hv
      rw [if_neg (by omega), if_pos (Or.inr h0), norm_sub_rev] at hd
      exact tri _ _ _ _ hd ((segmentHead_near L s2 b h2 hl2).2 u hu) ((segmentHead_near L s1 a h1 hl1).2 v hv)
    · intro h0 u hu v hv
      rw [if_pos (Or.inr h0), if_neg (by omega)] at hd
      exact tri _ _ _ _ hd ((segmentTail_near L s1 a h1 hl1).2 u hu) ((segmentTail_near L s2 b h2 hl2).2 v hv)
  len_zero := by
    intro s t h
    rw [holds_nil] at h
    subst h
    show segmentLength _ _ = 0
    unfold segmentLength
    apply List.sum_eq_zero
    intro x hx
    rcases List.mem_or_eq_of_mem_set hx with h | h
    · obtain ⟨i, hi, rfl⟩ := List.getElem_of_mem h
      simp
    · exact h
  len_pos := by
    intro s a h ha
    show segmentLength _ _ ≠ 0
    apply ne_of_gt
    unfold segmentLength
    obtain ⟨p, q, ⟨l1, l2, hpq⟩, hne⟩ := ha.moves
    have hnn : ∀ x ∈ ((List.zipWith (fun a b : Pt ℝ => ‖b.z - a.z‖) s s.tail).set (a.length - 1) 0), 0 ≤ x := by
      intro x hx
      rcases List.mem_or_eq_of_mem_set hx with h | h
      · obtain ⟨i, hi, rfl⟩ := List.getElem_of_mem h
        rw [List.getElem_zipWith]; positivity
      · rw [h]
    refine lt_of_lt_of_le (norm_pos_iff.2 (sub_ne_zero.2 (Ne.symm hne))) (List.single_le_sum hnn _ ?_)
    have hal : a.length = l1.length + 2 + l2.length := by rw [← hpq]; simp; omega
    have hsl : s.length = L := holds_length h
    have hL : a.length ≤ L := h.1
    have hidx : l1.length < ((List.zipWith (fun a b : Pt ℝ => ‖b.z - a.z‖) s s.tail).set (a.length - 1) 0).length := by
      simp; omega
    have hval : ((List.zipWith (fun a b : Pt ℝ => ‖b.z - a.z‖) s s.tail).set (a.length - 1) 0)[l1.length] =
        ‖q.z - p.z‖ := by
      rw [List.getElem_set_ne (by omega), List.getElem_zipWith, List.getElem_tail]
      have g1 : s[l1.length]'(by omega) = p := by
        have := holds_get h l1.length (by omega)
        rw [get_of_lt _ _ (by omega)] at this
        rw [this]; simp [← hpq]
      have g2 : s[l1.length + 1]'(by omega) = q := by
        have := holds_get h (l1.length + 1) (by omega)
        rw [get_of_lt _ _ (by omega)] at this
        rw [this]; simp [← hpq]
      rw [g1, g2]
    rw [← hval]
    exact List.getElem_mem hidx

/-! ## All open segments -/

theorem pad4_holds (N : ℕ) (s a : List (Pt ℝ)) (h : Holds N s a) : Holds (4 * N) (pad4 s) a := by
  have hl := holds_length h
  refine ⟨le_trans h.1 (by omega), ?_⟩
  unfold pad4
  rw [hl]
  obtain ⟨h1, rfl⟩ := h
  rw [List.append_assoc, List.replicate_append_replicate]
  congr 2; omega

/-- `last_nonzero` of the real parts of a buffer is the index of the last point -/
theorem lastNonzero_holds {K : Type*} [Field K] [LinearOrder K] (L : ℕ) (s a : List (Pt K)) (h : Holds L s a)
    (hne : a ≠ []) (hx : ∀ p ∈ a, p.x ≠ 0) : lastNonzero (s.map Pt.x) = a.length - 1 := by
  have hpos : 0 < a.length := List.length_pos_iff.2 hne
  obtain ⟨h1, rfl⟩ := h
  have hlast : a.length - 1 < a.length := by omega
  obtain ⟨⟨v, hv, hv0⟩, hafter⟩ := (C66_last_nonzero ((a ++ List.replicate (L - a.length) 0).map Pt.x)).1
    ⟨(a[a.length - 1]).x, by
      rw [List.mem_map]; exact ⟨_, List.mem_append_left _ (List.getElem_mem hlast), rfl⟩,
      hx _ (List.getElem_mem hlast)⟩
  set i := lastNonzero ((a ++ List.replicate (L - a.length) 0).map Pt.x) with hi
  rcases Nat.lt_trichotomy i (a.length - 1) with h | h | h
  · exfalso
    refine hafter (a.length - 1) h (a[a.length - 1]).x ?_ (hx _ (List.getElem_mem hlast))
    rw [List.getElem?_map, List.getElem?_append_left hlast, List.getElem?_eq_getElem hlast]; rfl
  · exact h
  · exfalso
    rw [List.getElem?_map, List.getElem?_append_right (by omega), List.getElem?_replicate] at hv
    split_ifs at hv
    · simp only [Option.map_some, Option.some.injEq] at hv
      exact hv0 hv.symm
    · simp at hv

/-- C43, all open segments: let the buffers `segments` (length `N`) hold the paths `paths`, each of them empty or an
acceptable open segment, with at most `4N` points in total.  Then every contour assembled by the stitching loop holds
exactly a chain of whole segments, each traversed forwards or backwards; no segment is used twice; the used segments
and the ones left over are together exactly the given ones; every contour has one parity label, and consecutive points
are never further apart than the stitching tolerance. -/
theorem C43_merge_open (N c n : ℕ) (segments paths : List (List (Pt ℝ)))
    (hold : List.Forall₂ (Holds N) segments paths) (hseg : ∀ r ∈ paths, r = [] ∨ OpenSegment r)
    (hcap : (paths.map List.length).sum ≤ 4 * N) (hc : c ≤ segments.length) :
    ∃ (used : List (List (Bool × List (Pt ℝ)))) (left : List (List (Pt ℝ))),
      List.Forall₂ (fun buf u => Holds (4 * N) buf (chain u)) (mergeOpenSegments geometry c n segments) used ∧
      (∀ u ∈ used, (∀ x ∈ u, OpenSegment x.2) ∧ (∃ σ : ℝ, (σ = 1 ∨ σ = -1) ∧ HasParity σ (chain u)) ∧
        NoJump (chain u)) ∧
      (used.flatten.map Prod.snd ++ left.filter fun r => !r.isEmpty).Perm (paths.filter fun r => !r.isEmpty) := by
  have hlen := hold.length_eq
  have hI : LoopInv (4 * N) OpenSegment (segments.map pad4)
      (segments.map fun s => lastNonzero (s.map Pt.x)) paths := by
    refine ⟨by simp [hlen], by simp [hlen], ?_, ?_, hcap⟩
    · intro i q r hq hr
      rw [List.getElem?_map, Option.map_eq_some_iff] at hq
      obtain ⟨q', hq', rfl⟩ := hq
      obtain ⟨hi, hq''⟩ := List.getElem?_eq_some_iff.1 hq'
      obtain ⟨hi', hr'⟩ := List.getElem?_eq_some_iff.1 hr
      have := List.Forall₂.get hold hi hi'
      simp only [List.get_eq_getElem, hq'', hr'] at this
      exact pad4_holds N q' r this
    · intro i t r ht hr
      rw [List.getElem?_map, Option.map_eq_some_iff] at ht
      obtain ⟨q', hq', rfl⟩ := ht
      obtain ⟨hi, hq''⟩ := List.getElem?_eq_some_iff.1 hq'
      obtain ⟨hi', hr'⟩ := List.getElem?_eq_some_iff.1 hr
      have h := List.Forall₂.get hold hi hi'
      simp only [List.get_eq_getElem, hq'', hr'] at h
      rcases hseg r (List.mem_of_getElem? hr) with h0 | h0
      · exact Or.inl h0
      · refine Or.inr ⟨h0, ?_⟩
        apply lastNonzero_holds N q' r h
        · intro he; have := h0.two; rw [he] at this; simp at this
        · exact fun p hp => (sound_geometry N).good p (h0.offAxis p hp)
  obtain ⟨used, left, h1, h2, h3⟩ := loop_step geometry (4 * N) _ OpenSegment _ (sound_geometry (4 * N)) c n _ _ _ hI
    (by omega)
  refine ⟨used, left, h1, h2, ?_⟩
  unfold inventory at h3
  simp only [List.filter_append, List.map_nil, List.nil_append] at h3
  have he : (used.flatten.map Prod.snd).filter (fun r => !r.isEmpty) = used.flatten.map Prod.snd := by
    rw [List.filter_eq_self]
    intro r hr
    simp only [List.mem_map, List.mem_flatten] at hr
    obtain ⟨x, ⟨u, hu, hx⟩, rfl⟩ := hr
    have := ((h2 u hu).1 x hx).two
    cases hh : x.2 with
    | nil => rw [hh] at this; simp at this
    | cons a l => rfl
  rwa [he] at h3

/-- Two open segments that meet the hypotheses of `C43_merge_open` (a third row is empty). -/
theorem openSegment_pair (x y y' σ : ℝ) (hx : 1 ≤ x) (hσ : σ = 1 ∨ σ = -1) (h1 : y ≠ y') (h2 : |y - y'| ≤ 1 / 10) :
    OpenSegment [⟨x, y, σ⟩, ⟨x, y', σ⟩] := by
  refine ⟨by simp, ?_, ⟨_, _, List.infix_rfl, ?_⟩, ?_, σ, hσ, ?_⟩
  · intro s hs
    have : s.x = x := by
      simp only [List.mem_cons, List.not_mem_nil, or_false] at hs
      rcases hs with rfl | rfl <;> rfl
    rw [this, abs_of_nonneg (by linarith)]
    norm_num; linarith
  · intro h
    exact h1 (by simpa [Pt.z] using congrArg Complex.im h)
  · rw [List.isChain_cons_cons]
    refine ⟨?_, by simp⟩
    have : Pt.z ⟨x, y, σ⟩ - Pt.z ⟨x, y', σ⟩ = ((y - y' : ℝ) : ℂ) * Complex.I := by
      apply Complex.ext <;> simp [Pt.z]
    rw [this, norm_mul, Complex.norm_I, mul_one, Complex.norm_real, Real.norm_eq_abs]
    exact h2
  · intro s hs
    simp only [List.mem_cons, List.not_mem_nil, or_false] at hs
    rcases hs with rfl | rfl <;> rfl

example :
    let a : List (Pt ℝ) := [⟨1, 0, 1⟩, ⟨1, 1/20, 1⟩]
    let b : List (Pt ℝ) := [⟨1, 1/5, -1⟩, ⟨1, 1/10, -1⟩]
    List.Forall₂ (Holds 2) [a, b, [0, 0]] [a, b, []] ∧ (∀ r ∈ [a, b, []], r = [] ∨ OpenSegment r) ∧
      (([a, b, []] : List (List (Pt ℝ))).map List.length).sum ≤ 4 * 2 := by
  refine ⟨?_, ?_, by simp⟩
  · refine .cons ⟨by simp, by simp⟩ (.cons ⟨by simp, by simp⟩ (.cons ⟨by simp, by simp [List.replicate_succ]⟩ .nil))
  · intro r hr
    simp only [List.mem_cons, List.not_mem_nil, or_false] at hr
    rcases hr with rfl | rfl | rfl
    · exact Or.inr (openSegment_pair _ _ _ _ le_rfl (Or.inl rfl) (by norm_num) (by norm_num [abs_le]))
    · exact Or.inr (openSegment_pair _ _ _ _ le_rfl (Or.inr rfl) (by norm_num) (by norm_num [abs_le]))
    · exact Or.inl rfl

end Microjax.Props
