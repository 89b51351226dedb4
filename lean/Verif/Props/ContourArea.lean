import Verif.Props.Split
import Verif.Props.SegmentMerge
import Verif.Props.ContourIntegral
import Verif.Model.Contours

/-!
# C77: the contour sum is the signed area of the image polygons

From the masked image tracks to the sum of contour terms: closed tracks contribute the signed area of the polygon through
their samples, open tracks are cut into runs, stitched to contours, closed, and contribute the area of those polygons.
-/

set_option linter.unusedVariables false
set_option linter.unusedSectionVars false

namespace Microjax.Spec

open Microjax.Segments

/-- The polygon through the positions of a path. -/
def vertices {K : Type*} (pts : List (Pt K)) : List (K × K) := pts.map fun s => (s.x, s.y)

/-- The contribution of a contour: the parity label of its first point times the signed area of its polygon. -/
def contourTerm {K : Type*} [Field K] (pts : List (Pt K)) : K := (pts.headD 0).p * polygonArea 0 (vertices pts)

/-- The samples of a track without the mask column. -/
def samples {K : Type*} (t : List (Pt3 K)) : List (Pt K) := t.map fun s => ⟨s.x, s.y, s.p⟩

/-- What the contour method needs of the tracks that are not closed: real samples are off the imaginary axis by `1e-5`,
carry a parity `±1`, and differ from the next real sample. -/
structure OpenTrack (t : List (Pt3 ℝ)) : Prop where
  offAxis : ∀ s ∈ t, s.m ≠ 0 → 1 / 10 ^ 5 ≤ |s.x|
  parity : ∀ s ∈ t, s.m ≠ 0 → s.p = 1 ∨ s.p = -1
  moves : t.IsChain fun s r => s.m ≠ 0 → r.m ≠ 0 → (s.x, s.y) ≠ (r.x, r.y)

/-- The runs of at least two samples of the tracks that are not closed. -/
noncomputable def longRuns (rows : List (List (Pt3 ℝ))) : List (List (Pt ℝ)) :=
  (((rows.filter fun t => !isClosed t).flatMap runs).filter fun r => decide (2 ≤ r.length)).map samples

end Microjax.Spec

namespace Microjax.Props

open Microjax.Spec Segments Contour Jnp Utils

section

variable {K : Type*} [Field K] [LinearOrder K] [IsStrictOrderedRing K]

theorem integrateUnif_zeros (n t : ℕ) (ht : t < n) : integrateUnif (List.replicate n (0 : K × K)) t = 0 := by
  have hz : ∀ i, (List.replicate n (0 : K × K)).getD i 0 = 0 := by
    intro i
    rw [List.getD_eq_getElem?_getD, List.getElem?_replicate]
    split_ifs <;> rfl
  rw [integrateUnif_path _ _ (by simpa using ht) (fun i _ => hz i)]
  simp only [hz]
  unfold pathArea
  apply List.sum_eq_zero
  intro x hx
  rw [List.mem_map] at hx
  obtain ⟨i, _, rfl⟩ := hx
  simp [triArea]

/-- a closed track contributes its polygon -/
theorem closed_term (s : List (Pt K)) (hne : s ≠ []) :
    integrateUnif (contourFromClosed s).1 ((contourFromClosed s).1.length - 1) * (contourFromClosed s).2
      = contourTerm s := by
  obtain ⟨a, l, rfl⟩ := List.exists_cons_of_ne_nil hne
  have hc : (contourFromClosed (a :: l)).1 = closedBuffer (vertices (a :: l)) 0 := by
    simp [contourFromClosed, closedBuffer, vertices, Jnp.get]
  have hl : (closedBuffer (vertices (a :: l)) 0).length - 1 = (vertices (a :: l)).length := by
    simp [closedBuffer]
  rw [hc, hl, C42_polygon_area _ _ (by simp [vertices]) 0]
  unfold contourTerm contourFromClosed
  simp [Jnp.get, mul_comm]

/-- a nulled track contributes nothing -/
theorem closed_term_zero (n : ℕ) :
    integrateUnif (contourFromClosed (List.replicate n (0 : Pt K))).1
      ((contourFromClosed (List.replicate n (0 : Pt K))).1.length - 1) * (contourFromClosed (List.replicate n (0 : Pt K))).2
      = 0 := by
  have hc : (contourFromClosed (List.replicate n (0 : Pt K))).1 = List.replicate (n + 1) (0 : K × K) := by
    unfold contourFromClosed
    simp only [List.map_replicate]
    have : Jnp.get ((0 : K), (0 : K)) (List.replicate n ((0 : Pt K).x, (0 : Pt K).y)) 0 = 0 := by
      cases n <;> simp [Jnp.get, List.replicate_succ, Pt.zero_def]
    rw [this, List.replicate_succ']
    rfl
  rw [hc, integrateUnif_zeros _ _ (by simp), zero_mul]

/-- a stitched contour is closed after its last point and contributes its polygon -/
theorem open_term (L : ℕ) (s pts : List (Pt K)) (h : Holds L s pts) (hx : ∀ p ∈ pts, p.x ≠ 0)
    (hL : pts.length + 1 ≤ L) (hL2 : 2 ≤ L) :
    integrateUnif (closeContour s).1 (lastNonzero ((closeContour s).1.map Prod.fst)) * (closeContour s).2
      = contourTerm pts := by
  rcases pts with _ | ⟨a, l⟩
  · have hs := (holds_nil L s).1 h
    have hv : s.map (fun s => (s.x, s.y)) = List.replicate L (0 : K × K) := by
      rw [hs, List.map_replicate]; rfl
    have hc : (closeContour s).1 = List.replicate L (0 : K × K) := by
      unfold closeContour
      simp only
      rw [hv]
      have : Jnp.get ((0 : K), (0 : K)) (List.replicate L (0 : K × K)) 0 = 0 := by
        cases L <;> simp [Jnp.get, List.replicate_succ]
      rw [this]
      apply List.ext_getElem
      · simp
      · intro i h1 h2
        rw [List.getElem_set]
        split_ifs <;> simp
    have hlz : lastNonzero ((List.replicate L (0 : K × K)).map Prod.fst) = 0 := by
      unfold lastNonzero
      rw [if_neg (by simp)]
    rw [hc, hlz, integrateUnif_zeros _ _ (by omega), zero_mul]
    simp [contourTerm, polygonArea, vertices]
  · set pts := a :: l with hpts
    have hpl : 0 < pts.length := by simp [hpts]
    have hlast := lastNonzero_holds L s pts h (by simp [hpts]) hx
    have hmapx : ((s.map fun s => (s.x, s.y)).map Prod.fst) = s.map Pt.x := by rw [List.map_map]; rfl
    have hc : (closeContour s).1 = closedBuffer (vertices pts) (L - pts.length - 1) := by
      unfold closeContour
      simp only
      rw [hmapx, hlast, show pts.length - 1 + 1 = pts.length by omega]
      obtain ⟨h1, h2⟩ := h
      obtain ⟨k, hk⟩ : ∃ k, L - pts.length = k + 1 := ⟨L - pts.length - 1, by omega⟩
      rw [h2, hk, List.replicate_succ, List.map_append, List.map_cons (l := List.replicate k 0)]
      have hlen : pts.length = (pts.map fun s => (s.x, s.y)).length := by simp
      rw [hlen, List.set_append_right _ _ (le_refl _), Nat.sub_self, List.set_cons_zero]
      unfold closedBuffer vertices
      simp only [Nat.add_sub_cancel, List.map_replicate, List.append_assoc]
      congr 1
    have hcl : lastNonzero ((closeContour s).1.map Prod.fst) = (vertices pts).length := by
      -- the closed buffer holds the points and the first point again
      have hh : Holds L (pts ++ [a] ++ List.replicate (L - pts.length - 1) 0) (pts ++ [a]) := by
        refine ⟨by simpa using hL, ?_⟩
        congr 2
        simp; omega
      have := lastNonzero_holds L _ _ hh (by simp) (by
        intro p hp
        rcases List.mem_append.1 hp with hp | hp
        · exact hx p hp
        · rw [List.mem_singleton] at hp; subst hp; exact hx p (by simp [hpts]))
      have e : (closeContour s).1.map Prod.fst = (pts ++ [a] ++ List.replicate (L - pts.length - 1) (0 : Pt K)).map Pt.x := by
        rw [hc]
        unfold closedBuffer vertices
        rw [List.map_append, List.map_append, List.map_map, List.map_append, List.map_append, List.map_replicate,
          List.map_replicate]
        rfl
      rw [e, this]
      simp [vertices]
    rw [hcl, hc, C42_polygon_area _ _ (by simp [vertices, hpts]) 0]
    unfold contourTerm
    have hp : (closeContour s).2 = (pts.headD 0).p := by
      unfold closeContour
      simp only
      rw [holds_get h 0 (by omega)]
      rfl
    rw [hp, mul_comm]

end

/-- C77 `_get_segments`/`mag_extended_source` (uniform source): for any image tracks whose non-closed members satisfy
`OpenTrack`, have at most ten runs each and fit in the buffers, the sum of contour terms is the sum over the closed tracks
of parity times polygon area, plus the sum over the stitched contours of parity times the area of the closed polygon
through the chained runs.  Each contour chains whole runs, has one parity and no jump; no run is used twice; together
with the runs left over, the used runs are exactly the runs of at least two samples. -/
theorem C77_contour_sum (N n_images : ℕ) (rows : List (List (Pt3 ℝ))) (hN : 0 < N) (hn : 0 < n_images)
    (hrows : rows ≠ []) (hlen : ∀ t ∈ rows, t.length = N) (hm : ∀ t ∈ rows, Masked t)
    (hopen : ∀ t ∈ rows, isClosed t = false → OpenTrack t)
    (hparts : ∀ t ∈ rows, isClosed t = false → (runs t).length ≤ 10)
    (hnr : (longRuns rows).length ≤ 3 * n_images)
    (hcap : ((longRuns rows).map List.length).sum + 1 ≤ 4 * N) :
    ∃ (used : List (List (Bool × List (Pt ℝ)))) (left : List (List (Pt ℝ))),
      contourSum geometry integrateUnif n_images rows
        = (((rows.filter isClosed).map samples).map contourTerm).sum + (used.map fun u => contourTerm (chain u)).sum ∧
      used.length ≤ 3 ∧
      (∀ u ∈ used, (∃ σ : ℝ, (σ = 1 ∨ σ = -1) ∧ HasParity σ (chain u)) ∧ NoJump (chain u)) ∧
      (used.flatten.map Prod.snd ++ left).Perm (longRuns rows) := by
  have hne : ∀ t ∈ rows, t ≠ [] := by
    intro t ht h
    have := hlen t ht
    rw [h] at this; simp at this; omega
  -- the closed part
  have hclosed : (magsClosed integrateUnif ((rows.map fun s => if isClosed s then s else s.map fun _ => (0 : Pt3 ℝ)).map
      (·.map drop3))).sum = (((rows.filter isClosed).map samples).map contourTerm).sum := by
    unfold magsClosed
    clear hopen hparts hnr hcap hrows
    induction rows with
    | nil => rfl
    | cons t ts ih =>
      have ih' := ih (fun t ht => hlen t (List.mem_cons_of_mem _ ht)) (fun t ht => hm t (List.mem_cons_of_mem _ ht))
        (fun t ht => hne t (List.mem_cons_of_mem _ ht))
      rw [List.map_cons, List.map_cons, List.map_cons, List.sum_cons, ih']
      by_cases hc : isClosed t
      · rw [if_pos hc, List.filter_cons_of_pos hc, List.map_cons, List.map_cons, List.sum_cons]
        congr 1
        exact closed_term (t.map drop3) (by simpa using hne t (by simp))
      · rw [if_neg hc, List.filter_cons_of_neg hc]
        have : (t.map fun _ => (0 : Pt3 ℝ)).map drop3 = List.replicate t.length (0 : Pt ℝ) := by
          rw [List.map_const', List.map_replicate]; rfl
        rw [this, closed_term_zero, zero_add]
  unfold contourSum getSegments
  simp only
  rw [hclosed]
  by_cases hall : rows.all isClosed = true
  · rw [if_pos hall]
    refine ⟨[], [], by simp, by simp, by simp, ?_⟩
    have : rows.filter (fun t => !isClosed t) = [] := by
      rw [List.filter_eq_nil_iff]
      intro t ht
      rw [List.all_eq_true] at hall
      simp [hall t ht]
    simp [longRuns, this]
  · rw [if_neg hall, if_neg hall]
    set tracks := rows.map (fun s => if isClosed s then s.map (fun _ => (0 : Pt3 ℝ)) else s) with htracks
    have hzero : ∀ n, runs (List.replicate n (0 : Pt3 ℝ)) = [] := by
      have : ∀ (n o : ℕ), runsFrom o (List.replicate n (0 : Pt3 ℝ)) = [] := by
        intro n
        induction n with
        | zero => intro o; rfl
        | succ n ih => intro o; rw [List.replicate_succ, runsFrom_cons_invalid _ _ _ rfl, ih]
      intro n; unfold runs; rw [this]; rfl
    have htr : tracks.flatMap runs = (rows.filter fun t => !isClosed t).flatMap runs := by
      rw [htracks]
      clear * - hzero
      induction rows with
      | nil => rfl
      | cons t ts ih =>
        rw [List.map_cons, List.flatMap_cons, ih]
        by_cases hc : isClosed t
        · rw [if_pos hc, List.filter_cons_of_neg (by simp [hc]), List.map_const', hzero, List.nil_append]
        · rw [if_neg hc, List.filter_cons_of_pos (by simp [hc]), List.flatMap_cons]
    have hmem : ∀ t ∈ tracks, (∃ t' ∈ rows, isClosed t' = false ∧ t = t') ∨ t = List.replicate N 0 := by
      intro t ht
      rw [htracks, List.mem_map] at ht
      obtain ⟨t', ht', rfl⟩ := ht
      by_cases hc : isClosed t'
      · right
        rw [if_pos hc, List.map_const', hlen t' ht']
      · left
        rw [if_neg hc]
        exact ⟨t', ht', by simpa using hc, rfl⟩
    obtain ⟨order, ho1, ho2⟩ := C76_process N (3 * n_images) tracks hN
      (by
        intro t ht
        rcases hmem t ht with ⟨t', h1, _, rfl⟩ | rfl
        · exact hlen t h1
        · simp)
      (by
        intro t ht
        rcases hmem t ht with ⟨t', h1, _, rfl⟩ | rfl
        · exact hm t h1
        · intro s hs; exact Or.inl (List.eq_of_mem_replicate hs))
      (by
        intro t ht s hs hsm
        rcases hmem t ht with ⟨t', h1, h2, rfl⟩ | rfl
        · left
          have := (hopen t h1 h2).offAxis s hs hsm
          intro h0
          rw [h0, abs_zero] at this
          norm_num at this
        · rw [List.eq_of_mem_replicate hs] at hsm; exact absurd rfl hsm)
      (by
        intro t ht
        rcases hmem t ht with ⟨t', h1, h2, rfl⟩ | rfl
        · exact hparts t h1 h2
        · rw [hzero]; simp)
      (by rw [htr]; simpa [longRuns] using hnr)
    -- the paths
    set paths := order.map samples with hpaths
    have hold : List.Forall₂ (Holds N) ((processSegments tracks (3 * n_images)).map (·.map drop3)) paths := by
      rw [hpaths, List.forall₂_map_left_iff, List.forall₂_map_right_iff]
      refine ho1.imp ?_
      rintro row r ⟨h1, rfl⟩
      refine ⟨by simpa [samples] using h1, ?_⟩
      rw [List.map_append, List.map_replicate]
      simp only [samples, List.length_map]
      rfl
    have hpfil : (paths.filter fun r => !r.isEmpty).Perm (longRuns rows) := by
      rw [hpaths]
      unfold longRuns
      rw [List.filter_map, ← htr]
      have : ((fun r : List (Pt ℝ) => !r.isEmpty) ∘ (samples : List (Pt3 ℝ) → List (Pt ℝ)))
          = fun r : List (Pt3 ℝ) => !r.isEmpty := by
        funext r; cases r <;> rfl
      rw [this]
      exact ho2.map _
    have hseg : ∀ r ∈ paths, r = [] ∨ OpenSegment r := by
      intro r hr
      by_cases hr0 : r = []
      · exact Or.inl hr0
      right
      have hr' : r ∈ paths.filter fun r => !r.isEmpty := by
        rw [List.mem_filter]; exact ⟨hr, by simpa using hr0⟩
      rw [hpfil.mem_iff] at hr'
      unfold longRuns at hr'
      obtain ⟨q, hq, rfl⟩ := List.mem_map.1 hr'
      rw [List.mem_filter, List.mem_flatMap] at hq
      obtain ⟨⟨t, ht, hqt⟩, hq2⟩ := hq
      rw [List.mem_filter] at ht
      have hcl : isClosed t = false := by simpa using ht.2
      have hot := hopen t ht.1 hcl
      have hq2' : 2 ≤ q.length := by simpa using hq2
      obtain ⟨_, hchain, hinf⟩ := (C44_runs t).2 q hqt
      have hsub : ∀ s ∈ q, s ∈ t ∧ s.m ≠ 0 := by
        intro s hs
        have : s ∈ (runs t).flatten := List.mem_flatten.2 ⟨q, hqt, hs⟩
        rw [(C44_runs t).1, List.mem_filter] at this
        exact ⟨this.1, by simpa using this.2⟩
      refine ⟨by simpa [samples] using hq2', ?_, ?_, ?_, ?_⟩
      · intro s hs
        unfold samples at hs
        obtain ⟨s', hs', rfl⟩ := List.mem_map.1 hs
        exact hot.offAxis s' (hsub s' hs').1 (hsub s' hs').2
      · obtain ⟨a, b, l, rfl⟩ : ∃ a b l, q = a :: b :: l := by
          match q, hq2' with
          | a :: b :: l, _ => exact ⟨a, b, l, rfl⟩
        refine ⟨⟨a.x, a.y, a.p⟩, ⟨b.x, b.y, b.p⟩, ⟨[], samples l, rfl⟩, ?_⟩
        have hmv : (a :: b :: l).IsChain fun s r : Pt3 ℝ => s.m ≠ 0 → r.m ≠ 0 → (s.x, s.y) ≠ (r.x, r.y) :=
          hot.moves.infix hinf
        have := (List.isChain_cons_cons.1 hmv).1 (hsub a (by simp)).2 (hsub b (by simp)).2
        intro hz
        apply this
        have h1 := congrArg Complex.re hz
        have h2 := congrArg Complex.im hz
        exact Prod.ext h1 h2
      · unfold samples
        rw [List.isChain_map]
        refine hchain.imp ?_
        intro a b hab
        have h := hab.2.2.2
        have e : ‖Pt.z ⟨a.x, a.y, a.p⟩ - Pt.z ⟨b.x, b.y, b.p⟩‖ ^ 2 = (b.x - a.x) ^ 2 + (b.y - a.y) ^ 2 := by
          rw [← Complex.normSq_eq_norm_sq, Complex.normSq_apply]
          simp only [Pt.z, Complex.sub_re, Complex.sub_im]
          ring
        exact abs_le_of_sq_le_sq' (by rw [e]; exact h) (by norm_num) |>.2
      · obtain ⟨a, l, rfl⟩ : ∃ a l, q = a :: l := List.exists_cons_of_ne_nil (by
          intro h; rw [h] at hq2'; simp at hq2')
        refine ⟨a.p, hot.parity a (hsub a (by simp)).1 (hsub a (by simp)).2, ?_⟩
        have hpar : ∀ (a : Pt3 ℝ) (l : List (Pt3 ℝ)), (a :: l).IsChain Spec.Joined → ∀ s ∈ a :: l, s.p = a.p := by
          intro a l
          induction l generalizing a with
          | nil => intro _ s hs; rw [List.mem_singleton] at hs; rw [hs]
          | cons b l ih =>
            intro h s hs
            obtain ⟨h1, h2⟩ := List.isChain_cons_cons.1 h
            rcases List.mem_cons.1 hs with rfl | hs
            · rfl
            · rw [ih b h2 s hs]; exact h1.2.2.1.symm
        intro s hs
        unfold samples at hs
        obtain ⟨s', hs', rfl⟩ := List.mem_map.1 hs
        exact hpar a l hchain s' hs'
    have hsum : (paths.map List.length).sum = ((longRuns rows).map List.length).sum := by
      rw [← (hpfil.map List.length).sum_eq]
      clear * -
      induction paths with
      | nil => rfl
      | cons r ps ih =>
        cases r with
        | nil => simpa using ih
        | cons a l => simpa using ih
    have hplen : 3 ≤ ((processSegments tracks (3 * n_images)).map (·.map drop3)).length := by
      have h1 : 1 ≤ tracks.length := by
        rw [htracks, List.length_map]; exact List.length_pos_iff.2 hrows
      have hspl : ∀ t : List (Pt3 ℝ), (splitSegment 5 t).length = 10 := by
        intro t
        unfold splitSegment idcsStart idcsEnd argwhere
        simp only [List.length_map, List.length_zipWith, List.length_append, List.length_replicate, List.length_take]
        omega
      have : 10 ≤ ((tracks.map (splitSegment 5)).flatten).length := by
        obtain ⟨a, l, e⟩ := List.exists_cons_of_ne_nil (List.length_pos_iff.1 h1)
        rw [e, List.map_cons, List.flatten_cons, List.length_append, hspl]; omega
      unfold processSegments
      simp only [List.length_map, List.length_take, List.length_reverse, argsort_length]
      omega
    obtain ⟨used, left, h1, h2, h3⟩ := C43_merge_open N 3 20 _ paths hold hseg (by rw [hsum]; omega) hplen
    refine ⟨used, left.filter fun r => !r.isEmpty, ?_, ?_, fun u hu => ⟨(h2 u hu).2.1, (h2 u hu).2.2⟩, h3.trans hpfil⟩
    · congr 1
      unfold magsOpen contoursFromOpen
      rw [List.map_map]
      congr 1
      rw [← List.forall₂_eq_eq_eq, List.forall₂_map_left_iff, List.forall₂_map_right_iff]
      -- capacity of each contour
      have hcapu : ∀ u ∈ used, (chain u).length + 1 ≤ 4 * N := by
        intro u hu
        have hle : (u.map fun x => x.2.length).sum ≤ ((longRuns rows).map List.length).sum := by
          rw [← ((h3.trans hpfil).map List.length).sum_eq]
          obtain ⟨A, B, rfl⟩ := List.append_of_mem hu
          simp only [List.map_append, List.flatten_append, List.flatten_cons, List.sum_append, List.map_map]
          have : (u.map (List.length ∘ Prod.snd)).sum = (u.map fun x => x.2.length).sum := rfl
          omega
        have : (chain u).length = (u.map fun x => x.2.length).sum := by
          unfold chain
          rw [List.length_flatten, List.map_map]
          congr 1
          apply List.map_congr_left
          intro x _
          simp [orient_length]
        omega
      have hgood : ∀ u ∈ used, ∀ p ∈ chain u, p.x ≠ 0 := by
        intro u hu p hp
        unfold chain at hp
        rw [List.mem_flatten] at hp
        obtain ⟨q, hq, hp⟩ := hp
        obtain ⟨x, hx, rfl⟩ := List.mem_map.1 hq
        have ho := (h2 u hu).1 x hx
        have hpx : ∃ p' ∈ x.2, p'.x = p.x := by
          unfold orient at hp
          split_ifs at hp
          · unfold reversePath at hp
            obtain ⟨p', hp', rfl⟩ := List.mem_map.1 hp
            exact ⟨p', List.mem_reverse.1 hp', rfl⟩
          · exact ⟨p, hp, rfl⟩
        obtain ⟨p', hp', e⟩ := hpx
        rw [← e]
        intro h0
        have := ho.offAxis p' hp'
        rw [h0, abs_zero] at this
        norm_num at this
      have hcomb : ∀ (bufs : List (List (Pt ℝ))) (us : List (List (Bool × List (Pt ℝ)))),
          List.Forall₂ (fun buf u => Holds (4 * N) buf (chain u)) bufs us →
          (∀ u ∈ us, (chain u).length + 1 ≤ 4 * N) → (∀ u ∈ us, ∀ p ∈ chain u, p.x ≠ 0) →
          List.Forall₂ (fun a b => ((fun c : List (ℝ × ℝ) × ℝ => integrateUnif c.1
            (lastNonzero (c.1.map Prod.fst)) * c.2) ∘ closeContour) a = contourTerm (chain b)) bufs us := by
        intro bufs us h
        induction h with
        | nil => intro _ _; exact List.Forall₂.nil
        | cons hh _ ih =>
          intro ha hb
          refine List.Forall₂.cons ?_ (ih (fun u hu => ha u (List.mem_cons_of_mem _ hu))
            (fun u hu => hb u (List.mem_cons_of_mem _ hu)))
          exact open_term (4 * N) _ _ hh (hb _ (by simp)) (ha _ (by simp)) (by omega)
      exact hcomb _ _ h1 hcapu hgood
    · rw [← h1.length_eq]
      have : ∀ (c n : ℕ) (segs : List (List (Pt ℝ))) (t : List ℕ), (contourLoop geometry c n segs t).length = c := by
        intro c
        induction c with
        | zero => intro n s t; rfl
        | succ c ih => intro n s t; simp [contourLoop, ih]
      unfold mergeOpenSegments
      simp only
      rw [this]

/-- a closed and an open track that meet the hypotheses -/
example :
    let c : List (Pt3 ℝ) := [⟨2, 0, 1, 1⟩, ⟨2, 1/20, 1, 1⟩, ⟨2, 0, 1, 1⟩]
    let o : List (Pt3 ℝ) := [0, ⟨1, 0, 1, 1⟩, ⟨1, 1/20, 1, 1⟩]
    isClosed c = true ∧ isClosed o = false ∧ Masked c ∧ Masked o ∧ OpenTrack o ∧ (runs o).length ≤ 10 ∧
      longRuns [c, o] = [[⟨1, 0, 1⟩, ⟨1, 1/20, 1⟩]] := by
  have hc : isClosed ([⟨2, 0, 1, 1⟩, ⟨2, 1/20, 1, 1⟩, ⟨2, 0, 1, 1⟩] : List (Pt3 ℝ)) = true := by
    simp [isClosed]
  have ho : isClosed ([0, ⟨1, 0, 1, 1⟩, ⟨1, 1/20, 1, 1⟩] : List (Pt3 ℝ)) = false := by
    simp [isClosed, Pt3.zero_def]
  have hr : runs ([0, ⟨1, 0, 1, 1⟩, ⟨1, 1/20, 1, 1⟩] : List (Pt3 ℝ)) = [[⟨1, 0, 1, 1⟩, ⟨1, 1/20, 1, 1⟩]] := by
    have hj : Spec.Joined (⟨1, 0, 1, 1⟩ : Pt3 ℝ) ⟨1, 1/20, 1, 1⟩ := by
      unfold Spec.Joined; norm_num
    have h1 := runsFrom_single 2 (⟨1, 1/20, 1, 1⟩ : Pt3 ℝ) (by norm_num)
    unfold runs
    rw [runsFrom_cons_invalid _ _ _ (by rfl), runsFrom, if_neg (by norm_num), h1, addRun, if_pos hj]
    rfl
  refine ⟨hc, ho, ?_, ?_, ⟨?_, ?_, ?_⟩, by rw [hr]; simp, ?_⟩
  · intro s hs
    simp only [List.mem_cons, List.not_mem_nil, or_false] at hs
    rcases hs with rfl | rfl | rfl <;> exact Or.inr rfl
  · intro s hs
    simp only [List.mem_cons, List.not_mem_nil, or_false] at hs
    rcases hs with rfl | rfl | rfl
    · exact Or.inl rfl
    · exact Or.inr rfl
    · exact Or.inr rfl
  · intro s hs hm
    simp only [List.mem_cons, List.not_mem_nil, or_false] at hs
    rcases hs with rfl | rfl | rfl
    · exact absurd rfl hm
    · norm_num
    · norm_num
  · intro s hs hm
    simp only [List.mem_cons, List.not_mem_nil, or_false] at hs
    rcases hs with rfl | rfl | rfl
    · exact absurd rfl hm
    · exact Or.inl rfl
    · exact Or.inl rfl
  · rw [List.isChain_cons_cons, List.isChain_cons_cons]
    refine ⟨fun h => absurd rfl h, ?_, by simp⟩
    intro _ _ h
    rw [Prod.mk.injEq] at h
    norm_num at h
  · unfold longRuns
    rw [List.filter_cons_of_neg (by rw [hc]; decide), List.filter_cons_of_pos (by rw [ho]; rfl), List.filter_nil,
      List.flatMap_cons, List.flatMap_nil, hr, List.append_nil, List.filter_cons_of_pos (by simp), List.filter_nil]
    rfl

end Microjax.Props
