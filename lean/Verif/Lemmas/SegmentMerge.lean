import Verif.Lemmas.Segments
import Verif.Props.Utils
import Mathlib.Data.List.Perm.Basic
import Mathlib.Tactic.Linarith

/-! # The stitching loop: invariant -/

set_option linter.unusedVariables false
set_option linter.unusedSectionVars false

namespace Microjax.Props

open Microjax.Spec Segments Jnp Utils

variable {K : Type*} [Field K] [LinearOrder K]

/-- What the stitching loop needs from the geometric functions: `Good` points and acceptable segments `Seg`. -/
structure Sound (g : Geometry K) (L : ℕ) (Good : Pt K → Prop) (Seg : List (Pt K) → Prop)
    (Near : Pt K → Pt K → Prop) : Prop where
  good : ∀ s, Good s → s.x ≠ 0
  goodNeg : ∀ s, Good s → Good ⟨s.x, s.y, -s.p⟩
  seg_good : ∀ a, Seg a → ∀ s ∈ a, Good s
  seg_len : ∀ a, Seg a → 2 ≤ a.length
  seg_parity : ∀ a, Seg a → ∃ σ : K, (σ = 1 ∨ σ = -1) ∧ HasParity σ a
  empty : ∀ s1 s2 a t2 c, Holds L s1 a → 2 ≤ a.length → (∀ s ∈ a, Good s) → Holds L s2 [] →
    g.connect s1 s2 (a.length - 1) t2 c = false
  parity : ∀ s1 s2 t1 t2 c, g.connect s1 s2 t1 t2 c = true →
    (c ≤ 1 → (Jnp.get 0 s1 0).p * (Jnp.get 0 s2 0).p > 0) ∧
    (2 ≤ c → ¬ (Jnp.get 0 s1 0).p * (Jnp.get 0 s2 0).p > 0)
  near_symm : ∀ s t, Near s t → Near t s
  near_pos : ∀ s t p p', Near s t → Near ⟨s.x, s.y, p⟩ ⟨t.x, t.y, p'⟩
  seg_path : ∀ a, Seg a → a.IsChain Near
  join : ∀ s1 s2 a b c, Holds L s1 a → Holds L s2 b → 2 ≤ a.length → 2 ≤ b.length →
    g.connect s1 s2 (a.length - 1) (b.length - 1) c = true →
    (c = 0 → ∀ u ∈ a.getLast?, ∀ v ∈ b.head?, Near u v) ∧ (c = 1 → ∀ u ∈ b.getLast?, ∀ v ∈ a.head?, Near u v) ∧
    (c = 2 → ∀ u ∈ b.head?, ∀ v ∈ a.head?, Near u v) ∧ (3 ≤ c → ∀ u ∈ a.getLast?, ∀ v ∈ b.getLast?, Near u v)
  len_zero : ∀ s t, Holds L s [] → g.length s t = 0
  len_pos : ∀ s a, Holds L s a → Seg a → g.length s (a.length - 1) ≠ 0

/-- Invariant of the stitching loop: the active buffer holds the chain `used`, the others hold `rest`. -/
structure MergeInv (L : ℕ) (Seg : List (Pt K) → Prop) (Near : Pt K → Pt K → Prop) (s : MergeState K)
    (used : List (Bool × List (Pt K))) (rest : List (List (Pt K))) : Prop where
  used_seg : ∀ u ∈ used, Seg u.2
  hold : Holds L s.active (chain used)
  tidx : used ≠ [] → s.tidx = (chain used).length - 1
  len1 : s.segments.length = rest.length
  len2 : s.tidcs.length = rest.length
  each : ∀ (i : ℕ) q r, s.segments[i]? = some q → rest[i]? = some r → Holds L q r
  seg : ∀ (i : ℕ) t r, s.tidcs[i]? = some t → rest[i]? = some r → r = [] ∨ (Seg r ∧ t = r.length - 1)
  cap : (chain used).length + (rest.map List.length).sum ≤ L
  empty_all : used = [] → ∀ r ∈ rest, r = []
  parity : ∃ σ : K, (σ = 1 ∨ σ = -1) ∧ HasParity σ (chain used)
  path : (chain used).IsChain Near

/-- The non-empty segments, used or not. -/
def inventory (used : List (Bool × List (Pt K))) (rest : List (List (Pt K))) : List (List (Pt K)) :=
  (used.map Prod.snd ++ rest).filter fun r => !r.isEmpty

theorem mem_chain (used : List (Bool × List (Pt K))) (Good : Pt K → Prop)
    (hneg : ∀ s, Good s → Good ⟨s.x, s.y, -s.p⟩) (h : ∀ u ∈ used, ∀ s ∈ u.2, Good s) :
    ∀ s ∈ chain used, Good s := by
  intro s hs
  simp only [chain, List.mem_flatten, List.mem_map] at hs
  obtain ⟨l, ⟨u, hu, rfl⟩, hs⟩ := hs
  rcases hb : u.1 with _ | _
  · rw [hb] at hs; exact h u hu s (by simpa [orient] using hs)
  · rw [hb] at hs
    simp only [orient, if_true, reversePath, List.mem_map, List.mem_reverse] at hs
    obtain ⟨t, ht, rfl⟩ := hs
    exact hneg t (h u hu t ht)

theorem chain_two_le (used : List (Bool × List (Pt K))) (hne : used ≠ []) (h : ∀ u ∈ used, 2 ≤ u.2.length) :
    2 ≤ (chain used).length := by
  cases used with
  | nil => exact absurd rfl hne
  | cons u l =>
    rw [chain_cons, List.length_append, orient_length]
    have := h u (by simp)
    omega

theorem inventory_step (used used' : List (Bool × List (Pt K))) (rest : List (List (Pt K))) (j : ℕ)
    (r : List (Pt K)) (o : Bool) (hj : rest[j]? = some r)
    (hu : used' = used ++ [(o, r)] ∨ used' = (o, r) :: used) :
    (inventory used' (rest.set j [])).Perm (inventory used rest) := by
  obtain ⟨hjl, hjr⟩ := List.getElem?_eq_some_iff.1 hj
  have p1 : (rest.set j []).Perm ([] :: rest.eraseIdx j) := List.set_perm_cons_eraseIdx hjl _
  have p2 : (r :: rest.eraseIdx j).Perm rest := by
    have := List.getElem_cons_eraseIdx_perm hjl
    rwa [hjr] at this
  have pu : (used'.map Prod.snd).Perm (r :: used.map Prod.snd) := by
    rcases hu with rfl | rfl
    · rw [List.map_append]; exact List.perm_append_singleton _ _
    · exact List.Perm.refl _
  have : (used'.map Prod.snd ++ rest.set j []).Perm ([] :: (used.map Prod.snd ++ rest)) := by
    refine (pu.append p1).trans ?_
    refine List.Perm.trans ?_ ((List.Perm.append_left (used.map Prod.snd) p2).cons [])
    rw [List.cons_append]
    refine (List.perm_middle.cons r).trans ?_
    refine (List.Perm.swap _ _ _).trans ?_
    exact (List.perm_middle.symm).cons []
  have h2 := this.filter (fun r => !r.isEmpty)
  simpa [inventory] using h2

theorem sum_length_set (rest : List (List (Pt K))) (j : ℕ) (r : List (Pt K)) (hj : rest[j]? = some r) :
    ((rest.set j []).map List.length).sum + r.length = (rest.map List.length).sum := by
  obtain ⟨hjl, hjr⟩ := List.getElem?_eq_some_iff.1 hj
  have p1 : (rest.set j []).Perm ([] :: rest.eraseIdx j) := List.set_perm_cons_eraseIdx hjl _
  have p2 : (r :: rest.eraseIdx j).Perm rest := by
    have := List.getElem_cons_eraseIdx_perm hjl
    rwa [hjr] at this
  rw [(p1.map List.length).sum_eq, ← (p2.map List.length).sum_eq]
  simp; omega

theorem head_mem_parity {σ : K} {L : ℕ} {s a : List (Pt K)} (h : Holds L s a) (hne : a ≠ [])
    (hp : HasParity σ a) : (Jnp.get 0 s 0).p = σ := by
  have hpos : 0 < a.length := List.length_pos_iff.2 hne
  rw [holds_get h 0 hpos]
  exact hp _ (List.getElem_mem hpos)

theorem hasParity_append {σ : K} {a b : List (Pt K)} (ha : HasParity σ a) (hb : HasParity σ b) :
    HasParity σ (a ++ b) := by
  intro s hs
  rcases List.mem_append.1 hs with h | h
  · exact ha s h
  · exact hb s h

theorem hasParity_reversePath {σ : K} {a : List (Pt K)} (ha : HasParity σ a) :
    HasParity (-σ) (reversePath a) := by
  intro s hs
  simp only [reversePath, List.mem_map, List.mem_reverse] at hs
  obtain ⟨t, ht, rfl⟩ := hs
  simp [ha t ht]

theorem isChain_reversePath (Near : Pt K → Pt K → Prop) (hs : ∀ s t, Near s t → Near t s)
    (hp : ∀ s t p p', Near s t → Near ⟨s.x, s.y, p⟩ ⟨t.x, t.y, p'⟩) (a : List (Pt K)) (h : a.IsChain Near) :
    (reversePath a).IsChain Near := by
  unfold reversePath
  rw [List.isChain_map, List.isChain_reverse]
  exact h.imp fun x y hxy => hp y x _ _ (hs x y hxy)

theorem getLast_reversePath (a : List (Pt K)) : ∀ u ∈ (reversePath a).getLast?,
    ∃ u' ∈ a.head?, u = ⟨u'.x, u'.y, -u'.p⟩ := by
  intro u hu
  cases a with
  | nil => simp [reversePath] at hu
  | cons x l => simp [reversePath] at hu ⊢; exact hu.symm

theorem head_reversePath (a : List (Pt K)) : ∀ u ∈ (reversePath a).head?,
    ∃ u' ∈ a.getLast?, u = ⟨u'.x, u'.y, -u'.p⟩ := by
  intro u hu
  unfold reversePath at hu
  rw [List.head?_map, List.head?_reverse, Option.mem_def, Option.map_eq_some_iff] at hu
  obtain ⟨u', h1, h2⟩ := hu
  exact ⟨u', h1, h2.symm⟩

variable [IsStrictOrderedRing K]

/-- one merge keeps the invariant -/
theorem merge_step (g : Geometry K) (L : ℕ) (Good : Pt K → Prop) (Seg : List (Pt K) → Prop)
    (Near : Pt K → Pt K → Prop) (hg : Sound g L Good Seg Near) (s : MergeState K) (used : List (Bool × List (Pt K)))
    (rest : List (List (Pt K))) (hI : MergeInv L Seg Near s used rest) (hne : used ≠ []) (j c : ℕ) (hj : j < rest.length)
    (hc : g.connect s.active (Jnp.get [] s.segments j) s.tidx (Jnp.get 0 s.tidcs j) c = true) :
    ∃ used' rest', MergeInv L Seg Near
      { active := (mergeTwoSegments s.active (Jnp.get [] s.segments j) s.tidx (Jnp.get 0 s.tidcs j) c).1,
        tidx := (mergeTwoSegments s.active (Jnp.get [] s.segments j) s.tidx (Jnp.get 0 s.tidcs j) c).2,
        segments := s.segments.set j ((Jnp.get [] s.segments j).map fun _ => 0),
        tidcs := s.tidcs } used' rest' ∧ (used' ≠ []) ∧
      (inventory used' rest').Perm (inventory used rest) := by
  have hj1 : j < s.segments.length := by rw [hI.len1]; exact hj
  have hj2 : j < s.tidcs.length := by rw [hI.len2]; exact hj
  rw [get_of_lt _ _ hj1, get_of_lt _ _ hj2] at hc ⊢
  set q := s.segments[j] with hq
  set t := s.tidcs[j] with ht
  set r := rest[j] with hr
  have hqr : Holds L q r := hI.each j q r (List.getElem?_eq_getElem hj1) (List.getElem?_eq_getElem hj)
  have hgoodU : ∀ x ∈ chain used, Good x :=
    mem_chain used Good hg.goodNeg fun u hu => hg.seg_good u.2 (hI.used_seg u hu)
  have hlenU : 2 ≤ (chain used).length :=
    chain_two_le used hne fun u hu => hg.seg_len u.2 (hI.used_seg u hu)
  have hchne : chain used ≠ [] := by intro h; rw [h] at hlenU; simp at hlenU
  have htidx := hI.tidx hne
  have hrne : r ≠ [] := by
    intro h
    rw [h] at hqr
    rw [htidx, hg.empty _ _ _ _ _ hI.hold hlenU hgoodU hqr] at hc
    exact absurd hc (by decide)
  obtain ⟨hseg, htr⟩ : Seg r ∧ t = r.length - 1 := by
    rcases hI.seg j t r (List.getElem?_eq_getElem hj2) (List.getElem?_eq_getElem hj) with h | h
    · exact absurd h hrne
    · exact h
  have hgoodR : ∀ x ∈ r, Good x := hg.seg_good r hseg
  have hlenR : 2 ≤ r.length := hg.seg_len r hseg
  have hzU : ∀ x ∈ chain used, isZeroPos x = false := fun x hx => by
    simp [isZeroPos, hg.good x (hgoodU x hx)]
  have hzR : ∀ x ∈ r, isZeroPos x = false := fun x hx => by
    simp [isZeroPos, hg.good x (hgoodR x hx)]
  have hsum := sum_length_set rest j r (List.getElem?_eq_getElem hj)
  have hcap := hI.cap
  have hLL : (chain used).length + r.length ≤ L := by omega
  obtain ⟨σ, hσ, hpU⟩ := hI.parity
  obtain ⟨τ, hτ, hpR⟩ := hg.seg_parity r hseg
  have hpar := hg.parity _ _ _ _ _ hc
  rw [head_mem_parity hI.hold hchne hpU, head_mem_parity hqr hrne hpR] at hpar
  have hrevR := reverse_holds L q r hqr hrne
  have hzRev := isZeroPos_reversePath r hzR
  -- everything except the active part
  have build : ∀ (used' : List (Bool × List (Pt K))) (o : Bool) (act : List (Pt K)) (ti : ℕ),
      (used' = used ++ [(o, r)] ∨ used' = (o, r) :: used) → Holds L act (chain used') →
      ti = (chain used).length - 1 + (r.length - 1) + 1 → HasParity σ (orient o r) →
      (chain used').IsChain Near →
      ∃ used' rest', MergeInv L Seg Near
        { active := act, tidx := ti, segments := s.segments.set j (q.map fun _ => 0), tidcs := s.tidcs }
        used' rest' ∧ (used' ≠ []) ∧ (inventory used' rest').Perm (inventory used rest) := by
    intro used' o act ti hu hact hti hpo hpath
    have hcl : (chain used').length = (chain used).length + r.length := by
      rcases hu with rfl | rfl
      · rw [chain_append, List.length_append, chain_single, orient_length]
      · rw [chain_cons, List.length_append, orient_length]; simp; omega
    have hune : used' ≠ [] := by rcases hu with rfl | rfl <;> simp
    refine ⟨used', rest.set j [], ?_, hune, inventory_step used used' rest j r o (List.getElem?_eq_getElem hj) hu⟩
    refine ⟨?_, hact, ?_, ?_, ?_, ?_, ?_, ?_, ?_, ?_, hpath⟩
    · intro u huu
      have : u ∈ used ∨ u = (o, r) := by
        rcases hu with rfl | rfl
        · simpa using huu
        · have := List.mem_cons.1 huu; tauto
      rcases this with h | h
      · exact hI.used_seg u h
      · rw [h]; exact hseg
    · intro _; simp only; rw [hcl, hti]; omega
    · simp [hI.len1]
    · simp [hI.len2]
    · intro i q' r' hq' hr'
      simp only at hq'
      rw [List.getElem?_set] at hq' hr'
      by_cases hij : j = i
      · subst hij
        rw [if_pos rfl, if_pos hj1] at hq'
        rw [if_pos rfl, if_pos hj] at hr'
        simp only [Option.some.injEq] at hq' hr'
        subst hr'
        rw [holds_nil, ← hq', List.map_const', holds_length hqr]
      · rw [if_neg hij] at hq' hr'
        exact hI.each i q' r' hq' hr'
    · intro i t' r' ht' hr'
      rw [List.getElem?_set] at hr'
      by_cases hij : j = i
      · subst hij
        rw [if_pos rfl, if_pos hj] at hr'
        simp only [Option.some.injEq] at hr'
        exact Or.inl hr'.symm
      · rw [if_neg hij] at hr'
        exact hI.seg i t' r' ht' hr'
    · rw [hcl]; omega
    · intro h; exact absurd h hune
    · refine ⟨σ, hσ, ?_⟩
      rcases hu with rfl | rfl
      · rw [chain_append, chain_single]; exact hasParity_append hpU hpo
      · rw [chain_cons]; exact hasParity_append hpo hpU
  have hjoin := hg.join _ _ _ _ c hI.hold hqr hlenU hlenR (by rw [← htidx, ← htr]; exact hc)
  have hpathR := hg.seg_path r hseg
  have hpathRev := isChain_reversePath Near hg.near_symm hg.near_pos r hpathR
  unfold mergeTwoSegments
  split_ifs with c0 c1 c2
  · refine build (used ++ [(false, r)]) false _ _ (Or.inl rfl) ?_ (by rw [htidx, htr]) ?_ ?_
    · rw [chain_append, chain_single]
      exact concat_holds L _ _ _ _ hI.hold hqr hzU hLL
    · have h1 := hpar.1 (by omega)
      have : τ = σ := by
        rcases hσ with rfl | rfl <;> rcases hτ with rfl | rfl <;> first | rfl | (exfalso; simp at h1; linarith)
      rw [← this]; exact hpR
    · rw [chain_append, chain_single]
      exact List.isChain_append.2 ⟨hI.path, hpathR, hjoin.1 c0⟩
  · refine build ((false, r) :: used) false _ _ (Or.inr rfl) ?_ (by rw [htidx, htr]) ?_ ?_
    · rw [chain_cons]
      exact concat_holds L _ _ _ _ hqr hI.hold hzR (by rw [orient_length]; dsimp only; omega)
    · have h1 := hpar.1 (by omega)
      have : τ = σ := by
        rcases hσ with rfl | rfl <;> rcases hτ with rfl | rfl <;> first | rfl | (exfalso; simp at h1; linarith)
      rw [← this]; exact hpR
    · rw [chain_cons]
      exact List.isChain_append.2 ⟨hpathR, hI.path, hjoin.2.1 c1⟩
  · refine build ((true, r) :: used) true _ _ (Or.inr rfl) ?_ (by rw [htidx, htr]) ?_ ?_
    · rw [chain_cons]
      rw [htr]
      exact concat_holds L _ _ _ _ hrevR hI.hold hzRev (by rw [orient_length]; dsimp only; omega)
    · have h1 := hpar.2 (by omega)
      have : -τ = σ := by
        rcases hσ with rfl | rfl <;> rcases hτ with rfl | rfl <;>
          first | rfl | (exfalso; simp at h1; done) | simp
      rw [← this]; exact hasParity_reversePath hpR
    · rw [chain_cons]
      refine List.isChain_append.2 ⟨hpathRev, hI.path, ?_⟩
      intro u hu v hv
      obtain ⟨u', hu', rfl⟩ := getLast_reversePath r u hu
      exact hg.near_pos u' v _ v.p (hjoin.2.2.1 c2 u' hu' v hv)
  · refine build (used ++ [(true, r)]) true _ _ (Or.inl rfl) ?_ (by rw [htidx, htr]) ?_ ?_
    · rw [chain_append, chain_single]
      rw [htr]
      exact concat_holds L _ _ _ _ hI.hold hrevR hzU (by rw [orient_length]; omega)
    · have h1 := hpar.2 (by omega)
      have : -τ = σ := by
        rcases hσ with rfl | rfl <;> rcases hτ with rfl | rfl <;>
          first | rfl | (exfalso; simp at h1; done) | simp
      rw [← this]; exact hasParity_reversePath hpR
    · rw [chain_append, chain_single]
      refine List.isChain_append.2 ⟨hI.path, hpathRev, ?_⟩
      intro u hu v hv
      obtain ⟨v', hv', rfl⟩ := head_reversePath r v hv
      exact hg.near_pos u v' u.p _ (hjoin.2.2.2 (by omega) u hu v' hv')

variable [Inhabited K]

/-- one pass of the loop body keeps the invariant -/
theorem body_step (g : Geometry K) (L : ℕ) (Good : Pt K → Prop) (Seg : List (Pt K) → Prop)
    (Near : Pt K → Pt K → Prop) (hg : Sound g L Good Seg Near) (s : MergeState K) (used : List (Bool × List (Pt K)))
    (rest : List (List (Pt K))) (hI : MergeInv L Seg Near s used rest) :
    ∃ used' rest', MergeInv L Seg Near (bodyFn g s) used' rest' ∧ (used = [] → used' = []) ∧
      (inventory used' rest').Perm (inventory used rest) := by
  unfold bodyFn
  split_ifs with h
  · exact ⟨used, rest, hI, id, List.Perm.refl _⟩
  · -- some remaining segment has a non-zero head
    simp only [Bool.not_eq_true', Bool.not_eq_false, List.any_eq_true] at h
    obtain ⟨q, hq, hqz⟩ := h
    have hne : used ≠ [] := by
      intro hu
      obtain ⟨i, hi, hiq⟩ := List.getElem_of_mem hq
      have hi' : i < rest.length := by rw [← hI.len1]; exact hi
      have hr : rest[i] = [] := hI.empty_all hu _ (List.getElem_mem hi')
      have := hI.each i q rest[i] (by rw [List.getElem?_eq_getElem hi, hiq]) (List.getElem?_eq_getElem hi')
      rw [hr, holds_nil] at this
      rw [this] at hqz
      have h0 : Jnp.get 0 (List.replicate L (0 : Pt K)) 0 = 0 := by
        unfold Jnp.get
        simp only [List.getD_eq_getElem?_getD, List.getElem?_replicate]
        split_ifs <;> rfl
      rw [h0] at hqz
      simp [isZeroPos, Pt.zero_def] at hqz
    have hm : 0 < s.segments.length := List.length_pos_of_mem hq
    unfold mergeWithAnother
    simp only
    split_ifs with hs
    · set cands := candidates g s with hcands
      set f : ℕ × ℕ → Bool := fun c => g.connect s.active (Jnp.get [] s.segments c.2) s.tidx
        (Jnp.get 0 s.tidcs c.2) c.1 with hf
      have hmem : true ∈ cands.map f := by
        simpa using hs
      have hlt := argmaxBool_lt hmem
      have h1 := (argmaxBool_spec hmem).1
      rw [List.length_map] at hlt
      rw [get_of_lt _ _ hlt]
      set best := cands[argmaxBool (cands.map f)] with hbest
      have hfb : f best = true := by
        rw [List.getElem?_map, List.getElem?_eq_getElem hlt] at h1
        simpa using h1
      have hbj : best.2 < rest.length := by
        rw [← hI.len1]
        have hb : best ∈ cands := List.getElem_mem hlt
        rw [hcands] at hb
        simp only [candidates, List.mem_map] at hb
        obtain ⟨k, _, hk⟩ := hb
        rw [← hk]
        exact Nat.mod_lt _ hm
      obtain ⟨u', r', h1, h2, h3⟩ := merge_step g L Good Seg Near hg s used rest hI hne best.2 best.1 hbj hfb
      exact ⟨u', r', h1, fun h => absurd h hne, h3⟩
    · exact ⟨used, rest, hI, id, List.Perm.refl _⟩

theorem scan_step (g : Geometry K) (L : ℕ) (Good : Pt K → Prop) (Seg : List (Pt K) → Prop)
    (Near : Pt K → Pt K → Prop) (hg : Sound g L Good Seg Near) (n : ℕ) (s : MergeState K) (used : List (Bool × List (Pt K)))
    (rest : List (List (Pt K))) (hI : MergeInv L Seg Near s used rest) :
    ∃ used' rest', MergeInv L Seg Near (scanBody g n s) used' rest' ∧
      (inventory used' rest').Perm (inventory used rest) := by
  unfold scanBody
  induction n with
  | zero => exact ⟨used, rest, hI, List.Perm.refl _⟩
  | succ n ih =>
    obtain ⟨u, r, h1, h2⟩ := ih
    rw [List.range_succ, List.foldl_append]
    obtain ⟨u', r', h1', _, h2'⟩ := body_step g L Good Seg Near hg _ u r h1
    exact ⟨u', r', h1', h2'.trans h2⟩

end Microjax.Props
