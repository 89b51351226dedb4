import Verif.Props.Limb

/-!
# The tracks of the limb images follow the image branches

If the images move little from one limb sample to the next compared with their mutual distances, `_permute_images` puts
the same branch in the same row of all columns.
-/

noncomputable section

namespace Microjax.Props

open Complex Spec Limb Jnp

/-- A greedy matching of points with well separated candidates close to them finds the right candidates. -/
theorem greedy_near {d : ℕ} (P : Fin d → ℂ) (X : Fin d → ℂ × Bool × ℝ) (σ : Equiv.Perm (Fin d)) (ε : ℝ)
    (hnear : ∀ i, ‖(X (σ i)).1 - P i‖ ≤ ε) (hfar : ∀ i j, j ≠ σ i → ε < ‖(X j).1 - P i‖)
    (c : List (ℂ × Bool × ℝ)) (hc : c.Perm (List.ofFn X)) (r : List ℕ)
    (hr : IsGreedyMatching (fun a b : ℂ => ‖b - a‖) (List.ofFn P) (c.map fun q => q.1) r) (cur : List (ℂ × Bool × ℝ))
    (hcur : List.Forall₂ (fun i q => c[i]? = some q) r cur) : cur = List.ofFn fun i => X (σ i) := by
  have hrl : r.length = d := by rw [hr.length, List.length_ofFn]
  have hcl : cur.length = d := by rw [← hcurlen hcur, hrl]
  have hget : ∀ (i : ℕ) (hi : i < d), c[r[i]'(by omega)]? = some (cur[i]'(by omega)) := fun i hi => by
    have := hcur.get (by omega : i < r.length) (by omega : i < cur.length)
    simpa using this
  have key : ∀ (i : ℕ) (hi : i < d), cur[i]'(by omega) = X (σ ⟨i, hi⟩) := by
    intro i
    induction i using Nat.strong_induction_on with
    | _ i ih =>
      intro hi
      -- the right candidate
      have hmem : X (σ ⟨i, hi⟩) ∈ c := hc.mem_iff.mpr (List.mem_ofFn.mpr ⟨_, rfl⟩)
      obtain ⟨j, hj, hjX⟩ := List.getElem_of_mem hmem
      have hfree : j ∉ r.take i := by
        intro hjr
        obtain ⟨k, hk, hkj⟩ := List.getElem_of_mem hjr
        have hki : k < i := by rw [List.length_take] at hk; omega
        rw [List.getElem_take] at hkj
        have h1 := hget k (by omega)
        rw [hkj, List.getElem?_eq_getElem hj, hjX, Option.some.injEq, ih k hki (by omega)] at h1
        have hne : σ ⟨i, hi⟩ ≠ σ ⟨k, by omega⟩ := by
          intro h
          have := σ.injective h
          rw [Fin.mk.injEq] at this; omega
        have h2 := hfar ⟨k, by omega⟩ (σ ⟨i, hi⟩) hne
        rw [h1] at h2
        exact absurd (hnear ⟨k, by omega⟩) (not_le.mpr h2)
      have h3 := hr.nearest i (P ⟨i, hi⟩) (by rw [List.getElem?_ofFn]; simp [hi]) (r[i]'(by omega))
        (List.getElem?_eq_getElem _) (cur[i]'(by omega)).1 (by rw [List.getElem?_map, hget i hi]; rfl) j (X (σ ⟨i, hi⟩)).1
        (by rw [List.getElem?_map, List.getElem?_eq_getElem hj, hjX]; rfl) hfree
      have h4 := h3.trans (hnear ⟨i, hi⟩)
      -- the chosen one is a branch; only the right one is close
      have hmem2 : cur[i]'(by omega) ∈ c := List.mem_of_getElem? (hget i hi)
      obtain ⟨l, hl⟩ := List.mem_ofFn.mp (hc.mem_iff.mp hmem2)
      by_cases hls : l = σ ⟨i, hi⟩
      · rw [← hl, hls]
      · have := hfar ⟨i, hi⟩ l hls
        rw [hl] at this
        exact absurd h4 (not_le.mpr this)
  apply List.ext_getElem
  · rw [hcl, List.length_ofFn]
  · intro i h1 h2
    rw [key i (by omega), List.getElem_ofFn]
where
  hcurlen {r : List ℕ} {cur c : List (ℂ × Bool × ℝ)} (h : List.Forall₂ (fun i q => c[i]? = some q) r cur) :
      r.length = cur.length := h.length_eq

/-- A reordering of the values of an injective family. -/
theorem perm_ofFn {α : Type*} {d : ℕ} (X : Fin d → α) (hX : Function.Injective X) (l : List α) (h : l.Perm (List.ofFn X)) :
    ∃ σ : Equiv.Perm (Fin d), l = List.ofFn fun i => X (σ i) := by
  have hl : l.length = d := by rw [h.length_eq, List.length_ofFn]
  have hnd : l.Nodup := h.nodup_iff.mpr (List.nodup_ofFn.mpr hX)
  have hm : ∀ i : Fin d, ∃ j, X j = l[i.1]'(by omega) := fun i =>
    List.mem_ofFn.mp (h.mem_iff.mp (List.getElem_mem _))
  choose τ hτ using hm
  have hinj : Function.Injective τ := by
    intro i j hij
    have : l[i.1]'(by omega) = l[j.1]'(by omega) := by rw [← hτ, ← hτ, hij]
    exact Fin.ext ((List.Nodup.getElem_inj_iff hnd).mp this)
  refine ⟨Equiv.ofBijective τ (Finite.injective_iff_bijective.mp hinj), ?_⟩
  apply List.ext_getElem
  · rw [hl, List.length_ofFn]
  · intro i h1 h2
    rw [List.getElem_ofFn]
    simp [hτ]

/-- The rows of `_permute_images` follow the branches. -/
theorem permute_branches {d : ℕ} (cols : List (List (ℂ × Bool × ℝ))) (X : ℕ → Fin d → ℂ × Bool × ℝ) (ρ : ℕ → Fin d → ℂ)
    (μ ν δ : ℝ) (hX : ∀ (k : ℕ) (c : List (ℂ × Bool × ℝ)), cols[k]? = some c → c.Perm (List.ofFn (X k)))
    (hν : ∀ k < cols.length, ∀ j, ‖(X k j).1 - ρ k j‖ ≤ ν) (hμ : ∀ k, k + 1 < cols.length → ∀ j, ‖ρ (k + 1) j - ρ k j‖ ≤ μ)
    (hδ : ∀ k < cols.length, ∀ i j, i ≠ j → δ ≤ ‖ρ k i - ρ k j‖) (hsmall : 2 * μ + 4 * ν < δ) (hμ0 : 0 ≤ μ) :
    ∃ σ : Equiv.Perm (Fin d), (permuteImages cols).length = cols.length ∧ ∀ k < cols.length,
      (permuteImages cols)[k]? = some (List.ofFn fun i => X k (σ i)) := by
  have hd : ∀ c ∈ cols, c.length = d := by
    intro c hc
    obtain ⟨k, hk, rfl⟩ := List.getElem_of_mem hc
    rw [(hX k _ (List.getElem?_eq_getElem hk)).length_eq, List.length_ofFn]
  obtain ⟨hp, hm⟩ := C46_permute d cols hd
  have hlen : (permuteImages cols).length = cols.length := hp.length_eq
  rcases Nat.eq_zero_or_pos cols.length with h0 | h0
  · exact ⟨1, hlen, fun k hk => by omega⟩
  have hν0 : ∀ j : Fin d, 0 ≤ ν := fun j => (norm_nonneg _).trans (hν 0 h0 j)
  have hinj : ∀ k < cols.length, Function.Injective (X k) := by
    intro k hk i j hij
    by_contra hne
    have h1 := hδ k hk i j hne
    have h2 : ‖ρ k i - ρ k j‖ ≤ ν + ν := by
      have : ρ k i - ρ k j = ((X k j).1 - ρ k j) - ((X k i).1 - ρ k i) := by rw [hij]; ring
      rw [this]
      exact (norm_sub_le _ _).trans (add_le_add (hν k hk j) (hν k hk i))
    linarith [hν0 i]
  have hperm : ∀ k (hk : k < cols.length), ((permuteImages cols)[k]'(by omega)).Perm (List.ofFn (X k)) := by
    intro k hk
    have := hp.get (by omega : k < (permuteImages cols).length) hk
    simp only [List.get_eq_getElem] at this
    exact this.trans (hX k _ (List.getElem?_eq_getElem hk))
  obtain ⟨σ, hσ⟩ := perm_ofFn (X 0) (hinj 0 h0) _ (hperm 0 h0)
  refine ⟨σ, hlen, fun k hk => ?_⟩
  induction k with
  | zero => rw [List.getElem?_eq_getElem (by omega), hσ]
  | succ k ih =>
    have ih' := ih (by omega)
    have hcur := List.getElem?_eq_getElem (by omega : k + 1 < (permuteImages cols).length)
    have hc := List.getElem?_eq_getElem hk
    obtain ⟨r, hr, hf⟩ := hm k _ _ _ ih' hcur hc
    rw [hcur]
    congr 1
    have e : (List.ofFn fun i => X k (σ i)).map (fun q => q.1) = List.ofFn fun i => (X k (σ i)).1 := by
      rw [List.map_ofFn]; rfl
    rw [e] at hr
    have hnear : ∀ j, ‖(X (k + 1) j).1 - (X k j).1‖ ≤ μ + 2 * ν := by
      intro j
      have e : (X (k + 1) j).1 - (X k j).1
          = ((X (k + 1) j).1 - ρ (k + 1) j) + (ρ (k + 1) j - ρ k j) - ((X k j).1 - ρ k j) := by ring
      rw [e]
      have := (norm_sub_le (((X (k + 1) j).1 - ρ (k + 1) j) + (ρ (k + 1) j - ρ k j)) ((X k j).1 - ρ k j))
      have := norm_add_le ((X (k + 1) j).1 - ρ (k + 1) j) (ρ (k + 1) j - ρ k j)
      linarith [hν k (by omega) j, hν (k + 1) hk j, hμ k hk j]
    refine greedy_near (fun i => (X k (σ i)).1) (X (k + 1)) σ (μ + 2 * ν) (fun i => hnear (σ i)) (fun i j hj => ?_) _
      (hX (k + 1) _ hc) r hr _ hf
    have h1 := hδ (k + 1) hk j (σ i) hj
    have e : ρ (k + 1) j - ρ (k + 1) (σ i) = ((X (k + 1) j).1 - (X k (σ i)).1) - ((X (k + 1) j).1 - ρ (k + 1) j)
        + ((X k (σ i)).1 - ρ k (σ i)) - (ρ (k + 1) (σ i) - ρ k (σ i)) := by ring
    have h2 : ‖ρ (k + 1) j - ρ (k + 1) (σ i)‖ ≤ ‖(X (k + 1) j).1 - (X k (σ i)).1‖ + ν + ν + μ := by
      rw [e]
      refine (norm_sub_le _ _).trans (add_le_add ((norm_add_le _ _).trans (add_le_add ((norm_sub_le _ _).trans
        (add_le_add le_rfl (hν _ hk j))) (hν k (by omega) _))) (hμ k hk _))
    linarith

/-- The columns before the reordering: they hold the solver output at the limb angles up to the shift of duplicates. -/
theorem limb_columns (d : ℕ) (seq : List ℝ → List (List (ℂ × Bool))) (fn : ℝ → List ℂ → List (ℂ × Bool)) (det : ℂ → ℝ)
    (noise : ℕ → ℕ → ℝ) (npts niter : ℕ) (hnpts : 4 ≤ npts) (hmax : npts ≤ 2 * 10 ^ 8) (hniter : 2 ≤ niter)
    (hseq : ∀ th, (seq th).length = th.length) (hd1 : ∀ th, ∀ c ∈ seq th, c.length = d)
    (hd2 : ∀ t zi, (fn t zi).length = d) :
    ∃ (Q : List Sample) (cols : List (List (ℂ × Bool × ℝ))), LimbSampling seq fn (npts / 2) Q ∧
      Q.length = npts / 2 + niter * (npts / 2 / niter) ∧
      imagesOfSourceLimb seq fn det noise npts niter = permuteImages cols ∧ cols.length = Q.length ∧
      ∀ (k : ℕ) c q, cols[k]? = some c → Q[k]? = some q → c.length = d ∧ q.2.length = d ∧
      ∀ (i : ℕ) z m p, c[i]? = some (z, m, p) → ∃ z0, (triples det q.2)[i]? = some (z0, m, p) ∧
        (z = z0 ∨ z = z0 + (noise i k : ℂ)) := by
  obtain ⟨Q, hA, hQ, hQl⟩ := C45_sampling seq fn det npts niter hnpts hmax hniter hseq
  have hqd : ∀ q ∈ Q, q.2.length = d := by
    intro q hq
    rcases hQ.solved q hq with h | ⟨zi, h⟩
    · exact hd1 _ _ (List.of_mem_zip h).2
    · rw [h, hd2]
  set s := sampling seq fn det npts niter with hs
  set cols := stack (dedupe noise s.z) s.mask s.parity with hcols
  have hzl : (dedupe noise s.z).length = Q.length := by
    unfold dedupe; simp [hA.z]
  have hcl : cols.length = Q.length := by
    rw [hcols]; unfold stack
    rw [List.length_zipWith, List.length_zipWith, hzl, hA.mask, hA.parity]; simp
  refine ⟨Q, cols, hQ, hQl, rfl, hcl, ?_⟩
  intro k c q hc hq
  obtain ⟨hk, rfl⟩ := List.getElem?_eq_some_iff.1 hq
  have hqk := hqd _ (List.getElem_mem hk)
  have hzk : (dedupe noise s.z)[k]? = some ((Q[k].2.map Prod.fst).mapIdx fun i v =>
      open Classical in if ∃ i' k' : ℕ, k' < s.z.length ∧ i' < (s.z.getD k' []).length ∧
        (i' < i ∨ (i' = i ∧ k' < k)) ∧ (s.z.getD k' []).getD i' 0 = v
      then v + (noise i k : ℂ) else v) := by
    unfold dedupe
    simp only
    rw [List.getElem?_mapIdx]
    have : s.z[k]? = some (Q[k].2.map Prod.fst) := by
      rw [hA.z, List.getElem?_map, List.getElem?_eq_getElem hk]; rfl
    rw [this]
    rfl
  have hmk : s.mask[k]? = some (Q[k].2.map Prod.snd) := by
    rw [hA.mask, List.getElem?_map, List.getElem?_eq_getElem hk]; rfl
  have hpk : s.parity[k]? = some (Q[k].2.map fun i => ((SignType.sign (det i.1) : SignType) : ℝ)) := by
    rw [hA.parity, List.getElem?_map, List.getElem?_eq_getElem hk]; rfl
  rw [hcols] at hc
  unfold stack at hc
  rw [List.getElem?_zipWith, List.getElem?_zipWith, hzk, hmk, hpk] at hc
  simp only [Option.some.injEq] at hc
  subst hc
  refine ⟨by simp [hqk], hqk, ?_⟩
  intro i z m p hi
  rw [List.getElem?_zipWith] at hi
  unfold triples
  rw [List.getElem?_map]
  rw [List.getElem?_mapIdx, List.getElem?_map, List.zip_map', List.getElem?_map] at hi
  cases hqi : Q[k].2[i]? with
  | none => rw [hqi] at hi; simp at hi
  | some v =>
    rw [hqi] at hi
    simp only [Option.map_some, Option.some.injEq, Prod.mk.injEq] at hi
    obtain ⟨h1, h2, h3⟩ := hi
    refine ⟨v.1, by rw [← h2, ← h3]; rfl, ?_⟩
    rw [← h1]
    split_ifs
    · exact Or.inr rfl
    · exact Or.inl rfl

end Microjax.Props
