import Verif.Lemmas.AreaFormula
import Mathlib.Analysis.Calculus.InverseFunctionTheorem.FDeriv
import Mathlib.Analysis.Calculus.ContDiff.Operations

/-!
# The magnification is continuous off the caustics
-/

noncomputable section

namespace Microjax.Props

open Complex ComplexConjugate Microjax.Spec Filter Set
open scoped Topology

theorem contDiffAt_lensMap (L : Lenses) (z : ℂ) (h : ∀ l ∈ L, z ≠ l.2) : ContDiffAt ℝ 1 (lensMap L) z := by
  unfold lensMap
  refine contDiffAt_id.sub ?_
  induction L with
  | nil => simpa using contDiffAt_const
  | cons l L ih =>
    simp only [List.map_cons, List.sum_cons]
    refine ContDiffAt.add ?_ (ih fun k hk => h k (List.mem_cons_of_mem _ hk))
    have h1 : ContDiffAt ℝ 1 (fun x : ℂ => conj x - conj l.2) z := by
      have : ContDiff ℝ 1 fun x : ℂ => conj x := Complex.conjCLE.contDiff
      exact this.contDiffAt.sub contDiffAt_const
    have h2 : conj z - conj l.2 ≠ 0 := by
      rw [← map_sub, ne_eq, map_eq_zero]
      exact sub_ne_zero.mpr (h l List.mem_cons_self)
    simp only [div_eq_mul_inv]
    exact contDiffAt_const.mul (h1.inv h2)

/-- Near a regular image the lens map has a continuous inverse. -/
theorem image_local_inverse (L : Lenses) (w z : ℂ) (hz : IsImage L w z) (hd : ‖shear L z‖ ≠ 1) :
    ∃ g : ℂ → ℂ, ContinuousAt g w ∧ g w = z ∧ (∀ᶠ y in 𝓝 w, lensMap L (g y) = y) ∧
      ∀ᶠ x in 𝓝 z, g (lensMap L x) = x := by
  have hs := (contDiffAt_lensMap L z hz.1).hasStrictFDerivAt one_ne_zero
  rw [(hasFDerivAt_lensMap L z hz.1).fderiv] at hs
  have hdet : (antiLin (-shear L z)).det ≠ 0 := by
    rw [antiLin_det, norm_neg]
    intro h0
    exact hd ((pow_eq_one_iff_of_nonneg (norm_nonneg _) two_ne_zero).mp (by linarith))
  rw [← ContinuousLinearMap.coe_toContinuousLinearEquivOfDetNeZero _ hdet] at hs
  refine ⟨hs.localInverse _ _ _, ?_, ?_, ?_, hs.eventually_left_inverse⟩
  · have := hs.localInverse_continuousAt
    rwa [hz.2] at this
  · have := hs.localInverse_apply_image
    rwa [hz.2] at this
  · have := hs.eventually_right_inverse
    rwa [hz.2] at this

/-- Near a lens the lens map is unbounded. -/
theorem lensMap_blowup {n : ℕ} (m : Fin n → ℝ) (c : Fin n → ℂ) (hm : ∀ i, m i ≠ 0) (hinj : Function.Injective c)
    (k : Fin n) (R : ℝ) : ∀ᶠ z in 𝓝[≠] (c k), R < ‖lensMap (lensList m c) z‖ := by
  classical
  have hsplit : ∀ z, lensMap (lensList m c) z
      = (z - ∑ i ∈ Finset.univ.erase k, (m i : ℂ) / (conj z - conj (c i))) - (m k : ℂ) / (conj z - conj (c k)) := by
    intro z
    have h1 : lensMap (lensList m c) z = z - ∑ i, (m i : ℂ) / (conj z - conj (c i)) := by
      rw [lensMap, lensList, List.map_ofFn, List.sum_ofFn]; rfl
    rw [h1, ← Finset.add_sum_erase _ _ (Finset.mem_univ k)]
    ring
  have hcont : ContinuousAt (fun z => z - ∑ i ∈ Finset.univ.erase k, (m i : ℂ) / (conj z - conj (c i))) (c k) := by
    refine continuousAt_id.sub (tendsto_finsetSum _ fun i hi => ?_)
    have hne : conj (c k) - conj (c i) ≠ 0 := by
      rw [← map_sub, ne_eq, map_eq_zero]
      exact sub_ne_zero.mpr fun h => (Finset.mem_erase.mp hi).1 (hinj h.symm)
    exact continuousAt_const.div (continuous_conj.continuousAt.sub continuousAt_const) hne
  obtain ⟨B, hB⟩ : ∃ B, ∀ᶠ z in 𝓝 (c k),
      ‖z - ∑ i ∈ Finset.univ.erase k, (m i : ℂ) / (conj z - conj (c i))‖ < B := by
    exact ⟨_, (hcont.norm).eventually_lt_const (lt_add_one _)⟩
  have hbig : ∀ᶠ z in 𝓝[≠] (c k), |R| + |B| < ‖(m k : ℂ) / (conj z - conj (c k))‖ := by
    have hmk : 0 < |m k| := abs_pos.mpr (hm k)
    have h2 : ∀ᶠ z in 𝓝 (c k), ‖z - c k‖ < |m k| / (|R| + |B| + 1) := by
      have : ContinuousAt (fun z : ℂ => ‖z - c k‖) (c k) := (continuousAt_id.sub continuousAt_const).norm
      refine this.eventually_lt_const ?_
      simp only [sub_self, norm_zero]; positivity
    filter_upwards [h2.filter_mono nhdsWithin_le_nhds, self_mem_nhdsWithin] with z hz hne
    have hpos : 0 < ‖z - c k‖ := norm_pos_iff.mpr (sub_ne_zero.mpr hne)
    rw [norm_div, ← map_sub, Complex.norm_conj, Complex.norm_real, Real.norm_eq_abs, lt_div_iff₀ hpos]
    rw [lt_div_iff₀ (by positivity)] at hz
    nlinarith
  filter_upwards [hB.filter_mono nhdsWithin_le_nhds, hbig] with z h1 h2
  rw [hsplit]
  have h3 := norm_sub_norm_le ((m k : ℂ) / (conj z - conj (c k)))
    (z - ∑ i ∈ Finset.univ.erase k, (m i : ℂ) / (conj z - conj (c i)))
  rw [norm_sub_rev ((m k : ℂ) / (conj z - conj (c k)))] at h3
  linarith [le_abs_self R, le_abs_self B]

/-- The points that map into the closed unit disc about the source lie in a compact set off the lenses. -/
theorem preimage_compact (L : Lenses) (hm : ∀ l ∈ L, l.1 ≠ 0) (hL : (L.map Prod.snd).Nodup) (w : ℂ) :
    ∃ K : Set ℂ, IsCompact K ∧ (∀ z ∈ K, ∀ l ∈ L, z ≠ l.2) ∧
      ∀ z, (∀ l ∈ L, z ≠ l.2) → ‖lensMap L z - w‖ < 1 → z ∈ K := by
  have hl := list_eq_lensList L
  have hinj : Function.Injective fun i : Fin L.length => (L.get i).2 := by
    intro i j hij
    have h := List.nodup_iff_injective_get.mp hL
    have := @h ⟨i, by simp⟩ ⟨j, by simp⟩ (by simpa using hij)
    exact Fin.ext (by simpa using this)
  obtain ⟨δ, hδ, hδ'⟩ : ∃ δ > 0, ∀ z, (∀ l ∈ L, z ≠ l.2) → ‖lensMap L z - w‖ < 1 → ∀ l ∈ L, δ ≤ ‖z - l.2‖ := by
    have h1 : ∀ k : Fin L.length, ∃ δ > 0, ∀ z, z ≠ (L.get k).2 → ‖z - (L.get k).2‖ < δ → ‖w‖ + 1 < ‖lensMap L z‖ := by
      intro k
      have := lensMap_blowup (fun i : Fin L.length => (L.get i).1) (fun i => (L.get i).2)
        (fun i => hm _ (List.get_mem L i)) hinj k (‖w‖ + 1)
      rw [← hl, eventually_nhdsWithin_iff, Metric.eventually_nhds_iff] at this
      obtain ⟨ε, hε, h⟩ := this
      exact ⟨ε, hε, fun z hz hz' => h (by simpa [dist_eq_norm] using hz') hz⟩
    choose d hd hd' using h1
    obtain ⟨δ, hδ, hle⟩ : ∃ δ > 0, ∀ k, δ ≤ d k := by
      rcases isEmpty_or_nonempty (Fin L.length) with he | hne
      · exact ⟨1, one_pos, fun k => (he.false k).elim⟩
      · obtain ⟨k, hk⟩ := Finite.exists_min d
        exact ⟨d k, hd k, hk⟩
    refine ⟨δ, hδ, fun z hz hzw l hlL => ?_⟩
    obtain ⟨k, rfl⟩ := List.get_of_mem hlL
    by_contra hlt
    push Not at hlt
    have h2 := hd' k z (hz _ hlL) (lt_of_lt_of_le hlt (hle k))
    have h3 := norm_sub_norm_le (lensMap L z) w
    linarith
  obtain ⟨B, hB⟩ : ∃ B, ∀ z, ‖lensMap L z - w‖ < 1 → (∀ l ∈ L, δ ≤ ‖z - l.2‖) → ‖z‖ ≤ B := by
    have hdef : ∀ (L : Lenses) (z : ℂ), (∀ l ∈ L, δ ≤ ‖z - l.2‖) →
        ‖(L.map fun l => (l.1 : ℂ) / (conj z - conj l.2)).sum‖ ≤ (L.map fun l => |l.1| / δ).sum := by
      intro L z h
      induction L with
      | nil => simp
      | cons l L ih =>
        simp only [List.map_cons, List.sum_cons]
        refine (norm_add_le _ _).trans (add_le_add ?_ (ih fun l hl => h l (by simp [hl])))
        rw [norm_div, norm_real, Real.norm_eq_abs, ← map_sub, Complex.norm_conj]
        exact div_le_div_of_nonneg_left (abs_nonneg _) hδ (h l (by simp))
    refine ⟨1 + ‖w‖ + (L.map fun l => |l.1| / δ).sum, fun z hz hz' => ?_⟩
    have h4 : ‖z‖ ≤ ‖lensMap L z - w‖ + ‖w‖ + ‖(L.map fun l => (l.1 : ℂ) / (conj z - conj l.2)).sum‖ := by
      calc ‖z‖ = ‖(lensMap L z - w) + w + (L.map fun l => (l.1 : ℂ) / (conj z - conj l.2)).sum‖ := by
            congr 1; simp only [lensMap]; ring
        _ ≤ _ := (norm_add_le _ _).trans (by gcongr; exact norm_add_le _ _)
    linarith [hdef L z hz']
  refine ⟨{z | ‖z‖ ≤ B} ∩ ⋂ l ∈ {l | l ∈ L}, {z | δ ≤ ‖z - l.2‖}, ?_, ?_, ?_⟩
  · refine IsCompact.inter_right ?_ (isClosed_biInter fun l _ => ?_)
    · have : {z : ℂ | ‖z‖ ≤ B} = Metric.closedBall 0 B := by ext z; simp
      rw [this]; exact isCompact_closedBall _ _
    · exact isClosed_le continuous_const (continuous_id.sub continuous_const).norm
  · rintro z ⟨-, h⟩ l hl rfl
    have := mem_iInter₂.mp h l hl
    simp at this
    linarith
  · intro z h1 h2
    exact ⟨hB z h2 (hδ' z h1 h2), mem_iInter₂.mpr fun l hl => hδ' z h1 h2 l hl⟩

/-- The images of nearby sources are near the images of the source. -/
theorem images_upper (L : Lenses) (hm : ∀ l ∈ L, l.1 ≠ 0) (hL : (L.map Prod.snd).Nodup) (w : ℂ) (U : Set ℂ)
    (hU : IsOpen U) (h : ∀ z, IsImage L w z → z ∈ U) : ∀ᶠ y in 𝓝 w, ∀ z, IsImage L y z → z ∈ U := by
  obtain ⟨K, hK, hoff, hin⟩ := preimage_compact L hm hL w
  have hcomp : IsCompact (lensMap L '' (K \ U)) := by
    refine (hK.diff hU).image_of_continuousOn fun z hz => ?_
    exact (contDiffAt_lensMap L z (hoff z hz.1)).continuousAt.continuousWithinAt
  have hw : w ∉ lensMap L '' (K \ U) := by
    rintro ⟨z, hz, rfl⟩
    exact hz.2 (h z ⟨hoff z hz.1, rfl⟩)
  filter_upwards [hcomp.isClosed.isOpen_compl.mem_nhds hw, Metric.ball_mem_nhds w one_pos] with y hy hyb z hz
  by_contra hzU
  refine hy ⟨z, ⟨hin z hz.1 ?_, hzU⟩, hz.2⟩
  rw [hz.2]
  simpa [dist_eq_norm] using hyb

/-- Off the caustics the images depend continuously on the source: there are continuous functions, as many as there are
images of `w`, that enumerate the images of every nearby source without repetition. -/
theorem images_continuous (L : Lenses) (hm : ∀ l ∈ L, l.1 ≠ 0) (hL : (L.map Prod.snd).Nodup) (w : ℂ)
    (hw : ∀ z, IsImage L w z → ‖shear L z‖ ≠ 1) :
    ∃ (S : Finset ℂ) (g : ℂ → ℂ → ℂ), (∀ z, z ∈ S ↔ IsImage L w z) ∧ (∀ z ∈ S, ContinuousAt (g z) w ∧ g z w = z) ∧
      ∀ᶠ y in 𝓝 w, Set.InjOn (fun z => g z y) S ∧ ∀ x, IsImage L y x ↔ ∃ z ∈ S, g z y = x := by
  have hfin := images_finite L w hw
  have hinv : ∀ z, ∃ g : ℂ → ℂ, IsImage L w z → (ContinuousAt g w ∧ g w = z ∧ (∀ᶠ y in 𝓝 w, lensMap L (g y) = y) ∧
      ∀ᶠ x in 𝓝 z, g (lensMap L x) = x) := by
    intro z
    by_cases hz : IsImage L w z
    · obtain ⟨g, hg⟩ := image_local_inverse L w z hz (hw z hz)
      exact ⟨g, fun _ => hg⟩
    · exact ⟨id, fun h => absurd h hz⟩
  choose g hg using hinv
  obtain ⟨U, hU, hdisj⟩ := hfin.t2_separation
  set S := hfin.toFinset with hSdef
  have hS : ∀ z, z ∈ S ↔ IsImage L w z := fun z => by simp [hSdef]
  set V : ℂ → Set ℂ := fun z => U z ∩ interior {x | g z (lensMap L x) = x} with hV
  have hVopen : ∀ z, IsOpen (V z) := fun z => (hU z).2.inter isOpen_interior
  have hVmem : ∀ z ∈ S, z ∈ V z := fun z hz =>
    ⟨(hU z).1, mem_interior_iff_mem_nhds.mpr (hg z ((hS z).mp hz)).2.2.2⟩
  refine ⟨S, g, hS, fun z hz => ⟨(hg z ((hS z).mp hz)).1, (hg z ((hS z).mp hz)).2.1⟩, ?_⟩
  have e1 := images_upper L hm hL w (⋃ z ∈ S, V z) (isOpen_biUnion fun z _ => hVopen z)
    (fun z hz => mem_iUnion₂.mpr ⟨z, (hS z).mpr hz, hVmem z ((hS z).mpr hz)⟩)
  have e2 : ∀ᶠ y in 𝓝 w, ∀ z ∈ S, g z y ∈ V z ∩ {x | ∀ l ∈ L, x ≠ l.2} ∧ lensMap L (g z y) = y := by
    rw [Filter.eventually_all_finset]
    intro z hz
    obtain ⟨k1, k2, k3, -⟩ := hg z ((hS z).mp hz)
    have hmem : V z ∩ {x | ∀ l ∈ L, x ≠ l.2} ∈ 𝓝 (g z w) := by
      rw [k2]
      exact ((hVopen z).inter (isOpen_offLens L)).mem_nhds ⟨hVmem z hz, ((hS z).mp hz).1⟩
    exact (k1.eventually hmem).and k3
  filter_upwards [e1, e2] with y h1 h2
  refine ⟨?_, fun x => ⟨fun hx => ?_, ?_⟩⟩
  · intro a ha b hb hab
    by_contra hne
    have hd := hdisj ((hS a).mp ha) ((hS b).mp hb) hne
    have ha' := (h2 a ha).1.1.1
    have hb' := (h2 b hb).1.1.1
    rw [← show g a y = g b y from hab] at hb'
    exact Set.disjoint_left.mp hd ha' hb'
  · obtain ⟨z, hz, hxz⟩ := mem_iUnion₂.mp (h1 x hx)
    refine ⟨z, hz, ?_⟩
    have : g z (lensMap L x) = x := (interior_subset hxz.2 : x ∈ {x | g z (lensMap L x) = x})
    rwa [hx.2] at this
  · rintro ⟨z, hz, rfl⟩
    exact ⟨(h2 z hz).1.2, (h2 z hz).2⟩

theorem continuousAt_shear (L : Lenses) (z : ℂ) (hz : ∀ l ∈ L, z ≠ l.2) : ContinuousAt (shear L) z := by
  have h := (continuousAt_shear2 L z hz).comp (f := fun x : ℂ => (x, x)) (continuousAt_id.prodMk continuousAt_id)
  have e : shear L = (fun q : ℂ × ℂ => shear2 L q.1 q.2) ∘ fun x : ℂ => (x, x) := by
    funext x; simp [shear2, shear, sq]
  rw [e]; exact h

/-- Off the caustics the magnification is continuous and the number of images is locally constant. -/
theorem pointMag_continuousAt (L : Lenses) (hm : ∀ l ∈ L, l.1 ≠ 0) (hL : (L.map Prod.snd).Nodup) (w : ℂ)
    (hw : ∀ z, IsImage L w z → ‖shear L z‖ ≠ 1) :
    ContinuousAt (pointMag L) w ∧
      ∀ᶠ y in 𝓝 w, {z | IsImage L y z}.ncard = {z | IsImage L w z}.ncard := by
  classical
  obtain ⟨S, g, hS, hg, hev⟩ := images_continuous L hm hL w hw
  have hset : ∀ y, (Set.InjOn (fun z => g z y) S ∧ ∀ x, IsImage L y x ↔ ∃ z ∈ S, g z y = x) →
      {z | IsImage L y z} = ((S.image fun z => g z y : Finset ℂ) : Set ℂ) := by
    rintro y ⟨-, h⟩
    ext x
    simp [h x]
  have hval : ∀ᶠ y in 𝓝 w, ∑ z ∈ S, 1 / |1 - ‖shear L (g z y)‖ ^ 2| = pointMag L y := by
    filter_upwards [hev] with y hy
    rw [pointMag, hset y hy, finsum_mem_coe_finset, Finset.sum_image (by exact hy.1)]
    refine Finset.sum_congr rfl fun z hz => ?_
    have hi : IsImage L y (g z y) := (hy.2 _).mpr ⟨z, hz, rfl⟩
    rw [(jacDet_lensMap L _ hi.1).2]; rfl
  constructor
  · refine ContinuousAt.congr ?_ hval
    refine tendsto_finsetSum _ fun z hz => ?_
    obtain ⟨k1, k2⟩ := hg z hz
    have hi := (hS z).mp hz
    have hc : ContinuousAt (fun y => shear L (g z y)) w := by
      refine ContinuousAt.comp (g := shear L) (f := g z) ?_ k1
      rw [k2]; exact continuousAt_shear L z hi.1
    have hne : |1 - ‖shear L (g z w)‖ ^ 2| ≠ 0 := by
      rw [k2, abs_ne_zero]
      intro h0
      exact hw z hi ((pow_eq_one_iff_of_nonneg (norm_nonneg _) two_ne_zero).mp (by linarith))
    exact continuousAt_const.div (continuousAt_const.sub (hc.norm.pow 2)).abs hne
  · have hS' : {z | IsImage L w z} = (S : Set ℂ) := by ext x; simp [hS]
    filter_upwards [hev] with y hy
    rw [hset y hy, hS', Set.ncard_coe_finset, Set.ncard_coe_finset, Finset.card_image_of_injOn hy.1]

end Microjax.Props
