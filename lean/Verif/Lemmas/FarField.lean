import Verif.Lemmas.DualSolutions
import Mathlib.Analysis.Complex.Norm
import Mathlib.Algebra.BigOperators.Field

/-! # Complexified solutions for a distant source

For a source far away from `n` lenses, every complexified solution of the lens equation is either far from all lenses
(and then close to the source) or close to a lens, with its dual close to a lens.  There is at most one solution of each
kind, so the number of solutions is at most `n² + 1`.
-/

noncomputable section

namespace Microjax.Props

open Complex ComplexConjugate Spec

variable {n : ℕ}

/-- The distance beyond which a source is far from the lenses: `e` is a lower bound of the masses, `D` bounds the
positions, `d` is a lower bound of the separations. -/
structure FarSource (m : Fin n → ℝ) (c : Fin n → ℂ) (e D d : ℝ) (w : ℂ) : Prop where
  he : 0 < e
  hd : 0 < d
  hm : ∀ i, e ≤ m i
  hsum : ∑ i, m i = 1
  hc : ∀ i, ‖c i‖ ≤ D
  hsep : ∀ i j, i ≠ j → d ≤ ‖c i - c j‖
  h4 : 4 ≤ ‖w‖
  hD : 4 * D + 4 ≤ ‖w‖
  hRd : 16 ≤ d * ‖w‖
  hRe : 64 + 128 / d ^ 2 ≤ e * ‖w‖ ^ 2

/-- A weighted sum of inverses is at most the inverse of the smallest modulus. -/
theorem norm_wsum_le (m : Fin n → ℝ) (hm : ∀ i, 0 ≤ m i) (hsum : ∑ i, m i = 1) (S : Finset (Fin n)) (x : Fin n → ℂ)
    (t : ℝ) (ht : 0 < t) (hx : ∀ i ∈ S, t ≤ ‖x i‖) : ‖∑ i ∈ S, (m i : ℂ) / x i‖ ≤ 1 / t := by
  have hb : ∀ i ∈ S, ‖(m i : ℂ) / x i‖ ≤ m i / t := by
    intro i hi
    rw [norm_div, Complex.norm_of_nonneg (hm i)]
    exact div_le_div_of_nonneg_left (hm i) ht (hx i hi)
  refine (norm_sum_le_of_le S hb).trans ?_
  rw [← Finset.sum_div]
  refine div_le_div_of_nonneg_right ?_ ht.le
  rw [← hsum]
  exact Finset.sum_le_sum_of_subset_of_nonneg (Finset.subset_univ S) fun i _ _ => hm i

variable {m : Fin n → ℝ} {c : Fin n → ℂ} {e D d : ℝ} {w : ℂ}

namespace FarSource

theorem hm0 (F : FarSource m c e D d w) (i : Fin n) : 0 ≤ m i := F.he.le.trans (F.hm i)

theorem Rpos (F : FarSource m c e D d w) : 0 < ‖w‖ := by linarith [F.h4]

/-- The same lenses mirrored, with the mirrored source. -/
theorem mirror (F : FarSource m c e D d w) : FarSource m (fun i => conj (c i)) e D d (conj w) where
  he := F.he
  hd := F.hd
  hm := F.hm
  hsum := F.hsum
  hc i := by rw [Complex.norm_conj]; exact F.hc i
  hsep i j h := by rw [← map_sub, Complex.norm_conj]; exact F.hsep i j h
  h4 := by rw [Complex.norm_conj]; exact F.h4
  hD := by rw [Complex.norm_conj]; exact F.hD
  hRd := by rw [Complex.norm_conj]; exact F.hRd
  hRe := by rw [Complex.norm_conj]; exact F.hRe

/-- If `z` is not close to a lens then `y = conj w + ∑ m/(z - c)` is far from every lens. -/
theorem far_of_not_near (F : FarSource m c e D d w) (z : ℂ) (h : ∀ i, 4 / ‖w‖ ≤ ‖z - c i‖) (i : Fin n) :
    ‖w‖ / 2 ≤ ‖conj w + ∑ k, (m k : ℂ) / (z - c k) - conj (c i)‖ := by
  have hR := F.Rpos
  have h1 := norm_wsum_le m F.hm0 F.hsum Finset.univ (fun k => z - c k) (4 / ‖w‖) (by positivity) fun k _ => h k
  have h2 : (1 : ℝ) / (4 / ‖w‖) = ‖w‖ / 4 := by field_simp
  rw [h2] at h1
  have h3 : ‖conj w‖ ≤ ‖conj w + ∑ k, (m k : ℂ) / (z - c k) - conj (c i)‖ + ‖∑ k, (m k : ℂ) / (z - c k)‖ + ‖conj (c i)‖ := by
    have : conj w = (conj w + ∑ k, (m k : ℂ) / (z - c k) - conj (c i)) - (∑ k, (m k : ℂ) / (z - c k)) + conj (c i) := by
      ring
    conv_lhs => rw [this]
    exact (norm_add_le _ _).trans (add_le_add (norm_sub_le _ _) le_rfl)
  rw [Complex.norm_conj, Complex.norm_conj] at h3
  have h4 := F.hc i
  have h5 := F.hD
  linarith

/-- Far is not near. -/
theorem near_lt (F : FarSource m c e D d w) : 4 / ‖w‖ < ‖w‖ / 2 := by
  have hR := F.Rpos
  rw [div_lt_div_iff₀ hR two_pos]
  nlinarith [F.h4]

/-- Two lenses are not close to the same point. -/
theorem near_unique (F : FarSource m c e D d w) (z : ℂ) (i j : Fin n) (hi : ‖z - c i‖ < 4 / ‖w‖)
    (hj : i ≠ j) : d / 2 ≤ ‖z - c j‖ := by
  have hR := F.Rpos
  have h1 := F.hsep i j hj
  have h2 : ‖c i - c j‖ ≤ ‖z - c j‖ + ‖z - c i‖ := by
    have : c i - c j = (z - c j) - (z - c i) := by ring
    rw [this]; exact norm_sub_le _ _
  have h3 : 4 / ‖w‖ ≤ d / 4 := by
    rw [div_le_div_iff₀ hR (by norm_num)]; linarith [F.hRd]
  linarith [F.hd]

/-- The shear close to a lens. -/
theorem near_shear (F : FarSource m c e D d w) (z : ℂ) (hz : ∀ i, z ≠ c i) (k : Fin n) (hk : ‖z - c k‖ < 4 / ‖w‖) :
    e * ‖w‖ ^ 2 / 32 ≤ ‖∑ i, (m i : ℂ) / (z - c i) ^ 2‖ := by
  have hR := F.Rpos
  have hd := F.hd
  rw [← Finset.add_sum_erase _ _ (Finset.mem_univ k)]
  have h1 := norm_wsum_le m F.hm0 F.hsum (Finset.univ.erase k) (fun i => (z - c i) ^ 2) (d ^ 2 / 4) (by positivity)
    (fun i hi => by
      rw [norm_pow]
      have := F.near_unique z k i hk (Finset.ne_of_mem_erase hi).symm
      nlinarith)
  have hpos : 0 < ‖z - c k‖ := norm_pos_iff.mpr (sub_ne_zero.mpr (hz k))
  have h2 : e * ‖w‖ ^ 2 / 16 ≤ ‖(m k : ℂ) / (z - c k) ^ 2‖ := by
    rw [norm_div, Complex.norm_of_nonneg (F.hm0 k), norm_pow, le_div_iff₀ (by positivity)]
    have h3 : ‖z - c k‖ ^ 2 ≤ (4 / ‖w‖) ^ 2 := by gcongr
    have h4 : e * ‖w‖ ^ 2 / 16 * ‖z - c k‖ ^ 2 ≤ e * ‖w‖ ^ 2 / 16 * (4 / ‖w‖) ^ 2 :=
      mul_le_mul_of_nonneg_left h3 (by have := F.he; positivity)
    have h5 : e * ‖w‖ ^ 2 / 16 * (4 / ‖w‖) ^ 2 = e := by field_simp; ring
    linarith [F.hm k]
  have h6 : ‖(m k : ℂ) / (z - c k) ^ 2‖ ≤ ‖(m k : ℂ) / (z - c k) ^ 2 + ∑ i ∈ Finset.univ.erase k, (m i : ℂ) / (z - c i) ^ 2‖
      + ‖∑ i ∈ Finset.univ.erase k, (m i : ℂ) / (z - c i) ^ 2‖ := by
    have := norm_sub_le ((m k : ℂ) / (z - c k) ^ 2 + ∑ i ∈ Finset.univ.erase k, (m i : ℂ) / (z - c i) ^ 2)
      (∑ i ∈ Finset.univ.erase k, (m i : ℂ) / (z - c i) ^ 2)
    rwa [add_sub_cancel_right] at this
  have h7 : (1 : ℝ) / (d ^ 2 / 4) = 128 / d ^ 2 / 32 := by field_simp; norm_num
  rw [h7] at h1
  have h8 := F.hRe
  linarith

theorem far_shear (F : FarSource m c e D d w) (z : ℂ) (hz : ∀ i, ‖w‖ / 2 ≤ ‖z - c i‖) :
    ‖∑ i, (m i : ℂ) / (z - c i) ^ 2‖ ≤ 4 / ‖w‖ ^ 2 := by
  have hR := F.Rpos
  have h1 := norm_wsum_le m F.hm0 F.hsum Finset.univ (fun i => (z - c i) ^ 2) (‖w‖ ^ 2 / 4) (by positivity)
    (fun i _ => by rw [norm_pow]; nlinarith [hz i])
  rwa [one_div_div] at h1

/-- A contraction for the far solutions. -/
theorem far_diff (F : FarSource m c e D d w) (z z' : ℂ) (hz : ∀ i, ‖w‖ / 2 ≤ ‖z - c i‖)
    (hz' : ∀ i, ‖w‖ / 2 ≤ ‖z' - c i‖) :
    ‖∑ i, (m i : ℂ) / (z - c i) - ∑ i, (m i : ℂ) / (z' - c i)‖ ≤ ‖z - z'‖ / 4 := by
  have hR := F.Rpos
  have hne : ∀ x : ℂ, ‖w‖ / 2 ≤ ‖x‖ → x ≠ 0 := fun x hx => norm_pos_iff.mp (by linarith)
  have h1 := norm_wsum_le m F.hm0 F.hsum Finset.univ (fun i => (z - c i) * (z' - c i)) (‖w‖ ^ 2 / 4) (by positivity)
    (fun i _ => by rw [norm_mul]; nlinarith [hz i, hz' i])
  have h2 : ∑ i, (m i : ℂ) / (z - c i) - ∑ i, (m i : ℂ) / (z' - c i)
      = (z' - z) * ∑ i, (m i : ℂ) / ((z - c i) * (z' - c i)) := by
    rw [← Finset.sum_sub_distrib, Finset.mul_sum]
    refine Finset.sum_congr rfl fun i _ => ?_
    have a := hne _ (hz i)
    have b := hne _ (hz' i)
    field_simp
    ring
  rw [h2, norm_mul, norm_sub_rev z' z]
  have h3 : (1 : ℝ) / (‖w‖ ^ 2 / 4) ≤ 1 / 4 := by
    rw [div_le_div_iff₀ (by positivity) (by norm_num)]; nlinarith [F.h4]
  calc _ ≤ ‖z - z'‖ * (1 / 4) := mul_le_mul_of_nonneg_left (h1.trans h3) (norm_nonneg _)
    _ = _ := by ring

/-- A bound for two solutions close to the same lens. -/
theorem near_diff (F : FarSource m c e D d w) (z z' : ℂ) (hz : ∀ i, z ≠ c i) (hz' : ∀ i, z' ≠ c i) (k : Fin n)
    (hk : ‖z - c k‖ < 4 / ‖w‖) (hk' : ‖z' - c k‖ < 4 / ‖w‖) :
    2 * ‖z - z'‖ ≤ ‖∑ i, (m i : ℂ) / (z - c i) - ∑ i, (m i : ℂ) / (z' - c i)‖ := by
  have hR := F.Rpos
  have hd := F.hd
  have h2 : ∑ i, (m i : ℂ) / (z - c i) - ∑ i, (m i : ℂ) / (z' - c i)
      = (z' - z) * ∑ i, (m i : ℂ) / ((z - c i) * (z' - c i)) := by
    rw [← Finset.sum_sub_distrib, Finset.mul_sum]
    refine Finset.sum_congr rfl fun i _ => ?_
    have a := sub_ne_zero.mpr (hz i)
    have b := sub_ne_zero.mpr (hz' i)
    field_simp
    ring
  rw [h2, norm_mul, norm_sub_rev z' z, mul_comm]
  refine mul_le_mul_of_nonneg_left ?_ (norm_nonneg _)
  rw [← Finset.add_sum_erase _ _ (Finset.mem_univ k)]
  have h1 := norm_wsum_le m F.hm0 F.hsum (Finset.univ.erase k) (fun i => (z - c i) * (z' - c i)) (d ^ 2 / 4)
    (by positivity)
    (fun i hi => by
      rw [norm_mul]
      have a := F.near_unique z k i hk (Finset.ne_of_mem_erase hi).symm
      have b := F.near_unique z' k i hk' (Finset.ne_of_mem_erase hi).symm
      nlinarith)
  have p1 : 0 < ‖z - c k‖ := norm_pos_iff.mpr (sub_ne_zero.mpr (hz k))
  have p2 : 0 < ‖z' - c k‖ := norm_pos_iff.mpr (sub_ne_zero.mpr (hz' k))
  have h3 : e * ‖w‖ ^ 2 / 16 ≤ ‖(m k : ℂ) / ((z - c k) * (z' - c k))‖ := by
    rw [norm_div, Complex.norm_of_nonneg (F.hm0 k), norm_mul, le_div_iff₀ (by positivity)]
    have h3 : ‖z - c k‖ * ‖z' - c k‖ ≤ (4 / ‖w‖) * (4 / ‖w‖) := by gcongr
    have h4 : e * ‖w‖ ^ 2 / 16 * (‖z - c k‖ * ‖z' - c k‖) ≤ e * ‖w‖ ^ 2 / 16 * ((4 / ‖w‖) * (4 / ‖w‖)) :=
      mul_le_mul_of_nonneg_left h3 (by have := F.he; positivity)
    have h5 : e * ‖w‖ ^ 2 / 16 * ((4 / ‖w‖) * (4 / ‖w‖)) = e := by field_simp; ring
    linarith [F.hm k]
  have h6 : ‖(m k : ℂ) / ((z - c k) * (z' - c k))‖
      ≤ ‖(m k : ℂ) / ((z - c k) * (z' - c k)) + ∑ i ∈ Finset.univ.erase k, (m i : ℂ) / ((z - c i) * (z' - c i))‖
        + ‖∑ i ∈ Finset.univ.erase k, (m i : ℂ) / ((z - c i) * (z' - c i))‖ := by
    have := norm_sub_le ((m k : ℂ) / ((z - c k) * (z' - c k)) + ∑ i ∈ Finset.univ.erase k, (m i : ℂ) / ((z - c i) * (z' - c i)))
      (∑ i ∈ Finset.univ.erase k, (m i : ℂ) / ((z - c i) * (z' - c i)))
    rwa [add_sub_cancel_right] at this
  have h7 : (1 : ℝ) / (d ^ 2 / 4) = 128 / d ^ 2 / 32 := by field_simp; norm_num
  rw [h7] at h1
  have h8 := F.hRe
  have h9 : 0 ≤ 128 / d ^ 2 := by positivity
  linarith

end FarSource

/-- Close to a lens. -/
def NearLens (c : Fin n → ℂ) (w z : ℂ) (k : Fin n) : Prop := ‖z - c k‖ < 4 / ‖w‖

/-- Far from all lenses. -/
def FarLens (c : Fin n → ℂ) (w z : ℂ) : Prop := ∀ i, ‖w‖ / 2 ≤ ‖z - c i‖

namespace FarSource

/-- Every solution is far, with its dual, or close to a lens, with its dual. -/
theorem classify (F : FarSource m c e D d w) (z : ℂ) (h : DualSol m c w z) :
    (FarLens c w z ∧ FarLens c w (dualConj m c w z)) ∨
      ∃ k j, NearLens c w z k ∧ NearLens c w (dualConj m c w z) j := by
  have key : ∀ z, DualSol m c w z → (∀ i, 4 / ‖w‖ ≤ ‖z - c i‖) → FarLens c w (dualConj m c w z) := by
    intro z _ hz i
    have := F.far_of_not_near z hz i
    have e : ‖dualConj m c w z - c i‖ = ‖conj w + ∑ k, (m k : ℂ) / (z - c k) - conj (c i)‖ := by
      rw [← Complex.norm_conj, map_sub, dualConj, Complex.conj_conj]; rfl
    rwa [e]
  have key2 : ∀ z, DualSol m c w z → (∀ i, 4 / ‖w‖ ≤ ‖z - c i‖) → FarLens c w z ∧ FarLens c w (dualConj m c w z) := by
    intro z hs hz
    have h1 := key z hs hz
    have h2 := key _ (dualSol_conj m c w z hs) fun i => F.near_lt.le.trans (h1 i)
    rw [dualConj_conj m c w z hs] at h2
    exact ⟨h2, h1⟩
  by_cases a : ∀ i, 4 / ‖w‖ ≤ ‖z - c i‖
  · exact Or.inl (key2 z h a)
  · by_cases b : ∀ i, 4 / ‖w‖ ≤ ‖dualConj m c w z - c i‖
    · have := key2 _ (dualSol_conj m c w z h) b
      rw [dualConj_conj m c w z h] at this
      exact Or.inl this.symm
    · push Not at a b
      obtain ⟨k, hk⟩ := a
      obtain ⟨j, hj⟩ := b
      exact Or.inr ⟨k, j, hk, hj⟩

theorem dual_sub (m : Fin n → ℝ) (c : Fin n → ℂ) (w z z' : ℂ) :
    ‖dualConj m c w z - dualConj m c w z'‖ = ‖∑ i, (m i : ℂ) / (z - c i) - ∑ i, (m i : ℂ) / (z' - c i)‖ := by
  rw [← Complex.norm_conj, map_sub, dualConj, dualConj, Complex.conj_conj, Complex.conj_conj, dualOf, dualOf,
    add_sub_add_left_eq_sub]

/-- There is at most one far solution. -/
theorem far_inj (F : FarSource m c e D d w) (z z' : ℂ) (h : DualSol m c w z) (g : DualSol m c w z')
    (hz : FarLens c w z) (hy : FarLens c w (dualConj m c w z)) (hz' : FarLens c w z')
    (hy' : FarLens c w (dualConj m c w z')) : z = z' := by
  have h1 := F.far_diff z z' hz hz'
  have h2 := F.far_diff _ _ hy hy'
  rw [← dual_sub m c w z z'] at h1
  rw [← dual_sub m c w, dualConj_conj m c w z h,
    dualConj_conj m c w z' g] at h2
  have : ‖z - z'‖ ≤ 0 := by linarith [norm_nonneg (z - z')]
  exact sub_eq_zero.mp (norm_le_zero_iff.mp this)

/-- There is at most one solution close to a given lens with its dual close to a given lens. -/
theorem near_inj (F : FarSource m c e D d w) (z z' : ℂ) (h : DualSol m c w z) (g : DualSol m c w z') (k j : Fin n)
    (hz : NearLens c w z k) (hy : NearLens c w (dualConj m c w z) j) (hz' : NearLens c w z' k)
    (hy' : NearLens c w (dualConj m c w z') j) : z = z' := by
  have h' := dualSol_conj m c w z h
  have g' := dualSol_conj m c w z' g
  have h1 := F.near_diff z z' h.hz g.hz k hz hz'
  have h2 := F.near_diff _ _ h'.hz g'.hz j hy hy'
  rw [← dual_sub m c w z z'] at h1
  rw [← dual_sub m c w, dualConj_conj m c w z h, dualConj_conj m c w z' g] at h2
  have : ‖z - z'‖ ≤ 0 := by linarith [norm_nonneg (z - z'), norm_nonneg (dualConj m c w z - dualConj m c w z')]
  exact sub_eq_zero.mp (norm_le_zero_iff.mp this)

/-- No solution is degenerate. -/
theorem det_ne_zero (F : FarSource m c e D d w) (z : ℂ) (h : DualSol m c w z) : dualDet m c w z ≠ 0 := by
  have hR := F.Rpos
  have h' := dualSol_conj m c w z h
  have e2 : ‖∑ j, (m j : ℂ) / (dualOf m c w z - conj (c j)) ^ 2‖ = ‖∑ j, (m j : ℂ) / (dualConj m c w z - c j) ^ 2‖ := by
    rw [← Complex.norm_conj, map_sum]
    simp [dualConj]
  intro h0
  rw [dualDet, sub_eq_zero] at h0
  have h1 := congrArg norm h0
  rw [norm_one, norm_mul, e2] at h1
  rcases F.classify z h with ⟨a, b⟩ | ⟨k, j, a, b⟩
  · have s1 := F.far_shear z a
    have s2 := F.far_shear _ b
    have s3 : 4 / ‖w‖ ^ 2 ≤ 1 / 4 := by
      rw [div_le_div_iff₀ (by positivity) (by norm_num)]; nlinarith [F.h4]
    have := mul_le_mul (s1.trans s3) (s2.trans s3) (norm_nonneg _) (by norm_num)
    norm_num at this
    linarith
  · have s1 := F.near_shear z h.hz k a
    have s2 := F.near_shear _ h'.hz j b
    have s3 : 2 ≤ e * ‖w‖ ^ 2 / 32 := by
      have := F.hRe
      have : 0 ≤ 128 / d ^ 2 := by have := F.hd; positivity
      linarith
    have := mul_le_mul (s3.trans s1) (s3.trans s2) (by norm_num) (norm_nonneg _)
    linarith

/-! ### The solutions and the images -/

/-- How far a solution misses the lens equation is the distance from its dual. -/
theorem lensMap_sub_eq (m : Fin n → ℝ) (c : Fin n → ℂ) (w z : ℂ) :
    lensMap (lensList m c) z - w = z - dualConj m c w z := by
  rw [lensMap_lensList, dualConj, dualOf, map_add, Complex.conj_conj, map_sum]
  simp only [map_div₀, map_sub, conj_ofReal]
  ring

/-- The kind of a solution: far, or the pair of the lenses next to it and its dual. -/
def Kind (c : Fin n → ℂ) (m : Fin n → ℝ) (w z : ℂ) : Option (Fin n × Fin n) → Prop
  | none => FarLens c w z ∧ FarLens c w (dualConj m c w z)
  | some (k, j) => NearLens c w z k ∧ NearLens c w (dualConj m c w z) j

theorem kind_exists (F : FarSource m c e D d w) (z : ℂ) (h : DualSol m c w z) : ∃ o, Kind c m w z o := by
  rcases F.classify z h with a | ⟨k, j, a⟩
  · exact ⟨none, a⟩
  · exact ⟨some (k, j), a⟩

theorem kind_inj (F : FarSource m c e D d w) (z z' : ℂ) (h : DualSol m c w z) (g : DualSol m c w z')
    (o : Option (Fin n × Fin n)) (a : Kind c m w z o) (b : Kind c m w z' o) : z = z' := by
  match o, a, b with
  | none, a, b => exact F.far_inj z z' h g a.1 a.2 b.1 b.2
  | some (k, j), a, b => exact F.near_inj z z' h g k j a.1 a.2 b.1 b.2

/-- A far solution is an image. -/
theorem far_image (F : FarSource m c e D d w) (z : ℂ) (h : DualSol m c w z) (a : Kind c m w z none) :
    IsImage (lensList m c) w z := by
  rw [isImage_iff_dual]
  have h' := dualSol_conj m c w z h
  refine ⟨h, F.kind_inj _ _ h' h none ⟨a.2, ?_⟩ a⟩
  rw [dualConj_conj m c w z h]; exact a.1

/-- A solution close to a lens, with its dual close to the same lens, is an image. -/
theorem diag_image (F : FarSource m c e D d w) (z : ℂ) (h : DualSol m c w z) (k : Fin n)
    (a : Kind c m w z (some (k, k))) : IsImage (lensList m c) w z := by
  rw [isImage_iff_dual]
  have h' := dualSol_conj m c w z h
  refine ⟨h, F.kind_inj _ _ h' h (some (k, k)) ⟨a.2, ?_⟩ a⟩
  rw [dualConj_conj m c w z h]; exact a.1

/-- A solution close to a lens with its dual close to another lens misses the lens equation by about the separation of
the two lenses. -/
theorem mixed_residual (z : ℂ) (k j : Fin n) (a : Kind c m w z (some (k, j))) :
    |‖lensMap (lensList m c) z - w‖ - ‖c k - c j‖| ≤ 8 / ‖w‖ := by
  rw [lensMap_sub_eq]
  refine (abs_norm_sub_norm_le _ _).trans ?_
  have e : z - dualConj m c w z - (c k - c j) = (z - c k) - (dualConj m c w z - c j) := by ring
  rw [e]
  refine (norm_sub_le _ _).trans ?_
  have h1 : ‖z - c k‖ < 4 / ‖w‖ := a.1
  have h2 : ‖dualConj m c w z - c j‖ < 4 / ‖w‖ := a.2
  have h3 : 8 / ‖w‖ = 4 / ‖w‖ + 4 / ‖w‖ := by ring
  linarith

theorem mixed_not_image (F : FarSource m c e D d w) (z : ℂ) (k j : Fin n) (hkj : k ≠ j)
    (a : Kind c m w z (some (k, j))) : ¬ IsImage (lensList m c) w z := by
  intro h
  have h1 := mixed_residual z k j a
  rw [h.2, sub_self, norm_zero, zero_sub, abs_neg, abs_norm] at h1
  have h2 := F.hsep k j hkj
  have h3 : 8 / ‖w‖ ≤ d / 2 := by
    rw [div_le_div_iff₀ F.Rpos two_pos]; linarith [F.hRd]
  linarith [F.hd]

/-! ### Determinants -/

theorem shear_conj (m : Fin n → ℝ) (c : Fin n → ℂ) (z : ℂ) :
    ‖∑ i, (m i : ℂ) / (conj z - conj (c i)) ^ 2‖ = ‖∑ i, (m i : ℂ) / (z - c i) ^ 2‖ := by
  rw [← Complex.norm_conj, map_sum]
  simp

theorem far_det (F : FarSource m c e D d w) (z : ℂ) (hz : FarLens c w z) :
    1 - 16 / ‖w‖ ^ 4 ≤ detFormula (lensList m c) z ∧ detFormula (lensList m c) z ≤ 1 := by
  rw [detFormula_lensList, shear_conj]
  have h := F.far_shear z hz
  have h2 : ‖∑ i, (m i : ℂ) / (z - c i) ^ 2‖ ^ 2 ≤ (4 / ‖w‖ ^ 2) ^ 2 := by gcongr
  have h3 : (4 / ‖w‖ ^ 2) ^ 2 = 16 / ‖w‖ ^ 4 := by ring
  constructor
  · linarith
  · linarith [sq_nonneg ‖∑ i, (m i : ℂ) / (z - c i) ^ 2‖]

theorem far_mag (F : FarSource m c e D d w) (z : ℂ) (hz : FarLens c w z) :
    1 ≤ 1 / |detFormula (lensList m c) z| ∧ 1 / |detFormula (lensList m c) z| ≤ 1 + 32 / ‖w‖ ^ 4 := by
  obtain ⟨h1, h2⟩ := F.far_det z hz
  have hR := F.Rpos
  have h4 : 16 / ‖w‖ ^ 4 ≤ 1 / 2 := by
    rw [div_le_div_iff₀ (by positivity) two_pos]
    have : (4 : ℝ) ^ 4 ≤ ‖w‖ ^ 4 := by gcongr; exact F.h4
    linarith
  have hpos : 0 < detFormula (lensList m c) z := by linarith
  have h0 : 0 ≤ 16 / ‖w‖ ^ 4 := by positivity
  rw [abs_of_pos hpos]
  refine ⟨(le_div_iff₀ hpos).mpr (by linarith), (div_le_iff₀ hpos).mpr ?_⟩
  have e : 32 / ‖w‖ ^ 4 = 2 * (16 / ‖w‖ ^ 4) := by ring
  rw [e]
  nlinarith

theorem near_mag (F : FarSource m c e D d w) (z : ℂ) (h : DualSol m c w z) (k : Fin n) (hk : NearLens c w z k) :
    1 / |detFormula (lensList m c) z| ≤ 2048 / (e ^ 2 * ‖w‖ ^ 4) := by
  rw [detFormula_lensList, shear_conj]
  have hs := F.near_shear z h.hz k hk
  have hR := F.Rpos
  have he := F.he
  have s3 : 2 ≤ e * ‖w‖ ^ 2 / 32 := by
    have := F.hRe
    have : 0 ≤ 128 / d ^ 2 := by have := F.hd; positivity
    linarith
  set σ := ‖∑ i, (m i : ℂ) / (z - c i) ^ 2‖
  have h1 : (e * ‖w‖ ^ 2 / 32) ^ 2 ≤ σ ^ 2 := by gcongr
  have h2 : (e * ‖w‖ ^ 2 / 32) ^ 2 / 2 ≤ |1 - σ ^ 2| := by
    rw [abs_sub_comm]
    refine le_trans ?_ (le_abs_self _)
    nlinarith
  have h3 : 2048 / (e ^ 2 * ‖w‖ ^ 4) = 1 / ((e * ‖w‖ ^ 2 / 32) ^ 2 / 2) := by field_simp; norm_num
  rw [h3]
  exact one_div_le_one_div_of_le (by positivity) h2

/-! ### All solutions -/

open Classical in
/-- If there are `n² + 1` solutions then there is one of every kind. -/
theorem kind_surj (F : FarSource m c e D d w) (zs : List ℂ) (hnd : zs.Nodup) (hsol : ∀ z ∈ zs, DualSol m c w z)
    (hlen : zs.length = n ^ 2 + 1) (o : Option (Fin n × Fin n)) : ∃ z ∈ zs, Kind c m w z o := by
  have hex : ∀ z, ∃ o, z ∈ zs → Kind c m w z o := by
    intro z
    by_cases hz : z ∈ zs
    · obtain ⟨o, ho⟩ := F.kind_exists z (hsol z hz)
      exact ⟨o, fun _ => ho⟩
    · exact ⟨none, fun h => absurd h hz⟩
  choose κ hκ using hex
  have hinj : Set.InjOn κ (zs.toFinset : Set ℂ) := by
    intro z hz z' hz' h
    rw [List.coe_toFinset] at hz hz'
    exact F.kind_inj z z' (hsol z hz) (hsol z' hz') (κ z) (hκ z hz) (by rw [h]; exact hκ z' hz')
  have hcard : (zs.toFinset.image κ).card = Fintype.card (Option (Fin n × Fin n)) := by
    rw [Finset.card_image_of_injOn hinj, List.toFinset_card_of_nodup hnd, hlen]
    simp [sq]
  have huniv := Finset.eq_univ_of_card _ hcard
  have ho : o ∈ zs.toFinset.image κ := by rw [huniv]; exact Finset.mem_univ o
  obtain ⟨z, hz, rfl⟩ := Finset.mem_image.mp ho
  rw [List.mem_toFinset] at hz
  exact ⟨z, hz, hκ z hz⟩

/-- A sum over solutions without repetition in which one is far. -/
theorem sum_bounds (F : FarSource m c e D d w) (zs : List ℂ) (hnd : zs.Nodup) (hsol : ∀ z ∈ zs, DualSol m c w z)
    (z₀ : ℂ) (h₀ : z₀ ∈ zs) (hfar : Kind c m w z₀ none) :
    1 ≤ (zs.map fun z => 1 / |detFormula (lensList m c) z|).sum ∧
    (zs.map fun z => 1 / |detFormula (lensList m c) z|).sum
      ≤ 1 + (32 + zs.length * (2048 / e ^ 2)) / ‖w‖ ^ 4 := by
  have hR := F.Rpos
  have he := F.he
  have hp := List.perm_cons_erase h₀
  rw [(hp.map _).sum_eq, List.map_cons, List.sum_cons]
  have hnear : ∀ z ∈ zs.erase z₀, 1 / |detFormula (lensList m c) z| ≤ 2048 / (e ^ 2 * ‖w‖ ^ 4) := by
    intro z hz
    have hz' := (hnd.mem_erase_iff).mp hz
    rcases F.classify z (hsol z hz'.2) with a | ⟨k, j, a, -⟩
    · exact absurd (F.kind_inj z z₀ (hsol z hz'.2) (hsol z₀ h₀) none a hfar) hz'.1
    · exact F.near_mag z (hsol z hz'.2) k a
  have hle := List.sum_le_card_nsmul ((zs.erase z₀).map fun z => 1 / |detFormula (lensList m c) z|)
    (2048 / (e ^ 2 * ‖w‖ ^ 4)) (by
      intro x hx
      obtain ⟨z, hz, rfl⟩ := List.mem_map.mp hx
      exact hnear z hz)
  have h0 : 0 ≤ ((zs.erase z₀).map fun z => 1 / |detFormula (lensList m c) z|).sum := by
    refine List.sum_nonneg fun x hx => ?_
    obtain ⟨z, -, rfl⟩ := List.mem_map.mp hx
    positivity
  obtain ⟨f1, f2⟩ := F.far_mag z₀ hfar.1
  refine ⟨by linarith, ?_⟩
  rw [List.length_map, nsmul_eq_mul] at hle
  have hlen : ((zs.erase z₀).length : ℝ) ≤ zs.length := by exact_mod_cast List.erase_sublist.length_le
  have hb : 0 ≤ 2048 / (e ^ 2 * ‖w‖ ^ 4) := by positivity
  have h5 := mul_le_mul_of_nonneg_right hlen hb
  have e1 : (32 + zs.length * (2048 / e ^ 2)) / ‖w‖ ^ 4 = 32 / ‖w‖ ^ 4 + zs.length * (2048 / (e ^ 2 * ‖w‖ ^ 4)) := by
    field_simp
  rw [e1]
  linarith

open Classical in
/-- Exactly `n + 1` of `n² + 1` solutions are images. -/
theorem image_count (F : FarSource m c e D d w) (zs : List ℂ) (hnd : zs.Nodup) (hsol : ∀ z ∈ zs, DualSol m c w z)
    (hlen : zs.length = n ^ 2 + 1) : (zs.filter fun z => decide (IsImage (lensList m c) w z)).length = n + 1 := by
  choose f hf hk using F.kind_surj zs hnd hsol hlen
  have hfinj : Function.Injective f := by
    -- `f` is onto the solutions and there are as many of them
    have hsub : Finset.univ.image f = zs.toFinset := by
      refine Finset.Subset.antisymm ?_ ?_
      · intro z hz
        obtain ⟨o, -, rfl⟩ := Finset.mem_image.mp hz
        exact List.mem_toFinset.mpr (hf o)
      · intro z hz
        rw [List.mem_toFinset] at hz
        obtain ⟨o, ho⟩ := F.kind_exists z (hsol z hz)
        exact Finset.mem_image.mpr ⟨o, Finset.mem_univ o, F.kind_inj _ _ (hsol _ (hf o)) (hsol z hz) o (hk o) ho⟩
    have hc2 : (Finset.univ.image f).card = (Finset.univ : Finset (Option (Fin n × Fin n))).card := by
      rw [hsub, List.toFinset_card_of_nodup hnd, hlen]
      simp [sq]
    have := Finset.card_image_iff.mp hc2
    rwa [Finset.coe_univ, Set.injOn_univ] at this
  have hset : (zs.filter fun z => decide (IsImage (lensList m c) w z)).toFinset =
      (insert none (Finset.univ.image fun k : Fin n => some (k, k))).image f := by
    ext z
    rw [List.mem_toFinset, List.mem_filter, decide_eq_true_eq, Finset.mem_image]
    constructor
    · rintro ⟨hz, hi⟩
      obtain ⟨o, ho⟩ := F.kind_exists z (hsol z hz)
      refine ⟨o, ?_, F.kind_inj _ _ (hsol _ (hf o)) (hsol z hz) o (hk o) ho⟩
      match o, ho with
      | none, _ => exact Finset.mem_insert_self _ _
      | some (k, j), ho =>
        by_cases hkj : k = j
        · subst hkj
          exact Finset.mem_insert_of_mem (Finset.mem_image.mpr ⟨k, Finset.mem_univ k, rfl⟩)
        · exact absurd hi (F.mixed_not_image z k j hkj ho)
    · rintro ⟨o, ho, rfl⟩
      refine ⟨hf o, ?_⟩
      rcases Finset.mem_insert.mp ho with rfl | ho
      · exact F.far_image _ (hsol _ (hf _)) (hk none)
      · obtain ⟨k, -, rfl⟩ := Finset.mem_image.mp ho
        exact F.diag_image _ (hsol _ (hf _)) k (hk _)
  rw [← List.toFinset_card_of_nodup (hnd.filter _), hset, Finset.card_image_of_injective _ hfinj,
    Finset.card_insert_of_notMem (by simp), Finset.card_image_of_injective _ (fun a b h => by simpa using h)]
  simp

end FarSource

/-- Every sufficiently distant source is far. -/
theorem farSource_eventually (m : Fin n → ℝ) (c : Fin n → ℂ) (hm : ∀ i, 0 < m i) (hsum : ∑ i, m i = 1)
    (hinj : Function.Injective c) : ∃ e D d W : ℝ, 0 < e ∧ 0 < W ∧
      (∀ i j, i ≠ j → d ≤ ‖c i - c j‖) ∧ ∀ w : ℂ, W ≤ ‖w‖ → FarSource m c e D d w := by
  obtain ⟨e, he, hme⟩ : ∃ e : ℝ, 0 < e ∧ ∀ i, e ≤ m i := by
    rcases isEmpty_or_nonempty (Fin n) with h | h
    · exact ⟨1, one_pos, fun i => isEmptyElim i⟩
    · obtain ⟨i, hi⟩ := Finite.exists_min m
      exact ⟨m i, hm i, hi⟩
  obtain ⟨D, hD⟩ : ∃ D : ℝ, ∀ i, ‖c i‖ ≤ D := by
    obtain ⟨D, hD⟩ := (Set.finite_range fun i => ‖c i‖).bddAbove
    exact ⟨D, fun i => hD ⟨i, rfl⟩⟩
  obtain ⟨d, hd, hcd⟩ : ∃ d : ℝ, 0 < d ∧ ∀ i j, i ≠ j → d ≤ ‖c i - c j‖ := by
    rcases isEmpty_or_nonempty {q : Fin n × Fin n // q.1 ≠ q.2} with h | h
    · exact ⟨1, one_pos, fun i j hij => h.elim ⟨(i, j), hij⟩⟩
    · obtain ⟨q, hq⟩ := Finite.exists_min fun q : {q : Fin n × Fin n // q.1 ≠ q.2} => ‖c q.1.1 - c q.1.2‖
      refine ⟨_, ?_, fun i j hij => hq ⟨(i, j), hij⟩⟩
      exact norm_pos_iff.mpr (sub_ne_zero.mpr fun h => q.2 (hinj h))
  refine ⟨e, D, d, 4 + |4 * D + 4| + 16 / d + (64 + 128 / d ^ 2) / e, he, by positivity, hcd, fun w hw => ?_⟩
  have a1 : 0 ≤ |4 * D + 4| := abs_nonneg _
  have a2 : 0 ≤ 16 / d := by positivity
  have a3 : 0 ≤ (64 + 128 / d ^ 2) / e := by positivity
  have h4 : 4 ≤ ‖w‖ := by linarith
  refine ⟨he, hd, hme, hsum, hD, hcd, h4, by linarith [le_abs_self (4 * D + 4)], ?_, ?_⟩
  · have : 16 / d ≤ ‖w‖ := by linarith
    rw [div_le_iff₀ hd] at this; linarith
  · have h5 : (64 + 128 / d ^ 2) / e ≤ ‖w‖ := by linarith
    rw [div_le_iff₀ he] at h5
    nlinarith [mul_le_mul_of_nonneg_left h4 he.le, mul_nonneg he.le (norm_nonneg w)]

end Microjax.Props
