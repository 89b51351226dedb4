import Verif.Props.ContourLimbDark

/-!
# How fast the brightness profile varies near the images of a small source
-/

set_option linter.unusedVariables false

noncomputable section

namespace Microjax.Props

open Complex ComplexConjugate Microjax.Spec MeasureTheory Set Filter
open scoped Topology

theorem abs_sqrt_sub_le (x y : ℝ) : |Real.sqrt x - Real.sqrt y| ≤ Real.sqrt |x - y| := by
  have key : ∀ x y : ℝ, Real.sqrt x ≤ Real.sqrt y + Real.sqrt |x - y| := by
    intro x y
    refine Real.sqrt_le_iff.mpr ⟨by positivity, ?_⟩
    have h1 := Real.sqrt_nonneg y
    have h2 := Real.sqrt_nonneg |x - y|
    have h3 := Real.sq_sqrt (abs_nonneg (x - y))
    have h4 : y ≤ Real.sqrt y ^ 2 := by
      rcases le_total 0 y with h | h
      · rw [Real.sq_sqrt h]
      · exact h.trans (sq_nonneg _)
    have h5 := le_abs_self (x - y)
    nlinarith [mul_nonneg h1 h2]
  rw [abs_sub_le_iff]
  refine ⟨by linarith [key x y], ?_⟩
  have := key y x
  rw [abs_sub_comm] at this
  linarith

/-- The profile as a function of the distance from the centre, inside and outside of the disc. -/
def radialProfile (r : ℝ) : ℝ := if r ≤ 1 then 1 + Real.sqrt (1 - r ^ 2) else 1 - Real.sqrt (1 - 1 / r ^ 2)

theorem radial_inner (r r' : ℝ) (h0 : 0 ≤ r) (h0' : 0 ≤ r') (h : r ≤ 1) (h' : r' ≤ 1) :
    |Real.sqrt (1 - r ^ 2) - Real.sqrt (1 - r' ^ 2)| ≤ Real.sqrt (2 * |r - r'|) := by
  refine (abs_sqrt_sub_le _ _).trans (Real.sqrt_le_sqrt ?_)
  have e : 1 - r ^ 2 - (1 - r' ^ 2) = -((r + r') * (r - r')) := by ring
  rw [e, abs_neg, abs_mul, abs_of_nonneg (by linarith)]
  exact mul_le_mul_of_nonneg_right (by linarith) (abs_nonneg _)

theorem radial_outer (r r' : ℝ) (h : 1 ≤ r) (h' : 1 ≤ r') :
    |Real.sqrt (1 - 1 / r ^ 2) - Real.sqrt (1 - 1 / r' ^ 2)| ≤ Real.sqrt (2 * |r - r'|) := by
  refine (abs_sqrt_sub_le _ _).trans (Real.sqrt_le_sqrt ?_)
  have hr : 0 < r := by linarith
  have hr' : 0 < r' := by linarith
  have e : 1 - 1 / r ^ 2 - (1 - 1 / r' ^ 2) = ((r + r') / (r ^ 2 * r' ^ 2)) * (r - r') := by field_simp; ring
  rw [e, abs_mul, abs_of_pos (by positivity)]
  refine mul_le_mul_of_nonneg_right ?_ (abs_nonneg _)
  rw [div_le_iff₀ (by positivity)]
  have a1 : r ≤ r ^ 2 := by nlinarith
  have a2 : r' ≤ r' ^ 2 := by nlinarith
  have h1 : r ^ 2 * 1 ≤ r ^ 2 * r' ^ 2 := mul_le_mul_of_nonneg_left (by linarith) (sq_nonneg _)
  have h2 : 1 * r' ^ 2 ≤ r ^ 2 * r' ^ 2 := mul_le_mul_of_nonneg_right (by linarith) (sq_nonneg _)
  linarith

/-- The profile varies at most like the square root of the distance. -/
theorem radialProfile_holder (r r' : ℝ) (h0 : 0 ≤ r) (h0' : 0 ≤ r') :
    |radialProfile r - radialProfile r'| ≤ 2 * Real.sqrt (2 * |r - r'|) := by
  have hs := Real.sqrt_nonneg (2 * |r - r'|)
  have hcross : ∀ r r' : ℝ, 0 ≤ r → r ≤ 1 → 1 < r' →
      |(1 + Real.sqrt (1 - r ^ 2)) - (1 - Real.sqrt (1 - 1 / r' ^ 2))| ≤ 2 * Real.sqrt (2 * |r - r'|) := by
    intro r r' h0 h h'
    have a := radial_inner r 1 h0 zero_le_one h le_rfl
    have b := radial_outer r' 1 h'.le le_rfl
    have e1 : Real.sqrt (1 - (1 : ℝ) ^ 2) = 0 := by norm_num
    have e2 : Real.sqrt (1 - 1 / (1 : ℝ) ^ 2) = 0 := by norm_num
    rw [e1, sub_zero] at a
    rw [e2, sub_zero] at b
    have m1 : Real.sqrt (2 * |r - 1|) ≤ Real.sqrt (2 * |r - r'|) := by
      apply Real.sqrt_le_sqrt
      rw [abs_of_nonpos (by linarith), abs_of_nonpos (by linarith)]; linarith
    have m2 : Real.sqrt (2 * |r' - 1|) ≤ Real.sqrt (2 * |r - r'|) := by
      apply Real.sqrt_le_sqrt
      rw [abs_of_nonneg (by linarith), abs_of_nonpos (by linarith)]; linarith
    have e3 : (1 + Real.sqrt (1 - r ^ 2)) - (1 - Real.sqrt (1 - 1 / r' ^ 2))
        = Real.sqrt (1 - r ^ 2) + Real.sqrt (1 - 1 / r' ^ 2) := by ring
    rw [e3]
    exact (abs_add_le _ _).trans (by linarith)
  unfold radialProfile
  split_ifs with h h' h'
  · rw [add_sub_add_left_eq_sub]
    exact (radial_inner r r' h0 h0' h h').trans (by linarith)
  · exact hcross r r' h0 h (not_le.mp h')
  · have := hcross r' r h0' h' (not_le.mp h)
    rw [abs_sub_comm r' r] at this
    rw [abs_sub_comm]; exact this
  · rw [sub_sub_sub_cancel_left, abs_sub_comm]
    exact (radial_outer r r' (not_le.mp h).le (not_le.mp h').le).trans (by linarith)

theorem profile_holder (leq : ℂ → ℂ) (w : ℂ) (rho u1 : ℝ) (hrho : 0 < rho) (h0 : 0 ≤ u1) (h1 : u1 ≤ 1) (z z' : ℂ) :
    |Boundary.brightnessProfile leq z rho w u1 - Boundary.brightnessProfile leq z' rho w u1|
      ≤ 3 * Real.sqrt (2 * (‖leq z - leq z'‖ / rho)) := by
  have hdef : ∀ z, Boundary.brightnessProfile leq z rho w u1
      = 3 / (3 - u1) * (u1 * radialProfile (‖leq z - w‖ / rho) + 1 - 2 * u1) := fun z => rfl
  have h3 : 0 < 3 - u1 := by linarith
  have key := radialProfile_holder (‖leq z - w‖ / rho) (‖leq z' - w‖ / rho) (by positivity) (by positivity)
  have hr : |‖leq z - w‖ / rho - ‖leq z' - w‖ / rho| ≤ ‖leq z - leq z'‖ / rho := by
    rw [← sub_div, abs_div, abs_of_pos hrho]
    refine div_le_div_of_nonneg_right ?_ hrho.le
    have := abs_norm_sub_norm_le (leq z - w) (leq z' - w)
    rwa [sub_sub_sub_cancel_right] at this
  have hm : Real.sqrt (2 * |‖leq z - w‖ / rho - ‖leq z' - w‖ / rho|) ≤ Real.sqrt (2 * (‖leq z - leq z'‖ / rho)) :=
    Real.sqrt_le_sqrt (by linarith)
  rw [hdef, hdef]
  have e : ∀ a b : ℝ, 3 / (3 - u1) * (u1 * a + 1 - 2 * u1) - 3 / (3 - u1) * (u1 * b + 1 - 2 * u1)
      = (3 / (3 - u1) * u1) * (a - b) := fun a b => by ring
  have hf : 3 / (3 - u1) * u1 ≤ 3 / 2 := by
    rw [div_mul_eq_mul_div, div_le_iff₀ h3]; nlinarith
  rw [e, abs_mul, abs_of_nonneg (by positivity)]
  calc 3 / (3 - u1) * u1 * |radialProfile (‖leq z - w‖ / rho) - radialProfile (‖leq z' - w‖ / rho)|
      ≤ 3 / 2 * (2 * Real.sqrt (2 * (‖leq z - leq z'‖ / rho))) := by
        refine mul_le_mul hf (key.trans (by linarith)) (abs_nonneg _) (by norm_num)
    _ = _ := by ring

/-- The lens map is Lipschitz away from the lenses. -/
theorem lensMap_lipschitz (L : Lenses) (D : ℝ) (hD : 0 < D) (z z' : ℂ) (hz : ∀ l ∈ L, D ≤ ‖z - l.2‖)
    (hz' : ∀ l ∈ L, D ≤ ‖z' - l.2‖) :
    ‖lensMap L z - lensMap L z'‖ ≤ (1 + (L.map fun l => |l.1| / D ^ 2).sum) * ‖z - z'‖ := by
  have hsum : ∀ L : Lenses, (∀ l ∈ L, D ≤ ‖z - l.2‖) → (∀ l ∈ L, D ≤ ‖z' - l.2‖) →
      ‖(L.map fun l => (l.1 : ℂ) / (conj z - conj l.2)).sum - (L.map fun l => (l.1 : ℂ) / (conj z' - conj l.2)).sum‖
        ≤ (L.map fun l => |l.1| / D ^ 2).sum * ‖z - z'‖ := by
    intro L
    induction L with
    | nil => intro _ _; simp
    | cons l L ih =>
      intro h h'
      have i1 := ih (fun l hl => h l (List.mem_cons_of_mem _ hl)) (fun l hl => h' l (List.mem_cons_of_mem _ hl))
      have a := h l List.mem_cons_self
      have a' := h' l List.mem_cons_self
      simp only [List.map_cons, List.sum_cons]
      rw [add_sub_add_comm, add_mul]
      refine (norm_add_le _ _).trans (add_le_add ?_ i1)
      have n1 : ‖conj z - conj l.2‖ = ‖z - l.2‖ := by rw [← map_sub, Complex.norm_conj]
      have n2 : ‖conj z' - conj l.2‖ = ‖z' - l.2‖ := by rw [← map_sub, Complex.norm_conj]
      have z1 : conj z - conj l.2 ≠ 0 := by rw [← norm_pos_iff, n1]; linarith
      have z2 : conj z' - conj l.2 ≠ 0 := by rw [← norm_pos_iff, n2]; linarith
      have e : (l.1 : ℂ) / (conj z - conj l.2) - (l.1 : ℂ) / (conj z' - conj l.2)
          = l.1 * (conj (z' - z)) / ((conj z - conj l.2) * (conj z' - conj l.2)) := by
        rw [map_sub]; field_simp; ring
      rw [e, norm_div, norm_mul, norm_mul, Complex.norm_conj, n1, n2, norm_real, Real.norm_eq_abs, norm_sub_rev z' z,
        mul_div_right_comm]
      refine mul_le_mul_of_nonneg_right ?_ (norm_nonneg _)
      refine div_le_div_of_nonneg_left (abs_nonneg _) (by positivity) ?_
      nlinarith
  have e : lensMap L z - lensMap L z' = (z - z') - ((L.map fun l => (l.1 : ℂ) / (conj z - conj l.2)).sum
      - (L.map fun l => (l.1 : ℂ) / (conj z' - conj l.2)).sum) := by
    unfold lensMap; ring
  rw [e, add_mul, one_mul]
  exact (norm_sub_le _ _).trans (by linarith [hsum L hz hz'])

/-- Near the images of a small source the profile varies at most like the square root of the distance over the radius. -/
theorem small_modulus (L : Lenses) (hm : ∀ l ∈ L, l.1 ≠ 0) (hL : (L.map Prod.snd).Nodup) (w : ℂ) (A : ℝ) (hA : 0 ≤ A) :
    ∃ C ε : ℝ, 0 ≤ C ∧ 0 < ε ∧ ∀ rho, 0 < rho → rho < ε → ∀ u1, 0 ≤ u1 → u1 ≤ 1 → ∀ y x, ‖y - w‖ ≤ rho → IsImage L y x →
      ∀ z z', ‖z - x‖ ≤ A * rho → ‖z' - x‖ ≤ A * rho →
        |imageProfile L w rho u1 z - imageProfile L w rho u1 z'| ≤ C * Real.sqrt (‖z - z'‖ / rho) := by
  obtain ⟨K, hK, hoff, hin⟩ := preimage_compact L hm hL w
  obtain ⟨D, hD, hdist⟩ : ∃ D : ℝ, 0 < D ∧ ∀ z ∈ K, ∀ l ∈ L, D ≤ ‖z - l.2‖ := by
    have : ∀ L' : Lenses, (∀ l ∈ L', l ∈ L) → ∃ D : ℝ, 0 < D ∧ ∀ z ∈ K, ∀ l ∈ L', D ≤ ‖z - l.2‖ := by
      intro L'
      induction L' with
      | nil => intro _; exact ⟨1, one_pos, fun _ _ l hl => absurd hl List.not_mem_nil⟩
      | cons l L' ih =>
        intro h
        obtain ⟨D, hD, hd⟩ := ih fun l hl => h l (List.mem_cons_of_mem _ hl)
        obtain ⟨D', hD', hd'⟩ := hK.exists_forall_le' (f := fun z => ‖z - l.2‖) (by fun_prop) (a := 0)
          (fun z hz => norm_pos_iff.mpr (sub_ne_zero.mpr (hoff z hz l (h l List.mem_cons_self))))
        refine ⟨min D D', lt_min hD hD', fun z hz l' hl' => ?_⟩
        rcases List.mem_cons.mp hl' with rfl | hl'
        · exact (min_le_right _ _).trans (hd' z hz)
        · exact (min_le_left _ _).trans (hd z hz l' hl')
    exact this L fun _ h => h
  set B : ℝ := 1 + (L.map fun l => |l.1| / (D / 2) ^ 2).sum with hB
  have hB0 : 0 ≤ B := by
    have : 0 ≤ (L.map fun l => |l.1| / (D / 2) ^ 2).sum := List.sum_nonneg fun x hx => by
      obtain ⟨l, -, rfl⟩ := List.mem_map.mp hx
      positivity
    linarith
  refine ⟨3 * Real.sqrt (2 * B), min 1 (D / (2 * (A + 1))), by positivity, lt_min one_pos (by positivity),
    fun rho h0 hrho u1 hu0 hu1 y x hy hx z z' hz hz' => ?_⟩
  have r1 := hrho.trans_le (min_le_left _ _)
  have r2 := (lt_div_iff₀ (by positivity)).mp (hrho.trans_le (min_le_right _ _))
  have hxK : x ∈ K := hin x hx.1 (by rw [hx.2]; linarith)
  have hfar : ∀ z, ‖z - x‖ ≤ A * rho → ∀ l ∈ L, D / 2 ≤ ‖z - l.2‖ := by
    intro z hz l hl
    have h1 := hdist x hxK l hl
    have h2 := norm_sub_le_norm_sub_add_norm_sub x z l.2
    rw [norm_sub_rev x z] at h2
    nlinarith
  have hne : ∀ z, ‖z - x‖ ≤ A * rho → ∀ l ∈ L, z ≠ l.2 := by
    intro z hz l hl h
    have := hfar z hz l hl
    rw [h, sub_self, norm_zero] at this
    linarith
  rw [imageProfile_off _ _ _ _ _ (hne z hz), imageProfile_off _ _ _ _ _ (hne z' hz')]
  refine (profile_holder (lensMap L) w rho u1 h0 hu0 hu1 z z').trans ?_
  have h1 := lensMap_lipschitz L (D / 2) (by positivity) z z' (hfar z hz) (hfar z' hz')
  rw [← hB] at h1
  rw [mul_assoc 3, ← Real.sqrt_mul (by positivity)]
  refine mul_le_mul_of_nonneg_left (Real.sqrt_le_sqrt ?_) (by norm_num)
  rw [mul_assoc]
  have := div_le_div_of_nonneg_right h1 h0.le
  rw [mul_div_assoc] at this
  linarith

end Microjax.Props
