import Verif.Lemmas.RadialMean
import Verif.Spec.Lensing
import Mathlib.Analysis.SpecialFunctions.Pow.Deriv

/-!
# The Laplacians of Paczynski's magnification
-/

noncomputable section

namespace Microjax.Props

open Set Spec

/-- A polynomial of degree four. -/
def quart (c : Fin 5 → ℝ) (s : ℝ) : ℝ := c 0 + c 1 * s + c 2 * s ^ 2 + c 3 * s ^ 3 + c 4 * s ^ 4

/-- Its derivative. -/
def quartD (c : Fin 5 → ℝ) (s : ℝ) : ℝ := c 1 + 2 * c 2 * s + 3 * c 3 * s ^ 2 + 4 * c 4 * s ^ 3

theorem quart_deriv (c : Fin 5 → ℝ) (s : ℝ) : HasDerivAt (quart c) (quartD c s) s := by
  have hpow : ∀ n : ℕ, HasDerivAt (fun x : ℝ => x ^ (n + 1)) ((n + 1 : ℕ) * s ^ n) s := fun n => by
    simpa using hasDerivAt_pow (n + 1) s
  unfold quart quartD
  refine (((((hasDerivAt_id' s).const_mul (c 1)).const_add (c 0)).fun_add ((hpow 1).const_mul (c 2))).fun_add
    ((hpow 2).const_mul (c 3)) |>.fun_add ((hpow 3).const_mul (c 4))).congr_deriv ?_
  push_cast; ring

/-- `P(s) s^p (s+4)^q`. -/
def shell (P : ℝ → ℝ) (p q s : ℝ) : ℝ := P s * (s ^ p * (s + 4) ^ q)

/-- The polynomial in front after a differentiation. -/
def stepP (P P' : ℝ → ℝ) (p q s : ℝ) : ℝ := P' s * (s * (s + 4)) + p * P s * (s + 4) + q * P s * s

theorem shell_deriv (P P' : ℝ → ℝ) (hP : ∀ s, HasDerivAt P (P' s) s) (p q s : ℝ) (hs : 0 < s) :
    HasDerivAt (shell P p q) (shell (stepP P P' p q) (p - 1) (q - 1) s) s := by
  have h1 := Real.hasDerivAt_rpow_const (x := s) (p := p) (Or.inl hs.ne')
  have h4 : 0 < s + 4 := by linarith
  have h2 := (Real.hasDerivAt_rpow_const (x := s + 4) (p := q) (Or.inl h4.ne')).comp s ((hasDerivAt_id' s).add_const 4)
  refine ((hP s).fun_mul (h1.fun_mul h2)).congr_deriv ?_
  simp only [Function.comp_apply, shell, stepP]
  rw [Real.rpow_sub_one hs.ne', Real.rpow_sub_one h4.ne']
  field_simp
  ring

theorem shell_cont (P : ℝ → ℝ) (hP : Continuous P) (p q : ℝ) : ContinuousOn (shell P p q) (Ioi 0) := by
  intro s hs
  have hs0 : (0 : ℝ) < s := hs
  have h4 : s + 4 ≠ 0 := by linarith
  unfold shell
  refine ContinuousAt.continuousWithinAt (hP.continuousAt.mul ((Real.continuousAt_rpow_const s p (Or.inl hs0.ne')).mul ?_))
  exact ContinuousAt.comp (g := fun x : ℝ => x ^ q) (Real.continuousAt_rpow_const (s + 4) q (Or.inl h4)) (by fun_prop)

theorem shell_twice (F : ℝ → ℝ) (c d : Fin 5 → ℝ) (p q : ℝ) (hF : ∀ s, 0 < s → F s = shell (quart c) p q s)
    (hd : ∀ s, quart d s = stepP (quart c) (quartD c) p q s) :
    Twice F (shell (quart d) (p - 1) (q - 1)) (shell (stepP (quart d) (quartD d) (p - 1) (q - 1)) (p - 1 - 1) (q - 1 - 1)) := by
  have hcq : ∀ c, Continuous (quart c) := fun c => by unfold quart; fun_prop
  have hcd : ∀ c, Continuous (quartD c) := fun c => by unfold quartD; fun_prop
  refine ⟨fun s hs => ?_, fun s hs => shell_deriv _ _ (quart_deriv d) _ _ s hs, ?_⟩
  · have h := shell_deriv _ _ (quart_deriv c) p q s hs
    have e : shell (stepP (quart c) (quartD c) p q) (p - 1) (q - 1) s = shell (quart d) (p - 1) (q - 1) s := by
      unfold shell; rw [hd]
    rw [e] at h
    refine h.congr_of_eventuallyEq ?_
    filter_upwards [Ioi_mem_nhds hs] with t ht
    exact hF t ht
  · refine shell_cont _ ?_ _ _
    have := hcq d
    have := hcd d
    unfold stepP
    fun_prop

/-- The Laplacian of such a function. -/
theorem shell_lap (d : Fin 5 → ℝ) (P : ℝ → ℝ) (p q : ℝ) (s : ℝ) (hs : 0 < s)
    (hP : 4 * (stepP (quart d) (quartD d) p q s + quart d s * (s + 4)) = P s) :
    radLap (shell (quart d) p q) (shell (stepP (quart d) (quartD d) p q) (p - 1) (q - 1)) s = shell P p (q - 1) s := by
  have h4 : 0 < s + 4 := by linarith
  unfold radLap shell
  rw [← hP, Real.rpow_sub_one hs.ne', Real.rpow_sub_one h4.ne']
  field_simp

/-- Coefficients of the magnification as a function of the squared separation, of its Laplacian and its bilaplacian, and of the
derivatives of these. -/
def coefC0 : Fin 5 → ℝ := ![2, 1, 0, 0, 0]
def coefD0 : Fin 5 → ℝ := ![-4, 0, 0, 0, 0]
def coefC1 : Fin 5 → ℝ := ![32, 32, 0, 0, 0]
def coefD1 : Fin 5 → ℝ := ![-192, -192, -96, 0, 0]
def coefC2 : Fin 5 → ℝ := ![4608, 5376, 2304, 1152, 0]
def coefD2 : Fin 5 → ℝ := ![-46080, -64512, -36864, -9216, -4608]

/-- Paczynski's magnification as a function of the squared separation. -/
def pacz (s : ℝ) : ℝ := shell (quart coefC0) (-1 / 2) (-1 / 2) s
def pacz1 : ℝ → ℝ := shell (quart coefD0) (-1 / 2 - 1) (-1 / 2 - 1)
def pacz2 : ℝ → ℝ := shell (stepP (quart coefD0) (quartD coefD0) (-1 / 2 - 1) (-1 / 2 - 1)) (-1 / 2 - 1 - 1) (-1 / 2 - 1 - 1)
/-- The Laplacian. -/
def lap1 (s : ℝ) : ℝ := shell (quart coefC1) (-3 / 2) (-5 / 2) s
def lap11 : ℝ → ℝ := shell (quart coefD1) (-3 / 2 - 1) (-5 / 2 - 1)
def lap12 : ℝ → ℝ := shell (stepP (quart coefD1) (quartD coefD1) (-3 / 2 - 1) (-5 / 2 - 1)) (-3 / 2 - 1 - 1) (-5 / 2 - 1 - 1)
/-- The Laplacian of the Laplacian. -/
def lap2 (s : ℝ) : ℝ := shell (quart coefC2) (-5 / 2) (-9 / 2) s
def lap21 : ℝ → ℝ := shell (quart coefD2) (-5 / 2 - 1) (-9 / 2 - 1)
def lap22 : ℝ → ℝ := shell (stepP (quart coefD2) (quartD coefD2) (-5 / 2 - 1) (-9 / 2 - 1)) (-5 / 2 - 1 - 1) (-9 / 2 - 1 - 1)

theorem pacz_norm (u : ℝ) (hu : 0 < u) : pacz (u ^ 2) = paczynski u := by
  have h4 : 0 < u ^ 2 + 4 := by positivity
  have e1 : (u ^ 2 : ℝ) ^ (-1 / 2 : ℝ) = 1 / u := by
    rw [show (-1 / 2 : ℝ) = -(1 / 2) by norm_num, Real.rpow_neg (by positivity), ← Real.sqrt_eq_rpow, Real.sqrt_sq hu.le, one_div]
  have e2 : (u ^ 2 + 4 : ℝ) ^ (-1 / 2 : ℝ) = 1 / Real.sqrt (u ^ 2 + 4) := by
    rw [show (-1 / 2 : ℝ) = -(1 / 2) by norm_num, Real.rpow_neg (by positivity), ← Real.sqrt_eq_rpow, one_div]
  have := Real.sqrt_pos.mpr h4
  unfold pacz shell paczynski
  rw [e1, e2]
  simp [quart, coefC0]
  field_simp
  ring

theorem pacz_twice : Twice pacz pacz1 pacz2 :=
  shell_twice pacz coefC0 coefD0 _ _ (fun _ _ => rfl) fun s => by simp [quart, quartD, stepP, coefC0, coefD0]; ring

theorem lap1_eq (s : ℝ) (hs : 0 < s) : radLap pacz1 pacz2 s = lap1 s := by
  rw [pacz1, pacz2, shell_lap coefD0 (fun s => quart coefC1 s) _ _ s hs]
  · unfold lap1 shell; norm_num
  · simp [quart, quartD, stepP, coefC1, coefD0]; ring

theorem lap1_twice : Twice (radLap pacz1 pacz2) lap11 lap12 :=
  shell_twice _ coefC1 coefD1 _ _ (fun s hs => lap1_eq s hs) fun s => by simp [quart, quartD, stepP, coefC1, coefD1]; ring

theorem lap2_eq (s : ℝ) (hs : 0 < s) : radLap lap11 lap12 s = lap2 s := by
  rw [lap11, lap12, shell_lap coefD1 (fun s => quart coefC2 s) _ _ s hs]
  · unfold lap2 shell; norm_num
  · simp [quart, quartD, stepP, coefC2, coefD1]; ring

theorem lap2_twice : Twice (radLap lap11 lap12) lap21 lap22 :=
  shell_twice _ coefC2 coefD2 _ _ (fun s hs => lap2_eq s hs) fun s => by simp [quart, quartD, stepP, coefC2, coefD2]; ring

/-- The polynomial of the third power of the Laplacian. -/
def lap3P (s : ℝ) : ℝ := 18432 * (4 * s ^ 5 + 4 * s ^ 4 + 44 * s ^ 3 + 114 * s ^ 2 + 164 * s + 100)

theorem lap3_eq (s : ℝ) (hs : 0 < s) : radLap lap21 lap22 s = shell lap3P (-7 / 2) (-13 / 2) s := by
  rw [lap21, lap22, shell_lap coefD2 lap3P _ _ s hs]
  · unfold shell; norm_num
  · simp [quart, quartD, stepP, lap3P, coefD2]; ring

theorem lap1_nonneg (s : ℝ) (hs : 0 < s) : 0 ≤ lap1 s := by
  unfold lap1 shell
  have : 0 ≤ quart coefC1 s := by simp [quart, coefC1]; positivity
  positivity

theorem lap2_nonneg (s : ℝ) (hs : 0 < s) : 0 ≤ lap2 s := by
  unfold lap2 shell
  have : 0 ≤ quart coefC2 s := by simp [quart, coefC2]; positivity
  positivity

theorem lap3_pos (s : ℝ) (hs : 0 < s) : 0 < radLap lap21 lap22 s := by
  rw [lap3_eq s hs]
  unfold shell lap3P
  positivity

/-- Outside of a circle about the lens the third power of the Laplacian is bounded. -/
theorem lap3_le (η s : ℝ) (hη : 0 < η) (hs : η ^ 2 ≤ s) : radLap lap21 lap22 s ≤ 768 / η ^ 7 := by
  have hs0 : 0 < s := lt_of_lt_of_le (by positivity) hs
  have h4 : 0 < s + 4 := by linarith
  rw [lap3_eq s hs0]
  have e1 : s ^ (-7 / 2 : ℝ) ≤ 1 / η ^ 7 := by
    calc s ^ (-7 / 2 : ℝ) ≤ (η ^ 2) ^ (-7 / 2 : ℝ) :=
          Real.rpow_le_rpow_of_nonpos (by positivity) hs (by norm_num)
      _ = 1 / η ^ 7 := by
          rw [← Real.rpow_natCast η 2, ← Real.rpow_mul hη.le, show ((2 : ℕ) : ℝ) * (-7 / 2) = -((7 : ℕ) : ℝ) by norm_num,
            Real.rpow_neg hη.le, Real.rpow_natCast, one_div]
  have e2 : (s + 4) ^ (-13 / 2 : ℝ) ≤ 1 / (2 * (s + 4) ^ 6) := by
    have h2 : (2 : ℝ) ≤ Real.sqrt (s + 4) := Real.le_sqrt_of_sq_le (by linarith)
    rw [show (-13 / 2 : ℝ) = -((6 : ℕ) + 1 / 2) by norm_num, Real.rpow_neg h4.le, Real.rpow_add h4, Real.rpow_natCast,
      ← Real.sqrt_eq_rpow, ← one_div]
    refine one_div_le_one_div_of_le (by positivity) ?_
    have : 0 < (s + 4) ^ 6 := by positivity
    nlinarith
  have hP : lap3P s ≤ 768 * (2 * (s + 4) ^ 6) := by
    unfold lap3P
    have k1 : 0 ≤ s ^ 4 * ((s - 12) ^ 2 + 48) := by positivity
    have k2 : 0 ≤ s ^ 3 := by positivity
    have k3 : 0 ≤ s ^ 2 := by positivity
    nlinarith
  have hP0 : 0 ≤ lap3P s := by unfold lap3P; positivity
  have h6 : 0 < 2 * (s + 4) ^ 6 := by positivity
  unfold shell
  calc lap3P s * (s ^ (-7 / 2 : ℝ) * (s + 4) ^ (-13 / 2 : ℝ)) ≤ lap3P s * (1 / η ^ 7 * (1 / (2 * (s + 4) ^ 6))) := by
        refine mul_le_mul_of_nonneg_left (mul_le_mul e1 e2 (by positivity) (by positivity)) hP0
    _ ≤ 768 * (2 * (s + 4) ^ 6) * (1 / η ^ 7 * (1 / (2 * (s + 4) ^ 6))) :=
        mul_le_mul_of_nonneg_right hP (by positivity)
    _ = 768 / η ^ 7 := by field_simp

end Microjax.Props
