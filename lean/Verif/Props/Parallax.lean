import Verif.Lemmas.Kepler
import Verif.Props.Cluster
import Mathlib.Tactic.LinearCombination
import Mathlib.Tactic.IntervalCases
import Mathlib.Analysis.Calculus.Deriv.Prod

/-!
# Annual parallax: C51-C57, C73

The theorems exclude the inputs for which the code divides by zero (`dt = 0`, `period = 0`, `ecc = 1`, a target at
a celestial pole) by hypotheses, even where the proof does not need them.
-/

set_option linter.unusedVariables false

noncomputable section

namespace Microjax.Props

open Parallax Spec Matrix

/-! ### C51, C52, C73: the offsets -/

/-- C51.  At the reference time both parallax offsets vanish, for every parallax vector, target, orbit and
observing array: entry `i` of both outputs is 0 whenever entry `i` of the times is the reference time. -/
theorem C51_zero_at_reference (tref tperi tvernal RA Dec rot ecc period dt piEN piEE : ℝ) (hdt : dt ≠ 0)
    (hP : period ≠ 0) (he0 : 0 ≤ ecc) (he1 : ecc < 1) (hDec : Real.cos (deg2rad Dec) ≠ 0) (t : List ℝ) (i : ℕ)
    (hi : t[i]? = some tref) :
    let out := computeParallax t piEN piEE (setParallax tref tperi tvernal RA Dec rot ecc period dt)
    out.1[i]? = some 0 ∧ out.2[i]? = some 0 := by
  intro out
  have h : computeAt tref piEN piEE (setParallax tref tperi tvernal RA Dec rot ecc period dt) = (0, 0) := by
    simp [computeAt, qneDelta, setParallax]
  constructor
  · simp only [out, computeParallax, List.getElem?_map, hi, Option.map_some, h]
  · simp only [out, computeParallax, List.getElem?_map, hi, Option.map_some, h]

/-- A concrete call meeting the hypotheses of C51 (Galactic bulge target, default orbit, three times). -/
example :
    let out := computeParallax [7980, 8000, 8020] 0.1 0.2 (setParallax 8000 0 0 270 0 23.44 0.0167 365.25636 0.1)
    out.1[1]? = some 0 ∧ out.2[1]? = some 0 :=
  C51_zero_at_reference 8000 0 0 270 0 23.44 0.0167 365.25636 0.1 0.1 0.2 (by norm_num) (by norm_num)
    (by norm_num) (by norm_num) (by simp [deg2rad]) [7980, 8000, 8020] 1 rfl

/-- C52.  The outputs have one entry per time and are linear in the parallax vector. -/
theorem C52_linear (t : List ℝ) (p : Params) (a b N₁ E₁ N₂ E₂ : ℝ) :
    computeParallax t (a * N₁ + b * N₂) (a * E₁ + b * E₂) p
      = (List.zipWith (fun u v => a * u + b * v) (computeParallax t N₁ E₁ p).1 (computeParallax t N₂ E₂ p).1,
         List.zipWith (fun u v => a * u + b * v) (computeParallax t N₁ E₁ p).2 (computeParallax t N₂ E₂ p).2)
      ∧ (computeParallax t N₁ E₁ p).1.length = t.length ∧ (computeParallax t N₁ E₁ p).2.length = t.length := by
  refine ⟨?_, by simp [computeParallax], by simp [computeParallax]⟩
  unfold computeParallax
  simp only [List.zipWith_map, List.zipWith_self]
  refine Prod.ext ?_ ?_
  · refine List.map_congr_left fun s _ => ?_
    simp only [computeAt]; ring
  · refine List.map_congr_left fun s _ => ?_
    simp only [computeAt]; ring

/-- C52.  The two offsets are the components of the projected displacement of the observer (position minus
reference position minus reference velocity times elapsed time) along and across the parallax vector: with
`π = (N, E)` and displacement `(dN, dE)` the along-track offset is the scalar product, the across-track offset the
scalar product with `π` turned by a quarter (north to east being the sense of `(N, E) ↦ (-E, N)`), and the sum of
squares is `|π|²` times the squared displacement. -/
theorem C52_components (t N E tref tperi tvernal RA Dec rot ecc period dt : ℝ) (hdt : dt ≠ 0)
    (hP : period ≠ 0) (he0 : 0 ≤ ecc) (he1 : ecc < 1) (hDec : Real.cos (deg2rad Dec) ≠ 0) :
    let p := setParallax tref tperi tvernal RA Dec rot ecc period dt
    let q := fun s => projectAt s p.tperi p.period p.ecc p.R p.north p.east
    let v : ℝ × ℝ := (((q (tref + dt)).1 - (q (tref - dt)).1) / (2 * dt),
      ((q (tref + dt)).2 - (q (tref - dt)).2) / (2 * dt))
    let d : ℝ × ℝ := ((q t).1 - (q tref).1 - v.1 * (t - tref), (q t).2 - (q tref).2 - v.2 * (t - tref))
    let o := computeAt t N E p
    o.1 = N * d.1 + E * d.2 ∧ o.2 = -E * d.1 + N * d.2 ∧
      o.1 ^ 2 + o.2 ^ 2 = (N ^ 2 + E ^ 2) * (d.1 ^ 2 + d.2 ^ 2) := by
  intro p q v d o
  have h1 : p.vne0.1 = v.1 := by
    show 0.5 * ((q (tref + dt)).1 - (q (tref - dt)).1) / dt = _
    simp only [v]; field_simp; ring
  have h2 : p.vne0.2 = v.2 := by
    show 0.5 * ((q (tref + dt)).2 - (q (tref - dt)).2) / dt = _
    simp only [v]; field_simp; ring
  have hd : qneDelta t p = d := by
    refine Prod.ext ?_ ?_
    · show (q t).1 - ((q tref).1 + p.vne0.1 * (t - tref)) = _
      rw [h1]; simp only [d]; ring
    · show (q t).2 - ((q tref).2 + p.vne0.2 * (t - tref)) = _
      rw [h2]; simp only [d]; ring
  have ho : o = (N * d.1 + E * d.2, N * d.2 - E * d.1) := by
    show computeAt t N E p = _
    simp only [computeAt, hd]
  rw [ho]
  refine ⟨rfl, ?_, ?_⟩
  · show N * d.2 - E * d.1 = _
    ring
  · show (N * d.1 + E * d.2) ^ 2 + (N * d.2 - E * d.1) ^ 2 = _
    ring

/-- Hypotheses of C52 for a concrete event (the default orbit). -/
example (t : ℝ) := C52_components t 0.1 0.2 8000 7758 7833 270 0 23.44 0.0167 365.25636 0.1 (by norm_num)
  (by norm_num) (by norm_num) (by norm_num) (by simp [deg2rad])

/-- C73.  The linear motion at the reference time is removed: the offsets one finite-difference step before and
after the reference time are equal, whatever the step. -/
theorem C73_no_linear_part (N E tref tperi tvernal RA Dec rot ecc period dt : ℝ) (hdt : dt ≠ 0)
    (hP : period ≠ 0) (he0 : 0 ≤ ecc) (he1 : ecc < 1) (hDec : Real.cos (deg2rad Dec) ≠ 0) :
    let p := setParallax tref tperi tvernal RA Dec rot ecc period dt
    computeAt (tref + dt) N E p = computeAt (tref - dt) N E p := by
  intro p
  have hd : qneDelta (tref + dt) p = qneDelta (tref - dt) p := by
    simp only [p, qneDelta, setParallax]
    refine Prod.ext ?_ ?_
    · simp only []
      field_simp
      ring
    · simp only []
      field_simp
      ring
  simp only [computeAt, hd]

example (N E : ℝ) := C73_no_linear_part N E 8000 0 0 270 0 23.44 0.0167 365.25636 0.1 (by norm_num)
  (by norm_num) (by norm_num) (by norm_num) (by simp [deg2rad])

/-! ### C53: the basis -/

lemma los_eq (RA Dec : ℝ) : los RA Dec = skyDirection (deg2rad RA) (deg2rad Dec) := by
  simp [los, skyDirection, mul_comm]

lemma east_eq {RA Dec : ℝ} (h : 0 < Real.cos (deg2rad Dec)) (rot psi : ℝ) :
    (prepareProjectionBasis rot psi RA Dec).2.2 = ![-Real.sin (deg2rad RA), Real.cos (deg2rad RA), 0] := by
  have hn : norm3 (crossProduct ![0, 0, 1] (los RA Dec)) = Real.cos (deg2rad Dec) := by
    unfold norm3
    rw [cross_apply]
    simp only [los, vec3_dotProduct, cons_val_zero, cons_val_one, cons_val]
    rw [show (0 * Real.sin (deg2rad Dec) - 1 * (Real.sin (deg2rad RA) * Real.cos (deg2rad Dec))) *
        (0 * Real.sin (deg2rad Dec) - 1 * (Real.sin (deg2rad RA) * Real.cos (deg2rad Dec))) +
        (1 * (Real.cos (deg2rad RA) * Real.cos (deg2rad Dec)) - 0 * Real.sin (deg2rad Dec)) *
        (1 * (Real.cos (deg2rad RA) * Real.cos (deg2rad Dec)) - 0 * Real.sin (deg2rad Dec)) +
        (0 * (Real.sin (deg2rad RA) * Real.cos (deg2rad Dec)) - 0 * (Real.cos (deg2rad RA) * Real.cos (deg2rad Dec))) *
        (0 * (Real.sin (deg2rad RA) * Real.cos (deg2rad Dec)) - 0 * (Real.cos (deg2rad RA) * Real.cos (deg2rad Dec)))
      = (Real.sin (deg2rad RA) ^ 2 + Real.cos (deg2rad RA) ^ 2) * Real.cos (deg2rad Dec) ^ 2 by ring,
      Real.sin_sq_add_cos_sq, one_mul, Real.sqrt_sq h.le]
  show (norm3 (crossProduct ![0, 0, 1] (los RA Dec)))⁻¹ • crossProduct ![0, 0, 1] (los RA Dec) = _
  rw [hn, cross_apply]
  ext i
  fin_cases i <;> simp [los] <;> field_simp

lemma north_eq {RA Dec : ℝ} (h : 0 < Real.cos (deg2rad Dec)) (rot psi : ℝ) :
    (prepareProjectionBasis rot psi RA Dec).2.1
      = ![-Real.sin (deg2rad Dec) * Real.cos (deg2rad RA), -Real.sin (deg2rad Dec) * Real.sin (deg2rad RA),
          Real.cos (deg2rad Dec)] := by
  have he := east_eq (RA := RA) h rot psi
  have hc : crossProduct (los RA Dec) ![-Real.sin (deg2rad RA), Real.cos (deg2rad RA), 0]
      = ![-Real.sin (deg2rad Dec) * Real.cos (deg2rad RA), -Real.sin (deg2rad Dec) * Real.sin (deg2rad RA),
          Real.cos (deg2rad Dec)] := by
    rw [cross_apply]
    ext i
    have hsc := Real.sin_sq_add_cos_sq (deg2rad RA)
    fin_cases i <;> simp [los]
    linear_combination Real.cos (deg2rad Dec) * hsc
  show (norm3 (crossProduct (los RA Dec) (prepareProjectionBasis rot psi RA Dec).2.2))⁻¹ •
    crossProduct (los RA Dec) (prepareProjectionBasis rot psi RA Dec).2.2 = _
  rw [he, hc]
  have hn : norm3 ![-Real.sin (deg2rad Dec) * Real.cos (deg2rad RA),
      -Real.sin (deg2rad Dec) * Real.sin (deg2rad RA), Real.cos (deg2rad Dec)] = 1 := by
    unfold norm3
    have hsc := Real.sin_sq_add_cos_sq (deg2rad RA)
    have hsd := Real.sin_sq_add_cos_sq (deg2rad Dec)
    simp only [vec3_dotProduct, cons_val_zero, cons_val_one, cons_val]
    rw [← Real.sqrt_one]
    congr 1
    linear_combination Real.sin (deg2rad Dec) ^ 2 * hsc + hsd
  rw [hn, inv_one, one_smul]

lemma rotZ_rotation (a : ℝ) : IsRotation (rotZ a) := by
  have h := Real.sin_sq_add_cos_sq a
  constructor
  · ext i j
    fin_cases i <;> fin_cases j <;> simp [rotZ, Matrix.mul_apply, Fin.sum_univ_three] <;> linarith
  · rw [det_fin_three]
    simp [rotZ]
    linarith

lemma rotX_rotation (a : ℝ) : IsRotation (rotX a) := by
  have h := Real.sin_sq_add_cos_sq a
  constructor
  · ext i j
    fin_cases i <;> fin_cases j <;> simp [rotX, Matrix.mul_apply, Fin.sum_univ_three] <;> linarith
  · rw [det_fin_three]
    simp [rotX]
    linarith

lemma isRotation_mul {A B : Matrix (Fin 3) (Fin 3) ℝ} (hA : IsRotation A) (hB : IsRotation B) :
    IsRotation (A * B) := by
  refine ⟨?_, by rw [det_mul, hA.2, hB.2, one_mul]⟩
  rw [transpose_mul, Matrix.mul_assoc, ← Matrix.mul_assoc Aᵀ, hA.1, Matrix.one_mul, hB.1]

/-- C53.  For every target with declination strictly between -90 and 90 degrees (`cos Dec > 0`): north and east are
unit vectors orthogonal to each other and to the unit line of sight, (east, north, line of sight) is right handed,
north is the derivative of the line of sight with respect to declination and `cos Dec · east` that with respect to
right ascension (both in radians), and the orbital-to-equatorial matrix is a rotation. -/
theorem C53_basis (rot psi RA Dec : ℝ) (hDec : 0 < Real.cos (Dec * (Real.pi / 180))) :
    let α := RA * (Real.pi / 180)
    let δ := Dec * (Real.pi / 180)
    let b := prepareProjectionBasis rot psi RA Dec
    let R := b.1
    let north := b.2.1
    let east := b.2.2
    let l := skyDirection α δ
    north ⬝ᵥ north = 1 ∧ east ⬝ᵥ east = 1 ∧ l ⬝ᵥ l = 1 ∧
    north ⬝ᵥ east = 0 ∧ north ⬝ᵥ l = 0 ∧ east ⬝ᵥ l = 0 ∧ (Matrix.of ![east, north, l]).det = 1 ∧
    HasDerivAt (fun d => skyDirection α d) north δ ∧
    HasDerivAt (fun a => skyDirection a δ) (Real.cos δ • east) α ∧
    IsRotation R := by
  intro α δ b R north east l
  have hN : north = ![-Real.sin δ * Real.cos α, -Real.sin δ * Real.sin α, Real.cos δ] := north_eq hDec rot psi
  have hE : east = ![-Real.sin α, Real.cos α, 0] := east_eq hDec rot psi
  have hα := Real.sin_sq_add_cos_sq α
  have hδ := Real.sin_sq_add_cos_sq δ
  have hl : l = ![Real.cos δ * Real.cos α, Real.cos δ * Real.sin α, Real.sin δ] := rfl
  rw [hN, hE, hl]
  refine ⟨?_, ?_, ?_, ?_, ?_, ?_, ?_, ?_, ?_, ?_⟩
  · simp only [vec3_dotProduct, cons_val_zero, cons_val_one, cons_val]
    linear_combination Real.sin δ ^ 2 * hα + hδ
  · simp only [vec3_dotProduct, cons_val_zero, cons_val_one, cons_val]
    linear_combination hα
  · simp only [vec3_dotProduct, cons_val_zero, cons_val_one, cons_val]
    linear_combination Real.cos δ ^ 2 * hα + hδ
  · simp only [vec3_dotProduct, cons_val_zero, cons_val_one, cons_val]
    ring
  · simp only [vec3_dotProduct, cons_val_zero, cons_val_one, cons_val]
    linear_combination -Real.sin δ * Real.cos δ * hα
  · simp only [vec3_dotProduct, cons_val_zero, cons_val_one, cons_val]
    ring
  · rw [det_fin_three]
    simp only [of_apply, cons_val_zero, cons_val_one, cons_val]
    linear_combination (Real.sin δ ^ 2 + Real.cos δ ^ 2) * hα + hδ
  · rw [hasDerivAt_pi]
    intro i
    fin_cases i
    · exact (Real.hasDerivAt_cos δ).mul_const (Real.cos α)
    · exact (Real.hasDerivAt_cos δ).mul_const (Real.sin α)
    · exact Real.hasDerivAt_sin δ
  · rw [hasDerivAt_pi]
    intro i
    fin_cases i
    · have := (Real.hasDerivAt_cos α).const_mul (Real.cos δ)
      exact this
    · have := (Real.hasDerivAt_sin α).const_mul (Real.cos δ)
      exact this
    · have := hasDerivAt_const α (Real.sin δ)
      simp only [smul_cons, smul_eq_mul, mul_zero]
      exact this
  · exact isRotation_mul (rotX_rotation _) (rotZ_rotation _)

/-- C53 for a target at declination -60 degrees. -/
example := C53_basis 23.44 1.3 270 (-60) (by
  rw [show (-60 : ℝ) * (Real.pi / 180) = -(Real.pi / 3) by ring, Real.cos_neg, Real.cos_pi_div_three]
  norm_num)

/-! ### C54: Kepler's equation -/

/-- C54.  For every eccentricity `0 ≤ e < 1` and mean anomaly, Kepler's equation has exactly one solution and the
value returned by `getpsi` differs from it by at most `(e / (2 (1 - e)))^31 (0.85 e)^32`. -/
theorem C54_accuracy (e M : ℝ) (he0 : 0 ≤ e) (he1 : e < 1) :
    ∃ E, IsEccentricAnomaly e M E ∧ (∀ E', IsEccentricAnomaly e M E' → E' = E) ∧
      |getpsi M e - E| ≤ (e / (2 * (1 - e))) ^ 31 * (0.85 * e) ^ 32 := by
  obtain ⟨E, hE⟩ := kepler_exists he0 he1 M
  exact ⟨E, hE, fun E' h' => kepler_unique he0 he1 h' hE, getpsi_error he0 he1 hE⟩

/-- For the Earth's eccentricity the bound is below `10^(-120)`. -/
example (M : ℝ) : ∃ E, IsEccentricAnomaly 0.0167 M E ∧ |getpsi M 0.0167 - E| ≤ (1 / 10) ^ 120 := by
  obtain ⟨E, hE, -, h⟩ := C54_accuracy 0.0167 M (by norm_num) (by norm_num)
  exact ⟨E, hE, h.trans (by norm_num)⟩

/-- C54.  The returned anomaly is exact for a circular orbit and at the apses (mean anomaly a multiple of `π`),
odd in the mean anomaly, and advances by full turns with it. -/
theorem C54_symmetry (e M : ℝ) (k : ℤ) :
    getpsi M 0 = M ∧ getpsi (k * Real.pi) e = k * Real.pi ∧ getpsi (-M) e = -getpsi M e ∧
      getpsi (M + 2 * Real.pi * k) e = getpsi M e + 2 * Real.pi * k := by
  refine ⟨?_, ?_, getpsi_neg M e, ?_⟩
  · have h : ∀ n : ℕ, (newtonStep 0 M)^[n] M = M := by
      intro n
      induction n with
      | zero => rfl
      | succ n ih => rw [Function.iterate_succ_apply', ih]; simp [newtonStep]
    have := h 5
    unfold getpsi
    rw [mul_zero, add_zero, this]
  · have hs : Real.sin (k * Real.pi) = 0 := Real.sin_int_mul_pi k
    have h : ∀ n : ℕ, (newtonStep e (k * Real.pi))^[n] (k * Real.pi) = k * Real.pi := by
      intro n
      induction n with
      | zero => rfl
      | succ n ih => rw [Function.iterate_succ_apply', ih]; simp [newtonStep, hs]
    unfold getpsi
    rw [hs, Real.sign_zero, zero_mul, zero_mul, add_zero]
    exact h 5
  · have := getpsi_add M e k
    rw [show (k : ℝ) * (2 * Real.pi) = 2 * Real.pi * k by ring] at this
    exact this

/-! ### C55: the orbit -/

lemma orbit_length {e : ℝ} (he0 : 0 ≤ e) (he1 : e < 1) (psi : ℝ) :
    orbit e psi ⬝ᵥ orbit e psi = (1 - e * Real.cos psi) ^ 2 := by
  have hb : Real.sqrt (1 - e ^ 2) ^ 2 = 1 - e ^ 2 := Real.sq_sqrt (by nlinarith)
  simp only [orbit, vec3_dotProduct, cons_val_zero, cons_val_one, cons_val]
  have h := Real.sin_sq_add_cos_sq psi
  linear_combination Real.sin psi ^ 2 * hb + (1 - e ^ 2) * h

lemma rotation_dot {R : Matrix (Fin 3) (Fin 3) ℝ} (hR : IsRotation R) (v w : Fin 3 → ℝ) :
    R *ᵥ v ⬝ᵥ R *ᵥ w = v ⬝ᵥ w := by
  rw [dotProduct_mulVec, vecMul_mulVec, hR.1, ← dotProduct_mulVec, one_mulVec]

/-- Two orthonormal directions see at most the whole length (Bessel). -/
lemma bessel {n e v : Fin 3 → ℝ} (hn : n ⬝ᵥ n = 1) (he : e ⬝ᵥ e = 1) (hne : n ⬝ᵥ e = 0) :
    (n ⬝ᵥ v) ^ 2 + (e ⬝ᵥ v) ^ 2 ≤ v ⬝ᵥ v := by
  have h : 0 ≤ (v - (n ⬝ᵥ v) • n - (e ⬝ᵥ v) • e) ⬝ᵥ (v - (n ⬝ᵥ v) • n - (e ⬝ᵥ v) • e) := by
    rw [vec3_dotProduct]
    exact add_nonneg (add_nonneg (mul_self_nonneg _) (mul_self_nonneg _)) (mul_self_nonneg _)
  simp only [sub_dotProduct, dotProduct_sub, smul_dotProduct, dotProduct_smul, smul_eq_mul, hn, he, hne,
    dotProduct_comm e n, dotProduct_comm v n, dotProduct_comm v e] at h
  nlinarith

/-- C55.  For every eccentricity `0 ≤ e < 1`, time and period the position (read off with the coordinate axes of
the orbital plane as basis) lies on the ellipse with unit semi-major axis, eccentricity `e` and one focus at the
origin, at distance `1 - e cos ψ` where `ψ` is the returned eccentric anomaly, between `1 - e` and `1 + e`. -/
theorem C55_ellipse (e t tperi period : ℝ) (he0 : 0 ≤ e) (he1 : e < 1) (hP : period ≠ 0) :
    let q := projectAt t tperi period e 1 ![1, 0, 0] ![0, 1, 0]
    let psi := getpsi (2 * Real.pi * (t - tperi) / period) e
    (q.1 + e) ^ 2 + q.2 ^ 2 / (1 - e ^ 2) = 1 ∧ Real.sqrt (q.1 ^ 2 + q.2 ^ 2) = 1 - e * Real.cos psi ∧
      1 - e ≤ Real.sqrt (q.1 ^ 2 + q.2 ^ 2) ∧ Real.sqrt (q.1 ^ 2 + q.2 ^ 2) ≤ 1 + e := by
  intro q psi
  have hb0 : 0 < 1 - e ^ 2 := by nlinarith
  have hb : Real.sqrt (1 - e ^ 2) ^ 2 = 1 - e ^ 2 := Real.sq_sqrt hb0.le
  have hq : q = (Real.cos psi - e, Real.sin psi * Real.sqrt (1 - e ^ 2)) := by
    simp [q, projectAt, orbit, psi]
  have h := Real.sin_sq_add_cos_sq psi
  have hr : Real.sqrt (q.1 ^ 2 + q.2 ^ 2) = 1 - e * Real.cos psi := by
    rw [hq]
    show Real.sqrt ((Real.cos psi - e) ^ 2 + (Real.sin psi * Real.sqrt (1 - e ^ 2)) ^ 2) = _
    rw [show (Real.cos psi - e) ^ 2 + (Real.sin psi * Real.sqrt (1 - e ^ 2)) ^ 2
      = (1 - e * Real.cos psi) ^ 2 by linear_combination Real.sin psi ^ 2 * hb + (1 - e ^ 2) * h]
    exact Real.sqrt_sq (one_sub_mul_cos_pos he0 he1 psi).le
  refine ⟨?_, hr, ?_, ?_⟩
  · rw [hq]
    show (Real.cos psi - e + e) ^ 2 + (Real.sin psi * Real.sqrt (1 - e ^ 2)) ^ 2 / (1 - e ^ 2) = 1
    rw [mul_pow, hb, mul_div_assoc, div_self hb0.ne']
    linear_combination h
  · rw [hr]; nlinarith [Real.cos_le_one psi]
  · rw [hr]; nlinarith [Real.neg_one_le_cos psi]

example (t : ℝ) := C55_ellipse 0.0167 t 7758 365.25636 (by norm_num) (by norm_num) (by norm_num)

/-- C55.  The projected position repeats after every whole number of periods. -/
theorem C55_periodic (e t tperi period : ℝ) (hP : period ≠ 0) (k : ℤ) (R : Matrix (Fin 3) (Fin 3) ℝ)
    (north east : Fin 3 → ℝ) :
    projectAt (t + k * period) tperi period e R north east = projectAt t tperi period e R north east := by
  have h : getpsi (2 * Real.pi * (t + k * period - tperi) / period) e
      = getpsi (2 * Real.pi * (t - tperi) / period) e + k * (2 * Real.pi) := by
    rw [← getpsi_add]
    congr 1
    field_simp
    ring
  have ho : orbit e (getpsi (2 * Real.pi * (t + k * period - tperi) / period) e)
      = orbit e (getpsi (2 * Real.pi * (t - tperi) / period) e) := by
    rw [h]
    unfold orbit
    rw [Real.sin_add_int_mul_two_pi, Real.cos_add_int_mul_two_pi]
  simp only [projectAt, ho]

example (t : ℝ) := C55_periodic 0.0167 t 7758 365.25636 (by norm_num) 3 1 ![0, 0, 1] ![0, 1, 0]

/-- C55.  The projection onto the sky is never longer than the distance to the Sun. -/
theorem C55_projection (e t tperi period rot f RA Dec : ℝ) (he0 : 0 ≤ e) (he1 : e < 1) (hP : period ≠ 0)
    (hDec : 0 < Real.cos (Dec * (Real.pi / 180))) :
    let b := prepareProjectionBasis rot f RA Dec
    let q := projectAt t tperi period e b.1 b.2.1 b.2.2
    let psi := getpsi (2 * Real.pi * (t - tperi) / period) e
    Real.sqrt (q.1 ^ 2 + q.2 ^ 2) ≤ 1 - e * Real.cos psi := by
  intro b q psi
  obtain ⟨h1, h2, -, h3, -, -, -, -, -, hR⟩ := C53_basis rot f RA Dec hDec
  have hb := bessel (v := b.1 *ᵥ orbit e psi) h1 h2 h3
  rw [rotation_dot hR, orbit_length he0 he1] at hb
  calc Real.sqrt (q.1 ^ 2 + q.2 ^ 2) ≤ Real.sqrt ((1 - e * Real.cos psi) ^ 2) := Real.sqrt_le_sqrt hb
    _ = _ := Real.sqrt_sq (one_sub_mul_cos_pos he0 he1 psi).le

lemma orbit_sub_le {e : ℝ} (he0 : 0 ≤ e) (he1 : e < 1) (a b : ℝ) :
    (orbit e a - orbit e b) ⬝ᵥ (orbit e a - orbit e b) ≤ (a - b) ^ 2 := by
  have hb : Real.sqrt (1 - e ^ 2) ^ 2 = 1 - e ^ 2 := Real.sq_sqrt (by nlinarith)
  have h1 : (orbit e a - orbit e b) ⬝ᵥ (orbit e a - orbit e b)
      = (Real.cos a - Real.cos b) ^ 2 + (Real.sin a - Real.sin b) ^ 2 * (1 - e ^ 2) := by
    simp only [orbit, vec3_dotProduct, Pi.sub_apply, cons_val_zero, cons_val_one, cons_val]
    linear_combination (Real.sin a - Real.sin b) ^ 2 * hb
  have h2 : (Real.cos a - Real.cos b) ^ 2 + (Real.sin a - Real.sin b) ^ 2 = 2 - 2 * Real.cos (a - b) := by
    rw [Real.cos_sub]
    linear_combination Real.sin_sq_add_cos_sq a + Real.sin_sq_add_cos_sq b
  have h3 : 1 - (a - b) ^ 2 / 2 ≤ Real.cos (a - b) := Real.one_sub_sq_div_two_le_cos
  rw [h1]
  nlinarith [sq_nonneg (Real.sin a - Real.sin b), sq_nonneg e, mul_nonneg (sq_nonneg (Real.sin a - Real.sin b)) (sq_nonneg e)]

/-- C55.  The code tracks a true Kepler motion: for every eccentricity, perihelion time and period there is a plane
motion `(x, y)` obeying Newton's law `r'' = -n² r / |r|³` with `n = 2π / period`, at perihelion `(1 - e, 0)` at
`tperi` and periodic, such that for every rotation and pair of orthonormal directions and every time the two
returned coordinates are within `(e / (2 (1 - e)))^31 (0.85 e)^32` of the projection of that motion. -/
theorem C55_newton (e tperi period : ℝ) (he0 : 0 ≤ e) (he1 : e < 1) (hP : period ≠ 0) :
    ∃ x y : ℝ → ℝ, IsKeplerMotion (2 * Real.pi / period) x y ∧ x tperi = 1 - e ∧ y tperi = 0 ∧
      (∀ t, x (t + period) = x t ∧ y (t + period) = y t) ∧
      ∀ (R : Matrix (Fin 3) (Fin 3) ℝ) (north east : Fin 3 → ℝ) (t : ℝ), IsRotation R →
        north ⬝ᵥ north = 1 → east ⬝ᵥ east = 1 → north ⬝ᵥ east = 0 →
        let q := projectAt t tperi period e R north east
        Real.sqrt ((q.1 - north ⬝ᵥ R *ᵥ ![x t, y t, 0]) ^ 2 + (q.2 - east ⬝ᵥ R *ᵥ ![x t, y t, 0]) ^ 2)
          ≤ (e / (2 * (1 - e))) ^ 31 * (0.85 * e) ^ 32 := by
  have h0 : eccAnomaly e 0 = 0 :=
    kepler_unique he0 he1 (eccAnomaly_spec he0 he1 0) (by simp [IsEccentricAnomaly])
  refine ⟨_, _, kepler_motion (t0 := tperi) he0 he1, ?_, ?_, ?_, ?_⟩
  · simp [h0]
  · simp [h0]
  · intro t
    have h : eccAnomaly e (2 * Real.pi / period * (t + period - tperi))
        = eccAnomaly e (2 * Real.pi / period * (t - tperi)) + 2 * Real.pi := by
      refine kepler_unique he0 he1 (eccAnomaly_spec he0 he1 _) ?_
      have := eccAnomaly_spec he0 he1 (2 * Real.pi / period * (t - tperi))
      unfold IsEccentricAnomaly at this ⊢
      rw [Real.sin_add_two_pi]
      have h2 : 2 * Real.pi / period * (t + period - tperi)
          = 2 * Real.pi / period * (t - tperi) + 2 * Real.pi := by field_simp; ring
      rw [h2]
      linarith
    simp only [h, Real.sin_add_two_pi, Real.cos_add_two_pi, and_self]
  · intro R north east t hR hn he hne q
    set M := 2 * Real.pi / period * (t - tperi) with hM
    have hM' : 2 * Real.pi * (t - tperi) / period = M := by rw [hM]; ring
    have hE := eccAnomaly_spec he0 he1 M
    have herr := getpsi_error he0 he1 hE
    set B := (e / (2 * (1 - e))) ^ 31 * (0.85 * e) ^ 32
    have hB : 0 ≤ B := (abs_nonneg _).trans herr
    have hq1 : q.1 - north ⬝ᵥ R *ᵥ orbit e (eccAnomaly e M)
        = north ⬝ᵥ R *ᵥ (orbit e (getpsi M e) - orbit e (eccAnomaly e M)) := by
      rw [mulVec_sub, dotProduct_sub]
      simp only [q, projectAt, hM']
    have hq2 : q.2 - east ⬝ᵥ R *ᵥ orbit e (eccAnomaly e M)
        = east ⬝ᵥ R *ᵥ (orbit e (getpsi M e) - orbit e (eccAnomaly e M)) := by
      rw [mulVec_sub, dotProduct_sub]
      simp only [q, projectAt, hM']
    have hb := bessel (v := R *ᵥ (orbit e (getpsi M e) - orbit e (eccAnomaly e M))) hn he hne
    rw [rotation_dot hR] at hb
    have hb2 := hb.trans (orbit_sub_le he0 he1 _ _)
    show Real.sqrt ((q.1 - north ⬝ᵥ R *ᵥ orbit e (eccAnomaly e M)) ^ 2
      + (q.2 - east ⬝ᵥ R *ᵥ orbit e (eccAnomaly e M)) ^ 2) ≤ B
    rw [hq1, hq2]
    refine Real.sqrt_le_iff.mpr ⟨hB, hb2.trans ?_⟩
    rw [← sq_abs]
    exact pow_le_pow_left₀ (abs_nonneg _) herr 2

example := C55_newton 0.0167 7758 365.25636 (by norm_num) (by norm_num) (by norm_num)

lemma fRot_cos_sin {e : ℝ} (he0 : 0 ≤ e) (he1 : e < 1) (psi : ℝ) :
    (1 - e * Real.cos psi) * Real.cos (fRot e psi) = Real.cos psi - e ∧
      (1 - e * Real.cos psi) * Real.sin (fRot e psi) = Real.sin psi * Real.sqrt (1 - e ^ 2) := by
  have hp := one_sub_mul_cos_pos he0 he1 psi
  have hb : Real.sqrt (1 - e ^ 2) ^ 2 = 1 - e ^ 2 := Real.sq_sqrt (by nlinarith)
  set c := (Real.cos psi - e) / (1 - e * Real.cos psi) with hc
  set s := Real.sqrt (1 - e ^ 2) * Real.sin psi / (1 - e * Real.cos psi) with hs
  have h1 : c ^ 2 + s ^ 2 = 1 := by
    rw [hc, hs, div_pow, div_pow, ← add_div, div_eq_one_iff_eq (by positivity)]
    have h := Real.sin_sq_add_cos_sq psi
    linear_combination Real.sin psi ^ 2 * hb + (1 - e ^ 2) * h
  have hz : ‖(⟨c, s⟩ : ℂ)‖ = 1 := by
    rw [Complex.norm_eq_sqrt_sq_add_sq, h1, Real.sqrt_one]
  have hz0 : (⟨c, s⟩ : ℂ) ≠ 0 := by
    intro h; rw [h] at hz; simp at hz
  have hf : fRot e psi = Complex.arg ⟨c, s⟩ - ⌊Complex.arg ⟨c, s⟩ / (2 * Real.pi)⌋ * (2 * Real.pi) := by
    show Complex.arg ⟨c, s⟩ - 2 * Real.pi * ⌊Complex.arg ⟨c, s⟩ / (2 * Real.pi)⌋ = _
    ring
  rw [hf, Real.cos_sub_int_mul_two_pi, Real.sin_sub_int_mul_two_pi, Complex.cos_arg hz0, Complex.sin_arg, hz]
  constructor
  · show (1 - e * Real.cos psi) * (c / 1) = _
    rw [div_one, hc]; field_simp
  · show (1 - e * Real.cos psi) * (s / 1) = _
    rw [div_one, hs]; field_simp

/-- C55.  At the vernal equinox in use the vector points exactly along the positive x axis of the equatorial frame
(towards the vernal point): its projection onto any two directions is a positive multiple of their x components.
(This is where the Sun is seen from the Earth; the docstring calls the vector the Sun-centred position of the Earth,
which has the opposite sign.) -/
theorem C55_equinox (tref tperi tvernal RA Dec rot e period dt : ℝ) (hepochs : tperi * tvernal ≠ 0)
    (he0 : 0 ≤ e) (he1 : e < 1) (hP : period ≠ 0) (hdt : dt ≠ 0) :
    ∃ r > 0, ∀ north east : Fin 3 → ℝ,
      let p := setParallax tref tperi tvernal RA Dec rot e period dt
      projectAt tvernal p.tperi p.period p.ecc p.R north east = (r * north 0, r * east 0) := by
  set psi := getpsi (2 * Real.pi * (tvernal - tperi) / period) e with hpsi
  refine ⟨1 - e * Real.cos psi, one_sub_mul_cos_pos he0 he1 psi, fun north east => ?_⟩
  have hv : (rotX (deg2rad rot) * rotZ (fRot e psi)) *ᵥ orbit e psi = ![1 - e * Real.cos psi, 0, 0] := by
    obtain ⟨h1, h2⟩ := fRot_cos_sin he0 he1 psi
    have h3 := Real.sin_sq_add_cos_sq (fRot e psi)
    have hz : rotZ (fRot e psi) *ᵥ orbit e psi = ![1 - e * Real.cos psi, 0, 0] := by
      unfold orbit
      rw [← h1, ← h2]
      ext i
      fin_cases i
      · simp [rotZ, mulVec, dotProduct, Fin.sum_univ_three]
        linear_combination (1 - e * Real.cos psi) * h3
      · simp [rotZ, mulVec, dotProduct, Fin.sum_univ_three]
        ring
      · simp [rotZ, mulVec, dotProduct, Fin.sum_univ_three]
    rw [← mulVec_mulVec, hz]
    ext i
    fin_cases i <;> simp [rotX, mulVec, dotProduct, Fin.sum_univ_three]
  simp only [setParallax, if_neg hepochs, prepareProjectionBasis, projectAt]
  rw [← hpsi, hv]
  simp only [dotProduct, Fin.sum_univ_three, cons_val_zero, cons_val_one, cons_val, mul_zero, add_zero]
  rw [mul_comm (north 0), mul_comm (east 0)]

example := C55_equinox 8000 7758.08333 7832.93611 270 (-30) 23.44 0.0167 365.25636 0.1 (by norm_num)
  (by norm_num) (by norm_num) (by norm_num) (by norm_num)

/-! ### C56, C57: epochs -/

lemma argmin_lt {x : List ℝ} (h : x ≠ []) : Parallax.argmin x < x.length := by
  unfold Parallax.argmin
  rw [List.findIdx_lt_length]
  exact ⟨Jnp.amin x, amin_mem x h, by simp⟩

lemma argmin_getD {x : List ℝ} (h : x ≠ []) : x.getD (Parallax.argmin x) 0 = Jnp.amin x := by
  have hl := argmin_lt h
  rw [List.getD_eq_getElem _ _ hl]
  have := List.findIdx_getElem (p := fun v => decide (v = Jnp.amin x)) (w := hl)
  exact of_decide_eq_true this

lemma peris_length : peris.length = 21 := rfl
lemma vernals_length : vernals.length = 21 := rfl

lemma periVernal_row (t : ℝ) (ht : t ≤ 2450000) :
    ∃ j < 21, (periVernal t).1 = peris.getD j 0 ∧ (periVernal t).2 = vernals.getD j 0 ∧
      ∀ w ∈ peris, |peris.getD j 0 - t| ≤ |w - t| := by
  set d := peris.map fun p => |p - t| with hd
  have hlen : d.length = 21 := by rw [hd, List.length_map]; rfl
  have hne : d ≠ [] := by rw [← List.length_pos_iff]; omega
  have hlt := argmin_lt hne
  have hpv : periVernal t = (Jnp.get 0 peris (Parallax.argmin d), Jnp.get 0 vernals (Parallax.argmin d)) := by
    unfold periVernal
    rw [if_neg (by linarith)]
  have hm : min (Parallax.argmin d) 20 = Parallax.argmin d := by omega
  refine ⟨Parallax.argmin d, by omega, ?_, ?_, ?_⟩
  · rw [hpv]; show peris.getD (min _ (21 - 1)) 0 = _; rw [hm]
  · rw [hpv]; show vernals.getD (min _ (21 - 1)) 0 = _; rw [hm]
  · intro w hw
    have h1 := argmin_getD hne
    have h2 : d.getD (Parallax.argmin d) 0 = |peris.getD (Parallax.argmin d) 0 - t| := by
      rw [List.getD_eq_getElem _ _ hlt, List.getD_eq_getElem _ _ (by rw [peris_length]; omega)]
      simp only [hd, List.getElem_map]
    rw [← h2, h1]
    exact amin_le' d _ (List.mem_map.mpr ⟨w, hw, rfl⟩)

/-- C56.  The returned perihelion is a tabulated perihelion nearest to the reference time, and a full Julian Date is
treated as the same time as its JD-2450000. -/
theorem C56_perihelion_partial (t : ℝ) (ht : t ≤ 2450000) :
    IsNearest peris t (periVernal t).1 ∧ (periVernal t).2 ∈ vernals ∧
      (0 < t → periVernal (t + 2450000) = periVernal t) := by
  obtain ⟨j, hj, h1, h2, h3⟩ := periVernal_row t ht
  refine ⟨⟨?_, ?_⟩, ?_, ?_⟩
  · rw [h1, List.getD_eq_getElem _ _ (by rw [peris_length]; omega)]
    exact List.getElem_mem _
  · rw [h1]; exact h3
  · rw [h2, List.getD_eq_getElem _ _ (by rw [vernals_length]; omega)]
    exact List.getElem_mem _
  · intro h0
    unfold periVernal
    rw [if_pos (by linarith), if_neg (by linarith), add_sub_cancel_right]

/-- For the reference time 8000 the nearest perihelion is that of day 8121.75. -/
example : (periVernal 8000).1 = 8121.75 := by
  obtain ⟨⟨hm, hn⟩, -, -⟩ := C56_perihelion_partial 8000 (by norm_num)
  have h := hn 8121.75 (by norm_num [peris])
  rw [show |(8121.75 : ℝ) - 8000| = 121.75 by norm_num, abs_le] at h
  simp only [peris, List.mem_cons, List.not_mem_nil, or_false] at hm
  rcases hm with h' | h' | h' | h' | h' | h' | h' | h' | h' | h' | h' | h' | h' | h' | h' | h' | h' | h' | h' | h' | h' <;>
    first
      | (exfalso; rw [h'] at h; norm_num at h; done)
      | (rw [h']; norm_num)

lemma sq_of_abs_le {a b t : ℝ} (h : |a - t| ≤ |b - t|) : a * a - 2 * a * t ≤ b * b - 2 * b * t := by
  have := sq_le_sq.mpr h
  nlinarith

lemma peris_strict {j k : ℕ} (h : j < k) (hk : k < 21) : peris.getD j 0 < peris.getD k 0 := by
  induction k with
  | zero => omega
  | succ k ih =>
    have hs : peris.getD k 0 < peris.getD (k + 1) 0 := by
      clear * - hk
      have : k < 20 := by omega
      clear hk
      interval_cases k <;> norm_num [peris]
    rcases Nat.lt_succ_iff_lt_or_eq.mp h with h' | h'
    · exact (ih h' (by omega)).trans hs
    · rw [h']; exact hs

/-- C56, second half, is violated: in every year of the table there is a stretch of about two and a half months,
from the midpoint of two consecutive perihelia to the midpoint of the two corresponding equinoxes, in which the
returned equinox is not the nearest tabulated one. -/
theorem C56_vernal_violated (i : ℕ) (hi : i < 20) (t : ℝ)
    (h1 : (peris.getD i 0 + peris.getD (i + 1) 0) / 2 < t)
    (h2 : t < (vernals.getD i 0 + vernals.getD (i + 1) 0) / 2) : ¬ IsNearest vernals t (periVernal t).2 := by
  have hv21 : ∀ k < 21, vernals.getD k 0 ≤ 8928.65903 := by
    intro k hk
    interval_cases k <;> norm_num [vernals]
  have ht : t ≤ 2450000 := by
    have a := hv21 i (by omega)
    have b := hv21 (i + 1) (by omega)
    linarith
  obtain ⟨j, hj, -, hv, hn⟩ := periVernal_row t ht
  rintro ⟨-, hnear⟩
  rw [hv] at hnear
  have hp := sq_of_abs_le (hn (peris.getD (i + 1) 0) (by
    rw [List.getD_eq_getElem _ _ (by rw [peris_length]; omega)]; exact List.getElem_mem _))
  have hq := sq_of_abs_le (hnear (vernals.getD i 0) (by
    rw [List.getD_eq_getElem _ _ (by rw [vernals_length]; omega)]; exact List.getElem_mem _))
  have hvi : vernals.getD i 0 < vernals.getD (i + 1) 0 := by
    clear * - hi
    interval_cases i <;> norm_num [vernals]
  rcases lt_trichotomy j (i + 1) with hlt | rfl | hgt
  · have a := peris_strict hlt (by omega)
    have b : peris.getD j 0 ≤ peris.getD i 0 := by
      rcases Nat.lt_succ_iff_lt_or_eq.mp hlt with h | h
      · exact (peris_strict h (by omega)).le
      · rw [h]
    nlinarith
  · nlinarith
  · have a := peris_strict hgt hj
    have b : peris.getD (i + 2) 0 ≤ peris.getD j 0 := by
      rcases Nat.lt_or_eq_of_le hgt with h | h
      · exact (peris_strict h hj).le
      · rw [← h]
    have c : vernals.getD i 0 + vernals.getD (i + 1) 0 ≤ peris.getD (i + 1) 0 + peris.getD (i + 2) 0 := by
      have hi' : i < 19 := by omega
      clear * - hi'
      interval_cases i <;> norm_num [vernals, peris]
    nlinarith

/-- The stretch is not empty: day 1750. -/
example : ¬ IsNearest vernals 1750 (periVernal 1750).2 :=
  C56_vernal_violated 0 (by norm_num) 1750 (by norm_num [peris]) (by norm_num [vernals])

/-- C57.  If either epoch is 0 both are inferred from the table: the result is the one obtained by passing the two
tabulated epochs explicitly, and the table's perihelion is the one stored. -/
theorem C57_inferred (tref tperi tvernal RA Dec rot e period dt : ℝ) (ht : tref ≤ 2450000)
    (h : tperi = 0 ∨ tvernal = 0) :
    setParallax tref tperi tvernal RA Dec rot e period dt
        = setParallax tref (periVernal tref).1 (periVernal tref).2 RA Dec rot e period dt ∧
      (setParallax tref tperi tvernal RA Dec rot e period dt).tperi = (periVernal tref).1 := by
  have h0 : tperi * tvernal = 0 := by rcases h with h | h <;> simp [h]
  obtain ⟨⟨hm, -⟩, hv, -⟩ := C56_perihelion_partial tref ht
  have hpos : ∀ x ∈ peris, (0 : ℝ) < x := by
    simp only [peris, List.forall_mem_cons, List.not_mem_nil, false_imp_iff, implies_true, and_true]
    norm_num
  have hpos' : ∀ x ∈ vernals, (0 : ℝ) < x := by
    simp only [vernals, List.forall_mem_cons, List.not_mem_nil, false_imp_iff, implies_true, and_true]
    norm_num
  have h1 : (periVernal tref).1 * (periVernal tref).2 ≠ 0 := (mul_pos (hpos _ hm) (hpos' _ hv)).ne'
  constructor
  · simp only [setParallax, if_pos h0, if_neg h1]
  · simp only [setParallax, if_pos h0]

/-- C57.  If both epochs are given they are used unchanged: the stored perihelion is the user's, the vector is
`(1 - e, 0)` in the orbital plane at the user's `tperi`, and lies on the positive equatorial x axis at the user's
`tvernal`. -/
theorem C57_given (tref tperi tvernal RA Dec rot e period dt : ℝ) (h1 : tperi ≠ 0) (h2 : tvernal ≠ 0)
    (he0 : 0 ≤ e) (he1 : e < 1) (hP : period ≠ 0) (hdt : dt ≠ 0) :
    let p := setParallax tref tperi tvernal RA Dec rot e period dt
    p.tperi = tperi ∧ p.tref = tref ∧ p.period = period ∧ p.ecc = e ∧
      projectAt tperi p.tperi p.period p.ecc 1 ![1, 0, 0] ![0, 1, 0] = (1 - e, 0) ∧
      ∃ r > 0, projectAt tvernal p.tperi p.period p.ecc p.R ![0, 1, 0] ![0, 0, 1] = (0, 0) ∧
        (projectAt tvernal p.tperi p.period p.ecc p.R ![1, 0, 0] ![0, 0, 1]).1 = r := by
  intro p
  have hm : tperi * tvernal ≠ 0 := mul_ne_zero h1 h2
  have hp : p.tperi = tperi := by simp only [p, setParallax, if_neg hm]
  obtain ⟨r, hr, h⟩ := C55_equinox tref tperi tvernal RA Dec rot e period dt hm he0 he1 hP hdt
  refine ⟨hp, rfl, rfl, rfl, ?_, r, hr, ?_, ?_⟩
  · rw [hp]
    show projectAt tperi tperi period e 1 ![1, 0, 0] ![0, 1, 0] = _
    have hz : getpsi 0 e = 0 := by
      have := (C54_symmetry e 0 0).2.1
      simpa using this
    simp [projectAt, orbit, hz]
  · have := h ![0, 1, 0] ![0, 0, 1]
    simpa using this
  · have := h ![1, 0, 0] ![0, 0, 1]
    simpa using congrArg Prod.fst this

example := C57_given 8000 7758.08333 7832.93611 270 (-30) 23.44 0.0167 365.25636 0.1 (by norm_num) (by norm_num)
  (by norm_num) (by norm_num) (by norm_num) (by norm_num)
example := C57_inferred 8000 0 7832.93611 270 (-30) 23.44 0.0167 365.25636 0.1 (by norm_num) (Or.inl rfl)

end Microjax.Props
