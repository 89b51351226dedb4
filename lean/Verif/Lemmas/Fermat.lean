import Verif.Lemmas.Lensing
import Mathlib.Analysis.Calculus.DerivativeTest
import Mathlib.Analysis.Calculus.LocalExtr.Basic
import Mathlib.Analysis.SpecialFunctions.Log.Deriv
import Mathlib.Analysis.SpecialFunctions.Pow.Continuity
import Mathlib.Topology.MetricSpace.ProperSpace.Real
import Mathlib.Analysis.Complex.Basic
import Mathlib.Tactic.LinearCombination
import Mathlib.Tactic.Linarith

/-! # Every source has an image of positive or zero parity: the maximum of the exponentiated Fermat potential -/

noncomputable section

namespace Microjax.Props

open Complex ComplexConjugate Spec Filter Topology

/-- `exp` of minus the Fermat potential. -/
def fermatE (L : Lenses) (w z : ℂ) : ℝ :=
  Real.exp (-(1 / 2 * ‖z - w‖ ^ 2)) * (L.map fun l => ‖z - l.2‖ ^ l.1).prod

theorem fermatE_continuous (L : Lenses) (w : ℂ) (hm : ∀ l ∈ L, 0 < l.1) : Continuous (fermatE L w) := by
  unfold fermatE
  refine Continuous.mul (by fun_prop) ?_
  induction L with
  | nil => simpa using continuous_const
  | cons l L ih =>
    simp only [List.map_cons, List.prod_cons]
    refine Continuous.mul ?_ (ih fun l hl => hm l (by simp [hl]))
    exact (Real.continuous_rpow_const (hm l (by simp)).le).comp (by fun_prop)

theorem fermatProd_le (L : Lenses) (w : ℂ) (hm : ∀ l ∈ L, 0 < l.1) :
    ∃ C M : ℝ, ∀ z, (L.map fun l => ‖z - l.2‖ ^ l.1).prod ≤ Real.exp (M * ‖z - w‖ + C) := by
  induction L with
  | nil => exact ⟨0, 0, fun z => by simp⟩
  | cons l L ih =>
    obtain ⟨C, M, h⟩ := ih fun l hl => hm l (by simp [hl])
    have hl := hm l (by simp)
    refine ⟨C + l.1 * ‖w - l.2‖, M + l.1, fun z => ?_⟩
    have h1 : ‖z - l.2‖ ^ l.1 ≤ Real.exp (l.1 * (‖z - w‖ + ‖w - l.2‖)) := by
      have a : ‖z - l.2‖ ≤ ‖z - w‖ + ‖w - l.2‖ := by
        have := norm_add_le (z - w) (w - l.2); simpa using this
      have b : ‖z - l.2‖ ≤ Real.exp (‖z - w‖ + ‖w - l.2‖) := by
        have := Real.add_one_le_exp (‖z - w‖ + ‖w - l.2‖); linarith
      calc ‖z - l.2‖ ^ l.1 ≤ Real.exp (‖z - w‖ + ‖w - l.2‖) ^ l.1 :=
            Real.rpow_le_rpow (norm_nonneg _) b hl.le
        _ = _ := by rw [← Real.exp_mul]; congr 1; ring
    simp only [List.map_cons, List.prod_cons]
    calc ‖z - l.2‖ ^ l.1 * (L.map fun l => ‖z - l.2‖ ^ l.1).prod
        ≤ Real.exp (l.1 * (‖z - w‖ + ‖w - l.2‖)) * Real.exp (M * ‖z - w‖ + C) :=
          mul_le_mul h1 (h z) (List.prod_nonneg (by
            intro x hx; obtain ⟨a, -, rfl⟩ := List.mem_map.mp hx; positivity)) (by positivity)
      _ = _ := by rw [← Real.exp_add]; congr 1; ring

theorem fermatE_nonneg (L : Lenses) (w z : ℂ) : 0 ≤ fermatE L w z :=
  mul_nonneg (Real.exp_pos _).le (List.prod_nonneg (by
    intro x hx; obtain ⟨a, -, rfl⟩ := List.mem_map.mp hx; positivity))

theorem fermatE_tendsto (L : Lenses) (w : ℂ) (hm : ∀ l ∈ L, 0 < l.1) :
    Tendsto (fermatE L w) (cocompact ℂ) (𝓝 0) := by
  obtain ⟨C, M, h⟩ := fermatProd_le L w hm
  have hr : Tendsto (fun z : ℂ => ‖z - w‖) (cocompact ℂ) atTop := by
    have h1 := tendsto_norm_cocompact_atTop (E := ℂ)
    refine tendsto_atTop_mono (fun z => ?_) (tendsto_atTop_add_const_right _ (-‖w‖) h1)
    have := norm_sub_norm_le z w; linarith
  have hq : Tendsto (fun r : ℝ => (M + 1 - 1 / 2 * r) * r + (C - r)) atTop atBot := by
    refine Tendsto.atBot_add_atBot ?_ ?_
    · refine Tendsto.atBot_mul_atTop₀ ?_ tendsto_id
      have : Tendsto (fun r : ℝ => 1 / 2 * r) atTop atTop := tendsto_id.const_mul_atTop (by norm_num)
      have := tendsto_neg_atTop_atBot.comp this
      have := tendsto_atBot_add_const_left _ (M + 1) this
      simpa [sub_eq_add_neg] using this
    · have h0 : Tendsto (fun r : ℝ => -r) atTop atBot := tendsto_neg_atTop_atBot
      exact tendsto_atBot_add_const_left _ C h0
  have he := Real.tendsto_exp_atBot.comp (hq.comp hr)
  refine squeeze_zero (fermatE_nonneg L w) (fun z => ?_) he
  have h1 : fermatE L w z ≤ Real.exp (-(1 / 2 * ‖z - w‖ ^ 2)) * Real.exp (M * ‖z - w‖ + C) :=
    mul_le_mul_of_nonneg_left (h z) (Real.exp_pos _).le
  refine h1.trans (le_of_eq ?_)
  rw [← Real.exp_add]; simp only [Function.comp]; congr 1; ring

theorem fermatE_pos (L : Lenses) (w z : ℂ) (h : ∀ l ∈ L, z ≠ l.2) : 0 < fermatE L w z := by
  refine mul_pos (Real.exp_pos _) (List.prod_pos ?_)
  intro x hx; obtain ⟨l, hl, rfl⟩ := List.mem_map.mp hx
  exact Real.rpow_pos_of_pos (norm_pos_iff.mpr (sub_ne_zero.mpr (h l hl))) _

theorem fermatE_lens (L : Lenses) (w z : ℂ) (hm : ∀ l ∈ L, 0 < l.1) (h : 0 < fermatE L w z) :
    ∀ l ∈ L, z ≠ l.2 := by
  rintro l hl rfl
  have : (L.map fun k => ‖l.2 - k.2‖ ^ k.1).prod = 0 := by
    apply List.prod_eq_zero
    refine List.mem_map.mpr ⟨l, hl, ?_⟩
    simp [Real.zero_rpow (hm l hl).ne']
  simp [fermatE, this] at h

theorem exists_not_lens (L : Lenses) : ∃ z : ℂ, ∀ l ∈ L, z ≠ l.2 := by
  obtain ⟨z, hz⟩ := Infinite.exists_notMem_finset (L.map Prod.snd).toFinset
  exact ⟨z, fun l hl e => hz (by rw [e]; exact List.mem_toFinset.mpr (List.mem_map_of_mem hl))⟩

theorem fermatE_max (L : Lenses) (w : ℂ) (hm : ∀ l ∈ L, 0 < l.1) :
    ∃ z, (∀ l ∈ L, z ≠ l.2) ∧ ∀ y, fermatE L w y ≤ fermatE L w z := by
  obtain ⟨z0, h0⟩ := exists_not_lens L
  have hp := fermatE_pos L w z0 h0
  obtain ⟨z, hz⟩ := (fermatE_continuous L w hm).exists_forall_ge' z0
    (((fermatE_tendsto L w hm).eventually (gt_mem_nhds hp)).mono fun _ h => h.le)
  exact ⟨z, fermatE_lens L w z hm (hp.trans_le (hz z0)), hz⟩

/-- The Fermat potential. -/
def fermat (L : Lenses) (w z : ℂ) : ℝ :=
  1 / 2 * ‖z - w‖ ^ 2 - (L.map fun l => l.1 * Real.log ‖z - l.2‖).sum

theorem log_fermatE (L : Lenses) (w z : ℂ) (h : ∀ l ∈ L, z ≠ l.2) :
    Real.log (fermatE L w z) = -fermat L w z := by
  have hp : (L.map fun l => ‖z - l.2‖ ^ l.1).prod ≠ 0 := by
    have := fermatE_pos L w z h
    intro h0; simp [fermatE, h0] at this
  rw [fermatE, Real.log_mul (Real.exp_pos _).ne' hp, Real.log_exp, fermat]
  have : Real.log (L.map fun l => ‖z - l.2‖ ^ l.1).prod = (L.map fun l => l.1 * Real.log ‖z - l.2‖).sum := by
    clear hp
    induction L with
    | nil => simp
    | cons l L ih =>
      have hl : 0 < ‖z - l.2‖ := norm_pos_iff.mpr (sub_ne_zero.mpr (h l (by simp)))
      have hp : 0 < (L.map fun l => ‖z - l.2‖ ^ l.1).prod := by
        refine List.prod_pos ?_
        intro x hx; obtain ⟨k, hk, rfl⟩ := List.mem_map.mp hx
        exact Real.rpow_pos_of_pos (norm_pos_iff.mpr (sub_ne_zero.mpr (h k (by simp [hk])))) _
      simp only [List.map_cons, List.prod_cons, List.sum_cons]
      rw [Real.log_mul (Real.rpow_pos_of_pos hl _).ne' hp.ne', Real.log_rpow hl,
        ih fun l hl => h l (by simp [hl])]
  rw [this]; ring

/-- Second-order necessary condition in one variable. -/
theorem second_order (g h : ℝ → ℝ) (c : ℝ) (hg : ∀ᶠ t in 𝓝 0, HasDerivAt g (h t) t) (hh : HasDerivAt h c 0)
    (hmin : IsLocalMin g 0) : h 0 = 0 ∧ 0 ≤ c := by
  have hd : deriv g =ᶠ[𝓝 0] h := hg.mono fun t ht => ht.deriv
  have h0 : h 0 = 0 := hmin.hasDerivAt_eq_zero hg.self_of_nhds
  refine ⟨h0, ?_⟩
  by_contra hc
  have hdd : deriv (deriv g) 0 = c := by rw [hd.deriv_eq]; exact hh.deriv
  have hmax : IsLocalMax g 0 := isLocalMax_of_deriv_deriv_neg (by rw [hdd]; linarith)
    (by rw [hd.self_of_nhds, h0]) hg.self_of_nhds.continuousAt
  have hconst : ∀ᶠ t in 𝓝 (0 : ℝ), g t = g 0 := by
    filter_upwards [hmin, hmax] with t a b using le_antisymm b a
  have hz : h =ᶠ[𝓝 0] fun _ => (0 : ℝ) := by
    filter_upwards [hconst.eventually_nhds, hg] with t a b
    have : HasDerivAt g 0 t := (hasDerivAt_const t (g 0)).congr_of_eventuallyEq a
    exact b.unique this
  have : c = 0 := by
    have h1 := hz.deriv_eq
    rw [hh.deriv] at h1
    simpa using h1
  exact hc this.ge

theorem hasDerivAt_line (z v : ℂ) (t : ℝ) : HasDerivAt (fun t : ℝ => z + t * v) v t := by
  have h1 : HasDerivAt (fun t : ℝ => (t : ℂ)) 1 t := Complex.ofRealCLM.hasDerivAt
  simpa using (h1.mul_const v).const_add z

theorem hasDerivAt_normSq (z v : ℂ) (t : ℝ) :
    HasDerivAt (fun t : ℝ => ‖z + t * v‖ ^ 2) (2 * (conj v * (z + t * v)).re) t := by
  have e : (fun t : ℝ => ‖z + t * v‖ ^ 2) = fun t : ℝ => (z.re + t * v.re) ^ 2 + (z.im + t * v.im) ^ 2 := by
    funext t; rw [Complex.sq_norm, Complex.normSq_apply]; simp; ring
  rw [e]
  have h1 : HasDerivAt (fun t : ℝ => z.re + t * v.re) v.re t := by
    simpa using ((hasDerivAt_id t).mul_const v.re).const_add z.re
  have h2 : HasDerivAt (fun t : ℝ => z.im + t * v.im) v.im t := by
    simpa using ((hasDerivAt_id t).mul_const v.im).const_add z.im
  refine ((h1.fun_pow 2).fun_add (h2.fun_pow 2)).congr_deriv ?_
  simp; ring

theorem hasDerivAt_logNorm (z v : ℂ) (t : ℝ) (h : z + t * v ≠ 0) :
    HasDerivAt (fun t : ℝ => Real.log ‖z + t * v‖) (conj v * (1 / conj (z + t * v))).re t := by
  have e : (fun t : ℝ => Real.log ‖z + t * v‖) = fun t : ℝ => 1 / 2 * Real.log (‖z + t * v‖ ^ 2) := by
    funext t; rw [Real.log_pow]; push_cast; ring
  rw [e]
  have hn : ‖z + t * v‖ ^ 2 ≠ 0 := by simpa using h
  refine (((hasDerivAt_normSq z v t).log hn).const_mul (1 / 2)).congr_deriv ?_
  have : (1 : ℂ) / conj (z + t * v) = (z + t * v) / ((‖z + t * v‖ ^ 2 : ℝ) : ℂ) := by
    have hz : conj (z + t * v) ≠ 0 := (map_ne_zero _).mpr h
    have hn' : ((‖z + t * v‖ ^ 2 : ℝ) : ℂ) ≠ 0 := by exact_mod_cast hn
    rw [div_eq_div_iff hz hn', one_mul, Complex.mul_conj, Complex.sq_norm]
  rw [this, ← mul_div_assoc (conj v)]
  have := Complex.div_ofReal_re (conj v * (z + t * v)) (‖z + t * v‖ ^ 2)
  rw [this]; ring

theorem hasDerivAt_fermat (L : Lenses) (w z v : ℂ) (t : ℝ) (h : ∀ l ∈ L, z + t * v ≠ l.2) :
    HasDerivAt (fun t : ℝ => fermat L w (z + t * v)) (conj v * (lensMap L (z + t * v) - w)).re t := by
  have h1 := (hasDerivAt_normSq (z - w) v t).const_mul (1 / 2)
  have e1 : (fun t : ℝ => 1 / 2 * ‖z - w + t * v‖ ^ 2) = fun t : ℝ => 1 / 2 * ‖z + t * v - w‖ ^ 2 := by
    funext t; congr 3; ring
  rw [e1] at h1
  have h2 : HasDerivAt (fun t : ℝ => (L.map fun l => l.1 * Real.log ‖z + t * v - l.2‖).sum)
      (conj v * (L.map fun l => (l.1 : ℂ) / (conj (z + t * v) - conj l.2)).sum).re t := by
    induction L with
    | nil => simpa using hasDerivAt_const t (0 : ℝ)
    | cons l L ih =>
      have a := ih fun l hl => h l (by simp [hl])
      have hl : z - l.2 + t * v ≠ 0 := by
        have := sub_ne_zero.mpr (h l (by simp))
        intro hc; exact this (by rw [← hc]; ring)
      have b := (hasDerivAt_logNorm (z - l.2) v t hl).const_mul l.1
      have e : (fun t : ℝ => l.1 * Real.log ‖z - l.2 + t * v‖) = fun t : ℝ => l.1 * Real.log ‖z + t * v - l.2‖ := by
        funext t; congr 3; ring
      rw [e] at b
      simp only [List.map_cons, List.sum_cons]
      refine (b.fun_add a).congr_deriv ?_
      rw [mul_add, Complex.add_re]
      congr 1
      have e2 : z - l.2 + t * v = z + t * v - l.2 := by ring
      rw [e2, map_sub, mul_div_assoc', mul_one, mul_div_assoc', mul_comm (conj v) (l.1 : ℂ), mul_div_assoc,
        Complex.re_ofReal_mul]
  refine (h1.fun_sub h2).congr_deriv ?_
  rw [lensMap, show (z + t * v - (L.map fun l => (l.1 : ℂ) / (conj (z + t * v) - conj l.2)).sum - w)
    = (z - w + t * v) - (L.map fun l => (l.1 : ℂ) / (conj (z + t * v) - conj l.2)).sum by ring, mul_sub,
    Complex.sub_re]
  ring

/-- Shear of the lens at `z`. -/
def shear (L : Lenses) (z : ℂ) : ℂ := (L.map fun l => (l.1 : ℂ) / (conj z - conj l.2) ^ 2).sum

theorem hasFDerivAt_lensMap (L : Lenses) (z : ℂ) (h : ∀ l ∈ L, z ≠ l.2) :
    HasFDerivAt (lensMap L) (antiLin (-shear L z)) z :=
  hasFDerivAt_anti (fun x => (L.map fun l => (l.1 : ℂ) / (x - conj l.2)).sum) _ z
    (hasDerivAt_deflection L (conj z) fun l hl hc => h l hl ((starRingEnd ℂ).injective hc))

/-- Some unit direction turns a complex number into minus its modulus. -/
theorem exists_direction (k : ℂ) : ∃ v : ℂ, ‖v‖ = 1 ∧ (conj v * (k * conj v)).re = -‖k‖ := by
  refine ⟨exp (I * ((k.arg + Real.pi) / 2 : ℝ)), by rw [mul_comm]; exact norm_exp_ofReal_mul_I _, ?_⟩
  have h1 : conj (exp (I * ((k.arg + Real.pi) / 2 : ℝ))) = exp (-(I * ((k.arg + Real.pi) / 2 : ℝ))) := by
    rw [← Complex.exp_conj, map_mul, Complex.conj_I, Complex.conj_ofReal, neg_mul]
  have h2 : conj (exp (I * ((k.arg + Real.pi) / 2 : ℝ))) * (k * conj (exp (I * ((k.arg + Real.pi) / 2 : ℝ)))) = -(‖k‖ : ℂ) := by
    rw [h1]
    have hk : -(I * (((k.arg + Real.pi) / 2 : ℝ) : ℂ)) + (k.arg : ℂ) * I + -(I * (((k.arg + Real.pi) / 2 : ℝ) : ℂ))
        = -(Real.pi * I) := by push_cast; ring
    generalize hb : exp (-(I * ((k.arg + Real.pi) / 2 : ℝ))) = b
    conv_lhs => rw [← Complex.norm_mul_exp_arg_mul_I k]
    rw [← hb, show ∀ a b c d : ℂ, a * ((b * c) * d) = b * (a * c * d) from fun a b c d => by ring, ← Complex.exp_add,
      ← Complex.exp_add]
    rw [hk, Complex.exp_neg, Complex.exp_pi_mul_I]; norm_num
  rw [h2]; simp

/-- Every source position has an image whose Jacobian determinant lies in `[0, 1]`. -/
theorem exists_minimum_image (L : Lenses) (w : ℂ) (hm : ∀ l ∈ L, 0 < l.1) :
    ∃ z, IsImage L w z ∧ 0 ≤ jacDet (lensMap L) z ∧ jacDet (lensMap L) z ≤ 1 := by
  obtain ⟨z, hz, hmax⟩ := fermatE_max L w hm
  have hnear : ∀ v : ℂ, ∀ᶠ t : ℝ in 𝓝 0, ∀ l ∈ L, z + t * v ≠ l.2 := by
    intro v
    have hc : ContinuousAt (fun t : ℝ => z + t * v) 0 := (hasDerivAt_line z v 0).continuousAt
    have : ∀ l ∈ L, ∀ᶠ t : ℝ in 𝓝 0, z + t * v ≠ l.2 := fun l hl => by
      apply hc.eventually_ne; simpa using hz l hl
    have h2 := (Filter.eventually_all_finset (L.toFinset) (l := 𝓝 (0 : ℝ)) (p := fun l t => z + (t : ℂ) * v ≠ l.2)).mpr
      fun l hl => this l (List.mem_toFinset.mp hl)
    exact h2.mono fun t ht l hl => ht l (List.mem_toFinset.mpr hl)
  have key : ∀ v : ℂ, (conj v * (lensMap L z - w)).re = 0 ∧ 0 ≤ (conj v * antiLin (-shear L z) v).re := by
    intro v
    have hmin : IsLocalMin (fun t : ℝ => fermat L w (z + t * v)) 0 := by
      filter_upwards [hnear v] with t ht
      have h1 := log_fermatE L w (z + t * v) ht
      have h2 := log_fermatE L w z hz
      have h3 := Real.log_le_log (fermatE_pos L w _ ht) (hmax (z + t * v))
      simp only [Complex.ofReal_zero, zero_mul, add_zero]
      linarith
    have hh : HasDerivAt (fun t : ℝ => (conj v * (lensMap L (z + t * v) - w)).re)
        (conj v * antiLin (-shear L z) v).re 0 := by
      have e : z + ((0 : ℝ) : ℂ) * v = z := by simp
      have hF : HasFDerivAt (lensMap L) (antiLin (-shear L z)) (z + ((0 : ℝ) : ℂ) * v) := by
        rw [e]; exact hasFDerivAt_lensMap L z hz
      have h1 : HasDerivAt (fun t : ℝ => lensMap L (z + t * v)) (antiLin (-shear L z) v) 0 := by
        have := hF.comp_hasDerivAt (0 : ℝ) (hasDerivAt_line z v 0)
        exact this
      have h2 := (h1.sub_const w).const_mul (conj v)
      exact (Complex.reCLM.hasFDerivAt.comp_hasDerivAt (0 : ℝ) h2)
    have := second_order _ _ _ ((hnear v).mono fun t ht => hasDerivAt_fermat L w z v t ht) hh hmin
    simpa using this
  have himg : lensMap L z = w := by
    have := (key (lensMap L z - w)).1
    rw [mul_comm, Complex.mul_conj] at this
    have h0 : Complex.normSq (lensMap L z - w) = 0 := by exact_mod_cast this
    exact sub_eq_zero.mp (Complex.normSq_eq_zero.mp h0)
  have hdet := (jacDet_lensMap L z hz).2
  refine ⟨z, ⟨hz, himg⟩, ?_, ?_⟩
  · obtain ⟨v, hv, hk⟩ := exists_direction (shear L z)
    have h2 := (key v).2
    rw [antiLin_apply, mul_sub, neg_mul, mul_neg, sub_neg_eq_add, Complex.add_re, hk] at h2
    have h3 : (conj v * v).re = 1 := by
      rw [mul_comm, Complex.mul_conj, ← Complex.sq_norm, hv]; simp
    rw [h3] at h2
    rw [hdet]
    have h4 : ‖shear L z‖ ≤ 1 := by linarith
    have h5 := norm_nonneg (shear L z)
    change 0 ≤ 1 - ‖shear L z‖ ^ 2
    nlinarith
  · rw [hdet]; nlinarith [sq_nonneg ‖(L.map fun l => (l.1 : ℂ) / (conj z - conj l.2) ^ 2).sum‖]

end Microjax.Props
