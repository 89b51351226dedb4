import Verif.Props.Critical
import Verif.Props.Tracking
import Mathlib.Analysis.SpecialFunctions.Trigonometric.Bounds

/-!
# C82: `critical_and_caustic_curves` returns only critical points and leaves none out

The returned points are critical points of the lens map in the frame of the user, and every critical point has a
returned point within an explicit distance that tends to zero with the number of phases.
-/

noncomputable section

namespace Microjax.Props

open Complex ComplexConjugate Spec PointSource

/-- Some root is close to a point where the polynomial is small. -/
theorem near_root (c rs : List ℂ) (hr : IsRootList c rs) (hne : rs ≠ []) (x : ℂ) :
    ∃ r ∈ rs, ‖c.headD 0‖ * ‖r - x‖ ^ rs.length ≤ ‖evalPoly c x‖ := by
  have key : ∀ l : List ℂ, l ≠ [] → ∃ r ∈ l, ‖r - x‖ ^ l.length ≤ ‖(l.map fun r => x - r).prod‖ := by
    intro l
    induction l with
    | nil => intro h; exact absurd rfl h
    | cons a l ih =>
      intro _
      by_cases hl : l = []
      · subst hl
        exact ⟨a, by simp, by simp [norm_sub_rev]⟩
      · obtain ⟨r, hr, h⟩ := ih hl
        rw [List.map_cons, List.prod_cons, norm_mul, List.length_cons]
        by_cases hle : ‖a - x‖ ≤ ‖r - x‖
        · refine ⟨a, by simp, ?_⟩
          rw [pow_succ', norm_sub_rev x a]
          exact mul_le_mul_of_nonneg_left ((pow_le_pow_left₀ (norm_nonneg _) hle _).trans h) (norm_nonneg _)
        · refine ⟨r, by simp [hr], ?_⟩
          rw [pow_succ', norm_sub_rev x a]
          exact mul_le_mul (le_of_lt (not_le.mp hle)) h (by positivity) (norm_nonneg _)
  obtain ⟨r, h1, h2⟩ := key rs hne
  refine ⟨r, h1, ?_⟩
  rw [hr x, norm_mul]
  exact mul_le_mul_of_nonneg_left h2 (norm_nonneg _)

/-- The phases of the code are equally spaced from `-π` to `π`, so each phase has a sample within half a step. -/
theorem phase_near (npts : ℕ) (hn : 2 ≤ npts) (φ : ℝ) (h1 : -Real.pi ≤ φ) (h2 : φ ≤ Real.pi) :
    ∃ ψ ∈ linspacePhi npts, |ψ - φ| ≤ Real.pi / (npts - 1) := by
  have hm : (0 : ℝ) < (npts : ℝ) - 1 := by
    have : (2 : ℝ) ≤ npts := by exact_mod_cast hn
    linarith
  have hpi := Real.pi_pos
  set h : ℝ := 2 * Real.pi / ((npts : ℝ) - 1) with hh
  have hhpos : 0 < h := by positivity
  have hhm : h * ((npts : ℝ) - 1) = 2 * Real.pi := by rw [hh]; field_simp
  set x : ℝ := (φ + Real.pi) / h with hx
  have hx0 : 0 ≤ x := div_nonneg (by linarith) hhpos.le
  have hxm : x ≤ (npts : ℝ) - 1 := by
    rw [hx, div_le_iff₀ hhpos]; linarith
  have hφ : φ = -Real.pi + x * h := by rw [hx]; field_simp; ring
  set k := round x with hk
  have habs := abs_sub_round x
  have hk0 : 0 ≤ k := by
    by_contra hc
    have : (k : ℝ) ≤ -1 := by exact_mod_cast Int.le_sub_one_of_lt (not_le.mp hc)
    rw [abs_le] at habs
    linarith [habs.2]
  have hkm : k ≤ (npts : ℤ) - 1 := by
    by_contra hc
    have : ((npts : ℤ) : ℝ) ≤ (k : ℝ) := by
      have := not_le.mp hc
      exact_mod_cast (by omega : (npts : ℤ) ≤ k)
    rw [abs_le] at habs
    push_cast at this
    linarith [habs.1]
  obtain ⟨j, hj⟩ := Int.eq_ofNat_of_zero_le hk0
  refine ⟨-Real.pi + (j : ℝ) * h, ?_, ?_⟩
  · refine List.mem_map.mpr ⟨j, List.mem_range.mpr (by omega), rfl⟩
  · have hjk : (j : ℝ) = (k : ℝ) := by rw [hj]; simp
    rw [hφ, show -Real.pi + (j : ℝ) * h - (-Real.pi + x * h) = -((x - k) * h) by rw [hjk]; ring, abs_neg, abs_mul,
      abs_of_pos hhpos]
    have : Real.pi / ((npts : ℝ) - 1) = 1 / 2 * h := by rw [hh]; ring
    rw [this]
    exact mul_le_mul_of_nonneg_right habs hhpos.le

/-- Every phase of the code lies in `[-π, π]`. -/
theorem phase_range (npts : ℕ) (hn : 2 ≤ npts) (ψ : ℝ) (h : ψ ∈ linspacePhi npts) : -Real.pi ≤ ψ ∧ ψ ≤ Real.pi := by
  obtain ⟨j, hj, rfl⟩ := List.mem_map.mp h
  have hj' : j + 1 ≤ npts := List.mem_range.mp hj
  have hpi := Real.pi_pos
  have hm : (0 : ℝ) < (npts : ℝ) - 1 := by
    have : (2 : ℝ) ≤ npts := by exact_mod_cast hn
    linarith
  have h0 : 0 ≤ (j : ℝ) * (2 * Real.pi / ((npts : ℝ) - 1)) := by positivity
  have h1 : (j : ℝ) * (2 * Real.pi / ((npts : ℝ) - 1)) ≤ 2 * Real.pi := by
    rw [mul_div_assoc', div_le_iff₀ hm]
    have : (j : ℝ) + 1 ≤ npts := by exact_mod_cast hj'
    nlinarith
  constructor <;> linarith

theorem exp_phase_le (φ ψ : ℝ) : ‖exp (-I * ψ) - exp (-I * φ)‖ ≤ |ψ - φ| := by
  have h : exp (-I * ψ) - exp (-I * φ) = exp (-I * φ) * (exp (I * ((φ - ψ : ℝ) : ℂ)) - 1) := by
    rw [mul_sub, ← exp_add, mul_one]; congr 2; push_cast; ring
  have hn : ‖exp (-I * (φ : ℂ))‖ = 1 := by
    rw [show -I * (φ : ℂ) = ((-φ : ℝ) : ℂ) * I by push_cast; ring]; exact Complex.norm_exp_ofReal_mul_I _
  rw [h, norm_mul, hn, one_mul, abs_sub_comm]
  exact Real.norm_exp_I_mul_ofReal_sub_one_le

theorem norm_exp_phase (φ : ℝ) : ‖exp (-I * (φ : ℂ))‖ = 1 := by
  rw [show -I * (φ : ℂ) = ((-φ : ℝ) : ℂ) * I by push_cast; ring]; exact Complex.norm_exp_ofReal_mul_I _

theorem forall₂_right {α β : Type*} {R : α → β → Prop} {l₁ : List α} {l₂ : List β} (h : List.Forall₂ R l₁ l₂) {b : β}
    (hb : b ∈ l₂) : ∃ a ∈ l₁, R a b := by
  induction h with
  | nil => simp at hb
  | cons h _ ih =>
    rcases List.mem_cons.mp hb with rfl | hb
    · exact ⟨_, by simp, h⟩
    · obtain ⟨a, ha, hr⟩ := ih hb
      exact ⟨a, List.mem_cons_of_mem _ ha, hr⟩

theorem forall₂_left {α β : Type*} {R : α → β → Prop} {l₁ : List α} {l₂ : List β} (h : List.Forall₂ R l₁ l₂) {a : α}
    (ha : a ∈ l₁) : ∃ b ∈ l₂, R a b := by
  induction h with
  | nil => simp at ha
  | cons h _ ih =>
    rcases List.mem_cons.mp ha with rfl | ha
    · exact ⟨_, by simp, h⟩
    · obtain ⟨b, hb, hr⟩ := ih ha
      exact ⟨b, List.mem_cons_of_mem _ hb, hr⟩

/-- The Jacobian determinant does not depend on the origin of the coordinates. -/
theorem jacDet_translate (L : Lenses) (c z : ℂ) (h : ∀ l ∈ L, z ≠ l.2) :
    jacDet (lensMap (L.map fun l => (l.1, l.2 + c))) (z + c) = jacDet (lensMap L) z := by
  have h' : ∀ l ∈ L.map (fun l : ℝ × ℂ => (l.1, l.2 + c)), z + c ≠ l.2 := by
    intro l hl
    obtain ⟨m, hm, rfl⟩ := List.mem_map.mp hl
    exact fun hc => h m hm (add_right_cancel hc)
  rw [(jacDet_lensMap _ _ h').2, (jacDet_lensMap _ _ h).2]
  simp [List.map_map, Function.comp_def]

/-- **C82, one lens**: the returned points lie on the unit circle, every point of which has a returned point within
`π/(npts-1)`. -/
theorem C82_single (roots : List ℂ → List ℂ) (npts : ℕ) (hn : 2 ≤ npts) (u : UserParams) :
    ∃ rows, criticalAndCaustic roots npts 1 u = .ok rows ∧
      (∀ row ∈ rows, ∀ c ∈ row, jacDet (lensMap single) c.1 = 0 ∧ c.2 = lensMap single c.1) ∧
      ∀ z, z ≠ 0 → jacDet (lensMap single) z = 0 → ∃ row ∈ rows, ∃ c ∈ row, ‖c.1 - z‖ ≤ Real.pi / (npts - 1) := by
  have e : lensEq1 = lensMap single := funext lensEq1_eq
  obtain ⟨rows, h1, -, h3⟩ := C10_single roots npts u
  refine ⟨rows, h1, ?_, ?_⟩
  · intro row hrow c hc
    obtain ⟨c', rfl, -, h⟩ := h3 row hrow
    obtain rfl := List.mem_singleton.mp hc
    rw [← e]; exact ⟨h, rfl⟩
  · intro z hz hdet
    have hj := (C03_violated_single z hz).2.1
    rw [e] at hj
    have hpos := norm_pos_iff.mpr hz
    have hnz : ‖z‖ = 1 := by
      rw [hj] at hdet
      have : ‖z‖ ^ 4 = 1 := by field_simp at hdet; linarith
      exact (pow_eq_one_iff_of_nonneg (norm_nonneg z) (by norm_num)).mp this
    obtain ⟨ψ, hψ, hd⟩ := phase_near npts hn (-z.arg) (by linarith [z.arg_le_pi]) (by linarith [z.neg_pi_lt_arg])
    have hzexp : z = exp (-I * ((-z.arg : ℝ) : ℂ)) := by
      conv_lhs => rw [← norm_mul_exp_arg_mul_I z, hnz]
      push_cast; rw [one_mul]; congr 1; ring
    have h2 : rows = (linspacePhi npts).map fun f : ℝ => [(exp (-I * f), 0)] := by
      simpa [criticalAndCaustic] using h1.symm
    refine ⟨_, by rw [h2]; exact List.mem_map.mpr ⟨ψ, hψ, rfl⟩, _, List.mem_singleton.mpr rfl, ?_⟩
    refine le_trans ?_ hd
    conv_lhs => rw [hzexp]
    exact exp_phase_le _ _

/-- **C82, two lenses**: with a root finder that returns all roots, the points returned by
`critical_and_caustic_curves` are critical points of the lens map in the frame of the user and their caustic partners
are their images; every critical point `z` has a returned point within the fourth root of
`π |z-z₁|² |z-z₂|² / (npts-1)`. -/
theorem C82_binary (roots : List ℂ → List ℂ) (npts : ℕ) (hn : 2 ≤ npts) (u : UserParams) (hq : 0 < u.q) (hs : u.s ≠ 0)
    (hroots : ∀ φ : ℝ, IsRootList (polyCoeffsCriticalBinary φ (midParams2 u).a (midParams2 u).e1)
      (roots (polyCoeffsCriticalBinary φ (midParams2 u).a (midParams2 u).e1))) :
    ∃ rows, criticalAndCaustic roots npts 2 u = .ok rows ∧
      (∀ row ∈ rows, ∀ c ∈ row, (∀ l ∈ binary u.s u.q, c.1 ≠ l.2) ∧ jacDet (lensMap (binary u.s u.q)) c.1 = 0 ∧
        c.2 = lensMap (binary u.s u.q) c.1) ∧
      ∀ z, (∀ l ∈ binary u.s u.q, z ≠ l.2) → jacDet (lensMap (binary u.s u.q)) z = 0 →
        ∃ row ∈ rows, ∃ c ∈ row,
          ‖c.1 - z‖ ^ 4 ≤ Real.pi / (npts - 1) * ((binary u.s u.q).map fun l => ‖z - l.2‖ ^ 2).prod := by
  set p := midParams2 u with hp
  have hq1 : 1 + u.q ≠ 0 := by positivity
  have hframe := (C08_binary_frame u hq1).1
  rw [← hp] at hframe
  have ha : p.a ≠ 0 := by simp [hp, midParams2, hs]
  have he1 : p.e1 ≠ 0 := by simp only [hp, midParams2]; positivity
  have he2 : p.e1 ≠ 1 := by
    simp only [hp, midParams2]; intro hc; field_simp at hc; linarith
  have hx : ∀ φ : ℝ, (polyCoeffsCriticalBinary φ p.a p.e1).headD 0 = exp (-I * φ) := fun _ => rfl
  have hlead : ∀ φ : ℝ, (polyCoeffsCriticalBinary φ p.a p.e1).headD 0 ≠ 0 := fun φ => by rw [hx]; exact exp_ne_zero _
  have hlen : ∀ φ : ℝ, (roots (polyCoeffsCriticalBinary φ p.a p.e1)).length = 4 := fun φ =>
    rootList_length (hlead φ) (hroots φ) rfl
  have hmem : ∀ z : ℂ, (∀ l ∈ midBinary p, z ≠ l.2) ↔ z ≠ p.a ∧ z ≠ -p.a := by
    intro z; simp [midBinary]
  have hoff : ∀ z : ℂ, (∀ l ∈ binary u.s u.q, z + xCM u ≠ l.2) ↔ ∀ l ∈ midBinary p, z ≠ l.2 := by
    intro z
    rw [← hframe, List.forall_mem_map]
    exact forall₂_congr fun l _ => not_congr (add_left_inj _)
  obtain ⟨rows, h1, h2⟩ := C11_binary roots npts u 4 hlen
  refine ⟨rows, h1, ?_, ?_⟩
  · intro row hrow c hc
    obtain ⟨φ, hφ, hperm, hca⟩ := forall₂_left h2 hrow
    have hr : c.1 - (xCM u : ℂ) ∈ roots (polyCoeffsCriticalBinary φ p.a p.e1) :=
      hperm.mem_iff.mp (List.mem_map.mpr ⟨c, hc, rfl⟩)
    have h0 := IsRootList.eval_zero_of_mem (hroots φ) hr
    have hl := C10_binary_off_lens φ p.a p.e1 ha he1 he2 _ h0
    have hd := (C10_binary p _ hl.1 hl.2).mp ⟨φ, (phase_range npts hn φ hφ).1, (phase_range npts hn φ hφ).2, h0⟩
    have hl' := (hmem _).mpr hl
    have hj := jacDet_translate (midBinary p) (xCM u) _ hl'
    have ht := lensMap_translate (midBinary p) (xCM u) (c.1 - xCM u)
    rw [hframe, sub_add_cancel] at hj ht
    refine ⟨?_, by rw [hj, hd], ?_⟩
    · have := (hoff _).mpr hl'
      rwa [sub_add_cancel] at this
    · rw [ht, ← hca c hc]; ring
  · intro z hz hdet
    have hz' : ∀ l ∈ midBinary p, z - xCM u ≠ l.2 := by
      rw [← hoff]; rwa [sub_add_cancel]
    have hj := jacDet_translate (midBinary p) (xCM u) _ hz'
    rw [hframe, sub_add_cancel, hdet] at hj
    obtain ⟨hz1, hz2⟩ := (hmem _).mp hz'
    obtain ⟨φ, f1, f2, h0⟩ := (C10_binary p _ hz1 hz2).mpr hj.symm
    obtain ⟨ψ, hψ, hd⟩ := phase_near npts hn φ f1 f2
    obtain ⟨row, hrow, hperm, -⟩ := forall₂_right h2 hψ
    obtain ⟨r, hr, hrn⟩ := near_root _ _ (hroots ψ) (by intro hc; have := hlen ψ; rw [hc] at this; simp at this) (z - xCM u)
    obtain ⟨c, hc, hcr⟩ := List.mem_map.mp (hperm.mem_iff.mpr hr)
    refine ⟨row, hrow, c, hc, ?_⟩
    rw [hlen, hx, norm_exp_phase, one_mul, ← hcr, sub_sub_sub_cancel_right] at hrn
    refine hrn.trans ?_
    have hdiff : evalPoly (polyCoeffsCriticalBinary ψ p.a p.e1) (z - xCM u)
        = (exp (-I * ψ) - exp (-I * φ)) * ((z - xCM u - p.a) * (z - xCM u + p.a)) ^ 2 := by
      have := h0
      rw [evalPoly_criticalBinary] at this ⊢
      linear_combination this
    rw [hdiff, norm_mul]
    refine mul_le_mul ((exp_phase_le _ _).trans hd) (le_of_eq ?_) (norm_nonneg _) (le_trans (abs_nonneg _) hd)
    rw [← hframe]
    simp only [midBinary, List.map_cons, List.map_nil, List.prod_cons, List.prod_nil, mul_one]
    rw [norm_pow, norm_mul, mul_pow]
    congr 3 <;> ring_nf

/-- **C82, three lenses**, at distinct positions. -/
theorem C82_triple (roots : List ℂ → List ℂ) (npts : ℕ) (hn : 2 ≤ npts) (u : UserParams) (hq : 0 < u.q) (hq3 : 0 < u.q3)
    (hdist : ((triple u.s u.q u.q3 u.r3 u.psi).map Prod.snd).Nodup)
    (hroots : ∀ φ : ℝ, IsRootList (polyCoeffsCriticalTriple φ (midParams3 u).a (r3Complex (midParams3 u))
      (midParams3 u).e1 (midParams3 u).e2) (roots (polyCoeffsCriticalTriple φ (midParams3 u).a
        (r3Complex (midParams3 u)) (midParams3 u).e1 (midParams3 u).e2))) :
    ∃ rows, criticalAndCaustic roots npts 3 u = .ok rows ∧
      (∀ row ∈ rows, ∀ c ∈ row, (∀ l ∈ triple u.s u.q u.q3 u.r3 u.psi, c.1 ≠ l.2) ∧
        jacDet (lensMap (triple u.s u.q u.q3 u.r3 u.psi)) c.1 = 0 ∧
        c.2 = lensMap (triple u.s u.q u.q3 u.r3 u.psi) c.1) ∧
      ∀ z, (∀ l ∈ triple u.s u.q u.q3 u.r3 u.psi, z ≠ l.2) →
        jacDet (lensMap (triple u.s u.q u.q3 u.r3 u.psi)) z = 0 →
        ∃ row ∈ rows, ∃ c ∈ row,
          ‖c.1 - z‖ ^ 6 ≤ Real.pi / (npts - 1) *
            ((triple u.s u.q u.q3 u.r3 u.psi).map fun l => ‖z - l.2‖ ^ 2).prod := by
  set p := midParams3 u with hp
  have hframe := (C08_triple_frame u (by positivity) (by positivity)).1
  rw [← hp] at hframe
  have hx : ∀ φ : ℝ, (polyCoeffsCriticalTriple φ p.a (r3Complex p) p.e1 p.e2).headD 0 = exp (-I * φ) := fun _ => rfl
  have hlead : ∀ φ : ℝ, (polyCoeffsCriticalTriple φ p.a (r3Complex p) p.e1 p.e2).headD 0 ≠ 0 := fun φ => by
    rw [hx]; exact exp_ne_zero _
  have hlen : ∀ φ : ℝ, (roots (polyCoeffsCriticalTriple φ p.a (r3Complex p) p.e1 p.e2)).length = 6 := fun φ =>
    rootList_length (hlead φ) (hroots φ) rfl
  have hmem : ∀ z : ℂ, (∀ l ∈ midTriple p, z ≠ l.2) ↔ z ≠ p.a ∧ z ≠ -p.a ∧ z ≠ r3Complex p := by
    intro z; simp [midTriple]
  have hoff : ∀ z : ℂ, (∀ l ∈ triple u.s u.q u.q3 u.r3 u.psi, z + xCM u ≠ l.2) ↔ ∀ l ∈ midTriple p, z ≠ l.2 := by
    intro z
    rw [← hframe, List.forall_mem_map]
    exact forall₂_congr fun l _ => not_congr (add_left_inj _)
  have hnd : (p.a : ℂ) ≠ -p.a ∧ (p.a : ℂ) ≠ r3Complex p ∧ (-p.a : ℂ) ≠ r3Complex p := by
    rw [← hframe] at hdist
    simp [midTriple] at hdist
    tauto
  have hA : (p.a : ℂ) + p.a ≠ 0 := fun hc => hnd.1 (by linear_combination hc)
  have hB : (p.a : ℂ) - r3Complex p ≠ 0 := sub_ne_zero.mpr hnd.2.1
  have hC : (p.a : ℂ) + r3Complex p ≠ 0 := fun hc => hnd.2.2 (by linear_combination -hc)
  have hm1 : (p.e1 : ℂ) ≠ 0 := by
    have : p.e1 ≠ 0 := by simp only [hp, midParams3]; positivity
    exact_mod_cast this
  have hm2 : (p.e2 : ℂ) ≠ 0 := by
    have : p.e2 ≠ 0 := by simp only [hp, midParams3]; positivity
    exact_mod_cast this
  have hm3 : (1 - p.e1 - p.e2 : ℂ) ≠ 0 := by
    have : 1 - p.e1 - p.e2 ≠ 0 := by
      simp only [hp, midParams3]
      intro hc; field_simp at hc; linarith
    exact_mod_cast this
  have hofflens : ∀ (φ : ℝ) (z : ℂ), evalPoly (polyCoeffsCriticalTriple φ p.a (r3Complex p) p.e1 p.e2) z = 0 →
      z ≠ p.a ∧ z ≠ -p.a ∧ z ≠ r3Complex p := by
    intro φ z h
    rw [evalPoly_criticalTriple] at h
    refine ⟨?_, ?_, ?_⟩
    · rintro rfl
      have : (p.e1 : ℂ) * ((p.a + p.a) * (p.a - r3Complex p)) ^ 2 = 0 := by linear_combination -h
      exact mul_ne_zero hm1 (pow_ne_zero _ (mul_ne_zero hA hB)) this
    · rintro rfl
      have : (p.e2 : ℂ) * ((p.a + p.a) * (p.a + r3Complex p)) ^ 2 = 0 := by linear_combination -h
      exact mul_ne_zero hm2 (pow_ne_zero _ (mul_ne_zero hA hC)) this
    · intro hz
      rw [hz] at h
      have : (1 - p.e1 - p.e2 : ℂ) * ((p.a - r3Complex p) * (p.a + r3Complex p)) ^ 2 = 0 := by linear_combination -h
      exact mul_ne_zero hm3 (pow_ne_zero _ (mul_ne_zero hB hC)) this
  obtain ⟨rows, h1, h2⟩ := C11_triple roots npts u 6 hlen
  refine ⟨rows, h1, ?_, ?_⟩
  · intro row hrow c hc
    obtain ⟨φ, hφ, hperm, hca⟩ := forall₂_left h2 hrow
    have hr : c.1 - (xCM u : ℂ) ∈ roots (polyCoeffsCriticalTriple φ p.a (r3Complex p) p.e1 p.e2) :=
      hperm.mem_iff.mp (List.mem_map.mpr ⟨c, hc, rfl⟩)
    have h0 := IsRootList.eval_zero_of_mem (hroots φ) hr
    have hl := hofflens φ _ h0
    have hd := (C10_triple p _ hl.1 hl.2.1 hl.2.2).mp ⟨φ, (phase_range npts hn φ hφ).1, (phase_range npts hn φ hφ).2, h0⟩
    have hl' := (hmem _).mpr hl
    have hj := jacDet_translate (midTriple p) (xCM u) _ hl'
    have ht := lensMap_translate (midTriple p) (xCM u) (c.1 - xCM u)
    rw [hframe, sub_add_cancel] at hj ht
    refine ⟨?_, by rw [hj, hd], ?_⟩
    · have := (hoff _).mpr hl'
      rwa [sub_add_cancel] at this
    · rw [ht, ← hca c hc]; ring
  · intro z hz hdet
    have hz' : ∀ l ∈ midTriple p, z - xCM u ≠ l.2 := by
      rw [← hoff]; rwa [sub_add_cancel]
    have hj := jacDet_translate (midTriple p) (xCM u) _ hz'
    rw [hframe, sub_add_cancel, hdet] at hj
    obtain ⟨hz1, hz2, hz3⟩ := (hmem _).mp hz'
    obtain ⟨φ, f1, f2, h0⟩ := (C10_triple p _ hz1 hz2 hz3).mpr hj.symm
    obtain ⟨ψ, hψ, hd⟩ := phase_near npts hn φ f1 f2
    obtain ⟨row, hrow, hperm, -⟩ := forall₂_right h2 hψ
    obtain ⟨r, hr, hrn⟩ := near_root _ _ (hroots ψ) (by intro hc; have := hlen ψ; rw [hc] at this; simp at this) (z - xCM u)
    obtain ⟨c, hc, hcr⟩ := List.mem_map.mp (hperm.mem_iff.mpr hr)
    refine ⟨row, hrow, c, hc, ?_⟩
    rw [hlen, hx, norm_exp_phase, one_mul, ← hcr, sub_sub_sub_cancel_right] at hrn
    refine hrn.trans ?_
    have hdiff : evalPoly (polyCoeffsCriticalTriple ψ p.a (r3Complex p) p.e1 p.e2) (z - xCM u)
        = (exp (-I * ψ) - exp (-I * φ)) *
          ((z - xCM u - p.a) * (z - xCM u + p.a) * (z - xCM u - r3Complex p)) ^ 2 := by
      have := h0
      rw [evalPoly_criticalTriple] at this ⊢
      linear_combination this
    rw [hdiff, norm_mul]
    refine mul_le_mul ((exp_phase_le _ _).trans hd) (le_of_eq ?_) (norm_nonneg _) (le_trans (abs_nonneg _) hd)
    rw [← hframe]
    simp only [midTriple, List.map_cons, List.map_nil, List.prod_cons, List.prod_nil, mul_one]
    rw [norm_pow, norm_mul, norm_mul, mul_pow, mul_pow, mul_assoc]
    congr 3 <;> ring_nf

/-! ## Concrete cases -/

/-- A root finder that returns all roots exists. -/
theorem exists_finder : ∃ roots : List ℂ → List ℂ, ∀ c : List ℂ, c.headD 0 ≠ 0 → IsRootList c (roots c) := by
  have : ∀ c : List ℂ, ∃ rs, c.headD 0 ≠ 0 → IsRootList c rs := by
    intro c
    by_cases h : c.headD 0 ≠ 0
    · obtain ⟨rs, hrs⟩ := exists_rootList c h
      exact ⟨rs, fun _ => hrs⟩
    · exact ⟨[], fun h' => absurd h' h⟩
  choose f hf using this
  exact ⟨f, hf⟩

/-- The three lenses of the equilateral triple are at distinct positions. -/
theorem exT_distinct : ((triple exT.s exT.q exT.q3 exT.r3 exT.psi).map Prod.snd).Nodup := by
  have hk : 0 < tm * tk := mul_pos tm_pos tk_pos
  have h3 : 0 < Real.sqrt 3 := Real.sqrt_pos.mpr (by norm_num)
  have hp : 0 < Real.sqrt 3 * (tm * tk) := mul_pos h3 hk
  rw [← (C08_triple_frame exT (by norm_num [exT]) (by norm_num [exT])).1]
  have e : ((midTriple (midParams3 exT)).map fun l => (l.1, l.2 + (xCM exT : ℂ))).map Prod.snd =
      [((1 / 2 * (Real.sqrt 3 * (tm * tk)) : ℝ) : ℂ), ((-(1 / 2 * (Real.sqrt 3 * (tm * tk))) : ℝ) : ℂ),
        ((3 / 2 * (tm * tk) : ℝ) : ℂ) * I] := by
    simp [midTriple, exT_x, exT_a, exT_r3]
  rw [e]
  have key : (([((1 / 2 * (Real.sqrt 3 * (tm * tk)) : ℝ) : ℂ), ((-(1 / 2 * (Real.sqrt 3 * (tm * tk))) : ℝ) : ℂ),
        ((3 / 2 * (tm * tk) : ℝ) : ℂ) * I] : List ℂ).map fun z => (z.re, z.im)).Nodup := by
    simp only [List.map_cons, List.map_nil, ofReal_re, ofReal_im, re_ofReal_mul, im_ofReal_mul, I_re, I_im, mul_zero, mul_one,
      List.nodup_cons, List.mem_cons, List.not_mem_nil, or_false, Prod.mk.injEq, not_or, not_and, not_false_eq_true,
      List.nodup_nil, and_true]
    refine ⟨⟨?_, ?_⟩, ?_⟩
    · intro h; linarith
    · intro h; linarith
    · intro h; linarith
  exact List.Nodup.of_map _ key

/-- C82 applies to the equal-mass binary and the equilateral triple. -/
example : ∃ roots : List ℂ → List ℂ, (∃ rows, criticalAndCaustic roots 200 2 exU = .ok rows ∧
    ∀ z, (∀ l ∈ binary exU.s exU.q, z ≠ l.2) → jacDet (lensMap (binary exU.s exU.q)) z = 0 →
      ∃ row ∈ rows, ∃ c ∈ row,
        ‖c.1 - z‖ ^ 4 ≤ Real.pi / ((200 : ℕ) - 1) * ((binary exU.s exU.q).map fun l => ‖z - l.2‖ ^ 2).prod) ∧
    ∃ rows, criticalAndCaustic roots 200 3 exT = .ok rows ∧ ∀ row ∈ rows, ∀ c ∈ row,
      jacDet (lensMap (triple exT.s exT.q exT.q3 exT.r3 exT.psi)) c.1 = 0 := by
  obtain ⟨roots, h⟩ := exists_finder
  refine ⟨roots, ?_, ?_⟩
  · obtain ⟨rows, h1, -, h3⟩ := C82_binary roots 200 (by norm_num) exU (by norm_num [exU]) (by norm_num [exU])
      (fun φ => h _ (exp_ne_zero _))
    exact ⟨rows, h1, h3⟩
  · obtain ⟨rows, h1, h2, -⟩ := C82_triple roots 200 (by norm_num) exT (by norm_num [exT]) (by norm_num [exT])
      exT_distinct
      (fun φ => h _ (exp_ne_zero _))
    exact ⟨rows, h1, fun row hrow c hc => (h2 row hrow c hc).2.1⟩

end Microjax.Props
