import Verif.Model.FastLensNumpy
import Verif.Props.FftPipeline

/-!
# C104: the numpy and the JAX implementation of the FFT magnification
-/

noncomputable section

namespace Microjax.Props

open MagFft FastLensNumpy FftLog

/-- A point between the first and the last abscissa lies in a cell. -/
theorem exists_cell (xp : List ℝ) (x : ℝ) (h0 : xp.getD 0 0 ≤ x) (i : ℕ) (hi : x < xp.getD i 0) :
    ∃ j, j + 1 ≤ i ∧ xp.getD j 0 ≤ x ∧ x < xp.getD (j + 1) 0 := by
  induction i with
  | zero => exact absurd hi (not_lt.mpr h0)
  | succ i ih =>
    rcases lt_or_ge x (xp.getD i 0) with h | h
    · obtain ⟨j, hj, h1⟩ := ih h
      exact ⟨j, by omega, h1⟩
    · exact ⟨i, le_rfl, h, hi⟩

/-- **C104, interpolation**: `np.interp` and `jnp.interp` agree at every point, on every increasing grid of at least two
abscissae. -/
theorem C104_interp (xp fp : List ℝ) (right : Option ℝ) (hs : xp.Pairwise (· < ·)) (h2 : 2 ≤ xp.length)
    (hf : fp.length = xp.length) (x : ℝ) : npInterp x xp fp right = interp x xp fp right := by
  have hs' : xp.Pairwise (· ≤ ·) := hs.imp fun h => h.le
  have hne : xp ≠ [] := by intro h; simp [h] at h2
  rcases lt_or_ge x (xp.getD 0 0) with h | h0
  · rw [npInterp, interp]
    simp only [if_pos h]
  rcases lt_trichotomy x (xp.getD (xp.length - 1) 0) with h | h | h
  · obtain ⟨j, hj, h1, h3⟩ := exists_cell xp x h0 (xp.length - 1) h
    have hl := takeWhile_length xp hs' x j (by omega) h1 fun _ => h3
    rw [C96_cell xp fp right hs' x j (by omega) h1 h3, npInterp]
    simp only [hl, Nat.add_sub_cancel, if_neg (not_lt.mpr h0), gt_iff_lt, if_neg (not_lt.mpr h.le),
      if_neg (show j ≠ xp.length - 1 by omega)]
    split_ifs with he
    · rw [he]; ring
    · ring
  · have hl := takeWhile_length xp hs' x (xp.length - 1) (by omega) h.ge fun hh => by omega
    have hnode := C96_node xp fp right hs' (xp.length - 1) (by omega) (fun _ => by
        rw [List.getD_eq_getElem _ _ (by omega), List.getD_eq_getElem _ _ (by omega)]
        exact List.pairwise_iff_getElem.mp hs _ _ _ _ (by omega)) (fun hh => by omega)
    rw [← h] at hnode
    rw [hnode, npInterp]
    simp only [hl, Nat.add_sub_cancel, if_neg (not_lt.mpr h0), gt_iff_lt, if_neg (not_lt.mpr h.le), if_true]
  · rw [npInterp, interp]
    simp only [if_neg (not_lt.mpr h0), gt_iff_lt, if_pos h]

/-- Repeating the last pair of an interpolation table changes nothing. -/
theorem interp_repeat (L F : List ℝ) (b v : ℝ) (m : ℕ) (hlen : F.length = L.length) (hL : L ≠ [])
    (hs : (L ++ [b]).Pairwise (· < ·)) (x : ℝ) :
    interp x (L ++ List.replicate (m + 1) b) (F ++ List.replicate (m + 1) v) (some v)
      = interp x (L ++ [b]) (F ++ [v]) (some v) := by
  have hl : 0 < L.length := List.length_pos_iff.mpr hL
  have hsB : (L ++ [b]).Pairwise (· ≤ ·) := hs.imp fun h => h.le
  have hLb : ∀ a ∈ L, a < b := fun a ha => (List.pairwise_append.mp hs).2.2 a ha b (by simp)
  have hsA : (L ++ List.replicate (m + 1) b).Pairwise (· ≤ ·) := by
    refine List.pairwise_append.mpr ⟨(List.pairwise_append.mp hsB).1, ?_, fun a ha c hc => ?_⟩
    · exact List.pairwise_replicate.mpr (Or.inr le_rfl)
    · rw [List.eq_of_mem_replicate hc]; exact (hLb a ha).le
  have gA : ∀ i, i ≤ L.length → (L ++ List.replicate (m + 1) b).getD i 0 = (L ++ [b]).getD i 0 := by
    intro i hi
    rcases hi.eq_or_lt with rfl | hi
    · simp
    · rw [List.getD_append _ _ _ _ hi, List.getD_append _ _ _ _ hi]
  have gF : ∀ i, i ≤ L.length → (F ++ List.replicate (m + 1) v).getD i 0 = (F ++ [v]).getD i 0 := by
    intro i hi
    rcases hi.eq_or_lt with rfl | hi
    · rw [← hlen]; simp
    · rw [List.getD_append _ _ _ _ (by omega), List.getD_append _ _ _ _ (by omega)]
  have lastB : (L ++ [b]).getD L.length 0 = b := by simp
  have lastA : (L ++ List.replicate (m + 1) b).getD ((L ++ List.replicate (m + 1) b).length - 1) 0 = b := by
    rw [List.getD_append_right _ _ _ _ (by simp)]
    rw [List.getD_eq_getElem _ _ (by simp), List.getElem_replicate]
  rcases lt_or_ge x ((L ++ [b]).getD 0 0) with h | h0
  · have h' : x < (L ++ List.replicate (m + 1) b).getD 0 0 := by rw [gA 0 (by omega)]; exact h
    rw [interp, interp]
    simp only [if_pos h, if_pos h']
    exact gF 0 (by omega)
  rcases lt_trichotomy x b with h | h | h
  · obtain ⟨j, hj, h1, h3⟩ := exists_cell (L ++ [b]) x h0 L.length (by rw [lastB]; exact h)
    rw [C96_cell (L ++ [b]) (F ++ [v]) (some v) hsB x j (by simpa using hj) h1 h3,
      C96_cell (L ++ List.replicate (m + 1) b) (F ++ List.replicate (m + 1) v) (some v) hsA x j (by simp; omega)
        (by rw [gA j (by omega)]; exact h1) (by rw [gA (j + 1) hj]; exact h3),
      gA j (by omega), gA (j + 1) hj, gF j (by omega), gF (j + 1) hj]
  · have hB := C96_node (L ++ [b]) (F ++ [v]) (some v) hsB L.length (by simp) (fun _ => by
        rw [List.getD_eq_getElem _ _ (by simp), List.getD_eq_getElem _ _ (by simp)]
        exact List.pairwise_iff_getElem.mp hs _ _ _ _ (by omega)) (fun hh => by simp at hh)
    rw [lastB] at hB
    rw [h, hB]
    have hv : (F ++ [v]).getD L.length 0 = v := by rw [← hlen]; simp
    rw [hv]
    rcases Nat.eq_zero_or_pos m with rfl | hm
    · exact (hB.trans hv)
    have hb0 : ¬ b < (L ++ List.replicate (m + 1) b).getD 0 0 := by
      rw [gA 0 (by omega), List.getD_append _ _ _ _ hl, List.getD_eq_getElem _ _ hl]
      exact not_lt.mpr (hLb _ (List.getElem_mem hl)).le
    have hss : ((L ++ List.replicate (m + 1) b).takeWhile fun w => decide (w ≤ b)).length = L.length + (m + 1) := by
      rw [takeWhile_length _ hsA b ((L ++ List.replicate (m + 1) b).length - 1) (by simp) lastA.le (fun hh => by omega)]
      simp
      omega
    have gr : ∀ (M : List ℝ) (c : ℝ) (i : ℕ), M.length ≤ i → i < M.length + (m + 1) →
        (M ++ List.replicate (m + 1) c).getD i 0 = c := by
      intro M c i h1 h2
      rw [List.getD_append_right _ _ _ _ h1, List.getD_eq_getElem _ _ (by simp; omega), List.getElem_replicate]
    have hi : min (max (L.length + (m + 1)) 1) ((L ++ List.replicate (m + 1) b).length - 1) = L.length + m := by
      simp
    rw [interp]
    simp only [hss, hi, if_neg hb0, lastA, gt_iff_lt, lt_irrefl, if_false]
    rw [gr L b _ (by omega) (by omega), gr L b _ (by omega) (by omega), sub_self, if_pos rfl, gr F v _ (by omega) (by omega)]
  · rw [((C96_outside _ (F ++ [v]) hsB (by simp) (by simp [hlen]) x).2 (by
        rw [show (L ++ [b]).length - 1 = L.length by simp, lastB]; exact h)).1 v,
      ((C96_outside _ (F ++ List.replicate (m + 1) v) hsA (by simp [hL]) (by simp [hlen]) x).2 (by rw [lastA]; exact h)).1 v]

/-- Cutting a list of pairs with increasing first components at 100. -/
theorem cut_table (U A : List ℝ) (hlen : A.length = U.length) (hs : U.Pairwise (· < ·)) (h100 : ∃ u ∈ U, 100 ≤ u) :
    ∃ L F m, F.length = L.length ∧ (∀ u ∈ L, u ∈ U ∧ u < 100) ∧ L.Pairwise (· < ·) ∧
      ((List.zip U A).filter fun p => decide (p.1 < 100)) = List.zip L F ∧
      (U.map fun v => if v < 100 then v else 100) = L ++ List.replicate (m + 1) 100 ∧
      (List.zipWith (fun v a => if v < 100 then a else 1) U A) = F ++ List.replicate (m + 1) 1 ∧
      (∀ u0 ∈ U.head?, u0 < 100 → L ≠ []) := by
  induction U generalizing A with
  | nil => simp at h100
  | cons u U ih =>
    obtain ⟨a, A, rfl⟩ : ∃ a A', A = a :: A' := by
      cases A with
      | nil => simp at hlen
      | cons a A => exact ⟨a, A, rfl⟩
    have hlen' : A.length = U.length := by simpa using hlen
    rw [List.pairwise_cons] at hs
    rcases lt_or_ge u 100 with hu | hu
    · have h' : ∃ w ∈ U, 100 ≤ w := by
        obtain ⟨w, hw, hw1⟩ := h100
        rcases List.mem_cons.mp hw with rfl | hw
        · linarith
        · exact ⟨w, hw, hw1⟩
      obtain ⟨L, F, m, h1, h2, h3, h4, h5, h6, _⟩ := ih A hlen' hs.2 h'
      refine ⟨u :: L, a :: F, m, by simp [h1], ?_, ?_, ?_, ?_, ?_, by simp⟩
      · intro w hw
        rcases List.mem_cons.mp hw with rfl | hw
        · exact ⟨by simp, hu⟩
        · exact ⟨List.mem_cons_of_mem _ (h2 w hw).1, (h2 w hw).2⟩
      · exact List.pairwise_cons.mpr ⟨fun w hw => hs.1 w (h2 w hw).1, h3⟩
      · simp only [List.zip_cons_cons]
        rw [List.filter_cons_of_pos (by simpa using hu), h4]
      · rw [List.map_cons, if_pos hu, h5]; rfl
      · rw [List.zipWith_cons_cons, if_pos hu, h6]; rfl
    · have hall : ∀ w ∈ u :: U, ¬ w < 100 := by
        intro w hw
        rcases List.mem_cons.mp hw with rfl | hw
        · exact not_lt.mpr hu
        · exact not_lt.mpr (hu.trans (hs.1 w hw).le)
      refine ⟨[], [], U.length, rfl, by simp, by simp, ?_, ?_, ?_, ?_⟩
      · rw [List.filter_eq_nil_iff.mpr]
        · rfl
        · intro p hp
          simpa using hall p.1 (List.of_mem_zip hp).1
      · rw [List.nil_append, List.eq_replicate_iff]
        refine ⟨by simp, fun b hb => ?_⟩
        obtain ⟨w, hw, rfl⟩ := List.mem_map.mp hb
        exact if_neg (hall w hw)
      · rw [List.nil_append, List.eq_replicate_iff]
        refine ⟨by simp [hlen'], fun b hb => ?_⟩
        obtain ⟨i, hi, rfl⟩ := List.getElem_of_mem hb
        rw [List.getElem_zipWith]
        exact if_neg (hall _ (List.getElem_mem _))
      · intro u0 h0 hlt
        simp at h0
        linarith

/-- The transform of the numpy module in the shape in which the JAX module calls it. -/
def asJax (hk : HankelNp) : Hankel := fun x fx n => if n = 0 then hk x fx 512 512 0 else hk x fx 0 0 n

/-- **C104, large sources**: if the second Hankel transform returns an increasing grid of positive distances which reaches from
below to beyond 100, the numpy code (which cuts its table at 100 and appends the point `(100, 1)`) and the JAX code (which
clamps it) return the same magnification for every `u`, wherever the central value is defined. -/
theorem C104_large (hk : HankelNp) (c : Cfg) (sk : List ℝ → ℝ → List ℝ) (A0 : ℝ → ℝ) (A0' : ℝ → Except NpErr ℝ) (u rho : ℝ)
    (hA : A0' rho = .ok (A0 rho))
    (hr : ∀ x fx, let r := hk x fx 0 0 512
      r.2.length = r.1.length ∧ r.1.Pairwise (· < ·) ∧ (∀ v ∈ r.1, 0 < v) ∧ (∃ v ∈ r.1, 100 ≤ v) ∧ (∃ v ∈ r.1, v < 100)) :
    aLargeNp hk c sk A0' u rho = .ok (aLarge (asJax hk) c sk A0 u rho) := by
  have hka : initApk (asJax hk) c = initApkNp hk c := by simp [initApk, initApkNp, asJax]
  simp only [aLargeNp, hA, aLarge]
  congr 1
  split_ifs with hu
  · simp only [table, tableNp, hka, asJax]
    generalize List.zipWith (fun (p : ℝ × ℝ) (q : ℝ × ℝ) => p.2 * p.1 ^ 2 * q.1 * q.2)
      (List.zip (initApkNp hk c).1 (initApkNp hk c).2) (List.zip (sk (initApkNp hk c).1 rho)
        ((initApkNp hk c).1.map fun kv => Real.exp (-(kv / (2 * Real.pi / rho) / 20) ^ 2))) = cj
    obtain ⟨h1, h2, h3, h4, v0, hv0, hv1⟩ := hr (initApkNp hk c).1 cj
    rw [if_neg (by norm_num)]
    generalize hk (initApkNp hk c).1 cj 0 0 512 = r at *
    obtain ⟨L, F, m, g1, g2, g3, g4, g5, g6, g7⟩ := cut_table r.1 (r.2.map fun v => v / 2 / Real.pi + 1) (by simpa using h1) h2 h4
    have hLne : L ≠ [] := by
      refine g7 (r.1.head (List.ne_nil_of_mem hv0)) (by rw [List.head?_eq_some_head (List.ne_nil_of_mem hv0)]; simp) ?_
      refine lt_of_le_of_lt ?_ hv1
      obtain ⟨i, hi, rfl⟩ := List.getElem_of_mem hv0
      rw [List.head_eq_getElem]
      rcases Nat.eq_zero_or_pos i with rfl | h
      · exact le_rfl
      · exact (List.pairwise_iff_getElem.mp h2 0 i (by omega) hi h).le
    have hLlen : 0 < L.length := List.length_pos_iff.mpr hLne
    have t1 : (List.zip L F ++ [((100 : ℝ), (1 : ℝ))]).map (fun p => log10 p.1) = L.map log10 ++ [log10 100] := by
      rw [List.map_append, List.map_cons, List.map_nil]
      congr 1
      rw [show (fun p : ℝ × ℝ => log10 p.1) = log10 ∘ Prod.fst from rfl, ← List.map_map, List.map_fst_zip (by omega)]
    have t2 : (List.zip L F ++ [((100 : ℝ), (1 : ℝ))]).map (·.2) = F ++ [1] := by
      rw [List.map_append, List.map_cons, List.map_nil]
      congr 1
      exact List.map_snd_zip (by omega)
    have t3 : (r.1.map fun v => log10 (if v < 100 then v else 100)) = L.map log10 ++ List.replicate (m + 1) (log10 100) := by
      rw [show (fun v : ℝ => log10 (if v < 100 then v else 100)) = log10 ∘ (fun v => if v < 100 then v else 100) from rfl,
        ← List.map_map, g5, List.map_append, List.map_replicate]
    have hinc : (L.map log10 ++ [log10 100]).Pairwise (· < ·) := by
      refine List.pairwise_append.mpr ⟨?_, by simp, ?_⟩
      · rw [List.pairwise_map]
        exact g3.imp_of_mem fun ha hb h => log10_lt (h3 _ (g2 _ ha).1) h
      · intro a ha b hb
        obtain ⟨w, hw, rfl⟩ := List.mem_map.mp ha
        rw [List.mem_singleton.mp hb]
        exact log10_lt (h3 _ (g2 _ hw).1) (g2 _ hw).2
    rw [g4, t1, t2, t3, g6, interp_repeat _ _ _ _ _ (by simp [g1]) (by simp [hLne]) hinc,
      C104_interp _ _ _ hinc (by simp; omega) (by simp [g1])]
  · rfl

/-- **C104, small sources**: with the grid of the numpy code (`1e-5 .. 1e5`, 1024 points) the two small-source formulas
agree for every `u`, if the transform returns an increasing grid. -/
theorem C104_small (hk : HankelNp) (c : Cfg) (sk : List ℝ → ℝ → List ℝ) (u rho : ℝ)
    (hr : ∀ x fx, let r := hk x fx 0 0 1024
      r.2.length = r.1.length ∧ r.1.Pairwise (· < ·) ∧ 2 ≤ r.1.length)
    (hsk : ∀ x : List ℝ, (sk x 1).length = x.length) :
    aSmallNp hk c sk u rho = aSmall (asJax hk) { c with logumin := -5, logumax := 5, N := 1024 } sk u rho := by
  have e : initAext0 (asJax hk) { c with logumin := -5, logumax := 5, N := 1024 } sk = initAext0Np hk sk := by
    have hz : ∀ x : List ℝ, List.zipWith (fun xv s => xv * s * Real.exp (-(xv / 100) ^ 2)) x (sk x 1)
        = List.zipWith (fun (p : ℝ × ℝ) d => p.1 * p.2 * d) (List.zip x (sk x 1)) (x.map fun v => Real.exp (-(v / 100) ^ 2)) :=
      fun x => List.ext_getElem (by simp [hsk]) fun i h1 h2 => by simp
    rw [initAext0, initAext0Np, hz]
    rfl
  simp only [aSmallNp, aSmall, e]
  split_ifs
  · have h : (initAext0Np hk sk).2.length = (initAext0Np hk sk).1.length ∧ (initAext0Np hk sk).1.Pairwise (· < ·) ∧
        2 ≤ (initAext0Np hk sk).1.length := hr _ _
    rw [C104_interp _ _ _ h.2.1 h.2.2 h.1]
  · rfl

/-- **C104, profiles and central values**: orders 0, 1, 2 of the numpy limb-darkening class are the profiles of the uniform, linear and quadratic classes
of the JAX module (given the same special functions), and so are the central values of orders 1 and 2. -/
theorem C104_profiles (gam : ℝ → ℝ) (jn : ℝ → ℝ → ℝ) (hj : ∀ x, 0 < x → jn (3 / 2) x = Special.j1p5 x) (k rho : ℝ) :
    skDiskNp (jn 1) k rho = skDisk (jn 1) k rho ∧
    (gam 1 = 1 → 0 < k * rho → skLimbNp gam jn 0 k rho = skDisk (jn 1) k rho) ∧
    skLimbNp gam jn 1 k rho = skLimb1 gam k rho ∧ skLimbNp gam jn 2 k rho = skLimb2 gam (jn 2) k rho ∧
    a0DiskNp rho = .ok (a0Disk rho) ∧ a0LimbNp 1 rho = .ok (a0Limb1 rho) ∧ a0LimbNp 2 rho = .ok (a0Limb2 rho) := by
  have e3 : (1 : ℝ) + ((1 : ℤ) : ℝ) / 2 = 3 / 2 := by norm_num
  have e2 : (1 : ℝ) + ((2 : ℤ) : ℝ) / 2 = 2 := by norm_num
  refine ⟨rfl, fun hg hx => ?_, ?_, ?_, rfl, ?_, ?_⟩
  · simp [skLimbNp, skDisk, hx, hg]
  · simp only [skLimbNp, skLimb1, e3]
    split_ifs with hx
    · rw [hj _ hx, show (1.5 : ℝ) = 3 / 2 by norm_num]
      ring
    · norm_num
  · simp only [skLimbNp, skLimb2, e2]
    split_ifs with hx
    · rw [Real.rpow_ofNat, Real.rpow_ofNat]
    · norm_num
  · simp [a0LimbNp, a0Limb1]
  · simp only [a0LimbNp, a0Limb2]
    rw [if_neg (by norm_num), if_pos trivial, add_comm (2 : ℝ) (rho ^ 2), add_comm (4 : ℝ) (rho ^ 2)]

/-- **C104, orders of limb darkening that have no value**: for a large source the numpy class raises at every `u` (not only at
`u = 0`) exactly when the order is not 1 or 2; a small source always has a value. -/
theorem C104_orders (hk : HankelNp) (c : Cfg) (sk : List ℝ → ℝ → List ℝ) (n : ℤ) (u rho : ℝ) :
    ((∃ e, aNp hk c sk (a0LimbNp n) u rho = .error e) ↔ c.rhoSwitch ≤ rho ∧ n ≠ 1 ∧ n ≠ 2) ∧
    (c.rhoSwitch ≤ rho → 3 ≤ n → aNp hk c sk (a0LimbNp n) u rho = .error .notImplemented) ∧
    (c.rhoSwitch ≤ rho → n ≤ 0 → aNp hk c sk (a0LimbNp n) u rho = .error .typeError) := by
  refine ⟨?_, fun h hn => ?_, fun h hn => ?_⟩
  · constructor
    · rintro ⟨e, he⟩
      rw [aNp] at he
      split_ifs at he with h
      refine ⟨not_lt.mp h, ?_, ?_⟩ <;>
      · rintro rfl
        simp [aLargeNp, a0LimbNp] at he
    · rintro ⟨h, h1, h2⟩
      by_cases h3 : 3 ≤ n
      · exact ⟨.notImplemented, by simp [aNp, not_lt.mpr h, aLargeNp, a0LimbNp, h1, h2, h3]⟩
      · exact ⟨.typeError, by simp [aNp, not_lt.mpr h, aLargeNp, a0LimbNp, h1, h2, h3]⟩
  · simp [aNp, not_lt.mpr h, aLargeNp, a0LimbNp, show n ≠ 1 by omega, show n ≠ 2 by omega, hn]
  · simp [aNp, not_lt.mpr h, aLargeNp, a0LimbNp, show n ≠ 1 by omega, show n ≠ 2 by omega, show ¬ 3 ≤ n by omega]

/-- **C104, the check of the first frequency**: the numpy Hankel transform terminates the program exactly when `n + ν = 1/2`;
otherwise, without extrapolation, it is the transform of the JAX module (with the gamma function of scipy).  The package calls it with `n = 0`,
`ν = 3/2`. -/
theorem C104_hankel (gam : ℂ → ℂ) (x fx : List ℝ) (nu : ℝ) (lo hi pad : ℕ) (n : ℝ) :
    ((∃ e, hankelNp gam x fx nu lo hi pad n = .error e) ↔ n + nu = 1 / 2) ∧
    (n + nu ≠ 1 / 2 → hankelNp gam x fx nu 0 0 pad n = .ok (hankel (gL gam) x fx nu pad n)) := by
  have key : ∀ lo hi pad, ∀ o, o = init x (List.zipWith (fun xv fv => Real.sqrt xv * fv) x fx) nu lo hi pad →
      (n - 0.5 + 0.5 + 1 + (((List.range (o.N / 2 + 1)).map fun m : ℕ => ((o.nu : ℂ) + Complex.I * eta o m) - 1.5).getD 0 0).re = 0
        ↔ n + nu = 1 / 2) := by
    intro lo hi pad o ho
    have hnu : o.nu = nu := by rw [ho, init]; split_ifs <;> rfl
    rw [List.getD_eq_getElem _ _ (by simp)]
    simp only [List.getElem_map, List.getElem_range, eta]
    have : (((o.nu : ℂ) + Complex.I * ((2 * Real.pi / (o.N * o.dlnx) * (0 : ℕ) : ℝ) : ℂ)) - 1.5).re = o.nu - 1.5 := by
      norm_num
    rw [this, hnu]
    norm_num
    constructor <;> intro h <;> linarith
  refine ⟨?_, fun h => ?_⟩
  · have hk := key lo hi pad _ rfl
    constructor
    · rintro ⟨e, he⟩
      by_contra hne
      rw [← hk] at hne
      simp only [hankelNp, gMValsNp, if_neg hne] at he
      cases he
    · intro h
      rw [← hk] at h
      exact ⟨.systemExit, by simp only [hankelNp, gMValsNp, if_pos h]⟩
  · have hk := key 0 0 pad _ rfl
    replace h := mt hk.mp h
    simp only [hankelNp, gMValsNp, if_neg h, hankel]

/-- A transform with an output grid of three distances around 100, a uniform source. -/
example : aLargeNp (fun _ _ _ _ _ => ([1, 50, 200], [3, 2, 1])) ⟨-6, 3, 1024, 1e-4, 10⟩ (fun x _ => x) a0DiskNp 70 (1 / 10)
    = .ok (aLarge (asJax fun _ _ _ _ _ => ([1, 50, 200], [3, 2, 1])) ⟨-6, 3, 1024, 1e-4, 10⟩ (fun x _ => x) a0Disk 70 (1 / 10)) :=
  C104_large _ _ _ _ _ _ _ rfl fun _ _ => ⟨rfl, by norm_num [List.pairwise_cons], by norm_num, ⟨200, by norm_num, by norm_num⟩,
    ⟨1, by norm_num, by norm_num⟩⟩

end Microjax.Props
