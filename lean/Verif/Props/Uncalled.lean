import Verif.Model.Uncalled
import Verif.Lemmas.Jnp
import Verif.Props.RegionCover

/-!
# C105: the uncalled helpers `refine_final` and `distance_from_source_adaptive`
-/

namespace Microjax.Props

open Jnp Uncalled Spec Boundary

variable {K : Type*} [Field K] [LinearOrder K] [IsStrictOrderedRing K]

/-- The samples strictly inside a region, angles not wrapped. -/
def InsidePlain (m : RingSector K) (p : K × K) : Prop :=
  m.1.1 < p.1 ∧ p.1 < m.1.2 ∧ m.2.1 < p.2 ∧ p.2 < m.2.2 ∧ p.2 ≠ 0

omit [IsStrictOrderedRing K] in
/-- Masked minimum and maximum over a list are the extrema over the selected entries. -/
theorem masked_extrema (limb : List (K × K)) (f : K × K → Bool) (g : K × K → K) (D : K) (p : K × K) (hp : p ∈ limb)
    (hf : f p = true) (hD : ∀ q ∈ limb, f q = true → g q < D ∧ -D < g q) :
    (∃ q ∈ limb, f q = true ∧ amin (limb.map fun p => if f p then g p else D) = g q ∧ ∀ q' ∈ limb, f q' = true → g q ≤ g q') ∧
    (∃ q ∈ limb, f q = true ∧ amax (limb.map fun p => if f p then g p else -D) = g q ∧ ∀ q' ∈ limb, f q' = true → g q' ≤ g q) := by
  have mem : ∀ (d : K) (q : K × K), q ∈ limb → f q = true → g q ∈ limb.map fun p => if f p then g p else d :=
    fun d q hq hfq => List.mem_map.mpr ⟨_, hq, by simp [hfq]⟩
  have n0 : limb ≠ [] := List.ne_nil_of_mem hp
  constructor
  · obtain ⟨q, hq, he⟩ := List.mem_map.mp (Jnp.amin_mem (x := limb.map fun p => if f p then g p else D) (by simpa using n0))
    have hfq : f q = true := by
      by_contra hn
      rw [if_neg hn] at he
      have := Jnp.amin_le (mem D p hp hf)
      rw [← he] at this
      exact absurd (hD p hp hf).1 (not_lt.mpr this)
    rw [if_pos hfq] at he
    exact ⟨q, hq, hfq, he.symm, fun q' hq' hf' => by rw [he]; exact Jnp.amin_le (mem D q' hq' hf')⟩
  · obtain ⟨q, hq, he⟩ := List.mem_map.mp (Jnp.amax_mem (x := limb.map fun p => if f p then g p else -D) (by simpa using n0))
    have hfq : f q = true := by
      by_contra hn
      rw [if_neg hn] at he
      have := Jnp.le_amax (mem (-D) p hp hf)
      rw [← he] at this
      exact absurd (hD p hp hf).2 (not_lt.mpr this)
    rw [if_pos hfq] at he
    exact ⟨q, hq, hfq, he.symm, fun q' hq' hf' => by rw [he]; exact Jnp.le_amax (mem (-D) q' hq' hf')⟩

/-- **C105 (partial).**  A region that contains a limb sample (angles not wrapped) is refined by `refine_final` to the hull
of its samples widened by the margins: the radial bounds are those of two samples in it and enclose all of them, and so do the angular bounds if all
angles of the region are positive; otherwise the angular bounds are only widened.  Missing: samples that lie in the region modulo `2π`
(`C105_wrap_violated`). -/
theorem C105_refine_partial (limb : List (K × K)) (scan : List (RingSector K)) (mr mt : K) (k : ℕ) (hk : k < scan.length)
    (p : K × K) (hp : p ∈ limb) (hin : InsidePlain scan[k] p)
    (hb : 0 ≤ scan[k].1.1 ∧ scan[k].1.2 ≤ 10 ^ 10 ∧ -10 ^ 10 ≤ scan[k].2.1 ∧ scan[k].2.2 ≤ 10 ^ 10) :
    ∃ row, (refineFinal limb scan mr mt)[k]? = some row ∧
      (∃ q ∈ limb, InsidePlain scan[k] q ∧ row.1.1 = max 0 (q.1 - mr) ∧ ∀ q' ∈ limb, InsidePlain scan[k] q' → q.1 ≤ q'.1) ∧
      (∃ q ∈ limb, InsidePlain scan[k] q ∧ row.1.2 = q.1 + mr ∧ ∀ q' ∈ limb, InsidePlain scan[k] q' → q'.1 ≤ q.1) ∧
      (0 < scan[k].2.1 →
        (∃ q ∈ limb, InsidePlain scan[k] q ∧ row.2.1 = q.2 - mt ∧ ∀ q' ∈ limb, InsidePlain scan[k] q' → q.2 ≤ q'.2) ∧
        (∃ q ∈ limb, InsidePlain scan[k] q ∧ row.2.2 = q.2 + mt ∧ ∀ q' ∈ limb, InsidePlain scan[k] q' → q'.2 ≤ q.2)) ∧
      (scan[k].2.1 ≤ 0 → row.2 = (scan[k].2.1 - mt, scan[k].2.2 + mt)) := by
  refine ⟨refineRow limb mr mt scan[k], by simp [refineFinal, hk], ?_⟩
  generalize scan[k] = m at *
  obtain ⟨⟨a, b⟩, α, β⟩ := m
  simp only at hb
  obtain ⟨b1, b2, b3, b4⟩ := hb
  set f := fun p : K × K => decide (a < p.1) && decide (p.1 < b)
    && (decide (α < p.2) && decide (p.2 < β) && decide (p.2 ≠ 0)) with hf
  have hfi : ∀ q, f q = true ↔ InsidePlain ((a, b), (α, β)) q := by
    intro q
    simp only [hf, InsidePlain, Bool.and_eq_true, decide_eq_true_eq]
    tauto
  have hpos : (0 : K) < 10 ^ 10 := by positivity
  obtain ⟨⟨q1, m1, f1, e1, l1⟩, ⟨q2, m2, f2, e2, l2⟩⟩ := masked_extrema limb f Prod.fst (10 ^ 10) p hp ((hfi p).mpr hin)
    (fun q _ hq => by
      have := (hfi q).mp hq
      simp only [InsidePlain] at this
      constructor <;> linarith [this.1, this.2.1])
  obtain ⟨⟨q3, m3, f3, e3, l3⟩, ⟨q4, m4, f4, e4, l4⟩⟩ := masked_extrema limb f Prod.snd (10 ^ 10) p hp ((hfi p).mpr hin)
    (fun q _ hq => by
      have := (hfi q).mp hq
      simp only [InsidePlain] at this
      constructor <;> linarith [this.2.2.1, this.2.2.2.1])
  simp only [hf] at e1 e2 e3 e4
  refine ⟨⟨q1, m1, (hfi _).mp f1, ?_, fun q' h h' => l1 q' h ((hfi _).mpr h')⟩,
    ⟨q2, m2, (hfi _).mp f2, ?_, fun q' h h' => l2 q' h ((hfi _).mpr h')⟩, fun hα => ⟨
    ⟨q3, m3, (hfi _).mp f3, ?_, fun q' h h' => l3 q' h ((hfi _).mpr h')⟩,
    ⟨q4, m4, (hfi _).mp f4, ?_, fun q' h h' => l4 q' h ((hfi _).mpr h')⟩⟩, fun hα => ?_⟩
  · simp only [refineRow, e1]
  · simp only [refineRow, e2]
  · simp only [refineRow, gt_iff_lt, hα, decide_true, if_true, e3]
  · simp only [refineRow, gt_iff_lt, hα, decide_true, if_true, e4]
  · simp only [refineRow, gt_iff_lt, not_lt.mpr hα, decide_false, Bool.false_eq_true, if_false]

/-- **C105 (violated).**  A region crossing angle 0 whose limb samples all lie on the side of negative angles, stored between `π` and
`2π`, is refined to an empty radial range, although the samples lie in the interior of the region modulo `2π`: the successor
`_refine_final` unwraps the angles first. -/
theorem C105_wrap_violated (twoPi : K) (limb : List (K × K)) (m : RingSector K) (mr mt : K) (hmr : mr < 10 ^ 9)
    (hm : m.2.1 < 0 ∧ 0 < m.2.2 ∧ m.2.2 ≤ twoPi / 2) (hne : limb ≠ [])
    (hl : ∀ p ∈ limb, m.1.1 < p.1 ∧ p.1 < m.1.2 ∧ twoPi / 2 < p.2 ∧ m.2.1 < p.2 - twoPi ∧ p.2 < twoPi) :
    (∀ p ∈ limb, SectorContainsStrict twoPi m p.1 p.2) ∧
    (refineRow limb mr mt m).1.2 < (refineRow limb mr mt m).1.1 ∧
    ∀ r th, ¬ SectorContains twoPi (refineRow limb mr mt m) r th := by
  obtain ⟨h1, h2, h3⟩ := hm
  have hmask : ∀ p ∈ limb, ¬ (decide (m.1.1 < p.1) && decide (p.1 < m.1.2)
      && (decide (m.2.1 < p.2) && decide (p.2 < m.2.2) && decide (p.2 ≠ 0))) = true := by
    intro p hp hc
    simp only [Bool.and_eq_true, decide_eq_true_eq] at hc
    have := (hl p hp).2.2.1
    linarith [hc.2.1.2]
  have key : ∀ (D : K) (g : K × K → K), (limb.map fun p => if (decide (m.1.1 < p.1) && decide (p.1 < m.1.2)
      && (decide (m.2.1 < p.2) && decide (p.2 < m.2.2) && decide (p.2 ≠ 0))) then g p else D) = limb.map fun _ => D :=
    fun D g => List.map_congr_left fun p hp => by rw [if_neg (hmask p hp)]
  have kmin : ∀ D : K, amin (limb.map fun _ => D) = D := fun D => by
    obtain ⟨q, _, he⟩ := List.mem_map.mp (Jnp.amin_mem (x := limb.map fun _ => D) (by simpa using hne))
    exact he.symm
  have kmax : ∀ D : K, amax (limb.map fun _ => D) = D := fun D => by
    obtain ⟨q, _, he⟩ := List.mem_map.mp (Jnp.amax_mem (x := limb.map fun _ => D) (by simpa using hne))
    exact he.symm
  have hlt : (refineRow limb mr mt m).1.2 < (refineRow limb mr mt m).1.1 := by
    obtain ⟨⟨a, b⟩, α, β⟩ := m
    simp only [refineRow]
    have k1 := key (10 ^ 10) Prod.fst
    have k2 := key (-10 ^ 10) Prod.fst
    simp only at k1 k2
    rw [k1, k2, kmin, kmax]
    refine lt_of_lt_of_le ?_ (le_max_left _ _)
    have : (10 : K) ^ 9 < 10 ^ 10 := by norm_num
    linarith
  refine ⟨fun p hp => ?_, hlt, fun r th hc => absurd (hc.1.trans hc.2.1) (not_le.mpr hlt)⟩
  obtain ⟨g1, g2, g3, g4, g5⟩ := hl p hp
  exact ⟨g1, g2, Or.inr ⟨g4, by linarith⟩⟩

/-- **C105, adaptive angles**: `distance_from_source_adaptive` is `distance_from_source` at the angle the fraction `th_unit` of the
way from `th_min` to `th_max`; `0` and `1` are the two ends and fractions in between stay in the interval. -/
theorem C105_adaptive (leq : ℂ → ℂ) (r0 t lo hi : ℝ) (w : ℂ) (s : ℝ) (h : lo ≤ hi) (h0 : 0 ≤ t) (h1 : t ≤ 1) :
    (∃ th, lo ≤ th ∧ th ≤ hi ∧ (th - lo) = t * (hi - lo) ∧
      distanceFromSourceAdaptive leq r0 t lo hi w s = distanceFromSource leq r0 th w s) ∧
    distanceFromSourceAdaptive leq r0 0 lo hi w s = distanceFromSource leq r0 lo w s ∧
    distanceFromSourceAdaptive leq r0 1 lo hi w s = distanceFromSource leq r0 hi w s := by
  refine ⟨⟨lo + (hi - lo) * t, ?_, ?_, by ring, rfl⟩, ?_, ?_⟩
  · nlinarith [mul_nonneg (sub_nonneg.mpr h) h0]
  · nlinarith [mul_nonneg (sub_nonneg.mpr h) (sub_nonneg.mpr h1)]
  · simp only [distanceFromSourceAdaptive, distanceFromSource]
    rw [mul_zero, add_zero]
  · simp only [distanceFromSourceAdaptive, distanceFromSource]
    rw [show lo + (hi - lo) * 1 = hi by ring]

/-- Two samples in a region at positive angles; and one sample just below `2π = 6` in a region around angle 0. -/
example : refineFinal (K := ℚ) [(5, 1), (4, 2), (0, 0)] [((3, 6), (1 / 2, 3))] (1 / 2) (1 / 4) = [((7 / 2, 11 / 2), (3 / 4, 9 / 4))] ∧
    SectorContainsStrict (K := ℚ) 6 ((4, 7), (-1, 1)) 5 (11 / 2) ∧
    (refineRow (K := ℚ) [(5, 11 / 2)] (1 / 2) (1 / 4) ((4, 7), (-1, 1))).1.2
      < (refineRow (K := ℚ) [(5, 11 / 2)] (1 / 2) (1 / 4) ((4, 7), (-1, 1))).1.1 := by
  have h := C105_wrap_violated (K := ℚ) 6 [(5, 11 / 2)] ((4, 7), (-1, 1)) (1 / 2) (1 / 4) (by norm_num) (by norm_num) (by simp)
    (by intro p hp; rw [List.mem_singleton.mp hp]; norm_num)
  refine ⟨by decide +kernel, h.1 (5, 11 / 2) (by simp), h.2.1⟩

end Microjax.Props
