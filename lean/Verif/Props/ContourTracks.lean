import Verif.Props.ContourArea
import Verif.Props.Critical
import Verif.Props.Limb
import Verif.Props.PointSource
import Verif.Lemmas.DualSolutions

/-! # Property C100: every valid image of every limb sample is on exactly one track, invalid ones on none -/

namespace Microjax.Props

open Microjax.Spec Segments Jnp Utils Contour PointSource Limb

/-- a solver output as the contour code should see it: an image that fails the lens-equation test is absent (the zero
column), a real one is there with its parity and mask one -/
noncomputable def visible (q : ℂ × Bool × ℝ) : Pt3 ℝ :=
  if q.2.1 = true then ⟨q.1.re, q.1.im, q.2.2, 1⟩ else ⟨0, 0, 0, 0⟩

/-- number of images tracked: the degree of the lens polynomial -/
def trackCount (nlenses : ℕ) : ℕ := if nlenses = 2 then 5 else 10

theorem finder_length (lib : Lib) (nlenses : ℕ) (h : nlenses = 2 ∨ nlenses = 3) (p : MidParams)
    (hroots : ∀ init cs, (lib.roots init cs).length = cs.length - 1) (w : ℂ) (init : Option (List ℂ)) :
    (finder lib nlenses p w init).length = trackCount nlenses := by
  rcases h with rfl | rfl
  · simp [finder, images2, withMask, trackCount, hroots, (C04_binary_leading w p.a p.e1).1]
  · simp [finder, images3, withMask, trackCount, hroots, (triple_head w p.a (r3Complex p) p.e1 p.e2).1]

theorem sequential_length (fn : ℂ → Option (List ℂ) → List (ℂ × Bool)) (d : ℕ)
    (h : ∀ w i, (fn w i).length = d) (ws : List ℂ) :
    (imagesSequential fn ws).length = ws.length ∧ ∀ c ∈ imagesSequential fn ws, c.length = d := by
  have hgo : ∀ (ws : List ℂ) zp, (imagesSequential.go fn zp ws).length = ws.length ∧
      ∀ c ∈ imagesSequential.go fn zp ws, c.length = d := by
    intro ws
    induction ws with
    | nil => intro zp; simp [imagesSequential.go]
    | cons w ws ih =>
      intro zp
      simp only [imagesSequential.go, List.length_cons, List.mem_cons, forall_eq_or_imp]
      exact ⟨by rw [(ih _).1], h _ _, (ih _).2⟩
  cases ws with
  | nil => simp [imagesSequential]
  | cons w ws =>
    simp only [imagesSequential, List.length_cons, List.mem_cons, forall_eq_or_imp]
    exact ⟨by rw [(hgo _ _).1], h _ _, (hgo _ _).2⟩

/-- C100: for two and three lenses, every root finder that returns as many roots as the degree, every source, and any
number of limb samples: `mag_extended_source` is the contour sum, divided by the area of the source, of as many tracks as the
lens polynomial has roots.  Sample `k` of the tracks holds, in some order, exactly the images found at the `k`-th limb
angle that satisfy the lens equation, with the sign of their Jacobian (each moved at most by the random number that separates
duplicates); the others are nulled and cannot contribute. -/
theorem C100_tracks (lib : Lib) (nlenses npts_limb npts_ld : ℕ) (limb_darkening : Bool) (u : UserParams)
    (u1 rho : ℝ) (w0 : ℂ) (hn : nlenses = 2 ∨ nlenses = 3) (hmin : 4 ≤ npts_limb) (hmax : npts_limb ≤ 2 * 10 ^ 8)
    (hroots : ∀ init cs, (lib.roots init cs).length = cs.length - 1)
    (p : MidParams) (hp : p = extParams nlenses u) (src : ℝ → ℂ)
    (hsrc : src = fun t : ℝ => (rho : ℂ) * Complex.exp (Complex.I * t) + extSource nlenses u w0) :
    ∃ (Q : List Sample) (rows : List (List (Pt3 ℝ))),
      LimbSampling (fun th => imagesSequential (finder lib nlenses p) (th.map src))
        (fun t zi => finder lib nlenses p (src t) (some (lib.perturb t zi))) (npts_limb / 2) Q ∧
      magExtendedSource lib nlenses npts_limb npts_ld limb_darkening u u1 rho w0
        = .ok (|contourSum geometry (if limb_darkening
            then integrateLd lib.leggauss (leqOf nlenses p) (extSource nlenses u w0) rho u1 npts_ld
            else integrateUnif) (trackCount nlenses) rows| / (Real.pi * rho ^ 2)) ∧
      rows.length = trackCount nlenses ∧ (∀ r ∈ rows, r.length = Q.length ∧ Masked r) ∧
      ∀ (k : ℕ) q, Q[k]? = some q → ∃ shifted : List (ℂ × Bool × ℝ),
        (rows.map fun r => r.getD k 0).Perm (shifted.map visible) ∧ shifted.length = q.2.length ∧
        ∀ (i : ℕ) z m par, shifted[i]? = some (z, m, par) → ∃ z0, q.2[i]? = some (z0, m) ∧
          par = ((SignType.sign (detOf nlenses p z0) : SignType) : ℝ) ∧
          (z = z0 ∨ z = z0 + (lib.noise i k : ℂ)) := by
  set d := trackCount nlenses with hd
  have hfl := finder_length lib nlenses hn p hroots
  set seq : List ℝ → List (List (ℂ × Bool)) := fun th => imagesSequential (finder lib nlenses p) (th.map src)
    with hseqdef
  set fn : ℝ → List ℂ → List (ℂ × Bool) := fun t zi => finder lib nlenses p (src t) (some (lib.perturb t zi))
    with hfndef
  obtain ⟨Q, hQ, hlen, hcol⟩ := C46_limb d seq fn (detOf nlenses p) lib.noise npts_limb 10 hmin hmax (by norm_num)
    (fun th => by rw [hseqdef]; simp only; rw [(sequential_length _ d hfl _).1, List.length_map])
    (fun th => (sequential_length _ d hfl _).2) (fun t zi => hfl _ _)
  set cols := imagesOfSourceLimb seq fn (detOf nlenses p) lib.noise npts_limb 10 with hcols
  set rows := (List.range d).map fun i => (row cols i).map fun q => maskedPt q.1.re q.1.im q.2.2 q.2.1 with hrows
  have hvis : ∀ q : ℂ × Bool × ℝ, maskedPt q.1.re q.1.im q.2.2 q.2.1 = visible q := fun q => rfl
  refine ⟨Q, rows, hQ, ?_, by simp [hrows], ?_, ?_⟩
  · unfold magExtendedSource
    have h1 : nlenses ≠ 1 := by rcases hn with rfl | rfl <;> norm_num
    have hsq : nlenses ^ 2 + 1 = d := by rcases hn with rfl | rfl <;> rfl
    have hc : limbColumns lib nlenses p (extSource nlenses u w0) rho npts_limb = cols := by
      unfold limbColumns
      simp only
      rw [hcols, hseqdef, hfndef, hsrc]
    rw [if_pos (Or.inr hn)]
    simp only
    rw [if_neg h1, ← hp, hc, hsq]
    rfl
  · intro r hr
    rw [hrows, List.mem_map] at hr
    obtain ⟨i, _, rfl⟩ := hr
    refine ⟨by rw [List.length_map, row, List.length_map, hlen], ?_⟩
    intro s hs
    rw [List.mem_map] at hs
    obtain ⟨q, _, rfl⟩ := hs
    rw [hvis]
    unfold visible
    split_ifs
    · exact Or.inr rfl
    · exact Or.inl rfl
  · intro k q hq
    obtain ⟨hk, _⟩ := List.getElem?_eq_some_iff.1 hq
    have hkc : k < cols.length := by rw [hlen]; exact hk
    obtain ⟨shifted, hperm, hsl, hql, hsh⟩ := hcol k _ q (List.getElem?_eq_getElem hkc) hq
    refine ⟨shifted, ?_, by rw [hsl, hql], ?_⟩
    · have hcd : (cols[k]).length = d := by rw [hperm.length_eq, hsl]
      have e : (rows.map fun r => r.getD k 0) = (cols[k]).map visible := by
        apply List.ext_getElem
        · simp [hrows, hcd]
        · intro i h1 h2
          have hi : i < (cols[k]).length := by simpa using h2
          simp only [hrows, List.getElem_map, List.getElem_range, row, List.map_map, Function.comp_def, hvis]
          rw [List.getD_eq_getElem _ _ (by simpa using hkc), List.getElem_map, Jnp.get_of_lt _ _ hi]
      rw [e]
      exact hperm.map visible
    · intro i z m par h
      obtain ⟨z0, hz0, hz⟩ := hsh i z m par h
      unfold triples at hz0
      rw [List.getElem?_map] at hz0
      cases hqi : q.2[i]? with
      | none => rw [hqi] at hz0; simp at hz0
      | some v =>
        rw [hqi] at hz0
        simp only [Option.map_some, Option.some.injEq, Prod.mk.injEq] at hz0
        obtain ⟨h1, h2, h3⟩ := hz0
        refine ⟨v.1, by rw [← h2], by rw [← h3], by rw [h1]; exact hz⟩

/-- a root finder that meets the hypothesis, with a binary lens -/
example := C100_tracks ⟨fun _ cs => List.replicate (cs.length - 1) 0, fun _ z => z, fun _ _ => 0, fun _ => []⟩ 2 200 100
  false { s := 1, q := 1 / 2 } 0 (1 / 10) 0 (Or.inl rfl) (by norm_num) (by norm_num) (fun _ cs => by simp) _ rfl _ rfl

/-- a track is closed: all its samples are real images and it ends within `1e-5` of where it began -/
def ClosedTrack (t : List (Pt3 ℝ)) : Prop :=
  (∀ s ∈ t, s.m ≠ 0) ∧ ∀ a b, t.head? = some a → t.getLast? = some b →
    ‖(⟨a.x, a.y⟩ : ℂ) - ⟨b.x, b.y⟩‖ < 1 / 10 ^ 5

/-- C100, which tracks are integrated as closed contours: exactly the closed ones; a track with an invalid sample never
is. -/
theorem C100_closed (t : List (Pt3 ℝ)) (hne : t ≠ []) : isClosed t = true ↔ ClosedTrack t := by
  obtain ⟨a, ha⟩ : ∃ a, t.head? = some a := by
    cases t with
    | nil => exact absurd rfl hne
    | cons a l => exact ⟨a, rfl⟩
  obtain ⟨b, hb⟩ : ∃ b, t.getLast? = some b := ⟨t.getLast hne, List.getLast?_eq_some_getLast hne⟩
  have hn : (‖(⟨a.x, a.y⟩ : ℂ) - ⟨b.x, b.y⟩‖ < 1 / 10 ^ 5) ↔
      (a.x - b.x) ^ 2 + (a.y - b.y) ^ 2 < (1 / 10 ^ 5 : ℝ) ^ 2 := by
    have e : ‖(⟨a.x, a.y⟩ : ℂ) - ⟨b.x, b.y⟩‖ ^ 2 = (a.x - b.x) ^ 2 + (a.y - b.y) ^ 2 := by
      rw [← Complex.normSq_eq_norm_sq, Complex.normSq_apply]
      simp; ring
    rw [← e]
    exact (pow_lt_pow_iff_left₀ (norm_nonneg _) (by norm_num) two_ne_zero).symm
  unfold isClosed ClosedTrack
  rw [List.headD_eq_head?_getD, List.getLastD_eq_getLast?, ha, hb]
  simp only [Option.getD_some, Bool.and_eq_true, decide_eq_true_eq, List.all_eq_true]
  constructor
  · rintro ⟨h1, h2⟩
    refine ⟨h2, fun a' b' ha' hb' => ?_⟩
    rw [Option.some.injEq] at ha' hb'
    subst ha' hb'
    exact hn.2 h1
  · rintro ⟨h1, h2⟩
    exact ⟨hn.1 (h2 a b rfl rfl), h1⟩

/-- a closed track of three samples, and the same with one sample missing -/
example : isClosed ([⟨2, 0, 1, 1⟩, ⟨2, 1/20, 1, 1⟩, ⟨2, 0, 1, 1⟩] : List (Pt3 ℝ)) = true ∧
    isClosed ([⟨2, 0, 1, 1⟩, ⟨0, 0, 0, 0⟩, ⟨2, 0, 1, 1⟩] : List (Pt3 ℝ)) = false := by
  constructor <;> simp [isClosed]

end Microjax.Props
