import Verif.Model.Multipole
import Mathlib.RingTheory.Derivation.Basic
import Mathlib.Tactic.LinearCombination

/-!
# Differential algebra behind the multipole expansion

`A` is a commutative ring of functions of the source position with two commuting derivations `X`, `Y`, a
conjugation `c` and an evaluation `ev` at one point.
-/

set_option linter.unusedSimpArgs false

noncomputable section

namespace Microjax.Props

open Complex ComplexConjugate Multipole

theorem akl_solve (W2 Q x : ℂ) (h : 1 - ‖W2‖ ^ 2 ≠ 0) (hx : x = conj (Q + W2 * x)) : x = akl W2 Q := by
  have h2 : (1 - (‖W2‖ : ℂ) ^ 2) ≠ 0 := by exact_mod_cast h
  have h3 : (‖W2‖ : ℂ) ^ 2 = conj W2 * W2 := by rw [Complex.conj_mul']
  have hx' : conj x = Q + W2 * x := by conv_lhs => rw [hx, Complex.conj_conj]
  rw [map_add, map_mul, hx'] at hx
  unfold akl mu0
  push_cast
  rw [h3] at h2 ⊢
  field_simp
  linear_combination hx

theorem der_ofNat {A : Type*} [CommRing A] (D : Derivation ℤ A A) (n : ℕ) [n.AtLeastTwo] :
    D (ofNat(n) : A) = 0 := by
  have := D.map_natCast n
  rwa [← Nat.cast_ofNat (n := n)]

section

variable {A : Type*} [CommRing A] (X Y : Derivation ℤ A A) (c : A →+* A) (ev : A →+* ℂ)
  (a : ℕ → ℕ → A) (V : ℕ → A)

/-- The hypotheses: `a k l` are the iterated derivatives of the image position, `V k` the iterated derivatives of
the deflection, and the conjugated lens equation `a 0 0 = w + c (V 1)` has been differentiated once. -/
structure LensJet : Prop where
  hcX : ∀ g, X (c g) = c (X g)
  hcY : ∀ g, Y (c g) = c (Y g)
  hX : ∀ k l, X (a k l) = a (k + 1) l
  hY : ∀ k l, Y (a k l) = a k (l + 1)
  hVX : ∀ k, X (V (k + 1)) = V (k + 2) * a 1 0
  hVY : ∀ k, Y (V (k + 1)) = V (k + 2) * a 0 1
  hev : ∀ g, ev (c g) = conj (ev g)
  hreg : 1 - ‖ev (V 2)‖ ^ 2 ≠ 0

variable {X Y c ev a V}

/-- The stack of `W` values at the point. -/
def evStack (ev : A →+* ℂ) (V : ℕ → A) : WStack :=
  { W2 := ev (V 2), W3 := ev (V 3), W4 := ev (V 4), W5 := ev (V 5), W6 := ev (V 6) }

theorem LensJet.stepX (J : LensJet X Y c ev a V) {k l : ℕ} {Q : A} (h : a k l = c (Q + V 2 * a k l)) :
    a (k + 1) l = c ((X Q + V 3 * a 1 0 * a k l) + V 2 * a (k + 1) l) := by
  have := congrArg X h
  rw [J.hX, J.hcX] at this
  refine this.trans (congrArg c ?_)
  simp only [map_add, Derivation.leibniz, smul_eq_mul, J.hX, J.hVX, Nat.reduceAdd]
  ring

theorem LensJet.stepY (J : LensJet X Y c ev a V) {k l : ℕ} {Q : A} (h : a k l = c (Q + V 2 * a k l)) :
    a k (l + 1) = c ((Y Q + V 3 * a 0 1 * a k l) + V 2 * a k (l + 1)) := by
  have := congrArg Y h
  rw [J.hY, J.hcY] at this
  refine this.trans (congrArg c ?_)
  simp only [map_add, Derivation.leibniz, smul_eq_mul, J.hY, J.hVY, Nat.reduceAdd]
  ring

/-- All derivatives of the image position up to fifth order satisfy the recurrences of the code. -/
theorem LensJet.eqs (J : LensJet X Y c ev a V) {i : A} (hiY : Y i = 0)
    (h10 : a 1 0 = 1 + c (V 2 * a 1 0)) (h01 : a 0 1 = i + c (V 2 * a 0 1)) :
    a 2 0 = c ((V 3 * a 1 0 * a 1 0) + V 2 * a 2 0) ∧
    a 1 1 = c ((V 3 * a 1 0 * a 0 1) + V 2 * a 1 1) ∧
    a 0 2 = c ((V 3 * a 0 1 * a 0 1) + V 2 * a 0 2) ∧
    a 3 0 = c ((V 3 * 3 * a 2 0 * a 1 0 + V 4 * a 1 0 * a 1 0 * a 1 0) + V 2 * a 3 0) ∧
    a 2 1 = c ((V 3 * (2 * a 1 1 * a 1 0 + a 0 1 * a 2 0) + V 4 * a 0 1 * a 1 0 * a 1 0) + V 2 * a 2 1) ∧
    a 1 2 = c ((V 3 * (2 * a 1 1 * a 0 1 + a 1 0 * a 0 2) + V 4 * a 1 0 * a 0 1 * a 0 1) + V 2 * a 1 2) ∧
    a 0 3 = c ((V 3 * 3 * a 0 2 * a 0 1 + V 4 * a 0 1 * a 0 1 * a 0 1) + V 2 * a 0 3) ∧
    a 4 0 = c ((V 3 * (4 * a 3 0 * a 1 0 + 3 * a 2 0 * a 2 0) + V 4 * 6 * a 2 0 * a 1 0 * a 1 0 + V 5 * a 1 0 * a 1 0 * a 1 0 * a 1 0) + V 2 * a 4 0) ∧
    a 3 1 = c ((V 3 * (3 * a 2 1 * a 1 0 + 3 * a 1 1 * a 2 0 + a 0 1 * a 3 0) + V 4 * 3 * (a 1 1 * a 1 0 * a 1 0 + a 0 1 * a 2 0 * a 1 0) + V 5 * a 0 1 * a 1 0 * a 1 0 * a 1 0) + V 2 * a 3 1) ∧
    a 2 2 = c ((V 3 * (2 * a 1 2 * a 1 0 + 2 * a 1 1 * a 1 1 + a 0 2 * a 2 0 + 2 * a 2 1 * a 0 1) + V 4 * (a 0 2 * a 1 0 * a 1 0 + 4 * a 1 1 * a 0 1 * a 1 0 + a 0 1 * a 0 1 * a 2 0) + V 5 * a 0 1 * a 0 1 * a 1 0 * a 1 0) + V 2 * a 2 2) ∧
    a 1 3 = c ((V 3 * (3 * a 1 2 * a 0 1 + 3 * a 1 1 * a 0 2 + a 1 0 * a 0 3) + V 4 * 3 * (a 1 1 * a 0 1 * a 0 1 + a 1 0 * a 0 2 * a 0 1) + V 5 * a 1 0 * a 0 1 * a 0 1 * a 0 1) + V 2 * a 1 3) ∧
    a 0 4 = c ((V 3 * (4 * a 0 3 * a 0 1 + 3 * a 0 2 * a 0 2) + V 4 * 6 * a 0 2 * a 0 1 * a 0 1 + V 5 * a 0 1 * a 0 1 * a 0 1 * a 0 1) + V 2 * a 0 4) ∧
    a 5 0 = c ((V 3 * (5 * a 4 0 * a 1 0 + 10 * a 2 0 * a 3 0) + V 4 * (10 * a 3 0 * a 1 0 * a 1 0 + 15 * a 2 0 * a 2 0 * a 1 0) + V 5 * 10 * a 2 0 * a 1 0 * a 1 0 * a 1 0 + V 6 * a 1 0 * a 1 0 * a 1 0 * a 1 0 * a 1 0) + V 2 * a 5 0) ∧
    a 4 1 = c ((V 3 * (4 * a 3 1 * a 1 0 + 4 * a 1 1 * a 3 0 + 6 * a 2 1 * a 2 0 + a 0 1 * a 4 0) + V 4 * (6 * a 2 1 * a 1 0 * a 1 0 + 12 * a 1 1 * a 2 0 * a 1 0 + 3 * a 0 1 * a 2 0 * a 2 0 + 4 * a 0 1 * a 1 0 * a 3 0) + V 5 * (4 * a 1 1 * a 1 0 * a 1 0 * a 1 0 + 6 * a 0 1 * a 1 0 * a 1 0 * a 2 0) + V 6 * a 0 1 * a 1 0 * a 1 0 * a 1 0 * a 1 0) + V 2 * a 4 1) ∧
    a 3 2 = c ((V 3 * (3 * a 2 2 * a 1 0 + 6 * a 1 1 * a 2 1 + 3 * a 1 2 * a 2 0 + a 0 2 * a 3 0 + 2 * a 3 1 * a 0 1) + V 4 * (3 * a 1 2 * a 1 0 * a 1 0 + 6 * a 1 1 * a 1 1 * a 1 0 + 3 * a 0 2 * a 2 0 * a 1 0 + 6 * a 0 1 * a 1 1 * a 2 0 + 6 * a 0 1 * a 2 1 * a 1 0 + a 0 1 * a 0 1 * a 3 0) + V 5 * (a 0 2 * a 1 0 * a 1 0 * a 1 0 + 6 * a 1 1 * a 0 1 * a 1 0 * a 1 0 + 3 * a 0 1 * a 0 1 * a 1 0 * a 2 0) + V 6 * a 0 1 * a 0 1 * a 1 0 * a 1 0 * a 1 0) + V 2 * a 3 2) ∧
    a 2 3 = c ((V 3 * (3 * a 2 2 * a 0 1 + 6 * a 1 1 * a 1 2 + 3 * a 2 1 * a 0 2 + a 2 0 * a 0 3 + 2 * a 1 3 * a 1 0) + V 4 * (3 * a 2 1 * a 0 1 * a 0 1 + 6 * a 1 1 * a 1 1 * a 0 1 + 3 * a 2 0 * a 0 2 * a 0 1 + 6 * a 1 0 * a 1 1 * a 0 2 + 6 * a 1 0 * a 1 2 * a 0 1 + a 1 0 * a 1 0 * a 0 3) + V 5 * (a 2 0 * a 0 1 * a 0 1 * a 0 1 + 6 * a 1 1 * a 1 0 * a 0 1 * a 0 1 + 3 * a 1 0 * a 1 0 * a 0 1 * a 0 2) + V 6 * a 1 0 * a 1 0 * a 0 1 * a 0 1 * a 0 1) + V 2 * a 2 3) ∧
    a 1 4 = c ((V 3 * (4 * a 1 3 * a 0 1 + 4 * a 1 1 * a 0 3 + 6 * a 1 2 * a 0 2 + a 1 0 * a 0 4) + V 4 * (6 * a 1 2 * a 0 1 * a 0 1 + 12 * a 1 1 * a 0 2 * a 0 1 + 3 * a 1 0 * a 0 2 * a 0 2 + 4 * a 1 0 * a 0 1 * a 0 3) + V 5 * (4 * a 1 1 * a 0 1 * a 0 1 * a 0 1 + 6 * a 1 0 * a 0 1 * a 0 1 * a 0 2) + V 6 * a 1 0 * a 0 1 * a 0 1 * a 0 1 * a 0 1) + V 2 * a 1 4) ∧
    a 0 5 = c ((V 3 * (5 * a 0 4 * a 0 1 + 10 * a 0 2 * a 0 3) + V 4 * (10 * a 0 3 * a 0 1 * a 0 1 + 15 * a 0 2 * a 0 2 * a 0 1) + V 5 * 10 * a 0 2 * a 0 1 * a 0 1 * a 0 1 + V 6 * a 0 1 * a 0 1 * a 0 1 * a 0 1 * a 0 1) + V 2 * a 0 5) := by
  have e20 : a 2 0 = c ((V 3 * a 1 0 * a 1 0) + V 2 * a 2 0) := by
    have := congrArg X h10
    rw [J.hX, map_add, J.hcX, Derivation.map_one_eq_zero] at this
    simp only [zero_add] at this
    refine this.trans (congrArg c ?_)
    simp only [Derivation.leibniz, smul_eq_mul, J.hX, J.hVX, Nat.reduceAdd]
    ring
  have e11 : a 1 1 = c ((V 3 * a 1 0 * a 0 1) + V 2 * a 1 1) := by
    have := congrArg Y h10
    rw [J.hY, map_add, J.hcY, Derivation.map_one_eq_zero] at this
    simp only [zero_add] at this
    refine this.trans (congrArg c ?_)
    simp only [Derivation.leibniz, smul_eq_mul, J.hY, J.hVY, Nat.reduceAdd]
    ring
  have e02 : a 0 2 = c ((V 3 * a 0 1 * a 0 1) + V 2 * a 0 2) := by
    have := congrArg Y h01
    rw [J.hY, map_add, J.hcY, hiY] at this
    simp only [zero_add] at this
    refine this.trans (congrArg c ?_)
    simp only [Derivation.leibniz, smul_eq_mul, J.hY, J.hVY, Nat.reduceAdd]
    ring
  have e30 : a 3 0 = c ((V 3 * 3 * a 2 0 * a 1 0 + V 4 * a 1 0 * a 1 0 * a 1 0) + V 2 * a 3 0) := by
    refine (J.stepX e20).trans (congrArg c ?_)
    simp only [map_add, Derivation.leibniz, der_ofNat, smul_eq_mul, J.hX, J.hVX, Nat.reduceAdd]
    ring
  have e21 : a 2 1 = c ((V 3 * (2 * a 1 1 * a 1 0 + a 0 1 * a 2 0) + V 4 * a 0 1 * a 1 0 * a 1 0) + V 2 * a 2 1) := by
    refine (J.stepX e11).trans (congrArg c ?_)
    simp only [map_add, Derivation.leibniz, der_ofNat, smul_eq_mul, J.hX, J.hVX, Nat.reduceAdd]
    ring
  have e12 : a 1 2 = c ((V 3 * (2 * a 1 1 * a 0 1 + a 1 0 * a 0 2) + V 4 * a 1 0 * a 0 1 * a 0 1) + V 2 * a 1 2) := by
    refine (J.stepX e02).trans (congrArg c ?_)
    simp only [map_add, Derivation.leibniz, der_ofNat, smul_eq_mul, J.hX, J.hVX, Nat.reduceAdd]
    ring
  have e03 : a 0 3 = c ((V 3 * 3 * a 0 2 * a 0 1 + V 4 * a 0 1 * a 0 1 * a 0 1) + V 2 * a 0 3) := by
    refine (J.stepY e02).trans (congrArg c ?_)
    simp only [map_add, Derivation.leibniz, der_ofNat, smul_eq_mul, J.hY, J.hVY, Nat.reduceAdd]
    ring
  have e40 : a 4 0 = c ((V 3 * (4 * a 3 0 * a 1 0 + 3 * a 2 0 * a 2 0) + V 4 * 6 * a 2 0 * a 1 0 * a 1 0 + V 5 * a 1 0 * a 1 0 * a 1 0 * a 1 0) + V 2 * a 4 0) := by
    refine (J.stepX e30).trans (congrArg c ?_)
    simp only [map_add, Derivation.leibniz, der_ofNat, smul_eq_mul, J.hX, J.hVX, Nat.reduceAdd]
    ring
  have e31 : a 3 1 = c ((V 3 * (3 * a 2 1 * a 1 0 + 3 * a 1 1 * a 2 0 + a 0 1 * a 3 0) + V 4 * 3 * (a 1 1 * a 1 0 * a 1 0 + a 0 1 * a 2 0 * a 1 0) + V 5 * a 0 1 * a 1 0 * a 1 0 * a 1 0) + V 2 * a 3 1) := by
    refine (J.stepX e21).trans (congrArg c ?_)
    simp only [map_add, Derivation.leibniz, der_ofNat, smul_eq_mul, J.hX, J.hVX, Nat.reduceAdd]
    ring
  have e22 : a 2 2 = c ((V 3 * (2 * a 1 2 * a 1 0 + 2 * a 1 1 * a 1 1 + a 0 2 * a 2 0 + 2 * a 2 1 * a 0 1) + V 4 * (a 0 2 * a 1 0 * a 1 0 + 4 * a 1 1 * a 0 1 * a 1 0 + a 0 1 * a 0 1 * a 2 0) + V 5 * a 0 1 * a 0 1 * a 1 0 * a 1 0) + V 2 * a 2 2) := by
    refine (J.stepX e12).trans (congrArg c ?_)
    simp only [map_add, Derivation.leibniz, der_ofNat, smul_eq_mul, J.hX, J.hVX, Nat.reduceAdd]
    ring
  have e13 : a 1 3 = c ((V 3 * (3 * a 1 2 * a 0 1 + 3 * a 1 1 * a 0 2 + a 1 0 * a 0 3) + V 4 * 3 * (a 1 1 * a 0 1 * a 0 1 + a 1 0 * a 0 2 * a 0 1) + V 5 * a 1 0 * a 0 1 * a 0 1 * a 0 1) + V 2 * a 1 3) := by
    refine (J.stepX e03).trans (congrArg c ?_)
    simp only [map_add, Derivation.leibniz, der_ofNat, smul_eq_mul, J.hX, J.hVX, Nat.reduceAdd]
    ring
  have e04 : a 0 4 = c ((V 3 * (4 * a 0 3 * a 0 1 + 3 * a 0 2 * a 0 2) + V 4 * 6 * a 0 2 * a 0 1 * a 0 1 + V 5 * a 0 1 * a 0 1 * a 0 1 * a 0 1) + V 2 * a 0 4) := by
    refine (J.stepY e03).trans (congrArg c ?_)
    simp only [map_add, Derivation.leibniz, der_ofNat, smul_eq_mul, J.hY, J.hVY, Nat.reduceAdd]
    ring
  have e50 : a 5 0 = c ((V 3 * (5 * a 4 0 * a 1 0 + 10 * a 2 0 * a 3 0) + V 4 * (10 * a 3 0 * a 1 0 * a 1 0 + 15 * a 2 0 * a 2 0 * a 1 0) + V 5 * 10 * a 2 0 * a 1 0 * a 1 0 * a 1 0 + V 6 * a 1 0 * a 1 0 * a 1 0 * a 1 0 * a 1 0) + V 2 * a 5 0) := by
    refine (J.stepX e40).trans (congrArg c ?_)
    simp only [map_add, Derivation.leibniz, der_ofNat, smul_eq_mul, J.hX, J.hVX, Nat.reduceAdd]
    ring
  have e41 : a 4 1 = c ((V 3 * (4 * a 3 1 * a 1 0 + 4 * a 1 1 * a 3 0 + 6 * a 2 1 * a 2 0 + a 0 1 * a 4 0) + V 4 * (6 * a 2 1 * a 1 0 * a 1 0 + 12 * a 1 1 * a 2 0 * a 1 0 + 3 * a 0 1 * a 2 0 * a 2 0 + 4 * a 0 1 * a 1 0 * a 3 0) + V 5 * (4 * a 1 1 * a 1 0 * a 1 0 * a 1 0 + 6 * a 0 1 * a 1 0 * a 1 0 * a 2 0) + V 6 * a 0 1 * a 1 0 * a 1 0 * a 1 0 * a 1 0) + V 2 * a 4 1) := by
    refine (J.stepX e31).trans (congrArg c ?_)
    simp only [map_add, Derivation.leibniz, der_ofNat, smul_eq_mul, J.hX, J.hVX, Nat.reduceAdd]
    ring
  have e32 : a 3 2 = c ((V 3 * (3 * a 2 2 * a 1 0 + 6 * a 1 1 * a 2 1 + 3 * a 1 2 * a 2 0 + a 0 2 * a 3 0 + 2 * a 3 1 * a 0 1) + V 4 * (3 * a 1 2 * a 1 0 * a 1 0 + 6 * a 1 1 * a 1 1 * a 1 0 + 3 * a 0 2 * a 2 0 * a 1 0 + 6 * a 0 1 * a 1 1 * a 2 0 + 6 * a 0 1 * a 2 1 * a 1 0 + a 0 1 * a 0 1 * a 3 0) + V 5 * (a 0 2 * a 1 0 * a 1 0 * a 1 0 + 6 * a 1 1 * a 0 1 * a 1 0 * a 1 0 + 3 * a 0 1 * a 0 1 * a 1 0 * a 2 0) + V 6 * a 0 1 * a 0 1 * a 1 0 * a 1 0 * a 1 0) + V 2 * a 3 2) := by
    refine (J.stepX e22).trans (congrArg c ?_)
    simp only [map_add, Derivation.leibniz, der_ofNat, smul_eq_mul, J.hX, J.hVX, Nat.reduceAdd]
    ring
  have e23 : a 2 3 = c ((V 3 * (3 * a 2 2 * a 0 1 + 6 * a 1 1 * a 1 2 + 3 * a 2 1 * a 0 2 + a 2 0 * a 0 3 + 2 * a 1 3 * a 1 0) + V 4 * (3 * a 2 1 * a 0 1 * a 0 1 + 6 * a 1 1 * a 1 1 * a 0 1 + 3 * a 2 0 * a 0 2 * a 0 1 + 6 * a 1 0 * a 1 1 * a 0 2 + 6 * a 1 0 * a 1 2 * a 0 1 + a 1 0 * a 1 0 * a 0 3) + V 5 * (a 2 0 * a 0 1 * a 0 1 * a 0 1 + 6 * a 1 1 * a 1 0 * a 0 1 * a 0 1 + 3 * a 1 0 * a 1 0 * a 0 1 * a 0 2) + V 6 * a 1 0 * a 1 0 * a 0 1 * a 0 1 * a 0 1) + V 2 * a 2 3) := by
    refine (J.stepX e13).trans (congrArg c ?_)
    simp only [map_add, Derivation.leibniz, der_ofNat, smul_eq_mul, J.hX, J.hVX, Nat.reduceAdd]
    ring
  have e14 : a 1 4 = c ((V 3 * (4 * a 1 3 * a 0 1 + 4 * a 1 1 * a 0 3 + 6 * a 1 2 * a 0 2 + a 1 0 * a 0 4) + V 4 * (6 * a 1 2 * a 0 1 * a 0 1 + 12 * a 1 1 * a 0 2 * a 0 1 + 3 * a 1 0 * a 0 2 * a 0 2 + 4 * a 1 0 * a 0 1 * a 0 3) + V 5 * (4 * a 1 1 * a 0 1 * a 0 1 * a 0 1 + 6 * a 1 0 * a 0 1 * a 0 1 * a 0 2) + V 6 * a 1 0 * a 0 1 * a 0 1 * a 0 1 * a 0 1) + V 2 * a 1 4) := by
    refine (J.stepX e04).trans (congrArg c ?_)
    simp only [map_add, Derivation.leibniz, der_ofNat, smul_eq_mul, J.hX, J.hVX, Nat.reduceAdd]
    ring
  have e05 : a 0 5 = c ((V 3 * (5 * a 0 4 * a 0 1 + 10 * a 0 2 * a 0 3) + V 4 * (10 * a 0 3 * a 0 1 * a 0 1 + 15 * a 0 2 * a 0 2 * a 0 1) + V 5 * 10 * a 0 2 * a 0 1 * a 0 1 * a 0 1 + V 6 * a 0 1 * a 0 1 * a 0 1 * a 0 1 * a 0 1) + V 2 * a 0 5) := by
    refine (J.stepY e04).trans (congrArg c ?_)
    simp only [map_add, Derivation.leibniz, der_ofNat, smul_eq_mul, J.hY, J.hVY, Nat.reduceAdd]
    ring
  exact ⟨e20, e11, e02, e30, e21, e12, e03, e40, e31, e22, e13, e04, e50, e41, e32, e23, e14, e05⟩

theorem LensJet.ev_akl (J : LensJet X Y c ev a V) {x Q : A} (h : x = c (Q + V 2 * x)) :
    ev x = akl (ev (V 2)) (ev Q) := by
  apply akl_solve _ _ _ J.hreg
  have := congrArg ev h
  rwa [J.hev, map_add, map_mul] at this

/-- The values computed by the code are the partial derivatives of the image position. -/
theorem LensJet.orders (J : LensJet X Y c ev a V) {i : A} (hiY : Y i = 0) (hi : ev i = I)
    (h10 : a 1 0 = 1 + c (V 2 * a 1 0)) (h01 : a 0 1 = i + c (V 2 * a 0 1)) :
    ∃ (o1 : Order1) (o2 : Order2) (o3 : Order3) (o4 : Order4) (o5 : Order5),
      order1 (evStack ev V) = o1 ∧ order2 (evStack ev V) o1 = o2 ∧ order3 (evStack ev V) o1 o2 = o3 ∧
      order4 (evStack ev V) o1 o2 o3 = o4 ∧ order5 (evStack ev V) o1 o2 o3 o4 = o5 ∧
      o1 = ({ a10 := ev (a 1 0), a01 := ev (a 0 1) } : Order1) ∧
      o2 = ({ a20 := ev (a 2 0), a11 := ev (a 1 1), a02 := ev (a 0 2) } : Order2) ∧
      o3 = ({ a30 := ev (a 3 0), a21 := ev (a 2 1), a12 := ev (a 1 2), a03 := ev (a 0 3) } : Order3) ∧
      o4 = ({ a40 := ev (a 4 0), a31 := ev (a 3 1), a22 := ev (a 2 2), a13 := ev (a 1 3), a04 := ev (a 0 4) } : Order4) ∧
      o5 = ({ a50 := ev (a 5 0), a41 := ev (a 4 1), a32 := ev (a 3 2), a23 := ev (a 2 3), a14 := ev (a 1 4), a05 := ev (a 0 5) } : Order5) := by
  obtain ⟨e20, e11, e02, e30, e21, e12, e03, e40, e31, e22, e13, e04, e50, e41, e32, e23, e14, e05⟩ := J.eqs hiY h10 h01
  have f10 : ev (a 1 0) = (mu0 (ev (V 2)) : ℂ) * (1 + conj (ev (V 2))) := by
    have h := congrArg ev h10
    rw [map_add, map_one, J.hev, map_mul] at h
    have := akl_solve (ev (V 2)) 1 (ev (a 1 0)) J.hreg (by rw [map_add, map_one]; exact h)
    rw [this, akl, map_one, mul_one]
  have f01 : ev (a 0 1) = (mu0 (ev (V 2)) : ℂ) * I * (1 - conj (ev (V 2))) := by
    have h := congrArg ev h01
    rw [map_add, hi, J.hev, map_mul] at h
    have := akl_solve (ev (V 2)) (-I) (ev (a 0 1)) J.hreg
      (by rw [map_add, map_neg, conj_I, neg_neg]; exact h)
    rw [this, akl, map_neg, conj_I]; ring
  have f20 := J.ev_akl e20
  have f11 := J.ev_akl e11
  have f02 := J.ev_akl e02
  have f30 := J.ev_akl e30
  have f21 := J.ev_akl e21
  have f12 := J.ev_akl e12
  have f03 := J.ev_akl e03
  have f40 := J.ev_akl e40
  have f31 := J.ev_akl e31
  have f22 := J.ev_akl e22
  have f13 := J.ev_akl e13
  have f04 := J.ev_akl e04
  have f50 := J.ev_akl e50
  have f41 := J.ev_akl e41
  have f32 := J.ev_akl e32
  have f23 := J.ev_akl e23
  have f14 := J.ev_akl e14
  have f05 := J.ev_akl e05
  simp only [map_add, map_mul, map_ofNat] at f20 f11 f02 f30 f21 f12 f03 f40 f31 f22 f13 f04 f50 f41 f32 f23 f14 f05
  refine ⟨_, _, _, _, _, rfl, rfl, rfl, rfl, rfl, ?_⟩
  have g1 : order1 (evStack ev V) = ({ a10 := ev (a 1 0), a01 := ev (a 0 1) } : Order1) := by
    simp only [order1, evStack, f10, f01]
  have g2 : order2 (evStack ev V) ({ a10 := ev (a 1 0), a01 := ev (a 0 1) } : Order1) = ({ a20 := ev (a 2 0), a11 := ev (a 1 1), a02 := ev (a 0 2) } : Order2) := by
    simp only [order2, evStack, f20, f11, f02]
  have g3 : order3 (evStack ev V) ({ a10 := ev (a 1 0), a01 := ev (a 0 1) } : Order1) ({ a20 := ev (a 2 0), a11 := ev (a 1 1), a02 := ev (a 0 2) } : Order2) = ({ a30 := ev (a 3 0), a21 := ev (a 2 1), a12 := ev (a 1 2), a03 := ev (a 0 3) } : Order3) := by
    simp only [order3, evStack, f30, f21, f12, f03]
  have g4 : order4 (evStack ev V) ({ a10 := ev (a 1 0), a01 := ev (a 0 1) } : Order1) ({ a20 := ev (a 2 0), a11 := ev (a 1 1), a02 := ev (a 0 2) } : Order2) ({ a30 := ev (a 3 0), a21 := ev (a 2 1), a12 := ev (a 1 2), a03 := ev (a 0 3) } : Order3) = ({ a40 := ev (a 4 0), a31 := ev (a 3 1), a22 := ev (a 2 2), a13 := ev (a 1 3), a04 := ev (a 0 4) } : Order4) := by
    simp only [order4, evStack, f40, f31, f22, f13, f04]
  have g5 : order5 (evStack ev V) ({ a10 := ev (a 1 0), a01 := ev (a 0 1) } : Order1) ({ a20 := ev (a 2 0), a11 := ev (a 1 1), a02 := ev (a 0 2) } : Order2) ({ a30 := ev (a 3 0), a21 := ev (a 2 1), a12 := ev (a 1 2), a03 := ev (a 0 3) } : Order3) ({ a40 := ev (a 4 0), a31 := ev (a 3 1), a22 := ev (a 2 2), a13 := ev (a 1 3), a04 := ev (a 0 4) } : Order4) = ({ a50 := ev (a 5 0), a41 := ev (a 4 1), a32 := ev (a 3 2), a23 := ev (a 2 3), a14 := ev (a 1 4), a05 := ev (a 0 5) } : Order5) := by
    simp only [order5, evStack, f50, f41, f32, f23, f14, f05]
  rw [g1, g2, g3, g4, g5]
  exact ⟨rfl, rfl, rfl, rfl, rfl⟩

theorem im_of_sub_conj (T x : ℂ) (h : T - conj T = 2 * I * x) : ((T.im : ℝ) : ℂ) = x := by
  have h1 : T - conj T = (2 * T.im : ℝ) * I := Complex.sub_conj T
  rw [h1] at h
  have hI : (2 * I : ℂ) ≠ 0 := by simp
  apply mul_left_cancel₀ hI
  rw [← h]; push_cast; ring

/-- Laplacian in the differential ring. -/
def lapA (X Y : Derivation ℤ A A) (g : A) : A := X (X g) + Y (Y g)

/-- The quadrupole and hexadecapole coefficients are a quarter of the Laplacian and an eighth of the
bi-Laplacian of the inverse Jacobian. -/
theorem LensJet.laplacians (J : LensJet X Y c ev a V) {i M : A} (hiX : X i = 0) (hiY : Y i = 0)
    (hi : ev i = I)
    (h10 : a 1 0 = 1 + c (V 2 * a 1 0)) (h01 : a 0 1 = i + c (V 2 * a 0 1))
    (hM : c (a 1 0) * a 0 1 - a 1 0 * c (a 0 1) = 2 * i * M) (rho u1 : ℝ) :
    ((cassan (evStack ev V) rho u1).quad : ℂ)
      = ev (lapA X Y M) / 8 * (1 - 1 / 5 * (gammaLD u1 : ℂ)) * rho ^ 2 ∧
    ((cassan (evStack ev V) rho u1).hex : ℂ)
      = ev (lapA X Y (lapA X Y M)) / 192 * (1 - 11 / 35 * (gammaLD u1 : ℂ)) * rho ^ 4 := by
  obtain ⟨o1, o2, o3, o4, o5, h1, h2, h3, h4, h5, r1, r2, r3, r4, r5⟩ := J.orders hiY hi h10 h01
  have L1 := congrArg (fun g => lapA X Y g) hM
  have L2 := congrArg (fun g => lapA X Y (lapA X Y g)) hM
  simp only [lapA, map_add, map_sub, Derivation.leibniz, der_ofNat, smul_eq_mul, J.hX, J.hY, J.hcX, J.hcY,
    hiX, hiY, Nat.reduceAdd, mul_zero, add_zero, zero_add, map_zero, map_mul] at L1 L2
  have E1 := congrArg ev L1
  have E2 := congrArg ev L2
  simp only [map_add, map_sub, map_mul, map_ofNat, J.hev, hi] at E1 E2
  have m2 : ((mu2 o1 o2 o3 : ℝ) : ℂ) = ev (lapA X Y M) / 4 := by
    subst r1 r2 r3
    simp only [mu2]
    rw [Complex.ofReal_mul, im_of_sub_conj _ (ev (lapA X Y M))]
    · push_cast; ring
    · simp only [lapA, map_add, map_mul, map_ofNat, Complex.conj_conj]
      linear_combination E1
  have m4 : ((mu4 o1 o2 o3 o4 o5 : ℝ) : ℂ) = ev (lapA X Y (lapA X Y M)) / 8 := by
    subst r1 r2 r3 r4 r5
    simp only [mu4]
    rw [Complex.ofReal_mul, im_of_sub_conj _ (ev (lapA X Y (lapA X Y M)))]
    · push_cast; ring
    · simp only [lapA, map_add, map_mul, map_ofNat, Complex.conj_conj]
      linear_combination E2
  simp only [cassan, h1, h2, h3, h4, h5]
  constructor
  · push_cast; rw [m2]; ring
  · push_cast; rw [m4]; ring

end

end Microjax.Props
