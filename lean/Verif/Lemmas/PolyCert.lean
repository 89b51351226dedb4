import Mathlib.Analysis.Calculus.Deriv.Mul
import Mathlib.Analysis.Calculus.Deriv.Add
import Mathlib.Data.Rat.Cast.Order
import Mathlib.Tactic.Linarith
import Mathlib.Tactic.Ring
import Mathlib.Tactic.NormNum
import Mathlib.Tactic.Positivity
import Mathlib.Tactic.GCongr
import Mathlib.Tactic.LinearCombination

/-!
# Polynomials as lists of rational coefficients and certified bounds on an interval

Coefficients are listed from the constant term upwards.
-/

noncomputable section

namespace Microjax.Props

/-- Value of a polynomial with rational coefficients at a real point. -/
def ev (L : List ℚ) (x : ℝ) : ℝ := L.foldr (fun a r => (a : ℝ) + x * r) 0

/-- Value at a rational point (computable). -/
def evQ (L : List ℚ) (x : ℚ) : ℚ := L.foldr (fun a r => a + x * r) 0

@[simp] theorem ev_nil (x : ℝ) : ev [] x = 0 := rfl
@[simp] theorem ev_cons (a : ℚ) (L : List ℚ) (x : ℝ) : ev (a :: L) x = a + x * ev L x := rfl
@[simp] theorem evQ_nil (x : ℚ) : evQ [] x = 0 := rfl
@[simp] theorem evQ_cons (a : ℚ) (L : List ℚ) (x : ℚ) : evQ (a :: L) x = a + x * evQ L x := rfl

theorem ev_cast (L : List ℚ) (x : ℚ) : ev L (x : ℝ) = (evQ L x : ℚ) := by
  induction L with
  | nil => simp
  | cons a L ih => simp [ih]

def addL : List ℚ → List ℚ → List ℚ
  | [], M => M
  | L, [] => L
  | a :: L, b :: M => (a + b) :: addL L M

theorem ev_addL (L M : List ℚ) (x : ℝ) : ev (addL L M) x = ev L x + ev M x := by
  induction L generalizing M with
  | nil => simp [addL]
  | cons a L ih =>
    cases M with
    | nil => simp [addL]
    | cons b M => simp only [addL, ev_cons, ih]; push_cast; ring

def scL (k : ℚ) (L : List ℚ) : List ℚ := L.map (k * ·)

theorem ev_scL (k : ℚ) (L : List ℚ) (x : ℝ) : ev (scL k L) x = k * ev L x := by
  induction L with
  | nil => simp [scL]
  | cons a L ih =>
    simp only [scL, List.map_cons, ev_cons] at ih ⊢
    rw [ih]; push_cast; ring

def mulL (L M : List ℚ) : List ℚ := L.foldr (fun a r => addL (scL a M) (0 :: r)) []

theorem ev_mulL (L M : List ℚ) (x : ℝ) : ev (mulL L M) x = ev L x * ev M x := by
  induction L with
  | nil => simp [mulL]
  | cons a L ih =>
    simp only [mulL, List.foldr_cons] at ih ⊢
    rw [ev_addL, ev_scL, ev_cons, ih, ev_cons]; push_cast; ring

def derL : List ℚ → List ℚ
  | [] => []
  | _ :: L => addL L (0 :: derL L)

theorem ev_derL (L : List ℚ) (x : ℝ) : HasDerivAt (ev L) (ev (derL L) x) x := by
  induction L with
  | nil => exact hasDerivAt_const x 0
  | cons a L ih =>
    have h := ((hasDerivAt_id x).fun_mul ih).const_add (a : ℝ)
    refine h.congr_deriv ?_
    simp only [derL, ev_addL, ev_cons, id]
    push_cast; ring

/-- `y ↦ L (m + y)`. -/
def shiftL (m : ℚ) (L : List ℚ) : List ℚ := L.foldr (fun a r => addL [a] (addL (scL m r) (0 :: r))) []

theorem ev_shiftL (m : ℚ) (L : List ℚ) (y : ℝ) : ev (shiftL m L) y = ev L (m + y) := by
  induction L with
  | nil => simp [shiftL]
  | cons a L ih =>
    simp only [shiftL, List.foldr_cons] at ih ⊢
    rw [ev_addL, ev_addL, ev_scL, ev_cons, ev_cons, ev_nil, ih, ev_cons]; push_cast; ring

/-- Sum of the absolute values of the terms for `|x| ≤ h`. -/
def absSum (L : List ℚ) (h : ℚ) : ℚ := L.foldr (fun a r => |a| + h * r) 0

theorem absSum_nonneg (L : List ℚ) (h : ℚ) (hh : 0 ≤ h) : 0 ≤ absSum L h := by
  induction L with
  | nil => simp [absSum]
  | cons a L ih =>
    have : absSum (a :: L) h = |a| + h * absSum L h := rfl
    rw [this]; positivity

theorem abs_ev_le (L : List ℚ) (h : ℚ) (x : ℝ) (hx : |x| ≤ h) : |ev L x| ≤ absSum L h := by
  induction L with
  | nil => simp [absSum]
  | cons a L ih =>
    have e : absSum (a :: L) h = |a| + h * absSum L h := rfl
    have hh : (0 : ℝ) ≤ h := (abs_nonneg x).trans hx
    rw [e, ev_cons]
    push_cast
    refine (abs_add_le _ _).trans ?_
    rw [abs_mul]
    gcongr

/-- All coefficients are non-negative. -/
def nonneg (L : List ℚ) : Bool := L.all (0 ≤ ·)

theorem ev_mono (L : List ℚ) (hL : nonneg L = true) (a x : ℝ) (ha : 0 ≤ a) (hx : a ≤ x) :
    0 ≤ ev L a ∧ ev L a ≤ ev L x := by
  induction L with
  | nil => simp
  | cons b L ih =>
    simp only [nonneg, List.all_cons, Bool.and_eq_true, decide_eq_true_eq] at hL
    obtain ⟨h1, h2⟩ := ih hL.2
    have hb : (0 : ℝ) ≤ b := by exact_mod_cast hL.1
    rw [ev_cons, ev_cons]
    refine ⟨by positivity, ?_⟩
    gcongr
    exact ha.trans hx

/-- Check of `|N| ≤ ε D` on `[a, b]`: the Taylor coefficients of `N` at the midpoint against the value of `D` at `a`. -/
def check (N D : List ℚ) (ε a b : ℚ) : Bool :=
  decide (absSum (shiftL ((a + b) / 2) N) ((b - a) / 2) ≤ ε * evQ D a)

theorem check_sound (N D : List ℚ) (ε a b : ℚ) (hD : nonneg D = true) (ha : 0 ≤ a) (hε : 0 ≤ ε)
    (h : check N D ε a b = true) (x : ℝ) (hx : (a : ℝ) ≤ x) (hx' : x ≤ b) : |ev N x| ≤ ε * ev D x := by
  simp only [check, decide_eq_true_eq] at h
  have ha' : (0 : ℝ) ≤ a := by exact_mod_cast ha
  have hε' : (0 : ℝ) ≤ ε := by exact_mod_cast hε
  have h1 := abs_ev_le (shiftL ((a + b) / 2) N) ((b - a) / 2) (x - ((a + b) / 2 : ℚ)) (by
    push_cast
    rw [abs_le]; constructor <;> linarith)
  rw [ev_shiftL] at h1
  rw [show (((a + b) / 2 : ℚ) : ℝ) + (x - ((a + b) / 2 : ℚ)) = x by ring] at h1
  have h2 := (ev_mono D hD a x ha' hx).2
  rw [ev_cast] at h2
  calc |ev N x| ≤ _ := h1
    _ ≤ ((ε * evQ D a : ℚ) : ℝ) := by exact_mod_cast h
    _ = ε * (evQ D a : ℚ) := by push_cast; ring
    _ ≤ ε * ev D x := by gcongr

/-- `check` on `k` intervals of length `d` starting at `a`. -/
def checkAll (N D : List ℚ) (ε a d : ℚ) : ℕ → Bool
  | 0 => true
  | k + 1 => checkAll N D ε a d k && check N D ε (a + k * d) (a + (k + 1) * d)

theorem checkAll_sound (N D : List ℚ) (ε a d : ℚ) (hD : nonneg D = true) (ha : 0 ≤ a) (hd : 0 ≤ d) (hε : 0 ≤ ε)
    (k : ℕ) (hk : k ≠ 0) (h : checkAll N D ε a d k = true) (x : ℝ) (hx : (a : ℝ) ≤ x) (hx' : x ≤ a + k * d) :
    |ev N x| ≤ ε * ev D x := by
  induction k with
  | zero => exact absurd rfl hk
  | succ k ih =>
    simp only [checkAll, Bool.and_eq_true] at h
    have hlast : (a : ℝ) + k * d ≤ x → |ev N x| ≤ ε * ev D x := fun hl =>
      check_sound N D ε _ _ hD (by positivity) hε h.2 x (by push_cast; exact hl) (by push_cast at hx' ⊢; exact hx')
    rcases Nat.eq_zero_or_pos k with rfl | hk0
    · exact hlast (by simpa using hx)
    · rcases le_total x (a + k * d) with hl | hl
      · exact ih hk0.ne' h.1 hl
      · exact hlast hl

end Microjax.Props
