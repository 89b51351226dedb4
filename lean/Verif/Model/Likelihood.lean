import Mathlib.LinearAlgebra.Matrix.NonsingularInverse
import Mathlib.LinearAlgebra.Matrix.ToLin
import Mathlib.Analysis.SpecialFunctions.Log.Basic
import Mathlib.Analysis.Real.Sqrt
import Mathlib.LinearAlgebra.Matrix.Notation

/-!
# Model of `src/microjax/likelihood.py`

float64 is `ℝ` (exact arithmetic).  A one-dimensional array of `n` floats is `Fin n → ℝ`, a two-dimensional
one a matrix.  Division by zero (inf/NaN in the code) is Lean's total division and `sqrt`/`log` of a negative
number (NaN in the code) is Lean's total function; the theorems state the hypotheses that exclude them.
-/

noncomputable section

namespace Microjax.Likelihood

open Matrix

variable {n : ℕ}

/-- The exception that a scalar `err = 0` raises: Python's `1.0 / 0.0` is evaluated before `jnp.where` (64). -/
inductive Err where
  | zeroDivision
  deriving DecidableEq, Repr

/-- The results `b, be, a, ae, chi2` in the order of the `return` statement (`likelihood.py` 80). -/
structure Fit where
  b : ℝ
  be : ℝ
  a : ℝ
  ae : ℝ
  chi2 : ℝ

/-- `likelihood.py` 64: `jnp.where(err > 0, 1.0 / (err ** 2), 1.0)` for one entry. -/
def weight (err : ℝ) : ℝ := if err > 0 then 1 / err ^ 2 else 1

/-- `likelihood.py` 70-80: from the sums to the results.  `wt` is the broadcast of the weights in line 77. -/
def solveFit (x y wt : Fin n → ℝ) (sumw sumx sumy sumxx sumxy : ℝ) : Fit :=
  let det := sumw * sumxx - sumx * sumx
  let a := (sumxx * sumy - sumx * sumxy) / det
  let b := (sumw * sumxy - sumx * sumy) / det
  let residual := fun i => y i - a - b * x i
  { b := b
    be := Real.sqrt (sumw / det)
    a := a
    ae := Real.sqrt (sumxx / det)
    chi2 := ∑ i, wt i * residual i ^ 2 }

/-- `likelihood.py` 30-80 `linear_chi2` with an array `err`. -/
def linearChi2 (x y err : Fin n → ℝ) : Fit :=
  let wt := fun i => weight (err i)
  solveFit x y wt (∑ i, wt i) (∑ i, wt i * x i) (∑ i, wt i * y i) (∑ i, wt i * x i * x i)
    (∑ i, wt i * x i * y i)

/-- `likelihood.py` 30-80 `linear_chi2` with a scalar `err` (Python float, the type of the default 0.0).
`wt` is then a scalar: `jnp.sum(wt)` is `wt` itself, the other sums broadcast it. -/
def linearChi2Scalar (x y : Fin n → ℝ) (err : ℝ) : Except Err Fit :=
  if err = 0 then .error .zeroDivision
  else
    let wt := weight err
    .ok (solveFit x y (fun _ => wt) wt (∑ i, wt * x i) (∑ i, wt * y i) (∑ i, wt * x i * x i)
      (∑ i, wt * x i * y i))

/-- `likelihood.py` 83-158 `nll_ulens`. -/
def nllUlens (flux : Fin n → ℝ) (M : Matrix (Fin n) (Fin 2) ℝ) (sigma2_obs : Fin n → ℝ)
    (sigma2_fs sigma2_fb : ℝ) : ℝ :=
  let lambda_fs := 1 / sigma2_fs
  let lambda_fb := 1 / sigma2_fb
  let Cinv_M := fun i k => M i k / sigma2_obs i
  let a11 := lambda_fs + ∑ i, M i 0 * Cinv_M i 0
  let a22 := lambda_fb + ∑ i, M i 1 * Cinv_M i 1
  let a12 := ∑ i, M i 0 * Cinv_M i 1
  let Cinv_flux := fun i => flux i / sigma2_obs i
  let b1 := ∑ i, M i 0 * Cinv_flux i
  let b2 := ∑ i, M i 1 * Cinv_flux i
  let detA := a11 * a22 - a12 * a12
  let invA00 := a22 / detA
  let invA11 := a11 / detA
  let invA01 := -a12 / detA
  let mu_fs := invA00 * b1 + invA01 * b2
  let mu_fb := invA01 * b1 + invA11 * b2
  let mahalanobis := (∑ i, flux i * Cinv_flux i) - (mu_fs * b1 + mu_fb * b2)
  let logdet_C := ∑ i, Real.log (sigma2_obs i)
  let logdet_Lambda := Real.log sigma2_fs + Real.log sigma2_fb
  let logdet_A := Real.log detA
  1 / 2 * (mahalanobis + logdet_C + logdet_Lambda + logdet_A)

/-- `jnp.linalg.slogdet(·)[1]`: logarithm of the absolute determinant. -/
def slogdet {m : ℕ} (A : Matrix (Fin m) (Fin m) ℝ) : ℝ := Real.log |A.det|

/-- `likelihood.py` 160-228 `nll_ulens_general`.  `solve(C, B)` and `inv` are the exact inverse of an invertible
matrix (the LU factorisation behind them is not modelled). -/
def nllUlensGeneral (flux : Fin n → ℝ) (M : Matrix (Fin n) (Fin 2) ℝ) (C : Matrix (Fin n) (Fin n) ℝ)
    (mu : Fin 2 → ℝ) (Lambda : Matrix (Fin 2) (Fin 2) ℝ) : ℝ :=
  let Lambda_inv := Lambda⁻¹
  let Cinv_M := C⁻¹ * M
  let Mt_Cinv_M := Mᵀ * Cinv_M
  let A := Lambda_inv + Mt_Cinv_M
  let r := flux - M *ᵥ mu
  let Cinv_r := C⁻¹ *ᵥ r
  let Mt_Cinv_r := Mᵀ *ᵥ Cinv_r
  let posterior_mean := A⁻¹ *ᵥ Mt_Cinv_r
  let mahal_term := r ⬝ᵥ Cinv_r - Mt_Cinv_r ⬝ᵥ posterior_mean
  1 / 2 * (mahal_term + slogdet C + slogdet Lambda + slogdet A)

end Microjax.Likelihood
