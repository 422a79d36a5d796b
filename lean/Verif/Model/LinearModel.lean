import Mathlib.LinearAlgebra.Matrix.NonsingularInverse
import Mathlib.Data.Real.Basic

/-!
# Model of `src/methods/linear_model/linear_regression.hpp`, `ridge_regression.hpp` and `predict` of `base.hpp`

Matrices are Mathlib matrices over the reals.
-/

namespace OpenML.LinearModel

open Matrix

/-- Number of weights (`src/methods/linear_model/linear_regression.hpp` lines 32-37,
`src/methods/linear_model/ridge_regression.hpp` lines 29-34). -/
def width (intercept : Bool) (d : Nat) : Nat :=
  match intercept with
  | true => d + 1
  | false => d

/-- `X_new`: with intercept a column of ones is appended (`src/methods/linear_model/linear_regression.hpp` lines 28-37,
`src/methods/linear_model/ridge_regression.hpp` lines 25-34). -/
def design {n d : Nat} (X : Matrix (Fin n) (Fin d) ℝ) : (intercept : Bool) → Matrix (Fin n) (Fin (width intercept d)) ℝ
  | true => Matrix.of fun i => Fin.snoc (α := fun _ => ℝ) (X i) 1
  | false => X

/-- `pinv.inverse()` (`src/methods/linear_model/linear_regression.hpp` line 43,
`src/methods/linear_model/ridge_regression.hpp` line 43): the entries are not finite for a singular matrix (`none`). -/
noncomputable def inverse {p : Nat} (A : Matrix (Fin p) (Fin p) ℝ) : Option (Matrix (Fin p) (Fin p) ℝ) :=
  if A.det = 0 then none else some A⁻¹

/-- `LinearRegression::fit` (`src/methods/linear_model/linear_regression.hpp` lines 25-46). -/
noncomputable def fitLinear {n d : Nat} (intercept : Bool) (X : Matrix (Fin n) (Fin d) ℝ) (y : Fin n → ℝ) :
    Option (Fin (width intercept d) → ℝ) := do
  let Xn := design X intercept
  let inv ← inverse (Xnᵀ * Xn)
  some ((inv * Xnᵀ) *ᵥ y)

/-- `RidgeRegression::fit` (`src/methods/linear_model/ridge_regression.hpp` lines 22-46). -/
noncomputable def fitRidge {n d : Nat} (lambda : ℝ) (intercept : Bool) (X : Matrix (Fin n) (Fin d) ℝ) (y : Fin n → ℝ) :
    Option (Fin (width intercept d) → ℝ) := do
  let Xn := design X intercept
  let inv ← inverse (Xnᵀ * Xn + lambda • (1 : Matrix (Fin (width intercept d)) (Fin (width intercept d)) ℝ))
  some ((inv * Xnᵀ) *ᵥ y)

/-- `predict` (`src/methods/linear_model/base.hpp` lines 40-54, 96-101): with intercept the last weight is added to the product
with the others. -/
def predict {n d : Nat} (X : Matrix (Fin n) (Fin d) ℝ) :
    (intercept : Bool) → (Fin (width intercept d) → ℝ) → Fin n → ℝ
  | true, w => fun i => (X *ᵥ fun j : Fin d => w (Fin.castSucc j)) i + w (Fin.last d)
  | false, w => X *ᵥ w

end OpenML.LinearModel
