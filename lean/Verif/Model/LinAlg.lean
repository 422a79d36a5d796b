import Verif.Model.Res
import Mathlib.LinearAlgebra.Matrix.NonsingularInverse
import Mathlib.LinearAlgebra.Matrix.Permutation
import Mathlib.Analysis.SpecialFunctions.Log.Basic

/-!
# Model of parts of `src/core/math/linalg.hpp` and `src/core/math/ops.hpp`

Matrices are Mathlib matrices over the reals. The decompositions of Eigen are parameters of the models: a model function takes
what the Eigen object returns, and the theorems assume only Eigen's documented contract for it.
-/

namespace OpenML.LinAlg

open Matrix

/-- A rectangular matrix with the given diagonal and zeros elsewhere (`src/core/math/linalg.hpp` lines 233-243: `s_inv` after
`setZero` and the assignments to `s_inv(i, i)`). -/
def rectDiag (m n : Nat) (f : Nat → ℝ) : Matrix (Fin m) (Fin n) ℝ :=
  Matrix.of fun i j => if i.val = j.val then f i.val else 0

/-- `s_inv(i, i)` (`src/core/math/linalg.hpp` lines 236-241). -/
noncomputable def cutInverse (tol : ℝ) (s : Nat → ℝ) (i : Nat) : ℝ := if s i > tol then 1 / s i else 0

/-- `pinv` (`src/core/math/linalg.hpp` lines 224-246) for the full decomposition `U`, `s`, `V` returned by `exact_svd`
(lines 97-123; the local variable `Vt` holds `V`). Entry `i` of the vector of singular values is `s i`, for `i` below both
dimensions. -/
noncomputable def pinv {m n : Nat} (tol : ℝ) (U : Matrix (Fin m) (Fin m) ℝ) (s : Nat → ℝ) (V : Matrix (Fin n) (Fin n) ℝ) :
    Matrix (Fin n) (Fin m) ℝ := V * rectDiag n m (cutInverse tol s) * Uᵀ

/-- `log_abs_det` (`src/core/math/linalg.hpp` lines 263-265): the sum of the logarithms of the absolute diagonal entries;
the logarithm of zero is minus infinity (`⊥`). -/
noncomputable def logAbsDiag {n : Nat} (u : Fin n → ℝ) : WithBot ℝ :=
  if ∃ i, u i = 0 then ⊥ else ((∑ i, Real.log |u i| : ℝ) : WithBot ℝ)

/-- `sign` (`src/core/math/linalg.hpp` lines 262, 266): the sign of the permutation times the product of `diag / abs_diag`;
a zero on the diagonal gives NaN (`none`). -/
noncomputable def signOf {n : Nat} (p : Equiv.Perm (Fin n)) (u : Fin n → ℝ) : Option ℝ :=
  if ∃ i, u i = 0 then none else some (((Equiv.Perm.sign p : ℤ) : ℝ) * ∏ i, u i / |u i|)

/-- `logdet` (`src/core/math/linalg.hpp` lines 255-269) for the permutation and the diagonal of the packed matrix returned by
`Eigen::PartialPivLU`. A comparison with NaN is false. -/
noncomputable def logdet {n : Nat} (p : Equiv.Perm (Fin n)) (u : Fin n → ℝ) : WithBot ℝ :=
  match signOf p u with
  | some s => if s < 0 then ⊥ else logAbsDiag u
  | none => logAbsDiag u

/-- `lu` (`src/core/math/linalg.hpp` lines 22-49) of a square matrix for what `Eigen::FullPivLU` returns: the row permutation
`P` and the factors; the column permutation (line 41) is not used. -/
def lu {n : Nat} (P L U : Matrix (Fin n) (Fin n) ℝ) (permuteL : Bool) :
    Matrix (Fin n) (Fin n) ℝ × Matrix (Fin n) (Fin n) ℝ × Matrix (Fin n) (Fin n) ℝ :=
  (if permuteL then P * L else P, L, U)

/-- `qr` (`src/core/math/linalg.hpp` lines 62-84) for a tall matrix (`n` columns, `n + k` rows) and `full_matrix = false`, with
the orthogonal matrix `H` and the packed factor `R` of `Eigen::HouseholderQR`: the first columns of `H` and the upper triangle
of the first rows of `R`. -/
def thinQR {n k : Nat} (H : Matrix (Fin (n + k)) (Fin (n + k)) ℝ) (R : Matrix (Fin (n + k)) (Fin n) ℝ) :
    Matrix (Fin (n + k)) (Fin n) ℝ × Matrix (Fin n) (Fin n) ℝ :=
  (H * rectDiag (n + k) n (fun _ => 1),
   Matrix.of fun i j => if i ≤ j then R (Fin.castAdd k i) j else 0)

/-- `math::center` (`src/core/math/ops.hpp` lines 196-199). -/
noncomputable def center {n d : Nat} (X : Matrix (Fin n) (Fin d) ℝ) : Matrix (Fin n) (Fin d) ℝ :=
  Matrix.of fun i j => X i j - (∑ k, X k j) / (n : ℝ)

/-- `math::cov` (`src/core/math/ops.hpp` lines 19-24); with one row the division gives NaN (`none`). -/
noncomputable def cov {n d : Nat} (X : Matrix (Fin n) (Fin d) ℝ) : Option (Matrix (Fin d) (Fin d) ℝ) :=
  if n = 1 then none else some (((1 : ℝ) / ((n : ℝ) - 1)) • ((center X)ᵀ * center X))

end OpenML.LinAlg
