import Verif.Model.PCA

/-!
# Model of `randomized_svd` (`src/core/math/linalg.hpp`) and `TruncatedSVD` (`src/methods/decomposition/truncated_svd.hpp`)

Matrices are Mathlib matrices over the reals. What Eigen's decompositions return is a parameter, as is the matrix of random numbers.
The model is for at least one sample and one feature.
-/

namespace OpenML.TruncatedSVD

open Matrix

/-- What the decompositions of Eigen return for every matrix: `Eigen::FullPivLU` (`src/core/math/linalg.hpp` line 28) the row
permutation and the packed matrix, `Eigen::HouseholderQR` (line 67) the orthogonal and the packed matrix, and
`Eigen::JacobiSVD`/`Eigen::BDCSVD` (lines 110-121) with full matrices the factors and the singular values. -/
structure Decompositions where
  fullPivLU : ∀ {m n : Nat}, Matrix (Fin m) (Fin n) ℝ → Equiv.Perm (Fin m) × Matrix (Fin m) (Fin n) ℝ
  householder : ∀ {m n : Nat}, Matrix (Fin m) (Fin n) ℝ → Matrix (Fin m) (Fin m) ℝ × Matrix (Fin m) (Fin n) ℝ
  svd : ∀ {m n : Nat}, Matrix (Fin m) (Fin n) ℝ → Matrix (Fin m) (Fin m) ℝ × (Nat → ℝ) × Matrix (Fin n) (Fin n) ℝ

/-- The first result of `lu` (`src/core/math/linalg.hpp` lines 22-49) with `permute_l = true` for a matrix with at least as many rows
as columns: the permutation times the unit lower triangle of the packed matrix. -/
noncomputable def luQ {m K : Nat} (dec : Decompositions) (x : Matrix (Fin m) (Fin K) ℝ) : Matrix (Fin m) (Fin K) ℝ :=
  (dec.fullPivLU x).1.permMatrix ℝ *
    Matrix.of fun i j => if i.val = j.val then 1 else if j.val < i.val then (dec.fullPivLU x).2 i j else 0

/-- The first result of `qr` (`src/core/math/linalg.hpp` lines 62-84) with `full_matrix = false` for a matrix with at least as many
rows as columns. -/
noncomputable def qrQ {m K : Nat} (dec : Decompositions) (x : Matrix (Fin m) (Fin K) ℝ) : Matrix (Fin m) (Fin K) ℝ :=
  (dec.householder x).1 * LinAlg.rectDiag m K fun _ => 1

/-- One pass of the loop of `randomized_svd` (`src/core/math/linalg.hpp` lines 159-186). -/
noncomputable def powerStep {M N K : Nat} (dec : Decompositions) (X : Matrix (Fin M) (Fin N) ℝ) (normalizer : String)
    (Q : Matrix (Fin N) (Fin K) ℝ) : Res (Matrix (Fin N) (Fin K) ℝ) :=
  if normalizer = "None" then .ok (Xᵀ * (X * Q))
  else if normalizer = "LU" then .ok (luQ dec (Xᵀ * luQ dec (X * Q)))
  else if normalizer = "QR" then .ok (qrQ dec (Xᵀ * qrQ dec (X * Q)))
  else .throw .invalidArgument

/-- The loop of `randomized_svd` (`src/core/math/linalg.hpp` lines 159-186). -/
noncomputable def power {M N K : Nat} (dec : Decompositions) (X : Matrix (Fin M) (Fin N) ℝ) (normalizer : String) :
    Nat → Matrix (Fin N) (Fin K) ℝ → Res (Matrix (Fin N) (Fin K) ℝ)
  | 0, Q => .ok Q
  | i + 1, Q => do
    let Q ← powerStep dec X normalizer Q
    power dec X normalizer i Q

/-- `randomized_svd` (`src/core/math/linalg.hpp` lines 139-210) with the random matrix `Q0` (line 158). After the check of line 149
all decompositions are of matrices with at least as many rows as columns, and the singular values are `k + p`. -/
noncomputable def randomizedSvd {M N : Nat} (dec : Decompositions) (X : Matrix (Fin M) (Fin N) ℝ) (k p iters : Nat) (normalizer : String)
    (flipSign : Bool) (Q0 : Matrix (Fin N) (Fin (k + p)) ℝ) :
    Res (Matrix (Fin M) (Fin k) ℝ × (Fin k → ℝ) × Matrix (Fin k) (Fin N) ℝ) :=
  if h : k + p > min M N then .throw .invalidArgument
  else do
    let Q1 ← power dec X normalizer iters Q0
    let Q := qrQ dec (X * Q1)
    let B := Qᵀ * X
    let Uhat := (dec.svd B).1
    let Vt := (dec.svd B).2.2ᵀ
    let U := Q * Uhat
    let r ← if flipSign then PCA.flip U Vt else .ok (U, Vt)
    .ok (Matrix.of fun i j => r.1 i (Fin.castLE (Nat.le_add_right k p) j),
         fun i => (dec.svd B).2.1 i.val,
         Matrix.of fun i j => r.2 (Fin.castLE (by omega) i) j)

/-- `math::var` with `axis = 0` (`src/core/math/ops.hpp` lines 42-48), for at least one row. -/
noncomputable def varCols {n d : Nat} (X : Matrix (Fin n) (Fin d) ℝ) (j : Fin d) : ℝ :=
  (∑ i, X i j ^ 2) / (n : ℝ) - ((∑ i, X i j) / (n : ℝ)) ^ 2

/-- The members assigned by `fit_data` (`src/methods/decomposition/truncated_svd.hpp` lines 50-53). -/
structure Fitted (k d : Nat) where
  components : Matrix (Fin k) (Fin d) ℝ
  singular : Fin k → ℝ
  explained : Fin k → ℝ
  ratio : Option (Fin k → ℝ)

/-- `fit_data` (`src/methods/decomposition/truncated_svd.hpp` lines 33-54); a division by zero variance is `none`. The only known solver
is "randomized"; with another name the matrices of lines 34-35 stay without rows and columns and the same holds for the members, which is
`none`. -/
noncomputable def fit {M N : Nat} (dec : Decompositions) (solver : String) (X : Matrix (Fin M) (Fin N) ℝ) (k p iters : Nat)
    (normalizer : String) (Q0 : Matrix (Fin N) (Fin (k + p)) ℝ) : Res (Option (Fitted k N)) :=
  if solver = "randomized" then do
    let r ← randomizedSvd dec X k p iters normalizer true Q0
    let T := X * r.2.2ᵀ
    let full := ∑ j, varCols X j
    .ok (some { components := r.2.2
                singular := r.2.1
                explained := varCols T
                ratio := if full = 0 then none else some fun i => varCols T i / full })
  else .ok none

/-- `transform_data` (`src/methods/decomposition/truncated_svd.hpp` lines 57-63). The product of line 61 with a matrix without rows and
columns violates an assertion. -/
noncomputable def transform {k d m : Nat} (f : Option (Fitted k d)) (X : Matrix (Fin m) (Fin d) ℝ) : Res (Matrix (Fin m) (Fin k) ℝ) :=
  match f with
  | none => .ub
  | some f => .ok (X * f.componentsᵀ)

end OpenML.TruncatedSVD
