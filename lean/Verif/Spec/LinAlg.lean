import Mathlib.LinearAlgebra.Matrix.NonsingularInverse
import Mathlib.LinearAlgebra.Matrix.Permutation
import Mathlib.Data.Real.Basic

/-!
# Specification: contracts of the decompositions, Moore-Penrose equations
-/

namespace OpenML.Spec

open Matrix

/-- `x = U * S * Vᵀ` with orthogonal `U`, `V` and `S` zero off the diagonal with the non-negative values `s` on it. -/
structure IsFullSVD {m n : Nat} (x : Matrix (Fin m) (Fin n) ℝ) (U : Matrix (Fin m) (Fin m) ℝ) (s : Nat → ℝ)
    (V : Matrix (Fin n) (Fin n) ℝ) : Prop where
  left : Uᵀ * U = 1
  right : Vᵀ * V = 1
  nonneg : ∀ i, i < m → i < n → 0 ≤ s i
  product : x = U * (Matrix.of fun (i : Fin m) (j : Fin n) => if i.val = j.val then s i.val else 0) * Vᵀ

/-- The four Moore-Penrose equations. -/
structure IsMoorePenrose {m n : Nat} (x : Matrix (Fin m) (Fin n) ℝ) (p : Matrix (Fin n) (Fin m) ℝ) : Prop where
  inner : x * p * x = x
  outer : p * x * p = p
  left : (x * p)ᵀ = x * p
  right : (p * x)ᵀ = p * x

/-- Contract of `Eigen::PartialPivLU`: `P * x = L * U`, `L` unit lower triangular, `U` upper triangular. -/
structure IsPartialPivLU {n : Nat} (x : Matrix (Fin n) (Fin n) ℝ) (p : Equiv.Perm (Fin n)) (L U : Matrix (Fin n) (Fin n) ℝ) :
    Prop where
  product : p.permMatrix ℝ * x = L * U
  lower : ∀ i j, i < j → L i j = 0
  unit : ∀ i, L i i = 1
  upper : ∀ i j, j < i → U i j = 0

/-- Contract of `Eigen::FullPivLU`: `P * x * Q = L * U` with permutation matrices `P`, `Q`. -/
structure IsFullPivLU {n : Nat} (x P L U Q : Matrix (Fin n) (Fin n) ℝ) : Prop where
  product : P * x * Q = L * U
  rows : ∃ p : Equiv.Perm (Fin n), P = p.permMatrix ℝ
  columns : ∃ q : Equiv.Perm (Fin n), Q = q.permMatrix ℝ

/-- Contract of `Eigen::HouseholderQR`: `x = H * R` with `H` orthogonal and `R` the upper triangle of the packed matrix. -/
structure IsHouseholderQR {m n : Nat} (x : Matrix (Fin m) (Fin n) ℝ) (H : Matrix (Fin m) (Fin m) ℝ)
    (R : Matrix (Fin m) (Fin n) ℝ) : Prop where
  orthogonal : Hᵀ * H = 1
  product : x = H * Matrix.of fun (i : Fin m) (j : Fin n) => if i.val ≤ j.val then R i j else 0

/-- Mean of a column. -/
noncomputable def columnMean {n d : Nat} (X : Matrix (Fin n) (Fin d) ℝ) (j : Fin d) : ℝ := (∑ k, X k j) / (n : ℝ)

end OpenML.Spec
