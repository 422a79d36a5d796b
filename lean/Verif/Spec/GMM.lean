import Verif.Spec.PCA
import Mathlib.LinearAlgebra.Matrix.PosDef

/-!
# Specifications for Gaussian mixtures: densities, posterior probabilities and the EM iteration
-/

namespace OpenML.Spec

open Matrix

/-- A mixture of `K` normal distributions on `d`-dimensional space. -/
structure Mixture (K d : Nat) where
  weight : Fin K → ℝ
  mean : Fin K → Fin d → ℝ
  cov : Fin K → Matrix (Fin d) (Fin d) ℝ

/-- The density of a mixture. -/
noncomputable def Mixture.density {K d : Nat} (θ : Mixture K d) (x : Fin d → ℝ) : ℝ :=
  ∑ k, θ.weight k * Real.exp (logNormal (θ.mean k) (θ.cov k) x)

/-- The posterior probability of component `k` given the point `x` (Bayes' rule). -/
noncomputable def Mixture.posterior {K d : Nat} (θ : Mixture K d) (x : Fin d → ℝ) (k : Fin K) : ℝ :=
  θ.weight k * Real.exp (logNormal (θ.mean k) (θ.cov k) x) / θ.density x

/-- The mean log likelihood of data. -/
noncomputable def Mixture.meanLogLik {n K d : Nat} (θ : Mixture K d) (X : Matrix (Fin n) (Fin d) ℝ) : ℝ :=
  (∑ i, Real.log (θ.density (X i))) / (n : ℝ)

/-- Parameters estimated from responsibilities `R`: every component has the size `N k`, ten machine epsilons more than the sum of its
responsibilities; weights are the sizes over the number of samples, means are weighted by the responsibilities, and covariances are
weighted scatter matrices (or the pooled one) with `reg` added on the diagonal. -/
noncomputable def emUpdate {n K d : Nat} (pooled : Bool) (eps reg : ℝ) (X : Matrix (Fin n) (Fin d) ℝ) (R : Fin n → Fin K → ℝ) :
    Mixture K d :=
  let N : Fin K → ℝ := fun k => (∑ i, R i k) + 10 * eps
  let μ : Fin K → Fin d → ℝ := fun k => (N k)⁻¹ • ∑ i, R i k • X i
  { weight := fun k => N k / n
    mean := μ
    cov := fun k =>
      if pooled then
        (∑ l, N l)⁻¹ • (∑ i, vecMulVec (X i) (X i) - ∑ l, N l • vecMulVec (μ l) (μ l)) + reg • 1
      else (N k)⁻¹ • ∑ i, R i k • vecMulVec (X i - μ k) (X i - μ k) + reg • 1 }

/-- The EM iteration from initial responsibilities: estimate, then alternate posterior probabilities and estimates. -/
noncomputable def emSeq {n K d : Nat} (pooled : Bool) (eps reg : ℝ) (X : Matrix (Fin n) (Fin d) ℝ) (R : Fin n → Fin K → ℝ) :
    Nat → Mixture K d
  | 0 => emUpdate pooled eps reg X R
  | t + 1 => emUpdate pooled eps reg X fun i => (emSeq pooled eps reg X R t).posterior (X i)

/-- A sequence of values `v` is followed up to index `T` by a loop of at most `maxIter` iterations, which stops at the first index from
1 on whose value differs from the one before by less than `tol`; `conv` tells whether there was such an index. -/
def EMStopsAt (v : Nat → ℝ) (maxIter : Nat) (tol : ℝ) (T : Nat) (conv : Bool) : Prop :=
  T < maxIter ∧ (∀ s, 1 ≤ s → s < T → tol ≤ |v s - v (s - 1)|) ∧
    if conv then 1 ≤ T ∧ |v T - v (T - 1)| < tol else T + 1 = maxIter ∧ (1 ≤ T → tol ≤ |v T - v (T - 1)|)

/-- The factor of a Cholesky decomposition: lower triangular with positive diagonal. -/
structure IsCholesky {d : Nat} (A L : Matrix (Fin d) (Fin d) ℝ) : Prop where
  lower : ∀ i j, i < j → L i j = 0
  pos : ∀ i, 0 < L i i
  product : L * Lᵀ = A

/-- An upper triangular matrix with positive diagonal whose product with its transpose is the inverse of `C`. -/
structure IsPrecisionChol {d : Nat} (C P : Matrix (Fin d) (Fin d) ℝ) : Prop where
  upper : ∀ i j, j < i → P i j = 0
  pos : ∀ i, 0 < P i i
  product : P * Pᵀ = C⁻¹

/-- What is asked of a Cholesky routine: it gives factors of symmetric matrices, and succeeds for all positive definite ones. -/
structure CholeskyRoutine {d : Nat} (chol : Matrix (Fin d) (Fin d) ℝ → Option (Matrix (Fin d) (Fin d) ℝ)) : Prop where
  sound : ∀ A L, A.IsSymm → chol A = some L → IsCholesky A L
  complete : ∀ A, A.PosDef → (chol A).isSome

/-- `b` is the first index below `m` where `v` is largest. -/
def IsFirstArgmax (v : Nat → ℝ) (m b : Nat) : Prop := b < m ∧ (∀ i < m, v i ≤ v b) ∧ ∀ i < b, v i < v b

end OpenML.Spec
