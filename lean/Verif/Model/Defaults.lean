import Verif.Model.LinearFit
import Verif.Model.LogisticObject
import Verif.Model.TruncatedSVD

/-!
Estimators as their default constructors make them. The permutations drawn by the shuffling and random initial values are
parameters.
-/

namespace OpenML.Defaults

open OpenML.SGD (Params)

/-- `fit` of a `LassoRegression()` (`src/methods/linear_model/lasso_regression.hpp` lines 65-70). -/
noncomputable def lasso (perms : Nat → List Nat) (X : DMat ℝ) (y : List ℝ) : Res (List ℝ) :=
  LinearFit.fitLasso true 1 0.001 5000 (some perms) X y

/-- The parameters of a `Perceptron()` (`src/methods/linear_model/perceptron.hpp` lines 88-97). -/
noncomputable def perceptronParams (perms : Nat → List Nat) : Params ℝ where
  maxIter := 2000
  batchSize := 32
  noChange := 5
  tol := 0.0001
  decay := SGD.stepDecay 0.001 0.5 10
  shuffle := some perms

/-- `fit` of a `Perceptron()` (`src/methods/linear_model/perceptron.hpp` lines 42-81, 88-97). -/
noncomputable def perceptron (buffer : List ℝ) (perms : Nat → List Nat) (X : DMat ℝ) (y init : List ℝ) : Res (List ℝ) :=
  LinearFit.fitPerceptron 0 buffer (perceptronParams perms) X y init

/-- The parameters of a `SoftmaxRegression()` (`src/methods/linear_model/softmax_regression.hpp` lines 103-113). -/
noncomputable def softmaxParams (perms : Nat → List Nat) : Params ℝ where
  maxIter := 2000
  batchSize := 4
  noChange := 5
  tol := 0.0001
  decay := SGD.stepDecay 0.01 0.5 10
  shuffle := some perms

/-- `fit` of a `SoftmaxRegression()` (`src/methods/linear_model/softmax_regression.hpp` lines 39-79, 103-113). -/
noncomputable def softmax (perms : Nat → List Nat) (X : DMat ℝ) (y : List ℝ) : Res (DMat ℝ) :=
  LinearFit.fitSoftmax 0 (softmaxParams perms) X y

/-- `fit` of a `LogisticRegression()` (`src/methods/linear_model/logistic_regression.hpp` lines 41-152, 174-185) constructed in
memory with content `mem`. -/
noncomputable def logistic (mem : LogisticObject.Members) (perms : Nat → List Nat) (junk : Nat → ℝ) (fuel : Nat) (X : DMat ℝ)
    (y init : List ℝ) : Res (List ℝ) :=
  LogisticObject.fit (LogisticObject.default mem) perms junk fuel X y init

/-- `fit` of a `TruncatedSVD()` (`src/methods/decomposition/truncated_svd.hpp` lines 33-54, 66-70). -/
noncomputable def truncatedSVD {M N : Nat} (dec : TruncatedSVD.Decompositions) (X : Matrix (Fin M) (Fin N) ℝ)
    (Q0 : Matrix (Fin N) (Fin (2 + 2)) ℝ) : Res (Option (TruncatedSVD.Fitted 2 N)) :=
  TruncatedSVD.fit dec "randomized" X 2 2 4 "LU" Q0

end OpenML.Defaults
