import Verif.Model.SGD

/-!
# Model of the linear models trained by an optimizer in `src/methods/linear_model`

Random initial weights, the content of uninitialised memory and the permutations of the shuffling are parameters.
-/

namespace OpenML.LinearFit

open SGD

/-- `X_new`: a column of ones is appended (`src/methods/linear_model/lasso_regression.hpp` lines 35-40,
`src/methods/linear_model/perceptron.hpp` lines 50-55, `src/methods/linear_model/softmax_regression.hpp` lines 45-50,
`src/methods/linear_model/logistic_regression.hpp` lines 51-55). -/
def withOnes {α : Type} [One α] (X : DMat α) : DMat α := ⟨X.ncols + 1, X.rows.map fun r => r ++ [1]⟩

/-- `X_new.cols()` (`src/methods/linear_model/lasso_regression.hpp` line 42, `src/methods/linear_model/perceptron.hpp` line 57,
`src/methods/linear_model/softmax_regression.hpp` line 54). -/
def numWeights {α : Type} [One α] (intercept : Bool) (X : DMat α) : Nat := (if intercept then withOnes X else X).ncols

/-- `BaseLinearModel::predict_label` (`src/methods/linear_model/base.hpp` lines 40-54) with weights `w`. -/
def predictLabel {α : Type} [Field α] (intercept : Bool) (w : List α) (X : DMat α) : Res (List α) :=
  if intercept then
    if X.ncols ≤ w.length then do
      let yPred ← Loss.mulVec X (w.take X.ncols)
      let b ← readAt w (w.length - 1)
      .ok (yPred.map fun a => a + b)
    else .ub
  else Loss.mulVec X w

/-- `LassoRegression::fit_data` (`src/methods/linear_model/lasso_regression.hpp` lines 27-58): the optimizer gets `X`, not `X_new`
(line 56). -/
def fitLasso {α : Type} [Field α] [LinearOrder α] (intercept : Bool) (l1Ratio lambda : α) (maxIter : Nat)
    (shuffle : Option (Nat → List Nat)) (X : DMat α) (y : List α) : Res (List α) :=
  SCD.scd ⟨Loss.mseEvaluate 0, Loss.mseGradient 0⟩ l1Ratio lambda maxIter shuffle X y (List.replicate (numWeights intercept X) 0)

/-- `Perceptron::fit_data` (`src/methods/linear_model/perceptron.hpp` lines 42-81) with initial weights `init`; the optimizer
gets `X`, not `X_new` (line 79). `buffer` is the content of the memory that `HingeLoss::gradient` sums up in. `p.decay` is
`StepDecay(alpha_)`. -/
def fitPerceptron {α : Type} [Field α] [LinearOrder α] (lambda : α) (buffer : List α) (p : Params α) (X : DMat α) (y init : List α) :
    Res (List α) :=
  sgd ⟨Loss.hingeEvaluate lambda 0, Loss.hingeGradient lambda 0 buffer⟩ clipGrad vanillaUpdate p X y init

/-- `Perceptron::predict` (`src/methods/linear_model/perceptron.hpp` lines 137-150). -/
def predictPerceptron {α : Type} [Field α] [LinearOrder α] (intercept : Bool) (w : List α) (X : DMat α) : Res (List α) := do
  let s ← predictLabel intercept w X
  .ok (s.map fun a => if a > 0 then 1 else 0)

/-- `label_set.size()` (`src/methods/linear_model/softmax_regression.hpp` lines 52-53). -/
noncomputable def numClasses (y : List ℝ) : Nat := y.toFinset.card

/-- `SoftmaxRegression::fit_data` (`src/methods/linear_model/softmax_regression.hpp` lines 39-79). Both constructors set the
intercept (lines 103, 128), so that the initial weights have a row more than `X` has columns; the optimizer gets `X` (line 77).
-/
noncomputable def fitSoftmax (lambda : ℝ) (p : Params ℝ) (X : DMat ℝ) (y : List ℝ) : Res (DMat ℝ) :=
  sgd ⟨Loss.softmaxEvaluate lambda, Loss.softmaxGradient lambda⟩ clipGradMat vanillaUpdateMat p X y
    ⟨numClasses y, List.replicate (numWeights true X) (List.replicate (numClasses y) 1)⟩

/-- `SoftmaxRegression::compute_decision_boundary` (`src/methods/linear_model/softmax_regression.hpp` lines 81-96), with
intercept; the last row of the weights is not used (lines 89-90). -/
def softmaxBoundary {α : Type} [Semiring α] (W X : DMat α) : Res (DMat α) :=
  if X.ncols ≤ W.nrows ∧ 1 ≤ W.nrows then Loss.mulMat X ⟨W.ncols, W.rows.take X.ncols⟩ else .ub

/-- `SoftmaxRegression::predict_prob` (`src/methods/linear_model/softmax_regression.hpp` lines 167-171). -/
noncomputable def softmaxProb (W X : DMat ℝ) : Res (DMat ℝ) := do
  let b ← softmaxBoundary W X
  Analytic.softmax b 1

/-- `SoftmaxRegression::predict` (`src/methods/linear_model/softmax_regression.hpp` lines 150-157). -/
noncomputable def softmaxPredict (W X : DMat ℝ) : Res (List Nat) := do
  let p ← softmaxProb W X
  MatOps.argmax p 1

/-- `LogisticRegression::predict` (`src/methods/linear_model/logistic_regression.hpp` lines 268-284); the class always has an
intercept. -/
noncomputable def predictLogistic (w : List ℝ) (X : DMat ℝ) : Res (List ℝ) := do
  let s ← predictLabel true w X
  .ok ((Loss.sigmoidV s).map fun a => if a > 0.5 then 0 else 1)

/-- `LogisticRegression::predict_prob` (`src/methods/linear_model/logistic_regression.hpp` lines 154-170, 294-299). -/
noncomputable def logisticProb (w : List ℝ) (X : DMat ℝ) : Res (DMat ℝ) := do
  let s ← predictLabel true w X
  let p := Loss.sigmoidV s
  MatOps.hstack ⟨1, p.map fun a => [a]⟩ ⟨1, p.map fun a => [1 - a]⟩

/-- `LogisticRegression::fit_data` (`src/methods/linear_model/logistic_regression.hpp` lines 41-152) with initial weights
`init`. `lbfgs` is the outcome of `LBFGS::optimize` for a loss, data and initial weights. -/
noncomputable def fitLogistic (lambda l1Ratio : ℝ) (penalty solver : String) (p : Params ℝ)
    (lbfgs : LossFn ℝ (List ℝ) → DMat ℝ → List ℝ → List ℝ → Res (List ℝ)) (X : DMat ℝ) (y init : List ℝ) : Res (List ℝ) :=
  let loss : LossFn ℝ (List ℝ) := ⟨Loss.logEvaluate lambda, Loss.logGradient lambda⟩
  if penalty = "l2" ∨ penalty = "None" then
    if solver = "sgd" then sgd loss clipGrad vanillaUpdate p (withOnes X) y init
    else if solver = "sag" then sag loss vanillaUpdate p (withOnes X) y init
    else if solver = "lbfgs" then lbfgs loss (withOnes X) y init
    else .throw .invalidArgument
  else if penalty = "l1" then
    if solver = "scd" then SCD.scd loss l1Ratio lambda p.maxIter p.shuffle (withOnes X) y init
    else .throw .invalidArgument
  else .throw .invalidArgument

end OpenML.LinearFit
