import Verif.Model.LinearFit
import Verif.Model.LinearModel
import Verif.Model.LogisticObject

/-!
# Model of programs that use objects of the linear models

All six linear models keep what they learn in one member, the matrix `w_` of `BaseLinearModel`
(`src/methods/linear_model/base.hpp` line 24). It is a value, so copying an object copies it. Every `fit_data` assigns it in its last
statement, so that an exception thrown earlier leaves it as it was. A program may catch exceptions and go on; it stops at undefined
behaviour.
-/

namespace OpenML.EstObject

open OpenML.SGD (Params)

/-- A class of estimators: what `fit_data` assigns to `w_`, with the random numbers and the uninitialised memory it meets in `κ`, and
the answers to the questions `Q` that the `const` members give from `w_` (`src/methods/linear_model/base.hpp` lines 24-54, 74-104). -/
structure Class (κ Q A : Type) where
  fitData : κ → DMat ℝ → List ℝ → Res (DMat ℝ)
  ask : DMat ℝ → Q → Res A

/-- `w_` of a new object: a matrix without rows and columns (`src/methods/linear_model/base.hpp` lines 24, 60, 66). -/
def fresh : DMat ℝ := ⟨0, []⟩

/-- One statement of a program; objects have numbers as names (`src/methods/linear_model/base.hpp` lines 60-104; the copy operations
are the implicit ones). -/
inductive Op (κ Q : Type) where
  | construct (name : Nat)
  | copy (dst src : Nat)
  | assign (dst src : Nat)
  | destroy (name : Nat)
  | fit (name : Nat) (k : κ) (X : DMat ℝ) (y : List ℝ)
  | ask (name : Nat) (q : Q)

/-- What the program sees of a statement: that it returned, an answer, or an exception (`src/methods/linear_model/base.hpp` lines
74-104). -/
inductive Seen (A : Type) where
  | done
  | answer (a : A)
  | caught (e : Exn)

/-- The objects that exist with their `w_` (`src/methods/linear_model/base.hpp` line 24). -/
abbrev World := Nat → Option (DMat ℝ)

/-- One statement (`src/methods/linear_model/base.hpp` lines 60-104). Using a name that no object has, or constructing on top of an
object, is undefined. The assignment to `w_` is the last statement of each `fit_data`
(`src/methods/linear_model/linear_regression.hpp` line 45, `src/methods/linear_model/ridge_regression.hpp` line 45,
`src/methods/linear_model/lasso_regression.hpp` line 57, `src/methods/linear_model/perceptron.hpp` line 80,
`src/methods/linear_model/softmax_regression.hpp` line 78, `src/methods/linear_model/logistic_regression.hpp` line 151). -/
def step {κ Q A : Type} (C : Class κ Q A) (w : World) : Op κ Q → Res (World × Seen A)
  | .construct n =>
    match w n with
    | some _ => .ub
    | none => .ok (Function.update w n (some fresh), .done)
  | .copy d s =>
    match w d, w s with
    | none, some x => .ok (Function.update w d (some x), .done)
    | _, _ => .ub
  | .assign d s =>
    match w d, w s with
    | some _, some x => .ok (Function.update w d (some x), .done)
    | _, _ => .ub
  | .destroy n =>
    match w n with
    | none => .ub
    | some _ => .ok (Function.update w n none, .done)
  | .fit n k X y =>
    match w n with
    | none => .ub
    | some _ =>
      match C.fitData k X y with
      | .ok x => .ok (Function.update w n (some x), .done)
      | .throw e => .ok (w, .caught e)
      | .ub => .ub
      | .diverge => .diverge
  | .ask n q =>
    match w n with
    | none => .ub
    | some x =>
      match C.ask x q with
      | .ok a => .ok (w, .answer a)
      | .throw e => .ok (w, .caught e)
      | .ub => .ub
      | .diverge => .diverge

/-- A program that catches all exceptions (calls of the members in `src/methods/linear_model/base.hpp` lines 60-104). -/
def run {κ Q A : Type} (C : Class κ Q A) : World → List (Op κ Q) → Res (World × List (Seen A))
  | w, [] => .ok (w, [])
  | w, op :: ops => do
    let r ← step C w op
    let rest ← run C r.1 ops
    .ok (rest.1, r.2 :: rest.2)

/-- `MatType` where a `VecType` is wanted: Eigen asserts that there is one column (`src/methods/linear_model/base.hpp` lines 44-51,
74-76). -/
def asVector (W : DMat ℝ) : Res (List ℝ) := if W.ncols = 1 then .ok (W.col 0) else .ub

/-- A `VecType` assigned to the `MatType` member `w_` (for instance `src/methods/linear_model/lasso_regression.hpp` line 57). -/
def ofVector (w : List ℝ) : DMat ℝ := ⟨1, w.map fun a => [a]⟩

/-- The questions that all linear models answer (`src/methods/linear_model/base.hpp` lines 74-76, 100-104). -/
inductive Query where
  | coef
  | predict (X : DMat ℝ)

/-- `get_coef` and `predict` of `BaseLinearModel` (`src/methods/linear_model/base.hpp` lines 40-54, 74-76, 100-104). -/
noncomputable def askBase (intercept : Bool) (W : DMat ℝ) : Query → Res (List ℝ)
  | .coef => asVector W
  | .predict X => do
    let w ← asVector W
    LinearFit.predictLabel intercept w X

/-- `get_coef` and `predict` of `Perceptron` (`src/methods/linear_model/base.hpp` lines 74-76,
`src/methods/linear_model/perceptron.hpp` lines 137-150). -/
noncomputable def askPerceptron (intercept : Bool) (W : DMat ℝ) : Query → Res (List ℝ)
  | .coef => asVector W
  | .predict X => do
    let w ← asVector W
    LinearFit.predictPerceptron intercept w X

/-- The questions to a classifier with probabilities (`src/methods/linear_model/base.hpp` lines 74-76,
`src/methods/linear_model/logistic_regression.hpp` lines 268-299, `src/methods/linear_model/softmax_regression.hpp` lines 150-171). -/
inductive ProbQuery where
  | coef
  | predict (X : DMat ℝ)
  | prob (X : DMat ℝ)

/-- Answers of a classifier with probabilities: a vector or a matrix (`src/methods/linear_model/logistic_regression.hpp` lines 268-299,
`src/methods/linear_model/softmax_regression.hpp` lines 150-171). -/
inductive ProbAnswer where
  | vec (v : List ℝ)
  | mat (P : DMat ℝ)

/-- `get_coef`, `predict` and `predict_prob` of `LogisticRegression` (`src/methods/linear_model/base.hpp` lines 74-76,
`src/methods/linear_model/logistic_regression.hpp` lines 154-170, 268-299). -/
noncomputable def askLogistic (W : DMat ℝ) : ProbQuery → Res ProbAnswer
  | .coef => do
    let w ← asVector W
    .ok (.vec w)
  | .predict X => do
    let w ← asVector W
    let l ← LinearFit.predictLogistic w X
    .ok (.vec l)
  | .prob X => do
    let w ← asVector W
    let P ← LinearFit.logisticProb w X
    .ok (.mat P)

/-- `get_coef`, `predict` and `predict_prob` of `SoftmaxRegression` (`src/methods/linear_model/base.hpp` lines 74-76,
`src/methods/linear_model/softmax_regression.hpp` lines 81-96, 150-171). -/
noncomputable def askSoftmax (W : DMat ℝ) : ProbQuery → Res ProbAnswer
  | .coef => do
    let w ← asVector W
    .ok (.vec w)
  | .predict X => do
    let l ← LinearFit.softmaxPredict W X
    .ok (.vec (l.map fun i => (i : ℝ)))
  | .prob X => do
    let P ← LinearFit.softmaxProb W X
    .ok (.mat P)

/-- Entries of a rectangular matrix (the reads of `src/methods/linear_model/linear_regression.hpp` lines 29-45). -/
def toMatrix (X : DMat ℝ) : Matrix (Fin X.nrows) (Fin X.ncols) ℝ := fun i j => (X.rows[i.val]?.getD []).getD j.val 0

/-- The weights assigned by `LinearRegression::fit_data` and `RidgeRegression::fit_data`
(`src/methods/linear_model/linear_regression.hpp` line 45, `src/methods/linear_model/ridge_regression.hpp` line 45). If the matrix to
invert is singular the entries are not finite; `junk` stands for them. A label vector of another length violates an assertion. -/
noncomputable def solved {p : Nat} (junk : Nat → ℝ) (X : DMat ℝ) (y : List ℝ) (w : Option (Fin p → ℝ)) : Res (DMat ℝ) :=
  if y.length = X.nrows then
    match w with
    | some w => .ok (ofVector (List.ofFn w))
    | none => .ok (ofVector ((List.range p).map junk))
  else .ub

/-- `LinearRegression` (`src/methods/linear_model/linear_regression.hpp` lines 25-63). -/
noncomputable def linear (intercept : Bool) : Class (Nat → ℝ) Query (List ℝ) where
  fitData junk X y := solved junk X y (LinearModel.fitLinear intercept (toMatrix X) fun i => y.getD i.val 0)
  ask := askBase intercept

/-- `RidgeRegression` (`src/methods/linear_model/ridge_regression.hpp` lines 22-73). -/
noncomputable def ridge (lambda : ℝ) (intercept : Bool) : Class (Nat → ℝ) Query (List ℝ) where
  fitData junk X y := solved junk X y (LinearModel.fitRidge lambda intercept (toMatrix X) fun i => y.getD i.val 0)
  ask := askBase intercept

/-- `LassoRegression` (`src/methods/linear_model/lasso_regression.hpp` lines 27-95); a fit draws permutations. -/
noncomputable def lasso (intercept : Bool) (l1Ratio lambda : ℝ) (maxIter : Nat) (shuffle : Bool) :
    Class (Nat → List Nat) Query (List ℝ) where
  fitData perms X y := do
    let w ← LinearFit.fitLasso intercept l1Ratio lambda maxIter (if shuffle then some perms else none) X y
    .ok (ofVector w)
  ask := askBase intercept

/-- `Perceptron` (`src/methods/linear_model/perceptron.hpp` lines 42-152); a fit draws initial weights and permutations and finds a
buffer in memory. `p` are the parameters but for the permutations. -/
noncomputable def perceptron (intercept : Bool) (lambda : ℝ) (p : Params ℝ) (shuffle : Bool) :
    Class (List ℝ × List ℝ × (Nat → List Nat)) Query (List ℝ) where
  fitData k X y := do
    let w ← LinearFit.fitPerceptron lambda k.2.1 { p with shuffle := if shuffle then some k.2.2 else none } X y k.1
    .ok (ofVector w)
  ask := askPerceptron intercept

/-- `SoftmaxRegression` (`src/methods/linear_model/softmax_regression.hpp` lines 39-173). -/
noncomputable def softmax (lambda : ℝ) (p : Params ℝ) (shuffle : Bool) : Class (Nat → List Nat) ProbQuery ProbAnswer where
  fitData perms X y := LinearFit.fitSoftmax lambda { p with shuffle := if shuffle then some perms else none } X y
  ask := askSoftmax

/-- The random numbers and the memory of a fit of `LogisticRegression` (`src/methods/linear_model/logistic_regression.hpp` lines
41-152); `fuel` bounds the iterations of L-BFGS that are looked at. -/
structure LogisticDraw where
  perms : Nat → List Nat
  junk : Nat → ℝ
  fuel : Nat
  init : List ℝ

/-- What `opt->get_coef()` returns: a column, or a matrix without rows and columns if L-BFGS did not assign a result
(`src/methods/linear_model/logistic_regression.hpp` lines 150-151, `src/core/optimizer/base.hpp` lines 37-38, 96-98,
`src/core/optimizer/lbfgs/lbfgs.hpp` lines 114-118). Weights have at least one entry, the bias. -/
def ofCoef (w : List ℝ) : DMat ℝ := if w = [] then fresh else ofVector w

/-- `LogisticRegression` with the members `m` (`src/methods/linear_model/logistic_regression.hpp` lines 41-301). -/
noncomputable def logistic (m : LogisticObject.Members) : Class LogisticDraw ProbQuery ProbAnswer where
  fitData k X y := do
    let w ← LogisticObject.fit m k.perms k.junk k.fuel X y k.init
    .ok (ofCoef w)
  ask := askLogistic

end OpenML.EstObject
