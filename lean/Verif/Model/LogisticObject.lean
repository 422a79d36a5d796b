import Verif.Model.LinearFit
import Verif.Model.LBFGS

/-!
Objects of class `LogisticRegression`: their constructors and `fit`. A constructor leaves the members it does not mention as
they are in memory, so it maps the previous content of the memory to the members of the object.
-/

namespace OpenML.LogisticObject

open OpenML.SGD (Params)

/-- The members of `LogisticRegression` (`src/methods/linear_model/logistic_regression.hpp` lines 17-35). -/
structure Members where
  shuffle : Bool
  verbose : Bool
  alpha : ℝ
  lambda : ℝ
  tol : ℝ
  l1Ratio : ℝ
  ftol : ℝ
  wolfe : ℝ
  delta : ℝ
  noChange : Nat
  maxLinesearch : Nat
  batchSize : Nat
  maxIter : Nat
  memSize : Nat
  past : Nat
  solver : String
  penalty : String
  policy : String
  condition : String

/-- The default constructor (`src/methods/linear_model/logistic_regression.hpp` lines 174-185). Strings that are not mentioned
are default-constructed; numbers that are not mentioned keep the content `mem` of the memory. -/
noncomputable def default (mem : Members) : Members :=
  { mem with
    alpha := 0.1, lambda := 0, tol := 0.0001, batchSize := 16, maxIter := 2000, noChange := 5, solver := "sag"
    penalty := "None", shuffle := true, verbose := true, policy := "", condition := "" }

/-- The constructor for SGD and SAG (`src/methods/linear_model/logistic_regression.hpp` lines 188-208). -/
def gradient (alpha lambda tol : ℝ) (batchSize maxIter noChange : Nat) (solver penalty : String) (shuffle verbose : Bool)
    (mem : Members) : Members :=
  { mem with
    alpha := alpha, lambda := lambda, tol := tol, batchSize := batchSize, maxIter := maxIter, noChange := noChange
    solver := solver, penalty := penalty, shuffle := shuffle, verbose := verbose, policy := "", condition := "" }

/-- The constructor for coordinate descent (`src/methods/linear_model/logistic_regression.hpp` lines 211-225). -/
def coordinate (lambda l1Ratio : ℝ) (maxIter : Nat) (solver penalty : String) (shuffle verbose : Bool) (mem : Members) :
    Members :=
  { mem with
    lambda := lambda, l1Ratio := l1Ratio, maxIter := maxIter, solver := solver, penalty := penalty, shuffle := shuffle
    verbose := verbose, policy := "", condition := "" }

/-- The constructor for L-BFGS (`src/methods/linear_model/logistic_regression.hpp` lines 228-256). -/
def quasiNewton (tol ftol delta wolfe : ℝ) (maxIter memSize past maxLinesearch : Nat) (solver penalty policy condition : String)
    (shuffle verbose : Bool) (mem : Members) : Members :=
  { mem with
    tol := tol, ftol := ftol, delta := delta, wolfe := wolfe, maxIter := maxIter, memSize := memSize, past := past
    maxLinesearch := maxLinesearch, solver := solver, penalty := penalty, policy := policy, condition := condition
    shuffle := shuffle, verbose := verbose }

/-- The parameters handed to SGD, SAG and SCD (`src/methods/linear_model/logistic_regression.hpp` lines 61, 70-103, 129-137,
`src/core/optimizer/sgd/decay_policies/step_decay.hpp` lines 25-29). `perms` are the permutations drawn if `shuffle_` is set. -/
noncomputable def sgdParams (m : Members) (perms : Nat → List Nat) : Params ℝ where
  maxIter := m.maxIter
  batchSize := m.batchSize
  noChange := m.noChange
  tol := m.tol
  decay := SGD.stepDecay m.alpha 0.5 10
  shuffle := if m.shuffle then some perms else none

/-- The parameters handed to L-BFGS (`src/methods/linear_model/logistic_regression.hpp` lines 104-120,
`src/core/optimizer/lbfgs/params.hpp` lines 32-42). -/
noncomputable def lbfgsParams (m : Members) : LBFGS.Params ℝ where
  maxIter := m.maxIter
  memSize := m.memSize
  past := m.past
  tol := m.tol
  delta := m.delta
  policy := m.policy
  search := {
    dec := 0.5, inc := 2.1, ftol := m.ftol, wolfe := m.wolfe, maxStep := 10 ^ 20, minStep := 1 / 10 ^ 20
    maxLinesearch := m.maxLinesearch, condition := m.condition }

/-- `fit` of an object (`src/methods/linear_model/base.hpp` lines 88-91, `src/methods/linear_model/logistic_regression.hpp`
lines 41-152): the weights stored. The random numbers are the initial weights `init` and the permutations `perms`; `junk` is the
content of uninitialised entries in the run of L-BFGS, which makes at most `fuel` iterations. If L-BFGS does not assign a result,
the weights are an empty matrix (`src/core/optimizer/base.hpp` lines 96-98). -/
noncomputable def fit (m : Members) (perms : Nat → List Nat) (junk : Nat → ℝ) (fuel : Nat) (X : DMat ℝ) (y init : List ℝ) :
    Res (List ℝ) :=
  LinearFit.fitLogistic m.lambda m.l1Ratio m.penalty m.solver (sgdParams m perms)
    (fun loss X y w => do
      let r ← LBFGS.optimize Real.sqrt (lbfgsParams m) junk fuel loss X y w
      .ok (r.getD []))
    X y init

end OpenML.LogisticObject
