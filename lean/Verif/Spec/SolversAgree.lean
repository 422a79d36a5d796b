import Verif.Model.LogisticObject
import Verif.Spec.LogStability
import Verif.Props.LBFGSConverges

/-!
# Specification: settings with which the solvers of logistic regression reach a small gradient
-/

namespace OpenML.Spec

open LogisticObject

/-- The learning rate of an epoch of gradient descent with all `n` samples in one batch. The solver `sag` divides by the batch size. -/
noncomputable def epochRate (m : Members) (n K : Nat) : ℝ :=
  (if m.solver = "sgd" then m.alpha else m.alpha / n) * 0.5 ^ ((1 + K) / 10)

/-- Settings for gradient descent: all samples in one batch, a learning rate suited to the data, a start from which no gradient is
clipped, permutations of the samples if they are shuffled. `X` contains the column of ones. -/
structure GradientSettings (m : Members) (perms : Nat → List Nat) (X : DMat ℝ) (a : ℝ) : Prop where
  solver : m.solver = "sgd" ∨ m.solver = "sag"
  penalty : m.penalty = "l2" ∨ m.penalty = "None"
  batch : m.batchSize = X.nrows
  patience : m.noChange ≠ 0
  positive : 0 < m.alpha
  rate : (if m.solver = "sgd" then m.alpha else m.alpha / X.nrows) * steepness (1 / 4) m.lambda X.rows ≤ 1
  noClip : 2 * steepness (1 / 4) m.lambda X.rows * a ≤ 10 ^ 20
  perms : ∀ i, (perms i).Perm (List.range X.nrows)

/-- Settings for L-BFGS: bracketing search with a Wolfe condition and wide limits, no test of the decrease, enough iterations. -/
structure QuasiNewtonSettings (m : Members) (X : DMat ℝ) (g0 : List ℝ) (A B N : Nat) : Prop where
  solver : m.solver = "lbfgs"
  penalty : m.penalty = "l2" ∨ m.penalty = "None"
  policy : m.policy = "bracketing"
  condition : m.condition ≠ "ARMIJO"
  wolfe : m.wolfe < 1
  ftol : 0 < m.ftol
  product : m.ftol * (1 - m.wolfe) ≤ 1 / 2
  tol : 0 ≤ m.tol
  delta : m.delta ≤ 0
  memory : 0 < m.memSize
  past : 0 < m.past
  wide : WideSearch (lbfgsParams m) (m.lambda / X.nrows) (steepness (1 / 4) m.lambda X.rows) (rowSize g0) A B
  enough : (g0.map fun a => a ^ 2).sum <
    2 * (m.lambda / X.nrows) * lbfgsGain m.memSize (m.lambda / X.nrows) (steepness (1 / 4) m.lambda X.rows) m.ftol m.wolfe * m.tol ^ 2 * N
  limit : m.maxIter = 0 ∨ N < m.maxIter

end OpenML.Spec
