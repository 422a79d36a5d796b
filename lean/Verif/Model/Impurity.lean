import Verif.Model.VecOps
import Verif.Model.Eigen
import Mathlib.Algebra.Order.Field.Basic
import Mathlib.Analysis.SpecialFunctions.Log.Base

/-!
# Models of `math::entropy` and `math::gini` (`src/core/math/extmath.hpp`)

Exact arithmetic. Labels come from a linear order (no NaN).
-/

namespace OpenML.Impurity

variable {β : Type} [LinearOrder β]

/-- The keys of `x_count_map` and `w_count_map` in iteration order (`src/core/math/extmath.hpp` lines 124-134, 177-187):
the different labels, increasing. -/
def keys (x : List β) : List β := VecOps.stdUnique (VecOps.stdSort x)

/-- `w_count_map[k]` (`src/core/math/extmath.hpp` lines 127-130, 180-183): the weights of the samples labelled `k`. -/
def weightsOf {K : Type} (x : List β) (w : List K) (k : β) : List K :=
  (x.zip w).filterMap fun p => if p.1 = k then some p.2 else none

/-- `p_i` of one label (`src/core/math/extmath.hpp` lines 136-144, 189-197): count times mean weight over the number of
samples. -/
def share {K : Type} [Field K] (x : List β) (w : List K) (k : β) : K :=
  1 * (x.count k : K) * ((weightsOf x w k).sum / ((weightsOf x w k).length : K)) / (x.length : K)

/-- The weight vector in effect and its size check (`src/core/math/extmath.hpp` lines 109-121, 164-175). -/
def effectiveWeights {K : Type} [Field K] (x : List β) (weight : List K) : Res (List K) :=
  let w := if weight = [] then List.replicate x.length 1 else weight
  if w.length ≠ 0 ∧ w.length ≠ x.length then .throw .invalidArgument else .ok w

/-- `math::gini(x, weight)` (`src/core/math/extmath.hpp` lines 160-201). -/
def gini {K : Type} [Field K] [DecidableEq K] (x : List β) (weight : List K) : Res K := do
  let w ← effectiveWeights x weight
  .ok (1 - ((keys x).map fun k => share x w k ^ 2).sum)

/-- `math::entropy(x, weight)` (`src/core/math/extmath.hpp` lines 104-149). `0 * log2(0)`, a NaN in C++ that needs zero
weights, is 0 here. -/
noncomputable def entropy (x : List β) (weight : List ℝ) : Res ℝ := do
  let w ← (open Classical in effectiveWeights x weight)
  .ok (((keys x).map fun k => -share x w k * Real.logb 2 (share x w k)).sum)

end OpenML.Impurity
