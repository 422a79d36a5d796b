import Verif.Model.Eigen
import Verif.Model.Norm

/-!
# Model of `src/core/metric.hpp`

Scalars are real numbers. A quotient with denominator zero is infinite or NaN in C++; it is `none` here.
-/

namespace OpenML.Metric

/-- `mean_absolute_error` (`src/core/metric.hpp` lines 16-23). The difference of vectors of different length violates an
assertion. -/
noncomputable def meanAbsoluteError (yTrue yPred : List ℝ) : Res (Option ℝ) :=
  if yTrue.length ≠ yPred.length then .ub
  else if yTrue.length = 0 then .ok none
  else .ok (some ((List.zipWith (fun a b => (a - b) * (a - b)) yTrue yPred).sum / (yTrue.length : ℝ)))

/-- `mean()` of a vector expression (`src/core/metric.hpp` lines 42-43). -/
noncomputable def meanOf (l : List ℝ) : ℝ := l.sum / (l.length : ℝ)

/-- `square().mean() - pow(mean(), 2)` (`src/core/metric.hpp` lines 42-43). -/
noncomputable def spread (l : List ℝ) : ℝ := meanOf (l.map fun a => a * a) - meanOf l ^ 2

/-- `explained_variance_score` (`src/core/metric.hpp` lines 32-45). The mean of an empty vector violates an assertion. -/
noncomputable def explainedVariance (yTrue yPred : List ℝ) : Res (Option ℝ) :=
  if yPred.length ≠ yTrue.length ∨ yTrue.length = 0 then .ub
  else if spread yTrue = 0 then .ok none
  else .ok (some (1 - spread (List.zipWith (· - ·) yPred yTrue) / spread yTrue))

/-- `std::transform(a.begin(), a.end(), b.begin(), …)` with the given function (`src/core/metric.hpp` lines 53-54, 65-66):
one entry per entry of `a`, reading past the end of a shorter `b`. -/
noncomputable def pairUp (f : ℝ → ℝ → ℝ) : List ℝ → List ℝ → Res (List ℝ)
  | [], _ => .ok []
  | _ :: _, [] => .ub
  | x :: a, y :: b => do
    let l ← pairUp f a b
    .ok (f x y :: l)

/-- `euclidean_distance` (`src/core/metric.hpp` lines 50-57). -/
noncomputable def euclidean (a b : List ℝ) : Res ℝ := do
  let aux ← pairUp (fun x y => (x - y) ^ 2) a b
  .ok (Real.sqrt aux.sum)

/-- `manhattan_distance` (`src/core/metric.hpp` lines 62-69). -/
noncomputable def manhattan (a b : List ℝ) : Res ℝ := do
  let aux ← pairUp (fun x y => |x - y|) a b
  .ok aux.sum

/-- `x - y` as one sequence of entries (`src/core/metric.hpp` lines 107, 110, 113). -/
noncomputable def difference (x y : DMat ℝ) : List ℝ := List.zipWith (· - ·) x.rows.flatten y.rows.flatten

/-- `minkowski_distance` (`src/core/metric.hpp` lines 84-117); `Eigen::Infinity` is the integer -1. -/
noncomputable def minkowski (x y : DMat ℝ) (p : Int) : Res ℝ :=
  if x.nrows * x.ncols ≠ y.nrows * y.ncols then .throw .invalidArgument
  else if x.nrows ≠ y.nrows ∨ x.ncols ≠ y.ncols then .throw .invalidArgument
  else if p ∉ [1, 2, -1] then .throw .invalidArgument
  else if p = 2 then .ok (norm2 (difference x y))
  else if p = 1 then .ok (norm1 (difference x y))
  else .ok (normInf (difference x y))

end OpenML.Metric
