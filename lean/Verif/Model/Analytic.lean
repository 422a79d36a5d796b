import Verif.Model.MatOps
import Mathlib.Analysis.SpecialFunctions.Log.Basic
import Mathlib.Algebra.Order.BigOperators.Group.List

/-!
# Model of the analytic functions of `src/core/math/extmath.hpp` and `src/core/math/linalg.hpp`

Scalars are real numbers.
-/

namespace OpenML.Analytic

/-- One entry of `math::sigmoid` (`src/core/math/extmath.hpp` lines 19-21); the argument of the numerator is an entry of
`fmin(x, 0)`. -/
noncomputable def sigmoidEntry (m x : ℝ) : ℝ := Real.exp m / (1 + Real.exp (-|x|))

/-- `math::sigmoid` (`src/core/math/extmath.hpp` lines 16-22). -/
noncomputable def sigmoid (x : DMat ℝ) : DMat ℝ :=
  { x with rows := List.zipWith (List.zipWith sigmoidEntry) (MatOps.fmin x 0).rows x.rows }

/-- `maxCoeff()` of a line (`src/core/math/linalg.hpp` lines 287, 293, 299, `src/core/math/extmath.hpp` lines 243, 246,
249); an empty line violates an assertion. -/
noncomputable def maxLine : List ℝ → Res ℝ
  | [] => .ub
  | a :: l => .ok (l.foldl max a)

/-- `logsumexp` of one line (`src/core/math/linalg.hpp` lines 287-290, 293-296, 299-300). -/
noncomputable def logsumexpLine (l : List ℝ) : Res ℝ := do
  let c ← maxLine l
  .ok (Real.log (l.map fun a => Real.exp (a - c)).sum + c)

/-- `math::logsumexp` (`src/core/math/linalg.hpp` lines 283-305); for other axes the function ends without `return`. -/
noncomputable def logsumexp (x : DMat ℝ) (axis : Int) : Res (List ℝ) :=
  if axis = 1 then mapRes logsumexpLine x.rows
  else if axis = 0 then mapRes logsumexpLine x.cols
  else if axis = -1 then do
    let v ← logsumexpLine (MatOps.flattenMat x)
    .ok [v]
  else .ub

/-- One line of `math::softmax` (`src/core/math/extmath.hpp` lines 243-259, 267), or all entries (lines 249-264). -/
noncomputable def softmaxLine (l : List ℝ) : Res (List ℝ) := do
  let c ← maxLine l
  let e := l.map fun a => Real.exp (a - c)
  .ok (e.map fun a => a / e.sum)

/-- Entry `i` of every column, for each row `i`: a matrix filled by columns (`src/core/math/extmath.hpp` lines 243, 256, 267).
-/
def fromCols (nrows : Nat) (cols : List (List ℝ)) : DMat ℝ :=
  ⟨cols.length, (List.range nrows).map fun i => cols.filterMap (·[i]?)⟩

/-- `math::softmax` (`src/core/math/extmath.hpp` lines 234-270). Other axes leave `c` empty, so that `x - c` mismatches. -/
noncomputable def softmax (x : DMat ℝ) (axis : Int) : Res (DMat ℝ) :=
  if x.nrows = 1 ∨ x.ncols = 1 then .throw .invalidArgument
  else if axis = 0 then do
    let cols ← mapRes softmaxLine x.cols
    .ok (fromCols x.nrows cols)
  else if axis = 1 then do
    let rows ← mapRes softmaxLine x.rows
    .ok ⟨x.ncols, rows⟩
  else if axis = -1 then do
    let c ← maxLine (MatOps.flattenMat x)
    let e := x.rows.map fun r => r.map fun a => Real.exp (a - c)
    .ok ⟨x.ncols, e.map fun r => r.map fun a => a / e.flatten.sum⟩
  else .ub

end OpenML.Analytic
