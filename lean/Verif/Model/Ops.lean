import Verif.Model.Res
import Verif.Model.Eigen
import Mathlib.Analysis.SpecialFunctions.Pow.Real

/-!
# Model of the entrywise functions, the norms and the normal density of `core/math`

Real numbers instead of floating point. `none` is a result that is no finite number (NaN or infinity).
-/

namespace OpenML.Ops

/-- `math::abs` (`src/core/math/ops.hpp` lines 206-209). -/
noncomputable def absM (x : DMat ℝ) : DMat ℝ := ⟨x.ncols, x.rows.map fun r => r.map fun a => |a|⟩

/-- One entry of `math::sign` (`src/core/math/ops.hpp` lines 230-233). -/
noncomputable def signEntry (a : ℝ) : ℝ := if a < 0 then -1 else if 0 < a then 1 else 0

/-- `math::sign` (`src/core/math/ops.hpp` lines 230-233). -/
noncomputable def sign (x : DMat ℝ) : DMat ℝ := ⟨x.ncols, x.rows.map fun r => r.map signEntry⟩

open Classical in
/-- One entry of `math::power` (`src/core/math/ops.hpp` lines 219-222): `std::pow` has a finite value for positive bases, for zero
with a non-negative exponent and for negative bases with an integer exponent. -/
noncomputable def powEntry (p a : ℝ) : Option ℝ :=
  if 0 < a ∨ (a = 0 ∧ 0 ≤ p) ∨ (a < 0 ∧ ∃ n : ℤ, p = n) then some (a ^ p) else none

/-- `math::power` (`src/core/math/ops.hpp` lines 219-222). -/
noncomputable def power (x : DMat ℝ) (p : ℝ) : List (List (Option ℝ)) := x.rows.map fun r => r.map (powEntry p)

/-- `norm()` of a line (`src/core/math/ops.hpp` lines 241, 244). -/
noncomputable def normLine (l : List ℝ) : ℝ := Real.sqrt ((l.map fun a => a * a).sum)

/-- `math::norm2` (`src/core/math/ops.hpp` lines 238-246); for other axes the function ends without `return`. -/
noncomputable def norm2 (x : DMat ℝ) (axis : Int) : Res (List ℝ) :=
  if axis = 0 then .ok (x.cols.map normLine) else if axis = 1 then .ok (x.rows.map normLine) else .ub

/-- `math::row_norms` (`src/core/math/extmath.hpp` lines 211-224): the sums of the squared entries of the rows, or their square roots. -/
noncomputable def rowNorms (x : DMat ℝ) (squared : Bool) : List ℝ :=
  let sums := x.rows.map fun r => (r.map fun a => a * a).sum
  if squared then sums else sums.map Real.sqrt

/-- `math::diagmat` (`src/core/math/extmath.hpp` lines 30-36). -/
def diagmat {α : Type} [Zero α] (x : List α) : DMat α :=
  ⟨x.length, (List.range x.length).map fun i => (List.range x.length).map fun j => if i = j then x.getD i 0 else 0⟩

/-- `math::gaussian_fn` (`src/core/math/proba.hpp` lines 18-25) for a positive variance; other variances give no finite number. -/
noncomputable def gaussianFn (x u v : ℝ) : Option ℝ :=
  if 0 < v then some (-1 * (x - u) ^ 2 / (2 * v) - Real.log (Real.sqrt (2 * Real.pi * v))) else none

end OpenML.Ops
