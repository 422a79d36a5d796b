import Mathlib.Algebra.Order.Ring.Defs
import Mathlib.Algebra.Order.Group.Abs
import Mathlib.Analysis.Real.Sqrt

/-!
# The `lpNorm` reductions of Eigen used for distances

Called through `common::norm` (`src/core/common.hpp` lines 898-924) and `metric::minkowski_distance`
(`src/core/metric.hpp` lines 85-117).
-/

namespace OpenML

/-- `lpNorm<1>()` (`src/core/common.hpp` line 917, `src/core/metric.hpp` line 110). -/
def norm1 {α : Type} [CommRing α] [LinearOrder α] (v : List α) : α := (v.map fun a => |a|).sum

/-- `lpNorm<Infinity>()`, 0 for an empty vector (`src/core/common.hpp` line 920, `src/core/metric.hpp` line 113). -/
def normInf {α : Type} [CommRing α] [LinearOrder α] (v : List α) : α := (v.map fun a => |a|).foldl max 0

/-- `lpNorm<2>()` over the reals (`src/core/common.hpp` line 914, `src/core/metric.hpp` line 107). -/
noncomputable def norm2 (v : List ℝ) : ℝ := Real.sqrt ((v.map fun a => a * a).sum)

end OpenML
