import Verif.Model.MatOps
import Mathlib.Algebra.Order.Group.Abs
import Mathlib.Algebra.Order.Ring.Defs

/-!
# Model of `math::svd_flip` (`src/core/math/extmath.hpp` lines 36-93)
-/

namespace OpenML.SvdFlip

variable {α : Type} [CommRing α] [LinearOrder α]

/-- `math::abs` of a matrix (`src/core/math/extmath.hpp` lines 61, 77; `src/core/math/ops.hpp` lines 206-209). -/
def absMat (x : DMat α) : DMat α := { x with rows := x.rows.map fun r => r.map fun a => |a| }

/-- One entry of `math::sign` (`src/core/math/ops.hpp` lines 230-233). -/
def sgn (a : α) : α := if 0 < a then 1 else if a < 0 then -1 else 0

/-- `U(i, j)` (`src/core/math/extmath.hpp` lines 69, 85). -/
def entryAt (x : DMat α) (i j : Nat) : Res α := do
  let r ← readAt x.rows i
  readAt r j

/-- Signs of the entries of largest absolute value of the columns (`src/core/math/extmath.hpp` lines 60-71). -/
def columnSigns (U : DMat α) : Res (List α) := do
  let idx ← MatOps.argmax (absMat U) 0
  let top ← mapRes (fun (e : Nat × Nat) => entryAt U e.1 e.2) idx.zipIdx
  .ok (top.map sgn)

/-- Signs of the entries of largest absolute value of the rows (`src/core/math/extmath.hpp` lines 76-88). -/
def rowSigns (Vt : DMat α) : Res (List α) := do
  let idx ← MatOps.argmax (absMat Vt) 1
  let top ← mapRes (fun (e : Nat × Nat) => entryAt Vt e.2 e.1) idx.zipIdx
  .ok (top.map sgn)

/-- `U.array().rowwise() * signs.transpose().array()` (`src/core/math/extmath.hpp` lines 72, 89): column `j` times
`signs(j)`; a different number of columns violates an assertion. -/
def scaleColumns (U : DMat α) (signs : List α) : Res (DMat α) :=
  if U.ncols = signs.length then .ok { U with rows := U.rows.map fun r => List.zipWith (· * ·) r signs } else .ub

/-- `Vt.array().colwise() * signs.array()` (`src/core/math/extmath.hpp` lines 73, 90): row `i` times `signs(i)`; a different
number of rows violates an assertion. -/
def scaleRows (Vt : DMat α) (signs : List α) : Res (DMat α) :=
  if Vt.nrows = signs.length then .ok { Vt with rows := List.zipWith (fun r s => r.map (· * s)) Vt.rows signs } else .ub

/-- `math::svd_flip` (`src/core/math/extmath.hpp` lines 52-93). -/
def svdFlip (U Vt : DMat α) (uBased : Bool) : Res (DMat α × DMat α) := do
  let signs ← if uBased then columnSigns U else rowSigns Vt
  let U' ← scaleColumns U signs
  let Vt' ← scaleRows Vt signs
  .ok (U', Vt')

end OpenML.SvdFlip
