import Verif.Spec.EstimatorObject

/-!
# What linear models should answer
-/

namespace OpenML.Spec

/-- A sample with the entry one for the intercept. -/
def extended (b : Bool) (r : List ℝ) : List ℝ := if b then r ++ [1] else r

/-- The score that weights give to a sample. -/
def scoreOf (b : Bool) (v r : List ℝ) : ℝ := (List.zipWith (· * ·) (extended b r) v).sum

/-- How many weights there are. -/
def weightLength (b : Bool) (X : DMat ℝ) : Nat := if b then X.ncols + 1 else X.ncols

/-- The sum of the squared differences between scores and targets. -/
def trainingError (b : Bool) (X : DMat ℝ) (y v : List ℝ) : ℝ := ((X.rows.zip y).map fun e => (scoreOf b v e.1 - e.2) ^ 2).sum

/-- The sum of the squares of all weights. -/
def sumSquares (v : List ℝ) : ℝ := (v.map fun a => a ^ 2).sum

end OpenML.Spec
