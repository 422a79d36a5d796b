import Verif.Model.Eigen

/-!
# Training sets that contain every sample several times
-/

namespace OpenML.Spec

/-- The table `X'` with targets `y'` consists of the samples of `X` with targets `y`, each of them `r` times, in any order. -/
structure Copied {α : Type} (r : Nat) (X : DMat α) (y : List α) (X' : DMat α) (y' : List α) : Prop where
  wf : X.WF
  wf' : X'.WF
  cols : X'.ncols = X.ncols
  len : y.length = X.nrows
  len' : y'.length = X'.nrows
  perm : (X'.rows.zip y').Perm (List.replicate r (X.rows.zip y)).flatten

end OpenML.Spec
