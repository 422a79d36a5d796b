import Verif.Model.Eigen
import Mathlib.Analysis.SpecialFunctions.Exp

/-!
# Model of `src/methods/cluster/spectral_clustering.hpp` and of `math::eig`

The file does not compile: `X.cols(j)` (line 42) is read as `X.col(j)`, and `predict`, which has no body, is left out.
-/

namespace OpenML.Spectral

/-- `math::eig` (`src/core/math/linalg.hpp` lines 336-364); `solver` is the outcome of `Eigen::EigenSolver`, `none` if it does
not succeed. -/
def eig {α : Type} (solver : DMat α → Option (DMat α × DMat α)) (x : DMat α) : Res (DMat α × DMat α) :=
  if x.nrows = 0 then .throw .invalidArgument
  else match solver x with
    | none => .throw .runtimeError
    | some r => .ok r

/-- The weight computed for columns `i` and `j` (`src/methods/cluster/spectral_clustering.hpp` line 42). -/
noncomputable def weight (gamma : ℝ) (X : DMat ℝ) (i j : Nat) : ℝ :=
  Real.exp ((List.zipWith (fun a b => (a - b) ^ 2) (X.col i) (X.col j)).sum / (-2 * gamma * gamma))

/-- Entry `(i, j)` of `W`: it is computed for the smaller index first and stored twice
(`src/methods/cluster/spectral_clustering.hpp` lines 40-46). -/
noncomputable def entryW (gamma : ℝ) (X : DMat ℝ) (i j : Nat) : ℝ := if i ≤ j then weight gamma X i j else weight gamma X j i

/-- `laplace_matrix` (`src/methods/cluster/spectral_clustering.hpp` lines 36-51): the new `laplace_m_`. Columns are read with
numbers of rows, so that a matrix with more rows than columns is read out of bounds. A zero `gamma` makes the diagonal 0/0. -/
noncomputable def laplaceMatrix (gamma : ℝ) (X : DMat ℝ) : Res (DMat ℝ) :=
  if gamma = 0 then .ub
  else if X.nrows ≤ X.ncols then
    .ok ⟨X.nrows, (List.range X.nrows).map fun i => (List.range X.nrows).map fun j =>
      (if i = j then ((List.range X.nrows).map fun k => entryW gamma X k j).sum else 0) - entryW gamma X i j⟩
  else .ub

/-- An object of the class: `laplace_m_` (`src/methods/cluster/spectral_clustering.hpp` line 31). -/
structure State where
  laplace : DMat ℝ

/-- Both constructors leave `laplace_m_` empty (`src/methods/cluster/spectral_clustering.hpp` lines 54-68). -/
def construct : State := ⟨⟨0, []⟩⟩

/-- `fit_transform` (`src/methods/cluster/spectral_clustering.hpp` lines 73-75): the argument is not used. -/
def fitTransform (solver : DMat ℝ → Option (DMat ℝ × DMat ℝ)) (s : State) (_X : DMat ℝ) : Res (State × DMat ℝ × DMat ℝ) := do
  let r ← eig solver s.laplace
  .ok (s, r.1, r.2)

end OpenML.Spectral
