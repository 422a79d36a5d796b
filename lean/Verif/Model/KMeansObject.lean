import Verif.Model.KMeans
import Verif.Model.RandomMat

/-!
# Model of `KMeans` objects (`src/methods/cluster/kmeans.hpp`)

A program constructs an object and calls `fit` and `predict` any number of times. `checked` tells whether Eigen's assertions are
compiled in. None of these functions throws, so a program either finishes or has undefined behaviour (a failed assertion counts as
such).
-/

namespace OpenML.KMeansObject

/-- The parameters of the constructor (`src/methods/cluster/kmeans.hpp` lines 21-25, 197-205). -/
structure Params where
  init : String
  numInit : Nat
  k : Nat
  maxIter : Nat
  tol : ℝ

/-- The default constructor (`src/methods/cluster/kmeans.hpp` lines 191-195). -/
noncomputable def Params.default : Params := ⟨"kmeans++", 10, 3, 300, 1 / 10000⟩

/-- The member `centroids_` (`src/methods/cluster/kmeans.hpp` line 27): the rows, or at least one entry that was never written. -/
inductive Centroids where
  | entries (C : List (List ℝ))
  | indeterminate

/-- An object (`src/methods/cluster/kmeans.hpp` lines 21-27). -/
structure Object where
  params : Params
  centroids : Centroids

/-- The random numbers of one call of `fit`: the permutation (`src/methods/cluster/kmeans.hpp` line 114), the first index (line 40)
and the numbers of line 55. -/
structure Draw where
  perm : List Nat
  index : Nat → Nat
  unit : Nat → Nat → ℝ

/-- A new object (`src/methods/cluster/kmeans.hpp` lines 191-205): the matrix has no rows. -/
def construct (p : Params) : Object := ⟨p, .entries []⟩

/-- `init_centroid` (`src/methods/cluster/kmeans.hpp` lines 107-122). Without clusters `kmeans_plusplus` converts minus infinity to an
integer (line 37) and writes a row that does not exist (line 43). For any other string the matrix is only resized: Eigen does not
initialise new entries. (It keeps the old ones if the size does not change, but `init_` never changes, so these were not written
either.) -/
noncomputable def initCentroid (p : Params) (g : Draw) (X : DMat ℝ) : Res Centroids :=
  if p.init = "random" then do
    let C ← KMeans.initRandom g.perm p.k X
    .ok (.entries C)
  else if p.init = "kmeans++" then
    if p.k = 0 then .ub
    else do
      let C ← RandomMat.plusPlus g.index g.unit p.k X
      .ok (.entries C)
  else if p.k = 0 ∨ X.ncols = 0 then .ok (.entries (List.replicate p.k []))
  else .ok .indeterminate

/-- `KMeans::fit` (`src/methods/cluster/kmeans.hpp` lines 211-214, 127-164). Entries that were never written are read by the first
iteration if there is a sample. -/
noncomputable def fit (checked : Bool) (g : Draw) (X : DMat ℝ) (o : Object) : Res Object := do
  let c ← initCentroid o.params g X
  match c with
  | .entries C => do
    let C' ← KMeans.lloyd checked (KMeans.epsBelow o.params.tol) o.params.maxIter X C
    .ok ⟨o.params, .entries C'⟩
  | .indeterminate => if o.params.maxIter = 0 ∨ X.rows = [] then .ok ⟨o.params, .indeterminate⟩ else .ub

/-- `KMeans::predict` (`src/methods/cluster/kmeans.hpp` lines 169-188, 221-225): the rows `0, …, num_clusters_ - 1` of the matrix are
read for every sample. -/
noncomputable def predict (o : Object) (X : DMat ℝ) : Res (List Nat) :=
  match o.centroids with
  | .entries C => mapRes (fun x => do
      let R ← mapRes (readAt C) (List.range o.params.k)
      KMeans.nearest R x) X.rows
  | .indeterminate => if X.rows = [] then .ok [] else .ub

/-- A call in a program: `fit` with its random numbers or `predict` (`src/methods/cluster/kmeans.hpp` lines 211-214, 221-225). -/
inductive Action where
  | fit (g : Draw) (X : DMat ℝ)
  | predict (X : DMat ℝ)

/-- A program on one object, with the answers of its calls of `predict` (`src/methods/cluster/kmeans.hpp` lines 211-225). -/
noncomputable def run (checked : Bool) : Object → List Action → Res (Object × List (List Nat))
  | o, [] => .ok (o, [])
  | o, .fit g X :: as => do
    let o' ← fit checked g X o
    run checked o' as
  | o, .predict X :: as => do
    let labels ← predict o X
    let r ← run checked o as
    .ok (r.1, labels :: r.2)

end OpenML.KMeansObject
