import Verif.Model.MatOps
import Verif.Model.Stats
import Verif.Model.Impurity
import Mathlib.Analysis.SpecialFunctions.Log.Basic
import Mathlib.Analysis.SpecialFunctions.Pow.NNReal

/-!
# Model of `src/methods/cluster/kmeans.hpp`

Scalars are a field with a linear order, computed exactly, and all numbers are below `ConstType<DataType>::max()`. Norms are
only compared with each other, so squared norms are used for them; the stopping test, which adds norms, is a parameter.
Random numbers are parameters.
-/

namespace OpenML.KMeans

variable {α : Type} [Field α] [LinearOrder α]

/-- Difference of two rows (`src/methods/cluster/kmeans.hpp` lines 46, 79, 140, 154, 178); rows of different size violate an
assertion. -/
def rowDiff (x c : List α) : Res (List α) :=
  if x.length = c.length then .ok (List.zipWith (· - ·) x c) else .ub

/-- `squaredNorm` of a row (`src/core/math/extmath.hpp` lines 212-217, `src/methods/cluster/kmeans.hpp` lines 141, 179 where
the norms are compared). -/
def sqNorm (d : List α) : α := (d.map fun a => a * a).sum

/-- The loop over the centroids (`src/methods/cluster/kmeans.hpp` lines 135-146, 173-184): `j` is the index of the first
centroid in the list, `best` the least squared distance so far (`none` is infinity) and `arg` its index. -/
def nearestFrom (x : List α) : List (List α) → Nat → Option α → Nat → Res Nat
  | [], _, _, arg => .ok arg
  | c :: cs, j, best, arg => do
    let d ← rowDiff x c
    let s := sqNorm d
    if best.all fun b => decide (s < b) then nearestFrom x cs (j + 1) (some s) j else nearestFrom x cs (j + 1) best arg

/-- The index chosen for one sample (`src/methods/cluster/kmeans.hpp` lines 135-146, 173-184). -/
def nearest (C : List (List α)) (x : List α) : Res Nat := nearestFrom x C 0 none 0

/-- `KMeans::predict` (`src/methods/cluster/kmeans.hpp` lines 169-188, 221-225). -/
def predict (C : List (List α)) (X : DMat α) : Res (List Nat) := mapRes (nearest C) X.rows

/-- The rows whose index was put into `clusters[c]` (`src/methods/cluster/kmeans.hpp` lines 147, 152), in order. -/
def members (X : DMat α) (labels : List Nat) (c : Nat) : List (List α) :=
  (X.rows.zip labels).filterMap fun e => if e.2 = c then some e.1 else none

/-- `math::mean(cluster, 0)` (`src/methods/cluster/kmeans.hpp` line 153, `src/core/math/ops.hpp` lines 99-104); the cluster
has at least one row. -/
def meanRow (ncols : Nat) (rows : List (List α)) : List α :=
  (DMat.cols ⟨ncols, rows⟩).map fun c => c.sum / (c.length : α)

/-- The loop moving the centroids (`src/methods/cluster/kmeans.hpp` lines 151-158) over the keys of `clusters`; it returns
the centroids and the differences whose norms are added. `mean_c.transpose()` is a column assigned to a row: with assertions
(`checked`) this aborts unless there is one column, without them the entries are copied. -/
def moveCenters (checked : Bool) (X : DMat α) (labels : List Nat) :
    List Nat → List (List α) → List (List α) → Res (List (List α) × List (List α))
  | [], C, diffs => .ok (C, diffs)
  | c :: cs, C, diffs => do
    let m := meanRow X.ncols (members X labels c)
    let old ← readAt C c
    let d ← rowDiff m old
    if checked = true ∧ X.ncols ≠ 1 then .ub
    else moveCenters checked X labels cs (C.set c m) (diffs ++ [d])

/-- One iteration (`src/methods/cluster/kmeans.hpp` lines 132-158). -/
def iterate (checked : Bool) (X : DMat α) (C : List (List α)) : Res (List (List α) × List (List α)) := do
  let labels ← mapRes (nearest C) X.rows
  moveCenters checked X labels (Impurity.keys labels) C []

/-- `kmeans_lloyd` (`src/methods/cluster/kmeans.hpp` lines 127-164); the first argument counts the iterations left, `stop`
is the test `eps < tol_` of line 160 on the differences. -/
def lloyd (checked : Bool) (stop : List (List α) → Bool) : Nat → DMat α → List (List α) → Res (List (List α))
  | 0, _, C => .ok C
  | n + 1, X, C => do
    let r ← iterate checked X C
    if stop r.2 then .ok r.1 else lloyd checked stop n X r.1

/-- `eps < tol_` (`src/methods/cluster/kmeans.hpp` lines 150, 156, 160). -/
noncomputable def epsBelow (tol : ℝ) (diffs : List (List ℝ)) : Bool :=
  open Classical in decide ((diffs.map fun d => Real.sqrt (sqNorm d)).sum < tol)

/-- `init_centroid` for `"random"` (`src/methods/cluster/kmeans.hpp` lines 113-117); `perm` is the result of
`random::permutation`. -/
def initRandom (perm : List Nat) (k : Nat) (X : DMat α) : Res (List (List α)) :=
  if k ≤ perm.length then mapRes (readAt X.rows) (perm.take k) else .ub

/-- Squared distances of all rows to one row (`src/methods/cluster/kmeans.hpp` lines 46-47, 79-80). -/
def distancesTo (X : DMat α) (c : List α) : Res (List α) := do
  let rep := MatOps.repeat' ⟨c.length, [c]⟩ X.nrows 0
  let diff ← mapRes (fun e => rowDiff e.1 e.2) (X.rows.zip rep.rows)
  .ok (diff.map sqNorm)

/-- `std::lower_bound` (`src/methods/cluster/kmeans.hpp` lines 68-73) on a non-decreasing range: the index of the first
element not below the value. -/
def lowerBound (l : List α) (v : α) : Nat := l.findIdx fun a => decide (v ≤ a)

/-- `src/methods/cluster/kmeans.hpp` lines 62-77: the candidate for the random number `r`. -/
def candidate (closest : List α) (pot r : α) : Nat :=
  let i := lowerBound (Stats.partialSums 0 closest) (r * pot)
  if closest.length - 1 < i then closest.length - 1 else i

/-- `src/methods/cluster/kmeans.hpp` lines 83-87. -/
def keepSmaller (closest dist : List α) : List α := List.zipWith (fun c d => if c < d then c else d) closest dist

/-- The loop over the trials (`src/methods/cluster/kmeans.hpp` lines 60-98); `best` holds potential, index and distances of
the best candidate so far. -/
def trials (X : DMat α) (closest : List α) (pot : α) :
    List α → Option (α × Nat × List α) → Res (Option (α × Nat × List α))
  | [], best => .ok best
  | r :: rs, best => do
    let i := candidate closest pot r
    let row ← readAt X.rows i
    let dist ← distancesTo X row
    let d := keepSmaller closest dist
    if best.all fun b => decide (d.sum < b.1) then trials X closest pot rs (some (d.sum, i, d))
    else trials X closest pot rs best

/-- The loop over the centroids (`src/methods/cluster/kmeans.hpp` lines 53-102); each element of the list is the vector of
random numbers drawn for one centroid. Without trials the index read at line 101 is uninitialised. -/
def addCenters (X : DMat α) : List (List α) → List α → α → List (List α) → Res (List (List α) × List α)
  | [], closest, _, C => .ok (C, closest)
  | rs :: rest, closest, pot, C => do
    let best ← trials X closest pot rs none
    match best with
    | none => .ub
    | some (p, i, d) => do
      let row ← readAt X.rows i
      addCenters X rest d p (C ++ [row])

/-- `kmeans_plusplus` (`src/methods/cluster/kmeans.hpp` lines 32-104): `first` is the random index of line 40 and `draws` has
one vector of random numbers for each further centroid. The second component is the final content of `closest_dist`, which is
local to the function. -/
def plusPlus (first : Nat) (draws : List (List α)) (X : DMat α) : Res (List (List α) × List α) := do
  let c ← readAt X.rows first
  let closest ← distancesTo X c
  addCenters X draws closest closest.sum [c]

/-- The number of trials (`src/methods/cluster/kmeans.hpp` lines 36-37). -/
noncomputable def numTrials (k : Nat) : Nat := 2 + ⌊Real.log k⌋₊

/-- The vectors of random numbers of `kmeans_plusplus` for `k` clusters (`src/methods/cluster/kmeans.hpp` lines 53-55); `u c` is the
content of the vector for the centroid with index `c + 1`. -/
noncomputable def drawsFor (k : Nat) (u : Nat → Nat → ℝ) : List (List ℝ) :=
  (List.range (k - 1)).map fun c => (List.range (numTrials k)).map (u c)

/-- `init_centroid` with "kmeans++" (`src/methods/cluster/kmeans.hpp` lines 107-122) for at least one cluster. -/
noncomputable def initPlusPlus (k first : Nat) (u : Nat → Nat → ℝ) (X : DMat ℝ) : Res (List (List ℝ)) := do
  let r ← plusPlus first (drawsFor k u) X
  .ok r.1

/-- `KMeans::fit` (`src/methods/cluster/kmeans.hpp` lines 211-214) after initialisation. -/
def fitFrom (checked : Bool) (stop : List (List α) → Bool) (maxIter : Nat) (X : DMat α) (init : Res (List (List α))) :
    Res (List (List α)) := do
  let C ← init
  lloyd checked stop maxIter X C

end OpenML.KMeans
