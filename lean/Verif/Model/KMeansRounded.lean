import Verif.Model.Rounding
import Verif.Model.KMeans

/-!
# Model of `src/methods/cluster/kmeans.hpp` with rounding

As in `Verif/Model/Rounding.lean` the models are relations between inputs and possible results. Assertions are off.
-/

namespace OpenML.Rounding

/-- Possible labels of samples (`src/methods/cluster/kmeans.hpp` lines 133-148, 169-188). -/
def Labels (A : Arith) (C : List (List ℝ)) (rows : List (List ℝ)) (labels : List Nat) : Prop :=
  List.Forall₂ (fun x j => Nearest A C x j) rows labels

/-- `m` is a possible value of `math::mean(cluster, 0)` (`src/methods/cluster/kmeans.hpp` line 153, `src/core/math/ops.hpp` lines
99-104). -/
def MeanRow (A : Arith) (d : Nat) (rows : List (List ℝ)) (m : List ℝ) : Prop :=
  m.length = d ∧ ∀ i < d, Mean A (rows.map fun r => r.getD i 0) (m.getD i 0)

/-- The loop moving the centroids (`src/methods/cluster/kmeans.hpp` lines 151-158) over the keys of `clusters`; the sum of the
norms of the differences is not modelled, see `Lloyd`. -/
inductive Moves (A : Arith) (X : DMat ℝ) (labels : List Nat) : List Nat → List (List ℝ) → List (List ℝ) → Prop
  | nil (C : List (List ℝ)) : Moves A X labels [] C C
  | cons {c : Nat} {cs : List Nat} {C C' : List (List ℝ)} {m : List ℝ} : c < C.length →
      MeanRow A X.ncols (KMeans.members X labels c) m → Moves A X labels cs (C.set c m) C' → Moves A X labels (c :: cs) C C'

/-- One iteration (`src/methods/cluster/kmeans.hpp` lines 132-158). -/
def Iteration (A : Arith) (X : DMat ℝ) (C C' : List (List ℝ)) : Prop :=
  ∃ labels, Labels A C X.rows labels ∧ Moves A X labels (Impurity.keys labels) C C'

/-- `kmeans_lloyd` with at most `n` iterations (`src/methods/cluster/kmeans.hpp` lines 127-164); the test `eps < tol_` of line 160 is
left open, so that the loop may end after every iteration. -/
inductive Lloyd (A : Arith) (X : DMat ℝ) : Nat → List (List ℝ) → List (List ℝ) → Prop
  | limit (C : List (List ℝ)) : Lloyd A X 0 C C
  | stop {n : Nat} {C C' : List (List ℝ)} : Iteration A X C C' → Lloyd A X (n + 1) C C'
  | next {n : Nat} {C C' C'' : List (List ℝ)} : Iteration A X C C' → Lloyd A X n C' C'' → Lloyd A X (n + 1) C C''

end OpenML.Rounding
