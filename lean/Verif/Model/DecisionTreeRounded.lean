import Verif.Model.DecisionTree

/-!
# Models of `src/methods/tree` with rounding

In `Verif/Model/DecisionTree.lean` the thresholds are exact averages. This is the only place where values of features take part in an
operation other than a comparison. Here the average is any function `mid` of the two neighbours, for example one that rounds after both
operations. Node values, impurities and the early return were arbitrary functions of the targets already (`DTree.Algo`).
-/

namespace OpenML.DTree

variable {α : Type} [Field α] [LinearOrder α]

/-- Averages of neighbours (`src/methods/tree/base.hpp` lines 30-33). -/
def midpointsBy (mid : α → α → α) : List α → List α
  | a :: b :: l => mid a b :: midpointsBy mid (b :: l)
  | _ => []

/-- `choose_feature_threshold` (`src/methods/tree/base.hpp` lines 24-42). -/
def thresholdsBy (mid : α → α → α) (x : List α) : Res (List α) := do
  let order ← KDTree.argsortVec x
  let sorted ← mapRes (readAt x) order
  .ok (VecOps.stdUnique (VecOps.stdSort (midpointsBy mid sorted)))

variable {R : Type} [LinearOrder R]

/-- The loop over features (`src/methods/tree/base.hpp` lines 59-78). -/
def tryFeaturesBy (mid : α → α → α) (imp : List α → List α → List α → Res R) (X : DMat α) (y : List α) :
    List Nat → Best α R → Res (Best α R)
  | [], b => .ok b
  | f :: fs, b => do
    let ts ← thresholdsBy mid (X.col f)
    let b' ← tryThresholds imp X y f ts b
    tryFeaturesBy mid imp X y fs b'

/-- `best_split` (`src/methods/tree/base.hpp` lines 50-80); `start` is the smallest positive `double`. -/
def bestSplitBy (mid : α → α → α) (start : R) (imp : List α → List α → List α → Res R) (X : DMat α) (y : List α) :
    Res (Best α R) :=
  tryFeaturesBy mid imp X y (List.range X.ncols) ⟨start, none⟩

variable {ν : Type}

/-- `build_tree` (`src/methods/tree/decision_tree_classifier.hpp` lines 141-214,
`src/methods/tree/decision_tree_regressor.hpp` lines 143-218). The first number is fuel; the depth limit makes
`max_depth + 2` suffice. -/
def buildBy (mid : α → α → α) (A : Algo α ν R) (P : Params R) : Nat → DMat α → List α → Nat → Res (Tree α ν)
  | 0, _, _, _ => .diverge
  | fuel + 1, X, y, depth => do
    let v ← A.nodeValue y
    if A.stop y then .ok (.node v none .null .null)
    else if X.nrows < P.minSplit then .ok (.node v none .null .null)
    else if P.maxDepth < depth then .ok (.node v none .null .null)
    else do
      let b ← bestSplitBy mid A.start A.impurity X y
      match b.split with
      | none => .ok (.node v none .null .null)
      | some (f, t) =>
        if b.impurity ≤ P.minDecrease then .ok (.node v none .null .null)
        else do
          let li := selected (X.col f) fun a => decide (a ≤ t)
          let ri := selected (X.col f) fun a => decide (t < a)
          let lX ← mapRes (readAt X.rows) li
          let ly ← mapRes (readAt y) li
          let rX ← mapRes (readAt X.rows) ri
          let ry ← mapRes (readAt y) ri
          let l ← if P.minLeaf ≤ lX.length then buildBy mid A P fuel ⟨X.ncols, lX⟩ ly (depth + 1) else .ok .null
          let r ← if P.minLeaf ≤ rX.length then buildBy mid A P fuel ⟨X.ncols, rX⟩ ry (depth + 1) else .ok .null
          .ok (.node v (some (f, t)) l r)

/-- `DecisionTreeClassifier::fit` (`src/methods/tree/decision_tree_classifier.hpp` lines 262-274). `old` are the keys
`label_count_` has from earlier fits: the map is never cleared. -/
def fitBy (mid : α → α → α) (start : R) (imp : List α → List α → List α → Res R) (P : Params R) (old : List α) (X : DMat α)
    (y : List α) : Res (Model α) := do
  let ys ← mapRes (readAt y) (List.range X.nrows)
  let classes := Impurity.keys (old ++ ys)
  let root ← buildBy mid (classifier classes start imp) P (P.maxDepth + 2) X y 0
  .ok ⟨classes, root⟩

/-- `DecisionTreeRegressor::fit` (`src/methods/tree/decision_tree_regressor.hpp` lines 266-271); `value` is `compute_node_value` and
`stop` the early return. -/
def fitRegressorBy (mid : α → α → α) (value : List α → Res α) (stop : List α → Bool) (start : R)
    (imp : List α → List α → List α → Res R) (P : Params R) (X : DMat α) (y : List α) : Res (Tree α α) :=
  buildBy mid ⟨value, stop, imp, start⟩ P (P.maxDepth + 2) X y 0

/-- `(a + b) / 2` with a rounding after both operations (`src/methods/tree/base.hpp` line 31). -/
def roundedMid (rnd : α → α) (a b : α) : α := rnd (rnd (a + b) / 2)

end OpenML.DTree
