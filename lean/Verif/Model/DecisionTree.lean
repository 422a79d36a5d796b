import Verif.Model.KDTree
import Verif.Model.MatOps
import Verif.Model.VecOps
import Verif.Model.Data
import Verif.Model.Stats
import Verif.Model.Impurity

/-!
# Models of `src/methods/tree` (classification and regression trees)

Scalars are a field with a linear order, computed exactly, without NaN among the data; `double` and `DataType` are the same
field except for the impurity of the entropy criterion, which is real. Assertions of Eigen count as undefined behaviour.
-/

namespace OpenML.DTree

variable {α : Type} [Field α] [LinearOrder α]

/-- `std::shared_ptr<Node>` (`src/methods/tree/decision_tree_classifier.hpp` lines 20-60,
`src/methods/tree/decision_tree_regressor.hpp` lines 20-56): null, or a node with its value (class counts or mean target),
feature index and threshold if they were set, and children. `is_leaf`, `impurity` and `num_samples` are never read. -/
inductive Tree (α ν : Type)
  | null
  | node (value : ν) (split : Option (Nat × α)) (left right : Tree α ν)
deriving DecidableEq, Repr

/-- The hyper-parameters read by both `build_tree` functions (`src/methods/tree/decision_tree_classifier.hpp` lines 72-76,
`src/methods/tree/decision_tree_regressor.hpp` lines 68-72). -/
structure Params (R : Type) where
  minSplit : Nat
  minLeaf : Nat
  maxDepth : Nat
  minDecrease : R

/-- Averages of neighbours (`src/methods/tree/base.hpp` lines 30-33). -/
def midpoints : List α → List α
  | a :: b :: l => (a + b) / 2 :: midpoints (b :: l)
  | _ => []

/-- `choose_feature_threshold` (`src/methods/tree/base.hpp` lines 24-42). -/
def thresholds (x : List α) : Res (List α) := do
  let order ← KDTree.argsortVec x
  let sorted ← mapRes (readAt x) order
  .ok (VecOps.stdUnique (VecOps.stdSort (midpoints sorted)))

/-- The three variables of `best_split` (`src/methods/tree/base.hpp` lines 55-57); `none` is the feature index
`size_t` maximum with threshold NaN. -/
structure Best (α R : Type) where
  impurity : R
  split : Option (Nat × α)
deriving DecidableEq

variable {R : Type} [LinearOrder R]

/-- The loop over thresholds (`src/methods/tree/base.hpp` lines 62-77); `imp` is `compute_impurity`. -/
def tryThresholds (imp : List α → List α → List α → Res R) (X : DMat α) (y : List α) (f : Nat) :
    List α → Best α R → Res (Best α R)
  | [], b => .ok b
  | t :: ts, b => do
    let parts ← Data.divideOnFeature X f t
    let ly ← mapRes (readAt y) parts.1
    let ry ← mapRes (readAt y) parts.2
    let v ← imp y ly ry
    tryThresholds imp X y f ts (if b.impurity < v then ⟨v, some (f, t)⟩ else b)

/-- The loop over features (`src/methods/tree/base.hpp` lines 59-78). -/
def tryFeatures (imp : List α → List α → List α → Res R) (X : DMat α) (y : List α) :
    List Nat → Best α R → Res (Best α R)
  | [], b => .ok b
  | f :: fs, b => do
    let ts ← thresholds (X.col f)
    let b' ← tryThresholds imp X y f ts b
    tryFeatures imp X y fs b'

/-- `best_split` (`src/methods/tree/base.hpp` lines 50-80); `start` is the smallest positive `double`. -/
def bestSplit (start : R) (imp : List α → List α → List α → Res R) (X : DMat α) (y : List α) : Res (Best α R) :=
  tryFeatures imp X y (List.range X.ncols) ⟨start, none⟩

/-- What differs between the two trees: `compute_node_value`, the early return on a small standard deviation (regression
only), `compute_impurity`, and the value of `ConstType<double>::min()` (`src/methods/tree/decision_tree_classifier.hpp` lines
82-137, `src/methods/tree/decision_tree_regressor.hpp` lines 75-137, 159-161, `src/methods/tree/base.hpp` line 57). -/
structure Algo (α ν R : Type) where
  nodeValue : List α → Res ν
  stop : List α → Bool
  impurity : List α → List α → List α → Res R
  start : R

variable {ν : Type}

/-- `where(selected_x <= value)` and `where(selected_x > value)` (`src/methods/tree/decision_tree_classifier.hpp` lines
186-193, `src/methods/tree/decision_tree_regressor.hpp` lines 190-197). -/
def selected (c : List α) (p : α → Bool) : List Nat := MatOps.where' (c.map fun a => if p a then (1 : α) else 0)

/-- `build_tree` (`src/methods/tree/decision_tree_classifier.hpp` lines 141-214,
`src/methods/tree/decision_tree_regressor.hpp` lines 143-218). The first argument is fuel; the depth limit makes
`max_depth + 2` suffice. -/
def build (A : Algo α ν R) (P : Params R) : Nat → DMat α → List α → Nat → Res (Tree α ν)
  | 0, _, _, _ => .diverge
  | fuel + 1, X, y, depth => do
    let v ← A.nodeValue y
    if A.stop y then .ok (.node v none .null .null)
    else if X.nrows < P.minSplit then .ok (.node v none .null .null)
    else if P.maxDepth < depth then .ok (.node v none .null .null)
    else do
      let b ← bestSplit A.start A.impurity X y
      match b.split with
      | none => .ok (.node v none .null .null)
      | some (f, t) =>
        if b.impurity ≤ P.minDecrease then .ok (.node v none .null .null)
        else do
          let li := selected (X.col f) fun a => decide (a ≤ t)
          let ri := selected (X.col f) fun a => decide (t < a)
          let lX ← mapRes (readAt X.rows) li
          let ly ← mapRes (readAt y) li
          let rX ← mapRes (readAt X.rows) ri
          let ry ← mapRes (readAt y) ri
          let l ← if P.minLeaf ≤ lX.length then build A P fuel ⟨X.ncols, lX⟩ ly (depth + 1) else .ok .null
          let r ← if P.minLeaf ≤ rX.length then build A P fuel ⟨X.ncols, rX⟩ ry (depth + 1) else .ok .null
          .ok (.node v (some (f, t)) l r)

/-- The descent of `predict_label_prob` and `predict_label` (`src/methods/tree/decision_tree_classifier.hpp` lines 221-233,
`src/methods/tree/decision_tree_regressor.hpp` lines 221-234): the value of the node where it stops. Reaching a null pointer
dereferences it. -/
def route (x : List α) : Tree α ν → Res ν
  | .null => .ub
  | .node v _ .null _ => .ok v
  | .node _ none (.node _ _ _ _) _ => .ub
  | .node _ (some (f, t)) (.node v' s' l' r') r => do
    let a ← readAt x f
    if a ≤ t then route x (.node v' s' l' r') else route x r

/-! ## Classification -/

/-- `compute_node_value` of the classifier (`src/methods/tree/decision_tree_classifier.hpp` lines 114-137): the counts of
the known classes. The `argmax` of an empty vector violates an assertion; its value is never used. -/
def classCounts (classes : List α) (y : List α) : Res (List Nat) :=
  if classes = [] then .ub else .ok (classes.map y.count)

/-- `compute_impurity` for `"gini"` (`src/methods/tree/decision_tree_classifier.hpp` lines 86-97). -/
def giniScore (y l r : List α) : Res α := do
  let gl ← Impurity.gini l ([] : List α)
  let gr ← Impurity.gini r ([] : List α)
  .ok (1 - ((l.length : α) / (y.length : α) * gl + (r.length : α) / (y.length : α) * gr))

/-- `compute_impurity` for `"entropy"` (`src/methods/tree/decision_tree_classifier.hpp` lines 86-89, 98-106). -/
noncomputable def entropyScore (y l r : List α) : Res ℝ := do
  let e ← Impurity.entropy y []
  let el ← Impurity.entropy l []
  let er ← Impurity.entropy r []
  .ok (e - (l.length : ℝ) / (y.length : ℝ) * el - (r.length : ℝ) / (y.length : ℝ) * er)

/-- `compute_impurity` for any other criterion (`src/methods/tree/decision_tree_classifier.hpp` lines 107-109,
`src/methods/tree/decision_tree_regressor.hpp` lines 115-117). -/
def unknownScore (_ _ _ : List α) : Res R := .throw .invalidArgument

/-- The classifier for a given `compute_impurity` (`src/methods/tree/decision_tree_classifier.hpp` lines 82-111). -/
def classifier (classes : List α) (start : R) (imp : List α → List α → List α → Res R) : Algo α (List Nat) R :=
  ⟨classCounts classes, fun _ => false, imp, start⟩

/-- A fitted classifier: the keys of `label_count_` and `root_` (`src/methods/tree/decision_tree_classifier.hpp` lines 60,
78). -/
structure Model (α : Type) where
  classes : List α
  root : Tree α (List Nat)
deriving DecidableEq

/-- `DecisionTreeClassifier::fit` (`src/methods/tree/decision_tree_classifier.hpp` lines 262-274). `old` are the keys
`label_count_` has from earlier fits: the map is never cleared. -/
def fit (start : R) (imp : List α → List α → List α → Res R) (P : Params R) (old : List α) (X : DMat α) (y : List α) :
    Res (Model α) := do
  let ys ← mapRes (readAt y) (List.range X.nrows)
  let classes := Impurity.keys (old ++ ys)
  let root ← build (classifier classes start imp) P (P.maxDepth + 2) X y 0
  .ok ⟨classes, root⟩

/-- The quotient at the end of `predict_label_prob` (`src/methods/tree/decision_tree_classifier.hpp` lines 231-232); `none`
is the NaN of 0/0. -/
def probs (counts : List Nat) : List (Option α) :=
  counts.map fun c : Nat => if counts.sum = 0 then none else some ((c : α) / (counts.sum : α))

/-- `DecisionTreeClassifier::predict_prob` (`src/methods/tree/decision_tree_classifier.hpp` lines 284-295). -/
def predictProb (M : Model α) (X : List (List α)) : Res (List (List (Option α))) :=
  mapRes (fun x => do
    let c ← route x M.root
    .ok (probs c)) X

/-- A row without NaN; the position of `maxCoeff` is unspecified on a row with NaN
(`src/methods/tree/decision_tree_classifier.hpp` line 300). -/
def numbers (row : List (Option α)) : Res (List α) := mapRes (fun o => match o with | none => .ub | some a => .ok a) row

/-- `DecisionTreeClassifier::predict` (`src/methods/tree/decision_tree_classifier.hpp` lines 297-309). -/
def predict (M : Model α) (X : List (List α)) : Res (List Nat) := do
  let prob ← predictProb M X
  let rows ← mapRes numbers prob
  MatOps.argmax ⟨M.classes.length, rows⟩ 1

/-! ## Regression -/

/-- The value of a 1x1 result of `math::var` or `math::mean` (`src/methods/tree/decision_tree_regressor.hpp` lines 89-91,
129-130). -/
def scalar (m : Res (DMat (Option α))) : Res α := do
  match ← m with
  | ⟨_, [[some a]]⟩ => .ok a
  | _ => .ub

/-- A column vector as a matrix (`src/methods/tree/decision_tree_regressor.hpp` lines 85-87, 129). -/
def asColumn (y : List α) : DMat α := ⟨1, y.map fun a => [a]⟩

/-- `compute_impurity` for `"squared_error"` (`src/methods/tree/decision_tree_regressor.hpp` lines 84-94): the variances of
the parts are multiplied by the numbers of samples, that of the whole is not. -/
def squaredScore (y l r : List α) : Res α := do
  let v ← scalar (Stats.var (asColumn y) (-1))
  let vl ← scalar (Stats.var (asColumn l) (-1))
  let vr ← scalar (Stats.var (asColumn r) (-1))
  .ok (v - (l.length : α) * vl - (r.length : α) * vr)

/-- `y.array() - median.array()` (`src/methods/tree/decision_tree_regressor.hpp` lines 101-103): the median has one entry, so
sizes other than 1 violate an assertion. -/
def minusMedian (y : List α) (m : List α) : Res (List α) :=
  if y.length = m.length then .ok (List.zipWith (· - ·) y m) else .ub

/-- `compute_impurity` for `"absolute_error"` (`src/methods/tree/decision_tree_regressor.hpp` lines 95-114); `nth` as in
`Stats.medianLine`. -/
def absoluteScore (nth : List α → Nat → List α) (y l r : List α) : Res α := do
  let m ← Stats.median nth (asColumn y) (-1)
  let ml ← Stats.median nth (asColumn l) (-1)
  let mr ← Stats.median nth (asColumn r) (-1)
  let d ← minusMedian y m
  let dl ← minusMedian l ml
  let dr ← minusMedian r mr
  .ok (d.sum - (l.length : α) * dl.sum - (r.length : α) * dr.sum)

/-- `compute_node_value` of the regressor, first component (`src/methods/tree/decision_tree_regressor.hpp` lines 129,
136). -/
def meanTarget (y : List α) : Res α := scalar (Stats.mean (asColumn y) (-1))

/-- `stdev_error <= min_stdev_` (`src/methods/tree/decision_tree_regressor.hpp` lines 129-134, 159) with the square roots
removed: `sqrt(norm / n) <= m` iff `0 <= m` and the sum of squared deviations is at most `(m² n)²`
(`Lemmas/DecisionTree.lean`, `stdevStop_real`). Note that the code divides the norm, not its square, by `n`. -/
def stdevStop (m : α) (y : List α) : Bool :=
  decide (0 ≤ m ∧ (y.map fun a => (a - y.sum / (y.length : α)) ^ 2).sum ≤ (m * m * (y.length : α)) ^ 2)

/-- The regressor for a given `compute_impurity` (`src/methods/tree/decision_tree_regressor.hpp` lines 75-137). -/
def regressor (minStdev start : α) (imp : List α → List α → List α → Res α) : Algo α α α :=
  ⟨meanTarget, stdevStop minStdev, imp, start⟩

/-- `DecisionTreeRegressor::fit` (`src/methods/tree/decision_tree_regressor.hpp` lines 266-271). -/
def fitRegressor (minStdev start : α) (imp : List α → List α → List α → Res α) (P : Params α) (X : DMat α) (y : List α) :
    Res (Tree α α) := build (regressor minStdev start imp) P (P.maxDepth + 2) X y 0

/-- `DecisionTreeRegressor::predict` (`src/methods/tree/decision_tree_regressor.hpp` lines 273-284). -/
def predictRegressor (T : Tree α α) (X : List (List α)) : Res (List α) := mapRes (fun x => route x T) X

end OpenML.DTree
