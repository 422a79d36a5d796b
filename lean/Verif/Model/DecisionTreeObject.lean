import Verif.Model.DecisionTree

/-!
# Model of programs that use an object of one of the tree classes (`src/methods/tree`)

A program constructs an object, calls `fit` and `predict` any number of times and catches all exceptions. When `fit` throws, `root_`
already refers to the tree as far as it has been built.
-/

namespace OpenML.DTreeObject

open DTree

variable {α : Type} [Field α] [LinearOrder α] {R : Type} [LinearOrder R] {ν : Type}

/-- `build_tree` (`src/methods/tree/decision_tree_classifier.hpp` lines 141-214, `src/methods/tree/decision_tree_regressor.hpp` lines
143-218) with the tree that is there when it returns or when `compute_impurity` throws: the members of a node are assigned before the
split is looked for, and a child is attached before it is built. `compute_node_value` does not throw. -/
def grow (A : Algo α ν R) (P : Params R) : Nat → DMat α → List α → Nat → Res (Tree α ν × Option Exn)
  | 0, _, _, _ => .diverge
  | fuel + 1, X, y, depth => do
    let v ← A.nodeValue y
    if A.stop y then .ok (.node v none .null .null, none)
    else if X.nrows < P.minSplit then .ok (.node v none .null .null, none)
    else if P.maxDepth < depth then .ok (.node v none .null .null, none)
    else match bestSplit A.start A.impurity X y with
      | .throw e => .ok (.node v none .null .null, some e)
      | .ub => .ub
      | .diverge => .diverge
      | .ok b =>
        match b.split with
        | none => .ok (.node v none .null .null, none)
        | some (f, t) =>
          if b.impurity ≤ P.minDecrease then .ok (.node v none .null .null, none)
          else do
            let li := selected (X.col f) fun a => decide (a ≤ t)
            let ri := selected (X.col f) fun a => decide (t < a)
            let lX ← mapRes (readAt X.rows) li
            let ly ← mapRes (readAt y) li
            let rX ← mapRes (readAt X.rows) ri
            let ry ← mapRes (readAt y) ri
            let l ← (if P.minLeaf ≤ lX.length then grow A P fuel ⟨X.ncols, lX⟩ ly (depth + 1) else .ok (.null, none))
            match l.2 with
            | some e => .ok (.node v (some (f, t)) l.1 .null, some e)
            | none => do
              let r ← (if P.minLeaf ≤ rX.length then grow A P fuel ⟨X.ncols, rX⟩ ry (depth + 1) else .ok (.null, none))
              .ok (.node v (some (f, t)) l.1 r.1, r.2)

/-- A tree class: members `σ` of a new object, `fit`, and the questions `Q` that the `const` members answer
(`src/methods/tree/decision_tree_classifier.hpp` lines 236-309, `src/methods/tree/decision_tree_regressor.hpp` lines 237-284). `fit`
gives the members also if it throws. -/
structure Class (α σ Q A : Type) where
  new : σ
  fit : σ → DMat α → List α → Res (σ × Option Exn)
  ask : σ → Q → Res A

/-- A statement of a program (`src/methods/tree/decision_tree_classifier.hpp` lines 262, 284, 297,
`src/methods/tree/decision_tree_regressor.hpp` lines 266, 273). -/
inductive Call (α Q : Type) where
  | fit (X : DMat α) (y : List α)
  | ask (q : Q)

/-- What a program sees of a statement (`src/methods/tree/decision_tree_classifier.hpp` lines 262, 284, 297,
`src/methods/tree/decision_tree_regressor.hpp` lines 266, 273). -/
inductive Seen (A : Type) where
  | fitted
  | caught (e : Exn)
  | answer (a : A)
  deriving DecidableEq

/-- One statement; exceptions are caught (`src/methods/tree/decision_tree_classifier.hpp` lines 262-309,
`src/methods/tree/decision_tree_regressor.hpp` lines 266-284). -/
def step {σ Q A : Type} (C : Class α σ Q A) (o : σ) : Call α Q → Res (σ × Seen A)
  | .fit X y => do
    let r ← C.fit o X y
    .ok (r.1, match r.2 with | none => .fitted | some e => .caught e)
  | .ask q =>
    match C.ask o q with
    | .ok a => .ok (o, .answer a)
    | .throw e => .ok (o, .caught e)
    | .ub => .ub
    | .diverge => .diverge

/-- A sequence of statements (calls of `src/methods/tree/decision_tree_classifier.hpp` lines 262-309 or
`src/methods/tree/decision_tree_regressor.hpp` lines 266-284). -/
def run {σ Q A : Type} (C : Class α σ Q A) : σ → List (Call α Q) → Res (σ × List (Seen A))
  | o, [] => .ok (o, [])
  | o, c :: cs => do
    let r ← step C o c
    let s ← run C r.1 cs
    .ok (s.1, r.2 :: s.2)

/-- A program: a new object (`src/methods/tree/decision_tree_classifier.hpp` lines 237-252,
`src/methods/tree/decision_tree_regressor.hpp` lines 238-256), then the statements. -/
def program {σ Q A : Type} (C : Class α σ Q A) (cs : List (Call α Q)) : Res (List (Seen A)) := do
  let r ← run C C.new cs
  .ok r.2

/-- The questions to a classifier (`src/methods/tree/decision_tree_classifier.hpp` lines 284, 297). -/
inductive Question (α : Type) where
  | prob (Z : List (List α))
  | predict (Z : List (List α))

/-- The answers of a classifier (`src/methods/tree/decision_tree_classifier.hpp` lines 294, 308); `none` is NaN. -/
inductive Answer (α : Type) where
  | probs (rows : List (List (Option α)))
  | positions (ps : List Nat)
  deriving DecidableEq

/-- `DecisionTreeClassifier` (`src/methods/tree/decision_tree_classifier.hpp` lines 236-309). Before the first call of `fit` the
pointer `root_` is null and `num_classes_` is not initialised. -/
def classifier (start : R) (imp : List α → List α → List α → Res R) (P : Params R) :
    Class α (Model α) (Question α) (Answer α) where
  new := ⟨[], .null⟩
  fit := fun M X y => do
    let ys ← mapRes (readAt y) (List.range X.nrows)
    let r ← grow (DTree.classifier (Impurity.keys (M.classes ++ ys)) start imp) P (P.maxDepth + 2) X y 0
    .ok (⟨Impurity.keys (M.classes ++ ys), r.1⟩, r.2)
  ask := fun M q =>
    match M.root, q with
    | .null, _ => .ub
    | .node _ _ _ _, .prob Z => do
      let p ← predictProb M Z
      .ok (.probs p)
    | .node _ _ _ _, .predict Z => do
      let p ← predict M Z
      .ok (.positions p)

/-- `DecisionTreeRegressor` (`src/methods/tree/decision_tree_regressor.hpp` lines 237-284). A prediction for no samples is defined
also before the first call of `fit`. -/
def regressor (minStdev start : α) (imp : List α → List α → List α → Res α) (P : Params α) :
    Class α (Tree α α) (List (List α)) (List α) where
  new := .null
  fit := fun _ X y => grow (DTree.regressor minStdev start imp) P (P.maxDepth + 2) X y 0
  ask := predictRegressor

end OpenML.DTreeObject
