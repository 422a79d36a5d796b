import Verif.Model.KDTree
import Verif.Model.HashTree
import Verif.Model.DecisionTree

/-!
# Objects that are copied, assigned and destroyed

`KDTree`, `HashTree` and the two decision trees hold their nodes through a `std::shared_ptr` and declare a destructor but neither
copy nor move operations. The compiler therefore supplies copy operations that copy the pointer, and no move operations, so that
moving copies as well. A world consists of named objects, each with its own members and the address of its nodes, and of the memory
in which the nodes are. Memory that no pointer refers to any more is not given back in the model; nothing can observe that.
A program stops at the first call that does not return.
-/

namespace OpenML.Objects

/-- What a member function does to the nodes (`src/core/tree/hash_tree.hpp` lines 106-108, 119-138: changes them where they are;
`src/methods/tree/decision_tree_classifier.hpp` line 271: makes the pointer refer to new ones). -/
inductive Write (σ : Type) where
  | inPlace (s : σ)
  | fresh (s : σ)

/-- A class of objects with members `ο` of their own and nodes `σ` behind a pointer: constructor with arguments `γ`, member functions
`ε` that change the object, and what the body of the destructor does to the nodes (`src/core/tree/kd_tree.hpp` lines 65-69, 374-401,
`src/core/tree/hash_tree.hpp` lines 12-17, 92-138, `src/methods/tree/decision_tree_classifier.hpp` lines 60-69, 255-274). -/
structure Class (γ ε ο σ : Type) where
  init : γ → Res (ο × σ)
  call : ε → ο → σ → Res (ο × Write σ)
  clean : σ → σ

/-- One statement of a program that handles objects of `src/core/tree/kd_tree.hpp` lines 374-401, `src/core/tree/hash_tree.hpp`
lines 92-138 or `src/methods/tree/decision_tree_classifier.hpp` lines 236-274; objects have numbers as names. -/
inductive Op (γ ε : Type) where
  | construct (name : Nat) (a : γ)
  | copy (dst src : Nat)
  | assign (dst src : Nat)
  | destroy (name : Nat)
  | call (name : Nat) (e : ε)

/-- The objects that exist, with their own members and the address of their nodes, and the memory (`root_` and `tree_` are
`std::shared_ptr`, `src/core/tree/kd_tree.hpp` line 69, `src/core/tree/hash_tree.hpp` line 15,
`src/methods/tree/decision_tree_classifier.hpp` line 60). -/
structure World (ο σ : Type) where
  objs : Nat → Option (ο × Nat)
  heap : List σ

/-- Before the program starts (no counterpart in the code; see `src/core/tree/kd_tree.hpp` lines 374-401). -/
def World.empty {ο σ : Type} : World ο σ := ⟨fun _ => none, []⟩

variable {γ ε ο σ : Type}

/-- One statement (the implicit copy operations and the destructors of `src/core/tree/kd_tree.hpp` lines 65-69, 397-401,
`src/core/tree/hash_tree.hpp` lines 12-17, 104, `src/methods/tree/decision_tree_classifier.hpp` lines 60-80, 255-257,
`src/methods/tree/decision_tree_regressor.hpp` lines 56-73, 259-261). Using a name that no object has, or constructing on top of an
object, is undefined. -/
def step (C : Class γ ε ο σ) (w : World ο σ) : Op γ ε → Res (World ο σ)
  | .construct n a =>
    match w.objs n with
    | some _ => .ub
    | none => do
      let os ← C.init a
      .ok ⟨Function.update w.objs n (some (os.1, w.heap.length)), w.heap ++ [os.2]⟩
  | .copy d s =>
    match w.objs d, w.objs s with
    | none, some x => .ok ⟨Function.update w.objs d (some x), w.heap⟩
    | _, _ => .ub
  | .assign d s =>
    match w.objs d, w.objs s with
    | some _, some x => .ok ⟨Function.update w.objs d (some x), w.heap⟩
    | _, _ => .ub
  | .destroy n =>
    match w.objs n with
    | none => .ub
    | some x => .ok ⟨Function.update w.objs n none, w.heap.modify x.2 C.clean⟩
  | .call n e =>
    match w.objs n with
    | none => .ub
    | some x =>
      match w.heap[x.2]? with
      | none => .ub
      | some s => do
        let r ← C.call e x.1 s
        match r.2 with
        | .inPlace s' => .ok ⟨Function.update w.objs n (some (r.1, x.2)), w.heap.set x.2 s'⟩
        | .fresh s' => .ok ⟨Function.update w.objs n (some (r.1, w.heap.length)), w.heap ++ [s']⟩

/-- A program (statements such as `src/methods/neighbors/k_nearest_neighbors.hpp` lines 99-101, in order). -/
def run (C : Class γ ε ο σ) (w : World ο σ) : List (Op γ ε) → Res (World ο σ)
  | [] => .ok w
  | op :: ops => do
    let w' ← step C w op
    run C w' ops

/-! ## k-d trees -/

section KD
variable {α : Type} [CommRing α] [LinearOrder α]

/-- Arguments of the constructors (`src/core/tree/kd_tree.hpp` lines 374-395); `nrm` is the norm selected by `metric`. -/
structure KDArgs (α : Type) where
  data : DMat α
  leafSize : Nat
  nrm : List α → α

/-- `KDTree` (`src/core/tree/kd_tree.hpp` lines 65-69, 374-401): the constructors build the nodes, the destructor empties the vector
of nodes, whoever else refers to it (line 399). No member function changes an object. Of the members other than the nodes only `ord_`
is read later (lines 250, 266, 344). -/
def kdClass : Class (KDArgs α) Empty (List α → α) (List (KDTree.Node α)) where
  init a := do
    let t ← KDTree.build a.data a.leafSize
    .ok (a.nrm, t)
  call e := nomatch e
  clean _ := []

/-- `query` of an object (`src/core/tree/kd_tree.hpp` lines 403-424). -/
def kdQuery (Q : PQueue (WithTop α × Nat)) (w : World (List α → α) (List (KDTree.Node α))) (n : Nat) (queries : List (List α)) (k : Nat) :
    Res (List (List (WithTop α × Nat))) :=
  match w.objs n with
  | none => .ub
  | some x =>
    match w.heap[x.2]? with
    | none => .ub
    | some t => KDTree.query x.1 Q t queries k

/-- `query_radius` of an object (`src/core/tree/kd_tree.hpp` lines 426-440). -/
def kdRadius (w : World (List α → α) (List (KDTree.Node α))) (n : Nat) (queries : List (List α)) (radius : α) :
    Res (List (List (α × Nat))) :=
  match w.objs n with
  | none => .ub
  | some x =>
    match w.heap[x.2]? with
    | none => .ub
    | some t => KDTree.queryRadius x.1 t queries radius
end KD

/-! ## Hash trees -/

/-- Calls that change a hash tree (`src/core/tree/hash_tree.hpp` lines 106-138). -/
inductive HashCall where
  | insert (s : List Nat)
  | occur (s : List Nat)
  | report (support : Nat)

/-- Members of a hash tree other than `root_` (`src/core/tree/hash_tree.hpp` lines 12-17). -/
structure HashOwn where
  maxLeaf : Nat
  maxChild : Nat
  collected : HashTree.Bucket

/-- The object as it is seen by its member functions (`src/core/tree/hash_tree.hpp` lines 12-17). -/
def HashOwn.tree (o : HashOwn) (root : HashTree.Node) : HashTree.Tree := ⟨o.maxLeaf, o.maxChild, root, o.collected⟩

/-- `HashTree` (`src/core/tree/hash_tree.hpp` lines 92-138). `build_tree` and `add_support` change the nodes where they are;
`compute_frequency_itemsets` changes only the lists of the object itself; the destructor has an empty body (line 104). -/
def hashClass : Class (Nat × Nat) HashCall HashOwn HashTree.Node where
  init a := .ok (⟨a.1, a.2, []⟩, HashTree.Node.empty)
  call
    | .insert s, o, root => do
      let t ← (o.tree root).buildTree s
      .ok (⟨t.maxLeaf, t.maxChild, t.collected⟩, .inPlace t.root)
    | .occur s, o, root => do
      let t ← (o.tree root).addSupport s
      .ok (⟨t.maxLeaf, t.maxChild, t.collected⟩, .inPlace t.root)
    | .report support, o, root =>
      let t := ((o.tree root).computeFrequency support).1
      .ok (⟨t.maxLeaf, t.maxChild, t.collected⟩, .inPlace t.root)
  clean s := s

/-- What `compute_frequency_itemsets` hands to the caller (`src/core/tree/hash_tree.hpp` lines 110-117). -/
def hashReport (w : World HashOwn HashTree.Node) (n support : Nat) : Res HashTree.Bucket :=
  match w.objs n with
  | none => .ub
  | some x =>
    match w.heap[x.2]? with
    | none => .ub
    | some root => .ok ((x.1.tree root).computeFrequency support).2

/-! ## Decision trees -/

section Trees
variable {α : Type}

/-- `std::move(node);` as a statement (`src/methods/tree/decision_tree_classifier.hpp` line 67,
`src/methods/tree/decision_tree_regressor.hpp` line 63): the result of the cast is thrown away, the pointer stays. -/
def discardedMove {ν : Type} (node : DTree.Tree α ν) : DTree.Tree α ν := node

/-- `delete_tree` (`src/methods/tree/decision_tree_classifier.hpp` lines 63-69, `src/methods/tree/decision_tree_regressor.hpp` lines
59-65): the tree as it is afterwards. -/
def deleteTree {ν : Type} : DTree.Tree α ν → DTree.Tree α ν
  | .null => .null
  | .node v s l r => discardedMove (.node v s (deleteTree l) (deleteTree r))

variable [Field α] [LinearOrder α] {R : Type} [LinearOrder R]

/-- Members of a classifier other than `root_` (`src/methods/tree/decision_tree_classifier.hpp` lines 72-79): the criterion as the
function it selects, the limits, and the labels that are keys of `label_count_`. -/
structure ClassifierOwn (α R : Type) where
  start : R
  imp : List α → List α → List α → Res R
  params : DTree.Params R
  classes : List α

/-- `DecisionTreeClassifier` (`src/methods/tree/decision_tree_classifier.hpp` lines 60-80, 236-274). A null `root_` is an address where
a null tree is; `fit` never writes there, because it allocates a new node first (line 271). -/
def classifierClass : Class (R × (List α → List α → List α → Res R) × DTree.Params R) (DMat α × List α) (ClassifierOwn α R)
    (DTree.Tree α (List Nat)) where
  init a := .ok (⟨a.1, a.2.1, a.2.2, []⟩, .null)
  call e o _ := do
    let M ← DTree.fit o.start o.imp o.params o.classes e.1 e.2
    .ok ({ o with classes := M.classes }, .fresh M.root)
  clean := deleteTree

/-- `predict_prob` of an object (`src/methods/tree/decision_tree_classifier.hpp` lines 284-295). -/
def classifierProb (w : World (ClassifierOwn α R) (DTree.Tree α (List Nat))) (n : Nat) (X : List (List α)) :
    Res (List (List (Option α))) :=
  match w.objs n with
  | none => .ub
  | some x =>
    match w.heap[x.2]? with
    | none => .ub
    | some root => DTree.predictProb ⟨x.1.classes, root⟩ X

/-- Members of a regressor other than `root_` (`src/methods/tree/decision_tree_regressor.hpp` lines 68-73). -/
structure RegressorOwn (α : Type) where
  minStdev : α
  start : α
  imp : List α → List α → List α → Res α
  params : DTree.Params α

/-- `DecisionTreeRegressor` (`src/methods/tree/decision_tree_regressor.hpp` lines 56-73, 237-271). -/
def regressorClass : Class (RegressorOwn α) (DMat α × List α) (RegressorOwn α) (DTree.Tree α α) where
  init a := .ok (a, .null)
  call e o _ := do
    let T ← DTree.fitRegressor o.minStdev o.start o.imp o.params e.1 e.2
    .ok (o, .fresh T)
  clean := deleteTree

/-- `predict` of an object (`src/methods/tree/decision_tree_regressor.hpp` lines 273-284). -/
def regressorPredict (w : World (RegressorOwn α) (DTree.Tree α α)) (n : Nat) (X : List (List α)) : Res (List α) :=
  match w.objs n with
  | none => .ub
  | some x =>
    match w.heap[x.2]? with
    | none => .ub
    | some root => DTree.predictRegressor root X
end Trees

end OpenML.Objects
