import Verif.Model.Apriori
import Verif.Model.GMMObject

/-!
# Model of `Apriori` objects whose exceptions are caught

In `Verif.Model.Apriori` an exception ends the history of an object. Here the members keep the values they had when the exception was
thrown, so that the object can be used on, and the rules can be printed.
-/

namespace OpenML.AprioriObject

open Apriori HashTree GMMObject Sort2D

/-- `all_frequency_.insert(all_frequency_.end(), …)` (`src/methods/rule_model/apriori.hpp` lines 114, 163). -/
def record (new : Bucket) (a : Model) : Model := { a with allFrequency := a.allFrequency ++ new }

/-- The level loop (`src/methods/rule_model/apriori.hpp` lines 117-168): the itemsets of a level are recorded (line 163) before they are
sorted, which may throw (line 164). The first argument is fuel. -/
def levels (X : List (List Nat)) (support : Nat) : Nat → List (List Nat) → Nat → Call Model Unit
  | 0, _, _ => fun _ => .diverge
  | fuel + 1, prev, length =>
    if prev.length ≤ 1 then Call.ret ()
    else
      (Call.const fun _ => nextLevel X support prev length).andThen fun curr =>
      (Call.modify (record curr)).andThen fun _ =>
      (Call.const fun _ => sortrows (curr.map Prod.fst) false).andThen fun prev' =>
      levels X support fuel prev' (length + 1)

/-- `fit_data(X)` (`src/methods/rule_model/apriori.hpp` lines 64-169); the frequent items are recorded at line 114, after the exception
of lines 93-98 could have been thrown. -/
def fitData (X : List (List Nat)) : Call Model Unit := fun a =>
  let support := supportCount X.length a.minSupport
  if ∀ v ∈ (TransactionEncoder.fitTransform X).stored.map Prod.snd, keptRecord X support v = false then Call.raise .runtimeError a
  else ((Call.modify (record (levelOne X support))).andThen fun _ =>
    levels X support (X.flatten.length + 2) ((levelOne X support).map Prod.fst) 2) a

/-- `transform_data()` (`src/methods/rule_model/apriori.hpp` lines 171-204). The rules are appended one by one; nothing throws between
the first and the last, so they are appended together here. -/
def transformData : Call Model Unit :=
  (Call.const fun a => Apriori.transformData a.allFrequency a.minConfidence).andThen fun rs =>
  Call.modify fun a => { a with rules := a.rules ++ rs }

/-- `fit_transform(X)` (`src/methods/rule_model/apriori.hpp` lines 218-221). -/
def fitTransform (X : List (List Nat)) : Call Model Unit := (fitData X).andThen fun _ => transformData

/-- The loops `std::cout << item << ", "` (`src/methods/rule_model/apriori.hpp` lines 229-231, 233-235) for items that are non-negative
integers. -/
def printItems (items : List Nat) : List Char := items.flatMap fun v => Nat.toDigits 10 v ++ [',', ' ']

/-- One round of the loop of `print_rules` (`src/methods/rule_model/apriori.hpp` lines 225-236); `conf` is the text that
`std::cout << confidence` writes. -/
def printRule (conf : ℚ → List Char) (r : Rule) : List Char :=
  printItems r.1 ++ " ==> ".toList ++ printItems r.2.1 ++ " confidence = ".toList ++ conf r.2.2 ++ ['\n']

/-- `print_rules()` (`src/methods/rule_model/apriori.hpp` lines 223-238): what is written to the standard output. -/
def printRules (conf : ℚ → List Char) (rs : List Rule) : List Char := rs.flatMap (printRule conf)

/-- A statement of a program that uses an `Apriori` object: `fit_transform` inside a `try` block whose handler does nothing,
`get_rules`, `print_rules` (`src/methods/rule_model/apriori.hpp` lines 218, 223, 240). -/
inductive Statement
  | fit (X : List (List Nat))
  | getRules
  | printRules

/-- What a statement lets the caller see (`src/methods/rule_model/apriori.hpp` lines 218-242). -/
inductive Seen
  | done
  | caught (e : Exn)
  | rules (rs : List Rule)
  | text (s : List Char)
  deriving DecidableEq

/-- One statement (`src/methods/rule_model/apriori.hpp` lines 218-242). -/
def step (conf : ℚ → List Char) (a : Model) : Statement → Res (Seen × Model)
  | .fit X =>
    match fitTransform X a with
    | .ok (.ok (), a') => .ok (.done, a')
    | .ok (.error e, a') => .ok (.caught e, a')
    | .throw e => .throw e
    | .ub => .ub
    | .diverge => .diverge
  | .getRules => .ok (.rules a.rules, a)
  | .printRules => .ok (.text (printRules conf a.rules), a)

/-- A program (`src/methods/rule_model/apriori.hpp` lines 218-242): what is seen, statement by statement, and the object afterwards. -/
def run (conf : ℚ → List Char) : List Statement → Model → Res (List Seen × Model)
  | [], a => .ok ([], a)
  | p :: ps, a => do
    let r ← step conf a p
    let rest ← run conf ps r.2
    .ok (r.1 :: rest.1, rest.2)

/-- A new object (`src/methods/rule_model/apriori.hpp` lines 207-211). -/
def fresh (minSupport minConfidence : ℚ) : Model := ⟨minSupport, minConfidence, [], []⟩

end OpenML.AprioriObject
