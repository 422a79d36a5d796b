import Verif.Model.TransactionEncoder
import Verif.Model.Combinations
import Verif.Model.Sort2D
import Verif.Model.VecOps
import Mathlib.Data.Rat.Floor

/-!
# Model of `Apriori` (`src/methods/rule_model/apriori.hpp`)

Items and counts are natural numbers (`std::size_t`), supports and confidences are rational numbers (`double` without
rounding).
-/

namespace OpenML.Apriori
open HashTree TransactionEncoder Combinations Sort2D

/-- `generate_k_subsets(X, k)` (`src/methods/rule_model/apriori.hpp` lines 39-51). -/
def generateKSubsets : List (List Nat) → Nat → Res (List (List Nat))
  | [], _ => .ok []
  | t :: X, k => do
    let c ← combinations t k
    let rest ← generateKSubsets X k
    .ok (c ++ rest)

/-- `is_prefix(l1, l2)` (`src/methods/rule_model/apriori.hpp` lines 53-60): compares all but the last entry of `l1` with
the entries of `l2` at the same positions. For an empty `l1` the bound `l1.size() - 1` wraps around. -/
def isPrefix : List Nat → List Nat → Res Bool
  | [], _ => .ub
  | [_], _ => .ok true
  | _ :: _ :: _, [] => .ub
  | a :: b :: r, c :: cs => if a ≠ c then .ok false else isPrefix (b :: r) cs

/-- The `while` loop over `j` (`src/methods/rule_model/apriori.hpp` lines 123-131): `back()` of an empty row is
undefined. -/
def joinWith (p : List Nat) : List (List Nat) → Res (List (List Nat))
  | [] => .ok []
  | q :: qs => do
    let b ← isPrefix p q
    if b then
      match q.getLast? with
      | none => .ub
      | some v => do
        let rest ← joinWith p qs
        .ok ((p ++ [v]) :: rest)
    else .ok []

/-- Candidate generation (`src/methods/rule_model/apriori.hpp` lines 120-132). -/
def candidates : List (List Nat) → Res (List (List Nat))
  | [] => .ok []
  | p :: rest => do
    let c ← joinWith p rest
    let cs ← candidates rest
    .ok (c ++ cs)

/-- Insert all candidates (`src/methods/rule_model/apriori.hpp` lines 137-140). -/
def buildAll (t : Tree) : List (List Nat) → Res Tree
  | [] => .ok t
  | c :: cs => do
    let t' ← t.buildTree c
    buildAll t' cs

/-- Count all subsets (`src/methods/rule_model/apriori.hpp` lines 147-151). -/
def addAll (t : Tree) : List (List Nat) → Res Tree
  | [] => .ok t
  | c :: cs => do
    let t' ← t.addSupport c
    addAll t' cs

/-- One round of the level loop up to line 162 (`src/methods/rule_model/apriori.hpp` lines 119-162): the frequent itemsets
of the next length with their counts. -/
def nextLevel (X : List (List Nat)) (support : Nat) (prev : List (List Nat)) (length : Nat) : Res Bucket := do
  let cands ← candidates prev
  let t ← buildAll (Tree.new cands.length cands.length) cands
  let subsets ← generateKSubsets X length
  let t ← addAll t subsets
  .ok (t.computeFrequency support).2

/-- The level loop (`src/methods/rule_model/apriori.hpp` lines 117-168); `all` is `all_frequency_`, the first argument is
fuel. -/
def levelLoop (X : List (List Nat)) (support : Nat) : Nat → List (List Nat) → Nat → Bucket → Res Bucket
  | 0, _, _, _ => .diverge
  | fuel + 1, prev, length, all =>
    if prev.length ≤ 1 then .ok all
    else do
      let curr ← nextLevel X support prev length
      let prev' ← sortrows (curr.map Prod.fst) false
      levelLoop X support fuel prev' (length + 1) (all ++ curr)

/-- `records_order`: items in order of first appearance (`src/methods/rule_model/apriori.hpp` lines 67-75). -/
def recordsOrder (X : List (List Nat)) : List Nat :=
  X.foldl (fun acc t => t.foldl (fun acc v => if v ∈ acc then acc else acc ++ [v]) acc) []

/-- Single-item counts read from the values of the sparse matrix (`src/methods/rule_model/apriori.hpp` lines 77-83). -/
def recordCount (X : List (List Nat)) (v : Nat) : Nat := ((fitTransform X).stored.map Prod.snd).count v

/-- `all_records.find(v) != end` after the pruning (`src/methods/rule_model/apriori.hpp` lines 79-92). -/
def keptRecord (X : List (List Nat)) (support v : Nat) : Bool :=
  decide (0 < recordCount X v) && decide (support ≤ recordCount X v)

/-- Level one (`src/methods/rule_model/apriori.hpp` lines 101-115). -/
def levelOne (X : List (List Nat)) (support : Nat) : Bucket :=
  ((recordsOrder X).filter (keptRecord X support)).map fun v => ([v], recordCount X v)

/-- `fit_data(X)` with the support threshold given as a number of transactions (`src/methods/rule_model/apriori.hpp` lines
64-169). `all_records` is empty iff no value of the matrix is kept. The number of levels is at most the number of items. -/
def fitData (X : List (List Nat)) (support : Nat) (all : Bucket) : Res Bucket :=
  if ∀ v ∈ (fitTransform X).stored.map Prod.snd, keptRecord X support v = false then .throw .runtimeError
  else
    let l1 := levelOne X support
    levelLoop X support (X.flatten.length + 2) (l1.map Prod.fst) 2 (all ++ l1)

/-- A rule: antecedent, consequent, confidence (`src/methods/rule_model/apriori.hpp` line 16). -/
abbrev Rule := List Nat × List Nat × ℚ

/-- `frequency_map` (`src/methods/rule_model/apriori.hpp` lines 172-178): entries with a positive count, later entries
overwrite earlier ones. -/
def frequencyMap (all : Bucket) : Bucket :=
  all.foldl (fun m e => if 0 < e.2 then put lexLt e.1 e.2 m else m) []

/-- The loop over sub-itemsets (`src/methods/rule_model/apriori.hpp` lines 191-201). -/
def rulesFor (m : Bucket) (minConf : ℚ) (f : List Nat) (cf : Nat) : List (List Nat) → List Rule
  | [] => []
  | c :: cs =>
    match find c m with
    | some n =>
      if minConf ≤ (cf : ℚ) / (n : ℚ) then (c, VecOps.difference f c false, (cf : ℚ) / (n : ℚ)) :: rulesFor m minConf f cf cs
      else rulesFor m minConf f cf cs
    | none => rulesFor m minConf f cf cs

/-- The loop over the sizes `i, i+1, …` of the antecedent (`src/methods/rule_model/apriori.hpp` lines 188-202); the first
argument is the number of sizes left. -/
def rulesSizes (m : Bucket) (minConf : ℚ) (f : List Nat) (cf : Nat) : Nat → Nat → Res (List Rule)
  | 0, _ => .ok []
  | n + 1, i => do
    let cs ← combinations f i
    let rest ← rulesSizes m minConf f cf n (i + 1)
    .ok (rulesFor m minConf f cf cs ++ rest)

/-- The loop over recorded itemsets (`src/methods/rule_model/apriori.hpp` lines 181-203). -/
def rulesAll (m : Bucket) (minConf : ℚ) : Bucket → Res (List Rule)
  | [] => .ok []
  | e :: es => do
    let r ← if e.1.length = 1 then .ok [] else rulesSizes m minConf e.1 e.2 (e.1.length - 1) 1
    let rest ← rulesAll m minConf es
    .ok (r ++ rest)

/-- `transform_data()` (`src/methods/rule_model/apriori.hpp` lines 171-204): the rules appended to `association_rules_`. -/
def transformData (all : Bucket) (minConf : ℚ) : Res (List Rule) :=
  rulesAll (frequencyMap all) minConf (frequencyMap all)

/-- An `Apriori` object (`src/methods/rule_model/apriori.hpp` lines 18-23). -/
structure Model where
  minSupport : ℚ
  minConfidence : ℚ
  allFrequency : Bucket
  rules : List Rule

/-- `static_cast<std::size_t>(X.size() * min_support_)` (`src/methods/rule_model/apriori.hpp` line 65) for a non-negative
minimum support. -/
def supportCount (n : Nat) (minSupport : ℚ) : Nat := ⌊(n : ℚ) * minSupport⌋.toNat

/-- `fit_transform(X)` (`src/methods/rule_model/apriori.hpp` lines 218-221): earlier frequencies and rules are kept. -/
def Model.fitTransform (a : Model) (X : List (List Nat)) : Res Model := do
  let all ← fitData X (supportCount X.length a.minSupport) a.allFrequency
  let rules ← transformData all a.minConfidence
  .ok { a with allFrequency := all, rules := a.rules ++ rules }

end OpenML.Apriori
