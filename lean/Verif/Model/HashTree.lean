import Verif.Model.Res

/-!
# Model of the itemset hash tree (`src/core/tree/hash_tree.hpp`)

Items and counters are natural numbers (`std::size_t` without overflow). `std::map` is an association list in increasing
key order. Node identity (`shared_ptr`) is not modelled: every node has one parent.
-/

namespace OpenML.HashTree

/-- Lexicographic `<` of `std::vector<std::size_t>`, the key order of the bucket map
(`src/methods/rule_model/apriori.hpp` line 28). -/
def lexLt : List Nat → List Nat → Bool
  | _, [] => false
  | [], _ :: _ => true
  | a :: as, b :: bs => if a < b then true else if b < a then false else lexLt as bs

/-- Insertion of a new key into a `std::map` (`operator[]` on an absent key, `src/core/tree/hash_tree.hpp` lines 37, 47,
53, 66). -/
def insertNew {κ ν : Type} (lt : κ → κ → Bool) (k : κ) (v : ν) : List (κ × ν) → List (κ × ν)
  | [] => [(k, v)]
  | p :: r => if lt k p.1 then (k, v) :: p :: r else p :: insertNew lt k v r

/-- Overwriting the value of a present key (`src/core/tree/hash_tree.hpp` lines 34, 49, 56, 68, 125). -/
def replace {κ ν : Type} [DecidableEq κ] (k : κ) (v : ν) : List (κ × ν) → List (κ × ν)
  | [] => []
  | p :: r => if p.1 = k then (k, v) :: r else p :: replace k v r

/-- `map.find(k)` (`src/core/tree/hash_tree.hpp` lines 33, 46, 52, 65, 124, 130). -/
def find {κ ν : Type} [DecidableEq κ] (k : κ) : List (κ × ν) → Option ν
  | [] => none
  | p :: r => if p.1 = k then some p.2 else find k r

/-- Store a value under a key, new or present (`src/core/tree/hash_tree.hpp` lines 34, 37, 47, 53, 56, 66). -/
def put {κ ν : Type} [DecidableEq κ] (lt : κ → κ → Bool) (k : κ) (v : ν) (m : List (κ × ν)) : List (κ × ν) :=
  match find k m with
  | some _ => replace k v m
  | none => insertNew lt k v m

/-- `bucket` of a node: itemset to counter (`src/methods/rule_model/apriori.hpp` line 28). -/
abbrev Bucket := List (List Nat × Nat)

/-- `HashTreeNode` (`src/methods/rule_model/apriori.hpp` lines 25-37): leaf flag, bucket, children. The member `index` is
never read. -/
inductive Node where
  | mk (isLeaf : Bool) (bucket : Bucket) (children : List (Nat × Node))

/-- A default-constructed node (`src/methods/rule_model/apriori.hpp` line 31). -/
def Node.empty : Node := .mk true [] []

/-- Add `count` to the counter of an itemset, creating it (`src/core/tree/hash_tree.hpp` lines 33-38 and 52-57). -/
def addCount (b : Bucket) (s : List Nat) (count : Nat) : Bucket :=
  match find s b with
  | some c => replace s (c + count) b
  | none => insertNew lexLt s count b

/-- `hash(itemset[index])` (`src/core/tree/hash_tree.hpp` lines 19-21, 44, 64, 129): reading past the end of the itemset and
`% 0` are undefined. -/
def hashAt (maxChild : Nat) (s : List Nat) (index : Nat) : Res Nat := do
  let v ← readAt s index
  if maxChild = 0 then .ub else .ok (v % maxChild)

/-- Descend into the child with the given key, creating it if absent (`src/core/tree/hash_tree.hpp` lines 46-49, 65-68); `f`
is the recursive call. -/
def withChild (f : Node → Res Node) (key : Nat) (children : List (Nat × Node)) : Res (List (Nat × Node)) := do
  let child' ← f ((find key children).getD Node.empty)
  .ok (put (fun a b => decide (a < b)) key child' children)

/-- The redistribution loop of a full leaf (`src/core/tree/hash_tree.hpp` lines 63-69); `f` is the recursive call. -/
def redistribute (f : Node → List Nat → Nat → Res Node) (maxChild index : Nat) :
    Bucket → List (Nat × Node) → Res (List (Nat × Node))
  | [], children => .ok children
  | e :: es, children => do
    let key ← hashAt maxChild e.1 index
    let children' ← withChild (fun c => f c e.1 e.2) key children
    redistribute f maxChild index es children'

/-- `insert(node, itemset, count, index)` (`src/core/tree/hash_tree.hpp` lines 24-74); the first argument is fuel. -/
def insert (maxLeaf maxChild : Nat) : Nat → Node → List Nat → Nat → Nat → Res Node
  | 0, _, _, _, _ => .diverge
  | fuel + 1, .mk isLeaf bucket children, s, count, index =>
    if index = s.length then .ok (.mk isLeaf (addCount bucket s count) children)
    else if isLeaf = false then do
      let key ← hashAt maxChild s index
      let children' ← withChild (fun c => insert maxLeaf maxChild fuel c s count (index + 1)) key children
      .ok (.mk isLeaf bucket children')
    else
      let bucket' := addCount bucket s count
      if bucket'.length = maxLeaf then do
        let children' ← redistribute (fun c e n => insert maxLeaf maxChild fuel c e n (index + 1)) maxChild index
          bucket' children
        .ok (.mk false [] children')
      else .ok (.mk isLeaf bucket' children)

mutual
/-- The entries `dfs` visits with support 0 (`src/core/tree/hash_tree.hpp` lines 76-90): buckets of leaves, children in key
order; buckets of inner nodes are skipped. -/
def Node.entries : Node → Bucket
  | .mk true b _ => b
  | .mk false _ ch => entriesList ch
/-- The loop over children (`src/core/tree/hash_tree.hpp` lines 86-88). -/
def entriesList : List (Nat × Node) → Bucket
  | [] => []
  | p :: r => entriesPair p ++ entriesList r
/-- One child (`src/core/tree/hash_tree.hpp` line 87). -/
def entriesPair : Nat × Node → Bucket
  | (_, c) => c.entries
end

/-- `dfs(node, support)` (`src/core/tree/hash_tree.hpp` lines 76-90). -/
def dfs (node : Node) (support : Nat) : Bucket := node.entries.filter fun e => decide (support ≤ e.2)

mutual
/-- Longest itemset stored in a node; used for fuel of the recursion of `src/core/tree/hash_tree.hpp` lines 28-74 only, no counterpart
in the code. -/
def Node.longest : Node → Nat
  | .mk _ b ch => max (b.foldl (fun m e => max m e.1.length) 0) (longestList ch)
/-- Longest itemset below a list of children; see `Node.longest` (`src/core/tree/hash_tree.hpp` lines 28-74). -/
def longestList : List (Nat × Node) → Nat
  | [] => 0
  | p :: r => max (longestPair p) (longestList r)
/-- Longest itemset below one child; see `Node.longest` (`src/core/tree/hash_tree.hpp` lines 28-74). -/
def longestPair : Nat × Node → Nat
  | (_, c) => c.longest
end

/-- Increment the counter of a present itemset (`src/core/tree/hash_tree.hpp` lines 124-126). -/
def bump (b : Bucket) (s : List Nat) : Bucket :=
  match find s b with
  | some c => replace s (c + 1) b
  | none => b

mutual
/-- The loop of `add_support` (`src/core/tree/hash_tree.hpp` lines 119-138) at a node reached with `index`. -/
def Node.addSupport (maxChild : Nat) (s : List Nat) : Node → Nat → Res Node
  | .mk true b ch, _ => .ok (.mk true (bump b s) ch)
  | .mk false b ch, index => do
    let key ← hashAt maxChild s index
    let ch' ← addSupportList maxChild s key ch (index + 1)
    .ok (.mk false b ch')
/-- Look for the child with the given key and continue there (`src/core/tree/hash_tree.hpp` lines 130-136). -/
def addSupportList (maxChild : Nat) (s : List Nat) (key : Nat) : List (Nat × Node) → Nat → Res (List (Nat × Node))
  | [], _ => .ok []
  | p :: r, index =>
    if p.1 = key then do
      let p' ← addSupportPair maxChild s p index
      .ok (p' :: r)
    else do
      let r' ← addSupportList maxChild s key r index
      .ok (p :: r')
/-- Continue in one child (`src/core/tree/hash_tree.hpp` line 131). -/
def addSupportPair (maxChild : Nat) (s : List Nat) : Nat × Node → Nat → Res (Nat × Node)
  | (k, c), index => do
    let c' ← c.addSupport maxChild s index
    .ok (k, c')
end

/-- A `HashTree` object (`src/core/tree/hash_tree.hpp` lines 12-17); `itemset_list_` and `count_list_` always grow together
and are kept as one list of pairs. -/
structure Tree where
  maxLeaf : Nat
  maxChild : Nat
  root : Node
  collected : Bucket

/-- Constructor (`src/core/tree/hash_tree.hpp` lines 97-102). -/
def Tree.new (maxLeaf maxChild : Nat) : Tree := ⟨maxLeaf, maxChild, Node.empty, []⟩

/-- `build_tree(itemset)` (`src/core/tree/hash_tree.hpp` lines 106-108). The recursion depth never exceeds the longest
itemset involved. -/
def Tree.buildTree (t : Tree) (s : List Nat) : Res Tree := do
  let root ← insert t.maxLeaf t.maxChild (max s.length t.root.longest + 1) t.root s 0 0
  .ok { t with root := root }

/-- `add_support(itemset)` (`src/core/tree/hash_tree.hpp` lines 119-138). -/
def Tree.addSupport (t : Tree) (s : List Nat) : Res Tree := do
  let root ← t.root.addSupport t.maxChild s 0
  .ok { t with root := root }

/-- `compute_frequency_itemsets(support, …)` (`src/core/tree/hash_tree.hpp` lines 110-117): the found entries are appended
to the member lists, which are then copied to the caller. -/
def Tree.computeFrequency (t : Tree) (support : Nat) : Tree × Bucket :=
  let c := t.collected ++ dfs t.root support
  ({ t with collected := c }, c)

end OpenML.HashTree
