/-!
# Specification: a counting map driven by insertions and occurrences
-/

namespace OpenML.Spec

/-- Operations a user performs on a counting structure: register an itemset, or report one occurrence of it. -/
inductive CountOp where
  | register (s : List Nat)
  | occur (s : List Nat)
deriving DecidableEq

/-- The itemset an operation talks about. -/
def CountOp.itemset : CountOp → List Nat
  | .register s => s
  | .occur s => s

/-- The counter of `s` after a history: absent if it was never registered, otherwise the number of occurrences reported
after its first registration. -/
def counterAfter (ops : List CountOp) (s : List Nat) : Option Nat :=
  match ops.dropWhile (fun op => decide (op ≠ .register s)) with
  | [] => none
  | _ :: later => some (later.count (.occur s))

end OpenML.Spec
