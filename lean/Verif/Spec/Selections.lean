/-!
# Specification: ordered selections of positions

Independent of the model: which position lists are legal selections and how they are ordered.
-/

namespace OpenML.Spec

/-- `p` selects `k` distinct positions below `n`, written in increasing order. -/
def IsSelection (n k : Nat) (p : List Nat) : Prop :=
  p.length = k ∧ p.Pairwise (· < ·) ∧ ∀ i ∈ p, i < n

/-- The entries of `x` at the positions `p`. -/
def entriesAt {α : Type} (x : List α) (p : List Nat) : List α := p.filterMap (x[·]?)

/-- Lexicographic order on position lists. -/
def LexLt : List Nat → List Nat → Prop
  | _, [] => False
  | [], _ :: _ => True
  | a :: as, b :: bs => a < b ∨ (a = b ∧ LexLt as bs)

end OpenML.Spec
