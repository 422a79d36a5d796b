import Mathlib.Order.Defs.LinearOrder
import Mathlib.Data.List.Sort

/-!
# `std::priority_queue`

External semantics (C++ standard library). The order in which elements with equal keys leave a priority queue is not
specified by the standard, so models take an arbitrary queue implementation as a parameter.
-/

namespace OpenML

/-- Operations of a `std::priority_queue<E, …>`; used at `src/core/tree/kd_tree.hpp` lines 24, 287-325. `elems` lists the
current content in unspecified order. -/
structure PQueue (E : Type) where
  σ : Type
  empty : σ
  push : σ → E → σ
  top : σ → Option E
  pop : σ → σ
  elems : σ → List E

/-- Contract of `std::priority_queue` with a comparator that compares `key` by `<` (`src/core/tree/kd_tree.hpp` line 24): `top` is
an element with the largest key and `pop` removes exactly that one. -/
structure PQueue.Lawful {E κ : Type} [LinearOrder κ] (Q : PQueue E) (key : E → κ) : Prop where
  elems_empty : Q.elems Q.empty = []
  elems_push : ∀ s e, (Q.elems (Q.push s e)).Perm (e :: Q.elems s)
  top_none : ∀ s, Q.elems s = [] → Q.top s = none
  top_some : ∀ s, Q.elems s ≠ [] → ∃ e, Q.top s = some e ∧ (∀ x ∈ Q.elems s, key x ≤ key e) ∧
    (e :: Q.elems (Q.pop s)).Perm (Q.elems s)

/-- An element of largest key and the others (what `top` and `pop` of `src/core/tree/kd_tree.hpp` lines 287-325 select). -/
def extractMax {E κ : Type} [LinearOrder κ] (key : E → κ) : List E → Option (E × List E)
  | [] => none
  | e :: l =>
    match extractMax key l with
    | none => some (e, [])
    | some (m, r) => if key m ≤ key e then some (e, l) else some (m, e :: r)

/-- A concrete queue for `src/core/tree/kd_tree.hpp` lines 287-325, used for examples: an unordered list searched for its largest key. -/
def listQueue {E κ : Type} [LinearOrder κ] (key : E → κ) : PQueue E where
  σ := List E
  empty := []
  push s e := e :: s
  top s := (extractMax key s).map Prod.fst
  pop s := ((extractMax key s).map Prod.snd).getD []
  elems s := s

end OpenML
