import Mathlib.Data.Fintype.Pi

/-!
# Specification of the random numbers behind a shuffle
-/

namespace OpenML.Spec

/-- What the generator can draw while shuffling `n` entries: for entry `i` a number up to `i`, all choices being equally likely. -/
abbrev Draws (n : Nat) := (i : Fin n) → Fin (i + 1)

/-- The numbers drawn, as a sequence. -/
def Draws.seq {n : Nat} (d : Draws n) (i : Nat) : Nat := if h : i < n then d ⟨i, h⟩ else 0

end OpenML.Spec
