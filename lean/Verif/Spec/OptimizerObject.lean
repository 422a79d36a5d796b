import Verif.Model.Eigen
import Verif.Model.Res

/-!
# Specification of repeated calls of `optimize` on one object
-/

namespace OpenML.Spec

/-- A batch of samples given to an optimizer, with the learning rate and the number of the batch. -/
structure Batch (α : Type) where
  X : DMat α
  y : List α
  lr : α
  num : Nat

/-- Batches have been applied one after the other, each exactly once. -/
inductive Applied {S E : Type} (step : S → E → S → Prop) : S → List E → S → Prop
  | nil (s : S) : Applied step s [] s
  | cons {s s' s'' : S} {e : E} {es : List E} (h : step s e s') (t : Applied step s' es s'') : Applied step s (e :: es) s''

/-- Batch number `j` of size `b` of some samples. -/
def batchOf {α : Type} (b : Nat) (lr : α) (D : DMat α × List α) (j : Nat) : Batch α :=
  ⟨⟨D.1.ncols, (D.1.rows.drop (j * b)).take b⟩, (D.2.drop (j * b)).take b, lr, j⟩

/-- The batches of `n` epochs from number `i`: epoch `i` sees the samples in the order `D (i + 1)` with learning rate `lr i`. -/
def batches {α : Type} (b k : Nat) (lr : Nat → α) (D : Nat → DMat α × List α) (i n : Nat) : List (Batch α) :=
  (List.range' i n).flatMap fun e => (List.range' 0 k).map (batchOf b (lr e) (D (e + 1)))

/-- The last result, if any. -/
def lastSome {β : Type} (init : Option β) (rs : List (Option β)) : Option β := rs.foldl (fun acc r => r.or acc) init

end OpenML.Spec
