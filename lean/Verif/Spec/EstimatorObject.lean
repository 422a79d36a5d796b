import Verif.Model.EstimatorObject

/-!
# What the objects of a program have learned

Written without reference to the states that a program goes through.
-/

namespace OpenML.Spec

open OpenML.EstObject

/-- A call of `fit`: the random numbers it met and its arguments. -/
abbrev FitCall (κ : Type) := κ × DMat ℝ × List ℝ

/-- How one statement continues the histories of the objects: a history lists the calls of `fit` on an object, after those on the
object it was copied or assigned from. -/
def extend {κ Q : Type} (h : Nat → Option (List (FitCall κ))) : Op κ Q → Nat → Option (List (FitCall κ))
  | .construct n => fun i => if i = n then some [] else h i
  | .copy d s => fun i => if i = d then h s else h i
  | .assign d s => fun i => if i = d then h s else h i
  | .destroy n => fun i => if i = n then none else h i
  | .fit n k X y => fun i => if i = n then (h n).map (· ++ [(k, X, y)]) else h i
  | .ask _ _ => h

/-- The history of each object at the end of a program; `none` if there is no object of that name. -/
def histories {κ Q : Type} (ops : List (Op κ Q)) : Nat → Option (List (FitCall κ)) := ops.foldl extend fun _ => none

/-- What the last successful call of a history delivered. -/
def lastSuccess {κ β : Type} (fit : κ → DMat ℝ → List ℝ → Res β) (L : List (FitCall κ)) : Option β :=
  (L.filterMap fun c => match fit c.1 c.2.1 c.2.2 with
    | .ok b => some b
    | _ => none).getLast?

/-- A statement does not change which object has the given name nor what it has learned. -/
def Leaves {κ Q : Type} (n : Nat) : Op κ Q → Prop
  | .construct m => m ≠ n
  | .copy d _ => d ≠ n
  | .assign d _ => d ≠ n
  | .destroy m => m ≠ n
  | .fit m _ _ _ => m ≠ n
  | .ask _ _ => True

end OpenML.Spec
