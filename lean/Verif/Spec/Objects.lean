import Verif.Model.Objects
import Verif.Spec.Counting

/-!
# What programs that copy objects may expect

`Op` is the language of programs (statements with names and arguments only); nothing of the memory is used here.
-/

namespace OpenML.Spec

open OpenML.Objects (Op)

variable {γ ε : Type}

/-- The arguments of the constructor calls of a program, in order. -/
def constructions (ops : List (Op γ ε)) : List γ :=
  ops.filterMap fun op => match op with | .construct _ a => some a | _ => none

/-- The kinship of objects after one more statement: an object belongs to the family founded by a constructor call, copies and assigned
objects join the family of their source. Families are numbered by their constructor calls; `count` is the number of earlier ones. -/
def kinship (count : Nat) (f : Nat → Option Nat) : Op γ ε → Nat → Option Nat
  | .construct n _ => Function.update f n (some count)
  | .copy d s => Function.update f d (f s)
  | .assign d s => Function.update f d (f s)
  | .destroy n => Function.update f n none
  | .call _ _ => f

/-- The families after a program that begins with families `f` and `count` constructor calls. -/
def familiesFrom (count : Nat) (f : Nat → Option Nat) : List (Op γ ε) → Nat → Option Nat
  | [] => f
  | op :: ops => familiesFrom (count + (constructions [op]).length) (kinship count f op) ops

/-- The family of each object after a program. -/
def families (ops : List (Op γ ε)) : Nat → Option Nat := familiesFrom 0 (fun _ => none) ops

/-- Some member of the family was destroyed in the course of the program. -/
def Bereaved (ops : List (Op γ ε)) (family : Nat) : Prop :=
  ∃ before n after, ops = before ++ .destroy n :: after ∧ families before n = some family

/-- The calls made through members of a family, in order. -/
def familyCallsFrom (count : Nat) (f : Nat → Option Nat) (family : Nat) : List (Op γ ε) → List ε
  | [] => []
  | op :: ops =>
    (match op with
      | .call n e => if f n = some family then [e] else []
      | _ => []) ++ familyCallsFrom (count + (constructions [op]).length) (kinship count f op) family ops

/-- The calls made through members of a family, in order. -/
def familyCalls (ops : List (Op γ ε)) (family : Nat) : List ε := familyCallsFrom 0 (fun _ => none) family ops

/-- Operations on the counters among calls of a hash tree. -/
def countOps : List Objects.HashCall → List CountOp
  | [] => []
  | .insert s :: l => .register s :: countOps l
  | .occur s :: l => .occur s :: countOps l
  | .report _ :: l => countOps l

/-- Value semantics: every object has a state of its own, which copying duplicates. `start` is the state after construction and `change`
the effect of a call on the state of the one object it is made on. -/
def valueStep {τ : Type} (start : γ → Res τ) (change : ε → τ → Res τ) (v : Nat → Option τ) : Op γ ε → Res (Nat → Option τ)
  | .construct n a =>
    match v n with
    | some _ => .ub
    | none => do
      let s ← start a
      .ok (Function.update v n (some s))
  | .copy d s =>
    match v d, v s with
    | none, some x => .ok (Function.update v d (some x))
    | _, _ => .ub
  | .assign d s =>
    match v d, v s with
    | some _, some x => .ok (Function.update v d (some x))
    | _, _ => .ub
  | .destroy n =>
    match v n with
    | none => .ub
    | some _ => .ok (Function.update v n none)
  | .call n e =>
    match v n with
    | none => .ub
    | some x => do
      let x' ← change e x
      .ok (Function.update v n (some x'))

/-- A program under value semantics. -/
def valueRun {τ : Type} (start : γ → Res τ) (change : ε → τ → Res τ) (v : Nat → Option τ) : List (Op γ ε) → Res (Nat → Option τ)
  | [] => .ok v
  | op :: ops => do
    let v' ← valueStep start change v op
    valueRun start change v' ops

end OpenML.Spec
