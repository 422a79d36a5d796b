import Verif.Model.LBFGS
import Mathlib.Data.Matrix.Mul
import Mathlib.LinearAlgebra.Matrix.Notation

/-!
# Specification: line searches and the BFGS matrix
-/

namespace OpenML.Spec

variable {α : Type} [Field α] [LinearOrder α]

/-- A step length with the loss and the directional derivative of the loss there. -/
structure Trial (α : Type) where
  t : α
  f : α
  slope : α

/-- `e` belongs to the point `x + t * d`. -/
def IsTrial (evaluate : List α → Res α) (gradient : List α → Res (List α)) (x d : List α) (e : Trial α) : Prop :=
  ∃ g, evaluate (List.zipWith (fun a b => a + e.t * b) x d) = .ok e.f ∧
    gradient (List.zipWith (fun a b => a + e.t * b) x d) = .ok g ∧ (List.zipWith (· * ·) d g).sum = e.slope

/-- Sufficient decrease, relative to the loss `f0` and the slope `m0` at the start. -/
def Armijo (c f0 m0 : α) (e : Trial α) : Prop := e.f ≤ f0 + c * e.t * m0

/-- The slope has increased enough. -/
def Curvature (c m0 : α) (e : Trial α) : Prop := c * m0 ≤ e.slope

/-- The slope has become small enough. -/
def StrongCurvature (c m0 : α) (e : Trial α) : Prop := |e.slope| ≤ c * |m0|

/-- The condition with the given name; all names other than two denote the strong Wolfe condition. -/
def Condition (name : String) (c1 c2 f0 m0 : α) (e : Trial α) : Prop :=
  Armijo c1 f0 m0 e ∧ (name ≠ "ARMIJO" → Curvature c2 m0 e ∧ (name ≠ "WOLFE" → StrongCurvature c2 m0 e))

/-- A step that is too short: enough decrease, but the loss still falls steeply. -/
def TooShort (name : String) (c1 c2 f0 m0 : α) (e : Trial α) : Prop :=
  Armijo c1 f0 m0 e ∧ name ≠ "ARMIJO" ∧ ¬ Curvature c2 m0 e

/-- One step of a descent method with line search: from `x` in a direction `d` that is not ascending to `x + t * d`, which meets the condition. -/
def SearchStep (evaluate : List α → Res α) (gradient : List α → Res (List α)) (name : String) (c1 c2 : α) (x z : List α) : Prop :=
  ∃ f g d e, evaluate x = .ok f ∧ gradient x = .ok g ∧ (List.zipWith (· * ·) d g).sum ≤ 0 ∧ 0 < e.t ∧
    z = List.zipWith (fun a b => a + e.t * b) x d ∧ IsTrial evaluate gradient x d e ∧
    Condition name c1 c2 f (List.zipWith (· * ·) d g).sum e

/-- `n` steps from `x` to `z`. -/
inductive SearchPath (evaluate : List α → Res α) (gradient : List α → Res (List α)) (name : String) (c1 c2 : α) :
    Nat → List α → List α → Prop
  | start (x : List α) : SearchPath evaluate gradient name c1 c2 0 x x
  | step {n : Nat} {x z z' : List α} : SearchPath evaluate gradient name c1 c2 n x z →
      SearchStep evaluate gradient name c1 c2 z z' → SearchPath evaluate gradient name c1 c2 (n + 1) x z'

section Bfgs
open Matrix
variable {n : Nat}

/-- The BFGS update of an inverse Hessian approximation. -/
def bfgs (H : Matrix (Fin n) (Fin n) α) (s y : Fin n → α) : Matrix (Fin n) (Fin n) α :=
  (1 - (s ⬝ᵥ y)⁻¹ • vecMulVec s y) * H * (1 - (s ⬝ᵥ y)⁻¹ • vecMulVec y s) + (s ⬝ᵥ y)⁻¹ • vecMulVec s s

/-- The matrix after updates with a list of correction pairs, the most recent first, from a multiple of the unit matrix. -/
def bfgsList (c : α) : List ((Fin n → α) × (Fin n → α)) → Matrix (Fin n) (Fin n) α
  | [] => c • 1
  | e :: l => bfgs (bfgsList c l) e.1 e.2

end Bfgs

end OpenML.Spec
