/-!
# Outcomes of C++ calls

Shared by all models. A modelled call ends in one of four ways. This file models no code of `/repo`; it fixes the
meaning of exceptions, undefined behaviour and non-termination used by the other `Model` files.
-/

namespace OpenML

/-- Exception classes thrown by the library (`std::invalid_argument`, for instance `src/core/math/linalg.hpp` line 154,
`std::runtime_error`, for instance `src/methods/rule_model/apriori.hpp` line 98, `std::out_of_range`, for instance
`src/methods/mixture/gaussian_mixture.hpp` line 451) or by
the standard library on its behalf (`std::length_error`, from sizing a vector); message texts are not modelled. -/
inductive Exn where
  | invalidArgument
  | runtimeError
  | outOfRange
  | lengthError
deriving DecidableEq, Repr

/-- Outcome of a C++ call (for all of `/repo/src`; the cases occur together in `src/core/common.hpp` lines 838-896): a value, an exception, undefined behaviour (out-of-bounds access, null dereference, integer
division by zero, missing return, failed `eigen_assert`, violated precondition of a standard algorithm), or a loop
that has not finished within the fuel the model was given. -/
inductive Res (α : Type) where
  | ok (a : α)
  | throw (e : Exn)
  | ub
  | diverge
deriving DecidableEq, Repr

namespace Res

/-- Sequencing of statements (for instance `src/methods/cluster/kmeans.hpp` lines 212-213): the first call that does not return a
value decides the outcome. -/
def bind {α β : Type} (r : Res α) (f : α → Res β) : Res β :=
  match r with
  | ok a => f a
  | throw e => throw e
  | ub => ub
  | diverge => diverge

/-- Sequencing of statements as a monad (for instance `src/methods/cluster/kmeans.hpp` lines 212-213). -/
instance : Monad Res where
  pure := ok
  bind := bind

@[simp] theorem pure_eq {α : Type} (a : α) : (pure a : Res α) = ok a := rfl
@[simp] theorem bind_ok {α β : Type} (a : α) (f : α → Res β) : (ok a >>= f) = f a := rfl
@[simp] theorem bind_throw {α β : Type} (e : Exn) (f : α → Res β) : (throw e >>= f) = throw e := rfl
@[simp] theorem bind_ub {α β : Type} (f : α → Res β) : ((ub : Res α) >>= f) = ub := rfl
@[simp] theorem bind_diverge {α β : Type} (f : α → Res β) : ((diverge : Res α) >>= f) = diverge := rfl

/-- The monad laws (no counterpart in the code; the monad stands for statement sequences such as
`src/methods/cluster/kmeans.hpp` lines 212-213). -/
instance : LawfulMonad Res := LawfulMonad.mk'
  (id_map := by intro α x; cases x <;> rfl)
  (pure_bind := by intros; rfl)
  (bind_assoc := by intro α β γ x f g; cases x <;> rfl)

@[simp] theorem map_ok {α β : Type} (f : α → β) (a : α) : (f <$> (ok a : Res α)) = ok (f a) := rfl
@[simp] theorem map_throw {α β : Type} (f : α → β) (e : Exn) : (f <$> (throw e : Res α)) = throw e := rfl
@[simp] theorem map_ub {α β : Type} (f : α → β) : (f <$> (ub : Res α)) = ub := rfl
@[simp] theorem map_diverge {α β : Type} (f : α → β) : (f <$> (diverge : Res α)) = diverge := rfl

/-- A sequence returns normally iff each step does. -/
theorem bind_eq_ok {α β : Type} {r : Res α} {f : α → Res β} {b : β} :
    (r >>= f) = ok b ↔ ∃ a, r = ok a ∧ f a = ok b := by
  cases r <;> simp

end Res

/-- `v[i]` on a `std::vector` or Eigen vector (for instance `src/core/common.hpp` lines 734, 745): reading outside of the container is undefined behaviour. -/
def readAt {α : Type} (l : List α) (i : Nat) : Res α :=
  match l[i]? with
  | some a => .ok a
  | none => .ub

@[simp] theorem readAt_of_lt {α : Type} {l : List α} {i : Nat} (h : i < l.length) :
    readAt l i = .ok l[i] := by
  simp [readAt, h]

theorem readAt_of_ge {α : Type} {l : List α} {i : Nat} (h : l.length ≤ i) : readAt l i = .ub := by
  simp [readAt, h]

theorem readAt_eq_ok {α : Type} {l : List α} {i : Nat} {a : α} : readAt l i = .ok a ↔ l[i]? = some a := by
  unfold readAt; cases l[i]? <;> simp

end OpenML
