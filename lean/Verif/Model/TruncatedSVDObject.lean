import Verif.Model.TruncatedSVD

/-!
# Model of programs that use a `TruncatedSVD` object (`src/methods/decomposition/truncated_svd.hpp`)

A program constructs an object, calls its public members and catches the exceptions of `fit`. All matrices of a program have the same
number of columns. The random numbers that a call of `fit` draws are given with the call.
-/

namespace OpenML.TruncatedSVDObject

open Matrix TruncatedSVD

/-- The parameters of the constructor (`src/methods/decomposition/truncated_svd.hpp` lines 71-79) apart from the numbers of components
and of further random vectors. -/
structure Settings where
  iters : Nat
  normalizer : String
  solver : String

/-- A statement: `fit` and `transform` (`src/methods/decomposition/base.hpp` lines 44-62) or a getter (lines 67-90). `Q` are the
random numbers of `fit` (`src/core/math/linalg.hpp` line 158). -/
inductive Call (k p d : Nat) where
  | fit (M : Nat) (X : Matrix (Fin M) (Fin d) ℝ) (Q : Matrix (Fin d) (Fin (k + p)) ℝ)
  | transform (m : Nat) (Z : Matrix (Fin m) (Fin d) ℝ)
  | components
  | explainedVar
  | explainedVarRatio
  | singularValues

/-- What a program sees of a statement (`src/methods/decomposition/base.hpp` lines 44-90). `empty` is a matrix or vector without
entries; `vector none` is a vector of NaN. -/
inductive Seen (k d : Nat) where
  | done
  | caught (e : Exn)
  | empty
  | projected (m : Nat) (Z : Matrix (Fin m) (Fin k) ℝ)
  | components (C : Matrix (Fin k) (Fin d) ℝ)
  | vector (v : Option (Fin k → ℝ))

/-- A getter (`src/methods/decomposition/base.hpp` lines 67-90). -/
def getter {k d : Nat} (st : Option (Fitted k d)) (f : Fitted k d → Seen k d) : Seen k d :=
  match st with
  | none => .empty
  | some p => f p

/-- One statement (`src/methods/decomposition/base.hpp` lines 44-90). The members are assigned after everything that can throw
(`src/methods/decomposition/truncated_svd.hpp` lines 50-53). -/
noncomputable def step {k p d : Nat} (dec : Decompositions) (s : Settings) (st : Option (Fitted k d)) :
    Call k p d → Res (Option (Fitted k d) × Seen k d)
  | .fit _ X Q =>
    match TruncatedSVD.fit dec s.solver X k p s.iters s.normalizer Q with
    | .ok st' => .ok (st', .done)
    | .throw e => .ok (st, .caught e)
    | .ub => .ub
    | .diverge => .diverge
  | .transform m Z => do
    let T ← TruncatedSVD.transform st Z
    .ok (st, .projected m T)
  | .components => .ok (st, getter st fun f => .components f.components)
  | .explainedVar => .ok (st, getter st fun f => .vector (some f.explained))
  | .explainedVarRatio => .ok (st, getter st fun f => .vector f.ratio)
  | .singularValues => .ok (st, getter st fun f => .vector (some f.singular))

/-- A sequence of statements (members of `src/methods/decomposition/base.hpp` lines 44-90). -/
noncomputable def run {k p d : Nat} (dec : Decompositions) (s : Settings) :
    Option (Fitted k d) → List (Call k p d) → Res (Option (Fitted k d) × List (Seen k d))
  | st, [] => .ok (st, [])
  | st, c :: cs => do
    let r ← step dec s st c
    let t ← run dec s r.1 cs
    .ok (t.1, r.2 :: t.2)

/-- A program: a new object (`src/methods/decomposition/truncated_svd.hpp` lines 71-79), then the statements. -/
noncomputable def program {k p d : Nat} (dec : Decompositions) (s : Settings) (cs : List (Call k p d)) : Res (List (Seen k d)) := do
  let r ← run dec s none cs
  .ok r.2

end OpenML.TruncatedSVDObject
