import Verif.Model.PCA

/-!
# Model of programs that use a PCA object (`src/methods/decomposition/pca.hpp`, `src/methods/decomposition/base.hpp`)

One object with `k` components is given matrices with `d` features by any sequence of calls. No member throws an exception of its own;
what does not fit violates an assertion of Eigen, here undefined. A program stops there. The solver is "svd", the only known name.
-/

namespace OpenML.PCAObject

open Matrix PCA

/-- What Eigen's decompositions return: the thin one of the centred training data (`src/methods/decomposition/pca.hpp` line 46), the
one in `pinv` (`src/methods/decomposition/pca.hpp` line 106) and of the triangular one in `logdet`
(`src/methods/decomposition/pca.hpp` line 122) the permutation and the diagonal. -/
structure Decompositions (d : Nat) where
  thin : ∀ n, Matrix (Fin n) (Fin d) ℝ → Matrix (Fin n) (Fin (min n d)) ℝ × (Fin (min n d) → ℝ) × Matrix (Fin d) (Fin (min n d)) ℝ
  full : Matrix (Fin d) (Fin d) ℝ → Matrix (Fin d) (Fin d) ℝ × (Nat → ℝ) × Matrix (Fin d) (Fin d) ℝ
  lu : Matrix (Fin d) (Fin d) ℝ → Equiv.Perm (Fin d) × (Fin d → ℝ)

/-- A call of a public member (`src/methods/decomposition/base.hpp` lines 44-90, `src/methods/decomposition/pca.hpp` lines 146-181). -/
inductive Call (d : Nat) where
  | fit (n : Nat) (X : Matrix (Fin n) (Fin d) ℝ)
  | transform (m : Nat) (Z : Matrix (Fin m) (Fin d) ℝ)
  | components
  | explainedVar
  | explainedVarRatio
  | singularValues
  | covariance
  | precision
  | score (m : Nat) (Y : Matrix (Fin m) (Fin d) ℝ)

/-- What a program sees of a call (`src/methods/decomposition/base.hpp` lines 44-90, `src/methods/decomposition/pca.hpp` lines
146-181). `empty` is a matrix or vector without entries, the value of the members of a new object; `none` stands for NaN. -/
inductive Seen (k d : Nat) where
  | done
  | empty
  | projected (m : Nat) (Z : Matrix (Fin m) (Fin k) ℝ)
  | components (C : Matrix (Fin k) (Fin d) ℝ)
  | vector (v : Option (Fin k → ℝ))
  | square (C : Option (Matrix (Fin d) (Fin d) ℝ))
  | number (a : Option (WithBot ℝ))

/-- A getter (`src/methods/decomposition/base.hpp` lines 67-90). -/
def getter {k d : Nat} (st : State k d) (f : Fitted k d → Seen k d) : Seen k d :=
  match st.fitted with
  | none => .empty
  | some p => f p

/-- One call (`src/methods/decomposition/base.hpp` lines 44-90, `src/methods/decomposition/pca.hpp` lines 146-181). The product in
`transform_data` (`src/methods/decomposition/pca.hpp` line 79) does not fit before the first call of `fit`. -/
noncomputable def step {k d : Nat} (D : Decompositions d) (st : State k d) : Call d → Res (State k d × Seen k d)
  | .fit n X => do
    let st ← st.fit (D.thin n (LinAlg.center X)).1 (D.thin n (LinAlg.center X)).2.1 (D.thin n (LinAlg.center X)).2.2
    .ok (st, .done)
  | .transform m Z =>
    match st.fitted with
    | none => .ub
    | some f => .ok (st, .projected m (PCA.transform f Z))
  | .components => .ok (st, getter st fun f => .components f.components)
  | .explainedVar => .ok (st, getter st fun f => .vector f.explained)
  | .explainedVarRatio => .ok (st, getter st fun f => .vector f.ratio)
  | .singularValues => .ok (st, getter st fun f => .vector (some f.singular))
  | .covariance => do
    let st ← st.getCovariance
    .ok (st, match st.covariance with | none => .empty | some c => .square c)
  | .precision => do
    let st ← st.getPrecision D.full
    .ok (st, match st.precision with | none => .empty | some c => .square c)
  | .score _ Y => do
    let a ← st.score D.lu Y
    .ok (st, .number a)

/-- A sequence of calls (members of `src/methods/decomposition/base.hpp` lines 44-90 and `src/methods/decomposition/pca.hpp` lines
146-181). -/
noncomputable def run {k d : Nat} (D : Decompositions d) : State k d → List (Call d) → Res (State k d × List (Seen k d))
  | st, [] => .ok (st, [])
  | st, c :: cs => do
    let r ← step D st c
    let s ← run D r.1 cs
    .ok (s.1, r.2 :: s.2)

/-- A program: a new object (`src/methods/decomposition/pca.hpp` lines 128-135), then the calls. -/
noncomputable def program {d : Nat} (k : Nat) (D : Decompositions d) (cs : List (Call d)) : Res (List (Seen k d)) := do
  let r ← run D (State.new k d) cs
  .ok r.2

end OpenML.PCAObject
