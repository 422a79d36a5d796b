import Verif.Model.LinAlg
import Verif.Model.SvdFlip

/-!
# Model of `PCA` (`src/methods/decomposition/pca.hpp`)

Matrices are Mathlib matrices over the reals whose sizes are part of the type: the number of features of all matrices given to one
object is the same (other sizes violate assertions of Eigen). What Eigen's decompositions return is a parameter. The model is for at
least one sample and one feature. The only known solver name is "svd" (line 45); with another name the variables of lines 39-44 stay
empty and lines 60 or 66 take rows from them, which violates an assertion.
-/

namespace OpenML.PCA

open Matrix

/-- The same matrix as a list of rows (`src/core/math/extmath.hpp` lines 52-54). -/
def toDMat {m n : Nat} (x : Matrix (Fin m) (Fin n) ℝ) : DMat ℝ := ⟨n, List.ofFn fun i => List.ofFn fun j => x i j⟩

/-- The matrix of given size of a list of rows (`src/core/math/extmath.hpp` line 92). -/
def ofDMat (m n : Nat) (x : DMat ℝ) : Matrix (Fin m) (Fin n) ℝ := Matrix.of fun i j => (x.rows.getD i.val []).getD j.val 0

/-- `svd_flip` with `u_based_decision = true` (`src/core/math/extmath.hpp` lines 52-93), called at
`src/methods/decomposition/pca.hpp` line 49 and `src/core/math/linalg.hpp` line 203. -/
noncomputable def flip {m k l n : Nat} (U : Matrix (Fin m) (Fin k) ℝ) (Vt : Matrix (Fin l) (Fin n) ℝ) :
    Res (Matrix (Fin m) (Fin k) ℝ × Matrix (Fin l) (Fin n) ℝ) := do
  let r ← SvdFlip.svdFlip (toDMat U) (toDMat Vt) true
  .ok (ofDMat m k r.1, ofDMat l n r.2)

/-- The members assigned by `fit_data` (`src/methods/decomposition/pca.hpp` lines 58-69); `none` stands for NaN in all
entries. -/
structure Fitted (k d : Nat) where
  components : Matrix (Fin k) (Fin d) ℝ
  singular : Fin k → ℝ
  explained : Option (Fin k → ℝ)
  ratio : Option (Fin k → ℝ)
  noise : Option ℝ

/-- `explained_var` (`src/methods/decomposition/pca.hpp` line 51); one sample gives the quotient of zero and zero. -/
noncomputable def explainedAll {K : Nat} (n : Nat) (s : Fin K → ℝ) : Option (Fin K → ℝ) :=
  if n = 1 then none else some fun i => s i ^ 2 / ((n : ℝ) - 1)

/-- `explained_var_ratio` (`src/methods/decomposition/pca.hpp` lines 55-56). -/
noncomputable def ratioAll {K : Nat} (ev : Option (Fin K → ℝ)) : Option (Fin K → ℝ) :=
  match ev with
  | none => none
  | some e => if ∑ i, e i = 0 then none else some fun i => e i / ∑ j, e j

/-- `noise_var_` for `k` components (`src/methods/decomposition/pca.hpp` lines 58-65). -/
noncomputable def noiseOf {K : Nat} (k : Nat) (ev : Option (Fin K → ℝ)) : Option ℝ :=
  if k < K then
    match ev with
    | none => none
    | some e => some ((∑ i : Fin K, if K - (K - k) ≤ i.val then e i else 0) / ((K - k : Nat) : ℝ))
  else some 0

/-- `fit_data` (`src/methods/decomposition/pca.hpp` lines 33-70) with the solver "svd", where `U`, `s`, `V` is the thin
decomposition of the centred data (line 46). More components than rows of the factors violate an assertion (lines 66-69). -/
noncomputable def fit {n d : Nat} (k : Nat) (U : Matrix (Fin n) (Fin (min n d)) ℝ) (s : Fin (min n d) → ℝ)
    (V : Matrix (Fin d) (Fin (min n d)) ℝ) : Res (Fitted k d) := do
  let r ← flip U Vᵀ
  let ev := explainedAll n s
  if h : k ≤ min n d then
    .ok { components := Matrix.of fun i j => r.2 (Fin.castLE h i) j
          singular := fun i => s (Fin.castLE h i)
          explained := ev.map fun e i => e (Fin.castLE h i)
          ratio := (ratioAll ev).map fun e i => e (Fin.castLE h i)
          noise := noiseOf k ev }
  else .ub

/-- `transform_data` (`src/methods/decomposition/pca.hpp` lines 73-81), called by `transform`
(`src/methods/decomposition/base.hpp` lines 58-62). -/
noncomputable def transform {k d m : Nat} (f : Fitted k d) (X : Matrix (Fin m) (Fin d) ℝ) : Matrix (Fin m) (Fin k) ℝ :=
  LinAlg.center X * f.componentsᵀ

/-- `compute_data_covariance` (`src/methods/decomposition/pca.hpp` lines 84-102); NaN in a variance spreads to all entries. -/
noncomputable def covarianceOf {k d : Nat} (f : Fitted k d) : Option (Matrix (Fin d) (Fin d) ℝ) :=
  match f.explained, f.noise with
  | some e, some v =>
    some (f.componentsᵀ * (Matrix.of fun i j => max ((Matrix.diagonal e) i j - v) 0) * f.components + v • 1)
  | _, _ => none

/-- The variables of an object that the member functions use (`src/methods/decomposition/base.hpp` lines 19-25). `fitted = none`
is an object before the first call of `fit`; `none` for one of the matrices is the matrix without entries before the first
assignment, `some none` a matrix of NaN. -/
structure State (k d : Nat) where
  fitted : Option (Fitted k d)
  covariance : Option (Option (Matrix (Fin d) (Fin d) ℝ))
  precision : Option (Option (Matrix (Fin d) (Fin d) ℝ))

/-- A new object (`src/methods/decomposition/pca.hpp` lines 128-135). -/
def State.new (k d : Nat) : State k d := ⟨none, none, none⟩

/-- `fit` (`src/methods/decomposition/base.hpp` lines 44-46) with the given decomposition of the centred data: the covariance
and the precision keep their values. -/
noncomputable def State.fit {k d n : Nat} (st : State k d) (U : Matrix (Fin n) (Fin (min n d)) ℝ) (s : Fin (min n d) → ℝ)
    (V : Matrix (Fin d) (Fin (min n d)) ℝ) : Res (State k d) := do
  let f ← PCA.fit k U s V
  .ok { st with fitted := some f }

/-- `get_covariance` (`src/methods/decomposition/pca.hpp` lines 168-171). An object that is not fitted reads the uninitialised
member `noise_var_`. -/
noncomputable def State.getCovariance {k d : Nat} (st : State k d) : Res (State k d) :=
  match st.fitted with
  | none => .ub
  | some f => .ok { st with covariance := some (covarianceOf f) }

/-- `get_precision` (`src/methods/decomposition/pca.hpp` lines 104-107, 178-181) with `pinv` for the decomposition `svd` of a
square matrix and the default cut-off 1e-6. The decomposition of a matrix without entries violates an assertion; for NaN the
result is not specified, here NaN. -/
noncomputable def State.getPrecision {k d : Nat}
    (svd : Matrix (Fin d) (Fin d) ℝ → Matrix (Fin d) (Fin d) ℝ × (Nat → ℝ) × Matrix (Fin d) (Fin d) ℝ) (st : State k d) :
    Res (State k d) :=
  match st.covariance with
  | none => .ub
  | some none => .ok { st with precision := some none }
  | some (some c) =>
    .ok { st with precision := some (some (LinAlg.pinv (1 / 1000000) (svd c).1 (svd c).2.1 (svd c).2.2)) }

/-- `compute_score_samples` (`src/methods/decomposition/pca.hpp` lines 110-125) for one row `x` and the logarithm `ld` of the
determinant of the precision. -/
noncomputable def scoreRow {d : Nat} (P : Matrix (Fin d) (Fin d) ℝ) (ld : ℝ) (x : Fin d → ℝ) : ℝ :=
  (∑ j, x j * (x ᵥ* P) j) * (-(1 / 2)) - 1 / 2 * ((d : ℝ) * Real.log (2 * Real.pi) - ld)

/-- `score` (`src/methods/decomposition/pca.hpp` lines 146-158) with what `Eigen::PartialPivLU` returns for a matrix, of which
`logdet` uses the permutation and the diagonal. `some ⊥` is minus infinity, `none` NaN. Without a precision the matrices of line
114 do not fit. -/
noncomputable def State.score {k d m : Nat}
    (lu : Matrix (Fin d) (Fin d) ℝ → Equiv.Perm (Fin d) × (Fin d → ℝ)) (st : State k d) (X : Matrix (Fin m) (Fin d) ℝ) :
    Res (Option (WithBot ℝ)) :=
  match st.precision with
  | none => .ub
  | some none => .ok none
  | some (some P) =>
    match LinAlg.logdet (lu P).1 (lu P).2 with
    | ⊥ => .ok (some ⊥)
    | (ld : ℝ) => .ok (some (((∑ i, scoreRow P ld (LinAlg.center X i)) / (m : ℝ) : ℝ) : WithBot ℝ))

end OpenML.PCA
