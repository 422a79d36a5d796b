import Verif.Model.Saturation
import Mathlib.Analysis.SpecialFunctions.Trigonometric.Basic

/-!
# Gaussian naive Bayes with rounding, infinities and NaN

The columns of the samples of each class are finite numbers. As in `Model/Rounding.lean` finite results do not overflow or underflow.
-/

namespace OpenML.Saturation

open Rounding

/-- Division of finite numbers (`src/methods/naive_bayes/gaussian_naive_bayes.hpp` line 50): zero by zero is NaN. -/
noncomputable def XF.quot (V : Env) (a b : ℝ) : XF :=
  if b = 0 then (if a = 0 then .nan else if 0 < a then .pinf else .ninf) else .fin (V.rnd (a / b))

/-- Exponential of any value (`src/core/math/linalg.hpp` line 289, `src/methods/naive_bayes/base.hpp` line 90). -/
noncomputable def XF.exp (V : Env) : XF → XF
  | .nan => .nan
  | .ninf => .fin 0
  | .pinf => .pinf
  | .fin a => .fin (V.exp a)

/-- Logarithm of any value (`src/core/math/linalg.hpp` line 289). -/
noncomputable def XF.logOf (V : Env) : XF → XF
  | .nan => .nan
  | .ninf => .nan
  | .pinf => .pinf
  | .fin a => XF.log V a

/-- One entry of `val.array().log()` (`src/methods/naive_bayes/gaussian_naive_bayes.hpp` lines 46-48) for the variance `v`. -/
noncomputable def logVariance (V : Env) (v : ℝ) : XF := XF.log V (V.rnd (V.rnd (v * 2) * V.rnd Real.pi))

/-- One entry of `X_centered_reduced` (`src/methods/naive_bayes/gaussian_naive_bayes.hpp` lines 49-50). -/
noncomputable def reduced (V : Env) (a m v : ℝ) : XF := XF.quot V (V.rnd (V.rnd (a - m) * V.rnd (a - m))) v

/-- The entries of `X_centered_reduced` for one sample (`src/methods/naive_bayes/gaussian_naive_bayes.hpp` lines 49-50); rows have the
same length. -/
noncomputable def reducedRow (V : Env) : List ℝ → List ℝ → List ℝ → List XF
  | a :: x, m :: mean, v :: var => reduced V a m v :: reducedRow V x mean var
  | _, _, _ => []

/-- `w` is a possible entry of `jll` (`src/methods/naive_bayes/gaussian_naive_bayes.hpp` lines 37-57) for one sample `x` and a class with
the given row of means and variances, without assertions; `prior` is the prior probability of the first class, which is added in all
columns. -/
def JointLogLikelihood (V : Env) (prior : ℝ) (mean var x : List ℝ) (w : XF) : Prop :=
  mean.length = x.length ∧ var.length = x.length ∧ ∃ s q, SummedX V (var.map (logVariance V)) s ∧ SummedX V (reducedRow V x mean var) q ∧
    w = XF.add V (XF.sub V (XF.scale V (-1 / 2) s) (XF.scale V (1 / 2) q)) (XF.log V prior)

/-- `c` is a possible value of `maxCoeff()` of a row (`src/core/math/linalg.hpp` line 287). Eigen leaves the result open if there is a
NaN; here it is left open for rows with infinities, too. -/
def Largest (row : List XF) (c : XF) : Prop :=
  ∀ l : List ℝ, row = l.map .fin → ∃ r, c = .fin r ∧ r ∈ l ∧ ∀ a ∈ l, a ≤ r

/-- `w` is a possible value of `logsumexp` of one row (`src/core/math/linalg.hpp` lines 286-291). -/
def LogSumExpX (V : Env) (row : List XF) (w : XF) : Prop :=
  ∃ c s, Largest row c ∧ SummedX V (row.map fun a => XF.exp V (XF.sub V a c)) s ∧ w = XF.add V (XF.logOf V s) c

/-- `out` is a possible row of `predict_log_prob` (`src/methods/naive_bayes/base.hpp` lines 65-78) for the sample `x`. -/
def PredictLogProb (V : Env) (prior : ℝ) (means vars : List (List ℝ)) (x : List ℝ) (out : List XF) : Prop :=
  means.length = vars.length ∧ ∃ row l, List.Forall₂ (fun (e : List ℝ × List ℝ) w => JointLogLikelihood V prior e.1 e.2 x w) (means.zip vars) row ∧
    LogSumExpX V row l ∧ out = row.map fun a => XF.sub V a l

/-- `out` is a possible row of `predict_prob` (`src/methods/naive_bayes/base.hpp` lines 88-91) for the sample `x`. -/
def PredictProb (V : Env) (prior : ℝ) (means vars : List (List ℝ)) (x : List ℝ) (out : List XF) : Prop :=
  ∃ lp, PredictLogProb V prior means vars x lp ∧ out = lp.map (XF.exp V)

/-- `means` and `vars` are possible parameters after `fit` (`src/methods/naive_bayes/gaussian_naive_bayes.hpp` lines 62-92, 113-119) with
the given value of `var_smoothing_`. `groups` holds, for each class and each feature, the values of this feature in the samples of the
class. -/
def GaussianFit (V : Env) (smoothing : ℝ) (groups : List (List (List ℝ))) (means vars : List (List ℝ)) : Prop :=
  List.Forall₂ (List.Forall₂ (Mean V.toArith)) groups means ∧ ∃ raw top add, List.Forall₂ (List.Forall₂ (Var V.toArith)) groups raw ∧
    top ∈ raw.flatten ∧ (∀ v ∈ raw.flatten, v ≤ top) ∧ Term V.toArith smoothing top add ∧
    vars = raw.map fun r => r.map fun v => V.rnd (v + add)

end OpenML.Saturation
