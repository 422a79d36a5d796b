import Verif.Model.Analytic
import Verif.Model.Stats
import Mathlib.Analysis.SpecialFunctions.Trigonometric.Basic

/-!
# Model of `src/methods/naive_bayes`

Labels and features have the same scalar type, a field with a linear order; logarithms are real. `checked` says whether Eigen
assertions are enabled.
-/

namespace OpenML.NB

section fit

variable {α : Type} [Field α] [LinearOrder α]

/-- `label_map_[y]++` on a `std::map`, a list with increasing keys (`src/methods/naive_bayes/base.hpp` line 39). -/
def countLabel : List (α × Nat) → α → List (α × Nat)
  | [], y => [(y, 1)]
  | (k, c) :: m, y => if y < k then (y, 1) :: (k, c) :: m else if y = k then (k, c + 1) :: m else (k, c) :: countLabel m y

/-- The counting loop of `compute_prior_prob` (`src/methods/naive_bayes/base.hpp` lines 37-40); the map is a member and keeps
the counts of earlier calls. -/
def countLabels (m : List (α × Nat)) (y : List α) : List (α × Nat) := y.foldl countLabel m

/-- `classes_` (`src/methods/naive_bayes/base.hpp` lines 45-47). -/
def classesOf (m : List (α × Nat)) : List α := m.map Prod.fst

/-- `prior_prob_` (`src/methods/naive_bayes/base.hpp` lines 44, 48); `n` is the number of samples of the last call. For
`n = 0` and a non-empty map the C++ quotient is infinite. -/
def priorsOf (m : List (α × Nat)) (n : Nat) : List α := m.map fun e => (e.2 : α) / (n : α)

/-- The label map after a sequence of fits (`src/methods/naive_bayes/base.hpp` lines 36-51, called at
`src/methods/naive_bayes/gaussian_naive_bayes.hpp` line 116 and `src/methods/naive_bayes/multinomial_naive_bayes.hpp`
line 119). -/
def labelMapAfter (fits : List (List α)) : List (α × Nat) := fits.foldl countLabels []

/-- `X_y(keep_rows, keep_cols)` (`src/methods/naive_bayes/gaussian_naive_bayes.hpp` lines 76-84,
`src/methods/naive_bayes/multinomial_naive_bayes.hpp` lines 41-49): rows of `X_y` whose last entry is the label. -/
def rowsOfLabel (d : Nat) (Xy : DMat α) (label : α) : Res (List (List α)) :=
  mapRes (fun row => mapRes (readAt row) (linSpaced (d + 1) 0 (d + 1)))
    (Xy.rows.filter fun row => row[d]? == some label)

/-- The part of the data with one label without the label column (`leftCols`,
`src/methods/naive_bayes/gaussian_naive_bayes.hpp` lines 84-86, `src/methods/naive_bayes/multinomial_naive_bayes.hpp` lines
49-51). -/
def groupOf (d : Nat) (Xy : DMat α) (label : α) : Res (DMat α) := do
  let rows ← rowsOfLabel d Xy label
  .ok ⟨d, rows.map (·.take d)⟩

/-- The groups of all labels in the order of the map (`src/methods/naive_bayes/gaussian_naive_bayes.hpp` lines 69-84,
`src/methods/naive_bayes/multinomial_naive_bayes.hpp` lines 34-49). -/
def groups (X : DMat α) (y : List α) (labels : List α) : Res (List (DMat α)) := do
  let Xy ← MatOps.hstack X ⟨1, y.map fun b => [b]⟩
  mapRes (groupOf X.ncols Xy) labels

/-- A row computed by `math::mean` or `math::var` of a group (`src/methods/naive_bayes/gaussian_naive_bayes.hpp` lines
85-86). A label without rows in the current data gives NaN; that case is left undefined here. -/
def definedRow (r : Res (DMat (Option α))) : Res (List α) := do
  let m ← r
  let row ← readAt m.rows 0
  mapRes (fun o => match o with | some v => .ok v | none => .ub) row

/-- Means and variances of the classes (`src/methods/naive_bayes/gaussian_naive_bayes.hpp` lines 28-29: `mean_`, `var_`). -/
structure Gaussian (α : Type) where
  /-- `mean_` (`src/methods/naive_bayes/gaussian_naive_bayes.hpp` line 90). -/
  mean : List (List α)
  /-- `var_` (`src/methods/naive_bayes/gaussian_naive_bayes.hpp` lines 91, 118). -/
  var : List (List α)
deriving DecidableEq

/-- `update_mean_variance` (`src/methods/naive_bayes/gaussian_naive_bayes.hpp` lines 62-92). -/
def updateMeanVariance (X : DMat α) (y : List α) (labels : List α) : Res (Gaussian α) := do
  let gs ← groups X y labels
  let mean ← mapRes (fun g => definedRow (Stats.mean g 0)) gs
  let var ← mapRes (fun g => definedRow (Stats.var g 0)) gs
  .ok ⟨mean, var⟩

/-- `var_.maxCoeff()` (`src/methods/naive_bayes/gaussian_naive_bayes.hpp` line 118). -/
def maxEntry (rows : List (List α)) : Res α :=
  match rows.flatten with
  | [] => .ub
  | a :: l => .ok (l.foldl max a)

/-- `GaussianNB::fit` (`src/methods/naive_bayes/gaussian_naive_bayes.hpp` lines 113-119) with the label map left by earlier
fits; it returns the new map and the parameters. -/
def fitGaussian (smoothing : α) (m : List (α × Nat)) (X : DMat α) (y : List α) : Res (List (α × Nat) × Gaussian α) := do
  let m' := countLabels m y
  let g ← updateMeanVariance X y (classesOf m')
  let top ← maxEntry g.var
  .ok (m', ⟨g.mean, g.var.map fun r => r.map fun v => v + smoothing * top⟩)

/-- Counts of the classes (`src/methods/naive_bayes/multinomial_naive_bayes.hpp` lines 21-23: `feature_count_`, `class_count_`). -/
structure Counts (α : Type) where
  /-- `num_features_` (`src/methods/naive_bayes/multinomial_naive_bayes.hpp` line 29). -/
  numFeatures : Nat
  /-- `feature_count_` (`src/methods/naive_bayes/multinomial_naive_bayes.hpp` line 56). -/
  feature : List (List α)
  /-- `class_count_` (`src/methods/naive_bayes/multinomial_naive_bayes.hpp` line 57). -/
  total : List α
deriving DecidableEq

/-- One pass of the loop of `compute_feature_prob` (`src/methods/naive_bayes/multinomial_naive_bayes.hpp` lines 50-51). The
sums form a row that is assigned to a column: with assertions this aborts unless there is one feature, without them the
entries are copied. -/
def countGroup (checked : Bool) (g : DMat α) : Res (List α × α) := do
  let s ← Stats.sum g 0
  let row ← readAt s.rows 0
  if checked = true ∧ g.ncols ≠ 1 then .ub
  else do
    let t ← Stats.sum g (-1)
    let trow ← readAt t.rows 0
    let total ← readAt trow 0
    .ok (row, total)

/-- `MultinomialNB::fit` (`src/methods/naive_bayes/multinomial_naive_bayes.hpp` lines 25-58, 117-121). -/
def fitMultinomial (checked : Bool) (m : List (α × Nat)) (X : DMat α) (y : List α) : Res (List (α × Nat) × Counts α) := do
  let m' := countLabels m y
  let gs ← groups X y (classesOf m')
  let cs ← mapRes (countGroup checked) gs
  .ok (m', ⟨X.ncols, cs.map Prod.fst, cs.map Prod.snd⟩)

end fit

/-- `-0.5 * log(var * 2 * pi).sum()` (`src/methods/naive_bayes/gaussian_naive_bayes.hpp` lines 46-48). -/
noncomputable def sumLogVar (var : List ℝ) : ℝ := -(1 / 2) * (var.map fun v => Real.log (v * 2 * Real.pi)).sum

/-- The log likelihood of a row for one class (`src/methods/naive_bayes/gaussian_naive_bayes.hpp` lines 46-51); sizes that
differ violate an assertion. -/
noncomputable def gaussianLL (mean var x : List ℝ) : Res ℝ :=
  if x.length = mean.length ∧ x.length = var.length then
    .ok (sumLogVar var - (List.zipWith (fun c v => c / v) (List.zipWith (fun a m => (a - m) ^ 2) x mean) var).sum * (1 / 2))
  else .ub

/-- `GaussianNB::joint_log_likelihood` (`src/methods/naive_bayes/gaussian_naive_bayes.hpp` lines 37-57), row by row. The
addition of a column and the whole matrix of log priors (line 53) violates an assertion unless there is one class; without
assertions it reads the first column of the matrix, the log prior of the first class. -/
noncomputable def gaussianJLL (checked : Bool) (priors : List ℝ) (g : Gaussian ℝ) (X : DMat ℝ) : Res (DMat ℝ) := do
  let rows ← mapRes (fun x => mapRes (fun (mv : List ℝ × List ℝ) => do
      let ll ← gaussianLL mv.1 mv.2 x
      if checked = true ∧ priors.length ≠ 1 then .ub
      else do
        let p ← readAt priors 0
        .ok (ll + Real.log p)) (g.mean.zip g.var)) X.rows
  .ok ⟨priors.length, rows⟩

/-- `compute_log_likelihood` (`src/methods/naive_bayes/multinomial_naive_bayes.hpp` lines 70-80) for the class with the given
counts. -/
noncomputable def multinomialLL (alpha : ℝ) (numFeatures : Nat) (counts : List ℝ) (total : ℝ) (x : List ℝ) : Res ℝ := do
  let terms ← mapRes (fun (e : ℝ × Nat) => do
    let c ← readAt counts e.2
    .ok (e.1 * Real.log ((c + alpha) / (total + alpha * (numFeatures : ℝ))))) x.zipIdx
  .ok terms.sum

/-- `MultinomialNB::joint_log_likelihood` (`src/methods/naive_bayes/multinomial_naive_bayes.hpp` lines 82-97). -/
noncomputable def multinomialJLL (alpha : ℝ) (priors : List ℝ) (k : Counts ℝ) (X : DMat ℝ) : Res (DMat ℝ) := do
  let rows ← mapRes (fun x => mapRes (fun (e : ℝ × List ℝ × ℝ) => do
      let ll ← multinomialLL alpha k.numFeatures e.2.1 e.2.2 x
      .ok (ll + Real.log e.1)) (priors.zip (k.feature.zip k.total))) X.rows
  .ok ⟨priors.length, rows⟩

/-- `predict_log_prob` (`src/methods/naive_bayes/base.hpp` lines 65-78) for a joint log likelihood matrix; matrices of
different size violate an assertion. -/
noncomputable def predictLogProb (numClasses : Nat) (jll : DMat ℝ) : Res (DMat ℝ) := do
  let lse ← Analytic.logsumexp jll 1
  let tmp := MatOps.repeat' (⟨1, lse.map fun a => [a]⟩ : DMat ℝ) numClasses 1
  if tmp.nrows = jll.nrows ∧ tmp.ncols = jll.ncols then
    .ok ⟨jll.ncols, List.zipWith (List.zipWith (· - ·)) jll.rows tmp.rows⟩
  else .ub

/-- `predict_prob` (`src/methods/naive_bayes/base.hpp` lines 88-91). -/
noncomputable def predictProb (numClasses : Nat) (jll : DMat ℝ) : Res (DMat ℝ) := do
  let lp ← predictLogProb numClasses jll
  .ok ⟨lp.ncols, lp.rows.map fun r => r.map Real.exp⟩

/-- `predict` (`src/methods/naive_bayes/base.hpp` lines 100-108): positions, not labels. -/
noncomputable def predict (jll : DMat ℝ) : Res (List ℝ) := do
  let idx ← MatOps.argmax jll 1
  .ok (idx.map fun (i : Nat) => (i : ℝ))

end OpenML.NB
