import Verif.Model.NaiveBayes

/-!
# Model of naive Bayes objects (`src/methods/naive_bayes`)

A program constructs an object, calls `fit` any number of times, asks questions and catches all exceptions. `checked` tells whether
Eigen's assertions are compiled in.
-/

namespace OpenML.NBObject

/-- The members (`src/methods/naive_bayes/base.hpp` lines 20-23, the members of the derived class in `params`). `classes_` and
`num_classes_` always belong to the map: they are assigned together (`src/methods/naive_bayes/base.hpp` lines 42-50). -/
structure Object (θ : Type) where
  /-- `label_map_` (`src/methods/naive_bayes/base.hpp` line 23). -/
  labelMap : List (ℝ × Nat)
  /-- `prior_prob_` (`src/methods/naive_bayes/base.hpp` line 21); `none` as long as `compute_prior_prob` has not run, when
  `num_classes_` (line 22) is not initialised either. -/
  priors : Option (List ℝ)
  /-- The members of the derived class (`src/methods/naive_bayes/gaussian_naive_bayes.hpp` lines 28-29,
  `src/methods/naive_bayes/multinomial_naive_bayes.hpp` lines 21-23). -/
  params : θ

/-- What a program sees of a question (`src/methods/naive_bayes/base.hpp` lines 65-122): a vector or a matrix. -/
inductive Answer where
  | vector (v : List ℝ)
  | matrix (rows : List (List ℝ))

/-- A derived class (`src/methods/naive_bayes/gaussian_naive_bayes.hpp`, `src/methods/naive_bayes/multinomial_naive_bayes.hpp`). -/
structure Kind (θ Q : Type) where
  /-- The members of a new object (`src/methods/naive_bayes/base.hpp` line 54). -/
  start : θ
  /-- `fit` (`src/methods/naive_bayes/gaussian_naive_bayes.hpp` lines 113-119,
  `src/methods/naive_bayes/multinomial_naive_bayes.hpp` lines 117-121). -/
  fit : List (ℝ × Nat) → DMat ℝ → List ℝ → Res (List (ℝ × Nat) × θ)
  /-- The members when `fit` throws (`src/core/common.hpp` lines 30-32, called at
  `src/methods/naive_bayes/gaussian_naive_bayes.hpp` line 70 and `src/methods/naive_bayes/multinomial_naive_bayes.hpp` line 35). -/
  afterThrow : DMat ℝ → θ → θ
  /-- `joint_log_likelihood` for the given priors (`src/methods/naive_bayes/base.hpp` line 28). -/
  jll : List ℝ → θ → DMat ℝ → Res (DMat ℝ)
  /-- The questions of the derived class (`src/methods/naive_bayes/gaussian_naive_bayes.hpp` lines 121-129,
  `src/methods/naive_bayes/multinomial_naive_bayes.hpp` lines 123-128). -/
  member : θ → Q → Res Answer

/-- The questions to an object (`src/methods/naive_bayes/base.hpp` lines 65-122). -/
inductive Question (Q : Type) where
  | predict (Z : DMat ℝ)
  | predictProb (Z : DMat ℝ)
  | predictLogProb (Z : DMat ℝ)
  | priors
  | classes
  | member (q : Q)

/-- `joint_log_likelihood` of an object (`src/methods/naive_bayes/base.hpp` lines 68, 103): before the first call of `fit` the
number of classes is not initialised. -/
noncomputable def joint {θ Q : Type} (K : Kind θ Q) (o : Object θ) (Z : DMat ℝ) : Res (DMat ℝ) :=
  match o.priors with
  | none => .ub
  | some ps => K.jll ps o.params Z

/-- The answer to a question (`src/methods/naive_bayes/base.hpp` lines 65-122). -/
noncomputable def answer {θ Q : Type} (K : Kind θ Q) (o : Object θ) : Question Q → Res Answer
  | .predict Z => do
    let J ← joint K o Z
    let v ← NB.predict J
    .ok (.vector v)
  | .predictProb Z => do
    let J ← joint K o Z
    let P ← NB.predictProb o.labelMap.length J
    .ok (.matrix P.rows)
  | .predictLogProb Z => do
    let J ← joint K o Z
    let P ← NB.predictLogProb o.labelMap.length J
    .ok (.matrix P.rows)
  | .priors => .ok (.vector (o.priors.getD []))
  | .classes => .ok (.vector (NB.classesOf o.labelMap))
  | .member q => K.member o.params q

/-- A new object (`src/methods/naive_bayes/base.hpp` line 54). -/
def construct {θ Q : Type} (K : Kind θ Q) : Object θ := ⟨[], none, K.start⟩

/-- A statement of a program (`src/methods/naive_bayes/base.hpp` lines 65-122, the `fit` functions of the derived classes:
`src/methods/naive_bayes/gaussian_naive_bayes.hpp` line 113, `src/methods/naive_bayes/multinomial_naive_bayes.hpp` line 117). -/
inductive Action (Q : Type) where
  | fit (X : DMat ℝ) (y : List ℝ)
  | ask (q : Question Q)

/-- What a program sees of a statement (`src/methods/naive_bayes/base.hpp` lines 65-122). -/
inductive Seen where
  | fitted
  | caught (e : Exn)
  | answer (a : Answer)

/-- One call of `fit` (`src/methods/naive_bayes/gaussian_naive_bayes.hpp` lines 113-119,
`src/methods/naive_bayes/multinomial_naive_bayes.hpp` lines 117-121): the counters and priors are updated
(`src/methods/naive_bayes/base.hpp` lines 36-51) before anything can throw. -/
noncomputable def fit {θ Q : Type} (K : Kind θ Q) (o : Object θ) (X : DMat ℝ) (y : List ℝ) : Res (Object θ × Seen) :=
  match K.fit o.labelMap X y with
  | .ok r => .ok (⟨r.1, some (NB.priorsOf r.1 y.length), r.2⟩, .fitted)
  | .throw e =>
    .ok (⟨NB.countLabels o.labelMap y, some (NB.priorsOf (NB.countLabels o.labelMap y) y.length), K.afterThrow X o.params⟩, .caught e)
  | .ub => .ub
  | .diverge => .diverge

/-- A program that catches all exceptions (calls of the members in `src/methods/naive_bayes/base.hpp` lines 65-122); questions do not
change the object. -/
noncomputable def run {θ Q : Type} (K : Kind θ Q) : Object θ → List (Action Q) → Res (Object θ × List Seen)
  | o, [] => .ok (o, [])
  | o, .fit X y :: as => do
    let r ← fit K o X y
    let s ← run K r.1 as
    .ok (s.1, r.2 :: s.2)
  | o, .ask q :: as =>
    match answer K o q with
    | .ok a => do
      let s ← run K o as
      .ok (s.1, .answer a :: s.2)
    | .throw e => do
      let s ← run K o as
      .ok (s.1, .caught e :: s.2)
    | .ub => .ub
    | .diverge => .diverge

/-- The matrix members of `GaussianNB` (`src/methods/naive_bayes/gaussian_naive_bayes.hpp` lines 121-129). -/
inductive Moment where
  | mean
  | var

/-- A `MatType` returned as a `VecType` (`src/methods/naive_bayes/gaussian_naive_bayes.hpp` lines 122-129): Eigen asserts that there is
one column; without assertions the first column is copied. A new matrix has no rows and columns. -/
def asVector (checked : Bool) (rows : List (List ℝ)) : Res (List ℝ) :=
  if checked = true ∧ (rows = [] ∨ ∃ r ∈ rows, r.length ≠ 1) then .ub else mapRes (fun r => readAt r 0) rows

open Classical in
/-- `GaussianNB` (`src/methods/naive_bayes/gaussian_naive_bayes.hpp` lines 11-131). `mean_.row(i)` is read for every class (lines 45-54):
that is undefined if the matrix has fewer rows. A `fit` that throws does so before `mean_` and `var_` are assigned (lines 70, 90-91). -/
noncomputable def gaussian (checked : Bool) (smoothing : ℝ) : Kind (NB.Gaussian ℝ) Moment where
  start := ⟨[], []⟩
  fit := NB.fitGaussian smoothing
  afterThrow := fun _ g => g
  jll := fun ps g Z => if g.mean.length < ps.length then .ub else NB.gaussianJLL checked ps g Z
  member := fun g q => do
    let v ← asVector checked (match q with | .mean => g.mean | .var => g.var)
    .ok (.vector v)

/-- `MultinomialNB` (`src/methods/naive_bayes/multinomial_naive_bayes.hpp` lines 11-130). `feature_count_(c, i)` is read for every class
(lines 70-75): that is undefined if the matrix has fewer rows (also taken as undefined here if there are no samples or features). A
`fit` that throws has assigned `num_features_` (line 29), but not the counts (lines 35, 56-57). A new object has no counts;
`num_features_` is not initialised then, which does not matter because `num_classes_` is not either. -/
noncomputable def multinomial (checked : Bool) (alpha : ℝ) : Kind (NB.Counts ℝ) Unit where
  start := ⟨0, [], []⟩
  fit := NB.fitMultinomial checked
  afterThrow := fun X k => { k with numFeatures := X.ncols }
  jll := fun ps k Z => if k.feature.length < ps.length then .ub else NB.multinomialJLL alpha ps k Z
  member := fun k _ => .ok (.matrix k.feature)

end OpenML.NBObject
