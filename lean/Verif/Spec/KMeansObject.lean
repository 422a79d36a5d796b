import Verif.Model.KMeansObject
import Verif.Spec.KMeans
import Verif.Spec.Extreme

/-!
# Specification: programs on a k-means object
-/

namespace OpenML.Spec

open KMeansObject (Params Draw Action)

/-- The random numbers of a call of `fit` on `n` samples: a permutation of the samples and numbers from `[0, 1)`. -/
def ProperDraw (g : Draw) (n : Nat) : Prop :=
  g.perm.Perm (List.range n) ∧ ∀ c i, 0 ≤ g.unit c i ∧ g.unit c i < 1

/-- All rows of the matrices have the same length and the random numbers are proper. -/
def ProperCall : Action → Prop
  | .fit g X => X.WF ∧ ProperDraw g X.nrows
  | .predict X => X.WF

/-- When `fit` may be called: with at least one sample, at least `k` of them for "random", and either one column, no iterations
or no assertions. -/
def MayFit (checked : Bool) (p : Params) (X : DMat ℝ) : Prop :=
  (p.init = "random" → p.k ≤ X.nrows) ∧ X.rows ≠ [] ∧ (checked = false ∨ X.ncols = 1 ∨ p.maxIter = 0)

/-- When a program is defined; the first argument is the number of columns of the last data given to `fit`. -/
def MayRun (checked : Bool) (p : Params) : Option Nat → List Action → Prop
  | _, [] => True
  | _, .fit _ X :: as => MayFit checked p X ∧ MayRun checked p (some X.ncols) as
  | w, .predict X :: as => (X.rows = [] ∨ w = some X.ncols) ∧ MayRun checked p w as

/-- Answers that are explained by centroids: the first argument holds the current ones, each `fit` replaces them by `k` new ones that
are at least as good as some `k` samples, and each label is the first nearest centroid. -/
inductive Explained (k : Nat) : Option (List (List ℝ)) → List Action → List (List Nat) → Prop
  | done (c) : Explained k c [] []
  | fit (c) (g X as ans C C₀) (hk : C.length = k) (hw : ∀ r ∈ C, r.length = X.ncols) (h₀ : C₀.length = k)
      (hm : ∀ r ∈ C₀, r ∈ X.rows) (hi : inertia X.rows C ≤ inertia X.rows C₀) (h : Explained k (some C) as ans) :
      Explained k c (.fit g X :: as) ans
  | nothing (c) (X as ans) (hX : X.rows = []) (h : Explained k c as ans) : Explained k c (.predict X :: as) ([] :: ans)
  | labels (C) (X as ans labels)
      (hl : List.Forall₂ (fun x j => IsFirstMin (C.map (sqDist x)) j) X.rows labels) (h : Explained k (some C) as ans) :
      Explained k (some C) (.predict X :: as) (labels :: ans)

/-- A program on an object whose initialisation is neither "random" nor "kmeans++": no sample with a coordinate may be clustered or
labelled. -/
def MayRunUnknown (checked : Bool) (p : Params) : Option Nat → List Action → Prop
  | _, [] => True
  | _, .fit _ X :: as =>
    (p.maxIter = 0 ∨ X.rows = [] ∨ X.ncols = 0 ∧ checked = false) ∧ MayRunUnknown checked p (some X.ncols) as
  | w, .predict X :: as => (X.rows = [] ∨ w = some 0 ∧ X.ncols = 0) ∧ MayRunUnknown checked p w as

/-- A program on an object without clusters: `predict` is always defined, `fit` only without "kmeans++" and without work. -/
def MayRunEmpty (p : Params) : List Action → Prop
  | [] => True
  | .fit _ X :: as => (p.init ≠ "kmeans++" ∧ (p.maxIter = 0 ∨ X.rows = [])) ∧ MayRunEmpty p as
  | .predict _ :: as => MayRunEmpty p as

/-- The answers of a program that gives every sample the label 0. -/
def zeroAnswers : List Action → List (List Nat)
  | [] => []
  | .fit _ _ :: as => zeroAnswers as
  | .predict X :: as => List.replicate X.rows.length 0 :: zeroAnswers as

end OpenML.Spec
