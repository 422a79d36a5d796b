import Mathlib.Analysis.SpecialFunctions.Sqrt
import Mathlib.Data.List.Perm.Basic

/-!
# Arithmetic with rounding

The other models compute with real numbers. Here some functions are modelled a second time with a rounding after every operation:
numbers are `double` or `float` without overflow and underflow, every operation returns the exact result with a relative error of at
most `u`. Eigen leaves the order of the additions of a sum or product open (it depends on the vector unit), so the models are relations:
all orders and bracketings are allowed, and a product may be added with or without being rounded first (fused multiply-add).
-/

namespace OpenML.Rounding

/-- An arithmetic: the rounding of results of operations and its relative error
(`double` and `float` in all files, for example `src/methods/cluster/kmeans.hpp` lines 135-141). -/
structure Arith where
  rnd : ℝ → ℝ
  u : ℝ
  nonneg : 0 ≤ u
  lt_one : u < 1
  err : ∀ x, |rnd x - x| ≤ u * |x|

/-- `s` is a possible result of adding up the list (`sum()`, `mean()`, `norm()` and products of matrices in
`src/core/math/ops.hpp` lines 42-44, 62-64, 99-104, `src/methods/cluster/kmeans.hpp` line 141 and
`src/methods/linear_model/base.hpp` lines 46, 51), in any order with any brackets. -/
inductive Summed (A : Arith) : List ℝ → ℝ → Prop
  | nil : Summed A [] 0
  | single (x : ℝ) : Summed A [x] x
  | add {l r m : List ℝ} {a b : ℝ} : Summed A l a → Summed A r b → l ≠ [] → r ≠ [] → m.Perm (l ++ r) → Summed A m (A.rnd (a + b))

/-- `t` is a product as it is added up: rounded, or exact in a fused multiply-add (`src/methods/linear_model/base.hpp` lines 46, 51). -/
def Term (A : Arith) (a b t : ℝ) : Prop := t = A.rnd (a * b) ∨ t = a * b

/-- `s` is a possible scalar product of two rows (`src/methods/linear_model/base.hpp` lines 46, 51); rows have the same length. -/
def Dot (A : Arith) (x w : List ℝ) (s : ℝ) : Prop :=
  x.length = w.length ∧ ∃ ts, List.Forall₂ (fun e t => Term A e.1 e.2 t) (x.zip w) ts ∧ Summed A ts s

/-- `v` is a possible value of `predict_label` (`src/methods/linear_model/base.hpp` lines 40-54) for one sample and the weights `w`
with intercept `b`. -/
def Prediction (A : Arith) (w : List ℝ) (b : ℝ) (x : List ℝ) (v : ℝ) : Prop := ∃ s, Dot A x w s ∧ v = A.rnd (s + b)

/-- `m` is a possible mean (`src/core/math/ops.hpp` lines 42, 62, 99-104). -/
def Mean (A : Arith) (l : List ℝ) (m : ℝ) : Prop := ∃ s, Summed A l s ∧ m = A.rnd (s / l.length)

/-- `v` is a possible variance (`src/core/math/ops.hpp` lines 39-66): mean of the squares minus square of the mean. -/
def Var (A : Arith) (l : List ℝ) (v : ℝ) : Prop :=
  ∃ sq m q mm, List.Forall₂ (fun a t => Term A a a t) l sq ∧ Mean A l m ∧ Mean A sq q ∧ Term A m m mm ∧ v = A.rnd (q - mm)

/-- `v` is a possible value of the distance of a sample and a centroid (`src/methods/cluster/kmeans.hpp` lines 140-141, 178-179). -/
def Dist (A : Arith) (x c : List ℝ) (v : ℝ) : Prop :=
  x.length = c.length ∧ ∃ ts s, List.Forall₂ (fun e t => Term A (A.rnd (e.1 - e.2)) (A.rnd (e.1 - e.2)) t) (x.zip c) ts ∧
    Summed A ts s ∧ v = A.rnd (Real.sqrt s)

/-- The loop over the centroids (`src/methods/cluster/kmeans.hpp` lines 135-146, 173-184) on the computed distances: `j` is the number
of the first of them, `best` the least so far (`none` is infinity) and `arg` its number. -/
noncomputable def pickFrom : List ℝ → Nat → Option ℝ → Nat → Nat
  | [], _, _, arg => arg
  | v :: vs, j, best, arg => if best.all fun b => decide (v < b) then pickFrom vs (j + 1) (some v) j else pickFrom vs (j + 1) best arg

/-- `j` is a possible result for a sample (`src/methods/cluster/kmeans.hpp` lines 135-146, 173-184). -/
def Nearest (A : Arith) (C : List (List ℝ)) (x : List ℝ) (j : Nat) : Prop :=
  ∃ vs, List.Forall₂ (fun c v => Dist A x c v) C vs ∧ j = pickFrom vs 0 none 0

/-- The values of `ord_` of a k-d tree (`src/core/tree/kd_tree.hpp` lines 379-387). -/
inductive Order
  | l1
  | l2
  | linf

/-- `s` is a possible norm of the difference of two points; `v` holds the exact differences, which are rounded first
(`src/core/common.hpp` lines 898-924 with `src/core/tree/kd_tree.hpp` lines 265-266, 343-344, and `src/core/metric.hpp` lines 105-115
with `src/core/tree/kd_tree.hpp` line 250). -/
def Norm (A : Arith) : Order → List ℝ → ℝ → Prop
  | .l1, v, s => Summed A (v.map fun a => |A.rnd a|) s
  | .l2, v, s => ∃ ts q, List.Forall₂ (fun a t => Term A (A.rnd a) (A.rnd a) t) v ts ∧ Summed A ts q ∧ s = A.rnd (Real.sqrt q)
  | .linf, v, s => s = (v.map fun a => |A.rnd a|).foldl max 0

/-- One order of the additions in a sum, chosen by Eigen from the number of entries (`src/core/common.hpp` lines 914, 917,
`src/core/metric.hpp` lines 107, 110). -/
inductive Brackets
  | entry (i : Nat)
  | add (a b : Brackets)

/-- The sum of the entries of a list in a given order (`src/core/common.hpp` lines 914, 917, `src/core/metric.hpp` lines 107, 110). -/
noncomputable def Brackets.eval (A : Arith) (ts : List ℝ) : Brackets → ℝ
  | .entry i => ts.getD i 0
  | .add a b => A.rnd (a.eval A ts + b.eval A ts)

/-- The numbers of the entries added up (`src/core/common.hpp` lines 914, 917, `src/core/metric.hpp` lines 107, 110). -/
def Brackets.leaves : Brackets → List Nat
  | .entry i => [i]
  | .add a b => a.leaves ++ b.leaves

/-- The norm computed in a given order (`src/core/common.hpp` lines 898-924, `src/core/metric.hpp` lines 105-115); `fused` says whether
products are added without being rounded. -/
noncomputable def normBy (A : Arith) (fused : Bool) (order : Nat → Brackets) : Order → List ℝ → ℝ
  | .l1, v => (order v.length).eval A (v.map fun a => |A.rnd a|)
  | .l2, v => A.rnd (Real.sqrt ((order v.length).eval A (v.map fun a => if fused then A.rnd a * A.rnd a else A.rnd (A.rnd a * A.rnd a))))
  | .linf, v => (v.map fun a => |A.rnd a|).foldl max 0

end OpenML.Rounding
