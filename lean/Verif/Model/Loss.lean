import Verif.Model.Analytic
import Verif.Model.Norm
import Mathlib.Algebra.Order.Floor.Semiring
import Mathlib.Algebra.Field.Basic

/-!
# Model of the loss functions in `src/core/loss`

Vectors are lists. The matrix products of Eigen assert matching inner dimensions and read out of bounds if assertions are
off, so that a mismatch is undefined behaviour. With no samples the losses divide zero by zero; here they yield some number
instead of NaN, and the theorems require a sample.
-/

namespace OpenML.Loss

/-- Inner product of two vectors of equal length: one entry of an Eigen product (`src/core/loss/mean_squared_error.hpp` line
36, and the products of the other losses). -/
def dotL {α : Type} [Semiring α] (a b : List α) : α := (List.zipWith (· * ·) a b).sum

/-- `X * W` for a vector `W` (`src/core/loss/mean_squared_error.hpp` lines 36, 62, `src/core/loss/log_loss.hpp` lines 40, 72,
`src/core/loss/hinge_loss.hpp` lines 39, 68, `src/core/loss/huber_loss.hpp` line 39). -/
def mulVec {α : Type} [Semiring α] (X : DMat α) (w : List α) : Res (List α) :=
  if X.ncols = w.length then .ok (X.rows.map fun r => dotL r w) else .ub

/-- `X.transpose() * v` (`src/core/loss/mean_squared_error.hpp` line 65, `src/core/loss/log_loss.hpp` line 76). -/
def tmulVec {α : Type} [Semiring α] (X : DMat α) (v : List α) : Res (List α) :=
  if X.nrows = v.length then .ok (X.cols.map fun c => dotL c v) else .ub

/-- `a - b` on vectors; unequal sizes violate an assertion (`src/core/loss/mean_squared_error.hpp` lines 38, 65,
`src/core/loss/log_loss.hpp` lines 43-47, 76, `src/core/loss/huber_loss.hpp` line 42). -/
def subV {α : Type} [Sub α] (a b : List α) : Res (List α) :=
  if a.length = b.length then .ok (List.zipWith (· - ·) a b) else .ub

/-- `a + b` on vectors (`src/core/loss/mean_squared_error.hpp` line 70, `src/core/loss/log_loss.hpp` line 81,
`src/core/loss/hinge_loss.hpp` lines 77, 80, 86). -/
def addV {α : Type} [Add α] (a b : List α) : Res (List α) :=
  if a.length = b.length then .ok (List.zipWith (· + ·) a b) else .ub

/-- The term `reg * lambda_` added to a loss (`src/core/loss/mean_squared_error.hpp` lines 42-45,
`src/core/loss/log_loss.hpp` lines 51-54, `src/core/loss/hinge_loss.hpp` lines 48-51, `src/core/loss/huber_loss.hpp` lines
53-56). -/
def penalty {α : Type} [Field α] (lambda : α) (n : Nat) (w : List α) : α := dotL w w / ((n : α) * 2) * lambda

/-- The term `reg * lambda_` added to a gradient (`src/core/loss/mean_squared_error.hpp` lines 67-70,
`src/core/loss/log_loss.hpp` lines 78-81, `src/core/loss/hinge_loss.hpp` lines 84-86). -/
def penaltyGrad {α : Type} [Field α] (lambda : α) (n : Nat) (w : List α) : List α := w.map fun a => a / (n : α) * lambda

/-- `MSE::evaluate` (`src/core/loss/mean_squared_error.hpp` lines 30-46). -/
def mseEvaluate {α : Type} [Field α] (lambda : α) (X : DMat α) (y w : List α) : Res α := do
  let yHat ← mulVec X w
  let diff ← subV y yHat
  let loss := 1 / 2 * (diff.map fun a => a ^ 2).sum / (X.nrows : α)
  .ok (loss + penalty lambda X.nrows w)

/-- `MSE::gradient` (`src/core/loss/mean_squared_error.hpp` lines 54-71). -/
def mseGradient {α : Type} [Field α] (lambda : α) (X : DMat α) (y w : List α) : Res (List α) := do
  let yHat ← mulVec X w
  let diff ← subV yHat y
  let g ← tmulVec X diff
  addV (g.map fun a => a / (X.nrows : α)) (penaltyGrad lambda X.nrows w)

/-- `math::sigmoid<VecType>(X_w)` (`src/core/loss/log_loss.hpp` lines 41, 73). -/
noncomputable def sigmoidV (v : List ℝ) : List ℝ := (Analytic.sigmoid ⟨1, v.map fun a => [a]⟩).rows.flatten

/-- `LogLoss::evaluate` (`src/core/loss/log_loss.hpp` lines 32-55). -/
noncomputable def logEvaluate (lambda : ℝ) (X : DMat ℝ) (y w : List ℝ) : Res ℝ := do
  let xw ← mulVec X w
  let yHat := sigmoidV xw
  if y.length ≠ yHat.length then .ub
  else do
    let tmp1 := List.zipWith (fun a p => -1 * a * Real.log p) y yHat
    let tmp2 := List.zipWith (fun a p => (1 - a) * Real.log (1 - p)) y yHat
    let tmp3 ← subV tmp1 tmp2
    .ok (tmp3.sum / (X.nrows : ℝ) + penalty lambda X.nrows w)

/-- `LogLoss::gradient` (`src/core/loss/log_loss.hpp` lines 63-82). -/
noncomputable def logGradient (lambda : ℝ) (X : DMat ℝ) (y w : List ℝ) : Res (List ℝ) := do
  let xw ← mulVec X w
  let diff ← subV (sigmoidV xw) y
  let g ← tmulVec X diff
  addV (g.map fun a => a / (X.nrows : ℝ)) (penaltyGrad lambda X.nrows w)

/-- The sum over the samples in `HingeLoss::evaluate` (`src/core/loss/hinge_loss.hpp` lines 41-45): `X_w(i, 0)` and `y(i, 0)`
for all rows; labels behind the last row are not read. -/
def hingeSum {α : Type} [Field α] [LinearOrder α] (threshold : α) : List α → List α → α → Res α
  | [], _, acc => .ok acc
  | _ :: _, [], _ => .ub
  | s :: ss, a :: as, acc => hingeSum threshold ss as (acc + max 0 (threshold - s * a))

/-- `HingeLoss::evaluate` (`src/core/loss/hinge_loss.hpp` lines 33-52). -/
def hingeEvaluate {α : Type} [Field α] [LinearOrder α] (lambda threshold : α) (X : DMat α) (y w : List α) : Res α := do
  let xw ← mulVec X w
  let loss ← hingeSum threshold xw y 0
  .ok (loss + penalty lambda X.nrows w)

/-- The loop over the samples in `HingeLoss::gradient` (`src/core/loss/hinge_loss.hpp` lines 70-82). -/
def hingeGradLoop {α : Type} [Field α] [LinearOrder α] (threshold : α) : List (List α) → List α → List α → List α →
    Res (List α)
  | r :: rs, s :: ss, a :: as, grad => do
    let grad ← if s * a > threshold then addV grad (List.replicate r.length 0) else addV grad (r.map fun x => x * (-a))
    hingeGradLoop threshold rs ss as grad
  | _ :: _, _ :: _, [], _ => .ub
  | _, _, _, grad => .ok grad

/-- `HingeLoss::gradient` (`src/core/loss/hinge_loss.hpp` lines 60-87). The accumulator is not initialised (line 65): `buffer`
is the content of the memory it is given. -/
def hingeGradient {α : Type} [Field α] [LinearOrder α] (lambda threshold : α) (buffer : List α) (X : DMat α) (y w : List α) :
    Res (List α) := do
  let xw ← mulVec X w
  let grad ← hingeGradLoop threshold X.rows xw y buffer
  addV grad (penaltyGrad lambda X.nrows w)

/-- `X * W` for a matrix `W` (`src/core/loss/softmax_loss.hpp` lines 41, 79). -/
def mulMat {α : Type} [Semiring α] (X W : DMat α) : Res (DMat α) :=
  if X.ncols = W.nrows then .ok ⟨W.ncols, X.rows.map fun r => W.cols.map fun c => dotL r c⟩ else .ub

/-- `static_cast<std::size_t>(y(i, 0))` as a column number (`src/core/loss/softmax_loss.hpp` lines 50, 88): truncation towards
zero; undefined for numbers up to -1. Numbers that exceed the range of `std::size_t` are no column numbers either. -/
noncomputable def classIndex (a : ℝ) : Res Nat := if -1 < a then .ok ⌊a⌋₊ else .ub

/-- `exp_xw`: exponentials of the scores minus their overall maximum (`src/core/loss/softmax_loss.hpp` lines 43-44, 81-82). -/
noncomputable def expScores (xw : DMat ℝ) : Res (List (List ℝ)) := do
  let c ← Analytic.maxLine xw.rows.flatten
  .ok (xw.rows.map fun r => r.map fun a => Real.exp (a - c))

/-- `exp_xw_i`: the entry of each row selected by the label (`src/core/loss/softmax_loss.hpp` lines 47-52). -/
noncomputable def selectLabel : List (List ℝ) → List ℝ → Res (List ℝ)
  | [], _ => .ok []
  | _ :: _, [] => .ub
  | r :: rs, a :: as => do
    let k ← classIndex a
    let e ← readAt r k
    let es ← selectLabel rs as
    .ok (e :: es)

/-- `(W.transpose() * W).array().sum()` (`src/core/loss/softmax_loss.hpp` line 59). -/
def gramSum {α : Type} [Semiring α] (W : DMat α) : α := (W.cols.map fun a => (W.cols.map fun b => dotL a b).sum).sum

/-- `SoftmaxLoss::evaluate` (`src/core/loss/softmax_loss.hpp` lines 33-63). -/
noncomputable def softmaxEvaluate (lambda : ℝ) (X : DMat ℝ) (y : List ℝ) (W : DMat ℝ) : Res ℝ := do
  let xw ← mulMat X W
  let e ← expScores xw
  let sums := e.map List.sum
  let sel ← selectLabel e y
  let loss := -(List.zipWith (fun a s => Real.log (a / s)) sel sums).sum / (X.nrows : ℝ)
  .ok (loss + gramSum W / ((X.nrows : ℝ) * 2) * lambda)

/-- `normalized_exp_xw(i, index) -= 1.0` for each row (`src/core/loss/softmax_loss.hpp` lines 86-90). -/
noncomputable def subtractLabel : List (List ℝ) → List ℝ → Res (List (List ℝ))
  | [], _ => .ok []
  | _ :: _, [] => .ub
  | r :: rs, a :: as => do
    let k ← classIndex a
    let e ← readAt r k
    let rest ← subtractLabel rs as
    .ok (r.set k (e - 1) :: rest)

/-- `SoftmaxLoss::gradient` (`src/core/loss/softmax_loss.hpp` lines 71-99). -/
noncomputable def softmaxGradient (lambda : ℝ) (X : DMat ℝ) (y : List ℝ) (W : DMat ℝ) : Res (DMat ℝ) := do
  let xw ← mulMat X W
  let e ← expScores xw
  let normalized := e.map fun r => r.map fun a => a / r.sum
  let m ← subtractLabel normalized y
  let g : List (List ℝ) := X.cols.map fun c => (DMat.cols ⟨W.ncols, m⟩).map fun d => dotL c d
  .ok ⟨W.ncols, List.zipWith (List.zipWith fun a b => a / (X.nrows : ℝ) + b / (X.nrows : ℝ) * lambda) g W.rows⟩

/-- `HuberLoss::evaluate` (`src/core/loss/huber_loss.hpp` lines 33-57). -/
noncomputable def huberEvaluate (lambda delta : ℝ) (X : DMat ℝ) (y w : List ℝ) : Res ℝ := do
  let xw ← mulVec X w
  let diff ← subV y xw
  let condition := norm2 diff
  let loss := if condition ≤ delta then 1 / 2 * condition else delta * norm1 (diff.map fun a => a - 1 / 2 * delta)
  .ok (loss + penalty lambda X.nrows w)

/-- `.sign()` of an entry (`src/core/loss/huber_loss.hpp` line 82). -/
noncomputable def signum (a : ℝ) : ℝ := if 0 < a then 1 else if a < 0 then -1 else 0

/-- `HuberLoss::gradient` (`src/core/loss/huber_loss.hpp` lines 65-91). Line 82 multiplies a matrix with an array, which Eigen
rejects at compile time; the array is read as a column. -/
noncomputable def huberGradient (lambda delta : ℝ) (X : DMat ℝ) (y w : List ℝ) : Res (List ℝ) := do
  let xw ← mulVec X w
  let diff ← subV y xw
  let r ← subV xw y
  let g ← if norm2 diff ≤ delta then do
      let tmp ← tmulVec X r
      .ok (tmp.map fun a => a / (X.nrows : ℝ))
    else do
      let tmp ← tmulVec X (r.map signum)
      .ok (tmp.map fun a => a * (delta / (X.nrows : ℝ)))
  addV g (penaltyGrad lambda X.nrows w)

end OpenML.Loss
