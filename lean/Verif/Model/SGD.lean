import Verif.Model.Loss
import Verif.Model.Data
import Mathlib.Analysis.SpecialFunctions.Exp

/-!
# Model of the optimizers in `src/core/optimizer/sgd` and `src/core/optimizer/base.hpp`

A loss function and an update policy are parameters, as in the templates. The permutation that `shuffle_data` draws in an epoch
is a parameter as well. Printing (`verbose_`) is not modelled; it only evaluates the loss once more in `SCD`.
-/

namespace OpenML.SGD

/-- A loss function class (`src/core/optimizer/base.hpp` lines 16, 25): `evaluate` and `gradient` for weights of type `W`. -/
structure LossFn (α W : Type) where
  evaluate : DMat α → List α → W → Res α
  gradient : DMat α → List α → W → Res W

/-- `StepDecay::compute` (`src/core/optimizer/sgd/decay_policies/step_decay.hpp` lines 35-39); the integer division is undefined
for step size zero. -/
def stepDecay {α : Type} [Field α] (baseLr gamma : α) (stepSize : Nat) (epoch : Nat) : Res α :=
  if stepSize = 0 then .ub else .ok (baseLr * gamma ^ ((1 + epoch) / stepSize))

/-- `ExponentialDecay::compute` (`src/core/optimizer/sgd/decay_policies/exponential_decay.hpp` lines 31-34). -/
noncomputable def exponentialDecay (baseLr gamma : ℝ) (epoch : Nat) : Res ℝ := .ok (baseLr * Real.exp (gamma * (epoch : ℝ)))

/-- `VanillaUpdate::update` (`src/core/optimizer/sgd/update_policies/vanilla_update.hpp` lines 19-24) for one column. -/
def vanillaUpdate {α : Type} [Field α] (w grad : List α) (lr : α) : Res (List α) := Loss.subV w (grad.map fun a => lr * a)

/-- `MomentumUpdate::update` (`src/core/optimizer/sgd/update_policies/momentum_update.hpp` lines 24-33) for one column. -/
def momentumUpdate {α : Type} [Field α] (mu : α) (w grad : List α) (lr : α) : Res (List α) := do
  let v := List.replicate w.length (0 : α)
  let v ← Loss.addV (v.map fun a => a * mu) (grad.map fun a => a * lr)
  Loss.subV w v

/-- `NesterovMomentumUpdate::update` (`src/core/optimizer/sgd/update_policies/nesterov_momentum_update.hpp` lines 24-37) for one
column. `MatType V(nrows)` does not compile for a matrix; it is read as a zero column with as many rows as `W`. -/
def nesterovUpdate {α : Type} [Field α] (mu : α) (w grad : List α) (lr : α) : Res (List α) := do
  let prev := List.replicate w.length (0 : α)
  let v ← Loss.addV (prev.map fun a => mu * a) (grad.map fun a => lr * a)
  let d ← Loss.subV v prev
  let v ← Loss.addV v (d.map fun a => mu * a)
  Loss.subV w v

/-- `common::clip(grad, MAX_DLOSS, MIN_DLOSS)` for one column (`src/core/optimizer/sgd/sgd.hpp` line 89,
`src/core/optimizer/sgd/sag.hpp` line 81, `src/core/optimizer/sgd/tg.hpp` line 115, `src/core/optimizer/base.hpp` lines 40-41).
-/
def clipGrad {α : Type} [Field α] [LinearOrder α] (g : List α) : List α :=
  (MatOps.clip (10 ^ 10) (-10 ^ 10) ⟨1, g.map fun a => [a]⟩).rows.flatten

/-- The same for a gradient with one column per class (`src/core/optimizer/sgd/sgd.hpp` line 89). -/
def clipGradMat {α : Type} [Field α] [LinearOrder α] (g : DMat α) : DMat α := MatOps.clip (10 ^ 10) (-10 ^ 10) g

/-- `VanillaUpdate::update` (`src/core/optimizer/sgd/update_policies/vanilla_update.hpp` lines 19-24) for matrices. -/
def vanillaUpdateMat {α : Type} [Field α] (w grad : DMat α) (lr : α) : Res (DMat α) :=
  if w.ncols = grad.ncols ∧ w.nrows = grad.nrows then
    .ok { w with rows := List.zipWith (List.zipWith fun a g => a - lr * g) w.rows grad.rows }
  else .ub

/-- `X.middleRows(begin, n)` with its range assertion (`src/core/optimizer/sgd/sgd.hpp` lines 84-85,
`src/core/optimizer/sgd/sag.hpp` lines 77-78, `src/core/optimizer/sgd/tg.hpp` lines 108-109). -/
def middleRows {β : Type} (l : List β) (start n : Nat) : Res (List β) :=
  if start + n ≤ l.length then .ok ((l.drop start).take n) else .ub

/-- What the three mini-batch optimizers do with one batch before the loss is evaluated (`src/core/optimizer/sgd/sgd.hpp` lines
87-91, `src/core/optimizer/sgd/sag.hpp` lines 80-88, `src/core/optimizer/sgd/tg.hpp` lines 111-122): new internal state from the old one,
the batch, the learning rate and the batch number. -/
abbrev Step (α S : Type) := S → DMat α → List α → α → Nat → Res S

/-- The constant parameters of an optimizer (`src/core/optimizer/base.hpp` lines 29-35), its decay policy and the permutation
drawn in each epoch if `shuffle_` is set. -/
structure Params (α : Type) where
  maxIter : Nat
  batchSize : Nat
  noChange : Nat
  tol : α
  decay : Nat → Res α
  shuffle : Option (Nat → List Nat)

/-- `shuffle_data(X_new, y_new, X_new, y_new)` if `shuffle_` is set (`src/core/math/shuffle.hpp` lines 48-65,
`src/core/optimizer/sgd/sgd.hpp` lines 73-75, `src/core/optimizer/sgd/sag.hpp` lines 66-68, `src/core/optimizer/sgd/tg.hpp` lines
97-99, `src/core/optimizer/sgd/scd.hpp` lines 55-57). -/
def shuffleXY {α : Type} (shuffle : Option (Nat → List Nat)) (iter : Nat) (X : DMat α) (y : List α) : Res (DMat α × List α) :=
  match shuffle with
  | none => .ok (X, y)
  | some p => do
    let rows ← Data.permuteRows (p iter) X.rows
    let y' ← Data.permuteRows (p iter) y
    .ok ({ X with rows := rows }, y')

/-- The loop over the batches `j, j + 1, …` of an epoch, returning the state and `loss_history`
(`src/core/optimizer/sgd/sgd.hpp` lines 82-94, `src/core/optimizer/sgd/sag.hpp` lines 75-92, `src/core/optimizer/sgd/tg.hpp` lines
106-127). -/
def batchLoop {α W S : Type} (loss : LossFn α W) (weights : S → W) (step : Step α S) (batchSize : Nat) (X : DMat α) (y : List α)
    (lr : α) : Nat → Nat → S → Res (S × List α)
  | 0, _, s => .ok (s, [])
  | n + 1, j, s => do
    let rows ← middleRows X.rows (j * batchSize) batchSize
    let yb ← middleRows y (j * batchSize) batchSize
    let s ← step s ⟨X.ncols, rows⟩ yb lr j
    let l ← loss.evaluate ⟨X.ncols, rows⟩ yb (weights s)
    let rest ← batchLoop loss weights step batchSize X y lr n (j + 1) s
    .ok (rest.1, l :: rest.2)

/-- One epoch: shuffled data, new state, `sum_loss` (`src/core/optimizer/sgd/sgd.hpp` lines 73-96,
`src/core/optimizer/sgd/sag.hpp` lines 66-93, `src/core/optimizer/sgd/tg.hpp` lines 97-129). -/
def epoch {α W S : Type} [Field α] (loss : LossFn α W) (weights : S → W) (step : Step α S) (p : Params α) (numBatch iter : Nat)
    (X : DMat α) (y : List α) (s : S) : Res ((DMat α × List α) × S × α) := do
  let d ← shuffleXY p.shuffle iter X y
  let lr ← p.decay iter
  let r ← batchLoop loss weights step p.batchSize d.1 d.2 lr numBatch 0 s
  .ok (d, r.1, r.2.sum)

/-- `sum_loss > best_loss - tol_ * batch_size_`; `none` is the initial infinity (`src/core/optimizer/sgd/sgd.hpp` line 98,
`src/core/optimizer/sgd/sag.hpp` line 95, `src/core/optimizer/sgd/tg.hpp` line 131). -/
def worse {α : Type} [Field α] [LinearOrder α] (p : Params α) (best : Option α) (sum : α) : Bool :=
  match best with
  | none => false
  | some b => decide (sum > b - p.tol * (p.batchSize : α))

/-- `if (sum_loss < best_loss) best_loss = sum_loss` (`src/core/optimizer/sgd/sgd.hpp` lines 105-107,
`src/core/optimizer/sgd/sag.hpp` lines 102-104, `src/core/optimizer/sgd/tg.hpp` lines 138-140). -/
def newBest {α : Type} [LinearOrder α] (best : Option α) (sum : α) : α :=
  match best with
  | none => sum
  | some b => if sum < b then sum else b

/-- The loop over the epochs from number `iter` with `n` epochs left (`src/core/optimizer/sgd/sgd.hpp` lines 72-129,
`src/core/optimizer/sgd/sag.hpp` lines 65-126, `src/core/optimizer/sgd/tg.hpp` lines 96-162): the weights stored to `opt_x_`, or the
exception after the last epoch, in which case `opt_x_` is not assigned. -/
def epochLoop {α W S : Type} [Field α] [LinearOrder α] (loss : LossFn α W) (weights : S → W) (step : Step α S) (p : Params α)
    (numBatch : Nat) : Nat → Nat → DMat α → List α → S → Option α → Nat → Res W
  | 0, _, _, _, _, _, _ => .throw .runtimeError
  | n + 1, iter, X, y, s, best, count => do
    let e ← epoch loss weights step p numBatch iter X y s
    let sum := e.2.2
    let count := if worse p best sum then count + 1 else 0
    if count ≥ p.noChange then .ok (weights e.2.1)
    else epochLoop loss weights step p numBatch n (iter + 1) e.1.1 e.1.2 e.2.1 (some (newBest best sum)) count

/-- `optimize` of the mini-batch optimizers from an initial state (`src/core/optimizer/sgd/sgd.hpp` lines 50-130,
`src/core/optimizer/sgd/sag.hpp` lines 48-127, `src/core/optimizer/sgd/tg.hpp` lines 81-163); batch size zero divides by zero. -/
def optimize {α W S : Type} [Field α] [LinearOrder α] (loss : LossFn α W) (weights : S → W) (step : Step α S) (p : Params α)
    (X : DMat α) (y : List α) (s : S) : Res W :=
  if p.batchSize = 0 then .ub
  else epochLoop loss weights step p (X.nrows / p.batchSize) p.maxIter 0 X y s none 0

/-- One batch of `SGD::optimize` (`src/core/optimizer/sgd/sgd.hpp` lines 87-91); the state is the weights `x0_`. -/
def sgdStep {α W : Type} (loss : LossFn α W) (clip : W → W) (update : W → W → α → Res W) : Step α W := fun w Xb yb lr _ => do
  let g ← loss.gradient Xb yb w
  update w (clip g) lr

/-- `SGD::optimize` (`src/core/optimizer/sgd/sgd.hpp` lines 50-130). -/
def sgd {α W : Type} [Field α] [LinearOrder α] (loss : LossFn α W) (clip : W → W) (update : W → W → α → Res W) (p : Params α)
    (X : DMat α) (y : List α) (w : W) : Res W := optimize loss id (sgdStep loss clip update) p X y w

/-- Local variables of `SAG::optimize`: `x0_`, the columns of `grad_history`, `avg_grad` (`src/core/optimizer/sgd/sag.hpp` lines
60-62). -/
structure SagState (α : Type) where
  w : List α
  history : List (List α)
  avg : List α

/-- One batch of `SAG::optimize` (`src/core/optimizer/sgd/sag.hpp` lines 80-88). -/
def sagStep {α : Type} [Field α] [LinearOrder α] (loss : LossFn α (List α)) (update : List α → List α → α → Res (List α))
    (batchSize : Nat) : Step α (SagState α) := fun s Xb yb lr j => do
  let g ← loss.gradient Xb yb s.w
  let g := clipGrad g
  let old ← readAt s.history j
  let diff ← Loss.subV g old
  let avg ← Loss.addV s.avg (diff.map fun a => a / (batchSize : α))
  let w ← update s.w avg lr
  .ok { w := w, history := s.history.set j g, avg := avg }

/-- `SAG::optimize` (`src/core/optimizer/sgd/sag.hpp` lines 48-127). Without a full batch the initial `avg_grad` is a mean of
no numbers, but is not used. -/
def sag {α : Type} [Field α] [LinearOrder α] (loss : LossFn α (List α)) (update : List α → List α → α → Res (List α))
    (p : Params α) (X : DMat α) (y w : List α) : Res (List α) :=
  optimize loss SagState.w (sagStep loss update p.batchSize) p X y
    { w := w, history := List.replicate (X.nrows / p.batchSize) (List.replicate X.ncols 0), avg := List.replicate X.ncols 0 }

/-- One weight in `TruncatedGradient::truncate` (`src/core/optimizer/sgd/tg.hpp` lines 37-43) with its accumulator `c`. -/
def truncateOne {α : Type} [Field α] [LinearOrder α] (maxCum w c : α) : α :=
  if w > 0 then max 0 (w - (maxCum + c)) else if w < 0 then min 0 (w + (maxCum - c)) else w

/-- `TruncatedGradient::truncate` (`src/core/optimizer/sgd/tg.hpp` lines 29-49): new weights and new accumulators, which are set
to zero (line 47). -/
def truncate {α : Type} [Field α] [LinearOrder α] (w cum : List α) (maxCum : α) : Res (List α × List α) :=
  if w.length ≤ cum.length then .ok (List.zipWith (truncateOne maxCum) w cum, List.replicate cum.length 0) else .ub

/-- Variables of `TruncatedGradient::optimize`: `x0_`, `cum_l1`, `max_cum_l1` (`src/core/optimizer/sgd/tg.hpp` lines 90-95). -/
structure TgState (α : Type) where
  w : List α
  cum : List α
  maxCum : α

/-- One batch of `TruncatedGradient::optimize` (`src/core/optimizer/sgd/tg.hpp` lines 111-122). -/
def tgStep {α : Type} [Field α] [LinearOrder α] (loss : LossFn α (List α)) (update : List α → List α → α → Res (List α))
    (l1Ratio alpha : α) : Step α (TgState α) := fun s Xb yb lr _ => do
  let g ← loss.gradient Xb yb s.w
  let w ← update s.w (clipGrad g) lr
  let maxCum := s.maxCum + l1Ratio * lr * alpha
  let t ← truncate w s.cum maxCum
  .ok { w := t.1, cum := t.2, maxCum := maxCum }

/-- `TruncatedGradient::optimize` (`src/core/optimizer/sgd/tg.hpp` lines 81-163). -/
def tg {α : Type} [Field α] [LinearOrder α] (loss : LossFn α (List α)) (update : List α → List α → α → Res (List α))
    (l1Ratio alpha : α) (p : Params α) (X : DMat α) (y w : List α) : Res (List α) :=
  optimize loss TgState.w (tgStep loss update l1Ratio alpha) p X y { w := w, cum := List.replicate X.ncols 0, maxCum := 0 }

end OpenML.SGD

namespace OpenML.SCD

open SGD

/-- The step `eta` for one coordinate (`src/core/optimizer/sgd/scd.hpp` lines 67-75). -/
def eta {α : Type} [Field α] [LinearOrder α] (l1Ratio lambda x g : α) : α :=
  if x - g / l1Ratio > lambda / l1Ratio then -g / l1Ratio - lambda / l1Ratio
  else if x - g / l1Ratio < -lambda / l1Ratio then -g / l1Ratio + lambda / l1Ratio
  else -x

/-- `pred_descent` (`src/core/optimizer/sgd/scd.hpp` lines 77-80). -/
def predDescent {α : Type} [Field α] [LinearOrder α] (l1Ratio lambda x g e : α) : α :=
  -e * g - l1Ratio / 2 * e * e - lambda * |x + e| + lambda * |x|

/-- The loop over the coordinates from number `i` (`src/core/optimizer/sgd/scd.hpp` lines 66-87): `best_descent`, `best_index`
and `best_eta`. -/
def bestCoord {α : Type} [Field α] [LinearOrder α] (l1Ratio lambda : α) : List α → List α → Nat → α × Nat × α → α × Nat × α
  | x :: xs, g :: gs, i, b =>
    let e := eta l1Ratio lambda x g
    let d := predDescent l1Ratio lambda x g e
    bestCoord l1Ratio lambda xs gs (i + 1) (if d > b.1 then (d, i, e) else b)
  | _, _, _, b => b

/-- One iteration of `SCD::optimize` behind the shuffling (`src/core/optimizer/sgd/scd.hpp` lines 59-92). The loop reads the
first `num_features` entries of the weights and of the gradient. -/
def scdStep {α : Type} [Field α] [LinearOrder α] (loss : LossFn α (List α)) (l1Ratio lambda : α) (X : DMat α) (y w : List α) :
    Res (List α) := do
  let g ← loss.gradient X y w
  if X.ncols ≤ w.length ∧ X.ncols ≤ g.length then
    let b := bestCoord l1Ratio lambda (w.take X.ncols) (g.take X.ncols) 0 (-1, 0, 0)
    let x ← readAt w b.2.1
    .ok (w.set b.2.1 (x + b.2.2))
  else .ub

/-- The iterations of `SCD::optimize` (`src/core/optimizer/sgd/scd.hpp` lines 54-102) from number `iter` with `n` left. -/
def scdLoop {α : Type} [Field α] [LinearOrder α] (loss : LossFn α (List α)) (l1Ratio lambda : α)
    (shuffle : Option (Nat → List Nat)) : Nat → Nat → DMat α → List α → List α → Res (List α)
  | 0, _, _, _, w => .ok w
  | n + 1, iter, X, y, w => do
    let d ← shuffleXY shuffle iter X y
    let w ← scdStep loss l1Ratio lambda d.1 d.2 w
    scdLoop loss l1Ratio lambda shuffle n (iter + 1) d.1 d.2 w

/-- `SCD::optimize` (`src/core/optimizer/sgd/scd.hpp` lines 43-104): the weights stored to `opt_x_`. -/
def scd {α : Type} [Field α] [LinearOrder α] (loss : LossFn α (List α)) (l1Ratio lambda : α) (maxIter : Nat)
    (shuffle : Option (Nat → List Nat)) (X : DMat α) (y w : List α) : Res (List α) :=
  scdLoop loss l1Ratio lambda shuffle maxIter 0 X y w

end OpenML.SCD
