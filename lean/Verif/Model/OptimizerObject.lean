import Verif.Model.SGD
import Verif.Model.LBFGS

/-!
# Model of optimizer objects on which `optimize` is called repeatedly

The mini-batch optimizers and coordinate descent store their weights in the member `x0_` while they run
(`src/core/optimizer/sgd/sgd.hpp` line 91, `src/core/optimizer/sgd/sag.hpp` line 88, `src/core/optimizer/sgd/tg.hpp` lines 118-122,
`src/core/optimizer/sgd/scd.hpp` line 92), so an exception leaves the weights reached so far in the object. The functions here
return the state together with the outcome; a caller may catch an exception and call again.
-/

namespace OpenML.OptObject

open SGD

/-- Statements that do not change the object (for instance `src/core/optimizer/sgd/sgd.hpp` lines 84-87): if they fail, the object
stays as it is. -/
def andThen {S β γ : Type} (s : S) (r : Res β) (f : β → S × Res γ) : S × Res γ :=
  match r with
  | .ok b => f b
  | .throw e => (s, .throw e)
  | .ub => (s, .ub)
  | .diverge => (s, .diverge)

/-- The loop over the batches with the weights left behind (`src/core/optimizer/sgd/sgd.hpp` lines 82-94,
`src/core/optimizer/sgd/sag.hpp` lines 75-92, `src/core/optimizer/sgd/tg.hpp` lines 106-127). A failure inside a step leaves the state
before the step: the weights are assigned last but for the truncation, which does not throw. -/
def batchLoop {α W S : Type} (loss : LossFn α W) (weights : S → W) (step : Step α S) (batchSize : Nat) (X : DMat α) (y : List α)
    (lr : α) : Nat → Nat → S → S × Res (List α)
  | 0, _, s => (s, .ok [])
  | n + 1, j, s =>
    andThen s (middleRows X.rows (j * batchSize) batchSize) fun rows =>
    andThen s (middleRows y (j * batchSize) batchSize) fun yb =>
    andThen s (step s ⟨X.ncols, rows⟩ yb lr j) fun s' =>
    andThen s' (loss.evaluate ⟨X.ncols, rows⟩ yb (weights s')) fun l =>
    let rest := batchLoop loss weights step batchSize X y lr n (j + 1) s'
    andThen rest.1 rest.2 fun ls => (rest.1, .ok (l :: ls))

/-- The loop over the epochs with the state left behind (`src/core/optimizer/sgd/sgd.hpp` lines 72-129,
`src/core/optimizer/sgd/sag.hpp` lines 65-126, `src/core/optimizer/sgd/tg.hpp` lines 96-162); the value is `()` if the loop is left
by `break`. -/
def epochLoop {α W S : Type} [Field α] [LinearOrder α] (loss : LossFn α W) (weights : S → W) (step : Step α S) (p : Params α)
    (numBatch : Nat) : Nat → Nat → DMat α → List α → S → Option α → Nat → S × Res Unit
  | 0, _, _, _, s, _, _ => (s, .throw .runtimeError)
  | n + 1, iter, X, y, s, best, count =>
    andThen s (shuffleXY p.shuffle iter X y) fun d =>
    andThen s (p.decay iter) fun lr =>
    let r := batchLoop loss weights step p.batchSize d.1 d.2 lr numBatch 0 s
    andThen r.1 r.2 fun ls =>
    let count := if worse p best ls.sum then count + 1 else 0
    if count ≥ p.noChange then (r.1, .ok ())
    else epochLoop loss weights step p numBatch n (iter + 1) d.1 d.2 r.1 (some (newBest best ls.sum)) count

/-- The members `x0_` and `opt_x_` of an optimizer (`src/core/optimizer/base.hpp` lines 37-38); `none` is the empty matrix that
`opt_x_` is before its first assignment. -/
structure Obj (W : Type) where
  x0 : W
  coef : Option W
deriving DecidableEq

/-- A new optimizer (`src/core/optimizer/base.hpp` lines 44-89). -/
def construct {W : Type} (x0 : W) : Obj W := ⟨x0, none⟩

/-- `get_coef` (`src/core/optimizer/base.hpp` lines 96-98). -/
def getCoef {W : Type} (o : Obj W) : Option W := o.coef

/-- The end of `optimize` (`src/core/optimizer/sgd/sgd.hpp` lines 109-129, `src/core/optimizer/sgd/sag.hpp` lines 106-126,
`src/core/optimizer/sgd/tg.hpp` lines 142-162, `src/core/optimizer/sgd/scd.hpp` line 103): the weights `w` are in `x0_`, and they are
assigned to `opt_x_` unless the loop failed. -/
def finish {W : Type} (old : Option W) (w : W) (r : Res Unit) : Obj W × Res Unit :=
  match r with
  | .ok () => (⟨w, some w⟩, .ok ())
  | e => (⟨w, old⟩, e)

/-- `optimize` of a mini-batch optimizer as a member function (`src/core/optimizer/sgd/sgd.hpp` lines 50-130,
`src/core/optimizer/sgd/sag.hpp` lines 48-127, `src/core/optimizer/sgd/tg.hpp` lines 81-163). `init` gives the local variables
besides `x0_`. -/
def optimizeMini {α W S : Type} [Field α] [LinearOrder α] (loss : LossFn α W) (weights : S → W) (step : Step α S)
    (init : DMat α → W → S) (p : Params α) (X : DMat α) (y : List α) (o : Obj W) : Obj W × Res Unit :=
  if p.batchSize = 0 then (o, .ub)
  else
    let r := epochLoop loss weights step p (X.nrows / p.batchSize) p.maxIter 0 X y (init X o.x0) none 0
    finish o.coef (weights r.1) r.2

/-- `SGD::optimize` as a member function (`src/core/optimizer/sgd/sgd.hpp` lines 50-130). -/
def optimizeSgd {α W : Type} [Field α] [LinearOrder α] (loss : LossFn α W) (clip : W → W) (update : W → W → α → Res W)
    (p : Params α) (X : DMat α) (y : List α) (o : Obj W) : Obj W × Res Unit :=
  optimizeMini loss id (sgdStep loss clip update) (fun _ w => w) p X y o

/-- `SAG::optimize` as a member function (`src/core/optimizer/sgd/sag.hpp` lines 48-127). -/
def optimizeSag {α : Type} [Field α] [LinearOrder α] (loss : LossFn α (List α)) (update : List α → List α → α → Res (List α))
    (p : Params α) (X : DMat α) (y : List α) (o : Obj (List α)) : Obj (List α) × Res Unit :=
  optimizeMini loss SagState.w (sagStep loss update p.batchSize) (fun X w =>
    { w := w, history := List.replicate (X.nrows / p.batchSize) (List.replicate X.ncols 0), avg := List.replicate X.ncols 0 }) p X y o

/-- `TruncatedGradient::optimize` as a member function (`src/core/optimizer/sgd/tg.hpp` lines 81-163). -/
def optimizeTg {α : Type} [Field α] [LinearOrder α] (loss : LossFn α (List α)) (update : List α → List α → α → Res (List α))
    (l1Ratio alpha : α) (p : Params α) (X : DMat α) (y : List α) (o : Obj (List α)) : Obj (List α) × Res Unit :=
  optimizeMini loss TgState.w (tgStep loss update l1Ratio alpha) (fun X w =>
    { w := w, cum := List.replicate X.ncols 0, maxCum := 0 }) p X y o

/-- The iterations of `SCD::optimize` with the weights left behind (`src/core/optimizer/sgd/scd.hpp` lines 54-102). -/
def scdLoop {α : Type} [Field α] [LinearOrder α] (loss : LossFn α (List α)) (l1Ratio lambda : α)
    (shuffle : Option (Nat → List Nat)) : Nat → Nat → DMat α → List α → List α → List α × Res Unit
  | 0, _, _, _, w => (w, .ok ())
  | n + 1, iter, X, y, w =>
    andThen w (shuffleXY shuffle iter X y) fun d =>
    andThen w (SCD.scdStep loss l1Ratio lambda d.1 d.2 w) fun w' =>
    scdLoop loss l1Ratio lambda shuffle n (iter + 1) d.1 d.2 w'

/-- `SCD::optimize` as a member function (`src/core/optimizer/sgd/scd.hpp` lines 43-104). -/
def optimizeScd {α : Type} [Field α] [LinearOrder α] (loss : LossFn α (List α)) (l1Ratio lambda : α) (maxIter : Nat)
    (shuffle : Option (Nat → List Nat)) (X : DMat α) (y : List α) (o : Obj (List α)) : Obj (List α) × Res Unit :=
  let r := scdLoop loss l1Ratio lambda shuffle maxIter 0 X y o.x0
  finish o.coef r.1 r.2

/-- `LBFGS::optimize` as a member function (`src/core/optimizer/lbfgs/lbfgs.hpp` lines 58-224): it works on a copy of `x0_`
(line 62) and assigns `opt_x_` at the end (line 223) unless it returns early (lines 115-118). -/
def optimizeLbfgs {α : Type} [Field α] [LinearOrder α] (sqrt : α → α) (p : LBFGS.Params α) (junk : Nat → α) (fuel : Nat)
    (loss : LossFn α (List α)) (X : DMat α) (y : List α) (o : Obj (List α)) : Obj (List α) × Res Unit :=
  andThen o (LBFGS.optimize sqrt p junk fuel loss X y o.x0) fun r =>
  match r with
  | none => (o, .ok ())
  | some x => (⟨o.x0, some x⟩, .ok ())

/-- A program that calls member functions of one object one after the other and catches every exception (the member functions of
`src/core/optimizer/base.hpp` lines 93-98): the object after each call, and the outcome of the call. It ends with a call that does not end. -/
def calls {W C : Type} (call : C → Obj W → Obj W × Res Unit) : List C → Obj W → Obj W × List (Res Unit)
  | [], o => (o, [])
  | c :: cs, o =>
    let r := call c o
    match r.2 with
    | .ub => (r.1, [.ub])
    | .diverge => (r.1, [.diverge])
    | e =>
      let rest := calls call cs r.1
      (rest.1, e :: rest.2)

end OpenML.OptObject
