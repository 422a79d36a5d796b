import Verif.Model.Rounding

/-!
# Logarithmic loss, softmax and training with infinities and NaN

Numbers are those of `Model/Rounding.lean`, extended by the two infinities and NaN. The sign of zero is left out; no result below
depends on it. Exponential and logarithm of the library are parameters: the exponential is only known for arguments that are not
positive, because the code does not use others.
-/

namespace OpenML.Saturation

open Rounding

/-- Values of type `double` or `float` (all files, for example `src/core/loss/log_loss.hpp` lines 32-55). -/
inductive XF where
  | nan
  | ninf
  | pinf
  | fin (x : ℝ)

/-- Arithmetic with the mathematical functions of the library (`.exp()` and `.log()` in `src/core/math/extmath.hpp` lines 20-21 and
`src/core/loss/log_loss.hpp` lines 43-46). Rounding is monotone and keeps 1. The exponential of 0 is 1, exponentials of negative
numbers are between 0 (which may be reached) and 1. -/
structure Env extends Arith where
  mono : Monotone rnd
  one : rnd 1 = 1
  exp : ℝ → ℝ
  exp_zero : exp 0 = 1
  exp_nonneg : ∀ x, x ≤ 0 → 0 ≤ exp x
  exp_le : ∀ x, x ≤ 0 → exp x ≤ 1
  log : ℝ → ℝ

namespace XF

/-- Addition (`src/core/loss/log_loss.hpp` lines 48, 54). -/
noncomputable def add (V : Env) : XF → XF → XF
  | nan, _ => nan
  | _, nan => nan
  | pinf, ninf => nan
  | ninf, pinf => nan
  | pinf, _ => pinf
  | _, pinf => pinf
  | ninf, _ => ninf
  | _, ninf => ninf
  | fin a, fin b => fin (V.rnd (a + b))

/-- Change of sign, as part of subtractions (`src/core/loss/log_loss.hpp` line 47). -/
def neg : XF → XF
  | nan => nan
  | pinf => ninf
  | ninf => pinf
  | fin a => fin (-a)

/-- Subtraction (`src/core/loss/log_loss.hpp` lines 46, 47, `src/core/optimizer/sgd/sgd.hpp` line 98). -/
noncomputable def sub (V : Env) (a b : XF) : XF := add V a (neg b)

/-- Multiplication by a finite number (`src/core/loss/log_loss.hpp` lines 43-46): zero times infinity is NaN. -/
noncomputable def scale (V : Env) (c : ℝ) : XF → XF
  | nan => nan
  | pinf => if c = 0 then nan else if 0 < c then pinf else ninf
  | ninf => if c = 0 then nan else if 0 < c then ninf else pinf
  | fin a => fin (V.rnd (c * a))

/-- Division by a positive number of samples (`src/core/loss/log_loss.hpp` lines 48-49). -/
noncomputable def divNat (V : Env) (n : Nat) : XF → XF
  | nan => nan
  | pinf => pinf
  | ninf => ninf
  | fin a => fin (V.rnd (a / n))

/-- Logarithm of a finite number (`src/core/loss/log_loss.hpp` lines 43-46): minus infinity at zero, NaN below. -/
noncomputable def log (V : Env) (x : ℝ) : XF := if x = 0 then ninf else if x < 0 then nan else fin (V.log x)

/-- Comparison `a < b`, false if one of them is NaN (`src/core/optimizer/sgd/sgd.hpp` lines 98, 105). -/
noncomputable def lt : XF → XF → Bool
  | nan, _ => false
  | _, nan => false
  | ninf, ninf => false
  | ninf, _ => true
  | _, ninf => false
  | pinf, _ => false
  | fin _, pinf => true
  | fin a, fin b => decide (a < b)

end XF

/-- `s` is a possible result of adding up the list in any order with any brackets (`.sum()` in `src/core/loss/log_loss.hpp` line 48 and
`src/core/optimizer/sgd/sgd.hpp` line 96). -/
inductive SummedX (V : Env) : List XF → XF → Prop
  | nil : SummedX V [] (.fin 0)
  | single (x : XF) : SummedX V [x] x
  | add {l r m : List XF} {a b : XF} : SummedX V l a → SummedX V r b → l ≠ [] → r ≠ [] → m.Perm (l ++ r) → SummedX V m (XF.add V a b)

/-- One entry of `math::sigmoid` (`src/core/math/extmath.hpp` lines 18-22); minimum, absolute value and sign change are exact. -/
noncomputable def sigmoid (V : Env) (x : ℝ) : ℝ := V.rnd (V.exp (min x 0) / V.rnd (1 + V.exp (-|x|)))

/-- One entry of `tmp3` (`src/core/loss/log_loss.hpp` lines 43-47) for the label `a` and the probability `p`. -/
noncomputable def term (V : Env) (a p : ℝ) : XF :=
  XF.sub V (XF.scale V (V.rnd (-1 * a)) (XF.log V p)) (XF.scale V (V.rnd (1 - a)) (XF.log V (V.rnd (1 - p))))

/-- `v` is a possible result of `LogLoss::evaluate` (`src/core/loss/log_loss.hpp` lines 38-54) for the scores `xs` (the finite vector
`X_w`), the labels `ys` and the finite penalty `reg * lambda_`. -/
def Evaluate (V : Env) (xs ys : List ℝ) (reg : ℝ) (v : XF) : Prop :=
  xs.length = ys.length ∧ ∃ s, SummedX V (List.zipWith (fun a x => term V a (sigmoid V x)) ys xs) s ∧
    v = XF.add V (XF.divNat V ys.length s) (.fin reg)

/-- The loop over the epochs (`src/core/optimizer/sgd/sgd.hpp` lines 72-129, `src/core/optimizer/sgd/sag.hpp` lines 65-126,
`src/core/optimizer/sgd/tg.hpp` lines 96-162) seen from the losses `sums` of the epochs: the number of the epoch at which it stops, or
`none` for the exception. `slack` is `tol_ * batch_size_`, `best` is `best_loss` and `count` is `no_improvement_count`. -/
noncomputable def stopLoop (V : Env) (slack : ℝ) (noChange : Nat) (sums : Nat → XF) : Nat → Nat → XF → Nat → Option Nat
  | 0, _, _, _ => none
  | n + 1, iter, best, count =>
    let sum := sums iter
    let count := if XF.lt (XF.sub V best (.fin slack)) sum then count + 1 else 0
    let best := if XF.lt sum best then sum else best
    if count ≥ noChange then some iter else stopLoop V slack noChange sums n (iter + 1) best count

/-- The loop from its start (`src/core/optimizer/sgd/sgd.hpp` lines 54-58, 72): `best_loss` is infinity, the counter zero. -/
noncomputable def stopEpoch (V : Env) (slack : ℝ) (noChange maxIter : Nat) (sums : Nat → XF) : Option Nat :=
  stopLoop V slack noChange sums maxIter 0 .pinf 0

/-- `v` is a possible sum of exponentials of one line after subtracting its largest entry `c` (`src/core/math/linalg.hpp` lines 287-289,
293-295, 299-300, `src/core/math/extmath.hpp` lines 242-262). -/
def ExpSum (V : Env) (l : List ℝ) (c v : ℝ) : Prop := Summed V.toArith (l.map fun a => V.exp (V.rnd (a - c))) v

/-- `v` is a possible value of `logsumexp` of one line (`src/core/math/linalg.hpp` lines 287-290, 293-296, 299-302); `c` is the result of
`maxCoeff()`. -/
def LogSumExp (V : Env) (l : List ℝ) (v : XF) : Prop :=
  ∃ c s, c ∈ l ∧ (∀ a ∈ l, a ≤ c) ∧ ExpSum V l c s ∧ v = XF.add V (XF.log V s) (.fin c)

/-- `r` is a possible value of `softmax` of one line (`src/core/math/extmath.hpp` lines 242-264); the quotient by zero is not a number,
which is `none`. -/
def Softmax (V : Env) (l : List ℝ) (r : List (Option ℝ)) : Prop :=
  ∃ c s, c ∈ l ∧ (∀ a ∈ l, a ≤ c) ∧ ExpSum V l c s ∧
    r = l.map fun a => if s = 0 then none else some (V.rnd (V.exp (V.rnd (a - c)) / s))

/-- Logarithm of the quotient of an exponential `e` and the sum `t` of its row (`src/core/loss/softmax_loss.hpp` lines 54-55): zero by
zero is NaN, and so is its logarithm. -/
noncomputable def logQuotient (V : Env) (e t : ℝ) : XF :=
  if t = 0 then (if e = 0 then .nan else .pinf) else XF.log V (V.rnd (e / t))

/-- `v` is a possible result of `SoftmaxLoss::evaluate` (`src/core/loss/softmax_loss.hpp` lines 43-62) for the rows `xw` of finite scores,
the labels `ys` as column numbers and the finite penalty `reg * lambda_`; `c` is the largest of all scores. -/
def SoftmaxEvaluate (V : Env) (xw : List (List ℝ)) (ys : List Nat) (reg : ℝ) (v : XF) : Prop :=
  xw.length = ys.length ∧ ∃ c qs s, c ∈ xw.flatten ∧ (∀ a ∈ xw.flatten, a ≤ c) ∧
    List.Forall₂ (fun (q : List ℝ × Nat) (t : XF) => ∃ a u, q.1[q.2]? = some a ∧ ExpSum V q.1 c u ∧
      t = logQuotient V (V.exp (V.rnd (a - c))) u) (xw.zip ys) qs ∧
    SummedX V qs s ∧ v = XF.add V (XF.divNat V ys.length (XF.neg s)) (.fin reg)

end OpenML.Saturation
