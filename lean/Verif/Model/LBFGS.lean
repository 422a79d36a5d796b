import Verif.Model.SGD

/-!
# Model of `LBFGS` and its line searches (`src/core/optimizer/lbfgs`)

Numbers are elements of an ordered field. `sqrt` is the square root used by `norm()`. A division by zero, which gives an infinite
number or NaN in the code, is `ub`. Uninitialised memory that is read is a parameter; the vectors and matrices that hold the
correction pairs have slots without content before the first write, and reading such a slot is `ub`. The base class of the line
searches has no virtual destructor; destroying the search object through a base pointer is taken to be harmless.
-/

namespace OpenML.LBFGS

open SGD

/-- `LineSearchParams` (`src/core/optimizer/lbfgs/params.hpp` lines 11-60). -/
structure SearchParams (α : Type) where
  dec : α
  inc : α
  ftol : α
  wolfe : α
  maxStep : α
  minStep : α
  maxLinesearch : Nat
  condition : String

/-- The line search policies (`src/core/optimizer/lbfgs/lbfgs.hpp` lines 78-90). -/
inductive Policy
  | backtracking
  | bracketing
deriving DecidableEq

/-- The line search policy with a given name (`src/core/optimizer/lbfgs/lbfgs.hpp` lines 78-90). -/
def policyOf (name : String) : Res Policy :=
  if name = "backtracking" then .ok .backtracking
  else if name = "bracketing" then .ok .bracketing
  else .throw .invalidArgument

/-- `a.dot(b)` with its size assertion (`src/core/optimizer/lbfgs/lbfgs.hpp` lines 187-188, 204, 214,
`src/core/optimizer/lbfgs/search_policies/backtracking.hpp` lines 52, 81). -/
def dot {α : Type} [Field α] (a b : List α) : Res α := if a.length = b.length then .ok (Loss.dotL a b) else .ub

/-- `a / b` on numbers (`src/core/optimizer/lbfgs/lbfgs.hpp` lines 121, 204, 209, 214). -/
def quot {α : Type} [Field α] [DecidableEq α] (a b : α) : Res α := if b = 0 then .ub else .ok (a / b)

/-- What a line search makes of a point: return it, or go on with a smaller or a larger step
(`src/core/optimizer/lbfgs/search_policies/backtracking.hpp` lines 72-97,
`src/core/optimizer/lbfgs/search_policies/bracketing.hpp` lines 73-98). -/
inductive Verdict
  | accept
  | shrink
  | grow
deriving DecidableEq

/-- The tests of a point with loss `fx` and gradient `g` (`src/core/optimizer/lbfgs/search_policies/backtracking.hpp` lines
72-97, `src/core/optimizer/lbfgs/search_policies/bracketing.hpp` lines 73-98). -/
def verdict {α : Type} [Field α] [LinearOrder α] (p : SearchParams α) (fxInit dgInit step fx : α) (d g : List α) : Res Verdict :=
  if fx > fxInit + step * (p.ftol * dgInit) then .ok .shrink
  else if p.condition = "ARMIJO" then .ok .accept
  else do
    let dg ← dot d g
    if dg < p.wolfe * dgInit then .ok .grow
    else if p.condition = "WOLFE" then .ok .accept
    else if dg > -p.wolfe * dgInit then .ok .shrink
    else .ok .accept

/-- The next step, and `step_lo` and `step_hi` of the bracketing search, where `none` is infinity
(`src/core/optimizer/lbfgs/search_policies/backtracking.hpp` lines 73, 83, 91, 113,
`src/core/optimizer/lbfgs/search_policies/bracketing.hpp` lines 74, 84, 92, 114). -/
def nextStep {α : Type} [Field α] (policy : Policy) (p : SearchParams α) (v : Verdict) (step lo : α) (hi : Option α) :
    α × α × Option α :=
  match policy with
  | .backtracking => (step * (if v = .grow then p.inc else p.dec), lo, hi)
  | .bracketing =>
    let lo := if v = .grow then step else lo
    let hi := if v = .grow then hi else some step
    match hi with
    | none => (2 * step, lo, hi)
    | some h => ((lo + h) / 2, lo, hi)

/-- What a successful line search leaves behind: the return value and the values of `x`, `fx`, `g`, `step`
(`src/core/optimizer/lbfgs/search_policies/backtracking.hpp` lines 35-41). -/
structure Found (α : Type) where
  count : Nat
  x : List α
  fx : α
  g : List α
  step : α
deriving DecidableEq

/-- One round of a line search up to the tests: the point, its loss and gradient, and the verdict
(`src/core/optimizer/lbfgs/search_policies/backtracking.hpp` lines 65-97,
`src/core/optimizer/lbfgs/search_policies/bracketing.hpp` lines 66-98); `count` is the value before line 70 (line 71). -/
def probe {α : Type} [Field α] [LinearOrder α] (p : SearchParams α) (loss : LossFn α (List α)) (X : DMat α) (y : List α)
    (fxInit dgInit : α) (xp d : List α) (count : Nat) (step : α) : Res (Verdict × Found α) := do
  let x ← Loss.addV xp (d.map fun a => step * a)
  let fx ← loss.evaluate X y x
  let g ← loss.gradient X y x
  let v ← verdict p fxInit dgInit step fx d g
  .ok (v, ⟨count + 1, x, fx, g, step⟩)

/-- The loop of a line search (`src/core/optimizer/lbfgs/search_policies/backtracking.hpp` lines 63-114,
`src/core/optimizer/lbfgs/search_policies/bracketing.hpp` lines 64-115). `none` is the return value -1. The first number is
`max_linesearch_ - (count + 1)`, or zero if this is negative; the test in line 109 (line 110) asks whether it is zero. -/
def searchLoop {α : Type} [Field α] [LinearOrder α] (policy : Policy) (p : SearchParams α) (loss : LossFn α (List α)) (X : DMat α)
    (y : List α) (fxInit dgInit : α) (xp d : List α) : Nat → Nat → α → α → Option α → Res (Option (Found α))
  | 0, count, step, _, _ => do
    let r ← probe p loss X y fxInit dgInit xp d count step
    if r.1 = .accept then .ok (some r.2) else .ok none
  | n + 1, count, step, lo, hi => do
    let r ← probe p loss X y fxInit dgInit xp d count step
    if r.1 = .accept then .ok (some r.2)
    else if step < p.minStep then .ok none
    else if step > p.maxStep then .ok none
    else
      let s := nextStep policy p r.1 step lo hi
      searchLoop policy p loss X y fxInit dgInit xp d n (count + 1) s.1 s.2.1 s.2.2

/-- `search` (`src/core/optimizer/lbfgs/search_policies/backtracking.hpp` lines 35-115,
`src/core/optimizer/lbfgs/search_policies/bracketing.hpp` lines 35-116); `fx`, `g` and `step` are the values on entry. -/
def search {α : Type} [Field α] [LinearOrder α] (policy : Policy) (p : SearchParams α) (loss : LossFn α (List α)) (X : DMat α)
    (y : List α) (fx : α) (g d : List α) (step : α) (xp : List α) : Res (Option (Found α)) :=
  if step ≤ 0 then .ok none
  else do
    let dgInit ← dot d g
    if dgInit > 0 then .ok none
    else searchLoop policy p loss X y fx dgInit xp d (p.maxLinesearch - 1) 0 step 0 none

/-- A column of `mem_s`, the same column of `mem_y`, and the entry of `mem_ys` (`src/core/optimizer/lbfgs/lbfgs.hpp` lines
93-95). -/
structure Pair (α : Type) where
  s : List α
  y : List α
  ys : α
deriving DecidableEq

/-- Reading a slot (`src/core/optimizer/lbfgs/lbfgs.hpp` lines 204-206, 214-216). -/
def readMem {β : Type} (mem : List (Option β)) (j : Nat) : Res β :=
  match mem[j]? with
  | some (some e) => .ok e
  | _ => .ub

/-- Writing a slot (`src/core/optimizer/lbfgs/lbfgs.hpp` lines 180-181, 189, 204). -/
def writeMem {β : Type} (mem : List (Option β)) (j : Nat) (e : β) : Res (List (Option β)) :=
  if j < mem.length then .ok (mem.set j (some e)) else .ub

/-- The first loop of the recursion with `i` rounds left (`src/core/optimizer/lbfgs/lbfgs.hpp` lines 200-207): `j`, `d`,
`mem_alpha`. -/
def loop1 {α : Type} [Field α] [DecidableEq α] (memSize : Nat) (mem : List (Option (Pair α))) :
    Nat → Nat → List α → List (Option α) → Res (Nat × List α × List (Option α))
  | 0, j, d, al => .ok (j, d, al)
  | i + 1, j, d, al =>
    if memSize = 0 then .ub
    else do
      let j := (j + memSize - 1) % memSize
      let e ← readMem mem j
      let sd ← dot e.s d
      let a ← quot sd e.ys
      let al ← writeMem al j a
      let d ← Loss.addV d (e.y.map fun b => -a * b)
      loop1 memSize mem i j d al

/-- The second loop of the recursion with `i` rounds left (`src/core/optimizer/lbfgs/lbfgs.hpp` lines 212-219). -/
def loop2 {α : Type} [Field α] [DecidableEq α] (memSize : Nat) (mem : List (Option (Pair α))) (al : List (Option α)) :
    Nat → Nat → List α → Res (List α)
  | 0, _, d => .ok d
  | i + 1, j, d =>
    if memSize = 0 then .ub
    else do
      let e ← readMem mem j
      let yd ← dot e.y d
      let beta ← quot yd e.ys
      let a ← readMem al j
      let d ← Loss.addV d (e.s.map fun b => (a - beta) * b)
      loop2 memSize mem al i ((j + 1) % memSize) d

/-- The new direction from the gradient `g` and the memory, after `k` has been incremented and `end` moved on
(`src/core/optimizer/lbfgs/lbfgs.hpp` lines 191-219); `bound` is the value of line 194, `ys` and `yy` those of lines 187-188. -/
def direction {α : Type} [Field α] [DecidableEq α] (memSize : Nat) (mem : List (Option (Pair α))) (al : List (Option α))
    (bound end' : Nat) (ys yy : α) (g : List α) : Res (List α × List (Option α)) := do
  let r ← loop1 memSize mem bound end' (g.map fun a => -a) al
  let c ← quot ys yy
  let d ← loop2 memSize mem r.2.2 bound r.1 (r.2.1.map fun a => a * c)
  .ok (d, r.2.2)

/-- Parameters of the optimizer (`src/core/optimizer/lbfgs/lbfgs.hpp` lines 26-54). -/
structure Params (α : Type) where
  maxIter : Nat
  memSize : Nat
  past : Nat
  tol : α
  delta : α
  policy : String
  search : SearchParams α

/-- Variables of `LBFGS::optimize` at the beginning of an iteration (`src/core/optimizer/lbfgs/lbfgs.hpp` lines 61-125). -/
structure State (α : Type) where
  x : List α
  fx : α
  g : List α
  d : List α
  step : α
  k : Nat
  end' : Nat
  mem : List (Option (Pair α))
  al : List (Option α)
  pfx : List α
deriving DecidableEq

/-- `norm()` (`src/core/optimizer/lbfgs/lbfgs.hpp` lines 109-110, 121, 144-145). -/
def norm {α : Type} [Field α] (sqrt : α → α) (v : List α) : α := sqrt (Loss.dotL v v)

/-- The test of the gradient (`src/core/optimizer/lbfgs/lbfgs.hpp` lines 109-115, 144-156). -/
def converged {α : Type} [Field α] [LinearOrder α] (sqrt : α → α) (tol : α) (x g : List α) : Bool :=
  let xnorm := if norm sqrt x < 1 then 1 else norm sqrt x
  decide (norm sqrt g / xnorm ≤ tol)

/-- The test of the decrease of the loss (`src/core/optimizer/lbfgs/lbfgs.hpp` lines 164-171): `none` ends the loop, otherwise
the new content of `pfx`. With `past_ = 0` there is a division by zero in `k % past_`. -/
def pastTest {α : Type} [Field α] [LinearOrder α] (p : Params α) (k : Nat) (fx : α) (pfx : List α) : Res (Option (List α)) :=
  if p.past ≤ k then
    if p.past = 0 then .ub
    else do
      let v ← readAt pfx (k % p.past)
      if |v - fx| / max |fx| 1 < p.delta then .ok none else .ok (some (pfx.set (k % p.past) fx))
  else .ok (some pfx)

/-- The update of memory and direction after a successful line search (`src/core/optimizer/lbfgs/lbfgs.hpp` lines 177-221). -/
def update {α : Type} [Field α] [LinearOrder α] (p : Params α) (st : State α) (r : Found α) (pfx : List α) : Res (State α) := do
  let s ← Loss.subV r.x st.x
  let yv ← Loss.subV r.g st.g
  let ys ← dot yv s
  let yy ← dot yv yv
  let mem ← writeMem st.mem st.end' ⟨s, yv, ys⟩
  let end' := (st.end' + 1) % p.memSize
  let da ← direction p.memSize mem st.al (if p.memSize ≤ st.k then p.memSize else st.k) end' ys yy r.g
  .ok { x := r.x, fx := r.fx, g := r.g, d := da.1, step := 1, k := st.k + 1, end' := end', mem := mem, al := da.2, pfx := pfx }

/-- One iteration (`src/core/optimizer/lbfgs/lbfgs.hpp` lines 126-222): the final point if the loop is left, or the next state. -/
def iteration {α : Type} [Field α] [LinearOrder α] (sqrt : α → α) (policy : Policy) (p : Params α) (loss : LossFn α (List α))
    (X : DMat α) (y : List α) (st : State α) : Res (List α ⊕ State α) := do
  let ls ← search policy p.search loss X y st.fx st.g st.d st.step st.x
  match ls with
  | none => .ok (.inl st.x)
  | some r =>
    if converged sqrt p.tol r.x r.g then .ok (.inl r.x)
    else do
      let t ← pastTest p st.k r.fx st.pfx
      match t with
      | none => .ok (.inl r.x)
      | some pfx =>
        if p.maxIter ≠ 0 ∧ p.maxIter < st.k + 1 then .ok (.inl r.x)
        else do
          let st' ← update p st r pfx
          .ok (.inr st')

/-- The main loop (`src/core/optimizer/lbfgs/lbfgs.hpp` lines 126-222), with `fuel` iterations at most. -/
def mainLoop {α : Type} [Field α] [LinearOrder α] (sqrt : α → α) (policy : Policy) (p : Params α) (loss : LossFn α (List α))
    (X : DMat α) (y : List α) : Nat → State α → Res (List α)
  | 0, _ => .diverge
  | fuel + 1, st => do
    let r ← iteration sqrt policy p loss X y st
    match r with
    | .inl x => .ok x
    | .inr st' => mainLoop sqrt policy p loss X y fuel st'

/-- The state before the first iteration (`src/core/optimizer/lbfgs/lbfgs.hpp` lines 93-125). `junk` is the content of the
uninitialised entries of `pfx`, which has `max(1, past_)` entries (line 74). -/
def initial {α : Type} [Field α] [LinearOrder α] (p : Params α) (junk : Nat → α) (x g : List α) (fx step : α) : State α where
  x := x
  fx := fx
  g := g
  d := g.map fun a => -a
  step := step
  k := 1
  end' := 0
  mem := List.replicate p.memSize none
  al := List.replicate p.memSize none
  pfx := fx :: (List.range (max 1 p.past - 1)).map fun i => junk (i + 1)

/-- `LBFGS::optimize` (`src/core/optimizer/lbfgs/lbfgs.hpp` lines 58-224) from the weights `x0`: the weights stored to `opt_x_`,
or `none` if `opt_x_` is not assigned (line 117). -/
def optimize {α : Type} [Field α] [LinearOrder α] (sqrt : α → α) (p : Params α) (junk : Nat → α) (fuel : Nat)
    (loss : LossFn α (List α)) (X : DMat α) (y x0 : List α) : Res (Option (List α)) := do
  let policy ← policyOf p.policy
  let fx ← loss.evaluate X y x0
  let g ← loss.gradient X y x0
  if converged sqrt p.tol x0 g then .ok none
  else do
    let step ← quot 1 (norm sqrt (g.map fun a => -a))
    let x ← mainLoop sqrt policy p loss X y fuel (initial p junk x0 g fx step)
    .ok (some x)

end OpenML.LBFGS
