import Verif.Model.GMM

/-!
# Model of `GaussianMixture` objects whose exceptions are caught

In `Verif.Model.GMM` an exception ends the history of an object. Here the members keep the values they had when the exception was thrown,
so that the object can be used on. All data have `d` features.
-/

namespace OpenML.GMMObject

open Matrix GMM

/-- A member function that may change members: it returns a value or throws an exception, and leaves members in both cases
(for instance `src/methods/mixture/gaussian_mixture.hpp` lines 443-517); or it has undefined behaviour. -/
def Call (σ α : Type) := σ → Res (Except Exn α × σ)

namespace Call

/-- Returning without touching a member (for instance `src/methods/mixture/gaussian_mixture.hpp` line 623). -/
def ret {σ α : Type} (a : α) : Call σ α := fun s => .ok (.ok a, s)

/-- `throw` (for instance `src/methods/mixture/gaussian_mixture.hpp` lines 451, 498). -/
def raise {σ α : Type} (e : Exn) : Call σ α := fun s => .ok (.error e, s)

/-- A call of a `const` function (for instance `src/methods/mixture/gaussian_mixture.hpp` lines 400-401). -/
def const {σ α : Type} (f : σ → Res α) : Call σ α := fun s =>
  match f s with
  | .ok a => .ok (.ok a, s)
  | .throw e => .ok (.error e, s)
  | .ub => .ub
  | .diverge => .diverge

/-- Assignment to members (for instance `src/methods/mixture/gaussian_mixture.hpp` lines 383-387). -/
def modify {σ : Type} (f : σ → σ) : Call σ Unit := fun s => .ok (.ok (), f s)

/-- Sequencing of statements (for instance `src/methods/mixture/gaussian_mixture.hpp` lines 471-474): an exception skips the rest. -/
def andThen {σ α β : Type} (x : Call σ α) (f : α → Call σ β) : Call σ β := fun s =>
  match x s with
  | .ok (.ok a, s') => f a s'
  | .ok (.error e, s') => .ok (.error e, s')
  | .throw e => .throw e
  | .ub => .ub
  | .diverge => .diverge

end Call

/-- The members (`src/methods/mixture/gaussian_mixture.hpp` lines 46-51). `means` and `weights` are `none` while they have no entries, and
`lowerBound` is `none` while it has not been assigned; `some none` is minus infinity. -/
structure Members (K d : Nat) where
  covariances : List (Matrix (Fin d) (Fin d) ℝ)
  precisionsChol : List (Matrix (Fin d) (Fin d) ℝ)
  means : Option (Matrix (Fin K) (Fin d) ℝ)
  weights : Option (Fin K → ℝ)
  precisions : List (Matrix (Fin d) (Fin d) ℝ)
  lowerBound : Option (Option ℝ)

/-- A new object: the constructors do not mention these members (`src/methods/mixture/gaussian_mixture.hpp` lines 520-541). -/
def fresh (K d : Nat) : Members K d := ⟨[], [], none, none, [], none⟩

/-- The four members that the steps of the algorithm use (`src/methods/mixture/gaussian_mixture.hpp` lines 46, 48-50). -/
def held {K d : Nat} (m : Members K d) : Option (Params K d) :=
  match m.means, m.weights with
  | some mu, some w => some ⟨m.covariances, m.precisionsChol, mu, w⟩
  | _, _ => none

/-- The four assignments of lines 502-505 of `src/methods/mixture/gaussian_mixture.hpp`. -/
def put {K d : Nat} (p : Params K d) (m : Members K d) : Members K d :=
  { m with covariances := p.covariances, precisionsChol := p.precisionsChol, means := some p.means, weights := some p.weights }

/-- The common part of `initialize_parameters` (`src/methods/mixture/gaussian_mixture.hpp` lines 376-388) and `m_step`
(lines 424-436): means, weights and covariances are assigned before the decomposition, which may throw. -/
noncomputable def assign {n K d : Nat} (cfg : Config) (chol : Matrix (Fin d) (Fin d) ℝ → Option (Matrix (Fin d) (Fin d) ℝ))
    (X : Matrix (Fin n) (Fin d) ℝ) (resp : Matrix (Fin n) (Fin K) ℝ) : Call (Members K d) Unit :=
  (Call.modify fun m => { m with means := some (meansOf cfg.eps X resp), weights := some fun k => nk cfg.eps resp k / (n : ℝ),
                                 covariances := covariancesOf cfg X resp }).andThen fun _ =>
  (Call.const fun m => precisionCholesky chol m.covariances).andThen fun chols =>
  Call.modify fun m => { m with precisionsChol := chols }

/-- `initialize_parameters` (`src/methods/mixture/gaussian_mixture.hpp` lines 365-390). -/
noncomputable def initialise {n K d : Nat} (cfg : Config) (chol : Matrix (Fin d) (Fin d) ℝ → Option (Matrix (Fin d) (Fin d) ℝ))
    (X : Matrix (Fin n) (Fin d) ℝ) (draw : Matrix (Fin n) (Fin K) ℝ) : Call (Members K d) Unit :=
  if cfg.initParams = "random" then assign cfg chol X (Matrix.of fun i k => draw i k / ∑ l, draw i l) else fun _ => .ub

/-- `e_step` (`src/methods/mixture/gaussian_mixture.hpp` lines 400-411). -/
noncomputable def expect {n K d : Nat} (cfg : Config) (X : Matrix (Fin n) (Fin d) ℝ) : Call (Members K d) (ℝ × Matrix (Fin n) (Fin K) ℝ) :=
  Call.const fun m => match held m with
    | some p => eStep cfg p X
    | none => .ub

/-- The inner loop of `fit_data` (`src/methods/mixture/gaussian_mixture.hpp` lines 468-483). -/
noncomputable def innerLoop {n K d : Nat} (cfg : Config) (chol : Matrix (Fin d) (Fin d) ℝ → Option (Matrix (Fin d) (Fin d) ℝ))
    (X : Matrix (Fin n) (Fin d) ℝ) : Nat → Option ℝ → Call (Members K d) (Option ℝ × Bool)
  | 0, lower => Call.ret (lower, false)
  | rest + 1, lower =>
    (expect cfg X).andThen fun e =>
    (assign cfg chol X (Matrix.of fun i k => Real.exp (e.2 i k))).andThen fun _ =>
    match lower with
    | some prev => if |e.1 - prev| < cfg.tol then Call.ret (some e.1, true) else innerLoop cfg chol X rest (some e.1)
    | none => innerLoop cfg chol X rest (some e.1)

/-- The outer loop of `fit_data` (`src/methods/mixture/gaussian_mixture.hpp` lines 463-496): copies of the best members, best bound, and
whether an inner loop ended early. The members themselves are those of the latest initialisation. -/
noncomputable def outerLoop {n K d : Nat} (cfg : Config) (chol : Matrix (Fin d) (Fin d) ℝ → Option (Matrix (Fin d) (Fin d) ℝ))
    (X : Matrix (Fin n) (Fin d) ℝ) (draws : Nat → Matrix (Fin n) (Fin K) ℝ) :
    Nat → Nat → Option (Params K d) → Option ℝ → Bool → Call (Members K d) (Option (Params K d) × Option ℝ × Bool)
  | 0, _, best, max, conv => Call.ret (best, max, conv)
  | rest + 1, i, best, max, conv =>
    (initialise cfg chol X (draws i)).andThen fun _ =>
    (innerLoop cfg chol X cfg.maxIter none).andThen fun r =>
    (Call.const fun m => .ok (held m)).andThen fun now =>
    if better r.1 max then outerLoop cfg chol X draws rest (i + 1) now r.1 (conv || r.2)
    else outerLoop cfg chol X draws rest (i + 1) best max (conv || r.2)

/-- `fit` (`src/methods/mixture/gaussian_mixture.hpp` lines 443-517, 547-549). -/
noncomputable def fit {n K d : Nat} (cfg : Config) (chol : Matrix (Fin d) (Fin d) ℝ → Option (Matrix (Fin d) (Fin d) ℝ))
    (X : Matrix (Fin n) (Fin d) ℝ) (draws : Nat → Matrix (Fin n) (Fin K) ℝ) : Call (Members K d) Unit :=
  if n < K then Call.raise .outOfRange
  else (outerLoop cfg chol X draws cfg.numInit 0 none none false).andThen fun r =>
    if r.2.2 then
      match r.1 with
      | some p =>
        (Call.modify fun m => put p { m with lowerBound := some r.2.1 }).andThen fun _ =>
        (Call.modify fun m => { m with precisions := m.precisions ++ m.precisionsChol.map fun P => P * Pᵀ }).andThen fun _ =>
        (expect (K := K) cfg X).andThen fun _ => Call.ret ()
      | none => fun _ => .ub
    else Call.raise .runtimeError

/-- The questions an object answers (`src/methods/mixture/gaussian_mixture.hpp` lines 556-627). -/
inductive Query (d : Nat) where
  | predict (n : Nat) (Z : Matrix (Fin n) (Fin d) ℝ)
  | prob (n : Nat) (Z : Matrix (Fin n) (Fin d) ℝ)
  | covariance
  | precisions
  | precisionsCholesky
  | means
  | weights
  | lowerBound

/-- The answers (`src/methods/mixture/gaussian_mixture.hpp` lines 556-627); `none` is a matrix or vector without entries. -/
inductive Answer (K d : Nat) where
  | labels (l : List Nat)
  | probs (n : Nat) (P : Matrix (Fin n) (Fin K) ℝ)
  | matrices (l : List (Matrix (Fin d) (Fin d) ℝ))
  | means (m : Option (Matrix (Fin K) (Fin d) ℝ))
  | weights (w : Option (Fin K → ℝ))
  | bound (b : Option ℝ)

/-- The `const` members (`src/methods/mixture/gaussian_mixture.hpp` lines 556-627). A lower bound that has not been assigned is an
indeterminate value. -/
noncomputable def ask {K d : Nat} (cfg : Config) (m : Members K d) : Query d → Res (Answer K d)
  | .predict n Z => do
    let l ← State.predict cfg (n := n) ⟨held m, [], none⟩ Z
    .ok (.labels l)
  | .prob n Z => do
    let P ← State.predictProb cfg (n := n) ⟨held m, [], none⟩ Z
    .ok (.probs n P)
  | .covariance => .ok (.matrices m.covariances)
  | .precisions => .ok (.matrices m.precisions)
  | .precisionsCholesky => .ok (.matrices m.precisionsChol)
  | .means => .ok (.means m.means)
  | .weights => .ok (.weights m.weights)
  | .lowerBound =>
    match m.lowerBound with
    | some b => .ok (.bound b)
    | none => .ub

/-- A statement of a program with one object (`src/methods/mixture/gaussian_mixture.hpp` lines 547-627). -/
inductive Op (K d : Nat) where
  | fit (n : Nat) (X : Matrix (Fin n) (Fin d) ℝ) (draws : Nat → Matrix (Fin n) (Fin K) ℝ)
  | ask (q : Query d)

/-- What the program sees of a statement (`src/methods/mixture/gaussian_mixture.hpp` lines 547-627). -/
inductive Seen (K d : Nat) where
  | done
  | answer (a : Answer K d)
  | caught (e : Exn)

/-- One statement, with exceptions caught (`src/methods/mixture/gaussian_mixture.hpp` lines 547-627). -/
noncomputable def step {K d : Nat} (cfg : Config) (chol : Matrix (Fin d) (Fin d) ℝ → Option (Matrix (Fin d) (Fin d) ℝ))
    (m : Members K d) : Op K d → Res (Members K d × Seen K d)
  | .fit _ X draws =>
    match fit cfg chol X draws m with
    | .ok (.ok _, m') => .ok (m', .done)
    | .ok (.error e, m') => .ok (m', .caught e)
    | .throw e => .throw e
    | .ub => .ub
    | .diverge => .diverge
  | .ask q =>
    match ask cfg m q with
    | .ok a => .ok (m, .answer a)
    | .throw e => .ok (m, .caught e)
    | .ub => .ub
    | .diverge => .diverge

/-- A program (calls of the members in `src/methods/mixture/gaussian_mixture.hpp` lines 547-627). -/
noncomputable def run {K d : Nat} (cfg : Config) (chol : Matrix (Fin d) (Fin d) ℝ → Option (Matrix (Fin d) (Fin d) ℝ)) :
    Members K d → List (Op K d) → Res (Members K d × List (Seen K d))
  | m, [] => .ok (m, [])
  | m, op :: ops => do
    let r ← step cfg chol m op
    let rest ← run cfg chol r.1 ops
    .ok (rest.1, r.2 :: rest.2)

end OpenML.GMMObject
