import Verif.Model.PCA
import Verif.Model.Analytic

/-!
# Model of `GaussianMixture` (`src/methods/mixture/gaussian_mixture.hpp`)

Matrices are Mathlib matrices over the reals: `n` samples, `d` features, `K` components. The result of `Eigen::LLT` is a parameter (`none`
stands for a decomposition that is not successful), as are the random numbers and the machine epsilon. The model is for at least one
sample, feature and component; a row of random numbers that are all zero, which the code divides by zero, is not modelled. An exception
ends the history of the object. Minus infinity is `none` in the type `Option ℝ` of bounds.
-/

namespace OpenML.GMM

open Matrix

/-- Constructor arguments (`src/methods/mixture/gaussian_mixture.hpp` lines 528-541) and the machine epsilon (line 229). -/
structure Config where
  maxIter : Nat
  numInit : Nat
  initParams : String
  covarianceType : String
  tol : ℝ
  reg : ℝ
  eps : ℝ

/-- Members changed by the two steps of the algorithm (`src/methods/mixture/gaussian_mixture.hpp` lines 46-50). -/
structure Params (K d : Nat) where
  covariances : List (Matrix (Fin d) (Fin d) ℝ)
  precisionsChol : List (Matrix (Fin d) (Fin d) ℝ)
  means : Matrix (Fin K) (Fin d) ℝ
  weights : Fin K → ℝ

/-- `nk` (`src/methods/mixture/gaussian_mixture.hpp` lines 228-233). -/
noncomputable def nk {n K : Nat} (eps : ℝ) (resp : Matrix (Fin n) (Fin K) ℝ) (k : Fin K) : ℝ := (∑ i, resp i k) + 10 * eps

/-- `means` (`src/methods/mixture/gaussian_mixture.hpp` lines 235-239). -/
noncomputable def meansOf {n K d : Nat} (eps : ℝ) (X : Matrix (Fin n) (Fin d) ℝ) (resp : Matrix (Fin n) (Fin K) ℝ) :
    Matrix (Fin K) (Fin d) ℝ := Matrix.of fun k j => (respᵀ * X) k j / nk eps resp k

/-- One covariance of `estimate_gaussian_covariances_full` (`src/methods/mixture/gaussian_mixture.hpp` lines 140-158). -/
noncomputable def covFull {n K d : Nat} (reg : ℝ) (X : Matrix (Fin n) (Fin d) ℝ) (resp : Matrix (Fin n) (Fin K) ℝ)
    (means : Matrix (Fin K) (Fin d) ℝ) (nk : Fin K → ℝ) (k : Fin K) : Matrix (Fin d) (Fin d) ℝ :=
  let diff : Matrix (Fin n) (Fin d) ℝ := Matrix.of fun i j => X i j - means k j
  let respDiff := (Matrix.of fun i j => resp i k * diff i j)ᵀ * diff
  (Matrix.of fun a b => respDiff a b / nk k) + diagonal fun _ => reg

/-- The covariance of `estimate_gaussian_covariances_tied` (`src/methods/mixture/gaussian_mixture.hpp` lines 188-205). -/
noncomputable def covTied {n K d : Nat} (reg : ℝ) (X : Matrix (Fin n) (Fin d) ℝ) (means : Matrix (Fin K) (Fin d) ℝ)
    (nk : Fin K → ℝ) : Matrix (Fin d) (Fin d) ℝ :=
  let avgMeans := (Matrix.of fun k j => nk k * means k j)ᵀ * means
  (Matrix.of fun a b => (Xᵀ * X - avgMeans) a b / ∑ k, nk k) + diagonal fun _ => reg

/-- The covariances of `estimate_gaussian_parameters` (`src/methods/mixture/gaussian_mixture.hpp` lines 242-249). -/
noncomputable def covariancesOf {n K d : Nat} (cfg : Config) (X : Matrix (Fin n) (Fin d) ℝ) (resp : Matrix (Fin n) (Fin K) ℝ) :
    List (Matrix (Fin d) (Fin d) ℝ) :=
  if cfg.covarianceType = "full" then
    List.ofFn fun k => covFull cfg.reg X resp (meansOf cfg.eps X resp) (nk cfg.eps resp) k
  else if cfg.covarianceType = "tied" then [covTied cfg.reg X (meansOf cfg.eps X resp) (nk cfg.eps resp)]
  else []

/-- `compute_precision_cholesky` (`src/methods/mixture/gaussian_mixture.hpp` lines 62-82) with `cholesky`
(`src/core/math/linalg.hpp` lines 315-332): line 65 reads the first of the covariances. Solving with a triangular matrix with positive
diagonal is multiplying with the inverse. -/
noncomputable def precisionCholesky {d : Nat} (chol : Matrix (Fin d) (Fin d) ℝ → Option (Matrix (Fin d) (Fin d) ℝ))
    (covs : List (Matrix (Fin d) (Fin d) ℝ)) : Res (List (Matrix (Fin d) (Fin d) ℝ)) := do
  let _ ← readAt covs 0
  mapRes (fun c => match chol c with
    | none => .throw .runtimeError
    | some L => .ok (Lᵀ)⁻¹) covs

/-- The common part of `initialize_parameters` (`src/methods/mixture/gaussian_mixture.hpp` lines 376-388) and `m_step`
(lines 424-436). -/
noncomputable def setParams {n K d : Nat} (cfg : Config) (chol : Matrix (Fin d) (Fin d) ℝ → Option (Matrix (Fin d) (Fin d) ℝ))
    (X : Matrix (Fin n) (Fin d) ℝ) (resp : Matrix (Fin n) (Fin K) ℝ) : Res (Params K d) := do
  let covs := covariancesOf cfg X resp
  let chols ← precisionCholesky chol covs
  .ok { covariances := covs
        precisionsChol := chols
        means := meansOf cfg.eps X resp
        weights := fun k => nk cfg.eps resp k / (n : ℝ) }

/-- One entry of `compute_log_det_cholesky` (`src/methods/mixture/gaussian_mixture.hpp` lines 101-103). -/
noncomputable def logDetChol {d : Nat} (P : Matrix (Fin d) (Fin d) ℝ) : ℝ := ∑ i, Real.log (P i i)

/-- The matrix used for component `k` (`src/methods/mixture/gaussian_mixture.hpp` lines 274-280); for another type of covariance the
matrix stays empty and the product of line 284 violates an assertion. -/
def cholFor {d : Nat} (cfg : Config) (chols : List (Matrix (Fin d) (Fin d) ℝ)) (k : Nat) : Res (Matrix (Fin d) (Fin d) ℝ) :=
  if cfg.covarianceType = "tied" then readAt chols 0
  else if cfg.covarianceType = "full" then readAt chols k
  else .ub

/-- `estimate_log_prob` (`src/methods/mixture/gaussian_mixture.hpp` lines 261-308): line 307 adds a matrix with one column for each of
the Cholesky factors. -/
noncomputable def logProb {n K d : Nat} (cfg : Config) (p : Params K d) (X : Matrix (Fin n) (Fin d) ℝ) :
    Res (Matrix (Fin n) (Fin K) ℝ) := do
  let ps ← mapRes (fun k => cholFor cfg p.precisionsChol k) (List.range K)
  if p.precisionsChol.length = K then
    .ok (Matrix.of fun i k =>
      let P := ps.getD k.val 0
      (∑ j, ((X * P) i j - (p.means k ᵥ* P) j) ^ 2) * (-(1 / 2)) + (d : ℝ) * Real.log (2 * Real.pi) * (-(1 / 2)) +
        logDetChol (p.precisionsChol.getD k.val 0))
  else .ub

/-- `estimate_weighted_log_prob` (`src/methods/mixture/gaussian_mixture.hpp` lines 315-333). -/
noncomputable def weightedLogProb {n K d : Nat} (cfg : Config) (p : Params K d) (X : Matrix (Fin n) (Fin d) ℝ) :
    Res (Matrix (Fin n) (Fin K) ℝ) := do
  let lp ← logProb cfg p X
  .ok (Matrix.of fun i k => lp i k + Real.log (p.weights k))

/-- `estimate_log_prob_resp` (`src/methods/mixture/gaussian_mixture.hpp` lines 341-360). -/
noncomputable def logProbResp {n K d : Nat} (cfg : Config) (p : Params K d) (X : Matrix (Fin n) (Fin d) ℝ) :
    Res (Matrix (Fin n) (Fin K) ℝ × (Fin n → ℝ)) := do
  let w ← weightedLogProb cfg p X
  let l ← Analytic.logsumexp (PCA.toDMat w) 1
  .ok (Matrix.of fun i k => w i k - l.getD i.val 0, fun i => l.getD i.val 0)

/-- `e_step` (`src/methods/mixture/gaussian_mixture.hpp` lines 400-411). -/
noncomputable def eStep {n K d : Nat} (cfg : Config) (p : Params K d) (X : Matrix (Fin n) (Fin d) ℝ) :
    Res (ℝ × Matrix (Fin n) (Fin K) ℝ) := do
  let r ← logProbResp cfg p X
  .ok ((∑ i, r.2 i) / (n : ℝ), r.1)

/-- `m_step` (`src/methods/mixture/gaussian_mixture.hpp` lines 420-438). -/
noncomputable def mStep {n K d : Nat} (cfg : Config) (chol : Matrix (Fin d) (Fin d) ℝ → Option (Matrix (Fin d) (Fin d) ℝ))
    (X : Matrix (Fin n) (Fin d) ℝ) (logResp : Matrix (Fin n) (Fin K) ℝ) : Res (Params K d) :=
  setParams cfg chol X (Matrix.of fun i k => Real.exp (logResp i k))

/-- `initialize_parameters` (`src/methods/mixture/gaussian_mixture.hpp` lines 365-390) with the random numbers `draw`; with another
name than "random" the code goes on with uninitialised memory. -/
noncomputable def initParams {n K d : Nat} (cfg : Config) (chol : Matrix (Fin d) (Fin d) ℝ → Option (Matrix (Fin d) (Fin d) ℝ))
    (X : Matrix (Fin n) (Fin d) ℝ) (draw : Matrix (Fin n) (Fin K) ℝ) : Res (Params K d) :=
  if cfg.initParams = "random" then setParams cfg chol X (Matrix.of fun i k => draw i k / ∑ l, draw i l) else .ub

/-- The inner loop of `fit_data` (`src/methods/mixture/gaussian_mixture.hpp` lines 468-483) with `rest` iterations left: members,
lower bound, and whether the difference fell below the tolerance. The difference to minus infinity is not below. -/
noncomputable def emLoop {n K d : Nat} (cfg : Config) (chol : Matrix (Fin d) (Fin d) ℝ → Option (Matrix (Fin d) (Fin d) ℝ))
    (X : Matrix (Fin n) (Fin d) ℝ) : Nat → Params K d → Option ℝ → Res (Params K d × Option ℝ × Bool)
  | 0, p, lower => .ok (p, lower, false)
  | rest + 1, p, lower => do
    let e ← eStep cfg p X
    let p' ← mStep cfg chol X e.2
    match lower with
    | some prev => if |e.1 - prev| < cfg.tol then .ok (p', some e.1, true) else emLoop cfg chol X rest p' (some e.1)
    | none => emLoop cfg chol X rest p' (some e.1)

/-- The comparison of lines 486-487 of `src/methods/mixture/gaussian_mixture.hpp`. -/
noncomputable def better (lower max : Option ℝ) : Bool :=
  match max, lower with
  | none, _ => true
  | some _, none => false
  | some m, some l => decide (l > m)

/-- The outer loop of `fit_data` (`src/methods/mixture/gaussian_mixture.hpp` lines 463-496) for the initialisations `i`, `i + 1`, ...:
best members, best bound, and whether an inner loop ended early. -/
noncomputable def initLoop {n K d : Nat} (cfg : Config) (chol : Matrix (Fin d) (Fin d) ℝ → Option (Matrix (Fin d) (Fin d) ℝ))
    (X : Matrix (Fin n) (Fin d) ℝ) (draws : Nat → Matrix (Fin n) (Fin K) ℝ) :
    Nat → Nat → Option (Params K d) → Option ℝ → Bool → Res (Option (Params K d) × Option ℝ × Bool)
  | 0, _, best, max, conv => .ok (best, max, conv)
  | rest + 1, i, best, max, conv => do
    let p ← initParams cfg chol X (draws i)
    let r ← emLoop cfg chol X cfg.maxIter p none
    let conv := conv || r.2.2
    if better r.2.1 max then initLoop cfg chol X draws rest (i + 1) (some r.1) r.2.1 conv
    else initLoop cfg chol X draws rest (i + 1) best max conv

/-- An object (`src/methods/mixture/gaussian_mixture.hpp` lines 46-51): `none` before the first call of `fit`. -/
structure State (K d : Nat) where
  params : Option (Params K d)
  precisions : List (Matrix (Fin d) (Fin d) ℝ)
  lowerBound : Option ℝ

/-- A new object (`src/methods/mixture/gaussian_mixture.hpp` lines 520-541). -/
def State.new (K d : Nat) : State K d := ⟨none, [], none⟩

/-- `fit` (`src/methods/mixture/gaussian_mixture.hpp` lines 443-517, 547-549); `draws i` is used by initialisation `i`. Lines 507-512
append to the vector of precisions, which is never emptied. The members are those of some initialisation if a loop ended early, so the
last case is not reached. -/
noncomputable def State.fit {n K d : Nat} (cfg : Config) (chol : Matrix (Fin d) (Fin d) ℝ → Option (Matrix (Fin d) (Fin d) ℝ))
    (st : State K d) (X : Matrix (Fin n) (Fin d) ℝ) (draws : Nat → Matrix (Fin n) (Fin K) ℝ) : Res (State K d) :=
  if n < K then .throw .outOfRange
  else do
    let r ← initLoop cfg chol X draws cfg.numInit 0 none none false
    if r.2.2 then
      match r.1 with
      | some p => do
        let _ ← eStep cfg p X
        .ok { params := some p
              precisions := st.precisions ++ p.precisionsChol.map fun P => P * Pᵀ
              lowerBound := r.2.1 }
      | none => .ub
    else .throw .runtimeError

/-- `predict` (`src/methods/mixture/gaussian_mixture.hpp` lines 556-566). Before `fit` the rows have no entries and the maximum violates an
assertion. -/
noncomputable def State.predict {n K d : Nat} (cfg : Config) (st : State K d) (X : Matrix (Fin n) (Fin d) ℝ) : Res (List Nat) :=
  match st.params with
  | none => .ub
  | some p => do
    let w ← weightedLogProb cfg p X
    MatOps.argmax (PCA.toDMat w) 1

/-- `predict_prob` (`src/methods/mixture/gaussian_mixture.hpp` lines 571-578). -/
noncomputable def State.predictProb {n K d : Nat} (cfg : Config) (st : State K d) (X : Matrix (Fin n) (Fin d) ℝ) :
    Res (Matrix (Fin n) (Fin K) ℝ) :=
  match st.params with
  | none => .ub
  | some p => do
    let r ← logProbResp cfg p X
    .ok (Matrix.of fun i k => Real.exp (r.1 i k))

end OpenML.GMM
