import Verif.Model.KMeans

/-!
# Model of `rand`, `randn` and `randint` in `src/core/math/random.hpp`, and of the random numbers of k-means++

The numbers drawn from the generator are a parameter: `u k` is the `k`-th number in `[0, 1)` (`std::uniform_real_distribution` maps it to
its interval), `z k` the `k`-th standard normal number, `d k` the `k`-th natural number (`std::uniform_int_distribution` reduces it to the
size of its range). Real numbers instead of floating point.
-/

namespace OpenML.RandomMat

/-- `MatType::NullaryExpr(nrows, ncols, f)` (`src/core/math/random.hpp` lines 22-26, 45-49, 96-100): Eigen evaluates the entries of a
matrix column by column, so that the entry of row `i` and column `j` is the result of call number `j * nrows + i`. -/
def fill {α : Type} (nrows ncols : Nat) (f : Nat → α) : DMat α :=
  ⟨ncols, (List.range nrows).map fun i => (List.range ncols).map fun j => f (j * nrows + i)⟩

/-- `random::rand` (`src/core/math/random.hpp` lines 13-28); `std::uniform_real_distribution` requires `low ≤ high`. -/
noncomputable def rand (u : Nat → ℝ) (nrows ncols : Nat) (low high : ℝ) : Res (DMat ℝ) :=
  if low ≤ high then .ok (fill nrows ncols fun k => u k * (high - low) + low) else .ub

/-- `random::randn` (`src/core/math/random.hpp` lines 36-51): `low` is the mean and `high` the standard deviation of
`std::normal_distribution`, which must be positive. -/
noncomputable def randn (z : Nat → ℝ) (nrows ncols : Nat) (low high : ℝ) : Res (DMat ℝ) :=
  if 0 < high then .ok (fill nrows ncols fun k => z k * high + low) else .ub

/-- `random::randint` (`src/core/math/random.hpp` lines 84-102): `std::uniform_int_distribution` requires `low ≤ high` and includes both
ends. -/
def randint (d : Nat → Nat) (nrows ncols : Nat) (low high : Int) : Res (DMat Int) :=
  if low ≤ high then .ok (fill nrows ncols fun k => low + (d k % (high - low + 1).toNat : Nat)) else .ub

/-- `num_samples - 1` of type `std::size_t` with 64 bits (`src/methods/cluster/kmeans.hpp` line 40). -/
def pred64 (n : Nat) : Nat := if n = 0 then 2 ^ 64 - 1 else n - 1

/-- The vector of random numbers for one centroid (`src/methods/cluster/kmeans.hpp` line 55): the only column of a random matrix. -/
noncomputable def trialVector (u : Nat → ℝ) (k : Nat) : Res (List ℝ) := do
  let M ← rand u (KMeans.numTrials k) 1 0 1
  .ok (M.col 0)

/-- `kmeans_plusplus` with its random numbers (`src/methods/cluster/kmeans.hpp` lines 32-104): `d` for the first index, `u c` for the
centroid with index `c + 1`. -/
noncomputable def plusPlus (d : Nat → Nat) (u : Nat → Nat → ℝ) (k : Nat) (X : DMat ℝ) : Res (List (List ℝ)) := do
  let I ← randint d 1 1 0 (pred64 X.nrows)
  let first ← readAt I.rows.flatten 0
  let draws ← mapRes (fun c => trialVector (u c) k) (List.range (k - 1))
  let r ← KMeans.plusPlus first.toNat draws X
  .ok r.1

end OpenML.RandomMat
