import Verif.Model.Data

/-!
# Model of `random::permutation` in `src/core/math/random.hpp` and of the shuffling in `src/core/math/shuffle.hpp`

The C++ standard does not fix the algorithm of `std::shuffle`; this is the one of libstdc++, where the numbers drawn from the
generator are a parameter.
-/

namespace OpenML.Random

/-- `std::iter_swap` of entries `i` and `j` (`src/core/math/random.hpp` lines 69-71, `src/core/math/shuffle.hpp` lines 33-36,
58-61, inside `std::shuffle`). -/
def swapAt {β : Type} (l : List β) (i j : Nat) : List β :=
  match l[i]?, l[j]? with
  | some a, some b => (l.set i b).set j a
  | _, _ => l

/-- `std::shuffle` from entry `i` with `n` entries left: entry `i` is exchanged with entry `draw i` out of `0, …, i`
(`src/core/math/random.hpp` lines 69-71, `src/core/math/shuffle.hpp` lines 33-36, 58-61). -/
def shuffleFrom {β : Type} (draw : Nat → Nat) : Nat → Nat → List β → List β
  | 0, _, l => l
  | n + 1, i, l => shuffleFrom draw n (i + 1) (swapAt l i (draw i))

/-- `std::shuffle` on a whole range (`src/core/math/random.hpp` lines 69-71, `src/core/math/shuffle.hpp` lines 33-36, 58-61). -/
def shuffle {β : Type} (draw : Nat → Nat) (l : List β) : List β := shuffleFrom draw (l.length - 1) 1 l

/-- `random::permutation(size)` (`src/core/math/random.hpp` lines 58-76), and `index_permut.indices()` in `shuffle_data`
(`src/core/math/shuffle.hpp` lines 28-36, 55-61). -/
def permutation (draw : Nat → Nat) (size : Nat) : List Nat := shuffle draw (List.range size)

end OpenML.Random
