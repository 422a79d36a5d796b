import Verif.Model.Random

/-!
# Model of the random number engines and their seeds in `src/core/math/random.hpp` and `src/core/math/shuffle.hpp`

`std::default_random_engine` is `std::minstd_rand0`, as in libstdc++; its recursion is fixed by the C++ standard. The engine
`std::mt19937` stays a parameter: any function from the seed word to the sequence of outputs. How `std::shuffle` turns outputs of
the engine into positions is a parameter `pick` as well.
-/

namespace OpenML.Random

/-- The state of `std::default_random_engine(seed)` (`src/core/math/shuffle.hpp` lines 35, 60): the remainder modulo `2^31 - 1`,
or 1 if that is 0. -/
def minstdSeed (seed : Nat) : Nat := if seed % 2147483647 = 0 then 1 else seed % 2147483647

/-- One step of `std::default_random_engine` (`src/core/math/shuffle.hpp` lines 33-36, 58-61, inside `std::shuffle`). The new
state is the output. -/
def minstdNext (x : Nat) : Nat := 16807 * x % 2147483647

/-- The outputs of `std::default_random_engine` from state `x`: output `k` comes from call `k + 1`
(`src/core/math/shuffle.hpp` lines 33-36, 58-61). -/
def minstdOutputs (x : Nat) (k : Nat) : Nat := minstdNext^[k + 1] x

/-- `unsigned seed = std::chrono::system_clock::now().time_since_epoch().count()` (`src/core/math/shuffle.hpp` lines 32, 57): the
count of clock ticks is reduced modulo `2^32`. -/
def clockSeed (ticks : Int) : Nat := (ticks % 4294967296).toNat

/-- The permutation drawn by `shuffle_data` at a reading of the clock (`src/core/math/shuffle.hpp` lines 28-36, 55-61). -/
def clockPermutation (pick : (Nat → Nat) → Nat → Nat) (ticks : Int) (size : Nat) : List Nat :=
  permutation (pick (minstdOutputs (minstdSeed (clockSeed ticks)))) size

/-- `random::permutation(size)` when `std::random_device` yields `word` (`src/core/math/random.hpp` lines 58-76); `twister` is
`std::mt19937` seeded by a `std::seed_seq` of one word. A word of `std::random_device` has 32 bits. -/
def devicePermutation (twister : Fin 4294967296 → Nat → Nat) (pick : (Nat → Nat) → Nat → Nat) (word : Fin 4294967296)
    (size : Nat) : List Nat :=
  permutation (pick (twister word)) size

end OpenML.Random
