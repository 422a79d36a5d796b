import Verif.Model.Seeds
import Verif.Props.Random
import Mathlib.Data.Finset.Powerset
import Mathlib.Data.Nat.Choose.Basic
import Mathlib.Data.Nat.ModEq
import Mathlib.Data.List.Permutation
import Mathlib.Data.Finset.Card
import Mathlib.Tactic.NormNum.GCD
import Mathlib.Tactic.IntervalCases

/-!
# What a seed of 32 bits can reach (C144)
-/

namespace OpenML

open Spec Data

namespace Random

theorem minstdSeed_range (seed : Nat) : 1 ≤ minstdSeed seed ∧ minstdSeed seed < 2147483647 := by
  unfold minstdSeed
  have := Nat.mod_lt seed (by norm_num : 2147483647 > 0)
  split <;> omega

theorem minstdNext_range (x : Nat) (h1 : 1 ≤ x) (h2 : x < 2147483647) : 1 ≤ minstdNext x ∧ minstdNext x < 2147483647 := by
  unfold minstdNext
  refine ⟨Nat.pos_of_ne_zero fun h => ?_, Nat.mod_lt _ (by norm_num)⟩
  have h3 : 2147483647 ∣ 16807 * x := Nat.dvd_of_mod_eq_zero h
  have h4 : 2147483647 ∣ x := (Nat.Coprime.dvd_mul_left (by norm_num)).mp h3
  exact absurd (Nat.le_of_dvd h1 h4) (by omega)

theorem iterate_range (k x : Nat) (h1 : 1 ≤ x) (h2 : x < 2147483647) :
    1 ≤ minstdNext^[k] x ∧ minstdNext^[k] x < 2147483647 := by
  induction k generalizing x with
  | zero => exact ⟨h1, h2⟩
  | succ k ih =>
    rw [Function.iterate_succ_apply]
    exact ih _ (minstdNext_range x h1 h2).1 (minstdNext_range x h1 h2).2

theorem iterate_eq (k x : Nat) : minstdNext^[k + 1] x = 16807 ^ (k + 1) * x % 2147483647 := by
  induction k with
  | zero => simp [minstdNext]
  | succ k ih =>
    rw [Function.iterate_succ_apply', ih, minstdNext, Nat.mul_mod_mod, ← mul_assoc, ← pow_succ']

/-- The orders of a list of numbers, as a set. -/
def orders (n : Nat) : Finset (List Nat) := (List.range n).permutations.toFinset

theorem mem_orders (n : Nat) (L : List Nat) : L ∈ orders n ↔ L.Perm (List.range n) := by
  rw [orders, List.mem_toFinset, List.mem_permutations]

theorem card_orders (n : Nat) : (orders n).card = n.factorial := by
  rw [orders, List.toFinset_card_of_nodup (List.nodup_permutations _ List.nodup_range), List.length_permutations, List.length_range]

/-- An order missed by fewer choices than there are orders. -/
theorem missed {ι : Type} (s : Finset ι) (f : ι → List Nat) (n : Nat) (h : s.card < n.factorial) :
    ∃ L : List Nat, L.Perm (List.range n) ∧ ∀ i ∈ s, f i ≠ L := by
  classical
  have h1 : (s.image f).card < (orders n).card := lt_of_le_of_lt Finset.card_image_le (by rw [card_orders]; exact h)
  obtain ⟨L, hL, hn⟩ := Finset.exists_mem_notMem_of_card_lt_card h1
  exact ⟨L, (mem_orders n L).mp hL, fun i hi e => hn (Finset.mem_image.mpr ⟨i, hi, e⟩)⟩

theorem thirteen (n : Nat) (h : 13 ≤ n) : 4294967296 < n.factorial :=
  lt_of_lt_of_le (by norm_num [Nat.factorial]) (Nat.factorial_le h)

end Random

open Random

/-- C144: the engine behind `shuffle_data` has `2^31 - 2` states and never leaves them; output `k` is the seed times a constant, so
neighbouring seeds have outputs that differ by that constant, whatever the seed. -/
theorem C144_engine (seed k : Nat) :
    (1 ≤ minstdOutputs (minstdSeed seed) k ∧ minstdOutputs (minstdSeed seed) k ≤ 2147483646) ∧
    (0 < seed % 2147483647 → minstdOutputs (minstdSeed seed) k = 16807 ^ (k + 1) * seed % 2147483647) ∧
    (0 < seed % 2147483647 → 0 < (seed + 1) % 2147483647 →
      minstdOutputs (minstdSeed (seed + 1)) k = (minstdOutputs (minstdSeed seed) k + 16807 ^ (k + 1)) % 2147483647) := by
  have hval : ∀ s : Nat, 0 < s % 2147483647 → minstdOutputs (minstdSeed s) k = 16807 ^ (k + 1) * s % 2147483647 := by
    intro s hs
    rw [minstdOutputs, iterate_eq, minstdSeed, if_neg (by omega), Nat.mul_mod_mod]
  refine ⟨?_, hval seed, fun h1 h2 => ?_⟩
  · have h := iterate_range (k + 1) _ (minstdSeed_range seed).1 (minstdSeed_range seed).2
    exact ⟨h.1, by rw [minstdOutputs]; omega⟩
  · rw [hval _ h2, hval _ h1, Nat.mod_add_mod, Nat.mul_succ]

/-- C144: `shuffle_data` draws the same permutation at two readings of the clock that agree modulo `2^32`, that is about 4.3 seconds
apart if the clock counts nanoseconds, and also if the reduced readings are `2^31 - 1` apart. -/
theorem C144_clock (pick : (Nat → Nat) → Nat → Nat) (ticks : Int) (size : Nat) :
    clockPermutation pick (ticks + 4294967296) size = clockPermutation pick ticks size ∧
    (clockSeed ticks + 2147483647 < 4294967296 →
      clockPermutation pick (ticks + 2147483647) size = clockPermutation pick ticks size) := by
  refine ⟨by simp [clockPermutation, clockSeed], fun h => ?_⟩
  have e : clockSeed (ticks + 2147483647) = clockSeed ticks + 2147483647 := by
    unfold clockSeed at h ⊢
    omega
  have e2 : minstdSeed (clockSeed ticks + 2147483647) = minstdSeed (clockSeed ticks) := by simp [minstdSeed]
  simp only [clockPermutation, e, e2]

/-- C144: with 13 or more samples there is an order that `shuffle_data` never produces, at no time. -/
theorem C144_shuffle_unreachable (pick : (Nat → Nat) → Nat → Nat) (n : Nat) (hn : 13 ≤ n) :
    ∃ L : List Nat, L.Perm (List.range n) ∧ ∀ ticks : Int, clockPermutation pick ticks n ≠ L := by
  obtain ⟨L, hL, h⟩ := missed (Finset.Icc 1 2147483646) (fun x => permutation (pick (minstdOutputs x)) n) n
    (by rw [Nat.card_Icc]; exact lt_trans (by norm_num) (thirteen n hn))
  refine ⟨L, hL, fun ticks => h _ ?_⟩
  have := minstdSeed_range (clockSeed ticks)
  exact Finset.mem_Icc.mpr ⟨this.1, by omega⟩

/-- C144: the orders that `shuffle_data` can produce are at most `2^31 - 2`, whatever the number of samples. -/
theorem C144_shuffle_count (pick : (Nat → Nat) → Nat → Nat) (n : Nat) :
    ∃ R : Finset (List Nat), R.card ≤ 2147483646 ∧ ∀ L, L ∈ R ↔ ∃ ticks : Int, clockPermutation pick ticks n = L := by
  classical
  refine ⟨(Finset.Icc 1 2147483646).image fun x => permutation (pick (minstdOutputs x)) n, ?_, fun L => ?_⟩
  · exact le_trans Finset.card_image_le (by rw [Nat.card_Icc])
  · rw [Finset.mem_image]
    constructor
    · rintro ⟨x, hx, rfl⟩
      have hx := Finset.mem_Icc.mp hx
      refine ⟨x, ?_⟩
      have e : clockSeed x = x := by unfold clockSeed; omega
      have e2 : minstdSeed x = x := by
        unfold minstdSeed
        rw [Nat.mod_eq_of_lt (by omega), if_neg (by omega)]
      rw [clockPermutation, e, e2]
    · rintro ⟨ticks, rfl⟩
      have := minstdSeed_range (clockSeed ticks)
      exact ⟨_, Finset.mem_Icc.mpr ⟨this.1, by omega⟩, rfl⟩

/-- C144: with 13 or more samples there is an order that `random::permutation` never produces, whatever `std::random_device`
yields. -/
theorem C144_permutation_unreachable (twister : Fin 4294967296 → Nat → Nat) (pick : (Nat → Nat) → Nat → Nat) (n : Nat)
    (hn : 13 ≤ n) :
    ∃ L : List Nat, L.Perm (List.range n) ∧ ∀ word, devicePermutation twister pick word n ≠ L := by
  obtain ⟨L, hL, h⟩ := missed (Finset.univ : Finset (Fin 4294967296)) (fun w => devicePermutation twister pick w n) n
    (by rw [Finset.card_univ, Fintype.card_fin]; exact thirteen n hn)
  exact ⟨L, hL, fun w => h w (Finset.mem_univ w)⟩

/-- C144: with three or more entries the orders of `random::permutation` are never equally likely, even if all words of
`std::random_device` are. -/
theorem C144_not_uniform (twister : Fin 4294967296 → Nat → Nat) (pick : (Nat → Nat) → Nat → Nat) (n : Nat) (hn : 3 ≤ n) :
    ¬ ∃ c : Nat, ∀ L : List Nat, L.Perm (List.range n) →
      (Finset.univ.filter fun word => devicePermutation twister pick word n = L).card = c := by
  classical
  rintro ⟨c, hc⟩
  have h := Finset.card_eq_sum_card_fiberwise (f := fun w => devicePermutation twister pick w n)
    (s := (Finset.univ : Finset (Fin 4294967296))) (t := orders n) (fun w _ => by
      simp only [Finset.mem_coe, mem_orders]
      exact permutation_perm _ n)
  rw [Finset.sum_congr rfl (fun L hL => hc L ((mem_orders n L).mp hL)), Finset.sum_const, card_orders, Finset.card_univ,
    Fintype.card_fin, nsmul_eq_mul, Nat.cast_id] at h
  have h3 : 3 ∣ n.factorial := Nat.dvd_factorial (by norm_num) hn
  have : 3 ∣ 4294967296 := h ▸ Dvd.dvd.mul_right h3 c
  norm_num at this

open Classical in
/-- C144: if there are more than `2^31 - 2` ways to choose the training samples, there is a choice that `train_test_split` never
makes, at no time. -/
theorem C144_split {ρ β : Type} (X : List ρ) (hX : X.Nodup) (y : List β) (hxy : X.length = y.length) (trainSize : ℚ) (k : Nat)
    (hk : truncInt ((X.length : ℚ) * trainSize) = k) (hkn : k ≤ X.length) (pick : (Nat → Nat) → Nat → Nat)
    (hbig : 2147483646 < X.length.choose k) :
    ∃ T : Finset ρ, T ⊆ X.toFinset ∧ T.card = k ∧ ∀ ticks : Int, ∃ s,
      trainTestSplit X y trainSize (some (clockPermutation pick ticks X.length)) = Res.ok s ∧ s.1.length = k ∧
        s.1.toFinset ≠ T := by
  have hcard : (Finset.powersetCard k X.toFinset).card = X.length.choose k := by
    rw [Finset.card_powersetCard, List.toFinset_card_of_nodup hX]
  let f : Nat → Finset ρ := fun x =>
    match trainTestSplit X y trainSize (some (permutation (pick (minstdOutputs x)) X.length)) with
    | .ok s => s.1.toFinset
    | _ => ∅
  have h1 : ((Finset.Icc 1 2147483646).image f).card < (Finset.powersetCard k X.toFinset).card :=
    lt_of_le_of_lt Finset.card_image_le (by rw [hcard, Nat.card_Icc]; exact hbig)
  obtain ⟨T, hT, hn⟩ := Finset.exists_mem_notMem_of_card_lt_card h1
  obtain ⟨hT1, hT2⟩ := Finset.mem_powersetCard.mp hT
  refine ⟨T, hT1, hT2, fun ticks => ?_⟩
  obtain ⟨a, b, c, d, hs, hl, _⟩ := C25_train_test_split X y hxy trainSize (some (clockPermutation pick ticks X.length))
    (by rintro _ ⟨⟩; exact permutation_perm _ _) k hk hkn
  refine ⟨_, hs, hl, fun e => hn (Finset.mem_image.mpr ?_)⟩
  have := minstdSeed_range (clockSeed ticks)
  refine ⟨minstdSeed (clockSeed ticks), Finset.mem_Icc.mpr ⟨this.1, by omega⟩, ?_⟩
  rw [clockPermutation] at hs
  simp only [f, hs]
  exact e

/-- C144: random initialisation of k-means misses some choice of initial centres if there are more than `2^32`. -/
theorem C144_kmeans (twister : Fin 4294967296 → Nat → Nat) (pick : (Nat → Nat) → Nat → Nat) (n k : Nat)
    (hbig : 4294967296 < n.choose k) :
    ∃ T : Finset Nat, T ⊆ Finset.range n ∧ T.card = k ∧
      ∀ word, ((devicePermutation twister pick word n).take k).toFinset ≠ T := by
  have h1 : ((Finset.univ : Finset (Fin 4294967296)).image fun w =>
      ((devicePermutation twister pick w n).take k).toFinset).card < (Finset.powersetCard k (Finset.range n)).card :=
    lt_of_le_of_lt Finset.card_image_le (by
      rw [Finset.card_powersetCard, Finset.card_range, Finset.card_univ, Fintype.card_fin]; exact hbig)
  obtain ⟨T, hT, hn⟩ := Finset.exists_mem_notMem_of_card_lt_card h1
  obtain ⟨hT1, hT2⟩ := Finset.mem_powersetCard.mp hT
  exact ⟨T, hT1, hT2, fun w e => hn (Finset.mem_image.mpr ⟨w, Finset.mem_univ w, e⟩)⟩

/-- Beside C144_engine: the C++ standard asks that call 10000 of the engine with seed 1 yields 1043618065. -/
example : minstdOutputs (minstdSeed 1) 0 = 16807 ∧ minstdOutputs (minstdSeed 1) 1 = 282475249 := by decide +kernel
example : minstdOutputs (minstdSeed 1) 9999 = 1043618065 := by
  rw [minstdOutputs, iterate_eq]
  decide +kernel
/-- Seed 0 counts as 1, and so does `2^31 - 1`. -/
example : minstdSeed 0 = 1 ∧ minstdSeed 2147483647 = 1 ∧ minstdSeed 2147483649 = 2 := by decide +kernel
/-- Beside C144_clock: a reading for which both parts apply. -/
example : clockSeed 1700000000123456789 + 2147483647 < 4294967296 := by decide +kernel
/-- Beside C144_split: 34 samples, half of them for training; 36 for C144_kmeans. -/
example : 2147483646 < Nat.choose 34 17 := by decide +kernel
example : 4294967296 < Nat.choose 36 18 := by decide +kernel
example : truncInt (((List.range 34).length : ℚ) * (1 / 2)) = 17 ∧ (List.range 34).Nodup := by
  refine ⟨?_, List.nodup_range⟩
  norm_num [truncInt]
/-- Beside C144_shuffle_unreachable: below 13 samples the seeds outnumber the orders. -/
example : Nat.factorial 12 < 2147483646 := by decide +kernel

end OpenML
