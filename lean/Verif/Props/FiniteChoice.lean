import Verif.Props.HoldOutTail

/-!
# Models chosen from finitely many do as well on the test part as on the training part, for most splits (C183)
-/

namespace OpenML

open Spec SGD Data Random

namespace Sampling

/-- What `train_test_split` returns. -/
theorem split_eq {ρ β : Type} (X : List ρ) (y : List β) (hxy : X.length = y.length) (trainSize : ℚ) (k : Nat)
    (hk : truncInt ((X.length : ℚ) * trainSize) = k) (hkn : k ≤ X.length) (d : Draws X.length) :
    trainTestSplit X y trainSize (some (permutation d.seq X.length)) =
      .ok ((scatter (permutation d.seq X.length) X X).take k, (scatter (permutation d.seq X.length) X X).drop k,
        (scatter (permutation d.seq X.length) y y).take k, (scatter (permutation d.seq X.length) y y).drop k) := by
  have e : ((X.length : Int) - (k : Int)).toNat = X.length - k := by omega
  have e2 : X.length - (X.length - k) = k := by omega
  simp only [trainTestSplit, permuteRows, permutation_length, hxy, if_true, Res.bind_ok]
  rw [← hxy, hk]
  simp only [topRows, bottomRows, length_scatter, ← hxy, e, e2]
  rw [if_pos (by omega), if_pos (by omega)]
  simp only [Res.bind_ok, Int.toNat_natCast]
  rw [if_pos (by omega), if_pos (by omega)]
  simp only [Res.bind_ok]

/-- The average over all samples is a weighted mean of those over the two parts. -/
theorem parts_average {ρ β : Type} (X : List ρ) (y : List β) (hxy : X.length = y.length) (f : ρ → β → ℝ) (k : Nat) (hk : 0 < k)
    (hkn : k < X.length) (d : Draws X.length) :
    (X.length : ℝ) * averageOver f X y =
      k * averageOver f ((scatter (permutation d.seq X.length) X X).take k) ((scatter (permutation d.seq X.length) y y).take k) +
      ((X.length : ℝ) - k) *
        averageOver f ((scatter (permutation d.seq X.length) X X).drop k) ((scatter (permutation d.seq X.length) y y).drop k) := by
  have hz : ∀ (a : List ρ) (c : List β), List.zipWith f a c = (a.zip c).map fun p => f p.1 p.2 := by
    intro a c
    rw [List.zip, List.map_zipWith]
  have hl : (X.zip y).length = X.length := by rw [List.length_zip, ← hxy, Nat.min_self]
  have hk0 : (k : ℝ) ≠ 0 := by exact_mod_cast hk.ne'
  have hk1 : (k : ℝ) < X.length := by exact_mod_cast hkn
  have hn0 : (X.length : ℝ) ≠ 0 := by linarith [(Nat.cast_nonneg k : (0 : ℝ) ≤ k)]
  have hsum : (List.zipWith f X y).sum =
      (List.zipWith f (scatter (permutation d.seq X.length) X X) (scatter (permutation d.seq X.length) y y)).sum := by
    have hp : (scatter (permutation d.seq X.length) (X.zip y) (X.zip y)).Perm (X.zip y) := by
      refine scatter_perm _ _ ?_
      rw [hl]
      exact permutation_perm _ _
    rw [hz, hz, ← scatter_zip _ _ _ _ _ hxy]
    exact ((hp.map _).sum_eq).symm
  have hsplit : (List.zipWith f (scatter (permutation d.seq X.length) X X) (scatter (permutation d.seq X.length) y y)).sum =
      (List.zipWith f ((scatter (permutation d.seq X.length) X X).take k) ((scatter (permutation d.seq X.length) y y).take k)).sum +
      (List.zipWith f ((scatter (permutation d.seq X.length) X X).drop k) ((scatter (permutation d.seq X.length) y y).drop k)).sum := by
    rw [← List.take_zipWith, ← List.drop_zipWith, List.sum_take_add_sum_drop]
  have l1 : (List.zipWith f ((scatter (permutation d.seq X.length) X X).take k)
      ((scatter (permutation d.seq X.length) y y).take k)).length = k := by
    simp [length_scatter]
    omega
  have l2 : (List.zipWith f ((scatter (permutation d.seq X.length) X X).drop k)
      ((scatter (permutation d.seq X.length) y y).drop k)).length = X.length - k := by
    simp [length_scatter]
    omega
  have l3 : (List.zipWith f X y).length = X.length := by simp [← hxy]
  unfold averageOver average
  rw [l1, l2, l3, Nat.cast_sub hkn.le, mul_div_cancel₀ _ hn0, mul_div_cancel₀ _ hk0, mul_div_cancel₀ _ (by linarith), hsum, hsplit]

end Sampling

open HoldOut Sampling

namespace FiniteChoice

/-- The error of threshold `i`: 0 if it puts `r` on the side `a`, otherwise 1. -/
noncomputable def thresholdError (i r a : Nat) : ℝ := if (if i ≤ r then 1 else 0) = a then 0 else 1

theorem thresholdError_range (i r a : Nat) : 0 ≤ thresholdError i r a ∧ thresholdError i r a ≤ 1 := by
  unfold thresholdError
  split <;> split <;> norm_num

/-- There is always a model of least training error. -/
theorem exists_least {ρ β : Type} (M : Nat) (hM : 0 < M) (err : Nat → ρ → β → ℝ) : ∃ choose : List ρ → List β → Nat, (∀ A c, choose A c < M) ∧
    ∀ A c, ∀ j < M, averageOver (err (choose A c)) A c ≤ averageOver (err j) A c := by
  have h : ∀ (A : List ρ) (c : List β), ∃ i, i < M ∧ ∀ j < M, averageOver (err i) A c ≤ averageOver (err j) A c := by
    intro A c
    obtain ⟨i, hi, hle⟩ := Finset.exists_min_image (Finset.range M) (fun i => averageOver (err i) A c) ⟨0, Finset.mem_range.mpr hM⟩
    exact ⟨i, Finset.mem_range.mp hi, fun j hj => hle j (Finset.mem_range.mpr hj)⟩
  choose f h1 h2 using h
  exact ⟨f, h1, h2⟩

/-- Labels of the example: 1 from 300 on. -/
def sides : List Nat := (List.range 1000).map fun r => if 300 ≤ r then 1 else 0

end FiniteChoice

open FiniteChoice

/-- C183: `train_test_split` with uniform random numbers behind the shuffle and `k` training samples, and a model chosen from `M` models with
the help of the training samples, whatever the rule, with errors between 0 and 1: the share of the splits for which its training error
differs by `t` or more from its error on all samples is at most `2 M exp (-2 k t^2)`. -/
theorem C183_train {ρ β : Type} (X : List ρ) (y : List β) (hxy : X.length = y.length) (M : Nat) (err : Nat → ρ → β → ℝ)
    (h01 : ∀ i < M, ∀ r ∈ X, ∀ a ∈ y, 0 ≤ err i r a ∧ err i r a ≤ 1) (choose : List ρ → List β → Nat) (hc : ∀ A c, choose A c < M)
    (trainSize : ℚ) (k : Nat) (hk : truncInt ((X.length : ℚ) * trainSize) = k) (hk0 : 0 < k) (hkn : k ≤ X.length) (t : ℝ) (ht : 0 < t) :
    ∃ S : Draws X.length → List ρ × List ρ × List β × List β,
      (∀ d, trainTestSplit X y trainSize (some (permutation d.seq X.length)) = .ok (S d)) ∧
      shareOf (fun d => t ≤ |averageOver (err (choose (S d).1 (S d).2.2.1)) (S d).1 (S d).2.2.1 -
        averageOver (err (choose (S d).1 (S d).2.2.1)) X y|) ≤ 2 * M * Real.exp (-2 * k * t ^ 2) := by
  refine ⟨_, split_eq X y hxy trainSize k hk hkn, ?_⟩
  have h := shareOf_exists _ _ M fun i hi => zip_tail X y hxy (err i) (h01 i hi) 0 k hk0 (by omega) t ht
  refine (shareOf_mono fun d hd => ?_).trans (h.trans (le_of_eq (by ring)))
  exact ⟨_, hc _ _, hd⟩

/-- Example for `C183_train`: the best of 1001 thresholds for 500 of 1000 samples: for at most `2002 exp (-40)` of the splits its training error is wrong by 1/5. -/
example : ∃ choose : List Nat → List Nat → Nat, (∀ A c, choose A c < 1001) ∧
    (∀ A c, ∀ j < 1001, averageOver (thresholdError (choose A c)) A c ≤ averageOver (thresholdError j) A c) ∧
    ∃ S : Draws (List.range 1000).length → List Nat × List Nat × List Nat × List Nat,
      (∀ d, trainTestSplit (List.range 1000) sides (1 / 2) (some (permutation d.seq (List.range 1000).length)) = .ok (S d)) ∧
      shareOf (fun d => 1 / 5 ≤ |averageOver (thresholdError (choose (S d).1 (S d).2.2.1)) (S d).1 (S d).2.2.1 -
        averageOver (thresholdError (choose (S d).1 (S d).2.2.1)) (List.range 1000) sides|) ≤ 2002 * Real.exp (-40) := by
  obtain ⟨choose, hc, hm⟩ := exists_least 1001 (by norm_num) thresholdError
  obtain ⟨S, h1, h2⟩ := C183_train (List.range 1000) sides (by simp [sides]) 1001 thresholdError
    (fun i _ r _ a _ => thresholdError_range i r a) choose hc (1 / 2) 500 (by rw [List.length_range]; decide +kernel) (by norm_num)
    (by simp) (1 / 5) (by norm_num)
  refine ⟨choose, hc, hm, S, h1, h2.trans (le_of_eq ?_)⟩
  norm_num

/-- C183: for a model chosen from `M` models with the help of the training samples, whatever the rule, the share of the splits for which the
errors on the training and on the test samples differ by `t` or more is at most `2 M exp (-2 k ((1 - k / n) t)^2)`. -/
theorem C183_test {ρ β : Type} (X : List ρ) (y : List β) (hxy : X.length = y.length) (M : Nat) (err : Nat → ρ → β → ℝ)
    (h01 : ∀ i < M, ∀ r ∈ X, ∀ a ∈ y, 0 ≤ err i r a ∧ err i r a ≤ 1) (choose : List ρ → List β → Nat) (hc : ∀ A c, choose A c < M)
    (trainSize : ℚ) (k : Nat) (hk : truncInt ((X.length : ℚ) * trainSize) = k) (hk0 : 0 < k) (hkn : k < X.length) (t : ℝ) (ht : 0 < t) :
    ∃ S : Draws X.length → List ρ × List ρ × List β × List β,
      (∀ d, trainTestSplit X y trainSize (some (permutation d.seq X.length)) = .ok (S d)) ∧
      shareOf (fun d => t ≤ |averageOver (err (choose (S d).1 (S d).2.2.1)) (S d).2.1 (S d).2.2.2 -
        averageOver (err (choose (S d).1 (S d).2.2.1)) (S d).1 (S d).2.2.1|) ≤
          2 * M * Real.exp (-2 * k * ((1 - k / X.length) * t) ^ 2) := by
  have hk1 : (k : ℝ) < X.length := by exact_mod_cast hkn
  have hn0 : (0 : ℝ) < X.length := by linarith [(Nat.cast_nonneg k : (0 : ℝ) ≤ k)]
  have hq : (0 : ℝ) < 1 - k / X.length := by
    rw [sub_pos, div_lt_one hn0]
    exact hk1
  refine ⟨_, split_eq X y hxy trainSize k hk hkn.le, ?_⟩
  have h := shareOf_exists _ _ M fun i hi => zip_tail X y hxy (err i) (h01 i hi) 0 k hk0 (by omega) ((1 - k / X.length) * t) (by positivity)
  refine (shareOf_mono fun d hd => ?_).trans (h.trans (le_of_eq (by ring)))
  refine ⟨_, hc ((scatter (permutation d.seq X.length) X X).take k) ((scatter (permutation d.seq X.length) y y).take k), ?_⟩
  rw [List.drop_zero, List.drop_zero]
  dsimp only at hd
  set f := err (choose ((scatter (permutation d.seq X.length) X X).take k) ((scatter (permutation d.seq X.length) y y).take k))
  have hp := parts_average X y hxy f k hk0 hkn d
  set a := averageOver f ((scatter (permutation d.seq X.length) X X).take k) ((scatter (permutation d.seq X.length) y y).take k)
  set c := averageOver f ((scatter (permutation d.seq X.length) X X).drop k) ((scatter (permutation d.seq X.length) y y).drop k)
  have e : a - averageOver f X y = -((1 - k / X.length) * (c - a)) := by
    have : averageOver f X y = (k * a + ((X.length : ℝ) - k) * c) / X.length := by
      rw [eq_div_iff hn0.ne', mul_comm]
      exact hp
    rw [this]
    field_simp
    ring
  rw [e, abs_neg, abs_mul, abs_of_pos hq]
  exact mul_le_mul_of_nonneg_left hd hq.le

/-- Example for `C183_test`: the same threshold: for at most `2002 exp (-40)` of the splits training and test error differ by 2/5. -/
example : ∃ choose : List Nat → List Nat → Nat, (∀ A c, choose A c < 1001) ∧
    (∀ A c, ∀ j < 1001, averageOver (thresholdError (choose A c)) A c ≤ averageOver (thresholdError j) A c) ∧
    ∃ S : Draws (List.range 1000).length → List Nat × List Nat × List Nat × List Nat,
      (∀ d, trainTestSplit (List.range 1000) sides (1 / 2) (some (permutation d.seq (List.range 1000).length)) = .ok (S d)) ∧
      shareOf (fun d => 2 / 5 ≤ |averageOver (thresholdError (choose (S d).1 (S d).2.2.1)) (S d).2.1 (S d).2.2.2 -
        averageOver (thresholdError (choose (S d).1 (S d).2.2.1)) (S d).1 (S d).2.2.1|) ≤ 2002 * Real.exp (-40) := by
  obtain ⟨choose, hc, hm⟩ := exists_least 1001 (by norm_num) thresholdError
  obtain ⟨S, h1, h2⟩ := C183_test (List.range 1000) sides (by simp [sides]) 1001 thresholdError
    (fun i _ r _ a _ => thresholdError_range i r a) choose hc (1 / 2) 500 (by rw [List.length_range]; decide +kernel) (by norm_num)
    (by simp) (2 / 5) (by norm_num)
  refine ⟨choose, hc, hm, S, h1, h2.trans (le_of_eq ?_)⟩
  norm_num

/-- C183: training that finds a model of least training error among `M` models: the share of the splits for which that model is worse on all
samples than some other model by more than `2 t` is at most `2 M exp (-2 k t^2)`. -/
theorem C183_least {ρ β : Type} (X : List ρ) (y : List β) (hxy : X.length = y.length) (M : Nat) (err : Nat → ρ → β → ℝ)
    (h01 : ∀ i < M, ∀ r ∈ X, ∀ a ∈ y, 0 ≤ err i r a ∧ err i r a ≤ 1) (choose : List ρ → List β → Nat) (hc : ∀ A c, choose A c < M)
    (hmin : ∀ A c, ∀ j < M, averageOver (err (choose A c)) A c ≤ averageOver (err j) A c)
    (trainSize : ℚ) (k : Nat) (hk : truncInt ((X.length : ℚ) * trainSize) = k) (hk0 : 0 < k) (hkn : k ≤ X.length) (t : ℝ) (ht : 0 < t) :
    ∃ S : Draws X.length → List ρ × List ρ × List β × List β,
      (∀ d, trainTestSplit X y trainSize (some (permutation d.seq X.length)) = .ok (S d)) ∧
      shareOf (fun d => ∃ j < M, averageOver (err j) X y + 2 * t < averageOver (err (choose (S d).1 (S d).2.2.1)) X y) ≤
        2 * M * Real.exp (-2 * k * t ^ 2) := by
  refine ⟨_, split_eq X y hxy trainSize k hk hkn, ?_⟩
  have h := shareOf_exists _ _ M fun i hi => zip_tail X y hxy (err i) (h01 i hi) 0 k hk0 (by omega) t ht
  refine (shareOf_mono fun d hd => ?_).trans (h.trans (le_of_eq (by ring)))
  obtain ⟨j, hj, hlt⟩ := hd
  by_contra hno
  push Not at hno
  have a := abs_lt.mp (hno _ (hc ((scatter (permutation d.seq X.length) X X).take k) ((scatter (permutation d.seq X.length) y y).take k)))
  have b := abs_lt.mp (hno j hj)
  have c := hmin ((scatter (permutation d.seq X.length) X X).take k) ((scatter (permutation d.seq X.length) y y).take k) j hj
  simp only [List.drop_zero] at a b
  dsimp only at hlt
  linarith [a.1, a.2, b.1, b.2]

/-- Example for `C183_least`: for at most `2002 exp (-40)` of the splits the threshold is worse than the best one by more than 2/5. -/
example : ∃ choose : List Nat → List Nat → Nat, (∀ A c, choose A c < 1001) ∧
    (∀ A c, ∀ j < 1001, averageOver (thresholdError (choose A c)) A c ≤ averageOver (thresholdError j) A c) ∧
    ∃ S : Draws (List.range 1000).length → List Nat × List Nat × List Nat × List Nat,
      (∀ d, trainTestSplit (List.range 1000) sides (1 / 2) (some (permutation d.seq (List.range 1000).length)) = .ok (S d)) ∧
      shareOf (fun d => ∃ j < 1001, averageOver (thresholdError j) (List.range 1000) sides + 2 * (1 / 5) <
        averageOver (thresholdError (choose (S d).1 (S d).2.2.1)) (List.range 1000) sides) ≤ 2002 * Real.exp (-40) := by
  obtain ⟨choose, hc, hm⟩ := exists_least 1001 (by norm_num) thresholdError
  obtain ⟨S, h1, h2⟩ := C183_least (List.range 1000) sides (by simp [sides]) 1001 thresholdError
    (fun i _ r _ a _ => thresholdError_range i r a) choose hc hm (1 / 2) 500 (by rw [List.length_range]; decide +kernel) (by norm_num)
    (by simp) (1 / 5) (by norm_num)
  refine ⟨choose, hc, hm, S, h1, h2.trans (le_of_eq ?_)⟩
  norm_num

end OpenML
