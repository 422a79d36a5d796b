import Verif.Spec.HoldOut
import Verif.Lemmas.NaiveBayesLikelihood
import Verif.Props.Sampling

/-!
# How reliable errors on a hold-out set are (C180)
-/

namespace OpenML

open Spec SGD Data Random

namespace HoldOut

theorem shareOf_eq {n : Nat} (P : Draws n → Prop) [DecidablePred P] :
    shareOf P = averageDraws fun d => if P d then (1 : ℝ) else 0 := by
  unfold shareOf averageDraws
  rw [Nat.card_eq_fintype_card, Nat.card_eq_fintype_card, Fintype.card_subtype, Finset.sum_boole]

theorem averageDraws_mono {n : Nat} {F G : Draws n → ℝ} (h : ∀ d, F d ≤ G d) : averageDraws F ≤ averageDraws G :=
  div_le_div_of_nonneg_right (Finset.sum_le_sum fun d _ => h d) (Nat.cast_nonneg _)

theorem shareOf_mono {n : Nat} {P Q : Draws n → Prop} (h : ∀ d, P d → Q d) : shareOf P ≤ shareOf Q := by
  classical
  rw [shareOf_eq, shareOf_eq]
  refine averageDraws_mono fun d => ?_
  by_cases hp : P d
  · rw [if_pos hp, if_pos (h d hp)]
  · rw [if_neg hp]
    split <;> norm_num

theorem shareOf_exists {n : Nat} (P : Nat → Draws n → Prop) (e : ℝ) : ∀ M : Nat, (∀ i < M, shareOf (P i) ≤ e) →
    shareOf (fun d => ∃ i < M, P i d) ≤ M * e
  | 0, _ => by
    classical
    rw [shareOf_eq]
    simp [averageDraws]
  | M + 1, h => by
    classical
    have ih := shareOf_exists P e M fun i hi => h i (by omega)
    have hM := h M (by omega)
    have : shareOf (fun d => ∃ i < M + 1, P i d) ≤ shareOf (fun d => ∃ i < M, P i d) + shareOf (P M) := by
      rw [shareOf_eq, shareOf_eq, shareOf_eq]
      unfold averageDraws
      rw [← add_div, ← Finset.sum_add_distrib]
      refine averageDraws_mono fun d => ?_
      by_cases h1 : ∃ i < M, P i d
      · rw [if_pos h1]
        have : (0 : ℝ) ≤ if P M d then 1 else 0 := by split <;> norm_num
        have : (if ∃ i < M + 1, P i d then (1 : ℝ) else 0) ≤ 1 := by split <;> norm_num
        linarith
      · by_cases h2 : P M d
        · rw [if_pos h2, if_neg h1]
          split <;> norm_num
        · rw [if_neg, if_neg h1, if_neg h2]
          · norm_num
          · rintro ⟨i, hi, hp⟩
            rcases Nat.lt_succ_iff_lt_or_eq.mp hi with hi | rfl
            · exact h1 ⟨i, hi, hp⟩
            · exact h2 hp
    push_cast
    linarith

/-- Chebyshev's inequality. -/
theorem chebyshev {n : Nat} (F : Draws n → ℝ) (c t : ℝ) (ht : 0 < t) : shareOf (fun d => t ≤ |F d - c|) ≤ spreadDraws F c / t ^ 2 := by
  classical
  rw [shareOf_eq, le_div_iff₀ (by positivity)]
  unfold spreadDraws averageDraws
  rw [div_mul_eq_mul_div, Finset.sum_mul]
  refine averageDraws_mono fun d => ?_
  split
  · rename_i h
    rw [one_mul, ← sq_abs (F d - c)]
    exact pow_le_pow_left₀ ht.le h 2
  · rw [zero_mul]
    positivity

/-- The variance of numbers between 0 and 1. -/
theorem deviation_le (l : List ℝ) (hl : l ≠ []) (h : ∀ a ∈ l, 0 ≤ a ∧ a ≤ 1) : meanSquaredDeviation l ≤ 1 / 4 := by
  have hn : (0 : ℝ) < l.length := by
    have := List.length_pos_of_ne_nil hl
    positivity
  have e := Likelihood.sum_sq_dev l (1 / 2) hl
  have b : (l.map fun x => (x - 1 / 2) ^ 2).sum ≤ l.length * (1 / 4 : ℝ) := by
    clear e hn hl
    induction l with
    | nil => simp
    | cons a l ih =>
      obtain ⟨h0, h1⟩ := h a (List.mem_cons_self ..)
      have := ih fun b hb => h b (List.mem_cons_of_mem _ hb)
      simp only [List.map_cons, List.sum_cons, List.length_cons, Nat.cast_add, Nat.cast_one]
      nlinarith
  rw [e] at b
  have := le_of_mul_le_mul_left b hn
  nlinarith [sq_nonneg (average l - 1 / 2)]

theorem sampleVariance_le (b : Nat) (hb : 0 < b) (l : List ℝ) (h2 : 2 ≤ l.length) (hbl : b ≤ l.length) (h : ∀ a ∈ l, 0 ≤ a ∧ a ≤ 1) :
    sampleVariance b l ≤ 1 / (4 * b) := by
  have hl : l ≠ [] := by rintro rfl; simp at h2
  have hv := deviation_le l hl h
  have hb' : (1 : ℝ) ≤ b := by exact_mod_cast hb
  have h2' : (2 : ℝ) ≤ l.length := by exact_mod_cast h2
  have hbl' : (b : ℝ) ≤ l.length := by exact_mod_cast hbl
  have hr0 : 0 ≤ ((l.length : ℝ) - b) / ((l.length : ℝ) - 1) := div_nonneg (by linarith) (by linarith)
  have hr : ((l.length : ℝ) - b) / ((l.length : ℝ) - 1) ≤ 1 := by
    rw [div_le_one (by linarith)]
    linarith
  unfold sampleVariance
  calc meanSquaredDeviation l / b * (((l.length : ℝ) - b) / ((l.length : ℝ) - 1))
      ≤ 1 / 4 / b * (((l.length : ℝ) - b) / ((l.length : ℝ) - 1)) :=
        mul_le_mul_of_nonneg_right (div_le_div_of_nonneg_right hv (by linarith)) hr0
    _ ≤ 1 / 4 / b * 1 := mul_le_mul_of_nonneg_left hr (by positivity)
    _ = 1 / (4 * b) := by rw [mul_one, div_div]

theorem zipWith_range {ρ β : Type} (f : ρ → β → ℝ) (X : List ρ) (y : List β) (h : ∀ r ∈ X, ∀ a ∈ y, 0 ≤ f r a ∧ f r a ≤ 1) :
    ∀ v ∈ List.zipWith f X y, 0 ≤ v ∧ v ≤ 1 := by
  intro v hv
  obtain ⟨i, hi, rfl⟩ := List.mem_iff_getElem.mp hv
  rw [List.getElem_zipWith]
  exact h _ (List.getElem_mem _) _ (List.getElem_mem _)

end HoldOut

open HoldOut

/-- C180: `train_test_split` with uniform random numbers behind the shuffle, `b` test samples, and `M` models that do not depend on the
split, with errors between 0 and 1 (such as 1 for a wrong answer and 0 for a right one): the share of the splits for which some model
has a test error that differs by `t` or more from its error on all samples is at most `M / (4 b t^2)`. -/
theorem C180_holdout {ρ β : Type} (X : List ρ) (y : List β) (hxy : X.length = y.length) (M : Nat) (err : Nat → ρ → β → ℝ)
    (h01 : ∀ i < M, ∀ r ∈ X, ∀ a ∈ y, 0 ≤ err i r a ∧ err i r a ≤ 1) (trainSize : ℚ) (k : Nat)
    (hk : truncInt ((X.length : ℚ) * trainSize) = k) (hkn : k < X.length) (h2 : 2 ≤ X.length) (t : ℝ) (ht : 0 < t) :
    ∃ S : Draws X.length → List ρ × List ρ × List β × List β,
      (∀ d, trainTestSplit X y trainSize (some (permutation d.seq X.length)) = .ok (S d)) ∧
      shareOf (fun d => ∃ i < M, t ≤ |averageOver (err i) (S d).2.1 (S d).2.2.2 - averageOver (err i) X y|) ≤
        M / (4 * ((X.length - k : Nat) : ℝ) * t ^ 2) := by
  obtain ⟨S, hS, _⟩ := C152_holdout X y hxy (fun _ _ => 0) trainSize k hk hkn
  refine ⟨S, hS, ?_⟩
  have one : ∀ i < M, shareOf (fun d => t ≤ |averageOver (err i) (S d).2.1 (S d).2.2.2 - averageOver (err i) X y|) ≤
      1 / (4 * ((X.length - k : Nat) : ℝ) * t ^ 2) := by
    intro i hi
    obtain ⟨S', hS', _, hv⟩ := C152_holdout X y hxy (err i) trainSize k hk hkn
    have hSS : S' = S := funext fun d => by
      have := (hS' d).symm.trans (hS d)
      rwa [Res.ok.injEq] at this
    subst hSS
    refine (chebyshev _ _ t ht).trans ?_
    unfold averageOver
    rw [hv h2, ← div_div]
    refine div_le_div_of_nonneg_right (sampleVariance_le _ (by omega) _ ?_ ?_ (zipWith_range _ X y (h01 i hi))) (by positivity)
    · rw [List.length_zipWith, ← hxy, Nat.min_self]
      exact h2
    · rw [List.length_zipWith, ← hxy, Nat.min_self]
      omega
  have := shareOf_exists (fun i d => t ≤ |averageOver (err i) (S d).2.1 (S d).2.2.2 - averageOver (err i) X y|) _ M one
  rwa [mul_one_div] at this

/-- Example for C180: 1000 samples, half of them for tests, and two models that answer with remainders modulo 2 and 3. For at most one split
in 40 the test error of one of them is wrong by 1/5 or more. -/
example : ∃ S : Draws (List.range 1000).length → List Nat × List Nat × List Nat × List Nat,
    (∀ d, trainTestSplit (List.range 1000) ((List.range 1000).map (· % 2)) (1 / 2) (some (permutation d.seq (List.range 1000).length)) =
      .ok (S d)) ∧
    shareOf (fun d => ∃ i < 2, (1 / 5 : ℝ) ≤ |averageOver (fun r a => if r % (i + 2) = a then 0 else 1) (S d).2.1 (S d).2.2.2 -
      averageOver (fun r a => if r % (i + 2) = a then 0 else 1) (List.range 1000) ((List.range 1000).map (· % 2))|) ≤ 1 / 40 := by
  obtain ⟨S, h1, h2⟩ := C180_holdout (List.range 1000) ((List.range 1000).map (· % 2)) (by simp) 2
    (fun i r a => if r % (i + 2) = a then 0 else 1) (fun i _ r _ a _ => by split <;> norm_num) (1 / 2) 500
    (by rw [List.length_range]; decide +kernel) (by simp) (by simp) (1 / 5) (by norm_num)
  refine ⟨S, h1, h2.trans (le_of_eq ?_)⟩
  rw [List.length_range]
  norm_num

/-- C180: choosing among `M` models by the error on the test samples: the share of the splits for which some model of least test error is
worse on all samples than some other model by more than `2 t` is at most `M / (4 b t^2)`. -/
theorem C180_choice {ρ β : Type} (X : List ρ) (y : List β) (hxy : X.length = y.length) (M : Nat) (err : Nat → ρ → β → ℝ)
    (h01 : ∀ i < M, ∀ r ∈ X, ∀ a ∈ y, 0 ≤ err i r a ∧ err i r a ≤ 1) (trainSize : ℚ) (k : Nat)
    (hk : truncInt ((X.length : ℚ) * trainSize) = k) (hkn : k < X.length) (h2 : 2 ≤ X.length) (t : ℝ) (ht : 0 < t) :
    ∃ S : Draws X.length → List ρ × List ρ × List β × List β,
      (∀ d, trainTestSplit X y trainSize (some (permutation d.seq X.length)) = .ok (S d)) ∧
      shareOf (fun d => ∃ i < M, (∀ j < M, averageOver (err i) (S d).2.1 (S d).2.2.2 ≤ averageOver (err j) (S d).2.1 (S d).2.2.2) ∧
        ∃ j < M, averageOver (err j) X y + 2 * t < averageOver (err i) X y) ≤ M / (4 * ((X.length - k : Nat) : ℝ) * t ^ 2) := by
  obtain ⟨S, hS, h⟩ := C180_holdout X y hxy M err h01 trainSize k hk hkn h2 t ht
  refine ⟨S, hS, (shareOf_mono fun d hd => ?_).trans h⟩
  obtain ⟨i, hi, hmin, j, hj, hlt⟩ := hd
  by_contra hno
  push Not at hno
  have a := abs_lt.mp (hno i hi)
  have b := abs_lt.mp (hno j hj)
  have c := hmin j hj
  linarith [a.1, a.2, b.1, b.2]

/-- Example for `C180_choice`: five models on 1000 samples, chosen with 800 of them, `t` = 1/8: at most one split in ten misleads by more than
1/4. -/
example : (truncInt (((1000 : Nat) : ℚ) * (1 / 5)) = 200) ∧ (5 : ℝ) / (4 * ((1000 - 200 : Nat) : ℝ) * (1 / 8) ^ 2) = 1 / 10 := by
  refine ⟨by decide +kernel, by norm_num⟩

/-- C180: mini-batches of shuffled data: the share of the shuffles for which the average over a batch of `b` samples of a number between 0 and
1 attached to the samples differs by `t` or more from that over all samples is at most `1 / (4 b t^2)`. -/
theorem C180_batch {ρ β : Type} (X : List ρ) (y : List β) (hxy : X.length = y.length) (f : ρ → β → ℝ)
    (h01 : ∀ r ∈ X, ∀ a ∈ y, 0 ≤ f r a ∧ f r a ≤ 1) (start b : Nat) (hb : 0 < b) (h : start + b ≤ X.length) (h2 : 2 ≤ X.length) (t : ℝ)
    (ht : 0 < t) :
    ∃ (rows : Draws X.length → List ρ) (labels : Draws X.length → List β),
      (∀ d, (permuteRows (permutation d.seq X.length) X >>= fun r => middleRows r start b) = .ok (rows d)) ∧
      (∀ d, (permuteRows (permutation d.seq X.length) y >>= fun r => middleRows r start b) = .ok (labels d)) ∧
      shareOf (fun d => t ≤ |averageOver f (rows d) (labels d) - averageOver f X y|) ≤ 1 / (4 * (b : ℝ) * t ^ 2) := by
  obtain ⟨rows, labels, h1, h1', _, hv⟩ := C152_batch X y hxy f start b hb h
  refine ⟨rows, labels, h1, h1', (chebyshev _ _ t ht).trans ?_⟩
  unfold averageOver
  rw [hv h2, ← div_div]
  refine div_le_div_of_nonneg_right (sampleVariance_le _ hb _ ?_ ?_ (zipWith_range _ X y h01)) (by positivity)
  · rw [List.length_zipWith, ← hxy, Nat.min_self]
    exact h2
  · rw [List.length_zipWith, ← hxy, Nat.min_self]
    omega

/-- Example for `C180_batch`: batches of 100 of 1000 samples: for at most a quarter of the shuffles the share of even numbers in the batch
differs by 1/10 or more from one half. -/
example : ∃ (rows labels : Draws (List.range 1000).length → List Nat),
    (∀ d, (permuteRows (permutation d.seq (List.range 1000).length) (List.range 1000) >>= fun r => middleRows r 300 100) = .ok (rows d)) ∧
    (∀ d, (permuteRows (permutation d.seq (List.range 1000).length) (List.range 1000) >>= fun r => middleRows r 300 100) = .ok (labels d)) ∧
    shareOf (fun d => (1 / 10 : ℝ) ≤ |averageOver (fun r _ => if r % 2 = 0 then 1 else 0) (rows d) (labels d) -
      averageOver (fun r _ => if r % 2 = 0 then 1 else 0) (List.range 1000) (List.range 1000)|) ≤ 1 / 4 := by
  obtain ⟨rows, labels, h1, h2, h3⟩ := C180_batch (List.range 1000) (List.range 1000) rfl (fun r _ => if r % 2 = 0 then 1 else 0)
    (fun r _ a _ => by split <;> norm_num) 300 100 (by norm_num) (by simp) (by simp) (1 / 10) (by norm_num)
  exact ⟨rows, labels, h1, h2, h3.trans (by norm_num)⟩

end OpenML
