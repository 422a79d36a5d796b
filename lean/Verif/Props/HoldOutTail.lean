import Verif.Lemmas.Hoeffding
import Verif.Props.HoldOut

/-!
# Misleading hold-out sets are exponentially rare (C181)
-/

namespace OpenML

open Spec SGD Data Random

namespace Sampling

/-- The moment generating function of the sum over a block of the shuffled list. -/
theorem block_mgf {β : Type} (X : List β) (f : β → ℝ) (hf : ∀ r ∈ X, 0 ≤ f r ∧ f r ≤ 1) {start b : Nat} (hb : 0 < b)
    (h : start + b ≤ X.length) (s : ℝ) :
    averageDraws (fun d : Draws X.length =>
      Real.exp (s * (b * (average ((((scatter (permutation d.seq X.length) X X).drop start).take b).map f) - average (X.map f))))) ≤
        Real.exp (b * (s ^ 2 / 8)) := by
  have hn : 0 < X.length := by omega
  have hb0 : (b : ℝ) ≠ 0 := by exact_mod_cast hb.ne'
  have hlen : ∀ d : Draws X.length, ((((scatter (permutation d.seq X.length) X X).drop start).take b).map f).length = b := by
    intro d
    simp [length_scatter]
    omega
  have hm : average (X.map f) = (∑ i : Fin X.length, f X[i]) / X.length := by
    unfold average
    rw [list_sum, List.length_map]
  set z : Fin X.length → ℝ := fun i => Real.exp (s * (f X[i] - (∑ k : Fin X.length, f X[k]) / X.length)) with hz
  have h0 : ∀ d : Draws X.length,
      Real.exp (s * (b * (average ((((scatter (permutation d.seq X.length) X X).drop start).take b).map f) - average (X.map f)))) =
        ∏ p ∈ Finset.univ.map ⟨position h, position_injective h⟩, z ((order d)⁻¹ p) := by
    intro d
    rw [Finset.prod_map, hz]
    simp only [Function.Embedding.coeFn_mk]
    rw [← Real.exp_sum, ← Finset.mul_sum, Finset.sum_sub_distrib, ← hm]
    congr 2
    rw [average, hlen d, block_sum X f h d, mul_sub, mul_div_cancel₀ _ hb0]
    simp
  have hp := product_le z hn (fun i => (Real.exp_pos _).le) (Finset.univ.map ⟨position h, position_injective h⟩)
  rw [Finset.card_map, Finset.card_univ, Fintype.card_fin, productSum] at hp
  have hl := hoeffding_lemma hn (fun i : Fin X.length => f X[i]) (fun i => hf _ (List.getElem_mem _)) s
  have hfac : (0 : ℝ) < X.length.factorial := by exact_mod_cast X.length.factorial_pos
  unfold averageDraws
  rw [C111_choices, Finset.sum_congr rfl fun d _ => h0 d,
    sum_draws fun s => ∏ p ∈ Finset.univ.map ⟨position h, position_injective h⟩, z (s p), div_le_iff₀ hfac, mul_comm]
  refine hp.trans (mul_le_mul_of_nonneg_left ?_ hfac.le)
  rw [Real.exp_nat_mul]
  exact pow_le_pow_left₀ (div_nonneg (Finset.sum_nonneg fun i _ => (Real.exp_pos _).le) (Nat.cast_nonneg _)) hl b

/-- How often the average over a block of the shuffled list is far from that over the list. -/
theorem block_tail {β : Type} (X : List β) (f : β → ℝ) (hf : ∀ r ∈ X, 0 ≤ f r ∧ f r ≤ 1) {start b : Nat} (hb : 0 < b)
    (h : start + b ≤ X.length) (t : ℝ) (ht : 0 < t) :
    shareOf (fun d : Draws X.length =>
      t ≤ |average ((((scatter (permutation d.seq X.length) X X).drop start).take b).map f) - average (X.map f)|) ≤
        2 * Real.exp (-2 * b * t ^ 2) := by
  classical
  have one : ∀ s : ℝ, s ^ 2 = (4 * t) ^ 2 → Real.exp (-(4 * b * t ^ 2)) * averageDraws (fun d : Draws X.length =>
      Real.exp (s * (b * (average ((((scatter (permutation d.seq X.length) X X).drop start).take b).map f) - average (X.map f))))) ≤
        Real.exp (-2 * b * t ^ 2) := by
    intro s hs
    refine (mul_le_mul_of_nonneg_left (block_mgf X f hf hb h s) (Real.exp_pos _).le).trans (le_of_eq ?_)
    rw [← Real.exp_add, hs]
    congr 1
    ring
  have hp := one (4 * t) rfl
  have hq := one (-(4 * t)) (by ring)
  rw [HoldOut.shareOf_eq]
  refine le_trans ?_ (by linarith : Real.exp (-(4 * b * t ^ 2)) * averageDraws (fun d : Draws X.length =>
      Real.exp (4 * t * (b * (average ((((scatter (permutation d.seq X.length) X X).drop start).take b).map f) - average (X.map f))))) +
      Real.exp (-(4 * b * t ^ 2)) * averageDraws (fun d : Draws X.length =>
      Real.exp (-(4 * t) * (b * (average ((((scatter (permutation d.seq X.length) X X).drop start).take b).map f) - average (X.map f))))) ≤
        2 * Real.exp (-2 * b * t ^ 2))
  unfold averageDraws
  rw [← mul_add, ← add_div, ← Finset.sum_add_distrib, ← mul_div_assoc, Finset.mul_sum]
  refine HoldOut.averageDraws_mono fun d => ?_
  set D := average ((((scatter (permutation d.seq X.length) X X).drop start).take b).map f) - average (X.map f)
  have hb1 : (0 : ℝ) < b := by exact_mod_cast hb
  rw [mul_add, ← Real.exp_add, ← Real.exp_add]
  split
  · rename_i hD
    rcases le_abs.mp hD with hD | hD
    · have : (0 : ℝ) ≤ -(4 * b * t ^ 2) + 4 * t * (b * D) := by
        have : 0 ≤ 4 * b * t * (D - t) := by have := sub_nonneg.mpr hD; positivity
        nlinarith
      linarith [Real.one_le_exp this, Real.exp_pos (-(4 * b * t ^ 2) + -(4 * t) * (b * D))]
    · have : (0 : ℝ) ≤ -(4 * b * t ^ 2) + -(4 * t) * (b * D) := by
        have : 0 ≤ 4 * b * t * (-D - t) := by have := sub_nonneg.mpr hD; positivity
        nlinarith
      linarith [Real.one_le_exp this, Real.exp_pos (-(4 * b * t ^ 2) + 4 * t * (b * D))]
  · positivity

theorem zip_tail {ρ β : Type} (X : List ρ) (y : List β) (hxy : X.length = y.length) (f : ρ → β → ℝ)
    (h01 : ∀ r ∈ X, ∀ a ∈ y, 0 ≤ f r a ∧ f r a ≤ 1) (start b : Nat) (hb : 0 < b) (h : start + b ≤ X.length) (t : ℝ) (ht : 0 < t) :
    shareOf (fun d : Draws X.length => t ≤ |averageOver f (((scatter (permutation d.seq X.length) X X).drop start).take b)
      (((scatter (permutation d.seq X.length) y y).drop start).take b) - averageOver f X y|) ≤ 2 * Real.exp (-2 * b * t ^ 2) := by
  have hz : ∀ (a : List ρ) (c : List β), List.zipWith f a c = (a.zip c).map fun p => f p.1 p.2 := by
    intro a c
    rw [List.zip, List.map_zipWith]
  have hblock : ∀ d : Draws X.length, blockOf X y start b (permutation d.seq X.length) =
      (((scatter (permutation d.seq X.length) X X).drop start).take b).zip
        (((scatter (permutation d.seq X.length) y y).drop start).take b) := by
    intro d
    unfold blockOf
    rw [scatter_zip _ _ _ _ _ hxy, take_drop_zip]
  have hl : (X.zip y).length = X.length := by rw [List.length_zip, ← hxy, Nat.min_self]
  have h' : start + b ≤ (X.zip y).length := by rw [hl]; exact h
  have := block_tail (X.zip y) (fun p => f p.1 p.2) (fun p hp => h01 _ (List.of_mem_zip hp).1 _ (List.of_mem_zip hp).2) hb h' t ht
  rw [hl] at this
  unfold averageOver
  simp only [hz, ← hblock]
  exact this

end Sampling

open HoldOut Sampling

/-- C181: mini-batches of shuffled data: the share of the shuffles for which the average over a batch of `b` samples of a number between 0 and
1 attached to the samples differs by `t` or more from that over all samples is at most `2 exp (-2 b t^2)`. -/
theorem C181_batch {ρ β : Type} (X : List ρ) (y : List β) (hxy : X.length = y.length) (f : ρ → β → ℝ)
    (h01 : ∀ r ∈ X, ∀ a ∈ y, 0 ≤ f r a ∧ f r a ≤ 1) (start b : Nat) (hb : 0 < b) (h : start + b ≤ X.length) (t : ℝ) (ht : 0 < t) :
    ∃ (rows : Draws X.length → List ρ) (labels : Draws X.length → List β),
      (∀ d, (permuteRows (permutation d.seq X.length) X >>= fun r => middleRows r start b) = .ok (rows d)) ∧
      (∀ d, (permuteRows (permutation d.seq X.length) y >>= fun r => middleRows r start b) = .ok (labels d)) ∧
      shareOf (fun d => t ≤ |averageOver f (rows d) (labels d) - averageOver f X y|) ≤ 2 * Real.exp (-2 * b * t ^ 2) := by
  refine ⟨fun d => ((scatter (permutation d.seq X.length) X X).drop start).take b,
    fun d => ((scatter (permutation d.seq X.length) y y).drop start).take b, fun d => ?_, fun d => ?_,
    zip_tail X y hxy f h01 start b hb h t ht⟩
  · unfold permuteRows
    rw [if_pos (permutation_length _ _), Res.bind_ok, middleRows, length_scatter, if_pos h]
  · unfold permuteRows
    rw [if_pos (by rw [permutation_length, hxy]), Res.bind_ok, middleRows, length_scatter, if_pos (by rw [← hxy]; exact h)]

/-- Example for `C181_batch`: batches of 500 of 1000 samples: for less than one shuffle in 10000 (2 exp (-10)) the share of even numbers in the batch
differs by 1/10 or more from one half. -/
example : ∃ (rows labels : Draws (List.range 1000).length → List Nat),
    (∀ d, (permuteRows (permutation d.seq (List.range 1000).length) (List.range 1000) >>= fun r => middleRows r 300 500) = .ok (rows d)) ∧
    (∀ d, (permuteRows (permutation d.seq (List.range 1000).length) (List.range 1000) >>= fun r => middleRows r 300 500) = .ok (labels d)) ∧
    shareOf (fun d => (1 / 10 : ℝ) ≤ |averageOver (fun r _ => if r % 2 = 0 then 1 else 0) (rows d) (labels d) -
      averageOver (fun r _ => if r % 2 = 0 then 1 else 0) (List.range 1000) (List.range 1000)|) ≤ 2 * Real.exp (-10) := by
  obtain ⟨rows, labels, h1, h2, h3⟩ := C181_batch (List.range 1000) (List.range 1000) rfl (fun r _ => if r % 2 = 0 then 1 else 0)
    (fun r _ a _ => by split <;> norm_num) 300 500 (by norm_num) (by simp) (1 / 10) (by norm_num)
  exact ⟨rows, labels, h1, h2, h3.trans (le_of_eq (by norm_num))⟩

/-- C181: `train_test_split` with uniform random numbers behind the shuffle, `b` test samples, and `M` models that do not depend on the
split, with errors between 0 and 1: the share of the splits for which some model has a test error that differs by `t` or more from its error
on all samples is at most `2 M exp (-2 b t^2)`. -/
theorem C181_holdout {ρ β : Type} (X : List ρ) (y : List β) (hxy : X.length = y.length) (M : Nat) (err : Nat → ρ → β → ℝ)
    (h01 : ∀ i < M, ∀ r ∈ X, ∀ a ∈ y, 0 ≤ err i r a ∧ err i r a ≤ 1) (trainSize : ℚ) (k : Nat)
    (hk : truncInt ((X.length : ℚ) * trainSize) = k) (hkn : k < X.length) (t : ℝ) (ht : 0 < t) :
    ∃ S : Draws X.length → List ρ × List ρ × List β × List β,
      (∀ d, trainTestSplit X y trainSize (some (permutation d.seq X.length)) = .ok (S d)) ∧
      shareOf (fun d => ∃ i < M, t ≤ |averageOver (err i) (S d).2.1 (S d).2.2.2 - averageOver (err i) X y|) ≤
        2 * M * Real.exp (-2 * ((X.length - k : Nat) : ℝ) * t ^ 2) := by
  have e : ((X.length : Int) - (k : Int)).toNat = X.length - k := by omega
  have e2 : X.length - (X.length - k) = k := by omega
  refine ⟨fun d => ((scatter (permutation d.seq X.length) X X).take k,
    ((scatter (permutation d.seq X.length) X X).drop k).take (X.length - k), (scatter (permutation d.seq X.length) y y).take k,
    ((scatter (permutation d.seq X.length) y y).drop k).take (X.length - k)), fun d => ?_, ?_⟩
  · have ex : ((scatter (permutation d.seq X.length) X X).drop k).take (X.length - k) = (scatter (permutation d.seq X.length) X X).drop k :=
      List.take_of_length_le (by rw [List.length_drop, length_scatter])
    have ey : ((scatter (permutation d.seq X.length) y y).drop k).take (X.length - k) = (scatter (permutation d.seq X.length) y y).drop k :=
      List.take_of_length_le (by rw [List.length_drop, length_scatter]; omega)
    simp only [ex, ey]
    simp only [trainTestSplit, permuteRows, permutation_length, hxy, if_true, Res.bind_ok]
    rw [← hxy, hk]
    simp only [topRows, bottomRows, length_scatter, ← hxy, e, e2]
    rw [if_pos (by omega), if_pos (by omega)]
    simp only [Res.bind_ok, Int.toNat_natCast]
    rw [if_pos (by omega), if_pos (by omega)]
    simp only [Res.bind_ok]
  · refine (shareOf_exists _ _ M fun i hi => zip_tail X y hxy (err i) (h01 i hi) k (X.length - k) (by omega) (by omega) t ht).trans
      (le_of_eq (by ring))

/-- Example for `C181_holdout`: 1000 samples, half of them for tests, and two models that answer with remainders modulo 2 and 3. For less than
one split in 10^16 (4 exp (-40)) the test error of one of them is wrong by 1/5 or more. -/
example : ∃ S : Draws (List.range 1000).length → List Nat × List Nat × List Nat × List Nat,
    (∀ d, trainTestSplit (List.range 1000) ((List.range 1000).map (· % 2)) (1 / 2) (some (permutation d.seq (List.range 1000).length)) =
      .ok (S d)) ∧
    shareOf (fun d => ∃ i < 2, (1 / 5 : ℝ) ≤ |averageOver (fun r a => if r % (i + 2) = a then 0 else 1) (S d).2.1 (S d).2.2.2 -
      averageOver (fun r a => if r % (i + 2) = a then 0 else 1) (List.range 1000) ((List.range 1000).map (· % 2))|) ≤
        4 * Real.exp (-40) := by
  obtain ⟨S, h1, h2⟩ := C181_holdout (List.range 1000) ((List.range 1000).map (· % 2)) (by simp) 2
    (fun i r a => if r % (i + 2) = a then 0 else 1) (fun i _ r _ a _ => by split <;> norm_num) (1 / 2) 500
    (by rw [List.length_range]; decide +kernel) (by simp) (1 / 5) (by norm_num)
  refine ⟨S, h1, h2.trans (le_of_eq ?_)⟩
  rw [List.length_range]
  norm_num

/-- C181: choosing among `M` models by the error on the test samples: the share of the splits for which some model of least test error is
worse on all samples than some other model by more than `2 t` is at most `2 M exp (-2 b t^2)`. -/
theorem C181_choice {ρ β : Type} (X : List ρ) (y : List β) (hxy : X.length = y.length) (M : Nat) (err : Nat → ρ → β → ℝ)
    (h01 : ∀ i < M, ∀ r ∈ X, ∀ a ∈ y, 0 ≤ err i r a ∧ err i r a ≤ 1) (trainSize : ℚ) (k : Nat)
    (hk : truncInt ((X.length : ℚ) * trainSize) = k) (hkn : k < X.length) (t : ℝ) (ht : 0 < t) :
    ∃ S : Draws X.length → List ρ × List ρ × List β × List β,
      (∀ d, trainTestSplit X y trainSize (some (permutation d.seq X.length)) = .ok (S d)) ∧
      shareOf (fun d => ∃ i < M, (∀ j < M, averageOver (err i) (S d).2.1 (S d).2.2.2 ≤ averageOver (err j) (S d).2.1 (S d).2.2.2) ∧
        ∃ j < M, averageOver (err j) X y + 2 * t < averageOver (err i) X y) ≤
          2 * M * Real.exp (-2 * ((X.length - k : Nat) : ℝ) * t ^ 2) := by
  obtain ⟨S, hS, h⟩ := C181_holdout X y hxy M err h01 trainSize k hk hkn t ht
  refine ⟨S, hS, (shareOf_mono fun d hd => ?_).trans h⟩
  obtain ⟨i, hi, hmin, j, hj, hlt⟩ := hd
  by_contra hno
  push Not at hno
  have a := abs_lt.mp (hno i hi)
  have b := abs_lt.mp (hno j hj)
  have c := hmin j hj
  linarith [a.1, a.2, b.1, b.2]

/-- Example for `C181_choice`: 1000 models on 1000 samples, chosen with 800 of them, `t` = 1/8: the share of the splits that mislead by more
than 1/4 is at most 2000 exp (-25). -/
example : ∃ S : Draws (List.range 1000).length → List Nat × List Nat × List Nat × List Nat,
    (∀ d, trainTestSplit (List.range 1000) ((List.range 1000).map (· % 2)) (1 / 5) (some (permutation d.seq (List.range 1000).length)) =
      .ok (S d)) ∧
    shareOf (fun d => ∃ i < 1000, (∀ j < 1000, averageOver (fun r a => if r % (i + 2) = a then 0 else 1) (S d).2.1 (S d).2.2.2 ≤
        averageOver (fun r a => if r % (j + 2) = a then 0 else 1) (S d).2.1 (S d).2.2.2) ∧
      ∃ j < 1000, averageOver (fun r a => if r % (j + 2) = a then 0 else 1) (List.range 1000) ((List.range 1000).map (· % 2)) + 2 * (1 / 8) <
        averageOver (fun r a => if r % (i + 2) = a then 0 else 1) (List.range 1000) ((List.range 1000).map (· % 2))) ≤
          2000 * Real.exp (-25) := by
  obtain ⟨S, h1, h2⟩ := C181_choice (List.range 1000) ((List.range 1000).map (· % 2)) (by simp) 1000
    (fun i r a => if r % (i + 2) = a then 0 else 1) (fun i _ r _ a _ => by split <;> norm_num) (1 / 5) 200
    (by rw [List.length_range]; decide +kernel) (by simp) (1 / 8) (by norm_num)
  refine ⟨S, h1, h2.trans (le_of_eq ?_)⟩
  rw [List.length_range]
  norm_num

end OpenML
