import Verif.Lemmas.Sampling
import Verif.Lemmas.Descent

/-!
# Random mini-batches and hold-out sets are fair samples, but the ridge penalty grows with smaller batches (C152)
-/

namespace OpenML

open Spec Loss SGD Data Random Descent
open scoped BigOperators

namespace Sampling

/-- The batch from row `start` of the data shuffled with the draws `d`, as the stochastic optimizers take it. -/
def randomBatch {α : Type} (X : DMat α) (y : List α) (start b : Nat) (d : Draws X.nrows) : Res (DMat α × List α) := do
  let D ← shuffleXY (some fun _ => permutation d.seq X.nrows) 0 X y
  let rows ← middleRows D.1.rows start b
  let yb ← middleRows D.2 start b
  .ok (⟨X.ncols, rows⟩, yb)

variable {ρ β : Type}

/-- The samples of the batch. -/
def blockOf (X : List ρ) (y : List β) (start b : Nat) (p : List Nat) : List (ρ × β) :=
  ((scatter p (X.zip y) (X.zip y)).drop start).take b

theorem take_drop_zip (a : List ρ) (c : List β) (start b : Nat) :
    ((a.zip c).drop start).take b = ((a.drop start).take b).zip ((c.drop start).take b) := by
  simp only [List.zip, List.drop_zipWith, List.take_zipWith]

theorem randomBatch_eq (X : DMat ℝ) (hX : X.WF) (y : List ℝ) (hy : y.length = X.nrows) (start b : Nat)
    (h : start + b ≤ X.nrows) (d : Draws X.nrows) :
    ∃ B : DMat ℝ, ∃ yb : List ℝ, randomBatch X y start b d = .ok (B, yb) ∧ B.ncols = X.ncols ∧ B.WF ∧ B.nrows = b ∧
      yb.length = b ∧ B.rows.zip yb = blockOf X.rows y start b (permutation d.seq X.nrows) := by
  have hl : (permutation d.seq X.nrows).length = X.nrows := permutation_length _ _
  have hp := permutation_perm d.seq X.nrows
  have hx := length_scatter (permutation d.seq X.nrows) X.rows X.rows
  have hyl := length_scatter (permutation d.seq X.nrows) y y
  have hr : X.rows.length = X.nrows := rfl
  refine ⟨⟨X.ncols, ((scatter (permutation d.seq X.nrows) X.rows X.rows).drop start).take b⟩,
    ((scatter (permutation d.seq X.nrows) y y).drop start).take b, ?_, rfl, ?_, ?_, ?_, ?_⟩
  · unfold randomBatch shuffleXY permuteRows
    simp only [hl, hr, hy, if_true, Res.bind_ok, middleRows, hx, hyl]
    simp only [if_pos h, Res.bind_ok]
  · intro r hr'
    exact hX r ((scatter_perm _ X.rows hp).mem_iff.mp (List.mem_of_mem_drop (List.mem_of_mem_take hr')))
  · change (((scatter (permutation d.seq X.nrows) X.rows X.rows).drop start).take b).length = b
    rw [List.length_take, List.length_drop, hx, hr]
    omega
  · simp only [List.length_take, List.length_drop, hyl]
    omega
  · unfold blockOf
    rw [scatter_zip _ _ _ _ _ (by rw [hr, hy]), take_drop_zip]

theorem averageDraws_add {n : Nat} (F : Draws n → ℝ) (c : ℝ) : averageDraws (fun d => F d + c) = averageDraws F + c := by
  have hc : (Fintype.card (Draws n) : ℝ) ≠ 0 := by
    rw [C111_choices]
    exact_mod_cast n.factorial_ne_zero
  unfold averageDraws
  rw [Finset.sum_add_distrib, Finset.sum_const, Finset.card_univ, nsmul_eq_mul, add_div, mul_div_cancel_left₀ _ hc]

theorem spreadDraws_add {n : Nat} (F : Draws n → ℝ) (a c : ℝ) : spreadDraws (fun d => F d + c) (a + c) = spreadDraws F a := by
  unfold spreadDraws
  simp only [add_sub_add_right_eq_sub]

section
variable (X : List ρ) (y : List β) (hxy : X.length = y.length) (f : ρ × β → ℝ) (start b : Nat) (hb : 0 < b) (h : start + b ≤ X.length)

theorem blockOf_length (d : Draws X.length) (hxy : X.length = y.length) (h : start + b ≤ X.length) :
    (blockOf X y start b (permutation d.seq X.length)).length = b := by
  simp [blockOf, length_scatter]
  omega

include hxy hb h in
theorem blockOf_mean :
    averageDraws (fun d : Draws X.length => average ((blockOf X y start b (permutation d.seq X.length)).map f)) =
      average ((X.zip y).map f) := by
  have hl : (X.zip y).length = X.length := by rw [List.length_zip, ← hxy, Nat.min_self]
  have h' : start + b ≤ (X.zip y).length := by rw [hl]; exact h
  have := block_mean (X.zip y) f hb h'
  rwa [hl] at this

include hxy hb h in
theorem blockOf_spread (hn : 2 ≤ X.length) :
    spreadDraws (fun d : Draws X.length => average ((blockOf X y start b (permutation d.seq X.length)).map f))
      (average ((X.zip y).map f)) = sampleVariance b ((X.zip y).map f) := by
  have hl : (X.zip y).length = X.length := by rw [List.length_zip, ← hxy, Nat.min_self]
  have h' : start + b ≤ (X.zip y).length := by rw [hl]; exact h
  have := block_spread (X.zip y) f hb h' (by rw [hl]; exact hn)
  rwa [hl] at this

end

section Loss
variable {loss : ℝ → LossFn ℝ (List ℝ)} {phi dphi : ℝ → ℝ → ℝ} (hm : ∀ mu, IsMean (loss mu) phi dphi mu)
  (lambda : ℝ) (X : DMat ℝ) (hX : X.WF) (y : List ℝ) (hy : y.length = X.nrows) (w : Fin X.ncols → ℝ)
  (start b : Nat) (hb : 0 < b) (h : start + b ≤ X.nrows)

include hm hX hy hb h in
theorem batch_loss : ∃ L : Draws X.nrows → ℝ,
    (∀ d, (randomBatch X y start b d >>= fun B => (loss lambda).evaluate B.1 B.2 (List.ofFn w)) = .ok (L d)) ∧
      (loss (lambda * (X.nrows / b))).evaluate X y (List.ofFn w) = .ok (averageDraws L) := by
  have hb0 : (b : ℝ) ≠ 0 := by exact_mod_cast hb.ne'
  have hn0 : (X.nrows : ℝ) ≠ 0 := by
    have : X.nrows ≠ 0 := by omega
    exact_mod_cast this
  have hr : X.rows.length = X.nrows := rfl
  refine ⟨fun d => average ((blockOf X.rows y start b (permutation d.seq X.nrows)).map fun p => phi p.2 (score p.1 w)) +
    lambda * ridgeTerm b w, fun d => ?_, ?_⟩
  · obtain ⟨B, yb, h1, h2, h3, h4, h5, h6⟩ := randomBatch_eq X hX y hy start b h d
    rw [h1, Res.bind_ok]
    obtain ⟨c, rows⟩ := B
    dsimp only at h2
    subst h2
    rw [(hm lambda).evaluate _ h3 yb (by rw [h5, h4]) w, h6, h4]
    simp only [meanLoss, average, List.length_map]
  · rw [averageDraws_add, (hm _).evaluate X hX y hy w]
    have := blockOf_mean X.rows y (by rw [hr, hy]) (fun p => phi p.2 (score p.1 w)) start b hb h
    erw [this]
    have e : lambda * (X.nrows / b : ℝ) * ridgeTerm X.nrows w = lambda * ridgeTerm b w := by
      unfold ridgeTerm
      field_simp
    rw [e]
    simp only [meanLoss, average, List.length_map]

include hm hX hy hb h in
theorem batch_gradient : ∃ G : Draws X.nrows → Fin X.ncols → ℝ,
    (∀ d, (randomBatch X y start b d >>= fun B => (loss lambda).gradient B.1 B.2 (List.ofFn w)) = .ok (List.ofFn (G d))) ∧
      (loss (lambda * (X.nrows / b))).gradient X y (List.ofFn w) = .ok (List.ofFn fun j => averageDraws fun d => G d j) ∧
      (2 ≤ X.nrows → ∀ j, spreadDraws (fun d => G d j) (averageDraws fun d => G d j) =
        sampleVariance b ((X.rows.zip y).map fun p => dphi p.2 (score p.1 w) * p.1.getD j 0)) := by
  have hb0 : (b : ℝ) ≠ 0 := by exact_mod_cast hb.ne'
  have hn0 : (X.nrows : ℝ) ≠ 0 := by
    have : X.nrows ≠ 0 := by omega
    exact_mod_cast this
  have hr : X.rows.length = X.nrows := rfl
  have hzl : (X.rows.zip y).length = X.nrows := by rw [List.length_zip, hy]; exact Nat.min_self _
  have hmean : ∀ j : Fin X.ncols, averageDraws (fun d : Draws X.nrows => average
      ((blockOf X.rows y start b (permutation d.seq X.nrows)).map fun p => dphi p.2 (score p.1 w) * p.1.getD j 0) +
        w j / b * lambda) = average ((X.rows.zip y).map fun p => dphi p.2 (score p.1 w) * p.1.getD j 0) + w j / b * lambda := by
    intro j
    rw [averageDraws_add]
    have := blockOf_mean X.rows y (by rw [hr, hy]) (fun p => dphi p.2 (score p.1 w) * p.1.getD j 0) start b hb h
    erw [this]
  refine ⟨fun d j => average ((blockOf X.rows y start b (permutation d.seq X.nrows)).map fun p =>
    dphi p.2 (score p.1 w) * p.1.getD j 0) + w j / b * lambda, fun d => ?_, ?_, fun hn j => ?_⟩
  · obtain ⟨B, yb, h1, h2, h3, h4, h5, h6⟩ := randomBatch_eq X hX y hy start b h d
    rw [h1, Res.bind_ok]
    obtain ⟨c, rows⟩ := B
    dsimp only at h2
    subst h2
    rw [(hm lambda).gradient _ h3 yb (by rw [h5, h4]) w, h6]
    have hl := blockOf_length X.rows y start b d (by rw [hr, hy]) h
    congr 2
    funext j
    dsimp only
    unfold gradOf average
    rw [List.length_map]
    erw [hl]
  · rw [(hm _).gradient X hX y hy w]
    congr 2
    funext j
    rw [hmean j]
    unfold gradOf average
    rw [List.length_map, hzl]
    field_simp
  · rw [hmean j, spreadDraws_add]
    exact blockOf_spread X.rows y (by rw [hr, hy]) _ start b hb h hn

end Loss

end Sampling

open Sampling

/-- C152. Whatever number `f` is attached to the samples, its average over a mini-batch of shuffled data has the average over all
samples as its mean over the equally likely draws, and the variance of sampling without replacement. -/
theorem C152_batch {ρ β : Type} (X : List ρ) (y : List β) (hxy : X.length = y.length) (f : ρ → β → ℝ) (start b : Nat) (hb : 0 < b)
    (h : start + b ≤ X.length) :
    ∃ (rows : Draws X.length → List ρ) (labels : Draws X.length → List β),
      (∀ d, (permuteRows (permutation d.seq X.length) X >>= fun r => middleRows r start b) = .ok (rows d)) ∧
      (∀ d, (permuteRows (permutation d.seq X.length) y >>= fun r => middleRows r start b) = .ok (labels d)) ∧
      averageDraws (fun d => average (List.zipWith f (rows d) (labels d))) = average (List.zipWith f X y) ∧
      (2 ≤ X.length → spreadDraws (fun d => average (List.zipWith f (rows d) (labels d))) (average (List.zipWith f X y)) =
        sampleVariance b (List.zipWith f X y)) := by
  have hz : ∀ (a : List ρ) (c : List β), List.zipWith f a c = (a.zip c).map fun p => f p.1 p.2 := by
    intro a c
    rw [List.zip, List.map_zipWith]
  have hblock : ∀ d : Draws X.length, blockOf X y start b (permutation d.seq X.length) =
      (((scatter (permutation d.seq X.length) X X).drop start).take b).zip
        (((scatter (permutation d.seq X.length) y y).drop start).take b) := by
    intro d
    unfold blockOf
    rw [scatter_zip _ _ _ _ _ hxy, take_drop_zip]
  refine ⟨fun d => ((scatter (permutation d.seq X.length) X X).drop start).take b,
    fun d => ((scatter (permutation d.seq X.length) y y).drop start).take b, fun d => ?_, fun d => ?_, ?_, fun hn => ?_⟩
  · unfold permuteRows
    rw [if_pos (permutation_length _ _), Res.bind_ok, middleRows, length_scatter, if_pos h]
  · unfold permuteRows
    rw [if_pos (by rw [permutation_length, hxy]), Res.bind_ok, middleRows, length_scatter, if_pos (by rw [← hxy]; exact h)]
  · simp only [hz, ← hblock]
    exact blockOf_mean X y hxy (fun p => f p.1 p.2) start b hb h
  · simp only [hz, ← hblock]
    exact blockOf_spread X y hxy (fun p => f p.1 p.2) start b hb h hn

/-- C152, squared error. The loss of a random mini-batch is on average the loss of all samples for a ridge parameter that is larger
by the factor (number of samples) / (batch size), and the same holds for the gradient. -/
theorem C152_mse (lambda : ℝ) (X : DMat ℝ) (hX : X.WF) (y : List ℝ) (hy : y.length = X.nrows) (w : Fin X.ncols → ℝ)
    (start b : Nat) (hb : 0 < b) (h : start + b ≤ X.nrows) :
    (∃ L : Draws X.nrows → ℝ,
      (∀ d, (randomBatch X y start b d >>= fun B => mseEvaluate lambda B.1 B.2 (List.ofFn w)) = .ok (L d)) ∧
        mseEvaluate (lambda * (X.nrows / b)) X y (List.ofFn w) = .ok (averageDraws L)) ∧
    ∃ G : Draws X.nrows → Fin X.ncols → ℝ,
      (∀ d, (randomBatch X y start b d >>= fun B => mseGradient lambda B.1 B.2 (List.ofFn w)) = .ok (List.ofFn (G d))) ∧
        mseGradient (lambda * (X.nrows / b)) X y (List.ofFn w) = .ok (List.ofFn fun j => averageDraws fun d => G d j) ∧
        (2 ≤ X.nrows → ∀ j, spreadDraws (fun d => G d j) (averageDraws fun d => G d j) =
          sampleVariance b (List.zipWith (fun r a => (score r w - a) * r.getD j 0) X.rows y)) := by
  refine ⟨batch_loss isMean_mse lambda X hX y hy w start b hb h, ?_⟩
  obtain ⟨G, h1, h2, h3⟩ := batch_gradient isMean_mse lambda X hX y hy w start b hb h
  refine ⟨G, h1, h2, fun hn j => ?_⟩
  rw [h3 hn j, List.zip, List.map_zipWith]

/-- C152, log loss. -/
theorem C152_log (lambda : ℝ) (X : DMat ℝ) (hX : X.WF) (y : List ℝ) (hy : y.length = X.nrows) (w : Fin X.ncols → ℝ)
    (start b : Nat) (hb : 0 < b) (h : start + b ≤ X.nrows) :
    (∃ L : Draws X.nrows → ℝ,
      (∀ d, (randomBatch X y start b d >>= fun B => logEvaluate lambda B.1 B.2 (List.ofFn w)) = .ok (L d)) ∧
        logEvaluate (lambda * (X.nrows / b)) X y (List.ofFn w) = .ok (averageDraws L)) ∧
    ∃ G : Draws X.nrows → Fin X.ncols → ℝ,
      (∀ d, (randomBatch X y start b d >>= fun B => logGradient lambda B.1 B.2 (List.ofFn w)) = .ok (List.ofFn (G d))) ∧
        logGradient (lambda * (X.nrows / b)) X y (List.ofFn w) = .ok (List.ofFn fun j => averageDraws fun d => G d j) ∧
        (2 ≤ X.nrows → ∀ j, spreadDraws (fun d => G d j) (averageDraws fun d => G d j) =
          sampleVariance b (List.zipWith (fun r a => (Real.sigmoid (score r w) - a) * r.getD j 0) X.rows y)) := by
  refine ⟨batch_loss isMean_log lambda X hX y hy w start b hb h, ?_⟩
  obtain ⟨G, h1, h2, h3⟩ := batch_gradient isMean_log lambda X hX y hy w start b hb h
  refine ⟨G, h1, h2, fun hn j => ?_⟩
  rw [h3 hn j, List.zip, List.map_zipWith]

/-- C152. The average loss of a random mini-batch of the squared error exceeds the loss of all samples with the same ridge
parameter by `lambda (1 / b - 1 / n) |w|² / 2`. -/
theorem C152_bias (lambda : ℝ) (X : DMat ℝ) (hX : X.WF) (y : List ℝ) (hy : y.length = X.nrows) (w : Fin X.ncols → ℝ)
    (start b : Nat) (hb : 0 < b) (h : start + b ≤ X.nrows) (L : Draws X.nrows → ℝ)
    (hL : ∀ d, (randomBatch X y start b d >>= fun B => mseEvaluate lambda B.1 B.2 (List.ofFn w)) = .ok (L d)) :
    ∃ l, mseEvaluate lambda X y (List.ofFn w) = .ok l ∧
      averageDraws L = l + lambda * (1 / b - 1 / X.nrows) * (∑ j, w j ^ 2) / 2 := by
  have hb0 : (b : ℝ) ≠ 0 := by exact_mod_cast hb.ne'
  have hn0 : (X.nrows : ℝ) ≠ 0 := by
    have : X.nrows ≠ 0 := by omega
    exact_mod_cast this
  obtain ⟨L', h1, h2⟩ := batch_loss isMean_mse lambda X hX y hy w start b hb h
  have e : L' = L := by
    funext d
    have h3 := (h1 d).symm.trans (hL d)
    exact Res.ok.inj h3
  rw [e] at h2
  refine ⟨_, mseEvaluate_eq lambda X hX y hy w, ?_⟩
  have h4 : mseEvaluate (lambda * (X.nrows / b)) X y (List.ofFn w) = .ok (averageDraws L) := h2
  rw [mseEvaluate_eq _ X hX y hy w] at h4
  rw [← Res.ok.inj h4]
  unfold ridgeTerm
  field_simp
  ring

/-- C152, hold-out sets. The average over the test samples of `train_test_split` with shuffling of any number attached to the
samples, for instance the squared error of a fixed model, has the average over all samples as its mean over the draws, and the
variance of sampling without replacement. -/
theorem C152_holdout {ρ β : Type} (X : List ρ) (y : List β) (hxy : X.length = y.length) (f : ρ → β → ℝ) (trainSize : ℚ) (k : Nat)
    (hk : truncInt ((X.length : ℚ) * trainSize) = k) (hkn : k < X.length) :
    ∃ S : Draws X.length → List ρ × List ρ × List β × List β,
      (∀ d, trainTestSplit X y trainSize (some (permutation d.seq X.length)) = .ok (S d)) ∧
      averageDraws (fun d => average (List.zipWith f (S d).2.1 (S d).2.2.2)) = average (List.zipWith f X y) ∧
      (2 ≤ X.length → spreadDraws (fun d => average (List.zipWith f (S d).2.1 (S d).2.2.2)) (average (List.zipWith f X y)) =
        sampleVariance (X.length - k) (List.zipWith f X y)) := by
  obtain ⟨rows, labels, h1, h2, h3, h4⟩ := C152_batch X y hxy f k (X.length - k) (by omega) (by omega)
  have e : ((X.length : Int) - (k : Int)).toNat = X.length - k := by omega
  have e2 : X.length - (X.length - k) = k := by omega
  have hS : ∀ d : Draws X.length, ∃ a c, trainTestSplit X y trainSize (some (permutation d.seq X.length)) =
      .ok (a, rows d, c, labels d) := by
    intro d
    have g1 := h1 d
    have g2 := h2 d
    unfold permuteRows at g1 g2
    rw [if_pos (permutation_length _ _), Res.bind_ok, middleRows, length_scatter, if_pos (by omega)] at g1
    rw [if_pos (by rw [permutation_length, hxy]), Res.bind_ok, middleRows, length_scatter, if_pos (by omega)] at g2
    have g1 := Res.ok.inj g1
    have g2 := Res.ok.inj g2
    rw [List.take_of_length_le (by rw [List.length_drop, length_scatter])] at g1
    rw [List.take_of_length_le (by rw [List.length_drop, length_scatter]; omega)] at g2
    refine ⟨(scatter (permutation d.seq X.length) X X).take k, (scatter (permutation d.seq X.length) y y).take k, ?_⟩
    rw [← g1, ← g2]
    simp only [trainTestSplit, permuteRows, permutation_length, hxy, if_true, Res.bind_ok]
    rw [← hxy, hk]
    simp only [topRows, bottomRows, length_scatter, ← hxy, e, e2]
    rw [if_pos (by omega), if_pos (by omega)]
    simp only [Res.bind_ok, Int.toNat_natCast]
    rw [if_pos (by omega), if_pos (by omega)]
    simp only [Res.bind_ok]
  choose a c hac using hS
  exact ⟨fun d => (a d, rows d, c d, labels d), hac, h3, h4⟩

/-- Beside C152: three samples with one feature, batches of two; the values 0, 3, 6 have the batch means 3/2, 3, 9/2, whose variance
3/2 is 6 / 2 * (3 - 2) / (3 - 1). -/
example : sampleVariance 2 ([0, 3, 6] : List ℝ) = 3 / 2 ∧
    (((3 / 2 - 3) ^ 2 + (3 - 3) ^ 2 + (9 / 2 - 3) ^ 2) / 3 : ℝ) = 3 / 2 ∧
    ∃ S : Draws 3 → List Nat × List Nat × List ℝ × List ℝ,
      (∀ d, trainTestSplit [10, 20, 30] ([0, 3, 6] : List ℝ) (1 / 3) (some (permutation d.seq 3)) = .ok (S d)) ∧
      averageDraws (fun d => average (List.zipWith (fun _ a => a) (S d).2.1 (S d).2.2.2)) = 3 := by
  refine ⟨by norm_num [sampleVariance, meanSquaredDeviation, average], by norm_num, ?_⟩
  obtain ⟨S, h1, h2, _⟩ := C152_holdout ([10, 20, 30] : List Nat) ([0, 3, 6] : List ℝ) rfl (fun _ a => a) (1 / 3) 1
    (by decide +kernel) (by decide)
  exact ⟨S, h1, h2.trans (by norm_num [average])⟩

/-- Beside C152: with a ridge parameter 1 and the weight 2 on three samples, batches of one sample have on average a loss that is
larger by 4/3 than the loss of all samples. -/
example (L : Draws 3 → ℝ)
    (hL : ∀ d : Draws 3, (randomBatch ⟨1, [[1], [2], [3]]⟩ [1, 2, 4] 0 1 d >>= fun B => mseEvaluate 1 B.1 B.2 [2]) = .ok (L d)) :
    ∃ l, mseEvaluate 1 ⟨1, [[1], [2], [3]]⟩ [1, 2, 4] [2] = Res.ok l ∧ averageDraws L = l + 4 / 3 := by
  obtain ⟨l, h1, h2⟩ := C152_bias 1 ⟨1, [[1], [2], [3]]⟩ (by intro r hr; fin_cases hr <;> rfl) [1, 2, 4] rfl (fun _ => 2) 0 1
    (by decide) (by decide) L fun d => by
      have := hL d
      simpa using this
  refine ⟨l, by simpa using h1, h2.trans ?_⟩
  norm_num [DMat.nrows]

end OpenML
