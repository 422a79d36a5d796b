import Verif.Props.HoldOutTail

/-!
# Mini-batch gradients far from the gradient of all samples are exponentially rare (C182)
-/

namespace OpenML

open Spec Loss SGD Data Random Descent

namespace Sampling

theorem average_affine {β : Type} (l : List β) (hl : 0 < l.length) (g : β → ℝ) (B : ℝ) :
    average (l.map fun p => (g p + B) / (2 * B)) = (average (l.map g) + B) / (2 * B) := by
  have hn : (l.length : ℝ) ≠ 0 := by exact_mod_cast hl.ne'
  have h : (l.map fun p => (g p + B) / (2 * B)).sum = ((l.map g).sum + l.length * B) / (2 * B) := by
    clear hl hn
    induction l with
    | nil => simp
    | cons a l ih =>
      simp only [List.map_cons, List.sum_cons, List.length_cons, Nat.cast_add, Nat.cast_one, ih]
      ring
  unfold average
  rw [h, List.length_map, List.length_map, div_right_comm, add_div, mul_div_cancel_left₀ _ hn]

/-- How often the average over a batch is far from that over all samples, for numbers between `-B` and `B`. -/
theorem blockOf_tail {ρ β : Type} (X : List ρ) (y : List β) (hxy : X.length = y.length) (g : ρ × β → ℝ) (B : ℝ) (hB : 0 < B)
    (hg : ∀ p ∈ X.zip y, |g p| ≤ B) (start b : Nat) (hb : 0 < b) (h : start + b ≤ X.length) (t : ℝ) (ht : 0 < t) :
    shareOf (fun d : Draws X.length => t ≤ |average ((blockOf X y start b (permutation d.seq X.length)).map g) -
      average ((X.zip y).map g)|) ≤ 2 * Real.exp (-(b * t ^ 2 / (2 * B ^ 2))) := by
  have hl : (X.zip y).length = X.length := by rw [List.length_zip, ← hxy, Nat.min_self]
  have h' : start + b ≤ (X.zip y).length := by rw [hl]; exact h
  have := block_tail (X.zip y) (fun p => (g p + B) / (2 * B)) (fun p hp => by
    have := abs_le.mp (hg p hp)
    refine ⟨div_nonneg (by linarith [this.1]) (by linarith), ?_⟩
    rw [div_le_one (by linarith)]
    linarith [this.2]) hb h' (t / (2 * B)) (by positivity)
  rw [hl] at this
  refine (HoldOut.shareOf_mono fun d hd => ?_).trans (this.trans (le_of_eq ?_))
  · have hlen := blockOf_length X y start b d hxy h
    unfold blockOf at hd hlen
    rw [average_affine _ (by rw [hlen]; exact hb), average_affine _ (by rw [hl]; omega), ← sub_div, add_sub_add_right_eq_sub, abs_div,
      abs_of_pos (by linarith : (0 : ℝ) < 2 * B)]
    exact div_le_div_of_nonneg_right hd (by linarith)
  · congr 2
    field_simp

section
variable {loss : ℝ → LossFn ℝ (List ℝ)} {phi dphi : ℝ → ℝ → ℝ} (hm : ∀ mu, IsMean (loss mu) phi dphi mu)
  (lambda : ℝ) (X : DMat ℝ) (hX : X.WF) (y : List ℝ) (hy : y.length = X.nrows) (w : Fin X.ncols → ℝ)
  (start b : Nat) (hb : 0 < b) (h : start + b ≤ X.nrows)

include hm hX hy hb h in
theorem gradient_tail (B : ℝ) (hB : 0 < B) (hd : ∀ p ∈ X.rows.zip y, ∀ j : Fin X.ncols, |dphi p.2 (score p.1 w) * p.1.getD j 0| ≤ B)
    (t : ℝ) (ht : 0 < t) : ∃ (G : Draws X.nrows → Fin X.ncols → ℝ) (g : Fin X.ncols → ℝ),
    (∀ d, (randomBatch X y start b d >>= fun B => (loss lambda).gradient B.1 B.2 (List.ofFn w)) = .ok (List.ofFn (G d))) ∧
    (loss (lambda * (X.nrows / b))).gradient X y (List.ofFn w) = .ok (List.ofFn g) ∧
    shareOf (fun d => ∃ j, t ≤ |G d j - g j|) ≤ 2 * X.ncols * Real.exp (-(b * t ^ 2 / (2 * B ^ 2))) := by
  have hb0 : (b : ℝ) ≠ 0 := by exact_mod_cast hb.ne'
  have hn0 : (X.nrows : ℝ) ≠ 0 := by
    have : X.nrows ≠ 0 := by omega
    exact_mod_cast this
  have hr : X.rows.length = X.nrows := rfl
  have hzl : (X.rows.zip y).length = X.nrows := by rw [List.length_zip, hy]; exact Nat.min_self _
  refine ⟨fun d j => average ((blockOf X.rows y start b (permutation d.seq X.nrows)).map fun p =>
      dphi p.2 (score p.1 w) * p.1.getD j 0) + w j / b * lambda,
    fun j => average ((X.rows.zip y).map fun p => dphi p.2 (score p.1 w) * p.1.getD j 0) + w j / b * lambda, fun d => ?_, ?_, ?_⟩
  · obtain ⟨B, yb, h1, h2, h3, h4, h5, h6⟩ := randomBatch_eq X hX y hy start b h d
    rw [h1, Res.bind_ok]
    obtain ⟨c, rows⟩ := B
    dsimp only at h2
    subst h2
    rw [(hm lambda).gradient _ h3 yb (by rw [h5, h4]) w, h6]
    have hl := blockOf_length X.rows y start b d (by rw [hr, hy]) h
    congr 2
    funext j
    dsimp only
    unfold gradOf average
    rw [List.length_map]
    erw [hl]
  · rw [(hm _).gradient X hX y hy w]
    congr 2
    funext j
    unfold gradOf average
    rw [List.length_map, hzl]
    field_simp
  · simp only [add_sub_add_right_eq_sub]
    have one : ∀ i < X.ncols, shareOf (fun d : Draws X.nrows => t ≤
        |average ((blockOf X.rows y start b (permutation d.seq X.nrows)).map fun p => dphi p.2 (score p.1 w) * p.1.getD i 0) -
          average ((X.rows.zip y).map fun p => dphi p.2 (score p.1 w) * p.1.getD i 0)|) ≤
        2 * Real.exp (-(b * t ^ 2 / (2 * B ^ 2))) := fun i hi =>
      blockOf_tail X.rows y (by rw [hr, hy]) (fun p => dphi p.2 (score p.1 w) * p.1.getD i 0) B hB (fun p hp => hd p hp ⟨i, hi⟩)
        start b hb h t ht
    have := HoldOut.shareOf_exists _ _ X.ncols one
    refine (HoldOut.shareOf_mono ?_).trans (this.trans (le_of_eq (by ring)))
    rintro d ⟨j, hj⟩
    exact ⟨j.1, j.2, hj⟩

end

end Sampling

open Sampling

namespace GradientTail

/-- 400 samples with the features 1 and 1 or -1. -/
noncomputable def signRows : DMat ℝ := ⟨2, (List.range 400).map fun i => [1, if i % 2 = 0 then 1 else -1]⟩

/-- Labels 0 and 1. -/
noncomputable def signLabels : List ℝ := (List.range 400).map fun i => if i % 3 = 0 then 1 else 0

theorem signRows_wf : signRows.WF := by
  intro r hr
  obtain ⟨i, _, rfl⟩ := List.mem_map.mp hr
  rfl

theorem signRows_nrows : signRows.nrows = 400 := by simp [signRows, DMat.nrows]

theorem signRows_le : ∀ r ∈ signRows.rows, ∀ a ∈ r, |a| ≤ 1 := by
  intro r hr a ha
  obtain ⟨i, _, rfl⟩ := List.mem_map.mp hr
  rcases List.mem_cons.mp ha with rfl | ha
  · simp
  · rw [List.mem_singleton.mp ha]
    split <;> simp

theorem signLabels_le : ∀ a ∈ signLabels, 0 ≤ a ∧ a ≤ 1 := by
  intro a ha
  obtain ⟨i, _, rfl⟩ := List.mem_map.mp ha
  split <;> norm_num

end GradientTail

open GradientTail

/-- C182, logistic regression: labels between 0 and 1 and features of size at most `B`. The share of the shuffles for which some entry of the
gradient of a mini-batch of `b` samples differs by `t` or more from that of the gradient of all samples (with the ridge parameter enlarged by
the number of samples over the batch size, see C152) is at most `2 d exp (-b t^2 / (2 B^2))` for `d` features. -/
theorem C182_log (lambda : ℝ) (X : DMat ℝ) (hX : X.WF) (y : List ℝ) (hy : y.length = X.nrows) (w : Fin X.ncols → ℝ)
    (start b : Nat) (hb : 0 < b) (h : start + b ≤ X.nrows) (B : ℝ) (hB : 0 < B) (hf : ∀ r ∈ X.rows, ∀ a ∈ r, |a| ≤ B)
    (h01 : ∀ a ∈ y, 0 ≤ a ∧ a ≤ 1) (t : ℝ) (ht : 0 < t) : ∃ (G : Draws X.nrows → Fin X.ncols → ℝ) (g : Fin X.ncols → ℝ),
    (∀ d, (randomBatch X y start b d >>= fun B => logGradient lambda B.1 B.2 (List.ofFn w)) = .ok (List.ofFn (G d))) ∧
    logGradient (lambda * (X.nrows / b)) X y (List.ofFn w) = .ok (List.ofFn g) ∧
    shareOf (fun d => ∃ j, t ≤ |G d j - g j|) ≤ 2 * X.ncols * Real.exp (-(b * t ^ 2 / (2 * B ^ 2))) := by
  refine gradient_tail isMean_log lambda X hX y hy w start b hb h B hB (fun p hp j => ?_) t ht
  obtain ⟨hp1, hp2⟩ := List.of_mem_zip hp
  have hj : (j : Nat) < p.1.length := by rw [hX _ hp1]; exact j.2
  have h1 : |p.1.getD j 0| ≤ B := by
    rw [List.getD_eq_getElem?_getD, List.getElem?_eq_getElem hj, Option.getD_some]
    exact hf _ hp1 _ (List.getElem_mem _)
  have h2 : |Real.sigmoid (score p.1 w) - p.2| ≤ 1 := by
    have := h01 _ hp2
    have s0 := Real.sigmoid_pos (score p.1 w)
    have s1 := Real.sigmoid_lt_one (score p.1 w)
    rw [abs_le]
    constructor <;> linarith [this.1, this.2]
  rw [abs_mul]
  calc _ ≤ 1 * B := mul_le_mul h2 h1 (abs_nonneg _) zero_le_one
    _ = B := one_mul B

/-- Example for `C182_log`: batches of 200 of 400 samples with features 1 and -1: for at most `4 exp (-25)` of the shuffles an entry of the
gradient of a batch is wrong by 1/2 or more. -/
example (lambda : ℝ) (w : Fin signRows.ncols → ℝ) : ∃ (G : Draws signRows.nrows → Fin signRows.ncols → ℝ) (g : Fin signRows.ncols → ℝ),
    (∀ d, (randomBatch signRows signLabels 100 200 d >>= fun B => logGradient lambda B.1 B.2 (List.ofFn w)) = .ok (List.ofFn (G d))) ∧
    logGradient (lambda * (400 / 200)) signRows signLabels (List.ofFn w) = .ok (List.ofFn g) ∧
    shareOf (fun d => ∃ j, 1 / 2 ≤ |G d j - g j|) ≤ 4 * Real.exp (-25) := by
  obtain ⟨G, g, h1, h2, h3⟩ := C182_log lambda signRows signRows_wf signLabels (by rw [signRows_nrows]; simp [signLabels]) w 100 200
    (by norm_num) (by rw [signRows_nrows]; norm_num) 1 one_pos signRows_le signLabels_le (1 / 2) (by norm_num)
  refine ⟨G, g, h1, ?_, h3.trans (le_of_eq ?_)⟩
  · rw [signRows_nrows] at h2
    push_cast at h2
    exact h2
  · norm_num [signRows]

/-- C182, linear regression: the same for the squared error at weights whose errors on the samples are at most `E`, with `E B` for `B`. -/
theorem C182_mse (lambda : ℝ) (X : DMat ℝ) (hX : X.WF) (y : List ℝ) (hy : y.length = X.nrows) (w : Fin X.ncols → ℝ)
    (start b : Nat) (hb : 0 < b) (h : start + b ≤ X.nrows) (B E : ℝ) (hB : 0 < B) (hE : 0 < E) (hf : ∀ r ∈ X.rows, ∀ a ∈ r, |a| ≤ B)
    (he : ∀ p ∈ X.rows.zip y, |score p.1 w - p.2| ≤ E) (t : ℝ) (ht : 0 < t) :
    ∃ (G : Draws X.nrows → Fin X.ncols → ℝ) (g : Fin X.ncols → ℝ),
    (∀ d, (randomBatch X y start b d >>= fun B => mseGradient lambda B.1 B.2 (List.ofFn w)) = .ok (List.ofFn (G d))) ∧
    mseGradient (lambda * (X.nrows / b)) X y (List.ofFn w) = .ok (List.ofFn g) ∧
    shareOf (fun d => ∃ j, t ≤ |G d j - g j|) ≤ 2 * X.ncols * Real.exp (-(b * t ^ 2 / (2 * (E * B) ^ 2))) := by
  refine gradient_tail isMean_mse lambda X hX y hy w start b hb h (E * B) (by positivity) (fun p hp j => ?_) t ht
  obtain ⟨hp1, hp2⟩ := List.of_mem_zip hp
  have hj : (j : Nat) < p.1.length := by rw [hX _ hp1]; exact j.2
  have h1 : |p.1.getD j 0| ≤ B := by
    rw [List.getD_eq_getElem?_getD, List.getElem?_eq_getElem hj, Option.getD_some]
    exact hf _ hp1 _ (List.getElem_mem _)
  rw [abs_mul]
  exact mul_le_mul (he p hp) h1 (abs_nonneg _) hE.le

/-- Example for `C182_mse`: the same data and the weights 0, whose errors are at most 1. -/
example (lambda : ℝ) : ∃ (G : Draws signRows.nrows → Fin signRows.ncols → ℝ) (g : Fin signRows.ncols → ℝ),
    (∀ d, (randomBatch signRows signLabels 100 200 d >>= fun B => mseGradient lambda B.1 B.2 (List.ofFn fun _ : Fin signRows.ncols => 0)) =
      .ok (List.ofFn (G d))) ∧
    mseGradient (lambda * (400 / 200)) signRows signLabels (List.ofFn fun _ : Fin signRows.ncols => 0) = .ok (List.ofFn g) ∧
    shareOf (fun d => ∃ j, 1 / 2 ≤ |G d j - g j|) ≤ 4 * Real.exp (-25) := by
  obtain ⟨G, g, h1, h2, h3⟩ := C182_mse lambda signRows signRows_wf signLabels (by rw [signRows_nrows]; simp [signLabels]) (fun _ => 0) 100 200
    (by norm_num) (by rw [signRows_nrows]; norm_num) 1 1 one_pos one_pos signRows_le (fun p hp => by
      have := signLabels_le _ (List.of_mem_zip hp).2
      have e : score p.1 (fun _ : Fin signRows.ncols => (0 : ℝ)) = 0 := by simp [score]
      rw [e, zero_sub, abs_neg, abs_of_nonneg this.1]
      exact this.2) (1 / 2) (by norm_num)
  refine ⟨G, g, h1, ?_, h3.trans (le_of_eq ?_)⟩
  · rw [signRows_nrows] at h2
    push_cast at h2
    exact h2
  · norm_num [signRows]

end OpenML
