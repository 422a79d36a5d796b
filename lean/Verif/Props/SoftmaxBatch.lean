import Verif.Props.GradientTail
import Verif.Lemmas.SoftmaxMinimum

/-!
# Mini-batch gradients of the softmax loss (C186)
-/

namespace OpenML

open Spec Loss SGD Data Random Softmax Sampling

namespace SoftmaxBatch

variable {d k : Nat}

/-- The part of one sample in an entry of the gradient. -/
noncomputable def part (w : Fin d → Fin k → ℝ) (f : Fin d) (c : Fin k) (p : List ℝ × ℝ) : ℝ :=
  (Real.exp (cscore w p.1 c) / (∑ b, Real.exp (cscore w p.1 b)) - if ((c.val : Nat) : ℝ) = p.2 then 1 else 0) * p.1.getD f 0

theorem zip_part (w : Fin d → Fin k → ℝ) (f : Fin d) (c : Fin k) (rows : List (List ℝ)) (labels : List (Fin k)) :
    ((rows.zip labels).map fun p => (Real.exp (cscore w p.1 c) / ∑ b, Real.exp (cscore w p.1 b) - if c = p.2 then 1 else 0) *
      p.1.getD f 0) = (rows.zip (labelVec labels)).map (part w f c) := by
  unfold labelVec
  rw [List.zip_map_right, List.map_map]
  refine List.map_congr_left fun p _ => ?_
  have : (((c.val : Nat) : ℝ) = ((p.2.val : Nat) : ℝ)) ↔ c = p.2 := by
    rw [Nat.cast_inj, Fin.ext_iff]
  simp only [part, Function.comp_apply, Prod.map_fst, Prod.map_snd, id, this]

/-- The gradient on samples with labels that are class numbers. -/
theorem gradient_part (lambda : ℝ) (X : DMat ℝ) (hX : X.WF) (hn : 0 < X.nrows) (y : List ℝ) (hy : y.length = X.nrows)
    (hc : ∀ a ∈ y, ∃ c : Fin k, a = ((c.val : Nat) : ℝ)) (w : Fin X.ncols → Fin k → ℝ) :
    softmaxGradient lambda X y (toDMat w) =
      .ok (toDMat fun f c => average ((X.rows.zip y).map (part w f c)) + w f c / X.nrows * lambda) := by
  obtain ⟨labels, rfl⟩ := exists_labels y hc
  rw [labelVec_length] at hy
  have hk : 0 < k := by
    obtain ⟨c, l, rfl⟩ := List.exists_cons_of_length_pos (by omega : 0 < labels.length)
    exact lt_of_le_of_lt (Nat.zero_le _) c.isLt
  have hne : X.rows ≠ [] := List.ne_nil_of_length_pos hn
  rw [softmaxGradient_eq hk lambda X hX hne labels hy w]
  congr 2
  funext f c
  unfold softmaxGrad average
  rw [zip_part, List.length_map, List.length_zip, labelVec_length, hy]
  change _ = _ / ((min X.nrows X.nrows : Nat) : ℝ) + _
  rw [Nat.min_self]

theorem part_le (w : Fin d → Fin k → ℝ) (f : Fin d) (c : Fin k) (p : List ℝ × ℝ) (B : ℝ) (hB : |p.1.getD f 0| ≤ B) :
    |part w f c p| ≤ B := by
  have hpos : 0 < ∑ b, Real.exp (cscore w p.1 b) := Finset.sum_pos (fun c _ => Real.exp_pos _) ⟨c, Finset.mem_univ _⟩
  have h0 : 0 ≤ Real.exp (cscore w p.1 c) / ∑ b, Real.exp (cscore w p.1 b) := div_nonneg (Real.exp_pos _).le hpos.le
  have h1 : Real.exp (cscore w p.1 c) / ∑ b, Real.exp (cscore w p.1 b) ≤ 1 := by
    rw [div_le_one hpos]
    exact Finset.single_le_sum (f := fun b => Real.exp (cscore w p.1 b)) (fun b _ => (Real.exp_pos _).le) (Finset.mem_univ c)
  unfold part
  rw [abs_mul]
  calc _ ≤ 1 * B := by
        refine mul_le_mul ?_ hB (abs_nonneg _) zero_le_one
        rw [abs_le]
        split <;> constructor <;> linarith
    _ = B := one_mul B

end SoftmaxBatch

open SoftmaxBatch

/-- C186: mini-batches of `b` samples for softmax regression with labels that are class numbers, with uniform random numbers behind the shuffle.
The mean of the gradient of a batch is the gradient of all `n` samples with the parameter of the penalty multiplied by `n / b`. For features
of size at most `B` the share of the shuffles for which some entry of the gradient of the batch differs by `t` or more from its mean is at
most `2 d k exp (-b t^2 / (2 B^2))` for `d` features and `k` classes. -/
theorem C186_gradient {k : Nat} (lambda : ℝ) (X : DMat ℝ) (hX : X.WF) (y : List ℝ) (hy : y.length = X.nrows)
    (hc : ∀ a ∈ y, ∃ c : Fin k, a = ((c.val : Nat) : ℝ)) (w : Fin X.ncols → Fin k → ℝ) (start b : Nat) (hb : 0 < b)
    (h : start + b ≤ X.nrows) : ∃ G : Draws X.nrows → Fin X.ncols → Fin k → ℝ,
    (∀ d, (randomBatch X y start b d >>= fun B => softmaxGradient lambda B.1 B.2 (toDMat w)) = .ok (toDMat (G d))) ∧
    softmaxGradient (lambda * (X.nrows / b)) X y (toDMat w) = .ok (toDMat fun f c => averageDraws fun d => G d f c) ∧
    ∀ B : ℝ, 0 < B → (∀ r ∈ X.rows, ∀ a ∈ r, |a| ≤ B) → ∀ t : ℝ, 0 < t →
      shareOf (fun d => ∃ f c, t ≤ |G d f c - averageDraws fun d => G d f c|) ≤
        2 * X.ncols * k * Real.exp (-(b * t ^ 2 / (2 * B ^ 2))) := by
  have hb0 : (b : ℝ) ≠ 0 := by exact_mod_cast hb.ne'
  have hn : 0 < X.nrows := by omega
  have hn0 : (X.nrows : ℝ) ≠ 0 := by exact_mod_cast hn.ne'
  have hr : X.rows.length = X.nrows := rfl
  have hxy : X.rows.length = y.length := by rw [hr, hy]
  have hmean : ∀ f c, averageDraws (fun d : Draws X.nrows => average ((blockOf X.rows y start b (permutation d.seq X.nrows)).map
      (part w f c)) + w f c / b * lambda) = average ((X.rows.zip y).map (part w f c)) + w f c / b * lambda := by
    intro f c
    rw [averageDraws_add]
    congr 1
    exact blockOf_mean X.rows y hxy (part w f c) start b hb h
  refine ⟨fun d f c => average ((blockOf X.rows y start b (permutation d.seq X.nrows)).map (part w f c)) + w f c / b * lambda,
    fun d => ?_, ?_, ?_⟩
  · obtain ⟨B, yb, h1, h2, h3, h4, h5, h6⟩ := randomBatch_eq X hX y hy start b h d
    rw [h1, Res.bind_ok]
    obtain ⟨n, rows⟩ := B
    dsimp only at h2
    subst h2
    have hcb : ∀ a ∈ yb, ∃ c : Fin k, a = ((c.val : Nat) : ℝ) := by
      intro a ha
      obtain ⟨i, hi, rfl⟩ := List.getElem_of_mem ha
      have hi' : i < rows.length := by
        have : rows.length = b := h4
        omega
      have hm : (rows[i], yb[i]) ∈ rows.zip yb := by
        rw [← List.getElem_zip (h := by rw [List.length_zip]; omega)]
        exact List.getElem_mem _
      have h6' : rows.zip yb = blockOf X.rows y start b (permutation d.seq X.nrows) := h6
      rw [h6'] at hm
      have hzl : (X.rows.zip y).length = X.nrows := by rw [List.length_zip, hy]; exact Nat.min_self _
      have hp : (permutation d.seq X.nrows).Perm (List.range (X.rows.zip y).length) := by
        rw [hzl]; exact permutation_perm d.seq X.nrows
      have := (scatter_perm _ (X.rows.zip y) hp).mem_iff.mp (List.mem_of_mem_drop (List.mem_of_mem_take hm))
      exact hc _ (List.of_mem_zip this).2
    rw [gradient_part lambda ⟨X.ncols, rows⟩ h3 (by rw [h4]; exact hb) yb (by rw [h5, h4]) hcb w, h4]
    rw [h6]
  · rw [gradient_part _ X hX hn y hy hc w]
    congr 2
    funext f c
    rw [hmean f c]
    field_simp
  · intro B hB hf t ht
    simp only [hmean, add_sub_add_right_eq_sub]
    have one : ∀ f : Fin X.ncols, ∀ c : Fin k, shareOf (fun d : Draws X.nrows => t ≤
        |average ((blockOf X.rows y start b (permutation d.seq X.nrows)).map (part w f c)) - average ((X.rows.zip y).map (part w f c))|) ≤
        2 * Real.exp (-(b * t ^ 2 / (2 * B ^ 2))) := fun f c =>
      blockOf_tail X.rows y hxy (part w f c) B hB (fun p hp => by
        refine part_le w f c p B ?_
        obtain ⟨hp1, _⟩ := List.of_mem_zip hp
        have hj : (f : Nat) < p.1.length := by rw [hX _ hp1]; exact f.2
        rw [List.getD_eq_getElem?_getD, List.getElem?_eq_getElem hj, Option.getD_some]
        exact hf _ hp1 _ (List.getElem_mem _)) start b hb h t ht
    have two : ∀ i < X.ncols, shareOf (fun d : Draws X.nrows => ∃ hi : i < X.ncols, ∃ j < k, ∃ hj : j < k, t ≤
        |average ((blockOf X.rows y start b (permutation d.seq X.nrows)).map (part w ⟨i, hi⟩ ⟨j, hj⟩)) -
          average ((X.rows.zip y).map (part w ⟨i, hi⟩ ⟨j, hj⟩))|) ≤ k * (2 * Real.exp (-(b * t ^ 2 / (2 * B ^ 2)))) := by
      intro i hi
      refine (HoldOut.shareOf_mono ?_).trans (HoldOut.shareOf_exists (fun j d => ∃ hj : j < k, t ≤
        |average ((blockOf X.rows y start b (permutation d.seq X.nrows)).map (part w ⟨i, hi⟩ ⟨j, hj⟩)) -
          average ((X.rows.zip y).map (part w ⟨i, hi⟩ ⟨j, hj⟩))|) _ k fun j hj => ?_)
      · rintro d ⟨_, hd⟩
        exact hd
      · refine (HoldOut.shareOf_mono ?_).trans (one ⟨i, hi⟩ ⟨j, hj⟩)
        rintro d ⟨_, hd⟩
        exact hd
    refine (HoldOut.shareOf_mono ?_).trans ((HoldOut.shareOf_exists _ _ X.ncols two).trans (le_of_eq (by ring)))
    rintro d ⟨f, c, hd⟩
    exact ⟨f.1, f.2, f.2, c.1, c.2, c.2, hd⟩

namespace SoftmaxBatch

/-- Labels 0, 1 and 2. -/
noncomputable def threeLabels : List ℝ := (List.range 400).map fun i => ((i % 3 : Nat) : ℝ)

theorem threeLabels_class : ∀ a ∈ threeLabels, ∃ c : Fin 3, a = ((c.val : Nat) : ℝ) := by
  intro a ha
  obtain ⟨i, _, rfl⟩ := List.mem_map.mp ha
  exact ⟨⟨i % 3, Nat.mod_lt _ (by norm_num)⟩, rfl⟩

end SoftmaxBatch

/-- Example for `C186_gradient`: batches of 200 of 400 samples of three classes with two features 1 or -1: for at most `12 exp (-25)` of the
shuffles an entry of the gradient of a batch is wrong by 1/2 or more, at all weights. -/
example (lambda : ℝ) (w : Fin GradientTail.signRows.ncols → Fin 3 → ℝ) :
    ∃ G : Draws GradientTail.signRows.nrows → Fin GradientTail.signRows.ncols → Fin 3 → ℝ,
    (∀ d, (randomBatch GradientTail.signRows threeLabels 100 200 d >>= fun B => softmaxGradient lambda B.1 B.2 (toDMat w)) =
      .ok (toDMat (G d))) ∧
    shareOf (fun d => ∃ f c, 1 / 2 ≤ |G d f c - averageDraws fun d => G d f c|) ≤ 12 * Real.exp (-25) := by
  obtain ⟨G, h1, -, h3⟩ := C186_gradient lambda GradientTail.signRows GradientTail.signRows_wf threeLabels
    (by rw [GradientTail.signRows_nrows]; simp [threeLabels]) threeLabels_class w 100 200 (by norm_num)
    (by rw [GradientTail.signRows_nrows]; norm_num)
  refine ⟨G, h1, (h3 1 one_pos GradientTail.signRows_le (1 / 2) (by norm_num)).trans (le_of_eq ?_)⟩
  norm_num [GradientTail.signRows]

end OpenML
