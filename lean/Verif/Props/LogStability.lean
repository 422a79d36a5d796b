import Verif.Lemmas.LogStability
import Verif.Props.LinearFit

/-!
# C167: stability of penalised logistic regression, and what follows for samples not trained on
-/

namespace OpenML

open Spec Loss LogStability LinearFit

namespace LogStability

theorem gap_comm {d : Nat} (v w : Fin d → ℝ) : gap (List.ofFn v) (List.ofFn w) = gap (List.ofFn w) (List.ofFn v) := by
  rw [gap_norm, gap_norm, norm_sub_rev]

theorem sigmoid_gap (s t : ℝ) : |Real.sigmoid s - Real.sigmoid t| ≤ 1 / 4 * |s - t| := by
  rcases le_total s t with h | h
  · have h1 := Descent.sigmoid_step s t h
    rw [abs_sub_comm, abs_of_nonneg (sub_nonneg.mpr (Real.sigmoid_monotone h)), abs_sub_comm s t, abs_of_nonneg (sub_nonneg.mpr h)]
    exact h1
  · have h1 := Descent.sigmoid_step t s h
    rw [abs_of_nonneg (sub_nonneg.mpr (Real.sigmoid_monotone h)), abs_of_nonneg (sub_nonneg.mpr h)]
    exact h1

theorem score_gap {d : Nat} (x : List ℝ) (hx : x.length = d) (v w : Fin d → ℝ) :
    |score x v - score x w| ≤ rowSize x * gap (List.ofFn v) (List.ofFn w) := by
  rw [score_inner, score_inner, ← inner_sub_right, gap_norm, ← norm_feat x hx]
  exact abs_real_inner_le_norm _ _

/-- The log loss of one sample changes by at most the change of the score. -/
theorem crossEntropy_gap (y s t : ℝ) (h0 : 0 ≤ y) (h1 : y ≤ 1) : crossEntropy y s - crossEntropy y t ≤ |s - t| := by
  have h2 := crossEntropy_tangent y s t
  have h3 : (Real.sigmoid s - y) * (s - t) ≤ |s - t| := by
    refine (le_abs_self _).trans ?_
    rw [abs_mul]
    refine mul_le_of_le_one_left (abs_nonneg _) ?_
    rw [abs_le]
    constructor <;> linarith [Real.sigmoid_pos s, Real.sigmoid_lt_one s]
  linarith [mul_sub (Real.sigmoid s - y) t s, mul_sub (Real.sigmoid s - y) s t]

theorem gradient_total {d : Nat} (lambda : ℝ) (l : List (List ℝ × ℝ)) (h : ∀ p ∈ l, ProperSample d p) (w : Fin d → ℝ) :
    ∃ g, logGradient lambda (featuresOf d l) (labelsOf l) (List.ofFn w) = .ok g :=
  ⟨_, logGradient_eq lambda (featuresOf d l) (featuresOf_wf h) (labelsOf l) (labelsOf_length l) w⟩

theorem minimum_exists {d : Nat} (lambda : ℝ) (hl : 0 < lambda) (l : List (List ℝ × ℝ)) (hne : l ≠ []) (h : ∀ p ∈ l, ProperSample d p) :
    ∃ v m, Minimises (logEvaluate lambda (featuresOf d l) (labelsOf l)) v m := by
  obtain ⟨v, m, h1, -⟩ := C125_log lambda hl (featuresOf d l) (featuresOf_wf h) (by simpa [featuresOf] using hne) (labelsOf l)
    (labelsOf_length l)
  exact ⟨v, m, h1⟩

/-- Two features, three samples for the examples. -/
def some3 : List (List ℝ × ℝ) := [([1, 2], 0), ([3, -1], 1), ([0, 5], 1)]

theorem some3_proper : ∀ p ∈ some3, ProperSample 2 p := by
  intro p hp
  simp only [some3, List.mem_cons, List.not_mem_nil, or_false] at hp
  rcases hp with rfl | rfl | rfl <;> norm_num [ProperSample]

end LogStability

/-- C167: weights reached on two training sets that differ in one sample. Their distance is bounded by the lengths of the two samples
and of the gradients, divided by the penalty. -/
theorem C167_replace {d : Nat} (lambda : ℝ) (a b : List (List ℝ × ℝ)) (p q : List ℝ × ℝ)
    (ha : ∀ s ∈ a, ProperSample d s) (hb : ∀ s ∈ b, ProperSample d s) (hp : ProperSample d p) (hq : ProperSample d q) (v w g h : List ℝ)
    (hg : logGradient lambda (featuresOf d (a ++ p :: b)) (labelsOf (a ++ p :: b)) v = .ok g)
    (hh : logGradient lambda (featuresOf d (a ++ q :: b)) (labelsOf (a ++ q :: b)) w = .ok h) :
    lambda * gap v w ≤ rowSize p.1 + rowSize q.1 + (a.length + b.length + 1) * (rowSize g + rowSize h) := by
  have hs : ∀ p, ProperSample d p → ∀ s ∈ a ++ p :: b, ProperSample d s := by
    intro p hp s hs
    rcases List.mem_append.mp hs with hs | hs
    · exact ha s hs
    · rcases List.mem_cons.mp hs with rfl | hs
      · exact hp
      · exact hb s hs
  obtain ⟨v, rfl, h1⟩ := gradient_ok lambda _ (hs p hp) (by simp) v g hg
  obtain ⟨w, rfl, h2⟩ := gradient_ok lambda _ (hs q hq) (by simp) w h hh
  rw [gap_norm]
  refine (force_gap lambda (a ++ p :: b) (vec v) (vec w)).trans ?_
  have h3 : force d lambda (a ++ p :: b) (vec v) - force d lambda (a ++ p :: b) (vec w) =
      force d lambda (a ++ p :: b) (vec v) - force d lambda (a ++ q :: b) (vec w) + pull d q (vec w) - pull d p (vec w) := by
    rw [force_split lambda a b p (vec w), force_split lambda a b q (vec w)]
    abel
  rw [h3]
  have h4 := norm_sub_le (force d lambda (a ++ p :: b) (vec v) - force d lambda (a ++ q :: b) (vec w) + pull d q (vec w)) (pull d p (vec w))
  have h5 := norm_add_le (force d lambda (a ++ p :: b) (vec v) - force d lambda (a ++ q :: b) (vec w)) (pull d q (vec w))
  have h6 := norm_sub_le (force d lambda (a ++ p :: b) (vec v)) (force d lambda (a ++ q :: b) (vec w))
  have h7 := pull_le p hp (vec w)
  have h8 := pull_le q hq (vec w)
  rw [h1, h2] at h6
  have h9 : ∀ r : List ℝ × ℝ, (((a ++ r :: b).length : Nat) : ℝ) = a.length + b.length + 1 := by
    intro r
    simp only [List.length_append, List.length_cons]
    push_cast
    ring
  rw [h9, h9] at h6
  linarith

example : ∃ v w g h, logGradient 1 (featuresOf 2 (some3 ++ ([1, 1], 0) :: [])) (labelsOf (some3 ++ ([1, 1], 0) :: [])) v = .ok g ∧
    logGradient 1 (featuresOf 2 (some3 ++ ([4, 4], 1) :: [])) (labelsOf (some3 ++ ([4, 4], 1) :: [])) w = .ok h := by
  obtain ⟨g, hg⟩ := gradient_total 1 (some3 ++ ([1, 1], 0) :: []) (d := 2) (fun p hp => by
    rcases List.mem_append.mp hp with hp | hp
    · exact some3_proper p hp
    · rw [List.mem_singleton.mp hp]; norm_num [ProperSample]) fun j => j
  obtain ⟨h, hh⟩ := gradient_total 1 (some3 ++ ([4, 4], 1) :: []) (d := 2) (fun p hp => by
    rcases List.mem_append.mp hp with hp | hp
    · exact some3_proper p hp
    · rw [List.mem_singleton.mp hp]; norm_num [ProperSample]) fun _ => 3
  exact ⟨_, _, g, h, hg, hh⟩

/-- C167: the same if the sample is left out. The number of samples does not matter, since the penalty is divided by it. -/
theorem C167_remove {d : Nat} (lambda : ℝ) (a b : List (List ℝ × ℝ)) (p : List ℝ × ℝ) (hne : a ++ b ≠ [])
    (ha : ∀ s ∈ a, ProperSample d s) (hb : ∀ s ∈ b, ProperSample d s) (hp : ProperSample d p) (v w g h : List ℝ)
    (hg : logGradient lambda (featuresOf d (a ++ p :: b)) (labelsOf (a ++ p :: b)) v = .ok g)
    (hh : logGradient lambda (featuresOf d (a ++ b)) (labelsOf (a ++ b)) w = .ok h) :
    lambda * gap v w ≤ rowSize p.1 + (a.length + b.length + 1) * rowSize g + (a.length + b.length) * rowSize h := by
  have hs : ∀ s ∈ a ++ p :: b, ProperSample d s := by
    intro s hs
    rcases List.mem_append.mp hs with hs | hs
    · exact ha s hs
    · rcases List.mem_cons.mp hs with rfl | hs
      · exact hp
      · exact hb s hs
  obtain ⟨v, rfl, h1⟩ := gradient_ok lambda _ hs (by simp) v g hg
  obtain ⟨w, rfl, h2⟩ := gradient_ok lambda _ (fun s hs => (List.mem_append.mp hs).elim (ha s) (hb s)) hne w h hh
  rw [gap_norm]
  refine (force_gap lambda (a ++ p :: b) (vec v) (vec w)).trans ?_
  rw [force_split lambda a b p (vec w), ← sub_sub]
  have h5 := norm_sub_le (force d lambda (a ++ p :: b) (vec v) - force d lambda (a ++ b) (vec w)) (pull d p (vec w))
  have h6 := norm_sub_le (force d lambda (a ++ p :: b) (vec v)) (force d lambda (a ++ b) (vec w))
  have h7 := pull_le p hp (vec w)
  rw [h1, h2] at h6
  simp only [List.length_append, List.length_cons] at h6
  push_cast at h6
  have h8 : ((a.length : ℝ) + (b.length + 1)) * rowSize g = (a.length + b.length + 1) * rowSize g := by ring
  linarith

example : ∃ v w g h, logGradient 1 (featuresOf 2 (some3 ++ ([1, 1], 0) :: [])) (labelsOf (some3 ++ ([1, 1], 0) :: [])) v = .ok g ∧
    logGradient 1 (featuresOf 2 (some3 ++ [])) (labelsOf (some3 ++ [])) w = .ok h := by
  obtain ⟨g, hg⟩ := gradient_total 1 (some3 ++ ([1, 1], 0) :: []) (d := 2) (fun p hp => by
    rcases List.mem_append.mp hp with hp | hp
    · exact some3_proper p hp
    · rw [List.mem_singleton.mp hp]; norm_num [ProperSample]) fun j => j
  obtain ⟨h, hh⟩ := gradient_total 1 (some3 ++ []) (d := 2) (by rw [List.append_nil]; exact some3_proper) fun _ => 3
  exact ⟨_, _, g, h, hg, hh⟩

/-- C167: if only the label of one sample changes, the change of the label bounds the effect. -/
theorem C167_label {d : Nat} (lambda : ℝ) (a b : List (List ℝ × ℝ)) (x : List ℝ) (s t : ℝ)
    (ha : ∀ s ∈ a, ProperSample d s) (hb : ∀ s ∈ b, ProperSample d s) (hs : ProperSample d (x, s)) (ht : ProperSample d (x, t))
    (v w : List ℝ) (m n : ℝ) (hv : Minimises (logEvaluate lambda (featuresOf d (a ++ (x, s) :: b)) (labelsOf (a ++ (x, s) :: b))) v m)
    (hw : Minimises (logEvaluate lambda (featuresOf d (a ++ (x, t) :: b)) (labelsOf (a ++ (x, t) :: b))) w n) :
    lambda * gap v w ≤ |s - t| * rowSize x := by
  have hp : ∀ p, ProperSample d p → ∀ s ∈ a ++ p :: b, ProperSample d s := by
    intro p hp s hs
    rcases List.mem_append.mp hs with hs | hs
    · exact ha s hs
    · rcases List.mem_cons.mp hs with rfl | hs
      · exact hp
      · exact hb s hs
  obtain ⟨v, rfl, h1⟩ := minimum_force lambda _ (hp _ hs) (by simp) v m hv
  obtain ⟨w, rfl, h2⟩ := minimum_force lambda _ (hp _ ht) (by simp) w n hw
  rw [gap_norm]
  refine (force_gap lambda (a ++ (x, s) :: b) (vec v) (vec w)).trans ?_
  rw [force_split] at h2
  rw [h1, force_split, zero_sub, norm_neg]
  have h3 : force d lambda (a ++ b) (vec w) + pull d (x, s) (vec w) = (t - s) • feat d x := by
    have h4 : force d lambda (a ++ b) (vec w) = -pull d (x, t) (vec w) := eq_neg_of_add_eq_zero_left h2
    rw [h4]
    unfold pull
    rw [← neg_smul, ← add_smul]
    congr 1
    ring
  rw [h3, norm_smul, norm_feat x hs.1, Real.norm_eq_abs, abs_sub_comm]

example : ∃ v w m n, Minimises (logEvaluate 1 (featuresOf 2 (some3 ++ ([1, 1], 0) :: [])) (labelsOf (some3 ++ ([1, 1], 0) :: []))) v m ∧
    Minimises (logEvaluate 1 (featuresOf 2 (some3 ++ ([1, 1], 1) :: [])) (labelsOf (some3 ++ ([1, 1], 1) :: []))) w n := by
  obtain ⟨v, m, hv⟩ := minimum_exists 1 one_pos (some3 ++ ([1, 1], 0) :: []) (d := 2) (by simp) (fun p hp => by
    rcases List.mem_append.mp hp with hp | hp
    · exact some3_proper p hp
    · rw [List.mem_singleton.mp hp]; norm_num [ProperSample])
  obtain ⟨w, n, hw⟩ := minimum_exists 1 one_pos (some3 ++ ([1, 1], 1) :: []) (d := 2) (by simp) (fun p hp => by
    rcases List.mem_append.mp hp with hp | hp
    · exact some3_proper p hp
    · rw [List.mem_singleton.mp hp]; norm_num [ProperSample])
  exact ⟨v, w, m, n, hv, hw⟩

/-- C167: how the minimising weights depend on the penalty: continuously, and a larger penalty never gives longer weights or a smaller
mean log loss on the training data. -/
theorem C167_penalty {d : Nat} (lambda mu : ℝ) (hl : 0 < lambda) (l : List (List ℝ × ℝ)) (hne : l ≠ []) (h : ∀ s ∈ l, ProperSample d s)
    (v w : List ℝ) (m n : ℝ) (hv : Minimises (logEvaluate lambda (featuresOf d l) (labelsOf l)) v m)
    (hw : Minimises (logEvaluate mu (featuresOf d l) (labelsOf l)) w n) :
    lambda * gap v w ≤ |mu - lambda| * rowSize w ∧
    (lambda < mu → rowSize w ≤ rowSize v ∧
      ∀ e f, logEvaluate 0 (featuresOf d l) (labelsOf l) v = .ok e → logEvaluate 0 (featuresOf d l) (labelsOf l) w = .ok f → e ≤ f) := by
  constructor
  · obtain ⟨v, rfl, h1⟩ := minimum_force lambda l h hne v m hv
    obtain ⟨w, rfl, h2⟩ := minimum_force mu l h hne w n hw
    rw [gap_norm]
    refine (force_gap lambda l (vec v) (vec w)).trans ?_
    rw [h1, force_lambda lambda mu l (vec w), h2, zero_add, zero_sub, norm_neg, norm_smul, norm_vec, Real.norm_eq_abs, abs_sub_comm]
  · intro hlt
    obtain ⟨v, rfl, rfl, h1⟩ := minimum_ok lambda l h v m hv
    obtain ⟨w, rfl, rfl, h2⟩ := minimum_ok mu l h w n hw
    have hn : (0 : ℝ) < l.length := by exact_mod_cast List.length_pos_of_ne_nil hne
    have h3 := h1 w
    have h4 := h2 v
    have h5 : ridgeTerm l.length w ≤ ridgeTerm l.length v := by nlinarith
    constructor
    · rw [← norm_vec, ← norm_vec, EuclideanSpace.norm_eq, EuclideanSpace.norm_eq]
      apply Real.sqrt_le_sqrt
      unfold ridgeTerm at h5
      rw [div_le_div_iff_of_pos_right (by positivity)] at h5
      simpa [vec] using h5
    · intro e f he hf
      rw [evaluate_ok 0 l h] at he hf
      simp only [zero_mul, add_zero, Res.ok.injEq] at he hf
      subst he hf
      nlinarith

example : ∃ v w m n, Minimises (logEvaluate 1 (featuresOf 2 some3) (labelsOf some3)) v m ∧
    Minimises (logEvaluate 3 (featuresOf 2 some3) (labelsOf some3)) w n := by
  obtain ⟨v, m, hv⟩ := minimum_exists 1 one_pos some3 (d := 2) (by simp [some3]) some3_proper
  obtain ⟨w, n, hw⟩ := minimum_exists 3 (by norm_num) some3 (d := 2) (by simp [some3]) some3_proper
  exact ⟨v, w, m, n, hv, hw⟩

/-- C167: the minimising weights are not longer than the sum of the lengths of all samples divided by the penalty. -/
theorem C167_length {d : Nat} (lambda : ℝ) (hl : 0 < lambda) (l : List (List ℝ × ℝ)) (hne : l ≠ []) (h : ∀ s ∈ l, ProperSample d s)
    (v : List ℝ) (m : ℝ) (hv : Minimises (logEvaluate lambda (featuresOf d l) (labelsOf l)) v m) :
    lambda * rowSize v ≤ (l.map fun p => rowSize p.1).sum ∧ lambda * rowSize v ^ 2 ≤ 2 * l.length * Real.log 2 := by
  constructor
  · obtain ⟨v, rfl, h1⟩ := minimum_force lambda l h hne v m hv
    rw [← norm_vec]
    have h2 : lambda • vec v = -(l.map fun p => pull d p (vec v)).sum := by
      unfold force at h1
      exact eq_neg_of_add_eq_zero_right h1
    have h3 : lambda * ‖vec v‖ = ‖(l.map fun p => pull d p (vec v)).sum‖ := by
      rw [← norm_neg (l.map fun p => pull d p (vec v)).sum, ← h2, norm_smul, Real.norm_eq_abs, abs_of_pos hl]
    rw [h3]
    clear h1 h2 h3 hv hne
    induction l with
    | nil => simp
    | cons p l ih =>
      simp only [List.map_cons, List.sum_cons]
      exact (norm_add_le _ _).trans (add_le_add (pull_le p (h p (by simp)) _) (ih fun s hs => h s (by simp [hs])))
  · obtain ⟨v, rfl, rfl, h1⟩ := minimum_ok lambda l h v m hv
    have hn : (0 : ℝ) < l.length := by exact_mod_cast List.length_pos_of_ne_nil hne
    have h2 := h1 0
    have h3 : meanLoss crossEntropy l (0 : Fin d → ℝ) = Real.log 2 := by
      unfold meanLoss
      have : ∀ p : List ℝ × ℝ, crossEntropy p.2 (score p.1 (0 : Fin d → ℝ)) = Real.log 2 := by
        intro p
        have h0 : score p.1 (0 : Fin d → ℝ) = 0 := by simp [score]
        rw [h0, crossEntropy, Real.sigmoid_zero]
        rw [show (1 : ℝ) - 2⁻¹ = 2⁻¹ by norm_num, Real.log_inv]
        ring
      simp only [this, List.map_const', List.sum_replicate, nsmul_eq_mul]
      field_simp
    have h4 : ridgeTerm l.length (0 : Fin d → ℝ) = 0 := by simp [ridgeTerm]
    have h5 : 0 ≤ meanLoss crossEntropy l v := by
      unfold meanLoss
      refine div_nonneg (List.sum_nonneg fun x hx => ?_) hn.le
      obtain ⟨p, hp, rfl⟩ := List.mem_map.mp hx
      have h6 := Real.log_nonpos (Real.sigmoid_pos (score p.1 v)).le (Real.sigmoid_lt_one _).le
      have h7 := Real.log_nonpos (sub_nonneg.mpr (Real.sigmoid_lt_one (score p.1 v)).le) (by linarith [Real.sigmoid_pos (score p.1 v)])
      have h8 := (h p hp).2
      unfold crossEntropy
      nlinarith
    rw [h3, h4, mul_zero, add_zero] at h2
    have h6 : rowSize (List.ofFn v) ^ 2 = ∑ j, v j ^ 2 := by
      rw [← norm_vec, EuclideanSpace.norm_sq_eq]
      simp [vec]
    have h7 : lambda * ridgeTerm l.length v ≤ Real.log 2 := by linarith
    unfold ridgeTerm at h7
    rw [h6]
    rw [← mul_div_assoc, div_le_iff₀ (by positivity)] at h7
    linarith

/-- The lengths of the samples of `some3` are the roots of 5, 10 and 25. -/
example : (some3.map fun p => rowSize p.1).sum = Real.sqrt 5 + Real.sqrt 10 + 5 ∧
    ∃ v m, Minimises (logEvaluate 2 (featuresOf 2 some3) (labelsOf some3)) v m := by
  constructor
  · have h : Real.sqrt 25 = 5 := by rw [show (25 : ℝ) = 5 ^ 2 by norm_num]; exact Real.sqrt_sq (by norm_num)
    norm_num [some3, rowSize, h]
    ring
  · exact minimum_exists 2 (by norm_num) some3 (by simp [some3]) some3_proper

/-- C167: probabilities that `predict_prob` reports for two weight vectors differ by at most a quarter of their distance times the
length of the sample with a one appended. -/
theorem C167_probability (v w : List ℝ) (Z : DMat ℝ) (hZ : Z.WF) (hv : v.length = Z.ncols + 1) (hw : w.length = Z.ncols + 1) :
    ∃ P Q, logisticProb v Z = .ok P ∧ logisticProb w Z = .ok Q ∧
      ∀ (i : Nat) (x : List ℝ), Z.rows[i]? = some x → ∃ p q, P.rows[i]? = some [p, 1 - p] ∧ Q.rows[i]? = some [q, 1 - q] ∧
        |p - q| ≤ 1 / 4 * (rowSize (x ++ [1]) * gap v w) := by
  obtain ⟨P, ys, hP, -, -, -, h1⟩ := C58_prob v Z hZ hv
  obtain ⟨Q, zs, hQ, -, -, -, h2⟩ := C58_prob w Z hZ hw
  refine ⟨P, Q, hP, hQ, fun i x hx => ?_⟩
  obtain ⟨p, p', a, h3, -, -, -, h4, h5, -⟩ := h1 i x hx
  obtain ⟨q, q', a', h6, -, -, -, h7, h8, -⟩ := h2 i x hx
  obtain rfl : p' = 1 - p := by linarith
  obtain rfl : q' = 1 - q := by linarith
  refine ⟨p, q, h3, h6, ?_⟩
  have hx1 : (x ++ [1]).length = Z.ncols + 1 := by
    rw [List.length_append, hZ x (List.mem_of_getElem? hx)]
    rfl
  obtain ⟨v, rfl⟩ := exists_ofFn v hv
  obtain ⟨w, rfl⟩ := exists_ofFn w hw
  rw [dotL_eq_sum _ _ hx1, one_div, ← Real.sigmoid_def] at h5 h8
  rw [h5, h8]
  refine (sigmoid_gap _ _).trans ?_
  exact mul_le_mul_of_nonneg_left (score_gap _ hx1 v w) (by norm_num)

example : (⟨1, [[2], [-1]]⟩ : DMat ℝ).WF ∧ ([1, 0] : List ℝ).length = (⟨1, [[2], [-1]]⟩ : DMat ℝ).ncols + 1 ∧
    rowSize [2, 1] = Real.sqrt 5 ∧ gap [1, 0] [0, 0] = 1 := by
  refine ⟨by decide, rfl, by norm_num [rowSize], by norm_num [gap, weightDist]⟩

namespace LogStability

/-- Exchanging one drawn sample with a further one. -/
def exchange {N n : Nat} (i : Fin n) : Equiv.Perm ((Fin n → Fin N) × Fin N) :=
  Function.Involutive.toPerm (fun p => (Function.update p.1 i p.2, p.1 i)) fun p => by simp

theorem sum_exchange {N n : Nat} (i : Fin n) (c : Fin N → (Fin n → Fin N) → ℝ) :
    ∑ z, ∑ k, c k z = ∑ z : Fin n → Fin N, ∑ k, c (z i) (Function.update z i k) := by
  rw [← Fintype.sum_prod_type', ← Fintype.sum_prod_type', ← Equiv.sum_comp (exchange i)]
  exact Finset.sum_congr rfl fun p _ => rfl

theorem sum_draw {N n : Nat} (i : Fin n) (c : Fin N → ℝ) : (N : ℝ) * ∑ z : Fin n → Fin N, c (z i) = (N : ℝ) ^ n * ∑ k, c k := by
  have h := sum_exchange (n := n) i fun k _ => c k
  simp only [Finset.sum_const, Finset.card_univ, Fintype.card_fin, nsmul_eq_mul, ← Finset.mul_sum] at h
  rw [Fintype.card_fun, Fintype.card_fin, Fintype.card_fin] at h
  push_cast at h
  exact h.symm

theorem force_drawn {d N n : Nat} (lambda : ℝ) (pop : Fin N → List ℝ × ℝ) (z : Fin n → Fin N) (u : EuclideanSpace ℝ (Fin d)) :
    force d lambda (drawn pop z) u = ∑ i, pull d (pop (z i)) u + lambda • u := by
  rw [force, drawn, List.map_ofFn, List.sum_ofFn]
  rfl

theorem force_update {d N n : Nat} (lambda : ℝ) (pop : Fin N → List ℝ × ℝ) (z : Fin n → Fin N) (i : Fin n) (k : Fin N)
    (u : EuclideanSpace ℝ (Fin d)) :
    force d lambda (drawn pop (Function.update z i k)) u = force d lambda (drawn pop z) u + (pull d (pop k) u - pull d (pop (z i)) u) := by
  rw [force_drawn, force_drawn, ← Finset.add_sum_erase _ _ (Finset.mem_univ i),
    ← Finset.add_sum_erase (a := i) Finset.univ (fun i => pull d (pop (z i)) u) (Finset.mem_univ i), Function.update_self]
  have : ∑ x ∈ Finset.univ.erase i, pull d (pop (Function.update z i k x)) u = ∑ x ∈ Finset.univ.erase i, pull d (pop (z x)) u := by
    refine Finset.sum_congr rfl fun x hx => ?_
    rw [Function.update_of_ne (Finset.ne_of_mem_erase hx)]
  rw [this]
  abel

/-- The loss of sample `k`. -/
noncomputable def lossAt {d N : Nat} (pop : Fin N → List ℝ × ℝ) (u : Fin d → ℝ) (k : Fin N) : ℝ := crossEntropy (pop k).2 (score (pop k).1 u)

theorem meanLoss_drawn {d N n : Nat} (pop : Fin N → List ℝ × ℝ) (z : Fin n → Fin N) (u : Fin d → ℝ) :
    meanLoss crossEntropy (drawn pop z) u = (∑ i, lossAt pop u (z i)) / n := by
  rw [meanLoss, drawn, List.map_ofFn, List.sum_ofFn, List.length_ofFn]
  rfl

theorem meanLoss_pop {d N : Nat} (pop : Fin N → List ℝ × ℝ) (u : Fin d → ℝ) :
    meanLoss crossEntropy (List.ofFn pop) u = (∑ k, lossAt pop u k) / N := by
  rw [meanLoss, List.map_ofFn, List.sum_ofFn, List.length_ofFn]
  rfl

/-- For fixed weights, the mean loss of the drawn samples is on average that of all. -/
theorem fixed_weights {d N n : Nat} (hN : 0 < N) (hn : 0 < n) (pop : Fin N → List ℝ × ℝ) (u : Fin d → ℝ) :
    ∑ z : Fin n → Fin N, (∑ i, lossAt pop u (z i)) / n = (N : ℝ) ^ n * ((∑ k, lossAt pop u k) / N) := by
  have hN' : (N : ℝ) ≠ 0 := by exact_mod_cast hN.ne'
  have hn' : (n : ℝ) ≠ 0 := by exact_mod_cast hn.ne'
  rw [← Finset.sum_div, Finset.sum_comm]
  have : ∀ i : Fin n, ∑ z : Fin n → Fin N, lossAt pop u (z i) = (N : ℝ) ^ n * (∑ k, lossAt pop u k) / N := by
    intro i
    rw [eq_div_iff hN', mul_comm]
    exact sum_draw i _
  simp only [this, Finset.sum_const, Finset.card_univ, Fintype.card_fin, nsmul_eq_mul]
  field_simp

end LogStability

/-- C167: train on `n` samples drawn with replacement from `N` samples of length at most `R`, until the minimum. On average over all
draws the mean loss on all `N` samples is not smaller than that on the samples trained on, and larger by at most `2 R² / lambda`; and it
is at most that of any other weights plus this amount plus their penalty. -/
theorem C167_generalisation {d N n : Nat} (hN : 0 < N) (hn : 0 < n) (lambda R : ℝ) (hl : 0 < lambda) (pop : Fin N → List ℝ × ℝ)
    (hpop : ∀ k, ProperSample d (pop k) ∧ rowSize (pop k).1 ≤ R) (w : (Fin n → Fin N) → List ℝ) (m train test : (Fin n → Fin N) → ℝ)
    (hw : ∀ z, Minimises (logEvaluate lambda (featuresOf d (drawn pop z)) (labelsOf (drawn pop z))) (w z) (m z))
    (htrain : ∀ z, logEvaluate 0 (featuresOf d (drawn pop z)) (labelsOf (drawn pop z)) (w z) = .ok (train z))
    (htest : ∀ z, logEvaluate 0 (featuresOf d (List.ofFn pop)) (labelsOf (List.ofFn pop)) (w z) = .ok (test z)) :
    overDraws train ≤ overDraws test ∧ overDraws test ≤ overDraws train + 2 * R ^ 2 / lambda ∧
    ∀ u e, logEvaluate 0 (featuresOf d (List.ofFn pop)) (labelsOf (List.ofFn pop)) u = .ok e →
      overDraws test ≤ e + lambda / (2 * n) * rowSize u ^ 2 + 2 * R ^ 2 / lambda := by
  have hN' : (0 : ℝ) < N := by exact_mod_cast hN
  have hn' : (0 : ℝ) < n := by exact_mod_cast hn
  have hNn : (0 : ℝ) < (N : ℝ) ^ n := pow_pos hN' n
  have hdr : ∀ z : Fin n → Fin N, ∀ p ∈ drawn pop z, ProperSample d p := by
    intro z p hp
    obtain ⟨i, rfl⟩ := (List.mem_ofFn' _ _).mp hp
    exact (hpop _).1
  have hall : ∀ p ∈ List.ofFn pop, ProperSample d p := by
    intro p hp
    obtain ⟨i, rfl⟩ := (List.mem_ofFn' _ _).mp hp
    exact (hpop _).1
  have hne : ∀ z : Fin n → Fin N, drawn pop z ≠ [] := by
    intro z h
    have := congrArg List.length h
    simp [drawn] at this
    omega
  have hlen : ∀ z : Fin n → Fin N, (drawn pop z).length = n := fun z => by simp [drawn]
  choose W hW using fun z => minimum_force lambda _ (hdr z) (hne z) (w z) (m z) (hw z)
  have hmin : ∀ z (u : Fin d → ℝ), (∑ i, lossAt pop (W z) (z i)) / n + lambda * ridgeTerm n (W z) ≤
      (∑ i, lossAt pop u (z i)) / n + lambda * ridgeTerm n u := by
    intro z u
    have h1 := hw z
    rw [(hW z).1] at h1
    have h2 := h1.2 _ _ (evaluate_ok lambda _ (hdr z) u)
    have h3 := h1.1
    rw [evaluate_ok lambda _ (hdr z)] at h3
    rw [← Res.ok.inj h3, meanLoss_drawn, meanLoss_drawn, hlen] at h2
    exact h2
  have htr : ∀ z, train z = (∑ i, lossAt pop (W z) (z i)) / n := by
    intro z
    have h1 := htrain z
    rw [(hW z).1, evaluate_ok 0 _ (hdr z)] at h1
    rw [← Res.ok.inj h1, meanLoss_drawn]
    ring
  have hte : ∀ z, test z = (∑ k, lossAt pop (W z) k) / N := by
    intro z
    have h1 := htest z
    rw [(hW z).1, evaluate_ok 0 _ hall] at h1
    rw [← Res.ok.inj h1, meanLoss_pop]
    ring
  have hup : overDraws test ≤ overDraws train + 2 * R ^ 2 / lambda := by
    have hone : ∀ (z : Fin n → Fin N) (i : Fin n) (k : Fin N),
        lossAt pop (W (Function.update z i k)) (z i) ≤ lossAt pop (W z) (z i) + 2 * R ^ 2 / lambda := by
      intro z i k
      have h1 := crossEntropy_gap (pop (z i)).2 (score (pop (z i)).1 (W (Function.update z i k))) (score (pop (z i)).1 (W z))
        (hpop (z i)).1.2.1 (hpop (z i)).1.2.2
      have h2 := score_gap (pop (z i)).1 (hpop (z i)).1.1 (W (Function.update z i k)) (W z)
      have h3 := force_gap lambda (drawn pop z) (vec (W (Function.update z i k))) (vec (W z))
      have h4 : force d lambda (drawn pop z) (vec (W (Function.update z i k))) =
          pull d (pop (z i)) (vec (W (Function.update z i k))) - pull d (pop k) (vec (W (Function.update z i k))) := by
        have h5 := (hW (Function.update z i k)).2
        rw [force_update] at h5
        rw [eq_neg_of_add_eq_zero_left h5]
        abel
      rw [(hW z).2, sub_zero, h4] at h3
      have h5 := norm_sub_le (pull d (pop (z i)) (vec (W (Function.update z i k)))) (pull d (pop k) (vec (W (Function.update z i k))))
      have h6 := pull_le (pop (z i)) (hpop (z i)).1 (vec (W (Function.update z i k)))
      have h7 := pull_le (pop k) (hpop k).1 (vec (W (Function.update z i k)))
      rw [← gap_norm] at h3
      have h8 : gap (List.ofFn (W (Function.update z i k))) (List.ofFn (W z)) ≤ 2 * R / lambda := by
        rw [le_div_iff₀ hl, mul_comm]
        linarith [(hpop (z i)).2, (hpop k).2]
      have hR : 0 ≤ R := (Real.sqrt_nonneg _).trans (hpop k).2
      have h9 : rowSize (pop (z i)).1 * gap (List.ofFn (W (Function.update z i k))) (List.ofFn (W z)) ≤ R * (2 * R / lambda) :=
        mul_le_mul (hpop (z i)).2 h8 (Real.sqrt_nonneg _) hR
      have h10 : R * (2 * R / lambda) = 2 * R ^ 2 / lambda := by ring
      unfold lossAt
      linarith
    have h1 : ∀ i : Fin n, ∑ z, ∑ k, lossAt pop (W z) k ≤ ∑ z : Fin n → Fin N, ∑ _k : Fin N, (lossAt pop (W z) (z i) + 2 * R ^ 2 / lambda) := by
      intro i
      rw [sum_exchange i fun k z => lossAt pop (W z) k]
      exact Finset.sum_le_sum fun z _ => Finset.sum_le_sum fun k _ => hone z i k
    have h2 := Finset.sum_le_sum fun (i : Fin n) (_ : i ∈ Finset.univ) => h1 i
    simp only [Finset.sum_const, Finset.card_univ, Fintype.card_fin, nsmul_eq_mul, ← Finset.mul_sum, Finset.sum_add_distrib] at h2
    rw [Fintype.card_fun, Fintype.card_fin, Fintype.card_fin, Finset.sum_comm (f := fun i z => lossAt pop (W z) (z i))] at h2
    push_cast at h2
    unfold overDraws
    simp only [htr, hte, ← Finset.sum_div]
    rw [div_le_iff₀ hNn, add_mul, div_mul_cancel₀ _ hNn.ne', div_le_iff₀ hN']
    have h4 : (n : ℝ) * (∑ z, ∑ k, lossAt pop (W z) k) ≤
        n * (((∑ z, ∑ i, lossAt pop (W z) (z i)) / n + 2 * R ^ 2 / lambda * (N : ℝ) ^ n) * N) := by
      calc _ ≤ _ := h2
        _ = _ := by
          generalize ∑ z, ∑ i, lossAt pop (W z) (z i) = T
          field_simp
    exact le_of_mul_le_mul_left h4 hn'
  have hor : ∀ u : Fin d → ℝ, ∑ z : Fin n → Fin N, ((∑ i, lossAt pop (W z) (z i)) / n + lambda * ridgeTerm n (W z)) ≤
      (N : ℝ) ^ n * ((∑ k, lossAt pop u k) / N + lambda * ridgeTerm n u) := by
    intro u
    refine (Finset.sum_le_sum fun z _ => hmin z u).trans ?_
    rw [Finset.sum_add_distrib, fixed_weights hN hn, mul_add]
    simp only [Finset.sum_const, Finset.card_univ, Fintype.card_fin, nsmul_eq_mul]
    rw [Fintype.card_fun, Fintype.card_fin, Fintype.card_fin]
    push_cast
    exact le_rfl
  refine ⟨?_, hup, ?_⟩
  · have h1 := Finset.sum_le_sum fun (z : Fin n → Fin N) (_ : z ∈ Finset.univ) => hor (W z)
    rw [← Finset.mul_sum] at h1
    simp only [Finset.sum_const, Finset.card_univ, nsmul_eq_mul] at h1
    rw [Fintype.card_fun, Fintype.card_fin, Fintype.card_fin] at h1
    push_cast at h1
    have h2 := le_of_mul_le_mul_left h1 hNn
    rw [Finset.sum_add_distrib, Finset.sum_add_distrib] at h2
    unfold overDraws
    simp only [htr, hte]
    rw [div_le_div_iff_of_pos_right hNn]
    linarith
  · intro u e hu
    obtain ⟨u, rfl⟩ := exists_ofFn (n := d) u (evaluate_length hu)
    rw [evaluate_ok 0 _ hall] at hu
    have he := Res.ok.inj hu
    rw [meanLoss_pop, zero_mul, add_zero] at he
    have h1 := hor u
    rw [he, Finset.sum_add_distrib] at h1
    have h2 : 0 ≤ ∑ z : Fin n → Fin N, lambda * ridgeTerm n (W z) :=
      Finset.sum_nonneg fun z _ => mul_nonneg hl.le (by unfold ridgeTerm; positivity)
    have h3 : overDraws train ≤ e + lambda * ridgeTerm n u := by
      unfold overDraws
      simp only [htr]
      rw [div_le_iff₀ hNn]
      linarith
    have h4 : lambda * ridgeTerm n u = lambda / (2 * n) * rowSize (List.ofFn u) ^ 2 := by
      rw [← norm_vec, EuclideanSpace.norm_sq_eq]
      simp [vec, ridgeTerm]
      ring
    linarith

/-- All minima exist, for example for three samples drawn from three. -/
example : ∃ (w : (Fin 3 → Fin 3) → List ℝ) (m train test : (Fin 3 → Fin 3) → ℝ),
    (∀ z, Minimises (logEvaluate 1 (featuresOf 2 (drawn some3.get z)) (labelsOf (drawn some3.get z))) (w z) (m z)) ∧
    (∀ z : Fin 3 → Fin 3, logEvaluate 0 (featuresOf 2 (drawn some3.get z)) (labelsOf (drawn some3.get z)) (w z) = .ok (train z)) ∧
    ∀ z : Fin 3 → Fin 3, logEvaluate 0 (featuresOf 2 (List.ofFn some3.get)) (labelsOf (List.ofFn some3.get)) (w z) = .ok (test z) := by
  have hp : ∀ k, ProperSample 2 (some3.get k) := fun k => some3_proper _ (List.get_mem _ _)
  have hd : ∀ z : Fin 3 → Fin 3, ∀ p ∈ drawn some3.get z, ProperSample 2 p := by
    intro z p hpz
    obtain ⟨i, rfl⟩ := (List.mem_ofFn' _ _).mp hpz
    exact hp _
  choose w m hw using fun z : Fin 3 → Fin 3 => minimum_exists 1 one_pos (drawn some3.get z) (by simp [drawn]) (hd z)
  choose u hu _ using fun z => minimum_ok 1 _ (hd z) (w z) (m z) (hw z)
  have hall : ∀ p ∈ List.ofFn some3.get, ProperSample 2 p := by
    intro p hpz
    obtain ⟨i, rfl⟩ := (List.mem_ofFn' _ _).mp hpz
    exact hp _
  choose train ht using fun z => (⟨_, by rw [hu z]; exact evaluate_ok 0 _ (hd z) _⟩ :
    ∃ a, logEvaluate 0 (featuresOf 2 (drawn some3.get z)) (labelsOf (drawn some3.get z)) (w z) = .ok a)
  choose test he using fun z => (⟨_, by rw [hu z]; exact evaluate_ok 0 _ hall _⟩ :
    ∃ a, logEvaluate 0 (featuresOf 2 (List.ofFn some3.get)) (labelsOf (List.ofFn some3.get)) (w z) = .ok a)
  exact ⟨w, m, train, test, hw, ht, he⟩

/-- C167: with a penalty that grows like the root of the number of samples, `2 R sqrt n / B`, the average loss on all samples exceeds that
of any weights of length at most `B` by at most `2 R B / sqrt n`. -/
theorem C167_rate {d N n : Nat} (hN : 0 < N) (hn : 0 < n) (R B : ℝ) (hR : 0 < R) (hB : 0 < B) (pop : Fin N → List ℝ × ℝ)
    (hpop : ∀ k, ProperSample d (pop k) ∧ rowSize (pop k).1 ≤ R) (w : (Fin n → Fin N) → List ℝ) (m test : (Fin n → Fin N) → ℝ)
    (hw : ∀ z, Minimises (logEvaluate (2 * R * Real.sqrt n / B) (featuresOf d (drawn pop z)) (labelsOf (drawn pop z))) (w z) (m z))
    (htest : ∀ z, logEvaluate 0 (featuresOf d (List.ofFn pop)) (labelsOf (List.ofFn pop)) (w z) = .ok (test z))
    (u : List ℝ) (hu : rowSize u ≤ B) (e : ℝ)
    (he : logEvaluate 0 (featuresOf d (List.ofFn pop)) (labelsOf (List.ofFn pop)) u = .ok e) :
    overDraws test ≤ e + 2 * R * B / Real.sqrt n := by
  have hn' : (0 : ℝ) < n := by exact_mod_cast hn
  have hs : 0 < Real.sqrt n := Real.sqrt_pos.mpr hn'
  have hl : 0 < 2 * R * Real.sqrt n / B := by positivity
  have hdr : ∀ z : Fin n → Fin N, ∀ p ∈ drawn pop z, ProperSample d p := by
    intro z p hp
    obtain ⟨i, rfl⟩ := (List.mem_ofFn' _ _).mp hp
    exact (hpop _).1
  choose W hW _ using fun z => minimum_ok _ _ (hdr z) (w z) (m z) (hw z)
  have h1 := (C167_generalisation hN hn _ R hl pop hpop w m _ test hw (fun z => by rw [hW z]; exact evaluate_ok 0 _ (hdr z) (W z)) htest).2.2
    u e he
  have h2 : 2 * R * Real.sqrt n / B / (2 * n) * rowSize u ^ 2 ≤ 2 * R * Real.sqrt n / B / (2 * n) * B ^ 2 :=
    mul_le_mul_of_nonneg_left (pow_le_pow_left₀ (Real.sqrt_nonneg _) hu 2) (by positivity)
  have h3 : 2 * R * Real.sqrt n / B / (2 * n) * B ^ 2 + 2 * R ^ 2 / (2 * R * Real.sqrt n / B) = 2 * R * B / Real.sqrt n := by
    have h4 : (n : ℝ) = Real.sqrt n * Real.sqrt n := (Real.mul_self_sqrt hn'.le).symm
    have h5 : 2 * R * Real.sqrt n / B / (2 * n) * B ^ 2 = R * B / Real.sqrt n := by
      rw [h4, Real.sqrt_mul_self hs.le]
      field_simp
    rw [h5]
    field_simp
    ring
  linarith

/-- One sample of length 1 and weights of length 1: the penalty is 2. -/
example : (2 * 1 * Real.sqrt ((1 : Nat) : ℝ) / 1 = 2) ∧ ∃ v m, Minimises (logEvaluate 2 (featuresOf 1 [([1], 1)]) (labelsOf [([1], 1)])) v m :=
  ⟨by norm_num, minimum_exists 2 (by norm_num) _ (by simp) (by simp [ProperSample])⟩

end OpenML
