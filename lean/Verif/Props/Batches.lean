import Verif.Lemmas.Batches
import Verif.Props.Descent

/-!
# `SGD` in mini-batches (C115)
-/

namespace OpenML

open Spec Loss SGD LinearFit Descent
open scoped BigOperators

namespace Batches

theorem featureMass_le (rows : List (List ℝ)) (R : ℝ) (h : ∀ x ∈ rows, (x.map fun a => a ^ 2).sum ≤ R) :
    featureMass rows ≤ rows.length * R := by
  unfold featureMass
  induction rows with
  | nil => simp
  | cons x rows ih =>
    simp only [List.map_cons, List.sum_cons, List.length_cons, Nat.cast_add, Nat.cast_one]
    have h1 := h x (by simp)
    have h2 := ih fun z hz => h z (by simp [hz])
    linarith

theorem steepness_le (c lambda R : ℝ) (hc : 0 ≤ c) (rows : List (List ℝ)) (hn : rows.length ≠ 0)
    (h : ∀ x ∈ rows, (x.map fun a => a ^ 2).sum ≤ R) : steepness c lambda rows ≤ c * R + lambda / rows.length := by
  have hn' : (0 : ℝ) < rows.length := by exact_mod_cast Nat.pos_of_ne_zero hn
  unfold steepness
  rw [div_le_iff₀ hn', add_mul, div_mul_cancel₀ _ hn'.ne']
  have := mul_le_mul_of_nonneg_left (featureMass_le rows R h) hc
  nlinarith

theorem sum_map_le {β : Type} (l : List β) (f : β → ℝ) (c : ℝ) (h : ∀ q ∈ l, f q ≤ c) : (l.map f).sum ≤ l.length * c := by
  induction l with
  | nil => simp
  | cons q l ih =>
    simp only [List.map_cons, List.sum_cons, List.length_cons, Nat.cast_add, Nat.cast_one]
    have h1 := h q (by simp)
    have h2 := ih fun z hz => h z (by simp [hz])
    linarith

theorem abs_sum_map_le {β : Type} (l : List β) (f : β → ℝ) (c : ℝ) (h : ∀ q ∈ l, |f q| ≤ c) : |(l.map f).sum| ≤ l.length * c := by
  induction l with
  | nil => simp
  | cons q l ih =>
    simp only [List.map_cons, List.sum_cons, List.length_cons, Nat.cast_add, Nat.cast_one]
    have h1 := h q (by simp)
    have h2 := ih fun z hz => h z (by simp [hz])
    have h3 := abs_add_le (f q) (l.map f).sum
    linarith

theorem weightDist_nonneg (v : List ℝ) : ∀ w, 0 ≤ weightDist v w := by
  unfold weightDist
  induction v with
  | nil => simp
  | cons a v ih =>
    intro w
    cases w with
    | nil => simp
    | cons b w =>
      simp only [List.zipWith_cons_cons, List.sum_cons]
      have := ih w
      positivity

theorem sum_eq_zero {β : Type} (l : List β) (f : β → ℝ) (h : ∀ q ∈ l, f q = 0) : (l.map f).sum = 0 := by
  rw [List.map_congr_left h]
  simp

section Consistent
variable (p : Params ℝ) (hb : p.batchSize ≠ 0) (X : DMat ℝ) (hX : X.WF) (y : List ℝ) (hy : y.length = X.nrows)
  (hp : ∀ q, p.shuffle = some q → ∀ i, (q i).Perm (List.range X.nrows)) (eta : Nat → ℝ) (he : ∀ i, p.decay i = .ok (eta i))
  (h0 : ∀ i, 0 ≤ eta i) (R : ℝ) (hR : ∀ x ∈ X.rows, (x.map fun a => a ^ 2).sum ≤ R) (h1 : ∀ i, eta i * R ≤ 1)
  (u : Fin X.ncols → ℝ) (hu : ∀ q ∈ X.rows.zip y, score q.1 u = q.2)

include hb hX hy hp he h0 hR h1 hu in
theorem consistent_run (w : Fin X.ncols → ℝ) (hclip : R ^ 2 * ∑ j, (w j - u j) ^ 2 ≤ 10 ^ 20) (n : Nat) (D : Nat → DMat ℝ × List ℝ)
    (st : Nat → List ℝ) (L : Nat → ℝ)
    (h : IsRun ⟨mseEvaluate 0, mseGradient 0⟩ id (sgdStep ⟨mseEvaluate 0, mseGradient 0⟩ clipGrad vanillaUpdate) p (X.nrows / p.batchSize) X y
      (List.ofFn w) n D st L) :
    ∃ v, st n = List.ofFn v ∧ ∑ j, (v j - u j) ^ 2 + ∑ m ∈ Finset.range n, 2 * eta m * L m ≤ ∑ j, (w j - u j) ^ 2 ∧
      ∀ m < n, 0 ≤ L m := by
  have hwf : ∀ l : List (List ℝ × ℝ), (∀ q ∈ l, q ∈ X.rows.zip y) → ∀ q ∈ l, q.1.length = X.ncols := fun l hl q hq =>
    hX q.1 (List.of_mem_zip (hl q hq)).1
  have hsm : ∀ l : List (List ℝ × ℝ), (∀ q ∈ l, q ∈ X.rows.zip y) →
      Smooth (objective (d := X.ncols) halfSquare 0 l) (gradOf (fun a s => s - a) 0 l) (steepness 1 0 (l.map Prod.fst)) := fun l hl =>
    smooth_objective halfSquare (fun a s => s - a) 1 (by norm_num) halfSquare_tangent mse_upper 0 (le_refl _) l (hwf l hl)
  have hst : ∀ l : List (List ℝ × ℝ), l.length = p.batchSize → (∀ q ∈ l, q ∈ X.rows.zip y) →
      steepness 1 0 (l.map Prod.fst) ≤ R := fun l hl hs => by
    have := steepness_le 1 0 R (by norm_num) (l.map Prod.fst) (by simpa [hl] using hb) (fun x hx => by
      obtain ⟨q, hq, rfl⟩ := List.mem_map.mp hx
      exact hR q.1 (List.of_mem_zip (hs q hq)).1)
    simpa using this
  have hnn : ∀ l : List (List ℝ × ℝ), ∀ v : Fin X.ncols → ℝ, 0 ≤ objective halfSquare 0 l v := fun l v =>
    objective_nonneg halfSquare 0 (le_refl _) l (fun q _ s => by unfold halfSquare; positivity) v
  have hz : ∀ l : List (List ℝ × ℝ), (∀ q ∈ l, q ∈ X.rows.zip y) → objective halfSquare 0 l u = 0 := fun l hl => by
    unfold objective meanLoss
    rw [sum_eq_zero l _ fun q hq => by rw [hu q (hl q hq)]; simp [halfSquare]]
    simp
  have hrate : ∀ i, ∀ l : List (List ℝ × ℝ), l.length = p.batchSize → (∀ q ∈ l, q ∈ X.rows.zip y) →
      eta i * steepness 1 0 (l.map Prod.fst) ≤ 1 := fun i l hl hs =>
    le_trans (mul_le_mul_of_nonneg_left (hst l hl hs) (h0 i)) (h1 i)
  have hub : ∀ l : List (List ℝ × ℝ), l.length = p.batchSize → (∀ q ∈ l, q ∈ X.rows.zip y) → ∀ v : Fin X.ncols → ℝ,
      objective halfSquare 0 l v ≤ R * (∑ j, (v j - u j) ^ 2) / 2 := fun l hl hs v => by
    have hb' : (0 : ℝ) < l.length := by rw [hl]; exact_mod_cast Nat.pos_of_ne_zero hb
    unfold objective meanLoss
    rw [zero_mul, add_zero, div_le_iff₀ hb', mul_comm]
    refine sum_map_le l _ _ fun q hq => ?_
    have e : score q.1 v - q.2 = score q.1 (fun j => v j - u j) := by
      rw [← hu q (hs q hq)]
      unfold score
      rw [← Finset.sum_sub_distrib]
      exact Finset.sum_congr rfl fun j _ => by ring
    have hsq : (score q.1 (fun j => v j - u j)) ^ 2 ≤ _ := score_sq_le q.1 (hwf l hs q hq) (fun j => v j - u j)
    rw [← e] at hsq
    have hRq := mul_le_mul_of_nonneg_right (hR q.1 (List.of_mem_zip (hs q hq)).1)
      (Finset.sum_nonneg fun j _ => sq_nonneg (v j - u j) : 0 ≤ ∑ j, (v j - u j) ^ 2)
    unfold halfSquare
    nlinarith
  obtain ⟨v, e1, _, e3, e4⟩ := batch_run ⟨mseEvaluate 0, mseGradient 0⟩ halfSquare (fun a s => s - a) 0 (le_refl _) (isMean_mse 0) p X hX y hy
    (fun a _ s => by unfold halfSquare; positivity) hp eta he h0 (fun i l hl hs => ⟨_, hsm l hs, hrate i l hl hs⟩)
    (fun v => ∑ j, (v j - u j) ^ 2 ≤ ∑ j, (w j - u j) ^ 2)
    (fun i l hl hs v hv => by
      have hR0 : 0 ≤ steepness 1 0 (l.map Prod.fst) := steepness_nonneg 1 0 (by norm_num) (le_refl _) _
      have hd0 : (0 : ℝ) ≤ ∑ j, (v j - u j) ^ 2 := Finset.sum_nonneg fun j _ => sq_nonneg _
      have hc : ∀ j, clipped (gradOf (fun a s => s - a) 0 l v j) = gradOf (fun a s => s - a) 0 l v j := fun j => by
        refine unclipped (hsm l hs) hR0 (hnn l) v ?_ j
        have k1 := hub l hl hs v
        have k2 := hst l hl hs
        have hR' : 0 ≤ R := hR0.trans k2
        calc 2 * steepness 1 0 (l.map Prod.fst) * objective halfSquare 0 l v
            ≤ 2 * R * (R * (∑ j, (v j - u j) ^ 2) / 2) := by
              refine mul_le_mul (by linarith) k1 (hnn l v) (by linarith)
          _ = R ^ 2 * ∑ j, (v j - u j) ^ 2 := by ring
          _ ≤ R ^ 2 * ∑ j, (w j - u j) ^ 2 := mul_le_mul_of_nonneg_left hv (sq_nonneg R)
          _ ≤ 10 ^ 20 := hclip
      refine ⟨hc, ?_⟩
      have hprog := move_progress (hsm l hs) (eta i) (h0 i) (hrate i l hl hs) v u hc
      rw [hz l hs, sub_zero] at hprog
      have := mul_nonneg (mul_nonneg (by norm_num : (0 : ℝ) ≤ 2) (h0 i)) (hnn l (move (gradOf (fun a s => s - a) 0 l) (eta i) v))
      linarith)
    w (le_refl _) n D st L h u n (le_refl _)
  refine ⟨v, e1, ?_, e4⟩
  have hz' : epochLoss halfSquare 0 p.batchSize (X.rows.zip y) u = 0 := by
    unfold epochLoss
    rw [sum_eq_zero _ _ fun q hq => by rw [hu q hq]; simp [halfSquare]]
    simp
  rw [hz'] at e3
  simpa using e3

end Consistent

section Log
variable (lambda : ℝ) (hlam : 0 ≤ lambda) (p : Params ℝ) (hb : p.batchSize ≠ 0) (X : DMat ℝ) (hX : X.WF) (y : List ℝ)
  (hy : y.length = X.nrows) (hlab : ∀ a ∈ y, 0 ≤ a ∧ a ≤ 1)
  (hp : ∀ q, p.shuffle = some q → ∀ i, (q i).Perm (List.range X.nrows)) (eta : Nat → ℝ) (he : ∀ i, p.decay i = .ok (eta i))
  (h0 : ∀ i, 0 ≤ eta i) (R : ℝ) (hR : ∀ x ∈ X.rows, (x.map fun a => a ^ 2).sum ≤ R)
  (h1 : ∀ i, eta i * (R / 4 + lambda / p.batchSize) ≤ 1)
  (B : ℝ) (hB : ∀ x ∈ X.rows, ∀ a ∈ x, |a| ≤ B) (hB0 : 0 ≤ B) (hB1 : 2 * B ≤ 10 ^ 10)

include hlam hb hX hy hlab hp he h0 hR h1 hB hB0 hB1 in
theorem log_run (w : Fin X.ncols → ℝ) (hclip : ∀ j, lambda / p.batchSize * |w j| + B ≤ 10 ^ 10) (n : Nat) (D : Nat → DMat ℝ × List ℝ)
    (st : Nat → List ℝ) (L : Nat → ℝ)
    (h : IsRun ⟨logEvaluate lambda, logGradient lambda⟩ id (sgdStep ⟨logEvaluate lambda, logGradient lambda⟩ clipGrad vanillaUpdate) p
      (X.nrows / p.batchSize) X y (List.ofFn w) n D st L) (u : Fin X.ncols → ℝ) :
    ∃ v, st n = List.ofFn v ∧ ∑ j, (v j - u j) ^ 2 +
      ∑ m ∈ Finset.range n, 2 * eta m * (L m - epochLoss crossEntropy lambda p.batchSize (X.rows.zip y) u) ≤ ∑ j, (w j - u j) ^ 2 ∧
      ∀ m < n, 0 ≤ L m := by
  have hwf : ∀ l : List (List ℝ × ℝ), (∀ q ∈ l, q ∈ X.rows.zip y) → ∀ q ∈ l, q.1.length = X.ncols := fun l hl q hq =>
    hX q.1 (List.of_mem_zip (hl q hq)).1
  have hbpos : (0 : ℝ) < p.batchSize := by exact_mod_cast Nat.pos_of_ne_zero hb
  have hlb : 0 ≤ lambda / p.batchSize := div_nonneg hlam hbpos.le
  obtain ⟨v, e1, _, e3, e4⟩ := batch_run ⟨logEvaluate lambda, logGradient lambda⟩ crossEntropy (fun a s => Real.sigmoid s - a) lambda hlam
    (isMean_log lambda) p X hX y hy (fun a ha s => crossEntropy_nonneg a s (hlab a ha).1 (hlab a ha).2) hp eta he h0
    (fun i l hl hs => by
      refine ⟨_, smooth_objective crossEntropy (fun a s => Real.sigmoid s - a) (1 / 4) (by norm_num) crossEntropy_tangent crossEntropy_upper
        lambda hlam l (hwf l hs), ?_⟩
      have h2 := steepness_le (1 / 4) lambda R (by norm_num) (l.map Prod.fst) (by simpa [hl] using hb) (fun x hx => by
        obtain ⟨q, hq, rfl⟩ := List.mem_map.mp hx
        exact hR q.1 (List.of_mem_zip (hs q hq)).1)
      rw [List.length_map, hl] at h2
      refine le_trans (mul_le_mul_of_nonneg_left h2 (h0 i)) ?_
      rw [show (1 / 4 : ℝ) * R = R / 4 by ring]
      exact h1 i)
    (fun v => ∀ j, lambda / p.batchSize * |v j| + B ≤ 10 ^ 10)
    (fun i l hl hs v hv => by
      have hm : ∀ j : Fin X.ncols, |(l.map fun q => (Real.sigmoid (score q.1 v) - q.2) * q.1.getD j 0).sum / l.length| ≤ B := by
        intro j
        rw [abs_div, Nat.abs_cast, div_le_iff₀ (by rw [hl]; exact hbpos), mul_comm]
        refine abs_sum_map_le l _ B fun q hq => ?_
        have hq' := List.of_mem_zip (hs q hq)
        have hjl : j.val < q.1.length := by rw [hX q.1 hq'.1]; exact j.isLt
        have hx : |q.1.getD j 0| ≤ B := by
          rw [List.getD_eq_getElem?_getD, List.getElem?_eq_getElem hjl]
          exact hB q.1 hq'.1 _ (List.getElem_mem hjl)
        have hs1 : |Real.sigmoid (score q.1 v) - q.2| ≤ 1 := by
          have := Real.sigmoid_pos (score q.1 v)
          have := Real.sigmoid_lt_one (score q.1 v)
          have := hlab q.2 hq'.2
          rw [abs_le]; constructor <;> linarith
        rw [abs_mul]
        calc _ ≤ 1 * B := mul_le_mul hs1 hx (abs_nonneg _) (by norm_num)
          _ = B := one_mul B
      have hg : ∀ j : Fin X.ncols, |gradOf (fun a s => Real.sigmoid s - a) lambda l v j| ≤ 10 ^ 10 := by
        intro j
        unfold gradOf
        refine (abs_add_le _ _).trans ?_
        have k2 : |v j / l.length * lambda| = lambda / p.batchSize * |v j| := by
          rw [hl, abs_mul, abs_div, abs_of_nonneg hlam, Nat.abs_cast]
          ring
        rw [k2]
        have := hv j
        have := hm j
        linarith
      have hc : ∀ j, clipped (gradOf (fun a s => Real.sigmoid s - a) lambda l v j) = gradOf (fun a s => Real.sigmoid s - a) lambda l v j :=
        fun j => clipped_of_sq _ (by
          rw [← sq_abs]
          calc _ ≤ ((10 : ℝ) ^ 10) ^ 2 := pow_le_pow_left₀ (abs_nonneg _) (hg j) 2
            _ = 10 ^ 20 := by norm_num)
      refine ⟨hc, fun j => ?_⟩
      unfold move
      rw [hc j]
      unfold gradOf
      set m := (l.map fun q => (Real.sigmoid (score q.1 v) - q.2) * q.1.getD j 0).sum / l.length with hmdef
      have hmj := hm j
      rw [← hmdef] at hmj
      have ht1 : eta i * (lambda / p.batchSize) ≤ 1 := by
        have hR0 : 0 ≤ R := by
          have hl0 : l ≠ [] := by rintro rfl; exact hb hl.symm
          obtain ⟨q, hq⟩ := List.exists_mem_of_ne_nil l hl0
          refine le_trans (List.sum_nonneg fun a ha => ?_) (hR q.1 (List.of_mem_zip (hs q hq)).1)
          obtain ⟨z, _, rfl⟩ := List.mem_map.mp ha
          exact sq_nonneg z
        have := h1 i
        have := mul_nonneg (h0 i) (by linarith : 0 ≤ R / 4)
        nlinarith
      have ht0 : 0 ≤ eta i * (lambda / p.batchSize) := mul_nonneg (h0 i) hlb
      have e : v j - eta i * (m + v j / l.length * lambda) = (1 - eta i * (lambda / p.batchSize)) * v j - eta i * m := by
        rw [hl]; ring
      rw [e]
      have k3 : |(1 - eta i * (lambda / p.batchSize)) * v j - eta i * m| ≤ (1 - eta i * (lambda / p.batchSize)) * |v j| + eta i * B := by
        refine (abs_sub _ _).trans ?_
        rw [abs_mul, abs_mul, abs_of_nonneg (by linarith : 0 ≤ 1 - eta i * (lambda / p.batchSize)), abs_of_nonneg (h0 i)]
        have := mul_le_mul_of_nonneg_left hmj (h0 i)
        linarith
      have k4 := mul_le_mul_of_nonneg_left k3 hlb
      have k5 := mul_le_mul_of_nonneg_left (hv j) (by linarith : 0 ≤ 1 - eta i * (lambda / p.batchSize))
      have k6 := mul_le_mul_of_nonneg_left hB1 ht0
      nlinarith)
    w hclip n D st L h u n (le_refl _)
  exact ⟨v, e1, e3, e4⟩

end Log
end Batches

open Batches

section Consistent
variable (p : Params ℝ) (hb : p.batchSize ≠ 0) (X : DMat ℝ) (hX : X.WF) (y : List ℝ) (hy : y.length = X.nrows)
  (hp : ∀ q, p.shuffle = some q → ∀ i, (q i).Perm (List.range X.nrows)) (eta : Nat → ℝ) (he : ∀ i, p.decay i = .ok (eta i))
  (h0 : ∀ i, 0 ≤ eta i) (R : ℝ) (hR : ∀ x ∈ X.rows, (x.map fun a => a ^ 2).sum ≤ R) (h1 : ∀ i, eta i * R ≤ 1)
  (u : Fin X.ncols → ℝ) (hu : ∀ q ∈ X.rows.zip y, score q.1 u = q.2)
  (w : List ℝ) (hw : w.length = X.ncols) (hclip : R ^ 2 * weightDist w (List.ofFn u) ≤ 10 ^ 20)

include hb hX hy hp he h0 hR h1 hu hw hclip in
/-- C115: least squares without ridge term on data that `u` fits exactly, with batches of any size and learning rates up to the
inverse of the squared length of every sample: the sum over all epochs of twice the learning rate times the loss of the epoch, plus
the squared distance of the current weights from `u`, never exceeds the squared distance of the initial weights from `u`. -/
theorem C115_consistent_losses (n : Nat) (D : Nat → DMat ℝ × List ℝ) (st : Nat → List ℝ) (L : Nat → ℝ)
    (h : IsRun ⟨mseEvaluate 0, mseGradient 0⟩ id (sgdStep ⟨mseEvaluate 0, mseGradient 0⟩ clipGrad vanillaUpdate) p (X.nrows / p.batchSize) X y
      w n D st L) :
    weightDist (st n) (List.ofFn u) + ∑ i ∈ Finset.range n, 2 * eta i * L i ≤ weightDist w (List.ofFn u) ∧
      ∀ i < n, 0 ≤ L i := by
  obtain ⟨f, rfl⟩ := exists_ofFn w hw
  rw [weightDist_ofFn] at hclip ⊢
  obtain ⟨v, e1, e2⟩ := consistent_run p hb X hX y hy hp eta he h0 R hR h1 u hu f hclip n D st L h
  rw [e1, weightDist_ofFn]
  exact e2

include hb hX hy hp he h0 hR h1 hu hw hclip in
/-- C115: the published weights are not farther from any exact solution than the initial weights. -/
theorem C115_consistent (w' : List ℝ) (h : sgd ⟨mseEvaluate 0, mseGradient 0⟩ clipGrad vanillaUpdate p X y w = .ok w') :
    weightDist w' (List.ofFn u) ≤ weightDist w (List.ofFn u) := by
  obtain ⟨f, rfl⟩ := exists_ofFn w hw
  obtain ⟨i, hi, D, st, L, hr, hs, rfl⟩ := (C47_publishes_iff _ id _ p hb X y (List.ofFn f) w').mp h
  have key := C115_consistent_losses p hb X hX y hy hp eta he h0 R hR h1 u hu (List.ofFn f) hw hclip (i + 1) D st L hr
  have hL : 0 ≤ ∑ m ∈ Finset.range (i + 1), 2 * eta m * L m := by
    refine Finset.sum_nonneg fun m hm => ?_
    exact mul_nonneg (mul_nonneg (by norm_num) (h0 m)) (key.2 m (Finset.mem_range.mp hm))
  exact le_trans (le_add_of_nonneg_right hL) key.1

end Consistent

/-- Three samples in batches of one, rotated in each epoch, fitted exactly by (2, 1): the weights move from (0, 0) to about
(1.92, 1.09). -/
example : sgd ⟨mseEvaluate (0 : ℚ), mseGradient 0⟩ clipGrad vanillaUpdate
      { maxIter := 50, batchSize := 1, noChange := 2, tol := 1 / 100, decay := fun _ => .ok (1 / 4), shuffle := some fun _ => [2, 0, 1] }
      ⟨2, [[1, 0], [0, 1], [1, 1]]⟩ [2, 1, 3] [0, 0] = .ok [8246057273 / 4294967296, 1171532071 / 1073741824] := by decide +kernel

/-- The remaining hypotheses for this data. -/
example : [2, 0, 1].Perm (List.range 3) ∧ (∀ x ∈ ([[1, 0], [0, 1], [1, 1]] : List (List ℝ)), (x.map fun a => a ^ 2).sum ≤ 2) ∧
    (1 / 4 : ℝ) * 2 ≤ 1 ∧
    (∀ q ∈ ([[1, 0], [0, 1], [1, 1]] : List (List ℝ)).zip [2, 1, 3], score q.1 (![2, 1] : Fin 2 → ℝ) = q.2) ∧
    (2 : ℝ) ^ 2 * weightDist [0, 0] [2, 1] ≤ 10 ^ 20 := by
  refine ⟨by decide, by norm_num, by norm_num, ?_, by norm_num [weightDist]⟩
  intro q hq
  simp at hq
  rcases hq with rfl | rfl | rfl <;> norm_num [score, Fin.sum_univ_two]

section Log
variable (lambda : ℝ) (hlam : 0 ≤ lambda) (p : Params ℝ) (hb : p.batchSize ≠ 0) (X : DMat ℝ) (hX : X.WF) (y : List ℝ)
  (hy : y.length = X.nrows) (hlab : ∀ a ∈ y, 0 ≤ a ∧ a ≤ 1)
  (hp : ∀ q, p.shuffle = some q → ∀ i, (q i).Perm (List.range X.nrows)) (eta : Nat → ℝ) (he : ∀ i, p.decay i = .ok (eta i))
  (h0 : ∀ i, 0 ≤ eta i) (R : ℝ) (hR : ∀ x ∈ X.rows, (x.map fun a => a ^ 2).sum ≤ R)
  (h1 : ∀ i, eta i * (R / 4 + lambda / p.batchSize) ≤ 1)
  (B : ℝ) (hB : ∀ x ∈ X.rows, ∀ a ∈ x, |a| ≤ B) (hB0 : 0 ≤ B) (hB1 : 2 * B ≤ 10 ^ 10)
  (w : List ℝ) (hw : w.length = X.ncols) (hclip : ∀ a ∈ w, lambda / p.batchSize * |a| + B ≤ 10 ^ 10)

include hlam hb hX hy hlab hp he h0 hR h1 hB hB0 hB1 hw hclip in
/-- C115: log loss with ridge term, batches of any size, any shuffles, labels between 0 and 1, learning rates up to the inverse of
the steepness of every batch, and features and initial weights so small that no gradient is clipped: for all weights `u`, the
losses of the epochs, weighted with the learning rates, exceed those that `u` would have had by no more than half of what the
squared distance from `u` has decreased. -/
theorem C115_log_losses (n : Nat) (D : Nat → DMat ℝ × List ℝ) (st : Nat → List ℝ) (L : Nat → ℝ)
    (h : IsRun ⟨logEvaluate lambda, logGradient lambda⟩ id (sgdStep ⟨logEvaluate lambda, logGradient lambda⟩ clipGrad vanillaUpdate) p
      (X.nrows / p.batchSize) X y w n D st L) (u : Fin X.ncols → ℝ) :
    weightDist (st n) (List.ofFn u) +
      ∑ i ∈ Finset.range n, 2 * eta i * (L i - epochLoss crossEntropy lambda p.batchSize (X.rows.zip y) u) ≤ weightDist w (List.ofFn u) ∧
      ∀ i < n, 0 ≤ L i := by
  obtain ⟨f, rfl⟩ := exists_ofFn w hw
  rw [weightDist_ofFn]
  obtain ⟨v, e1, e2⟩ := log_run lambda hlam p hb X hX y hy hlab hp eta he h0 R hR h1 B hB hB0 hB1 f
    (fun j => hclip _ (by simp)) n D st L h u
  rw [e1, weightDist_ofFn]
  exact e2

include hlam hb hX hy hlab hp he h0 hR h1 hB hB0 hB1 hw hclip in
/-- C115: the smallest loss of an epoch exceeds what any weights `u` would have had by at most the squared distance of `u` from the
start divided by twice the sum of the learning rates. -/
theorem C115_log_best (n : Nat) (hpos : 0 < ∑ i ∈ Finset.range n, eta i) (D : Nat → DMat ℝ × List ℝ) (st : Nat → List ℝ) (L : Nat → ℝ)
    (h : IsRun ⟨logEvaluate lambda, logGradient lambda⟩ id (sgdStep ⟨logEvaluate lambda, logGradient lambda⟩ clipGrad vanillaUpdate) p
      (X.nrows / p.batchSize) X y w n D st L) (u : Fin X.ncols → ℝ) :
    ∃ i < n, L i ≤ epochLoss crossEntropy lambda p.batchSize (X.rows.zip y) u +
      weightDist w (List.ofFn u) / (2 * ∑ i ∈ Finset.range n, eta i) := by
  have key := (C115_log_losses lambda hlam p hb X hX y hy hlab hp eta he h0 R hR h1 B hB hB0 hB1 w hw hclip n D st L h u).1
  by_contra hc
  push Not at hc
  have hd := weightDist_nonneg (st n) (List.ofFn u)
  have hsum : weightDist w (List.ofFn u) < ∑ i ∈ Finset.range n, 2 * eta i *
      (L i - epochLoss crossEntropy lambda p.batchSize (X.rows.zip y) u) := by
    have e : weightDist w (List.ofFn u) = ∑ i ∈ Finset.range n, 2 * eta i *
        (weightDist w (List.ofFn u) / (2 * ∑ i ∈ Finset.range n, eta i)) := by
      rw [← Finset.sum_mul, ← Finset.mul_sum, mul_div_cancel₀ _ (by positivity)]
    rw [e]
    obtain ⟨k, hk, hk0⟩ := Finset.exists_lt_of_sum_lt (s := Finset.range n) (f := fun _ => (0 : ℝ)) (g := eta) (by simpa using hpos)
    refine Finset.sum_lt_sum (fun i hi => ?_) ⟨k, hk, ?_⟩
    · refine mul_le_mul_of_nonneg_left ?_ (mul_nonneg (by norm_num) (h0 i))
      have := hc i (Finset.mem_range.mp hi)
      linarith
    · refine mul_lt_mul_of_pos_left ?_ (mul_pos (by norm_num) hk0)
      have := hc k (Finset.mem_range.mp hk)
      linarith
  linarith

end Log

/-- C115: logistic regression with solver `sgd`, batches of any size: the fitted weights are not much farther from any weights `u`
than the initial ones. -/
theorem C115_log_fit (lambda l1Ratio : ℝ) (penalty : String) (hpen : penalty = "l2" ∨ penalty = "None") (hlam : 0 ≤ lambda)
    (p : Params ℝ) (hb : p.batchSize ≠ 0) (lbfgs : LossFn ℝ (List ℝ) → DMat ℝ → List ℝ → List ℝ → Res (List ℝ)) (X : DMat ℝ) (hX : X.WF)
    (y : List ℝ) (hy : y.length = X.nrows) (hlab : ∀ a ∈ y, 0 ≤ a ∧ a ≤ 1)
    (hp : ∀ q, p.shuffle = some q → ∀ i, (q i).Perm (List.range X.nrows)) (eta : Nat → ℝ) (he : ∀ i, p.decay i = .ok (eta i))
    (h0 : ∀ i, 0 ≤ eta i) (R : ℝ) (hR : ∀ x ∈ X.rows, (x.map fun a => a ^ 2).sum ≤ R)
    (h1 : ∀ i, eta i * ((R + 1) / 4 + lambda / p.batchSize) ≤ 1)
    (B : ℝ) (hB : ∀ x ∈ X.rows, ∀ a ∈ x, |a| ≤ B) (hB0 : 1 ≤ B) (hB1 : 2 * B ≤ 10 ^ 10)
    (w w' : List ℝ) (hw : w.length = X.ncols + 1) (hclip : ∀ a ∈ w, lambda / p.batchSize * |a| + B ≤ 10 ^ 10)
    (h : fitLogistic lambda l1Ratio penalty "sgd" p lbfgs X y w = .ok w') :
    ∃ K, p.noChange < K ∧ K ≤ p.maxIter ∧ ∀ u : Fin (X.ncols + 1) → ℝ, weightDist w' (List.ofFn u) ≤ weightDist w (List.ofFn u) +
      2 * (∑ i ∈ Finset.range K, eta i) *
        epochLoss crossEntropy lambda p.batchSize ((X.rows.map fun r => r ++ [1]).zip y) u := by
  have h' := fitLogistic_sgd lambda l1Ratio penalty hpen p lbfgs X y w w' h
  obtain ⟨i, hi, D, st, L, hr, hs, rfl⟩ := (C47_publishes_iff _ id _ p hb (withOnes X) y w w').mp h'
  have h3 : p.noChange ≤ i := by
    by_contra hc
    obtain ⟨j, hj, _⟩ := hs.1 0 (Nat.zero_le _) (by omega)
    omega
  refine ⟨i + 1, by omega, by omega, fun u => ?_⟩
  obtain ⟨k1, k2⟩ := C115_log_losses lambda hlam p hb (withOnes X) (withOnes_wf X hX) y (by rw [withOnes_nrows]; exact hy) hlab
    (by rw [withOnes_nrows]; exact hp) eta he h0 (R + 1) (by
      intro x hx
      obtain ⟨r, hr', rfl⟩ := List.mem_map.mp hx
      have := hR r hr'
      simp only [List.map_append, List.sum_append, List.map_cons, List.map_nil, List.sum_cons, List.sum_nil]
      linarith) h1 B (by
      intro x hx a ha
      obtain ⟨r, hr', rfl⟩ := List.mem_map.mp hx
      rcases List.mem_append.mp ha with ha | ha
      · exact hB r hr' a ha
      · rw [List.mem_singleton.mp ha]; simpa using hB0) (by linarith) hB1 w hw hclip (i + 1) D st L hr u
  change weightDist (st (i + 1)) (List.ofFn (n := X.ncols + 1) u) + ∑ m ∈ Finset.range (i + 1), 2 * eta m *
    (L m - epochLoss (d := X.ncols + 1) crossEntropy lambda p.batchSize ((X.rows.map fun r => r ++ [1]).zip y) u) ≤
      weightDist w (List.ofFn (n := X.ncols + 1) u) at k1
  have k3 : 0 ≤ ∑ m ∈ Finset.range (i + 1), 2 * eta m * L m := Finset.sum_nonneg fun m hm =>
    mul_nonneg (mul_nonneg (by norm_num) (h0 m)) (k2 m (Finset.mem_range.mp hm))
  have k4 : ∑ m ∈ Finset.range (i + 1), 2 * eta m * (L m - epochLoss crossEntropy lambda p.batchSize ((X.rows.map fun r => r ++ [1]).zip y) u) =
      ∑ m ∈ Finset.range (i + 1), 2 * eta m * L m -
        2 * (∑ m ∈ Finset.range (i + 1), eta m) * epochLoss crossEntropy lambda p.batchSize ((X.rows.map fun r => r ++ [1]).zip y) u := by
    rw [Finset.mul_sum, Finset.sum_mul, ← Finset.sum_sub_distrib]
    exact Finset.sum_congr rfl fun m _ => by ring
  rw [k4] at k1
  dsimp only [id]
  linarith

/-- Hypotheses of the theorems on the log loss: samples 1 and -2 with labels 1 and 0, batches of one, ridge parameter 1/2 and rate
1/2. -/
example : (∀ a ∈ ([1, 0] : List ℝ), 0 ≤ a ∧ a ≤ 1) ∧ (∀ x ∈ ([[1], [-2]] : List (List ℝ)), (x.map fun a => a ^ 2).sum ≤ 4) ∧
    (1 / 2 : ℝ) * ((4 + 1) / 4 + (1 / 2) / ((1 : Nat) : ℝ)) ≤ 1 ∧ (∀ x ∈ ([[1], [-2]] : List (List ℝ)), ∀ a ∈ x, |a| ≤ 2) ∧
    (∀ a ∈ ([0, 3] : List ℝ), (1 / 2) / ((1 : Nat) : ℝ) * |a| + 2 ≤ 10 ^ 10) := by
  refine ⟨?_, ?_, ?_, ?_, ?_⟩ <;> norm_num

/-- With two batches of one sample and any weights, `epochLoss` is what an epoch reports. -/
example : epochLoss halfSquare 0 1 [([1], 1), ([2], 0)] (fun _ : Fin 1 => (1 : ℝ)) = 2 := by
  norm_num [epochLoss, halfSquare, score, ridgeTerm]

end OpenML
