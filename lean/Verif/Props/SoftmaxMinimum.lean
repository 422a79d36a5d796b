import Verif.Lemmas.SoftmaxMinimum
import Verif.Props.SgdStability

/-!
# C173: the weights at which the gradient of the penalised softmax loss vanishes
-/

namespace OpenML

open Spec Loss Softmax Descent SoftmaxMinimum
open scoped BigOperators

/-- C173: over the classes, the entries of the returned gradient of a feature sum to `λ/n` times the sum of its weights: the data does not
move that sum. -/
theorem C173_sums {d k : Nat} (lambda : ℝ) (l : List (List ℝ × ℝ)) (hl : l ≠ []) (h : ∀ p ∈ l, ClassSample d k p) (W g : DMat ℝ)
    (hW : Shaped d k W) (hg : softmaxGradient lambda (featuresOf d l) (labelsOf l) W = .ok g) :
    g.rows.map List.sum = W.rows.map fun r => lambda / l.length * r.sum := by
  obtain ⟨s, rfl, hd⟩ := exists_named l h
  have hs : s ≠ [] := by simpa using hl
  obtain ⟨v, rfl⟩ := exists_toDMat W hW
  rw [gradient_named lambda s hs hd] at hg
  obtain rfl := Res.ok.inj hg
  have e : ((toDMat (curried v)).rows.map fun r => lambda / ((s.map named).length : ℝ) * r.sum) =
      ((toDMat (curried v)).rows.map List.sum).map fun a => lambda / ((s.map named).length : ℝ) * a := by
    rw [List.map_map]
    rfl
  rw [e, rows_sum, rows_sum, List.map_ofFn]
  refine congrArg List.ofFn (funext fun f => ?_)
  rw [grad_rows, Function.comp_apply, List.length_map]

/-- Three samples of three classes. -/
def three : List (List ℝ × ℝ) := [([1, 0], 0), ([0, 1], 1), ([1, 1], 2)]

theorem three_class : ∀ p ∈ three, ClassSample 2 3 p := by
  intro p hp
  simp only [three, List.mem_cons, List.not_mem_nil, or_false] at hp
  rcases hp with rfl | rfl | rfl
  · exact ⟨rfl, 0, by norm_num⟩
  · exact ⟨rfl, 1, by norm_num⟩
  · exact ⟨rfl, 2, by norm_num⟩

/-- Example for `C173_sums`: three samples of three classes; the weights of the first feature sum to 6, so its gradient sums to 2. -/
example : ∃ g, softmaxGradient 1 (featuresOf 2 three) (labelsOf three) ⟨3, [[1, 2, 3], [0, 0, -3]]⟩ = .ok g ∧
    g.rows.map List.sum = [2, -1] := by
  obtain ⟨v, hv⟩ := exists_toDMat (d := 2) (k := 3) ⟨3, [[1, 2, 3], [0, 0, -3]]⟩ ⟨rfl, rfl, by simp⟩
  obtain ⟨s, hs, hd⟩ := exists_named three three_class
  have hne : s ≠ [] := by
    rintro rfl
    simp [three] at hs
  have hg := gradient_named 1 s hne hd v
  rw [← hs, ← hv] at hg
  refine ⟨_, hg, ?_⟩
  rw [C173_sums 1 three (by simp [three]) three_class _ _ ⟨rfl, rfl, by simp⟩ hg]
  norm_num [three]

/-- C173: with a positive penalty there is exactly one matrix of weights at which the returned gradient is zero. There the weights of every
feature sum to zero over the classes, so the loss that is reported shows no penalty at all. The matrix is the only minimum of the negative
log likelihood plus `λ/(2n)` times the sum of all squared weights, and the returned gradient anywhere else tells how far away it is. -/
theorem C173_minimum {d k : Nat} (lambda : ℝ) (hlam : 0 < lambda) (l : List (List ℝ × ℝ)) (hl : l ≠ []) (h : ∀ p ∈ l, ClassSample d k p) :
    ∃ W, Shaped d k W ∧ softmaxGradient lambda (featuresOf d l) (labelsOf l) W = .ok (zeroMat d k) ∧
      (∀ r ∈ W.rows, r.sum = 0) ∧
      softmaxEvaluate lambda (featuresOf d l) (labelsOf l) W = softmaxEvaluate 0 (featuresOf d l) (labelsOf l) W ∧
      (∀ V, Shaped d k V → softmaxGradient lambda (featuresOf d l) (labelsOf l) V = .ok (zeroMat d k) → V = W) ∧
      (∀ V g, Shaped d k V → softmaxGradient lambda (featuresOf d l) (labelsOf l) V = .ok g →
        lambda * matrixGap V W ≤ l.length * matrixSize g) ∧
      ∃ a, softmaxEvaluate 0 (featuresOf d l) (labelsOf l) W = .ok a ∧ ∀ V, Shaped d k V →
        ∃ b, softmaxEvaluate 0 (featuresOf d l) (labelsOf l) V = .ok b ∧
          a + lambda * matrixMass W / (2 * l.length) + lambda * matrixDist V W / (2 * l.length) ≤
            b + lambda * matrixMass V / (2 * l.length) := by
  obtain ⟨s, rfl, hd⟩ := exists_named l h
  have hs : s ≠ [] := by simpa using hl
  have hn : (0 : ℝ) < s.length := by exact_mod_cast List.length_pos_of_ne_nil hs
  obtain ⟨w, hw⟩ := exists_zero lambda hlam s hs hd
  have hw' : softGrad lambda s w = fun _ => 0 := funext hw
  have hrow : ∀ f, ∑ c, w (f, c) = 0 := by
    intro f
    have h1 := grad_rows lambda s w f
    simp only [hw, Finset.sum_const_zero] at h1
    exact (mul_eq_zero.mp h1.symm).resolve_left (by positivity)
  have htot : total lambda s w = 0 := by
    rw [total_softGrad lambda s hs, hw']
    ext j
    simp [mvec]
  have hgap : ∀ v : Fin d × Fin k → ℝ, lambda * ‖mvec v - mvec w‖ ≤ s.length * ‖mvec (softGrad lambda s v)‖ := by
    intro v
    have h1 := total_gap lambda s hs hd v w
    rwa [htot, sub_zero, total_softGrad lambda s hs, norm_smul, Real.norm_of_nonneg hn.le] at h1
  refine ⟨toDMat (curried w), shaped_toDMat _, ?_, ?_, ?_, ?_, ?_, ?_⟩
  · rw [gradient_named lambda s hs hd, hw', zeroMat_eq]
  · intro r hr
    have h1 : r.sum ∈ (toDMat (curried w)).rows.map List.sum := List.mem_map.mpr ⟨r, hr, rfl⟩
    rw [rows_sum] at h1
    obtain ⟨f, hf⟩ := (List.mem_ofFn' _ _).mp h1
    exact hf.symm.trans (hrow f)
  · rw [evaluate_named lambda s hs hd, evaluate_named 0 s hs hd]
    have : rowSumTerm s.length (curried w) = 0 := by
      unfold rowSumTerm
      have : ∀ f, ∑ c, curried w f c = 0 := hrow
      simp [this]
    simp only [evalOf, this, mul_zero]
  · intro V hV hg
    obtain ⟨v, rfl⟩ := exists_toDMat V hV
    rw [gradient_named lambda s hs hd, zeroMat_eq] at hg
    have h1 := hgap v
    rw [toDMat_injective (Res.ok.inj hg)] at h1
    have h2 : ‖mvec fun _ : Fin d × Fin k => (0 : ℝ)‖ = 0 := by
      have := norm_mvec_sq (fun _ : Fin d × Fin k => (0 : ℝ))
      simpa using this
    rw [h2, mul_zero] at h1
    have h3 : ‖mvec v - mvec w‖ ≤ 0 := nonpos_of_mul_nonpos_right h1 hlam
    have h4 : mvec v = mvec w := sub_eq_zero.mp (norm_le_zero_iff.mp h3)
    have h5 : v = w := by
      funext j
      exact congrArg (fun u : EuclideanSpace ℝ (Fin d × Fin k) => u j) h4
    rw [h5]
  · intro V g hV hg
    obtain ⟨v, rfl⟩ := exists_toDMat V hV
    rw [gradient_named lambda s hs hd] at hg
    obtain rfl := Res.ok.inj hg
    rw [matrixGap_norm, ← norm_mvec, List.length_map]
    exact hgap v
  · refine ⟨_, evaluate_named 0 s hs hd w, fun V hV => ?_⟩
    obtain ⟨v, rfl⟩ := exists_toDMat V hV
    refine ⟨_, evaluate_named 0 s hs hd v, ?_⟩
    have h1 := strong lambda s hs hd v w
    simp only [hw, zero_mul, Finset.sum_const_zero, add_zero] at h1
    rw [softObjective_eq, softObjective_eq, ← matrixDist_toDMat] at h1
    rw [List.length_map]
    have e : lambda / (2 * s.length) * matrixDist (toDMat (curried v)) (toDMat (curried w)) =
        lambda * matrixDist (toDMat (curried v)) (toDMat (curried w)) / (2 * s.length) := by ring
    linarith

/-- Example for `C173_minimum`: three samples of three classes, penalty 1. -/
example : ∃ W, Shaped 2 3 W ∧ softmaxGradient 1 (featuresOf 2 three) (labelsOf three) W = .ok (zeroMat 2 3) ∧ ∀ r ∈ W.rows, r.sum = 0 := by
  obtain ⟨W, h1, h2, h3, _⟩ := C173_minimum 1 one_pos three (by simp [three]) three_class
  exact ⟨W, h1, h2, h3⟩

/-- C173: exchange some samples of the training set. The weights at which training stopped on the two sets differ by at most `√2/λ` times
the lengths of the exchanged samples, plus `n/λ` times the gradients that were left. -/
theorem C173_stable {d k : Nat} (lambda : ℝ) (l l' : List (List ℝ × ℝ)) (hl : l ≠ []) (hlen : l.length = l'.length)
    (h : ∀ p ∈ l, ClassSample d k p) (h' : ∀ p ∈ l', ClassSample d k p) (V W g g' : DMat ℝ) (hV : Shaped d k V) (hW : Shaped d k W)
    (hg : softmaxGradient lambda (featuresOf d l) (labelsOf l) V = .ok g)
    (hg' : softmaxGradient lambda (featuresOf d l') (labelsOf l') W = .ok g') :
    lambda * matrixGap V W ≤ Real.sqrt 2 * changed l l' + l.length * (matrixSize g + matrixSize g') := by
  obtain ⟨s, rfl, hd⟩ := exists_named l h
  obtain ⟨s', rfl, hd'⟩ := exists_named l' h'
  have hs : s ≠ [] := by simpa using hl
  rw [List.length_map, List.length_map] at hlen
  have hs' : s' ≠ [] := by
    rintro rfl
    exact hs (List.eq_nil_of_length_eq_zero hlen)
  obtain ⟨v, rfl⟩ := exists_toDMat V hV
  obtain ⟨w, rfl⟩ := exists_toDMat W hW
  rw [gradient_named lambda s hs hd] at hg
  rw [gradient_named lambda s' hs' hd'] at hg'
  obtain rfl := Res.ok.inj hg
  obtain rfl := Res.ok.inj hg'
  rw [matrixGap_norm, ← norm_mvec, ← norm_mvec, List.length_map]
  have h1 := total_gap lambda s hs hd v w
  have e1 : ‖total lambda s v‖ = s.length * ‖mvec (softGrad lambda s v)‖ := by
    rw [total_softGrad lambda s hs, norm_smul, Real.norm_of_nonneg (Nat.cast_nonneg _)]
  have e2 : ‖total lambda s' w‖ = s.length * ‖mvec (softGrad lambda s' w)‖ := by
    rw [total_softGrad lambda s' hs', norm_smul, Real.norm_of_nonneg (Nat.cast_nonneg _), hlen]
  have e3 : total lambda s w - total lambda s' w = (s.map (push w)).sum - (s'.map (push w)).sum := by
    unfold total
    abel
  have h2 : ‖total lambda s w - total lambda s' w‖ ≤ Real.sqrt 2 * changed (s.map named) (s'.map named) := by
    rw [e3]
    exact sums_gap w s s' hlen hd hd'
  have h3 : ‖total lambda s v - total lambda s w‖ ≤ ‖total lambda s v‖ + (‖total lambda s w - total lambda s' w‖ + ‖total lambda s' w‖) := by
    refine (norm_sub_le _ _).trans ?_
    have : ‖total lambda s w‖ ≤ ‖total lambda s w - total lambda s' w‖ + ‖total lambda s' w‖ := by
      have := norm_add_le (total lambda s w - total lambda s' w) (total lambda s' w)
      rwa [sub_add_cancel] at this
    linarith
  rw [e1, e2] at h3
  linarith

/-- Example for `C173_stable`: the label of the last of three samples changes from 2 to 1. -/
example : ∃ V W, Shaped 2 3 V ∧ Shaped 2 3 W ∧ softmaxGradient 1 (featuresOf 2 three) (labelsOf three) V = .ok (zeroMat 2 3) ∧
    softmaxGradient 1 (featuresOf 2 [([1, 0], 0), ([0, 1], 1), ([1, 1], 1)]) (labelsOf [([1, 0], 0), ([0, 1], 1), ([1, 1], 1)]) W =
      .ok (zeroMat 2 3) ∧ matrixGap V W ≤ 4 := by
  have h' : ∀ p ∈ ([([1, 0], 0), ([0, 1], 1), ([1, 1], 1)] : List (List ℝ × ℝ)), ClassSample 2 3 p := by
    intro p hp
    simp only [List.mem_cons, List.not_mem_nil, or_false] at hp
    rcases hp with rfl | rfl | rfl
    · exact ⟨rfl, 0, by norm_num⟩
    · exact ⟨rfl, 1, by norm_num⟩
    · exact ⟨rfl, 1, by norm_num⟩
  obtain ⟨V, h1, h2, _⟩ := C173_minimum 1 one_pos three (by simp [three]) three_class
  obtain ⟨W, h3, h4, _⟩ := C173_minimum 1 one_pos _ (by simp) h'
  refine ⟨V, W, h1, h3, h2, h4, ?_⟩
  have h5 := C173_stable 1 three [([1, 0], 0), ([0, 1], 1), ([1, 1], 1)] (by simp [three]) rfl three_class h' V W _ _ h1 h3 h2 h4
  have e1 : changed three [([1, 0], 0), ([0, 1], 1), ([1, 1], 1)] = 2 * Real.sqrt 2 := by
    norm_num [changed, three, rowSize]
    ring
  have e2 : matrixSize (zeroMat 2 3) = 0 := by norm_num [matrixSize, matrixMass, zeroMat]
  rw [e1, e2] at h5
  have e3 : Real.sqrt 2 * (2 * Real.sqrt 2) = 4 := by
    have := Real.mul_self_sqrt (show (0 : ℝ) ≤ 2 by norm_num)
    linarith
  linarith

namespace SoftmaxMinimum

/-- Weights of the two classes. -/
noncomputable def halves {d : Nat} (w : Fin d → ℝ) : Fin d × Fin 2 → ℝ := fun j => if j.2 = 0 then -(w j.1 / 2) else w j.1 / 2

theorem mirror_ofFn {d : Nat} (w : Fin d → ℝ) :
    mirror (List.ofFn w) = toDMat (curried fun j : Fin d × Fin 2 => if j.2 = 0 then -w j.1 else w j.1) := by
  unfold mirror toDMat curried
  rw [List.map_ofFn]
  simp [List.ofFn_succ, Function.comp_def]

theorem excess_two {d : Nat} (w : Fin d → ℝ) (p : List ℝ × Fin 2) :
    excess (halves w) p 1 = Real.sigmoid (score p.1 w) - ((p.2.val : Nat) : ℝ) ∧
    excess (halves w) p 0 = -(Real.sigmoid (score p.1 w) - ((p.2.val : Nat) : ℝ)) := by
  have h0 : cscore (curried (halves w)) p.1 0 = -(score p.1 w / 2) := by
    unfold cscore score curried halves
    simp only [if_true]
    rw [Finset.sum_div, ← Finset.sum_neg_distrib]
    exact Finset.sum_congr rfl fun f _ => by ring
  have h1 : cscore (curried (halves w)) p.1 1 = score p.1 w / 2 := by
    unfold cscore score curried halves
    simp only [if_neg (show ¬(1 : Fin 2) = 0 by decide)]
    rw [Finset.sum_div]
    exact Finset.sum_congr rfl fun f _ => by ring
  have e1 : excess (halves w) p 1 = Real.sigmoid (score p.1 w) - ((p.2.val : Nat) : ℝ) := by
    unfold excess
    rw [Fin.sum_univ_two, h0, h1, Real.sigmoid_def]
    have hx : Real.exp (score p.1 w / 2) / (Real.exp (-(score p.1 w / 2)) + Real.exp (score p.1 w / 2)) = (1 + Real.exp (-score p.1 w))⁻¹ := by
      have e : Real.exp (-(score p.1 w / 2)) = Real.exp (score p.1 w / 2) * Real.exp (-score p.1 w) := by
        rw [← Real.exp_add]
        congr 1
        ring
      rw [e]
      have := Real.exp_pos (score p.1 w / 2)
      have := Real.exp_pos (-score p.1 w)
      field_simp
      ring
    rw [hx]
    congr 1
    obtain ⟨x, c⟩ := p
    fin_cases c <;> simp
  have e2 := excess_sum (halves w) p
  rw [Fin.sum_univ_two] at e2
  exact ⟨e1, by linarith⟩

theorem grad_two {d : Nat} (lambda : ℝ) (s : List (List ℝ × Fin 2)) (w : Fin d → ℝ) :
    softGrad lambda s (halves w) = fun j => if j.2 = 0 then -gradOf (fun a t => Real.sigmoid t - a) (lambda / 2) (s.map named) w j.1
      else gradOf (fun a t => Real.sigmoid t - a) (lambda / 2) (s.map named) w j.1 := by
  have e : ∀ f c, softGrad lambda s (halves w) (f, c) =
      (s.map fun p => excess (halves w) p c * p.1.getD f 0).sum / s.length + lambda / s.length * halves w (f, c) := by
    intro f c
    unfold softGrad softmaxGrad excess curried
    ring
  have h1 : ∀ f, softGrad lambda s (halves w) (f, 1) = gradOf (fun a t => Real.sigmoid t - a) (lambda / 2) (s.map named) w f := by
    intro f
    rw [e, gradOf, List.map_map, List.length_map]
    have : (s.map fun p => excess (halves w) p 1 * p.1.getD f 0) =
        s.map ((fun p : List ℝ × ℝ => (Real.sigmoid (score p.1 w) - p.2) * p.1.getD f 0) ∘ named) :=
      List.map_congr_left fun p _ => by rw [(excess_two w p).1]; rfl
    rw [this]
    unfold halves
    simp only [if_neg (show ¬(1 : Fin 2) = 0 by decide)]
    ring
  funext j
  obtain ⟨f, c⟩ := j
  have h2 := grad_rows lambda s (halves w) f
  rw [Fin.sum_univ_two, Fin.sum_univ_two, h1] at h2
  have h3 : halves w (f, 0) + halves w (f, 1) = 0 := by
    simp [halves]
  rw [h3, mul_zero] at h2
  fin_cases c
  · simp only [Fin.zero_eta, if_true]
    linarith
  · simpa using h1 f

end SoftmaxMinimum

/-- C173: softmax regression with two classes is logistic regression with half the penalty. At weights that are opposite for the two
classes, the returned gradient is that of the logistic loss at their difference, once with either sign; and weights at which the gradient
of the penalised softmax loss vanishes are of that kind, so they come from weights at which the gradient of the logistic loss vanishes. -/
theorem C173_two_classes {d : Nat} (lambda : ℝ) (l : List (List ℝ × ℝ)) (hl : l ≠ []) (h : ∀ p ∈ l, ClassSample d 2 p) :
    (∀ w g, logGradient (lambda / 2) (featuresOf d l) (labelsOf l) w = .ok g →
      softmaxGradient lambda (featuresOf d l) (labelsOf l) (mirror (w.map fun a => a / 2)) = .ok (mirror g)) ∧
    (0 < lambda → ∀ W, Shaped d 2 W → softmaxGradient lambda (featuresOf d l) (labelsOf l) W = .ok (zeroMat d 2) →
      ∃ w, W = mirror (w.map fun a => a / 2) ∧
        logGradient (lambda / 2) (featuresOf d l) (labelsOf l) w = .ok (List.replicate d 0)) := by
  obtain ⟨s, rfl, hd⟩ := exists_named l h
  have hs : s ≠ [] := by simpa using hl
  have hn : (0 : ℝ) < s.length := by exact_mod_cast List.length_pos_of_ne_nil hs
  have hlog : ∀ w : Fin d → ℝ, logGradient (lambda / 2) (featuresOf d (s.map named)) (labelsOf (s.map named)) (List.ofFn w) =
      .ok (List.ofFn (gradOf (fun a t => Real.sigmoid t - a) (lambda / 2) (s.map named) w)) := by
    intro w
    have h1 := logGradient_eq (lambda / 2) (featuresOf d (s.map named)) (wf_named s hd) (labelsOf (s.map named))
      (LogStability.labelsOf_length _) w
    rwa [LogStability.zip_of] at h1
  have hhalf : ∀ w : Fin d → ℝ, mirror ((List.ofFn w).map fun a => a / 2) = toDMat (curried (halves w)) := by
    intro w
    rw [List.map_ofFn, mirror_ofFn]
    rfl
  constructor
  · intro w g hg
    obtain ⟨w, rfl⟩ := exists_ofFn (n := d) w (evaluate_length hg)
    rw [hlog] at hg
    obtain rfl := Res.ok.inj hg
    rw [hhalf, gradient_named lambda s hs hd, grad_two, mirror_ofFn]
  · intro hlam W hW hg
    obtain ⟨v, rfl⟩ := exists_toDMat W hW
    rw [gradient_named lambda s hs hd, zeroMat_eq] at hg
    have hz := toDMat_injective (Res.ok.inj hg)
    have hv : v = halves fun f => 2 * v (f, 1) := by
      funext ⟨f, c⟩
      have h1 := grad_rows lambda s v f
      rw [hz] at h1
      simp only [Finset.sum_const_zero] at h1
      have h2 := (mul_eq_zero.mp h1.symm).resolve_left (by positivity)
      rw [Fin.sum_univ_two] at h2
      unfold halves
      fin_cases c
      · simp only [Fin.zero_eta, if_true]
        linarith
      · simp
    refine ⟨List.ofFn fun f => 2 * v (f, 1), ?_, ?_⟩
    · rw [hhalf, ← hv]
    · rw [hlog]
      have h1 := grad_two lambda s fun f => 2 * v (f, 1)
      rw [← hv, hz] at h1
      rw [← List.ofFn_const]
      congr 2
      funext f
      have := congrFun h1 (f, 1)
      simpa using this.symm

/-- Two samples of two classes. -/
theorem two_class : ∀ p ∈ ([([1], 0), ([-1], 1)] : List (List ℝ × ℝ)), ClassSample 1 2 p := by
  intro p hp
  simp only [List.mem_cons, List.not_mem_nil, or_false] at hp
  rcases hp with rfl | rfl
  · exact ⟨rfl, 0, by norm_num⟩
  · exact ⟨rfl, 1, by norm_num⟩

/-- Example for `C173_two_classes`: two samples of two classes with penalty 2. -/
example : ∃ w, logGradient 1 (featuresOf 1 [([1], 0), ([-1], 1)]) (labelsOf [([1], 0), ([-1], 1)]) w = .ok [0] ∧
    softmaxGradient 2 (featuresOf 1 [([1], 0), ([-1], 1)]) (labelsOf [([1], 0), ([-1], 1)]) (mirror (w.map fun a => a / 2)) =
      .ok (zeroMat 1 2) := by
  obtain ⟨W, h1, h2, _⟩ := C173_minimum 2 two_pos [([1], 0), ([-1], 1)] (by simp) two_class
  obtain ⟨w, rfl, h3⟩ := (C173_two_classes 2 [([1], 0), ([-1], 1)] (by simp) two_class).2 two_pos W h1 h2
  refine ⟨w, ?_, h2⟩
  norm_num at h3
  exact h3

/-- C173: draw `n` samples with replacement from `N` samples of length at most `R` and let the gradient of the penalised softmax loss vanish
on them. On average over all draws the mean negative log likelihood on all samples and that on the drawn samples differ by at most `4R²/λ`,
for any number of classes and features. -/
theorem C173_generalisation {d k N n : Nat} (hN : 0 < N) (hn : 0 < n) (lambda R : ℝ) (hlam : 0 < lambda) (pop : Fin N → List ℝ × ℝ)
    (hpop : ∀ i, ClassSample d k (pop i) ∧ rowSize (pop i).1 ≤ R) (W : (Fin n → Fin N) → DMat ℝ) (hW : ∀ z, Shaped d k (W z))
    (hz : ∀ z, softmaxGradient lambda (featuresOf d (drawn pop z)) (labelsOf (drawn pop z)) (W z) = .ok (zeroMat d k))
    (train test : (Fin n → Fin N) → ℝ)
    (htrain : ∀ z, softmaxEvaluate 0 (featuresOf d (drawn pop z)) (labelsOf (drawn pop z)) (W z) = .ok (train z))
    (htest : ∀ z, softmaxEvaluate 0 (featuresOf d (List.ofFn pop)) (labelsOf (List.ofFn pop)) (W z) = .ok (test z)) :
    |overDraws test - overDraws train| ≤ 4 * R ^ 2 / lambda := by
  have hsam : ∀ i, ∃ c : List ℝ × Fin k, pop i = named c ∧ c.1.length = d := by
    intro i
    obtain ⟨h1, c, hc⟩ := (hpop i).1
    exact ⟨((pop i).1, c), Prod.ext rfl hc, h1⟩
  choose c hc hcd using hsam
  have hdr : ∀ z : Fin n → Fin N, drawn pop z = (List.ofFn fun i => c (z i)).map named := by
    intro z
    rw [drawn, List.map_ofFn]
    exact congrArg List.ofFn (funext fun i => hc _)
  have hall : List.ofFn pop = (List.ofFn c).map named := by
    rw [List.map_ofFn]
    exact congrArg List.ofFn (funext fun i => hc _)
  have hne : ∀ z : Fin n → Fin N, (List.ofFn fun i => c (z i)) ≠ [] := by
    intro z e
    have := congrArg List.length e
    simp at this
    omega
  have hneN : List.ofFn c ≠ [] := by
    intro e
    have := congrArg List.length e
    simp at this
    omega
  have hd : ∀ z : Fin n → Fin N, ∀ p ∈ List.ofFn fun i => c (z i), p.1.length = d := by
    intro z p hp
    obtain ⟨i, rfl⟩ := (List.mem_ofFn' _ _).mp hp
    exact hcd _
  have hdN : ∀ p ∈ List.ofFn c, p.1.length = d := by
    intro p hp
    obtain ⟨i, rfl⟩ := (List.mem_ofFn' _ _).mp hp
    exact hcd _
  choose v hv using fun z => exists_toDMat (W z) (hW z)
  have htr : train = fun z => (∑ i, classLoss (curried (v z)) (c (z i))) / n := by
    funext z
    have h1 := htrain z
    rw [hdr, hv, evaluate_named 0 _ (hne z) (hd z)] at h1
    rw [← Res.ok.inj h1, evalOf, List.map_ofFn, List.sum_ofFn, List.length_ofFn]
    simp
  have hte : test = fun z => (∑ i, classLoss (curried (v z)) (c i)) / N := by
    funext z
    have h1 := htest z
    rw [hall, hv, evaluate_named 0 _ hneN hdN] at h1
    rw [← Res.ok.inj h1, evalOf, List.map_ofFn, List.sum_ofFn, List.length_ofFn]
    simp
  rw [htr, hte]
  refine SgdStability.generalises hN hn (fun i z => classLoss (curried (v z)) (c i)) _ fun z i j => ?_
  have hcl : ∀ z : Fin n → Fin N, ∀ p ∈ drawn pop z, ClassSample d k p := by
    intro z p hp
    obtain ⟨i, rfl⟩ := (List.mem_ofFn' _ _).mp hp
    exact (hpop _).1
  have hst := C173_stable lambda (drawn pop (Function.update z i j)) (drawn pop z) (by rw [hdr]; exact fun e => hne _ (List.map_eq_nil_iff.mp e)) (by simp [drawn])
    (hcl _) (hcl _) _ _ _ _ (hW _) (hW z) (hz _) (hz z)
  have hzero : matrixSize (zeroMat d k) = 0 := by
    rw [zeroMat_eq, matrixSize, matrixMass_toDMat]
    simp
  rw [hzero, add_zero, mul_zero, add_zero, hv, hv, matrixGap_norm] at hst
  have hch := SgdStability.changed_update pop R (fun i => (hpop i).2) z i j
  have h2 : (0 : ℝ) ≤ Real.sqrt 2 := Real.sqrt_nonneg _
  have h22 := Real.mul_self_sqrt (show (0 : ℝ) ≤ 2 by norm_num)
  have hR0 : 0 ≤ R := (Real.sqrt_nonneg _).trans (hpop j).2
  have hg : ‖mvec (v (Function.update z i j)) - mvec (v z)‖ ≤ Real.sqrt 2 * (2 * R) / lambda := by
    rw [le_div_iff₀ hlam, mul_comm]
    exact hst.trans (mul_le_mul_of_nonneg_left hch h2)
  refine (classLoss_gap _ _ _ (hcd _)).trans ?_
  have hr : rowSize (c (z i)).1 ≤ R := by
    have := (hpop (z i)).2
    rwa [hc] at this
  calc Real.sqrt 2 * rowSize (c (z i)).1 * ‖mvec (v (Function.update z i j)) - mvec (v z)‖
      ≤ Real.sqrt 2 * R * (Real.sqrt 2 * (2 * R) / lambda) :=
        mul_le_mul (mul_le_mul_of_nonneg_left hr h2) hg (norm_nonneg _) (mul_nonneg h2 hR0)
    _ = Real.sqrt 2 * Real.sqrt 2 * (2 * R ^ 2) / lambda := by ring
    _ = 4 * R ^ 2 / lambda := by rw [h22]; ring

/-- Example for `C173_generalisation`: five samples are drawn with replacement from two samples of length 1; with penalty 8 the bound
is 1/2. -/
example : ∃ (W : (Fin 5 → Fin 2) → DMat ℝ) (train test : (Fin 5 → Fin 2) → ℝ),
    (∀ z, softmaxGradient 8 (featuresOf 1 (drawn ![([1], 0), ([-1], 1)] z)) (labelsOf (drawn ![([1], 0), ([-1], 1)] z)) (W z) =
      .ok (zeroMat 1 2)) ∧
    (∀ z, softmaxEvaluate 0 (featuresOf 1 (drawn ![([1], 0), ([-1], 1)] z)) (labelsOf (drawn ![([1], 0), ([-1], 1)] z)) (W z) =
      .ok (train z)) ∧ |overDraws test - overDraws train| ≤ 1 / 2 := by
  let pop : Fin 2 → List ℝ × ℝ := ![([1], 0), ([-1], 1)]
  have hpop : ∀ i, ClassSample 1 2 (pop i) ∧ rowSize (pop i).1 ≤ 1 := by
    intro i
    fin_cases i
    · exact ⟨⟨rfl, 0, by norm_num [pop]⟩, by norm_num [pop, rowSize]⟩
    · exact ⟨⟨rfl, 1, by norm_num [pop]⟩, by norm_num [pop, rowSize]⟩
  have hne : ∀ z : Fin 5 → Fin 2, drawn pop z ≠ [] := by
    intro z e
    have := congrArg List.length e
    simp [drawn] at this
  have hcl : ∀ z : Fin 5 → Fin 2, ∀ p ∈ drawn pop z, ClassSample 1 2 p := by
    intro z p hp
    obtain ⟨i, rfl⟩ := (List.mem_ofFn' _ _).mp hp
    exact (hpop _).1
  have hclN : ∀ p ∈ List.ofFn pop, ClassSample 1 2 p := by
    intro p hp
    obtain ⟨i, rfl⟩ := (List.mem_ofFn' _ _).mp hp
    exact (hpop _).1
  choose W h1 h2 h3 h4 h5 h6 train h7 h8 using fun z => C173_minimum 8 (by norm_num) (drawn pop z) (hne z) (hcl z)
  obtain ⟨_, _, _, _, _, _, _, _, _, h9⟩ := C173_minimum 8 (by norm_num) (List.ofFn pop) (by simp) hclN
  choose test h10 using fun z => h9 (W z) (h1 z)
  refine ⟨W, train, test, h2, h7, ?_⟩
  refine (C173_generalisation (by decide) (by decide) 8 1 (by norm_num) pop hpop W h1 h2 train test h7 fun z => (h10 z).1).trans_eq ?_
  norm_num

end OpenML
