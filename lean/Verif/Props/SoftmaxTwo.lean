import Verif.Spec.SoftmaxTwo
import Verif.Props.SoftmaxMinimum
import Verif.Props.LinearPredict
import Verif.Props.LinearFit
import Verif.Lemmas.Simulation

/-!
# C174: training softmax regression with two classes is training logistic regression
-/

namespace OpenML

open Spec Loss SGD Softmax Descent SoftmaxMinimum LinearFit
open scoped BigOperators

namespace SoftmaxTwo

variable {d : Nat}

/-- `around` as a function. -/
noncomputable def aroundF (m w : Fin d → ℝ) : Fin d × Fin 2 → ℝ := fun j => if j.2 = 0 then m j.1 - w j.1 / 2 else m j.1 + w j.1 / 2

theorem around_ofFn (m w : Fin d → ℝ) : around (List.ofFn m) (List.ofFn w) = toDMat (curried (aroundF m w)) := by
  unfold around toDMat curried aroundF
  congr 1
  apply List.ext_getElem
  · simp
  · intro i h1 h2
    simp [List.ofFn_succ]

theorem excess_around (m w : Fin d → ℝ) (p : List ℝ × Fin 2) :
    excess (aroundF m w) p 1 = Real.sigmoid (score p.1 w) - ((p.2.val : Nat) : ℝ) ∧
    excess (aroundF m w) p 0 = -(Real.sigmoid (score p.1 w) - ((p.2.val : Nat) : ℝ)) := by
  have h0 : cscore (curried (aroundF m w)) p.1 1 - cscore (curried (aroundF m w)) p.1 0 = score p.1 w := by
    unfold cscore score curried aroundF
    simp only [if_true, if_neg (show ¬(1 : Fin 2) = 0 by decide)]
    rw [← Finset.sum_sub_distrib]
    exact Finset.sum_congr rfl fun f _ => by ring
  have e1 : excess (aroundF m w) p 1 = Real.sigmoid (score p.1 w) - ((p.2.val : Nat) : ℝ) := by
    unfold excess
    rw [Fin.sum_univ_two, Real.sigmoid_def, ← h0]
    generalize cscore (curried (aroundF m w)) p.1 1 = a
    generalize cscore (curried (aroundF m w)) p.1 0 = b
    have hx : Real.exp a / (Real.exp b + Real.exp a) = (1 + Real.exp (-(a - b)))⁻¹ := by
      have e : Real.exp b = Real.exp a * Real.exp (-(a - b)) := by
        rw [← Real.exp_add]
        congr 1
        ring
      rw [e]
      have := Real.exp_pos a
      have := Real.exp_pos (-(a - b))
      field_simp
      ring
    rw [hx]
    congr 1
    obtain ⟨x, c⟩ := p
    fin_cases c <;> simp
  have e2 := excess_sum (aroundF m w) p
  rw [Fin.sum_univ_two] at e2
  exact ⟨e1, by linarith⟩

theorem grad_around (s : List (List ℝ × Fin 2)) (m w : Fin d → ℝ) :
    softGrad 0 s (aroundF m w) = fun j => if j.2 = 0 then -gradOf (fun a t => Real.sigmoid t - a) 0 (s.map named) w j.1
      else gradOf (fun a t => Real.sigmoid t - a) 0 (s.map named) w j.1 := by
  have e : ∀ f c, softGrad 0 s (aroundF m w) (f, c) = (s.map fun p => excess (aroundF m w) p c * p.1.getD f 0).sum / s.length := by
    intro f c
    unfold softGrad softmaxGrad excess curried
    ring
  have h1 : ∀ f, softGrad 0 s (aroundF m w) (f, 1) = gradOf (fun a t => Real.sigmoid t - a) 0 (s.map named) w f := by
    intro f
    rw [e, gradOf, List.map_map, List.length_map]
    have : (s.map fun p => excess (aroundF m w) p 1 * p.1.getD f 0) =
        s.map ((fun p : List ℝ × ℝ => (Real.sigmoid (score p.1 w) - p.2) * p.1.getD f 0) ∘ named) :=
      List.map_congr_left fun p _ => by rw [(excess_around m w p).1]; rfl
    rw [this]
    ring
  funext j
  obtain ⟨f, c⟩ := j
  have h2 := grad_rows 0 s (aroundF m w) f
  rw [Fin.sum_univ_two, zero_div, zero_mul, h1] at h2
  fin_cases c
  · simp only [Fin.zero_eta, if_true]
    linarith
  · simpa using h1 f

theorem clipped_neg (a : ℝ) : clipped (-a) = -clipped a := by
  unfold clipped
  rcases le_total a (10 ^ 10) with h | h
  · rcases le_total a (-10 ^ 10) with h' | h'
    · rw [min_eq_left h, max_eq_right h', min_eq_right (by linarith), max_eq_left (by norm_num)]
      ring
    · rw [min_eq_left h, max_eq_left h', min_eq_left (by linarith), max_eq_left (by linarith)]
  · have h1 : max (min a (10 ^ 10)) (-10 ^ 10) = (10 : ℝ) ^ 10 := by
      rw [min_eq_right h, max_eq_left (by norm_num)]
    have h2 : max (min (-a) (10 ^ 10)) (-10 ^ 10) = -(10 : ℝ) ^ 10 := by
      have : (0 : ℝ) < 10 ^ 10 := by norm_num
      rw [min_eq_left (by linarith), max_eq_right (by linarith)]
    rw [h1, h2]

theorem step_around (s : List (List ℝ × Fin 2)) (m w : Fin d → ℝ) (eta : ℝ) :
    move (softGrad 0 s) eta (aroundF m w) = aroundF m (move (gradOf (fun a t => Real.sigmoid t - a) 0 (s.map named)) (2 * eta) w) := by
  funext j
  obtain ⟨f, c⟩ := j
  unfold move
  rw [grad_around]
  fin_cases c
  · simp only [aroundF, Fin.zero_eta, if_true, clipped_neg]
    ring
  · simp only [aroundF, Fin.mk_one, if_neg (show ¬(1 : Fin 2) = 0 by decide)]
    ring

/-- Rows and labels of a batch as samples. -/
theorem exists_batch (rows rows' : List (List ℝ)) (z z' : List ℝ) (hr : List.Forall₂ (fun a b => a = b ∧ a.length = d) rows rows')
    (hz : List.Forall₂ (fun a b => a = b ∧ IsClass 2 a) z z') (hlen : rows.length = z.length) :
    rows = rows' ∧ z = z' ∧ ∃ s : List (List ℝ × Fin 2), (⟨d, rows⟩ : DMat ℝ) = featuresOf d (s.map named) ∧ z = labelsOf (s.map named) ∧
      (∀ p ∈ s, p.1.length = d) ∧ s.length = rows.length := by
  have e1 : rows = rows' := by
    have h1 : List.Forall₂ Eq rows rows' := hr.imp fun a b h => h.1
    rwa [List.forall₂_eq_eq_eq] at h1
  have e2 : z = z' := by
    have h1 : List.Forall₂ Eq z z' := hz.imp fun a b h => h.1
    rwa [List.forall₂_eq_eq_eq] at h1
  refine ⟨e1, e2, ?_⟩
  have hd : ∀ r ∈ rows, r.length = d := by
    intro r hmem
    obtain ⟨i, hi, rfl⟩ := List.getElem_of_mem hmem
    exact (hr.get hi (hr.length_eq ▸ hi)).2
  have hc : ∀ a ∈ z, IsClass 2 a := by
    intro a hmem
    obtain ⟨i, hi, rfl⟩ := List.getElem_of_mem hmem
    exact (hz.get hi (hz.length_eq ▸ hi)).2
  obtain ⟨labels, rfl⟩ := exists_labels z hc
  rw [labelVec_length] at hlen
  refine ⟨rows.zip labels, ?_, ?_, ?_, ?_⟩
  · unfold featuresOf
    rw [List.map_map, show (Prod.fst ∘ named : List ℝ × Fin 2 → List ℝ) = Prod.fst from rfl, List.map_fst_zip hlen.le]
  · rw [labels_named, List.map_snd_zip hlen.ge]
  · intro p hp
    exact hd _ (List.of_mem_zip hp).1
  · rw [List.length_zip, hlen, Nat.min_self]

theorem log_gradient (s : List (List ℝ × Fin 2)) (hd : ∀ p ∈ s, p.1.length = d) (w : Fin d → ℝ) :
    logGradient 0 (featuresOf d (s.map named)) (labelsOf (s.map named)) (List.ofFn w) =
      .ok (List.ofFn (gradOf (fun a t => Real.sigmoid t - a) 0 (s.map named) w)) := by
  have h1 := logGradient_eq 0 (featuresOf d (s.map named)) (wf_named s hd) (labelsOf (s.map named)) (LogStability.labelsOf_length _) w
  rwa [LogStability.zip_of] at h1

theorem evaluate_around (s : List (List ℝ × Fin 2)) (hs : s ≠ []) (hd : ∀ p ∈ s, p.1.length = d) (m w : Fin d → ℝ) :
    softmaxEvaluate 0 (featuresOf d (s.map named)) (labelsOf (s.map named)) (toDMat (curried (aroundF m w))) =
      logEvaluate 0 (featuresOf d (s.map named)) (labelsOf (s.map named)) (List.ofFn w) := by
  have h := C116_two_classes (featuresOf d (s.map named)) (wf_named s hd) (by rw [rows_named]; simpa using hs) (s.map Prod.snd)
    (by simp [DMat.nrows, rows_named]) (curried (aroundF m w))
  have e : (List.ofFn fun f => curried (aroundF m w) f 1 - curried (aroundF m w) f 0) = List.ofFn w := by
    refine congrArg List.ofFn (funext fun f => ?_)
    simp only [curried, aroundF, if_true, if_neg (show ¬(1 : Fin 2) = 0 by decide)]
    ring
  rw [labels_named]
  exact h.trans (by rw [← e]; rfl)

end SoftmaxTwo

open SoftmaxTwo

/-- C174: train the softmax loss of two classes without penalty by mini-batch gradient descent. From any initial weights, written as means and
differences of the two columns, the outcome is that of training the logistic loss with twice the learning rate from the differences: the
same exception or the same assertion, or weights with the old means and the logistic weights as differences. The loops stop in the same
epoch, for every shuffle, batch size, tolerance and learning rate, and even if gradients are clipped. -/
theorem C174_training (p : Params ℝ) (X : DMat ℝ) (hX : X.WF) (y : List ℝ) (hy : y.length = X.nrows) (hlab : ∀ a ∈ y, a = 0 ∨ a = 1)
    (m w : List ℝ) (hm : m.length = X.ncols) (hw : w.length = X.ncols) :
    sgd ⟨softmaxEvaluate 0, softmaxGradient 0⟩ clipGradMat vanillaUpdateMat p X y (around m w) =
      (sgd ⟨logEvaluate 0, logGradient 0⟩ clipGrad vanillaUpdate { p with decay := fun i => p.decay i >>= fun a => .ok (2 * a) } X y w >>=
        fun v => .ok (around m v)) := by
  by_cases hb : p.batchSize = 0
  · simp only [sgd, optimize, hb, if_true]
    rfl
  obtain ⟨m, rfl⟩ := exists_ofFn m hm
  obtain ⟨w, rfl⟩ := exists_ofFn w hw
  have hrows : List.Forall₂ (fun a b : List ℝ => a = b ∧ a.length = X.ncols) X.rows X.rows :=
    List.forall₂_same.mpr fun r hr => ⟨rfl, hX r hr⟩
  have hlabels : List.Forall₂ (fun a b : ℝ => a = b ∧ IsClass 2 a) y y :=
    List.forall₂_same.mpr fun a ha => ⟨rfl, by
      rcases hlab a ha with rfl | rfl
      · exact ⟨0, by norm_num⟩
      · exact ⟨1, by norm_num⟩⟩
  have key : Res.Rel (fun (W : DMat ℝ) (v : List ℝ) => W = around (List.ofFn m) v)
      (sgd ⟨softmaxEvaluate 0, softmaxGradient 0⟩ clipGradMat vanillaUpdateMat p X y (around (List.ofFn m) (List.ofFn w)))
      (sgd ⟨logEvaluate 0, logGradient 0⟩ clipGrad vanillaUpdate { p with decay := fun i => p.decay i >>= fun a => .ok (2 * a) } X y
        (List.ofFn w)) := by
    refine (optimize_rel _ _ id id _ _ (fun (W : DMat ℝ) (v : List ℝ) => ∃ f : Fin X.ncols → ℝ, v = List.ofFn f ∧
      W = toDMat (curried (aroundF m f))) X.ncols (fun a b : List ℝ => a = b ∧ a.length = X.ncols) (fun a b : ℝ => a = b ∧ IsClass 2 a)
      (fun a b : ℝ => b = 2 * a) p.batchSize (X.nrows / p.batchSize) ?_ ?_ p
      { p with decay := fun i => p.decay i >>= fun a => .ok (2 * a) } rfl rfl rfl rfl rfl rfl ?_ ⟨rfl, rfl, hrows, hlabels⟩ rfl _ _
      ⟨w, rfl, around_ofFn m w⟩).mono ?_
    · rintro j - W v rows rows' z z' lr lr' ⟨f, rfl, rfl⟩ hr hz hlr hlz rfl
      obtain ⟨rfl, rfl, s, e1, e2, hd, hlen⟩ := exists_batch rows rows' z z' hr hz (by rw [hlr, hlz])
      have hs : s ≠ [] := by
        rintro rfl
        simp only [List.length_nil] at hlen
        omega
      rw [e1, e2]
      simp only [sgdStep]
      rw [gradient_named 0 s hs hd, log_gradient s hd, Res.bind_ok, Res.bind_ok, vanilla_moveMat, vanilla_move, step_around]
      exact .ok ⟨_, rfl, rfl⟩
    · rintro W v rows rows' z z' ⟨f, rfl, rfl⟩ hr hz hlr hlz
      obtain ⟨rfl, rfl, s, e1, e2, hd, hlen⟩ := exists_batch rows rows' z z' hr hz (by rw [hlr, hlz])
      have hs : s ≠ [] := by
        rintro rfl
        simp only [List.length_nil] at hlen
        omega
      rw [e1, e2]
      exact evaluate_around s hs hd m f
    · intro i
      dsimp only
      cases p.decay i with
      | ok a => exact .ok rfl
      | throw e => exact .throw e
      | ub => exact .ub
      | diverge => exact .diverge
    · rintro W v ⟨W', v', ⟨f, rfl, rfl⟩, rfl, rfl⟩
      exact (around_ofFn m f).symm
  revert key
  generalize sgd ⟨softmaxEvaluate 0, softmaxGradient 0⟩ clipGradMat vanillaUpdateMat p X y (around (List.ofFn m) (List.ofFn w)) = a
  generalize sgd ⟨logEvaluate 0, logGradient 0⟩ clipGrad vanillaUpdate { p with decay := fun i => p.decay i >>= fun a => .ok (2 * a) } X y
    (List.ofFn w) = b
  intro key
  cases key with
  | ok h => rw [h]; rfl
  | throw e => rfl
  | ub => rfl
  | diverge => rfl

/-- Example for `C174_training`: two samples of different classes, one batch, one epoch with rate 2, initial weights 1 as in `fit`. The
logistic weights after one epoch with rate 4 are -2, those of the classes 2 and 0. -/
example : sgd ⟨logEvaluate 0, logGradient 0⟩ clipGrad vanillaUpdate ⟨1, 2, 0, 1 / 100, fun _ => .ok 4, none⟩
      (⟨1, [[1], [-1]]⟩ : DMat ℝ) [0, 1] [0] = .ok [-2] ∧
    sgd ⟨softmaxEvaluate 0, softmaxGradient 0⟩ clipGradMat vanillaUpdateMat ⟨1, 2, 0, 1 / 100, fun _ => .ok 2, none⟩
      (⟨1, [[1], [-1]]⟩ : DMat ℝ) [0, 1] ⟨2, [[1, 1]]⟩ = .ok ⟨2, [[2, 0]]⟩ := by
  have h1 : sgd ⟨logEvaluate 0, logGradient 0⟩ clipGrad vanillaUpdate ⟨1, 2, 0, 1 / 100, fun _ => .ok 4, none⟩
      (⟨1, [[1], [-1]]⟩ : DMat ℝ) [0, 1] [0] = .ok [-2] := by
    have hX : (⟨1, [[1], [-1]]⟩ : DMat ℝ).WF := by simp [DMat.WF]
    have h1 := logGradient_eq 0 ⟨1, [[1], [-1]]⟩ hX [0, 1] rfl fun _ => 0
    have h2 := logEvaluate_eq 0 ⟨1, [[1], [-1]]⟩ hX [0, 1] rfl fun _ => -2
    norm_num [gradOf, score, List.ofFn_succ, Real.sigmoid_zero] at h1 h2
    norm_num [sgd, optimize, epochLoop, epoch, shuffleXY, batchLoop, middleRows, DMat.nrows, sgdStep, h1, h2, vanillaUpdate, clipGrad,
      MatOps.clip, subV]
  refine ⟨h1, ?_⟩
  have h := C174_training ⟨1, 2, 0, 1 / 100, fun _ => .ok 2, none⟩ ⟨1, [[1], [-1]]⟩ (by simp [DMat.WF]) [0, 1] rfl (by simp) [1] [0] rfl rfl
  have e : (fun i : Nat => (Res.ok (2 : ℝ) >>= fun a => Res.ok (2 * a) : Res ℝ)) = fun _ => .ok 4 := by
    funext i
    rw [Res.bind_ok]
    norm_num
  simp only [e] at h
  rw [h1] at h
  norm_num [around] at h
  exact h

namespace SoftmaxTwo

theorem firstMax_two (a b : ℝ) (k : Nat) (h : IsFirstMax [a, b] k) : k = if a < b then 1 else 0 := by
  obtain ⟨v, h1, h2⟩ := h
  have ha := h2 0 a rfl
  have hb := h2 1 b rfl
  match k, h1 with
  | 0, h1 =>
    obtain rfl : a = v := by simpa using h1
    rw [if_neg (not_lt.mpr hb.1)]
  | 1, h1 =>
    obtain rfl : b = v := by simpa using h1
    have : a ≠ b := fun e => absurd (ha.2 e) (by omega)
    rw [if_pos (lt_of_le_of_ne ha.1 this)]
  | k + 2, h1 => simp at h1

theorem dotL_columns (r m v : List ℝ) (hm : m.length = v.length) :
    dotL r (List.zipWith (fun a b => a + b / 2) m v) - dotL r (List.zipWith (fun a b => a - b / 2) m v) = dotL r v := by
  unfold dotL
  induction r generalizing m v with
  | nil => simp
  | cons x r ih =>
    cases m with
    | nil =>
      obtain rfl : v = [] := List.eq_nil_of_length_eq_zero hm.symm
      simp
    | cons a m =>
      obtain ⟨b, v, rfl⟩ : ∃ b t, v = b :: t := by
        cases v with
        | nil => cases hm
        | cons b v => exact ⟨b, v, rfl⟩
      have := ih m v (Nat.succ.inj hm)
      simp only [List.zipWith_cons_cons, List.sum_cons]
      linarith

theorem cols_around (m w : List ℝ) : (around m w).col 0 = List.zipWith (fun a b => a - b / 2) m w ∧
    (around m w).col 1 = List.zipWith (fun a b => a + b / 2) m w := by
  unfold around DMat.col
  induction m generalizing w with
  | nil => simp
  | cons a m ih =>
    cases w with
    | nil => simp
    | cons b w =>
      have := ih w
      simp only [List.zipWith_cons_cons]
      constructor
      · simpa using this.1
      · simpa using this.2

end SoftmaxTwo

/-- C174: the two classes then answer differently. With weights `v` and bias `b` as differences, softmax regression answers class 1 for a
sample if and only if its product with `v` is positive, logistic regression answers class 0 if and only if that product plus `b` is
positive. If the bias is zero, the answers for every sample are opposite. -/
theorem C174_predict (X : DMat ℝ) (hX : X.WF) (hn : 2 ≤ X.nrows) (m v : List ℝ) (b : ℝ) (hm : m.length = X.ncols + 1)
    (hv : v.length = X.ncols) :
    softmaxPredict (around m (v ++ [b])) X = .ok (X.rows.map fun r => if 0 < (List.zipWith (· * ·) r v).sum then 1 else 0) ∧
    predictLogistic (v ++ [b]) X = .ok (X.rows.map fun r => if 0 < (List.zipWith (· * ·) r v).sum + b then 0 else 1) ∧
    (b = 0 → ∃ ks : List Nat, softmaxPredict (around m (v ++ [b])) X = .ok ks ∧
      predictLogistic (v ++ [b]) X = .ok (ks.map fun k : Nat => 1 - (k : ℝ))) := by
  have hlen : (v ++ [b]).length = X.ncols + 1 := by simp [hv]
  have h1 : softmaxPredict (around m (v ++ [b])) X = .ok (X.rows.map fun r => if 0 < (List.zipWith (· * ·) r v).sum then 1 else 0) := by
    have hne : X.rows ≠ [] := by
      intro e
      simp [DMat.nrows, e] at hn
    have hWF : (around m (v ++ [b])).WF := by
      intro r hr
      unfold around at hr
      obtain ⟨i, hi, rfl⟩ := List.getElem_of_mem hr
      simp [around]
    obtain ⟨P, ys, -, h2, -, h3, -, h4⟩ := (C82_predict (around m (v ++ [b])) X hWF (by simp [around, DMat.nrows, hm, hv]) hne
      (by simp [around])).2 (by
        rintro (h | h)
        · omega
        · simp [around] at h)
    rw [h2]
    congr 1
    refine List.ext_getElem (by simpa [DMat.nrows] using h3) fun i h5 h6 => ?_
    have hi : i < X.rows.length := by simpa using h6
    have h7 := h4 i X.rows[i] ys[i] (List.getElem?_eq_getElem hi) (List.getElem?_eq_getElem h5)
    have e : (List.range (around m (v ++ [b])).ncols).map (fun c => dotL X.rows[i] (((around m (v ++ [b])).col c).take X.ncols)) =
        [dotL X.rows[i] (List.zipWith (fun a b => a - b / 2) (m.take X.ncols) v),
          dotL X.rows[i] (List.zipWith (fun a b => a + b / 2) (m.take X.ncols) v)] := by
      have e1 : (List.range (around m (v ++ [b])).ncols) = [0, 1] := rfl
      rw [e1, List.map_cons, List.map_cons, List.map_nil, (cols_around m (v ++ [b])).1, (cols_around m (v ++ [b])).2, List.take_zipWith,
        List.take_zipWith, List.take_left' hv]
    rw [e] at h7
    rw [firstMax_two _ _ _ h7, List.getElem_map]
    have h8 := dotL_columns X.rows[i] (m.take X.ncols) v (by rw [List.length_take, hm, hv]; omega)
    have h9 : dotL X.rows[i] v = (List.zipWith (· * ·) X.rows[i] v).sum := rfl
    rw [← h9, ← h8]
    simp only [sub_pos]
  have h2 : predictLogistic (v ++ [b]) X = .ok (X.rows.map fun r => if 0 < (List.zipWith (· * ·) r v).sum + b then 0 else 1) := by
    rw [predictLogistic_eq (v ++ [b]) X hX hlen]
    congr 1
    refine List.map_congr_left fun r hr => ?_
    have : dotL (r ++ [1]) (v ++ [b]) = (List.zipWith (· * ·) r v).sum + b := by
      unfold dotL
      rw [List.zipWith_append (by rw [hX r hr, hv])]
      simp
    rw [this]
  refine ⟨h1, h2, fun hb => ⟨_, h1, ?_⟩⟩
  rw [h2, List.map_map]
  congr 1
  refine List.map_congr_left fun r _ => ?_
  simp only [Function.comp_apply, hb, add_zero]
  split <;> norm_num

/-- Example for `C174_predict`: two samples; the weights 1 and -1 of the classes (mean 0, difference 2), no bias. -/
example : softmaxPredict (around [0, 0] [-2, 0]) ⟨1, [[1], [-1]]⟩ = .ok [0, 1] ∧
    predictLogistic [-2, 0] ⟨1, [[1], [-1]]⟩ = .ok [1, 0] := by
  have h := C174_predict ⟨1, [[1], [-1]]⟩ (by simp [DMat.WF]) (by simp [DMat.nrows]) [0, 0] [-2] 0 rfl rfl
  refine ⟨h.1.trans ?_, h.2.1.trans ?_⟩ <;> norm_num

end OpenML
