import Verif.Lemmas.Analytic

/-!
# C29: sigmoid, softmax, logsumexp
-/

set_option linter.unusedSectionVars false

namespace OpenML
open Spec Analytic

/-- C29: every entry of `sigmoid` is `1 / (1 + exp (-x))`; the case distinction in the code does not change the value. -/
theorem C29_sigmoid (x : DMat ℝ) :
    (sigmoid x).rows = x.rows.map (fun r => r.map fun a => 1 / (1 + Real.exp (-a))) ∧ (sigmoid x).ncols = x.ncols := by
  rw [sigmoid_eq]
  refine ⟨?_, rfl⟩
  simp only [one_div]
  rfl

example : (sigmoid ⟨2, [[0, -Real.log 3]]⟩).rows = [[1 / 2, 1 / 4]] := by
  rw [(C29_sigmoid _).1]
  simp [Real.exp_log]
  norm_num

/-- C29: values of `sigmoid` lie strictly between 0 and 1, order is preserved strictly, and negating the argument gives the
complement. -/
theorem C29_sigmoid_range (x y : ℝ) (a b c : ℝ) (ha : (sigmoid ⟨1, [[x]]⟩).rows = [[a]])
    (hb : (sigmoid ⟨1, [[y]]⟩).rows = [[b]]) (hc : (sigmoid ⟨1, [[-x]]⟩).rows = [[c]]) :
    0 < a ∧ a < 1 ∧ (x < y ↔ a < b) ∧ c = 1 - a := by
  rw [sigmoid_eq] at ha hb hc
  simp only [List.map_cons, List.map_nil, List.cons.injEq, and_true] at ha hb hc
  subst ha hb hc
  exact ⟨Real.sigmoid_pos x, Real.sigmoid_lt_one x, Real.sigmoid_lt_iff.symm, Real.sigmoid_neg x⟩

example : ∃ a, (sigmoid ⟨1, [[5]]⟩).rows = [[a]] := ⟨_, (C29_sigmoid _).1⟩

/-- C29: `logsumexp` over rows, columns or everything is the logarithm of the sum of exponentials of each line. -/
theorem C29_logsumexp (x : DMat ℝ) (hx : x.WF) (hr : x.rows ≠ []) (hc : 0 < x.ncols) :
    logsumexp x 1 = .ok (x.rows.map fun l => Real.log (sumExp l)) ∧
    logsumexp x 0 = .ok (x.cols.map fun l => Real.log (sumExp l)) ∧
    logsumexp x (-1) = .ok [Real.log (sumExp x.rows.flatten)] := by
  refine ⟨?_, ?_, ?_⟩
  · rw [logsumexp, if_pos rfl]
    exact mapRes_eq_map _ _ _ fun l hl => logsumexpLine_eq l (rows_ne_nil hx hc l hl)
  · rw [logsumexp, if_neg (by decide), if_pos rfl]
    exact mapRes_eq_map _ _ _ fun l hl => logsumexpLine_eq l (cols_ne_nil hx hr l hl)
  · rw [logsumexp, if_neg (by decide), if_neg (by decide), if_pos rfl, MatOps.flattenMat,
      logsumexpLine_eq _ (flatten_ne_nil hx hr hc)]
    rfl

example : logsumexp ⟨2, [[0, 0], [Real.log 2, 0]]⟩ 1 = .ok [Real.log 2, Real.log 3] := by
  rw [(C29_logsumexp ⟨2, [[0, 0], [Real.log 2, 0]]⟩ (by intro r hr; simp at hr; rcases hr with rfl | rfl <;> rfl) (by simp)
    (by simp)).1]
  simp [sumExp, Real.exp_log]
  norm_num

/-- C29: the logarithm of the sum of exponentials lies between the maximum and the maximum plus the logarithm of the
length. -/
theorem C29_logsumexp_bounds (l : List ℝ) (hl : l ≠ []) (m : ℝ) (hm : IsMaximum l m) :
    ∃ v, logsumexpLine l = .ok v ∧ m ≤ v ∧ v ≤ m + Real.log l.length :=
  ⟨_, logsumexpLine_eq l hl, logSumExp_bounds l m hm⟩

example : IsMaximum [3, 1, 2] 3 := ⟨by simp, by intro a ha; simp at ha; rcases ha with rfl | rfl | rfl <;> norm_num⟩

/-- C29: `softmax` throws for a single row or column and otherwise replaces each row (axis 1), each column (axis 0) or the
sequence of all entries (axis -1) by the normalised exponentials. -/
theorem C29_softmax (x : DMat ℝ) (hx : x.WF) (hr : x.rows ≠ []) (hc : 0 < x.ncols) :
    ((x.nrows = 1 ∨ x.ncols = 1) → ∀ axis, softmax x axis = .throw .invalidArgument) ∧
    (¬ (x.nrows = 1 ∨ x.ncols = 1) →
      softmax x 1 = .ok ⟨x.ncols, x.rows.map softmaxOf⟩ ∧
      (∃ y, softmax x 0 = .ok y ∧ y.nrows = x.nrows ∧ y.cols = x.cols.map softmaxOf) ∧
      (∃ y, softmax x (-1) = .ok y ∧ y.nrows = x.nrows ∧ y.ncols = x.ncols ∧ y.rows.flatten = softmaxOf x.rows.flatten)) := by
  constructor
  · intro h axis
    rw [softmax, if_pos h]
  · intro h
    refine ⟨?_, ?_, ?_⟩
    · rw [softmax, if_neg h, if_neg (by decide), if_pos rfl,
        mapRes_eq_map softmaxLine softmaxOf _ fun l hl => softmaxLine_eq l (rows_ne_nil hx hc l hl)]
      rfl
    · refine ⟨fromCols x.nrows (x.cols.map softmaxOf), ?_, by simp [fromCols, DMat.nrows], ?_⟩
      · rw [softmax, if_neg h, if_pos rfl,
          mapRes_eq_map softmaxLine softmaxOf _ fun l hl => softmaxLine_eq l (cols_ne_nil hx hr l hl)]
        rfl
      · have hlen : ∀ c ∈ x.cols.map softmaxOf, c.length = x.nrows := by
          intro c hc'
          obtain ⟨q, hq, rfl⟩ := List.mem_map.mp hc'
          simp [softmaxOf, DMat.length_of_mem_cols hx hq]
        have hn : (fromCols x.nrows (x.cols.map softmaxOf)).ncols = (x.cols.map softmaxOf).length := rfl
        apply List.ext_getElem?
        intro j
        by_cases hj : j < (x.cols.map softmaxOf).length
        · rw [DMat.getElem?_cols _ (by rw [hn]; exact hj), List.getElem?_eq_getElem hj,
            col_fromCols x.nrows _ hlen j _ (List.getElem?_eq_getElem hj)]
        · rw [List.getElem?_eq_none (by rw [DMat.length_cols, hn]; omega), List.getElem?_eq_none (by omega)]
    · obtain ⟨c, h1, -⟩ := maxLine_spec _ (flatten_ne_nil hx hr hc)
      have hpos := sumExp_pos _ (flatten_ne_nil hx hr hc)
      have hsum : (x.rows.map fun r => r.map fun a => Real.exp (a - c)).flatten.sum =
          sumExp x.rows.flatten / Real.exp c := by
        rw [← sum_exp_sub]
        congr 1
        rw [List.map_flatten]
      refine ⟨⟨x.ncols, (x.rows.map fun r => r.map fun a => Real.exp (a - c)).map fun r => r.map fun a =>
        a / (sumExp x.rows.flatten / Real.exp c)⟩, ?_, by simp [DMat.nrows], rfl, ?_⟩
      · rw [softmax, if_neg h, if_neg (by decide), if_neg (by decide), if_pos rfl]
        simp only [MatOps.flattenMat, h1, Res.bind_ok, hsum]
      · simp only [List.map_map]
        unfold softmaxOf
        rw [List.map_flatten]
        congr 1
        apply List.map_congr_left
        intro r _
        simp only [Function.comp_apply, List.map_map]
        apply List.map_congr_left
        intro a _
        have := Real.exp_pos c
        simp only [Function.comp_apply, Real.exp_sub]
        field_simp

example : softmax ⟨2, [[0, 0], [3, 3]]⟩ 1 = .ok ⟨2, [[1 / 2, 1 / 2], [1 / 2, 1 / 2]]⟩ := by
  rw [((C29_softmax ⟨2, [[0, 0], [3, 3]]⟩ (by intro r hr; simp at hr; rcases hr with rfl | rfl <;> rfl) (by simp)
    (by simp)).2 (by simp [DMat.nrows])).1]
  have h0 : Real.exp 3 ≠ 0 := (Real.exp_pos 3).ne'
  have : Real.exp 3 / (Real.exp 3 + Real.exp 3) = 1 / 2 := by field_simp; norm_num
  simp [softmaxOf, sumExp, this]
  norm_num

/-- C29: the normalised exponentials of a non-empty line are positive, add up to one and do not change when a constant is
added to the line. -/
theorem C29_softmax_distribution (l : List ℝ) (hl : l ≠ []) (t : ℝ) :
    ∃ p, softmaxLine l = .ok p ∧ (∀ q ∈ p, 0 < q) ∧ p.sum = 1 ∧ softmaxLine (l.map (· + t)) = .ok p := by
  refine ⟨softmaxOf l, softmaxLine_eq l hl, softmaxOf_pos l, softmaxOf_sum l hl, ?_⟩
  rw [softmaxLine_eq _ (by simpa using hl), softmaxOf_shift]

example : softmaxLine [7, 7] = .ok [1 / 2, 1 / 2] := by
  rw [softmaxLine_eq _ (by simp)]
  have h0 : Real.exp 7 ≠ 0 := (Real.exp_pos 7).ne'
  have : Real.exp 7 / (Real.exp 7 + Real.exp 7) = 1 / 2 := by field_simp; norm_num
  simp [softmaxOf, sumExp, this]

end OpenML
