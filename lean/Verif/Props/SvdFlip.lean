import Verif.Lemmas.SvdFlip
import Mathlib.Algebra.Order.Ring.Rat

/-!
# C31: `svd_flip`
-/

set_option linter.unusedSectionVars false

namespace OpenML
open Spec SvdFlip

variable {α : Type} [CommRing α] [LinearOrder α] [IsStrictOrderedRing α]

/-- C31: if no column of `U` is zero, the column-based flip multiplies column `j` of `U` and row `j` of `Vt` by a common
sign, leaves `U * diag(s) * Vt` unchanged for every `s`, and makes the first entry of largest absolute value of each column
of `U` positive. -/
theorem C31_columns (U V : DMat α) (hU : U.WF) (hV : V.WF) (hd : V.nrows = U.ncols) (hr : 0 < U.nrows)
    (hnz : ∀ j < U.ncols, ∃ i < U.nrows, entry U i j ≠ 0) :
    ∃ U' V', svdFlip U V true = .ok (U', V') ∧ U'.WF ∧ V'.WF ∧ U'.nrows = U.nrows ∧ U'.ncols = U.ncols ∧
      V'.nrows = V.nrows ∧ V'.ncols = V.ncols ∧
      (∀ s i j, productEntry U' s V' i j = productEntry U s V i j) ∧
      (∀ j < U.ncols, ∃ σ : α, (σ = 1 ∨ σ = -1) ∧ (∀ i, entry U' i j = σ * entry U i j) ∧
        ∀ i, entry V' j i = σ * entry V j i) ∧
      ∀ j < U.ncols, ∃ p < U.nrows, 0 < entry U' p j ∧
        ∀ i < U.nrows, |entry U' i j| ≤ entry U' p j ∧ (|entry U' i j| = entry U' p j → p ≤ i) := by
  obtain ⟨signs, h1, h2, h3⟩ := columnSigns_spec U hU hr
  obtain ⟨U', V', k1, k2, k3, k4, k5, k6, k7, k8, k9⟩ := svdFlip_spec U V hU hV hd true signs (by simpa using h1) h2
  have hs : ∀ j < U.ncols, ∃ p, IsTop (fun i => entry U i j) U.nrows p ∧ signs.getD j 0 = sgn (entry U p j) ∧
      entry U p j ≠ 0 := by
    intro j hj
    obtain ⟨p, hp, hsg⟩ := h3 j hj
    refine ⟨p, hp, by rw [List.getD_eq_getElem?_getD, hsg]; rfl, fun h0 => ?_⟩
    obtain ⟨i, hi, hne⟩ := hnz j hj
    have := (hp.2 i hi).1
    simp only [h0, abs_zero] at this
    exact hne (abs_eq_zero.mp (le_antisymm this (abs_nonneg _)))
  refine ⟨U', V', k1, k2, k3, k4, k5, k6, k7, ?_, ?_, ?_⟩
  · refine productEntry_eq U V U' V' (fun k => signs.getD k 0) k5 (fun k hk => ?_) k8 k9
    obtain ⟨p, -, he, hne⟩ := hs k hk
    simp only [he]
    exact sgn_sq _ hne
  · intro j hj
    obtain ⟨p, -, he, hne⟩ := hs j hj
    refine ⟨signs.getD j 0, ?_, fun i => by rw [k8, mul_comm], fun i => by rw [k9, mul_comm]⟩
    rw [he, sgn]
    rcases lt_or_gt_of_ne hne with h | h
    · right; rw [if_neg (not_lt.mpr h.le), if_pos h]
    · left; rw [if_pos h]
  · intro j hj
    obtain ⟨p, hp, he, hne⟩ := hs j hj
    refine ⟨p, hp.1, ?_, fun i hi => ?_⟩
    · rw [k8, he, mul_sgn]; exact abs_pos.mpr hne
    · rw [k8, k8, he, mul_sgn, abs_mul_sgn _ _ hne]
      exact hp.2 i hi

example : svdFlip (⟨2, [[-1, 2], [-3, -2]]⟩ : DMat ℚ) ⟨2, [[5, 6], [7, 8]]⟩ true =
    .ok (⟨2, [[1, 2], [3, -2]]⟩, ⟨2, [[-5, -6], [7, 8]]⟩) := by decide +kernel

/-- C31: the same for the row-based flip: if no row of `Vt` is zero, the product is unchanged and the first entry of largest
absolute value of each row of `Vt` becomes positive. -/
theorem C31_rows (U V : DMat α) (hU : U.WF) (hV : V.WF) (hd : V.nrows = U.ncols) (hc : 0 < V.ncols)
    (hnz : ∀ i < V.nrows, ∃ j < V.ncols, entry V i j ≠ 0) :
    ∃ U' V', svdFlip U V false = .ok (U', V') ∧ U'.WF ∧ V'.WF ∧ U'.nrows = U.nrows ∧ U'.ncols = U.ncols ∧
      V'.nrows = V.nrows ∧ V'.ncols = V.ncols ∧
      (∀ s i j, productEntry U' s V' i j = productEntry U s V i j) ∧
      (∀ j < U.ncols, ∃ σ : α, (σ = 1 ∨ σ = -1) ∧ (∀ i, entry U' i j = σ * entry U i j) ∧
        ∀ i, entry V' j i = σ * entry V j i) ∧
      ∀ i < V.nrows, ∃ p < V.ncols, 0 < entry V' i p ∧
        ∀ j < V.ncols, |entry V' i j| ≤ entry V' i p ∧ (|entry V' i j| = entry V' i p → p ≤ j) := by
  obtain ⟨signs, h1, h2, h3⟩ := rowSigns_spec V hV hc
  obtain ⟨U', V', k1, k2, k3, k4, k5, k6, k7, k8, k9⟩ :=
    svdFlip_spec U V hU hV hd false signs (by simpa using h1) (h2.trans hd)
  have hs : ∀ i < V.nrows, ∃ p, IsTop (fun j => entry V i j) V.ncols p ∧ signs.getD i 0 = sgn (entry V i p) ∧
      entry V i p ≠ 0 := by
    intro i hi
    obtain ⟨p, hp, hsg⟩ := h3 i hi
    refine ⟨p, hp, by rw [List.getD_eq_getElem?_getD, hsg]; rfl, fun h0 => ?_⟩
    obtain ⟨j, hj, hne⟩ := hnz i hi
    have := (hp.2 j hj).1
    simp only [h0, abs_zero] at this
    exact hne (abs_eq_zero.mp (le_antisymm this (abs_nonneg _)))
  refine ⟨U', V', k1, k2, k3, k4, k5, k6, k7, ?_, ?_, ?_⟩
  · refine productEntry_eq U V U' V' (fun k => signs.getD k 0) k5 (fun k hk => ?_) k8 k9
    obtain ⟨p, -, he, hne⟩ := hs k (by omega)
    simp only [he]
    exact sgn_sq _ hne
  · intro j hj
    obtain ⟨p, -, he, hne⟩ := hs j (by omega)
    refine ⟨signs.getD j 0, ?_, fun i => by rw [k8, mul_comm], fun i => by rw [k9, mul_comm]⟩
    rw [he, sgn]
    rcases lt_or_gt_of_ne hne with h | h
    · right; rw [if_neg (not_lt.mpr h.le), if_pos h]
    · left; rw [if_pos h]
  · intro i hi
    obtain ⟨p, hp, he, hne⟩ := hs i hi
    refine ⟨p, hp.1, ?_, fun j hj => ?_⟩
    · rw [k9, he, mul_sgn]; exact abs_pos.mpr hne
    · rw [k9, k9, he, mul_sgn, abs_mul_sgn _ _ hne]
      exact hp.2 j hj

example : svdFlip (⟨2, [[-1, 2], [-3, -2]]⟩ : DMat ℚ) ⟨2, [[5, -6], [8, -8]]⟩ false =
    .ok (⟨2, [[1, 2], [3, -2]]⟩, ⟨2, [[-5, 6], [8, -8]]⟩) := by decide +kernel

/-- C31: a zero column of `U` wipes the corresponding row of `Vt`. -/
theorem C31_zero_column (U V : DMat α) (hU : U.WF) (hV : V.WF) (hd : V.nrows = U.ncols) (hr : 0 < U.nrows) :
    ∃ U' V', svdFlip U V true = .ok (U', V') ∧
      ∀ j < U.ncols, (∀ i < U.nrows, entry U i j = 0) → ∀ i, entry V' j i = 0 := by
  obtain ⟨signs, h1, h2, h3⟩ := columnSigns_spec U hU hr
  obtain ⟨U', V', k1, -, -, -, -, -, -, -, k9⟩ := svdFlip_spec U V hU hV hd true signs (by simpa using h1) h2
  refine ⟨U', V', k1, fun j hj h0 i => ?_⟩
  obtain ⟨p, hp, hsg⟩ := h3 j hj
  have : signs.getD j 0 = 0 := by
    rw [List.getD_eq_getElem?_getD, hsg, h0 p hp.1]
    simp [sgn]
  rw [k9, this, mul_zero]

example : svdFlip (⟨2, [[0, 2], [0, -2]]⟩ : DMat ℚ) ⟨2, [[5, 6], [7, 8]]⟩ true =
    .ok (⟨2, [[0, 2], [0, -2]]⟩, ⟨2, [[0, 0], [7, 8]]⟩) := by decide +kernel

/-- C31: mismatching inner dimensions violate an assertion in either mode. -/
theorem C31_mismatch (U V : DMat α) (hU : U.WF) (hV : V.WF) (hd : V.nrows ≠ U.ncols) (hr : 0 < U.nrows) (hc : 0 < V.ncols)
    (b : Bool) : svdFlip U V b = .ub := by
  obtain ⟨s1, h1, h2, -⟩ := columnSigns_spec U hU hr
  obtain ⟨s2, k1, k2, -⟩ := rowSigns_spec V hV hc
  cases b
  · simp only [svdFlip, Bool.false_eq_true, if_false, k1, Res.bind_ok, scaleColumns]
    rw [if_neg (by omega)]
    rfl
  · simp only [svdFlip, if_true, h1, Res.bind_ok, scaleColumns, scaleRows]
    rw [if_pos h2.symm, Res.bind_ok, if_neg (by omega)]
    rfl

example : svdFlip (⟨2, [[1, 2], [0, -2]]⟩ : DMat ℚ) ⟨2, [[5, 6], [7, 8], [1, 1]]⟩ true = .ub := by decide +kernel

end OpenML
