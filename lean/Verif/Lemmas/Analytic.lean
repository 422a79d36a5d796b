import Verif.Model.Analytic
import Verif.Spec.Analytic
import Verif.Lemmas.MapRes
import Verif.Lemmas.DMat
import Verif.Lemmas.KDBox
import Mathlib.Analysis.SpecialFunctions.Sigmoid
import Mathlib.Algebra.BigOperators.Ring.List
import Mathlib.Tactic.FieldSimp
import Mathlib.Tactic.Ring
import Mathlib.Tactic.Linarith
import Mathlib.Tactic.Positivity

/-!
# Lemmas about sigmoid, softmax, logsumexp
-/

set_option linter.unusedSectionVars false

namespace OpenML.Analytic
open Spec

theorem sigmoidEntry_eq (x : ℝ) : sigmoidEntry (if 0 ≤ x then 0 else x) x = Real.sigmoid x := by
  unfold sigmoidEntry
  rw [Real.sigmoid_def]
  split
  · next h => rw [abs_of_nonneg h, Real.exp_zero, one_div]
  · next h =>
    have h' : x < 0 := not_le.mp h
    rw [abs_of_neg h', neg_neg, Real.exp_neg]
    have := Real.exp_pos x
    field_simp
    ring

theorem sigmoid_eq (x : DMat ℝ) : sigmoid x = { x with rows := x.rows.map fun r => r.map Real.sigmoid } := by
  unfold sigmoid MatOps.fmin
  congr 1
  simp only [List.zipWith_map_left]
  rw [List.zipWith_self]
  apply List.map_congr_left
  intro r _
  rw [List.zipWith_self]
  apply List.map_congr_left
  intro a _
  exact sigmoidEntry_eq a

theorem foldl_max_spec (l : List ℝ) (a : ℝ) : IsMaximum (a :: l) (l.foldl max a) := by
  induction l generalizing a with
  | nil => exact ⟨by simp, by simp⟩
  | cons b l ih =>
    obtain ⟨h1, h2⟩ := ih (max a b)
    rw [List.foldl_cons]
    constructor
    · rcases List.mem_cons.mp h1 with h | h
      · rw [h]
        rcases max_choice a b with h' | h' <;> rw [h'] <;> simp
      · simp [h]
    · intro c hc
      have hm := h2 (max a b) (by simp)
      rcases List.mem_cons.mp hc with rfl | hc
      · exact (le_max_left _ _).trans hm
      · rcases List.mem_cons.mp hc with rfl | hc
        · exact (le_max_right _ _).trans hm
        · exact h2 c (by simp [hc])

theorem maxLine_spec (l : List ℝ) (h : l ≠ []) : ∃ c, maxLine l = .ok c ∧ IsMaximum l c := by
  match l, h with
  | a :: l, _ => exact ⟨_, rfl, foldl_max_spec l a⟩

theorem sum_exp_sub (l : List ℝ) (c : ℝ) : (l.map fun a => Real.exp (a - c)).sum = sumExp l / Real.exp c := by
  unfold sumExp
  induction l with
  | nil => simp
  | cons a l ih => rw [List.map_cons, List.sum_cons, List.map_cons, List.sum_cons, ih, Real.exp_sub, add_div]

theorem sumExp_pos (l : List ℝ) (h : l ≠ []) : 0 < sumExp l := by
  unfold sumExp
  match l, h with
  | a :: l, _ =>
    rw [List.map_cons, List.sum_cons]
    refine add_pos_of_pos_of_nonneg (Real.exp_pos a) (List.sum_nonneg ?_)
    intro b hb
    obtain ⟨x, -, rfl⟩ := List.mem_map.mp hb
    exact (Real.exp_pos x).le

theorem logsumexpLine_eq (l : List ℝ) (h : l ≠ []) : logsumexpLine l = .ok (Real.log (sumExp l)) := by
  obtain ⟨c, h1, -⟩ := maxLine_spec l h
  simp only [logsumexpLine, h1, Res.bind_ok, sum_exp_sub]
  rw [Real.log_div (sumExp_pos l h).ne' (Real.exp_pos c).ne', Real.log_exp, sub_add_cancel]

theorem logSumExp_bounds (l : List ℝ) (m : ℝ) (hm : IsMaximum l m) :
    m ≤ Real.log (sumExp l) ∧ Real.log (sumExp l) ≤ m + Real.log l.length := by
  have hne : l ≠ [] := by rintro rfl; simp [IsMaximum] at hm
  have hpos := sumExp_pos l hne
  have hlen : (0 : ℝ) < l.length := by exact_mod_cast List.length_pos_iff.mpr hne
  constructor
  · rw [Real.le_log_iff_exp_le hpos]
    have : Real.exp m ∈ l.map Real.exp := List.mem_map.mpr ⟨m, hm.1, rfl⟩
    exact List.single_le_sum (fun x hx => by
      obtain ⟨y, -, rfl⟩ := List.mem_map.mp hx
      exact (Real.exp_pos y).le) _ this
  · rw [Real.log_le_iff_le_exp hpos, Real.exp_add, Real.exp_log hlen]
    have : sumExp l ≤ (l.map Real.exp).length • Real.exp m := List.sum_le_card_nsmul _ _ (by
      intro x hx
      obtain ⟨y, hy, rfl⟩ := List.mem_map.mp hx
      exact Real.exp_le_exp.mpr (hm.2 y hy))
    rw [List.length_map, nsmul_eq_mul] at this
    linarith [mul_comm (l.length : ℝ) (Real.exp m)]

theorem softmaxLine_eq (l : List ℝ) (h : l ≠ []) : softmaxLine l = .ok (softmaxOf l) := by
  obtain ⟨c, h1, -⟩ := maxLine_spec l h
  simp only [softmaxLine, h1, Res.bind_ok, sum_exp_sub, softmaxOf, List.map_map]
  congr 1
  apply List.map_congr_left
  intro a _
  have h2 := Real.exp_pos c
  have h3 := sumExp_pos l h
  simp only [Function.comp_apply, Real.exp_sub]
  field_simp

theorem softmaxOf_pos (l : List ℝ) (p : ℝ) (hp : p ∈ softmaxOf l) : 0 < p := by
  obtain ⟨a, ha, rfl⟩ := List.mem_map.mp hp
  exact div_pos (Real.exp_pos a) (sumExp_pos l (List.ne_nil_of_mem ha))

theorem softmaxOf_sum (l : List ℝ) (h : l ≠ []) : (softmaxOf l).sum = 1 := by
  have h3 := sumExp_pos l h
  have : ∀ s, (l.map fun a => Real.exp a / s).sum = sumExp l / s := by
    intro s
    unfold sumExp
    clear h h3
    induction l with
    | nil => simp
    | cons a l ih => rw [List.map_cons, List.sum_cons, List.map_cons, List.sum_cons, ih, add_div]
  unfold softmaxOf
  rw [this, div_self h3.ne']

theorem softmaxOf_shift (l : List ℝ) (t : ℝ) : softmaxOf (l.map (· + t)) = softmaxOf l := by
  have hs : sumExp (l.map (· + t)) = sumExp l * Real.exp t := by
    unfold sumExp
    rw [List.map_map]
    induction l with
    | nil => simp
    | cons a l ih =>
      rw [List.map_cons, List.sum_cons, List.map_cons, List.sum_cons, ih, add_mul]
      simp [Real.exp_add]
  unfold softmaxOf
  rw [hs, List.map_map]
  apply List.map_congr_left
  intro a _
  have := Real.exp_pos t
  simp only [Function.comp_apply, Real.exp_add]
  exact mul_div_mul_right _ _ this.ne'

theorem mapRes_eq_map {β γ : Type} (f : β → Res γ) (g : β → γ) (l : List β) (h : ∀ a ∈ l, f a = .ok (g a)) :
    mapRes f l = .ok (l.map g) := by
  induction l with
  | nil => rfl
  | cons a l ih => simp [mapRes, h a (by simp), ih fun b hb => h b (by simp [hb])]

theorem rows_ne_nil {x : DMat ℝ} (hx : x.WF) (hc : 0 < x.ncols) (r : List ℝ) (hr : r ∈ x.rows) : r ≠ [] := by
  have := hx r hr
  intro h
  rw [h] at this
  simp at this
  omega

theorem cols_ne_nil {x : DMat ℝ} (hx : x.WF) (hr : x.rows ≠ []) (c : List ℝ) (hc : c ∈ x.cols) : c ≠ [] := by
  obtain ⟨f, hf, rfl⟩ := List.mem_map.mp hc
  have := DMat.length_col hx (List.mem_range.mp hf)
  intro h
  rw [h] at this
  exact hr (List.length_eq_zero_iff.mp this.symm)

theorem flatten_ne_nil {x : DMat ℝ} (hx : x.WF) (hr : x.rows ≠ []) (hc : 0 < x.ncols) : x.rows.flatten ≠ [] := by
  obtain ⟨r, hr⟩ := List.exists_mem_of_ne_nil _ hr
  obtain ⟨a, ha⟩ := List.exists_mem_of_ne_nil _ (rows_ne_nil hx hc r hr)
  exact List.ne_nil_of_mem (List.mem_flatten.mpr ⟨r, hr, ha⟩)

theorem col_fromCols (n : Nat) (cols : List (List ℝ)) (h : ∀ c ∈ cols, c.length = n) (j : Nat) (c : List ℝ)
    (hj : cols[j]? = some c) : (fromCols n cols).col j = c := by
  have hj' : j < cols.length := (List.getElem?_eq_some_iff.mp hj).1
  have hrow : ∀ i, i < n → ∀ q ∈ cols, i < q.length := fun i hi q hq => by rw [h q hq]; exact hi
  have hrows : ∀ r ∈ (fromCols n cols).rows, j < r.length := by
    intro r hr
    obtain ⟨i, hi, rfl⟩ := List.mem_map.mp hr
    rw [DMat.length_filterMap_getElem (hrow i (List.mem_range.mp hi))]
    exact hj'
  have hc : c.length = n := h c (List.mem_of_getElem? hj)
  apply List.ext_getElem?
  intro i
  unfold DMat.col
  rw [DMat.getElem?_filterMap_getElem hrows]
  by_cases hi : i < n
  · have : (fromCols n cols).rows[i]? = some (cols.filterMap (·[i]?)) := by simp [fromCols, hi]
    rw [this, Option.bind_some, DMat.getElem?_filterMap_getElem (hrow i hi), hj]
    rfl
  · have h1 : (fromCols n cols).rows[i]? = none := by simp [fromCols, hi]
    rw [h1, Option.bind_none]
    symm
    rw [List.getElem?_eq_none_iff]
    omega

end OpenML.Analytic
