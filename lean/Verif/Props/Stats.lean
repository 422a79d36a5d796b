import Verif.Lemmas.Stats
import Verif.Props.MatOps
import Mathlib.Tactic.NormNum

/-!
# C28: var, mean, sum, median, center, cumsum and mode
-/

set_option linter.unusedSectionVars false

namespace OpenML
open Stats Spec

variable {α : Type} [Field α] [LinearOrder α] [IsStrictOrderedRing α]

private theorem cols_ne_nil {x : DMat α} (hx : x.WF) (hr : 0 < x.nrows) : ∀ c ∈ x.cols, c ≠ [] := fun c hc h => by
  have := DMat.length_of_mem_cols hx hc; rw [h] at this; simp at this; omega

private theorem rows_ne_nil {x : DMat α} (hx : x.WF) (hc : 0 < x.ncols) : ∀ r ∈ x.rows, r ≠ [] := fun r hr h => by
  have := hx r hr; rw [h] at this; simp at this; omega

private theorem flat_ne_nil {x : DMat α} (hx : x.WF) (hr : 0 < x.nrows) (hc : 0 < x.ncols) :
    MatOps.flattenMat x ≠ [] := by
  obtain ⟨r, hr'⟩ := List.exists_mem_of_length_pos hr
  have := rows_ne_nil hx hc r hr'
  intro h
  rw [MatOps.flattenMat, List.flatten_eq_nil_iff] at h
  exact this (h r hr')

/-- C28. `var` is the mean squared deviation from the mean, of each column, each row or all entries, and is not negative. -/
theorem C28_var (x : DMat α) (hx : x.WF) (hr : 0 < x.nrows) (hc : 0 < x.ncols) :
    var x 0 = .ok ⟨x.ncols, [x.cols.map fun c => some (meanSquaredDeviation c)]⟩ ∧
    var x 1 = .ok ⟨1, x.rows.map fun r => [some (meanSquaredDeviation r)]⟩ ∧
    var x (-1) = .ok ⟨1, [[some (meanSquaredDeviation x.rows.flatten)]]⟩ ∧
    ∀ l : List α, 0 ≤ meanSquaredDeviation l := by
  refine ⟨?_, ?_, ?_, meanSquaredDeviation_nonneg⟩
  · have : x.cols.map varLine = x.cols.map fun c => some (meanSquaredDeviation c) :=
      List.map_congr_left fun c h => varLine_eq (cols_ne_nil hx hr c h)
    simp [var, reduce, this]
  · have : (x.rows.map fun r => [varLine r]) = x.rows.map fun r => [some (meanSquaredDeviation r)] :=
      List.map_congr_left fun r h => by rw [varLine_eq (rows_ne_nil hx hc r h)]
    simp [var, reduce, this]
  · have h := flat_ne_nil hx hr hc
    simp only [var, reduce, nonEmpty, h, if_false, varLine_eq h]
    rfl

/-- C28. `mean` is the average of each column, each row or all entries. -/
theorem C28_mean (x : DMat α) (hx : x.WF) (hr : 0 < x.nrows) (hc : 0 < x.ncols) :
    Stats.mean x 0 = .ok ⟨x.ncols, [x.cols.map fun c => some (average c)]⟩ ∧
    Stats.mean x 1 = .ok ⟨1, x.rows.map fun r => [some (average r)]⟩ ∧
    Stats.mean x (-1) = .ok ⟨1, [[some (average x.rows.flatten)]]⟩ := by
  have key : ∀ l : List α, l ≠ [] → meanLine l = some (average l) := fun l h => by simp [meanLine, h, average]
  refine ⟨?_, ?_, ?_⟩
  · have : x.cols.map meanLine = x.cols.map fun c => some (average c) :=
      List.map_congr_left fun c h => key c (cols_ne_nil hx hr c h)
    simp [Stats.mean, reduce, this]
  · have : (x.rows.map fun r => [meanLine r]) = x.rows.map fun r => [some (average r)] :=
      List.map_congr_left fun r h => by rw [key r (rows_ne_nil hx hc r h)]
    simp [Stats.mean, reduce, this]
  · have h := flat_ne_nil hx hr hc
    simp only [Stats.mean, reduce, nonEmpty, h, if_false, key _ h]
    rfl

/-- C28. The totals of columns, of rows and of all entries agree with each other. -/
theorem C28_sum (x : DMat α) (hx : x.WF) :
    ∃ (cs rs : List α) (t : α), Stats.sum x 0 = .ok ⟨x.ncols, [cs]⟩ ∧ Stats.sum x 1 = .ok ⟨1, rs.map fun s => [s]⟩ ∧
      Stats.sum x (-1) = .ok ⟨1, [[t]]⟩ ∧ cs.length = x.ncols ∧ rs.length = x.nrows ∧ cs.sum = t ∧ rs.sum = t := by
  refine ⟨x.cols.map List.sum, x.rows.map List.sum, x.rows.flatten.sum, by simp [Stats.sum, reduce],
    by simp [Stats.sum, reduce, Function.comp_def], ?_, by simp [DMat.length_cols], by simp [DMat.nrows], ?_, ?_⟩
  · simp only [Stats.sum, reduce]; rfl
  · obtain ⟨nc, rows⟩ := x
    induction rows with
    | nil =>
      have : List.sum ∘ DMat.col (⟨nc, []⟩ : DMat α) = fun _ => 0 := rfl
      simp [DMat.cols, this]
    | cons r rs ih =>
      have hl : r.length = nc := hx r (by simp)
      have ih' := ih fun q hq => hx q (by simp [hq])
      simp only [DMat.cols, List.map_map, List.flatten_cons, List.sum_append] at ih' ⊢
      rw [← ih']
      have h1 : (List.range nc).map (List.sum ∘ DMat.col ⟨nc, r :: rs⟩) =
          (List.range nc).map fun j => (r[j]?.getD 0) + (DMat.col ⟨nc, rs⟩ j).sum := by
        apply List.map_congr_left
        intro j hj
        have hj' : j < r.length := by rw [hl]; exact List.mem_range.mp hj
        simp [DMat.col, List.getElem?_eq_getElem hj']
      rw [h1, List.sum_map_add]
      congr 1
      have : (List.range nc).map (fun j => r[j]?.getD 0) = r := by
        apply List.ext_getElem (by simp [hl])
        intro j h1 h2
        simp [List.getElem?_eq_getElem h2]
      rw [this]
  · rw [List.sum_flatten]

/-- C28. The other axes are refused. -/
theorem C28_invalid_axis (x : DMat α) (axis : Int) (h0 : axis ≠ 0) (h1 : axis ≠ 1) (hm : axis ≠ -1) :
    var x axis = .throw .invalidArgument ∧ Stats.sum x axis = .throw .invalidArgument ∧
    Stats.mean x axis = .throw .invalidArgument := by simp [var, Stats.sum, Stats.mean, reduce, h0, h1, hm]

example : var (⟨2, [[1, 2], [3, 6]]⟩ : DMat ℚ) 0 = .ok ⟨2, [[some 1, some 4]]⟩ := by decide +kernel

/-- C28. On every non-empty line the median is the middle entry of the sorted line, or the average of the two middle ones,
whichever rearrangements `std::nth_element` produces; at most half of the entries lie on either side of it. -/
theorem C28_median_line {nth : List α → Nat → List α} (hn : IsNthElement nth) (l : List α) (h : l ≠ []) :
    ∃ m, medianLine nth l = .ok m ∧ IsMedian l m ∧
      ((∃ k, l.length = 2 * k + 1 ∧ (l.insertionSort (· ≤ ·))[k]? = some m) ∨
        ∃ k a b, l.length = 2 * k + 2 ∧ (l.insertionSort (· ≤ ·))[k]? = some a ∧
          (l.insertionSort (· ≤ ·))[k + 1]? = some b ∧ m = (a + b) / 2) := by
  obtain ⟨m, h1, h2⟩ := medianLine_eq hn l h
  refine ⟨m, h1, middle_isMedian h2, ?_⟩
  have hlen : (l.insertionSort (· ≤ ·)).length = l.length := List.length_insertionSort _ _
  have hpos : 0 < l.length := List.length_pos_iff.mpr h
  unfold middle at h2
  rw [hlen] at h2
  split at h2
  · next he =>
    split at h2
    · next a b ha hb =>
      cases h2
      refine Or.inr ⟨l.length / 2 - 1, b, a, by omega, hb, ?_, by rw [add_comm]⟩
      rw [show l.length / 2 - 1 + 1 = l.length / 2 by omega]
      exact ha
    · cases h2
  · exact Or.inl ⟨l.length / 2, by omega, h2⟩

/-- C28. `median` takes these medians of the columns, of the rows or of all entries. -/
theorem C28_median {nth : List α → Nat → List α} (hn : IsNthElement nth) (x : DMat α) (hx : x.WF) (hr : 0 < x.nrows)
    (hc : 0 < x.ncols) :
    (∃ ms, median nth x 0 = .ok ms ∧ List.Forall₂ IsMedian x.cols ms) ∧
    (∃ ms, median nth x 1 = .ok ms ∧ List.Forall₂ IsMedian x.rows ms) ∧
    ∃ m, median nth x (-1) = .ok [m] ∧ IsMedian x.rows.flatten m := by
  have key : ∀ l : List α, l ≠ [] → ∃ m, medianLine nth l = .ok m ∧ IsMedian l m := fun l hl =>
    let ⟨m, h1, h2, _⟩ := C28_median_line hn l hl; ⟨m, h1, h2⟩
  refine ⟨?_, ?_, ?_⟩
  · simpa [median] using mapRes_forall₂ x.cols fun l hl => key l (cols_ne_nil hx hr l hl)
  · simpa [median] using mapRes_forall₂ x.rows fun l hl => key l (rows_ne_nil hx hc l hl)
  · obtain ⟨m, h1, h2⟩ := key _ (flat_ne_nil hx hr hc)
    exact ⟨m, by simp [median, mapRes, h1], h2⟩

/-- Sorting everything meets the contract of `std::nth_element`. -/
theorem isNthElement_sort : IsNthElement fun (l : List α) (_ : Nat) => l.insertionSort (· ≤ ·) where
  perm l k _ := List.perm_insertionSort _ _
  before l k i a b _ hik ha hb := by
    refine sorted_take (List.pairwise_insertionSort _ _) hb a (List.mem_of_getElem? (i := i) ?_)
    rw [List.getElem?_take, if_pos (by omega)]
    exact ha
  behind l k i a b _ hik ha hb := by
    refine sorted_drop (List.pairwise_insertionSort _ _) hb a (List.mem_of_getElem? (i := i - k) ?_)
    rw [List.getElem?_drop, show k + (i - k) = i by omega]
    exact ha

example : medianLine (fun l _ => l.insertionSort (· ≤ ·)) ([5, 1, 4, 2] : List ℚ) = .ok 3 := by decide +kernel

/-- C28. `center` subtracts the column average from each entry; the columns of the result sum to 0. -/
theorem C28_center (x : DMat α) (hx : x.WF) (hr : 0 < x.nrows) :
    (center x).WF ∧ (center x).nrows = x.nrows ∧ (center x).ncols = x.ncols ∧
    (∀ i j : Nat, ∀ r a, x.rows[i]? = some r → r[j]? = some a →
      ∃ r', (center x).rows[i]? = some r' ∧ r'[j]? = some (a - average (x.col j))) ∧
    ∀ j, j < x.ncols → ((center x).col j).sum = 0 := by
  have hget : ∀ j : Nat, j < x.ncols → ∀ r ∈ x.rows, ∀ a, r[j]? = some a →
      (List.zipWith (fun a c => a - c.sum / (x.nrows : α)) r x.cols)[j]? = some (a - average (x.col j)) := by
    intro j hj r hr' a ha
    rw [List.getElem?_zipWith, ha, DMat.getElem?_cols x hj]
    simp [average, DMat.length_col hx hj]
  refine ⟨?_, by simp [center, DMat.nrows], rfl, ?_, ?_⟩
  · intro r hr'
    obtain ⟨q, hq, rfl⟩ := List.mem_map.mp hr'
    simp [center, hx q hq, DMat.length_cols]
  · intro i j r a hi hj
    have hmem := List.mem_of_getElem? hi
    have hjn : j < x.ncols := by rw [← hx r hmem]; exact (List.getElem?_eq_some_iff.mp hj).1
    exact ⟨_, by simp [center, hi], hget j hjn r hmem a hj⟩
  · intro j hj
    have hcol : (center x).col j = (x.col j).map fun a => a - average (x.col j) := by
      have hget := hget j hj
      generalize average (x.col j) = A at *
      simp only [center, DMat.col, List.filterMap_map, List.map_filterMap]
      apply List.filterMap_congr
      intro r hr'
      obtain ⟨a, ha⟩ : ∃ a, r[j]? = some a := ⟨_, List.getElem?_eq_getElem (by rw [hx r hr']; exact hj)⟩
      simp only [Function.comp_def, ha, Option.map_some]
      exact hget r hr' a ha
    have hne : x.col j ≠ [] := by
      intro h; have := DMat.length_col hx hj; rw [h] at this; simp at this; omega
    rw [hcol]
    have hs : ∀ (l : List α) (c : α), (l.map fun a => a - c).sum = l.sum - (l.length : α) * c := by
      intro l c
      induction l with
      | nil => simp
      | cons a l ih => simp only [List.map_cons, List.sum_cons, ih, List.length_cons, Nat.cast_succ]; ring
    rw [hs, average]
    have := length_pos_cast hne
    field_simp
    ring

/-- C28. `cumsum`: each entry is the sum of the entries of its line up to and including its own place. -/
theorem C28_cumsum (x : DMat α) (hx : x.WF) :
    (∃ y, cumsum x 0 = .ok y ∧ y.nrows = x.nrows ∧ y.ncols = x.ncols ∧ ∀ i j : Nat, i < x.nrows → j < x.ncols →
      y.rows[i]?.bind (·[j]?) = some (((x.col j).take (i + 1)).sum)) ∧
    (∃ y, cumsum x 1 = .ok y ∧ y.nrows = x.nrows ∧ y.ncols = x.ncols ∧ ∀ (i j : Nat) r, x.rows[i]? = some r → j < x.ncols →
      y.rows[i]?.bind (·[j]?) = some ((r.take (j + 1)).sum)) ∧
    (∃ y, cumsum x (-1) = .ok y ∧ y.nrows = x.rows.flatten.length ∧ y.ncols = 1 ∧
      ∀ i : Nat, i < x.rows.flatten.length → y.rows[i]? = some [(x.rows.flatten.take (i + 1)).sum]) := by
  refine ⟨⟨_, rfl, ?_, ?_, ?_⟩, ⟨_, rfl, ?_, rfl, ?_⟩, ⟨_, rfl, ?_, rfl, ?_⟩⟩
  · simp [ofCols, DMat.nrows]
  · simp [ofCols, DMat.length_cols]
  · intro i j hi hj
    have h1 : (x.cols.map (partialSums 0)).filterMap (·[i]?) =
        (List.range x.ncols).map fun j => ((x.col j).take (i + 1)).sum := by
      rw [List.filterMap_map, DMat.cols, List.filterMap_map, ← List.filterMap_eq_map]
      apply List.filterMap_congr
      intro k hk
      simp only [Function.comp_def]
      rw [getElem?_partialSums _ _ _ (by rw [DMat.length_col hx (List.mem_range.mp hk)]; exact hi), zero_add]
    simp only [ofCols, List.getElem?_map, List.getElem?_range hi, Option.map_some, Option.bind_some, h1,
      List.getElem?_range hj]
  · simp [DMat.nrows]
  · intro i j r hi hj
    rw [List.getElem?_map, hi]
    simp only [Option.map_some, Option.bind_some]
    rw [getElem?_partialSums _ _ _ (by rw [hx r (List.mem_of_getElem? hi)]; exact hj), zero_add]
  · simp [DMat.nrows, length_partialSums, MatOps.flattenMat]
  · intro i hi
    rw [List.getElem?_map, MatOps.flattenMat, getElem?_partialSums _ _ _ hi, zero_add]
    rfl

example : cumsum (⟨2, [[1, 2], [3, 6]]⟩ : DMat ℚ) 0 = .ok ⟨2, [[1, 2], [4, 8]]⟩ := by decide +kernel

/-- C28. `mode` of a non-empty line reports the largest multiplicity `m`. If some entry repeats, the reported value has that
multiplicity and is the first one to be seen `m` times; if all entries differ it is the smallest one. -/
theorem C28_mode_line (l : List α) (h : l ≠ []) : ∃ a m, modeLine l = .ok (a, m) ∧ IsMode l a m ∧
    (2 ≤ m → ∃ q r, l = q ++ a :: r ∧ q.count a + 1 = m ∧ ∀ b, q.count b < m) ∧
    (m = 1 → l.Nodup ∧ ∀ b ∈ l, a ≤ b) := by
  obtain ⟨h1, h2⟩ := modeLoop_spec l [] none 0 modeInv_nil
  simp only [List.nil_append, List.reverse_nil] at h1 h2
  cases hml : modeLoop l [] none 0 with
  | mk best m =>
  rw [hml] at h1 h2
  rcases h2 with ⟨h0, -⟩ | ⟨a, q, r, hb, hl, hq1, hq2⟩
  · exact absurd h0 h
  simp only at h1 hb hl hq1 hq2
  subst hb
  have ha : l.count a = m := by
    apply le_antisymm (h1 a)
    rw [hl, List.count_append, List.count_cons_self]; omega
  have hal : a ∈ l := by rw [hl]; simp
  by_cases hm : m = 1
  · obtain ⟨e1, e2, e3⟩ := foldl_min_spec l a
    have hmem : l.foldl min a ∈ l := by
      rcases e3 with e3 | e3
      · rw [e3]; exact hal
      · exact e3
    have hnd : l.Nodup := List.nodup_iff_count_le_one.mpr fun b => hm ▸ h1 b
    refine ⟨l.foldl min a, m, by simp [modeLine, hml, hm], ⟨hmem, ?_, h1⟩, by omega, fun _ => ⟨hnd, e2⟩⟩
    rw [hm]; exact List.count_eq_one_of_mem hnd hmem
  · exact ⟨a, m, by simp [modeLine, hml, hm], ⟨hal, ha, h1⟩, fun _ => ⟨q, r, hl, hq1, hq2⟩, fun h => absurd h hm⟩

/-- C28. `mode` takes these modes of the columns or of the rows. -/
theorem C28_mode (x : DMat α) (hx : x.WF) (hr : 0 < x.nrows) (hc : 0 < x.ncols) :
    (∃ ms, mode x 0 = .ok ms ∧ List.Forall₂ (fun l p => IsMode l p.1 p.2) x.cols ms) ∧
    ∃ ms, mode x 1 = .ok ms ∧ List.Forall₂ (fun l p => IsMode l p.1 p.2) x.rows ms := by
  have key : ∀ l : List α, l ≠ [] → ∃ p, modeLine l = .ok p ∧ IsMode l p.1 p.2 := fun l hl =>
    let ⟨a, m, h1, h2, _⟩ := C28_mode_line l hl; ⟨(a, m), h1, h2⟩
  exact ⟨by simpa [mode] using mapRes_forall₂ x.cols fun l hl => key l (cols_ne_nil hx hr l hl),
    by simpa [mode] using mapRes_forall₂ x.rows fun l hl => key l (rows_ne_nil hx hc l hl)⟩

/-- C28. What else happens on other axes: `median` and `cumsum` have no defined result, `mode` reports nothing, not even for the axis -1
that the others take for all entries. -/
theorem C28_unchecked_axis (nth : List α → Nat → List α) (x : DMat α) (axis : Int) (h0 : axis ≠ 0) (h1 : axis ≠ 1) :
    (axis ≠ -1 → median nth x axis = .ub ∧ cumsum x axis = .ub) ∧ mode x axis = .ok [] := by
  refine ⟨fun hm => ?_, ?_⟩
  · simp [median, cumsum, h0, h1, hm]
  · simp [mode, h0, h1]

/-- Beside C28_unchecked_axis: the axes -1 and 2. -/
example : mode (⟨1, [[3], [3]]⟩ : DMat ℚ) (-1) = .ok [] ∧ cumsum (⟨1, [[3], [3]]⟩ : DMat ℚ) 2 = .ub := by
  constructor <;> decide +kernel

example : modeLine ([3, 1, 2, 1, 3] : List ℚ) = .ok (1, 2) ∧ modeLine ([3, 1, 2] : List ℚ) = .ok (1, 1) := by
  constructor <;> decide +kernel

/-- C28. Lines without entries: the median and the mode read memory that holds no entry, `mean` and `var` of the whole matrix
violate an assertion. -/
theorem C28_empty_line {nth : List α → Nat → List α} (hn : nth [] 0 = []) (n : Nat) :
    medianLine nth ([] : List α) = .ub ∧ modeLine ([] : List α) = .ub ∧ var (⟨n, []⟩ : DMat α) (-1) = .ub ∧
    Stats.mean (⟨n, []⟩ : DMat α) (-1) = .ub := by
  refine ⟨?_, rfl, ?_, ?_⟩
  · simp [medianLine, hn, readAt]
  · simp [var, reduce, nonEmpty, MatOps.flattenMat]
  · simp [Stats.mean, reduce, nonEmpty, MatOps.flattenMat]

/-- A sort leaves the list without entries as it is. -/
example : (fun (l : List ℚ) (_ : Nat) => l.insertionSort (· ≤ ·)) [] 0 = [] ∧
    medianLine (fun (l : List ℚ) (_ : Nat) => l.insertionSort (· ≤ ·)) [] = .ub := by decide

end OpenML
