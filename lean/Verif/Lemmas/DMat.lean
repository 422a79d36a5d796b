import Verif.Model.Eigen

namespace OpenML.DMat

variable {α : Type}

theorem length_filterMap_getElem {rows : List (List α)} {j : Nat} (h : ∀ r ∈ rows, j < r.length) :
    (rows.filterMap (·[j]?)).length = rows.length := by
  induction rows with
  | nil => rfl
  | cons r rs ih =>
    have h1 := h r (by simp)
    simp only [List.filterMap_cons, List.getElem?_eq_getElem h1, List.length_cons]
    rw [ih fun q hq => h q (by simp [hq])]

theorem getElem?_filterMap_getElem {rows : List (List α)} {j : Nat} (h : ∀ r ∈ rows, j < r.length) (i : Nat) :
    (rows.filterMap (·[j]?))[i]? = rows[i]?.bind (·[j]?) := by
  induction rows generalizing i with
  | nil => simp
  | cons r rs ih =>
    have h1 := h r (by simp)
    simp only [List.filterMap_cons, List.getElem?_eq_getElem h1]
    cases i with
    | zero => simp [List.getElem?_eq_getElem h1]
    | succ i => simpa using ih (fun q hq => h q (by simp [hq])) i

theorem length_col {x : DMat α} (hx : x.WF) {j : Nat} (hj : j < x.ncols) : (x.col j).length = x.nrows :=
  length_filterMap_getElem fun r hr => by rw [hx r hr]; exact hj

theorem getElem?_col {x : DMat α} (hx : x.WF) {j : Nat} (hj : j < x.ncols) (i : Nat) :
    (x.col j)[i]? = x.rows[i]?.bind (·[j]?) :=
  getElem?_filterMap_getElem (fun r hr => by rw [hx r hr]; exact hj) i

theorem length_cols (x : DMat α) : x.cols.length = x.ncols := by simp [cols]

theorem getElem?_cols (x : DMat α) {j : Nat} (hj : j < x.ncols) : x.cols[j]? = some (x.col j) := by
  simp [cols, hj]

theorem length_of_mem_cols {x : DMat α} (hx : x.WF) {c : List α} (hc : c ∈ x.cols) : c.length = x.nrows := by
  simp only [cols, List.mem_map, List.mem_range] at hc
  obtain ⟨j, hj, rfl⟩ := hc
  exact length_col hx hj

end OpenML.DMat
