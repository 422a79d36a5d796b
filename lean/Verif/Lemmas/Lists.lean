import Mathlib.Data.List.Basic

/-! General list lemmas shared by several files. -/

namespace OpenML.Lists

theorem length_filterMap_idx {β : Type} (l : List β) (p : List Nat) (h : ∀ i ∈ p, i < l.length) :
    (p.filterMap (l[·]?)).length = p.length := by
  induction p with
  | nil => rfl
  | cons i p ih =>
    rw [List.filterMap_cons, List.getElem?_eq_getElem (h i (by simp))]
    simp [ih fun j hj => h j (by simp [hj])]

theorem getElem?_filterMap_idx {β : Type} (l : List β) (p : List Nat) (h : ∀ i ∈ p, i < l.length) (k : Nat) :
    (p.filterMap (l[·]?))[k]? = p[k]?.bind (l[·]?) := by
  induction p generalizing k with
  | nil => simp
  | cons i p ih =>
    rw [List.filterMap_cons, List.getElem?_eq_getElem (h i (by simp))]
    cases k with
    | zero => simp [List.getElem?_eq_getElem (h i (by simp))]
    | succ k => simpa using ih (fun j hj => h j (by simp [hj])) k

theorem filterMap_idx_range {β : Type} (l : List β) : (List.range l.length).filterMap (l[·]?) = l := by
  apply List.ext_getElem?
  intro k
  rw [getElem?_filterMap_idx _ _ (fun i hi => List.mem_range.mp hi)]
  rcases Nat.lt_or_ge k l.length with h | h
  · rw [List.getElem?_range h]; rfl
  · rw [List.getElem?_eq_none (by simpa using h), List.getElem?_eq_none (by omega)]; rfl

theorem zip_set {β γ : Type} (a : List β) (b : List γ) (i : Nat) (x : β) (y : γ) :
    (a.zip b).set i (x, y) = (a.set i x).zip (b.set i y) := by
  induction a generalizing b i with
  | nil => simp
  | cons u a ih =>
    cases b with
    | nil => simp
    | cons v b => cases i <;> simp [ih]

end OpenML.Lists
