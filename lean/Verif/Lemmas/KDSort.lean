import Verif.Model.KDTree
import Verif.Props.Argsort
import Verif.Lemmas.Extreme
import Verif.Lemmas.Lists
import Mathlib.Data.List.Perm.Basic

set_option linter.unusedSectionVars false

namespace OpenML.Lists

theorem mapRes_readAt {β : Type} (l : List β) (p : List Nat) (h : ∀ i ∈ p, i < l.length) :
    mapRes (readAt l) p = .ok (p.filterMap (l[·]?)) := by
  induction p with
  | nil => rfl
  | cons i p ih =>
    have hi := h i (by simp)
    simp only [mapRes, readAt_of_lt hi, Res.bind_ok, ih fun j hj => h j (by simp [hj])]
    rw [List.filterMap_cons, List.getElem?_eq_getElem hi]

theorem mapRes_readAt_ub {β : Type} (l : List β) (i : Nat) (p : List Nat) (h : l.length ≤ i) :
    mapRes (readAt l) (i :: p) = .ub := by
  simp [mapRes, readAt_of_ge h]

theorem gather_perm {β : Type} (l : List β) (p : List Nat) (hp : p.Perm (List.range l.length)) :
    (p.filterMap (l[·]?)).Perm l := by
  have := hp.filterMap (l[·]?)
  rwa [filterMap_idx_range] at this

theorem gather_zip {β γ : Type} (a : List β) (b : List γ) (p : List Nat) (ha : ∀ i ∈ p, i < a.length)
    (hb : ∀ i ∈ p, i < b.length) :
    p.filterMap ((a.zip b)[·]?) = (p.filterMap (a[·]?)).zip (p.filterMap (b[·]?)) := by
  induction p with
  | nil => rfl
  | cons i p ih =>
    have h1 := ha i (by simp)
    have h2 := hb i (by simp)
    rw [List.filterMap_cons, List.filterMap_cons, List.filterMap_cons, List.getElem?_eq_getElem (by simp; omega),
      List.getElem?_eq_getElem h1, List.getElem?_eq_getElem h2]
    simp [ih (fun j hj => ha j (by simp [hj])) fun j hj => hb j (by simp [hj])]

end OpenML.Lists

namespace OpenML.KDTree
open Argsort

variable {α : Type} [CommRing α] [LinearOrder α]

theorem cols_single (c : List α) : (⟨1, c.map fun a => [a]⟩ : DMat α).cols = [c] := by
  simp [DMat.cols, DMat.col, List.filterMap_map, Function.comp_def]

theorem argsortVec_ok (c : List α) (h3 : 3 ≤ c.length) :
    ∃ r, argsortVec c = .ok r ∧ r.Perm (List.range c.length) ∧ (r.filterMap (c[·]?)).Pairwise (· ≤ ·) := by
  obtain ⟨rs, h1, h2, h4⟩ := sortLines_spec (reverse := false) [c] (n := c.length) (by simp) (List.range c.length)
    (List.Perm.refl _)
  obtain ⟨r, rfl⟩ : ∃ r, rs = [r] := by
    match rs, h2 with
    | [r], _ => exact ⟨r, rfl⟩
  obtain ⟨hp, prev, hprev, hst⟩ := h4 0 c r rfl rfl
  refine ⟨r, ?_, hp, ?_⟩
  · simp only [argsortVec, argsort]
    rw [cols_single]
    simp only [DMat.nrows, List.length_map, linSpaced_ge_three h3]
    simp [h1, readAt]
  · refine (C03_argsort_sorts c false prev r hst).imp ?_
    intro a b hab
    simpa [Spec.Ahead] using hab

theorem argsortVec_one (c : List α) (h : c.length = 1) : argsortVec c = .ok [1] := by
  simp only [argsortVec, argsort]
  rw [cols_single]
  simp [DMat.nrows, h, linSpaced_one, sortLines_one, readAt]

theorem argsortVec_two (c : List α) (h : c.length = 2) : argsortVec c = .ub := by
  simp only [argsortVec, argsort]
  rw [cols_single]
  simp only [DMat.nrows, List.length_map, h, linSpaced_two]
  rw [sortLines_two [c] (by simpa using h) (by simp)]
  rfl

theorem argsortVec_zero : argsortVec ([] : List α) = .ok [] := by
  simp only [argsortVec, argsort]
  rw [cols_single]
  simp [DMat.nrows, linSpaced_zero, sortLines_nil, readAt]

theorem findPartitionAxis_lt (x : DMat α) (h : 0 < x.ncols) : findPartitionAxis x < x.ncols ∧
    Spec.IsFirstMax (x.cols.map spread) (findPartitionAxis x) := by
  have hl : (x.cols.map spread).length = x.ncols := by simp [DMat.length_cols]
  have hne : x.cols.map spread ≠ [] := by intro h0; rw [h0] at hl; simp at hl; omega
  obtain ⟨p, hp, hm⟩ := maxCoeffIdx_spec _ hne
  have : findPartitionAxis x = p := by
    unfold findPartitionAxis
    cases hc : x.cols.map spread with
    | nil => exact absurd hc hne
    | cons a l =>
      rw [hc, maxCoeffIdx] at hp
      simpa using hp
  rw [this]
  refine ⟨?_, hm⟩
  obtain ⟨m, hm1, _⟩ := hm
  have := (List.getElem?_eq_some_iff.mp hm1).1
  omega

/-- What sorting the rows of a node with at least three rows yields. -/
theorem sortRows_ok (x : DMat α) (hx : x.WF) (hc : 0 < x.ncols) (h3 : 3 ≤ x.nrows) :
    ∃ s, sortRows x = .ok s ∧ s.axis = findPartitionAxis x ∧ s.axis < x.ncols ∧ s.order.Perm (List.range x.nrows) ∧
      s.rows = s.order.filterMap (x.rows[·]?) ∧
      (∀ r ∈ s.rows.take (x.nrows / 2), ∀ v, r[s.axis]? = some v → v ≤ s.value) ∧
      (∀ r ∈ s.rows.drop (x.nrows / 2), ∀ v, r[s.axis]? = some v → s.value ≤ v) := by
  obtain ⟨hax, -⟩ := findPartitionAxis_lt x hc
  have hcl := DMat.length_col hx hax
  obtain ⟨r, h1, h2, h3'⟩ := argsortVec_ok (x.col (findPartitionAxis x)) (by omega)
  rw [hcl] at h2
  have hlt : ∀ i ∈ r, i < x.rows.length := fun i hi => List.mem_range.mp (h2.mem_iff.mp hi)
  have hrl : r.length = x.nrows := by simpa using h2.length_eq
  have hrows : mapRes (readAt x.rows) r = .ok (r.filterMap (x.rows[·]?)) := Lists.mapRes_readAt _ _ hlt
  have hgl : (r.filterMap (x.rows[·]?)).length = x.nrows := by rw [Lists.length_filterMap_idx _ _ hlt, hrl]
  have hwf : ∀ q ∈ r.filterMap (x.rows[·]?), q.length = x.ncols := by
    intro q hq
    obtain ⟨i, _, hi⟩ := List.mem_filterMap.mp hq
    exact hx q (List.mem_of_getElem? hi)
  have hmid : x.nrows / 2 < (r.filterMap (x.rows[·]?)).length := by rw [hgl]; omega
  have hrow : (r.filterMap (x.rows[·]?))[x.nrows / 2].length = x.ncols := hwf _ (List.getElem_mem hmid)
  have hsorted : ((r.filterMap (x.rows[·]?)).filterMap (·[findPartitionAxis x]?)).Pairwise (· ≤ ·) := by
    have : (r.filterMap (x.rows[·]?)).filterMap (·[findPartitionAxis x]?) =
        r.filterMap ((x.col (findPartitionAxis x))[·]?) := by
      rw [List.filterMap_filterMap]
      apply List.filterMap_congr
      intro i hi
      rw [DMat.getElem?_col hx hax]
    rw [this]
    exact h3'
  have hsorted2 : (r.filterMap (x.rows[·]?)).Pairwise
      (fun p q => ∀ v w, p[findPartitionAxis x]? = some v → q[findPartitionAxis x]? = some w → v ≤ w) := by
    rw [List.pairwise_filterMap] at hsorted
    exact hsorted.imp fun h v w hv hw => h v hv w hw
  have key1 : ∀ q ∈ (r.filterMap (x.rows[·]?)).take (x.nrows / 2), ∀ v, q[findPartitionAxis x]? = some v →
      v ≤ ((r.filterMap (x.rows[·]?))[x.nrows / 2])[findPartitionAxis x] := by
    intro q hq v hv
    have hsp := hsorted2
    rw [← List.take_append_drop (x.nrows / 2) (r.filterMap (x.rows[·]?)), List.pairwise_append] at hsp
    refine hsp.2.2 q hq ((r.filterMap (x.rows[·]?))[x.nrows / 2]) ?_ v _ hv (List.getElem?_eq_getElem (by omega))
    rw [List.drop_eq_getElem_cons hmid]
    exact List.mem_cons_self
  have key2 : ∀ q ∈ (r.filterMap (x.rows[·]?)).drop (x.nrows / 2), ∀ v, q[findPartitionAxis x]? = some v →
      ((r.filterMap (x.rows[·]?))[x.nrows / 2])[findPartitionAxis x] ≤ v := by
    intro q hq v hv
    rw [List.drop_eq_getElem_cons hmid] at hq
    rcases List.mem_cons.mp hq with rfl | hq
    · rw [List.getElem?_eq_getElem (by omega)] at hv
      simp only [Option.some.injEq] at hv
      exact le_of_eq hv
    · have hsp := hsorted2
      rw [← List.take_append_drop (x.nrows / 2) (r.filterMap (x.rows[·]?)), List.pairwise_append] at hsp
      have h := hsp.2.1
      rw [List.drop_eq_getElem_cons hmid, List.pairwise_cons] at h
      exact h.1 q hq _ v (List.getElem?_eq_getElem (by omega)) hv
  refine ⟨⟨findPartitionAxis x, r, r.filterMap (x.rows[·]?),
    ((r.filterMap (x.rows[·]?))[x.nrows / 2])[findPartitionAxis x]⟩, ?_, rfl, hax, h2, rfl, ?_, ?_⟩
  · unfold sortRows
    simp only [if_neg (not_le.mpr hax), h1, Res.bind_ok, hrows, readAt_of_lt hmid,
      readAt_of_lt (l := (r.filterMap (x.rows[·]?))[x.nrows / 2]) (i := findPartitionAxis x) (by omega)]
  · exact key1
  · exact key2

/-- Sorting fewer than three rows, or rows without entries, reads out of bounds. -/
theorem sortRows_ub (x : DMat α) (hx : x.WF) (h : x.nrows < 3 ∨ x.ncols = 0) : sortRows x = .ub := by
  unfold sortRows
  by_cases hc : x.ncols = 0
  · simp [hc]
  · have h3 : x.nrows < 3 := by tauto
    obtain ⟨hax, -⟩ := findPartitionAxis_lt x (by omega)
    have hcl := DMat.length_col hx hax
    simp only [if_neg (not_le.mpr hax)]
    rcases (by omega : x.nrows = 0 ∨ x.nrows = 1 ∨ x.nrows = 2) with h0 | h0 | h0
    · have : x.col (findPartitionAxis x) = [] := List.length_eq_zero_iff.mp (by omega)
      rw [this, argsortVec_zero]
      simp [mapRes, readAt]
    · rw [argsortVec_one _ (by omega)]
      have : x.rows.length ≤ 1 := by have : x.rows.length = 1 := h0; omega
      simp [Lists.mapRes_readAt_ub _ _ _ this]
    · rw [argsortVec_two _ (by omega)]
      rfl

end OpenML.KDTree
