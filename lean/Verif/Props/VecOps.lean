import Verif.Lemmas.VecOps

/-!
# C06-C10: vector helpers of `src/core/common.hpp`
-/

namespace OpenML
open VecOps

/-- C06. With the flag set, or with non-decreasing inputs, `difference` returns exactly the elements of `v1` that are
not in `v2`, strictly increasing. -/
theorem C06_difference {α : Type} [LinearOrder α] (v1 v2 : List α) (flag : Bool)
    (h : flag = true ∨ (v1.Pairwise (· ≤ ·) ∧ v2.Pairwise (· ≤ ·))) :
    (difference v1 v2 flag).Pairwise (· < ·) ∧ ∀ x, x ∈ difference v1 v2 flag ↔ x ∈ v1 ∧ x ∉ v2 :=
  difference_spec v1 v2 flag h

/-- C06, the precondition matters: on unsorted input without the flag an element of `v2` survives. -/
theorem C06_difference_unsorted_counterexample :
    ∃ (v1 v2 : List Nat) (x : Nat), x ∈ difference v1 v2 false ∧ x ∈ v2 :=
  ⟨[2, 1], [1], 1, by decide, by decide⟩

example : difference [1, 2, 2, 3, 5] [2, 4] false = [1, 3, 5] := by decide
example : [1, 2, 2, 3, 5].Pairwise (· ≤ ·) ∧ [2, 4].Pairwise (· ≤ ·) := by decide
example : difference [5, 2, 3, 2, 1] [4, 2] true = [1, 3, 5] := by decide

/-- C07. `contains(v1, v2)` decides whether every element of `v1` occurs in `v2`. -/
theorem C07_contains {α : Type} [DecidableEq α] (v1 v2 : List α) :
    contains v1 v2 = true ↔ ∀ a ∈ v1, a ∈ v2 := contains_iff v1 v2

/-- C07. `merge` alternates the two inputs while both last and then appends what is left of the longer one. -/
theorem C07_merge {α : Type} (v1 v2 : List α) :
    (∀ i, i < v1.length → i < v2.length →
      (merge v1 v2)[2 * i]? = v1[i]? ∧ (merge v1 v2)[2 * i + 1]? = v2[i]?) ∧
    (merge v1 v2).drop (2 * min v1.length v2.length) = v1.drop v2.length ++ v2.drop v1.length ∧
    (merge v1 v2).length = v1.length + v2.length ∧
    v1.Sublist (merge v1 v2) ∧ v2.Sublist (merge v1 v2) :=
  ⟨fun i h1 h2 => merge_alternates v1 v2 i h1 h2, merge_rest v1 v2,
    by rw [(merge_perm v1 v2).length_eq, List.length_append], (merge_sublist v1 v2).1, (merge_sublist v1 v2).2⟩

/-- C07. `is_equal(x, y)` reads past the end of `y` exactly when `y` is a proper prefix of `x`; in all other cases it
decides equality. -/
theorem C07_is_equal {α : Type} [DecidableEq α] (x y : List α) :
    (isEqual x y = .ub ↔ y <+: x ∧ y ≠ x) ∧ (¬ (y <+: x ∧ y ≠ x) → isEqual x y = .ok (decide (x = y))) := by
  rw [isEqual_spec]
  by_cases h : y <+: x ∧ y ≠ x
  · rw [if_pos h]; exact ⟨⟨fun _ => h, fun _ => rfl⟩, fun h' => absurd h h'⟩
  · rw [if_neg h]; exact ⟨⟨fun h' => (by simp at h'), fun h' => absurd h' h⟩, fun _ => rfl⟩

/-- C07. `flatten` concatenates the rows in order. -/
theorem C07_flatten {α : Type} (v : List (List α)) : flatten v = v.flatten := flatten_spec v

example : contains [3, 1] [1, 2, 3] = true ∧ contains [3, 4] [1, 2, 3] = false := by decide
example : merge [1, 2, 3, 4] [10, 20] = [1, 10, 2, 20, 3, 4] := by decide
example : isEqual [1, 2] [1, 2] = .ok true ∧ isEqual [1, 2] [1, 2, 3] = .ok false ∧ isEqual [1, 2] [1] = .ub
    ∧ isEqual [1, 2] [3] = .ok false := by decide
example : ¬ (([1, 2, 3] : List Nat) <+: [1, 2] ∧ ([1, 2, 3] : List Nat) ≠ [1, 2]) := by decide

/-- C08. The values are the distinct entries in strictly increasing order, and the k-th index is the first position of
the k-th value in the sorted rearrangement `s` of the input. -/
theorem C08_unique {α : Type} [LinearOrder α] (x s : List α) (hp : s.Perm x) (hs : s.Pairwise (· ≤ ·)) :
    (unique x).1.Pairwise (· < ·) ∧ (∀ v, v ∈ (unique x).1 ↔ v ∈ x) ∧
    (unique x).2.length = (unique x).1.length ∧
    ∀ (k : Nat) (v : α) (p : Nat), (unique x).1[k]? = some v → (unique x).2[k]? = some p →
      s[p]? = some v ∧ ∀ q, q < p → s[q]? ≠ some v := by
  have hss : stdSort x = s :=
    ((stdSort_perm x).trans hp.symm).eq_of_pairwise
      (fun a b _ _ h1 h2 => le_antisymm h1 h2) (stdSort_sorted x) hs
  obtain ⟨h1, h2, h3, h4⟩ := uniqueLoop_spec (stdSort x) 0 [] (stdSort_sorted x) (by simp)
  refine ⟨h1, fun v => ?_, h3, fun k v p hv hq => ?_⟩
  · rw [show (unique x).1 = (uniqueLoop (stdSort x) 0 []).1 from rfl, h2, mem_stdSort]; simp
  · obtain ⟨_, h6, h7⟩ := h4 k v p hv hq
    rw [← hss]
    exact ⟨by simpa using h6, fun q hq => h7 q (by simpa using hq)⟩

/-- C08, disagreement with the documentation: the indices are not positions in the input. -/
theorem C08_unique_index_not_input_position :
    ∃ (x : List Nat) (k v p : Nat), (unique x).1[k]? = some v ∧ (unique x).2[k]? = some p ∧ x[p]? ≠ some v :=
  ⟨[3, 1], 0, 1, 0, by decide, by decide, by decide⟩

example : unique [3, 1, 3, 2, 1] = ([1, 2, 3], [0, 2, 3]) := by decide
example : [1, 1, 2, 3, 3].Perm [3, 1, 3, 2, 1] ∧ [1, 1, 2, 3, 3].Pairwise (· ≤ ·) := by decide

/-- C09. Arguments describing an existing block whose column span is smaller than the number of rows: the inclusive
block is returned. -/
theorem C09_slice2D_block {α : Type} (x : List (List α)) (r0 r1 c0 c1 : Nat) (hx : x.length < 2 ^ 64)
    (hr : r0 ≤ r1) (hr1 : r1 < x.length) (hc : c0 ≤ c1) (hc64 : c1 < 2 ^ 64) (hspan : c1 - c0 < x.length)
    (hcols : ∀ row ∈ (x.drop r0).take (r1 - r0 + 1), c1 < row.length) :
    slice2D x r0 r1 c0 c1
      = .ok (((x.drop r0).take (r1 - r0 + 1)).map fun row => (row.drop c0).take (c1 - c0 + 1)) := by
  unfold slice2D
  rw [if_neg, if_neg]
  · apply sliceRows_spec x c0 c1 hc
    intro r h1 h2
    have hrl : r < x.length := by omega
    refine ⟨x[r], List.getElem?_eq_getElem hrl, hcols _ ?_⟩
    rw [List.mem_iff_getElem?]
    refine ⟨r - r0, ?_⟩
    rw [List.getElem?_take, if_pos (by omega), List.getElem?_drop, show r0 + (r - r0) = r by omega,
      List.getElem?_eq_getElem hrl]
  · rw [subU64_of_le hx (by omega), subU64_of_le hc64 hc]; omega
  · rw [subU64_of_le hx (by omega), subU64_of_le (by omega) hr]; omega

/-- C09, wrong rejection: an existing block at least as wide as the table is high is refused. -/
theorem C09_slice2D_rejects_wide {α : Type} (x : List (List α)) (r0 r1 c0 c1 : Nat) (hx : x.length < 2 ^ 64)
    (hr : r0 ≤ r1) (hr1 : r1 < x.length) (hc : c0 ≤ c1) (hc64 : c1 < 2 ^ 64) (hspan : x.length ≤ c1 - c0) :
    slice2D x r0 r1 c0 c1 = .throw .invalidArgument := by
  unfold slice2D
  rw [if_neg, if_pos]
  · rw [subU64_of_le hx (by omega), subU64_of_le hc64 hc]; omega
  · rw [subU64_of_le hx (by omega), subU64_of_le (by omega) hr]; omega

/-- C09, missing rejection: a row range that ends outside of the table but is not longer than it reads out of bounds. -/
theorem C09_slice2D_row_overrun {α : Type} (x : List (List α)) (r0 r1 c0 c1 : Nat) (hx : x.length < 2 ^ 64)
    (hr : r0 ≤ r1) (hr64 : r1 < 2 ^ 64) (hr1 : x.length ≤ r1) (hlen : r1 - r0 < x.length) (hc : c0 ≤ c1)
    (hc64 : c1 < 2 ^ 64) (hspan : c1 - c0 < x.length) : slice2D x r0 r1 c0 c1 = .ub := by
  unfold slice2D
  rw [if_neg, if_neg]
  · exact sliceRows_ub x c0 c1 _ r0 (by omega) (by omega)
  · rw [subU64_of_le hx (by omega), subU64_of_le hc64 hc]; omega
  · rw [subU64_of_le hx (by omega), subU64_of_le hr64 hr]; omega

example : slice2D [[1, 2, 3], [4, 5, 6], [7, 8, 9]] 1 2 0 1 = .ok [[4, 5], [7, 8]] := by decide
example : slice2D [[1, 2, 3], [4, 5, 6]] 0 1 0 2 = .throw .invalidArgument := by decide
example : slice2D [[1, 2, 3], [4, 5, 6]] 1 2 0 1 = .ub := by decide

/-- C10. The 1-D `slice` never returns normally (vectors of at least `2^62` elements do not exist). -/
theorem C10_slice1D_never_returns {α : Type} (x : List α) (s e : Nat) (hx : x.length < 2 ^ 62) (hs : s < 2 ^ 64)
    (he : e < 2 ^ 64) : slice1D x s e = .throw .invalidArgument ∨ slice1D x s e = .ub := by
  cases h : slice1D x s e with
  | ok r => exact absurd h (slice1D_not_ok x s e hx hs he r)
  | throw ex =>
    left
    unfold slice1D at h
    split at h
    · exact h.symm
    · simp only at h; split at h <;> simp at h
  | ub => exact Or.inr rfl
  | diverge =>
    unfold slice1D at h
    split at h
    · simp at h
    · simp only at h; split at h <;> simp at h

/-- C10, in particular: in-range arguments are undefined behaviour. -/
theorem C10_slice1D_in_range_ub {α : Type} (x : List α) (s e : Nat) (hx : x.length < 2 ^ 62) (h1 : s ≤ e)
    (h2 : e < x.length) : slice1D x s e = .ub := by
  have hne := slice1D_not_ok x s e hx (by omega) (by omega)
  unfold slice1D at *
  rw [if_neg] at hne ⊢
  · simp only at *
    split
    · rename_i hc
      rw [if_pos hc] at hne
      exact absurd rfl (hne _)
    · rfl
  · rw [subU64_of_le (by omega) (by omega), subU64_of_le (by omega) h1]; omega
  · rw [subU64_of_le (by omega) (by omega), subU64_of_le (by omega) h1]; omega

/-- C10. `argsort` on a `std::vector` returns normally only for the empty vector. -/
theorem C10_argsort_vector {α : Type} [LinearOrder α] (x : List α) (rev : Bool) :
    (x = [] → argsortVec x rev = .ok []) ∧ (x ≠ [] → argsortVec x rev = .ub) := by
  rw [argsortVec_nil_iff]
  exact ⟨fun h => if_pos h, fun h => if_neg h⟩

example : slice1D [1, 2, 3] 0 1 = .ub ∧ slice1D [1, 2, 3] 0 7 = .throw .invalidArgument := by decide
example : argsortVec [3, 1, 2] false = .ub := by decide

end OpenML
