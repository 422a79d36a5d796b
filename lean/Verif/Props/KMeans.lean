import Verif.Lemmas.KMeans

/-!
# C40, C41, C70: k-means
-/

set_option linter.unusedSectionVars false

namespace OpenML
open Spec KMeans

variable {α : Type} [Field α] [LinearOrder α] [IsStrictOrderedRing α]

/-- C40: `predict` succeeds for at least one centroid of the right width and gives every sample the least index of a nearest
centroid. -/
theorem C40_predict (X : DMat α) (hx : X.WF) (C : List (List α)) (hC : C ≠ []) (hw : ∀ r ∈ C, r.length = X.ncols) :
    ∃ labels, predict C X = .ok labels ∧
      List.Forall₂ (fun x j => IsFirstMin (C.map (sqDist x)) j) X.rows labels :=
  predict_spec X hx C hC hw

example : predict [[0, 0], [2, 0], [0, 0]] (⟨2, [[1, 5], [2, 1], [-3, 0]]⟩ : DMat ℚ) = .ok [0, 1, 0] := by decide +kernel

/-- C40: one iteration. A centroid with samples moves to their mean, a centroid without samples stays, and the inertia drops
by at least the sum of cluster size times squared move. (The update needs one column or a build without assertions, see
`C70_assertions`.) -/
theorem C40_iteration (checked : Bool) (X : DMat α) (hx : X.WF) (hck : checked = false ∨ X.ncols = 1)
    (C : List (List α)) (hC : C ≠ []) (hw : ∀ r ∈ C, r.length = X.ncols) :
    ∃ labels C' diffs, predict C X = .ok labels ∧ iterate checked X C = .ok (C', diffs) ∧ C'.length = C.length ∧
      (∀ r ∈ C', r.length = X.ncols) ∧
      (∀ j, C'[j]? = if j ∈ labels then some (centreOf X.ncols (withLabel X.rows labels j)) else C[j]?) ∧
      inertia X.rows C' + ∑ j ∈ Finset.range C.length,
        ((withLabel X.rows labels j).length : α) * sqDist (C'.getD j []) (C.getD j []) ≤ inertia X.rows C := by
  obtain ⟨labels, C', ds, h1, h2, h3, h4, h5, -, h7⟩ := iterate_spec checked X hx hck C hC hw
  exact ⟨labels, C', ds, h1, h2, h3, h4, h5, h7⟩

/-- Two clusters and an unused centroid. -/
example : iterate false (⟨2, [[0, 0], [2, 0], [10, 4]]⟩ : DMat ℚ) [[1, 1], [9, 9], [100, 100]] =
    .ok ([[1, 0], [10, 4], [100, 100]], [[0, -1], [1, -5]]) := by decide +kernel

/-- C40: an iteration that does not lower the inertia does not move any centroid. -/
theorem C40_strict (checked : Bool) (X : DMat α) (hx : X.WF) (hck : checked = false ∨ X.ncols = 1)
    (C : List (List α)) (hC : C ≠ []) (hw : ∀ r ∈ C, r.length = X.ncols) (C' diffs : List (List α))
    (h : iterate checked X C = .ok (C', diffs)) (hm : C' ≠ C) : inertia X.rows C' < inertia X.rows C := by
  obtain ⟨labels, C'', ds, h1, h2, h3, h4, h5, -, h7⟩ := iterate_spec checked X hx hck C hC hw
  rw [h] at h2
  cases h2
  by_contra hlt
  refine hm (eq_of_no_move X.rows C C' labels X.ncols ?_ h3 hw h4 h5 ?_)
  · obtain ⟨labels', g1, g2⟩ := predict_spec X hx C hC hw
    rw [h1] at g1
    cases g1
    exact g2.length_eq.symm
  · have := not_lt.mp hlt
    linarith

example : inertia [[0, 0], [2, 0], [10, 4]] ([[1, 0], [10, 4]] : List (List ℚ)) = 2 ∧
    inertia [[0, 0], [2, 0], [10, 4]] ([[1, 1], [9, 9]] : List (List ℚ)) = 30 := by decide +kernel

/-- C40: `fit` never increases the inertia of the initial centroids, whatever the iteration limit and the stopping test, and
keeps their number and width. -/
theorem C40_fit (checked : Bool) (stop : List (List α) → Bool) (n : Nat) (X : DMat α) (hx : X.WF)
    (hck : checked = false ∨ X.ncols = 1) (C : List (List α)) (hC : C ≠ []) (hw : ∀ r ∈ C, r.length = X.ncols) :
    ∃ C', fitFrom checked stop n X (.ok C) = .ok C' ∧ C'.length = C.length ∧ (∀ r ∈ C', r.length = X.ncols) ∧
      inertia X.rows C' ≤ inertia X.rows C :=
  lloyd_spec checked stop n X hx hck C hC hw

example : fitFrom false (fun _ => false) 3 (⟨2, [[0, 0], [2, 0], [10, 4], [4, 1]]⟩ : DMat ℚ)
    (.ok [[1, 1], [9, 9]]) = .ok [[2, 1 / 3], [10, 4]] := by decide +kernel

/-- C40: with a positive tolerance the iteration limit does not matter once it exceeds `K ^ n`: by then the centroids have
stopped moving. -/
theorem C40_max_iter (checked : Bool) (tol : ℝ) (ht : 0 < tol) (X : DMat ℝ) (hx : X.WF)
    (hck : checked = false ∨ X.ncols = 1) (C : List (List ℝ)) (hC : C ≠ []) (hw : ∀ r ∈ C, r.length = X.ncols)
    (n : Nat) (hn : C.length ^ X.rows.length + 1 ≤ n) :
    fitFrom checked (epsBelow tol) n X (.ok C) =
      fitFrom checked (epsBelow tol) (C.length ^ X.rows.length + 1) X (.ok C) := by
  refine lloyd_max_iter checked (epsBelow tol) ?_ X hx hck C hC hw n hn
  intro ds h0
  unfold epsBelow
  rw [decide_eq_true_iff]
  have : (ds.map fun d => Real.sqrt (sqNorm d)) = ds.map fun _ => (0 : ℝ) :=
    List.map_congr_left fun d hd => by rw [h0 d hd, Real.sqrt_zero]
  rw [this]
  simpa using ht

example : (⟨1, [[1], [2], [5]]⟩ : DMat ℝ).WF ∧ ([[1], [4]] : List (List ℝ)).length ^ 3 + 1 = 9 :=
  ⟨by intro r hr; simp at hr; rcases hr with rfl | rfl | rfl <;> rfl, rfl⟩

/-- C40: the centroids reach a fixed point after at most `K ^ n` iterations. -/
theorem C40_converges (checked : Bool) (X : DMat α) (hx : X.WF) (hck : checked = false ∨ X.ncols = 1)
    (C : Nat → List (List α)) (D : Nat → List (List α)) (hC : C 0 ≠ []) (hw : ∀ r ∈ C 0, r.length = X.ncols)
    (hs : ∀ t, iterate checked X (C t) = .ok (C (t + 1), D t)) :
    ∃ t < (C 0).length ^ X.rows.length, C (t + 2) = C (t + 1) := by
  obtain ⟨t, h1, h2, -⟩ := converges checked X hx hck C D hC hw hs
  exact ⟨t, h1, h2⟩

example : iterate false (⟨1, [[0], [2], [9]]⟩ : DMat ℚ) [[1], [9]] = .ok ([[1], [9]], [[0], [0]]) := by decide +kernel

/-- C40: `fit` returns the centroids after its last iteration, which is the first one that meets the stopping test, or the
last one allowed. -/
theorem C40_run (checked : Bool) (stop : List (List α) → Bool) (X : DMat α)
    (C : Nat → List (List α)) (D : Nat → List (List α)) (hs : ∀ t, iterate checked X (C t) = .ok (C (t + 1), D t)) (n : Nat) :
    ∃ t ≤ n, fitFrom checked stop n X (.ok (C 0)) = .ok (C t) ∧ (∀ s, s + 1 < t → stop (D s) = false) ∧
      (t < n → ∃ s, t = s + 1 ∧ stop (D s) = true) := by
  have key : ∀ (n : Nat) (C D : Nat → List (List α)), (∀ t, iterate checked X (C t) = .ok (C (t + 1), D t)) →
      ∃ t ≤ n, lloyd checked stop n X (C 0) = .ok (C t) ∧ (∀ s, s + 1 < t → stop (D s) = false) ∧
        (t < n → ∃ s, t = s + 1 ∧ stop (D s) = true) := by
    intro n
    induction n with
    | zero => intro C D _; exact ⟨0, le_rfl, rfl, by simp, by simp⟩
    | succ n ih =>
      intro C D hs
      simp only [lloyd, hs 0, Res.bind_ok]
      by_cases h : stop (D 0) = true
      · exact ⟨1, by omega, by rw [if_pos h], by omega, fun _ => ⟨0, rfl, h⟩⟩
      · obtain ⟨t, h1, h2, h3, h4⟩ := ih (fun t => C (t + 1)) (fun t => D (t + 1)) fun t => hs (t + 1)
        refine ⟨t + 1, by omega, by rw [if_neg h]; exact h2, ?_, ?_⟩
        · intro s hst
          cases s with
          | zero => simpa using h
          | succ s => exact h3 s (by omega)
        · intro ht
          obtain ⟨s, rfl, hs'⟩ := h4 (by omega)
          exact ⟨s + 1, rfl, hs'⟩
  exact key n C D hs

example : fitFrom false (fun ds => decide (ds.length = 2)) 5 (⟨1, [[0], [2], [9]]⟩ : DMat ℚ) (.ok [[1], [8]]) =
    .ok [[1], [9]] := by decide +kernel

/-- C41: k-means++ with any first index and any draws not above one (at least one per centroid): the first centroid is the
row with the first index, every further one is a row found by roulette selection with the squared distances to the centroids
chosen so far as weights, the best of its trials, and the distances kept are those to all centroids. -/
theorem C41_plusplus (X : DMat α) (hx : X.WF) (first : Nat) (x₀ : List α) (hf : X.rows[first]? = some x₀)
    (draws : List (List α)) (hd : ∀ rs ∈ draws, rs ≠ [] ∧ ∀ r ∈ rs, r ≤ 1) :
    ∃ D, plusPlus first draws X = .ok (x₀ :: D, X.rows.map fun x => minSqDist x (x₀ :: D)) ∧
      D.length = draws.length ∧ (∀ c ∈ x₀ :: D, c ∈ X.rows) ∧
      ∀ t rs, draws[t]? = some rs → ∃ c, D[t]? = some c ∧ GreedyPick X.rows (x₀ :: D.take t) rs c := by
  obtain ⟨D, h1, h2, h3⟩ := plusPlus_spec X hx first x₀ hf draws hd
  refine ⟨D, h1, h2, ?_, h3⟩
  intro c hc
  rcases List.mem_cons.mp hc with rfl | hc
  · exact List.mem_of_getElem? hf
  · obtain ⟨t, ht, rfl⟩ := List.mem_iff_getElem.mp hc
    have ht' : t < draws.length := by omega
    obtain ⟨c, g1, ⟨r, -, i, -, g2⟩, -⟩ := h3 t _ (List.getElem?_eq_getElem ht')
    rw [List.getElem?_eq_getElem ht] at g1
    cases g1
    exact List.mem_of_getElem? g2

example : plusPlus 1 [[1 / 2, 1 / 4], [9 / 10]] (⟨1, [[0], [1], [5], [6]]⟩ : DMat ℚ) =
    .ok ([[1], [6], [5]], [1, 0, 0, 0]) := by decide +kernel

/-- C41: a centroid chosen with positive draws differs from all centroids chosen before as long as some row is not a
centroid yet. -/
theorem C41_new_centroid (rows P : List (List α)) (rs : List α) (c : List α) (h : GreedyPick rows P rs c)
    (hP : P ≠ []) (hr : ∀ r ∈ rs, 0 < r) (hpos : 0 < inertia rows P) : c ∉ P := by
  obtain ⟨⟨r, hrs, i, ⟨h1, h2, h3⟩, h4⟩, -⟩ := h
  intro hc
  have h0 : minSqDist c P = 0 :=
    le_antisymm (by simpa [sqDist_self] using (minSqDist_spec c P hP).2 c hc) (minSqDist_nonneg c P)
  have hlt : i < rows.length := by simpa using h1
  have hsum : 0 < r * (rows.map fun x => minSqDist x P).sum := mul_pos (hr r hrs) hpos
  rw [List.take_add_one, List.getElem?_map, h4] at h2
  simp only [Option.map_some, Option.toList_some, List.sum_append, List.sum_cons, List.sum_nil, add_zero, h0] at h2
  cases i with
  | zero => simp at h2; linarith
  | succ i => exact absurd (h3 i (by omega)) (not_lt.mpr h2)

example : 0 < inertia ([[0], [1], [5]] : List (List ℚ)) [[0]] := by decide +kernel

/-- C41: a draw of exactly zero picks row 0 even if that row is a centroid already. -/
theorem C41_zero_draw (rows P : List (List α)) (hne : rows ≠ []) : IsRoulettePick (rows.map fun x => minSqDist x P) 0 0 := by
  refine ⟨by simpa using List.length_pos_iff.mpr hne, ?_, by simp⟩
  rw [zero_mul]
  refine List.sum_nonneg fun a ha => ?_
  obtain ⟨x, -, rfl⟩ := List.mem_map.mp (List.mem_of_mem_take ha)
  exact minSqDist_nonneg x P

example : plusPlus 0 [[0, 0]] (⟨1, [[0], [1], [5], [6]]⟩ : DMat ℚ) = .ok ([[0], [0]], [0, 1, 25, 36]) := by decide +kernel

/-- C41: adding centroids never raises the inertia, so the result of k-means++ followed by any number of iterations is at
least as good as its first centroid alone. -/
theorem C41_fit (stop : List (List α) → Bool) (n : Nat) (X : DMat α) (hx : X.WF) (first : Nat) (x₀ : List α)
    (hf : X.rows[first]? = some x₀) (draws : List (List α)) (hd : ∀ rs ∈ draws, rs ≠ [] ∧ ∀ r ∈ rs, r ≤ 1) :
    ∃ C, fitFrom false stop n X (do let r ← plusPlus first draws X; .ok r.1) = .ok C ∧ C.length = draws.length + 1 ∧
      inertia X.rows C ≤ inertia X.rows [x₀] := by
  obtain ⟨D, h1, h2, h3, -⟩ := C41_plusplus X hx first x₀ hf draws hd
  obtain ⟨C, g1, g2, -, g4⟩ := C40_fit false stop n X hx (Or.inl rfl) (x₀ :: D) (by simp) fun r hr => hx r (h3 r hr)
  refine ⟨C, by simpa [h1] using g1, by simp [g2, h2], g4.trans ?_⟩
  refine List.sum_le_sum fun x _ => ?_
  exact (minSqDist_spec x (x₀ :: D) (by simp)).2 x₀ (by simp)

example : (do let r ← plusPlus 1 [[1 / 2, 1 / 4]] (⟨1, [[0], [1], [5], [6]]⟩ : DMat ℚ)
              fitFrom false (fun _ => false) 4 (⟨1, [[0], [1], [5], [6]]⟩ : DMat ℚ) (.ok r.1)) =
    .ok [[1 / 2], [11 / 2]] := by decide +kernel

/-- C41: random initialisation takes the rows at the first `k` entries of the permutation, which are different indices, and
reads outside the permutation exactly if there are more clusters than samples. -/
theorem C41_random (perm : List Nat) (k : Nat) (X : DMat α) (hp : perm.Perm (List.range X.nrows)) :
    (k ≤ X.nrows → (perm.take k).Nodup ∧ ∃ C, initRandom perm k X = .ok C ∧ C.length = k ∧
      ∀ t : Nat, t < k → ∃ i, perm[t]? = some i ∧ i < X.nrows ∧ C[t]? = X.rows[i]?) ∧
    (X.nrows < k → initRandom perm k X = .ub) := by
  have hlen : perm.length = X.nrows := by rw [hp.length_eq, List.length_range]
  constructor
  · intro hk
    have hnd : perm.Nodup := hp.nodup_iff.mpr List.nodup_range
    refine ⟨hnd.sublist (List.take_sublist _ _), ?_⟩
    have hlt : ∀ i ∈ perm.take k, i < X.rows.length := fun i hi =>
      List.mem_range.mp (hp.mem_iff.mp (List.mem_of_mem_take hi))
    obtain ⟨C, hC⟩ := KDTree.mapRes_total (f := readAt X.rows) (perm.take k) fun i hi => ⟨_, readAt_of_lt (hlt i hi)⟩
    have hF := (mapRes_ok_iff _ _ _).mp hC
    have hCl : C.length = k := by rw [← hF.length_eq, List.length_take, hlen]; omega
    refine ⟨C, by rw [initRandom, if_pos (by omega), hC], hCl, ?_⟩
    intro t ht
    have h1 : t < (perm.take k).length := by rw [List.length_take]; omega
    have h2 : t < C.length := by omega
    have := (List.forall₂_iff_get.mp hF).2 t h1 h2
    simp only [List.get_eq_getElem, List.getElem_take] at this
    have hpt : t < perm.length := by omega
    refine ⟨perm[t], List.getElem?_eq_getElem hpt, ?_, ?_⟩
    · exact List.mem_range.mp (hp.mem_iff.mp (List.getElem_mem hpt))
    · rw [List.getElem?_eq_getElem h2, readAt_eq_ok.mp this]
  · intro hk
    rw [initRandom, if_neg (by omega)]

example : initRandom [2, 0, 1] 2 (⟨1, [[4], [5], [6]]⟩ : DMat ℚ) = .ok [[6], [4]] ∧
    initRandom [2, 0, 1] 4 (⟨1, [[4], [5], [6]]⟩ : DMat ℚ) = .ub := by decide +kernel

/-- C70: in a build with assertions `fit` aborts on data with at least one row and more (or less) than one column as soon as
an iteration is allowed. -/
theorem C70_assertions (stop : List (List α) → Bool) (n : Nat) (X : DMat α) (hx : X.WF) (hne : X.rows ≠ [])
    (hcol : X.ncols ≠ 1) (C : List (List α)) (hC : C ≠ []) (hw : ∀ r ∈ C, r.length = X.ncols) :
    fitFrom true stop (n + 1) X (.ok C) = .ub := by
  obtain ⟨labels, h1, h2⟩ := predict_spec X hx C hC hw
  have h1' : mapRes (nearest C) X.rows = .ok labels := h1
  obtain ⟨c, cs, hk⟩ : ∃ c cs, Impurity.keys labels = c :: cs := by
    cases hk : Impurity.keys labels with
    | nil =>
      exfalso
      match labels, h2.length_eq, hk with
      | [], h, _ => exact hne (List.length_eq_zero_iff.mp h)
      | j :: ls, _, hk =>
        have := (Impurity.mem_keys (j :: ls) j).mpr (by simp)
        rw [hk] at this
        simp at this
    | cons c cs => exact ⟨c, cs, rfl⟩
  have hcl : c ∈ labels := (Impurity.mem_keys labels c).mp (by rw [hk]; simp)
  have hc : c < C.length := by
    obtain ⟨i, hi, rfl⟩ := List.mem_iff_getElem.mp hcl
    have hi' : i < X.rows.length := by rw [h2.length_eq]; exact hi
    exact label_lt (List.forall₂_iff_get.mp h2 |>.2 i hi' hi)
  have hlen : (meanRow X.ncols (members X labels c)).length = C[c].length := by
    rw [hw _ (List.getElem_mem hc)]
    simp [meanRow, DMat.cols]
  simp [fitFrom, lloyd, iterate, h1', hk, moveCenters, readAt_of_lt hc, rowDiff, hlen, hcol]

example : fitFrom true (fun _ => false) 1 (⟨2, [[0, 0], [2, 0]]⟩ : DMat ℚ) (.ok [[1, 1]]) = .ub ∧
    fitFrom false (fun _ => false) 1 (⟨2, [[0, 0], [2, 0]]⟩ : DMat ℚ) (.ok [[1, 1]]) = .ok [[1, 0]] := by decide +kernel

end OpenML
