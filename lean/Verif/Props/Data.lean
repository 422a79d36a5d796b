import Verif.Lemmas.Data
import Mathlib.Tactic.NormNum
import Mathlib.Tactic.Linarith

/-!
# C25-C27, C63: splitting, dividing, loading and shuffling data
-/

namespace OpenML
open Data

/-- C25. For equally many rows and labels and a training count between 0 and `n`, `train_test_split` returns that many
training rows, training rows followed by test rows are the input rows rearranged by the drawn permutation (unchanged without
shuffling), and labels travel with their rows. -/
theorem C25_train_test_split {ρ β : Type} (X : List ρ) (y : List β) (hxy : X.length = y.length) (trainSize : ℚ)
    (shuffle : Option (List Nat)) (hp : ∀ p, shuffle = some p → p.Perm (List.range X.length)) (k : Nat)
    (hk : truncInt ((X.length : ℚ) * trainSize) = k) (hkn : k ≤ X.length) :
    ∃ xTrain xTest yTrain yTest, trainTestSplit X y trainSize shuffle = .ok (xTrain, xTest, yTrain, yTest) ∧
      xTrain.length = k ∧ yTrain.length = k ∧ xTest.length = X.length - k ∧ yTest.length = X.length - k ∧
      ((xTrain ++ xTest).zip (yTrain ++ yTest)).Perm (X.zip y) ∧
      (shuffle = none → xTrain ++ xTest = X ∧ yTrain ++ yTest = y) ∧
      ∀ p, shuffle = some p → ∀ i j : Nat, p[i]? = some j →
        (xTrain ++ xTest)[j]? = X[i]? ∧ (yTrain ++ yTest)[j]? = y[i]? := by
  have main : ∀ (nx : List ρ) (ny : List β), nx.length = X.length → ny.length = X.length →
      (do
        let xTrain ← topRows nx (truncInt ((X.length : ℚ) * trainSize))
        let xTest ← bottomRows nx ((X.length : Int) - truncInt ((X.length : ℚ) * trainSize))
        let yTrain ← topRows ny (truncInt ((X.length : ℚ) * trainSize))
        let yTest ← bottomRows ny ((X.length : Int) - truncInt ((X.length : ℚ) * trainSize))
        Res.ok (xTrain, xTest, yTrain, yTest)) = .ok (nx.take k, nx.drop k, ny.take k, ny.drop k) := by
    intro nx ny h1 h2
    rw [hk]
    have e : ((X.length : Int) - (k : Int)).toNat = X.length - k := by omega
    simp only [topRows, bottomRows, h1, h2, e]
    rw [if_pos (by omega), if_pos (by omega)]
    have e2 : X.length - (X.length - k) = k := by omega
    simp [e2, hkn]
  cases shuffle with
  | none =>
    refine ⟨X.take k, X.drop k, y.take k, y.drop k, ?_, ?_, ?_, ?_, ?_, ?_, ?_, ?_⟩
    · simpa [trainTestSplit] using main X y rfl hxy.symm
    · simp; omega
    · simp; omega
    · simp
    · simp; omega
    · simp
    · simp
    · simp
  | some p =>
    have hp := hp p rfl
    have hpl : p.length = X.length := by simpa using hp.length_eq
    have hn : p.Nodup := hp.nodup_iff.mpr List.nodup_range
    have hlt : ∀ i ∈ p, i < X.length := fun i hi => List.mem_range.mp (hp.mem_iff.mp hi)
    have lx := length_scatter p X X
    have ly := length_scatter p y y
    refine ⟨(scatter p X X).take k, (scatter p X X).drop k, (scatter p y y).take k, (scatter p y y).drop k,
      ?_, ?_, ?_, ?_, ?_, ?_, ?_, ?_⟩
    · have := main (scatter p X X) (scatter p y y) lx (by omega)
      simpa [trainTestSplit, permuteRows, hpl, hxy] using this
    · simp; omega
    · simp; omega
    · simp; omega
    · simp; omega
    · rw [List.take_append_drop, List.take_append_drop, ← scatter_zip p X y X y hxy]
      exact scatter_perm p (X.zip y) (by simpa [hxy] using hp)
    · simp
    · rintro _ ⟨⟩ i j hij
      rw [List.take_append_drop, List.take_append_drop]
      have hi : i < X.length := by rw [← hpl]; exact (List.getElem?_eq_some_iff.mp hij).1
      constructor
      · rw [List.getElem?_eq_getElem hi]
        exact scatter_at p X X hn hlt i j _ (List.getElem?_eq_getElem hi) hij
      · have hi' : i < y.length := by omega
        rw [List.getElem?_eq_getElem hi']
        exact scatter_at p y y hn (fun m hm => by rw [← hxy]; exact hlt m hm) i j _ (List.getElem?_eq_getElem hi') hij

/-- C25. For a fraction between 0 and 1 the training count is the integer part of `n * train_size`, hence in range. -/
theorem C25_fraction_in_range (n : Nat) (trainSize : ℚ) (h0 : 0 ≤ trainSize) (h1 : trainSize ≤ 1) :
    ∃ k : Nat, truncInt ((n : ℚ) * trainSize) = k ∧ k ≤ n ∧ (k : ℚ) ≤ n * trainSize ∧ n * trainSize < k + 1 := by
  have hnn : (0 : ℚ) ≤ n := Nat.cast_nonneg n
  have hprod : (0 : ℚ) ≤ (n : ℚ) * trainSize := mul_nonneg hnn h0
  refine ⟨⌊(n : ℚ) * trainSize⌋₊, ?_, ?_, ?_, ?_⟩
  · rw [truncInt, if_pos hprod]
    exact (Int.natCast_floor_eq_floor hprod).symm
  · have : (n : ℚ) * trainSize ≤ n := by nlinarith
    exact Nat.floor_le_of_le this
  · exact Nat.floor_le hprod
  · exact Nat.lt_floor_add_one _

/-- C25. Outside of that range the call violates an assertion, shuffled or not. -/
theorem C25_out_of_range {ρ β : Type} (X : List ρ) (y : List β) (trainSize : ℚ) (shuffle : Option (List Nat))
    (h : truncInt ((X.length : ℚ) * trainSize) < 0 ∨ (X.length : Int) < truncInt ((X.length : ℚ) * trainSize)) :
    trainTestSplit X y trainSize shuffle = .ub := by
  cases shuffle with
  | none =>
    simp only [trainTestSplit, Res.bind_ok, topRows]
    rw [if_neg (by omega)]
    rfl
  | some p =>
    by_cases hx : p.length = X.length
    · by_cases hy : p.length = y.length
      · simp only [trainTestSplit, permuteRows, if_pos hx, if_pos hy, Res.bind_ok, topRows]
        rw [if_neg (by rw [length_scatter]; omega)]
        rfl
      · simp only [trainTestSplit, permuteRows, if_pos hx, if_neg hy, Res.bind_ok]
        rfl
    · simp only [trainTestSplit, permuteRows, if_neg hx]
      rfl

/-- C25. A number of labels that differs from the number of rows violates an assertion if the data is shuffled. Otherwise it goes
unnoticed as long as there are enough labels for either part: the training labels are the first ones, the test labels the last ones, so
that additional labels are skipped in the middle and test row `i` of `X` gets the label that follows its own by the difference. -/
theorem C25_mismatched {ρ β : Type} (X : List ρ) (y : List β) (hxy : X.length ≠ y.length) (trainSize : ℚ) (k : Nat)
    (hk : truncInt ((X.length : ℚ) * trainSize) = k) (hkn : k ≤ X.length) :
    (∀ p : List Nat, p.Perm (List.range X.length) → trainTestSplit X y trainSize (some p) = .ub) ∧
    (k ≤ y.length ∧ X.length - k ≤ y.length → trainTestSplit X y trainSize none =
      .ok (X.take k, X.drop k, y.take k, y.drop (y.length + k - X.length))) ∧
    (y.length < k ∨ y.length < X.length - k → trainTestSplit X y trainSize none = .ub) := by
  have hsub : ((X.length : Int) - (k : Int)) = ((X.length - k : Nat) : Int) := by omega
  refine ⟨?_, ?_, ?_⟩
  · intro p hp
    have hl : p.length = X.length := by simpa using hp.length_eq
    simp only [trainTestSplit, permuteRows, if_pos hl, if_neg (show ¬ p.length = y.length by omega), Res.bind_ok]
    rfl
  · rintro ⟨h1, h2⟩
    simp only [trainTestSplit, Res.bind_ok, hk, hsub, topRows, bottomRows]
    rw [if_pos (by omega), if_pos (by omega), if_pos (by omega), if_pos (by omega)]
    simp only [Res.bind_ok, Int.toNat_natCast]
    rw [show X.length - (X.length - k) = k by omega, show y.length - (X.length - k) = y.length + k - X.length by omega]
  · intro h
    simp only [trainTestSplit, Res.bind_ok, hk, hsub, topRows, bottomRows]
    rw [if_pos (by omega), if_pos (by omega)]
    by_cases h1 : k ≤ y.length
    · rw [if_pos (by omega), if_neg (by omega)]
      rfl
    · rw [if_neg (by omega)]
      rfl

/-- Beside C25_mismatched: five labels for four rows. -/
example : trainTestSplit [10, 20, 30, 40] ['a', 'b', 'c', 'd', 'e'] (1 / 2) none =
    .ok ([10, 20], [30, 40], ['a', 'b'], ['d', 'e']) := by
  have e : truncInt (((([10, 20, 30, 40] : List Nat).length : Nat) : ℚ) * (1 / 2)) = 2 := by norm_num [truncInt]
  exact (C25_mismatched [10, 20, 30, 40] ['a', 'b', 'c', 'd', 'e'] (by decide) (1 / 2) 2 e (by decide)).2.1 (by decide)

example : trainTestSplit [10, 20, 30, 40] ['a', 'b', 'c', 'd'] (3 / 4) (some [2, 0, 3, 1]) =
    .ok ([20, 40, 10], [30], ['b', 'd', 'a'], ['c']) := by
  have e : truncInt (((([10, 20, 30, 40] : List Nat).length : Nat) : ℚ) * (3 / 4)) = 3 := by norm_num [truncInt]
  simp only [trainTestSplit, e]
  rfl
example : truncInt (((([10, 20, 30, 40] : List Nat).length : Nat) : ℚ) * (3 / 4)) = 3 := by norm_num [truncInt]
example : [2, 0, 3, 1].Perm (List.range 4) := by decide

/-- C26. `divide_on_feature` with a feature number inside the matrix returns the row numbers with value at most the
threshold and the remaining ones, both increasing; together each row number occurs exactly once. -/
theorem C26_divide_on_feature {α : Type} [LinearOrder α] (X : DMat α) (hX : X.WF) (feature : Nat)
    (hf : feature < X.ncols) (threshold : α) :
    ∃ left right, divideOnFeature X feature threshold = .ok (left, right) ∧
      left.Pairwise (· < ·) ∧ right.Pairwise (· < ·) ∧
      (∀ i, i ∈ left ↔ ∃ r v, X.rows[i]? = some r ∧ r[feature]? = some v ∧ v ≤ threshold) ∧
      (∀ i, i ∈ right ↔ ∃ r v, X.rows[i]? = some r ∧ r[feature]? = some v ∧ threshold < v) ∧
      (left ++ right).Perm (List.range X.nrows) := by
  have main : ∀ (rows : List (List α)) (k : Nat), (∀ r ∈ rows, feature < r.length) →
      ∃ left right, divideFrom feature threshold rows k = .ok (left, right) ∧
      left.Pairwise (· < ·) ∧ right.Pairwise (· < ·) ∧
      (∀ i, i ∈ left ↔ ∃ d r v, i = k + d ∧ rows[d]? = some r ∧ r[feature]? = some v ∧ v ≤ threshold) ∧
      (∀ i, i ∈ right ↔ ∃ d r v, i = k + d ∧ rows[d]? = some r ∧ r[feature]? = some v ∧ threshold < v) ∧
      (left ++ right).Perm (List.range' k rows.length) := by
    intro rows
    induction rows with
    | nil => intro k _; exact ⟨[], [], rfl, by simp, by simp, by simp, by simp, by simp⟩
    | cons row rows ih =>
      intro k h
      obtain ⟨l, r, h1, h2, h3, h4, h5, h6⟩ := ih (k + 1) fun q hq => h q (by simp [hq])
      have hrow := h row (by simp)
      have hv : row[feature]? = some row[feature] := List.getElem?_eq_getElem hrow
      have shift : ∀ (P : α → Prop) (i : Nat), (∃ d q v, i = k + d ∧ (row :: rows)[d]? = some q ∧ q[feature]? = some v ∧
          P v) ↔ (i = k ∧ P row[feature]) ∨ ∃ d q v, i = k + 1 + d ∧ rows[d]? = some q ∧ q[feature]? = some v ∧ P v := by
        intro P i
        constructor
        · rintro ⟨d, q, v, rfl, e1, e2, e3⟩
          cases d with
          | zero =>
            simp only [List.getElem?_cons_zero, Option.some.injEq] at e1
            subst e1
            rw [hv] at e2
            cases e2
            exact Or.inl ⟨rfl, e3⟩
          | succ d => exact Or.inr ⟨d, q, v, by omega, by simpa using e1, e2, e3⟩
        · rintro (⟨rfl, e⟩ | ⟨d, q, v, rfl, e1, e2, e3⟩)
          · exact ⟨0, row, _, rfl, rfl, hv, e⟩
          · exact ⟨d + 1, q, v, by omega, by simpa using e1, e2, e3⟩
      by_cases hle : row[feature] ≤ threshold
      · refine ⟨k :: l, r, ?_, ?_, h3, ?_, ?_, ?_⟩
        · simp [divideFrom, readAt_of_lt hrow, h1, hle]
        · rw [List.pairwise_cons]
          refine ⟨fun i hi => ?_, h2⟩
          obtain ⟨d, _, _, rfl, _⟩ := (h4 i).mp hi
          omega
        · intro i
          rw [shift (· ≤ threshold), List.mem_cons, h4]
          simp [hle]
        · intro i
          rw [shift (threshold < ·), h5]
          simp [not_lt.mpr hle]
        · rw [List.length_cons, List.range'_succ, List.cons_append]
          exact h6.cons k
      · refine ⟨l, k :: r, ?_, h2, ?_, ?_, ?_, ?_⟩
        · simp [divideFrom, readAt_of_lt hrow, h1, hle]
        · rw [List.pairwise_cons]
          refine ⟨fun i hi => ?_, h3⟩
          obtain ⟨d, _, _, rfl, _⟩ := (h5 i).mp hi
          omega
        · intro i
          rw [shift (· ≤ threshold), h4]
          simp [hle]
        · intro i
          rw [shift (threshold < ·), List.mem_cons, h5]
          simp [not_le.mp hle]
        · rw [List.length_cons, List.range'_succ]
          exact List.perm_middle.trans (h6.cons k)
  obtain ⟨l, r, h1, h2, h3, h4, h5, h6⟩ := main X.rows 0 fun r hr => by rw [hX r hr]; exact hf
  refine ⟨l, r, h1, h2, h3, ?_, ?_, ?_⟩
  · intro i; rw [h4]; simp
  · intro i; rw [h5]; simp
  · rw [List.range_eq_range']; exact h6

/-- C26. A feature number outside of a non-empty matrix is read out of bounds. -/
theorem C26_feature_out_of_range {α : Type} [LinearOrder α] (X : DMat α) (hX : X.WF) (feature : Nat)
    (hf : X.ncols ≤ feature) (hne : X.rows ≠ []) (threshold : α) : divideOnFeature X feature threshold = .ub := by
  unfold divideOnFeature
  cases hr : X.rows with
  | nil => exact absurd hr hne
  | cons row rows =>
    have : row.length ≤ feature := by rw [hX row (by rw [hr]; simp)]; exact hf
    simp [divideFrom, readAt_of_ge this]

example : divideOnFeature ⟨2, [[1, 5], [2, 7], [3, 5], [4, 6]]⟩ 1 5 = .ok ([0, 2], [1, 3]) := by decide
example : (⟨2, [[1, 5], [2, 7], [3, 5], [4, 6]]⟩ : DMat Nat).WF := by decide

/-- C27. On a table with at least one row and at least one number per row, all rows equally long, `loadtxt` into matrices
returns all but the last column as features and the last column as labels, in file order. -/
theorem C27_loadtxt_matrix {α : Type} (table : List (List α × α)) (m : Nat) (hne : table ≠ [])
    (hm : ∀ r ∈ table, r.1.length = m) :
    loadtxtMat (some (table.map fun r => r.1 ++ [r.2])) = .ok (⟨m, table.map Prod.fst⟩, table.map Prod.snd) := by
  have hmap : ∀ t : List (List α × α), (∀ r ∈ t, r.1.length = m) →
      mapRows (m + 1) (t.map fun r => r.1 ++ [r.2]) = .ok (t.map fun r => r.1 ++ [r.2]) := by
    intro t ht
    induction t with
    | nil => rfl
    | cons r t ih =>
      have hr := ht r (by simp)
      simp only [List.map_cons, mapRows]
      rw [ih fun q hq => ht q (by simp [hq])]
      have : (r.1 ++ [r.2]).take (m + 1) = r.1 ++ [r.2] := List.take_of_length_le (by simp [hr])
      simp [hr, this]
  have hleft : (table.map fun r => r.1 ++ [r.2]).map (·.take m) = table.map Prod.fst := by
    rw [List.map_map]
    apply List.map_congr_left
    intro r hr
    simp [hm r hr]
  have hright : (table.map fun r => r.1 ++ [r.2]).filterMap (·[m]?) = table.map Prod.snd := by
    rw [List.filterMap_map, ← List.filterMap_eq_map]
    apply List.filterMap_congr
    intro r hr
    have := hm r hr
    subst this
    simp
  cases table with
  | nil => exact absurd rfl hne
  | cons p t =>
    have hp := hm p (by simp)
    have hcons : ∃ a r, p.1 ++ [p.2] = a :: r ∧ r.length = m := by
      cases hp1 : p.1 with
      | nil => rw [hp1] at hp; exact ⟨p.2, [], rfl, hp⟩
      | cons a r => rw [hp1] at hp; exact ⟨a, r ++ [p.2], rfl, by simpa using hp⟩
    obtain ⟨a, r, e, hr⟩ := hcons
    have h1 := hmap (p :: t) hm
    rw [List.map_cons, e] at h1 hleft hright ⊢
    unfold loadtxtMat
    simp only
    rw [List.length_cons, hr, h1]
    simp only [Res.bind_ok]
    rw [hleft, hright]

/-- C27. A missing file throws; an empty table, an empty first line, or a line shorter than the first one is read out of
bounds. -/
theorem C27_loadtxt_matrix_failures {α : Type} :
    loadtxtMat (none : Option (List (List α))) = .throw .runtimeError ∧
    loadtxtMat (some ([] : List (List α))) = .ub ∧
    (∀ rest : List (List α), loadtxtMat (some ([] :: rest)) = .ub) ∧
    ∀ (first : List α) (rest : List (List α)), (∃ r ∈ rest, r.length < first.length) →
      loadtxtMat (some (first :: rest)) = .ub := by
  refine ⟨rfl, rfl, fun _ => rfl, ?_⟩
  rintro first rest ⟨r, hr, hlt⟩
  have hmap : ∀ t : List (List α), (∃ r ∈ t, r.length < first.length) → mapRows first.length t = .ub := by
    intro t
    induction t with
    | nil => rintro ⟨r, hr, _⟩; simp at hr
    | cons q t ih =>
      rintro ⟨r, hr, hlt⟩
      by_cases hq : first.length ≤ q.length
      · have : ∃ r ∈ t, r.length < first.length := by
          rcases List.mem_cons.mp hr with rfl | h
          · omega
          · exact ⟨r, h, hlt⟩
        simp [mapRows, hq, ih this]
      · simp [mapRows, hq]
  cases first with
  | nil => rfl
  | cons a f =>
    simp only [loadtxtMat]
    rw [hmap _ ⟨r, by simp [hr], hlt⟩]
    rfl

/-- C27. The variant filling vectors: on empty containers it agrees with the matrix variant; labels are appended to the
vector the caller passed while the row count follows the file, so a non-empty label vector no longer lines up. -/
theorem C27_loadtxt_vectors {α : Type} (fill : α) (table : List (List α × α)) (m : Nat) (hne : table ≠ [])
    (hm : ∀ r ∈ table, r.1.length = m) (y : List α) :
    loadtxtVec fill (some (table.map fun r => r.1 ++ [r.2])) [] y = .ok (table.map Prod.fst, y ++ table.map Prod.snd) := by
  have hfill : ∀ (t : List (List α × α)) (y : List α), (∀ r ∈ t, r.1.length = m) →
      fillRows m (List.replicate t.length (List.replicate m fill)) (t.map fun r => r.1 ++ [r.2]) y =
        .ok (t.map Prod.fst, y ++ t.map Prod.snd) := by
    intro t
    induction t with
    | nil => intro y _; simp [fillRows]
    | cons r t ih =>
      intro y ht
      have hr := ht r (by simp)
      simp only [List.length_cons, List.replicate_succ, List.map_cons, fillRows]
      have : overwriteRow m (List.replicate m fill) (r.1 ++ [r.2]) = .ok r.1 := by
        simp [overwriteRow, hr]
      simp [this, ih _ fun q hq => ht q (by simp [hq])]
  cases table with
  | nil => exact absurd rfl hne
  | cons p t =>
    have hp := hm p (by simp)
    have hcons : ∃ a r, p.1 ++ [p.2] = a :: r ∧ r.length = m := by
      cases hp1 : p.1 with
      | nil => rw [hp1] at hp; exact ⟨p.2, [], rfl, hp⟩
      | cons a r => rw [hp1] at hp; exact ⟨a, r ++ [p.2], rfl, by simpa using hp⟩
    obtain ⟨a, r, e, hr⟩ := hcons
    have h1 := hfill (p :: t) y hm
    rw [List.map_cons, e] at h1 ⊢
    unfold loadtxtVec
    simp only [List.length_map, List.take_nil, List.nil_append, List.length_nil, Nat.sub_zero, hr]
    rw [← h1]
    rfl

example : loadtxtMat (some [[1, 2, 9], [3, 4, 8]]) = .ok (⟨2, [[1, 2], [3, 4]]⟩, [9, 8]) := by decide
example : loadtxtMat (some [[1, 2, 9], [3, 4]]) = .ub := by decide
example : loadtxtVec 0 (some [[1, 2, 9], [3, 4, 8]]) [[7, 7, 7]] [5] = .ok ([[1, 2, 7], [3, 4]], [5, 9, 8]) := by decide

/-- C63. `shuffle_data` rearranges whole rows (every axis except 0) or columns (axis 0): the multiset of rows, respectively
columns, is unchanged. -/
theorem C63_shuffle_rows {α : Type} (X : DMat α) (axis : Int) (haxis : axis ≠ 0) (colPerm rowPerm : List Nat)
    (hp : rowPerm.Perm (List.range X.nrows)) :
    ∃ S, shuffleMat X axis colPerm rowPerm = .ok S ∧ S.ncols = X.ncols ∧ S.rows.Perm X.rows := by
  have hl : rowPerm.length = X.rows.length := by simpa [DMat.nrows] using hp.length_eq
  exact ⟨⟨X.ncols, scatter rowPerm X.rows X.rows⟩, by simp [shuffleMat, haxis, permuteRows, hl], rfl,
    scatter_perm rowPerm X.rows hp⟩

/-- C63 for columns. -/
theorem C63_shuffle_columns {α : Type} (X : DMat α) (hX : X.WF) (colPerm rowPerm : List Nat)
    (hp : colPerm.Perm (List.range X.ncols)) :
    ∃ S, shuffleMat X 0 colPerm rowPerm = .ok S ∧ S.ncols = X.ncols ∧ S.nrows = X.nrows ∧ S.WF ∧ S.cols.Perm X.cols := by
  have hl : colPerm.length = X.ncols := by simpa using hp.length_eq
  have hlt : ∀ j ∈ colPerm, j < X.ncols := fun i hi => List.mem_range.mp (hp.mem_iff.mp hi)
  refine ⟨⟨X.ncols, X.rows.map fun r => colPerm.filterMap (r[·]?)⟩, ?_, rfl, by simp [DMat.nrows], ?_, ?_⟩
  · simp [shuffleMat, gatherCols, hl]
  · intro r hr
    obtain ⟨q, hq, rfl⟩ := List.mem_map.mp hr
    rw [Lists.length_filterMap_idx _ _ (fun i hi => by rw [hX q hq]; exact hlt i hi)]
    exact hl
  · have : (⟨X.ncols, X.rows.map fun r => colPerm.filterMap (r[·]?)⟩ : DMat α).cols =
        colPerm.map X.col := by
      apply List.ext_getElem?
      intro j
      simp only [DMat.cols, List.getElem?_map]
      rcases Nat.lt_or_ge j X.ncols with hj | hj
      · rw [List.getElem?_range hj, List.getElem?_eq_getElem (by omega)]
        simp only [Option.map_some, Option.some.injEq]
        rw [DMat.col, DMat.col, List.filterMap_map]
        apply List.filterMap_congr
        intro r hr
        simp only [Function.comp]
        rw [Lists.getElem?_filterMap_idx _ _ (fun i hi => by rw [hX r hr]; exact hlt i hi),
          List.getElem?_eq_getElem (by omega)]
        rfl
      · rw [List.getElem?_eq_none (by simpa using hj), List.getElem?_eq_none (by omega)]; rfl
    rw [this]
    exact hp.map _

example : shuffleMat ⟨2, [[1, 2], [3, 4], [5, 6]]⟩ 7 [] [2, 0, 1] = .ok ⟨2, [[3, 4], [5, 6], [1, 2]]⟩ := by decide
example : shuffleMat ⟨2, [[1, 2], [3, 4], [5, 6]]⟩ 0 [1, 0] [] = .ok ⟨2, [[2, 1], [4, 3], [6, 5]]⟩ := by decide

end OpenML
