import Verif.Lemmas.Sort2D

/-!
# C04, C05: sorting of tables
-/

namespace OpenML
open Sort2D Spec

variable {α : Type} [LinearOrder α]

/-- C04, axis 0. Whatever order `std::sort` gives to rows with equal keys: sorting a rectangular non-empty table returns a
table of the same shape in which each column is the sorted rearrangement of the same column of the input. -/
theorem C04_sort2D_columns (sorter : (List α → List α → Bool) → List (List α) → List (List α)) (hs : IsSort sorter)
    (x : List (List α)) (m : Nat) (hm : 0 < m) (hne : x ≠ []) (hx : ∀ r ∈ x, r.length = m) (reverse : Bool) :
    ∃ y, sort2D sorter x 0 reverse = .ok y ∧ y.length = x.length ∧ (∀ r ∈ y, r.length = m) ∧
      ∀ k, k < m → (y.filterMap (·[k]?)).Perm (x.filterMap (·[k]?)) ∧ InOrder reverse (y.filterMap (·[k]?)) := by
  match x, hne with
  | [] :: _, _ => have := hx [] (by simp); simp at this; omega
  | (a :: r) :: rest, _ =>
    have hl : (a :: r).length = m := hx _ (by simp)
    have h := sortColumns_spec hs reverse ((a :: r) :: rest) (by simp) ((a :: r).length + 1) 0 ((a :: r) :: rest)
      ((a :: r) :: rest) (List.Perm.refl _) rfl hx hx (by omega) (by omega) (by intro k hk; omega)
    simpa [sort2D] using h

/-- C04, axis 1. Each row is replaced by its sorted rearrangement. -/
theorem C04_sort2D_rows (sorter : (List α → List α → Bool) → List (List α) → List (List α))
    (x : List (List α)) (hx : ∃ r rest, x = r :: rest ∧ r ≠ []) (reverse : Bool) :
    ∃ y, sort2D sorter x 1 reverse = .ok y ∧
      List.Forall₂ (fun out inp => out.Perm inp ∧ InOrder reverse out) y x := by
  obtain ⟨r, rest, rfl, hr⟩ := hx
  cases r with
  | nil => exact absurd rfl hr
  | cons a r =>
    refine ⟨((a :: r) :: rest).map (sortValues reverse), by simp [sort2D], ?_⟩
    rw [List.forall₂_map_left_iff, List.forall₂_same]
    exact fun l _ => ⟨sortValues_perm reverse l, sortValues_inOrder reverse l⟩

/-- C04. Empty tables, an empty first row and any other axis are rejected. -/
theorem C04_sort2D_rejects (sorter : (List α → List α → Bool) → List (List α) → List (List α))
    (x : List (List α)) (axis : Int) (reverse : Bool)
    (h : x = [] ∨ (∃ rest, x = [] :: rest) ∨ (axis ≠ 0 ∧ axis ≠ 1)) :
    sort2D sorter x axis reverse = .throw .invalidArgument := by
  match x with
  | [] => rfl
  | [] :: _ => rfl
  | (a :: r) :: rest => simp at h; simp [sort2D, h.1, h.2]

/-- C04, the Eigen overload: every row (axis 1) or column (axis 0) is replaced by its sorted rearrangement. -/
theorem C04_sort_matrix (x : DMat α) (reverse : Bool) :
    (∃ y, sortMat x 1 reverse = .ok y ∧ List.Forall₂ (fun out inp => out.Perm inp ∧ InOrder reverse out) y x.rows) ∧
    (∃ y, sortMat x 0 reverse = .ok y ∧ List.Forall₂ (fun out inp => out.Perm inp ∧ InOrder reverse out) y x.cols) ∧
    ∀ axis : Int, axis ≠ 0 → axis ≠ 1 → sortMat x axis reverse = .throw .invalidArgument := by
  refine ⟨⟨_, by simp [sortMat]; rfl, ?_⟩, ⟨_, by simp [sortMat]; rfl, ?_⟩, fun a h0 h1 => by simp [sortMat, h0, h1]⟩
  · rw [List.forall₂_map_left_iff, List.forall₂_same]
    exact fun l _ => ⟨sortValues_perm reverse l, sortValues_inOrder reverse l⟩
  · rw [List.forall₂_map_left_iff, List.forall₂_same]
    exact fun l _ => ⟨sortValues_perm reverse l, sortValues_inOrder reverse l⟩

/-- A sorting procedure exists (insertion sort), so `C04_sort2D_columns` is not vacuous. -/
theorem C04_sorter_exists {β : Type} : ∃ sorter : (β → β → Bool) → List β → List β, IsSort sorter := by
  refine ⟨fun lt l => l.insertionSort (fun a b => lt b a = false), ?_⟩
  intro lt l hirr htr hinc
  refine ⟨List.perm_insertionSort _ l, ?_⟩
  dsimp only
  have hasym : ∀ a ∈ l, ∀ b ∈ l, lt a b = true → lt b a = false := by
    intro a ha b hb h
    by_contra hc
    have := htr a ha b hb a ha h (by simpa using hc)
    rw [hirr a ha] at this; simp at this
  -- `¬ lt b a` and `¬ lt c b` imply `¬ lt c a`
  have hle : ∀ a ∈ l, ∀ b ∈ l, ∀ c ∈ l, lt b a = false → lt c b = false → lt c a = false := by
    intro a ha b hb c hc h1 h2
    by_contra hca
    have hca : lt c a = true := by simpa using hca
    cases hab : lt a b with
    | true => have := htr c hc a ha b hb hca hab; rw [h2] at this; simp at this
    | false =>
      cases hbc : lt b c with
      | true => have := htr b hb c hc a ha hbc hca; rw [h1] at this; simp at this
      | false => have := (hinc a ha b hb c hc hab h1 hbc h2).2; rw [hca] at this; simp at this
  clear htr hinc
  induction l with
  | nil => simp
  | cons a l ih =>
    have ihl := ih (fun x hx => hirr x (by simp [hx])) (fun x hx y hy => hasym x (by simp [hx]) y (by simp [hy]))
      (fun x hx y hy z hz => hle x (by simp [hx]) y (by simp [hy]) z (by simp [hz]))
    rw [List.insertionSort_cons]
    have hmem : ∀ x ∈ l.insertionSort (fun a b => lt b a = false), x ∈ l :=
      fun x hx => (List.perm_insertionSort _ l).mem_iff.mp hx
    generalize l.insertionSort (fun a b => lt b a = false) = s at ihl hmem
    induction s with
    | nil => simp
    | cons w s ih2 =>
      rw [List.pairwise_cons] at ihl
      rw [List.orderedInsert]
      have hw : w ∈ a :: l := by simp [hmem w (by simp)]
      by_cases h : lt w a = false
      · rw [if_pos h, List.pairwise_cons]
        refine ⟨fun u hu => ?_, List.pairwise_cons.mpr ihl⟩
        rcases List.mem_cons.mp hu with rfl | hu
        · exact h
        · exact hle a (by simp) w hw u (by simp [hmem u (by simp [hu])]) h (ihl.1 u hu)
      · rw [if_neg h, List.pairwise_cons]
        refine ⟨fun u hu => ?_, ih2 ihl.2 (fun x hx => hmem x (by simp [hx]))⟩
        rcases List.mem_cons.mp ((List.perm_orderedInsert _ a s).mem_iff.mp hu) with rfl | hu
        · exact hasym w hw _ (by simp) (by simpa using h)
        · exact ihl.1 u hu

example : sort2D (fun lt l => l.insertionSort (fun a b => lt b a = false)) [[3, 1], [1, 2], [2, 0]] 0 false
    = .ok [[1, 0], [2, 1], [3, 2]] := by decide
example : sort2D (fun lt l => l.insertionSort (fun a b => lt b a = false)) [[3, 1], [1, 2], [2, 0]] 0 true
    = .ok [[3, 2], [2, 1], [1, 0]] := by decide
example : sort2D (fun lt l => l.insertionSort (fun a b => lt b a = false)) [[3, 1], [1, 2], [2, 0]] 1 false
    = .ok [[1, 3], [1, 2], [0, 2]] := by decide

/-- C05. Calling `sortrows` on a table whose first row is not empty returns iff no row is a prefix of another one (for
equally long rows: iff the rows are pairwise distinct), and then the result is the rearrangement in strict dictionary
order. In every other case the call is undefined. -/
theorem C05_sortrows (x : List (List α)) (hx : ∃ r rest, x = r :: rest ∧ r ≠ []) (reverse : Bool) :
    (x.Pairwise (fun v w => ¬ v <+: w ∧ ¬ w <+: v) →
      ∃ y, sortrows x reverse = .ok y ∧ y.Perm x ∧ y.Pairwise (DictBefore reverse)) ∧
    (¬ x.Pairwise (fun v w => ¬ v <+: w ∧ ¬ w <+: v) → sortrows x reverse = .ub) := by
  obtain ⟨r, rest, rfl, hr⟩ := hx
  cases r with
  | nil => exact absurd rfl hr
  | cons a r =>
    have he : ((a :: r) :: rest).Pairwise (fun v w => comparable v w = true) ↔
        ((a :: r) :: rest).Pairwise (fun v w => ¬ v <+: w ∧ ¬ w <+: v) := by
      simp only [comparable_iff]
    constructor
    · intro h
      refine ⟨_, by simp only [sortrows]; rw [if_pos (he.mpr h)], List.perm_insertionSort _ _, ?_⟩
      exact insertionSort_rows reverse _ (he.mpr h)
    · intro h
      simp only [sortrows]
      rw [if_neg (fun h' => h (he.mp h'))]

/-- C05 in the form of the documentation: for equally long rows the call is defined iff the rows are pairwise distinct. -/
theorem C05_sortrows_rectangular (x : List (List α)) (m : Nat) (hm : 0 < m) (hne : x ≠ [])
    (hx : ∀ r ∈ x, r.length = m) (reverse : Bool) :
    (x.Nodup → ∃ y, sortrows x reverse = .ok y ∧ y.Perm x ∧ y.Pairwise (DictBefore reverse)) ∧
    (¬ x.Nodup → sortrows x reverse = .ub) := by
  have hfirst : ∃ r rest, x = r :: rest ∧ r ≠ [] := by
    cases x with
    | nil => exact absurd rfl hne
    | cons r rest => exact ⟨r, rest, rfl, fun h => by have := hx r (by simp); rw [h] at this; simp at this; omega⟩
  have he : x.Nodup ↔ x.Pairwise (fun v w => ¬ v <+: w ∧ ¬ w <+: v) := by
    unfold List.Nodup
    constructor
    · intro h
      refine h.imp_of_mem ?_
      intro v w hv hw hvw
      exact ⟨fun hp => hvw (hp.eq_of_length (by rw [hx v hv, hx w hw])),
        fun hp => hvw (hp.eq_of_length (by rw [hx v hv, hx w hw])).symm⟩
    · intro h
      refine h.imp ?_
      rintro v w h1 rfl
      exact h1.1 (List.prefix_refl _)
  rw [he]
  exact C05_sortrows x hfirst reverse

/-- C05. The dictionary order is strict, so the result is determined. -/
theorem C05_dictionary_strict (reverse : Bool) (u v w : List α) :
    (DictBefore reverse u v → ¬ DictBefore reverse v u) ∧
    (DictBefore reverse u v → DictBefore reverse v w → DictBefore reverse u w) :=
  ⟨fun h1 h2 => dictBefore_asymm reverse u v h1 h2, dictBefore_trans reverse u v w⟩

/-- C05. An empty table or an empty first row is rejected. -/
theorem C05_sortrows_rejects (x : List (List α)) (reverse : Bool) (h : x = [] ∨ ∃ rest, x = [] :: rest) :
    sortrows x reverse = .throw .invalidArgument := by
  rcases h with rfl | ⟨rest, rfl⟩ <;> rfl

example : sortrows [[2, 1], [1, 9], [1, 3]] false = .ok [[1, 3], [1, 9], [2, 1]] := by decide
example : sortrows [[2, 1], [1, 9], [1, 3]] true = .ok [[2, 1], [1, 9], [1, 3]] := by decide
example : sortrows [[1, 2], [1, 2]] false = .ub := by decide
example : [[2, 1], [1, 9], [1, 3]].Nodup := by decide

end OpenML
