import Verif.Model.Data

/-!
# C147: loading files into containers that are already filled
-/

namespace OpenML

open Data

/-- C147: the variant without labels accumulates: after any sequence of files the rows are those there were, followed by the rows of all
files that could be opened, in order, whatever their lengths. -/
theorem C147_rows {α : Type} (files : List (Option (List (List α)))) (X : List (List α)) :
    loadRowsEach files X = .ok (X ++ (files.filterMap id).flatten) := by
  induction files generalizing X with
  | nil => simp [loadRowsEach]
  | cons f fs ih =>
    cases f with
    | none => simp [loadRowsEach, loadtxtRows, ih]
    | some t => simp [loadRowsEach, loadtxtRows, ih]

/-- Beside C147_rows: two files around one that does not exist. -/
example : loadRowsEach [some [[1], [2, 3]], none, some [[4]]] [[0]] = .ok [[0], [1], [2, 3], [4]] := by decide

namespace LoadAgain

theorem fillRows_over {α : Type} (m : Nat) (table : List (List α × α)) (hm : ∀ r ∈ table, r.1.length = m) (D : List (List α))
    (hD : D.length = table.length) (y : List α) :
    ((∀ d ∈ D, m ≤ d.length) → fillRows m D (table.map fun r => r.1 ++ [r.2]) y =
      .ok (List.zipWith (fun r d => r.1 ++ d.drop m) table D, y ++ table.map Prod.snd)) ∧
    ((∃ d ∈ D, d.length < m) → fillRows m D (table.map fun r => r.1 ++ [r.2]) y = .ub) := by
  induction table generalizing D y with
  | nil =>
    cases D with
    | nil => simp [fillRows]
    | cons d D => simp at hD
  | cons r t ih =>
    cases D with
    | nil => simp at hD
    | cons d D =>
      have hr := hm r (by simp)
      obtain ⟨h1, h2⟩ := ih (fun q hq => hm q (by simp [hq])) D (by simpa using hD) (y ++ [r.2])
      constructor
      · intro h
        have hd := h d (by simp)
        have : overwriteRow m d (r.1 ++ [r.2]) = .ok (r.1 ++ d.drop m) := by
          rw [overwriteRow, if_pos ⟨hd, by simp [hr]⟩, List.take_append_of_le_length (by omega), List.take_of_length_le (by omega)]
        simp [fillRows, this, h1 fun e he => h e (by simp [he])]
      · rintro ⟨e, he, hlt⟩
        by_cases hd : m ≤ d.length
        · have : overwriteRow m d (r.1 ++ [r.2]) = .ok (r.1 ++ d.drop m) := by
            rw [overwriteRow, if_pos ⟨hd, by simp [hr]⟩, List.take_append_of_le_length (by omega), List.take_of_length_le (by omega)]
          rcases List.mem_cons.mp he with rfl | he
          · omega
          · simp [fillRows, this, h2 ⟨e, he, hlt⟩]
        · have : overwriteRow m d (r.1 ++ [r.2]) = .ub := by rw [overwriteRow, if_neg fun h => hd h.1]
          simp [fillRows, this]

theorem loadtxtVec_eq {α : Type} (fill : α) (table : List (List α × α)) (m : Nat) (hne : table ≠ []) (hm : ∀ r ∈ table, r.1.length = m)
    (X : List (List α)) (y : List α) :
    loadtxtVec fill (some (table.map fun r => r.1 ++ [r.2])) X y =
      fillRows m (X.take table.length ++ List.replicate (table.length - X.length) (List.replicate m fill))
        (table.map fun r => r.1 ++ [r.2]) y := by
  cases table with
  | nil => exact absurd rfl hne
  | cons p t =>
    have hp := hm p (by simp)
    have hcons : ∃ a r, p.1 ++ [p.2] = a :: r ∧ r.length = m := by
      cases hp1 : p.1 with
      | nil => rw [hp1] at hp; exact ⟨p.2, [], rfl, hp⟩
      | cons a r => rw [hp1] at hp; exact ⟨a, r ++ [p.2], rfl, by simpa using hp⟩
    obtain ⟨a, r, e, hr⟩ := hcons
    rw [List.map_cons, e]
    simp only [loadtxtVec, List.length_map, hr, List.length_cons]

end LoadAgain

open LoadAgain

/-- C147: the labelled variant on filled containers, for a table of `m` features and a label. If the rows already there have at least
`m` entries, the new rows replace them and keep their surplus entries, surplus rows disappear, and the labels are appended to the
labels there were. -/
theorem C147_reload {α : Type} (fill : α) (table : List (List α × α)) (m : Nat) (hne : table ≠ []) (hm : ∀ r ∈ table, r.1.length = m)
    (X : List (List α)) (y : List α) (hX : ∀ r ∈ X.take table.length, m ≤ r.length) :
    ∃ X', loadtxtVec fill (some (table.map fun r => r.1 ++ [r.2])) X y = .ok (X', y ++ table.map Prod.snd) ∧
      X'.length = table.length ∧
      ∀ (i : Nat) (r : List α × α), table[i]? = some r → X'[i]? = some (r.1 ++ (X[i]?.getD []).drop m) := by
  have hlen : (X.take table.length ++ List.replicate (table.length - X.length) (List.replicate m fill)).length = table.length := by
    simp; omega
  rw [loadtxtVec_eq fill table m hne hm X y, (fillRows_over m table hm _ hlen y).1]
  · refine ⟨_, rfl, by rw [List.length_zipWith, hlen, Nat.min_self], ?_⟩
    intro i r hr
    have hi : i < table.length := (List.getElem?_eq_some_iff.mp hr).1
    rw [List.getElem?_zipWith, hr]
    by_cases hx : i < X.length
    · rw [List.getElem?_append_left (by simp; omega), List.getElem?_take_of_lt hi, List.getElem?_eq_getElem hx]
      rfl
    · rw [List.getElem?_append_right (by simp; omega), List.getElem?_replicate_of_lt (by simp; omega),
        List.getElem?_eq_none (by omega : X.length ≤ i)]
      simp
  · intro d hd
    rcases List.mem_append.mp hd with h | h
    · exact hX d h
    · rw [List.eq_of_mem_replicate h, List.length_replicate]

/-- C147: if one of the rows that are reused is too short, the labelled variant writes outside it. -/
theorem C147_narrow {α : Type} (fill : α) (table : List (List α × α)) (m : Nat) (hne : table ≠ []) (hm : ∀ r ∈ table, r.1.length = m)
    (X : List (List α)) (y : List α) (hX : ∃ r ∈ X.take table.length, r.length < m) :
    loadtxtVec fill (some (table.map fun r => r.1 ++ [r.2])) X y = .ub := by
  have hlen : (X.take table.length ++ List.replicate (table.length - X.length) (List.replicate m fill)).length = table.length := by
    simp; omega
  obtain ⟨r, hr, hlt⟩ := hX
  rw [loadtxtVec_eq fill table m hne hm X y]
  exact (fillRows_over m table hm _ hlen y).2 ⟨r, List.mem_append_left _ hr, hlt⟩

/-- C147: loading several labelled tables of the same width into the same containers leaves the rows of the last one beside the labels
of all of them, so that from the second on rows and labels no longer correspond. -/
theorem C147_labels {α : Type} (fill : α) (m : Nat) (tables : List (List (List α × α)))
    (ht : ∀ t ∈ tables, t ≠ [] ∧ ∀ r ∈ t, r.1.length = m) (last : List (List α × α)) (hl : last ≠ [] ∧ ∀ r ∈ last, r.1.length = m) :
    loadVecEach fill ((tables ++ [last]).map fun t => some (t.map fun r => r.1 ++ [r.2])) [] [] =
      .ok (last.map Prod.fst, (tables ++ [last]).flatten.map Prod.snd) := by
  have h : ∀ (ts : List (List (List α × α))) (X : List (List α)) (y : List α), (∀ t ∈ ts, t ≠ [] ∧ ∀ r ∈ t, r.1.length = m) →
      (∀ r ∈ X, r.length = m) → loadVecEach fill ((ts ++ [last]).map fun t => some (t.map fun r => r.1 ++ [r.2])) X y =
        .ok (last.map Prod.fst, y ++ (ts ++ [last]).flatten.map Prod.snd) := by
    have one : ∀ (t : List (List α × α)) (X : List (List α)) (y : List α), (t ≠ [] ∧ ∀ r ∈ t, r.1.length = m) →
        (∀ r ∈ X, r.length = m) → loadtxtVec fill (some (t.map fun r => r.1 ++ [r.2])) X y =
          .ok (t.map Prod.fst, y ++ t.map Prod.snd) := by
      intro t X y ⟨hne, hm⟩ hX
      obtain ⟨X', h1, h2, h3⟩ := C147_reload fill t m hne hm X y (fun r hr => by rw [hX r (List.mem_of_mem_take hr)])
      rw [h1]
      congr 2
      apply List.ext_getElem?
      intro i
      rw [List.getElem?_map]
      cases hi : t[i]? with
      | none =>
        rw [List.getElem?_eq_none_iff] at hi
        rw [Option.map_none, List.getElem?_eq_none (by omega)]
      | some r =>
        rw [h3 i r hi, Option.map_some]
        cases hx : X[i]? with
        | none => simp
        | some d => simp [List.drop_of_length_le (Nat.le_of_eq (hX d (List.mem_of_getElem? hx)))]
    intro ts
    induction ts with
    | nil =>
      intro X y _ hX
      simp only [List.nil_append, List.map_cons, List.map_nil, loadVecEach]
      rw [one last X y hl hX]
      simp
    | cons t ts ih =>
      intro X y h hX
      simp only [List.cons_append, List.map_cons, loadVecEach]
      rw [one t X y (h t (by simp)) hX, Res.bind_ok]
      simp only
      rw [ih (t.map Prod.fst) _ (fun u hu => h u (by simp [hu]))]
      · simp
      · intro r hr
        obtain ⟨q, hq, rfl⟩ := List.mem_map.mp hr
        exact (h t (by simp)).2 q hq
  simpa using h tables [] [] ht (by simp)

/-- Beside C147_reload: wider old rows keep their last entries, the third old row disappears. -/
example : loadtxtVec 0 (some [[1, 2, 9], [3, 4, 8]]) [[7, 7, 7], [6, 6], [5, 5]] [5] = .ok ([[1, 2, 7], [3, 4]], [5, 9, 8]) := by decide

/-- Beside C147_narrow: an old row of length one is too short for two features. -/
example : ∃ r ∈ ([[7]] : List (List Nat)).take 2, r.length < 2 := ⟨[7], by simp, by simp⟩

/-- Beside C147_labels: training and test set in the same containers. -/
example : loadVecEach 0 [some [[1, 2, 9], [3, 4, 8]], some [[5, 6, 7]]] [] [] = .ok ([[5, 6]], [9, 8, 7]) := by decide

end OpenML
