import Verif.Model.TransactionEncoder
import Verif.Lemmas.HashTree
import Mathlib.Data.List.Pairwise

namespace OpenML.TransactionEncoder
open HashTree

theorem mem_setInsert {v x : Nat} {l : List Nat} : x ∈ setInsert v l ↔ x = v ∨ x ∈ l := by
  induction l with
  | nil => simp [setInsert]
  | cons a l ih =>
    unfold setInsert
    split
    · simp
    · split
      · next h => subst h; simp
      · simp [ih]; tauto

theorem setInsert_sorted {v : Nat} {l : List Nat} (h : l.Pairwise (· < ·)) : (setInsert v l).Pairwise (· < ·) := by
  induction l with
  | nil => simp [setInsert]
  | cons a l ih =>
    rw [List.pairwise_cons] at h
    unfold setInsert
    split
    · next hv =>
      rw [List.pairwise_cons]
      refine ⟨?_, List.pairwise_cons.mpr h⟩
      intro x hx
      rcases List.mem_cons.mp hx with rfl | hx
      · exact hv
      · exact Nat.lt_trans hv (h.1 x hx)
    · split
      · exact List.pairwise_cons.mpr h
      · next h1 h2 =>
        rw [List.pairwise_cons]
        refine ⟨?_, ih h.2⟩
        intro x hx
        rcases mem_setInsert.mp hx with rfl | hx
        · omega
        · exact h.1 x hx

theorem foldl_setInsert (l s : List Nat) (hs : s.Pairwise (· < ·)) :
    (l.foldl (fun s v => setInsert v s) s).Pairwise (· < ·) ∧
    ∀ x, x ∈ l.foldl (fun s v => setInsert v s) s ↔ x ∈ l ∨ x ∈ s := by
  induction l generalizing s with
  | nil => simpa using hs
  | cons a l ih =>
    obtain ⟨h1, h2⟩ := ih (setInsert a s) (setInsert_sorted hs)
    refine ⟨h1, fun x => ?_⟩
    rw [List.foldl_cons, h2, mem_setInsert, List.mem_cons]
    tauto

theorem toSet_sorted (l : List Nat) : (toSet l).Pairwise (· < ·) := (foldl_setInsert l [] (by simp)).1

theorem mem_toSet {l : List Nat} {x : Nat} : x ∈ toSet l ↔ x ∈ l := by
  rw [toSet, (foldl_setInsert l [] (by simp)).2]; simp

theorem colsSet_aux (X : List (List Nat)) (s : List Nat) (hs : s.Pairwise (· < ·)) :
    (X.foldl (fun s row => row.foldl (fun s v => setInsert v s) s) s).Pairwise (· < ·) ∧
    ∀ x, x ∈ X.foldl (fun s row => row.foldl (fun s v => setInsert v s) s) s ↔ (∃ row ∈ X, x ∈ row) ∨ x ∈ s := by
  induction X generalizing s with
  | nil => simpa using hs
  | cons row X ih =>
    obtain ⟨h1, h2⟩ := foldl_setInsert row s hs
    obtain ⟨h3, h4⟩ := ih _ h1
    refine ⟨h3, fun x => ?_⟩
    rw [List.foldl_cons, h4, h2]
    simp only [List.mem_cons]
    constructor
    · rintro (⟨r, hr, hx⟩ | hx | hx)
      · exact Or.inl ⟨r, Or.inr hr, hx⟩
      · exact Or.inl ⟨row, Or.inl rfl, hx⟩
      · exact Or.inr hx
    · rintro (⟨r, rfl | hr, hx⟩ | hx)
      · exact Or.inr (Or.inl hx)
      · exact Or.inl ⟨r, hr, hx⟩
      · exact Or.inr (Or.inr hx)

theorem colsSet_sorted (X : List (List Nat)) : (colsSet X).Pairwise (· < ·) := (colsSet_aux X [] (by simp)).1

theorem mem_colsSet {X : List (List Nat)} {x : Nat} : x ∈ colsSet X ↔ ∃ row ∈ X, x ∈ row := by
  rw [colsSet, (colsSet_aux X [] (by simp)).2]; simp

theorem find_colsMapFrom {l : List Nat} (hl : l.Pairwise (· < ·)) (k v j : Nat) :
    find v (colsMapFrom l k) = some j ↔ k ≤ j ∧ l[j - k]? = some v := by
  induction l generalizing k with
  | nil => simp [colsMapFrom, find]
  | cons a l ih =>
    rw [List.pairwise_cons] at hl
    simp only [colsMapFrom, find]
    by_cases hav : a = v
    · subst hav
      rw [if_pos rfl]
      constructor
      · intro h; cases h; simp
      · rintro ⟨h1, h2⟩
        obtain ⟨d, rfl⟩ := Nat.exists_eq_add_of_le h1
        rw [Nat.add_sub_cancel_left] at h2
        cases d with
        | zero => simp
        | succ d =>
          have := hl.1 _ (List.mem_of_getElem? (show l[d]? = some a by simpa using h2))
          omega
    · rw [if_neg hav, ih hl.2]
      constructor
      · rintro ⟨h1, h2⟩
        refine ⟨by omega, ?_⟩
        obtain ⟨d, rfl⟩ := Nat.exists_eq_add_of_le h1
        rw [show k + 1 + d - (k + 1) = d by omega] at h2
        rw [show k + 1 + d - k = d + 1 by omega]
        simpa using h2
      · rintro ⟨h1, h2⟩
        obtain ⟨d, rfl⟩ := Nat.exists_eq_add_of_le h1
        rw [Nat.add_sub_cancel_left] at h2
        cases d with
        | zero => simp at h2; exact absurd h2 hav
        | succ d =>
          refine ⟨by omega, ?_⟩
          rw [show k + (d + 1) - (k + 1) = d by omega]
          simpa using h2

theorem getElem?_lt_of_lt {l : List Nat} (hl : l.Pairwise (· < ·)) {i j a b : Nat} (hi : l[i]? = some a)
    (hj : l[j]? = some b) (hab : a < b) : i < j := by
  obtain ⟨hi', rfl⟩ := List.getElem?_eq_some_iff.mp hi
  obtain ⟨hj', rfl⟩ := List.getElem?_eq_some_iff.mp hj
  rw [List.pairwise_iff_getElem] at hl
  by_contra hc
  rcases Nat.lt_or_ge j i with h | h
  · have := hl j i hj' hi' h; omega
  · have : i = j := by omega
    subst this; omega

theorem mem_rowTriplets {cm : List (Nat × Nat)} {idx : Nat} {row : List Nat} {t : (Nat × Nat) × Nat} :
    t ∈ rowTriplets cm idx row ↔ t.1.1 = idx ∧ t.2 ∈ row ∧ find t.2 cm = some t.1.2 := by
  induction row with
  | nil => simp [rowTriplets]
  | cons x row ih =>
    unfold rowTriplets
    cases hf : find x cm with
    | none =>
      simp only [ih]
      constructor
      · rintro ⟨h1, h2, h3⟩; exact ⟨h1, by simp [h2], h3⟩
      · rintro ⟨h1, h2, h3⟩
        rcases List.mem_cons.mp h2 with h2 | h2
        · rw [h2, hf] at h3; simp at h3
        · exact ⟨h1, h2, h3⟩
    | some j =>
      simp only [List.mem_cons, ih]
      constructor
      · rintro (rfl | ⟨h1, h2, h3⟩)
        · exact ⟨rfl, Or.inl rfl, hf⟩
        · exact ⟨h1, Or.inr h2, h3⟩
      · rintro ⟨h1, h2 | h2, h3⟩
        · left
          obtain ⟨⟨a, b⟩, c⟩ := t
          simp only at h1 h2 h3
          subst h1 h2
          rw [hf] at h3
          cases h3; rfl
        · exact Or.inr ⟨h1, h2, h3⟩

theorem rowTriplets_sorted {cs : List Nat} (hcs : cs.Pairwise (· < ·)) (idx : Nat) {row : List Nat}
    (hrow : row.Pairwise (· < ·)) :
    (rowTriplets (colsMapFrom cs 0) idx row).Pairwise fun s t => posLt s.1 t.1 = true := by
  induction row with
  | nil => simp [rowTriplets]
  | cons x row ih =>
    rw [List.pairwise_cons] at hrow
    unfold rowTriplets
    cases hf : find x (colsMapFrom cs 0) with
    | none => exact ih hrow.2
    | some j =>
      simp only
      rw [List.pairwise_cons]
      refine ⟨?_, ih hrow.2⟩
      intro t ht
      obtain ⟨h1, h2, h3⟩ := mem_rowTriplets.mp ht
      have h4 := (find_colsMapFrom hcs 0 _ _).mp hf
      have h5 := (find_colsMapFrom hcs 0 _ _).mp h3
      have := getElem?_lt_of_lt hcs h4.2 h5.2 (hrow.1 _ h2)
      simp only [posLt, decide_eq_true_eq]
      right
      exact ⟨h1.symm, by simpa using this⟩

theorem mem_tripletsFrom {cm : List (Nat × Nat)} {X : List (List Nat)} {k : Nat} {t : (Nat × Nat) × Nat} :
    t ∈ tripletsFrom cm X k ↔ k ≤ t.1.1 ∧ ∃ row, X[t.1.1 - k]? = some row ∧ t.2 ∈ row ∧ find t.2 cm = some t.1.2 := by
  induction X generalizing k with
  | nil => simp [tripletsFrom]
  | cons row X ih =>
    simp only [tripletsFrom, List.mem_append, mem_rowTriplets, mem_toSet, ih]
    constructor
    · rintro (⟨h1, h2, h3⟩ | ⟨h1, r, h2, h3⟩)
      · exact ⟨by omega, row, by simp [h1], h2, h3⟩
      · refine ⟨by omega, r, ?_, h3⟩
        obtain ⟨d, hd⟩ := Nat.exists_eq_add_of_le h1
        rw [hd, show k + 1 + d - (k + 1) = d by omega] at h2
        rw [hd, show k + 1 + d - k = d + 1 by omega]
        simpa using h2
    · rintro ⟨h1, r, h2, h3⟩
      obtain ⟨d, hd⟩ := Nat.exists_eq_add_of_le h1
      cases d with
      | zero =>
        left
        have : t.1.1 - k = 0 := by omega
        rw [this] at h2
        simp at h2
        subst h2
        exact ⟨by omega, h3⟩
      | succ d =>
        right
        refine ⟨by omega, r, ?_, h3⟩
        rw [hd, show k + (d + 1) - k = d + 1 by omega] at h2
        rw [hd, show k + (d + 1) - (k + 1) = d by omega]
        simpa using h2

theorem tripletsFrom_sorted {cs : List Nat} (hcs : cs.Pairwise (· < ·)) (X : List (List Nat)) (k : Nat) :
    (tripletsFrom (colsMapFrom cs 0) X k).Pairwise fun s t => posLt s.1 t.1 = true := by
  induction X generalizing k with
  | nil => simp [tripletsFrom]
  | cons row X ih =>
    simp only [tripletsFrom]
    rw [List.pairwise_append]
    refine ⟨rowTriplets_sorted hcs k (toSet_sorted row), ih (k + 1), ?_⟩
    intro s hs t ht
    have h1 := (mem_rowTriplets.mp hs).1
    have h2 := (mem_tripletsFrom.mp ht).1
    simp only [posLt, decide_eq_true_eq]
    left; omega

theorem insertNew_last {m : List ((Nat × Nat) × Nat)} {k : Nat × Nat} {v : Nat} (h : ∀ p ∈ m, posLt p.1 k = true) :
    insertNew posLt k v m = m ++ [(k, v)] := by
  induction m with
  | nil => rfl
  | cons p r ih =>
    unfold insertNew
    have hp := h p (by simp)
    have : ¬ posLt k p.1 = true := by
      simp only [posLt, decide_eq_true_eq] at hp ⊢
      omega
    rw [if_neg this, ih fun q hq => h q (by simp [hq])]
    rfl

theorem foldl_addTriplet (ts m : List ((Nat × Nat) × Nat)) (h : (m ++ ts).Pairwise fun s t => posLt s.1 t.1 = true) :
    ts.foldl addTriplet m = m ++ ts := by
  induction ts generalizing m with
  | nil => simp
  | cons t ts ih =>
    have hm : ∀ p ∈ m, posLt p.1 t.1 = true := by
      intro p hp
      exact (List.pairwise_append.mp h).2.2 p hp t (by simp)
    have hnone : find t.1 m = none := by
      rw [find_eq_none]
      intro hmem
      obtain ⟨p, hp, he⟩ := List.mem_map.mp hmem
      have := hm p hp
      rw [he] at this
      simp [posLt] at this
    rw [List.foldl_cons]
    have : addTriplet m t = m ++ [t] := by
      unfold addTriplet
      rw [hnone]
      exact insertNew_last hm
    rw [this, ih (m ++ [t]) (by simpa using h)]
    simp

theorem stored_eq (X : List (List Nat)) : (fitTransform X).stored = tripletsFrom (colsMapFrom (colsSet X) 0) X 0 := by
  simp only [fitTransform]
  rw [foldl_addTriplet _ [] (by simpa using tripletsFrom_sorted (colsSet_sorted X) X 0)]
  simp

theorem rowTriplets_values {cs : List Nat} (hcs : cs.Pairwise (· < ·)) (idx : Nat) (row : List Nat) (h : ∀ x ∈ row, x ∈ cs) :
    (rowTriplets (colsMapFrom cs 0) idx row).map Prod.snd = row := by
  induction row with
  | nil => rfl
  | cons x row ih =>
    obtain ⟨j, hj⟩ := List.mem_iff_getElem?.mp (h x (by simp))
    have : find x (colsMapFrom cs 0) = some j := (find_colsMapFrom hcs 0 _ _).mpr ⟨Nat.zero_le _, by simpa using hj⟩
    unfold rowTriplets
    rw [this]
    simp [ih fun y hy => h y (by simp [hy])]

theorem tripletsFrom_values {cs : List Nat} (hcs : cs.Pairwise (· < ·)) (X : List (List Nat)) (k : Nat)
    (h : ∀ row ∈ X, ∀ x ∈ row, x ∈ cs) :
    (tripletsFrom (colsMapFrom cs 0) X k).map Prod.snd = (X.map toSet).flatten := by
  induction X generalizing k with
  | nil => rfl
  | cons row X ih =>
    simp only [tripletsFrom, List.map_append, List.map_cons, List.flatten_cons]
    rw [rowTriplets_values hcs k _ (fun x hx => h row (by simp) x (mem_toSet.mp hx)), ih (k + 1) fun r hr => h r (by simp [hr])]

theorem stored_values (X : List (List Nat)) : (fitTransform X).stored.map Prod.snd = (X.map toSet).flatten := by
  rw [stored_eq]
  exact tripletsFrom_values (colsSet_sorted X) X 0 fun row hrow x hx => mem_colsSet.mpr ⟨row, hrow, hx⟩

theorem count_stored_values (X : List (List Nat)) (v : Nat) :
    ((fitTransform X).stored.map Prod.snd).count v = X.countP fun t => decide (v ∈ t) := by
  rw [stored_values]
  induction X with
  | nil => rfl
  | cons t X ih =>
    rw [List.map_cons, List.flatten_cons, List.count_append, ih, List.countP_cons]
    have hn : (toSet t).Nodup := (toSet_sorted t).imp (fun h => Nat.ne_of_lt h)
    by_cases h : v ∈ t
    · rw [hn.count, if_pos (mem_toSet.mpr h)]
      simp [h]; omega
    · rw [hn.count, if_neg (fun h' => h (mem_toSet.mp h'))]
      simp [h]

end OpenML.TransactionEncoder
