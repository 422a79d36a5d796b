import Verif.Model.Argsort
import Verif.Spec.Sorting

namespace OpenML.Argsort
open OpenML.Spec

theorem linSpaced_zero (n : Nat) (h : n = 0) : linSpaced n 0 n = [] := by subst h; rfl

theorem linSpaced_one : linSpaced 1 0 1 = [1] := by decide

theorem linSpaced_two : linSpaced 2 0 2 = [0, 2] := by decide

theorem linSpaced_ge_three {n : Nat} (h : 3 ≤ n) : linSpaced n 0 n = List.range n := by
  unfold linSpaced
  have h1 : n ≠ 1 := by omega
  have h2 : ¬ n ≤ 1 := by omega
  have h3 : n / (n - 1) = 1 := by
    rw [Nat.div_eq_of_lt_le] <;> omega
  simp only [h1, h2, if_false, Nat.sub_zero, h3]
  have h4 : (decide (1 < n) && decide (n + 1 < n)) = false := by simp
  rw [h4]
  simp

variable {α : Type} [LinearOrder α]

/-- Order of two lines entries in the requested direction. -/
def le' (reverse : Bool) (a b : α) : Prop := if reverse then b ≤ a else a ≤ b

theorem sortLine_ok {line : List α} {reverse : Bool} {idx : List Nat} (h : ∀ i ∈ idx, i < line.length) :
    sortLine line reverse idx = .ok (idx.insertionSort (keyLe line reverse)) := by
  unfold sortLine
  rw [if_neg]
  rintro ⟨_, i, hi, hle⟩
  have := h i hi
  omega

theorem keyLe_of_lt {line : List α} {reverse : Bool} {i j : Nat} (hi : i < line.length) (hj : j < line.length) :
    keyLe line reverse i j ↔ (if reverse then line[j] ≤ line[i] else line[i] ≤ line[j]) := by
  unfold keyLe
  rw [List.getElem?_eq_getElem hi, List.getElem?_eq_getElem hj]

theorem keyLe_total (line : List α) (reverse : Bool) (i j : Nat) : keyLe line reverse i j ∨ keyLe line reverse j i := by
  unfold keyLe
  cases h1 : line[i]? with
  | none => exact Or.inl trivial
  | some a =>
    cases h2 : line[j]? with
    | none => exact Or.inl trivial
    | some b =>
      cases reverse
      · simpa using le_total a b
      · simpa using le_total b a

theorem orderedInsert_perm_mem {r : Nat → Nat → Prop} [DecidableRel r] (a : Nat) (l : List Nat) :
    (l.orderedInsert r a).Perm (a :: l) := List.perm_orderedInsert r a l

/-- Sortedness of the insertion sort when the relation is transitive on the members only. -/
theorem insertionSort_sorted_on {r : Nat → Nat → Prop} [DecidableRel r] (htot : ∀ i j, r i j ∨ r j i)
    (l : List Nat) (htr : ∀ a ∈ l, ∀ b ∈ l, ∀ c ∈ l, r a b → r b c → r a c) :
    (l.insertionSort r).Pairwise r := by
  induction l with
  | nil => simp
  | cons a l ih =>
    have hl := ih (fun x hx y hy z hz => htr x (by simp [hx]) y (by simp [hy]) z (by simp [hz]))
    rw [List.insertionSort_cons]
    have hmem : ∀ x ∈ l.insertionSort r, x ∈ l := fun x hx => (List.perm_insertionSort r l).mem_iff.mp hx
    generalize l.insertionSort r = s at hl hmem
    induction s with
    | nil => simp
    | cons b s ihs =>
      rw [List.pairwise_cons] at hl
      by_cases hab : r a b
      · rw [List.orderedInsert_cons_of_le r s hab]
        rw [List.pairwise_cons, List.pairwise_cons]
        refine ⟨?_, hl⟩
        intro c hc
        rcases List.mem_cons.mp hc with rfl | hc
        · exact hab
        · exact htr a (by simp) b (by simp [hmem b (by simp)]) c (by simp [hmem c (by simp [hc])]) hab (hl.1 c hc)
      · rw [List.orderedInsert_of_not_le r s hab]
        rw [List.pairwise_cons]
        refine ⟨?_, ihs hl.2 (fun x hx => hmem x (by simp [hx]))⟩
        intro c hc
        rcases List.mem_cons.mp ((List.perm_orderedInsert r a s).mem_iff.mp hc) with rfl | hc
        · exact (htot c b).resolve_left hab
        · exact hl.1 c hc

/-- Stability: a pair that is in order for the relation and occurs in this order stays in this order. -/
theorem insertionSort_stable {r : Nat → Nat → Prop} [DecidableRel r] (l : List Nat)
    (htot : ∀ i j, r i j ∨ r j i)
    (htr : ∀ a ∈ l, ∀ b ∈ l, ∀ c ∈ l, r a b → r b c → r a c) {i j : Nat} (hij : r i j) (h : [i, j].Sublist l) :
    [i, j].Sublist (l.insertionSort r) := by
  induction l with
  | nil => simp at h
  | cons a l ih =>
    have htr' : ∀ x ∈ l, ∀ y ∈ l, ∀ z ∈ l, r x y → r y z → r x z :=
      fun x hx y hy z hz => htr x (by simp [hx]) y (by simp [hy]) z (by simp [hz])
    rw [List.insertionSort_cons]
    cases h with
    | cons _ h =>
      exact (ih htr' h).trans (List.sublist_orderedInsert a _)
    | cons_cons _ h =>
      -- here `a = i` and `j` occurs in `l`
      have hj : j ∈ l := by simpa using h
      have hsort := insertionSort_sorted_on htot l htr'
      have hmem : ∀ x ∈ l.insertionSort r, x ∈ l := fun x hx => (List.perm_insertionSort r l).mem_iff.mp hx
      have hj' : j ∈ l.insertionSort r := (List.perm_insertionSort r l).mem_iff.mpr hj
      generalize l.insertionSort r = s at hsort hmem hj'
      induction s with
      | nil => simp at hj'
      | cons b s ihs =>
        by_cases hab : r i b
        · rw [List.orderedInsert_cons_of_le r s hab]
          exact List.Sublist.cons_cons _ (by simpa using hj')
        · rw [List.orderedInsert_of_not_le r s hab]
          rcases List.mem_cons.mp hj' with rfl | hj'
          · exact absurd hij hab
          · exact List.Sublist.cons _ (ihs (List.pairwise_cons.mp hsort).2 (fun x hx => hmem x (by simp [hx])) hj')

theorem keyLe_trans_on {line : List α} {reverse : Bool} {idx : List Nat} (h : ∀ i ∈ idx, i < line.length) :
    ∀ a ∈ idx, ∀ b ∈ idx, ∀ c ∈ idx, keyLe line reverse a b → keyLe line reverse b c → keyLe line reverse a c := by
  intro a ha b hb c hc h1 h2
  rw [keyLe_of_lt (h a ha) (h b hb)] at h1
  rw [keyLe_of_lt (h b hb) (h c hc)] at h2
  rw [keyLe_of_lt (h a ha) (h c hc)]
  cases reverse
  · simp at *; exact h1.trans h2
  · simp at *; exact h2.trans h1

theorem pair_sublist_of_nodup {l : List Nat} (hn : l.Nodup) {i j : Nat} (h1 : [i, j].Sublist l)
    (h2 : [j, i].Sublist l) : False := by
  induction l with
  | nil => simp at h1
  | cons a l ih =>
    rw [List.nodup_cons] at hn
    cases h1 with
    | cons _ h1 =>
      cases h2 with
      | cons _ h2 => exact ih hn.2 h1 h2
      | cons_cons _ h2 => exact hn.1 (h1.subset (by simp))
    | cons_cons _ h1 =>
      cases h2 with
      | cons _ h2 => exact hn.1 (h2.subset (by simp))
      | cons_cons _ h2 => exact hn.1 (by simpa using h1)

theorem pair_sublist_total {l : List Nat} {i j : Nat} (hi : i ∈ l) (hj : j ∈ l) (hne : i ≠ j) :
    [i, j].Sublist l ∨ [j, i].Sublist l := by
  induction l with
  | nil => simp at hi
  | cons a l ih =>
    rcases List.mem_cons.mp hi with rfl | hi'
    · rcases List.mem_cons.mp hj with rfl | hj
      · exact absurd rfl hne
      · exact Or.inl (List.Sublist.cons_cons _ (by simpa using hj))
    · rcases List.mem_cons.mp hj with rfl | hj'
      · exact Or.inr (List.Sublist.cons_cons _ (List.singleton_sublist.mpr hi'))
      · exact (ih hi' hj').imp (List.Sublist.cons _) (List.Sublist.cons _)

theorem sortLine_spec {line : List α} {reverse : Bool} {idx : List Nat} (hn : idx.Nodup)
    (h : ∀ i ∈ idx, i < line.length) :
    ∃ r, sortLine line reverse idx = .ok r ∧ IsStableArgsort line reverse idx r := by
  refine ⟨_, sortLine_ok h, ⟨List.perm_insertionSort _ idx, ?_⟩⟩
  intro i j hij
  have hp := List.perm_insertionSort (keyLe line reverse) idx
  have hi : i ∈ idx := hp.mem_iff.mp (hij.subset (by simp))
  have hj : j ∈ idx := hp.mem_iff.mp (hij.subset (by simp))
  have hil := h i hi
  have hjl := h j hj
  refine ⟨line[i], line[j], List.getElem?_eq_getElem hil, List.getElem?_eq_getElem hjl, ?_⟩
  have hs := insertionSort_sorted_on (keyLe_total line reverse) idx (keyLe_trans_on h)
  have hle : keyLe line reverse i j := by
    have := hs.sublist hij
    simpa using this
  by_cases heq : line[i] = line[j]
  · right
    refine ⟨heq, ?_⟩
    have hne : i ≠ j := by
      rintro rfl
      have : [i, i].Nodup := (hp.nodup_iff.mpr hn).sublist hij
      simp at this
    rcases pair_sublist_total hi hj hne with h1 | h1
    · exact h1
    · exfalso
      have hji : keyLe line reverse j i := by
        rw [keyLe_of_lt hjl hil, heq]
        cases reverse <;> simp
      exact pair_sublist_of_nodup (hp.nodup_iff.mpr hn) hij
        (insertionSort_stable idx (keyLe_total line reverse) (keyLe_trans_on h) hji h1)
  · left
    rw [keyLe_of_lt hil hjl] at hle
    unfold Ahead
    cases reverse
    · simp at *; exact lt_of_le_of_ne hle heq
    · simp at *; exact lt_of_le_of_ne hle (Ne.symm heq)

/-- All lines: the k-th result is a stable argsort relative to the previous result (the start vector for k = 0). -/
theorem sortLines_spec {n : Nat} {reverse : Bool} (lines : List (List α)) (hl : ∀ l ∈ lines, l.length = n)
    (idx : List Nat) (hp : idx.Perm (List.range n)) :
    ∃ rs, sortLines reverse idx lines = .ok rs ∧ rs.length = lines.length ∧
      ∀ (k : Nat) (line : List α) (r : List Nat), lines[k]? = some line → rs[k]? = some r →
        r.Perm (List.range n) ∧
        ∃ prev, (idx :: rs)[k]? = some prev ∧ IsStableArgsort line reverse prev r := by
  induction lines generalizing idx with
  | nil => exact ⟨[], rfl, rfl, by simp⟩
  | cons line lines ih =>
    have hn : idx.Nodup := hp.nodup_iff.mpr List.nodup_range
    have hb : ∀ i ∈ idx, i < line.length := by
      intro i hi
      rw [hl line (by simp)]
      simpa using hp.mem_iff.mp hi
    obtain ⟨r, hr, hst⟩ := sortLine_spec (reverse := reverse) hn hb
    obtain ⟨rs, hrs, hlen, hall⟩ := ih (fun l h => hl l (by simp [h])) r (hst.perm.trans hp)
    refine ⟨r :: rs, by simp [sortLines, hr, hrs], by simp [hlen], ?_⟩
    intro k ln q hk hq
    cases k with
    | zero =>
      simp at hk hq
      subst hk; subst hq
      exact ⟨hst.perm.trans hp, idx, by simp, hst⟩
    | succ k =>
      simp at hk hq
      obtain ⟨h1, prev, h2, h3⟩ := hall k ln q hk hq
      exact ⟨h1, prev, by simpa using h2, h3⟩

theorem sortLines_one {reverse : Bool} (lines : List (List α)) :
    sortLines reverse [1] lines = .ok (lines.map fun _ => [1]) := by
  induction lines with
  | nil => rfl
  | cons l ls ih => simp [sortLines, sortLine, ih]

theorem sortLines_nil {reverse : Bool} (lines : List (List α)) :
    sortLines reverse [] lines = .ok (lines.map fun _ => []) := by
  induction lines with
  | nil => rfl
  | cons l ls ih => simp [sortLines, sortLine, ih]

theorem sortLines_two {reverse : Bool} (lines : List (List α)) (hl : ∀ l ∈ lines, l.length = 2) (hne : lines ≠ []) :
    sortLines reverse [0, 2] lines = .ub := by
  cases lines with
  | nil => exact absurd rfl hne
  | cons l ls =>
    have := hl l (by simp)
    simp [sortLines, sortLine, this]

end OpenML.Argsort
