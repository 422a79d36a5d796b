import Verif.Model.Sort2D
import Verif.Spec.Order
import Verif.Lemmas.DMat
import Mathlib.Data.List.Pairwise

namespace OpenML.Sort2D
open Spec

variable {α : Type} [LinearOrder α]

theorem sortValues_perm (reverse : Bool) (l : List α) : (sortValues reverse l).Perm l := by
  unfold sortValues
  cases reverse
  · simpa using List.perm_insertionSort _ l
  · simpa using List.perm_insertionSort _ l

theorem sortValues_inOrder (reverse : Bool) (l : List α) : InOrder reverse (sortValues reverse l) := by
  unfold sortValues InOrder Ahead
  cases reverse
  · simpa using List.pairwise_insertionSort (fun a b : α => a ≤ b) l
  · have : IsTrans α (fun a b : α => b ≤ a) := ⟨fun a b c h1 h2 => le_trans h2 h1⟩
    have : Std.Total (fun a b : α => b ≤ a) := ⟨fun a b => le_total b a⟩
    simpa using List.pairwise_insertionSort (fun a b : α => b ≤ a) l

theorem colLt_of_lt {reverse : Bool} {i : Nat} {v w : List α} (hv : i < v.length) (hw : i < w.length) :
    colLt reverse i v w = true ↔ Ahead reverse v[i] w[i] := by
  unfold colLt Ahead
  rw [List.getElem?_eq_getElem hv, List.getElem?_eq_getElem hw]
  cases reverse <;> simp

theorem colLt_false_of_lt {reverse : Bool} {i : Nat} {v w : List α} (hv : i < v.length) (hw : i < w.length) :
    colLt reverse i v w = false ↔ ¬ Ahead reverse v[i] w[i] := by
  rw [← colLt_of_lt hv hw]; simp

theorem sorter_spec {sorter : (List α → List α → Bool) → List (List α) → List (List α)} (hs : IsSort sorter)
    (reverse : Bool) (i : Nat) (l : List (List α)) (hl : ∀ r ∈ l, i < r.length) :
    (sorter (colLt reverse i) l).Perm l ∧ InOrder reverse ((sorter (colLt reverse i) l).filterMap (·[i]?)) := by
  have h := hs (colLt reverse i) l
    (by
      intro a ha
      rw [colLt_false_of_lt (hl a ha) (hl a ha)]
      unfold Ahead; cases reverse <;> simp)
    (by
      intro a ha b hb c hc
      rw [colLt_of_lt (hl a ha) (hl b hb), colLt_of_lt (hl b hb) (hl c hc), colLt_of_lt (hl a ha) (hl c hc)]
      unfold Ahead
      cases reverse
      · simpa using fun h1 h2 => lt_trans h1 h2
      · simpa using fun h1 h2 => lt_trans h2 h1)
    (by
      intro a ha b hb c hc
      rw [colLt_false_of_lt (hl a ha) (hl b hb), colLt_false_of_lt (hl b hb) (hl a ha),
        colLt_false_of_lt (hl b hb) (hl c hc), colLt_false_of_lt (hl c hc) (hl b hb),
        colLt_false_of_lt (hl a ha) (hl c hc), colLt_false_of_lt (hl c hc) (hl a ha)]
      unfold Ahead
      cases reverse
      · simp only [Bool.false_eq_true, if_false, not_lt]
        exact fun h1 h2 h3 h4 => ⟨le_trans h3 h1, le_trans h2 h4⟩
      · simp only [if_true, not_lt]
        exact fun h1 h2 h3 h4 => ⟨le_trans h1 h3, le_trans h4 h2⟩)
  refine ⟨h.1, ?_⟩
  have hmem : ∀ r ∈ sorter (colLt reverse i) l, i < r.length := fun r hr => hl r (h.1.mem_iff.mp hr)
  unfold InOrder
  rw [List.pairwise_filterMap]
  refine h.2.imp_of_mem ?_
  intro v w hv hw hvw a ha b hb
  have hv' := hmem v hv
  have hw' := hmem w hw
  rw [colLt_false_of_lt hw' hv'] at hvw
  rw [List.getElem?_eq_getElem hv'] at ha
  rw [List.getElem?_eq_getElem hw'] at hb
  cases ha; cases hb
  exact hvw

theorem length_storeColumn (i : Nat) (rs cs : List (List α)) : (storeColumn i rs cs).length = rs.length := by
  induction rs generalizing cs with
  | nil => simp [storeColumn]
  | cons r rs ih => cases cs <;> simp [storeColumn, ih]

theorem getElem?_storeColumn (i : Nat) (rs cs : List (List α)) (hlen : rs.length = cs.length) (j : Nat) :
    (storeColumn i rs cs)[j]? = rs[j]?.bind fun r => cs[j]?.map fun c =>
      match c[i]? with
      | some v => r.set i v
      | none => r := by
  induction rs generalizing cs j with
  | nil => simp [storeColumn]
  | cons r rs ih =>
    cases cs with
    | nil => simp at hlen
    | cons c cs =>
      cases j with
      | zero => cases h : c[i]? <;> simp [storeColumn, h]
      | succ j => simpa [storeColumn] using ih cs (by simpa using hlen) j

theorem mem_storeColumn_length {m i : Nat} {rs cs : List (List α)} (hlen : rs.length = cs.length)
    (h : ∀ r ∈ rs, r.length = m) : ∀ r ∈ storeColumn i rs cs, r.length = m := by
  intro r hr
  obtain ⟨j, hj⟩ := List.mem_iff_getElem?.mp hr
  rw [getElem?_storeColumn i rs cs hlen] at hj
  cases h1 : rs[j]? with
  | none => simp [h1] at hj
  | some q =>
    have hq := h q (List.mem_of_getElem? h1)
    cases h2 : cs[j]? with
    | none => simp [h1, h2] at hj
    | some c =>
      simp only [h1, h2, Option.bind_some, Option.map_some, Option.some.injEq] at hj
      subst hj
      split <;> simp [hq]

/-- Column `k` after storing column `i`. -/
theorem column_storeColumn {m i k : Nat} {rs cs : List (List α)} (hlen : rs.length = cs.length)
    (hrs : ∀ r ∈ rs, r.length = m) (hcs : ∀ r ∈ cs, r.length = m) (hi : i < m) (hk : k < m) :
    (storeColumn i rs cs).filterMap (·[k]?) = if k = i then cs.filterMap (·[k]?) else rs.filterMap (·[k]?) := by
  have hst := mem_storeColumn_length (i := i) hlen hrs
  apply List.ext_getElem?
  intro j
  rw [DMat.getElem?_filterMap_getElem (fun r hr => by rw [hst r hr]; exact hk), getElem?_storeColumn i rs cs hlen]
  have e1 := DMat.getElem?_filterMap_getElem (rows := cs) (j := k) (fun r hr => by rw [hcs r hr]; exact hk) j
  have e2 := DMat.getElem?_filterMap_getElem (rows := rs) (j := k) (fun r hr => by rw [hrs r hr]; exact hk) j
  by_cases hj : j < rs.length
  · have hj' : j < cs.length := by omega
    have h1 : rs[j]? = some rs[j] := List.getElem?_eq_getElem hj
    have h2 : cs[j]? = some cs[j] := List.getElem?_eq_getElem hj'
    have hl1 := hrs _ (List.mem_of_getElem? h1)
    have hl2 := hcs _ (List.mem_of_getElem? h2)
    have h3 : (cs[j])[i]? = some (cs[j])[i] := List.getElem?_eq_getElem (by omega)
    by_cases hki : k = i
    · subst hki
      rw [if_pos rfl, e1, h1, h2]
      simp [h3, hl1, hk]
    · rw [if_neg hki, e2, h1, h2]
      simp [h3, Ne.symm hki]
  · have h1 : rs[j]? = none := by simp; omega
    have h2 : cs[j]? = none := by simp; omega
    split
    · rw [e1, h1, h2]; rfl
    · rw [e2, h1]; rfl

theorem sortColumns_spec {sorter : (List α → List α → Bool) → List (List α) → List (List α)} (hs : IsSort sorter)
    (reverse : Bool) {m : Nat} (x : List (List α)) (hne : x ≠ []) :
    ∀ (fuel i : Nat) (copy result : List (List α)), copy.Perm x → result.length = x.length →
      (∀ r ∈ x, r.length = m) → (∀ r ∈ result, r.length = m) → i ≤ m → m < i + fuel →
      (∀ k, k < i → (result.filterMap (·[k]?)).Perm (x.filterMap (·[k]?)) ∧ InOrder reverse (result.filterMap (·[k]?))) →
      ∃ y, sortColumns sorter reverse fuel i copy result = .ok y ∧ y.length = x.length ∧ (∀ r ∈ y, r.length = m) ∧
        ∀ k, k < m → (y.filterMap (·[k]?)).Perm (x.filterMap (·[k]?)) ∧ InOrder reverse (y.filterMap (·[k]?)) := by
  intro fuel
  induction fuel with
  | zero => intro i copy result _ _ _ _ h1 h2; omega
  | succ n ih =>
    intro i copy result hp hlen hx hres hi hfuel hdone
    have hcopy : ∀ r ∈ copy, r.length = m := fun r hr => hx r (hp.mem_iff.mp hr)
    have hhead : (copy.headD []).length = m := by
      cases hc : copy with
      | nil => rw [hc] at hp; exact absurd hp.symm.eq_nil hne
      | cons r rs => exact hcopy r (by simp [hc])
    unfold sortColumns
    by_cases him : m ≤ i
    · rw [if_pos (by omega)]
      have : i = m := by omega
      subst this
      exact ⟨result, rfl, hlen, hres, hdone⟩
    · rw [if_neg (by omega), if_neg (by rintro ⟨r, hr, hle⟩; rw [hcopy r hr] at hle; omega)]
      obtain ⟨hp1, ho1⟩ := sorter_spec hs reverse i copy (fun r hr => by rw [hcopy r hr]; omega)
      have hp2 := hp1.trans hp
      have hl2 : (sorter (colLt reverse i) copy).length = x.length := hp2.length_eq
      have hc2 : ∀ r ∈ sorter (colLt reverse i) copy, r.length = m := fun r hr => hx r (hp2.mem_iff.mp hr)
      have hll : result.length = (sorter (colLt reverse i) copy).length := by omega
      refine ih (i + 1) _ _ hp2 (by rw [length_storeColumn]; exact hlen) hx (mem_storeColumn_length hll hres)
        (by omega) (by omega) ?_
      intro k hk
      rw [column_storeColumn hll hres hc2 (by omega) (by omega)]
      by_cases hki : k = i
      · subst hki
        rw [if_pos rfl]
        exact ⟨hp2.filterMap _, ho1⟩
      · rw [if_neg hki]
        exact hdone k (by omega)

/-- Rows on which the comparator is defined in both directions. -/
theorem comparable_iff (v w : List α) : comparable v w = true ↔ ¬ v <+: w ∧ ¬ w <+: v := by
  induction v generalizing w with
  | nil => simp [comparable, rowLt]
  | cons a v ih =>
    cases w with
    | nil => simp [comparable, rowLt]
    | cons b w =>
      have ih := ih w
      unfold comparable at ih ⊢
      by_cases hab : a = b
      · subst hab
        simpa [rowLt, List.cons_prefix_cons] using ih
      · simp [rowLt, hab, Ne.symm hab, List.cons_prefix_cons]

theorem comparable_comm (v w : List α) : comparable v w = comparable w v := by
  rw [Bool.eq_iff_iff, comparable_iff, comparable_iff, and_comm]

theorem rowLt_spec (reverse : Bool) (v w : List α) (h : comparable v w = true) :
    (rowLt reverse v w = .ok true ∧ DictBefore reverse v w) ∨ (rowLt reverse v w = .ok false ∧ DictBefore reverse w v) := by
  induction v generalizing w with
  | nil => simp [comparable, rowLt] at h
  | cons a v ih =>
    cases w with
    | nil => simp [comparable, rowLt] at h
    | cons b w =>
      by_cases hab : a = b
      · subst hab
        have h' : comparable v w = true := by
          unfold comparable at h ⊢
          simpa [rowLt] using h
        rcases ih w h' with ⟨h1, p, c, d, s, t, e1, e2, e3⟩ | ⟨h1, p, c, d, s, t, e1, e2, e3⟩
        · exact Or.inl ⟨by simpa [rowLt] using h1, a :: p, c, d, s, t, by simp [e1], by simp [e2], e3⟩
        · exact Or.inr ⟨by simpa [rowLt] using h1, a :: p, c, d, s, t, by simp [e1], by simp [e2], e3⟩
      · rcases lt_or_gt_of_ne hab with hlt | hlt
        · cases reverse
          · exact Or.inl ⟨by simp [rowLt, hab, hlt], [], a, b, v, w, rfl, rfl, by simpa [Ahead] using hlt⟩
          · exact Or.inr ⟨by simp [rowLt, hab, not_lt.mpr hlt.le], [], b, a, w, v, rfl, rfl, by simpa [Ahead] using hlt⟩
        · cases reverse
          · exact Or.inr ⟨by simp [rowLt, hab, not_lt.mpr (le_of_lt hlt)], [], b, a, w, v, rfl, rfl,
              by simpa [Ahead] using hlt⟩
          · exact Or.inl ⟨by simp only [rowLt, if_neg hab]; simpa using hlt, [], a, b, v, w, rfl, rfl,
              by simpa [Ahead] using hlt⟩

theorem dictBefore_asymm (reverse : Bool) (v w : List α) (h1 : DictBefore reverse v w) (h2 : DictBefore reverse w v) :
    False := by
  obtain ⟨p, a, b, s, t, rfl, rfl, h3⟩ := h1
  obtain ⟨q, c, d, s', t', e1, e2, h4⟩ := h2
  induction p generalizing q with
  | nil =>
    cases q with
    | nil =>
      simp at e1 e2
      obtain ⟨rfl, _⟩ := e1
      obtain ⟨rfl, _⟩ := e2
      unfold Ahead at h3 h4
      cases reverse
      · simp at h3 h4; exact absurd h3 (not_lt.mpr h4.le)
      · simp at h3 h4; exact absurd h3 (not_lt.mpr h4.le)
    | cons x q =>
      simp at e1 e2
      obtain ⟨rfl, _⟩ := e1
      obtain ⟨rfl, _⟩ := e2
      unfold Ahead at h3
      cases reverse <;> simp at h3
  | cons x p ih =>
    cases q with
    | nil =>
      simp at e1 e2
      obtain ⟨rfl, _⟩ := e1
      obtain ⟨rfl, _⟩ := e2
      unfold Ahead at h4
      cases reverse <;> simp at h4
    | cons y q =>
      simp only [List.cons_append, List.cons.injEq] at e1 e2
      exact ih q e1.2 e2.2

theorem ahead_trans {reverse : Bool} {a b c : α} (h1 : Ahead reverse a b) (h2 : Ahead reverse b c) : Ahead reverse a c := by
  unfold Ahead at *
  cases reverse
  · simp at *; exact lt_trans h1 h2
  · simp at *; exact lt_trans h2 h1

theorem dictBefore_trans (reverse : Bool) (u v w : List α) (h1 : DictBefore reverse u v) (h2 : DictBefore reverse v w) :
    DictBefore reverse u w := by
  obtain ⟨p, a, b, s, t, rfl, rfl, h3⟩ := h1
  obtain ⟨q, c, d, s', t', e1, rfl, h4⟩ := h2
  induction p generalizing q with
  | nil =>
    cases q with
    | nil =>
      simp at e1
      obtain ⟨rfl, _⟩ := e1
      exact ⟨[], a, d, s, t', rfl, rfl, ahead_trans h3 h4⟩
    | cons x q =>
      simp at e1
      obtain ⟨rfl, _⟩ := e1
      exact ⟨[], a, b, s, q ++ d :: t', rfl, rfl, h3⟩
  | cons x p ih =>
    cases q with
    | nil =>
      simp at e1
      obtain ⟨rfl, rfl⟩ := e1
      exact ⟨[], x, d, p ++ a :: s, t', rfl, rfl, h4⟩
    | cons y q =>
      simp only [List.cons_append, List.cons.injEq] at e1
      obtain ⟨rfl, e1⟩ := e1
      obtain ⟨p', a', b', s'', t'', e2, e3, h5⟩ := ih q e1
      exact ⟨x :: p', a', b', s'', t'', by simp [e2], by simp [e3], h5⟩

/-- Insertion sort on pairwise comparable rows. -/
theorem insertionSort_rows (reverse : Bool) (y : List (List α)) (hy : y.Pairwise fun v w => comparable v w = true) :
    (y.insertionSort (fun v w => rowLt reverse w v ≠ .ok true)).Pairwise (DictBefore reverse) := by
  have insert : ∀ (v : List α) (l : List (List α)), (∀ w ∈ l, comparable v w = true) → l.Pairwise (DictBefore reverse) →
      (l.orderedInsert (fun v w => rowLt reverse w v ≠ .ok true) v).Pairwise (DictBefore reverse) := by
    intro v l hc hl
    induction l with
    | nil => simp
    | cons w l ih =>
      rw [List.pairwise_cons] at hl
      have hcw : comparable w v = true := by rw [comparable_comm]; exact hc w (by simp)
      rw [List.orderedInsert]
      rcases rowLt_spec reverse w v hcw with ⟨h1, h2⟩ | ⟨h1, h2⟩
      · rw [if_neg (by simp [h1]), List.pairwise_cons]
        refine ⟨?_, ih (fun u hu => hc u (by simp [hu])) hl.2⟩
        intro u hu
        rcases List.mem_cons.mp ((List.perm_orderedInsert _ v l).mem_iff.mp hu) with rfl | hu
        · exact h2
        · exact hl.1 u hu
      · rw [if_pos (by simp [h1]), List.pairwise_cons]
        refine ⟨?_, List.pairwise_cons.mpr hl⟩
        intro u hu
        rcases List.mem_cons.mp hu with rfl | hu
        · exact h2
        · exact dictBefore_trans _ _ _ _ h2 (hl.1 u hu)
  induction y with
  | nil => simp
  | cons v y ih =>
    rw [List.pairwise_cons] at hy
    rw [List.insertionSort_cons]
    refine insert v _ ?_ (ih hy.2)
    intro w hw
    exact hy.1 w ((List.perm_insertionSort _ y).mem_iff.mp hw)

end OpenML.Sort2D
