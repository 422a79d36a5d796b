import Verif.Model.Stats
import Verif.Spec.Stats
import Verif.Lemmas.DMat
import Mathlib.Tactic.Ring
import Mathlib.Tactic.FieldSimp
import Mathlib.Tactic.Linarith
import Mathlib.Algebra.Order.BigOperators.Group.List
import Mathlib.Algebra.BigOperators.Ring.List

/-!
# Lemmas about the statistics
-/

set_option linter.unusedSectionVars false

namespace OpenML.Stats
open Spec

variable {α : Type} [Field α] [LinearOrder α] [IsStrictOrderedRing α]

theorem length_pos_cast {l : List α} (h : l ≠ []) : (0 : α) < (l.length : α) :=
  Nat.cast_pos.mpr (List.length_pos_iff.mpr h)

theorem sum_sq_dev (l : List α) (c : α) :
    (l.map fun a => (a - c) ^ 2).sum = (l.map fun a => a * a).sum - 2 * c * l.sum + (l.length : α) * c ^ 2 := by
  induction l with
  | nil => simp
  | cons a l ih => simp only [List.map_cons, List.sum_cons, ih, List.length_cons, Nat.cast_succ]; ring

theorem varLine_eq {l : List α} (h : l ≠ []) : varLine l = some (meanSquaredDeviation l) := by
  have hp := length_pos_cast h
  have h2 : (l.map fun a => a * a) ≠ [] := by simpa using h
  simp only [varLine, meanLine, h, h2, if_false, Option.bind_eq_bind, Option.bind_some, Option.some.injEq,
    meanSquaredDeviation, average, sum_sq_dev, List.length_map]
  field_simp
  ring

theorem meanSquaredDeviation_nonneg (l : List α) : 0 ≤ meanSquaredDeviation l := by
  refine div_nonneg (List.sum_nonneg ?_) (Nat.cast_nonneg _)
  intro a ha
  obtain ⟨b, -, rfl⟩ := List.mem_map.mp ha
  positivity

theorem nth_sorted {nth : List α → Nat → List α} (hn : IsNthElement nth) (l : List α) (k : Nat) (hk : k < l.length) :
    (nth l k)[k]? = (l.insertionSort (· ≤ ·))[k]? := by
  have hp := hn.perm l k hk
  have hlen : (nth l k).length = l.length := hp.length_eq
  have hkb : k < (nth l k).length := by omega
  obtain ⟨v, hv⟩ : ∃ v, (nth l k)[k]? = some v := ⟨_, List.getElem?_eq_getElem hkb⟩
  have hb1 := fun i a hi ha => hn.before l k i a v hk hi ha hv
  have hb2 := fun i a hi ha => hn.behind l k i a v hk hi ha hv
  generalize nth l k = b at *
  have hsplit : b = b.take k ++ v :: b.drop (k + 1) := by
    have := List.getElem?_eq_some_iff.mp hv
    obtain ⟨h1, h2⟩ := this
    conv_lhs => rw [← List.take_append_drop k b, List.drop_eq_getElem_cons h1, h2]
  have htake : ∀ a ∈ b.take k, a ≤ v := by
    intro a ha
    obtain ⟨i, hi⟩ := List.getElem?_of_mem ha
    rw [List.getElem?_take] at hi
    split at hi
    · exact hb1 i a ‹_› hi
    · cases hi
  have hdrop : ∀ a ∈ b.drop (k + 1), v ≤ a := by
    intro a ha
    obtain ⟨i, hi⟩ := List.getElem?_of_mem ha
    rw [List.getElem?_drop] at hi
    exact hb2 _ a (by omega) hi
  have hs : ((b.take k).insertionSort (· ≤ ·) ++ v :: (b.drop (k + 1)).insertionSort (· ≤ ·)) =
      l.insertionSort (· ≤ ·) := by
    apply List.Perm.eq_of_pairwise (le := (· ≤ ·))
    · intro a b _ _ h1 h2; exact le_antisymm h1 h2
    · rw [List.pairwise_append]
      refine ⟨List.pairwise_insertionSort _ _, ?_, ?_⟩
      · rw [List.pairwise_cons]
        refine ⟨fun a ha => hdrop a ?_, List.pairwise_insertionSort _ _⟩
        rwa [(List.perm_insertionSort _ _).mem_iff] at ha
      · intro a ha c hc
        rw [(List.perm_insertionSort _ _).mem_iff] at ha
        have h1 := htake a ha
        rcases List.mem_cons.mp hc with rfl | hc
        · exact h1
        · rw [(List.perm_insertionSort _ _).mem_iff] at hc
          exact h1.trans (hdrop c hc)
    · exact List.pairwise_insertionSort _ _
    · refine (List.Perm.append (List.perm_insertionSort _ _) ((List.perm_insertionSort _ _).cons v)).trans ?_
      rw [← hsplit]
      exact hp.trans (List.perm_insertionSort _ _).symm
  rw [hv, ← hs, List.getElem?_append_right (by simp)]
  simp [List.length_take, Nat.min_eq_left hkb.le]

theorem filter_lt_le (s : List α) (k : Nat) (m : α) (h : ∀ a ∈ s.drop k, m ≤ a) :
    (s.filter fun a => a < m).length ≤ k := by
  have : (s.drop k).filter (fun a => decide (a < m)) = [] := by
    rw [List.filter_eq_nil_iff]
    intro a ha
    simpa using h a ha
  rw [← List.take_append_drop k s, List.filter_append, this, List.append_nil]
  exact (List.length_filter_le _ _).trans (by simp)

theorem filter_gt_le (s : List α) (k : Nat) (m : α) (h : ∀ a ∈ s.take k, a ≤ m) :
    (s.filter fun a => m < a).length ≤ s.length - k := by
  have : (s.take k).filter (fun a => decide (m < a)) = [] := by
    rw [List.filter_eq_nil_iff]
    intro a ha
    simpa using h a ha
  conv_lhs => rw [← List.take_append_drop k s, List.filter_append, this, List.nil_append]
  exact (List.length_filter_le _ _).trans (by simp)

/-- The middle of the sorted line, or the mean of the two middle entries. -/
def middle (s : List α) : Option α :=
  if s.length % 2 = 0 then
    match s[s.length / 2]?, s[s.length / 2 - 1]? with
    | some a, some b => some ((a + b) / 2)
    | _, _ => none
  else s[s.length / 2]?

theorem medianLine_eq {nth : List α → Nat → List α} (hn : IsNthElement nth) (l : List α) (h : l ≠ []) :
    ∃ m, medianLine nth l = .ok m ∧ middle (l.insertionSort (· ≤ ·)) = some m := by
  have hpos : 0 < l.length := List.length_pos_iff.mpr h
  have hk : l.length / 2 < l.length := by omega
  have hlen : (l.insertionSort (· ≤ ·)).length = l.length := List.length_insertionSort _ _
  have h1 := nth_sorted hn l _ hk
  have hp := hn.perm l _ hk
  obtain ⟨v, hv⟩ : ∃ v, (l.insertionSort (· ≤ ·))[l.length / 2]? = some v :=
    ⟨_, List.getElem?_eq_getElem (by omega)⟩
  rw [hv] at h1
  by_cases he : l.length % 2 = 0
  · have hk2 : l.length / 2 - 1 < (nth l (l.length / 2)).length := by rw [hp.length_eq]; omega
    have h2 := nth_sorted hn (nth l (l.length / 2)) _ hk2
    have hss : (nth l (l.length / 2)).insertionSort (· ≤ ·) = l.insertionSort (· ≤ ·) := by
      apply List.Perm.eq_of_pairwise (le := (· ≤ ·))
      · intro a b _ _ h1 h2; exact le_antisymm h1 h2
      · exact List.pairwise_insertionSort _ _
      · exact List.pairwise_insertionSort _ _
      · exact (List.perm_insertionSort _ _).trans (hp.trans (List.perm_insertionSort _ _).symm)
    rw [hss] at h2
    obtain ⟨w, hw⟩ : ∃ w, (l.insertionSort (· ≤ ·))[l.length / 2 - 1]? = some w :=
      ⟨_, List.getElem?_eq_getElem (by omega)⟩
    rw [hw] at h2
    refine ⟨(v + w) / 2, ?_, ?_⟩
    · simp [medianLine, readAt, h1, h2, he]
    · simp only [middle, hlen, he, if_true, hv, hw]
  · refine ⟨v, ?_, ?_⟩
    · simp [medianLine, readAt, h1, he]
    · simp [middle, hlen, he, hv]

theorem sorted_drop {s : List α} (hs : s.Pairwise (· ≤ ·)) {k : Nat} {v : α} (hv : s[k]? = some v) :
    ∀ a ∈ s.drop k, v ≤ a := by
  intro a ha
  obtain ⟨i, hi⟩ := List.getElem?_of_mem ha
  rw [List.getElem?_drop] at hi
  obtain ⟨h1, rfl⟩ := List.getElem?_eq_some_iff.mp hi
  obtain ⟨h2, rfl⟩ := List.getElem?_eq_some_iff.mp hv
  rcases Nat.eq_zero_or_pos i with rfl | h
  · simp
  · exact List.pairwise_iff_getElem.mp hs _ _ h2 h1 (by omega)

theorem sorted_take {s : List α} (hs : s.Pairwise (· ≤ ·)) {k : Nat} {v : α} (hv : s[k]? = some v) :
    ∀ a ∈ s.take (k + 1), a ≤ v := by
  intro a ha
  obtain ⟨i, hi⟩ := List.getElem?_of_mem ha
  rw [List.getElem?_take] at hi
  split at hi
  · obtain ⟨h1, rfl⟩ := List.getElem?_eq_some_iff.mp hi
    obtain ⟨h2, rfl⟩ := List.getElem?_eq_some_iff.mp hv
    rcases Nat.eq_or_lt_of_le (show i ≤ k by omega) with rfl | h
    · exact le_rfl
    · exact List.pairwise_iff_getElem.mp hs _ _ h1 h2 h
  · cases hi

theorem middle_isMedian {l : List α} {m : α} (hm : middle (l.insertionSort (· ≤ ·)) = some m) : IsMedian l m := by
  have hs : (l.insertionSort (· ≤ ·)).Pairwise (· ≤ ·) := List.pairwise_insertionSort _ _
  have hp : (l.insertionSort (· ≤ ·)).Perm l := List.perm_insertionSort _ _
  have e1 : (l.filter fun a => a < m).length = ((l.insertionSort (· ≤ ·)).filter fun a => a < m).length :=
    ((hp.filter _).length_eq).symm
  have e2 : (l.filter fun a => m < a).length = ((l.insertionSort (· ≤ ·)).filter fun a => m < a).length :=
    ((hp.filter _).length_eq).symm
  have e3 : l.length = (l.insertionSort (· ≤ ·)).length := hp.length_eq.symm
  unfold IsMedian
  rw [e1, e2, e3]
  generalize l.insertionSort (· ≤ ·) = s at *
  unfold middle at hm
  split at hm
  · next he =>
    split at hm
    · next a b ha hb =>
      cases hm
      have hpos : 0 < s.length := by
        rcases Nat.eq_zero_or_pos s.length with h0 | h0
        · rw [List.eq_nil_of_length_eq_zero h0] at ha; simp at ha
        · exact h0
      have hba : b ≤ a := by
        refine sorted_drop hs hb a ?_
        exact List.mem_of_getElem? (i := 1) (by rw [List.getElem?_drop, show s.length / 2 - 1 + 1 = s.length / 2 by omega]; exact ha)
      have h1 := filter_lt_le s (s.length / 2) ((a + b) / 2) fun c hc => by
        have := sorted_drop hs ha c hc; linarith
      have h2 := filter_gt_le s (s.length / 2 - 1 + 1) ((a + b) / 2) fun c hc => by
        have := sorted_take hs hb c hc; linarith
      constructor <;> omega
    · cases hm
  · next he =>
    have h1 := filter_lt_le s (s.length / 2) m (sorted_drop hs hm)
    have h2 := filter_gt_le s (s.length / 2 + 1) m (sorted_take hs hm)
    constructor <;> omega

theorem length_partialSums (acc : α) (l : List α) : (partialSums acc l).length = l.length := by
  induction l generalizing acc with
  | nil => rfl
  | cons a l ih => simp [partialSums, ih]

theorem getElem?_partialSums (acc : α) (l : List α) (k : Nat) (hk : k < l.length) :
    (partialSums acc l)[k]? = some (acc + (l.take (k + 1)).sum) := by
  induction l generalizing acc k with
  | nil => simp at hk
  | cons a l ih =>
    cases k with
    | zero => simp [partialSums]
    | succ k =>
      simp only [partialSums, List.getElem?_cons_succ, List.take_succ_cons, List.sum_cons]
      rw [ih _ _ (by simpa using hk)]
      congr 1
      ring

/-- Invariant of the counting loop after the prefix `p`. -/
def ModeInv (p : List α) (best : Option α) (m : Nat) : Prop :=
  (∀ b, p.count b ≤ m) ∧ ((p = [] ∧ best = none ∧ m = 0) ∨
    ∃ a q r, best = some a ∧ p = q ++ a :: r ∧ q.count a + 1 = m ∧ ∀ b, q.count b < m)

theorem modeLoop_spec (l p : List α) (best : Option α) (m : Nat) (h : ModeInv p best m) :
    ModeInv (p ++ l) (modeLoop l p.reverse best m).1 (modeLoop l p.reverse best m).2 := by
  induction l generalizing p best m with
  | nil => simpa [modeLoop] using h
  | cons a l ih =>
    obtain ⟨h1, h2⟩ := h
    have hrev : a :: p.reverse = (p ++ [a]).reverse := by simp
    have hcat : p ++ a :: l = (p ++ [a]) ++ l := by simp
    simp only [modeLoop, List.count_reverse]
    split
    · next hlt =>
      rw [hrev, hcat]
      apply ih
      have hm : m = p.count a := le_antisymm (by omega) (h1 a)
      refine ⟨?_, Or.inr ⟨a, p, [], rfl, rfl, rfl, fun b => by have := h1 b; omega⟩⟩
      intro b
      rw [List.count_append, List.count_singleton]
      have := h1 b
      split <;> omega
    · next hlt =>
      rw [hrev, hcat]
      apply ih
      refine ⟨?_, ?_⟩
      · intro b
        rw [List.count_append, List.count_singleton]
        split
        · next hab => simp at hab; subst hab; omega
        · have := h1 b; omega
      · rcases h2 with ⟨rfl, -, rfl⟩ | ⟨c, q, r, hb, hpq, hq1, hq2⟩
        · simp at hlt
        · exact Or.inr ⟨c, q, r ++ [a], hb, by simp [hpq], hq1, hq2⟩

theorem modeInv_nil : ModeInv ([] : List α) none 0 := ⟨by simp, Or.inl ⟨rfl, rfl, rfl⟩⟩

theorem foldl_min_spec (l : List α) (a : α) : l.foldl min a ≤ a ∧ (∀ b ∈ l, l.foldl min a ≤ b) ∧
    (l.foldl min a = a ∨ l.foldl min a ∈ l) := by
  induction l generalizing a with
  | nil => simp
  | cons b l ih =>
    obtain ⟨h1, h2, h3⟩ := ih (min a b)
    simp only [List.foldl_cons]
    refine ⟨h1.trans (min_le_left _ _), ?_, ?_⟩
    · intro c hc
      rcases List.mem_cons.mp hc with rfl | hc
      · exact h1.trans (min_le_right _ _)
      · exact h2 c hc
    · rcases h3 with h3 | h3
      · rcases min_choice a b with h | h
        · left; rw [h3, h]
        · right; rw [h3, h]; simp
      · right; simp [h3]

end OpenML.Stats
