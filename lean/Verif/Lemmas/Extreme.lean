import Verif.Model.Eigen
import Verif.Spec.Extreme

namespace OpenML
open Spec

variable {α : Type} [LinearOrder α]

/-- Invariant of the visitor for the maximum: after the prefix `pre`, `best` at `bi` is its first maximum. -/
theorem visitFrom_max (l pre : List α) (best : α) (bi : Nat) (hbi : pre[bi]? = some best)
    (hpre : ∀ q w, pre[q]? = some w → w ≤ best ∧ (w = best → bi ≤ q)) :
    IsFirstMax (pre ++ l) (visitFrom (fun x b => decide (b < x)) l best bi pre.length) := by
  induction l generalizing pre best bi with
  | nil => exact ⟨best, by simpa [visitFrom] using hbi, by simpa [visitFrom] using hpre⟩
  | cons a l ih =>
    have hlt : bi < pre.length := (List.getElem?_eq_some_iff.mp hbi).1
    have hstep : ∀ b' bi', (pre ++ [a])[bi']? = some b' →
        (∀ q w, (pre ++ [a])[q]? = some w → w ≤ b' ∧ (w = b' → bi' ≤ q)) →
        IsFirstMax (pre ++ a :: l) (visitFrom (fun x b => decide (b < x)) l b' bi' (pre.length + 1)) := by
      intro b' bi' h1 h2
      have := ih (pre ++ [a]) b' bi' h1 h2
      simpa using this
    have hsplit : ∀ q w, (pre ++ [a])[q]? = some w → pre[q]? = some w ∨ (q = pre.length ∧ w = a) := by
      intro q w hq
      rcases Nat.lt_trichotomy q pre.length with h | h | h
      · left; rwa [List.getElem?_append_left h] at hq
      · right; subst h; simp at hq; exact ⟨rfl, hq.symm⟩
      · rw [List.getElem?_eq_none (by simp; omega)] at hq; simp at hq
    unfold visitFrom
    by_cases hab : best < a
    · rw [if_pos (by simpa using hab)]
      refine hstep a pre.length (by simp) ?_
      intro q w hq
      rcases hsplit q w hq with h | ⟨rfl, rfl⟩
      · have := (hpre q w h).1
        have hwa : w < a := lt_of_le_of_lt this hab
        exact ⟨hwa.le, fun e => absurd e hwa.ne⟩
      · exact ⟨le_rfl, fun _ => le_rfl⟩
    · rw [if_neg (by simpa using hab)]
      refine hstep best bi (by rw [List.getElem?_append_left hlt]; exact hbi) ?_
      intro q w hq
      rcases hsplit q w hq with h | ⟨rfl, rfl⟩
      · exact hpre q w h
      · exact ⟨not_lt.mp hab, fun _ => hlt.le⟩

theorem visitFrom_min (l pre : List α) (best : α) (bi : Nat) (hbi : pre[bi]? = some best)
    (hpre : ∀ q w, pre[q]? = some w → best ≤ w ∧ (w = best → bi ≤ q)) :
    IsFirstMin (pre ++ l) (visitFrom (fun x b => decide (x < b)) l best bi pre.length) := by
  induction l generalizing pre best bi with
  | nil => exact ⟨best, by simpa [visitFrom] using hbi, by simpa [visitFrom] using hpre⟩
  | cons a l ih =>
    have hlt : bi < pre.length := (List.getElem?_eq_some_iff.mp hbi).1
    have hstep : ∀ b' bi', (pre ++ [a])[bi']? = some b' →
        (∀ q w, (pre ++ [a])[q]? = some w → b' ≤ w ∧ (w = b' → bi' ≤ q)) →
        IsFirstMin (pre ++ a :: l) (visitFrom (fun x b => decide (x < b)) l b' bi' (pre.length + 1)) := by
      intro b' bi' h1 h2
      have := ih (pre ++ [a]) b' bi' h1 h2
      simpa using this
    have hsplit : ∀ q w, (pre ++ [a])[q]? = some w → pre[q]? = some w ∨ (q = pre.length ∧ w = a) := by
      intro q w hq
      rcases Nat.lt_trichotomy q pre.length with h | h | h
      · left; rwa [List.getElem?_append_left h] at hq
      · right; subst h; simp at hq; exact ⟨rfl, hq.symm⟩
      · rw [List.getElem?_eq_none (by simp; omega)] at hq; simp at hq
    unfold visitFrom
    by_cases hab : a < best
    · rw [if_pos (by simpa using hab)]
      refine hstep a pre.length (by simp) ?_
      intro q w hq
      rcases hsplit q w hq with h | ⟨rfl, rfl⟩
      · have := (hpre q w h).1
        have hwa : a < w := lt_of_lt_of_le hab this
        exact ⟨hwa.le, fun e => absurd e hwa.ne'⟩
      · exact ⟨le_rfl, fun _ => le_rfl⟩
    · rw [if_neg (by simpa using hab)]
      refine hstep best bi (by rw [List.getElem?_append_left hlt]; exact hbi) ?_
      intro q w hq
      rcases hsplit q w hq with h | ⟨rfl, rfl⟩
      · exact hpre q w h
      · exact ⟨not_lt.mp hab, fun _ => hlt.le⟩

theorem maxCoeffIdx_spec (l : List α) (hl : l ≠ []) : ∃ p, maxCoeffIdx l = .ok p ∧ IsFirstMax l p := by
  cases l with
  | nil => exact absurd rfl hl
  | cons a l =>
    refine ⟨_, rfl, ?_⟩
    have := visitFrom_max l [a] a 0 (by simp) (by
      intro q w hq
      cases q with
      | zero => simp at hq; subst hq; exact ⟨le_rfl, fun _ => le_rfl⟩
      | succ q => simp at hq)
    simpa using this

theorem minCoeffIdx_spec (l : List α) (hl : l ≠ []) : ∃ p, minCoeffIdx l = .ok p ∧ IsFirstMin l p := by
  cases l with
  | nil => exact absurd rfl hl
  | cons a l =>
    refine ⟨_, rfl, ?_⟩
    have := visitFrom_min l [a] a 0 (by simp) (by
      intro q w hq
      cases q with
      | zero => simp at hq; subst hq; exact ⟨le_rfl, fun _ => le_rfl⟩
      | succ q => simp at hq)
    simpa using this

theorem IsFirstMax.unique {l : List α} {p q : Nat} (h1 : IsFirstMax l p) (h2 : IsFirstMax l q) : p = q := by
  obtain ⟨v, hv, h1⟩ := h1
  obtain ⟨w, hw, h2⟩ := h2
  have hvw : v = w := le_antisymm (h2 p v hv).1 (h1 q w hw).1
  subst hvw
  exact le_antisymm ((h1 q v hw).2 rfl) ((h2 p v hv).2 rfl)

theorem IsFirstMin.unique {l : List α} {p q : Nat} (h1 : IsFirstMin l p) (h2 : IsFirstMin l q) : p = q := by
  obtain ⟨v, hv, h1⟩ := h1
  obtain ⟨w, hw, h2⟩ := h2
  have hvw : v = w := le_antisymm (h1 q w hw).1 (h2 p v hv).1
  subst hvw
  exact le_antisymm ((h1 q v hw).2 rfl) ((h2 p v hv).2 rfl)

end OpenML
