import Verif.Model.PQueue
import Mathlib.Data.List.Perm.Basic
import Mathlib.Data.List.Perm.Subperm
import Mathlib.Order.Basic

namespace OpenML

variable {E κ : Type} [LinearOrder κ] (key : E → κ)

/-- `H` holds the `k` elements of `A` with the smallest keys. -/
def IsKSmallest (k : Nat) (H A : List E) : Prop :=
  H.length = k ∧ ∃ D, (H ++ D).Perm A ∧ ∀ h ∈ H, ∀ d ∈ D, key h ≤ key d

variable {key}

theorem IsKSmallest.perm {k : Nat} {H H' A A' : List E} (h : IsKSmallest key k H A) (hH : H.Perm H') (hA : A.Perm A') :
    IsKSmallest key k H' A' := by
  obtain ⟨h1, D, h2, h3⟩ := h
  exact ⟨by rw [← hH.length_eq, h1], D, ((hH.symm.append_right D).trans h2).trans hA,
    fun x hx d hd => h3 x (hH.mem_iff.mpr hx) d hd⟩

/-- If `A` has `k` elements with key at most `r`, the `k` smallest have key at most `r`. -/
theorem IsKSmallest.le_of_many {k : Nat} {H A B C : List E} (h : IsKSmallest key k H A) (hB : (B ++ C).Perm A)
    (hk : k ≤ B.length) (r : κ) (hr : ∀ b ∈ B, key b ≤ r) : ∀ x ∈ H, key x ≤ r := by
  intro x hx
  by_contra hlt
  rw [not_le] at hlt
  obtain ⟨h1, D, h2, h3⟩ := h
  let p : E → Bool := fun e => decide (key e ≤ r)
  have c1 : (H ++ D).countP p = (B ++ C).countP p := (h2.trans hB.symm).countP_eq p
  have cD : D.countP p = 0 := by
    rw [List.countP_eq_zero]
    intro d hd
    simp only [p, decide_eq_true_eq, not_le]
    exact lt_of_lt_of_le hlt (h3 x hx d hd)
  have cB : B.countP p = B.length := by
    rw [List.countP_eq_length]
    intro b hb
    simpa [p] using hr b hb
  have cH : H.countP p < H.length := by
    rcases Nat.lt_or_ge (H.countP p) H.length with h | h
    · exact h
    · exfalso
      have : H.countP p = H.length := le_antisymm List.countP_le_length h
      have := List.countP_eq_length.mp this x hx
      simp only [p, decide_eq_true_eq] at this
      exact absurd this (not_le.mpr hlt)
  rw [List.countP_append, List.countP_append, cD, cB] at c1
  omega

theorem IsKSmallest.add_large {k : Nat} {H A B : List E} (h : IsKSmallest key k H A)
    (hB : ∀ x ∈ H, ∀ b ∈ B, key x ≤ key b) : IsKSmallest key k H (A ++ B) := by
  obtain ⟨h1, D, h2, h3⟩ := h
  refine ⟨h1, D ++ B, ?_, ?_⟩
  · rw [← List.append_assoc]; exact h2.append_right B
  · intro x hx d hd
    rcases List.mem_append.mp hd with hd | hd
    · exact h3 x hx d hd
    · exact hB x hx d hd

theorem IsKSmallest.push_pop {Q : PQueue E} (hQ : Q.Lawful key) {k : Nat} {h : Q.σ} {A : List E}
    (hk : IsKSmallest key k (Q.elems h) A) (e : E) :
    k < (Q.elems (Q.push h e)).length ∧ IsKSmallest key k (Q.elems (Q.pop (Q.push h e))) (e :: A) := by
  obtain ⟨h1, D, h2, h3⟩ := hk
  have hp := hQ.elems_push h e
  have hl : (Q.elems (Q.push h e)).length = k + 1 := by rw [hp.length_eq, List.length_cons, h1]
  obtain ⟨m, hm, hmax, hperm⟩ := hQ.top_some (Q.push h e) (by intro h0; rw [h0] at hl; simp at hl)
  refine ⟨by omega, ?_, m :: D, ?_, ?_⟩
  · have := hperm.length_eq
    rw [List.length_cons, hl] at this
    omega
  · have e1 := (List.perm_middle (a := m) (l₁ := Q.elems (Q.pop (Q.push h e))) (l₂ := D))
    refine e1.trans (((hperm.trans hp).append_right D).trans ?_)
    exact h2.cons e
  · intro x hx d hd
    have hxm : x ∈ Q.elems (Q.push h e) := hperm.mem_iff.mp (by simp [hx])
    rcases List.mem_cons.mp hd with rfl | hd
    · exact hmax x hxm
    · have hm' : m ∈ e :: Q.elems h := (hperm.trans hp).mem_iff.mp (by simp)
      rcases List.mem_cons.mp hm' with rfl | hmH
      · have := (List.perm_cons m).mp (hperm.trans hp)
        exact h3 x (this.mem_iff.mp hx) d hd
      · exact (hmax x hxm).trans (h3 m hmH d hd)

theorem extractMax_spec (key : E → κ) (l : List E) (hl : l ≠ []) :
    ∃ m r, extractMax key l = some (m, r) ∧ (∀ x ∈ l, key x ≤ key m) ∧ (m :: r).Perm l := by
  induction l with
  | nil => exact absurd rfl hl
  | cons e l ih =>
    by_cases h0 : l = []
    · subst h0; exact ⟨e, [], rfl, by simp, List.Perm.refl _⟩
    · obtain ⟨m, r, h1, h2, h3⟩ := ih h0
      by_cases hme : key m ≤ key e
      · refine ⟨e, l, by simp [extractMax, h1, hme], ?_, List.Perm.refl _⟩
        intro x hx
        rcases List.mem_cons.mp hx with rfl | hx
        · exact le_refl _
        · exact (h2 x hx).trans hme
      · refine ⟨m, e :: r, by simp [extractMax, h1, hme], ?_, ?_⟩
        · intro x hx
          rcases List.mem_cons.mp hx with rfl | hx
          · exact (not_le.mp hme).le
          · exact h2 x hx
        · exact (List.Perm.swap e m r).trans (h3.cons e)

theorem listQueue_lawful (key : E → κ) : (listQueue key).Lawful key where
  elems_empty := rfl
  elems_push _ _ := List.Perm.refl _
  top_none s h := by
    have h : s = [] := h
    subst h
    rfl
  top_some s h := by
    obtain ⟨m, r, h1, h2, h3⟩ := extractMax_spec key s h
    refine ⟨m, by simp [listQueue, h1], h2, ?_⟩
    simpa [listQueue, h1] using h3

end OpenML
