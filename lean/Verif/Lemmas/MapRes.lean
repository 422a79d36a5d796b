import Verif.Model.Eigen
import Mathlib.Data.List.Forall2

/-!
# Lemmas about element-wise evaluation
-/

namespace OpenML

theorem mapRes_ok_iff {β γ : Type} (f : β → Res γ) (l : List β) (bs : List γ) :
    mapRes f l = .ok bs ↔ List.Forall₂ (fun a b => f a = .ok b) l bs := by
  induction l generalizing bs with
  | nil =>
    simp only [mapRes, List.forall₂_nil_left_iff]
    exact ⟨fun h => (Res.ok.inj h).symm, fun h => by rw [h]⟩
  | cons a l ih =>
    simp only [mapRes, Res.bind_eq_ok]
    constructor
    · rintro ⟨b, h1, bs', h2, h3⟩
      cases h3
      exact .cons h1 ((ih bs').mp h2)
    · intro h
      cases h with
      | @cons _ b _ bs' h1 h2 => exact ⟨b, h1, bs', (ih bs').mpr h2, rfl⟩

theorem mapRes_ub {β γ : Type} (f : β → Res γ) (l : List β) (h : ∀ a ∈ l, (∃ b, f a = .ok b) ∨ f a = .ub)
    (hu : ∃ a ∈ l, f a = .ub) : mapRes f l = .ub := by
  induction l with
  | nil => obtain ⟨a, ha, -⟩ := hu; simp at ha
  | cons a l ih =>
    rcases h a (by simp) with ⟨b, hb⟩ | hb
    · have hu' : ∃ a ∈ l, f a = .ub := by
        obtain ⟨q, hq, hqu⟩ := hu
        rcases List.mem_cons.mp hq with rfl | hq
        · rw [hb] at hqu; cases hqu
        · exact ⟨q, hq, hqu⟩
      simp [mapRes, hb, ih (fun q hq => h q (by simp [hq])) hu']
    · simp [mapRes, hb]

theorem mapRes_map {β γ δ : Type} (f : γ → Res δ) (g : β → γ) (l : List β) : mapRes f (l.map g) = mapRes (f ∘ g) l := by
  induction l with
  | nil => rfl
  | cons a l ih => simp [mapRes, ih]

end OpenML
