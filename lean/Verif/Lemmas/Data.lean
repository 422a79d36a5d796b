import Verif.Model.Data
import Verif.Lemmas.DMat
import Verif.Lemmas.Lists
import Mathlib.Data.List.Perm.Basic
import Mathlib.Data.List.Nodup

namespace OpenML.Data

theorem length_scatter {β : Type} (p : List Nat) (X acc : List β) : (scatter p X acc).length = acc.length := by
  induction p generalizing X acc with
  | nil => cases X <;> rfl
  | cons i p ih =>
    cases X with
    | nil => rfl
    | cons x X => simp [scatter, ih]

theorem scatter_untouched {β : Type} (p : List Nat) (X acc : List β) (j : Nat) (hj : j ∉ p) :
    (scatter p X acc)[j]? = acc[j]? := by
  induction p generalizing X acc with
  | nil => cases X <;> rfl
  | cons i p ih =>
    cases X with
    | nil => rfl
    | cons x X =>
      simp only [List.mem_cons, not_or] at hj
      simp only [scatter]
      rw [ih X (acc.set i x) hj.2, List.getElem?_set_ne (fun h => hj.1 h.symm)]

theorem scatter_at {β : Type} (p : List Nat) (X acc : List β) (hn : p.Nodup) (hp : ∀ i ∈ p, i < acc.length)
    (k j : Nat) (x : β) (hk : X[k]? = some x) (hj : p[k]? = some j) : (scatter p X acc)[j]? = some x := by
  induction p generalizing X acc k with
  | nil => simp at hj
  | cons i p ih =>
    cases X with
    | nil => simp at hk
    | cons a X =>
      have hn' := List.nodup_cons.mp hn
      simp only [scatter]
      cases k with
      | zero =>
        simp only [List.getElem?_cons_zero, Option.some.injEq] at hk hj
        subst hk hj
        rw [scatter_untouched _ _ _ _ hn'.1, List.getElem?_set_self (hp i (by simp))]
      | succ k =>
        exact ih X _ hn'.2 (fun m hm => by simpa using hp m (by simp [hm])) k (by simpa using hk) (by simpa using hj)

theorem scatter_perm {β : Type} (p : List Nat) (X : List β) (hp : p.Perm (List.range X.length)) :
    (scatter p X X).Perm X := by
  have hlen : p.length = X.length := by simpa using hp.length_eq
  have hn : p.Nodup := hp.nodup_iff.mpr List.nodup_range
  have hlt : ∀ i ∈ p, i < X.length := fun i hi => List.mem_range.mp (hp.mem_iff.mp hi)
  have h1 : p.filterMap ((scatter p X X)[·]?) = X := by
    apply List.ext_getElem?
    intro k
    rw [Lists.getElem?_filterMap_idx _ _ (by intro i hi; rw [length_scatter]; exact hlt i hi)]
    cases hk : X[k]? with
    | none =>
      rw [List.getElem?_eq_none (by rw [hlen]; exact List.getElem?_eq_none_iff.mp hk)]
      rfl
    | some x =>
      have hkl : k < X.length := (List.getElem?_eq_some_iff.mp hk).1
      obtain ⟨j, hj⟩ : ∃ j, p[k]? = some j := ⟨_, List.getElem?_eq_getElem (by omega)⟩
      rw [hj]
      exact scatter_at p X X hn hlt k j x hk hj
  have h2 : (List.range X.length).filterMap ((scatter p X X)[·]?) = scatter p X X := by
    have := Lists.filterMap_idx_range (scatter p X X)
    rwa [length_scatter] at this
  have h3 := hp.filterMap ((scatter p X X)[·]?)
  rw [h1, h2] at h3
  exact h3.symm

theorem scatter_zip {β γ : Type} (p : List Nat) (X : List β) (y : List γ) (a : List β) (b : List γ)
    (hxy : X.length = y.length) : scatter p (X.zip y) (a.zip b) = (scatter p X a).zip (scatter p y b) := by
  induction p generalizing X y a b with
  | nil => cases X <;> cases y <;> simp [scatter]
  | cons i p ih =>
    cases X with
    | nil => cases y with
      | nil => simp [scatter]
      | cons _ _ => simp at hxy
    | cons x X => cases y with
      | nil => simp at hxy
      | cons v y =>
        simp only [List.zip_cons_cons, scatter]
        rw [← ih X y _ _ (by simpa using hxy)]
        rw [Lists.zip_set]

end OpenML.Data
