import Verif.Lemmas.TransactionEncoder

/-!
# C19: `TransactionEncoder`
-/

namespace OpenML
open TransactionEncoder

/-- C19. There is one row per transaction; the columns are the distinct items in increasing order; the entry `(i, j)` is
stored iff the `j`-th item occurs in transaction `i`, it is stored once (positions strictly increase in row-major order)
and its value is the item. -/
theorem C19_encoder (X : List (List Nat)) :
    ∃ items : List Nat, items.Pairwise (· < ·) ∧ (∀ v, v ∈ items ↔ ∃ t ∈ X, v ∈ t) ∧
      (fitTransform X).nrows = X.length ∧ (fitTransform X).ncols = items.length ∧
      (fitTransform X).stored.Pairwise
        (fun a b => a.1.1 < b.1.1 ∨ (a.1.1 = b.1.1 ∧ a.1.2 < b.1.2)) ∧
      ∀ i j v, ((i, j), v) ∈ (fitTransform X).stored ↔ items[j]? = some v ∧ ∃ t, X[i]? = some t ∧ v ∈ t := by
  refine ⟨colsSet X, colsSet_sorted X, fun v => mem_colsSet, rfl, rfl, ?_, ?_⟩
  · rw [stored_eq]
    exact (tripletsFrom_sorted (colsSet_sorted X) X 0).imp fun h => by simpa [posLt] using h
  · intro i j v
    rw [stored_eq, mem_tripletsFrom]
    simp only [Nat.zero_le, true_and, Nat.sub_zero, find_colsMapFrom (colsSet_sorted X)]
    constructor
    · rintro ⟨t, h1, h2, h3⟩; exact ⟨h3, t, h1, h2⟩
    · rintro ⟨h3, t, h1, h2⟩; exact ⟨t, h1, h2, h3⟩

/-- C19, consequence: stored positions determine the item set of every transaction. -/
theorem C19_encoder_injective (X Y : List (List Nat)) (hitems : ∀ v, (∃ t ∈ X, v ∈ t) ↔ ∃ t ∈ Y, v ∈ t)
    (hpos : (fitTransform X).stored.map Prod.fst = (fitTransform Y).stored.map Prod.fst)
    (i : Nat) (s t : List Nat) (hs : X[i]? = some s) (ht : Y[i]? = some t) (v : Nat) : v ∈ s ↔ v ∈ t := by
  obtain ⟨cx, sx, mx, _, _, _, ex⟩ := C19_encoder X
  obtain ⟨cy, sy, my, _, _, _, ey⟩ := C19_encoder Y
  have hc : cx = cy := by
    have hn1 : cx.Nodup := sx.imp fun h => Nat.ne_of_lt h
    have hn2 : cy.Nodup := sy.imp fun h => Nat.ne_of_lt h
    have hp : cx.Perm cy := (List.perm_ext_iff_of_nodup hn1 hn2).mpr fun v => by rw [mx, my, hitems]
    exact hp.eq_of_pairwise (fun a b _ _ h1 h2 => by omega) sx sy
  subst hc
  have key : ∀ (A B : List (List Nat)) (a b : List Nat),
      (∀ i j v, ((i, j), v) ∈ (fitTransform A).stored ↔ cx[j]? = some v ∧ ∃ t, A[i]? = some t ∧ v ∈ t) →
      (∀ i j v, ((i, j), v) ∈ (fitTransform B).stored ↔ cx[j]? = some v ∧ ∃ t, B[i]? = some t ∧ v ∈ t) →
      (∀ v, v ∈ cx ↔ ∃ t ∈ A, v ∈ t) →
      (fitTransform A).stored.map Prod.fst = (fitTransform B).stored.map Prod.fst →
      A[i]? = some a → B[i]? = some b → v ∈ a → v ∈ b := by
    intro A B a b eA eB mA hp ha hb hv
    obtain ⟨j, hj⟩ := List.mem_iff_getElem?.mp ((mA v).mpr ⟨a, List.mem_of_getElem? ha, hv⟩)
    have h1 : ((i, j), v) ∈ (fitTransform A).stored := (eA i j v).mpr ⟨hj, a, ha, hv⟩
    have h2 : (i, j) ∈ (fitTransform B).stored.map Prod.fst := hp ▸ List.mem_map.mpr ⟨_, h1, rfl⟩
    obtain ⟨⟨⟨i', j'⟩, w⟩, h3, h4⟩ := List.mem_map.mp h2
    simp only [Prod.mk.injEq] at h4
    obtain ⟨rfl, rfl⟩ := h4
    obtain ⟨h5, t', h6, h7⟩ := (eB _ _ w).mp h3
    rw [hj] at h5
    rw [hb] at h6
    cases h5; cases h6
    exact h7
  exact ⟨key X Y s t ex ey mx hpos hs ht, key Y X t s ey ex my hpos.symm ht hs⟩

/-- C19, defect: reading the matrix by value loses item `0`; two different databases have the same dense matrix. -/
theorem C19_item_zero_lost :
    ∃ X Y : List (List Nat), X[0]? ≠ Y[0]? ∧ (fitTransform X).nrows = (fitTransform Y).nrows ∧
      (fitTransform X).ncols = (fitTransform Y).ncols ∧
      (∀ i j, i < 2 → j < 2 → (fitTransform X).coeff i j = (fitTransform Y).coeff i j) ∧
      ∃ v, v ∈ X[0]?.getD [] ∧ v ∉ Y[0]?.getD [] := by
  refine ⟨[[0, 1], [1]], [[1], [0, 1]], by decide, by decide, by decide, ?_, 0, by decide, by decide⟩
  have : ∀ i, i < 2 → ∀ j, j < 2 → (fitTransform [[0, 1], [1]]).coeff i j = (fitTransform [[1], [0, 1]]).coeff i j := by
    decide
  exact fun i j hi hj => this i hi j hj

example : fitTransform [[3, 1, 3], [], [2, 1]] = ⟨3, 3, [((0, 0), 1), ((0, 2), 3), ((2, 0), 1), ((2, 1), 2)]⟩ := by decide

end OpenML
