import Verif.Model.Spectral
import Verif.Spec.Spectral
import Verif.Lemmas.DMat
import Mathlib.Algebra.BigOperators.Fin
import Mathlib.Algebra.BigOperators.Field

/-!
# Spectral clustering (C113)
-/

namespace OpenML

open Spec Spectral
open scoped BigOperators

/-- C113: `fit_transform` fails on every input, whatever the constructor and the eigenvalue solver: nothing ever builds the
Laplacian. -/
theorem C113_fit_fails (solver : DMat ℝ → Option (DMat ℝ × DMat ℝ)) (X : DMat ℝ) :
    fitTransform solver construct X = .throw .invalidArgument := by
  unfold fitTransform eig construct
  rfl

namespace Spectral

theorem weight_comm (gamma : ℝ) (X : DMat ℝ) (i j : Nat) : weight gamma X i j = weight gamma X j i := by
  unfold weight
  congr 3
  rw [List.zipWith_comm]
  congr 1
  funext a b
  ring

theorem entryW_eq (gamma : ℝ) (X : DMat ℝ) (i j : Nat) : entryW gamma X i j = weight gamma X i j := by
  unfold entryW
  split
  · rfl
  · exact weight_comm gamma X j i

theorem col_getD (X : DMat ℝ) (hX : X.WF) (j : Nat) (hj : j < X.ncols) : X.col j = List.ofFn fun k : Fin X.nrows => tableEntry X.rows k j := by
  refine List.ext_getElem? fun k => ?_
  rw [DMat.getElem?_col hX hj, List.getElem?_ofFn]
  unfold tableEntry
  split <;> rename_i hk
  · have hk' : k < X.rows.length := hk
    have hjl : j < (X.rows[k]).length := by rw [hX _ (List.getElem_mem hk')]; exact hj
    simp [List.getD_eq_getElem?_getD, hk', hjl]
  · have hk' : X.rows.length ≤ k := not_lt.mp hk
    simp [hk']

theorem weight_eq (gamma : ℝ) (X : DMat ℝ) (hX : X.WF) (i j : Nat) (hi : i < X.ncols) (hj : j < X.ncols) :
    weight gamma X i j = similarity gamma (fun k : Fin X.nrows => tableEntry X.rows k i) fun k => tableEntry X.rows k j := by
  unfold weight similarity
  rw [col_getD X hX i hi, col_getD X hX j hj]
  have : List.zipWith (fun a b : ℝ => (a - b) ^ 2) (List.ofFn fun k : Fin X.nrows => tableEntry X.rows k i)
      (List.ofFn fun k : Fin X.nrows => tableEntry X.rows k j) =
      List.ofFn fun k : Fin X.nrows => (tableEntry X.rows k i - tableEntry X.rows k j) ^ 2 :=
    List.ext_getElem (by simp) fun k h1 h2 => by simp
  rw [this, List.sum_ofFn, neg_div, ← div_neg]
  congr 2
  ring

end Spectral

/-- C113: for a non-zero width and at most as many rows as columns, `laplace_matrix` yields a square matrix with as many rows as the data; entry
`(i, j)` off the diagonal is the negated Gaussian similarity of *columns* `i` and `j`, and each diagonal entry makes the sum of
its row zero. With more rows than columns it reads out of bounds. -/
theorem C113_laplacian (gamma : ℝ) (hgam : gamma ≠ 0) (X : DMat ℝ) (hX : X.WF) :
    (X.nrows ≤ X.ncols → ∃ L, laplaceMatrix gamma X = .ok L ∧ L.ncols = X.nrows ∧ L.nrows = X.nrows ∧ L.WF ∧
      (∀ i < X.nrows, ∀ j < X.nrows, i ≠ j → tableEntry L.rows i j =
        -similarity gamma (fun k : Fin X.nrows => tableEntry X.rows k i) fun k => tableEntry X.rows k j) ∧
      ∀ i < X.nrows, ∑ j : Fin X.nrows, tableEntry L.rows i j = 0) ∧
    (X.ncols < X.nrows → laplaceMatrix gamma X = .ub) := by
  constructor
  · intro hle
    have hent : ∀ i < X.nrows, ∀ j < X.nrows, tableEntry ((List.range X.nrows).map fun i => (List.range X.nrows).map fun j =>
        (if i = j then ((List.range X.nrows).map fun k => entryW gamma X k j).sum else 0) - entryW gamma X i j) i j =
        (if i = j then ((List.range X.nrows).map fun k => entryW gamma X k j).sum else 0) - entryW gamma X i j := by
      intro i hi j hj
      simp [tableEntry, List.getD_eq_getElem?_getD, hi, hj]
    refine ⟨_, by rw [laplaceMatrix, if_neg hgam, if_pos hle], rfl, by simp [DMat.nrows], ?_, ?_, ?_⟩
    · intro r hr
      obtain ⟨i, _, rfl⟩ := List.mem_map.mp hr
      simp
    · intro i hi j hj hij
      dsimp only
      rw [hent i hi j hj, if_neg hij, zero_sub, entryW_eq, weight_eq gamma X hX i j (by omega) (by omega)]
    · intro i hi
      dsimp only
      rw [Finset.sum_congr rfl fun (j : Fin X.nrows) _ => hent i hi j j.2, Finset.sum_sub_distrib]
      have h1 : ∑ j : Fin X.nrows, (if i = (j : Nat) then ((List.range X.nrows).map fun k => entryW gamma X k j).sum else 0) =
          ((List.range X.nrows).map fun k => entryW gamma X k i).sum := by
        rw [Finset.sum_eq_single (⟨i, hi⟩ : Fin X.nrows)]
        · rw [if_pos rfl]
        · intro j _ hj
          exact if_neg fun h => hj (Fin.ext h.symm)
        · intro h
          exact absurd (Finset.mem_univ _) h
      have h2 : ((List.range X.nrows).map fun k => entryW gamma X k i).sum = ∑ k : Fin X.nrows, entryW gamma X i k := by
        rw [← List.sum_ofFn]
        congr 1
        refine List.ext_getElem (by simp) fun k h1 h2 => ?_
        simp only [List.getElem_map, List.getElem_range, List.getElem_ofFn]
        rw [entryW_eq, entryW_eq, weight_comm]
      rw [h1, h2, sub_self]
  · intro hlt
    rw [laplaceMatrix, if_neg hgam, if_neg (by omega)]

/-- C113: the matrix of `laplace_matrix` is symmetric and positive semidefinite, and its quadratic form vanishes exactly on constant vectors: zero is a simple eigenvalue whatever the data, and
the number of zero eigenvalues tells nothing about the number of clusters. -/
theorem C113_spectrum (gamma : ℝ) (X : DMat ℝ) (hX : X.WF) (L : DMat ℝ) (h : laplaceMatrix gamma X = .ok L) :
    (∀ i < X.nrows, ∀ j < X.nrows, tableEntry L.rows i j = tableEntry L.rows j i) ∧
    ∀ v : Fin X.nrows → ℝ, 0 ≤ ∑ i : Fin X.nrows, ∑ j : Fin X.nrows, v i * tableEntry L.rows i j * v j ∧
      (∑ i : Fin X.nrows, ∑ j : Fin X.nrows, v i * tableEntry L.rows i j * v j = 0 ↔ ∀ i j, v i = v j) := by
  have hgam : gamma ≠ 0 := by
    rintro rfl
    rw [laplaceMatrix, if_pos rfl] at h
    cases h
  have hle : X.nrows ≤ X.ncols := by
    by_contra hc
    rw [(C113_laplacian gamma hgam X hX).2 (by omega)] at h
    cases h
  obtain ⟨L', h', _, _, _, hoff, hsum⟩ := (C113_laplacian gamma hgam X hX).1 hle
  rw [h] at h'
  cases h'
  have hpos : ∀ i j : Fin X.nrows, i ≠ j → tableEntry L.rows i j < 0 := by
    intro i j hij
    rw [hoff i i.2 j j.2 fun h => hij (Fin.ext h)]
    exact neg_neg_of_pos (Real.exp_pos _)
  have hsymm : ∀ i < X.nrows, ∀ j < X.nrows, tableEntry L.rows i j = tableEntry L.rows j i := by
    intro i hi j hj
    by_cases hij : i = j
    · rw [hij]
    · rw [hoff i hi j hj hij, hoff j hj i hi (Ne.symm hij)]
      unfold similarity
      congr 4
      refine Finset.sum_congr rfl fun k _ => ?_
      ring
  refine ⟨hsymm, fun v => ?_⟩
  have hrow : ∀ i : Fin X.nrows, ∑ j : Fin X.nrows, v i ^ 2 * tableEntry L.rows i j = 0 := by
    intro i
    rw [← Finset.mul_sum, hsum i i.2, mul_zero]
  have hcol : ∑ i : Fin X.nrows, ∑ j : Fin X.nrows, v j ^ 2 * tableEntry L.rows i j = 0 := by
    rw [Finset.sum_comm]
    refine Finset.sum_eq_zero fun j _ => ?_
    rw [← hrow j]
    exact Finset.sum_congr rfl fun i _ => by rw [hsymm i i.2 j j.2]
  have hform : ∑ i : Fin X.nrows, ∑ j : Fin X.nrows, v i * tableEntry L.rows i j * v j =
      ∑ i : Fin X.nrows, ∑ j : Fin X.nrows, -tableEntry L.rows i j * (v i - v j) ^ 2 / 2 := by
    have h1 : ∑ i : Fin X.nrows, ∑ j : Fin X.nrows, v i ^ 2 * tableEntry L.rows i j = 0 := Finset.sum_eq_zero fun i _ => hrow i
    have h2 : ∀ i j : Fin X.nrows, v i * tableEntry L.rows i j * v j = -tableEntry L.rows i j * (v i - v j) ^ 2 / 2 +
        v i ^ 2 * tableEntry L.rows i j / 2 + v j ^ 2 * tableEntry L.rows i j / 2 := fun i j => by ring
    simp only [h2, Finset.sum_add_distrib]
    simp only [← Finset.sum_div, h1, hcol]
    ring
  have hnn : ∀ i j : Fin X.nrows, 0 ≤ -tableEntry L.rows i j * (v i - v j) ^ 2 / 2 := by
    intro i j
    by_cases hij : i = j
    · subst hij
      simp
    · have := hpos i j hij
      have := neg_pos.mpr this
      positivity
  rw [hform]
  refine ⟨Finset.sum_nonneg fun i _ => Finset.sum_nonneg fun j _ => hnn i j, ?_, ?_⟩
  · intro h0 i j
    have h1 := (Finset.sum_eq_zero_iff_of_nonneg fun i _ => Finset.sum_nonneg fun j _ => hnn i j).mp h0 i (Finset.mem_univ _)
    have h2 := (Finset.sum_eq_zero_iff_of_nonneg fun j _ => hnn i j).mp h1 j (Finset.mem_univ _)
    by_cases hij : i = j
    · rw [hij]
    · have h3 : -tableEntry L.rows i j ≠ 0 := neg_ne_zero.mpr (hpos i j hij).ne
      have h4 : (v i - v j) ^ 2 = 0 := by
        rcases div_eq_zero_iff.mp h2 with h5 | h5
        · exact (mul_eq_zero.mp h5).resolve_left h3
        · norm_num at h5
      exact sub_eq_zero.mp (pow_eq_zero_iff (two_ne_zero)|>.mp h4)
  · intro hc
    refine Finset.sum_eq_zero fun i _ => Finset.sum_eq_zero fun j _ => ?_
    rw [hc i j]
    simp

/-- Two samples with three features: the similarity is that of the first two columns. -/
example : (⟨3, [[0, 1, 5], [0, 1, 7]]⟩ : DMat ℝ).WF ∧ (⟨3, [[0, 1, 5], [0, 1, 7]]⟩ : DMat ℝ).nrows ≤ 3 ∧
    ∃ L, laplaceMatrix 1 ⟨3, [[0, 1, 5], [0, 1, 7]]⟩ = .ok L ∧ tableEntry L.rows 0 1 = -Real.exp (-1) := by
  have hwf : (⟨3, [[0, 1, 5], [0, 1, 7]]⟩ : DMat ℝ).WF := by intro r hr; fin_cases hr <;> rfl
  refine ⟨hwf, by decide, ?_⟩
  obtain ⟨L, h1, _, _, _, h2, _⟩ := (C113_laplacian 1 one_ne_zero ⟨3, [[0, 1, 5], [0, 1, 7]]⟩ hwf).1 (by decide)
  refine ⟨L, h1, ?_⟩
  rw [h2 0 (by decide) 1 (by decide) (by decide)]
  unfold similarity
  congr 2
  have h3 : ∀ f : Fin (⟨3, [[0, 1, 5], [0, 1, 7]]⟩ : DMat ℝ).nrows → ℝ, ∑ k, f k = f (0 : Fin 2) + f (1 : Fin 2) := fun f => Fin.sum_univ_two f
  rw [h3]
  norm_num [tableEntry]

end OpenML
