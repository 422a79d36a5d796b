import Verif.Lemmas.Reduced
import Verif.Props.LowRank
import Verif.Props.KMeans

/-!
# Distances and clusterings of reduced data (C148)
-/

namespace OpenML

open Matrix Spec LowRank

namespace Reduced

theorem labels_eq {n d k : Nat} (μ : Fin d → ℝ) (C : Matrix (Fin k) (Fin d) ℝ) (hC : C * Cᵀ = 1) (X : Matrix (Fin n) (Fin d) ℝ)
    (T : Matrix (Fin n) (Fin k) ℝ) (hT : ∀ i, T i = C *ᵥ (X i - μ)) (D : List (List ℝ)) (hD : D ≠ []) (hw : ∀ c ∈ D, c.length = k) :
    KMeans.predict (D.map (backTo μ C)) ⟨d, rowLists X⟩ = KMeans.predict D ⟨k, rowLists T⟩ := by
  have wf : ∀ {m : Nat} (Y : Matrix (Fin n) (Fin m) ℝ), (⟨m, rowLists Y⟩ : DMat ℝ).WF := by
    intro m Y r hr
    simp only [rowLists, List.mem_ofFn] at hr
    obtain ⟨i, rfl⟩ := hr
    simp
  obtain ⟨l1, h1, f1⟩ := C40_predict ⟨d, rowLists X⟩ (wf X) (D.map (backTo μ C)) (by simpa using hD) (by simp [backTo])
  obtain ⟨l2, h2, f2⟩ := C40_predict ⟨k, rowLists T⟩ (wf T) D hD hw
  rw [h1, h2]
  congr 1
  have e1 := f1.length_eq
  have e2 := f2.length_eq
  simp only [rowLists, List.length_ofFn] at e1 e2
  refine List.ext_getElem (by omega) fun i hi1 hi2 => ?_
  have hi : i < n := by omega
  have g1 := (List.forall₂_iff_get.mp f1).2 i (by simpa [rowLists] using hi) hi1
  have g2 := (List.forall₂_iff_get.mp f2).2 i (by simpa [rowLists] using hi) hi2
  simp only [rowLists, List.get_eq_getElem, List.getElem_ofFn] at g1 g2
  refine IsFirstMin.unique g1 ?_
  obtain ⟨v, hv, hm⟩ := g2
  have hshift : (D.map (backTo μ C)).map (sqDist (List.ofFn (X ⟨i, hi⟩))) = (D.map (sqDist (List.ofFn (T ⟨i, hi⟩)))).map
      (· + sqDist (List.ofFn (X ⟨i, hi⟩)) (backTo μ C (List.ofFn (T ⟨i, hi⟩)))) := by
    rw [List.map_map, List.map_map]
    refine List.map_congr_left fun c hc => ?_
    simp only [Function.comp]
    rw [sqDist_backTo μ C hC _ c (hw c hc), ← hT]
  rw [show (List.ofFn fun j => X ⟨i, hi⟩ j) = List.ofFn (X ⟨i, hi⟩) from rfl, hshift]
  refine ⟨_, by rw [List.getElem?_map, show (List.map (sqDist (List.ofFn (T ⟨i, hi⟩))) D)[l2[i]]? = some v from hv]; rfl, fun q w hq => ?_⟩
  rw [List.getElem?_map, Option.map_eq_some_iff] at hq
  obtain ⟨w', hw', rfl⟩ := hq
  obtain ⟨b1, b2⟩ := hm q w' hw'
  exact ⟨by linarith, fun h => b2 (by linarith)⟩

end Reduced

section
variable {n d k : Nat} (X : Matrix (Fin n) (Fin d) ℝ) (U : Matrix (Fin n) (Fin (min n d)) ℝ) (s : Fin (min n d) → ℝ)
  (V : Matrix (Fin d) (Fin (min n d)) ℝ)

theorem Reduced.pca_rows (f : PCA.Fitted k d) (i : Fin n) : PCA.transform f X i = f.components *ᵥ (X i - columnMean X) := by
  funext a
  simp only [PCA.transform, mul_apply, mulVec, dotProduct, transpose_apply]
  refine Finset.sum_congr rfl fun j _ => ?_
  rw [mul_comm]
  rfl

theorem Reduced.pca_orth (hn : 0 < n) (hsvd : IsThinSVD (centred X) U s V) (f : PCA.Fitted k d) (hf : PCA.fit k U s V = .ok f) :
    f.components * f.componentsᵀ = 1 := by
  obtain ⟨σ, h, hS⟩ := PCA.fit_spec hn hsvd hf
  exact PCA.comp_orth hsvd hS

/-- C148: the distance of two samples never grows by the transform of a fitted `PCA`, and stays the same if the centred samples have a rank
of at most the number of components. -/
theorem C148_pca_distances (hn : 0 < n) (hsvd : IsThinSVD (centred X) U s V) (f : PCA.Fitted k d) (hf : PCA.fit k U s V = .ok f)
    (i j : Fin n) :
    sqDist (List.ofFn (PCA.transform f X i)) (List.ofFn (PCA.transform f X j)) ≤ sqDist (List.ofFn (X i)) (List.ofFn (X j)) ∧
    ((centred X).rank ≤ k →
      sqDist (List.ofFn (PCA.transform f X i)) (List.ofFn (PCA.transform f X j)) = sqDist (List.ofFn (X i)) (List.ofFn (X j))) := by
  have hC := Reduced.pca_orth X U s V hn hsvd f hf
  rw [Reduced.sqDist_ofFn, Reduced.sqDist_ofFn, Reduced.pca_rows, Reduced.pca_rows, ← mulVec_sub, sub_sub_sub_cancel_right]
  refine ⟨Reduced.proj_le _ hC _, fun hr => ?_⟩
  obtain ⟨-, hbest, -⟩ := C121_pca X U s V hn hsvd f hf
  have h0 := hbest (columnMean X) (centred X) hr
  have hz : X - (Matrix.of fun i j => columnMean X j + centred X i j) = 0 := by
    ext a b
    simp [centred]
  rw [hz] at h0
  have hrow : ∀ a b, X a b = columnMean X b + (PCA.transform f X * f.components) a b := by
    intro a b
    have h1 : (X - Matrix.of fun i j => columnMean X j + (PCA.transform f X * f.components) i j) a b ^ 2 ≤ 0 := by
      refine le_trans ?_ (h0.trans_eq (by simp [entrySquares]))
      unfold entrySquares
      refine le_trans ?_ (Finset.single_le_sum (f := fun i => ∑ j,
        (X - Matrix.of fun i j => columnMean X j + (PCA.transform f X * f.components) i j) i j ^ 2)
        (fun _ _ => Finset.sum_nonneg fun _ _ => sq_nonneg _) (Finset.mem_univ a))
      exact Finset.single_le_sum (f := fun j =>
        (X - Matrix.of fun i j => columnMean X j + (PCA.transform f X * f.components) i j) a j ^ 2)
        (fun _ _ => sq_nonneg _) (Finset.mem_univ b)
    have h2 := pow_eq_zero_iff (two_ne_zero) |>.mp (le_antisymm h1 (sq_nonneg _))
    simp only [Matrix.sub_apply, of_apply] at h2
    linarith
  have hdiff : X i - X j = (f.components *ᵥ (X i - X j)) ᵥ* f.components := by
    have h1 : X i - X j = (PCA.transform f X i - PCA.transform f X j) ᵥ* f.components := by
      funext b
      rw [sub_vecMul]
      simp only [Pi.sub_apply]
      rw [hrow i b, hrow j b]
      simp only [mul_apply, vecMul, dotProduct]
      ring
    rwa [Reduced.pca_rows, Reduced.pca_rows, ← mulVec_sub, sub_sub_sub_cancel_right] at h1
  have hp := Reduced.pythagoras f.components hC (X i - X j) 0
  rw [← hdiff] at hp
  simpa using hp.symm

/-- C148: take the centroids `D` of transformed data back to the original space, by adding the combination of the components to the means.
There every sample has the same nearest centroid as its transform has among `D`, and the inertia is larger by what the reconstruction of the
samples loses. -/
theorem C148_pca_labels (hn : 0 < n) (hsvd : IsThinSVD (centred X) U s V) (f : PCA.Fitted k d) (hf : PCA.fit k U s V = .ok f)
    (D : List (List ℝ)) (hD : D ≠ []) (hw : ∀ c ∈ D, c.length = k) :
    KMeans.predict (D.map (backTo (columnMean X) f.components)) ⟨d, rowLists X⟩ = KMeans.predict D ⟨k, rowLists (PCA.transform f X)⟩ ∧
    inertia (rowLists X) (D.map (backTo (columnMean X) f.components)) = inertia (rowLists (PCA.transform f X)) D +
      (entrySquares (X - Matrix.of fun _ j => columnMean X j) - ∑ i, f.singular i ^ 2) := by
  have hC := Reduced.pca_orth X U s V hn hsvd f hf
  refine ⟨Reduced.labels_eq _ _ hC X _ (Reduced.pca_rows X f) D hD hw, ?_⟩
  rw [Reduced.inertia_backTo _ _ hC X _ (Reduced.pca_rows X f) D hD hw, (C121_pca X U s V hn hsvd f hf).2.2]

/-- C148: let the inertia of the centroids `D` on the transformed data be at most `γ` times the least inertia of `K` centroids there. If there
are at least `K - 1` components, then the inertia of `D`, taken back, is at most `γ + 1` times the least inertia of `K` centroids on the
original data. -/
theorem C148_pca_guarantee (hn : 0 < n) (hsvd : IsThinSVD (centred X) U s V) (f : PCA.Fitted k d) (hf : PCA.fit k U s V = .ok f)
    (D : List (List ℝ)) (hD : D ≠ []) (hw : ∀ c ∈ D, c.length = k) (K : Nat) (hK : K ≤ k + 1) (γ : ℝ) (hγ : 0 ≤ γ)
    (happrox : ∀ D' : List (List ℝ), D'.length = K → (∀ c ∈ D', c.length = k) →
      inertia (rowLists (PCA.transform f X)) D ≤ γ * inertia (rowLists (PCA.transform f X)) D')
    (E : List (List ℝ)) (hE : E ≠ []) (hEK : E.length = K) (hEw : ∀ c ∈ E, c.length = d) :
    inertia (rowLists X) (D.map (backTo (columnMean X) f.components)) ≤ (γ + 1) * inertia (rowLists X) E := by
  have hC := Reduced.pca_orth X U s V hn hsvd f hf
  rw [Reduced.inertia_backTo _ _ hC X _ (Reduced.pca_rows X f) D hD hw]
  obtain ⟨D', g1, g2, g3⟩ := Reduced.inertia_proj _ _ hC X _ (Reduced.pca_rows X f) E hE hEw
  obtain ⟨c, A, g4, g5⟩ := Reduced.inertia_affine X E hE hEw
  have g6 := (C121_pca X U s V hn hsvd f hf).2.1 c A (g4.trans (by omega))
  rw [g5] at g6
  have g7 := happrox D' (by omega) g2
  have g8 := mul_le_mul_of_nonneg_left g3 hγ
  linarith

end

/-- Beside `C148_pca_guarantee`: four samples, two features and one component; the mean of the transformed data is their best single centroid. -/
example : ∃ f, PCA.fit (n := 4) (d := 2) 1 exampleU ![4, 2] exampleV = .ok f ∧ IsThinSVD (n := 2) (k := min 4 2) (centred exampleData)
    exampleU ![4, 2] exampleV ∧ ∀ E : List (List ℝ), E ≠ [] → E.length = 1 → (∀ c ∈ E, c.length = 2) →
      inertia (rowLists exampleData) [backTo (columnMean exampleData) f.components [0]] ≤ (1 + 1) * inertia (rowLists exampleData) E := by
  obtain ⟨f, hf⟩ := (C84_defined (n := 4) (d := 2) (k := 1) exampleData exampleU ![4, 2] exampleV (by norm_num) example_svd).mpr (by decide)
  refine ⟨f, hf, example_svd, fun E hE hE1 hEw => ?_⟩
  refine C148_pca_guarantee exampleData exampleU ![4, 2] exampleV (by norm_num) example_svd f hf [[0]] (by simp) (by simp) 1 (by norm_num) 1
    (by norm_num) (fun D' h1 h2 => ?_) E hE hE1 hEw
  obtain ⟨c, rfl⟩ := List.length_eq_one_iff.mp h1
  obtain ⟨v, rfl⟩ := Reduced.exists_ofFn c (h2 c (by simp))
  have hT := Reduced.pca_rows exampleData f
  have h0 : ∑ a, PCA.transform f exampleData a 0 = 0 := by
    have hcol : ∀ j, columnMean exampleData j = 0 := by
      intro j
      fin_cases j <;> simp [columnMean, exampleData, Fin.sum_univ_four]
    have hrow : ∀ a, PCA.transform f exampleData a 0 = f.components 0 0 * exampleData a 0 + f.components 0 1 * exampleData a 1 := by
      intro a
      rw [hT a]
      simp [mulVec, dotProduct, Fin.sum_univ_two, hcol]
    rw [Fin.sum_univ_four, hrow, hrow, hrow, hrow]
    simp [exampleData]
    ring
  rw [one_mul, Reduced.inertia_rows, Reduced.inertia_rows]
  have e0 : [(0 : ℝ)] = List.ofFn (fun _ : Fin 1 => (0 : ℝ)) := by simp
  simp only [minSqDist]
  rw [e0]
  simp only [Reduced.sqDist_ofFn, dotProduct, Pi.sub_apply, Fin.sum_univ_one, sub_zero]
  simp only [Fin.sum_univ_four] at h0 ⊢
  have h3 := congrArg (fun t => v 0 * t) h0
  simp only [mul_zero] at h3
  nlinarith [sq_nonneg (v 0)]

section
variable {M k p : Nat} {dec : TruncatedSVD.Decompositions} (hd : dec.Correct) (X : Matrix (Fin M) (Fin (k + p)) ℝ) (iters : Nat)
  (normalizer : String) (Q0 : Matrix (Fin (k + p)) (Fin (k + p)) ℝ)
include hd

/-- C148: the same for `TruncatedSVD` with as many random vectors as features, where at least `K` components are needed. -/
theorem C148_truncated_svd (hM : 0 < M) (hKM : k + p ≤ M) (hn : iters = 0 ∨ normalizer ∈ ["None", "LU", "QR"])
    (hinv : (0 < iters ∧ normalizer ≠ "None") ∨ IsUnit Q0.det) :
    ∃ f T, TruncatedSVD.fit dec "randomized" X k p iters normalizer Q0 = .ok (some f) ∧ TruncatedSVD.transform (some f) X = .ok T ∧
      (∀ i j, sqDist (List.ofFn (T i)) (List.ofFn (T j)) ≤ sqDist (List.ofFn (X i)) (List.ofFn (X j))) ∧
      ∀ D : List (List ℝ), D ≠ [] → (∀ c ∈ D, c.length = k) →
        KMeans.predict (D.map (backTo 0 f.components)) ⟨k + p, rowLists X⟩ = KMeans.predict D ⟨k, rowLists T⟩ ∧
        ∀ (K : Nat) (γ : ℝ), K ≤ k → 0 ≤ γ → (∀ D' : List (List ℝ), D'.length = K → (∀ c ∈ D', c.length = k) →
            inertia (rowLists T) D ≤ γ * inertia (rowLists T) D') →
          ∀ E : List (List ℝ), E ≠ [] → E.length = K → (∀ c ∈ E, c.length = k + p) →
            inertia (rowLists X) (D.map (backTo 0 f.components)) ≤ (γ + 1) * inertia (rowLists X) E := by
  obtain ⟨f, T, hf, hT, hC, -⟩ := C87_components hd X iters normalizer Q0 hM hKM hn hinv
  obtain ⟨f', T', hf', hT', -, hbest⟩ := C121_truncated_svd hd X iters normalizer Q0 hM hKM hn hinv
  rw [hf] at hf'
  cases hf'
  rw [hT] at hT'
  cases hT'
  have hrows : ∀ i, T i = f.components *ᵥ (X i - 0) := by
    intro i
    cases hT
    funext a
    simp only [mul_apply, mulVec, dotProduct, transpose_apply, sub_zero]
    exact Finset.sum_congr rfl fun j _ => mul_comm _ _
  refine ⟨f, T, hf, hT, fun i j => ?_, fun D hD hw => ⟨Reduced.labels_eq 0 _ hC X T hrows D hD hw, fun K γ hK hγ happrox E hE hEK hEw => ?_⟩⟩
  · rw [Reduced.sqDist_ofFn, Reduced.sqDist_ofFn, hrows, hrows, ← mulVec_sub, sub_sub_sub_cancel_right]
    exact Reduced.proj_le _ hC _
  · rw [Reduced.inertia_backTo 0 _ hC X T hrows D hD hw]
    obtain ⟨D', g1, g2, g3⟩ := Reduced.inertia_proj 0 _ hC X T hrows E hE hEw
    obtain ⟨A, g4, g5⟩ := Reduced.inertia_linear X E hE hEw
    have g6 := hbest A (g4.trans (by omega))
    rw [g5] at g6
    have g7 := happrox D' (by omega) g2
    have g8 := mul_le_mul_of_nonneg_left g3 hγ
    have g9 : (Matrix.of fun i j => (0 : Fin (k + p) → ℝ) j + (T * f.components) i j) = T * f.components := by
      ext i j
      simp
    rw [g9]
    linarith

end

end OpenML
