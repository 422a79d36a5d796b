import Verif.Lemmas.PlusPlus
import Verif.Spec.PlusPlus

/-!
# Random choices of k-means++ (C122)
-/

namespace OpenML

open Spec KMeans PlusPlus MeasureTheory

/-- C122: with a uniform random number from `[0, 1)` a trial of k-means++ proposes each row with a probability proportional to its distance
in the list `w` of the squared distances to the centroids chosen so far, as long as one of them is positive. -/
theorem C122_pick (w : List ℝ) (hw : ∀ a ∈ w, 0 ≤ a) (hpos : 0 < w.sum) (i : Nat) (hi : i < w.length) :
    volume.restrict (Set.Ico (0 : ℝ) 1) {r | candidate w w.sum r = i} = ENNReal.ofReal (w[i] / w.sum) := by
  have hne : w ≠ [] := by rintro rfl; simp at hpos
  rw [Measure.restrict_congr_set Ico_ae_eq_Ioc, Measure.restrict_apply' measurableSet_Ioc]
  refine Eq.trans ?_ (pick_measure hw hpos ⟨i, hi⟩)
  congr 1
  ext r
  constructor
  · rintro ⟨h1, h2⟩
    refine (pick_iff hw hpos h2.1 ⟨i, hi⟩).mp ?_
    have := candidate_roulette w r hw h2.2 hne
    rwa [show candidate w w.sum r = i from h1] at this
  · intro h
    have hr := pick_subset hw hpos ⟨i, hi⟩ h
    exact ⟨roulette_unique (candidate_roulette w r hw hr.2 hne) ((pick_iff hw hpos hr.1 ⟨i, hi⟩).mpr h), hr⟩

/-- The hypotheses of `C122_pick` hold for the distances of four points to the second of them; the last is chosen with probability 5/8. -/
example : (∀ a ∈ ([1, 0, 2, 5] : List ℝ), 0 ≤ a) ∧ 0 < ([1, 0, 2, 5] : List ℝ).sum ∧ ([1, 0, 2, 5] : List ℝ)[3] / ([1, 0, 2, 5] : List ℝ).sum = 5 / 8 := by
  norm_num

/-- C122: the mean over all rows of the inertia with this row as the only centroid is at most twice the inertia of any one centroid. -/
theorem C122_first (X : DMat ℝ) (hx : X.WF) (c : List ℝ) (hc : c.length = X.ncols) :
    ∑ f ∈ Finset.range X.rows.length, clusterCost X.rows (do let r ← plusPlus f [] X; .ok r.1) ≤
      X.rows.length * ENNReal.ofReal (2 * inertia X.rows [c]) := by
  have hnn : ∀ C, 0 ≤ inertia X.rows C := fun C => List.sum_nonneg (by
      intro a ha
      obtain ⟨x, -, rfl⟩ := List.mem_map.mp ha
      exact minSqDist_nonneg _ _)
  have h1 : ∀ f : Fin X.rows.length, clusterCost X.rows (do let r ← plusPlus f [] X; .ok r.1) =
      ENNReal.ofReal (inertia X.rows [X.rows[f]]) := by
    intro f
    obtain ⟨D, h1, h2, -⟩ := C41_plusplus X hx f X.rows[f] (List.getElem?_eq_getElem f.2) [] (by simp)
    rw [h1, Res.bind_ok, List.length_eq_zero_iff.mp h2]
    rfl
  rw [← Fin.sum_univ_eq_sum_range (fun f => clusterCost X.rows (do let r ← plusPlus f [] X; .ok r.1)), Finset.sum_congr rfl fun f _ => h1 f,
    ← ENNReal.ofReal_sum_of_nonneg fun f _ => hnn _, ← ENNReal.ofReal_natCast, ← ENNReal.ofReal_mul (Nat.cast_nonneg _)]
  refine ENNReal.ofReal_le_ofReal ?_
  have h2 := group_pairs X.ncols Finset.univ (fun i : Fin X.rows.length => X.rows[i]) (fun i => hx _ (List.getElem_mem _)) c hc
  rw [Finset.sum_comm, Finset.card_univ, Fintype.card_fin] at h2
  simp only [inertia_fin, minSqDist]
  linarith

example : (⟨1, [[0], [1], [5], [6]]⟩ : DMat ℝ).WF ∧ ([3] : List ℝ).length = 1 :=
  ⟨by intro r hr; simp at hr; rcases hr with rfl | rfl | rfl | rfl <;> rfl, rfl⟩

/-- C122: k-means with two clusters and k-means++ initialisation. Whatever the other random numbers of the trials, the iteration limit and the
stopping test are, the mean of the final inertia over a uniform first row and a uniform number from `[0, 1)` for the first trial is at most
eight times the inertia of any two centroids. -/
theorem C122_two_clusters (checked : Bool) (stop : List (List ℝ) → Bool) (m : Nat) (X : DMat ℝ) (hx : X.WF)
    (hck : checked = false ∨ X.ncols = 1) (rest : List ℝ) (hrest : ∀ r ∈ rest, r ≤ 1) (c c' : List ℝ) (hc : c.length = X.ncols)
    (hc' : c'.length = X.ncols) :
    ∑ f ∈ Finset.range X.rows.length, ∫⁻ r in Set.Ico (0 : ℝ) 1,
        clusterCost X.rows (fitFrom checked stop m X (do let r ← plusPlus f [r :: rest] X; .ok r.1)) ≤
      X.rows.length * ENNReal.ofReal (8 * inertia X.rows [c, c']) := by
  have hnn : ∀ C, 0 ≤ inertia X.rows C := fun C => List.sum_nonneg (by
      intro a ha
      obtain ⟨x, -, rfl⟩ := List.mem_map.mp ha
      exact minSqDist_nonneg _ _)
  have hrun : ∀ (f : Fin X.rows.length) (r : ℝ), r ≤ 1 → ∃ C, fitFrom checked stop m X (do let r ← plusPlus f [r :: rest] X; .ok r.1) = .ok C ∧
      ∀ i : Fin X.rows.length, IsRoulettePick (X.rows.map fun x => minSqDist x [X.rows[f]]) r i →
        inertia X.rows C ≤ inertia X.rows [X.rows[f], X.rows[i]] := by
    intro f r hr
    obtain ⟨D, h1, h2, h3, h4⟩ := C41_plusplus X hx f X.rows[f] (List.getElem?_eq_getElem f.2) [r :: rest] (by
      intro rs hrs
      rw [List.mem_singleton] at hrs
      subst hrs
      refine ⟨by simp, fun a ha => ?_⟩
      rcases List.mem_cons.mp ha with rfl | ha
      · exact hr
      · exact hrest a ha)
    obtain ⟨b, hb⟩ := List.length_eq_one_iff.mp h2
    subst hb
    obtain ⟨b', hb', -, hpick⟩ := h4 0 _ rfl
    simp only [List.getElem?_cons_zero, Option.some.injEq] at hb'
    subst hb'
    obtain ⟨C, g1, -, -, g4⟩ := C40_fit checked stop m X hx hck [X.rows[f], b] (by simp) fun r hr => hx r (h3 r hr)
    refine ⟨C, by rw [h1, Res.bind_ok]; exact g1, fun i hi => g4.trans ?_⟩
    exact hpick r (by simp) i X.rows[i] hi (List.getElem?_eq_getElem i.2)
  have hone : ∀ f : Fin X.rows.length, ∫⁻ r in Set.Ico (0 : ℝ) 1,
        clusterCost X.rows (fitFrom checked stop m X (do let r ← plusPlus f [r :: rest] X; .ok r.1)) ≤
      ENNReal.ofReal (∑ j : Fin X.rows.length, sqDist X.rows[j] X.rows[f] / inertia X.rows [X.rows[f]] *
        inertia X.rows [X.rows[f], X.rows[j]]) := by
    intro f
    rw [Measure.restrict_congr_set Ico_ae_eq_Ioc]
    have hlen : (X.rows.map fun x => minSqDist x [X.rows[f]]).length = X.rows.length := List.length_map _
    have hw : ∀ a ∈ X.rows.map fun x => minSqDist x [X.rows[f]], 0 ≤ a := by
      intro a ha
      obtain ⟨x, -, rfl⟩ := List.mem_map.mp ha
      exact minSqDist_nonneg _ _
    rcases eq_or_lt_of_le (hnn [X.rows[f]]) with h0 | hpos
    · rw [← h0]
      simp only [div_zero, zero_mul, Finset.sum_const_zero, ENNReal.ofReal_zero, nonpos_iff_eq_zero]
      refine le_antisymm ((setLIntegral_mono' measurableSet_Ioc fun r hr => ?_).trans (le_of_eq (lintegral_zero (μ := volume.restrict (Set.Ioc (0 : ℝ) 1))))) zero_le
      obtain ⟨C, h1, h2⟩ := hrun f r hr.2
      have hn : 0 < X.rows.length := lt_of_le_of_lt (Nat.zero_le _) f.2
      rw [h1]
      have h3 := h2 ⟨0, hn⟩ ⟨by rw [hlen]; exact hn, by
        have : (X.rows.map fun x => minSqDist x [X.rows[f]]).sum = 0 := h0.symm
        rw [this, mul_zero]
        exact List.sum_nonneg fun a ha => hw a (List.mem_of_mem_take ha), by simp⟩
      have h4 : inertia X.rows [X.rows[f], X.rows[(⟨0, hn⟩ : Fin X.rows.length)]] ≤ inertia X.rows [X.rows[f]] :=
        List.sum_le_sum fun x _ => (minSqDist_spec x _ (by simp)).2 X.rows[f] (by simp)
      refine (ENNReal.ofReal_le_ofReal (h3.trans h4)).trans ?_
      rw [← h0]
      simp
    · choose C hC1 hC2 using fun (r : ℝ) (h : r ≤ 1) => hrun f r h
      have h1 := pick_lintegral hw hpos (fun i => inertia X.rows [X.rows[f], X.rows[Fin.cast hlen i]]) (fun i => hnn _)
        (fun r => if h : r ≤ 1 then inertia X.rows (C r h) else 0) (by
          intro r hr i hi
          rw [dif_pos hr.2]
          exact hC2 r hr.2 (Fin.cast hlen i) hi)
      refine le_trans (le_of_eq ?_) (h1.trans (le_of_eq ?_))
      · refine setLIntegral_congr_fun measurableSet_Ioc fun r hr => ?_
        rw [dif_pos hr.2, hC1 r hr.2]
        rfl
      · congr 1
        refine Fintype.sum_equiv (finCongr hlen) _ _ fun i => ?_
        have h2 : (X.rows.map fun x => minSqDist x [X.rows[f]])[i] = sqDist X.rows[finCongr hlen i] X.rows[f] :=
          List.getElem_map _
        rw [h2]
        rfl
  rw [← Fin.sum_univ_eq_sum_range (fun f => ∫⁻ r in Set.Ico (0 : ℝ) 1,
        clusterCost X.rows (fitFrom checked stop m X (do let r ← plusPlus f [r :: rest] X; .ok r.1)))]
  refine (Finset.sum_le_sum fun f _ => hone f).trans ?_
  rw [← ENNReal.ofReal_sum_of_nonneg fun f _ => Finset.sum_nonneg fun j _ => mul_nonneg (div_nonneg (sqDist_nonneg _ _) (hnn _)) (hnn _),
    ← ENNReal.ofReal_natCast, ← ENNReal.ofReal_mul (Nat.cast_nonneg _)]
  exact ENNReal.ofReal_le_ofReal (two_rows X.ncols X.rows hx c c' hc hc')

/-- The hypotheses of `C122_two_clusters` hold for four points on a line, and two centroids of inertia one. -/
example : (⟨1, [[0], [1], [5], [6]]⟩ : DMat ℝ).WF ∧ (∀ r ∈ ([1 / 3] : List ℝ), r ≤ 1) ∧
    inertia ([[0], [1], [5], [6]] : List (List ℝ)) [[1 / 2], [11 / 2]] = 1 := by
  refine ⟨by intro r hr; simp at hr; rcases hr with rfl | rfl | rfl | rfl <;> rfl, by norm_num, ?_⟩
  norm_num [inertia, minSqDist, sqDist]

end OpenML
