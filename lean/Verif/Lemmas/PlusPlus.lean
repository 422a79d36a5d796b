import Verif.Props.KMeans
import Mathlib.MeasureTheory.Measure.Lebesgue.Basic
import Mathlib.MeasureTheory.Integral.Lebesgue.Basic
import Mathlib.MeasureTheory.Integral.Lebesgue.Add

/-!
# Expected potential after choosing two centroids
-/

namespace OpenML.PlusPlus

open Spec KMeans Finset

section
variable {ι : Type}

/-- The sum of the squares of all differences is at most twice the number times the sum of the squared distances to any point. -/
theorem pairs_le (S : Finset ι) (a : ι → ℝ) (c : ℝ) : ∑ i ∈ S, ∑ j ∈ S, (a i - a j) ^ 2 ≤ 2 * (#S : ℝ) * ∑ i ∈ S, (a i - c) ^ 2 := by
  obtain ⟨b, hb⟩ : ∃ b : ι → ℝ, ∀ i, a i - c = b i := ⟨_, fun _ => rfl⟩
  have h1 : ∀ i j, (a i - a j) ^ 2 = b i ^ 2 + b j ^ 2 - b i * (2 * b j) := by
    intro i j
    rw [← hb, ← hb]
    ring
  simp only [h1, hb, Finset.sum_sub_distrib, Finset.sum_add_distrib, Finset.sum_const, nsmul_eq_mul, ← Finset.mul_sum, ← Finset.sum_mul]
  nlinarith [sq_nonneg (∑ i ∈ S, b i)]

/-- Choosing a point of a group with probability proportional to its weight costs at most eight times the cost of any centre. -/
theorem weighted_group (S : Finset ι) (d : ι → ι → ℝ) (D : ι → ℝ) (O : ℝ) (hd : ∀ i j, 0 ≤ d i j) (hD : ∀ i, 0 ≤ D i)
    (htri : ∀ i j, D j ≤ 2 * D i + 2 * d i j) (hO : ∑ i ∈ S, ∑ j ∈ S, d i j ≤ 2 * (#S : ℝ) * O) :
    ∑ j ∈ S, D j * ∑ i ∈ S, min (D i) (d i j) ≤ 8 * O * ∑ i ∈ S, D i := by
  rcases S.eq_empty_or_nonempty with rfl | hne
  · simp
  have hc : (0 : ℝ) < #S := by exact_mod_cast hne.card_pos
  have hDS : 0 ≤ ∑ i ∈ S, D i := Finset.sum_nonneg fun i _ => hD i
  have havg : ∀ j, (#S : ℝ) * D j ≤ 2 * ∑ i ∈ S, D i + 2 * ∑ i ∈ S, d i j := by
    intro j
    have := Finset.sum_le_sum fun i (_ : i ∈ S) => htri i j
    simpa only [Finset.sum_const, nsmul_eq_mul, Finset.sum_add_distrib, ← Finset.mul_sum] using this
  have hQ0 : ∀ j, 0 ≤ ∑ i ∈ S, min (D i) (d i j) := fun j => Finset.sum_nonneg fun i _ => le_min (hD i) (hd i j)
  have hQ1 : ∀ j, ∑ i ∈ S, min (D i) (d i j) ≤ ∑ i ∈ S, d i j := fun j => Finset.sum_le_sum fun i _ => min_le_right _ _
  have hQ2 : ∀ j, ∑ i ∈ S, min (D i) (d i j) ≤ ∑ i ∈ S, D i := fun j => Finset.sum_le_sum fun i _ => min_le_left _ _
  have hterm : ∀ j, (#S : ℝ) * (D j * ∑ i ∈ S, min (D i) (d i j)) ≤ 4 * (∑ i ∈ S, D i) * ∑ i ∈ S, d i j := by
    intro j
    have hd0 : 0 ≤ ∑ i ∈ S, d i j := Finset.sum_nonneg fun i _ => hd i j
    have h1 := mul_le_mul_of_nonneg_right (havg j) (hQ0 j)
    have h2 := mul_le_mul_of_nonneg_left (hQ1 j) hDS
    have h3 := mul_le_mul_of_nonneg_left (hQ2 j) hd0
    nlinarith
  have hsum := Finset.sum_le_sum fun j (_ : j ∈ S) => hterm j
  rw [← Finset.mul_sum, ← Finset.mul_sum, Finset.sum_comm] at hsum
  have h4 := mul_le_mul_of_nonneg_left hO (mul_nonneg (by norm_num : (0 : ℝ) ≤ 4) hDS)
  have h5 : (#S : ℝ) * ∑ j ∈ S, D j * ∑ i ∈ S, min (D i) (d i j) ≤ (#S : ℝ) * (8 * O * ∑ i ∈ S, D i) := by
    refine hsum.trans (h4.trans (le_of_eq ?_))
    ring
  exact le_of_mul_le_mul_left h5 hc

/-- The mean cost after a second point, for a first point in the first of two groups. -/
theorem half [DecidableEq ι] (A B : Finset ι) (hAB : Disjoint A B) (d : ι → ι → ℝ) (D : ι → ℝ) (O : ℝ) (hd : ∀ i j, 0 ≤ d i j) (hD : ∀ i, 0 ≤ D i)
    (htri : ∀ i j, D j ≤ 2 * D i + 2 * d i j) (hO0 : 0 ≤ O) (hO : ∑ i ∈ B, ∑ j ∈ B, d i j ≤ 2 * (#B : ℝ) * O) :
    ∑ j ∈ A ∪ B, D j / (∑ i ∈ A ∪ B, D i) * ∑ i ∈ A ∪ B, min (D i) (d i j) ≤ 2 * ∑ i ∈ A, D i + 8 * O := by
  have hA0 : 0 ≤ ∑ i ∈ A, D i := Finset.sum_nonneg fun i _ => hD i
  have hB0 : 0 ≤ ∑ i ∈ B, D i := Finset.sum_nonneg fun i _ => hD i
  rcases eq_or_lt_of_le (Finset.sum_nonneg fun i (_ : i ∈ A ∪ B) => hD i) with h0 | hpos
  · rw [← h0]
    simp only [div_zero, zero_mul, Finset.sum_const_zero]
    linarith
  have hsplit : ∀ g : ι → ℝ, ∑ i ∈ A ∪ B, g i = ∑ i ∈ A, g i + ∑ i ∈ B, g i := fun g => Finset.sum_union hAB
  have hP : ∑ i ∈ A ∪ B, D i = ∑ i ∈ A, D i + ∑ i ∈ B, D i := hsplit D
  set P := ∑ i ∈ A ∪ B, D i with hPdef
  have h1 : ∑ j ∈ A, D j / P * ∑ i ∈ A ∪ B, min (D i) (d i j) ≤ ∑ j ∈ A, D j := by
    refine Finset.sum_le_sum fun j _ => ?_
    have hq : ∑ i ∈ A ∪ B, min (D i) (d i j) ≤ P := Finset.sum_le_sum fun i _ => min_le_left _ _
    calc D j / P * ∑ i ∈ A ∪ B, min (D i) (d i j) ≤ D j / P * P :=
          mul_le_mul_of_nonneg_left hq (div_nonneg (hD j) hpos.le)
      _ = D j := div_mul_cancel₀ _ hpos.ne'
  have h2 : ∑ j ∈ B, D j / P * ∑ i ∈ A ∪ B, min (D i) (d i j) ≤ ∑ i ∈ A, D i + 8 * O := by
    have h3 : ∀ j, D j / P * ∑ i ∈ A ∪ B, min (D i) (d i j) ≤
        (D j * (∑ i ∈ A, D i) + D j * ∑ i ∈ B, min (D i) (d i j)) / P := by
      intro j
      rw [hsplit, div_mul_eq_mul_div, ← mul_add]
      refine div_le_div_of_nonneg_right (mul_le_mul_of_nonneg_left ?_ (hD j)) hpos.le
      have : ∑ i ∈ A, min (D i) (d i j) ≤ ∑ i ∈ A, D i := Finset.sum_le_sum fun i _ => min_le_left _ _
      linarith
    refine (Finset.sum_le_sum fun j _ => h3 j).trans ?_
    rw [← Finset.sum_div, Finset.sum_add_distrib, ← Finset.sum_mul, div_le_iff₀ hpos]
    have h4 := weighted_group B d D O hd hD htri hO
    have h5 : (∑ i ∈ B, D i) * ∑ i ∈ A, D i ≤ (∑ i ∈ A, D i) * P := by
      rw [mul_comm]
      exact mul_le_mul_of_nonneg_left (by linarith) hA0
    have h6 : 8 * O * ∑ i ∈ B, D i ≤ 8 * O * P := mul_le_mul_of_nonneg_left (by linarith) (by linarith)
    nlinarith
  rw [hsplit]
  linarith

/-- The mean cost after two points. -/
theorem two_groups [DecidableEq ι] (A B : Finset ι) (hAB : Disjoint A B) (d : ι → ι → ℝ) (O O' : ℝ) (hd : ∀ i j, 0 ≤ d i j)
    (hsym : ∀ i j, d i j = d j i)
    (htri : ∀ i j q, d i j ≤ 2 * d i q + 2 * d q j) (hO0 : 0 ≤ O) (hO0' : 0 ≤ O') (hO : ∑ i ∈ A, ∑ j ∈ A, d i j ≤ 2 * (#A : ℝ) * O)
    (hO' : ∑ i ∈ B, ∑ j ∈ B, d i j ≤ 2 * (#B : ℝ) * O') :
    ∑ f ∈ A ∪ B, ∑ j ∈ A ∪ B, d j f / (∑ i ∈ A ∪ B, d i f) * ∑ i ∈ A ∪ B, min (d i f) (d i j) ≤ (#(A ∪ B) : ℝ) * (8 * (O + O')) := by
  have htri' : ∀ f i j, d j f ≤ 2 * d i f + 2 * d i j := by
    intro f i j
    have := htri j f i
    rw [hsym j i] at this
    linarith
  rw [Finset.sum_union hAB, Finset.card_union_of_disjoint hAB]
  have h1 := Finset.sum_le_sum fun f (_ : f ∈ A) => half A B hAB d (fun i => d i f) O' hd (fun i => hd i f) (htri' f) hO0' hO'
  have h2 := Finset.sum_le_sum fun f (_ : f ∈ B) => half B A hAB.symm d (fun i => d i f) O hd (fun i => hd i f) (htri' f) hO0 hO
  rw [Finset.union_comm B A] at h2
  simp only [Finset.sum_add_distrib, ← Finset.mul_sum, Finset.sum_const, nsmul_eq_mul] at h1 h2
  rw [Finset.sum_comm] at hO hO'
  have hA : (0 : ℝ) ≤ #A := Nat.cast_nonneg _
  have hB : (0 : ℝ) ≤ #B := Nat.cast_nonneg _
  push_cast
  nlinarith [mul_nonneg hA hO0, mul_nonneg hA hO0', mul_nonneg hB hO0, mul_nonneg hB hO0']

end

section
open MeasureTheory

theorem prefix_mono {w : List ℝ} (hw : ∀ a ∈ w, 0 ≤ a) {i j : Nat} (h : i ≤ j) : (w.take i).sum ≤ (w.take j).sum := by
  obtain ⟨q, rfl⟩ := Nat.exists_eq_add_of_le h
  rw [List.take_add, List.sum_append]
  have : 0 ≤ ((w.drop i).take q).sum := List.sum_nonneg fun a ha => hw a (List.mem_of_mem_drop (List.mem_of_mem_take ha))
  linarith

/-- The positive numbers that lead to one index are an interval. -/
theorem pick_iff {w : List ℝ} (hw : ∀ a ∈ w, 0 ≤ a) (hpos : 0 < w.sum) {r : ℝ} (hr : 0 < r) (i : Fin w.length) :
    IsRoulettePick w r i ↔ r ∈ Set.Ioc ((w.take i).sum / w.sum) ((w.take (i + 1)).sum / w.sum) := by
  rw [Set.mem_Ioc, div_lt_iff₀ hpos, le_div_iff₀ hpos]
  constructor
  · rintro ⟨-, h1, h2⟩
    refine ⟨?_, h1⟩
    obtain ⟨i, hi⟩ := i
    cases i with
    | zero => simpa using mul_pos hr hpos
    | succ i => exact h2 i (by simp)
  · rintro ⟨h1, h2⟩
    exact ⟨i.2, h2, fun j hj => (prefix_mono hw (Nat.succ_le_of_lt hj)).trans_lt h1⟩

/-- Each index is chosen with probability proportional to its weight. -/
theorem pick_measure {w : List ℝ} (hw : ∀ a ∈ w, 0 ≤ a) (hpos : 0 < w.sum) (i : Fin w.length) :
    volume (Set.Ioc ((w.take i).sum / w.sum) ((w.take (i + 1)).sum / w.sum)) = ENNReal.ofReal (w[i] / w.sum) := by
  rw [Real.volume_Ioc, ← sub_div, List.take_add_one, List.getElem?_eq_getElem i.2]
  simp

theorem pick_subset {w : List ℝ} (hw : ∀ a ∈ w, 0 ≤ a) (hpos : 0 < w.sum) (i : Fin w.length) :
    Set.Ioc ((w.take i).sum / w.sum) ((w.take (i + 1)).sum / w.sum) ⊆ Set.Ioc 0 1 := by
  intro r hr
  have h0 : 0 ≤ (w.take i).sum := List.sum_nonneg fun a ha => hw a (List.mem_of_mem_take ha)
  have h1 : (w.take (i + 1)).sum ≤ w.sum := by
    have := prefix_mono hw (show (i : Nat) + 1 ≤ w.length from i.2)
    rwa [List.take_length] at this
  exact ⟨(div_nonneg h0 hpos.le).trans_lt hr.1, hr.2.trans ((div_le_one hpos).mpr h1)⟩

/-- Bound for the mean of a function that is bounded for each index. -/
theorem pick_lintegral {w : List ℝ} (hw : ∀ a ∈ w, 0 ≤ a) (hpos : 0 < w.sum) (g : Fin w.length → ℝ) (hg : ∀ i, 0 ≤ g i) (F : ℝ → ℝ)
    (hF : ∀ r ∈ Set.Ioc (0 : ℝ) 1, ∀ i : Fin w.length, IsRoulettePick w r i → F r ≤ g i) :
    ∫⁻ r in Set.Ioc (0 : ℝ) 1, ENNReal.ofReal (F r) ≤ ENNReal.ofReal (∑ i : Fin w.length, w[i] / w.sum * g i) := by
  have hne : w ≠ [] := by rintro rfl; simp at hpos
  have h1 : ∀ r ∈ Set.Ioc (0 : ℝ) 1, ENNReal.ofReal (F r) ≤ ∑ i : Fin w.length,
      (Set.Ioc ((w.take i).sum / w.sum) ((w.take (i + 1)).sum / w.sum)).indicator (fun _ => ENNReal.ofReal (g i)) r := by
    intro r hr
    have hp := candidate_roulette w r hw hr.2 hne
    set c : Fin w.length := ⟨candidate w w.sum r, candidate_lt w w.sum r hne⟩ with hc
    refine le_trans ?_ (Finset.single_le_sum (f := fun i : Fin w.length =>
      (Set.Ioc ((w.take i).sum / w.sum) ((w.take (i + 1)).sum / w.sum)).indicator (fun _ => ENNReal.ofReal (g i)) r)
      (fun _ _ => zero_le') (Finset.mem_univ c))
    rw [Set.indicator_of_mem ((pick_iff hw hpos hr.1 c).mp hp)]
    exact ENNReal.ofReal_le_ofReal (hF r hr c hp)
  refine (setLIntegral_mono' measurableSet_Ioc h1).trans ?_
  rw [lintegral_finsetSum _ fun i _ => measurable_const.indicator measurableSet_Ioc]
  have h0 : ∀ i : Fin w.length, 0 ≤ w[i] / w.sum := fun i => div_nonneg (hw _ (List.getElem_mem _)) hpos.le
  rw [ENNReal.ofReal_sum_of_nonneg fun i _ => mul_nonneg (h0 i) (hg i)]
  refine Finset.sum_le_sum fun i _ => ?_
  rw [lintegral_indicator_const measurableSet_Ioc, ENNReal.ofReal_mul (h0 i), mul_comm,
    ← pick_measure hw hpos i]
  exact mul_le_mul_left (Measure.restrict_le_self _) _

end

section

theorem sqDist_symm (d : Nat) (x y : List ℝ) (hx : x.length = d) (hy : y.length = d) : sqDist x y = sqDist y x := by
  rw [sqDist_coord d x y hx hy, sqDist_coord d y x hy hx]
  exact Finset.sum_congr rfl fun q _ => by ring

theorem sqDist_tri (d : Nat) (x y z : List ℝ) (hx : x.length = d) (hy : y.length = d) (hz : z.length = d) :
    sqDist x y ≤ 2 * sqDist x z + 2 * sqDist z y := by
  rw [sqDist_coord d x y hx hy, sqDist_coord d x z hx hz, sqDist_coord d z y hz hy, Finset.mul_sum, Finset.mul_sum, ← Finset.sum_add_distrib]
  refine Finset.sum_le_sum fun q _ => ?_
  nlinarith [sq_nonneg (x.getD q 0 - z.getD q 0 - (z.getD q 0 - y.getD q 0))]

/-- All pairs of a group against one centre. -/
theorem group_pairs {ι : Type} (d : Nat) (S : Finset ι) (row : ι → List ℝ) (hr : ∀ i, (row i).length = d) (c : List ℝ) (hc : c.length = d) :
    ∑ i ∈ S, ∑ j ∈ S, sqDist (row i) (row j) ≤ 2 * (#S : ℝ) * ∑ i ∈ S, sqDist (row i) c := by
  have h1 : ∑ i ∈ S, ∑ j ∈ S, sqDist (row i) (row j) =
      ∑ q ∈ Finset.range d, ∑ i ∈ S, ∑ j ∈ S, ((row i).getD q 0 - (row j).getD q 0) ^ 2 := by
    rw [Finset.sum_comm]
    rw [Finset.sum_congr rfl fun j _ => Finset.sum_congr rfl fun i _ => sqDist_coord d (row i) (row j) (hr i) (hr j)]
    rw [Finset.sum_comm]
    rw [Finset.sum_congr rfl fun i _ => Finset.sum_comm]
    rw [Finset.sum_comm]
  have h2 : ∑ i ∈ S, sqDist (row i) c = ∑ q ∈ Finset.range d, ∑ i ∈ S, ((row i).getD q 0 - c.getD q 0) ^ 2 := by
    rw [Finset.sum_congr rfl fun i _ => sqDist_coord d (row i) c (hr i) hc, Finset.sum_comm]
  rw [h1, h2, Finset.mul_sum]
  exact Finset.sum_le_sum fun q _ => pairs_le S (fun i => (row i).getD q 0) (c.getD q 0)

theorem inertia_fin (rows C : List (List ℝ)) : inertia rows C = ∑ i : Fin rows.length, minSqDist rows[i] C := by
  unfold inertia
  conv_lhs => rw [← List.ofFn_getElem (xs := rows), List.map_ofFn, List.sum_ofFn]
  rfl

/-- The mean over all first rows and the mean over the second row with weights. -/
theorem two_rows (d : Nat) (rows : List (List ℝ)) (hw : ∀ r ∈ rows, r.length = d) (c c' : List ℝ) (hc : c.length = d) (hc' : c'.length = d) :
    ∑ f : Fin rows.length, ∑ j : Fin rows.length, sqDist rows[j] rows[f] / inertia rows [rows[f]] * inertia rows [rows[f], rows[j]] ≤
      (rows.length : ℝ) * (8 * inertia rows [c, c']) := by
  classical
  let A : Finset (Fin rows.length) := Finset.univ.filter fun i => sqDist rows[i] c ≤ sqDist rows[i] c'
  let B : Finset (Fin rows.length) := Finset.univ.filter fun i => ¬ sqDist rows[i] c ≤ sqDist rows[i] c'
  have hAB : Disjoint A B := Finset.disjoint_filter_filter_not _ _ _
  have hU : A ∪ B = Finset.univ := Finset.filter_union_filter_not_eq _ _
  have hlen : ∀ i : Fin rows.length, rows[i].length = d := fun i => hw _ (List.getElem_mem _)
  have h := two_groups A B hAB (fun i j => sqDist rows[i] rows[j]) (∑ i ∈ A, sqDist rows[i] c) (∑ i ∈ B, sqDist rows[i] c')
    (fun i j => sqDist_nonneg _ _) (fun i j => sqDist_symm d _ _ (hlen i) (hlen j)) (fun i j q => sqDist_tri d _ _ _ (hlen i) (hlen j) (hlen q))
    (Finset.sum_nonneg fun i _ => sqDist_nonneg _ _) (Finset.sum_nonneg fun i _ => sqDist_nonneg _ _)
    (group_pairs d A (fun i => rows[i]) hlen c hc) (group_pairs d B (fun i => rows[i]) hlen c' hc')
  rw [hU, Finset.card_univ, Fintype.card_fin] at h
  have hO : ∑ i ∈ A, sqDist rows[i] c + ∑ i ∈ B, sqDist rows[i] c' = inertia rows [c, c'] := by
    rw [inertia_fin, ← hU, Finset.sum_union hAB]
    congr 1
    · refine Finset.sum_congr rfl fun i hi => ?_
      simp only [minSqDist]
      exact (min_eq_left (Finset.mem_filter.mp hi).2).symm
    · refine Finset.sum_congr rfl fun i hi => ?_
      simp only [minSqDist]
      exact (min_eq_right (not_le.mp (Finset.mem_filter.mp hi).2).le).symm
  rw [hO] at h
  refine le_trans (le_of_eq ?_) h
  simp only [inertia_fin, minSqDist]

end

end OpenML.PlusPlus
