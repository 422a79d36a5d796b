import Verif.Props.ClassMissing
import Verif.Props.NaiveBayes

/-!
# Classes and priors that naive Bayes learns from the training part of a split (C188)
-/

namespace OpenML

open Spec SGD Data Random NB

namespace Sampling

theorem average_count (l : List ℝ) (a : ℝ) : average (l.map fun r => if r = a then (1 : ℝ) else 0) = (l.count a : ℝ) / l.length := by
  have h : ∀ l : List ℝ, (l.map fun r => if r = a then (1 : ℝ) else 0).sum = l.count a := by
    intro l
    induction l with
    | nil => simp
    | cons c l ih =>
      by_cases hc : c = a
      · subst hc
        simp [ih, add_comm]
      · simp [ih, hc]
  unfold average
  rw [h, List.length_map]

end Sampling

open Sampling HoldOut

/-- C188: a naive Bayes object fitted with the `k` training samples of `train_test_split`, uniform random numbers behind the shuffle. The share
of the splits for which a reported prior differs by `t` or more from the share of its class in all samples is at most `2 c exp (-2 k t^2)` for
`c` classes. -/
theorem C188_priors {ρ : Type} (X : List ρ) (y : List ℝ) (hxy : X.length = y.length) (trainSize : ℚ) (k : Nat)
    (hk : truncInt ((X.length : ℚ) * trainSize) = k) (hk0 : 0 < k) (hkn : k ≤ X.length) (t : ℝ) (ht : 0 < t) :
    ∃ S : Draws X.length → List ρ × List ρ × List ℝ × List ℝ,
      (∀ d, trainTestSplit X y trainSize (some (permutation d.seq X.length)) = .ok (S d)) ∧
      shareOf (fun d => ∃ e ∈ (classesOf (labelMapAfter [(S d).2.2.1])).zip (priorsOf (labelMapAfter [(S d).2.2.1]) (S d).2.2.1.length),
        t ≤ |e.2 - (y.count e.1 : ℝ) / X.length|) ≤ 2 * y.dedup.length * Real.exp (-2 * k * t ^ 2) := by
  refine ⟨_, split_eq X y hxy trainSize k hk hkn, ?_⟩
  dsimp only
  have one : ∀ a : ℝ, shareOf (fun d : Draws X.length => t ≤ |(((scatter (permutation d.seq X.length) y y).take k).count a : ℝ) /
      ((scatter (permutation d.seq X.length) y y).take k).length - (y.count a : ℝ) / X.length|) ≤ 2 * Real.exp (-2 * k * t ^ 2) := by
    intro a
    have := block_tail y (fun r => if r = a then (1 : ℝ) else 0) (fun r _ => by split <;> norm_num) (start := 0) hk0 (by omega) t ht
    simp only [List.drop_zero, average_count] at this
    rw [← hxy] at this
    exact this
  have := shareOf_mem (fun a (d : Draws X.length) => t ≤ |(((scatter (permutation d.seq X.length) y y).take k).count a : ℝ) /
      ((scatter (permutation d.seq X.length) y y).take k).length - (y.count a : ℝ) / X.length|) (fun _ => 2 * Real.exp (-2 * k * t ^ 2))
      y.dedup fun a _ => one a
  rw [List.map_const', List.sum_replicate, nsmul_eq_mul] at this
  refine (shareOf_mono fun d hd => ?_).trans (this.trans (le_of_eq (by ring)))
  obtain ⟨e, he, hte⟩ := hd
  have hne : (scatter (permutation d.seq X.length) y y).take k ≠ [] := by
    refine List.ne_nil_of_length_pos ?_
    rw [List.length_take, length_scatter]
    omega
  have hpr := (C42_priors [] ((scatter (permutation d.seq X.length) y y).take k) hne).1
  simp only [List.nil_append, List.flatten_cons, List.flatten_nil, List.append_nil] at hpr
  have hval := (List.forall₂_iff_zip.mp hpr).2 he
  refine ⟨e.1, ?_, ?_⟩
  · obtain ⟨h1, -⟩ := List.of_mem_zip he
    obtain ⟨l, hl, hm⟩ := ((C42_classes _).2 e.1).mp h1
    rw [List.mem_singleton.mp hl] at hm
    have hp : (permutation d.seq X.length).Perm (List.range y.length) := by
      rw [← hxy]; exact permutation_perm d.seq X.length
    exact List.mem_dedup.mpr ((scatter_perm _ y hp).mem_iff.mp (List.mem_of_mem_take hm))
  · rw [← hval]
    exact hte

/-- C188: the share of the splits for which the object does not report exactly the classes of all samples is at most the sum of
`(1 - share of the class) ^ k` over the classes. -/
theorem C188_classes {ρ : Type} (X : List ρ) (y : List ℝ) (hxy : X.length = y.length) (trainSize : ℚ) (k : Nat)
    (hk : truncInt ((X.length : ℚ) * trainSize) = k) (hn : 0 < X.length) (hkn : k ≤ X.length) :
    ∃ S : Draws X.length → List ρ × List ρ × List ℝ × List ℝ,
      (∀ d, trainTestSplit X y trainSize (some (permutation d.seq X.length)) = .ok (S d)) ∧
      shareOf (fun d => classesOf (labelMapAfter [(S d).2.2.1]) ≠ classesOf (labelMapAfter [y])) ≤
        (y.dedup.map fun a => (1 - (y.count a : ℝ) / X.length) ^ k).sum := by
  obtain ⟨S, h1, -, h2⟩ := C185_split X y hxy trainSize k hk hn hkn
  refine ⟨S, h1, (shareOf_mono fun d hd => ?_).trans h2⟩
  by_contra hall
  push Not at hall
  refine hd ?_
  obtain ⟨s1, m1⟩ := C42_classes [(S d).2.2.1]
  obtain ⟨s2, m2⟩ := C42_classes [y]
  have hsub : ∀ a ∈ (S d).2.2.1, a ∈ y := by
    intro a ha
    have h3 := h1 d
    rw [split_eq X y hxy trainSize k hk hkn d] at h3
    have h4 : S d = _ := (Res.ok.inj h3).symm
    rw [h4] at ha
    have hp : (permutation d.seq X.length).Perm (List.range y.length) := by
      rw [← hxy]; exact permutation_perm d.seq X.length
    exact (scatter_perm _ y hp).mem_iff.mp (List.mem_of_mem_take ha)
  refine List.Perm.eq_of_pairwise (le := (· < ·)) (fun a b _ _ h h' => absurd h' (lt_asymm h)) s1 s2 ?_
  refine (List.perm_ext_iff_of_nodup (s1.imp fun h => ne_of_lt h) (s2.imp fun h => ne_of_lt h)).mpr fun a => ?_
  rw [m1, m2]
  simp only [List.mem_singleton, exists_eq_left]
  exact ⟨hsub a, hall a⟩

namespace SplitPriors

/-- 200 labels 1 and 200 labels 2. -/
noncomputable def halfLabels : List ℝ := List.replicate 200 1 ++ List.replicate 200 2

theorem halfLabels_length : (List.range 400).length = halfLabels.length := by
  rw [List.length_range, halfLabels, List.length_append, List.length_replicate, List.length_replicate]

theorem halfLabels_count : halfLabels.count 1 = 200 ∧ halfLabels.count 2 = 200 := by
  unfold halfLabels
  rw [List.count_append, List.count_append, List.count_replicate, List.count_replicate, List.count_replicate, List.count_replicate]
  norm_num

theorem halfLabels_dedup : halfLabels.dedup.length ≤ 2 := by
  have : halfLabels.dedup ⊆ [1, 2] := by
    intro a ha
    have := List.mem_dedup.mp ha
    simp only [halfLabels, List.mem_append, List.mem_replicate] at this
    rcases this with ⟨_, rfl⟩ | ⟨_, rfl⟩ <;> simp
  exact (List.subperm_of_subset (List.nodup_dedup _) this).length_le

end SplitPriors

open SplitPriors

/-- Example for `C188_priors`: 200 of 400 samples of two classes for training: for at most `4 exp (-4)` of the splits a prior is wrong by one tenth or
more. -/
example : ∃ S : Draws (List.range 400).length → List Nat × List Nat × List ℝ × List ℝ,
    (∀ d, trainTestSplit (List.range 400) halfLabels (1 / 2) (some (permutation d.seq (List.range 400).length)) = .ok (S d)) ∧
    shareOf (fun d => ∃ e ∈ (classesOf (labelMapAfter [(S d).2.2.1])).zip (priorsOf (labelMapAfter [(S d).2.2.1]) (S d).2.2.1.length),
      1 / 10 ≤ |e.2 - (halfLabels.count e.1 : ℝ) / (List.range 400).length|) ≤ 4 * Real.exp (-4) := by
  obtain ⟨S, h1, h2⟩ := C188_priors (List.range 400) halfLabels halfLabels_length (1 / 2) 200
    (by rw [List.length_range]; decide +kernel) (by norm_num) (by simp) (1 / 10) (by norm_num)
  refine ⟨S, h1, h2.trans ?_⟩
  have h3 : (halfLabels.dedup.length : ℝ) ≤ 2 := by exact_mod_cast halfLabels_dedup
  have h4 : (-2 * ((200 : Nat) : ℝ) * (1 / 10) ^ 2) = -4 := by norm_num
  rw [h4]
  have := Real.exp_pos (-4)
  nlinarith

/-- Example for `C188_classes`: the same data; practically no split loses a class. -/
example : ∃ S : Draws (List.range 400).length → List Nat × List Nat × List ℝ × List ℝ,
    (∀ d, trainTestSplit (List.range 400) halfLabels (1 / 2) (some (permutation d.seq (List.range 400).length)) = .ok (S d)) ∧
    shareOf (fun d => classesOf (labelMapAfter [(S d).2.2.1]) ≠ classesOf (labelMapAfter [halfLabels])) ≤ 2 * (1 / 2) ^ 200 := by
  obtain ⟨S, h1, h2⟩ := C188_classes (List.range 400) halfLabels halfLabels_length (1 / 2) 200
    (by rw [List.length_range]; decide +kernel) (by simp) (by simp)
  refine ⟨S, h1, h2.trans ?_⟩
  have hc : ∀ a ∈ halfLabels.dedup, (1 - (halfLabels.count a : ℝ) / (List.range 400).length) ^ 200 = (1 / 2) ^ 200 := by
    intro a ha
    have := List.mem_dedup.mp ha
    simp only [halfLabels, List.mem_append, List.mem_replicate] at this
    rcases this with ⟨_, rfl⟩ | ⟨_, rfl⟩
    · rw [halfLabels_count.1, List.length_range]
      norm_num
    · rw [halfLabels_count.2, List.length_range]
      norm_num
  rw [List.map_congr_left hc, List.map_const', List.sum_replicate, nsmul_eq_mul]
  refine mul_le_mul_of_nonneg_right ?_ (by positivity)
  exact_mod_cast halfLabels_dedup

end OpenML
