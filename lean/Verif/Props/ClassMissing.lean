import Verif.Props.FiniteChoice
import Mathlib.Algebra.BigOperators.Ring.List

/-!
# How often a training part or a mini-batch has no sample of a class (C185)
-/

namespace OpenML

open Spec SGD Data Random

namespace Sampling

/-- A block of the shuffled list. -/
theorem block_eq {β : Type} (X : List β) {start b : Nat} (h : start + b ≤ X.length) (d : Draws X.length) :
    ((scatter (permutation d.seq X.length) X X).drop start).take b = List.ofFn fun i : Fin b => X[(order d)⁻¹ (position h i)] := by
  have hl := length_scatter (permutation d.seq X.length) X X
  refine List.ext_getElem (by simp [hl]; omega) fun i h1 h2 => ?_
  rw [List.length_ofFn] at h2
  rw [List.getElem_take, List.getElem_drop, List.getElem_ofFn]
  have h3 := shuffled_at X d (position h ⟨i, h2⟩)
  obtain ⟨h4, h5⟩ := List.getElem?_eq_some_iff.mp h3
  exact h5

theorem block_missing {β : Type} [DecidableEq β] (y : List β) (a : β) {start b : Nat} (hn : 0 < y.length) (h : start + b ≤ y.length) :
    shareOf (fun d : Draws y.length => a ∉ ((scatter (permutation d.seq y.length) y y).drop start).take b) ≤
      (1 - (y.count a : ℝ) / y.length) ^ b := by
  classical
  have hn0 : (y.length : ℝ) ≠ 0 := by exact_mod_cast hn.ne'
  let z : Fin y.length → ℝ := fun i => if y[i] = a then 0 else 1
  have hz : ∑ i, z i = y.length - y.count a := by
    have h1 := list_sum y fun r => if r = a then (0 : ℝ) else 1
    have h2 : ∀ l : List β, (l.map fun r => if r = a then (0 : ℝ) else 1).sum = l.length - l.count a := by
      intro l
      induction l with
      | nil => simp
      | cons c l ih =>
        by_cases hc : c = a
        · subst hc
          simp [ih]
        · simp [ih, hc]
          ring
    rw [h2 y] at h1
    exact h1.symm
  have hind : ∀ d : Draws y.length, (if a ∉ ((scatter (permutation d.seq y.length) y y).drop start).take b then (1 : ℝ) else 0) =
      ∏ p ∈ Finset.univ.map ⟨position h, position_injective h⟩, z ((order d)⁻¹ p) := by
    intro d
    rw [Finset.prod_map, block_eq y h d]
    simp only [Function.Embedding.coeFn_mk, List.mem_ofFn', Set.mem_range, not_exists]
    split
    · rename_i hno
      rw [Finset.prod_eq_one fun i _ => if_neg (hno i)]
    · rename_i hex
      push Not at hex
      obtain ⟨i, hi⟩ := hex
      symm
      refine Finset.prod_eq_zero (Finset.mem_univ i) ?_
      exact if_pos hi
  have hp := product_le z hn (fun i => by dsimp only [z]; split <;> norm_num) (Finset.univ.map ⟨position h, position_injective h⟩)
  rw [Finset.card_map, Finset.card_univ, Fintype.card_fin, productSum, hz, sub_div, div_self hn0] at hp
  have hfac : (0 : ℝ) < y.length.factorial := by exact_mod_cast y.length.factorial_pos
  rw [HoldOut.shareOf_eq]
  unfold averageDraws
  rw [C111_choices, Finset.sum_congr rfl fun d _ => hind d,
    sum_draws fun s => ∏ p ∈ Finset.univ.map ⟨position h, position_injective h⟩, z (s p), div_le_iff₀ hfac, mul_comm]
  exact hp

theorem shareOf_mem {n : Nat} {β : Type} (P : β → Draws n → Prop) (e : β → ℝ) : ∀ l : List β, (∀ a ∈ l, shareOf (P a) ≤ e a) →
    shareOf (fun d => ∃ a ∈ l, P a d) ≤ (l.map e).sum
  | [], _ => by
    classical
    rw [HoldOut.shareOf_eq]
    simp [averageDraws]
  | a :: l, h => by
    classical
    have ih := shareOf_mem P e l fun c hc => h c (List.mem_cons_of_mem _ hc)
    have ha := h a (List.mem_cons_self ..)
    have : shareOf (fun d => ∃ c ∈ a :: l, P c d) ≤ shareOf (P a) + shareOf (fun d => ∃ c ∈ l, P c d) := by
      rw [HoldOut.shareOf_eq, HoldOut.shareOf_eq, HoldOut.shareOf_eq]
      unfold averageDraws
      rw [← add_div, ← Finset.sum_add_distrib]
      refine HoldOut.averageDraws_mono fun d => ?_
      by_cases h1 : P a d
      · rw [if_pos h1]
        have : (0 : ℝ) ≤ if ∃ c ∈ l, P c d then 1 else 0 := by split <;> norm_num
        have : (if ∃ c ∈ a :: l, P c d then (1 : ℝ) else 0) ≤ 1 := by split <;> norm_num
        linarith
      · have hiff : (∃ c ∈ a :: l, P c d) ↔ ∃ c ∈ l, P c d := by
          simp [h1]
        rw [if_neg h1, zero_add]
        simp only [hiff]
        exact le_rfl
    rw [List.map_cons, List.sum_cons]
    linarith

end Sampling

open HoldOut Sampling

/-- C185: `train_test_split` with uniform random numbers behind the shuffle and `k` training samples of `n`: the share of the splits whose
training part has no sample of some class is at most the sum over the classes of `(1 - share of the class) ^ k`. -/
theorem C185_split {ρ β : Type} [DecidableEq β] (X : List ρ) (y : List β) (hxy : X.length = y.length) (trainSize : ℚ) (k : Nat)
    (hk : truncInt ((X.length : ℚ) * trainSize) = k) (hn : 0 < X.length) (hkn : k ≤ X.length) :
    ∃ S : Draws X.length → List ρ × List ρ × List β × List β,
      (∀ d, trainTestSplit X y trainSize (some (permutation d.seq X.length)) = .ok (S d)) ∧
      (∀ a, shareOf (fun d => a ∉ (S d).2.2.1) ≤ (1 - (y.count a : ℝ) / X.length) ^ k) ∧
      shareOf (fun d => ∃ a ∈ y, a ∉ (S d).2.2.1) ≤ (y.dedup.map fun a => (1 - (y.count a : ℝ) / X.length) ^ k).sum := by
  have one : ∀ a, shareOf (fun d : Draws X.length => a ∉ (scatter (permutation d.seq X.length) y y).take k) ≤
      (1 - (y.count a : ℝ) / X.length) ^ k := by
    intro a
    have := block_missing y a (start := 0) (b := k) (by omega) (by omega)
    rw [← hxy] at this
    simpa only [List.drop_zero] using this
  refine ⟨_, split_eq X y hxy trainSize k hk hkn, one, ?_⟩
  refine (shareOf_mono fun d hd => ?_).trans (shareOf_mem _ _ y.dedup fun a _ => one a)
  obtain ⟨a, ha, hm⟩ := hd
  exact ⟨a, List.mem_dedup.mpr ha, hm⟩

/-- Example for `C185_split`: 100 labels, each of 0 and 1 fifty times: with 50 training samples the share of the splits without one of the
classes is at most `2 / 2 ^ 50`. -/
example : ∃ S : Draws (List.range 100).length → List Nat × List Nat × List Nat × List Nat,
    (∀ d, trainTestSplit (List.range 100) ((List.range 100).map (· % 2)) (1 / 2) (some (permutation d.seq (List.range 100).length)) =
      .ok (S d)) ∧
    shareOf (fun d => ∃ a ∈ (List.range 100).map (· % 2), a ∉ (S d).2.2.1) ≤ 2 * (1 / 2) ^ 50 := by
  obtain ⟨S, h1, -, h2⟩ := C185_split (List.range 100) ((List.range 100).map (· % 2)) (by simp) (1 / 2) 50
    (by rw [List.length_range]; decide +kernel) (by simp) (by simp)
  refine ⟨S, h1, h2.trans (le_of_eq ?_)⟩
  have hd : ((List.range 100).map (· % 2)).dedup = [0, 1] := by decide +kernel
  have h0 : ((List.range 100).map (· % 2)).count 0 = 50 := by decide +kernel
  have h1 : ((List.range 100).map (· % 2)).count 1 = 50 := by decide +kernel
  rw [hd]
  simp only [List.map_cons, List.map_nil, List.sum_cons, List.sum_nil, h0, h1, List.length_range]
  norm_num

/-- C185: mini-batches: the share of the shuffles for which a batch of `b` samples has no sample of a class is at most
`(1 - share of the class) ^ b`. -/
theorem C185_batch {β : Type} [DecidableEq β] (y : List β) (a : β) (start b : Nat) (hn : 0 < y.length) (h : start + b ≤ y.length) :
    ∃ labels : Draws y.length → List β,
      (∀ d, (permuteRows (permutation d.seq y.length) y >>= fun r => middleRows r start b) = .ok (labels d)) ∧
      shareOf (fun d => a ∉ labels d) ≤ (1 - (y.count a : ℝ) / y.length) ^ b := by
  refine ⟨fun d => ((scatter (permutation d.seq y.length) y y).drop start).take b, fun d => ?_, block_missing y a hn h⟩
  unfold permuteRows
  rw [if_pos (permutation_length _ _), Res.bind_ok, middleRows, length_scatter, if_pos h]

/-- Example for `C185_batch`: batches of 10 samples and a class with a half of the samples. -/
example : ∃ labels : Draws ((List.range 100).map (· % 2)).length → List Nat,
    (∀ d, (permuteRows (permutation d.seq ((List.range 100).map (· % 2)).length) ((List.range 100).map (· % 2)) >>=
      fun r => middleRows r 20 10) = .ok (labels d)) ∧ shareOf (fun d => 1 ∉ labels d) ≤ 1 / 1024 := by
  obtain ⟨l, h1, h2⟩ := C185_batch ((List.range 100).map (· % 2)) 1 20 10 (by simp) (by simp)
  refine ⟨l, h1, h2.trans (le_of_eq ?_)⟩
  have hc : ((List.range 100).map (· % 2)).count 1 = 50 := by decide +kernel
  rw [hc, List.length_map, List.length_range]
  norm_num

end OpenML
