import Mathlib.GroupTheory.Perm.Basic
import Mathlib.Algebra.BigOperators.Fin
import Mathlib.Algebra.BigOperators.Field
import Mathlib.Data.Fintype.Perm
import Mathlib.Tactic.FieldSimp
import Mathlib.Tactic.Linarith
import Verif.Spec.Sampling
import Verif.Lemmas.Data
import Verif.Props.Random

/-!
# Sums over all permutations, and the permutations drawn by the shuffle
-/

namespace OpenML.Sampling

open OpenML.Spec OpenML.Random OpenML.Data

section Perm
variable {n : Nat} (g : Fin n → ℝ)

theorem sum_at (t t' : Fin n) : ∑ s : Equiv.Perm (Fin n), g (s t) = ∑ s : Equiv.Perm (Fin n), g (s t') := by
  rw [← Equiv.sum_comp (Equiv.mulRight (Equiv.swap t t')) fun s => g (s t)]
  exact Finset.sum_congr rfl fun s _ => by simp

theorem sum_one (t : Fin n) : (n : ℝ) * ∑ s : Equiv.Perm (Fin n), g (s t) = n.factorial * ∑ i, g i := by
  have h1 : ∑ t' : Fin n, ∑ s : Equiv.Perm (Fin n), g (s t') = n * ∑ s : Equiv.Perm (Fin n), g (s t) := by
    rw [Finset.sum_congr rfl fun t' _ => sum_at g t' t]
    simp
  rw [← h1, Finset.sum_comm]
  rw [Finset.sum_congr rfl fun (s : Equiv.Perm (Fin n)) _ => Equiv.sum_comp s g]
  simp [Fintype.card_perm]

theorem sum_pair (t a b : Fin n) (ha : a ≠ t) (hb : b ≠ t) :
    ∑ s : Equiv.Perm (Fin n), g (s t) * g (s a) = ∑ s : Equiv.Perm (Fin n), g (s t) * g (s b) := by
  rw [← Equiv.sum_comp (Equiv.mulRight (Equiv.swap a b)) fun s => g (s t) * g (s a)]
  exact Finset.sum_congr rfl fun s _ => by simp [Equiv.swap_apply_of_ne_of_ne ha.symm hb.symm]

theorem sum_two (hg : ∑ i, g i = 0) (t a : Fin n) (ha : a ≠ t) :
    ((n : ℝ) - 1) * ∑ s : Equiv.Perm (Fin n), g (s t) * g (s a) = -∑ s : Equiv.Perm (Fin n), g (s t) ^ 2 := by
  have h1 : ∑ a' : Fin n, ∑ s : Equiv.Perm (Fin n), g (s t) * g (s a') = 0 := by
    rw [Finset.sum_comm]
    refine Finset.sum_eq_zero fun s _ => ?_
    rw [← Finset.mul_sum, Equiv.sum_comp s g, hg, mul_zero]
  rw [← Finset.add_sum_erase _ _ (Finset.mem_univ t), Finset.sum_congr rfl fun a' ha' => sum_pair g t a' a
    (Finset.ne_of_mem_erase ha') ha, Finset.sum_const, Finset.card_erase_of_mem (Finset.mem_univ t), Finset.card_univ,
    Fintype.card_fin, nsmul_eq_mul, Nat.cast_sub (Nat.one_le_iff_ne_zero.mpr (Nat.ne_zero_of_lt t.2)), Nat.cast_one] at h1
  have h2 : ∑ s : Equiv.Perm (Fin n), g (s t) * g (s t) = ∑ s : Equiv.Perm (Fin n), g (s t) ^ 2 :=
    Finset.sum_congr rfl fun s _ => by ring
  linarith

/-- First moment of a sum over the positions `e`. -/
theorem first_moment {b : Nat} (e : Fin b → Fin n) :
    (n : ℝ) * ∑ s : Equiv.Perm (Fin n), ∑ i, g (s (e i)) = b * (n.factorial * ∑ i, g i) := by
  rw [Finset.sum_comm, Finset.mul_sum, Finset.sum_congr rfl fun i _ => sum_one g (e i)]
  simp

/-- Second moment of a sum over different positions of values that add up to zero. -/
theorem second_moment (hn : 2 ≤ n) (hg : ∑ i, g i = 0) {b : Nat} (e : Fin b → Fin n) (he : Function.Injective e) :
    (n : ℝ) * ((n : ℝ) - 1) * ∑ s : Equiv.Perm (Fin n), (∑ i, g (s (e i))) ^ 2 =
      b * ((n : ℝ) - b) * (n.factorial * ∑ i, g i ^ 2) := by
  have hn0 : (n : ℝ) ≠ 0 := by
    have : (2 : ℝ) ≤ n := by exact_mod_cast hn
    linarith
  obtain ⟨B, hB⟩ : ∃ B : ℝ, (n : ℝ) * B = n.factorial * ∑ i, g i ^ 2 := ⟨_, mul_div_cancel₀ _ hn0⟩
  have hsq : ∀ t : Fin n, ∑ s : Equiv.Perm (Fin n), g (s t) ^ 2 = B := fun t =>
    mul_left_cancel₀ hn0 ((sum_one (fun i => g i ^ 2) t).trans hB.symm)
  have h1 : ∀ i : Fin b, ((n : ℝ) - 1) * ∑ j, ∑ s : Equiv.Perm (Fin n), g (s (e i)) * g (s (e j)) = ((n : ℝ) - b) * B := by
    intro i
    rw [← Finset.add_sum_erase _ _ (Finset.mem_univ i), mul_add, Finset.mul_sum (Finset.univ.erase i),
      Finset.sum_congr rfl fun j hj => sum_two g hg (e i) (e j) (fun h => Finset.ne_of_mem_erase hj (he h)),
      Finset.sum_const, Finset.card_erase_of_mem (Finset.mem_univ i), Finset.card_univ, Fintype.card_fin, nsmul_eq_mul,
      Nat.cast_sub (Nat.one_le_iff_ne_zero.mpr (Nat.ne_zero_of_lt i.2)), Nat.cast_one, hsq]
    have h2 : ∑ s : Equiv.Perm (Fin n), g (s (e i)) * g (s (e i)) = B := by
      rw [← hsq (e i)]
      exact Finset.sum_congr rfl fun s _ => by ring
    rw [h2]
    ring
  have h3 : ∑ s : Equiv.Perm (Fin n), (∑ i, g (s (e i))) ^ 2 = ∑ i, ∑ j, ∑ s : Equiv.Perm (Fin n), g (s (e i)) * g (s (e j)) := by
    rw [Finset.sum_congr rfl fun (s : Equiv.Perm (Fin n)) _ => (by rw [sq, Finset.sum_mul_sum] :
      (∑ i, g (s (e i))) ^ 2 = ∑ i, ∑ j, g (s (e i)) * g (s (e j)))]
    rw [Finset.sum_comm]
    exact Finset.sum_congr rfl fun i _ => Finset.sum_comm
  rw [h3, mul_assoc, Finset.mul_sum, Finset.sum_congr rfl fun i _ => h1 i, Finset.sum_const, Finset.card_univ, Fintype.card_fin,
    nsmul_eq_mul, ← hB]
  ring

end Perm

section Draws
variable {n : Nat}

theorem entry_lt (d : Draws n) (i : Fin n) : (permutation d.seq n)[i]'(by rw [permutation_length]; exact i.2) < n :=
  List.mem_range.mp ((permutation_perm d.seq n).mem_iff.mp (List.getElem_mem _))

/-- Where the shuffle puts entry `i`. -/
def target (d : Draws n) (i : Fin n) : Fin n :=
  ⟨(permutation d.seq n)[i]'(by rw [permutation_length]; exact i.2), entry_lt d i⟩

theorem target_injective (d : Draws n) : Function.Injective (target d) := by
  intro i j h
  have hnd : (permutation d.seq n).Nodup := (permutation_perm d.seq n).nodup_iff.mpr List.nodup_range
  exact Fin.ext ((List.Nodup.getElem_inj_iff hnd).mp (Fin.mk.inj_iff.mp h))

/-- The shuffle as a permutation. -/
noncomputable def order (d : Draws n) : Equiv.Perm (Fin n) :=
  Equiv.ofBijective (target d) (Finite.injective_iff_bijective.mp (target_injective d))

theorem order_apply (d : Draws n) (i : Fin n) : order d i = target d i := rfl

theorem order_bijective : Function.Bijective (order (n := n)) := by
  refine (Fintype.bijective_iff_injective_and_card _).mpr ⟨fun d d' h => ?_, ?_⟩
  · have hl : permutation d.seq n = permutation d'.seq n := by
      refine List.ext_getElem (by rw [permutation_length, permutation_length]) fun i h1 h2 => ?_
      have hi : i < n := by rwa [permutation_length] at h1
      have h3 : order d ⟨i, hi⟩ = order d' ⟨i, hi⟩ := by rw [h]
      exact congrArg Fin.val h3
    exact (C111_uniform n _ (permutation_perm d'.seq n)).unique hl rfl
  · rw [C111_choices, Fintype.card_perm, Fintype.card_fin]

theorem sum_draws (F : Equiv.Perm (Fin n) → ℝ) : ∑ d, F (order d)⁻¹ = ∑ s, F s := by
  rw [Function.Bijective.sum_comp (order_bijective (n := n)) fun s => F s⁻¹]
  exact Equiv.sum_comp (Equiv.inv (Equiv.Perm (Fin n))) F

/-- Entry `t` of the shuffled list. -/
theorem shuffled_at {β : Type} (X : List β) (d : Draws X.length) (t : Fin X.length) :
    (scatter (permutation d.seq X.length) X X)[t]? = some X[(order d)⁻¹ t] := by
  have hp := permutation_perm d.seq X.length
  have hlt : ∀ i ∈ permutation d.seq X.length, i < X.length := fun i hi => List.mem_range.mp (hp.mem_iff.mp hi)
  refine scatter_at _ X X (hp.nodup_iff.mpr List.nodup_range) hlt ((order d)⁻¹ t).val t.val _ ?_ ?_
  · exact List.getElem?_eq_getElem ((order d)⁻¹ t).2
  · rw [List.getElem?_eq_getElem (by rw [permutation_length]; exact ((order d)⁻¹ t).2)]
    have h : (order d ((order d)⁻¹ t)).val = t.val := congrArg Fin.val (Equiv.apply_symm_apply (order d) t)
    exact congrArg some h

/-- Position number `i` of the block that starts at `start`. -/
def position {start b : Nat} (h : start + b ≤ n) (i : Fin b) : Fin n := ⟨start + i, by omega⟩

theorem position_injective {start b : Nat} (h : start + b ≤ n) : Function.Injective (position h) := by
  intro i j hij
  have := Fin.mk.inj_iff.mp hij
  exact Fin.ext (by omega)

/-- Sum over a block of the shuffled list. -/
theorem block_sum {β : Type} (X : List β) (f : β → ℝ) {start b : Nat} (h : start + b ≤ X.length) (d : Draws X.length) :
    ((((scatter (permutation d.seq X.length) X X).drop start).take b).map f).sum =
      ∑ i : Fin b, f X[(order d)⁻¹ (position h i)] := by
  have hl := length_scatter (permutation d.seq X.length) X X
  have e : ((scatter (permutation d.seq X.length) X X).drop start).take b =
      List.ofFn fun i : Fin b => X[(order d)⁻¹ (position h i)] := by
    refine List.ext_getElem (by simp [hl]; omega) fun i h1 h2 => ?_
    rw [List.length_ofFn] at h2
    rw [List.getElem_take, List.getElem_drop, List.getElem_ofFn]
    have h3 := shuffled_at X d (position h ⟨i, h2⟩)
    obtain ⟨h4, h5⟩ := List.getElem?_eq_some_iff.mp h3
    exact h5
  rw [e, List.map_ofFn, List.sum_ofFn]
  rfl

theorem list_sum {β : Type} (X : List β) (f : β → ℝ) : (X.map f).sum = ∑ i : Fin X.length, f X[i] := by
  conv_lhs => rw [← List.ofFn_getElem (xs := X)]
  rw [List.map_ofFn, List.sum_ofFn]
  rfl

/-- The block of the shuffled list has the average of the whole list, on average. -/
theorem block_mean {β : Type} (X : List β) (f : β → ℝ) {start b : Nat} (hb : 0 < b) (h : start + b ≤ X.length) :
    averageDraws (fun d : Draws X.length =>
      average ((((scatter (permutation d.seq X.length) X X).drop start).take b).map f)) = average (X.map f) := by
  have hn : (X.length : ℝ) ≠ 0 := by
    have : 0 < X.length := by omega
    exact_mod_cast this.ne'
  have hb0 : (b : ℝ) ≠ 0 := by exact_mod_cast hb.ne'
  have hlen : ∀ d : Draws X.length, ((((scatter (permutation d.seq X.length) X X).drop start).take b).map f).length = b := by
    intro d
    simp [length_scatter]
    omega
  have h0 : ∀ d : Draws X.length, average ((((scatter (permutation d.seq X.length) X X).drop start).take b).map f) =
      (∑ i : Fin b, f X[(order d)⁻¹ (position h i)]) / b := by
    intro d
    unfold average
    rw [hlen d, block_sum X f h d]
  unfold averageDraws
  rw [C111_choices, Finset.sum_congr rfl fun d _ => h0 d, average, ← Finset.sum_div,
    sum_draws fun s => ∑ i : Fin b, f X[s (position h i)], list_sum X f, List.length_map]
  have h1 := first_moment (fun i : Fin X.length => f X[i]) (position h)
  have hf : (X.length.factorial : ℝ) ≠ 0 := by exact_mod_cast X.length.factorial_ne_zero
  field_simp
  linarith

/-- The variance of the average of the block. -/
theorem block_spread {β : Type} (X : List β) (f : β → ℝ) {start b : Nat} (hb : 0 < b) (h : start + b ≤ X.length) (hn : 2 ≤ X.length) :
    spreadDraws (fun d : Draws X.length =>
      average ((((scatter (permutation d.seq X.length) X X).drop start).take b).map f)) (average (X.map f)) =
        sampleVariance b (X.map f) := by
  have hn2 : (2 : ℝ) ≤ X.length := by exact_mod_cast hn
  have hn0 : (X.length : ℝ) ≠ 0 := by linarith
  have hn1 : (X.length : ℝ) - 1 ≠ 0 := by linarith
  have hb0 : (b : ℝ) ≠ 0 := by exact_mod_cast hb.ne'
  have hf : (X.length.factorial : ℝ) ≠ 0 := by exact_mod_cast X.length.factorial_ne_zero
  have hlen : ∀ d : Draws X.length, ((((scatter (permutation d.seq X.length) X X).drop start).take b).map f).length = b := by
    intro d
    simp [length_scatter]
    omega
  set m := average (X.map f) with hm
  have hs : ∑ i : Fin X.length, (f X[i] - m) = 0 := by
    rw [Finset.sum_sub_distrib, ← list_sum X f, hm]
    simp only [average, List.length_map, Finset.sum_const, Finset.card_univ, Fintype.card_fin, nsmul_eq_mul]
    field_simp
    ring
  have h2 := second_moment (fun i : Fin X.length => f X[i] - m) hn hs (position h) (position_injective h)
  have h3 : ∀ d : Draws X.length, (average ((((scatter (permutation d.seq X.length) X X).drop start).take b).map f) - m) ^ 2 =
      (∑ i : Fin b, (f X[(order d)⁻¹ (position h i)] - m)) ^ 2 / (b : ℝ) ^ 2 := by
    intro d
    unfold average
    rw [hlen d, block_sum X f h d, Finset.sum_sub_distrib]
    simp only [Finset.sum_const, Finset.card_univ, Fintype.card_fin, nsmul_eq_mul]
    rw [← div_pow, sub_div, mul_div_cancel_left₀ _ hb0]
  unfold spreadDraws averageDraws sampleVariance meanSquaredDeviation
  rw [← hm, C111_choices, Finset.sum_congr rfl fun d _ => h3 d, ← Finset.sum_div,
    sum_draws fun s => (∑ i : Fin b, (f X[s (position h i)] - m)) ^ 2, List.map_map]
  have h4 : average (X.map ((fun a => (a - m) ^ 2) ∘ f)) = (∑ i : Fin X.length, (f X[i] - m) ^ 2) / X.length := by
    unfold average
    rw [list_sum, List.length_map]
    rfl
  rw [h4, List.length_map]
  field_simp
  linarith

end Draws

end OpenML.Sampling
