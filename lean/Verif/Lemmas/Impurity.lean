import Verif.Model.Impurity
import Verif.Spec.Impurity
import Mathlib.Tactic.Ring
import Mathlib.Tactic.FieldSimp
import Mathlib.Tactic.Linarith
import Mathlib.Analysis.Convex.Deriv
import Mathlib.Algebra.Order.BigOperators.Ring.Finset

/-!
# Lemmas about Gini impurity and entropy
-/

set_option linter.unusedSectionVars false

namespace OpenML.Impurity
open Spec

variable {β : Type} [LinearOrder β]

theorem mem_uniqueFrom (a : β) (l : List β) (b : β) : b ∈ a :: VecOps.uniqueFrom a l ↔ b ∈ a :: l := by
  induction l generalizing a with
  | nil => rfl
  | cons c l ih =>
    simp only [VecOps.uniqueFrom]
    split
    · next h => subst h; rw [ih]; simp
    · rw [List.mem_cons, ih]; simp

theorem nodup_uniqueFrom (a : β) (l : List β) (h : (a :: l).Pairwise (· ≤ ·)) :
    (a :: VecOps.uniqueFrom a l).Pairwise (· < ·) := by
  induction l generalizing a with
  | nil => simp [VecOps.uniqueFrom]
  | cons c l ih =>
    rw [List.pairwise_cons, List.pairwise_cons] at h
    obtain ⟨h1, h2, h3⟩ := h
    simp only [VecOps.uniqueFrom]
    split
    · next hc => subst hc; exact ih _ (List.pairwise_cons.mpr ⟨h2, h3⟩)
    · next hc =>
      have hac : a < c := lt_of_le_of_ne (h1 c (by simp)) hc
      have hi := ih c (List.pairwise_cons.mpr ⟨h2, h3⟩)
      rw [List.pairwise_cons]
      refine ⟨?_, hi⟩
      intro b hb
      rcases List.mem_cons.mp hb with rfl | hb
      · exact hac
      · exact hac.trans ((List.pairwise_cons.mp hi).1 b hb)

theorem keys_sorted (x : List β) : (keys x).Pairwise (· < ·) := by
  unfold keys VecOps.stdUnique
  have h : (VecOps.stdSort x).Pairwise (· ≤ ·) := List.pairwise_insertionSort _ _
  cases hs : VecOps.stdSort x with
  | nil => simp
  | cons a l => rw [hs] at h; exact nodup_uniqueFrom a l h

theorem mem_keys (x : List β) (b : β) : b ∈ keys x ↔ b ∈ x := by
  have h : (VecOps.stdSort x).Perm x := List.perm_insertionSort _ _
  rw [← h.mem_iff]
  unfold keys VecOps.stdUnique
  cases VecOps.stdSort x with
  | nil => simp
  | cons a l => exact mem_uniqueFrom a l b

theorem keys_nodup (x : List β) : (keys x).Nodup := (keys_sorted x).imp (fun h => ne_of_lt h)

theorem keys_toFinset (x : List β) : (keys x).toFinset = x.toFinset := by ext b; simp [mem_keys]

theorem sum_keys {M : Type} [AddCommMonoid M] (x : List β) (f : β → M) :
    ((keys x).map f).sum = ∑ k ∈ x.toFinset, f k := by
  rw [← keys_toFinset, List.sum_toFinset _ (keys_nodup x)]

variable {K : Type} [Field K]

theorem length_weightsOf (x : List β) (w : List K) (k : β) (h : w.length = x.length) :
    (weightsOf x w k).length = x.count k := by
  induction x generalizing w with
  | nil => simp [weightsOf]
  | cons a x ih =>
    match w, h with
    | b :: w, h =>
      have hi := ih w (by simpa using h)
      simp only [weightsOf, List.zip_cons_cons, List.filterMap_cons, List.count_cons] at hi ⊢
      by_cases hk : a = k
      · simp [hk, hi]
      · simp [hk, hi]

theorem sum_weightsOf_ones (x : List β) (k : β) : (weightsOf x (List.replicate x.length (1 : K)) k).sum = x.count k := by
  induction x with
  | nil => simp [weightsOf]
  | cons a x ih =>
    simp only [weightsOf, List.length_cons, List.replicate_succ, List.zip_cons_cons, List.filterMap_cons,
      List.count_cons] at ih ⊢
    by_cases hk : a = k
    · simp [hk, ih, add_comm]
    · simp [hk, ih]

variable [CharZero K]

theorem share_eq (x : List β) (w : List K) (h : w.length = x.length) (k : β) (hk : k ∈ x) :
    share x w k = (weightsOf x w k).sum / (x.length : K) := by
  have hc : (x.count k : K) ≠ 0 := by
    have := List.count_pos_iff.mpr hk
    exact Nat.cast_ne_zero.mpr (by omega)
  unfold share
  rw [length_weightsOf x w k h]
  field_simp

theorem share_ones (x : List β) (k : β) (hk : k ∈ x) : share x (List.replicate x.length (1 : K)) k = freq x k := by
  rw [share_eq x _ (by simp) k hk, sum_weightsOf_ones, freq]

theorem gini_unweighted [DecidableEq K] (x : List β) : gini x ([] : List K) = .ok (giniImpurity x) := by
  simp only [gini, effectiveWeights, if_true, List.length_replicate]
  rw [if_neg (by simp), Res.bind_ok, sum_keys, giniImpurity]
  congr 2
  exact Finset.sum_congr rfl fun k hk => by rw [share_ones x k (by simpa using hk)]

theorem entropy_unweighted (x : List β) : entropy x [] = .ok (shannon x) := by
  simp only [entropy, effectiveWeights, if_true, List.length_replicate]
  rw [if_neg (by simp), Res.bind_ok, sum_keys, shannon]
  congr 1
  exact Finset.sum_congr rfl fun k hk => by
    rw [share_ones x k (by simpa using hk), Real.negMulLog, Real.logb]; ring

theorem sum_freq (x : List β) (h : x ≠ []) : ∑ k ∈ x.toFinset, (freq x k : K) = 1 := by
  unfold freq
  rw [← Finset.sum_div, ← Nat.cast_sum, List.sum_toFinset_count_eq_length, div_self]
  exact Nat.cast_ne_zero.mpr (by simpa using h)

section Ordered
variable [LinearOrder K] [IsStrictOrderedRing K]

theorem freq_pos (x : List β) (k : β) (hk : k ∈ x) : (0 : K) < freq x k := by
  have h1 := List.count_pos_iff.mpr hk
  have h2 := List.length_pos_of_mem hk
  exact div_pos (by exact_mod_cast h1) (by exact_mod_cast h2)

theorem freq_nonneg (x : List β) (k : β) : (0 : K) ≤ freq x k := div_nonneg (Nat.cast_nonneg _) (Nat.cast_nonneg _)

theorem freq_le_one (x : List β) (k : β) : (freq x k : K) ≤ 1 := by
  refine div_le_one_of_le₀ ?_ (Nat.cast_nonneg _)
  exact_mod_cast List.count_le_length

theorem freq_eq_one (x : List β) (h : x ≠ []) (k : β) : (freq x k : K) = 1 ↔ ∀ b ∈ x, b = k := by
  have hl : (x.length : K) ≠ 0 := Nat.cast_ne_zero.mpr (by simpa using h)
  rw [freq, div_eq_one_iff_eq hl, Nat.cast_inj, List.count_eq_length]
  exact ⟨fun h b hb => (h b hb).symm, fun h b hb => (h b hb).symm⟩

theorem gini_range (x : List β) (h : x ≠ []) : 0 ≤ (giniImpurity x : K) ∧ (giniImpurity x : K) < 1 := by
  have hs := sum_freq (K := K) x h
  constructor
  · have : ∑ k ∈ x.toFinset, (freq x k : K) ^ 2 ≤ ∑ k ∈ x.toFinset, (freq x k : K) :=
      Finset.sum_le_sum fun k _ => by
        have h0 := freq_nonneg (K := K) x k; have h1 := freq_le_one (K := K) x k
        nlinarith
    unfold giniImpurity; linarith
  · obtain ⟨a, ha⟩ := List.exists_mem_of_ne_nil x h
    have : 0 < ∑ k ∈ x.toFinset, (freq x k : K) ^ 2 :=
      Finset.sum_pos (fun k hk => by have := freq_pos (K := K) x k (by simpa using hk); positivity)
        ⟨a, by simpa using ha⟩
    unfold giniImpurity; linarith

theorem gini_zero (x : List β) (h : x ≠ []) : (giniImpurity x : K) = 0 ↔ ∀ a ∈ x, ∀ b ∈ x, a = b := by
  have hs := sum_freq (K := K) x h
  have hle : ∀ k ∈ x.toFinset, (freq x k : K) ^ 2 ≤ freq x k := fun k _ => by
    have h0 := freq_nonneg (K := K) x k; have h1 := freq_le_one (K := K) x k
    nlinarith
  have : (giniImpurity x : K) = 0 ↔ ∀ k ∈ x.toFinset, (freq x k : K) ^ 2 = freq x k := by
    rw [← Finset.sum_eq_sum_iff_of_le hle, hs, giniImpurity, sub_eq_zero, eq_comm]
  rw [this]
  constructor
  · intro hk a ha b hb
    have h1 := hk a (by simpa using ha)
    have h2 := freq_pos (K := K) x a ha
    have h3 : (freq x a : K) = 1 := by nlinarith
    exact ((freq_eq_one x h a).mp h3 b hb).symm
  · intro hall k hk
    rw [(freq_eq_one x h k).mpr fun b hb => hall b hb k (by simpa using hk)]
    ring

end Ordered

theorem shannon_nonneg (x : List β) : 0 ≤ shannon x := by
  refine Finset.sum_nonneg fun k _ => div_nonneg (Real.negMulLog_nonneg (freq_nonneg x k) (freq_le_one x k)) ?_
  exact (Real.log_pos (by norm_num)).le

theorem shannon_zero (x : List β) (h : x ≠ []) : shannon x = 0 ↔ ∀ a ∈ x, ∀ b ∈ x, a = b := by
  have hl2 : 0 < Real.log 2 := Real.log_pos (by norm_num)
  unfold shannon
  rw [Finset.sum_eq_zero_iff_of_nonneg fun k _ =>
    div_nonneg (Real.negMulLog_nonneg (freq_nonneg x k) (freq_le_one x k)) hl2.le]
  constructor
  · intro hk a ha b hb
    have h1 := hk a (by simpa using ha)
    have h2 := freq_pos (K := ℝ) x a ha
    have h3 : (freq x a : ℝ) = 1 := by
      rw [div_eq_zero_iff] at h1
      rcases h1 with h1 | h1
      · rw [Real.negMulLog, mul_eq_zero] at h1
        rcases h1 with h1 | h1
        · linarith
        · rcases Real.log_eq_zero.mp h1 with h1 | h1 | h1 <;> linarith
      · linarith
    exact ((freq_eq_one x h a).mp h3 b hb).symm
  · intro hall k hk
    rw [(freq_eq_one x h k).mpr fun b hb => hall b hb k (by simpa using hk)]
    simp

theorem freq_perm {x y : List β} (h : x.Perm y) (k : β) : (freq x k : K) = freq y k := by
  rw [freq, freq, h.count_eq, h.length_eq]

theorem toFinset_perm {x y : List β} (h : x.Perm y) : x.toFinset = y.toFinset := by ext; simp [h.mem_iff]

theorem sum_superset {M : Type} [AddCommMonoid M] (x : List β) (S : Finset β) (h : ∀ b ∈ x, b ∈ S) (f : β → M)
    (hf : ∀ k, k ∉ x → f k = 0) : ∑ k ∈ x.toFinset, f k = ∑ k ∈ S, f k :=
  Finset.sum_subset (fun b hb => h b (by simpa using hb)) fun k _ hk => hf k (by simpa using hk)

theorem freq_absent (x : List β) (k : β) (h : k ∉ x) : (freq x k : K) = 0 := by
  rw [freq, List.count_eq_zero_of_not_mem h]; simp

theorem freq_append (l r : List β) (hl : l ≠ []) (hr : r ≠ []) (k : β) :
    (freq (l ++ r) k : K) = (l.length : K) / ((l ++ r).length : K) * freq l k +
      (r.length : K) / ((l ++ r).length : K) * freq r k := by
  have h1 : (l.length : K) ≠ 0 := Nat.cast_ne_zero.mpr (by simpa using hl)
  have h2 : (r.length : K) ≠ 0 := Nat.cast_ne_zero.mpr (by simpa using hr)
  have h3 : ((l ++ r).length : K) ≠ 0 := Nat.cast_ne_zero.mpr (by simp [hl])
  unfold freq
  field_simp
  simp [List.count_append]

/-- A concave function of the frequencies does not increase on average under a split. -/
theorem split_average [LinearOrder K] [IsStrictOrderedRing K] (f : K → K) (hf : ConcaveOn K (Set.Ici 0) f) (h0 : f 0 = 0)
    (l r : List β) (hn : l ++ r ≠ []) :
    (l.length : K) / ((l ++ r).length : K) * (∑ k ∈ l.toFinset, f (freq l k)) +
      (r.length : K) / ((l ++ r).length : K) * (∑ k ∈ r.toFinset, f (freq r k)) ≤
    ∑ k ∈ (l ++ r).toFinset, f (freq (l ++ r) k) := by
  by_cases hl : l = []
  · subst hl
    have : (r.length : K) ≠ 0 := Nat.cast_ne_zero.mpr (by simpa using hn)
    simp [div_self this]
  by_cases hr : r = []
  · subst hr
    have : (l.length : K) ≠ 0 := Nat.cast_ne_zero.mpr (by simpa using hl)
    simp [div_self this]
  have hp : (0 : K) < ((l ++ r).length : K) := Nat.cast_pos.mpr (List.length_pos_iff.mpr hn)
  rw [sum_superset l (l ++ r).toFinset (by simp +contextual) (fun k => f (freq l k))
      (fun k hk => by simp only [freq_absent l k hk, h0]),
    sum_superset r (l ++ r).toFinset (by simp +contextual) (fun k => f (freq r k))
      (fun k hk => by simp only [freq_absent r k hk, h0]), Finset.mul_sum, Finset.mul_sum, ← Finset.sum_add_distrib]
  apply Finset.sum_le_sum
  intro k _
  rw [freq_append l r hl hr]
  have hA : (0 : K) ≤ (l.length : K) / ((l ++ r).length : K) := by positivity
  have hB : (0 : K) ≤ (r.length : K) / ((l ++ r).length : K) := by positivity
  have hAB : (l.length : K) / ((l ++ r).length : K) + (r.length : K) / ((l ++ r).length : K) = 1 := by
    rw [← add_div, div_eq_one_iff_eq hp.ne']; simp
  have := hf.2 (freq_nonneg l k : (freq l k : K) ∈ Set.Ici 0) (freq_nonneg r k : (freq r k : K) ∈ Set.Ici 0) hA hB hAB
  simpa [smul_eq_mul] using this

theorem concave_gini [LinearOrder K] [IsStrictOrderedRing K] : ConcaveOn K (Set.Ici 0) fun p : K => p - p ^ 2 := by
  refine ⟨convex_Ici 0, ?_⟩
  intro p _ q _ a b ha hb hab
  simp only [smul_eq_mul]
  have hb' : b = 1 - a := by linarith
  subst hb'
  nlinarith [mul_nonneg (mul_nonneg ha hb) (sq_nonneg (p - q))]

theorem gini_eq_sum (x : List β) (h : x ≠ []) : (giniImpurity x : K) = ∑ k ∈ x.toFinset, (freq x k - freq x k ^ 2) := by
  rw [Finset.sum_sub_distrib, sum_freq x h, giniImpurity]

theorem gini_split [LinearOrder K] [IsStrictOrderedRing K] (l r : List β) (hn : l ++ r ≠ []) :
    (l.length : K) / ((l ++ r).length : K) * giniImpurity l + (r.length : K) / ((l ++ r).length : K) * giniImpurity r ≤
    giniImpurity (l ++ r) := by
  have := split_average (K := K) _ concave_gini (by simp) l r hn
  rw [gini_eq_sum _ hn]
  refine le_trans (le_of_eq ?_) this
  by_cases hl : l = []
  · subst hl
    rw [gini_eq_sum r (by simpa using hn)]; simp
  by_cases hr : r = []
  · subst hr
    rw [gini_eq_sum l hl]; simp
  rw [gini_eq_sum l hl, gini_eq_sum r hr]

theorem shannon_split (l r : List β) (hn : l ++ r ≠ []) :
    (l.length : ℝ) / ((l ++ r).length : ℝ) * shannon l + (r.length : ℝ) / ((l ++ r).length : ℝ) * shannon r ≤
    shannon (l ++ r) := by
  refine split_average (K := ℝ) (fun p => Real.negMulLog p / Real.log 2) ?_ (by simp) l r hn
  have h := Real.concaveOn_negMulLog.smul (c := (Real.log 2)⁻¹) (inv_nonneg.mpr (Real.log_pos (by norm_num)).le)
  refine h.congr ?_
  intro p _
  simp [smul_eq_mul, div_eq_inv_mul]

end OpenML.Impurity
