import Verif.Props.ClassMissing
import Verif.Props.RandomGroups
import Mathlib.Data.Fintype.CardEmbedding

/-!
# Exactly how often a training part has no sample of a class (C185)
-/

namespace OpenML

open Spec SGD Data Random

namespace RandomGroups

variable {n k : Nat}

theorem card_avoiding (hk : k ≤ n) (A : Finset (Fin n)) :
    (Finset.univ.filter fun s : Equiv.Perm (Fin n) => ∀ i : Fin k, s (Fin.castLE hk i) ∈ A).card =
      A.card.descFactorial k * (n - k).factorial := by
  classical
  have he : (Finset.univ.filter fun e : Fin k → Fin n => Function.Injective e ∧ ∀ i, e i ∈ A).card = A.card.descFactorial k := by
    have h1 : Fintype.card (Fin k ↪ A) = A.card.descFactorial k := by
      rw [Fintype.card_embedding_eq, Fintype.card_coe, Fintype.card_fin]
    rw [← h1, ← Fintype.card_subtype]
    refine Fintype.card_congr ⟨fun e => ⟨fun i => ⟨e.1 i, e.2.2 i⟩, fun i j h => e.2.1 (congrArg Subtype.val h)⟩,
      fun f => ⟨fun i => (f i).1, fun i j h => f.injective (Subtype.ext h), fun i => (f i).2⟩, fun e => rfl, fun f => rfl⟩
  rw [← he, Finset.card_eq_sum_card_fiberwise (f := fun s i => s (Fin.castLE hk i))
    (t := Finset.univ.filter fun e : Fin k → Fin n => Function.Injective e ∧ ∀ i, e i ∈ A)]
  · rw [Finset.sum_congr rfl (g := fun _ => (n - k).factorial), Finset.sum_const, smul_eq_mul]
    intro e he
    have he := (Finset.mem_filter.mp he).2
    rw [← extensions hk e he.1]
    congr 1
    ext s
    simp only [Finset.mem_filter, Finset.mem_univ, true_and]
    constructor
    · rintro ⟨_, h⟩ i
      exact congrFun h i
    · intro h
      exact ⟨fun i => by rw [h i]; exact he.2 i, funext h⟩
  · intro s hs
    have hs := (Finset.mem_filter.mp hs).2
    refine Finset.mem_coe.mpr (Finset.mem_filter.mpr ⟨Finset.mem_univ _, fun i j h => ?_, hs⟩)
    exact Fin.castLE_injective hk (s.injective h)

theorem card_class {β : Type} [DecidableEq β] (y : List β) (a : β) :
    (Finset.univ.filter fun i : Fin y.length => y[i] ≠ a).card = y.length - y.count a := by
  have h1 : (Finset.univ.filter fun i : Fin y.length => y[i] = a).card = y.count a := by
    induction y with
    | nil => rfl
    | cons b y ih =>
      rw [Finset.card_filter] at ih ⊢
      erw [Fin.sum_univ_succ]
      rw [List.count_cons, ← ih, add_comm]
      congr 1
      by_cases h : b = a <;> simp [h]
  have h2 := Finset.card_filter_add_card_filter_not (s := (Finset.univ : Finset (Fin y.length))) fun i => y[i] = a
  rw [h1, Finset.card_univ, Fintype.card_fin] at h2
  change (Finset.univ.filter fun i : Fin y.length => ¬ y[i] = a).card = _
  omega

theorem missing_exact {β : Type} [DecidableEq β] (y : List β) (a : β) (hk : k ≤ y.length) :
    shareOf (fun d : Draws y.length => a ∉ (scatter (permutation d.seq y.length) y y).take k) =
      ((y.length - y.count a).descFactorial k : ℝ) / (y.length.descFactorial k : ℝ) := by
  classical
  have hfac : (0 : ℝ) < (y.length - k).factorial := by exact_mod_cast Nat.factorial_pos _
  have h0 : 0 + k ≤ y.length := by omega
  have hev : ∀ d : Draws y.length, (a ∉ (scatter (permutation d.seq y.length) y y).take k) ↔
      ∀ i : Fin k, (Sampling.order d)⁻¹ (Fin.castLE hk i) ∈ Finset.univ.filter fun i : Fin y.length => y[i] ≠ a := by
    intro d
    have hb := Sampling.block_eq y h0 d
    rw [List.drop_zero] at hb
    rw [hb, List.mem_ofFn]
    push Not
    have hp : ∀ i : Fin k, Sampling.position h0 i = Fin.castLE hk i := fun i => Fin.ext (Nat.zero_add _)
    simp only [hp, Finset.mem_filter, Finset.mem_univ, true_and]
  rw [HoldOut.shareOf_eq]
  unfold averageDraws
  simp only [hev]
  rw [Sampling.sum_draws fun s => if ∀ i : Fin k, s (Fin.castLE hk i) ∈ Finset.univ.filter fun i : Fin y.length => y[i] ≠ a then (1 : ℝ) else 0,
    Finset.sum_boole, card_avoiding hk, card_class, C111_choices, ← Nat.factorial_mul_descFactorial hk]
  push_cast
  rw [mul_comm, mul_div_mul_left _ _ hfac.ne']

end RandomGroups

open RandomGroups HoldOut Sampling

/-- C185: `train_test_split` with `k` training samples of `n`: the share of the splits whose training part has no sample of a class with `c`
samples is `(n - c) (n - c - 1) ... (n - c - k + 1)` over `n (n - 1) ... (n - k + 1)`. -/
theorem C185_exact {ρ β : Type} [DecidableEq β] (X : List ρ) (y : List β) (hxy : X.length = y.length) (trainSize : ℚ) (k : Nat)
    (hk : truncInt ((X.length : ℚ) * trainSize) = k) (hkn : k ≤ X.length) (a : β) :
    ∃ S : Draws X.length → List ρ × List ρ × List β × List β,
      (∀ d, trainTestSplit X y trainSize (some (permutation d.seq X.length)) = .ok (S d)) ∧
      shareOf (fun d => a ∉ (S d).2.2.1) = ((X.length - y.count a).descFactorial k : ℝ) / (X.length.descFactorial k : ℝ) := by
  refine ⟨_, split_eq X y hxy trainSize k hk hkn, ?_⟩
  have := missing_exact (k := k) y a (by omega)
  rw [← hxy] at this
  exact this

/-- Example for `C185_exact`: three of the six samples for training and a class with two samples: one fifth of the splits lose the class. -/
example : ∃ S : Draws [10, 20, 30, 40, 50, 60].length → List Nat × List Nat × List Nat × List Nat,
    (∀ d, trainTestSplit [10, 20, 30, 40, 50, 60] [0, 1, 0, 1, 0, 0] (1 / 2) (some (permutation d.seq [10, 20, 30, 40, 50, 60].length)) =
      .ok (S d)) ∧ shareOf (fun d => 1 ∉ (S d).2.2.1) = 1 / 5 := by
  obtain ⟨S, h1, h2⟩ := C185_exact [10, 20, 30, 40, 50, 60] [0, 1, 0, 1, 0, 0] rfl (1 / 2) 3 (by decide +kernel) (by simp) 1
  refine ⟨S, h1, h2.trans ?_⟩
  norm_num [Nat.descFactorial]

end OpenML
