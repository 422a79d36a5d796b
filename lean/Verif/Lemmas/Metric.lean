import Verif.Model.Metric
import Verif.Spec.Metric
import Verif.Lemmas.Stats
import Mathlib.Analysis.InnerProductSpace.PiL2

/-!
# Lemmas about the metric functions
-/

set_option linter.unusedSectionVars false

namespace OpenML.Metric
open Spec

theorem pairUp_eq (f : ℝ → ℝ → ℝ) (a b : List ℝ) (h : a.length ≤ b.length) : pairUp f a b = .ok (List.zipWith f a b) := by
  induction a generalizing b with
  | nil => simp [pairUp]
  | cons x a ih =>
    match b, h with
    | y :: b, h => simp [pairUp, ih b (by simpa using h)]

theorem pairUp_short (f : ℝ → ℝ → ℝ) (a b : List ℝ) (h : b.length < a.length) : pairUp f a b = .ub := by
  induction a generalizing b with
  | nil => simp at h
  | cons x a ih =>
    match b with
    | [] => rfl
    | y :: b => simp [pairUp, ih b (by simpa using h)]

theorem sum_eq_zero (l : List ℝ) (h : ∀ a ∈ l, 0 ≤ a) : l.sum = 0 ↔ ∀ a ∈ l, a = 0 := by
  induction l with
  | nil => simp
  | cons a l ih =>
    have h1 := h a (by simp)
    have h2 : 0 ≤ l.sum := List.sum_nonneg fun b hb => h b (by simp [hb])
    rw [List.sum_cons, add_eq_zero_iff_of_nonneg h1 h2, ih fun b hb => h b (by simp [hb])]
    simp

/-- What the three reductions have in common. -/
structure Nrm (nrm : List ℝ → ℝ) : Prop where
  nonneg : ∀ v, 0 ≤ nrm v
  zero : ∀ v, nrm v = 0 ↔ ∀ a ∈ v, a = 0
  neg : ∀ v, nrm (v.map fun a => -a) = nrm v
  add : ∀ u v : List ℝ, u.length = v.length → nrm (List.zipWith (· + ·) u v) ≤ nrm u + nrm v

theorem nrm1 : Nrm norm1 := by
  refine ⟨fun v => ?_, fun v => ?_, fun v => ?_, fun u v h => ?_⟩
  · exact List.sum_nonneg fun a ha => by obtain ⟨b, -, rfl⟩ := List.mem_map.mp ha; exact abs_nonneg b
  · unfold norm1
    rw [sum_eq_zero]
    · simp
    · intro a ha; obtain ⟨b, -, rfl⟩ := List.mem_map.mp ha; exact abs_nonneg b
  · simp [norm1, List.map_map, Function.comp_def]
  · unfold norm1
    induction u generalizing v with
    | nil => simp at h ⊢; exact List.sum_nonneg fun a ha => by obtain ⟨b, -, rfl⟩ := List.mem_map.mp ha; exact abs_nonneg b
    | cons a u ih =>
      match v, h with
      | b :: v, h =>
        have := ih v (by simpa using h)
        have h2 := abs_add_le a b
        simp only [List.zipWith_cons_cons, List.map_cons, List.sum_cons]
        linarith

theorem norm2_ofFn (n : Nat) (f : Fin n → ℝ) : norm2 (List.ofFn f) = ‖(WithLp.toLp 2 f : EuclideanSpace ℝ (Fin n))‖ := by
  rw [EuclideanSpace.norm_eq, norm2]
  congr 1
  rw [List.map_ofFn, List.sum_ofFn]
  apply Finset.sum_congr rfl
  intro i _
  simp [sq]

theorem exists_ofFn (l : List ℝ) (n : Nat) (h : l.length = n) : ∃ f : Fin n → ℝ, l = List.ofFn f := by
  subst h; exact ⟨l.get, (List.ofFn_get l).symm⟩

theorem nrm2 : Nrm norm2 := by
  refine ⟨fun v => Real.sqrt_nonneg _, fun v => ?_, fun v => ?_, fun u v h => ?_⟩
  · have hn : ∀ x ∈ v.map (fun a => a * a), 0 ≤ x := by
      intro x hx; obtain ⟨b, -, rfl⟩ := List.mem_map.mp hx; exact mul_self_nonneg b
    unfold norm2
    rw [Real.sqrt_eq_zero (List.sum_nonneg hn), sum_eq_zero _ hn]
    simp
  · simp [norm2, List.map_map, Function.comp_def]
  · obtain ⟨n, hn⟩ : ∃ n, n = u.length := ⟨_, rfl⟩
    obtain ⟨f, rfl⟩ := exists_ofFn u n hn.symm
    obtain ⟨g, rfl⟩ := exists_ofFn v n (by rw [hn]; exact h.symm)
    have hz : List.zipWith (· + ·) (List.ofFn f) (List.ofFn g) = List.ofFn (f + g) := by
      apply List.ext_getElem (by simp)
      intro i _ _
      simp
    rw [hz]
    simp only [norm2_ofFn]
    exact norm_add_le _ _

theorem foldl_max_spec (l : List ℝ) (a : ℝ) : l.foldl max a ∈ a :: l ∧ ∀ b ∈ a :: l, b ≤ l.foldl max a := by
  induction l generalizing a with
  | nil => simp
  | cons c l ih =>
    obtain ⟨h1, h2⟩ := ih (max a c)
    rw [List.foldl_cons]
    constructor
    · rcases List.mem_cons.mp h1 with h | h
      · rw [h]
        rcases max_choice a c with h' | h' <;> rw [h'] <;> simp
      · simp [h]
    · intro b hb
      have hm := h2 (max a c) (by simp)
      rcases List.mem_cons.mp hb with rfl | hb
      · exact (le_max_left _ _).trans hm
      · rcases List.mem_cons.mp hb with rfl | hb
        · exact (le_max_right _ _).trans hm
        · exact h2 b (by simp [hb])

theorem normInf_spec (v : List ℝ) :
    (normInf v = 0 ∨ ∃ a ∈ v, normInf v = |a|) ∧ 0 ≤ normInf v ∧ ∀ a ∈ v, |a| ≤ normInf v := by
  obtain ⟨h1, h2⟩ := foldl_max_spec (v.map fun a => |a|) 0
  refine ⟨?_, h2 0 (by simp), fun a ha => h2 |a| (by simp only [List.mem_cons, List.mem_map]; exact Or.inr ⟨a, ha, rfl⟩)⟩
  rcases List.mem_cons.mp h1 with h | h
  · exact Or.inl h
  · obtain ⟨a, ha, he⟩ := List.mem_map.mp h
    exact Or.inr ⟨a, ha, he.symm⟩

theorem nrmInf : Nrm normInf := by
  refine ⟨fun v => (normInf_spec v).2.1, fun v => ?_, fun v => ?_, fun u v h => ?_⟩
  · obtain ⟨h1, h2, h3⟩ := normInf_spec v
    constructor
    · intro h a ha
      have := h3 a ha
      rw [h] at this
      exact abs_eq_zero.mp (le_antisymm this (abs_nonneg a))
    · intro h
      rcases h1 with h1 | ⟨a, ha, h1⟩
      · exact h1
      · rw [h1, h a ha, abs_zero]
  · simp [normInf, List.map_map, Function.comp_def]
  · obtain ⟨h1, -, -⟩ := normInf_spec (List.zipWith (· + ·) u v)
    obtain ⟨-, hu, hu'⟩ := normInf_spec u
    obtain ⟨-, hv, hv'⟩ := normInf_spec v
    rcases h1 with h1 | ⟨a, ha, h1⟩
    · rw [h1]; linarith
    · rw [h1]
      obtain ⟨i, hi, rfl⟩ := List.mem_iff_getElem.mp ha
      rw [List.getElem_zipWith]
      simp at hi
      have := hu' _ (List.getElem_mem hi.1)
      have h2 := hv' _ (List.getElem_mem hi.2)
      exact (abs_add_le _ _).trans (by linarith)

/-- Difference of two lists of the same length: zero exactly for equal lists, swapped by negation, telescoping. -/
theorem diff_zero (u v : List ℝ) (h : u.length = v.length) : (∀ a ∈ List.zipWith (· - ·) u v, a = 0) ↔ u = v := by
  induction u generalizing v with
  | nil => simp at h ⊢; exact (List.length_eq_zero_iff.mp h.symm)
  | cons a u ih =>
    match v, h with
    | b :: v, h => simp [ih v (by simpa using h), sub_eq_zero]

theorem diff_swap (u v : List ℝ) : (List.zipWith (· - ·) u v).map (fun a => -a) = List.zipWith (· - ·) v u := by
  rw [List.map_zipWith, List.zipWith_comm]
  simp

theorem diff_add (u v w : List ℝ) (h1 : u.length = v.length) (h2 : v.length = w.length) :
    List.zipWith (· + ·) (List.zipWith (· - ·) u v) (List.zipWith (· - ·) v w) = List.zipWith (· - ·) u w := by
  apply List.ext_getElem (by simp; omega)
  intro i _ _
  simp

/-- A reduction of the difference is a distance on lists of one length. -/
theorem distance_of_nrm {β : Type} (S : β → Prop) (entries : β → List ℝ) (n : Nat) (hS : ∀ x, S x → (entries x).length = n)
    (hinj : ∀ x y, S x → S y → entries x = entries y → x = y) (nrm : List ℝ → ℝ) (hn : Nrm nrm) (d : β → β → Res ℝ)
    (hd : ∀ x y, S x → S y → d x y = .ok (nrm (List.zipWith (· - ·) (entries x) (entries y)))) : IsDistanceOn S d := by
  refine ⟨fun x y hx hy => ⟨_, hd x y hx hy, hn.nonneg _, ?_⟩, fun x y hx hy => ?_, ?_⟩
  · rw [hn.zero, diff_zero _ _ ((hS x hx).trans (hS y hy).symm)]
    exact ⟨hinj x y hx hy, fun h => by rw [h]⟩
  · rw [hd x y hx hy, hd y x hy hx, ← diff_swap, hn.neg]
  · intro x y z a b c hx hy hz ha hb hc
    rw [hd x y hx hy] at ha
    rw [hd y z hy hz] at hb
    rw [hd x z hx hz] at hc
    cases ha; cases hb; cases hc
    rw [← diff_add (entries x) (entries y) (entries z) ((hS x hx).trans (hS y hy).symm) ((hS y hy).trans (hS z hz).symm)]
    exact hn.add _ _ (by simp [hS x hx, hS y hy, hS z hz])

theorem spread_eq (l : List ℝ) (h : l ≠ []) : spread l = meanSquaredDeviation l := by
  have hp := Stats.length_pos_cast (α := ℝ) h
  simp only [spread, meanOf, meanSquaredDeviation, average, Stats.sum_sq_dev, List.length_map]
  field_simp
  ring

theorem flatten_length (n : Nat) (rows : List (List ℝ)) (h : ∀ r ∈ rows, r.length = n) :
    rows.flatten.length = rows.length * n := by
  induction rows with
  | nil => simp
  | cons r rs ih =>
    rw [List.flatten_cons, List.length_append, ih fun q hq => h q (by simp [hq]), h r (by simp), List.length_cons]
    ring

theorem flatten_inj (n : Nat) (a b : List (List ℝ)) (ha : ∀ r ∈ a, r.length = n) (hb : ∀ r ∈ b, r.length = n)
    (hl : a.length = b.length) (h : a.flatten = b.flatten) : a = b := by
  induction a generalizing b with
  | nil => exact (List.length_eq_zero_iff.mp hl.symm).symm
  | cons r a ih =>
    match b, hl with
    | q :: b, hl =>
      rw [List.flatten_cons, List.flatten_cons] at h
      obtain ⟨h1, h2⟩ := List.append_inj h ((ha r (by simp)).trans (hb q (by simp)).symm)
      rw [h1, ih b (fun x hx => ha x (by simp [hx])) (fun x hx => hb x (by simp [hx])) (by simpa using hl) h2]

end OpenML.Metric
