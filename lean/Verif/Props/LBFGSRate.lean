import Verif.Props.LBFGSDescent
import Verif.Props.LBFGSStop
import Verif.Props.LBFGSPath
import Verif.Spec.KMeans

/-!
# The rate of convergence of L-BFGS with a Wolfe condition (C138)
-/

namespace OpenML

open SGD (LossFn)
open Spec LBFGS Matrix

set_option linter.unusedSectionVars false

section
variable {α : Type} [Field α] [LinearOrder α] [IsStrictOrderedRing α]

/-- The loss lies above a parabola with the constant `mu` through each of its points. -/
def Spec.StrongConvexity (loss : LossFn α (List α)) (X : DMat α) (y : List α) (n : Nat) (mu : α) : Prop :=
  ∀ x z : List α, x.length = n → z.length = n → ∀ f f' g, loss.evaluate X y x = .ok f → loss.evaluate X y z = .ok f' →
    loss.gradient X y x = .ok g →
    f + (List.zipWith (· * ·) g (List.zipWith (· - ·) z x)).sum + mu / 2 * sqDist z x ≤ f'

/-- The gradient does not vary faster than the weights, up to the factor `L`. -/
def Spec.LipschitzGradient (loss : LossFn α (List α)) (X : DMat α) (y : List α) (n : Nat) (L : α) : Prop :=
  ∀ x z : List α, x.length = n → z.length = n → ∀ g h, loss.gradient X y x = .ok g → loss.gradient X y z = .ok h →
    sqDist h g ≤ L ^ 2 * sqDist z x

/-- Bound of the condition number of the matrices of L-BFGS with `m` correction pairs. -/
def Spec.bfgsCondition (m : Nat) (mu L : α) : α := ((m : α) + 1) ^ 2 * (2 * (1 + (L / mu) ^ 2)) ^ m * (L / mu) ^ 2

/-- Bound of the matrices of L-BFGS with `m` correction pairs. -/
def Spec.bfgsUpper (m : Nat) (mu L : α) : α := ((m : α) + 1) * (2 * (1 + (L / mu) ^ 2)) ^ m / mu

/-- Bound of the inverses of the matrices of L-BFGS with `m` correction pairs. -/
def Spec.bfgsLower (m : Nat) (mu L : α) : α := ((m : α) + 1) * (L ^ 2 / mu)

/-- The decrease of the loss in one iteration of L-BFGS, relative to the squared length of the gradient. -/
def Spec.lbfgsGain (m : Nat) (mu L c1 c2 : α) : α := c1 * (1 - c2) / (L * bfgsCondition m mu L)

namespace LBFGS

theorem dot_cs {n : Nat} (a b : Fin n → α) : (a ⬝ᵥ b) ^ 2 ≤ (a ⬝ᵥ a) * (b ⬝ᵥ b) := by
  have := Finset.sum_mul_sq_le_sq_mul_sq Finset.univ a b
  simpa [dotProduct, pow_two] using this

theorem dot_self_nonneg {n : Nat} (v : Fin n → α) : 0 ≤ v ⬝ᵥ v := Finset.sum_nonneg fun i _ => mul_self_nonneg (v i)

theorem vec_sub {n : Nat} {a b : List α} (ha : a.length = n) (hb : b.length = n) :
    vec n (List.zipWith (· - ·) a b) = vec n a - vec n b := by
  conv_lhs => rw [← ofFn_vec ha, ← ofFn_vec hb, zipWith_ofFn, vec_ofFn]
  rfl

theorem sqDist_eq {n : Nat} {a b : List α} (ha : a.length = n) (hb : b.length = n) :
    sqDist a b = (vec n a - vec n b) ⬝ᵥ (vec n a - vec n b) := by
  rw [← vec_sub ha hb, ← zipWith_sum (by simp [ha, hb]) (by simp [ha, hb])]
  unfold sqDist
  congr 1
  rw [List.zipWith_self, List.map_zipWith]
  simp only [pow_two]

/-- A pair of differences of points and gradients, with bounds of the slope. -/
structure GoodPair {n : Nat} (mu L : α) (s y : Fin n → α) : Prop where
  pos : 0 < s ⬝ᵥ y
  lower : mu * (s ⬝ᵥ s) ≤ s ⬝ᵥ y
  upper : y ⬝ᵥ y ≤ L ^ 2 * (s ⬝ᵥ s)

theorem lower_step {n : Nat} {H : Matrix (Fin n) (Fin n) α} {b k : α} (hb : 0 < b) (hk : 0 < k)
    (hH : ∀ v, v ⬝ᵥ v ≤ b * (v ⬝ᵥ (H *ᵥ v))) {s y : Fin n → α} (hs : 0 < s ⬝ᵥ y) (hy : y ⬝ᵥ y ≤ k * (s ⬝ᵥ y)) (v : Fin n → α) :
    v ⬝ᵥ v ≤ (b + k) * (v ⬝ᵥ (bfgs H s y *ᵥ v)) := by
  rw [bfgs_form H s y v hs.ne']
  obtain ⟨t, ht⟩ : ∃ t, t = s ⬝ᵥ v / (s ⬝ᵥ y) := ⟨_, rfl⟩
  obtain ⟨w, hw⟩ : ∃ w, w = v - t • y := ⟨_, rfl⟩
  have hq : (s ⬝ᵥ v) ^ 2 / (s ⬝ᵥ y) = t ^ 2 * (s ⬝ᵥ y) := by
    rw [ht]
    field_simp
  rw [← ht, ← hw, hq]
  have hv : v = w + t • y := by rw [hw, sub_add_cancel]
  have e1 : v ⬝ᵥ v = w ⬝ᵥ w + 2 * (t * (w ⬝ᵥ y)) + t ^ 2 * (y ⬝ᵥ y) := by
    rw [hv]
    simp only [add_dotProduct, dotProduct_add, smul_dotProduct, dotProduct_smul, smul_eq_mul, dotProduct_comm y w]
    ring
  have e2 : (k • w - (b * t) • y) ⬝ᵥ (k • w - (b * t) • y) =
      k ^ 2 * (w ⬝ᵥ w) - 2 * (k * b * (t * (w ⬝ᵥ y))) + b ^ 2 * (t ^ 2 * (y ⬝ᵥ y)) := by
    simp only [sub_dotProduct, dotProduct_sub, smul_dotProduct, dotProduct_smul, smul_eq_mul, dotProduct_comm y w]
    ring
  have h2 := dot_self_nonneg (k • w - (b * t) • y)
  rw [e2] at h2
  have hW := mul_le_mul_of_nonneg_left (hH w) hk.le
  have hY := mul_le_mul_of_nonneg_left (mul_le_mul_of_nonneg_left hy (sq_nonneg t)) hb.le
  have hbk : 0 < k * b := mul_pos hk hb
  refine le_of_mul_le_mul_left ?_ hbk
  rw [e1]
  have h3 := mul_le_mul_of_nonneg_left (add_le_add hW hY) (add_pos hb hk).le
  nlinarith

theorem upper_step {n : Nat} {H : Matrix (Fin n) (Fin n) α} {h mu L : α} (hh : 0 ≤ h) (hmu : 0 < mu)
    (hH : ∀ v, v ⬝ᵥ (H *ᵥ v) ≤ h * (v ⬝ᵥ v)) {s y : Fin n → α} (hp : GoodPair mu L s y) (v : Fin n → α) :
    v ⬝ᵥ (bfgs H s y *ᵥ v) ≤ (2 * (1 + (L / mu) ^ 2) * h + 1 / mu) * (v ⬝ᵥ v) := by
  have hs := hp.pos
  rw [bfgs_form H s y v hs.ne']
  obtain ⟨t, ht⟩ : ∃ t, t = s ⬝ᵥ v / (s ⬝ᵥ y) := ⟨_, rfl⟩
  obtain ⟨w, hw⟩ : ∃ w, w = v - t • y := ⟨_, rfl⟩
  rw [← ht, ← hw]
  have hcs := dot_cs s v
  have hss := dot_self_nonneg s
  have hvv := dot_self_nonneg v
  have h1 : (s ⬝ᵥ v) ^ 2 / (s ⬝ᵥ y) ≤ 1 / mu * (v ⬝ᵥ v) := by
    rw [div_le_iff₀ hs]
    have : mu * ((s ⬝ᵥ s) * (v ⬝ᵥ v)) ≤ (s ⬝ᵥ y) * (v ⬝ᵥ v) := by
      rw [← mul_assoc]
      exact mul_le_mul_of_nonneg_right hp.lower hvv
    have h2 : 1 / mu * (v ⬝ᵥ v) * (s ⬝ᵥ y) = (s ⬝ᵥ y) * (v ⬝ᵥ v) / mu := by
      field_simp
    rw [h2, le_div_iff₀ hmu]
    nlinarith
  have h2 : t ^ 2 * (y ⬝ᵥ y) ≤ (L / mu) ^ 2 * (v ⬝ᵥ v) := by
    rw [ht, div_pow, div_pow, div_mul_eq_mul_div, div_mul_eq_mul_div, div_le_div_iff₀ (by positivity) (by positivity)]
    have a1 : (s ⬝ᵥ v) ^ 2 * (y ⬝ᵥ y) ≤ (s ⬝ᵥ s) * (v ⬝ᵥ v) * (L ^ 2 * (s ⬝ᵥ s)) :=
      mul_le_mul hcs hp.upper (dot_self_nonneg y) (mul_nonneg hss hvv)
    have a2 : (mu * (s ⬝ᵥ s)) ^ 2 ≤ (s ⬝ᵥ y) ^ 2 := pow_le_pow_left₀ (mul_nonneg hmu.le hss) hp.lower 2
    calc (s ⬝ᵥ v) ^ 2 * (y ⬝ᵥ y) * mu ^ 2 ≤ (s ⬝ᵥ s) * (v ⬝ᵥ v) * (L ^ 2 * (s ⬝ᵥ s)) * mu ^ 2 :=
          mul_le_mul_of_nonneg_right a1 (sq_nonneg _)
      _ = L ^ 2 * (v ⬝ᵥ v) * (mu * (s ⬝ᵥ s)) ^ 2 := by ring
      _ ≤ L ^ 2 * (v ⬝ᵥ v) * (s ⬝ᵥ y) ^ 2 := mul_le_mul_of_nonneg_left a2 (mul_nonneg (sq_nonneg _) hvv)
  have h3 : w ⬝ᵥ w ≤ 2 * (1 + (L / mu) ^ 2) * (v ⬝ᵥ v) := by
    have e1 : w ⬝ᵥ w = v ⬝ᵥ v - 2 * (t * (v ⬝ᵥ y)) + t ^ 2 * (y ⬝ᵥ y) := by
      rw [hw]
      simp only [sub_dotProduct, dotProduct_sub, smul_dotProduct, dotProduct_smul, smul_eq_mul, dotProduct_comm y v]
      ring
    have e2 : (v + t • y) ⬝ᵥ (v + t • y) = v ⬝ᵥ v + 2 * (t * (v ⬝ᵥ y)) + t ^ 2 * (y ⬝ᵥ y) := by
      simp only [add_dotProduct, dotProduct_add, smul_dotProduct, dotProduct_smul, smul_eq_mul, dotProduct_comm y v]
      ring
    have := dot_self_nonneg (v + t • y)
    rw [e2] at this
    nlinarith
  have h4 := mul_le_mul_of_nonneg_left h3 hh
  have h5 := hH w
  nlinarith

/-- Symmetry of the form of a matrix. -/
def SymForm {n : Nat} (H : Matrix (Fin n) (Fin n) α) : Prop := ∀ u v, u ⬝ᵥ (H *ᵥ v) = v ⬝ᵥ (H *ᵥ u)

theorem bfgs_sym {n : Nat} {H : Matrix (Fin n) (Fin n) α} (hH : SymForm H) {s y : Fin n → α} (hs : s ⬝ᵥ y ≠ 0) :
    SymForm (bfgs H s y) := by
  have key : ∀ u v, u ⬝ᵥ (bfgs H s y *ᵥ v) = (u - (s ⬝ᵥ u / (s ⬝ᵥ y)) • y) ⬝ᵥ (H *ᵥ (v - (s ⬝ᵥ v / (s ⬝ᵥ y)) • y)) +
      (s ⬝ᵥ u) * (s ⬝ᵥ v) / (s ⬝ᵥ y) := by
    intro u v
    rw [bfgs_mulVec, dotProduct_add, dotProduct_smul, sub_dotProduct, smul_dotProduct, dotProduct_comm u s]
    simp only [smul_eq_mul]
    field_simp
    ring
  intro u v
  rw [key, key, hH, mul_comm (s ⬝ᵥ u)]

theorem image_bound {n : Nat} {H : Matrix (Fin n) (Fin n) α} (hH : SymForm H) {h : α} (hh : 0 < h)
    (hp : ∀ v, 0 ≤ v ⬝ᵥ (H *ᵥ v)) (hu : ∀ v, v ⬝ᵥ (H *ᵥ v) ≤ h * (v ⬝ᵥ v)) (v : Fin n → α) :
    (H *ᵥ v) ⬝ᵥ (H *ᵥ v) ≤ h * (v ⬝ᵥ (H *ᵥ v)) := by
  have h1 := hp (h • v - H *ᵥ v)
  rw [mulVec_sub, mulVec_smul] at h1
  simp only [sub_dotProduct, dotProduct_sub, smul_dotProduct, dotProduct_smul, smul_eq_mul] at h1
  have h2 := hu (H *ᵥ v)
  rw [hH v (H *ᵥ v)] at h1
  refine le_of_mul_le_mul_left ?_ hh
  nlinarith

/-- Bounds of the matrices of L-BFGS. -/
theorem bfgsList_bounds {n : Nat} {mu L c : α} (hmu : 0 < mu) (hL : 0 < L) (hc : 0 < c) (hc1 : c ≤ 1 / mu)
    (hc2 : 1 ≤ L ^ 2 / mu * c) (l : List ((Fin n → α) × (Fin n → α))) (hl : ∀ e ∈ l, GoodPair mu L e.1 e.2) :
    SymForm (bfgsList c l) ∧ (∀ v, v ⬝ᵥ v ≤ ((l.length : α) + 1) * (L ^ 2 / mu) * (v ⬝ᵥ (bfgsList c l *ᵥ v))) ∧
    ∀ v, v ⬝ᵥ (bfgsList c l *ᵥ v) ≤ ((l.length : α) + 1) * (2 * (1 + (L / mu) ^ 2)) ^ l.length / mu * (v ⬝ᵥ v) := by
  induction l with
  | nil =>
    refine ⟨fun u v => ?_, fun v => ?_, fun v => ?_⟩
    · rw [bfgsList, smul_mulVec, smul_mulVec, one_mulVec, one_mulVec, dotProduct_smul, dotProduct_smul, dotProduct_comm]
    · rw [bfgsList, smul_mulVec, one_mulVec, dotProduct_smul, smul_eq_mul, List.length_nil, Nat.cast_zero, zero_add, one_mul,
        ← mul_assoc]
      exact le_mul_of_one_le_left (dot_self_nonneg v) hc2
    · rw [bfgsList, smul_mulVec, one_mulVec, dotProduct_smul, smul_eq_mul, List.length_nil, Nat.cast_zero, zero_add, one_mul, pow_zero]
      exact mul_le_mul_of_nonneg_right hc1 (dot_self_nonneg v)
  | cons e l ih =>
    obtain ⟨h1, h2, h3⟩ := ih fun e he => hl e (List.mem_cons_of_mem _ he)
    have hg := hl e List.mem_cons_self
    have hk : 0 < L ^ 2 / mu := by positivity
    have hy : e.2 ⬝ᵥ e.2 ≤ L ^ 2 / mu * (e.1 ⬝ᵥ e.2) := by
      rw [div_mul_eq_mul_div, le_div_iff₀ hmu]
      nlinarith [hg.upper, hg.lower, mul_le_mul_of_nonneg_left hg.lower (sq_nonneg L)]
    rw [bfgsList]
    refine ⟨bfgs_sym h1 hg.pos.ne', fun v => ?_, fun v => ?_⟩
    · have := lower_step (b := ((l.length : α) + 1) * (L ^ 2 / mu)) (by positivity) hk h2 hg.pos hy v
      rw [List.length_cons, Nat.cast_succ]
      calc _ ≤ _ := this
        _ = _ := by ring
    · have := upper_step (h := ((l.length : α) + 1) * (2 * (1 + (L / mu) ^ 2)) ^ l.length / mu) (by positivity) hmu h3 hg v
      refine this.trans (mul_le_mul_of_nonneg_right ?_ (dot_self_nonneg v))
      rw [List.length_cons, Nat.cast_succ]
      obtain ⟨a, ha⟩ : ∃ a, a = 2 * (1 + (L / mu) ^ 2) := ⟨_, rfl⟩
      have ha1 : 1 ≤ a := by
        rw [ha]
        nlinarith [sq_nonneg (L / mu)]
      rw [← ha]
      have hp1 : 1 ≤ a ^ (l.length + 1) := one_le_pow₀ ha1
      have : a * (((l.length : α) + 1) * a ^ l.length / mu) + 1 / mu = (((l.length : α) + 1) * a ^ (l.length + 1) + 1) / mu := by
        rw [pow_succ]
        field_simp
      rw [this, div_le_div_iff_of_pos_right hmu]
      nlinarith

/-- The angle between direction and gradient is bounded. -/
theorem direction_angle {n : Nat} {mu L c : α} (hmu : 0 < mu) (hL : 0 < L) (hc : 0 < c) (hc1 : c ≤ 1 / mu)
    (hc2 : 1 ≤ L ^ 2 / mu * c) (l : List ((Fin n → α) × (Fin n → α))) (hl : ∀ e ∈ l, GoodPair mu L e.1 e.2) (m : Nat)
    (hm : l.length ≤ m) (g : Fin n → α) :
    (g ⬝ᵥ g) * ((bfgsList c l *ᵥ g) ⬝ᵥ (bfgsList c l *ᵥ g)) ≤ bfgsCondition m mu L * (g ⬝ᵥ (bfgsList c l *ᵥ g)) ^ 2 := by
  obtain ⟨h1, h2, h3⟩ := bfgsList_bounds hmu hL hc hc1 hc2 l hl
  have hpos : ∀ v, 0 ≤ v ⬝ᵥ (bfgsList c l *ᵥ v) := by
    intro v
    by_cases hv : v = 0
    · rw [hv, zero_dotProduct]
    · exact (bfgsList_pos hc l (fun e he => (hl e he).pos) v hv).le
  have h4 := image_bound h1 (by positivity) hpos h3 g
  have h5 := mul_le_mul (h2 g) h4 (dot_self_nonneg _) (mul_nonneg (by positivity) (hpos g))
  refine h5.trans ?_
  have hle : ((l.length : α) + 1) ≤ (m : α) + 1 := by exact_mod_cast Nat.succ_le_succ hm
  have ha1 : 1 ≤ 2 * (1 + (L / mu) ^ 2) := by nlinarith [sq_nonneg (L / mu)]
  have hpw : (2 * (1 + (L / mu) ^ 2)) ^ l.length ≤ (2 * (1 + (L / mu) ^ 2)) ^ m := pow_le_pow_right₀ ha1 hm
  have h6 : ((l.length : α) + 1) ^ 2 * (2 * (1 + (L / mu) ^ 2)) ^ l.length ≤ ((m : α) + 1) ^ 2 * (2 * (1 + (L / mu) ^ 2)) ^ m :=
    mul_le_mul (pow_le_pow_left₀ (by positivity) hle 2) hpw (by positivity) (by positivity)
  have h7 := mul_le_mul_of_nonneg_right h6 (show 0 ≤ (L / mu) ^ 2 * (g ⬝ᵥ (bfgsList c l *ᵥ g)) ^ 2 by positivity)
  unfold bfgsCondition
  calc _ = ((l.length : α) + 1) ^ 2 * (2 * (1 + (L / mu) ^ 2)) ^ l.length * ((L / mu) ^ 2 * (g ⬝ᵥ (bfgsList c l *ᵥ g)) ^ 2) := by
        rw [div_pow]
        field_simp
    _ ≤ _ := h7
    _ = _ := by ring

/-- The ratio of the slope along the direction to the squared length of the direction is bounded from both sides. -/
theorem direction_ratio {n : Nat} {mu L c : α} (hmu : 0 < mu) (hL : 0 < L) (hc : 0 < c) (hc1 : c ≤ 1 / mu)
    (hc2 : 1 ≤ L ^ 2 / mu * c) (l : List ((Fin n → α) × (Fin n → α))) (hl : ∀ e ∈ l, GoodPair mu L e.1 e.2) (m : Nat)
    (hm : l.length ≤ m) (g : Fin n → α) (hg : g ≠ 0) :
    (bfgsList c l *ᵥ g) ⬝ᵥ (bfgsList c l *ᵥ g) ≤ bfgsUpper m mu L * (g ⬝ᵥ (bfgsList c l *ᵥ g)) ∧
    g ⬝ᵥ (bfgsList c l *ᵥ g) ≤ bfgsLower m mu L * ((bfgsList c l *ᵥ g) ⬝ᵥ (bfgsList c l *ᵥ g)) := by
  obtain ⟨h1, h2, h3⟩ := bfgsList_bounds hmu hL hc hc1 hc2 l hl
  have hpos' := bfgsList_pos hc l (fun e he => (hl e he).pos)
  have hpos : ∀ v, 0 ≤ v ⬝ᵥ (bfgsList c l *ᵥ v) := by
    intro v
    by_cases hv : v = 0
    · rw [hv, zero_dotProduct]
    · exact (hpos' v hv).le
  have hle : ((l.length : α) + 1) ≤ (m : α) + 1 := by exact_mod_cast Nat.succ_le_succ hm
  have ha1 : 1 ≤ 2 * (1 + (L / mu) ^ 2) := by nlinarith [sq_nonneg (L / mu)]
  have hpw : (2 * (1 + (L / mu) ^ 2)) ^ l.length ≤ (2 * (1 + (L / mu) ^ 2)) ^ m := pow_le_pow_right₀ ha1 hm
  constructor
  · refine (image_bound h1 (by positivity) hpos h3 g).trans (mul_le_mul_of_nonneg_right ?_ (hpos g))
    unfold bfgsUpper
    exact div_le_div_of_nonneg_right (mul_le_mul hle hpw (by positivity) (by positivity)) hmu.le
  · have h4 := dot_cs g (bfgsList c l *ᵥ g)
    have h5 := mul_le_mul_of_nonneg_right (h2 g) (dot_self_nonneg (bfgsList c l *ᵥ g))
    have h6 : g ⬝ᵥ (bfgsList c l *ᵥ g) ≤ ((l.length : α) + 1) * (L ^ 2 / mu) * ((bfgsList c l *ᵥ g) ⬝ᵥ (bfgsList c l *ᵥ g)) := by
      refine le_of_mul_le_mul_left ?_ (hpos' g hg)
      nlinarith
    refine h6.trans (mul_le_mul_of_nonneg_right ?_ (dot_self_nonneg _))
    unfold bfgsLower
    exact mul_le_mul_of_nonneg_right hle (by positivity)

theorem condition_ge_one {mu L : α} (hmu : 0 < mu) (hL : mu ≤ L) (m : Nat) : 1 ≤ bfgsCondition m mu L := by
  have h1 : 1 ≤ L / mu := by rwa [le_div_iff₀ hmu, one_mul]
  have ha1 : 1 ≤ 2 * (1 + (L / mu) ^ 2) := by nlinarith [sq_nonneg (L / mu)]
  have h2 : 1 ≤ ((m : α) + 1) ^ 2 := one_le_pow₀ (by simp)
  unfold bfgsCondition
  exact one_le_mul_of_one_le_of_one_le (one_le_mul_of_one_le_of_one_le h2 (one_le_pow₀ ha1)) (one_le_pow₀ h1)

theorem slope_lower {loss : LossFn α (List α)} {X : DMat α} {y : List α} {n : Nat} {mu : α}
    (hmu : StrongConvexity loss X y n mu) {x z g h : List α} {fx fz : α}
    (hx : x.length = n) (hz : z.length = n) (hg : g.length = n) (hh : h.length = n)
    (ex : loss.evaluate X y x = .ok fx) (ez : loss.evaluate X y z = .ok fz) (gx : loss.gradient X y x = .ok g)
    (gz : loss.gradient X y z = .ok h) :
    mu * ((vec n z - vec n x) ⬝ᵥ (vec n z - vec n x)) ≤ (vec n z - vec n x) ⬝ᵥ (vec n h - vec n g) := by
  have h1 := hmu x z hx hz fx fz g ex ez gx
  have h2 := hmu z x hz hx fz fx h ez ex gz
  rw [zipWith_sum hg (by simp [hx, hz]), vec_sub hz hx, sqDist_eq hz hx] at h1
  rw [zipWith_sum hh (by simp [hx, hz]), vec_sub hx hz, sqDist_eq hx hz] at h2
  have e1 : vec n h ⬝ᵥ (vec n x - vec n z) = -(vec n h ⬝ᵥ (vec n z - vec n x)) := by
    rw [← dotProduct_neg, neg_sub]
  have e2 : (vec n x - vec n z) ⬝ᵥ (vec n x - vec n z) = (vec n z - vec n x) ⬝ᵥ (vec n z - vec n x) := by
    rw [← neg_dotProduct_neg, neg_sub]
  rw [dotProduct_sub _ (vec n h) (vec n g), dotProduct_comm _ (vec n h), dotProduct_comm _ (vec n g)]
  rw [e1, e2] at h2
  linarith

theorem goodPair_of {loss : LossFn α (List α)} {X : DMat α} {y : List α} {n : Nat} {mu L : α}
    (hmu : StrongConvexity loss X y n mu) (hL : LipschitzGradient loss X y n L) {x z g h : List α} {fx fz : α}
    (hx : x.length = n) (hz : z.length = n) (hg : g.length = n) (hh : h.length = n)
    (ex : loss.evaluate X y x = .ok fx) (ez : loss.evaluate X y z = .ok fz) (gx : loss.gradient X y x = .ok g)
    (gz : loss.gradient X y z = .ok h) (hpos : 0 < (vec n z - vec n x) ⬝ᵥ (vec n h - vec n g)) :
    GoodPair mu L (vec n z - vec n x) (vec n h - vec n g) := by
  refine ⟨hpos, slope_lower hmu hx hz hg hh ex ez gx gz, ?_⟩
  have h1 := hL x z hx hz g h gx gz
  rwa [sqDist_eq hh hg, sqDist_eq hz hx] at h1

/-- A step that meets the Wolfe condition along a direction with bounded angle. -/
theorem step_gain {n : Nat} {mu L c1 c2 : α} (hL : 0 < L) (hG : 0 < mu) (hc1 : 0 ≤ c1) {f f' t : α}
    {d g h : Fin n → α} (ht : 0 < t) (hm0 : d ⬝ᵥ g < 0) (harm : f' ≤ f + c1 * t * (d ⬝ᵥ g)) (hcurv : c2 * (d ⬝ᵥ g) ≤ d ⬝ᵥ h)
    (hlip : (h - g) ⬝ᵥ (h - g) ≤ L ^ 2 * (t ^ 2 * (d ⬝ᵥ d))) (hang : (g ⬝ᵥ g) * (d ⬝ᵥ d) ≤ mu * (d ⬝ᵥ g) ^ 2) (hw : c2 < 1) :
    f' + c1 * (1 - c2) / (L * mu) * (g ⬝ᵥ g) ≤ f := by
  have hd : 0 < d ⬝ᵥ d := dot_self_pos fun h0 => by rw [h0, zero_dotProduct] at hm0; exact lt_irrefl _ hm0
  have h1 : d ⬝ᵥ (h - g) ≤ L * t * (d ⬝ᵥ d) := by
    refine le_of_sq_le_sq' ?_ (by positivity)
    calc (d ⬝ᵥ (h - g)) ^ 2 ≤ (d ⬝ᵥ d) * ((h - g) ⬝ᵥ (h - g)) := dot_cs _ _
      _ ≤ (d ⬝ᵥ d) * (L ^ 2 * (t ^ 2 * (d ⬝ᵥ d))) := mul_le_mul_of_nonneg_left hlip hd.le
      _ = (L * t * (d ⬝ᵥ d)) ^ 2 := by ring
  rw [dotProduct_sub] at h1
  obtain ⟨q, hq⟩ : ∃ q, q = -(d ⬝ᵥ g) := ⟨_, rfl⟩
  have hm : d ⬝ᵥ g = -q := by rw [hq, neg_neg]
  rw [hm] at hm0 harm hcurv h1 hang
  have hq0 : 0 < q := by linarith
  have h2 : (1 - c2) * q ≤ L * t * (d ⬝ᵥ d) := by linarith
  have h3 : c1 * t * q ≤ f - f' := by linarith
  rw [← le_sub_iff_add_le', div_mul_eq_mul_div, div_le_iff₀ (mul_pos hL hG)]
  refine le_of_mul_le_mul_right ?_ hd
  calc c1 * (1 - c2) * (g ⬝ᵥ g) * (d ⬝ᵥ d) = c1 * (1 - c2) * ((g ⬝ᵥ g) * (d ⬝ᵥ d)) := by ring
    _ ≤ c1 * (1 - c2) * (mu * (-q) ^ 2) := mul_le_mul_of_nonneg_left hang (mul_nonneg hc1 (by linarith))
    _ = (c1 * q * mu) * ((1 - c2) * q) := by ring
    _ ≤ (c1 * q * mu) * (L * t * (d ⬝ᵥ d)) := mul_le_mul_of_nonneg_left h2 (by positivity)
    _ = (c1 * t * q) * (L * mu * (d ⬝ᵥ d)) := by ring
    _ ≤ (f - f') * (L * mu * (d ⬝ᵥ d)) := mul_le_mul_of_nonneg_right h3 (by positivity)
    _ = (f - f') * (L * mu) * (d ⬝ᵥ d) := by ring
where
  le_of_sq_le_sq' {a b : α} (h : a ^ 2 ≤ b ^ 2) (hb : 0 ≤ b) : a ≤ b := (abs_le_of_sq_le_sq' h hb).2

/-- Bounds of the curvature of the loss, and parameters with a Wolfe condition. -/
structure _root_.OpenML.Spec.CurvedProblem (loss : LossFn α (List α)) (X : DMat α) (y : List α) (n : Nat) (mu L : α) (p : LBFGS.Params α) : Prop where
  mu_pos : 0 < mu
  mu_le : mu ≤ L
  convex : StrongConvexity loss X y n mu
  smooth : LipschitzGradient loss X y n L
  factors : Factors p.search
  wolfe_used : p.search.condition ≠ "ARMIJO"
  wolfe_lt : p.search.wolfe < 1
  ftol_pos : 0 < p.search.ftol
  ftol_le : p.search.ftol * (1 - p.search.wolfe) ≤ 1 / 2
  tol_nonneg : 0 ≤ p.tol

/-- What is known about the state with number `i`. -/
structure Rate (loss : LossFn α (List α)) (X : DMat α) (y : List α) (n : Nat) (mu L : α) (p : LBFGS.Params α) (σ : Nat → State α)
    (i : Nat) : Prop where
  desc : Desc n p σ i
  con : Consistent loss X y (σ i)
  good : ∀ N < i, GoodPair mu L (pairOf n σ N).1 (pairOf n σ N).2
  angle : (vec n (σ i).g ⬝ᵥ vec n (σ i).g) * (vec n (σ i).d ⬝ᵥ vec n (σ i).d) ≤
    bfgsCondition p.memSize mu L * (vec n (σ i).d ⬝ᵥ vec n (σ i).g) ^ 2
  ratio : 0 < i → vec n (σ i).d ⬝ᵥ vec n (σ i).d ≤ bfgsUpper p.memSize mu L * -(vec n (σ i).d ⬝ᵥ vec n (σ i).g) ∧
    -(vec n (σ i).d ⬝ᵥ vec n (σ i).g) ≤ bfgsLower p.memSize mu L * (vec n (σ i).d ⬝ᵥ vec n (σ i).d)

theorem rate_initial {loss : LossFn α (List α)} {X : DMat α} {y : List α} {n : Nat} {mu L : α} {p : LBFGS.Params α}
    (hR : CurvedProblem loss X y n mu L p) (junk : Nat → α) (x0 g0 : List α) (f0 step : α) (hx : x0.length = n) (hg : g0.length = n)
    (hne : vec n g0 ≠ 0) (hs : 0 < step) (ex : loss.evaluate X y x0 = .ok f0) (eg : loss.gradient X y x0 = .ok g0)
    (σ : Nat → State α) (h0 : σ 0 = initial p junk x0 g0 f0 step) : Rate loss X y n mu L p σ 0 := by
  refine ⟨desc_initial p junk x0 g0 f0 step hx hg hne hs σ h0, by rw [h0]; exact ⟨ex, eg⟩, fun N hN => absurd hN (by omega), ?_,
    fun h => absurd h (by omega)⟩
  rw [h0]
  have : vec n (g0.map fun a => -a) = -vec n g0 := by
    conv_lhs => rw [← ofFn_vec hg, map_ofFn', vec_ofFn]
    rfl
  change (vec n g0 ⬝ᵥ vec n g0) * (vec n (g0.map fun a => -a) ⬝ᵥ vec n (g0.map fun a => -a)) ≤
    bfgsCondition p.memSize mu L * (vec n (g0.map fun a => -a) ⬝ᵥ vec n g0) ^ 2
  rw [this, neg_dotProduct_neg, neg_dotProduct, neg_sq, ← pow_two]
  exact le_mul_of_one_le_left (sq_nonneg _) (condition_ge_one hR.mu_pos hR.mu_le _)

theorem rate_step {loss : LossFn α (List α)} {X : DMat α} {y : List α} {n : Nat} {mu L : α} {p : LBFGS.Params α}
    (hR : CurvedProblem loss X y n mu L p) {policy : Policy} {σ : Nat → State α} {i : Nat} (hI : Rate loss X y n mu L p σ i)
    {r : Found α} {pfx : List α}
    (hs : search policy p.search loss X y (σ i).fx (σ i).g (σ i).d (σ i).step (σ i).x = .ok (some r))
    (hne : vec n r.g ≠ 0) (hu : update p (σ i) r pfx = .ok (σ (i + 1))) : Rate loss X y n mu L p σ (i + 1) := by
  have hD := desc_step hR.factors hR.wolfe_used hR.wolfe_lt hI.desc hs hne hu
  obtain ⟨-, -, l3⟩ := search_lengths hs
  have hU := update_inv hI.desc.inv (l3.trans hI.desc.inv.hx) hu
  obtain ⟨-, he, hg⟩ := search_step hR.factors hI.con hs
  have hcon : Consistent loss X y (σ (i + 1)) := by
    unfold Consistent
    rw [hU.2.2.2.1, hU.2.2.2.2.1, hU.2.2.2.2.2.1]
    exact ⟨he, hg⟩
  have hgood : ∀ N < i + 1, GoodPair mu L (pairOf n σ N).1 (pairOf n σ N).2 := by
    intro N hN
    rcases Nat.lt_succ_iff_lt_or_eq.mp hN with h | rfl
    · exact hI.good N h
    · exact goodPair_of hR.convex hR.smooth hI.desc.inv.hx hD.inv.hx hI.desc.inv.hg hD.inv.hg hI.con.1 hcon.1 hI.con.2 hcon.2
        (hD.pos N (by omega))
  have hne' : vec n (σ (i + 1)).g ≠ 0 := by rw [hU.2.2.2.2.2.1]; exact hne
  have hmu := hR.mu_pos
  have hL : 0 < L := lt_of_lt_of_le hmu hR.mu_le
  have hi := hgood i (by omega)
  obtain ⟨s, hs'⟩ : ∃ s, s = (pairOf n σ i).1 := ⟨_, rfl⟩
  obtain ⟨yv, hy'⟩ : ∃ s, s = (pairOf n σ i).2 := ⟨_, rfl⟩
  have hyy : 0 < yv ⬝ᵥ yv := dot_self_pos fun h => by
    have := hi.pos
    rw [← hy', h, dotProduct_zero] at this
    exact lt_irrefl _ this
  have hdir := hU.2.2.2.2.2.2.2.2
  rw [← hs', ← hy'] at hi hdir
  have hc : 0 < yv ⬝ᵥ s / (yv ⬝ᵥ yv) := by
    rw [dotProduct_comm]
    exact div_pos hi.pos hyy
  have hc1 : yv ⬝ᵥ s / (yv ⬝ᵥ yv) ≤ 1 / mu := by
    rw [dotProduct_comm yv s, div_le_div_iff₀ hyy hmu, one_mul]
    have h1 := dot_cs s yv
    have h2 := mul_le_mul_of_nonneg_right hi.lower hyy.le
    refine le_of_mul_le_mul_left ?_ hi.pos
    nlinarith
  have hc2 : 1 ≤ L ^ 2 / mu * (yv ⬝ᵥ s / (yv ⬝ᵥ yv)) := by
    rw [dotProduct_comm yv s, div_mul_div_comm, le_div_iff₀ (mul_pos hmu hyy), one_mul]
    have h1 := mul_le_mul_of_nonneg_left hi.lower (sq_nonneg L)
    have h2 := mul_le_mul_of_nonneg_left hi.upper hmu.le
    nlinarith
  have hrec : ∀ e ∈ recent (pairOf n σ) (i + 1) (min p.memSize (i + 1)), GoodPair mu L e.1 e.2 := fun e he => by
    unfold recent at he
    obtain ⟨j, hj, rfl⟩ := List.mem_map.mp he
    exact hgood _ (by omega)
  have := direction_angle hmu hL hc hc1 hc2 (recent (pairOf n σ) (i + 1) (min p.memSize (i + 1))) hrec p.memSize
    (by unfold recent; simp) (vec n (σ (i + 1)).g)
  have hratio := direction_ratio hmu hL hc hc1 hc2 (recent (pairOf n σ) (i + 1) (min p.memSize (i + 1))) hrec p.memSize
    (by unfold recent; simp) (vec n (σ (i + 1)).g) hne'
  rw [dotProduct_comm (vec n (σ (i + 1)).g) (bfgsList _ _ *ᵥ _)] at this hratio
  refine ⟨hD, hcon, hgood, ?_, fun _ => ?_⟩
  · rw [hdir, vec_ofFn, neg_dotProduct_neg, neg_dotProduct, neg_sq]
    exact this
  · rw [hdir, vec_ofFn, neg_dotProduct_neg, neg_dotProduct, neg_neg]
    exact hratio

theorem rate_of_run {sqrt : α → α} (hsq : sqrt 0 = 0) {loss : LossFn α (List α)} {X : DMat α} {y : List α} {mu L : α}
    {p : LBFGS.Params α} {policy : Policy} {σ : Nat → State α} {K : Nat} {junk : Nat → α} {x0 g0 : List α} {f0 step : α}
    (hR : CurvedProblem loss X y x0.length mu L p) (h : IsIterates sqrt policy p loss X y σ K)
    (h0 : σ 0 = initial p junk x0 g0 f0 step) (hg0 : g0.length = x0.length) (hs : 0 < step) (hne : vec x0.length g0 ≠ 0)
    (ex : loss.evaluate X y x0 = .ok f0) (eg : loss.gradient X y x0 = .ok g0) (i : Nat) (hi : i ≤ K) :
    Rate loss X y x0.length mu L p σ i := by
  induction i with
  | zero => exact rate_initial hR junk x0 g0 f0 step rfl hg0 hne hs ex eg σ h0
  | succ i ih =>
    have hI := ih (by omega)
    obtain ⟨r, pfx, hs, hcv, -, -, hu⟩ := iteration_inr (h i (by omega))
    obtain ⟨-, -, hl⟩ := search_lengths hs
    have hU := update_inv hI.desc.inv (hl.trans hI.desc.inv.hx) hu
    have hrg : r.g.length = x0.length := by rw [← hU.2.2.2.2.2.1]; exact hU.1.hg
    exact rate_step hR hI hs (not_converged_ne hsq hR.tol_nonneg hrg hcv) hu

/-- The gain of a successful search. -/
theorem search_gain {loss : LossFn α (List α)} {X : DMat α} {y : List α} {n : Nat} {mu L : α} {p : LBFGS.Params α}
    (hR : CurvedProblem loss X y n mu L p) {policy : Policy} {σ : Nat → State α} {i : Nat} (hI : Rate loss X y n mu L p σ i)
    {r : Found α} (hrg : r.g.length = n)
    (hs : search policy p.search loss X y (σ i).fx (σ i).g (σ i).d (σ i).step (σ i).x = .ok (some r)) :
    r.fx + lbfgsGain p.memSize mu L p.search.ftol p.search.wolfe * (vec n (σ i).g ⬝ᵥ vec n (σ i).g) ≤ (σ i).fx := by
  have hmu := hR.mu_pos
  have hL : 0 < L := lt_of_lt_of_le hmu hR.mu_le
  obtain ⟨-, -, hx, he, hg, ht, hcond, -⟩ := C53_success policy p.search hR.factors loss X y (σ i).fx (σ i).g (σ i).d (σ i).step
    (σ i).x r hs
  have harm := hcond.1
  have hcurv := (hcond.2 hR.wolfe_used).1
  unfold Armijo at harm
  unfold Curvature at hcurv
  dsimp only at harm hcurv
  have hd := hI.desc.hd
  have hgl := hI.desc.inv.hg
  have hxl := hI.desc.inv.hx
  rw [zipWith_sum hd hgl] at harm
  rw [zipWith_sum hd hgl, zipWith_sum hd hrg] at hcurv
  have hrx : r.x.length = n := by rw [hx]; simp [hxl, hd]
  have hlip := hR.smooth _ _ hxl hrx _ _ hI.con.2 hg
  have e1 : vec n r.x - vec n (σ i).x = r.step • vec n (σ i).d := by
    rw [hx, vec_zipWith_step hxl hd, add_sub_cancel_left]
  rw [sqDist_eq hrg hgl, sqDist_eq hrx hxl, e1, smul_dotProduct, dotProduct_smul, smul_eq_mul, smul_eq_mul, ← mul_assoc r.step,
    ← pow_two] at hlip
  exact step_gain hL (lt_of_lt_of_le one_pos (condition_ge_one hmu hR.mu_le p.memSize)) hR.ftol_pos.le ht hI.desc.desc harm hcurv
    hlip hI.angle hR.wolfe_lt

theorem gain_pos {loss : LossFn α (List α)} {X : DMat α} {y : List α} {n : Nat} {mu L : α} {p : LBFGS.Params α}
    (hR : CurvedProblem loss X y n mu L p) : 0 < lbfgsGain p.memSize mu L p.search.ftol p.search.wolfe := by
  unfold lbfgsGain
  exact div_pos (mul_pos hR.ftol_pos (sub_pos.mpr hR.wolfe_lt)) (mul_pos (lt_of_lt_of_le hR.mu_pos hR.mu_le)
    (lt_of_lt_of_le one_pos (condition_ge_one hR.mu_pos hR.mu_le p.memSize)))

theorem gain_le {loss : LossFn α (List α)} {X : DMat α} {y : List α} {n : Nat} {mu L : α} {p : LBFGS.Params α}
    (hR : CurvedProblem loss X y n mu L p) : 2 * mu * lbfgsGain p.memSize mu L p.search.ftol p.search.wolfe ≤ 1 := by
  have hmu := hR.mu_pos
  have hL : 0 < L := lt_of_lt_of_le hmu hR.mu_le
  have hG := condition_ge_one hmu hR.mu_le p.memSize
  unfold lbfgsGain
  rw [mul_div_assoc', div_le_one (by positivity)]
  have h1 : 2 * mu * (p.search.ftol * (1 - p.search.wolfe)) ≤ mu := by
    have := mul_le_mul_of_nonneg_left hR.ftol_le hmu.le
    linarith
  have h2 : L ≤ L * bfgsCondition p.memSize mu L := le_mul_of_one_le_right hL.le hG
  linarith [hR.mu_le]

/-- The distance from the loss of other weights is bounded by the gradient. -/
theorem gap_le {loss : LossFn α (List α)} {X : DMat α} {y : List α} {n : Nat} {mu : α} (hmu : 0 < mu)
    (hc : StrongConvexity loss X y n mu) {x z g : List α} {f f' : α} (hx : x.length = n) (hz : z.length = n) (hg : g.length = n)
    (ex : loss.evaluate X y x = .ok f) (ez : loss.evaluate X y z = .ok f') (eg : loss.gradient X y x = .ok g) :
    2 * mu * (f - f') ≤ vec n g ⬝ᵥ vec n g := by
  have h := hc x z hx hz f f' g ex ez eg
  rw [zipWith_sum hg (by simp [hx, hz]), vec_sub hz hx, sqDist_eq hz hx] at h
  obtain ⟨s, hs⟩ : ∃ s, s = vec n z - vec n x := ⟨_, rfl⟩
  rw [← hs] at h
  have h1 := dot_self_nonneg (vec n g + mu • s)
  simp only [add_dotProduct, dotProduct_add, smul_dotProduct, dotProduct_smul, smul_eq_mul, dotProduct_comm s (vec n g)] at h1
  have h2 := mul_le_mul_of_nonneg_left h (show 0 ≤ 2 * mu by linarith)
  nlinarith

end LBFGS

variable (sqrt : α → α) (hsq0 : sqrt 0 = 0) (loss : LossFn α (List α)) (X : DMat α) (y : List α) (mu L : α) (p : LBFGS.Params α)
  (policy : Policy) (σ : Nat → State α) (K : Nat) (junk : Nat → α) (x0 g0 : List α) (f0 step : α)
  (hR : CurvedProblem loss X y x0.length mu L p) (h : IsIterates sqrt policy p loss X y σ K)
  (h0 : σ 0 = initial p junk x0 g0 f0 step) (hg0 : g0.length = x0.length) (hs : 0 < step)
  (hstart : p.tol * max 1 (len sqrt x0) < len sqrt g0)
  (ex : loss.evaluate X y x0 = .ok f0) (eg : loss.gradient X y x0 = .ok g0)

include hsq0 hR h h0 hg0 hs hstart ex eg

theorem LBFGS.start_ne : vec x0.length g0 ≠ 0 := by
  refine not_converged_ne hsq0 hR.tol_nonneg (x := x0) hg0 ?_
  rw [← Bool.not_eq_true, converged_iff]
  exact not_le.mpr hstart

/-- C138: every iteration lowers the loss by a fixed share of the squared length of the gradient. -/
theorem C138_decrease (i : Nat) (hi : i < K) :
    (σ (i + 1)).fx + lbfgsGain p.memSize mu L p.search.ftol p.search.wolfe * ((σ i).g.map fun a => a ^ 2).sum ≤ (σ i).fx := by
  have hI := rate_of_run hsq0 hR h h0 hg0 hs (LBFGS.start_ne sqrt hsq0 loss X y mu L p policy σ K junk x0 g0 f0 step hR h h0 hg0 hs
    hstart ex eg) ex eg
  obtain ⟨r, pfx, hsr, -, -, -, hu⟩ := iteration_inr (h i hi)
  obtain ⟨-, -, hl⟩ := search_lengths hsr
  have hU := update_inv (hI i hi.le).desc.inv (hl.trans (hI i hi.le).desc.inv.hx) hu
  have hrg : r.g.length = x0.length := by rw [← hU.2.2.2.2.2.1]; exact hU.1.hg
  have := search_gain hR (hI i hi.le) hrg hsr
  rw [hU.2.2.2.2.1]
  have e : ((σ i).g.map fun a => a ^ 2).sum = vec x0.length (σ i).g ⬝ᵥ vec x0.length (σ i).g := by
    rw [← zipWith_sum (hI i hi.le).desc.inv.hg (hI i hi.le).desc.inv.hg, List.zipWith_self]
    simp only [pow_two]
  rw [e]
  exact this

/-- C138: every iteration multiplies the excess of the loss over that of any other weights by at most the same number below one. -/
theorem C138_rate (z : List α) (hz : z.length = x0.length) (f' : α) (ez : loss.evaluate X y z = .ok f') :
    let q := 1 - 2 * mu * lbfgsGain p.memSize mu L p.search.ftol p.search.wolfe
    0 ≤ q ∧ q < 1 ∧ (σ K).fx - f' ≤ q ^ K * (f0 - f') := by
  have hI := rate_of_run hsq0 hR h h0 hg0 hs (LBFGS.start_ne sqrt hsq0 loss X y mu L p policy σ K junk x0 g0 f0 step hR h h0 hg0 hs
    hstart ex eg) ex eg
  have hdec := C138_decrease sqrt hsq0 loss X y mu L p policy σ K junk x0 g0 f0 step hR h h0 hg0 hs hstart ex eg
  obtain ⟨c, hc⟩ : ∃ c, c = lbfgsGain p.memSize mu L p.search.ftol p.search.wolfe := ⟨_, rfl⟩
  have hc0 := gain_pos hR
  have hc1 := gain_le hR
  rw [← hc] at hc0 hc1 hdec
  dsimp only
  rw [← hc]
  have hmu := hR.mu_pos
  have key : ∀ k ≤ K, (σ k).fx - f' ≤ (1 - 2 * mu * c) ^ k * (f0 - f') := by
    intro k
    induction k with
    | zero =>
      intro _
      rw [h0, pow_zero, one_mul]
      exact le_refl _
    | succ k ih =>
      intro hk
      have h1 := ih (by omega)
      have h2 := hdec k (by omega)
      have e : ((σ k).g.map fun a => a ^ 2).sum = vec x0.length (σ k).g ⬝ᵥ vec x0.length (σ k).g := by
        rw [← zipWith_sum (hI k (by omega)).desc.inv.hg (hI k (by omega)).desc.inv.hg, List.zipWith_self]
        simp only [pow_two]
      rw [e] at h2
      have h3 := gap_le hmu hR.convex (hI k (by omega)).desc.inv.hx hz (hI k (by omega)).desc.inv.hg (hI k (by omega)).con.1 ez
        (hI k (by omega)).con.2
      have h4 := mul_le_mul_of_nonneg_left h3 hc0.le
      have h5 := mul_le_mul_of_nonneg_left h1 (sub_nonneg.mpr hc1)
      rw [pow_succ]
      nlinarith
  refine ⟨by linarith, by nlinarith [mul_pos hmu hc0], key K le_rfl⟩

/-- C138: the number of iterations is bounded. -/
theorem C138_iterations (hsq : ∀ a, 0 ≤ a → 0 ≤ sqrt a ∧ sqrt a ^ 2 = a) :
    2 * mu * lbfgsGain p.memSize mu L p.search.ftol p.search.wolfe * p.tol ^ 2 * K ≤ (g0.map fun a => a ^ 2).sum := by
  have hI := rate_of_run hsq0 hR h h0 hg0 hs (LBFGS.start_ne sqrt hsq0 loss X y mu L p policy σ K junk x0 g0 f0 step hR h h0 hg0 hs
    hstart ex eg) ex eg
  have hdec := C138_decrease sqrt hsq0 loss X y mu L p policy σ K junk x0 g0 f0 step hR h h0 hg0 hs hstart ex eg
  obtain ⟨c, hc⟩ : ∃ c, c = lbfgsGain p.memSize mu L p.search.ftol p.search.wolfe := ⟨_, rfl⟩
  have hc0 := gain_pos hR
  rw [← hc] at hc0 hdec
  rw [← hc]
  have hmu := hR.mu_pos
  have hbig : ∀ k < K, p.tol ^ 2 ≤ ((σ k).g.map fun a => a ^ 2).sum := by
    intro k hk
    have h1 : p.tol * max 1 (len sqrt (σ k).x) < len sqrt (σ k).g := by
      cases k with
      | zero =>
        rw [h0]
        exact hstart
      | succ k =>
        obtain ⟨r, pfx, -, hcv, -, -, hu⟩ := iteration_inr (h k (by omega))
        obtain ⟨hx, -, hg, -, -⟩ := update_fields hu
        rw [hx, hg, ← not_le, ← converged_iff, hcv]
        simp
    have h2 : p.tol ≤ len sqrt (σ k).g := by
      refine le_trans ?_ h1.le
      exact le_mul_of_one_le_right hR.tol_nonneg (le_max_left _ _)
    have h3 : len sqrt (σ k).g ^ 2 = ((σ k).g.map fun a => a ^ 2).sum := by
      unfold len
      rw [(hsq _ (List.sum_nonneg fun a ha => by
        obtain ⟨b, -, rfl⟩ := List.mem_map.mp ha
        exact mul_self_nonneg b)).2]
      simp only [pow_two]
    rw [← h3]
    exact pow_le_pow_left₀ hR.tol_nonneg h2 2
  have key : ∀ k ≤ K, c * p.tol ^ 2 * k ≤ f0 - (σ k).fx := by
    intro k
    induction k with
    | zero =>
      intro _
      rw [h0, Nat.cast_zero, mul_zero]
      exact (sub_self f0).ge
    | succ k ih =>
      intro hk
      have h1 := ih (by omega)
      have h2 := hdec k (by omega)
      have h3 := mul_le_mul_of_nonneg_left (hbig k (by omega)) hc0.le
      push_cast
      nlinarith
  have h1 := key K le_rfl
  have h2 := gap_le hmu hR.convex (x := x0) rfl (hI K le_rfl).desc.inv.hx hg0 ex (hI K le_rfl).con.1 eg
  rw [← zipWith_sum hg0 hg0, List.zipWith_self] at h2
  simp only [pow_two] at h2 ⊢
  have h3 := mul_le_mul_of_nonneg_left h1 (show 0 ≤ 2 * mu by linarith)
  nlinarith

omit hsq0 hR h h0 hg0 hs hstart ex eg

namespace LBFGS

theorem iteration_total {sqrt : α → α} {n : Nat} {policy : Policy} {p : LBFGS.Params α} (hf : Factors p.search)
    (hc : p.search.condition ≠ "ARMIJO") (hw : p.search.wolfe < 1) (hm : 0 < p.memSize) (hp : 0 < p.past)
    {loss : LossFn α (List α)} {X : DMat α} {y : List α} (hT : TotalOn loss X y n) {σ : Nat → State α} {i : Nat} (hD : Desc n p σ i)
    (hl : (σ i).pfx.length = p.past) : ∃ o, iteration sqrt policy p loss X y (σ i) = .ok o ∧ ∀ x, o = .inl x → x.length = n := by
  obtain ⟨o, ho, hog⟩ := search_total (policy := policy) (p := p.search) hT (σ i).fx hD.inv.hx hD.hd hD.inv.hg (σ i).step
  unfold iteration
  rw [ho, Res.bind_ok]
  cases o with
  | none => exact ⟨_, rfl, fun x h => by cases h; exact hD.inv.hx⟩
  | some r =>
    have hrx : r.x.length = n := (search_lengths ho).2.2.trans hD.inv.hx
    dsimp only
    split
    · exact ⟨_, rfl, fun x h => by cases h; exact hrx⟩
    · obtain ⟨t, ht, -⟩ := pastTest_total hp (σ i).k r.fx hl
      rw [ht, Res.bind_ok]
      cases t with
      | none => exact ⟨_, rfl, fun x h => by cases h; exact hrx⟩
      | some pfx =>
        dsimp only
        split
        · exact ⟨_, rfl, fun x h => by cases h; exact hrx⟩
        · obtain ⟨st', hu⟩ := update_total hD.inv hm pfx hrx (hog r rfl)
            (search_pair_pos hf hc hw ho hD.inv.hx hD.inv.hg (hog r rfl) hD.desc)
          rw [hu, Res.bind_ok]
          exact ⟨_, rfl, fun x h => by cases h⟩

theorem mainLoop_of_iterates {sqrt : α → α} {policy : Policy} {p : LBFGS.Params α} {loss : LossFn α (List α)} {X : DMat α}
    {y : List α} {σ : Nat → State α} {K : Nat} (h : IsIterates sqrt policy p loss X y σ K) {x : List α}
    (hx : iteration sqrt policy p loss X y (σ K) = .ok (.inl x)) (fuel : Nat) (hfuel : K < fuel) :
    mainLoop sqrt policy p loss X y fuel (σ 0) = .ok x := by
  have key : ∀ k j, j + k = K → ∀ fuel, k < fuel → mainLoop sqrt policy p loss X y fuel (σ j) = .ok x := by
    intro k
    induction k with
    | zero =>
      intro j hj fuel hfu
      obtain ⟨f, rfl⟩ : ∃ f, fuel = f + 1 := ⟨fuel - 1, by omega⟩
      obtain rfl : j = K := by omega
      rw [mainLoop, hx]
      rfl
    | succ k ih =>
      intro j hj fuel hfu
      obtain ⟨f, rfl⟩ : ∃ f, fuel = f + 1 := ⟨fuel - 1, by omega⟩
      rw [mainLoop, h j (by omega)]
      exact ih (j + 1) (by omega) f (by omega)
  exact key K 0 (by omega) fuel hfuel

/-- The states that follow a state. -/
def statesFrom (sqrt : α → α) (policy : Policy) (p : LBFGS.Params α) (loss : LossFn α (List α)) (X : DMat α) (y : List α)
    (st : State α) : Nat → State α
  | 0 => st
  | i + 1 =>
    match iteration sqrt policy p loss X y (statesFrom sqrt policy p loss X y st i) with
    | .ok (.inr st') => st'
    | _ => statesFrom sqrt policy p loss X y st i

theorem ends_or_goes_on {sqrt : α → α} {policy : Policy} {p : LBFGS.Params α} {loss : LossFn α (List α)} {X : DMat α}
    {y : List α} {st : State α} (hok : ∀ K, IsIterates sqrt policy p loss X y (statesFrom sqrt policy p loss X y st) K →
      ∃ o, iteration sqrt policy p loss X y (statesFrom sqrt policy p loss X y st K) = .ok o) (k : Nat) :
    (∃ K < k, IsIterates sqrt policy p loss X y (statesFrom sqrt policy p loss X y st) K ∧
      ∃ x, iteration sqrt policy p loss X y (statesFrom sqrt policy p loss X y st K) = .ok (.inl x)) ∨
    IsIterates sqrt policy p loss X y (statesFrom sqrt policy p loss X y st) k := by
  induction k with
  | zero => exact Or.inr fun i hi => absurd hi (by omega)
  | succ k ih =>
    rcases ih with ⟨K, hK, h⟩ | h
    · exact Or.inl ⟨K, by omega, h⟩
    · obtain ⟨o, ho⟩ := hok k h
      cases o with
      | inl x => exact Or.inl ⟨k, by omega, h, x, ho⟩
      | inr st' =>
        refine Or.inr fun i hi => ?_
        rcases Nat.lt_succ_iff_lt_or_eq.mp hi with hlt | rfl
        · exact h i hlt
        · rw [ho]
          congr 2
          conv_rhs => rw [statesFrom, ho]

end LBFGS

/-- C138: on a loss with bounded curvature, L-BFGS ends after a bounded number of iterations even if the number of iterations is not
limited. If it leaves weights, these have the accuracy that belongs to the number of iterations done. -/
theorem C138_ends (sqrt : α → α) (hsq : ∀ a, 0 ≤ a → 0 ≤ sqrt a ∧ sqrt a ^ 2 = a) (loss : LossFn α (List α)) (X : DMat α)
    (y : List α) (mu L : α) (p : LBFGS.Params α) (junk : Nat → α) (x0 g0 : List α) (f0 : α)
    (hR : CurvedProblem loss X y x0.length mu L p) (hT : TotalOn loss X y x0.length)
    (hpol : p.policy = "backtracking" ∨ p.policy = "bracketing") (hm : 0 < p.memSize) (hp : 0 < p.past)
    (ex : loss.evaluate X y x0 = .ok f0) (eg : loss.gradient X y x0 = .ok g0) (N : Nat)
    (hN : (g0.map fun a => a ^ 2).sum < 2 * mu * lbfgsGain p.memSize mu L p.search.ftol p.search.wolfe * p.tol ^ 2 * N) :
    (len sqrt g0 ≤ p.tol * max 1 (len sqrt x0) ∧ ∀ fuel, LBFGS.optimize sqrt p junk fuel loss X y x0 = .ok none) ∨
    ∃ x policy σ K, p.tol * max 1 (len sqrt x0) < len sqrt g0 ∧ policyOf p.policy = .ok policy ∧ K < N ∧
      σ 0 = initial p junk x0 g0 f0 (1 / len sqrt g0) ∧
      IsIterates sqrt policy p loss X y σ K ∧ iteration sqrt policy p loss X y (σ K) = .ok (.inl x) ∧
      (∀ fuel ≥ N, LBFGS.optimize sqrt p junk fuel loss X y x0 = .ok (some x)) ∧ x.length = x0.length ∧
      ∃ f, loss.evaluate X y x = .ok f ∧ ∀ z f', z.length = x0.length → loss.evaluate X y z = .ok f' →
        f - f' ≤ (1 - 2 * mu * lbfgsGain p.memSize mu L p.search.ftol p.search.wolfe) ^ K * (f0 - f') := by
  have hsq0 : sqrt 0 = 0 := pow_eq_zero_iff (two_ne_zero) |>.mp (hsq 0 le_rfl).2
  obtain ⟨policy, hpo⟩ : ∃ q, policyOf p.policy = .ok q := by
    unfold policyOf
    rcases hpol with h | h <;> rw [h] <;> exact ⟨_, rfl⟩
  have hg0 : g0.length = x0.length := by
    obtain ⟨-, g, hg, hl⟩ := hT x0 rfl
    rw [eg] at hg
    cases hg
    exact hl
  by_cases hcv : converged sqrt p.tol x0 g0 = true
  · left
    refine ⟨(converged_iff _ _ _ _).mp hcv, fun fuel => ?_⟩
    unfold LBFGS.optimize
    rw [hpo, Res.bind_ok, ex, Res.bind_ok, eg, Res.bind_ok, if_pos hcv]
  · right
    have hstart : p.tol * max 1 (len sqrt x0) < len sqrt g0 := by
      rw [converged_iff] at hcv
      exact not_le.mp hcv
    have hne := not_converged_ne hsq0 hR.tol_nonneg hg0 (by simpa using hcv)
    have hnorm : 0 < LBFGS.norm sqrt (g0.map fun a => -a) := by
      have h1 : vec x0.length (g0.map fun a => -a) = -vec x0.length g0 := by
        conv_lhs => rw [← ofFn_vec hg0, map_ofFn', vec_ofFn]
        rfl
      have h2 := zipWith_sum (a := g0.map fun a => -a) (b := g0.map fun a => -a) (n := x0.length) (by simpa using hg0)
        (by simpa using hg0)
      have h3 : 0 < Loss.dotL (g0.map fun a => -a) (g0.map fun a => -a) := by
        unfold Loss.dotL
        rw [h2, h1, neg_dotProduct_neg]
        exact dot_self_pos hne
      have h4 := hsq _ h3.le
      refine lt_of_le_of_ne h4.1 fun h5 => ?_
      unfold LBFGS.norm at h5
      rw [← h5] at h4
      have := h4.2
      rw [zero_pow two_ne_zero] at this
      exact h3.ne this
    have hnl : LBFGS.norm sqrt (g0.map fun a => -a) = len sqrt g0 := by
      rw [norm_eq, len, List.map_map, len]
      congr 3
      funext a
      simp
    obtain ⟨step, hst⟩ : ∃ s, s = 1 / len sqrt g0 := ⟨_, rfl⟩
    rw [hnl] at hnorm
    have hs : 0 < step := by rw [hst]; positivity
    have hopt : ∀ fuel x, mainLoop sqrt policy p loss X y fuel (initial p junk x0 g0 f0 step) = .ok x →
        LBFGS.optimize sqrt p junk fuel loss X y x0 = .ok (some x) := by
      intro fuel x hx
      unfold LBFGS.optimize
      rw [hpo, Res.bind_ok, ex, Res.bind_ok, eg, Res.bind_ok, if_neg hcv, hnl, quot_ok hnorm.ne', Res.bind_ok, ← hst, hx, Res.bind_ok]
    obtain ⟨σ, hσ⟩ : ∃ σ, σ = statesFrom sqrt policy p loss X y (initial p junk x0 g0 f0 step) := ⟨_, rfl⟩
    have hσ0 : σ 0 = initial p junk x0 g0 f0 step := by rw [hσ]; rfl
    have hRate : ∀ K, IsIterates sqrt policy p loss X y σ K → Rate loss X y x0.length mu L p σ K := fun K hK =>
      rate_of_run hsq0 hR hK hσ0 hg0 hs hne ex eg K le_rfl
    have htot : ∀ K, IsIterates sqrt policy p loss X y σ K →
        ∃ o, iteration sqrt policy p loss X y (σ K) = .ok o ∧ ∀ x, o = .inl x → x.length = x0.length := fun K hK =>
      iteration_total hR.factors hR.wolfe_used hR.wolfe_lt hm hp hT (hRate K hK).desc (past_inv hp hK hσ0 K le_rfl).hlen
    rcases ends_or_goes_on (k := N) (st := initial p junk x0 g0 f0 step) (fun K hK => by
      rw [← hσ] at hK ⊢
      obtain ⟨o, ho, -⟩ := htot K hK
      exact ⟨o, ho⟩) with ⟨K, hK, hit, x, hx⟩ | hit
    · rw [← hσ] at hit hx
      have hxl : x.length = x0.length := by
        obtain ⟨o, ho, hl⟩ := htot K hit
        rw [hx] at ho
        cases ho
        exact hl x rfl
      refine ⟨x, policy, σ, K, hstart, hpo, hK, by rw [← hst]; exact hσ0, hit, hx, fun fuel hfuel => ?_, hxl, ?_⟩
      · have := mainLoop_of_iterates hit hx fuel (by omega)
        rw [hσ0] at this
        exact hopt fuel x this
      · have hI := hRate K hit
        have hle : ∃ f, loss.evaluate X y x = .ok f ∧ f ≤ (σ K).fx := by
          unfold iteration at hx
          obtain ⟨ls, hls, hx⟩ := Res.bind_eq_ok.mp hx
          cases ls with
          | none =>
            cases hx
            exact ⟨_, hI.con.1, le_rfl⟩
          | some r =>
            have hx' : x = r.x := by
              dsimp only at hx
              split at hx
              · cases hx; rfl
              · obtain ⟨t, -, hx⟩ := Res.bind_eq_ok.mp hx
                cases t with
                | none => cases hx; rfl
                | some pfx =>
                  dsimp only at hx
                  split at hx
                  · cases hx; rfl
                  · obtain ⟨st', -, hx⟩ := Res.bind_eq_ok.mp hx
                    cases hx
            obtain ⟨-, he, -⟩ := search_step hR.factors hI.con hls
            refine ⟨r.fx, by rw [hx']; exact he, ?_⟩
            have hrg : r.g.length = x0.length := by
              obtain ⟨o, ho, hog⟩ := search_total (policy := policy) (p := p.search) hT (σ K).fx hI.desc.inv.hx hI.desc.hd
                hI.desc.inv.hg (σ K).step
              rw [hls] at ho
              cases ho
              exact hog r rfl
            have h1 := search_gain hR hI hrg hls
            have h2 := mul_nonneg (gain_pos hR).le (dot_self_nonneg (vec x0.length (σ K).g))
            linarith
        obtain ⟨f, hf, hfl⟩ := hle
        refine ⟨f, hf, fun z f' hz ez => ?_⟩
        have := (C138_rate sqrt hsq0 loss X y mu L p policy σ K junk x0 g0 f0 step hR hit hσ0 hg0 hs hstart ex eg z hz f' ez).2.2
        linarith
    · rw [← hσ] at hit
      have := C138_iterations sqrt hsq0 loss X y mu L p policy σ N junk x0 g0 f0 step hR hit hσ0 hg0 hs hstart ex eg hsq
      exact absurd hN (not_lt.mpr this)

end

/-! Examples: the loss `a ^ 2 / 2 + b ^ 2` of two weights. -/

namespace LBFGS

/-- The loss `a ^ 2 / 2 + b ^ 2` of two weights. -/
def basin (α : Type) [Field α] : LossFn α (List α) where
  evaluate _ _ w := .ok (match w with | [a, b] => a ^ 2 / 2 + b ^ 2 | _ => 0)
  gradient _ _ w := .ok (match w with | [a, b] => [a, 2 * b] | _ => [])

/-- Parameters of the examples: no limit of the number of iterations, a single correction pair, the Wolfe condition. -/
def basinParams (α : Type) [Field α] (policy : String) : LBFGS.Params α where
  maxIter := 0
  memSize := 1
  past := 1
  tol := 1 / 10
  delta := 0
  policy := policy
  search := {
    dec := 1 / 2, inc := 21 / 10, ftol := 1 / 10, wolfe := 9 / 10, maxStep := 10 ^ 20, minStep := 1 / 10 ^ 20, maxLinesearch := 10
    condition := "WOLFE" }

theorem two_of_length {α : Type} {l : List α} (h : l.length = 2) : ∃ a b, l = [a, b] := by
  match l, h with
  | [a, b], _ => exact ⟨a, b, rfl⟩

theorem basin_curved (α : Type) [Field α] [LinearOrder α] [IsStrictOrderedRing α] (policy : String) (X : DMat α) (y : List α) :
    CurvedProblem (basin α) X y 2 1 2 (basinParams α policy) where
  mu_pos := one_pos
  mu_le := by norm_num
  convex := by
    intro x z hx hz f f' g ex ez eg
    obtain ⟨a, b, rfl⟩ := two_of_length hx
    obtain ⟨c, d, rfl⟩ := two_of_length hz
    obtain rfl := Res.ok.inj ex
    obtain rfl := Res.ok.inj ez
    obtain rfl := Res.ok.inj eg
    simp only [List.zipWith_cons_cons, List.zipWith_nil_left, List.sum_cons, List.sum_nil, sqDist]
    nlinarith [sq_nonneg (d - b)]
  smooth := by
    intro x z hx hz g h eg eh
    obtain ⟨a, b, rfl⟩ := two_of_length hx
    obtain ⟨c, d, rfl⟩ := two_of_length hz
    obtain rfl := Res.ok.inj eg
    obtain rfl := Res.ok.inj eh
    simp only [List.zipWith_cons_cons, List.zipWith_nil_left, List.sum_cons, List.sum_nil, sqDist]
    nlinarith [sq_nonneg (c - a)]
  factors := by constructor <;> norm_num [basinParams]
  wolfe_used := by change "WOLFE" ≠ "ARMIJO"; decide
  wolfe_lt := by norm_num [basinParams]
  ftol_pos := by norm_num [basinParams]
  ftol_le := by norm_num [basinParams]
  tol_nonneg := by norm_num [basinParams]

theorem basin_total (α : Type) [Field α] (X : DMat α) (y : List α) : TotalOn (basin α) X y 2 := by
  intro w hw
  obtain ⟨a, b, rfl⟩ := two_of_length hw
  exact ⟨⟨_, rfl⟩, _, rfl, rfl⟩

theorem basin_gain (α : Type) [Field α] [LinearOrder α] [IsStrictOrderedRing α] (policy : String) :
    lbfgsGain (basinParams α policy).memSize 1 2 (basinParams α policy).search.ftol (basinParams α policy).search.wolfe = 1 / 32000 := by
  norm_num [lbfgsGain, bfgsCondition, basinParams]

theorem dot_two {α : Type} [Field α] (a b c d : α) : dot [a, b] [c, d] = .ok (a * c + b * d) := by
  simp [dot, Loss.dotL]

theorem len_34 : len Real.sqrt [3, 4] = 5 := by
  unfold len
  rw [show ([3, 4].map fun a : ℝ => a * a).sum = 5 ^ 2 by norm_num, Real.sqrt_sq (by norm_num)]

end LBFGS

/-- Example for `C138_decrease` and `C138_rate`: three iterations from the weights 3 and 2, computed exactly. -/
example : ∃ σ : Nat → State ℚ, IsIterates ratSqrt .bracketing (basinParams ℚ "bracketing") (basin ℚ) ⟨2, []⟩ [] σ 2 ∧
    σ 0 = initial (basinParams ℚ "bracketing") (fun _ => 0) [3, 2] [3, 4] (17 / 2) (1 / 5) ∧ (σ 2).fx < 1 ∧
    CurvedProblem (basin ℚ) ⟨2, []⟩ [] [(3 : ℚ), 2].length 1 2 (basinParams ℚ "bracketing") ∧
    (basinParams ℚ "bracketing").tol * max 1 (len ratSqrt [3, 2]) < len ratSqrt [3, 4] ∧ ratSqrt 0 = 0 := by
  let next (s : State ℚ) : State ℚ :=
    match iteration ratSqrt .bracketing (basinParams ℚ "bracketing") (basin ℚ) ⟨2, []⟩ [] s with
    | .ok (.inr s') => s'
    | _ => s
  refine ⟨fun i => next^[i] (initial (basinParams ℚ "bracketing") (fun _ => 0) [3, 2] [3, 4] (17 / 2) (1 / 5)), ?_, rfl, ?_,
    basin_curved ℚ "bracketing" _ _, ?_, by decide +kernel⟩
  · unfold IsIterates
    decide +kernel
  · decide +kernel
  · decide +kernel


/-- Example for `C138_iterations`: one iteration from the weights 3 and 2 over the real numbers. -/
example : ∃ σ : Nat → State ℝ, IsIterates Real.sqrt .bracketing (basinParams ℝ "bracketing") (basin ℝ) ⟨2, []⟩ [] σ 1 ∧
    σ 0 = initial (basinParams ℝ "bracketing") (fun _ => 0) [3, 2] [3, 4] (17 / 2) (1 / 5) ∧
    CurvedProblem (basin ℝ) ⟨2, []⟩ [] [(3 : ℝ), 2].length 1 2 (basinParams ℝ "bracketing") ∧
    (basinParams ℝ "bracketing").tol * max 1 (len Real.sqrt [3, 2]) < len Real.sqrt [3, 4] ∧
    (∀ a, 0 ≤ a → 0 ≤ Real.sqrt a ∧ Real.sqrt a ^ 2 = a) := by
  let r : Found ℝ := ⟨1, [12 / 5, 6 / 5], 108 / 25, [12 / 5, 12 / 5], 1 / 5⟩
  have hprobe : probe (basinParams ℝ "bracketing").search (basin ℝ) ⟨2, []⟩ [] (17 / 2) (-25) [3, 2] [-3, -4] 0 (1 / 5) =
      .ok (.accept, r) := by
    have hx : Loss.addV [(3 : ℝ), 2] ([-3, -4].map fun a => 1 / 5 * a) = .ok [12 / 5, 6 / 5] := by norm_num [Loss.addV]
    unfold probe
    rw [hx, Res.bind_ok]
    simp only [basin, Res.bind_ok]
    unfold verdict
    rw [if_neg (by norm_num [basinParams]), if_neg (by change ¬ "WOLFE" = "ARMIJO"; decide), dot_two, Res.bind_ok,
      if_neg (by norm_num [basinParams]),
      if_pos (show (basinParams ℝ "bracketing").search.condition = "WOLFE" from rfl), Res.bind_ok]
    norm_num [r]
  have hsearch : search .bracketing (basinParams ℝ "bracketing").search (basin ℝ) ⟨2, []⟩ [] (17 / 2) [3, 4] [-3, -4] (1 / 5) [3, 2] =
      .ok (some r) := by
    have hd : -3 * 3 + -4 * 4 = (-25 : ℝ) := by norm_num
    unfold search
    rw [if_neg (by norm_num), dot_two, Res.bind_ok, hd, if_neg (by norm_num)]
    change searchLoop _ _ _ _ _ _ _ _ _ (8 + 1) _ _ _ _ = _
    rw [searchLoop, hprobe, Res.bind_ok, if_pos rfl]
  have hcv : converged Real.sqrt (basinParams ℝ "bracketing").tol [12 / 5, 6 / 5] [12 / 5, 12 / 5] = false := by
    rw [← Bool.not_eq_true, converged_iff, not_le]
    have h1 : len Real.sqrt [(12 / 5 : ℝ), 6 / 5] ≤ 5 := by
      refine (Real.sqrt_le_sqrt (y := 5 ^ 2) ?_).trans (Real.sqrt_sq (by norm_num)).le
      norm_num
    have h2 : 1 ≤ len Real.sqrt [(12 / 5 : ℝ), 12 / 5] := by
      refine (Real.one_le_sqrt).mpr ?_
      norm_num
    have h3 : max 1 (len Real.sqrt [(12 / 5 : ℝ), 6 / 5]) ≤ 5 := max_le (by norm_num) h1
    have h4 : (basinParams ℝ "bracketing").tol = 1 / 10 := rfl
    rw [h4]
    linarith
  have hsq0 := Real.sqrt_zero
  have h34 : vec 2 [(3 : ℝ), 4] ≠ 0 := fun h => by
    have := congrFun h 0
    simp [vec] at this
  let st := initial (basinParams ℝ "bracketing") (fun _ => 0) [3, 2] [3, 4] (17 / 2) (1 / 5)
  obtain ⟨σ1, hit⟩ : ∃ s, iteration Real.sqrt .bracketing (basinParams ℝ "bracketing") (basin ℝ) ⟨2, []⟩ []
      st = .ok (.inr s) := by
    have hI := rate_of_run (σ := fun _ => st) (K := 0)
      (policy := .bracketing) hsq0 (basin_curved ℝ "bracketing" ⟨2, []⟩ []) (fun i hi => absurd hi (by omega))
      (x0 := [3, 2]) (g0 := [3, 4]) (f0 := 17 / 2) (step := 1 / 5) rfl rfl (by norm_num) h34
      (by norm_num [basin]) (by norm_num [basin]) 0 le_rfl
    obtain ⟨o, ho, -⟩ := iteration_total (sqrt := Real.sqrt) (policy := .bracketing) (p := basinParams ℝ "bracketing")
      (basin_curved ℝ "bracketing" ⟨2, []⟩ []).factors
      (basin_curved ℝ "bracketing" ⟨2, []⟩ []).wolfe_used (basin_curved ℝ "bracketing" ⟨2, []⟩ []).wolfe_lt Nat.one_pos Nat.one_pos
      (basin_total ℝ _ _) hI.desc rfl
    have hp : pastTest (basinParams ℝ "bracketing") 1 (108 / 25) [17 / 2] = .ok (some [108 / 25]) := by
      unfold pastTest
      rw [if_pos (show (basinParams ℝ "bracketing").past ≤ 1 from le_rfl), if_neg (by change ¬ (1 : Nat) = 0; decide),
        show readAt [(17 / 2 : ℝ)] (1 % (basinParams ℝ "bracketing").past) = .ok (17 / 2) from rfl,
        Res.bind_ok, if_neg (not_lt.mpr (by change (0 : ℝ) ≤ _; positivity))]
      rfl
    refine ⟨o.elim (fun _ => st) id, ?_⟩
    rw [ho]
    unfold iteration at ho
    have hs : search .bracketing (basinParams ℝ "bracketing").search (basin ℝ) ⟨2, []⟩ [] st.fx st.g st.d st.step st.x = .ok (some r) :=
      hsearch
    have hc : ¬ converged Real.sqrt (basinParams ℝ "bracketing").tol r.x r.g = true := by
      rw [show converged Real.sqrt (basinParams ℝ "bracketing").tol r.x r.g = false from hcv]
      exact Bool.false_ne_true
    rw [hs, Res.bind_ok] at ho
    dsimp only at ho
    rw [if_neg hc, show pastTest (basinParams ℝ "bracketing") st.k r.fx st.pfx = .ok (some [108 / 25]) from hp, Res.bind_ok] at ho
    dsimp only at ho
    rw [if_neg (fun h => h.1 rfl)] at ho
    obtain ⟨s, -, h⟩ := Res.bind_eq_ok.mp ho
    obtain rfl := Res.ok.inj h
    rfl
  refine ⟨fun i => if i = 0 then st else σ1, fun i hi => ?_, rfl, basin_curved ℝ "bracketing" _ _, ?_, fun a ha =>
    ⟨Real.sqrt_nonneg a, Real.sq_sqrt ha⟩⟩
  · obtain rfl : i = 0 := by omega
    exact hit
  · have h1 : len Real.sqrt [(3 : ℝ), 2] ≤ 5 := by
      refine (Real.sqrt_le_sqrt (y := 5 ^ 2) ?_).trans (Real.sqrt_sq (by norm_num)).le
      norm_num
    have h3 : max 1 (len Real.sqrt [(3 : ℝ), 2]) ≤ 5 := max_le (by norm_num) h1
    have h4 : (basinParams ℝ "bracketing").tol = 1 / 10 := rfl
    rw [len_34, h4]
    linarith

/-- Example for `C138_ends`: from the weights 3 and 2 there are less than 40000001 iterations. -/
example : (∀ a, 0 ≤ a → 0 ≤ Real.sqrt a ∧ Real.sqrt a ^ 2 = a) ∧ ∀ policy, (policy = "backtracking" ∨ policy = "bracketing") →
    CurvedProblem (basin ℝ) ⟨2, []⟩ [] [(3 : ℝ), 2].length 1 2 (basinParams ℝ policy) ∧
    TotalOn (basin ℝ) ⟨2, []⟩ [] [(3 : ℝ), 2].length ∧ 0 < (basinParams ℝ policy).memSize ∧ 0 < (basinParams ℝ policy).past ∧
    (basinParams ℝ policy).maxIter = 0 ∧ (basin ℝ).gradient ⟨2, []⟩ [] [3, 2] = .ok [3, 4] ∧
    (([3, 4] : List ℝ).map fun a => a ^ 2).sum < 2 * 1 * lbfgsGain (basinParams ℝ policy).memSize 1 2
      (basinParams ℝ policy).search.ftol (basinParams ℝ policy).search.wolfe * (basinParams ℝ policy).tol ^ 2 * (40000001 : Nat) := by
  refine ⟨fun a ha => ⟨Real.sqrt_nonneg a, Real.sq_sqrt ha⟩, fun policy _ => ⟨basin_curved ℝ policy _ _, basin_total ℝ _ _, Nat.one_pos,
    Nat.one_pos, rfl, by norm_num [basin], ?_⟩⟩
  rw [basin_gain]
  norm_num [basinParams]

end OpenML
