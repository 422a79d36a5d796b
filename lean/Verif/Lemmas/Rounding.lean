import Verif.Model.Rounding
import Mathlib.Tactic.Linarith
import Mathlib.Tactic.Positivity
import Mathlib.Tactic.Ring
import Mathlib.Algebra.Order.BigOperators.Group.List
import Mathlib.Algebra.BigOperators.Group.List.Basic
import Mathlib.Algebra.Order.Chebyshev

/-! # Error analysis for arithmetic with rounding -/

namespace OpenML.Rounding

/-- `x'` approximates `x`, which is at most `B`, with the error of `k` roundings of numbers up to `B`. -/
def Approx (A : Arith) (k : Nat) (x' x B : ℝ) : Prop := |x| ≤ B ∧ |x' - x| ≤ ((1 + A.u) ^ k - 1) * B

theorem one_le_pow (A : Arith) (k : Nat) : 1 ≤ (1 + A.u) ^ k := one_le_pow₀ (by linarith [A.nonneg])

theorem Approx.bound_nonneg {A : Arith} {k : Nat} {x' x B : ℝ} (h : Approx A k x' x B) : 0 ≤ B := (abs_nonneg x).trans h.1

theorem Approx.abs_le {A : Arith} {k : Nat} {x' x B : ℝ} (h : Approx A k x' x B) : |x'| ≤ (1 + A.u) ^ k * B := by
  have h1 : |x'| ≤ |x' - x| + |x| := by
    have := abs_add_le (x' - x) x
    rwa [sub_add_cancel] at this
  have := h.1
  have := h.2
  linarith

theorem Approx.exact (A : Arith) (x : ℝ) : Approx A 0 x x |x| := ⟨le_rfl, by simp⟩

theorem Approx.mono {A : Arith} {k l : Nat} {x' x B C : ℝ} (h : Approx A k x' x B) (hkl : k ≤ l) (hBC : B ≤ C) : Approx A l x' x C := by
  refine ⟨h.1.trans hBC, h.2.trans ?_⟩
  have h1 : (1 + A.u) ^ k ≤ (1 + A.u) ^ l := pow_le_pow_right₀ (by linarith [A.nonneg]) hkl
  have h2 := one_le_pow A k
  exact mul_le_mul (by linarith) hBC h.bound_nonneg (by linarith)

theorem Approx.rnd {A : Arith} {k : Nat} {x' x B : ℝ} (h : Approx A k x' x B) : Approx A (k + 1) (A.rnd x') x B := by
  refine ⟨h.1, ?_⟩
  have h1 : |A.rnd x' - x| ≤ |A.rnd x' - x'| + |x' - x| := abs_sub_le _ _ _
  have h2 := A.err x'
  have h3 := mul_le_mul_of_nonneg_left h.abs_le A.nonneg
  have h4 := h.2
  rw [pow_succ]
  nlinarith [h.bound_nonneg]

theorem Approx.add {A : Arith} {k : Nat} {x' x B y' y C : ℝ} (h : Approx A k x' x B) (h' : Approx A k y' y C) :
    Approx A k (x' + y') (x + y) (B + C) := by
  refine ⟨(abs_add_le _ _).trans (add_le_add h.1 h'.1), ?_⟩
  have e : x' + y' - (x + y) = (x' - x) + (y' - y) := by ring
  rw [e, mul_add]
  exact (abs_add_le _ _).trans (add_le_add h.2 h'.2)

theorem Approx.neg {A : Arith} {k : Nat} {x' x B : ℝ} (h : Approx A k x' x B) : Approx A k (-x') (-x) B := by
  refine ⟨by rw [abs_neg]; exact h.1, ?_⟩
  have e : -x' - -x = -(x' - x) := by ring
  rw [e, abs_neg]
  exact h.2

theorem Approx.sub {A : Arith} {k : Nat} {x' x B y' y C : ℝ} (h : Approx A k x' x B) (h' : Approx A k y' y C) :
    Approx A k (x' - y') (x - y) (B + C) := by
  rw [sub_eq_add_neg, sub_eq_add_neg]
  exact h.add h'.neg

theorem Approx.mul {A : Arith} {k l : Nat} {x' x B y' y C : ℝ} (h : Approx A k x' x B) (h' : Approx A l y' y C) :
    Approx A (k + l) (x' * y') (x * y) (B * C) := by
  refine ⟨?_, ?_⟩
  · rw [abs_mul]
    exact mul_le_mul h.1 h'.1 (abs_nonneg _) h.bound_nonneg
  · have e : x' * y' - x * y = (x' - x) * y' + x * (y' - y) := by ring
    have h1 : |(x' - x) * y'| ≤ ((1 + A.u) ^ k - 1) * B * ((1 + A.u) ^ l * C) := by
      rw [abs_mul]
      exact mul_le_mul h.2 h'.abs_le (abs_nonneg _) (mul_nonneg (by linarith [one_le_pow A k]) h.bound_nonneg)
    have h2 : |x * (y' - y)| ≤ B * (((1 + A.u) ^ l - 1) * C) := by
      rw [abs_mul]
      exact mul_le_mul h.1 h'.2 (abs_nonneg _) h.bound_nonneg
    rw [e, pow_add]
    refine (abs_add_le _ _).trans ?_
    nlinarith

theorem Approx.smul {A : Arith} {k : Nat} {x' x B c : ℝ} (h : Approx A k x' x B) (hc : 0 ≤ c) : Approx A k (c * x') (c * x) (c * B) := by
  refine ⟨?_, ?_⟩
  · rw [abs_mul, abs_of_nonneg hc]
    exact mul_le_mul_of_nonneg_left h.1 hc
  · rw [← mul_sub, abs_mul, abs_of_nonneg hc]
    have := mul_le_mul_of_nonneg_left h.2 hc
    linarith

theorem Approx.div_nat {A : Arith} {k : Nat} {x' x B : ℝ} (h : Approx A k x' x B) (n : Nat) : Approx A k (x' / n) (x / n) (B / n) := by
  have := h.smul (c := (n : ℝ)⁻¹) (by positivity)
  simpa only [div_eq_inv_mul] using this

theorem term_approx {A : Arith} {a b t : ℝ} (h : Term A a b t) : Approx A 1 t (a * b) |a * b| := by
  rcases h with rfl | rfl
  · exact (Approx.exact A _).rnd
  · exact (Approx.exact A _).mono (Nat.zero_le _) le_rfl

theorem abs_sum_le (l : List ℝ) : |l.sum| ≤ (l.map fun x => |x|).sum := by
  induction l with
  | nil => simp
  | cons a l ih =>
    rw [List.sum_cons, List.map_cons, List.sum_cons]
    exact (abs_add_le _ _).trans (by linarith)

/-- Sum of approximations. -/
theorem summed_approx {A : Arith} {k : Nat} {l : List ℝ} {s : ℝ} (h : Summed A l s) : ∀ {x : List ℝ} {B : List ℝ},
    List.Forall₂ (fun (e : ℝ × ℝ) t => Approx A k t e.1 e.2) (x.zip B) l → x.length = B.length →
      Approx A (k + (l.length - 1)) s x.sum B.sum := by
  induction h with
  | nil =>
    intro x B hf hl
    have h0 := List.forall₂_nil_right_iff.mp hf
    have : x = [] := by
      cases x with
      | nil => rfl
      | cons a x =>
        cases B with
        | nil => simp at hl
        | cons b B => simp at h0
    subst this
    have : B = [] := List.eq_nil_of_length_eq_zero (by simpa using hl.symm)
    subst this
    exact ⟨by simp, by simp⟩
  | single t =>
    intro x B hf hl
    match x, B, hl with
    | [], [], _ => simp at hf
    | [a], [b], _ =>
      simp only [List.zip_cons_cons, List.zip_nil_right, List.forall₂_cons] at hf
      simpa using hf.1
    | a :: a' :: x, b :: b' :: B, _ => simp at hf
  | @add l r m a b h1 h2 hl hr hp ih1 ih2 =>
    intro x B hf hlen
    obtain ⟨z, hz, hz'⟩ : ∃ z, List.Forall₂ (fun (e : ℝ × ℝ) t => Approx A k t e.1 e.2) z (l ++ r) ∧ z.Perm (x.zip B) := by
      have := List.forall₂_comp_perm_eq_perm_comp_forall₂ (r := fun (e : ℝ × ℝ) t => Approx A k t e.1 e.2)
      have h3 : Relation.Comp (List.Forall₂ fun (e : ℝ × ℝ) t => Approx A k t e.1 e.2) List.Perm (x.zip B) (l ++ r) := ⟨m, hf, hp⟩
      rw [this] at h3
      obtain ⟨z, hz1, hz2⟩ := h3
      exact ⟨z, hz2, hz1.symm⟩
    have hzl := hz.length_eq
    have hd1 := List.forall₂_take_append z l r hz
    have hd2 := List.forall₂_drop_append z l r hz
    set z1 := z.take l.length with hz1
    set z2 := z.drop l.length with hz2
    have hu : ∀ w : List (ℝ × ℝ), (w.map Prod.fst).zip (w.map Prod.snd) = w := fun w => by
      induction w with
      | nil => rfl
      | cons a w ih => simp [ih]
    have e1 := ih1 (x := z1.map Prod.fst) (B := z1.map Prod.snd) (by rw [hu]; exact hd1) (by simp)
    have e2 := ih2 (x := z2.map Prod.fst) (B := z2.map Prod.snd) (by rw [hu]; exact hd2) (by simp)
    have hx : x.sum = (z1.map Prod.fst).sum + (z2.map Prod.fst).sum := by
      have h4 := (hz'.map Prod.fst).sum_eq
      rw [List.map_fst_zip (le_of_eq hlen)] at h4
      rw [← h4, ← List.sum_append, ← List.map_append, hz1, hz2, List.take_append_drop]
    have hB : B.sum = (z1.map Prod.snd).sum + (z2.map Prod.snd).sum := by
      have h4 := (hz'.map Prod.snd).sum_eq
      rw [List.map_snd_zip (le_of_eq hlen.symm)] at h4
      rw [← h4, ← List.sum_append, ← List.map_append, hz1, hz2, List.take_append_drop]
    rw [hx, hB]
    have hll : 1 ≤ l.length := List.length_pos_iff.mpr hl
    have hrl : 1 ≤ r.length := List.length_pos_iff.mpr hr
    have hml : m.length = l.length + r.length := by rw [hp.length_eq, List.length_append]
    have := ((e1.mono (l := k + (m.length - 2)) (by omega) le_rfl).add (e2.mono (l := k + (m.length - 2)) (by omega) le_rfl)).rnd
    exact this.mono (by omega) le_rfl

end OpenML.Rounding

namespace OpenML.Rounding

theorem summed_exact_terms {A : Arith} {l : List ℝ} {s : ℝ} (h : Summed A l s) :
    Approx A (l.length - 1) s l.sum (l.map fun x => |x|).sum := by
  have := summed_approx (k := 0) h (x := l) (B := l.map fun x => |x|) (by
    clear h
    induction l with
    | nil => simp
    | cons a l ih => exact List.Forall₂.cons (Approx.exact A a) ih) (by simp)
  simpa using this

theorem mean_approx {A : Arith} {l : List ℝ} {m : ℝ} (hl : l ≠ []) (h : Mean A l m) :
    Approx A l.length m (l.sum / l.length) ((l.map fun x => |x|).sum / l.length) := by
  obtain ⟨s, hs, rfl⟩ := h
  have := ((summed_exact_terms hs).div_nat l.length).rnd
  have hp := List.length_pos_iff.mpr hl
  rwa [Nat.sub_add_cancel hp] at this

theorem dot_approx {A : Arith} {x w : List ℝ} {s : ℝ} (h : Dot A x w s) :
    Approx A (x.length - 1 + 1) s (List.zipWith (· * ·) x w).sum (List.zipWith (fun a b => |a * b|) x w).sum := by
  obtain ⟨hlen, ts, hts, hs⟩ := h
  have hl : ts.length = x.length := by rw [← hts.length_eq, List.length_zip, hlen, Nat.min_self]
  have := summed_approx (k := 1) hs (x := List.zipWith (· * ·) x w) (B := List.zipWith (fun a b => |a * b|) x w) (by
    clear hs hl
    induction x generalizing w ts with
    | nil => simpa using hts
    | cons a x ih =>
      cases w with
      | nil => simp at hlen
      | cons b w =>
        cases hts with
        | cons h1 h2 => exact List.Forall₂.cons (term_approx h1) (ih (by simpa using hlen) _ h2)) (by simp)
  rw [hl, Nat.add_comm] at this
  exact this

/-- The mean of squares. -/
theorem squares_approx {A : Arith} {l sq : List ℝ} {q : ℝ} (hl : l ≠ []) (h : List.Forall₂ (fun a t => Term A a a t) l sq)
    (hq : Mean A sq q) : Approx A (l.length + 1) q ((l.map fun a => a * a).sum / l.length) ((l.map fun a => a * a).sum / l.length) := by
  obtain ⟨s, hs, rfl⟩ := hq
  have hlen := h.length_eq
  have := summed_approx (k := 1) hs (x := l.map fun a => a * a) (B := l.map fun a => a * a) (by
    clear hs hl hlen
    induction h with
    | nil => simp
    | cons h1 _ ih =>
      refine List.Forall₂.cons ?_ ih
      have := term_approx h1
      rwa [abs_of_nonneg (mul_self_nonneg _)] at this) rfl
  have h2 := (this.div_nat sq.length).rnd
  have hp := List.length_pos_iff.mpr hl
  rw [← hlen] at h2 ⊢
  exact h2.mono (by omega) le_rfl

/-- Cauchy-Schwarz for the mean of absolute values. -/
theorem mean_abs_sq_le (l : List ℝ) : ((l.map fun x => |x|).sum / l.length) ^ 2 ≤ (l.map fun a => a * a).sum / l.length := by
  rcases l.eq_nil_or_concat with rfl | ⟨_, _, rfl⟩
  · simp
  · rename_i l' a
    set l := l'.concat a with hl
    have hp : (0 : ℝ) < l.length := by
      rw [hl]
      simp
      positivity
    have h : (l.map fun x => |x|).sum ^ 2 ≤ l.length * (l.map fun a => a * a).sum := by
      have h1 := sq_sum_le_card_mul_sum_sq (s := Finset.univ) (f := fun i : Fin l.length => |l[i]|)
      have e1 : ∑ i : Fin l.length, |l[i]| = (l.map fun x => |x|).sum := by
        rw [← List.sum_ofFn]
        congr 1
        exact List.ext_getElem (by simp) fun i h1 h2 => by simp
      have e2 : ∑ i : Fin l.length, |l[i]| ^ 2 = (l.map fun a => a * a).sum := by
        rw [← List.sum_ofFn]
        congr 1
        exact List.ext_getElem (by simp) fun i h1 h2 => by simp [sq]
      rw [e1, e2] at h1
      simpa using h1
    rw [div_pow, div_le_div_iff₀ (by positivity) hp]
    nlinarith

/-- Two-sided relative error of non-negative numbers. -/
def Rel (A : Arith) (k : Nat) (x' x : ℝ) : Prop := 0 ≤ x ∧ (1 - A.u) ^ k * x ≤ x' ∧ x' ≤ (1 + A.u) ^ k * x

theorem Rel.nonneg {A : Arith} {k : Nat} {x' x : ℝ} (h : Rel A k x' x) : 0 ≤ x' :=
  (mul_nonneg (pow_nonneg (by linarith [A.lt_one]) k) h.1).trans h.2.1

theorem rnd_bounds (A : Arith) {x : ℝ} (hx : 0 ≤ x) : (1 - A.u) * x ≤ A.rnd x ∧ A.rnd x ≤ (1 + A.u) * x := by
  have h := A.err x
  rw [abs_of_nonneg hx, abs_le] at h
  constructor <;> linarith [h.1, h.2]

theorem Rel.rnd {A : Arith} {k : Nat} {x' x : ℝ} (h : Rel A k x' x) : Rel A (k + 1) (A.rnd x') x := by
  obtain ⟨h1, h2⟩ := rnd_bounds A h.nonneg
  have h3 : 0 ≤ 1 - A.u := by linarith [A.lt_one]
  have h4 : 0 ≤ 1 + A.u := by linarith [A.nonneg]
  refine ⟨h.1, ?_, ?_⟩
  · rw [pow_succ]
    nlinarith [mul_le_mul_of_nonneg_left h.2.1 h3]
  · rw [pow_succ]
    nlinarith [mul_le_mul_of_nonneg_left h.2.2 h4]

theorem Rel.mono {A : Arith} {k l : Nat} {x' x : ℝ} (h : Rel A k x' x) (hkl : k ≤ l) : Rel A l x' x := by
  refine ⟨h.1, ?_, ?_⟩
  · refine le_trans (mul_le_mul_of_nonneg_right ?_ h.1) h.2.1
    exact pow_le_pow_of_le_one (by linarith [A.lt_one]) (by linarith [A.nonneg]) hkl
  · refine h.2.2.trans (mul_le_mul_of_nonneg_right ?_ h.1)
    exact pow_le_pow_right₀ (by linarith [A.nonneg]) hkl

theorem Rel.add {A : Arith} {k : Nat} {x' x y' y : ℝ} (h : Rel A k x' x) (h' : Rel A k y' y) : Rel A k (x' + y') (x + y) := by
  refine ⟨add_nonneg h.1 h'.1, ?_, ?_⟩
  · rw [mul_add]
    exact add_le_add h.2.1 h'.2.1
  · rw [mul_add]
    exact add_le_add h.2.2 h'.2.2

theorem summed_rel {A : Arith} {k : Nat} {l : List ℝ} {s : ℝ} (h : Summed A l s) : ∀ {x : List ℝ},
    List.Forall₂ (fun e t => Rel A k t e) x l → Rel A (k + (l.length - 1)) s x.sum := by
  induction h with
  | nil =>
    intro x hf
    rw [List.forall₂_nil_right_iff.mp hf]
    exact ⟨le_rfl, by simp, by simp⟩
  | single t =>
    intro x hf
    match x, hf with
    | [a], List.Forall₂.cons h _ => simpa using h
  | @add l r m a b h1 h2 hl hr hp ih1 ih2 =>
    intro x hf
    obtain ⟨z, hz, hz'⟩ : ∃ z, List.Forall₂ (fun e t => Rel A k t e) z (l ++ r) ∧ z.Perm x := by
      have h3 : Relation.Comp (List.Forall₂ fun e t => Rel A k t e) List.Perm x (l ++ r) := ⟨m, hf, hp⟩
      rw [List.forall₂_comp_perm_eq_perm_comp_forall₂] at h3
      obtain ⟨z, hz1, hz2⟩ := h3
      exact ⟨z, hz2, hz1.symm⟩
    have e1 := ih1 (List.forall₂_take_append z l r hz)
    have e2 := ih2 (List.forall₂_drop_append z l r hz)
    have hx : x.sum = (z.take l.length).sum + (z.drop l.length).sum := by
      rw [← hz'.sum_eq, ← List.sum_append, List.take_append_drop]
    rw [hx]
    have hll : 1 ≤ l.length := List.length_pos_iff.mpr hl
    have hrl : 1 ≤ r.length := List.length_pos_iff.mpr hr
    have hml : m.length = l.length + r.length := by rw [hp.length_eq, List.length_append]
    have := ((e1.mono (l := k + (m.length - 2)) (by omega)).add (e2.mono (l := k + (m.length - 2)) (by omega))).rnd
    exact this.mono (by omega)

/-- The rounded square of a rounded difference. -/
theorem square_rel {A : Arith} {a b t : ℝ} (h : Term A (A.rnd (a - b)) (A.rnd (a - b)) t) : Rel A 3 t ((a - b) ^ 2) := by
  have h0 := A.nonneg
  have h1 := A.lt_one
  have hd := A.err (a - b)
  have hlo : (1 - A.u) * |a - b| ≤ |A.rnd (a - b)| := by
    have := abs_sub_abs_le_abs_sub (a - b) (A.rnd (a - b))
    rw [abs_sub_comm] at hd
    linarith
  have hhi : |A.rnd (a - b)| ≤ (1 + A.u) * |a - b| := by
    have := abs_sub_abs_le_abs_sub (A.rnd (a - b)) (a - b)
    linarith
  have hsq : Rel A 2 (A.rnd (a - b) * A.rnd (a - b)) ((a - b) ^ 2) := by
    refine ⟨sq_nonneg _, ?_, ?_⟩
    · rw [← mul_pow, ← abs_mul_abs_self (A.rnd (a - b)), ← sq, ← sq_abs ((1 - A.u) * (a - b)), abs_mul, abs_of_nonneg (by linarith : 0 ≤ 1 - A.u)]
      exact pow_le_pow_left₀ (mul_nonneg (by linarith) (abs_nonneg _)) hlo 2
    · rw [← mul_pow, ← abs_mul_abs_self (A.rnd (a - b)), ← sq, ← sq_abs ((1 + A.u) * (a - b)), abs_mul, abs_of_nonneg (by linarith : 0 ≤ 1 + A.u)]
      exact pow_le_pow_left₀ (abs_nonneg _) hhi 2
  rcases h with rfl | rfl
  · exact hsq.rnd
  · exact hsq.mono (by decide)

end OpenML.Rounding
