import Verif.Model.Loss
import Verif.Spec.Loss
import Mathlib.Algebra.Order.Field.Basic
import Mathlib.Tactic.Linarith
import Mathlib.Tactic.Ring

/-!
# Lemmas about the hinge loss
-/

set_option linter.unusedSectionVars false

namespace OpenML.Loss

open Spec

variable {α : Type} [Field α] [LinearOrder α] [IsStrictOrderedRing α]

/-- Entrywise sum. -/
abbrev vadd (a b : List α) : List α := List.zipWith (· + ·) a b

theorem vadd_assoc (a b c : List α) : vadd (vadd a b) c = vadd a (vadd b c) := by
  induction a generalizing b c with
  | nil => simp [vadd]
  | cons x a ih => cases b <;> cases c <;> simp_all [vadd, add_assoc]

theorem vadd_zero (a : List α) : vadd a (List.replicate a.length 0) = a := by
  induction a with
  | nil => rfl
  | cons x a ih => simp_all [vadd, List.replicate_succ]

theorem dotL_vadd (a b c : List α) (h : a.length = b.length) : dotL (vadd a b) c = dotL a c + dotL b c := by
  induction a generalizing b c with
  | nil => cases b <;> simp_all [dotL, vadd]
  | cons x a ih =>
    cases b with
    | nil => simp at h
    | cons y b =>
      cases c with
      | nil => simp [dotL]
      | cons z c =>
        have := ih b c (by simpa using h)
        simp only [dotL, vadd, List.zipWith_cons_cons, List.sum_cons] at this ⊢
        rw [this]
        ring

theorem dotL_zero (n : Nat) (c : List α) : dotL (List.replicate n 0) c = 0 := by
  induction n generalizing c with
  | zero => simp [dotL]
  | succ n ih =>
    cases c with
    | nil => simp [dotL]
    | cons z c =>
      have := ih c
      simp only [dotL, List.replicate_succ, List.zipWith_cons_cons, List.sum_cons] at this ⊢
      rw [this]
      ring

theorem dotL_map_mul (a c : List α) (t : α) : dotL (a.map fun x => x * t) c = t * dotL a c := by
  induction a generalizing c with
  | nil => simp [dotL]
  | cons x a ih =>
    cases c with
    | nil => simp [dotL]
    | cons z c =>
      have := ih c
      simp only [dotL, List.map_cons, List.zipWith_cons_cons, List.sum_cons] at this ⊢
      rw [this]
      ring

theorem dotL_sub_right (a v w : List α) (h : v.length = w.length) :
    dotL a (List.zipWith (· - ·) v w) = dotL a v - dotL a w := by
  induction a generalizing v w with
  | nil => simp [dotL]
  | cons x a ih =>
    cases v with
    | nil => cases w <;> simp_all [dotL]
    | cons y v =>
      cases w with
      | nil => simp at h
      | cons z w =>
        have := ih v w (by simpa using h)
        simp only [dotL, List.zipWith_cons_cons, List.sum_cons] at this ⊢
        rw [this]
        ring

theorem hingeSum_eq (t : α) (ss as : List α) (h : ss.length ≤ as.length) (acc : α) :
    hingeSum t ss as acc = .ok (acc + ((ss.zip as).map fun p => max 0 (t - p.1 * p.2)).sum) := by
  induction ss generalizing as acc with
  | nil => simp [hingeSum]
  | cons s ss ih =>
    cases as with
    | nil => simp at h
    | cons a as =>
      simp only [hingeSum, ih as (by simpa using h), List.zip_cons_cons, List.map_cons, List.sum_cons, add_assoc]

/-- One sample's contribution to the sub-gradient. -/
def contribution (t : α) (r : List α) (s a : α) : List α :=
  if s * a > t then List.replicate r.length 0 else r.map fun x => x * (-a)

theorem contribution_length (t : α) (r : List α) (s a : α) : (contribution t r s a).length = r.length := by
  unfold contribution; split <;> simp

theorem loop_cons (t : α) (r : List α) (rs : List (List α)) (s : α) (ss : List α) (a : α) (as grad : List α)
    (h : grad.length = r.length) :
    hingeGradLoop t (r :: rs) (s :: ss) (a :: as) grad = hingeGradLoop t rs ss as (vadd grad (contribution t r s a)) := by
  rw [hingeGradLoop]
  unfold contribution
  by_cases hs : s * a > t
  · rw [if_pos hs, if_pos hs, addV, if_pos (by simp [h]), Res.bind_ok]
  · rw [if_neg hs, if_neg hs, addV, if_pos (by simp [h]), Res.bind_ok]

theorem loop_eq (t : α) (n : Nat) (rs : List (List α)) (hr : ∀ r ∈ rs, r.length = n) (ss as : List α)
    (h1 : ss.length = rs.length) (h2 : rs.length ≤ as.length) :
    ∃ g : List α, g.length = n ∧ (∀ b : List α, b.length = n → hingeGradLoop t rs ss as b = .ok (vadd b g)) ∧
      ∀ u, dotL g u = (List.zipWith (fun r (p : α × α) => dotL (contribution t r p.1 p.2) u) rs (ss.zip as)).sum := by
  induction rs generalizing ss as with
  | nil =>
    refine ⟨List.replicate n 0, by simp, fun b hb => ?_, fun u => ?_⟩
    · rw [← hb, vadd_zero]
      cases ss <;> cases as <;> rfl
    · simp [dotL_zero]
  | cons r rs ih =>
    cases ss with
    | nil => simp at h1
    | cons s ss =>
      cases as with
      | nil => simp at h2
      | cons a as =>
        obtain ⟨g, hg, hl, hd⟩ := ih (fun r hr' => hr r (by simp [hr'])) ss as (by simpa using h1) (by simpa using h2)
        have hrn := hr r (by simp)
        have hc : (contribution t r s a).length = n := by rw [contribution_length, hrn]
        refine ⟨vadd (contribution t r s a) g, by simp [vadd, hc, hg], fun b hb => ?_, fun u => ?_⟩
        · rw [loop_cons t r rs s ss a as b (by rw [hb, hrn]), hl _ (by simp [vadd, hb, hc]), vadd_assoc]
        · rw [dotL_vadd _ _ _ (by rw [hc, hg]), hd u]
          simp

end OpenML.Loss
