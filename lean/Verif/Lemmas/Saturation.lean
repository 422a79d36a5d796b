import Verif.Model.Saturation
import Verif.Lemmas.Rounding

/-! # Lemmas about arithmetic with infinities and NaN -/

namespace OpenML.Saturation

open Rounding

namespace Env

variable (V : Env)

theorem rnd_zero : V.rnd 0 = 0 := by simpa using V.err 0

theorem rnd_nonneg {x : ℝ} (h : 0 ≤ x) : 0 ≤ V.rnd x := V.rnd_zero ▸ V.mono h

theorem rnd_pos {x : ℝ} (h : 0 < x) : 0 < V.rnd x := by
  have h1 := V.err x
  rw [abs_le, abs_of_pos h] at h1
  have := mul_pos (sub_pos.mpr V.lt_one) h
  nlinarith

theorem rnd_neg {x : ℝ} (h : x < 0) : V.rnd x < 0 := by
  have h1 := V.err x
  rw [abs_le, abs_of_neg h] at h1
  have := mul_pos (sub_pos.mpr V.lt_one) (neg_pos.mpr h)
  nlinarith

theorem rnd_le_one {x : ℝ} (h : x ≤ 1) : V.rnd x ≤ 1 := V.one ▸ V.mono h

theorem one_le_rnd {x : ℝ} (h : 1 ≤ x) : 1 ≤ V.rnd x := V.one ▸ V.mono h

end Env

variable {V : Env}

theorem sigmoid_range (x : ℝ) : 0 ≤ sigmoid V x ∧ sigmoid V x ≤ 1 := by
  have h1 := V.exp_nonneg (min x 0) (min_le_right _ _)
  have h2 := V.exp_le (min x 0) (min_le_right _ _)
  have h3 := V.exp_nonneg (-|x|) (by simp)
  have h4 := V.one_le_rnd (show 1 ≤ 1 + V.exp (-|x|) by linarith)
  refine ⟨V.rnd_nonneg (div_nonneg h1 (by linarith)), V.rnd_le_one ?_⟩
  rw [div_le_one (by linarith)]
  linarith

theorem sub_nan (a : XF) : XF.sub V a .nan = .nan := by cases a <;> rfl

theorem term_nan {a p : ℝ} (h : (a = 1 ∧ p = 1) ∨ (a = 0 ∧ p = 0)) : term V a p = .nan := by
  rcases h with ⟨rfl, rfl⟩ | ⟨rfl, rfl⟩
  · simp [term, V.rnd_zero, XF.log, XF.scale, sub_nan]
  · simp [term, V.rnd_zero, XF.log, XF.scale, XF.sub, XF.add]

theorem term_pinf {a p : ℝ} (h : (a = 1 ∧ p = 0) ∨ (a = 0 ∧ p = 1)) : term V a p = .pinf := by
  rcases h with ⟨rfl, rfl⟩ | ⟨rfl, rfl⟩
  · have h1 := V.rnd_neg (show (-1 : ℝ) < 0 by norm_num)
    have h2 : ¬ (1 : ℝ) < 0 := by norm_num
    simp [term, h2, V.rnd_zero, V.one, XF.log, XF.scale, XF.sub, XF.add, XF.neg, h1.ne, not_lt.mpr h1.le]
  · have h2 : ¬ (1 : ℝ) < 0 := by norm_num
    simp [term, h2, V.rnd_zero, V.one, XF.log, XF.scale, XF.sub, XF.add, XF.neg]

theorem term_fin {p : ℝ} (h0 : 0 < p) (h1 : p < 1) (a : ℝ) : term V a p =
    .fin (V.rnd (V.rnd (V.rnd (-1 * a) * V.log p) + -V.rnd (V.rnd (1 - a) * V.log (V.rnd (1 - p))))) := by
  have h2 := V.rnd_pos (sub_pos.mpr h1)
  simp only [term, XF.log, if_neg h0.ne', if_neg (not_lt.mpr h0.le), if_neg h2.ne', if_neg (not_lt.mpr h2.le), XF.scale, XF.sub,
    XF.neg, XF.add]

theorem summedX_nan {l : List XF} {s : XF} (h : SummedX V l s) : XF.nan ∈ l → s = .nan := by
  induction h with
  | nil => simp
  | single x => simp [eq_comm]
  | @add l r m a b _ _ _ _ hm ih1 ih2 =>
    intro hn
    rcases List.mem_append.mp (hm.mem_iff.mp hn) with h | h
    · rw [ih1 h]
      cases b <;> rfl
    · rw [ih2 h]
      cases a <;> rfl

theorem summedX_pinf {l : List XF} {s : XF} (h : SummedX V l s) (h0 : ∀ x ∈ l, x = .pinf ∨ ∃ r, x = .fin r) :
    (XF.pinf ∈ l ∧ s = .pinf) ∨ (XF.pinf ∉ l ∧ ∃ r, s = .fin r) := by
  induction h with
  | nil => exact Or.inr ⟨by simp, 0, rfl⟩
  | single x => rcases h0 x (by simp) with rfl | ⟨r, rfl⟩ <;> simp
  | @add l r m a b _ _ _ _ hm ih1 ih2 =>
    have e := hm.mem_iff (a := XF.pinf)
    rw [List.mem_append] at e
    rw [e]
    rcases ih1 fun x hx => h0 x (hm.mem_iff.mpr (List.mem_append_left _ hx)) with ⟨h1, rfl⟩ | ⟨h1, c, rfl⟩ <;>
      rcases ih2 fun x hx => h0 x (hm.mem_iff.mpr (List.mem_append_right _ hx)) with ⟨h2, rfl⟩ | ⟨h2, d, rfl⟩ <;>
      simp [h1, h2, XF.add]

/-- The number in a finite value. -/
def XF.val : XF → ℝ
  | .fin a => a
  | _ => 0

theorem summedX_val {l : List XF} {s : XF} (h : SummedX V l s) (h0 : ∀ x ∈ l, ∃ r, x = .fin r) :
    ∃ r, s = .fin r ∧ Summed V.toArith (l.map XF.val) r := by
  induction h with
  | nil => exact ⟨0, rfl, .nil⟩
  | single x =>
    obtain ⟨r, rfl⟩ := h0 x (by simp)
    exact ⟨r, rfl, .single r⟩
  | @add l r m a b _ _ hl hr hm ih1 ih2 =>
    obtain ⟨c, rfl, h1⟩ := ih1 fun x hx => h0 x (hm.mem_iff.mpr (List.mem_append_left _ hx))
    obtain ⟨d, rfl, h2⟩ := ih2 fun x hx => h0 x (hm.mem_iff.mpr (List.mem_append_right _ hx))
    exact ⟨_, rfl, .add h1 h2 (by simpa using hl) (by simpa using hr) (by simpa using hm.map XF.val)⟩

theorem summedX_of_summed {l : List ℝ} {r : ℝ} (h : Summed V.toArith l r) : SummedX V (l.map XF.fin) (.fin r) := by
  induction h with
  | nil => exact .nil
  | single x => exact .single _
  | @add l r m a b _ _ hl hr hm ih1 ih2 =>
    exact .add ih1 ih2 (by simpa using hl) (by simpa using hr) (by simpa using hm.map XF.fin)

theorem exists_summedX (V : Env) (l : List XF) : ∃ s, SummedX V l s := by
  induction l with
  | nil => exact ⟨_, .nil⟩
  | cons x l ih =>
    cases l with
    | nil => exact ⟨_, .single x⟩
    | cons y l =>
      obtain ⟨s, hs⟩ := ih
      exact ⟨_, .add (.single x) hs (by simp) (by simp) (by simp)⟩

/-- Sums of non-negative numbers with an entry 1 are at least 1. -/
theorem one_le_summed {l : List ℝ} {s : ℝ} (h : Summed V.toArith l s) (h0 : ∀ x ∈ l, 0 ≤ x) : 0 ≤ s ∧ ((1 : ℝ) ∈ l → 1 ≤ s) := by
  induction h with
  | nil => simp
  | single x => exact ⟨h0 x (by simp), by simp; intro h; rw [← h]⟩
  | @add l r m a b _ _ _ _ hm ih1 ih2 =>
    obtain ⟨h1, h1'⟩ := ih1 fun x hx => h0 x (hm.mem_iff.mpr (List.mem_append_left _ hx))
    obtain ⟨h2, h2'⟩ := ih2 fun x hx => h0 x (hm.mem_iff.mpr (List.mem_append_right _ hx))
    refine ⟨V.rnd_nonneg (by linarith), fun h => V.one_le_rnd ?_⟩
    rcases List.mem_append.mp (hm.mem_iff.mp h) with h | h
    · linarith [h1' h]
    · linarith [h2' h]

theorem expSum_bounds {l : List ℝ} {c s : ℝ} (hc : c ∈ l) (hm : ∀ a ∈ l, a ≤ c) (h : ExpSum V l c s) : 1 ≤ s := by
  refine (one_le_summed h ?_).2 ?_
  · intro x hx
    obtain ⟨a, ha, rfl⟩ := List.mem_map.mp hx
    exact V.exp_nonneg _ (by simpa [V.rnd_zero] using V.mono (sub_nonpos.mpr (hm a ha)))
  · exact List.mem_map.mpr ⟨c, hc, by rw [sub_self, V.rnd_zero, V.exp_zero]⟩

theorem lt_nan (a : XF) : XF.lt a .nan = false := by cases a <;> rfl

theorem stopLoop_some (slack : ℝ) (noChange : Nat) (hn : 1 ≤ noChange) (sums : Nat → XF) (n : Nat) : ∀ (iter : Nat) (best : XF) (count i : Nat),
    stopLoop V slack noChange sums n iter best count = some i →
      iter ≤ i ∧ i < iter + n ∧ noChange ≤ count + (i + 1 - iter) ∧ ∀ j, iter ≤ j → j ≤ i → i < j + noChange → sums j ≠ .nan := by
  induction n with
  | zero => simp [stopLoop]
  | succ n ih =>
    intro iter best count i h
    rw [stopLoop] at h
    set count' := if XF.lt (XF.sub V best (.fin slack)) (sums iter) then count + 1 else 0 with hc'
    have hle : count' ≤ count + 1 := by
      rw [hc']
      split <;> omega
    have hnan : sums iter = .nan → count' = 0 := by
      intro h0
      rw [hc', h0, lt_nan]
      rfl
    split at h
    · rename_i hcount
      obtain rfl := Option.some.inj h
      refine ⟨le_rfl, by omega, by omega, fun j h1 h2 _ h0 => ?_⟩
      obtain rfl : j = iter := by omega
      have := hnan h0
      omega
    · obtain ⟨h1, h2, h3, h4⟩ := ih _ _ _ _ h
      refine ⟨by omega, by omega, by omega, fun j hj1 hj2 hj3 h0 => ?_⟩
      by_cases hj : j = iter
      · subst hj
        have := hnan h0
        omega
      · exact h4 j (by omega) hj2 hj3 h0

theorem summedX_ninf {l : List XF} {s : XF} (h : SummedX V l s) (h0 : ∀ x ∈ l, x = .ninf ∨ ∃ r, x = .fin r) :
    (XF.ninf ∈ l ∧ s = .ninf) ∨ (XF.ninf ∉ l ∧ ∃ r, s = .fin r) := by
  induction h with
  | nil => exact Or.inr ⟨by simp, 0, rfl⟩
  | single x => rcases h0 x (by simp) with rfl | ⟨r, rfl⟩ <;> simp
  | @add l r m a b _ _ _ _ hm ih1 ih2 =>
    have e := hm.mem_iff (a := XF.ninf)
    rw [List.mem_append] at e
    rw [e]
    rcases ih1 fun x hx => h0 x (hm.mem_iff.mpr (List.mem_append_left _ hx)) with ⟨h1, rfl⟩ | ⟨h1, c, rfl⟩ <;>
      rcases ih2 fun x hx => h0 x (hm.mem_iff.mpr (List.mem_append_right _ hx)) with ⟨h2, rfl⟩ | ⟨h2, d, rfl⟩ <;>
      simp [h1, h2, XF.add]

/-- Sums of non-negative numbers are zero only if all of them are. -/
theorem summed_eq_zero {l : List ℝ} {s : ℝ} (h : Summed V.toArith l s) (h0 : ∀ x ∈ l, 0 ≤ x) : s = 0 ↔ ∀ x ∈ l, x = 0 := by
  induction h with
  | nil => simp
  | single x => simp
  | @add l r m a b hl hr _ _ hm ih1 ih2 =>
    have i1 := ih1 fun x hx => h0 x (hm.mem_iff.mpr (List.mem_append_left _ hx))
    have i2 := ih2 fun x hx => h0 x (hm.mem_iff.mpr (List.mem_append_right _ hx))
    have n1 := (one_le_summed hl fun x hx => h0 x (hm.mem_iff.mpr (List.mem_append_left _ hx))).1
    have n2 := (one_le_summed hr fun x hx => h0 x (hm.mem_iff.mpr (List.mem_append_right _ hx))).1
    have e : V.rnd (a + b) = 0 ↔ a = 0 ∧ b = 0 := by
      constructor
      · intro h
        by_contra hne
        have : 0 < a + b := by
          rcases n1.eq_or_lt with ha | ha
          · rcases n2.eq_or_lt with hb | hb
            · exact absurd ⟨ha.symm, hb.symm⟩ hne
            · linarith
          · linarith
        linarith [V.rnd_pos this]
      · rintro ⟨rfl, rfl⟩
        rw [add_zero, V.rnd_zero]
    rw [e, i1, i2]
    simp only [hm.mem_iff, List.mem_append]
    exact ⟨fun ⟨h1, h2⟩ x hx => hx.elim (h1 x) (h2 x), fun h => ⟨fun x hx => h x (Or.inl hx), fun x hx => h x (Or.inr hx)⟩⟩

theorem exists_summed (V : Env) (l : List ℝ) : ∃ s, Summed V.toArith l s := by
  obtain ⟨s, hs⟩ := exists_summedX V (l.map XF.fin)
  obtain ⟨r, _, hr⟩ := summedX_val hs fun x hx => by
    obtain ⟨a, _, rfl⟩ := List.mem_map.mp hx
    exact ⟨a, rfl⟩
  rw [List.map_map, show XF.val ∘ XF.fin = id from rfl, List.map_id] at hr
  exact ⟨r, hr⟩

/-- One row of the softmax loss. -/
theorem logQuotient_cases {r : List ℝ} {c a u : ℝ} (hc : ∀ b ∈ r, b ≤ c) (ha : a ∈ r) (hu : ExpSum V r c u) :
    ((∀ b ∈ r, V.exp (V.rnd (b - c)) = 0) ∧ logQuotient V (V.exp (V.rnd (a - c))) u = .nan) ∨
    ((∃ b ∈ r, V.exp (V.rnd (b - c)) ≠ 0) ∧ V.exp (V.rnd (a - c)) = 0 ∧ logQuotient V (V.exp (V.rnd (a - c))) u = .ninf) ∨
    (V.exp (V.rnd (a - c)) ≠ 0 ∧ ∃ x, logQuotient V (V.exp (V.rnd (a - c))) u = .fin x) := by
  have hnn : ∀ b ∈ r, 0 ≤ V.exp (V.rnd (b - c)) := fun b hb =>
    V.exp_nonneg _ (by simpa [V.rnd_zero] using V.mono (sub_nonpos.mpr (hc b hb)))
  have hl : ∀ x ∈ r.map (fun a => V.exp (V.rnd (a - c))), 0 ≤ x := by
    intro x hx
    obtain ⟨b, hb, rfl⟩ := List.mem_map.mp hx
    exact hnn b hb
  have h0 : u = 0 ↔ ∀ b ∈ r, V.exp (V.rnd (b - c)) = 0 := by
    rw [summed_eq_zero hu hl]
    simp
  have hu0 := (one_le_summed hu hl).1
  by_cases hz : u = 0
  · refine Or.inl ⟨h0.mp hz, ?_⟩
    rw [logQuotient, if_pos hz, if_pos (h0.mp hz a ha)]
  · right
    have hpos : 0 < u := lt_of_le_of_ne hu0 (Ne.symm hz)
    by_cases hea : V.exp (V.rnd (a - c)) = 0
    · refine Or.inl ⟨?_, hea, ?_⟩
      · rw [h0] at hz
        push Not at hz
        exact hz
      · rw [logQuotient, if_neg hz, hea, zero_div, V.rnd_zero, XF.log, if_pos rfl]
    · refine Or.inr ⟨hea, ?_⟩
      have := V.rnd_pos (div_pos (lt_of_le_of_ne (hnn a ha) (Ne.symm hea)) hpos)
      rw [logQuotient, if_neg hz, XF.log, if_neg this.ne', if_neg (not_lt.mpr this.le)]
      exact ⟨_, rfl⟩

end OpenML.Saturation
