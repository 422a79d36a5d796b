import Verif.Lemmas.LinearFit
import Verif.Spec.Perceptron

/-!
# Lemmas about the perceptron
-/

set_option linter.unusedSectionVars false

namespace OpenML.Perceptron

open Spec Loss SGD LinearFit
open scoped BigOperators

variable {α : Type} [Field α] [LinearOrder α] [IsStrictOrderedRing α]

theorem dotL_comm (a b : List α) : dotL a b = dotL b a := by
  unfold dotL
  rw [List.zipWith_comm]
  simp [mul_comm]

theorem dotL_self_nonneg (a : List α) : 0 ≤ dotL a a := by
  induction a with
  | nil => simp [dotL]
  | cons x a ih => rw [dotL_cons]; nlinarith [mul_self_nonneg x]

/-- Cauchy-Schwarz inequality. -/
theorem dotL_sq_le (a b : List α) : dotL a b ^ 2 ≤ dotL a a * dotL b b := by
  induction a generalizing b with
  | nil => simp [dotL]
  | cons x a ih =>
    cases b with
    | nil => simp [dotL]
    | cons y b =>
      rw [dotL_cons, dotL_cons, dotL_cons]
      have h := ih b
      have ha := dotL_self_nonneg a
      have hb := dotL_self_nonneg b
      have h2 : 2 * (x * y) * dotL a b ≤ x ^ 2 * dotL b b + y ^ 2 * dotL a a := by
        refine abs_le_of_sq_le_sq' ?_ (by positivity) |>.2
        have h3 : (2 * (x * y) * dotL a b) ^ 2 = 4 * (x * y) ^ 2 * dotL a b ^ 2 := by ring
        have h4 : 4 * (x * y) ^ 2 * dotL a b ^ 2 ≤ 4 * (x * y) ^ 2 * (dotL a a * dotL b b) :=
          mul_le_mul_of_nonneg_left h (by positivity)
        nlinarith [sq_nonneg (x ^ 2 * dotL b b - y ^ 2 * dotL a a)]
      nlinarith

/-- The weights after one sample. -/
def correct (eta : α) (w : List α) (e : List α × α) : List α :=
  if 0 < dotL e.1 w * e.2 then w else vadd w (e.1.map fun x => x * (eta * e.2))

theorem correct_length (eta : α) (w : List α) (e : List α × α) (h : e.1.length = w.length) : (correct eta w e).length = w.length := by
  unfold correct
  split <;> simp [vadd, h]

/-- The loss of `Perceptron` without penalty if the summation starts with zeros. -/
abbrev plain (d : Nat) : LossFn α (List α) := ⟨hingeEvaluate 0 0, hingeGradient 0 0 (List.replicate d 0)⟩

theorem penaltyGrad_zero (n : Nat) (w : List α) : penaltyGrad 0 n w = List.replicate w.length 0 := by
  unfold penaltyGrad
  simp

theorem zero_vadd (a : List α) : vadd (List.replicate a.length 0) a = a := by
  induction a with
  | nil => rfl
  | cons x a ih => simp_all [vadd, List.replicate_succ]

theorem step_eq (d : Nat) (w r : List α) (a eta : α) (j : Nat) (hr : r.length = d) (hw : w.length = d)
    (hc : ∀ x ∈ r, |x * a| ≤ 10 ^ 10) :
    sgdStep (plain d) clipGrad vanillaUpdate w ⟨d, [r]⟩ [a] eta j = .ok (correct eta w (r, a)) := by
  have hg : hingeGradient 0 0 (List.replicate d 0) ⟨d, [r]⟩ [a] w = .ok (contribution 0 r (dotL r w) a) := by
    rw [hingeGradient, mulVec_ok _ _ hw, Res.bind_ok]
    rw [List.map_cons, List.map_nil, loop_cons _ _ _ _ _ _ _ _ (by simp [hr])]
    have hlen : (contribution 0 r (dotL r w) a).length = d := by rw [contribution_length, hr]
    have hz : vadd (List.replicate d 0) (contribution 0 r (dotL r w) a) = contribution 0 r (dotL r w) a := by
      conv_lhs => rw [← hlen]
      exact zero_vadd _
    rw [hz, hingeGradLoop]
    · rw [Res.bind_ok, addV, if_pos (by rw [hlen, penaltyGrad_zero, List.length_replicate, hw]), penaltyGrad_zero, hw, ← hlen]
      exact congrArg Res.ok (vadd_zero _)
    all_goals simp
  rw [sgdStep]
  dsimp only
  rw [hg, Res.bind_ok, vanillaUpdate, subV, if_pos (by simp [clipGrad_length, contribution_length, hr, hw])]
  congr 1
  unfold correct contribution
  dsimp only
  by_cases h : dotL r w * a > 0
  · rw [if_pos h, if_pos h]
    have : clipGrad (List.replicate r.length (0 : α)) = List.replicate r.length 0 := by
      rw [clipGrad_eq]
      simp
    rw [this, hr, ← hw]
    clear h this hg hw
    induction w with
    | nil => rfl
    | cons x w ih => simp_all [List.replicate_succ]
  · rw [if_neg h, if_neg h]
    have : clipGrad (r.map fun x => x * -a) = r.map fun x => x * -a := by
      rw [clipGrad_eq, List.map_map]
      refine List.map_congr_left fun x hx => ?_
      have := abs_le.mp (hc x hx)
      simp only [Function.comp_apply]
      rw [min_eq_left (by linarith), max_eq_left (by linarith)]
    rw [this]
    clear h this hg
    subst hw
    induction r generalizing w with
    | nil => cases w <;> simp_all [vadd]
    | cons x r ih =>
      cases w with
      | nil => simp at hr
      | cons y w =>
        simp only [List.map_cons, List.zipWith_cons_cons, vadd, List.cons.injEq]
        refine ⟨by ring, ?_⟩
        exact ih w (fun x hx => hc x (by simp [hx])) (by simpa using hr)

theorem eval_eq (d : Nat) (w r : List α) (a : α) (hw : w.length = d) :
    hingeEvaluate 0 0 ⟨d, [r]⟩ [a] w = .ok (max 0 (-(dotL r w * a))) := by
  rw [hingeEvaluate, mulVec_ok _ _ hw, Res.bind_ok]
  simp [hingeSum, penalty]

/-- What a sample does to the inner product with a separating vector and to the length of the weights. -/
theorem correct_growth (eta : α) (w : List α) (e : List α × α) (h : e.1.length = w.length) (heta : 0 ≤ eta)
    (hm : ¬ 0 < dotL e.1 w * e.2) (u : List α) (margin radius : α) (hs : margin ≤ e.2 * dotL e.1 u)
    (hR : e.2 ^ 2 * dotL e.1 e.1 ≤ radius ^ 2) :
    dotL w u + eta * margin ≤ dotL (correct eta w e) u ∧
    dotL (correct eta w e) (correct eta w e) ≤ dotL w w + eta ^ 2 * radius ^ 2 := by
  unfold correct
  rw [if_neg hm]
  have hl : w.length = (e.1.map fun x => x * (eta * e.2)).length := by simp [h]
  constructor
  · rw [dotL_vadd _ _ _ hl, dotL_map_mul]
    have := mul_le_mul_of_nonneg_left hs heta
    linarith
  · rw [dotL_vadd _ _ _ hl, dotL_map_mul, dotL_comm w, dotL_comm e.1, dotL_vadd _ _ _ hl, dotL_vadd _ _ _ hl, dotL_map_mul,
      dotL_map_mul, dotL_comm w e.1]
    have h1 := mul_le_mul_of_nonneg_left hR (sq_nonneg eta)
    have h2 : eta * (dotL e.1 w * e.2) ≤ 0 := mul_nonpos_of_nonneg_of_nonpos heta (not_lt.mp hm)
    nlinarith

/-- One pass over samples `E` one by one. -/
theorem pass (E : List (List α × α)) (eta : α) (heta : 0 < eta) (d : Nat) (hd : ∀ e ∈ E, e.1.length = d) (u : List α)
    (margin radius : α) (hs : SeparatesBy E u margin) (hR : ∀ e ∈ E, e.2 ^ 2 * pairing e.1 e.1 ≤ radius ^ 2)
    (t : Nat → List α) (h0 : (t 0).length = d) (ht : ∀ j (h : j < E.length), t (j + 1) = correct eta (t j) E[j])
    (k : Nat) (hk : k ≤ E.length) :
    (t k).length = d ∧ ∃ c : Nat,
      dotL (t 0) u + (c : α) * eta * margin ≤ dotL (t k) u ∧
      dotL (t k) (t k) ≤ dotL (t 0) (t 0) + (c : α) * eta ^ 2 * radius ^ 2 ∧
      (c = 0 → ∀ j ≤ k, t j = t 0) ∧ (c = 0 → ∀ j (h : j < k), 0 < dotL (E[j]'(by omega)).1 (t 0) * (E[j]'(by omega)).2) := by
  induction k with
  | zero => exact ⟨h0, 0, by simp, by simp, fun _ j hj => by rw [Nat.le_zero.mp hj], fun _ j hj => absurd hj (by omega)⟩
  | succ k ih =>
    obtain ⟨hl, c, h1, h2, h3, h4⟩ := ih (by omega)
    have hkE : k < E.length := by omega
    have hlen : E[k].1.length = (t k).length := by rw [hl, hd _ (List.getElem_mem hkE)]
    refine ⟨by rw [ht k hkE, correct_length _ _ _ hlen, hl], ?_⟩
    by_cases hm : 0 < dotL E[k].1 (t k) * E[k].2
    · have hsame : t (k + 1) = t k := by rw [ht k hkE, correct, if_pos hm]
      refine ⟨c, by rw [hsame]; exact h1, by rw [hsame]; exact h2, fun hc j hj => ?_, fun hc j hj => ?_⟩
      · rcases Nat.lt_or_ge j (k + 1) with h | h
        · exact h3 hc j (by omega)
        · rw [show j = k + 1 by omega, hsame]; exact h3 hc k (le_refl _)
      · rcases Nat.lt_or_ge j k with h | h
        · exact h4 hc j h
        · have : j = k := by omega
          subst this
          rw [h3 hc j (le_refl _)] at hm
          exact hm
    · obtain ⟨g1, g2⟩ := correct_growth eta (t k) E[k] hlen heta.le hm u margin radius (hs _ (List.getElem_mem hkE))
        (hR _ (List.getElem_mem hkE))
      refine ⟨c + 1, ?_, ?_, by simp, by simp⟩
      · rw [ht k hkE]; push_cast; linarith
      · rw [ht k hkE]; push_cast; linarith

theorem batch_one {β : Type} (l : List β) (j : Nat) (h : j < l.length) : batch 1 j l = [l[j]] := by
  unfold batch
  rw [Nat.mul_one, List.take_one_drop_eq_of_lt_length h]
  rfl

/-- What is needed of the data and the separating vector. -/
structure Setting (X : DMat α) (y u : List α) (margin radius : α) : Prop where
  wf : X.WF
  labels : y.length = X.nrows
  clip : ∀ e ∈ X.rows.zip y, ∀ x ∈ e.1, |x * e.2| ≤ 10 ^ 10
  sep : SeparatesBy (X.rows.zip y) u margin
  rad : ∀ e ∈ X.rows.zip y, e.2 ^ 2 * pairing e.1 e.1 ≤ radius ^ 2

/-- One epoch over data in any order. -/
theorem pass_run (X : DMat α) (y u : List α) (margin radius : α) (h : Setting X y u margin radius) (eta : α) (heta : 0 < eta)
    (s s' : List α) (hs : s.length = X.ncols) (total : α)
    (hp : IsPass (plain X.ncols) id (sgdStep (plain X.ncols) clipGrad vanillaUpdate) 1 X.nrows X y eta s s' total) :
    s'.length = X.ncols ∧ ∃ c : Nat, dotL s u + (c : α) * eta * margin ≤ dotL s' u ∧
      dotL s' s' ≤ dotL s s + (c : α) * eta ^ 2 * radius ^ 2 ∧ (c = 0 → s' = s ∧ total = 0 ∧ Classifies (X.rows.zip y) s) ∧
      (Classifies (X.rows.zip y) s → s' = s ∧ total = 0) := by
  obtain ⟨t, l, rfl, rfl, rfl, hstep⟩ := hp
  have hlen : (X.rows.zip y).length = X.nrows := by
    rw [List.length_zip, h.labels]; exact Nat.min_self _
  have hget : ∀ j (hj : j < X.nrows), (t j).length = X.ncols →
      t (j + 1) = correct eta (t j) ((X.rows.zip y)[j]'(by omega)) := by
    intro j hj hl
    have hjr : j < X.rows.length := hj
    have hjy : j < y.length := by rw [h.labels]; exact hj
    obtain ⟨_, _, h3, _⟩ := hstep j hj
    rw [batch_one _ _ hjr, batch_one _ _ hjy, step_eq X.ncols (t j) _ _ eta j (h.wf _ (List.getElem_mem hjr)) hl] at h3
    · rw [← Res.ok.inj h3, List.getElem_zip]
    · intro x hx
      refine h.clip (X.rows[j], y[j]) ?_ x hx
      rw [← List.getElem_zip (h := by omega)]
      exact List.getElem_mem _
  have hd : ∀ e ∈ X.rows.zip y, e.1.length = X.ncols := fun e he => h.wf _ (List.of_mem_zip he).1
  have htl : ∀ j ≤ X.nrows, (t j).length = X.ncols := by
    intro j
    induction j with
    | zero => exact fun _ => hs
    | succ j ih =>
      intro hj
      have hl := ih (by omega)
      rw [hget j (by omega) hl, correct_length, hl]
      rw [hl, hd _ (List.getElem_mem _)]
  have ht : ∀ j (hj : j < (X.rows.zip y).length), t (j + 1) = correct eta (t j) (X.rows.zip y)[j] := fun j hj =>
    hget j (by omega) (htl j (by omega))
  obtain ⟨hl, c, h1, h2, h3, h4⟩ := pass (X.rows.zip y) eta heta X.ncols hd u margin radius h.sep h.rad t hs ht X.nrows hlen.ge
  have hstay : Classifies (X.rows.zip y) (t 0) → ∀ j ≤ X.nrows, t j = t 0 := by
    intro hcl j
    induction j with
    | zero => exact fun _ => rfl
    | succ j ih =>
      intro hj
      have := hcl _ (List.getElem_mem (show j < (X.rows.zip y).length by omega))
      rw [ht j (by omega), ih (by omega), correct, if_pos]
      rw [mul_comm]
      exact this
  have hzero : Classifies (X.rows.zip y) (t 0) → ∑ j ∈ Finset.range X.nrows, l j = 0 := by
    intro hcl
    refine Finset.sum_eq_zero fun j hj => ?_
    have hj := Finset.mem_range.mp hj
    have hjr : j < X.rows.length := hj
    have hjy : j < y.length := by rw [h.labels]; exact hj
    obtain ⟨_, _, _, h4⟩ := hstep j hj
    have hthis := hcl _ (List.getElem_mem (show j < (X.rows.zip y).length by omega))
    rw [List.getElem_zip] at hthis
    rw [batch_one _ _ hjr, batch_one _ _ hjy, id, hstay hcl (j + 1) hj] at h4
    have h6 : Res.ok (l j) = .ok (max 0 (-(dotL X.rows[j] (t 0) * y[j]))) := h4.symm.trans (eval_eq _ _ _ _ hs)
    rw [Res.ok.inj h6, max_eq_left]
    have h5 : 0 < y[j] * dotL X.rows[j] (t 0) := hthis
    linarith
  refine ⟨hl, c, h1, h2, fun hc => ?_, fun hcl => ⟨hstay hcl _ (le_refl _), hzero hcl⟩⟩
  have hcl : Classifies (X.rows.zip y) (t 0) := by
    intro e he
    obtain ⟨j, hj, rfl⟩ := List.getElem_of_mem he
    have := h4 hc j (by omega)
    rw [mul_comm] at this
    exact this
  exact ⟨h3 hc _ (le_refl _), hzero hcl, hcl⟩

theorem Setting.perm {X X' : DMat α} {y y' u : List α} {margin radius : α} (h : Setting X y u margin radius) (hw : X'.WF)
    (hl : y'.length = X'.nrows) (hz : (X'.rows.zip y').Perm (X.rows.zip y)) : Setting X' y' u margin radius :=
  ⟨hw, hl, fun e he => h.clip e (hz.mem_iff.mp he), fun e he => h.sep e (hz.mem_iff.mp he), fun e he => h.rad e (hz.mem_iff.mp he)⟩

/-- The arithmetic behind the bound: `a` is the inner product with the separating vector at the start, `b` at the end, `q` the
squared length of the weights at the end, `S` and `T` the sums of rates and of their squares. -/
theorem budget (len start radius margin cap a b q v w S T : α) (hlen : 0 ≤ len) (hstart : 0 ≤ start) (hm : 0 < margin)
    (hS : 0 ≤ S) (hT : T ≤ cap * S) (hcap : 0 ≤ cap) (hv : v ≤ len ^ 2) (hw : w ≤ start ^ 2) (hv0 : 0 ≤ v) (hw0 : 0 ≤ w)
    (ha : a ^ 2 ≤ w * v) (hb : a + S * margin ≤ b) (hq : q ≤ w + T * radius ^ 2) (hbq : b ^ 2 ≤ q * v) :
    S ≤ correctionBudget len start radius margin cap := by
  have ha' : -(start * len) ≤ a := by
    refine (abs_le_of_sq_le_sq' ?_ (by positivity)).1
    calc a ^ 2 ≤ w * v := ha
      _ ≤ start ^ 2 * len ^ 2 := mul_le_mul hw hv hv0 (by positivity)
      _ = (start * len) ^ 2 := by ring
  have hR : 0 ≤ radius ^ 2 := sq_nonneg _
  have hsum : correctionBudget len start radius margin cap = (2 * len * start * margin + cap * len ^ 2 * radius ^ 2) / margin ^ 2 := by
    unfold correctionBudget
    field_simp
  rw [hsum, le_div_iff₀ (by positivity)]
  by_cases hsmall : S * margin ≤ start * len
  · have h1 : S * margin * margin ≤ start * len * margin := mul_le_mul_of_nonneg_right hsmall hm.le
    have h2 : 0 ≤ start * len * margin := by positivity
    have h3 : 0 ≤ cap * len ^ 2 * radius ^ 2 := by positivity
    nlinarith
  · have hpos : 0 < S * margin - start * len := by linarith [not_le.mp hsmall]
    have hSpos : 0 < S := by
      rcases hS.lt_or_eq with h | h
      · exact h
      · rw [← h, zero_mul] at hsmall
        exact absurd (by positivity) hsmall
    have hb' : S * margin - start * len ≤ b := by linarith
    have h1 : (S * margin - start * len) ^ 2 ≤ b ^ 2 := pow_le_pow_left₀ hpos.le hb' 2
    have hq0 : 0 ≤ q ∨ v = 0 := by
      rcases hv0.lt_or_eq with h | h
      · left
        by_contra hq0
        have := mul_neg_of_neg_of_pos (not_le.mp hq0) h
        nlinarith [sq_nonneg b]
      · exact Or.inr h.symm
    have h2 : q * v ≤ (start ^ 2 + cap * S * radius ^ 2) * len ^ 2 := by
      have hq' : q ≤ start ^ 2 + cap * S * radius ^ 2 := by nlinarith [mul_le_mul_of_nonneg_right hT hR]
      rcases hq0 with h | h
      · exact mul_le_mul hq' hv hv0 (h.trans hq')
      · rw [h, mul_zero]; positivity
    have h3 : S * (S * margin ^ 2) ≤ S * (2 * len * start * margin + cap * len ^ 2 * radius ^ 2) := by nlinarith
    exact le_of_mul_le_mul_left h3 hSpos

section Run

variable (X : DMat α) (y u : List α) (margin radius : α) (p : Params α) (eta : Nat → α) (s : List α) (n : Nat)
  (D : Nat → DMat α × List α) (st : Nat → List α) (L : Nat → α)

/-- A run of any number of epochs. -/
theorem run (h : Setting X y u margin radius) (hb : p.batchSize = 1) (hdec : ∀ i, p.decay i = .ok (eta i)) (heta : ∀ i, 0 < eta i)
    (hperm : ∀ q, p.shuffle = some q → ∀ i, (q i).Perm (List.range X.nrows)) (hs : s.length = X.ncols)
    (hr : IsRun (plain X.ncols) id (sgdStep (plain X.ncols) clipGrad vanillaUpdate) p (X.nrows / p.batchSize) X y s n D st L) :
    ∃ c : Nat → Nat, (∀ i < n, c i = 0 → Classifies (X.rows.zip y) (st i)) ∧
      (∀ i < n, Classifies (X.rows.zip y) (st i) → st (i + 1) = st i ∧ L i = 0) ∧
      (∀ i ≤ n, (st i).length = X.ncols) ∧
      dotL s u + (∑ i ∈ Finset.range n, (c i : α) * eta i) * margin ≤ dotL (st n) u ∧
      dotL (st n) (st n) ≤ dotL s s + (∑ i ∈ Finset.range n, (c i : α) * eta i ^ 2) * radius ^ 2 := by
  obtain ⟨hD, hst, hr⟩ := hr
  rw [hb, Nat.div_one] at hr
  have hdata : ∀ i ≤ n, Setting (D i).1 (D i).2 u margin radius ∧ (D i).1.ncols = X.ncols ∧ (D i).1.nrows = X.nrows ∧
      ((D i).1.rows.zip (D i).2).Perm (X.rows.zip y) := by
    intro i
    induction i with
    | zero => intro _; rw [hD]; exact ⟨h, rfl, rfl, List.Perm.refl _⟩
    | succ i ih =>
      intro hi
      obtain ⟨g1, g2, g3, g4⟩ := ih (by omega)
      obtain ⟨e, he, e1, e2, e3, e4, e5⟩ := C47_shuffle_pairs p.shuffle i (D i).1 g1.wf (D i).2 g1.labels
        (fun q hq => by rw [g3]; exact hperm q hq i)
      rw [(hr i (by omega)).1] at he
      rw [Res.ok.inj he]
      exact ⟨g1.perm e2 e3 e4, e1.trans g2, e5.trans g3, e4.trans g4⟩
  have hcl : ∀ i ≤ n, ∀ w, Classifies ((D i).1.rows.zip (D i).2) w ↔ Classifies (X.rows.zip y) w := fun i hi w => by
    unfold Classifies
    simp only [(hdata i hi).2.2.2.mem_iff]
  have hpass : ∀ i < n, (st i).length = X.ncols → (st (i + 1)).length = X.ncols ∧ ∃ c : Nat,
      dotL (st i) u + (c : α) * eta i * margin ≤ dotL (st (i + 1)) u ∧
      dotL (st (i + 1)) (st (i + 1)) ≤ dotL (st i) (st i) + (c : α) * eta i ^ 2 * radius ^ 2 ∧
      (c = 0 → Classifies (X.rows.zip y) (st i)) ∧
      (Classifies (X.rows.zip y) (st i) → st (i + 1) = st i ∧ L i = 0) := by
    intro i hi hl
    obtain ⟨_, lr, hlr, hp⟩ := hr i hi
    rw [hdec i] at hlr
    obtain rfl := Res.ok.inj hlr
    obtain ⟨g1, g2, g3, _⟩ := hdata (i + 1) (by omega)
    rw [← g2, ← g3] at hp
    rw [← g2] at hl ⊢
    obtain ⟨k1, c, k2, k3, k4, k5⟩ := pass_run _ _ u margin radius g1 (eta i) (heta i) _ _ hl _ hp
    refine ⟨k1, c, k2, k3, fun hc => (hcl _ (by omega) _).mp (k4 hc).2.2, fun hc => k5 ((hcl _ (by omega) _).mpr hc)⟩
  have hlen : ∀ i ≤ n, (st i).length = X.ncols := by
    intro i
    induction i with
    | zero => intro _; rw [hst]; exact hs
    | succ i ih => intro hi; exact (hpass i (by omega) (ih (by omega))).1
  choose c hc using fun i : Nat => fun hi : i < n => (hpass i hi (hlen i hi.le)).2
  refine ⟨fun i => if hi : i < n then c i hi else 0, fun i hi h0 => ?_, fun i hi => (hc i hi).2.2.2, hlen, ?_⟩
  · dsimp only at h0
    rw [dif_pos hi] at h0
    exact (hc i hi).2.2.1 h0
  · have : ∀ m ≤ n, dotL s u + (∑ i ∈ Finset.range m, ((if hi : i < n then c i hi else 0 : Nat) : α) * eta i) * margin ≤ dotL (st m) u ∧
        dotL (st m) (st m) ≤ dotL s s + (∑ i ∈ Finset.range m, ((if hi : i < n then c i hi else 0 : Nat) : α) * eta i ^ 2) * radius ^ 2 := by
      intro m
      induction m with
      | zero => intro _; rw [hst]; simp
      | succ m ih =>
        intro hm
        obtain ⟨i1, i2⟩ := ih (by omega)
        obtain ⟨j1, j2, _⟩ := hc m (by omega)
        rw [Finset.sum_range_succ, Finset.sum_range_succ, dif_pos (show m < n by omega)]
        constructor
        · linarith
        · linarith
    exact this n (le_refl _)

end Run

section Drift

theorem getD_zipWith (f : α → α → α) (hf : f 0 0 = 0) (a b : List α) (h : a.length = b.length) (j : Nat) :
    (List.zipWith f a b).getD j 0 = f (a.getD j 0) (b.getD j 0) := by
  induction a generalizing b j with
  | nil => cases b <;> simp_all
  | cons x a ih =>
    cases b with
    | nil => simp at h
    | cons y b =>
      cases j with
      | zero => simp
      | succ j => simpa using ih b (by simpa using h) j

theorem sum_getD (l : List α) : l.sum = ∑ j ∈ Finset.range l.length, l.getD j 0 := by
  induction l with
  | nil => simp
  | cons x l ih =>
    rw [List.sum_cons, ih, List.length_cons, Finset.sum_range_succ', add_comm]
    rfl

theorem getD_map (f : α → α) (hf : f 0 = 0) (a : List α) (j : Nat) : (a.map f).getD j 0 = f (a.getD j 0) := by
  induction a generalizing j with
  | nil => simp [hf]
  | cons x a ih =>
    cases j with
    | zero => simp
    | succ j => simpa using ih j

theorem getD_replicate (n j : Nat) : (List.replicate n (0 : α)).getD j 0 = 0 := by
  rw [List.getD_eq_getElem?_getD, List.getElem?_replicate]
  split <;> rfl

theorem contribution_getD (t : α) (r : List α) (s a : α) (j : Nat) : |(contribution t r s a).getD j 0| ≤ |a * r.getD j 0| := by
  unfold contribution
  split
  · rw [getD_replicate, abs_zero]
    exact abs_nonneg _
  · rw [getD_map _ (by simp), mul_neg, abs_neg, mul_comm]

theorem mass_nonneg (E : List (List α × α)) (j : Nat) : 0 ≤ scaledMass E j := by
  refine List.sum_nonneg fun x hx => ?_
  obtain ⟨e, _, rfl⟩ := List.mem_map.mp hx
  exact abs_nonneg _

theorem loop_getD (t : α) (n : Nat) (rs : List (List α)) (hr : ∀ r ∈ rs, r.length = n) (ss as : List α) (g g' : List α)
    (hg : g.length = n) (h : hingeGradLoop t rs ss as g = .ok g') (j : Nat) :
    g'.length = n ∧ |g'.getD j 0| ≤ |g.getD j 0| + scaledMass (rs.zip as) j := by
  induction rs generalizing ss as g with
  | nil =>
    have : g' = g := by cases ss <;> cases as <;> simp_all [hingeGradLoop]
    rw [this]
    exact ⟨hg, by simp [scaledMass]⟩
  | cons r rs ih =>
    have hnn := mass_nonneg ((r :: rs).zip as) j
    cases ss with
    | nil =>
      have : g' = g := by cases as <;> simp_all [hingeGradLoop]
      rw [this]
      exact ⟨hg, by linarith⟩
    | cons s ss =>
      cases as with
      | nil => simp [hingeGradLoop] at h
      | cons a as =>
        have hrn := hr r (by simp)
        rw [loop_cons t r rs s ss a as g (by rw [hg, hrn])] at h
        have hcl : g.length = (contribution t r s a).length := by rw [contribution_length, hrn, hg]
        obtain ⟨h1, h2⟩ := ih (fun r hr' => hr r (by simp [hr'])) ss as _ (by simp [vadd, ← hcl, hg]) h
        refine ⟨h1, h2.trans ?_⟩
        rw [vadd, getD_zipWith _ (by simp) _ _ hcl]
        have h3 := abs_add_le (g.getD j 0) ((contribution t r s a).getD j 0)
        have h4 := contribution_getD t r s a j
        simp only [scaledMass, List.zip_cons_cons, List.map_cons, List.sum_cons]
        linarith

/-- One batch moves feature `j` by at most the learning rate times the mass of the batch. -/
theorem step_drift (d : Nat) (w w' : List α) (rs : List (List α)) (ys : List α) (eta : α) (heta : 0 ≤ eta) (i : Nat)
    (hr : ∀ r ∈ rs, r.length = d) (hw : w.length = d)
    (h : sgdStep (plain d) clipGrad vanillaUpdate w ⟨d, rs⟩ ys eta i = .ok w') (j : Nat) :
    w'.length = d ∧ |w'.getD j 0 - w.getD j 0| ≤ eta * scaledMass (rs.zip ys) j := by
  rw [sgdStep, Res.bind_eq_ok] at h
  obtain ⟨g, hg, hu⟩ := h
  have hg' : hingeGradient 0 0 (List.replicate d 0) ⟨d, rs⟩ ys w = .ok g := hg
  rw [hingeGradient, mulVec_ok _ _ hw, Res.bind_ok, Res.bind_eq_ok] at hg'
  obtain ⟨g0, h0, h1⟩ := hg'
  obtain ⟨l0, b0⟩ := loop_getD 0 d rs hr _ ys _ g0 (by simp) h0 j
  rw [getD_replicate, abs_zero, zero_add] at b0
  rw [addV, penaltyGrad_zero, if_pos (by rw [l0, List.length_replicate, hw])] at h1
  have hgg : g = g0 := by
    rw [← Res.ok.inj h1, hw, ← l0]
    exact vadd_zero g0
  subst hgg
  have hl : w.length = ((clipGrad g).map fun a => eta * a).length := by rw [List.length_map, clipGrad_length, l0, hw]
  rw [vanillaUpdate, subV, if_pos hl] at hu
  rw [← Res.ok.inj hu]
  refine ⟨by rw [List.length_zipWith, ← hl, hw, Nat.min_self], ?_⟩
  rw [getD_zipWith _ (by simp) _ _ hl, getD_map _ (by simp), clipGrad_eq, getD_map _ (by simp), sub_sub_cancel_left, abs_neg, abs_mul,
    abs_of_nonneg heta]
  refine mul_le_mul_of_nonneg_left (le_trans ?_ b0) heta
  generalize g.getD j 0 = a
  rw [abs_le]
  have h10 : (0 : α) ≤ 10 ^ 10 := by positivity
  rcases abs_cases a with ⟨h1, h2⟩ | ⟨h1, h2⟩ <;> rw [h1] <;> constructor <;>
    simp only [le_max_iff, le_min_iff, max_le_iff, min_le_iff] <;> first | (left; constructor <;> linarith) | (constructor <;> first | linarith | (left; linarith))

theorem batch_append {β : Type} (l : List β) (b j : Nat) : l.take ((j + 1) * b) = l.take (j * b) ++ batch b j l := by
  rw [Nat.succ_mul, batch, List.take_add]

/-- One epoch moves feature `j` by at most the learning rate times the mass of the data. -/
theorem pass_drift (X : DMat α) (hX : X.WF) (y : List α) (b k : Nat) (eta : α) (heta : 0 ≤ eta) (s s' : List α)
    (hs : s.length = X.ncols) (total : α)
    (hp : IsPass (plain X.ncols) id (sgdStep (plain X.ncols) clipGrad vanillaUpdate) b k X y eta s s' total) (j : Nat) :
    s'.length = X.ncols ∧ |s'.getD j 0 - s.getD j 0| ≤ eta * scaledMass (X.rows.zip y) j := by
  obtain ⟨t, l, rfl, rfl, rfl, hstep⟩ := hp
  have key : ∀ i ≤ k, (t i).length = X.ncols ∧
      |(t i).getD j 0 - (t 0).getD j 0| ≤ eta * scaledMass ((X.rows.take (i * b)).zip (y.take (i * b))) j := by
    intro i
    induction i with
    | zero => intro _; exact ⟨hs, by simp [scaledMass]⟩
    | succ i ih =>
      intro hi
      obtain ⟨h1, h2⟩ := ih (by omega)
      obtain ⟨g1, g2, g3, _⟩ := hstep i (by omega)
      obtain ⟨k1, k2⟩ := step_drift X.ncols (t i) (t (i + 1)) _ _ eta heta i (fun r hr => hX r (mem_of_mem_batch hr)) h1 g3 j
      refine ⟨k1, ?_⟩
      have hib : i * b ≤ (i + 1) * b := Nat.mul_le_mul_right b (by omega)
      rw [batch_append, batch_append, List.zip_append (by rw [List.length_take, List.length_take]; omega), scaledMass,
        List.map_append, List.sum_append, mul_add]
      have := abs_sub_le ((t (i + 1)).getD j 0) ((t i).getD j 0) ((t 0).getD j 0)
      simp only [scaledMass] at h2 k2
      linarith
  obtain ⟨h1, h2⟩ := key k (le_refl _)
  refine ⟨h1, h2.trans (mul_le_mul_of_nonneg_left ?_ heta)⟩
  have htake : (X.rows.take (k * b)).zip (y.take (k * b)) = (X.rows.zip y).take (k * b) := List.take_zipWith.symm
  have hsplit : scaledMass (X.rows.zip y) j = scaledMass ((X.rows.zip y).take (k * b)) j + scaledMass ((X.rows.zip y).drop (k * b)) j := by
    conv_lhs => rw [← List.take_append_drop (k * b) (X.rows.zip y)]
    rw [scaledMass, List.map_append, List.sum_append]
    rfl
  rw [htake, hsplit]
  linarith [mass_nonneg ((X.rows.zip y).drop (k * b)) j]

theorem run_drift (X : DMat α) (hX : X.WF) (y : List α) (hy : y.length = X.nrows) (p : Params α) (eta : Nat → α)
    (heta : ∀ i, 0 ≤ eta i) (hdec : ∀ i, p.decay i = .ok (eta i))
    (hperm : ∀ q, p.shuffle = some q → ∀ i, (q i).Perm (List.range X.nrows)) (k : Nat) (s : List α) (hs : s.length = X.ncols) (n : Nat)
    (D : Nat → DMat α × List α) (st : Nat → List α) (L : Nat → α)
    (hr : IsRun (plain X.ncols) id (sgdStep (plain X.ncols) clipGrad vanillaUpdate) p k X y s n D st L) (j : Nat) :
    (st n).length = X.ncols ∧
    |(st n).getD j 0 - s.getD j 0| ≤ (∑ i ∈ Finset.range n, eta i) * scaledMass (X.rows.zip y) j := by
  obtain ⟨hD, hst, hr⟩ := hr
  have key : ∀ i ≤ n, ((D i).1.WF ∧ (D i).2.length = (D i).1.nrows ∧ (D i).1.ncols = X.ncols ∧ (D i).1.nrows = X.nrows ∧
      ((D i).1.rows.zip (D i).2).Perm (X.rows.zip y)) ∧ (st i).length = X.ncols ∧
      |(st i).getD j 0 - s.getD j 0| ≤ (∑ i ∈ Finset.range i, eta i) * scaledMass (X.rows.zip y) j := by
    intro i
    induction i with
    | zero => intro _; rw [hD, hst]; exact ⟨⟨hX, hy, rfl, rfl, List.Perm.refl _⟩, hs, by simp⟩
    | succ i ih =>
      intro hi
      obtain ⟨⟨g1, g2, g3, g4, g5⟩, h1, h2⟩ := ih (by omega)
      obtain ⟨hsh, lr, hlr, hp⟩ := hr i (by omega)
      obtain ⟨e, he, e1, e2, e3, e4, e5⟩ := C47_shuffle_pairs p.shuffle i (D i).1 g1 (D i).2 g2
        (fun q hq => by rw [g4]; exact hperm q hq i)
      rw [hsh] at he
      rw [← Res.ok.inj he] at e1 e2 e3 e4 e5
      rw [hdec i] at hlr
      obtain rfl := Res.ok.inj hlr
      have hn : (D (i + 1)).1.ncols = X.ncols := e1.trans g3
      rw [← hn] at hp h1
      obtain ⟨k1, k2⟩ := pass_drift _ e2 _ _ _ (eta i) (heta i) _ _ h1 _ hp j
      have hm : scaledMass ((D (i + 1)).1.rows.zip (D (i + 1)).2) j = scaledMass (X.rows.zip y) j :=
        ((e4.trans g5).map _).sum_eq
      rw [hm] at k2
      refine ⟨⟨e2, e3, hn, e5.trans g4, e4.trans g5⟩, k1.trans hn, ?_⟩
      rw [Finset.sum_range_succ, add_mul]
      have := abs_sub_le ((st (i + 1)).getD j 0) ((st i).getD j 0) (s.getD j 0)
      linarith
  exact (key n (le_refl _)).2

/-- The rates of `StepDecay` with factor one half and step ten sum up to less than nineteen times the base rate. -/
theorem rates_sum (n : Nat) : ∑ i ∈ Finset.range n, ((1 : α) / 2) ^ ((1 + i) / 10) =
    19 - (1 / 2) ^ ((1 + n) / 10) * (20 - (((1 + n) % 10 : Nat) : α)) := by
  induction n with
  | zero => norm_num
  | succ n ih =>
    rw [Finset.sum_range_succ, ih]
    by_cases h : (1 + n) % 10 = 9
    · have h1 : (1 + (n + 1)) / 10 = (1 + n) / 10 + 1 := by omega
      have h2 : (1 + (n + 1)) % 10 = 0 := by omega
      rw [h1, h2, h, pow_succ]
      push_cast
      ring
    · have h1 : (1 + (n + 1)) / 10 = (1 + n) / 10 := by omega
      have h2 : (1 + (n + 1)) % 10 = (1 + n) % 10 + 1 := by omega
      rw [h1, h2]
      push_cast
      ring

theorem rates_lt (n : Nat) : ∑ i ∈ Finset.range n, ((1 : α) / 2) ^ ((1 + i) / 10) < 19 := by
  rw [rates_sum]
  have h1 : ((1 + n) % 10 : Nat) ≤ 9 := by omega
  have h2 : (((1 + n) % 10 : Nat) : α) ≤ 9 := by exact_mod_cast h1
  have h3 : (0 : α) < (1 / 2) ^ ((1 + n) / 10) := by positivity
  nlinarith

end Drift

end OpenML.Perceptron
