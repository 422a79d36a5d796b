import Verif.Spec.Lasso
import Verif.Props.CoordinateRate

/-!
# C127: sparsity and stopping points of coordinate descent
-/

namespace OpenML

open Spec Loss SGD SCD LinearFit
open scoped BigOperators

namespace Lasso

theorem nonzeros_set {α : Type} [Zero α] [DecidableEq α] (w : List α) (k : Nat) (a : α) : nonzeros (w.set k a) ≤ nonzeros w + 1 := by
  unfold nonzeros
  induction w generalizing k with
  | nil => simp
  | cons b w ih =>
    cases k with
    | zero =>
      rw [List.set_cons_zero, List.filter_cons, List.filter_cons]
      split <;> split <;> (try simp only [List.length_cons]) <;> omega
    | succ k =>
      have := ih k
      rw [List.set_cons_succ, List.filter_cons, List.filter_cons]
      split <;> (try simp only [List.length_cons]) <;> omega

theorem scdStep_shape {α : Type} [Field α] [LinearOrder α] (loss : LossFn α (List α)) (beta lambda : α) (X : DMat α) (y w w' : List α)
    (h : scdStep loss beta lambda X y w = .ok w') : ∃ k a, w' = w.set k a := by
  unfold scdStep at h
  obtain ⟨g, _, h⟩ := Res.bind_eq_ok.mp h
  split at h
  · obtain ⟨x, _, h⟩ := Res.bind_eq_ok.mp h
    exact ⟨_, _, (Res.ok.inj h).symm⟩
  · cases h

/-- A later start of the shuffling. -/
def later (shuffle : Option (Nat → List Nat)) : Option (Nat → List Nat) := shuffle.map fun q i => q (i + 1)

theorem scdLoop_later {α : Type} [Field α] [LinearOrder α] (loss : LossFn α (List α)) (beta lambda : α)
    (shuffle : Option (Nat → List Nat)) (n iter : Nat) (X : DMat α) (y w : List α) :
    scdLoop loss beta lambda shuffle n (iter + 1) X y w = scdLoop loss beta lambda (later shuffle) n iter X y w := by
  induction n generalizing iter X y w with
  | zero => rfl
  | succ n ih =>
    have : shuffleXY shuffle (iter + 1) X y = shuffleXY (later shuffle) iter X y := by cases shuffle <;> rfl
    simp only [scdLoop, this]
    simp only [ih]

section
variable {α : Type} [Field α] [LinearOrder α] [IsStrictOrderedRing α]

theorem eta_zero_iff (beta lambda x g : α) (hb : 0 < beta) (hl : 0 ≤ lambda) :
    eta beta lambda x g = 0 ↔ (0 < x → g = -lambda) ∧ (x < 0 → g = lambda) ∧ (x = 0 → |g| ≤ lambda) := by
  have hbx : beta ≠ 0 := hb.ne'
  have e1 : x - g / beta > lambda / beta ↔ lambda < beta * x - g := by
    rw [gt_iff_lt, div_lt_iff₀ hb, sub_mul, div_mul_cancel₀ _ hbx, mul_comm x]
  have e2 : x - g / beta < -lambda / beta ↔ beta * x - g < -lambda := by
    rw [lt_div_iff₀ hb, sub_mul, div_mul_cancel₀ _ hbx, mul_comm x]
  have e3 : -g / beta - lambda / beta = 0 ↔ g = -lambda := by
    rw [← sub_div, div_eq_zero_iff, or_iff_left hbx]
    constructor <;> intro h <;> linarith
  have e4 : -g / beta + lambda / beta = 0 ↔ g = lambda := by
    rw [← add_div, div_eq_zero_iff, or_iff_left hbx]
    constructor <;> intro h <;> linarith
  unfold eta
  split <;> rename_i h1
  · rw [e3]
    rw [e1] at h1
    constructor
    · rintro rfl
      have hx : 0 < x := by
        by_contra hx
        nlinarith [mul_nonpos_of_nonneg_of_nonpos hb.le (not_lt.mp hx)]
      exact ⟨fun _ => rfl, fun h => by linarith, fun h => by linarith⟩
    · rintro ⟨h2, h3, h4⟩
      rcases lt_trichotomy x 0 with hx | hx | hx
      · have := h3 hx
        nlinarith [mul_neg_of_pos_of_neg hb hx]
      · have := (abs_le.mp (h4 hx)).1
        rw [hx] at h1
        linarith
      · exact h2 hx
  · rw [e1, not_lt] at h1
    split <;> rename_i h2
    · rw [e4]
      rw [e2] at h2
      constructor
      · rintro rfl
        have hx : x < 0 := by
          by_contra hx
          nlinarith [mul_nonneg hb.le (not_lt.mp hx)]
        exact ⟨fun h => by linarith, fun _ => rfl, fun h => by linarith⟩
      · rintro ⟨h5, h3, h4⟩
        rcases lt_trichotomy x 0 with hx | hx | hx
        · exact h3 hx
        · have := (abs_le.mp (h4 hx)).2
          rw [hx] at h2
          linarith
        · have := h5 hx
          nlinarith [mul_pos hb hx]
    · rw [e2, not_lt] at h2
      rw [neg_eq_zero]
      constructor
      · rintro rfl
        exact ⟨fun h => absurd h (lt_irrefl _), fun h => absurd h (lt_irrefl _), fun _ => abs_le.mpr ⟨by linarith, by linarith⟩⟩
      · rintro ⟨h5, h3, _⟩
        rcases lt_trichotomy x 0 with hx | hx | hx
        · have := h3 hx
          nlinarith [mul_neg_of_pos_of_neg hb hx]
        · exact hx
        · have := h5 hx
          nlinarith [mul_pos hb hx]

end

theorem gradient_at_zero (X : DMat ℝ) (hX : X.WF) (y : List ℝ) (hy : y.length = X.nrows) :
    mseGradient 0 X y (List.replicate X.ncols 0) = .ok (List.ofFn fun j : Fin X.ncols => -correlation X.rows y j) := by
  have hz : List.replicate X.ncols (0 : ℝ) = List.ofFn fun _ : Fin X.ncols => (0 : ℝ) := (List.ofFn_const _ _).symm
  have hzl : (X.rows.zip y).length = X.nrows := by
    rw [List.length_zip, hy]; exact Nat.min_self _
  rw [hz, mseGradient_eq 0 X hX y hy]
  congr 2
  funext j
  unfold gradOf correlation
  rw [mul_zero, add_zero, hzl, ← neg_div]
  congr 1
  induction X.rows.zip y with
  | nil => simp
  | cons p l ih =>
    simp only [List.map_cons, List.sum_cons] at ih ⊢
    rw [ih]
    simp only [score, mul_zero, Finset.sum_const_zero]
    ring

theorem correlation_perm {rows rows' : List (List ℝ)} {y y' : List ℝ} (h : (rows.zip y).Perm (rows'.zip y'))
    (hl : rows.length = rows'.length) (j : Nat) : correlation rows y j = correlation rows' y' j := by
  unfold correlation
  rw [(h.map fun p => p.1.getD j 0 * p.2).sum_eq, hl]

theorem ofFn_getD {d : Nat} (f : Fin d → ℝ) (j : Nat) (hj : j < d) : (List.ofFn f).getD j 0 = f ⟨j, hj⟩ := by
  simp [List.getD_eq_getElem?_getD, hj]

theorem replicate_getD (n j : Nat) : (List.replicate n (0 : ℝ)).getD j 0 = 0 := by
  rw [List.getD_eq_getElem?_getD, List.getElem?_replicate]
  split <;> rfl

end Lasso

open Lasso

/-- C127: an iteration of coordinate descent leaves the weights unchanged exactly if they satisfy the optimality conditions:
the partial derivative is minus `lambda` times the sign of a weight that is not zero, and at most `lambda` in size for a weight
that is zero. -/
theorem C127_fixpoint {α : Type} [Field α] [LinearOrder α] [IsStrictOrderedRing α] (loss : LossFn α (List α)) (beta lambda : α)
    (hb : 0 < beta) (hl : 0 ≤ lambda) (X : DMat α) (y w g : List α) (hg : loss.gradient X y w = .ok g) (hw : w.length = X.ncols)
    (hgl : g.length = X.ncols) (hd : 0 < X.ncols) :
    scdStep loss beta lambda X y w = .ok w ↔ ∀ j < X.ncols, (0 < w.getD j 0 → g.getD j 0 = -lambda) ∧
      (w.getD j 0 < 0 → g.getD j 0 = lambda) ∧ (w.getD j 0 = 0 → |g.getD j 0| ≤ lambda) := by
  obtain ⟨k, hk, he, hall, _⟩ := scdStep_eq loss beta lambda hb hl X y w g hg hw hgl hd
  constructor
  · intro h j hj
    rw [← eta_zero_iff beta lambda _ _ hb hl]
    have h0 : eta beta lambda (w.getD k 0) (g.getD k 0) = 0 := by
      rw [h, Res.ok.injEq] at he
      have h1 := congrArg (fun l => l.getD k 0) he
      simp only [List.getD_eq_getElem?_getD, List.getElem?_set_self (show k < w.length by omega), Option.getD_some] at h1
      simp only [List.getD_eq_getElem?_getD]
      linarith
    have h1 := hall j hj
    rw [h0, predDescent_zero] at h1
    have h2 := model_growth beta lambda (w.getD j 0) (g.getD j 0) 0 hb hl
    rw [predDescent_eq] at h1
    by_contra hne
    have hpos : 0 < beta / 2 * (0 - eta beta lambda (w.getD j 0) (g.getD j 0)) ^ 2 :=
      mul_pos (by linarith) (pow_pos (abs_pos.mpr (by simpa using hne)) 2 |>.trans_eq (sq_abs _))
    simp only [zero_mul, add_zero, ne_eq, OfNat.ofNat_ne_zero, not_false_eq_true, zero_pow, mul_zero, zero_add] at h2 hpos
    linarith
  · intro h
    rw [he, (eta_zero_iff beta lambda _ _ hb hl).mpr (h k hk), add_zero]
    congr 1
    refine List.ext_getElem (by simp) fun i h1 h2 => ?_
    rw [List.getElem_set]
    split
    · rename_i hik
      subst hik
      simp [List.getD_eq_getElem?_getD, h2]
    · rfl

/-- Two features, the second without influence on the result: the weight 5/2 with gradient -1/2 is a stopping point. -/
example : scdStep ⟨mseEvaluate (0 : ℚ), mseGradient 0⟩ 1 (1 / 2) ⟨2, [[1, 0], [-1, 1]]⟩ [3, -3] [5 / 2, 0] = .ok [5 / 2, 0] ∧
    mseGradient (0 : ℚ) ⟨2, [[1, 0], [-1, 1]]⟩ [3, -3] [5 / 2, 0] = .ok [-1 / 2, 1 / 4] := by decide +kernel

/-- C127: each iteration of coordinate descent makes at most one weight non-zero, so from weights zero `n` iterations give at most
`n` weights that are not zero. -/
theorem C127_sparse {α : Type} [Field α] [LinearOrder α] (loss : LossFn α (List α)) (beta lambda : α)
    (shuffle : Option (Nat → List Nat)) (n : Nat) (X : DMat α) (y w w' : List α) (h : scd loss beta lambda n shuffle X y w = .ok w') :
    w'.length = w.length ∧ nonzeros w' ≤ nonzeros w + n := by
  unfold scd at h
  generalize 0 = iter at h
  induction n generalizing iter X y w with
  | zero =>
    cases h
    exact ⟨rfl, le_refl _⟩
  | succ n ih =>
    simp only [scdLoop] at h
    obtain ⟨d, _, h⟩ := Res.bind_eq_ok.mp h
    obtain ⟨w1, h1, h⟩ := Res.bind_eq_ok.mp h
    obtain ⟨k, a, rfl⟩ := scdStep_shape loss beta lambda d.1 d.2 w w1 h1
    have h2 := ih d.1 d.2 _ _ h
    have h3 := nonzeros_set w k a
    rw [List.length_set] at h2
    exact ⟨h2.1, by omega⟩

/-- C127: `LassoRegression` without intercept and with a positive smoothness: if no feature has a mean product with the targets
larger in size than the penalty, the fitted weights are exactly zero. -/
theorem C127_zero (beta lambda : ℝ) (hb : 0 < beta) (hl : 0 ≤ lambda) (maxIter : Nat) (shuffle : Option (Nat → List Nat)) (X : DMat ℝ)
    (hX : X.WF) (hd : 0 < X.ncols) (y : List ℝ) (hy : y.length = X.nrows)
    (hp : ∀ p, shuffle = some p → ∀ i, (p i).Perm (List.range X.nrows)) (h : ∀ j < X.ncols, |correlation X.rows y j| ≤ lambda) :
    fitLasso false beta lambda maxIter shuffle X y = .ok (List.replicate X.ncols 0) := by
  have key : ∀ (n iter : Nat) (X' : DMat ℝ) (y' : List ℝ), X'.ncols = X.ncols → X'.WF → y'.length = X'.nrows →
      (X'.rows.zip y').Perm (X.rows.zip y) → X'.nrows = X.nrows →
      scdLoop ⟨mseEvaluate 0, mseGradient 0⟩ beta lambda shuffle n iter X' y' (List.replicate X.ncols 0) =
        .ok (List.replicate X.ncols 0) := by
    intro n
    induction n with
    | zero => intro _ _ _ _ _ _ _ _; rfl
    | succ n ih =>
      intro iter X' y' g1 g2 g3 g4 g5
      obtain ⟨⟨X2, y2⟩, hs, f1, f2, f3, f4, f5⟩ := C47_shuffle_pairs shuffle iter X' g2 y' g3
        (fun p hps => by rw [g5]; exact hp p hps iter)
      dsimp only at f1 f2 f3 f4 f5
      have hc : X2.ncols = X.ncols := f1.trans g1
      have hg := gradient_at_zero X2 f2 y2 f3
      have hstep : scdStep ⟨mseEvaluate 0, mseGradient 0⟩ beta lambda X2 y2 (List.replicate X2.ncols 0) =
          .ok (List.replicate X2.ncols 0) := by
        refine (C127_fixpoint _ beta lambda hb hl X2 y2 _ _ hg (by simp) (by simp) (by omega)).mpr fun j hj => ?_
        rw [replicate_getD, ofFn_getD _ j hj, abs_neg, correlation_perm (f4.trans g4) (f5.trans g5)]
        exact ⟨fun h => absurd h (lt_irrefl _), fun h => absurd h (lt_irrefl _), fun _ => h j (by omega)⟩
      rw [hc] at hstep
      simp only [scdLoop, hs, Res.bind_ok, hstep]
      exact ih (iter + 1) X2 y2 hc f2 f3 (f4.trans g4) (f5.trans g5)
  exact key maxIter 0 X y rfl hX hy (List.Perm.refl _) rfl

/-- C127: conversely, if the mean product of some feature with the targets exceeds the penalty in size and the smoothness is at
least the mean square of every feature, then from the first iteration on the weights are not zero and the penalised error is
less than that of weights zero. -/
theorem C127_nonzero (beta lambda : ℝ) (hb : 0 < beta) (hl : 0 ≤ lambda) (maxIter : Nat) (hm : 0 < maxIter)
    (shuffle : Option (Nat → List Nat)) (X : DMat ℝ) (hX : X.WF) (hn : X.nrows ≠ 0) (y : List ℝ) (hy : y.length = X.nrows)
    (hp : ∀ p, shuffle = some p → ∀ i, (p i).Perm (List.range X.nrows))
    (hcurv : ∀ j < X.ncols, (X.rows.map fun r => r.getD j 0 ^ 2).sum / X.nrows ≤ beta)
    (j : Nat) (hj : j < X.ncols) (hlt : lambda < |correlation X.rows y j|) :
    ∃ w' a b, fitLasso false beta lambda maxIter shuffle X y = .ok w' ∧ mseEvaluate 0 X y (List.replicate X.ncols 0) = .ok a ∧
      mseEvaluate 0 X y w' = .ok b ∧ b + lambda * l1Norm w' < a ∧ w' ≠ List.replicate X.ncols 0 := by
  obtain ⟨n, rfl⟩ : ∃ n, maxIter = n + 1 := ⟨maxIter - 1, by omega⟩
  obtain ⟨⟨X2, y2⟩, hs, f1, f2, f3, f4, f5⟩ := C47_shuffle_pairs shuffle 0 X hX y hy (fun p hps => hp p hps 0)
  dsimp only at f1 f2 f3 f4 f5
  have hz : List.replicate X.ncols (0 : ℝ) = List.ofFn fun _ : Fin X.ncols => (0 : ℝ) := (List.ofFn_const _ _).symm
  have hg := gradient_at_zero X2 f2 y2 f3
  have hd : 0 < X.ncols := by omega
  have hzl : (X.rows.zip y).length = X.nrows := by
    rw [List.length_zip, hy]; exact Nat.min_self _
  obtain ⟨k, hk, e, he, _, hall, _⟩ := C51_step_optimal (⟨mseEvaluate 0, mseGradient 0⟩ : LossFn ℝ (List ℝ)) beta lambda hb hl X2 y2
    (List.replicate X2.ncols 0) _ hg (by simp) (by simp) (by omega)
  have hcor : ∀ j, correlation X2.rows y2 j = correlation X.rows y j := correlation_perm f4 f5
  have hneg : predictedChange beta lambda 0 (-correlation X.rows y k) e < 0 := by
    have hne : eta beta lambda 0 (-correlation X.rows y j) ≠ 0 := by
      intro h0
      have := ((eta_zero_iff beta lambda _ _ hb hl).mp h0).2.2 rfl
      rw [abs_neg] at this
      linarith
    have h1 := hall j (by omega) (eta beta lambda 0 (-correlation X.rows y j))
    rw [replicate_getD, replicate_getD, ofFn_getD _ k hk, ofFn_getD _ j (by omega), hcor, hcor] at h1
    refine lt_of_le_of_lt h1 ?_
    have h2 := model_growth beta lambda 0 (-correlation X.rows y j) 0 hb hl
    have h3 : 0 < beta / 2 * (0 - eta beta lambda 0 (-correlation X.rows y j)) ^ 2 :=
      mul_pos (by linarith) (by rw [zero_sub, neg_sq]; positivity)
    unfold predictedChange
    simp only [zero_mul, add_zero, abs_zero, mul_zero, ne_eq, OfNat.ofNat_ne_zero, not_false_eq_true, zero_pow] at h2 h3 ⊢
    linarith
  rw [replicate_getD, zero_add, f1] at he
  have hkc : k < X.ncols := by omega
  have hset : (List.replicate X.ncols (0 : ℝ)).set k e = List.ofFn (Function.update (fun _ : Fin X.ncols => (0 : ℝ)) ⟨k, hkc⟩ e) := by
    rw [hz]
    exact ofFn_set (fun _ : Fin X.ncols => (0 : ℝ)) ⟨k, hkc⟩ e
  have hev := fun f : Fin X2.ncols → ℝ => mseEvaluate_eq 0 X2 f2 y2 f3 f
  have hmean : ∀ v : Fin X.ncols → ℝ, meanLoss halfSquare (X2.rows.zip y2) v = meanLoss halfSquare (X.rows.zip y) v := by
    intro v
    unfold meanLoss
    rw [(f4.map fun p => halfSquare p.2 (score p.1 v)).sum_eq, f4.length_eq]
  have hsame : ∀ v : List ℝ, v.length = X.ncols → mseEvaluate 0 X2 y2 v = mseEvaluate 0 X y v := by
    intro v hv
    obtain ⟨nc, rows⟩ := X2
    dsimp only at f1
    subst f1
    obtain ⟨f, rfl⟩ := exists_ofFn v hv
    rw [mseEvaluate_eq 0 X hX y hy f]
    refine (hev f).trans ?_
    rw [zero_mul, zero_mul, hmean]
  have hsq : ∀ j, (X2.rows.map fun r => r.getD j 0 ^ 2).sum = (X.rows.map fun r => r.getD j 0 ^ 2).sum := by
    intro j
    have h1 := (f4.map Prod.fst)
    rw [List.map_fst_zip (le_of_eq (by exact f3.symm)), List.map_fst_zip (le_of_eq (by exact hy.symm))] at h1
    exact (h1.map _).sum_eq
  have hcols : ∀ j, ((X.rows.zip y).map fun p => p.1.getD j 0 ^ 2).sum = (X.rows.map fun r => r.getD j 0 ^ 2).sum := by
    intro j
    have : (X.rows.zip y).map (fun p => p.1.getD j 0 ^ 2) = ((X.rows.zip y).map Prod.fst).map fun r => r.getD j 0 ^ 2 := by
      rw [List.map_map]; rfl
    rw [this, List.map_fst_zip (by rw [hy]; exact le_refl _)]
  obtain ⟨w', a, b, g1, g2, g3, g4⟩ := C51_mse 0 beta lambda hb hl (later shuffle) n X2 f2 (by omega) (by omega) y2 f3
    (by
      intro p hp1 i
      cases shuffle with
      | none => cases hp1
      | some q =>
        cases hp1
        rw [f5]
        exact hp q rfl (i + 1))
    (by
      intro j hj
      rw [add_zero, hsq, f5]
      exact hcurv j (by omega))
    ((List.replicate X.ncols (0 : ℝ)).set k e) (by rw [List.length_set, List.length_replicate, f1])
  have hfit : fitLasso false beta lambda (n + 1) shuffle X y = .ok w' := by
    refine Eq.trans ?_ g1
    show scdLoop ⟨mseEvaluate 0, mseGradient 0⟩ beta lambda shuffle (n + 1) 0 X y (List.replicate X.ncols 0) = _
    simp only [scdLoop, hs, Res.bind_ok, he]
    exact scdLoop_later _ _ _ _ _ _ _ _ _
  have hlen : w'.length = X.ncols := by
    have := (C127_sparse _ _ _ _ _ _ _ _ _ g1).1
    rwa [List.length_set, List.length_replicate] at this
  have ha0 := mseEvaluate_eq 0 X hX y hy (fun _ : Fin X.ncols => (0 : ℝ))
  rw [hsame _ (by rw [List.length_set, List.length_replicate]), hset,
    mseEvaluate_eq 0 X hX y hy (Function.update (fun _ : Fin X.ncols => (0 : ℝ)) ⟨k, hkc⟩ e)] at g2
  rw [hsame w' hlen] at g3
  have hco := mse_coord 0 (X.rows.zip y) (by rw [hzl]; exact hn) (fun _ : Fin X.ncols => (0 : ℝ)) ⟨k, hkc⟩ e
  have hgk : gradOf (fun a s => s - a) 0 (X.rows.zip y) (fun _ : Fin X.ncols => (0 : ℝ)) ⟨k, hkc⟩ = -correlation X.rows y k := by
    have h1 := gradient_at_zero X hX y hy
    rw [hz, mseGradient_eq 0 X hX y hy, Res.ok.injEq] at h1
    exact congrFun (List.ofFn_injective h1) ⟨k, hkc⟩
  have hlt2 : b + lambda * l1Norm w' < meanLoss halfSquare (X.rows.zip y) (fun _ : Fin X.ncols => (0 : ℝ)) := by
    refine lt_of_le_of_lt g4 ?_
    rw [← Res.ok.inj g2]
    have hl1 : l1Norm ((List.replicate X.ncols (0 : ℝ)).set k e) = |e| := by
      unfold l1Norm
      rw [sum_abs_set _ k (by rw [List.length_replicate]; exact hkc), replicate_getD]
      simp
    rw [hl1]
    dsimp only at hco
    rw [zero_add, hgk, hzl, hcols] at hco
    have hc := hcurv k hkc
    simp only [zero_mul, add_zero] at hco ⊢
    rw [hco]
    have := mul_le_mul_of_nonneg_right (div_le_div_of_nonneg_right hc (by norm_num : (0 : ℝ) ≤ 2)) (sq_nonneg e)
    unfold predictedChange at hneg
    rw [zero_add, abs_zero] at hneg
    linarith
  refine ⟨w', _, b, hfit, by rw [hz]; exact ha0, g3, ?_, ?_⟩
  · rw [zero_mul, add_zero]
    exact hlt2
  · rintro rfl
    rw [hz, ha0, Res.ok.injEq, zero_mul, add_zero] at g3
    have h0 : l1Norm (List.replicate X.ncols (0 : ℝ)) = 0 := by simp [l1Norm]
    rw [h0, g3] at hlt2
    linarith

/-- C127: the penalty bounds the weights: the sum of the absolute fitted weights is at most the mean of the squared targets divided
by twice the penalty. -/
theorem C127_norm (beta lambda : ℝ) (hb : 0 < beta) (hl : 0 < lambda) (maxIter : Nat) (shuffle : Option (Nat → List Nat)) (X : DMat ℝ)
    (hX : X.WF) (hn : X.nrows ≠ 0) (hd : 0 < X.ncols) (y : List ℝ) (hy : y.length = X.nrows)
    (hp : ∀ p, shuffle = some p → ∀ i, (p i).Perm (List.range X.nrows))
    (hcurv : ∀ j < X.ncols, (X.rows.map fun r => r.getD j 0 ^ 2).sum / X.nrows ≤ beta) :
    ∃ w', fitLasso false beta lambda maxIter shuffle X y = .ok w' ∧
      l1Norm w' ≤ (y.map fun a => a ^ 2).sum / X.nrows / (2 * lambda) := by
  obtain ⟨w', a, b, h1, h2, h3, h4⟩ := C51_mse 0 beta lambda hb hl.le shuffle maxIter X hX hn hd y hy hp
    (by simpa using hcurv) (List.replicate X.ncols 0) (by simp)
  refine ⟨w', h1, ?_⟩
  have hz : List.replicate X.ncols (0 : ℝ) = List.ofFn fun _ : Fin X.ncols => (0 : ℝ) := (List.ofFn_const _ _).symm
  have hlen : w'.length = X.ncols := by
    have := (C127_sparse _ _ _ _ _ _ _ _ _ h1).1
    rwa [List.length_replicate] at this
  have h0 : l1Norm (List.replicate X.ncols (0 : ℝ)) = 0 := by simp [l1Norm]
  have hzl : (X.rows.zip y).length = X.nrows := by
    rw [List.length_zip, hy]; exact Nat.min_self _
  obtain ⟨f, rfl⟩ := exists_ofFn w' hlen
  rw [mseEvaluate_eq 0 X hX y hy f, Res.ok.injEq, zero_mul, add_zero] at h3
  have hb0 : 0 ≤ b := by
    rw [← h3]
    refine div_nonneg (List.sum_nonneg ?_) (Nat.cast_nonneg _)
    intro v hv
    obtain ⟨q, _, rfl⟩ := List.mem_map.mp hv
    exact div_nonneg (sq_nonneg _) (by norm_num)
  rw [hz, mseEvaluate_eq 0 X hX y hy, Res.ok.injEq, zero_mul, add_zero] at h2
  have ha : a = (y.map fun a => a ^ 2).sum / X.nrows / 2 := by
    rw [← h2]
    unfold meanLoss
    rw [hzl, div_right_comm]
    congr 1
    have hy2 : y = (X.rows.zip y).map Prod.snd := (List.map_snd_zip (by rw [hy]; exact le_refl _)).symm
    conv_rhs => rw [hy2, List.map_map]
    induction X.rows.zip y with
    | nil => simp
    | cons q l ih =>
      simp only [List.map_cons, List.sum_cons, ih, Function.comp]
      simp only [halfSquare, score, mul_zero, Finset.sum_const_zero]
      ring
  rw [h0, mul_zero, add_zero] at h4
  rw [← div_div, le_div_iff₀ hl]
  linarith

/-- C127: a feature that is zero in every sample gets weight zero. -/
theorem C127_dead_feature (beta lambda : ℝ) (hb : 0 < beta) (hl : 0 ≤ lambda) (maxIter : Nat) (shuffle : Option (Nat → List Nat))
    (X : DMat ℝ) (hX : X.WF) (y : List ℝ) (hy : y.length = X.nrows)
    (hp : ∀ p, shuffle = some p → ∀ i, (p i).Perm (List.range X.nrows)) (j : Nat) (hj : j < X.ncols)
    (hzero : ∀ r ∈ X.rows, r.getD j 0 = 0) :
    ∃ w', fitLasso false beta lambda maxIter shuffle X y = .ok w' ∧ w'.length = X.ncols ∧ w'.getD j 0 = 0 := by
  obtain ⟨w', h1, h2, h3⟩ := CoordinateRate.scdLoop_inv (⟨mseEvaluate 0, mseGradient 0⟩ : LossFn ℝ (List ℝ)) beta lambda shuffle
    (fun X' y' => X'.ncols = X.ncols ∧ X'.WF ∧ y'.length = X'.nrows ∧ (X'.rows.zip y').Perm (X.rows.zip y) ∧ X'.nrows = X.nrows)
    (by
      rintro iter X' y' ⟨hc, hwf, hyl, hperm, hnr⟩
      obtain ⟨⟨X2, y2⟩, hs, g1, g2, g3, g4, g5⟩ := C47_shuffle_pairs shuffle iter X' hwf y' hyl
        (fun p hps => by rw [hnr]; exact hp p hps iter)
      exact ⟨X2, y2, hs, g1.trans hc, g2, g3, g4.trans hperm, g5.trans hnr⟩)
    (fun _ w => w.length = X.ncols ∧ w.getD j 0 = 0)
    (by
      rintro ⟨nc, rows⟩ y' w t ⟨hc, hwf, hyl, hperm, hnr⟩ ⟨hw, hw0⟩
      dsimp only at hc
      subst hc
      obtain ⟨f, rfl⟩ := exists_ofFn w hw
      obtain ⟨k, hk, he, _⟩ := scdStep_eq (⟨mseEvaluate 0, mseGradient 0⟩ : LossFn ℝ (List ℝ)) beta lambda hb hl ⟨X.ncols, rows⟩ y'
        (List.ofFn f) _ (mseGradient_eq 0 ⟨X.ncols, rows⟩ hwf y' hyl f) (by simp) (by simp) (by dsimp only; omega)
      refine ⟨_, he, by simp, ?_⟩
      by_cases hkj : k = j
      · subst hkj
        have hg0 : (List.ofFn (gradOf (fun a s => s - a) 0 (rows.zip y') f)).getD k 0 = 0 := by
          rw [ofFn_getD _ k hj]
          unfold gradOf
          rw [mul_zero, add_zero, div_eq_zero_iff]
          left
          refine List.sum_eq_zero fun v hv => ?_
          obtain ⟨q, hq, rfl⟩ := List.mem_map.mp hv
          rw [hzero q.1 (List.of_mem_zip (hperm.mem_iff.mp hq : (q.1, q.2) ∈ _)).1, mul_zero]
        rw [hw0, hg0, (eta_zero_iff beta lambda 0 0 hb hl).mpr
          ⟨fun h => absurd h (lt_irrefl _), fun h => absurd h (lt_irrefl _), fun _ => by rw [abs_zero]; exact hl⟩]
        simp [List.getD_eq_getElem?_getD, hj]
      · rw [List.getD_eq_getElem?_getD, List.getElem?_set_ne hkj, ← List.getD_eq_getElem?_getD, hw0])
    maxIter X y (List.replicate X.ncols 0) 0 0 ⟨rfl, hX, hy, List.Perm.refl _, rfl⟩ ⟨by simp, replicate_getD _ _⟩
  exact ⟨w', h1, h2, h3⟩

/-- Three features for the targets 3, -3: mean products 3, -3/2 and 0. With penalty 1/2 the first iteration makes the first weight
non-zero, with penalty 3 all weights stay zero; the third feature is zero and keeps weight zero. -/
example : fitLasso false (1 : ℚ) (1 / 2) 1 none ⟨3, [[1, 0, 0], [-1, 1, 0]]⟩ [3, -3] = .ok [5 / 2, 0, 0] ∧
    fitLasso false (1 : ℚ) 3 10 none ⟨3, [[1, 0, 0], [-1, 1, 0]]⟩ [3, -3] = .ok [0, 0, 0] ∧
    fitLasso false (1 : ℚ) (1 / 2) 7 (some fun i => if i % 2 = 0 then [1, 0] else [0, 1]) ⟨3, [[1, 0, 0], [-1, 1, 0]]⟩ [3, -3] =
      .ok [5 / 2, 0, 0] := by decide +kernel

/-- The hypotheses of `C127_zero` (penalty 3), `C127_nonzero`, `C127_norm` and `C127_dead_feature` for these data. -/
example : (∀ j < 3, |correlation [[1, 0, 0], [-1, 1, 0]] [3, -3] j| ≤ 3) ∧
    (1 / 2 : ℝ) < |correlation [[1, 0, 0], [-1, 1, 0]] [3, -3] 0| ∧
    (∀ j < 3, (([[1, 0, 0], [-1, 1, 0]] : List (List ℝ)).map fun r => r.getD j 0 ^ 2).sum / 2 ≤ 1) ∧
    ∀ r ∈ ([[1, 0, 0], [-1, 1, 0]] : List (List ℝ)), r.getD 2 0 = 0 := by
  refine ⟨fun j hj => ?_, ?_, fun j hj => ?_, ?_⟩
  · obtain rfl | rfl | rfl : j = 0 ∨ j = 1 ∨ j = 2 := by omega
    all_goals norm_num [correlation, abs_le]
  · norm_num [correlation]
  · obtain rfl | rfl | rfl : j = 0 ∨ j = 1 ∨ j = 2 := by omega
    all_goals norm_num
  · simp

end OpenML
