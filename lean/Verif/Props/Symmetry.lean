import Verif.Lemmas.Symmetry
import Verif.Spec.Symmetry
import Verif.Props.Descent
import Mathlib.Logic.Equiv.Fin.Basic

/-!
# One batch of SAG (C108), exchanged labels (C109), reordered features (C110)
-/

namespace OpenML

open Spec Loss SGD SCD LinearFit Descent Symmetry
open scoped BigOperators

namespace Symmetry

theorem eq_map_of_rel {β γ : Type} {f : β → γ} {x : Res β} {y : Res γ} (h : Res.Rel (fun v v' => v' = f v) x y) :
    y = (do let v ← x; .ok (f v)) := by
  cases h with
  | ok h => subst h; rfl
  | throw e => rfl
  | ub => rfl
  | diverge => rfl

theorem forall₂_map_right {β γ : Type} (f : β → γ) (l : List β) : List.Forall₂ (fun a b => b = f a) l (l.map f) := by
  induction l with
  | nil => exact .nil
  | cons a l ih => exact .cons rfl ih

end Symmetry

section Sag
variable {α : Type} [Field α] [LinearOrder α] [IsStrictOrderedRing α]

theorem Symmetry.sag_step (loss : LossFn α (List α)) (b c : Nat) (hb : b ≠ 0)
    (hg : ∀ X' y' v g, v.length = c → loss.gradient X' y' v = .ok g → g.length = c) (X : DMat α) (y : List α) (lr : α) (s : SagState α)
    (w : List α) (h : s.w = w ∧ w.length = c ∧ ∃ g, s.history = [g] ∧ g.length = c ∧ s.avg = g.map fun a => a / (b : α)) :
    Res.Rel (fun s w => s.w = w ∧ w.length = c ∧ ∃ g, s.history = [g] ∧ g.length = c ∧ s.avg = g.map fun a => a / (b : α))
      (sagStep loss vanillaUpdate b s X y lr 0) (sgdStep loss clipGrad vanillaUpdate w X y (lr / (b : α)) 0) := by
  obtain ⟨sw, sh, sa⟩ := s
  obtain ⟨h1, hw, old, h2, hold, h3⟩ := h
  dsimp only at h1 h2 h3
  subst h1 h2 h3
  have hb' : (b : α) ≠ 0 := Nat.cast_ne_zero.mpr hb
  unfold sagStep sgdStep
  dsimp only
  generalize hgr : loss.gradient X y sw = r
  cases r with
  | throw e => exact .throw e
  | ub => exact .ub
  | diverge => exact .diverge
  | ok g =>
    have hgl := hg X y sw g hw hgr
    rw [Res.bind_ok, Res.bind_ok]
    have hcl : (clipGrad g).length = c := by rw [clipGrad_length, hgl]
    have h4 : readAt [old] 0 = .ok old := rfl
    rw [h4, Res.bind_ok]
    unfold subV
    rw [if_pos (by rw [hcl, hold]), Res.bind_ok]
    unfold addV
    rw [if_pos (by simp [hcl, hold]), Res.bind_ok]
    have h5 : List.zipWith (· + ·) (old.map fun a => a / (b : α)) ((List.zipWith (· - ·) (clipGrad g) old).map fun a => a / (b : α)) =
        (clipGrad g).map fun a => a / (b : α) := by
      refine List.ext_getElem (by simp [hcl, hold]) fun i h1 h2 => ?_
      simp only [List.getElem_zipWith, List.getElem_map]
      ring
    rw [h5]
    have h6 : vanillaUpdate sw ((clipGrad g).map fun a => a / (b : α)) lr = vanillaUpdate sw (clipGrad g) (lr / (b : α)) := by
      unfold vanillaUpdate
      rw [List.map_map]
      congr 2
      funext a
      simp only [Function.comp]
      ring
    rw [h6]
    obtain ⟨v, hv, hvl⟩ := vanilla_ok sw (clipGrad g) (lr / (b : α)) (by rw [hw, hcl])
    rw [hv, Res.bind_ok]
    exact .ok ⟨rfl, hvl.trans hw, clipGrad g, by simp, hcl, rfl⟩

/-- C108: with all samples in one batch, SAG does what SGD does with the learning rates divided by the number of samples:
the same weights, or the same failure. -/
theorem C108_sag (loss : LossFn α (List α)) (p : Params α) (X : DMat α) (hn : X.nrows ≠ 0) (y w : List α)
    (hb : p.batchSize = X.nrows) (hw : w.length = X.ncols)
    (hg : ∀ X' y' v g, v.length = X.ncols → loss.gradient X' y' v = .ok g → g.length = X.ncols) :
    sag loss vanillaUpdate p X y w =
      sgd loss clipGrad vanillaUpdate { p with decay := fun i => do let lr ← p.decay i; .ok (lr / (X.nrows : α)) } X y w := by
  have hrefl : ∀ {β : Type} (l : List β), List.Forall₂ Eq l l := fun l => List.forall₂_same.mpr fun _ _ => rfl
  have hq : X.nrows / p.batchSize = 1 := by
    rw [hb]
    exact Nat.div_self (Nat.pos_of_ne_zero hn)
  refine Res.Rel.eq ?_
  unfold sag sgd
  refine (optimize_rel loss loss SagState.w id _ _
    (fun s w => s.w = w ∧ w.length = X.ncols ∧ ∃ g, s.history = [g] ∧ g.length = X.ncols ∧ s.avg = g.map fun a => a / (X.nrows : α))
    X.ncols Eq Eq (fun a a' => a' = a / (X.nrows : α)) X.nrows 1 ?_ ?_ p
    { p with decay := fun i => do let lr ← p.decay i; .ok (lr / (X.nrows : α)) } hb hb rfl rfl rfl rfl ?_ (X := X) (X' := X) (y := y) (y' := y)
    ⟨rfl, rfl, hrefl _, hrefl _⟩ (Nat.div_self (Nat.pos_of_ne_zero hn)) _ w ?_).mono ?_
  · intro j hj s t rows rows' z z' lr lr' hst hr hz _ _ hlr
    obtain rfl : j = 0 := by omega
    rw [List.forall₂_eq_eq_eq] at hr hz
    subst hr hz hlr
    rw [hb]
    exact Symmetry.sag_step loss X.nrows X.ncols hn hg _ _ lr s t hst
  · intro s t rows rows' z z' hst hr hz _ _
    rw [List.forall₂_eq_eq_eq] at hr hz
    subst hr hz
    rw [hst.1]
    rfl
  · intro i
    dsimp only
    cases p.decay i with
    | ok lr => exact .ok rfl
    | throw e => exact .throw e
    | ub => exact .ub
    | diverge => exact .diverge
  · refine ⟨rfl, hw, List.replicate X.ncols 0, ?_, by simp, by simp⟩
    dsimp only
    rw [hq]
    rfl
  · rintro v v' ⟨s, t, h, rfl, rfl⟩
    exact h.1

end Sag

/-- The hypothesis on the gradient in `C108_sag` holds for the mean squared error. -/
theorem Symmetry.mseGradient_length {α : Type} [Field α] (lambda : α) (X : DMat α) (y v g : List α)
    (h : mseGradient lambda X y v = .ok g) : g.length = v.length := by
  unfold mseGradient at h
  obtain ⟨_, _, h⟩ := Res.bind_eq_ok.mp h
  obtain ⟨_, _, h⟩ := Res.bind_eq_ok.mp h
  obtain ⟨q, _, h⟩ := Res.bind_eq_ok.mp h
  unfold addV at h
  split at h
  · rename_i hl
    rw [Res.ok.injEq] at h
    subst h
    simp only [List.length_zipWith, hl, Nat.min_self]
    simp [penaltyGrad]
  · cases h

theorem Symmetry.logGradient_length (lambda : ℝ) (X : DMat ℝ) (y v g : List ℝ) (h : logGradient lambda X y v = .ok g) :
    g.length = v.length := by
  unfold logGradient at h
  obtain ⟨_, _, h⟩ := Res.bind_eq_ok.mp h
  obtain ⟨_, _, h⟩ := Res.bind_eq_ok.mp h
  obtain ⟨q, _, h⟩ := Res.bind_eq_ok.mp h
  unfold addV at h
  split at h
  · rename_i hl
    rw [Res.ok.injEq] at h
    subst h
    simp only [List.length_zipWith, hl, Nat.min_self]
    simp [penaltyGrad]
  · cases h

/-- C108 for the mean squared error. -/
theorem C108_mse {α : Type} [Field α] [LinearOrder α] [IsStrictOrderedRing α] (lambda : α) (p : Params α) (X : DMat α)
    (hn : X.nrows ≠ 0) (y w : List α) (hb : p.batchSize = X.nrows) (hw : w.length = X.ncols) :
    sag ⟨mseEvaluate lambda, mseGradient lambda⟩ vanillaUpdate p X y w =
      sgd ⟨mseEvaluate lambda, mseGradient lambda⟩ clipGrad vanillaUpdate
        { p with decay := fun i => do let lr ← p.decay i; .ok (lr / (X.nrows : α)) } X y w :=
  C108_sag _ p X hn y w hb hw fun X' y' v g hv h => (Symmetry.mseGradient_length lambda X' y' v g h).trans hv

/-- C108 for logistic regression: solver `sag` with one batch is solver `sgd` with slower learning. -/
theorem C108_logistic (lambda l1Ratio : ℝ) (penalty : String) (p : Params ℝ)
    (lbfgs : LossFn ℝ (List ℝ) → DMat ℝ → List ℝ → List ℝ → Res (List ℝ)) (X : DMat ℝ) (hn : X.nrows ≠ 0) (y w : List ℝ)
    (hb : p.batchSize = X.nrows) (hw : w.length = X.ncols + 1) :
    fitLogistic lambda l1Ratio penalty "sag" p lbfgs X y w =
      fitLogistic lambda l1Ratio penalty "sgd" { p with decay := fun i => do let lr ← p.decay i; .ok (lr / (X.nrows : ℝ)) } lbfgs X y w := by
  have h := C108_sag ⟨logEvaluate lambda, logGradient lambda⟩ p (withOnes X) (by rw [withOnes_nrows]; exact hn) y w
    (by rw [withOnes_nrows]; exact hb) hw fun X' y' v g hv h => (Symmetry.logGradient_length lambda X' y' v g h).trans hv
  rw [withOnes_nrows] at h
  unfold fitLogistic
  dsimp only
  by_cases hp : penalty = "l2" ∨ penalty = "None"
  · rw [if_pos hp, if_pos hp, if_neg (by decide), if_pos rfl, if_pos rfl, h]
  · rw [if_neg hp, if_neg hp, if_neg (show ¬("sag" = "scd") by decide), if_neg (show ¬("sgd" = "scd") by decide)]

/-- C108: logistic regression with solver `sag` and one batch ends with no larger log loss than the initial weights have, if no
learning rate exceeds twice the number of samples divided by the steepness. -/
theorem C108_logistic_descends (lambda l1Ratio : ℝ) (penalty : String) (hpen : penalty = "l2" ∨ penalty = "None") (hlam : 0 ≤ lambda)
    (p : Params ℝ) (lbfgs : LossFn ℝ (List ℝ) → DMat ℝ → List ℝ → List ℝ → Res (List ℝ)) (X : DMat ℝ) (hX : X.WF) (hn : X.nrows ≠ 0)
    (y : List ℝ) (hy : y.length = X.nrows) (hb : p.batchSize = X.nrows)
    (hp : ∀ q, p.shuffle = some q → ∀ i, (q i).Perm (List.range X.nrows)) (eta : Nat → ℝ) (he : ∀ i, p.decay i = .ok (eta i))
    (h0 : ∀ i, 0 ≤ eta i) (h1 : ∀ i, eta i * steepness (1 / 4) lambda (X.rows.map fun r => r ++ [1]) ≤ 2 * X.nrows)
    (w w' : List ℝ) (hw : w.length = X.ncols + 1) (h : fitLogistic lambda l1Ratio penalty "sag" p lbfgs X y w = .ok w') :
    ∃ a b, logEvaluate lambda (withOnes X) y w = .ok a ∧ logEvaluate lambda (withOnes X) y w' = .ok b ∧ b ≤ a := by
  have hn' : (0 : ℝ) < X.nrows := Nat.cast_pos.mpr (Nat.pos_of_ne_zero hn)
  rw [C108_logistic lambda l1Ratio penalty p lbfgs X hn y w hb hw] at h
  refine C106_log_descends lambda l1Ratio penalty hpen hlam
    { p with decay := fun i => do let lr ← p.decay i; .ok (lr / (X.nrows : ℝ)) } lbfgs X hX hn y hy hb hp (fun i => eta i / X.nrows) ?_ w w' hw h
    (fun i => div_nonneg (h0 i) hn'.le) fun i => ?_
  · intro i
    dsimp only
    rw [he i, Res.bind_ok]
  · rw [div_mul_eq_mul_div, div_le_iff₀ hn']
    exact h1 i

/-- Training data for `C108_mse`: four epochs of SAG with rate 1 and of SGD with rate 1/2 on two samples. -/
example : sag ⟨mseEvaluate (1 : ℚ), mseGradient 1⟩ vanillaUpdate
      { maxIter := 50, batchSize := 2, noChange := 2, tol := 1 / 100, decay := fun _ => .ok 1, shuffle := none }
      ⟨1, [[1], [-1]]⟩ [2, -2] [0] = .ok [85 / 64] ∧
    sgd ⟨mseEvaluate (1 : ℚ), mseGradient 1⟩ clipGrad vanillaUpdate
      { maxIter := 50, batchSize := 2, noChange := 2, tol := 1 / 100, decay := fun _ => .ok (1 / 2), shuffle := none }
      ⟨1, [[1], [-1]]⟩ [2, -2] [0] = .ok [85 / 64] := by decide +kernel

/-- One batch is needed: with two batches of one sample, SAG does not do what SGD with rates divided by the batch size
does. -/
example : sag ⟨mseEvaluate (0 : ℚ), mseGradient 0⟩ vanillaUpdate
      { maxIter := 50, batchSize := 1, noChange := 0, tol := 1 / 100, decay := fun _ => .ok (1 / 2), shuffle := none }
      ⟨1, [[1], [2]]⟩ [2, 2] [0] = .ok [2] ∧
    sgd ⟨mseEvaluate (0 : ℚ), mseGradient 0⟩ clipGrad vanillaUpdate
      { maxIter := 50, batchSize := 1, noChange := 0, tol := 1 / 100, decay := fun _ => .ok (1 / 2), shuffle := none }
      ⟨1, [[1], [2]]⟩ [2, 2] [0] = .ok [1] := by decide +kernel

/-- The hypothesis on the rates in `C108_logistic_descends` for two samples of steepness 1. -/
example : (4 : ℝ) * steepness (1 / 4) 1 (([[1], [-1]] : List (List ℝ)).map fun r => r ++ [1]) ≤ 2 * (2 : Nat) := by
  norm_num [steepness, featureMass]

namespace Symmetry

theorem moved_neg (w : List ℝ) (d : Nat) (hw : w.length = d) :
    Moved (fun _ : Fin d => (-1 : ℝ) * 1) (Equiv.refl _) w (w.map fun a => -a) := by
  subst hw
  refine ⟨fun j => w[j], ?_, ?_⟩
  · exact List.ext_getElem (by simp) fun i h1 h2 => by simp
  · exact List.ext_getElem (by simp) fun i h1 h2 => by simp [moved]

theorem neg_of_moved {d : Nat} {w w' : List ℝ} (h : Moved (fun _ : Fin d => (-1 : ℝ) * 1) (Equiv.refl _) w w') :
    w' = w.map fun a => -a := by
  obtain ⟨a, rfl, rfl⟩ := h
  exact List.ext_getElem (by simp) fun i h1 h2 => by simp [moved]

theorem rows_same (X : DMat ℝ) (hX : X.WF) : List.Forall₂ (Moved (fun _ : Fin X.ncols => (1 : ℝ)) (Equiv.refl _)) X.rows X.rows := by
  refine List.forall₂_same.mpr fun r hr => ?_
  have hl := hX r hr
  refine ⟨fun j => r[j]'(by rw [hl]; exact j.2), ?_, ?_⟩
  · exact List.ext_getElem (by simp [hl]) fun i h1 h2 => by simp
  · exact List.ext_getElem (by simp [hl]) fun i h1 h2 => by simp [moved]

theorem crossEntropy_flip (y s : ℝ) : crossEntropy (1 - y) (-1 * s) = crossEntropy y s := by
  unfold crossEntropy
  rw [neg_one_mul, Real.sigmoid_neg]
  ring_nf

theorem halfSquare_flip (y s : ℝ) : halfSquare (-y) (-1 * s) = halfSquare y s := by
  unfold halfSquare
  ring

end Symmetry

/-- C109: logistic regression with exchanged labels and negated initial weights: every solver but `lbfgs` yields the negated
weights, or fails in the same way. -/
theorem C109_logistic (lambda l1Ratio : ℝ) (penalty solver : String) (hs : solver ≠ "lbfgs")
    (hscd : solver = "scd" → 0 < l1Ratio ∧ 0 ≤ lambda) (p : Params ℝ)
    (lbfgs : LossFn ℝ (List ℝ) → DMat ℝ → List ℝ → List ℝ → Res (List ℝ)) (X : DMat ℝ) (hX : X.WF) (y w : List ℝ)
    (hy : y.length = X.nrows) (hw : w.length = X.ncols + 1) :
    fitLogistic lambda l1Ratio penalty solver p lbfgs X (y.map fun a => 1 - a) (w.map fun a => -a) =
      (do let v ← fitLogistic lambda l1Ratio penalty solver p lbfgs X y w; .ok (v.map fun a => -a)) := by
  have hD : DataRel (withOnes X).ncols (Moved (fun _ => (1 : ℝ)) (Equiv.refl _)) (fun a b => b = 1 - a) (withOnes X, y)
      (withOnes X, y.map fun a => 1 - a) :=
    ⟨rfl, rfl, rows_same _ (withOnes_wf X hX), forall₂_map_right _ y⟩
  have hw' := moved_neg w (withOnes X).ncols hw
  have hd : ∀ a s : ℝ, Real.sigmoid (-1 * s) - (1 - a) = -1 * (Real.sigmoid s - a) := by
    intro a s
    rw [neg_one_mul, Real.sigmoid_neg]
    ring
  refine eq_map_of_rel ?_
  unfold fitLogistic
  dsimp only
  by_cases h1 : penalty = "l2" ∨ penalty = "None"
  · rw [if_pos h1, if_pos h1]
    by_cases h2 : solver = "sgd"
    · rw [if_pos h2, if_pos h2]
      exact (sgd_moved (isMean_log lambda) (fun _ => .inl rfl) (.inr rfl) crossEntropy_flip hd p hD hw').mono fun v v' h => neg_of_moved h
    · rw [if_neg h2, if_neg h2]
      by_cases h3 : solver = "sag"
      · rw [if_pos h3, if_pos h3]
        exact (sag_moved (isMean_log lambda) (fun _ => .inl rfl) (.inr rfl) crossEntropy_flip hd p hD hw').mono fun v v' h => neg_of_moved h
      · rw [if_neg h3, if_neg h3, if_neg hs, if_neg hs]
        exact .throw _
  · rw [if_neg h1, if_neg h1]
    by_cases h2 : penalty = "l1"
    · rw [if_pos h2, if_pos h2]
      by_cases h3 : solver = "scd"
      · rw [if_pos h3, if_pos h3]
        obtain ⟨hb, hl⟩ := hscd h3
        exact (scd_moved (isMean_log lambda) (fun _ => .inl rfl) (.inr rfl) hd l1Ratio lambda hb hl (Nat.succ_pos _) p.shuffle p.maxIter hD
          (by rw [withOnes_nrows]; exact hy) hw').mono fun v v' h => neg_of_moved h
      · rw [if_neg h3, if_neg h3]
        exact .throw _
    · rw [if_neg h2, if_neg h2]
      exact .throw _

/-- C109: negated weights exchange the two columns of `predict_prob`. -/
theorem C109_probabilities (w : List ℝ) (Z : DMat ℝ) (hZ : Z.WF) (hw : w.length = Z.ncols + 1) :
    logisticProb (w.map fun a => -a) Z = (do let P ← logisticProb w Z; .ok { P with rows := P.rows.map List.reverse }) := by
  have hdot : ∀ l : List ℝ, dotL l (w.map fun a => -a) = -dotL l w := by
    intro l
    generalize w = v
    induction l generalizing v with
    | nil => simp [dotL]
    | cons a l ih =>
      cases v with
      | nil => simp [dotL]
      | cons b v =>
        rw [List.map_cons, dotL_cons, dotL_cons, ih]
        ring
  unfold logisticProb
  rw [predictLabel_eq _ Z hZ (by simpa using hw), predictLabel_eq w Z hZ hw, Res.bind_ok, Res.bind_ok, sigmoidV_eq, sigmoidV_eq]
  unfold MatOps.hstack
  rw [if_neg (by simp [DMat.nrows]), if_neg (by simp [DMat.nrows]), Res.bind_ok]
  congr 2
  refine List.ext_getElem (by simp) fun i h1 h2 => ?_
  simp [hdot, Real.sigmoid_neg]

/-- C109: lasso regression without intercept for negated targets yields the negated weights. -/
theorem C109_lasso (l1Ratio lambda : ℝ) (hb : 0 < l1Ratio) (hl : 0 ≤ lambda) (maxIter : Nat) (shuffle : Option (Nat → List Nat))
    (X : DMat ℝ) (hX : X.WF) (hd : 0 < X.ncols) (y : List ℝ) (hy : y.length = X.nrows) :
    fitLasso false l1Ratio lambda maxIter shuffle X (y.map fun a => -a) =
      (do let v ← fitLasso false l1Ratio lambda maxIter shuffle X y; .ok (v.map fun a => -a)) := by
  have h0 : List.replicate X.ncols (0 : ℝ) = (List.replicate X.ncols (0 : ℝ)).map fun a => -a := by simp
  have hw := moved_neg (List.replicate X.ncols (0 : ℝ)) X.ncols (by simp)
  rw [← h0] at hw
  exact eq_map_of_rel ((scd_moved (isMean_mse 0) (fun _ => .inl rfl) (.inr rfl) (fun a s => by ring) l1Ratio lambda hb hl hd shuffle maxIter
    ⟨rfl, rfl, rows_same X hX, forall₂_map_right _ y⟩ hy hw).mono fun v v' h => neg_of_moved h)

/-- A run for `C109_lasso` with non-zero weights. -/
example : fitLasso false (1 : ℚ) (1 / 4) 3 none ⟨2, [[1, 0], [0, 1]]⟩ [2, -1] = .ok [9 / 8, -1 / 4] ∧
    fitLasso false (1 : ℚ) (1 / 4) 3 none ⟨2, [[1, 0], [0, 1]]⟩ [-2, 1] = .ok [-9 / 8, 1 / 4] := by decide +kernel

namespace Symmetry

variable {d : Nat}

/-- The same reordering with one more entry that stays last. -/
def extend (π : Equiv.Perm (Fin d)) : Equiv.Perm (Fin (d + 1)) := finSuccEquivLast.trans ((Equiv.optionCongr π).trans finSuccEquivLast.symm)

theorem extend_castSucc (π : Equiv.Perm (Fin d)) (j : Fin d) : extend π j.castSucc = (π j).castSucc := by simp [extend]

theorem extend_last (π : Equiv.Perm (Fin d)) : extend π (Fin.last d) = Fin.last d := by simp [extend]

theorem moved_append (π : Equiv.Perm (Fin d)) (ε : Fin d → ℝ) {x x' : List ℝ} (h : Moved ε π x x') (c : ℝ) :
    Moved (Fin.snoc ε 1 : Fin (d + 1) → ℝ) (extend π) (x ++ [c]) (x' ++ [c]) := by
  obtain ⟨a, rfl, rfl⟩ := h
  refine ⟨Fin.snoc a c, ?_, ?_⟩
  · rw [List.ofFn_succ']
    simp
  · rw [List.ofFn_succ']
    simp [moved, extend_castSucc, extend_last]
    rfl

theorem snoc_sign {ε : Fin d → ℝ} (hε : ∀ j, ε j = 1 ∨ ε j = -1) (j : Fin (d + 1)) :
    (Fin.snoc ε 1 : Fin (d + 1) → ℝ) j = 1 ∨ (Fin.snoc ε 1 : Fin (d + 1) → ℝ) j = -1 := by
  refine Fin.lastCases ?_ (fun i => ?_) j
  · simp
  · simpa using hε i

theorem moved_rearrange (π : Equiv.Perm (Fin d)) (ε : Fin d → ℝ) (x : List ℝ) (hx : x.length = d) : Moved ε π x (rearrange π ε x) := by
  subst hx
  refine ⟨fun j => x[j], ?_, ?_⟩
  · exact List.ext_getElem (by simp) fun i h1 h2 => by simp
  · unfold rearrange moved
    congr 1
    funext j
    simp [List.getD_eq_getElem?_getD]

theorem rearrange_of_moved {π : Equiv.Perm (Fin d)} {ε : Fin d → ℝ} {x x' : List ℝ} (h : Moved ε π x x') : x' = rearrange π ε x := by
  obtain ⟨a, rfl, rfl⟩ := h
  unfold rearrange moved
  congr 1
  funext j
  rw [getD_ofFn]

theorem moved_one (π : Equiv.Perm (Fin d)) (ε : Fin d → ℝ) : Moved (fun j => 1 * ε j) π = Moved ε π := by
  congr 1
  funext j
  rw [one_mul]

theorem rows_rearrange (X : DMat ℝ) (hX : X.WF) (π : Equiv.Perm (Fin X.ncols)) (ε : Fin X.ncols → ℝ) :
    List.Forall₂ (Moved ε π) X.rows (X.rows.map (rearrange π ε)) := by
  obtain ⟨c, rows⟩ := X
  dsimp only at *
  induction rows with
  | nil => exact .nil
  | cons r rows ih =>
    exact .cons (moved_rearrange π ε r (hX r (by simp))) (ih (fun r' hr' => hX r' (List.mem_cons_of_mem _ hr')) π ε)

/-- Weights with intercept for rearranged features. -/
theorem intercept_of_moved {π : Equiv.Perm (Fin d)} {ε : Fin d → ℝ} {v v' : List ℝ}
    (h : Moved (Fin.snoc ε 1 : Fin (d + 1) → ℝ) (extend π) v v') : v' = rearrange π ε (v.take d) ++ [v.getD d 0] := by
  obtain ⟨a, rfl, rfl⟩ := h
  rw [List.ofFn_succ', List.ofFn_succ', List.concat_eq_append, List.concat_eq_append,
    List.take_append_of_le_length (by simp), List.take_of_length_le (by simp)]
  congr 1
  · unfold rearrange moved
    congr 1
    funext j
    rw [getD_ofFn, extend_castSucc, Fin.snoc_castSucc]
  · unfold moved
    rw [extend_last, Fin.snoc_last, one_mul]
    simp [List.getD_eq_getElem?_getD]

end Symmetry

/-- C110: logistic regression with solver `sgd` or `sag` (or a rejected one) on data whose features are reordered or have changed
signs, from initial weights rearranged in the same way: the weights are rearranged in the same way, the intercept is the same. -/
theorem C110_logistic (lambda l1Ratio : ℝ) (penalty solver : String) (hs : solver ≠ "lbfgs") (hs' : solver ≠ "scd") (p : Params ℝ)
    (lbfgs : LossFn ℝ (List ℝ) → DMat ℝ → List ℝ → List ℝ → Res (List ℝ)) (X : DMat ℝ) (hX : X.WF) (y w : List ℝ) (b : ℝ)
    (hw : w.length = X.ncols) (π : Equiv.Perm (Fin X.ncols)) (ε : Fin X.ncols → ℝ) (hε : ∀ j, ε j = 1 ∨ ε j = -1) :
    fitLogistic lambda l1Ratio penalty solver p lbfgs { X with rows := X.rows.map (rearrange π ε) } y (rearrange π ε w ++ [b]) =
      (do let v ← fitLogistic lambda l1Ratio penalty solver p lbfgs X y (w ++ [b])
          .ok (rearrange π ε (v.take X.ncols) ++ [v.getD X.ncols 0])) := by
  have hrows : List.Forall₂ (Moved (Fin.snoc ε 1 : Fin (X.ncols + 1) → ℝ) (extend π)) (X.rows.map fun r => r ++ [1])
      ((X.rows.map (rearrange π ε)).map fun r => r ++ [1]) := by
    rw [List.forall₂_map_left_iff, List.forall₂_map_right_iff]
    exact (rows_rearrange X hX π ε).imp fun r r' h => moved_append π ε h 1
  have hD : DataRel (X.ncols + 1) (Moved (Fin.snoc ε 1 : Fin (X.ncols + 1) → ℝ) (extend π)) (fun a b => b = id a) (withOnes X, y)
      (withOnes { X with rows := X.rows.map (rearrange π ε) }, y) :=
    ⟨rfl, rfl, hrows, List.forall₂_same.mpr fun _ _ => rfl⟩
  have hw' : Moved (fun j => 1 * (Fin.snoc ε 1 : Fin (X.ncols + 1) → ℝ) j) (extend π) (w ++ [b]) (rearrange π ε w ++ [b]) := by
    rw [moved_one]
    exact moved_append π ε (moved_rearrange π ε w hw) b
  have hphi : ∀ a s : ℝ, crossEntropy (id a) (1 * s) = crossEntropy a s := fun a s => by rw [id, one_mul]
  have hd : ∀ a s : ℝ, Real.sigmoid (1 * s) - id a = 1 * (Real.sigmoid s - a) := fun a s => by rw [id, one_mul, one_mul]
  have hfin : ∀ v v', Moved (fun j => 1 * (Fin.snoc ε 1 : Fin (X.ncols + 1) → ℝ) j) (extend π) v v' →
      v' = rearrange π ε (v.take X.ncols) ++ [v.getD X.ncols 0] := by
    intro v v' h
    rw [moved_one] at h
    exact intercept_of_moved h
  refine eq_map_of_rel ?_
  unfold fitLogistic
  dsimp only
  by_cases h1 : penalty = "l2" ∨ penalty = "None"
  · rw [if_pos h1, if_pos h1]
    by_cases h2 : solver = "sgd"
    · rw [if_pos h2, if_pos h2]
      exact (sgd_moved (isMean_log lambda) (snoc_sign hε) (.inl rfl) hphi hd p hD hw').mono hfin
    · rw [if_neg h2, if_neg h2]
      by_cases h3 : solver = "sag"
      · rw [if_pos h3, if_pos h3]
        exact (sag_moved (isMean_log lambda) (snoc_sign hε) (.inl rfl) hphi hd p hD hw').mono hfin
      · rw [if_neg h3, if_neg h3, if_neg hs, if_neg hs]
        exact .throw _
  · rw [if_neg h1, if_neg h1, if_neg hs', if_neg hs']
    split <;> exact .throw _

/-- C110 for the mean squared error minimised by SGD. -/
theorem C110_sgd (lambda : ℝ) (p : Params ℝ) (X : DMat ℝ) (hX : X.WF) (y w : List ℝ) (hw : w.length = X.ncols)
    (π : Equiv.Perm (Fin X.ncols)) (ε : Fin X.ncols → ℝ) (hε : ∀ j, ε j = 1 ∨ ε j = -1) :
    sgd ⟨mseEvaluate lambda, mseGradient lambda⟩ clipGrad vanillaUpdate p { X with rows := X.rows.map (rearrange π ε) } y
        (rearrange π ε w) =
      (do let v ← sgd ⟨mseEvaluate lambda, mseGradient lambda⟩ clipGrad vanillaUpdate p X y w; .ok (rearrange π ε v)) := by
  refine eq_map_of_rel ((sgd_moved (δ := 1) (σ := id) (X := X)
    (X' := { X with rows := X.rows.map (rearrange π ε) }) (isMean_mse lambda) hε (.inl rfl) (fun a s => by rw [id, one_mul])
    (fun a s => by rw [id, one_mul, one_mul]) p
    ⟨rfl, rfl, rows_rearrange X hX π ε, List.forall₂_same.mpr fun _ _ => rfl⟩ ?_).mono fun v v' h => ?_)
  · rw [moved_one]
    exact moved_rearrange π ε w hw
  · rw [moved_one] at h
    exact rearrange_of_moved h

/-- C110 for the mean squared error minimised by SAG. -/
theorem C110_sag (lambda : ℝ) (p : Params ℝ) (X : DMat ℝ) (hX : X.WF) (y w : List ℝ) (hw : w.length = X.ncols)
    (π : Equiv.Perm (Fin X.ncols)) (ε : Fin X.ncols → ℝ) (hε : ∀ j, ε j = 1 ∨ ε j = -1) :
    sag ⟨mseEvaluate lambda, mseGradient lambda⟩ vanillaUpdate p { X with rows := X.rows.map (rearrange π ε) } y (rearrange π ε w) =
      (do let v ← sag ⟨mseEvaluate lambda, mseGradient lambda⟩ vanillaUpdate p X y w; .ok (rearrange π ε v)) := by
  refine eq_map_of_rel ((sag_moved (δ := 1) (σ := id) (X := X)
    (X' := { X with rows := X.rows.map (rearrange π ε) }) (isMean_mse lambda) hε (.inl rfl) (fun a s => by rw [id, one_mul])
    (fun a s => by rw [id, one_mul, one_mul]) p
    ⟨rfl, rfl, rows_rearrange X hX π ε, List.forall₂_same.mpr fun _ _ => rfl⟩ ?_).mono fun v v' h => ?_)
  · rw [moved_one]
    exact moved_rearrange π ε w hw
  · rw [moved_one] at h
    exact rearrange_of_moved h

/-- C110 for lasso regression without intercept: features may change their signs. -/
theorem C110_lasso (l1Ratio lambda : ℝ) (hb : 0 < l1Ratio) (hl : 0 ≤ lambda) (maxIter : Nat) (shuffle : Option (Nat → List Nat))
    (X : DMat ℝ) (hX : X.WF) (hd : 0 < X.ncols) (y : List ℝ) (hy : y.length = X.nrows) (ε : Fin X.ncols → ℝ)
    (hε : ∀ j, ε j = 1 ∨ ε j = -1) :
    fitLasso false l1Ratio lambda maxIter shuffle { X with rows := X.rows.map (rearrange (Equiv.refl _) ε) } y =
      (do let v ← fitLasso false l1Ratio lambda maxIter shuffle X y; .ok (rearrange (Equiv.refl _) ε v)) := by
  refine eq_map_of_rel ((scd_moved (δ := 1) (σ := id) (X := X)
    (X' := { X with rows := X.rows.map (rearrange (Equiv.refl _) ε) }) (isMean_mse 0) hε (.inl rfl) (fun a s => by rw [id, one_mul, one_mul]) l1Ratio lambda
    hb hl hd shuffle maxIter ⟨rfl, rfl, rows_rearrange X hX _ ε, List.forall₂_same.mpr fun _ _ => rfl⟩ hy ?_).mono fun v v' h => ?_)
  · rw [moved_one]
    refine ⟨fun _ => 0, ?_, ?_⟩
    · simp [numWeights, List.ofFn_const]
    · have : moved ε (Equiv.refl _) (fun _ => 0) = fun _ : Fin X.ncols => (0 : ℝ) := by
        funext j; simp [moved]
      rw [this]
      simp [numWeights, List.ofFn_const]
  · rw [moved_one] at h
    exact rearrange_of_moved h

/-- A run for `C110_sgd`: exchanged features, one of them with changed sign. -/
example : sgd ⟨mseEvaluate (0 : ℚ), mseGradient 0⟩ clipGrad vanillaUpdate
      { maxIter := 9, batchSize := 1, noChange := 0, tol := 1 / 100, decay := fun _ => .ok (1 / 2), shuffle := none }
      ⟨2, [[1, 0], [1, 1]]⟩ [2, 4] [0, 0] = .ok [5 / 2, 3 / 2] ∧
    sgd ⟨mseEvaluate (0 : ℚ), mseGradient 0⟩ clipGrad vanillaUpdate
      { maxIter := 9, batchSize := 1, noChange := 0, tol := 1 / 100, decay := fun _ => .ok (1 / 2), shuffle := none }
      ⟨2, [[0, -1], [1, -1]]⟩ [2, 4] [0, 0] = .ok [3 / 2, -5 / 2] := by decide +kernel

/-- Lasso is not equivariant under reordering: with two equal features the first one gets the weight. -/
example : fitLasso false (1 : ℚ) (1 / 4) 1 none ⟨2, [[1, 1]]⟩ [2] = .ok [7 / 4, 0] := by decide +kernel

/-- C112: a step of `NesterovMomentumUpdate` is a step of `VanillaUpdate` with learning rate `(1 + mu) lr`: there is no momentum. -/
theorem C112_step {α : Type} [Field α] (mu : α) (w grad : List α) (lr : α) :
    nesterovUpdate mu w grad lr = vanillaUpdate w grad ((1 + mu) * lr) := by
  unfold nesterovUpdate vanillaUpdate addV subV
  dsimp only
  by_cases h : w.length = grad.length
  · rw [if_pos (by simpa using h), Res.bind_ok, if_pos (by simp [h]), Res.bind_ok, if_pos (by simp [h]), Res.bind_ok, if_pos (by simp [h]),
      if_pos (by simpa using h)]
    congr 1
    refine List.ext_getElem (by simp [h]) fun i h1 h2 => ?_
    simp only [List.getElem_zipWith, List.getElem_map, List.getElem_replicate]
    ring
  · rw [if_neg (by simpa using h), Res.bind_ub, if_neg (by simpa using h)]

/-- C112: whole runs of SGD with `NesterovMomentumUpdate` are runs of SGD with `VanillaUpdate` and learning rates multiplied by
`1 + mu`, for every loss. -/
theorem C112_run {α : Type} [Field α] [LinearOrder α] (mu : α) (loss : LossFn α (List α)) (p : Params α) (X : DMat α) (y w : List α) :
    sgd loss clipGrad (nesterovUpdate mu) p X y w =
      sgd loss clipGrad vanillaUpdate { p with decay := fun i => do let lr ← p.decay i; .ok ((1 + mu) * lr) } X y w := by
  have hrefl : ∀ {β : Type} (l : List β), List.Forall₂ Eq l l := fun l => List.forall₂_same.mpr fun _ _ => rfl
  refine Res.Rel.eq ?_
  unfold sgd
  refine (optimize_rel loss loss id id _ _ Eq X.ncols Eq Eq (fun a a' => a' = (1 + mu) * a) p.batchSize (X.nrows / p.batchSize) ?_ ?_ p
    { p with decay := fun i => do let lr ← p.decay i; .ok ((1 + mu) * lr) } rfl rfl rfl rfl rfl rfl ?_ (X := X) (X' := X) (y := y) (y' := y)
    ⟨rfl, rfl, hrefl _, hrefl _⟩ rfl w w rfl).mono ?_
  · intro j _ s t rows rows' z z' lr lr' hst hr hz _ _ hlr
    rw [List.forall₂_eq_eq_eq] at hr hz
    subst hst hr hz hlr
    refine Res.Rel.of_eq ?_
    unfold sgdStep
    simp only [C112_step]
  · intro s t rows rows' z z' hst hr hz _ _
    rw [List.forall₂_eq_eq_eq] at hr hz
    subst hst hr hz
    rfl
  · intro i
    dsimp only
    cases p.decay i with
    | ok lr => exact .ok rfl
    | throw e => exact .throw e
    | ub => exact .ub
    | diverge => exact .diverge
  · rintro v v' ⟨s, t, h, rfl, rfl⟩
    exact h

example : nesterovUpdate (1 / 2) [1, 2] [10, -10] (1 / 10 : ℚ) = .ok [-1 / 2, 7 / 2] := by decide +kernel

end OpenML
