import Verif.Spec.SoftmaxDescent
import Verif.Lemmas.SoftmaxSmooth
import Verif.Lemmas.Liveness
import Verif.Props.SGD
import Mathlib.Algebra.BigOperators.Fin

/-!
# `SGD` with the softmax loss and one batch
-/

namespace OpenML.Softmax

open Spec Loss Descent SGD
open scoped BigOperators

variable {d k : Nat}

theorem exists_toDMat (W : DMat ℝ) (h : Shaped d k W) : ∃ v : Fin d × Fin k → ℝ, W = toDMat (curried v) := by
  obtain ⟨nc, rows⟩ := W
  obtain ⟨h1, h2, h3⟩ := h
  dsimp only at h1 h2 h3
  subst h1 h2
  refine ⟨fun j => rows[j.1].getD j.2 0, ?_⟩
  unfold toDMat curried
  congr 1
  apply List.ext_getElem
  · simp
  · intro i hi1 hi2
    apply List.ext_getElem
    · rw [h3 _ (List.getElem_mem hi1)]; simp
    · intro j hj1 hj2
      simp [List.getElem?_eq_getElem hj1]

theorem shaped_toDMat (w : Fin d → Fin k → ℝ) : Shaped d k (toDMat w) := by
  refine ⟨rfl, by simp [toDMat], fun r hr => ?_⟩
  obtain ⟨f, rfl⟩ := (List.mem_ofFn' _ _).mp hr
  simp

theorem matrixMass_toDMat (v : Fin d × Fin k → ℝ) : matrixMass (toDMat (curried v)) = ∑ j, v j ^ 2 := by
  unfold matrixMass toDMat
  dsimp only
  rw [List.map_ofFn, List.sum_ofFn, Fintype.sum_prod_type]
  refine Finset.sum_congr rfl fun f _ => ?_
  rw [Function.comp_apply, List.map_ofFn, List.sum_ofFn]
  rfl

theorem matrixDist_toDMat (v w : Fin d × Fin k → ℝ) : matrixDist (toDMat (curried v)) (toDMat (curried w)) = ∑ j, (v j - w j) ^ 2 := by
  unfold matrixDist toDMat
  dsimp only
  have h1 : ∀ {m : Nat} {β : Type} (f : β → β → ℝ) (a b : Fin m → β),
      (List.zipWith f (List.ofFn a) (List.ofFn b)).sum = ∑ i, f (a i) (b i) := by
    intro m β f a b
    have : List.zipWith f (List.ofFn a) (List.ofFn b) = List.ofFn fun i => f (a i) (b i) := by
      apply List.ext_getElem
      · simp
      · intro i h1 h2; simp
    rw [this, List.sum_ofFn]
  rw [h1, Fintype.sum_prod_type]
  refine Finset.sum_congr rfl fun f _ => ?_
  rw [weightDist, h1]
  rfl

/-- The update of the weights is a step of gradient descent with clipped gradient. -/
theorem vanilla_moveMat (G : (Fin d × Fin k → ℝ) → Fin d × Fin k → ℝ) (eta : ℝ) (v : Fin d × Fin k → ℝ) :
    vanillaUpdateMat (toDMat (curried v)) (clipGradMat (toDMat (curried (G v)))) eta = .ok (toDMat (curried (move G eta v))) := by
  rw [vanillaUpdateMat, if_pos ⟨rfl, by simp [clipGradMat, MatOps.clip, toDMat, DMat.nrows]⟩]
  congr 1
  unfold toDMat clipGradMat MatOps.clip
  congr 1
  apply List.ext_getElem
  · simp
  · intro i h1 h2
    apply List.ext_getElem
    · simp
    · intro j h3 h4
      simp [move, clipped, curried]

/-- Labels that are class numbers. -/
def IsClass (k : Nat) (a : ℝ) : Prop := ∃ c : Fin k, a = ((c.val : Nat) : ℝ)

theorem exists_labels (y : List ℝ) (h : ∀ a ∈ y, IsClass k a) : ∃ labels : List (Fin k), y = labelVec labels := by
  induction y with
  | nil => exact ⟨[], rfl⟩
  | cons a y ih =>
    obtain ⟨c, hc⟩ := h a List.mem_cons_self
    obtain ⟨l, hl⟩ := ih fun b hb => h b (List.mem_cons_of_mem _ hb)
    exact ⟨c :: l, by rw [hl, hc]; rfl⟩

theorem labelVec_length (labels : List (Fin k)) : (labelVec labels).length = labels.length := by
  unfold labelVec; simp

theorem isClass_labelVec (labels : List (Fin k)) : ∀ a ∈ labelVec labels, IsClass k a := by
  intro a ha
  obtain ⟨c, _, rfl⟩ := List.mem_map.mp ha
  exact ⟨c, rfl⟩

theorem perm_labels (rows rows' : List (List ℝ)) (labels labels' : List (Fin k))
    (h : (rows.zip (labelVec labels)).Perm (rows'.zip (labelVec labels'))) : (rows.zip labels).Perm (rows'.zip labels') := by
  have e : ∀ (r : List (List ℝ)) (l : List (Fin k)), r.zip (labelVec l) = (r.zip l).map fun q => (q.1, ((q.2.val : Nat) : ℝ)) := by
    intro r l
    unfold labelVec
    rw [List.zip_map_right]
    rfl
  rw [e, e] at h
  refine (List.map_perm_map_iff ?_).mp h
  rintro ⟨a, b⟩ ⟨a', b'⟩ hab
  simp only [Prod.mk.injEq, Nat.cast_inj] at hab
  exact Prod.ext hab.1 (Fin.ext hab.2)

/-- What `SoftmaxLoss::evaluate` computes. -/
noncomputable def evalOf (lambda : ℝ) (l : List (List ℝ × Fin k)) (v : Fin d × Fin k → ℝ) : ℝ :=
  (l.map (classLoss (curried v))).sum / l.length + lambda * rowSumTerm l.length (curried v)

theorem evalOf_perm (lambda : ℝ) {l l' : List (List ℝ × Fin k)} (h : l.Perm l') (v : Fin d × Fin k → ℝ) :
    evalOf lambda l v = evalOf lambda l' v := by
  unfold evalOf
  rw [(h.map (classLoss (curried v))).sum_eq, h.length_eq]

theorem evaluate_evalOf (hk : 0 < k) (lambda : ℝ) (X : DMat ℝ) (hX : X.WF) (hn : X.rows ≠ []) (labels : List (Fin k))
    (hl : labels.length = X.nrows) (v : Fin X.ncols × Fin k → ℝ) :
    softmaxEvaluate lambda X (labelVec labels) (toDMat (curried v)) = .ok (evalOf lambda (X.rows.zip labels) v) := by
  rw [softmaxEvaluate_eq hk lambda X hX hn labels hl, evalOf]
  rw [show (X.rows.zip labels).length = X.nrows by rw [List.length_zip, hl]; exact Nat.min_self _]

theorem gradient_softGrad (hk : 0 < k) (lambda : ℝ) (X : DMat ℝ) (hX : X.WF) (hn : X.rows ≠ []) (labels : List (Fin k))
    (hl : labels.length = X.nrows) (v : Fin X.ncols × Fin k → ℝ) :
    softmaxGradient lambda X (labelVec labels) (toDMat (curried v)) =
      .ok (toDMat (curried (softGrad lambda (X.rows.zip labels) v))) := by
  rw [softmaxGradient_eq hk lambda X hX hn labels hl]
  unfold softGrad
  rw [show (X.rows.zip labels).length = X.nrows by rw [List.length_zip, hl]; exact Nat.min_self _]
  rfl

theorem evalOf_zero (l : List (List ℝ × Fin k)) (v : Fin d × Fin k → ℝ) : evalOf 0 l v = softObjective 0 l v := by
  unfold evalOf softObjective
  ring

theorem softObjective_eq (lambda : ℝ) (l : List (List ℝ × Fin k)) (v : Fin d × Fin k → ℝ) :
    softObjective lambda l v = evalOf 0 l v + lambda * matrixMass (toDMat (curried v)) / (2 * l.length) := by
  unfold evalOf softObjective
  rw [matrixMass_toDMat]
  ring

theorem evalOf_nonneg (lambda : ℝ) (hl : 0 ≤ lambda) (l : List (List ℝ × Fin k)) (v : Fin d × Fin k → ℝ) : 0 ≤ evalOf lambda l v := by
  unfold evalOf rowSumTerm
  refine add_nonneg (div_nonneg (List.sum_nonneg fun a ha => ?_) (Nat.cast_nonneg _)) (mul_nonneg hl (div_nonneg ?_ (by positivity)))
  · obtain ⟨p, _, rfl⟩ := List.mem_map.mp ha
    exact classLoss_nonneg _ p
  · exact Finset.sum_nonneg fun j _ => sq_nonneg _

/-- With a single batch, an epoch is a step of gradient descent over all samples, whatever their order. -/
theorem full_run (hk : 0 < k) (lambda : ℝ) (p : Params ℝ) (X : DMat ℝ) (hX : X.WF) (hn : X.nrows ≠ 0) (labels : List (Fin k))
    (hy : labels.length = X.nrows) (hb : p.batchSize = X.nrows)
    (hp : ∀ q, p.shuffle = some q → ∀ i, (q i).Perm (List.range X.nrows)) (eta : Nat → ℝ) (he : ∀ i, p.decay i = .ok (eta i))
    (w : Fin X.ncols × Fin k → ℝ) (n : Nat) (D : Nat → DMat ℝ × List ℝ) (st : Nat → DMat ℝ) (L : Nat → ℝ)
    (h : IsRun ⟨softmaxEvaluate lambda, softmaxGradient lambda⟩ id
      (sgdStep ⟨softmaxEvaluate lambda, softmaxGradient lambda⟩ clipGradMat vanillaUpdateMat) p 1 X (labelVec labels)
      (toDMat (curried w)) n D st L) :
    (∀ i ≤ n, st i = toDMat (curried (iterate (softGrad lambda (X.rows.zip labels)) eta w i))) ∧
      ∀ i < n, L i = evalOf lambda (X.rows.zip labels) (iterate (softGrad lambda (X.rows.zip labels)) eta w (i + 1)) := by
  obtain ⟨hD, hst, hrun⟩ := h
  have key : ∀ i ≤ n, ((D i).1.ncols = X.ncols ∧ (D i).1.WF ∧ (D i).2.length = (D i).1.nrows ∧
      ((D i).1.rows.zip (D i).2).Perm (X.rows.zip (labelVec labels)) ∧ (D i).1.nrows = X.nrows) ∧
      st i = toDMat (curried (iterate (softGrad lambda (X.rows.zip labels)) eta w i)) ∧
      ∀ k, i = k + 1 → L k = evalOf lambda (X.rows.zip labels) (iterate (softGrad lambda (X.rows.zip labels)) eta w i) := by
    intro i
    induction i with
    | zero =>
      intro _
      refine ⟨?_, ?_, fun k hk => by omega⟩
      · rw [hD]
        exact ⟨rfl, hX, by rw [labelVec_length]; exact hy, List.Perm.refl _, rfl⟩
      · rw [hst]; rfl
    | succ i ih =>
      intro hi
      obtain ⟨⟨g1, g2, g3, g4, g5⟩, hsi, _⟩ := ih (by omega)
      obtain ⟨hsh, lr, hlr, t, l, ht0, ht1, hL, hstep⟩ := hrun i (by omega)
      rw [he i, Res.ok.injEq] at hlr
      subst hlr
      obtain ⟨⟨X2, y2⟩, hs, f1, f2, f3, f4, f5⟩ := C47_shuffle_pairs p.shuffle i (D i).1 g2 (D i).2 g3
        (fun q hq => by rw [g5]; exact hp q hq i)
      rw [hsh, Res.ok.injEq] at hs
      rw [hs] at hstep ⊢
      dsimp only at f1 f2 f3 f4 f5
      obtain ⟨nc, rows⟩ := X2
      dsimp only [DMat.nrows] at f1 f2 f3 f4 f5
      have hnc : nc = X.ncols := f1.trans g1
      subst hnc
      obtain ⟨_, _, hup, hev⟩ := hstep 0 (by omega)
      have hrl : rows.length = X.nrows := f5.trans g5
      have hbr : batch p.batchSize 0 rows = rows := by
        unfold batch
        rw [Nat.zero_mul, List.drop_zero, List.take_of_length_le (by rw [hrl, hb])]
      have hby : batch p.batchSize 0 y2 = y2 := by
        unfold batch
        rw [Nat.zero_mul, List.drop_zero, List.take_of_length_le (by rw [f3, hrl, hb])]
      dsimp only at hup hev
      rw [hbr, hby] at hup hev
      have hpermR : (rows.zip y2).Perm (X.rows.zip (labelVec labels)) := f4.trans g4
      have hcls : ∀ a ∈ y2, IsClass k a := by
        intro a ha
        obtain ⟨j, hj, rfl⟩ := List.getElem_of_mem ha
        have hm : (rows[j]'(by omega), y2[j]) ∈ rows.zip y2 := by
          rw [← List.getElem_zip (h := by simp; omega)]
          exact List.getElem_mem _
        exact isClass_labelVec labels _ (List.of_mem_zip (hpermR.mem_iff.mp hm)).2
      obtain ⟨l2, rfl⟩ := exists_labels y2 hcls
      have hperm : (rows.zip l2).Perm (X.rows.zip labels) := perm_labels rows X.rows l2 labels hpermR
      have hl2 : l2.length = rows.length := by rw [← f3, labelVec_length]
      have hrne : rows ≠ [] := fun hc => hn (by rw [← hrl, hc]; rfl)
      rw [ht0, hsi] at hup
      unfold sgdStep at hup
      have hgr := gradient_softGrad hk lambda ⟨X.ncols, rows⟩ f2 hrne l2 hl2
        (iterate (softGrad lambda (X.rows.zip labels)) eta w i)
      rw [softGrad_perm lambda hperm] at hgr
      dsimp only at hup
      rw [hgr, Res.bind_ok, vanilla_moveMat, Res.ok.injEq] at hup
      have hst' : st (i + 1) = toDMat (curried (iterate (softGrad lambda (X.rows.zip labels)) eta w (i + 1))) := by
        rw [← ht1]; exact hup.symm
      refine ⟨⟨rfl, f2, f3, hpermR, hrl⟩, hst', ?_⟩
      intro m hm
      obtain rfl : m = i := by omega
      rw [ht1, hst', id] at hev
      have hevl := evaluate_evalOf hk lambda ⟨X.ncols, rows⟩ f2 hrne l2 hl2
        (iterate (softGrad lambda (X.rows.zip labels)) eta w (m + 1))
      rw [hevl, Res.ok.injEq] at hev
      rw [hL, Finset.sum_range_one, ← hev, ← evalOf_perm lambda hperm]
  exact ⟨fun i hi => (key i hi).2.1, fun i hi => (key (i + 1) hi).2.2 i rfl⟩

/-- What a call that publishes weights has done. -/
theorem full_batch (hk : 0 < k) (lambda : ℝ) (p : Params ℝ) (X : DMat ℝ) (hX : X.WF) (hn : X.nrows ≠ 0) (labels : List (Fin k))
    (hy : labels.length = X.nrows) (hb : p.batchSize = X.nrows)
    (hp : ∀ q, p.shuffle = some q → ∀ i, (q i).Perm (List.range X.nrows)) (eta : Nat → ℝ) (he : ∀ i, p.decay i = .ok (eta i))
    (w : Fin X.ncols × Fin k → ℝ) (w' : DMat ℝ)
    (h : sgd ⟨softmaxEvaluate lambda, softmaxGradient lambda⟩ clipGradMat vanillaUpdateMat p X (labelVec labels)
      (toDMat (curried w)) = .ok w') :
    ∃ i, p.noChange ≤ i ∧ i < p.maxIter ∧ w' = toDMat (curried (iterate (softGrad lambda (X.rows.zip labels)) eta w (i + 1))) ∧
      (p.noChange ≠ 0 → ∃ j < i, evalOf lambda (X.rows.zip labels) (iterate (softGrad lambda (X.rows.zip labels)) eta w (j + 1)) -
        p.tol * X.nrows < evalOf lambda (X.rows.zip labels) (iterate (softGrad lambda (X.rows.zip labels)) eta w (i + 1))) := by
  obtain ⟨i, hi, D, st, L, hr, hs, rfl⟩ := (C47_publishes_iff _ id _ p (by rw [hb]; exact hn) X (labelVec labels) _ w').mp h
  rw [hb, Nat.div_self (Nat.pos_of_ne_zero hn)] at hr
  obtain ⟨h1, h2⟩ := full_run hk lambda p X hX hn labels hy hb hp eta he w (i + 1) D st L hr
  have h3 : p.noChange ≤ i := by
    by_contra hc
    obtain ⟨j, hj, _⟩ := hs.1 0 (Nat.zero_le _) (by omega)
    omega
  refine ⟨i, h3, hi, h1 (i + 1) (le_refl _), fun h0 => ?_⟩
  obtain ⟨k, hk, hlt⟩ := hs.1 i (le_refl _) (by omega)
  rw [h2 k (by omega), h2 i (by omega), hb] at hlt
  exact ⟨k, hk, hlt⟩

theorem smooth_data (lambda : ℝ) (hl : 0 ≤ lambda) (X : DMat ℝ) (hX : X.WF) (hn : X.nrows ≠ 0) (labels : List (Fin k))
    (hy : labels.length = X.nrows) :
    Smooth (softObjective (d := X.ncols) lambda (X.rows.zip labels)) (softGrad lambda (X.rows.zip labels))
      (steepness (1 / 2) lambda X.rows) := by
  have := soft_smooth (d := X.ncols) lambda hl (X.rows.zip labels) (by rw [List.length_zip, hy]; simpa [DMat.nrows] using hn)
    fun q hq => hX q.1 (List.of_mem_zip hq).1
  rwa [List.map_fst_zip (by rw [hy]; exact le_refl _)] at this

/-- Each batch is processed without failure. -/
theorem succeeds (hk : 0 < k) (lambda : ℝ) (hl : 0 ≤ lambda) (d b m : Nat) (hb : b ≠ 0) :
    Liveness.Succeeds ⟨softmaxEvaluate lambda, softmaxGradient lambda⟩ id
      (sgdStep ⟨softmaxEvaluate lambda, softmaxGradient lambda⟩ clipGradMat vanillaUpdateMat) (Shaped d k) (IsClass k) d b m := by
  constructor
  · intro W X y lr j _ hW hX hd hn hy hlab
    obtain ⟨v, rfl⟩ := exists_toDMat W hW
    obtain ⟨labels, rfl⟩ := exists_labels y hlab
    subst hd
    rw [labelVec_length, ← hn] at hy
    refine ⟨_, ?_, shaped_toDMat (curried (move (softGrad lambda (X.rows.zip labels)) lr v))⟩
    unfold sgdStep
    dsimp only
    rw [gradient_softGrad hk lambda X hX (fun hc => hb (by rw [← hn, DMat.nrows, hc]; rfl)) labels hy, Res.bind_ok, vanilla_moveMat]
  · intro W X y hW hX hd hn hy hlab
    obtain ⟨v, rfl⟩ := exists_toDMat W hW
    obtain ⟨labels, rfl⟩ := exists_labels y hlab
    subst hd
    rw [labelVec_length, ← hn] at hy
    exact ⟨_, evaluate_evalOf hk lambda X hX (fun hc => hb (by rw [← hn, DMat.nrows, hc]; rfl)) labels hy v, evalOf_nonneg lambda hl _ v⟩

end OpenML.Softmax
