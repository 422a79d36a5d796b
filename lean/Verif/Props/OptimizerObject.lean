import Verif.Lemmas.OptimizerObject
import Verif.Model.LinearFit

/-!
# Calling `optimize` repeatedly on one optimizer (C145)
-/

namespace OpenML

open Spec SGD OptObject

namespace OptObject

/-- What one call of `optimize` does to an object holding weights `o.x0`, if `f` is what an optimizer constructed with given weights
computes. -/
structure TakesOver {W : Type} (f : W → Res W) (o : Obj W) (r : Obj W × Res Unit) : Prop where
  /-- The call returns or fails as the new optimizer. -/
  outcome : r.2 = (f o.x0 >>= fun _ => .ok ())
  /-- If it returns, the object holds the result and publishes it. -/
  success : ∀ w, f o.x0 = .ok w → r.1 = ⟨w, some w⟩
  /-- If it fails, `get_coef` is what it was. -/
  failure : (∀ w, f o.x0 ≠ .ok w) → getCoef r.1 = getCoef o

/-- A call of `optimize` on an SGD object, with the learning rates and the orders of the samples in its epochs. -/
structure Call (α : Type) where
  p : Params α
  X : DMat α
  y : List α
  lr : Nat → α
  D : Nat → DMat α × List α

/-- The learning rates and orders belong to the call. -/
structure Call.Planned {α : Type} (c : Call α) : Prop where
  size : c.p.batchSize ≠ 0
  rates : ∀ i < c.p.maxIter, c.p.decay i = .ok (c.lr i)
  start : c.D 0 = (c.X, c.y)
  order : ∀ i < c.p.maxIter, shuffleXY c.p.shuffle i (c.D i).1 (c.D i).2 = .ok (c.D (i + 1))

/-- The batches of the first `n` epochs of a call. -/
def Call.epochs {α : Type} (c : Call α) (n : Nat) : List (Batch α) :=
  batches c.p.batchSize (c.X.nrows / c.p.batchSize) c.lr c.D 0 n

section
variable {α W : Type} [Field α] [LinearOrder α] (loss : LossFn α W) (clip : W → W) (update : W → W → α → Res W)

theorem sgd_call (c : Call α) (hc : c.Planned) (o : Obj W) :
    ∃ t, t <+: c.epochs c.p.maxIter ∧
      Applied (Stepped (sgdStep loss clip update)) o.x0 t (optimizeSgd loss clip update c.p c.X c.y o).1.x0 ∧
      ((optimizeSgd loss clip update c.p c.X c.y o).2 = .ok () → ∃ e, 1 ≤ e ∧ e ≤ c.p.maxIter ∧ t = c.epochs e) ∧
      ((∀ X y w e, loss.evaluate X y w ≠ .throw e) → (∀ X y w e, loss.gradient X y w ≠ .throw e) →
        (∀ w g lr e, update w g lr ≠ .throw e) →
        ∀ e, (optimizeSgd loss clip update c.p c.X c.y o).2 = .throw e → t = c.epochs c.p.maxIter) := by
  obtain ⟨t, h1, h2, h3, h4⟩ := epochLoop_applied loss id (sgdStep loss clip update) c.p (c.X.nrows / c.p.batchSize) c.p.maxIter
    c.lr c.D hc.rates hc.order c.p.maxIter 0 (by omega) o.x0 none 0
  have hst := hc.start
  rw [hst] at h2 h3 h4
  refine ⟨t, h1, ?_, ?_, ?_⟩ <;> unfold optimizeSgd optimizeMini <;> rw [if_neg hc.size] <;> dsimp only at h2 h3 h4 ⊢
  · unfold finish
    split <;> exact h2
  · intro h
    refine h3 ?_
    unfold finish at h
    split at h
    · assumption
    · exact h
  · intro ha hb hd e h
    refine h4 (fun X y lr s e => batchLoop_no_throw loss id _ ?_ ha _ X y lr _ _ s e) e ?_
    · intro s X y lr j e he
      unfold sgdStep at he
      cases hg : loss.gradient X y s with
      | ok g => rw [hg, Res.bind_ok] at he; exact hd _ _ _ _ he
      | throw e' => exact hb _ _ _ _ hg
      | ub => rw [hg] at he; cases he
      | diverge => rw [hg] at he; cases he
    · unfold finish at h
      split at h
      · cases h
      · exact h

end

end OptObject

section
variable {α W : Type} [Field α] [LinearOrder α]

/-- C145: a call of `SGD::optimize` acts as a new SGD optimizer constructed with the weights that the object has reached. -/
theorem C145_sgd_call (loss : LossFn α W) (clip : W → W) (update : W → W → α → Res W) (p : Params α) (X : DMat α) (y : List α)
    (o : Obj W) : TakesOver (sgd loss clip update p X y) o (optimizeSgd loss clip update p X y o) :=
  have h := optimizeMini_spec loss id (sgdStep loss clip update) (fun _ w => w) p X y o
  ⟨h.1, h.2.1, h.2.2⟩

/-- C145: likewise for `SAG::optimize`; the gradients stored in earlier calls are forgotten. -/
theorem C145_sag_call (loss : LossFn α (List α)) (update : List α → List α → α → Res (List α)) (p : Params α) (X : DMat α)
    (y : List α) (o : Obj (List α)) : TakesOver (sag loss update p X y) o (optimizeSag loss update p X y o) :=
  have h := optimizeMini_spec loss SagState.w (sagStep loss update p.batchSize) (fun X w =>
    { w := w, history := List.replicate (X.nrows / p.batchSize) (List.replicate X.ncols 0), avg := List.replicate X.ncols 0 }) p X y o
  ⟨h.1, h.2.1, h.2.2⟩

/-- C145: likewise for `TruncatedGradient::optimize`; the penalty accumulated in earlier calls is forgotten. -/
theorem C145_tg_call (loss : LossFn α (List α)) (update : List α → List α → α → Res (List α)) (l1Ratio alpha : α) (p : Params α)
    (X : DMat α) (y : List α) (o : Obj (List α)) :
    TakesOver (tg loss update l1Ratio alpha p X y) o (optimizeTg loss update l1Ratio alpha p X y o) :=
  have h := optimizeMini_spec loss TgState.w (tgStep loss update l1Ratio alpha) (fun X w =>
    { w := w, cum := List.replicate X.ncols 0, maxCum := 0 }) p X y o
  ⟨h.1, h.2.1, h.2.2⟩

/-- C145: likewise for `SCD::optimize`. -/
theorem C145_scd_call (loss : LossFn α (List α)) (l1Ratio lambda : α) (maxIter : Nat) (shuffle : Option (Nat → List Nat))
    (X : DMat α) (y : List α) (o : Obj (List α)) :
    TakesOver (SCD.scd loss l1Ratio lambda maxIter shuffle X y) o (optimizeScd loss l1Ratio lambda maxIter shuffle X y o) := by
  unfold optimizeScd SCD.scd
  have h := scdLoop_eq loss l1Ratio lambda shuffle maxIter 0 X y o.x0
  generalize scdLoop loss l1Ratio lambda shuffle maxIter 0 X y o.x0 = r at h
  obtain ⟨w, r⟩ := r
  cases r with
  | ok u => cases u; exact ⟨by rw [h]; rfl, (fun w' hw => by rw [h] at hw; cases hw; rfl), fun hf => absurd h (hf w)⟩
  | throw e => exact ⟨by rw [h]; rfl, (fun w' hw => by rw [h] at hw; cases hw), fun _ => rfl⟩
  | ub => exact ⟨by rw [h]; rfl, (fun w' hw => by rw [h] at hw; cases hw), fun _ => rfl⟩
  | diverge => exact ⟨by rw [h]; rfl, (fun w' hw => by rw [h] at hw; cases hw), fun _ => rfl⟩

/-- C145: nothing is ever undone. Whatever calls are made on an SGD object, returning or failing, its weights are the first ones
with batches applied one after the other: of each call a first part of its batches, in order. -/
theorem C145_sgd_history (loss : LossFn α W) (clip : W → W) (update : W → W → α → Res W) (cs : List (Call α))
    (hcs : ∀ c ∈ cs, c.Planned) (o : Obj W) :
    ∃ ts : List (List (Batch α)), List.Forall₂ (fun t c => t <+: c.epochs c.p.maxIter) ts cs ∧
      Applied (Stepped (sgdStep loss clip update)) o.x0 ts.flatten
        (calls (fun c => optimizeSgd loss clip update c.p c.X c.y) cs o).1.x0 := by
  induction cs generalizing o with
  | nil => exact ⟨[], .nil, .nil _⟩
  | cons c cs ih =>
    obtain ⟨t, h1, h2, _⟩ := sgd_call loss clip update c (hcs c (by simp)) o
    have hstop : ∃ ts : List (List (Batch α)), List.Forall₂ (fun t c => t <+: c.epochs c.p.maxIter) ts (c :: cs) ∧
        Applied (Stepped (sgdStep loss clip update)) o.x0 ts.flatten (optimizeSgd loss clip update c.p c.X c.y o).1.x0 := by
      refine ⟨t :: cs.map fun _ => [], .cons h1 ?_, ?_⟩
      · rw [List.forall₂_map_left_iff, List.forall₂_same]
        exact fun _ _ => List.nil_prefix
      · have : (cs.map fun _ => ([] : List (Batch α))).flatten = [] := by simp
        rw [List.flatten_cons, this, List.append_nil]
        exact h2
    obtain ⟨ts, h3, h4⟩ := ih (fun c hc => hcs c (List.mem_cons_of_mem _ hc)) (optimizeSgd loss clip update c.p c.X c.y o).1
    have hgo : ∃ ts : List (List (Batch α)), List.Forall₂ (fun t c => t <+: c.epochs c.p.maxIter) ts (c :: cs) ∧
        Applied (Stepped (sgdStep loss clip update)) o.x0 ts.flatten
          (calls (fun c => optimizeSgd loss clip update c.p c.X c.y) cs (optimizeSgd loss clip update c.p c.X c.y o).1).1.x0 :=
      ⟨t :: ts, .cons h1 h3, by rw [List.flatten_cons]; exact applied_append h2 h4⟩
    unfold calls
    dsimp only
    split
    · exact hstop
    · exact hstop
    · exact hgo

/-- C145: after a call that returns, a whole number of epochs has been applied; after a call that throws because it did not
converge, all epochs have been applied, and a repeated call goes on from there. -/
theorem C145_sgd_epochs (loss : LossFn α W) (clip : W → W) (update : W → W → α → Res W)
    (he : ∀ X y w e, loss.evaluate X y w ≠ .throw e) (hg : ∀ X y w e, loss.gradient X y w ≠ .throw e)
    (hu : ∀ w g lr e, update w g lr ≠ .throw e) (c : Call α) (hc : c.Planned) (o : Obj W) :
    ((optimizeSgd loss clip update c.p c.X c.y o).2 = .ok () → ∃ e, 1 ≤ e ∧ e ≤ c.p.maxIter ∧
      Applied (Stepped (sgdStep loss clip update)) o.x0 (c.epochs e) (optimizeSgd loss clip update c.p c.X c.y o).1.x0) ∧
    (∀ x, (optimizeSgd loss clip update c.p c.X c.y o).2 = .throw x →
      Applied (Stepped (sgdStep loss clip update)) o.x0 (c.epochs c.p.maxIter)
        (optimizeSgd loss clip update c.p c.X c.y o).1.x0) := by
  obtain ⟨t, _, h2, h3, h4⟩ := sgd_call loss clip update c hc o
  refine ⟨fun h => ?_, fun x h => ?_⟩
  · obtain ⟨e, h5, h6, rfl⟩ := h3 h
    exact ⟨e, h5, h6, h2⟩
  · rw [← h4 he hg hu x h]
    exact h2

/-- C145: with constant learning rate and without shuffling, calling again after each failure is like asking for more epochs: if
`k` calls throw, and so does one call with `k` times as many epochs, the weights are the same. -/
theorem C145_sgd_retry (loss : LossFn α W) (clip : W → W) (update : W → W → α → Res W)
    (he : ∀ X y w e, loss.evaluate X y w ≠ .throw e) (hg : ∀ X y w e, loss.gradient X y w ≠ .throw e)
    (hu : ∀ w g lr e, update w g lr ≠ .throw e) (p : Params α) (hb : p.batchSize ≠ 0) (hs : p.shuffle = none) (lr : α)
    (hlr : ∀ i, p.decay i = .ok lr) (X : DMat α) (y : List α) (o : Obj W) (k : Nat)
    (hk : (calls (fun _ : Unit => optimizeSgd loss clip update p X y) (List.replicate k ()) o).2 =
      List.replicate k (.throw .runtimeError))
    (h1 : (optimizeSgd loss clip update { p with maxIter := k * p.maxIter } X y o).2 = .throw .runtimeError) :
    (calls (fun _ : Unit => optimizeSgd loss clip update p X y) (List.replicate k ()) o).1.x0 =
      (optimizeSgd loss clip update { p with maxIter := k * p.maxIter } X y o).1.x0 := by
  let c : Nat → Call α := fun n => ⟨{ p with maxIter := n }, X, y, fun _ => lr, fun _ => (X, y)⟩
  have hc : ∀ n, (c n).Planned := fun n =>
    ⟨hb, fun i _ => hlr i, rfl, fun i _ => by simp only [c, hs, shuffleXY]⟩
  have hep : ∀ n, (c n).epochs n =
      (List.replicate n ((List.range' 0 (X.nrows / p.batchSize)).map (batchOf p.batchSize lr (X, y)))).flatten := by
    intro n
    simp only [Call.epochs, batches, c, List.flatMap_def]
    congr 1
    rw [List.eq_replicate_iff]
    simp
  have hmany : ∀ k o, (calls (fun _ : Unit => optimizeSgd loss clip update p X y) (List.replicate k ()) o).2 =
      List.replicate k (.throw .runtimeError) →
      Applied (Stepped (sgdStep loss clip update)) o.x0 ((c (k * p.maxIter)).epochs (k * p.maxIter))
        (calls (fun _ : Unit => optimizeSgd loss clip update p X y) (List.replicate k ()) o).1.x0 := by
    intro k
    induction k with
    | zero =>
      intro o _
      rw [hep]
      simp only [Nat.zero_mul, List.replicate_zero, List.flatten_nil]
      exact .nil _
    | succ k ih =>
      intro o h
      rw [List.replicate_succ, List.replicate_succ] at h
      rw [List.replicate_succ]
      have h2 := (C145_sgd_epochs loss clip update he hg hu (c p.maxIter) (hc _) o).2
      unfold calls at h ⊢
      change ∀ x, (optimizeSgd loss clip update p X y o).2 = .throw x → Applied _ _ _ (optimizeSgd loss clip update p X y o).1.x0 at h2
      dsimp only at h ⊢
      generalize optimizeSgd loss clip update p X y o = r at h h2 ⊢
      obtain ⟨o', r⟩ := r
      cases r with
      | ok u => cases u; simp at h
      | ub => simp at h
      | diverge => simp at h
      | throw e =>
        have h3 := ih o' (List.cons.inj h).2
        have h4 := applied_append (h2 e rfl) h3
        have h5 : (c p.maxIter).epochs p.maxIter ++ (c (k * p.maxIter)).epochs (k * p.maxIter) =
            (c ((k + 1) * p.maxIter)).epochs ((k + 1) * p.maxIter) := by
          rw [hep, hep, hep, ← List.flatten_append, List.replicate_append_replicate]
          congr 2
          rw [Nat.succ_mul]
          omega
        rw [← h5]
        exact h4
  refine applied_unique (fun s e a b ha hb => ?_) (hmany k o hk)
    ((C145_sgd_epochs loss clip update he hg hu (c (k * p.maxIter)) (hc _) o).2 _ h1)
  unfold Stepped at ha hb
  rw [ha] at hb
  cases hb
  rfl

/-- C145: without shuffling, `k` calls of coordinate descent with `m` iterations are one with `k * m` iterations. -/
theorem C145_scd_resume (loss : LossFn α (List α)) (l1Ratio lambda : α) (m k : Nat) (hk : 0 < k) (X : DMat α) (y : List α)
    (o : Obj (List α)) (h : (optimizeScd loss l1Ratio lambda (k * m) none X y o).2 = .ok ()) :
    calls (fun _ : Unit => optimizeScd loss l1Ratio lambda m none X y) (List.replicate k ()) o =
      ((optimizeScd loss l1Ratio lambda (k * m) none X y o).1, List.replicate k (.ok ())) := by
  obtain ⟨k, rfl⟩ : ∃ k', k = k' + 1 := ⟨k - 1, by omega⟩
  clear hk
  have heq : ∀ (m : Nat) (o : Obj (List α)), optimizeScd loss l1Ratio lambda m none X y o =
      finish o.coef (scdLoop loss l1Ratio lambda none m 0 X y o.x0).1 (scdLoop loss l1Ratio lambda none m 0 X y o.x0).2 :=
    fun _ _ => rfl
  have hfin : ∀ (a b : Option (List α)) (w : List α) (r : Res Unit), (finish a w r).2 = .ok () → finish a w r = finish b w r := by
    intro a b w r hr
    cases r with
    | ok u => rfl
    | throw e => cases hr
    | ub => cases hr
    | diverge => cases hr
  induction k generalizing o with
  | zero =>
    rw [Nat.zero_add, Nat.one_mul] at h ⊢
    rw [List.replicate_one, calls_cons_ok (fun _ : Unit => optimizeScd loss l1Ratio lambda m none X y) _ _ _ _ (Prod.ext rfl h)]
    rfl
  | succ k ih =>
    have e : (k + 1 + 1) * m = m + (k + 1) * m := by rw [Nat.succ_mul]; omega
    have hs := scdLoop_add loss l1Ratio lambda m ((k + 1) * m) 0 X y o.x0
    rw [heq, e, hs] at h ⊢
    have h1 := heq m o
    rw [List.replicate_succ, List.replicate_succ]
    generalize scdLoop loss l1Ratio lambda none m 0 X y o.x0 = r at h h1 ⊢
    obtain ⟨w, r⟩ := r
    cases r with
    | throw e => cases h
    | ub => cases h
    | diverge => cases h
    | ok u =>
      simp only [andThen_ok] at h ⊢
      rw [calls_cons_ok (fun _ : Unit => optimizeScd loss l1Ratio lambda m none X y) _ _ _ _ h1]
      have h2 := hfin _ (some w) _ _ h
      rw [h2] at h ⊢
      have h3 := ih ⟨w, some w⟩ h
      rw [List.replicate_succ] at h3
      dsimp only
      rw [h3]
      rfl

/-- C145: calls of `LBFGS::optimize` do not influence each other: each starts at the weights given to the constructor. But
`get_coef` answers with the result of the last call that computed one; a call whose data are already minimised by the initial
weights leaves the coefficients of earlier data in place. -/
theorem C145_lbfgs (sqrt : α → α) (p : LBFGS.Params α) (junk : Nat → α) (fuel : Nat) (loss : LossFn α (List α))
    (cs : List (DMat α × List α)) (o : Obj (List α))
    (hcs : ∀ c ∈ cs, LBFGS.optimize sqrt p junk fuel loss c.1 c.2 o.x0 ≠ .ub ∧
      LBFGS.optimize sqrt p junk fuel loss c.1 c.2 o.x0 ≠ .diverge) :
    (calls (fun c => optimizeLbfgs sqrt p junk fuel loss c.1 c.2) cs o).1.x0 = o.x0 ∧
    (calls (fun c => optimizeLbfgs sqrt p junk fuel loss c.1 c.2) cs o).2 =
      cs.map (fun c => LBFGS.optimize sqrt p junk fuel loss c.1 c.2 o.x0 >>= fun _ => .ok ()) ∧
    getCoef (calls (fun c => optimizeLbfgs sqrt p junk fuel loss c.1 c.2) cs o).1 =
      lastSome (getCoef o) (cs.map fun c =>
        match LBFGS.optimize sqrt p junk fuel loss c.1 c.2 o.x0 with
        | .ok r => r
        | _ => none) := by
  induction cs generalizing o with
  | nil => exact ⟨rfl, rfl, rfl⟩
  | cons c cs ih =>
    have hc := hcs c (by simp)
    have ih1 := fun q => ih ⟨o.x0, q⟩ (fun c hc => hcs c (List.mem_cons_of_mem _ hc))
    have hcall : optimizeLbfgs sqrt p junk fuel loss c.1 c.2 o =
        andThen o (LBFGS.optimize sqrt p junk fuel loss c.1 c.2 o.x0) fun r =>
          match r with
          | none => (o, .ok ())
          | some x => (⟨o.x0, some x⟩, .ok ()) := rfl
    rw [List.map_cons, List.map_cons]
    generalize LBFGS.optimize sqrt p junk fuel loss c.1 c.2 o.x0 = r at hc hcall ⊢
    cases r with
    | ub => exact absurd rfl hc.1
    | diverge => exact absurd rfl hc.2
    | throw e =>
      obtain ⟨h1, h2, h3⟩ := ih1 o.coef
      rw [calls_cons_throw (fun c : DMat α × List α => optimizeLbfgs sqrt p junk fuel loss c.1 c.2) _ _ _ _ _ hcall]
      exact ⟨h1, congrArg (List.cons _) h2, h3⟩
    | ok r =>
      cases r with
      | none =>
        obtain ⟨h1, h2, h3⟩ := ih1 o.coef
        rw [calls_cons_ok (fun c : DMat α × List α => optimizeLbfgs sqrt p junk fuel loss c.1 c.2) _ _ _ _ hcall]
        exact ⟨h1, congrArg (List.cons _) h2, h3⟩
      | some x =>
        obtain ⟨h1, h2, h3⟩ := ih1 (some x)
        rw [calls_cons_ok (fun c : DMat α × List α => optimizeLbfgs sqrt p junk fuel loss c.1 c.2) _ _ _ _ hcall]
        exact ⟨h1, congrArg (List.cons _) h2, h3⟩

end

/-- A least squares problem with one sample. -/
abbrev oneSample (b : ℚ) : DMat ℚ × List ℚ := (⟨1, [[1]]⟩, [b])

/-- SGD on that problem with two epochs per call. -/
abbrev twoEpochs : Params ℚ :=
  { maxIter := 2, batchSize := 1, noChange := 3, tol := 1 / 1000, decay := fun _ => .ok (1 / 2), shuffle := none }

/-- Beside C145_sgd_call and C145_sgd_retry: two calls of two epochs do not converge, `get_coef` is empty, and the weights are those of
one call with four epochs; three more calls converge. -/
example :
    let call := fun _ : Unit => optimizeSgd ⟨Loss.mseEvaluate 0, Loss.mseGradient 0⟩ clipGrad vanillaUpdate twoEpochs
      (oneSample 1).1 (oneSample 1).2
    calls call [(), ()] (construct [0]) = (⟨[15 / 16], none⟩, [.throw .runtimeError, .throw .runtimeError]) ∧
    optimizeSgd ⟨Loss.mseEvaluate 0, Loss.mseGradient 0⟩ clipGrad vanillaUpdate { twoEpochs with maxIter := 2 * 2 }
      (oneSample 1).1 (oneSample 1).2 (construct [0]) = (⟨[15 / 16], none⟩, .throw .runtimeError) := by
  decide +kernel

/-- Beside C145_sgd_history: a planned call. -/
example : Call.Planned ⟨twoEpochs, (oneSample 1).1, (oneSample 1).2, fun _ => 1 / 2, fun _ => oneSample 1⟩ :=
  ⟨by decide, fun _ _ => rfl, rfl, fun _ _ => rfl⟩

/-- Beside C145_sgd_epochs: mean squared error and the plain update do not throw. -/
theorem mse_never_throws (lambda : ℚ) (X : DMat ℚ) (y w g : List ℚ) (lr : ℚ) (e : Exn) :
    Loss.mseEvaluate lambda X y w ≠ .throw e ∧ Loss.mseGradient lambda X y w ≠ .throw e ∧ vanillaUpdate w g lr ≠ .throw e := by
  simp only [Loss.mseEvaluate, Loss.mseGradient, vanillaUpdate, Loss.mulVec, Loss.subV, Loss.tmulVec, Loss.addV]
  refine ⟨?_, ?_, ?_⟩
  · split
    · rw [Res.bind_ok]
      split <;> rintro ⟨⟩
    · rintro ⟨⟩
  · split
    · rw [Res.bind_ok]
      split
      · rw [Res.bind_ok]
        split
        · rw [Res.bind_ok]
          split <;> rintro ⟨⟩
        · rintro ⟨⟩
      · rintro ⟨⟩
    · rintro ⟨⟩
  · split <;> rintro ⟨⟩

/-- Beside C145_scd_call and C145_scd_resume: two calls with two iterations are one with four. -/
example :
    let loss : LossFn ℚ (List ℚ) := ⟨Loss.mseEvaluate 0, Loss.mseGradient 0⟩
    calls (fun _ : Unit => optimizeScd loss 2 (1 / 10) 2 none (oneSample 1).1 (oneSample 1).2) [(), ()] (construct [0]) =
      ((optimizeScd loss 2 (1 / 10) 4 none (oneSample 1).1 (oneSample 1).2 (construct [0])).1, [.ok (), .ok ()]) ∧
    (optimizeScd loss 2 (1 / 10) 4 none (oneSample 1).1 (oneSample 1).2 (construct [0])).2 = .ok () := by
  decide +kernel

/-- Parameters of L-BFGS for the example. -/
abbrev staleParams : LBFGS.Params ℚ :=
  ⟨10, 2, 1, 1 / 1000, 1 / 1000, "backtracking", ⟨1 / 2, 21 / 10, 1 / 10000, 9 / 10, 100, 1 / 1000, 40, "WOLFE"⟩⟩

/-- Beside C145_lbfgs: after data with target 1 the coefficient is 1; data with target 0 are minimised by the initial weight 0, the
call returns, and the coefficient is still 1. A new optimizer has no coefficients after that call. -/
example :
    let call := fun c : DMat ℚ × List ℚ => optimizeLbfgs (fun v => |v|) staleParams (fun _ => 0) 10
      ⟨Loss.mseEvaluate 0, Loss.mseGradient 0⟩ c.1 c.2
    calls call [oneSample 1, oneSample 0] (construct [0]) = (⟨[0], some [1]⟩, [.ok (), .ok ()]) ∧
    calls call [oneSample 0] (construct [0]) = (⟨[0], none⟩, [.ok ()]) := by
  decide +kernel

/-- Beside C145_sag_call and C145_tg_call: both keep their weights over a failed call. -/
example :
    (optimizeSag ⟨Loss.mseEvaluate 0, Loss.mseGradient 0⟩ vanillaUpdate twoEpochs (oneSample 1).1 (oneSample 1).2 (construct [0])) =
      (⟨[3 / 4], none⟩, .throw .runtimeError) ∧
    (optimizeTg ⟨Loss.mseEvaluate 0, Loss.mseGradient 0⟩ vanillaUpdate 0 0 twoEpochs (oneSample 1).1 (oneSample 1).2 (construct [0])) =
      (⟨[3 / 4], none⟩, .throw .runtimeError) := by
  decide +kernel

end OpenML
