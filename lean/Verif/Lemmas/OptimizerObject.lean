import Verif.Model.OptimizerObject
import Verif.Spec.OptimizerObject

/-!
# Lemmas on optimizer objects
-/

namespace OpenML.OptObject

open SGD Spec

theorem andThen_snd {S β γ : Type} (s : S) (r : Res β) (f : β → S × Res γ) : (andThen s r f).2 = r >>= fun b => (f b).2 := by
  cases r <;> rfl

@[simp] theorem andThen_ok {S β γ : Type} (s : S) (b : β) (f : β → S × Res γ) : andThen s (.ok b) f = f b := rfl

theorem calls_cons_ok {W C : Type} (call : C → Obj W → Obj W × Res Unit) (c : C) (cs : List C) (o o' : Obj W)
    (h : call c o = (o', .ok ())) :
    calls call (c :: cs) o = ((calls call cs o').1, .ok () :: (calls call cs o').2) := by
  simp [calls, h]

theorem calls_cons_throw {W C : Type} (call : C → Obj W → Obj W × Res Unit) (c : C) (cs : List C) (o o' : Obj W) (e : Exn)
    (h : call c o = (o', .throw e)) :
    calls call (c :: cs) o = ((calls call cs o').1, .throw e :: (calls call cs o').2) := by
  simp [calls, h]

section Refine
variable {α W S : Type} (loss : LossFn α W) (weights : S → W) (step : Step α S)

/-- The loop over the batches here and in `Verif.Model.SGD`. -/
theorem batchLoop_eq (b : Nat) (X : DMat α) (y : List α) (lr : α) (n j : Nat) (s : S) :
    SGD.batchLoop loss weights step b X y lr n j s =
      ((batchLoop loss weights step b X y lr n j s).2 >>= fun ls => .ok ((batchLoop loss weights step b X y lr n j s).1, ls)) := by
  induction n generalizing j s with
  | zero => rfl
  | succ n ih =>
    unfold SGD.batchLoop batchLoop
    cases h1 : middleRows X.rows (j * b) b <;> try rfl
    cases h2 : middleRows y (j * b) b <;> try rfl
    simp only [Res.bind_ok, andThen_ok]
    rename_i rows yb
    cases h3 : step s ⟨X.ncols, rows⟩ yb lr j <;> try rfl
    rename_i s'
    simp only [Res.bind_ok, andThen_ok]
    cases h4 : loss.evaluate ⟨X.ncols, rows⟩ yb (weights s') <;> try rfl
    simp only [Res.bind_ok, andThen_ok]
    rw [ih]
    cases h5 : (batchLoop loss weights step b X y lr n (j + 1) s').2 <;> rfl

variable [Field α] [LinearOrder α]

/-- The loop over the epochs here and in `Verif.Model.SGD`. -/
theorem epochLoop_eq (p : Params α) (k n iter : Nat) (X : DMat α) (y : List α) (s : S) (best : Option α) (count : Nat) :
    SGD.epochLoop loss weights step p k n iter X y s best count =
      ((epochLoop loss weights step p k n iter X y s best count).2 >>= fun _ =>
        .ok (weights (epochLoop loss weights step p k n iter X y s best count).1)) := by
  induction n generalizing iter X y s best count with
  | zero => rfl
  | succ n ih =>
    unfold SGD.epochLoop epochLoop SGD.epoch
    cases h1 : shuffleXY p.shuffle iter X y <;> try rfl
    rename_i d
    cases h2 : p.decay iter <;> try rfl
    rename_i lr
    simp only [Res.bind_ok, andThen_ok]
    rw [batchLoop_eq]
    cases h3 : (batchLoop loss weights step p.batchSize d.1 d.2 lr k 0 s).2 <;> try rfl
    rename_i ls
    simp only [Res.bind_ok, andThen_ok]
    generalize (if worse p best ls.sum = true then count + 1 else 0) = c
    by_cases hc : c ≥ p.noChange
    · rw [if_pos hc, if_pos hc]
      rfl
    · rw [if_neg hc, if_neg hc]
      exact ih _ _ _ _ _ _

/-- `optimize` as a member function and as a function of the initial weights. -/
theorem optimizeMini_spec (init : DMat α → W → S) (p : Params α) (X : DMat α) (y : List α) (o : Obj W) :
    (optimizeMini loss weights step init p X y o).2 =
        (SGD.optimize loss weights step p X y (init X o.x0) >>= fun _ => .ok ()) ∧
    (∀ w, SGD.optimize loss weights step p X y (init X o.x0) = .ok w →
      (optimizeMini loss weights step init p X y o).1 = ⟨w, some w⟩) ∧
    ((∀ w, SGD.optimize loss weights step p X y (init X o.x0) ≠ .ok w) →
      (optimizeMini loss weights step init p X y o).1.coef = o.coef) := by
  unfold optimizeMini SGD.optimize
  by_cases hb : p.batchSize = 0
  · simp [hb]
  · simp only [if_neg hb]
    rw [epochLoop_eq]
    generalize epochLoop loss weights step p (X.nrows / p.batchSize) p.maxIter 0 X y (init X o.x0) none 0 = r
    obtain ⟨s, r⟩ := r
    cases r with
    | ok u => cases u; simp [finish]
    | throw e => exact ⟨rfl, by rintro w ⟨⟩, fun _ => rfl⟩
    | ub => exact ⟨rfl, by rintro w ⟨⟩, fun _ => rfl⟩
    | diverge => exact ⟨rfl, by rintro w ⟨⟩, fun _ => rfl⟩

end Refine

section History
variable {α W S : Type}

theorem applied_append {S E : Type} {step : S → E → S → Prop} {s s' s'' : S} {a b : List E} (h1 : Applied step s a s')
    (h2 : Applied step s' b s'') : Applied step s (a ++ b) s'' := by
  induction h1 with
  | nil _ => exact h2
  | cons h _ ih => exact .cons h (ih h2)

theorem applied_unique {S E : Type} {step : S → E → S → Prop} (hu : ∀ s e a b, step s e a → step s e b → a = b) {s a b : S}
    {es : List E} (h1 : Applied step s es a) (h2 : Applied step s es b) : a = b := by
  induction h1 with
  | nil _ => cases h2; rfl
  | cons h _ ih =>
    cases h2 with
    | cons h' t' => cases hu _ _ _ _ h h'; exact ih t'

/-- A step of the model as a relation. -/
def Stepped (step : Step α S) (s : S) (e : Batch α) (s' : S) : Prop := step s e.X e.y e.lr e.num = .ok s'

variable (loss : LossFn α W) (weights : S → W) (step : Step α S)

theorem batchLoop_applied (b : Nat) (X : DMat α) (y : List α) (lr : α) (n j : Nat) (s : S) :
    ∃ t, t <+: (List.range' j n).map (batchOf b lr (X, y)) ∧
      Applied (Stepped step) s t (batchLoop loss weights step b X y lr n j s).1 ∧
      (((∃ ls, (batchLoop loss weights step b X y lr n j s).2 = .ok ls)) → t = (List.range' j n).map (batchOf b lr (X, y))) := by
  induction n generalizing j s with
  | zero => exact ⟨[], List.nil_prefix, .nil _, fun _ => rfl⟩
  | succ n ih =>
    have stop : ∀ r : S × Res (List α), r.1 = s → (∀ ls, r.2 ≠ .ok ls) →
        ∃ t, t <+: (List.range' j (n + 1)).map (batchOf b lr (X, y)) ∧ Applied (Stepped step) s t r.1 ∧
          ((∃ ls, r.2 = .ok ls) → t = (List.range' j (n + 1)).map (batchOf b lr (X, y))) := by
      rintro r rfl h
      exact ⟨[], List.nil_prefix, .nil _, fun ⟨ls, e⟩ => absurd e (h ls)⟩
    unfold batchLoop
    cases h1 : middleRows X.rows (j * b) b <;> try (exact stop _ rfl (by rintro ls ⟨⟩))
    cases h2 : middleRows y (j * b) b <;> try (exact stop _ rfl (by rintro ls ⟨⟩))
    rename_i rows yb
    simp only [andThen_ok]
    cases h3 : step s ⟨X.ncols, rows⟩ yb lr j <;> try (exact stop _ rfl (by rintro ls ⟨⟩))
    rename_i s'
    simp only [andThen_ok]
    have hev : Stepped step s (batchOf b lr (X, y) j) s' := by
      unfold middleRows at h1 h2
      split at h1 <;> cases h1
      split at h2 <;> cases h2
      exact h3
    rw [List.range'_succ, List.map_cons]
    have stop' : ∀ r : S × Res (List α), r.1 = s' → (∀ ls, r.2 ≠ .ok ls) →
        ∃ t, t <+: batchOf b lr (X, y) j :: (List.range' (j + 1) n).map (batchOf b lr (X, y)) ∧
          Applied (Stepped step) s t r.1 ∧
          ((∃ ls, r.2 = .ok ls) → t = batchOf b lr (X, y) j :: (List.range' (j + 1) n).map (batchOf b lr (X, y))) := by
      rintro r rfl h
      exact ⟨[batchOf b lr (X, y) j], ⟨_, rfl⟩, .cons hev (.nil _), fun ⟨ls, e⟩ => absurd e (h ls)⟩
    cases h4 : loss.evaluate ⟨X.ncols, rows⟩ yb (weights s') <;> try (exact stop' _ rfl (by rintro ls ⟨⟩))
    simp only [andThen_ok]
    obtain ⟨t, ht, ha, hok⟩ := ih (j + 1) s'
    generalize batchLoop loss weights step b X y lr n (j + 1) s' = r at ha hok ⊢
    obtain ⟨s'', r⟩ := r
    refine ⟨batchOf b lr (X, y) j :: t, List.cons_prefix_cons.mpr ⟨rfl, ht⟩, ?_, ?_⟩
    · cases r <;> exact .cons hev ha
    · rintro ⟨ls, e⟩
      cases r with
      | ok ls' => rw [hok ⟨ls', rfl⟩]
      | throw _ => cases e
      | ub => cases e
      | diverge => cases e

theorem batchLoop_no_throw (hs : ∀ s X y lr j e, step s X y lr j ≠ .throw e) (hl : ∀ X y w e, loss.evaluate X y w ≠ .throw e)
    (b : Nat) (X : DMat α) (y : List α) (lr : α) (n j : Nat) (s : S) (e : Exn) :
    (batchLoop loss weights step b X y lr n j s).2 ≠ .throw e := by
  have hm : ∀ {β : Type} (l : List β) (i m : Nat), middleRows l i m ≠ .throw e := by
    intro β l i m h
    unfold middleRows at h
    split at h <;> cases h
  induction n generalizing j s with
  | zero => rintro ⟨⟩
  | succ n ih =>
    unfold batchLoop
    rw [andThen_snd]
    cases h1 : middleRows X.rows (j * b) b with
    | throw e' => intro h; cases h; exact hm _ _ _ h1
    | ub => rintro ⟨⟩
    | diverge => rintro ⟨⟩
    | ok rows =>
      rw [Res.bind_ok, andThen_snd]
      cases h2 : middleRows y (j * b) b with
      | throw e' => intro h; cases h; exact hm _ _ _ h2
      | ub => rintro ⟨⟩
      | diverge => rintro ⟨⟩
      | ok yb =>
        rw [Res.bind_ok, andThen_snd]
        cases h3 : step s ⟨X.ncols, rows⟩ yb lr j with
        | throw e' => intro h; cases h; exact hs _ _ _ _ _ _ h3
        | ub => rintro ⟨⟩
        | diverge => rintro ⟨⟩
        | ok s' =>
          rw [Res.bind_ok, andThen_snd]
          cases h4 : loss.evaluate ⟨X.ncols, rows⟩ yb (weights s') with
          | throw e' => intro h; cases h; exact hl _ _ _ _ h4
          | ub => rintro ⟨⟩
          | diverge => rintro ⟨⟩
          | ok l =>
            rw [Res.bind_ok, andThen_snd]
            have := ih (j + 1) s'
            cases h5 : (batchLoop loss weights step b X y lr n (j + 1) s').2 with
            | throw e' => intro h; cases h; exact this h5
            | ub => rintro ⟨⟩
            | diverge => rintro ⟨⟩
            | ok ls => rintro ⟨⟩

variable [Field α] [LinearOrder α]

theorem epochLoop_applied (p : Params α) (k N : Nat) (lr : Nat → α) (D : Nat → DMat α × List α)
    (hlr : ∀ i < N, p.decay i = .ok (lr i)) (hD : ∀ i < N, shuffleXY p.shuffle i (D i).1 (D i).2 = .ok (D (i + 1)))
    (n iter : Nat) (hn : iter + n = N) (s : S) (best : Option α) (count : Nat) :
    ∃ t, t <+: batches p.batchSize k lr D iter n ∧
      Applied (Stepped step) s t (epochLoop loss weights step p k n iter (D iter).1 (D iter).2 s best count).1 ∧
      ((epochLoop loss weights step p k n iter (D iter).1 (D iter).2 s best count).2 = .ok () →
        ∃ e, 1 ≤ e ∧ e ≤ n ∧ t = batches p.batchSize k lr D iter e) ∧
      ((∀ X y lr s e, (batchLoop loss weights step p.batchSize X y lr k 0 s).2 ≠ .throw e) →
        ∀ e, (epochLoop loss weights step p k n iter (D iter).1 (D iter).2 s best count).2 = .throw e →
          t = batches p.batchSize k lr D iter n) := by
  induction n generalizing iter s best count with
  | zero => exact ⟨[], List.nil_prefix, .nil _, (by rintro ⟨⟩), fun _ _ _ => rfl⟩
  | succ n ih =>
    unfold epochLoop
    rw [hD iter (by omega), hlr iter (by omega)]
    simp only [andThen_ok]
    obtain ⟨t, ht, ha, hok⟩ := batchLoop_applied loss weights step p.batchSize (D (iter + 1)).1 (D (iter + 1)).2 (lr iter) k 0 s
    have hb : batches p.batchSize k lr D iter (n + 1) =
        (List.range' 0 k).map (batchOf p.batchSize (lr iter) (D (iter + 1))) ++ batches p.batchSize k lr D (iter + 1) n := by
      simp [batches, List.range'_succ]
    have hb1 : batches p.batchSize k lr D iter 1 = (List.range' 0 k).map (batchOf p.batchSize (lr iter) (D (iter + 1))) := by
      simp [batches]
    rw [hb]
    have hgood := fun h : (∀ X y lr s e, (batchLoop loss weights step p.batchSize X y lr k 0 s).2 ≠ .throw e) =>
      h (D (iter + 1)).1 (D (iter + 1)).2 (lr iter) s
    generalize batchLoop loss weights step p.batchSize (D (iter + 1)).1 (D (iter + 1)).2 (lr iter) k 0 s = r at ha hok hgood ⊢
    obtain ⟨s', r⟩ := r
    have fail : ∀ q : S × Res Unit, q.1 = s' → q.2 ≠ .ok () → (∀ e, q.2 = .throw e → r = .throw e) →
        ∃ t, t <+: (List.range' 0 k).map (batchOf p.batchSize (lr iter) (D (iter + 1))) ++ batches p.batchSize k lr D (iter + 1) n ∧
          Applied (Stepped step) s t q.1 ∧
          (q.2 = .ok () → ∃ e, 1 ≤ e ∧ e ≤ n + 1 ∧ t = batches p.batchSize k lr D iter e) ∧
          ((∀ X y lr s e, (batchLoop loss weights step p.batchSize X y lr k 0 s).2 ≠ .throw e) →
            ∀ e, q.2 = .throw e → t = (List.range' 0 k).map (batchOf p.batchSize (lr iter) (D (iter + 1))) ++
              batches p.batchSize k lr D (iter + 1) n) := by
      rintro q rfl hq hr
      exact ⟨t, ht.trans (List.prefix_append _ _), ha, fun e => absurd e hq, fun h e he => absurd (hr e he) (hgood h e)⟩
    cases r with
    | throw e => exact fail _ rfl (by rintro ⟨⟩) (by rintro _ ⟨⟩; rfl)
    | ub => exact fail _ rfl (by rintro ⟨⟩) (by rintro _ ⟨⟩)
    | diverge => exact fail _ rfl (by rintro ⟨⟩) (by rintro _ ⟨⟩)
    | ok ls =>
      simp only [andThen_ok]
      have hte := hok ⟨ls, rfl⟩
      dsimp only at ha hte
      generalize (if worse p best ls.sum = true then count + 1 else 0) = c
      by_cases hc : c ≥ p.noChange
      · rw [if_pos hc]
        exact ⟨t, ht.trans (List.prefix_append _ _), ha, fun _ => ⟨1, le_refl _, by omega, by rw [hte, hb1]⟩, by rintro _ e ⟨⟩⟩
      · rw [if_neg hc]
        obtain ⟨t', ht', ha', hok', hth'⟩ := ih (iter + 1) (by omega) s' (some (newBest best ls.sum)) c
        refine ⟨t ++ t', ?_, applied_append ha ha', ?_, ?_⟩
        · rw [hte]
          exact (List.prefix_append_right_inj _).mpr ht'
        · intro h
          obtain ⟨e, h1, h2, h3⟩ := hok' h
          refine ⟨e + 1, by omega, by omega, ?_⟩
          rw [hte, h3]
          simp [batches, List.range'_succ]
        · intro h e he
          rw [hte, hth' h e he]

end History

section Scd
variable {α : Type} [Field α] [LinearOrder α] (loss : LossFn α (List α)) (l1Ratio lambda : α) (shuffle : Option (Nat → List Nat))

theorem scdLoop_eq (n iter : Nat) (X : DMat α) (y w : List α) :
    SCD.scdLoop loss l1Ratio lambda shuffle n iter X y w =
      ((scdLoop loss l1Ratio lambda shuffle n iter X y w).2 >>= fun _ => .ok (scdLoop loss l1Ratio lambda shuffle n iter X y w).1) := by
  induction n generalizing iter X y w with
  | zero => rfl
  | succ n ih =>
    unfold SCD.scdLoop scdLoop
    cases h1 : shuffleXY shuffle iter X y <;> try rfl
    rename_i d
    simp only [Res.bind_ok, andThen_ok]
    cases h2 : SCD.scdStep loss l1Ratio lambda d.1 d.2 w <;> try rfl
    simp only [Res.bind_ok, andThen_ok]
    exact ih _ _ _ _

/-- Without shuffling the iterations can be split. -/
theorem scdLoop_add (m n iter : Nat) (X : DMat α) (y w : List α) :
    scdLoop loss l1Ratio lambda none (m + n) iter X y w =
      andThen (scdLoop loss l1Ratio lambda none m iter X y w).1 (scdLoop loss l1Ratio lambda none m iter X y w).2 fun _ =>
        scdLoop loss l1Ratio lambda none n 0 X y (scdLoop loss l1Ratio lambda none m iter X y w).1 := by
  have hiter : ∀ n i j (w : List α), scdLoop loss l1Ratio lambda none n i X y w = scdLoop loss l1Ratio lambda none n j X y w := by
    intro n
    induction n with
    | zero => intros; rfl
    | succ n ih =>
      intro i j w
      unfold scdLoop
      simp only [shuffleXY, andThen_ok]
      cases SCD.scdStep loss l1Ratio lambda X y w <;> try rfl
      exact ih _ _ _
  induction m generalizing iter w with
  | zero => rw [Nat.zero_add]; exact hiter _ _ _ _
  | succ m ih =>
    have hs : ∀ m, scdLoop loss l1Ratio lambda none (m + 1) iter X y w =
        andThen w (SCD.scdStep loss l1Ratio lambda X y w) fun w' => scdLoop loss l1Ratio lambda none m (iter + 1) X y w' :=
      fun _ => rfl
    rw [show m + 1 + n = (m + n) + 1 by omega, hs, hs]
    cases h : SCD.scdStep loss l1Ratio lambda X y w <;> try rfl
    simp only [andThen_ok]
    exact ih _ _

end Scd

end OpenML.OptObject
