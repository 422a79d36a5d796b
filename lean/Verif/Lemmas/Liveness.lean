import Verif.Lemmas.Descent
import Verif.Props.SGD

/-!
# Runs of the mini-batch optimizers exist and stall
-/

namespace OpenML.Liveness

open Spec Loss SGD
open scoped BigOperators

/-- Losses that are bounded below stall: an improving epoch lowers the best loss by the slack. -/
theorem stall {α : Type} [Field α] [LinearOrder α] [IsStrictOrderedRing α] (slack c : α) (L : Nat → α) (m N : Nat)
    (hc : ∀ i ≤ N * m, c ≤ L i) (h0 : L 0 - c < N * slack) : ∃ i ≤ N * m, Stalled slack L m i := by
  by_contra hno
  push Not at hno
  have key : ∀ k ≤ N, ∃ e ≤ k * m, L e ≤ L 0 - k * slack := by
    intro k
    induction k with
    | zero => intro _; exact ⟨0, by omega, by simp⟩
    | succ k ih =>
      intro hk
      obtain ⟨e, he, hle⟩ := ih (by omega)
      have h1 := hno ((k + 1) * m) (Nat.mul_le_mul_right m hk)
      unfold Stalled at h1
      push Not at h1
      obtain ⟨j, hj, hlt, hj'⟩ := h1
      have hkm : (k + 1) * m = k * m + m := Nat.succ_mul k m
      unfold NonImproving at hj'
      push Not at hj'
      have h2 := hj' e (by omega)
      refine ⟨j, hj, h2.trans ?_⟩
      push_cast
      linarith
  obtain ⟨e, he, hle⟩ := key N le_rfl
  have := hc e he
  linarith

/-- Sequences by repeated choice. -/
theorem sequence {A : Type} (P : A → Prop) (R : Nat → A → A → Prop) (h : ∀ i a, P a → ∃ b, P b ∧ R i a b) (a : A) (ha : P a) :
    ∃ f : Nat → A, f 0 = a ∧ ∀ i, P (f i) ∧ R i (f i) (f (i + 1)) := by
  choose g hg using h
  let f : Nat → {a // P a} := fun n => Nat.rec ⟨a, ha⟩ (fun i q => ⟨g i q.1 q.2, (hg i q.1 q.2).1⟩) n
  exact ⟨fun n => (f n).1, rfl, fun i => ⟨(f i).2, (hg i (f i).1 (f i).2).2⟩⟩

section Run
variable {S W : Type} (loss : LossFn ℝ W) (weights : S → W) (step : Step ℝ S) (Inv : S → Prop) (lab : ℝ → Prop) (d b k : Nat)

/-- Steps and evaluations succeed on batches of `b` samples with `d` features, and losses are not negative. -/
structure Succeeds : Prop where
  step : ∀ s X y lr, ∀ j < k, Inv s → X.WF → X.ncols = d → X.nrows = b → y.length = b → (∀ a ∈ y, lab a) →
    ∃ s', step s X y lr j = .ok s' ∧ Inv s'
  evaluate : ∀ s X y, Inv s → X.WF → X.ncols = d → X.nrows = b → y.length = b → (∀ a ∈ y, lab a) →
    ∃ a, loss.evaluate X y (weights s) = .ok a ∧ 0 ≤ a

variable {loss weights step Inv lab d b k}

theorem exists_pass (hs : Succeeds loss weights step Inv lab d b k) (X : DMat ℝ) (hX : X.WF) (hd : X.ncols = d) (y : List ℝ)
    (hy : y.length = X.nrows) (hlab : ∀ a ∈ y, lab a) (hk : k * b ≤ X.nrows) (lr : ℝ) (s : S) (hi : Inv s) :
    ∃ s' total, Inv s' ∧ 0 ≤ total ∧ IsPass loss weights step b k X y lr s s' total := by
  have hlen : ∀ j < k, (j + 1) * b ≤ X.rows.length := fun j hj => (Nat.mul_le_mul_right b hj).trans hk
  have hb : ∀ {β : Type} (l : List β), l.length = X.rows.length → ∀ j < k, (batch b j l).length = b := by
    intro β l hl j hj
    have h1 := hlen j hj
    rw [Nat.succ_mul] at h1
    unfold batch
    rw [List.length_take, List.length_drop, hl]
    omega
  have hmem : ∀ {β : Type} (l : List β) (j : Nat), ∀ a ∈ batch b j l, a ∈ l := fun l j a ha =>
    List.mem_of_mem_drop (List.mem_of_mem_take ha)
  obtain ⟨t, ht0, ht⟩ := sequence Inv (fun j s s' => j < k →
      step s ⟨X.ncols, batch b j X.rows⟩ (batch b j y) lr j = .ok s' ∧
        ∃ a, loss.evaluate ⟨X.ncols, batch b j X.rows⟩ (batch b j y) (weights s') = .ok a ∧ 0 ≤ a) (by
    intro j s hi
    by_cases hj : j < k
    · have hWF : (⟨X.ncols, batch b j X.rows⟩ : DMat ℝ).WF := fun r hr => hX r (hmem _ j r hr)
      have hyb : ∀ a ∈ batch b j y, lab a := fun a ha => hlab a (hmem y j a ha)
      obtain ⟨s', h1, h2⟩ := hs.step s ⟨X.ncols, batch b j X.rows⟩ (batch b j y) lr j hj hi hWF hd (hb X.rows rfl j hj)
        (hb y hy j hj) hyb
      exact ⟨s', h2, fun _ => ⟨h1, hs.evaluate s' ⟨X.ncols, batch b j X.rows⟩ (batch b j y) h2 hWF hd (hb X.rows rfl j hj)
        (hb y hy j hj) hyb⟩⟩
    · exact ⟨s, hi, fun h => absurd h hj⟩) s hi
  have hl : ∀ j, ∃ a, 0 ≤ a ∧ (j < k → loss.evaluate ⟨X.ncols, batch b j X.rows⟩ (batch b j y) (weights (t (j + 1))) = .ok a) := by
    intro j
    by_cases hj : j < k
    · obtain ⟨_, a, h1, h2⟩ := (ht j).2 hj
      exact ⟨a, h2, fun _ => h1⟩
    · exact ⟨0, le_rfl, fun h => absurd h hj⟩
  choose l hl0 hl using hl
  exact ⟨t k, _, (ht k).1, Finset.sum_nonneg fun j _ => hl0 j, t, l, ht0, rfl, rfl, fun j hj =>
    ⟨hlen j hj, (hlen j hj).trans hy.ge, ((ht j).2 hj).1, hl j hj⟩⟩

theorem exists_epochs (p : Params ℝ) (X : DMat ℝ) (hs : Succeeds loss weights step Inv lab X.ncols p.batchSize (X.nrows / p.batchSize))
    (hX : X.WF) (y : List ℝ) (hy : y.length = X.nrows) (hlab : ∀ a ∈ y, lab a)
    (hp : ∀ q, p.shuffle = some q → ∀ i, (q i).Perm (List.range X.nrows)) (he : ∀ i, ∃ lr, p.decay i = .ok lr) (s : S) (hi : Inv s) :
    ∃ D st L, (∀ i, 0 ≤ L i) ∧ ∀ n, IsRun loss weights step p (X.nrows / p.batchSize) X y s n D st L := by
  obtain ⟨f, hf0, hf⟩ := sequence
    (fun q : (DMat ℝ × List ℝ) × S => q.1.1.ncols = X.ncols ∧ q.1.1.WF ∧ q.1.2.length = q.1.1.nrows ∧
      (q.1.1.rows.zip q.1.2).Perm (X.rows.zip y) ∧ q.1.1.nrows = X.nrows ∧ Inv q.2)
    (fun i q q' => ∃ l, 0 ≤ l ∧ shuffleXY p.shuffle i q.1.1 q.1.2 = .ok q'.1 ∧ ∃ lr, p.decay i = .ok lr ∧
      IsPass loss weights step p.batchSize (X.nrows / p.batchSize) q'.1.1 q'.1.2 lr q.2 q'.2 l) (by
    rintro i ⟨⟨X1, y1⟩, s1⟩ ⟨g1, g2, g3, g4, g5, g6⟩
    dsimp only at g1 g2 g3 g4 g5 g6
    obtain ⟨⟨X2, y2⟩, hsh, f1, f2, f3, f4, f5⟩ := C47_shuffle_pairs p.shuffle i X1 g2 y1 g3 (fun q hq => by rw [g5]; exact hp q hq i)
    obtain ⟨lr, hlr⟩ := he i
    dsimp only at f1 f2 f3 f4 f5
    have hperm : (X2.rows.zip y2).Perm (X.rows.zip y) := f4.trans g4
    have hl2 : ∀ a ∈ y2, lab a := by
      intro a ha
      have h1 : (X2.rows.zip y2).map Prod.snd = y2 := List.map_snd_zip f3.le
      rw [← h1] at ha
      obtain ⟨q, hq, rfl⟩ := List.mem_map.mp ha
      exact hlab _ (List.of_mem_zip (hperm.mem_iff.mp hq)).2
    obtain ⟨s2, l, h1, h2, h3⟩ := exists_pass hs X2 f2 (f1.trans g1) y2 f3 hl2
      (by rw [f5, g5]; exact Nat.div_mul_le_self _ _) lr s1 g6
    exact ⟨⟨(X2, y2), s2⟩, ⟨f1.trans g1, f2, f3, hperm, f5.trans g5, h1⟩, l, h2, hsh, lr, hlr, h3⟩)
    ((X, y), s) ⟨rfl, hX, hy, List.Perm.refl _, rfl, hi⟩
  choose L hL0 hL using fun i => (hf i).2
  exact ⟨fun i => (f i).1, fun i => (f i).2, L, hL0, fun n => ⟨congrArg Prod.fst hf0, congrArg Prod.snd hf0, fun i _ => hL i⟩⟩

/-- Given enough epochs, weights are published, and more epochs do not change them. -/
theorem publishes (p : Params ℝ) (hb : p.batchSize ≠ 0) (ht : 0 < p.tol) (X : DMat ℝ)
    (hs : Succeeds loss weights step Inv lab X.ncols p.batchSize (X.nrows / p.batchSize))
    (hX : X.WF) (y : List ℝ) (hy : y.length = X.nrows) (hlab : ∀ a ∈ y, lab a)
    (hp : ∀ q, p.shuffle = some q → ∀ i, (q i).Perm (List.range X.nrows)) (he : ∀ i, ∃ lr, p.decay i = .ok lr) (s : S) (hi : Inv s) :
    ∃ M w, ∀ n, optimize loss weights step { p with maxIter := n } X y s = if M < n then .ok w else .throw .runtimeError := by
  obtain ⟨D, st, L, h0, hr⟩ := exists_epochs p X hs hX y hy hlab hp he s hi
  have hslack : 0 < p.tol * (p.batchSize : ℝ) := mul_pos ht (by exact_mod_cast Nat.pos_of_ne_zero hb)
  obtain ⟨N, hN⟩ := exists_nat_gt (L 0 / (p.tol * p.batchSize))
  obtain ⟨i, _, hst⟩ := stall (p.tol * (p.batchSize : ℝ)) 0 L p.noChange N (fun i _ => h0 i)
    (by rw [sub_zero]; exact (div_lt_iff₀ hslack).mp hN)
  rcases firstStall_or (p.tol * (p.batchSize : ℝ)) L p.noChange (i + 1) with ⟨M, hM, hf⟩ | hn
  · refine ⟨M, weights (st (M + 1)), fun n => ?_⟩
    split
    · rename_i hlt
      exact optimize_ok loss weights step { p with maxIter := n } hb X y s M hlt D st L (hr (M + 1)) hf
    · rename_i hge
      exact optimize_throw loss weights step { p with maxIter := n } hb X y s D st L (hr n) fun j hj => hf.2 j (by dsimp only at hj; omega)
  · exact absurd hst (hn i (by omega))

end Run

section Losses

/-- What the optimizers need of a loss. -/
structure Usable (loss : LossFn ℝ (List ℝ)) (lab : ℝ → Prop) : Prop where
  evaluate : ∀ (X : DMat ℝ) (y w : List ℝ), X.WF → y.length = X.nrows → (∀ a ∈ y, lab a) → w.length = X.ncols →
    ∃ a, loss.evaluate X y w = .ok a ∧ 0 ≤ a
  gradient : ∀ (X : DMat ℝ) (y w : List ℝ), X.WF → y.length = X.nrows → w.length = X.ncols →
    ∃ g, loss.gradient X y w = .ok g ∧ g.length = X.ncols

theorem usable_mean (loss : LossFn ℝ (List ℝ)) (phi dphi : ℝ → ℝ → ℝ) (lambda : ℝ) (hl : 0 ≤ lambda)
    (hm : Descent.IsMean loss phi dphi lambda) (lab : ℝ → Prop) (hpos : ∀ a, lab a → ∀ s, 0 ≤ phi a s) : Usable loss lab := by
  constructor
  · intro X y w hX hy hlab hw
    obtain ⟨f, rfl⟩ := exists_ofFn w hw
    refine ⟨_, hm.evaluate X hX y hy f, ?_⟩
    have := Descent.objective_nonneg phi lambda hl (X.rows.zip y) (fun q hq => hpos q.2 (hlab _ (List.of_mem_zip hq).2)) f
    rwa [Descent.objective, show (X.rows.zip y).length = X.nrows by rw [List.length_zip, hy]; exact Nat.min_self _] at this
  · intro X y w hX hy hw
    obtain ⟨f, rfl⟩ := exists_ofFn w hw
    exact ⟨_, hm.gradient X hX y hy f, by simp⟩

theorem clipGrad_length (g : List ℝ) : (clipGrad g).length = g.length := by
  unfold clipGrad MatOps.clip
  simp [List.length_flatten, Function.comp_def]

theorem vanilla_ok (w g : List ℝ) (lr : ℝ) (h : w.length = g.length) : ∃ v, vanillaUpdate w g lr = .ok v ∧ v.length = w.length := by
  unfold vanillaUpdate subV
  rw [if_pos (by simpa using h)]
  exact ⟨_, rfl, by simp [h]⟩

theorem succeeds_sgd (loss : LossFn ℝ (List ℝ)) (lab : ℝ → Prop) (h : Usable loss lab) (d b k : Nat) :
    Succeeds loss id (sgdStep loss clipGrad vanillaUpdate) (fun w => w.length = d) lab d b k := by
  constructor
  · intro w X y lr j _ hw hX hd hn hy _
    obtain ⟨g, hg, hl⟩ := h.gradient X y w hX (hy.trans hn.symm) (hw.trans hd.symm)
    obtain ⟨v, hv, hvl⟩ := vanilla_ok w (clipGrad g) lr (by rw [clipGrad_length, hl, hd, hw])
    refine ⟨v, ?_, hvl.trans hw⟩
    unfold sgdStep
    rw [hg, Res.bind_ok, hv]
  · intro w X y hw hX hd hn hy hlab
    exact h.evaluate X y w hX (hy.trans hn.symm) hlab (hw.trans hd.symm)

theorem succeeds_sag (loss : LossFn ℝ (List ℝ)) (lab : ℝ → Prop) (h : Usable loss lab) (d b k : Nat) :
    Succeeds loss SagState.w (sagStep loss vanillaUpdate b)
      (fun s => s.w.length = d ∧ s.avg.length = d ∧ s.history.length = k ∧ ∀ g ∈ s.history, g.length = d) lab d b k := by
  constructor
  · rintro s X y lr j hj ⟨hw, ha, hh, hhl⟩ hX hd hn hy _
    obtain ⟨g, hg, hl⟩ := h.gradient X y s.w hX (hy.trans hn.symm) (hw.trans hd.symm)
    have hc : (clipGrad g).length = d := by rw [clipGrad_length, hl, hd]
    have hj' : j < s.history.length := hh ▸ hj
    have ho : (s.history[j]).length = d := hhl _ (List.getElem_mem hj')
    have hd' : (List.zipWith (· - ·) (clipGrad g) s.history[j]).length = d := by simp [hc, ho]
    obtain ⟨v, hv, hvl⟩ := vanilla_ok s.w (List.zipWith (· + ·) s.avg
      ((List.zipWith (· - ·) (clipGrad g) s.history[j]).map fun a => a / (b : ℝ))) lr (by simp [hw, ha, hc, ho])
    refine ⟨⟨v, s.history.set j (clipGrad g), List.zipWith (· + ·) s.avg
      ((List.zipWith (· - ·) (clipGrad g) s.history[j]).map fun a => a / (b : ℝ))⟩, ?_, hvl.trans hw, ?_, ?_, ?_⟩
    · unfold sagStep
      rw [hg, Res.bind_ok, readAt, List.getElem?_eq_getElem hj']
      dsimp only
      rw [Res.bind_ok, subV, if_pos (hc.trans ho.symm), Res.bind_ok, addV, if_pos (by rw [ha, List.length_map, hd']), Res.bind_ok, hv,
        Res.bind_ok]
    · simp [ha, hc, ho]
    · simp [hh]
    · intro g' hg'
      rcases List.mem_or_eq_of_mem_set hg' with h1 | rfl
      · exact hhl g' h1
      · exact hc
  · rintro s X y ⟨hw, _⟩ hX hd hn hy hlab
    exact h.evaluate X y s.w hX (hy.trans hn.symm) hlab (hw.trans hd.symm)

theorem sgd_publishes (loss : LossFn ℝ (List ℝ)) (lab : ℝ → Prop) (h : Usable loss lab) (p : Params ℝ) (hb : p.batchSize ≠ 0)
    (ht : 0 < p.tol) (X : DMat ℝ) (hX : X.WF) (y : List ℝ) (hy : y.length = X.nrows) (hlab : ∀ a ∈ y, lab a)
    (hp : ∀ q, p.shuffle = some q → ∀ i, (q i).Perm (List.range X.nrows)) (he : ∀ i, ∃ lr, p.decay i = .ok lr) (w : List ℝ)
    (hw : w.length = X.ncols) :
    ∃ M w', ∀ n, sgd loss clipGrad vanillaUpdate { p with maxIter := n } X y w = if M < n then .ok w' else .throw .runtimeError :=
  publishes p hb ht X (succeeds_sgd loss lab h _ _ _) hX y hy hlab hp he w hw

theorem sag_publishes (loss : LossFn ℝ (List ℝ)) (lab : ℝ → Prop) (h : Usable loss lab) (p : Params ℝ) (hb : p.batchSize ≠ 0)
    (ht : 0 < p.tol) (X : DMat ℝ) (hX : X.WF) (y : List ℝ) (hy : y.length = X.nrows) (hlab : ∀ a ∈ y, lab a)
    (hp : ∀ q, p.shuffle = some q → ∀ i, (q i).Perm (List.range X.nrows)) (he : ∀ i, ∃ lr, p.decay i = .ok lr) (w : List ℝ)
    (hw : w.length = X.ncols) :
    ∃ M w', ∀ n, sag loss vanillaUpdate { p with maxIter := n } X y w = if M < n then .ok w' else .throw .runtimeError :=
  publishes p hb ht X (succeeds_sag loss lab h _ _ _) hX y hy hlab hp he
    { w := w, history := List.replicate (X.nrows / p.batchSize) (List.replicate X.ncols 0), avg := List.replicate X.ncols 0 }
    ⟨hw, by simp, by simp, fun g hg => by rw [List.eq_of_mem_replicate hg]; simp⟩

end Losses

end OpenML.Liveness
