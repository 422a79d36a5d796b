import Verif.Model.LinearFit
import Verif.Props.SGD
import Verif.Props.SCD
import Verif.Props.Hinge

/-!
# Lemmas about training: shapes
-/

namespace OpenML.LinearFit

open SGD Spec Loss

set_option linter.unusedSectionVars false

section
variable {α W S : Type} [Field α] (loss : LossFn α W) (weights : S → W) (step : Step α S)

theorem batchLoop_total (b k : Nat) (X : DMat α) (y : List α) (lr : α) (I : S → Prop)
    (hX : k * b ≤ X.rows.length) (hy : k * b ≤ y.length)
    (hstep : ∀ j < k, ∀ s, I s → ∃ s', step s ⟨X.ncols, batch b j X.rows⟩ (batch b j y) lr j = .ok s' ∧ I s' ∧
      ∃ l, loss.evaluate ⟨X.ncols, batch b j X.rows⟩ (batch b j y) (weights s') = .ok l)
    (n j : Nat) (hj : j + n ≤ k) (s : S) (hs : I s) :
    ∃ s' ls, batchLoop loss weights step b X y lr n j s = .ok (s', ls) ∧ I s' := by
  induction n generalizing j s with
  | zero => exact ⟨s, [], rfl, hs⟩
  | succ n ih =>
    have hle : (j + 1) * b ≤ k * b := Nat.mul_le_mul_right b (by omega)
    obtain ⟨s1, h1, h2, l, hl⟩ := hstep j (by omega) s hs
    obtain ⟨s', ls, h3, h4⟩ := ih (j + 1) (by omega) s1 h2
    refine ⟨s', l :: ls, ?_, h4⟩
    rw [batchLoop, middleRows_eq_ok.mpr ⟨by omega, rfl⟩, Res.bind_ok, middleRows_eq_ok.mpr ⟨by omega, rfl⟩, Res.bind_ok, h1,
      Res.bind_ok, hl, Res.bind_ok, h3]
    rfl

/-- If every single step succeeds, then every epoch does. -/
theorem exists_run_of_total [LinearOrder α] [IsStrictOrderedRing α] (p : Params α) (k : Nat) (P : DMat α → List α → Prop)
    (I : S → Prop) (hshuf : ∀ iter X y, P X y → ∃ d, shuffleXY p.shuffle iter X y = .ok d ∧ P d.1 d.2)
    (hdec : ∀ i, ∃ lr, p.decay i = .ok lr)
    (hrows : ∀ X y, P X y → k * p.batchSize ≤ X.rows.length ∧ k * p.batchSize ≤ y.length)
    (hstep : ∀ X y, P X y → ∀ lr, ∀ j < k, ∀ s, I s →
      ∃ s', step s ⟨X.ncols, batch p.batchSize j X.rows⟩ (batch p.batchSize j y) lr j = .ok s' ∧ I s' ∧
        ∃ l, loss.evaluate ⟨X.ncols, batch p.batchSize j X.rows⟩ (batch p.batchSize j y) (weights s') = .ok l)
    (X : DMat α) (y : List α) (s : S) (hP : P X y) (hI : I s) (n : Nat) :
    ∃ D st L, IsRun loss weights step p k X y s n D st L := by
  have hepoch : ∀ i X y s, P X y → I s → ∃ d s' l, epoch loss weights step p k i X y s = .ok (d, s', l) ∧ P d.1 d.2 ∧ I s' := by
    intro i X y s hP hI
    obtain ⟨d, hd, hPd⟩ := hshuf i X y hP
    obtain ⟨lr, hlr⟩ := hdec i
    obtain ⟨hr1, hr2⟩ := hrows d.1 d.2 hPd
    obtain ⟨s', ls, h1, h2⟩ := batchLoop_total loss weights step p.batchSize k d.1 d.2 lr I hr1 hr2 (hstep d.1 d.2 hPd lr) k 0
      (by omega) s hI
    refine ⟨d, s', ls.sum, ?_, hPd, h2⟩
    rw [epoch, hd, Res.bind_ok, hlr, Res.bind_ok, h1]
    rfl
  rcases exists_run loss weights step p k X y s n with h | ⟨m, _, D, st, L, hr, hf⟩
  · exact h
  · exfalso
    rw [isRun_iff] at hr
    have hinv : ∀ i ≤ m, P (D i).1 (D i).2 ∧ I (st i) := by
      intro i
      induction i with
      | zero => intro _; rw [hr.1, hr.2.1]; exact ⟨hP, hI⟩
      | succ i ih =>
        intro hi
        obtain ⟨h1, h2⟩ := ih (by omega)
        obtain ⟨d, s', l, he, hd, hs'⟩ := hepoch i _ _ _ h1 h2
        rw [hr.2.2 i (by omega)] at he
        simp only [Res.ok.injEq, Prod.mk.injEq] at he
        rw [he.1, he.2.1]
        exact ⟨hd, hs'⟩
    obtain ⟨h1, h2⟩ := hinv m (le_refl _)
    obtain ⟨d, s', l, he, _⟩ := hepoch m _ _ _ h1 h2
    exact hf _ he

end

theorem batch_length {β : Type} (b j k : Nat) (l : List β) (hj : j < k) (hl : k * b ≤ l.length) : (batch b j l).length = b := by
  unfold batch
  have : (j + 1) * b ≤ k * b := Nat.mul_le_mul_right b hj
  rw [Nat.succ_mul] at this
  rw [List.length_take, List.length_drop]
  omega

theorem mem_of_mem_batch {β : Type} {b j : Nat} {l : List β} {x : β} (h : x ∈ batch b j l) : x ∈ l :=
  List.mem_of_mem_drop (List.mem_of_mem_take h)

section
variable {α : Type} [Field α]

theorem mulVec_ok (X : DMat α) (w : List α) (hw : w.length = X.ncols) :
    mulVec X w = .ok (X.rows.map fun r => dotL r w) := by rw [mulVec, if_pos hw.symm]

theorem mulVec_ub (X : DMat α) (w : List α) (hw : w.length ≠ X.ncols) : mulVec X w = .ub := by rw [mulVec, if_neg (Ne.symm hw)]

theorem mseGradient_total (mu : α) (X : DMat α) (y w : List α) (hy : y.length = X.nrows) (hw : w.length = X.ncols) :
    ∃ g, mseGradient mu X y w = .ok g ∧ g.length = X.ncols := by
  unfold mseGradient
  rw [mulVec_ok X w hw, Res.bind_ok, subV, if_pos (by simp [hy, DMat.nrows]), Res.bind_ok, tmulVec,
    if_pos (by simp [hy, DMat.nrows]), Res.bind_ok, addV, if_pos (by simp [DMat.cols, penaltyGrad, hw])]
  exact ⟨_, rfl, by simp [DMat.cols, penaltyGrad, hw]⟩

theorem mseEvaluate_total (mu : α) (X : DMat α) (y w : List α) (hy : y.length = X.nrows) (hw : w.length = X.ncols) :
    ∃ l, mseEvaluate mu X y w = .ok l := by
  unfold mseEvaluate
  rw [mulVec_ok X w hw, Res.bind_ok, subV, if_pos (by simp [hy, DMat.nrows]), Res.bind_ok]
  exact ⟨_, rfl⟩

theorem mseGradient_ub (mu : α) (X : DMat α) (y w : List α) (hw : w.length ≠ X.ncols) : mseGradient mu X y w = .ub := by
  rw [mseGradient, mulVec_ub X w hw, Res.bind_ub]

theorem vanilla_ok (w g : List α) (lr : α) (h : w.length = g.length) : ∃ v, vanillaUpdate w g lr = .ok v ∧ v.length = w.length := by
  rw [vanillaUpdate, subV, if_pos (by simpa using h)]
  exact ⟨_, rfl, by simp [h]⟩

variable [LinearOrder α]

theorem clipGrad_length (g : List α) : (clipGrad g).length = g.length := by rw [clipGrad_eq, List.length_map]

variable [IsStrictOrderedRing α]

theorem hingeGradient_total (lambda threshold : α) (buffer : List α) (X : DMat α) (hX : X.WF) (y w : List α) (hy : y.length = X.nrows)
    (hw : w.length = X.ncols) (hb : buffer.length = X.ncols) :
    ∃ g, hingeGradient lambda threshold buffer X y w = .ok g ∧ g.length = X.ncols := by
  obtain ⟨g, hg, h⟩ := C46_buffer lambda threshold X hX y w hy.ge hw
  exact ⟨_, h buffer hb, by simp [hb, hg]⟩

theorem hingeEvaluate_total (lambda threshold : α) (X : DMat α) (y w : List α) (hy : y.length = X.nrows)
    (hw : w.length = X.ncols) : ∃ l, hingeEvaluate lambda threshold X y w = .ok l := by
  unfold hingeEvaluate
  rw [mulVec_ok X w hw, Res.bind_ok, hingeSum_eq threshold _ _ (by rw [List.length_map, hy]; exact le_refl _), Res.bind_ok]
  exact ⟨_, rfl⟩

theorem hingeGradient_ub (lambda threshold : α) (buffer : List α) (X : DMat α) (y w : List α) (hw : w.length ≠ X.ncols) :
    hingeGradient lambda threshold buffer X y w = .ub := by
  rw [hingeGradient, mulVec_ub X w hw, Res.bind_ub]

/-- Shape of the data throughout the training. -/
def Shape (d n : Nat) (X : DMat α) (y : List α) : Prop := X.ncols = d ∧ X.WF ∧ y.length = X.nrows ∧ X.nrows = n

theorem shape_shuffle (d n : Nat) (shuffle : Option (Nat → List Nat))
    (hp : ∀ p, shuffle = some p → ∀ i, (p i).Perm (List.range n)) (iter : Nat) (X : DMat α) (y : List α) (h : Shape d n X y) :
    ∃ e, shuffleXY shuffle iter X y = .ok e ∧ Shape d n e.1 e.2 := by
  obtain ⟨h1, h2, h3, h4⟩ := h
  obtain ⟨e, he, g1, g2, g3, _, g5⟩ := C47_shuffle_pairs shuffle iter X h2 y h3 (fun p hps => by rw [h4]; exact hp p hps iter)
  exact ⟨e, he, g1.trans h1, g2, g3, g5.trans h4⟩

/-- Weights of the right length with a loss that is defined for such weights: `SGD` and `SAG` publish or throw `runtime_error`. -/
theorem sgd_total (loss : LossFn α (List α)) (d : Nat)
    (hgrad : ∀ (X : DMat α) (y w : List α), X.WF → y.length = X.nrows → X.ncols = d → w.length = d →
      ∃ g, loss.gradient X y w = .ok g ∧ g.length = d)
    (heval : ∀ (X : DMat α) (y w : List α), X.WF → y.length = X.nrows → X.ncols = d → w.length = d →
      ∃ l, loss.evaluate X y w = .ok l)
    (p : Params α) (hb : p.batchSize ≠ 0) (hdec : ∀ i, ∃ lr, p.decay i = .ok lr) (X : DMat α) (hX : X.WF) (y : List α)
    (hy : y.length = X.nrows) (hd : X.ncols = d) (hp : ∀ q, p.shuffle = some q → ∀ i, (q i).Perm (List.range X.nrows))
    (w : List α) (hw : w.length = d) :
    ((∃ w', sgd loss clipGrad vanillaUpdate p X y w = .ok w') ∨ sgd loss clipGrad vanillaUpdate p X y w = .throw .runtimeError) ∧
    ((∃ w', sag loss vanillaUpdate p X y w = .ok w') ∨ sag loss vanillaUpdate p X y w = .throw .runtimeError) := by
  have hbatch : ∀ (X' : DMat α) (y' : List α), Shape d X.nrows X' y' → ∀ j < X.nrows / p.batchSize,
      (⟨X'.ncols, batch p.batchSize j X'.rows⟩ : DMat α).WF ∧
      (batch p.batchSize j y').length = (⟨X'.ncols, batch p.batchSize j X'.rows⟩ : DMat α).nrows := by
    intro X' y' h j hj
    have hk : X.nrows / p.batchSize * p.batchSize ≤ X'.rows.length := by
      have := Nat.div_mul_le_self X.nrows p.batchSize
      have h4 : X'.rows.length = X.nrows := h.2.2.2
      omega
    have hk' : X.nrows / p.batchSize * p.batchSize ≤ y'.length := by
      have h3 : y'.length = X'.rows.length := h.2.2.1
      omega
    refine ⟨fun r hr => h.2.1 r (mem_of_mem_batch hr), ?_⟩
    show _ = (batch p.batchSize j X'.rows).length
    rw [batch_length _ _ _ _ hj hk, batch_length _ _ _ _ hj hk']
  have hrows : ∀ (X' : DMat α) (y' : List α), Shape d X.nrows X' y' →
      X.nrows / p.batchSize * p.batchSize ≤ X'.rows.length ∧ X.nrows / p.batchSize * p.batchSize ≤ y'.length := by
    intro X' y' h
    have := Nat.div_mul_le_self X.nrows p.batchSize
    have h4 : X'.rows.length = X.nrows := h.2.2.2
    have h3 : y'.length = X'.rows.length := h.2.2.1
    omega
  constructor
  · refine C47_dichotomy loss id _ p hb X y w (exists_run_of_total loss id _ p _ (Shape d X.nrows) (fun w => w.length = d)
      (shape_shuffle d _ p.shuffle hp) hdec hrows ?_ X y w ⟨hd, hX, hy, rfl⟩ hw _)
    intro X' y' hS lr j hj s hs
    obtain ⟨hwf, hyl⟩ := hbatch X' y' hS j hj
    obtain ⟨g, hg, hgl⟩ := hgrad _ _ s hwf hyl hS.1 hs
    obtain ⟨v, hv, hvl⟩ := vanilla_ok s (clipGrad g) lr (by rw [clipGrad_length, hgl, hs])
    obtain ⟨l, hl⟩ := heval _ _ v hwf hyl hS.1 (hvl.trans hs)
    refine ⟨v, ?_, hvl.trans hs, l, hl⟩
    rw [sgdStep, hg, Res.bind_ok, hv]
  · refine C47_dichotomy loss SagState.w _ p hb X y _ (exists_run_of_total loss SagState.w _ p _ (Shape d X.nrows)
      (fun s => s.w.length = d ∧ s.history.length = X.nrows / p.batchSize ∧ (∀ c ∈ s.history, c.length = d) ∧ s.avg.length = d)
      (shape_shuffle d _ p.shuffle hp) hdec hrows ?_ X y _ ⟨hd, hX, hy, rfl⟩
      ⟨hw, by simp, fun c hc => by rw [List.eq_of_mem_replicate hc, List.length_replicate, hd], by simp [hd]⟩ _)
    rintro X' y' hS lr j hj s ⟨hs1, hs2, hs3, hs4⟩
    obtain ⟨hwf, hyl⟩ := hbatch X' y' hS j hj
    obtain ⟨g, hg, hgl⟩ := hgrad _ _ s.w hwf hyl hS.1 hs1
    have hjl : j < s.history.length := by omega
    have hold : s.history[j].length = d := hs3 _ (List.getElem_mem hjl)
    obtain ⟨v, hv, hvl⟩ := vanilla_ok s.w (List.zipWith (· + ·) s.avg
      ((List.zipWith (· - ·) (clipGrad g) s.history[j]).map fun a => a / (p.batchSize : α))) lr
      (by simp [clipGrad_length, hgl, hold, hs1, hs4])
    obtain ⟨l, hl⟩ := heval _ _ v hwf hyl hS.1 (hvl.trans hs1)
    refine ⟨SagState.mk v (s.history.set j (clipGrad g)) (List.zipWith (· + ·) s.avg
      ((List.zipWith (· - ·) (clipGrad g) s.history[j]).map fun a => a / (p.batchSize : α))), ?_, ⟨hvl.trans hs1, ?_, ?_, ?_⟩, l, hl⟩
    · rw [sagStep, hg, Res.bind_ok]
      dsimp only
      rw [readAt_of_lt hjl, Res.bind_ok, subV, if_pos (by rw [clipGrad_length, hgl, hold]), Res.bind_ok, addV,
        if_pos (by simp [clipGrad_length, hgl, hold, hs4]), Res.bind_ok, hv, Res.bind_ok]
    · rw [List.length_set, hs2]
    · intro c hc
      rcases List.mem_or_eq_of_mem_set hc with hc | rfl
      · exact hs3 c hc
      · rw [clipGrad_length, hgl]
    · simp [clipGrad_length, hgl, hold, hs4]

/-- The same for coordinate descent, which always publishes. -/
theorem scd_total (loss : LossFn α (List α)) (beta lambda : α) (d : Nat) (hd0 : 0 < d)
    (hgrad : ∀ (X : DMat α) (y w : List α), X.WF → y.length = X.nrows → X.ncols = d → w.length = d →
      ∃ g, loss.gradient X y w = .ok g ∧ g.length = d)
    (shuffle : Option (Nat → List Nat)) (n maxIter iter : Nat) (hp : ∀ q, shuffle = some q → ∀ i, (q i).Perm (List.range n))
    (X : DMat α) (y w : List α) (h : Shape d n X y) (hw : w.length = d) :
    ∃ w', SCD.scdLoop loss beta lambda shuffle maxIter iter X y w = .ok w' ∧ w'.length = d := by
  induction maxIter generalizing iter X y w with
  | zero => exact ⟨w, rfl, hw⟩
  | succ m ih =>
    obtain ⟨⟨X', y'⟩, he, hS⟩ := shape_shuffle d n shuffle hp iter X y h
    obtain ⟨g, hg, hgl⟩ := hgrad X' y' w hS.2.1 hS.2.2.1 hS.1 hw
    have hstep : ∃ v, SCD.scdStep loss beta lambda X' y' w = .ok v ∧ v.length = d := by
      have hX' : X'.ncols = d := hS.1
      rw [SCD.scdStep, hg, Res.bind_ok, if_pos ⟨by omega, by omega⟩]
      dsimp only
      have hidx : (SCD.bestCoord beta lambda (w.take X'.ncols) (g.take X'.ncols) 0 (-1, 0, 0)).2.1 < w.length := by
        rcases SCD.bestCoord_spec beta lambda (w.take X'.ncols) (g.take X'.ncols) (by simp [hw, hgl]) 0 (-1, 0, 0) with
          ⟨hb, _⟩ | ⟨k, hk, hb, _⟩
        · rw [hb]
          simp only
          omega
        · rw [hb]
          simp only [List.length_take] at hk ⊢
          omega
      rw [readAt_of_lt hidx, Res.bind_ok]
      exact ⟨_, rfl, by rw [List.length_set, hw]⟩
    obtain ⟨v, hv, hvl⟩ := hstep
    obtain ⟨w', hw', hwl⟩ := ih (iter + 1) X' y' v hS hvl
    refine ⟨w', ?_, hwl⟩
    simp only [SCD.scdLoop, he, Res.bind_ok, hv]
    exact hw'

end

end OpenML.LinearFit
