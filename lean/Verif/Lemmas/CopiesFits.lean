import Verif.Lemmas.Copies
import Verif.Lemmas.Loss
import Verif.Props.NaiveBayesInvariance
import Verif.Model.LBFGS
import Verif.Model.LinearFit
import Verif.Props.SCD

/-!
# Lemmas about losses, L-BFGS and naive Bayes for a training set that contains every sample several times
-/

set_option linter.unusedSectionVars false

namespace OpenML.Copies
open Spec

section criteria
variable {α : Type} [Field α] [LinearOrder α] [IsStrictOrderedRing α]

theorem toFinset_copies {β : Type} [DecidableEq β] (k : Nat) (hk : 0 < k) (l l' : List β) (h : l'.Perm (List.replicate k l).flatten) :
    l'.toFinset = l.toFinset := by
  ext b
  rw [List.mem_toFinset, List.mem_toFinset, KMeans.mem_copies k hk l l' h]

theorem freq_copies {K β : Type} [Field K] [CharZero K] [DecidableEq β] (k : Nat) (hk : 0 < k) (l l' : List β)
    (h : l'.Perm (List.replicate k l).flatten) (b : β) : (freq l' b : K) = freq l b := by
  unfold freq
  rw [count_copies k l l' h, length_copies k l l' h]
  push_cast
  exact mul_div_mul_left _ _ (by exact_mod_cast hk.ne')

theorem gini_copies (k : Nat) (hk : 0 < k) (l l' : List α) (h : l'.Perm (List.replicate k l).flatten) :
    (giniImpurity l' : α) = giniImpurity l := by
  unfold giniImpurity
  simp only [toFinset_copies k hk l l' h, freq_copies k hk l l' h]

theorem shannon_copies (k : Nat) (hk : 0 < k) (l l' : List α) (h : l'.Perm (List.replicate k l).flatten) :
    shannon l' = shannon l := by
  unfold shannon
  simp only [toFinset_copies k hk l l' h, freq_copies k hk l l' h]

theorem share_copies {K β : Type} [Field K] [CharZero K] (k : Nat) (hk : 0 < k) (l l' y y' : List β)
    (h : l'.Perm (List.replicate k l).flatten) (hy : y'.Perm (List.replicate k y).flatten) :
    (l'.length : K) / (y'.length : K) = (l.length : K) / (y.length : K) := by
  rw [length_copies k l l' h, length_copies k y y' hy]
  push_cast
  exact mul_div_mul_left _ _ (by exact_mod_cast hk.ne')

theorem relative_gini : Relative (DTree.giniScore (α := α)) where
  total := DTree.giniScore_total
  copies k hk y l r y' l' r' hy hl hr := by
    simp only [DTree.giniScore, Impurity.gini_unweighted, Res.bind_ok, gini_copies k hk _ _ hl, gini_copies k hk _ _ hr,
      share_copies (K := α) k hk _ _ _ _ hl hy, share_copies (K := α) k hk _ _ _ _ hr hy]
  least y l r h0 hp v v₀ hv hv₀ := by
    simp only [DTree.giniScore, Impurity.gini_unweighted, Res.bind_ok, Res.ok.injEq] at hv hv₀
    obtain ⟨g, gl, gr, e1, e2, e3, hle⟩ := C30_gini_split (K := α) y l r hp h0
    rw [Impurity.gini_unweighted] at e1 e2 e3
    cases e1; cases e2; cases e3
    have hl : (y.length : α) ≠ 0 := by exact_mod_cast (List.length_pos_of_ne_nil h0).ne'
    rw [← hv, ← hv₀, div_self hl]
    simp
    linarith

theorem relative_entropy : Relative (DTree.entropyScore (α := α)) where
  total := DTree.entropyScore_total
  copies k hk y l r y' l' r' hy hl hr := by
    simp only [DTree.entropyScore, Impurity.entropy_unweighted, Res.bind_ok, shannon_copies k hk _ _ hl,
      shannon_copies k hk _ _ hr, shannon_copies k hk _ _ hy,
      share_copies (K := ℝ) k hk _ _ _ _ hl hy, share_copies (K := ℝ) k hk _ _ _ _ hr hy]
  least y l r h0 hp v v₀ hv hv₀ := by
    simp only [DTree.entropyScore, Impurity.entropy_unweighted, Res.bind_ok, Res.ok.injEq] at hv hv₀
    obtain ⟨g, gl, gr, e1, e2, e3, hle⟩ := C30_entropy_split y l r hp h0
    rw [Impurity.entropy_unweighted] at e1 e2 e3
    cases e1; cases e2; cases e3
    have hl : (y.length : ℝ) ≠ 0 := by exact_mod_cast (List.length_pos_of_ne_nil h0).ne'
    rw [← hv, ← hv₀, div_self hl]
    simp
    linarith

end criteria

section losses
open Loss

theorem sum_copies {α β : Type} [Semiring α] (k : Nat) (l l' : List β) (h : l'.Perm (List.replicate k l).flatten) (g : β → α) :
    (l'.map g).sum = k * (l.map g).sum := by
  rw [(map_copies g k l l' h).sum_eq, List.sum_flatten, List.map_replicate, List.sum_replicate, nsmul_eq_mul]

variable {α : Type} [Field α] {r : Nat} {X X' : DMat α} {y y' : List α}

theorem zipWith_zip {β γ δ ε : Type} (f : β → δ → ε) (g : γ → β) (l : List γ) (m : List δ) :
    List.zipWith f (l.map g) m = (l.zip m).map fun e => f (g e.1) e.2 := by
  rw [List.zipWith_map_left, List.map_zip_eq_zipWith]
  rfl

theorem dotL_col (hx : X.WF) (hy : y.length = X.nrows) (f : Nat) (hf : f < X.ncols) (g : List α × α → α) :
    dotL (X.col f) ((X.rows.zip y).map g) = ((X.rows.zip y).map fun e => e.1.getD f 0 * g e).sum := by
  have hc : X.col f = X.rows.map fun r => r.getD f 0 := by
    unfold DMat.col
    rw [← List.filterMap_eq_map]
    refine List.filterMap_congr fun r hr => ?_
    have : f < r.length := by rw [hx r hr]; exact hf
    simp [this]
  rw [hc, dotL]
  congr 1
  obtain ⟨n, rows⟩ := X
  simp only [DMat.nrows] at hy ⊢
  clear hc hx hf
  induction rows generalizing y with
  | nil => simp
  | cons a l ih =>
    cases y with
    | nil => simp at hy
    | cons b y => simpa using ih (y := y) (by simpa using hy)

variable (h : Copied r X y X' y') (hr : 0 < r)
include h hr

theorem penalty_copies [CharZero α] (lambda : α) (w : List α) : penalty (r * lambda) X'.nrows w = penalty lambda X.nrows w := by
  have hr' : (r : α) ≠ 0 := by exact_mod_cast hr.ne'
  unfold penalty
  rw [nrows h]
  push_cast
  rw [mul_assoc, div_mul_eq_mul_div, mul_comm (r : α) lambda, ← mul_assoc, mul_comm _ (r : α), mul_div_mul_left _ _ hr']
  ring

theorem penaltyGrad_copies [CharZero α] (lambda : α) (w : List α) :
    penaltyGrad (r * lambda) X'.nrows w = penaltyGrad lambda X.nrows w := by
  have hr' : (r : α) ≠ 0 := by exact_mod_cast hr.ne'
  unfold penaltyGrad
  rw [nrows h]
  refine List.map_congr_left fun a _ => ?_
  push_cast
  rw [div_mul_eq_mul_div, mul_comm (r : α) lambda, ← mul_assoc, mul_comm _ (r : α), mul_div_mul_left _ _ hr']
  ring

theorem mean_copies [CharZero α] (g : List α × α → α) :
    ((X'.rows.zip y').map g).sum / (X'.nrows : α) = ((X.rows.zip y).map g).sum / (X.nrows : α) := by
  rw [sum_copies r _ _ h.perm, nrows h]
  push_cast
  exact mul_div_mul_left _ _ (by exact_mod_cast hr.ne')

theorem grad_copies [CharZero α] (g : List α × α → α) (G : List α)
    (hG : tmulVec X ((X.rows.zip y).map g) = .ok G) : ∃ G', tmulVec X' ((X'.rows.zip y').map g) = .ok G' ∧
      (G'.map fun a => a / (X'.nrows : α)) = G.map fun a => a / (X.nrows : α) := by
  have hl : X.nrows = ((X.rows.zip y).map g).length := by simp [h.len, DMat.nrows]
  have hl' : X'.nrows = ((X'.rows.zip y').map g).length := by simp [h.len', DMat.nrows]
  unfold tmulVec at hG ⊢
  rw [if_pos hl] at hG
  rw [if_pos hl']
  cases hG
  refine ⟨_, rfl, ?_⟩
  unfold DMat.cols
  rw [h.cols]
  simp only [List.map_map]
  refine List.map_congr_left fun f hf => ?_
  have hf' := List.mem_range.mp hf
  simp only [Function.comp]
  rw [dotL_col h.wf h.len f hf', dotL_col h.wf' h.len' f (by rw [h.cols]; exact hf')]
  exact mean_copies h hr fun e => e.1.getD f 0 * g e

theorem mseEvaluate_copies [CharZero α] (lambda : α) (w : List α) :
    mseEvaluate (r * lambda) X' y' w = mseEvaluate lambda X y w := by
  unfold mseEvaluate mulVec
  rw [h.cols]
  split
  · simp only [Res.bind_ok, subV, List.length_map]
    rw [if_pos (show y.length = X.rows.length from h.len), if_pos (show y'.length = X'.rows.length from h.len')]
    simp only [Res.bind_ok, penalty_copies h hr]
    congr 2
    have e : ∀ (Z : DMat α) (z : List α), (List.zipWith (· - ·) z (Z.rows.map fun q => dotL q w)).map (fun a => a ^ 2) =
        (Z.rows.zip z).map fun e => (e.2 - dotL e.1 w) ^ 2 := by
      intro Z z
      rw [List.zipWith_comm, zipWith_zip, List.map_map]
      rfl
    rw [e, e, mul_div_assoc, mul_div_assoc, mean_copies h hr]
  · rfl

theorem mseGradient_copies [CharZero α] (lambda : α) (w : List α) :
    mseGradient (r * lambda) X' y' w = mseGradient lambda X y w := by
  unfold mseGradient
  simp only [mulVec]
  rw [h.cols]
  split
  · simp only [Res.bind_ok, subV, List.length_map]
    rw [if_pos (show X.rows.length = y.length from h.len.symm), if_pos (show X'.rows.length = y'.length from h.len'.symm)]
    simp only [Res.bind_ok, penaltyGrad_copies h hr, zipWith_zip]
    have hl : X.nrows = ((X.rows.zip y).map fun e => dotL e.1 w - e.2).length := by simp [h.len, DMat.nrows]
    obtain ⟨G, hG⟩ : ∃ G, tmulVec X ((X.rows.zip y).map fun e => dotL e.1 w - e.2) = .ok G := by
      unfold tmulVec
      rw [if_pos hl]
      exact ⟨_, rfl⟩
    obtain ⟨G', hG', e⟩ := grad_copies h hr (fun e => dotL e.1 w - e.2) G hG
    rw [hG, hG', Res.bind_ok, Res.bind_ok, e]
  · rfl

end losses

section logistic
open Loss
variable {r : Nat} {X X' : DMat ℝ} {y y' : List ℝ}

theorem sigmoidV_rows (R : List (List ℝ)) (w : List ℝ) :
    sigmoidV (R.map fun q => dotL q w) = R.map fun q => Real.sigmoid (dotL q w) := by
  rw [sigmoidV_eq, List.map_map]
  rfl

theorem logEvaluate_copies (h : Copied r X y X' y') (hr : 0 < r) (lambda : ℝ) (w : List ℝ) :
    logEvaluate (r * lambda) X' y' w = logEvaluate lambda X y w := by
  unfold logEvaluate
  simp only [mulVec]
  rw [h.cols]
  split
  · have e : ∀ (Z : DMat ℝ) (z : List ℝ), z.length = Z.nrows → ∀ mu : ℝ,
        (if z.length ≠ (Z.rows.map fun q => Real.sigmoid (dotL q w)).length then (Res.ub : Res ℝ) else do
          let tmp3 ← subV (List.zipWith (fun a p => -1 * a * Real.log p) z (Z.rows.map fun q => Real.sigmoid (dotL q w)))
            (List.zipWith (fun a p => (1 - a) * Real.log (1 - p)) z (Z.rows.map fun q => Real.sigmoid (dotL q w)))
          .ok (tmp3.sum / (Z.nrows : ℝ) + penalty mu Z.nrows w)) =
        .ok (((Z.rows.zip z).map fun e => -1 * e.2 * Real.log (Real.sigmoid (dotL e.1 w)) -
          (1 - e.2) * Real.log (1 - Real.sigmoid (dotL e.1 w))).sum / (Z.nrows : ℝ) + penalty mu Z.nrows w) := by
      intro Z z hz mu
      rw [if_neg (by rw [List.length_map]; exact not_not_intro hz), List.zipWith_comm, zipWith_zip, List.zipWith_comm, zipWith_zip]
      simp only [subV, List.length_map, if_true, Res.bind_ok]
      congr 3
      rw [List.zipWith_map_left, List.zipWith_map_right, List.zipWith_self]
    simp only [Res.bind_ok, sigmoidV_rows]
    rw [e X' y' h.len', e X y h.len, mean_copies h hr, penalty_copies h hr]
  · rfl

theorem logGradient_copies (h : Copied r X y X' y') (hr : 0 < r) (lambda : ℝ) (w : List ℝ) :
    logGradient (r * lambda) X' y' w = logGradient lambda X y w := by
  unfold logGradient
  simp only [mulVec]
  rw [h.cols]
  split
  · simp only [Res.bind_ok, sigmoidV_rows, subV, List.length_map]
    rw [if_pos (show X.rows.length = y.length from h.len.symm), if_pos (show X'.rows.length = y'.length from h.len'.symm)]
    simp only [Res.bind_ok, penaltyGrad_copies h hr, zipWith_zip]
    have hl : X.nrows = ((X.rows.zip y).map fun e => Real.sigmoid (dotL e.1 w) - e.2).length := by simp [h.len, DMat.nrows]
    obtain ⟨G, hG⟩ : ∃ G, tmulVec X ((X.rows.zip y).map fun e => Real.sigmoid (dotL e.1 w) - e.2) = .ok G := by
      unfold tmulVec
      rw [if_pos hl]
      exact ⟨_, rfl⟩
    obtain ⟨G', hG', e⟩ := grad_copies h hr (fun e => Real.sigmoid (dotL e.1 w) - e.2) G hG
    rw [hG, hG', Res.bind_ok, Res.bind_ok, e]
  · rfl

end logistic

section lbfgs
open LBFGS SGD
variable {α : Type} [Field α] [LinearOrder α] (loss loss' : LossFn α (List α)) (X X' : DMat α) (y y' : List α)
  (he : ∀ w, loss'.evaluate X' y' w = loss.evaluate X y w) (hg : ∀ w, loss'.gradient X' y' w = loss.gradient X y w)
include he hg

theorem search_congr (policy : Policy) (p : SearchParams α) (fx : α) (g d : List α) (step : α) (xp : List α) :
    search policy p loss' X' y' fx g d step xp = search policy p loss X y fx g d step xp := by
  have hp : ∀ a b c d n s, probe p loss' X' y' a b c d n s = probe p loss X y a b c d n s := by
    intros
    simp only [probe, he, hg]
  have hl : ∀ n a b c d m s lo hi, searchLoop policy p loss' X' y' a b c d n m s lo hi =
      searchLoop policy p loss X y a b c d n m s lo hi := by
    intro n
    induction n with
    | zero => intros; simp only [searchLoop, hp]
    | succ n ih => intros; simp only [searchLoop, hp, ih]
  simp only [search, hl]

theorem optimize_congr (sqrt : α → α) (p : LBFGS.Params α) (junk : Nat → α) (fuel : Nat) (x0 : List α) :
    LBFGS.optimize sqrt p junk fuel loss' X' y' x0 = LBFGS.optimize sqrt p junk fuel loss X y x0 := by
  have hi : ∀ policy st, iteration sqrt policy p loss' X' y' st = iteration sqrt policy p loss X y st := by
    intros
    simp only [iteration, search_congr loss loss' X X' y y' he hg]
  have hm : ∀ policy n st, mainLoop sqrt policy p loss' X' y' n st = mainLoop sqrt policy p loss X y n st := by
    intro policy n
    induction n with
    | zero => intros; rfl
    | succ n ih => intros; simp only [mainLoop, hi, ih]
  simp only [LBFGS.optimize, he, hg, hm]

end lbfgs

end OpenML.Copies

namespace OpenML.Copies
open Spec

section batches
open SGD SCD
variable {α : Type} {r : Nat} {X X' : DMat α} {y y' : List α}

/-- Permuted copies are copies. -/
theorem perm_copies {β : Type} (k : Nat) {l m l' m' : List β} (h : l'.Perm (List.replicate k l).flatten) (hl : m.Perm l)
    (hl' : m'.Perm l') : m'.Perm (List.replicate k m).flatten := by
  refine (hl'.trans h).trans ?_
  clear h hl'
  induction k with
  | zero => simp
  | succ k ih =>
    rw [List.replicate_succ, List.replicate_succ, List.flatten_cons, List.flatten_cons]
    exact hl.symm.append ih

theorem shuffle_copies (h : Copied r X y X' y') (sh sh' : Option (Nat → List Nat)) (iter : Nat)
    (hp : ∀ p, sh = some p → (p iter).Perm (List.range X.nrows))
    (hp' : ∀ p, sh' = some p → (p iter).Perm (List.range X'.nrows)) :
    ∃ d d', shuffleXY sh iter X y = .ok d ∧ shuffleXY sh' iter X' y' = .ok d' ∧ Copied r d.1 d.2 d'.1 d'.2 ∧
      d.1.nrows = X.nrows ∧ d'.1.nrows = X'.nrows := by
  obtain ⟨d, e1, e2, e3, e4, e5, e6⟩ := C47_shuffle_pairs sh iter X h.wf y h.len hp
  obtain ⟨d', f1, f2, f3, f4, f5, f6⟩ := C47_shuffle_pairs sh' iter X' h.wf' y' h.len' hp'
  exact ⟨d, d', e1, f1, ⟨e3, f3, by rw [e2, f2, h.cols], e4, f4, perm_copies r h.perm e5 f5⟩, e6, f6⟩

variable [Field α] [LinearOrder α]

theorem scd_copies (loss loss' : LossFn α (List α)) (l1Ratio lambda : α) (sh sh' : Option (Nat → List Nat))
    (hg : ∀ Z z Z' z', Copied r Z z Z' z' → ∀ w, loss'.gradient Z' z' w = loss.gradient Z z w) (n iter : Nat)
    (X X' : DMat α) (y y' w : List α) (h : Copied r X y X' y')
    (hp : ∀ p, sh = some p → ∀ i, (p i).Perm (List.range X.nrows))
    (hp' : ∀ p, sh' = some p → ∀ i, (p i).Perm (List.range X'.nrows)) :
    scdLoop loss' l1Ratio lambda sh' n iter X' y' w = scdLoop loss l1Ratio lambda sh n iter X y w := by
  induction n generalizing iter X X' y y' w with
  | zero => rfl
  | succ n ih =>
    obtain ⟨d, d', e1, e2, hd, n1, n2⟩ := shuffle_copies h sh sh' iter (fun p hq => hp p hq iter) (fun p hq => hp' p hq iter)
    have hs : scdStep loss' l1Ratio lambda d'.1 d'.2 w = scdStep loss l1Ratio lambda d.1 d.2 w := by
      simp only [scdStep, hg _ _ _ _ hd, hd.cols]
    simp only [scdLoop, e1, e2, Res.bind_ok, hs]
    congr 1
    funext v
    exact ih _ _ _ _ _ _ hd (by rwa [n1]) (by rwa [n2])

theorem epochLoop_copies [IsStrictOrderedRing α] {W S : Type} (loss loss' : LossFn α W) (weights : S → W) (step step' : Step α S)
    (p : SGD.Params α) (sh' : Option (Nat → List Nat)) (hr : 0 < r)
    (he : ∀ Z z Z' z', Copied r Z z Z' z' → ∀ w, loss'.evaluate Z' z' w = loss.evaluate Z z w)
    (hst : ∀ Z z Z' z', Copied r Z z Z' z' → ∀ s lr j, step' s Z' z' lr j = step s Z z lr j) (n iter : Nat)
    (X X' : DMat α) (y y' : List α) (h : Copied r X y X' y') (hb : p.batchSize = X.nrows)
    (hp : ∀ q, p.shuffle = some q → ∀ i, (q i).Perm (List.range X.nrows))
    (hp' : ∀ q, sh' = some q → ∀ i, (q i).Perm (List.range X'.nrows)) (s : S) (best : Option α) (count : Nat) :
    epochLoop loss' weights step' { p with batchSize := r * p.batchSize, tol := p.tol / r, shuffle := sh' } 1 n iter X' y' s best
      count = epochLoop loss weights step p 1 n iter X y s best count := by
  have hr' : (r : α) ≠ 0 := by exact_mod_cast hr.ne'
  induction n generalizing iter X X' y y' s best count with
  | zero => rfl
  | succ n ih =>
    obtain ⟨d, d', e1, e2, hd, n1, n2⟩ := shuffle_copies h p.shuffle sh' iter (fun p hq => hp p hq iter) (fun p hq => hp' p hq iter)
    have full : ∀ {β : Type} (l : List β) (k : Nat), k = l.length → middleRows l (0 * k) k = .ok l := by
      intro β l k hk
      simp [middleRows, hk]
    have hbl : ∀ lr, batchLoop loss' weights step' (r * p.batchSize) d'.1 d'.2 lr 1 0 s =
        batchLoop loss weights step p.batchSize d.1 d.2 lr 1 0 s := by
      intro lr
      have a1 := full d.1.rows p.batchSize (by rw [hb, ← n1]; rfl)
      have a2 := full d.2 p.batchSize (by rw [hb, ← n1, hd.len])
      have a3 := full d'.1.rows (r * p.batchSize) (by rw [hb, ← n1, ← nrows hd]; rfl)
      have a4 := full d'.2 (r * p.batchSize) (by rw [hb, ← n1, ← nrows hd, hd.len'])
      simp only [batchLoop, a1, a2, a3, a4, Res.bind_ok]
      rw [show (⟨d'.1.ncols, d'.1.rows⟩ : DMat α) = d'.1 from rfl, show (⟨d.1.ncols, d.1.rows⟩ : DMat α) = d.1 from rfl,
        hst _ _ _ _ hd]
      simp only [he _ _ _ _ hd]
    have hw : ∀ b t, worse { p with batchSize := r * p.batchSize, tol := p.tol / r, shuffle := sh' } b t = worse p b t := by
      intro b t
      cases b with
      | none => rfl
      | some b =>
        simp only [worse]
        push_cast
        rw [show p.tol / (r : α) * ((r : α) * (p.batchSize : α)) = p.tol * (p.batchSize : α) by field_simp]
    simp only [epochLoop, epoch, e1, e2, Res.bind_ok, hbl, hw]
    cases p.decay iter with
    | ok lr =>
      simp only [Res.bind_ok]
      cases batchLoop loss weights step p.batchSize d.1 d.2 lr 1 0 s with
      | ok q =>
        simp only [Res.bind_ok]
        have := fun c => ih (iter + 1) _ _ _ _ hd (by rw [n1]; exact hb) (by rwa [n1]) (by rwa [n2]) q.1
          (some (newBest best q.2.sum)) c
        simp only [this]
      | _ => rfl
    | _ => rfl

theorem sgd_copies [IsStrictOrderedRing α] {W : Type} (loss loss' : LossFn α W) (clip : W → W) (update : W → W → α → Res W)
    (p : SGD.Params α) (sh' : Option (Nat → List Nat)) (hr : 0 < r)
    (he : ∀ Z z Z' z', Copied r Z z Z' z' → ∀ w, loss'.evaluate Z' z' w = loss.evaluate Z z w)
    (hg : ∀ Z z Z' z', Copied r Z z Z' z' → ∀ w, loss'.gradient Z' z' w = loss.gradient Z z w)
    (h : Copied r X y X' y') (hb : p.batchSize = X.nrows)
    (hp : ∀ q, p.shuffle = some q → ∀ i, (q i).Perm (List.range X.nrows))
    (hp' : ∀ q, sh' = some q → ∀ i, (q i).Perm (List.range X'.nrows)) (w : W) :
    sgd loss' clip update { p with batchSize := r * p.batchSize, tol := p.tol / r, shuffle := sh' } X' y' w =
      sgd loss clip update p X y w := by
  unfold sgd SGD.optimize
  by_cases h0 : p.batchSize = 0
  · rw [if_pos h0, if_pos (by simp [h0])]
  · have h0' : r * p.batchSize ≠ 0 := Nat.mul_ne_zero hr.ne' h0
    rw [if_neg h0, if_neg h0']
    dsimp only
    rw [nrows h, ← hb, Nat.div_self (Nat.pos_of_ne_zero h0), Nat.div_self (Nat.pos_of_ne_zero h0')]
    exact epochLoop_copies loss loss' id _ _ p sh' hr he (fun Z z Z' z' hd s lr j => by simp only [sgdStep, hg _ _ _ _ hd]) _ _ X X'
      y y' h hb hp hp' w none 0

end batches

theorem withOnes_copies {r : Nat} {X X' : DMat ℝ} {y y' : List ℝ} (h : Copied r X y X' y') :
    Copied r (LinearFit.withOnes X) y (LinearFit.withOnes X') y' where
  wf := by
    intro q hq
    obtain ⟨a, ha, rfl⟩ := List.mem_map.mp hq
    simp [LinearFit.withOnes, h.wf a ha]
  wf' := by
    intro q hq
    obtain ⟨a, ha, rfl⟩ := List.mem_map.mp hq
    simp [LinearFit.withOnes, h.wf' a ha]
  cols := by simp [LinearFit.withOnes, h.cols]
  len := by rw [h.len]; simp [LinearFit.withOnes, DMat.nrows]
  len' := by rw [h.len']; simp [LinearFit.withOnes, DMat.nrows]
  perm := by
    have := map_copies (fun e : List ℝ × ℝ => (e.1 ++ [1], e.2)) r _ _ h.perm
    simp only [LinearFit.withOnes]
    rw [List.zip_map_left, List.zip_map_left]
    exact this

section bayes
open NB
variable {α : Type} [Field α] [LinearOrder α] [IsStrictOrderedRing α] {r : Nat} {X X' : DMat α} {y y' : List α}

theorem countLabels_copies (hr : 0 < r) (h : y'.Perm (List.replicate r y).flatten) :
    countLabels [] y' = (countLabels [] y).map fun e => (e.1, r * e.2) := by
  have h1 := holds_countLabels [] [] y holds_nil
  have h2 := holds_countLabels [] [] y' holds_nil
  have hc : classesOf (countLabels [] y') = classesOf (countLabels [] y) :=
    h2.sorted.eq_of_mem_iff h1.sorted fun k => by rw [h1.keys, h2.keys]; simpa using KMeans.mem_copies r hr _ _ h k
  rw [NB.map_determined _ _ h2, hc]
  conv_rhs => rw [NB.map_determined _ _ h1, List.map_map]
  refine List.map_congr_left fun k _ => ?_
  simp [count_copies r _ _ h]

theorem classes_copies (m : List (α × Nat)) : classesOf (m.map fun e => (e.1, r * e.2)) = classesOf m := by
  simp [classesOf]

theorem classRows_copies (h : Copied r X y X' y') (b : α) :
    (classRows X'.rows y' b).Perm (List.replicate r (classRows X.rows y b)).flatten :=
  map_copies _ r _ _ (filter_copies _ r _ _ h.perm)

theorem featureOf_copies (h : Copied r X y X' y') (b : α) (f : Nat) :
    (featureOf (classRows X'.rows y' b) f).Perm (List.replicate r (featureOf (classRows X.rows y b) f)).flatten :=
  map_copies _ r _ _ (classRows_copies h b)

theorem average_copies (hr : 0 < r) (l l' : List α) (h : l'.Perm (List.replicate r l).flatten) : average l' = average l := by
  unfold average
  have := sum_copies r l l' h id
  rw [List.map_id, List.map_id] at this
  rw [this, length_copies r l l' h]
  push_cast
  exact mul_div_mul_left _ _ (by exact_mod_cast hr.ne')

theorem deviation_copies (hr : 0 < r) (l l' : List α) (h : l'.Perm (List.replicate r l).flatten) :
    meanSquaredDeviation l' = meanSquaredDeviation l := by
  unfold meanSquaredDeviation
  rw [average_copies hr l l' h]
  exact average_copies hr _ _ (map_copies _ r l l' h)

end bayes

end OpenML.Copies
