import Verif.Lemmas.Descent
import Verif.Spec.Batches

/-!
# Gradient descent in mini-batches
-/

namespace OpenML.Descent

open Spec Loss SGD
open scoped BigOperators

theorem batch_zip (b j : Nat) (rows : List (List ℝ)) (y : List ℝ) : (batch b j rows).zip (batch b j y) = batch b j (rows.zip y) := by
  unfold batch
  unfold List.zip
  rw [List.drop_zipWith, List.take_zipWith]

theorem batch_mem {β : Type} (b j : Nat) (l : List β) {q : β} (h : q ∈ batch b j l) : q ∈ l :=
  List.mem_of_mem_drop (List.mem_of_mem_take h)

theorem batch_length {β : Type} (b j : Nat) (l : List β) (h : (j + 1) * b ≤ l.length) : (batch b j l).length = b := by
  unfold batch
  rw [List.length_take, List.length_drop]
  have : (j + 1) * b = j * b + b := by ring
  omega

theorem sum_batches {β : Type} (f : β → ℝ) (b k : Nat) (l : List β) :
    ∑ j ∈ Finset.range k, ((batch b j l).map f).sum = ((l.take (k * b)).map f).sum := by
  induction k with
  | zero => simp
  | succ k ih =>
    rw [Finset.sum_range_succ, ih, show (k + 1) * b = k * b + b by ring, List.take_add, List.map_append, List.sum_append]
    rfl

variable {d : Nat}

theorem sum_objective_le (phi : ℝ → ℝ → ℝ) (lambda : ℝ) (b : Nat) (l : List (List ℝ × ℝ)) (u : Fin d → ℝ)
    (hpos : ∀ p ∈ l, ∀ s, 0 ≤ phi p.2 s) :
    ∑ j ∈ Finset.range (l.length / b), objective phi lambda (batch b j l) u ≤ epochLoss phi lambda b l u := by
  have hlen : ∀ j ∈ Finset.range (l.length / b), (batch b j l).length = b := by
    intro j hj
    refine batch_length b j l ?_
    exact le_trans (Nat.mul_le_mul_right b (Finset.mem_range.mp hj)) (Nat.div_mul_le_self _ _)
  have h1 : ∀ j ∈ Finset.range (l.length / b), objective phi lambda (batch b j l) u =
      ((batch b j l).map fun p => phi p.2 (score p.1 u)).sum / b + lambda * ridgeTerm b u := by
    intro j hj
    unfold objective meanLoss
    rw [hlen j hj]
  rw [Finset.sum_congr rfl h1, Finset.sum_add_distrib, Finset.sum_const, Finset.card_range, nsmul_eq_mul, ← Finset.sum_div, sum_batches]
  unfold epochLoss
  refine add_le_add_left (div_le_div_of_nonneg_right ?_ (Nat.cast_nonneg b)) _
  conv_rhs => rw [← List.take_append_drop (l.length / b * b) l, List.map_append, List.sum_append]
  refine le_add_of_nonneg_right (List.sum_nonneg fun a ha => ?_)
  obtain ⟨p, hp, rfl⟩ := List.mem_map.mp ha
  exact hpos p (List.mem_of_mem_drop hp) _

theorem epochLoss_perm (phi : ℝ → ℝ → ℝ) (lambda : ℝ) (b : Nat) {l l' : List (List ℝ × ℝ)} (h : l.Perm l') (u : Fin d → ℝ) :
    epochLoss phi lambda b l u = epochLoss phi lambda b l' u := by
  unfold epochLoss
  rw [(h.map fun p => phi p.2 (score p.1 u)).sum_eq, h.length_eq]

/-- Progress of a run towards any weights `u`. `P` is an invariant of the weights under which no gradient is clipped. -/
theorem batch_run (loss : LossFn ℝ (List ℝ)) (phi dphi : ℝ → ℝ → ℝ) (lambda : ℝ) (hlam : 0 ≤ lambda)
    (hm : IsMean loss phi dphi lambda) (p : Params ℝ) (X : DMat ℝ) (hX : X.WF) (y : List ℝ) (hy : y.length = X.nrows) (hpos : ∀ a ∈ y, ∀ s, 0 ≤ phi a s)
    (hp : ∀ q, p.shuffle = some q → ∀ i, (q i).Perm (List.range X.nrows)) (eta : Nat → ℝ) (he : ∀ i, p.decay i = .ok (eta i))
    (h0 : ∀ i, 0 ≤ eta i)
    (hS : ∀ i, ∀ l : List (List ℝ × ℝ), l.length = p.batchSize → (∀ q ∈ l, q ∈ X.rows.zip y) →
      ∃ L, Smooth (objective (d := X.ncols) phi lambda l) (gradOf dphi lambda l) L ∧ eta i * L ≤ 1)
    (P : (Fin X.ncols → ℝ) → Prop)
    (hP : ∀ i, ∀ l : List (List ℝ × ℝ), l.length = p.batchSize → (∀ q ∈ l, q ∈ X.rows.zip y) → ∀ w, P w →
      (∀ j, clipped (gradOf dphi lambda l w j) = gradOf dphi lambda l w j) ∧ P (move (gradOf dphi lambda l) (eta i) w))
    (w : Fin X.ncols → ℝ) (hw : P w) (n : Nat) (D : Nat → DMat ℝ × List ℝ) (st : Nat → List ℝ) (L : Nat → ℝ)
    (h : IsRun loss id (sgdStep loss clipGrad vanillaUpdate) p (X.nrows / p.batchSize) X y (List.ofFn w) n D st L)
    (u : Fin X.ncols → ℝ) :
    ∀ i ≤ n, ∃ v, st i = List.ofFn v ∧ P v ∧ ∑ j, (v j - u j) ^ 2 +
      ∑ m ∈ Finset.range i, 2 * eta m * (L m - epochLoss phi lambda p.batchSize (X.rows.zip y) u) ≤ ∑ j, (w j - u j) ^ 2 ∧
        ∀ m < i, 0 ≤ L m := by
  obtain ⟨hD, hst, hrun⟩ := h
  have hzl : (X.rows.zip y).length = X.nrows := by
    rw [List.length_zip, hy]; exact Nat.min_self _
  have key : ∀ i ≤ n, ((D i).1.ncols = X.ncols ∧ (D i).1.WF ∧ (D i).2.length = (D i).1.nrows ∧
      ((D i).1.rows.zip (D i).2).Perm (X.rows.zip y) ∧ (D i).1.nrows = X.nrows) ∧
      ∃ v, st i = List.ofFn v ∧ P v ∧ ∑ j, (v j - u j) ^ 2 +
        ∑ m ∈ Finset.range i, 2 * eta m * (L m - epochLoss phi lambda p.batchSize (X.rows.zip y) u) ≤ ∑ j, (w j - u j) ^ 2 ∧
        ∀ m < i, 0 ≤ L m := by
    intro i
    induction i with
    | zero =>
      intro _
      refine ⟨?_, w, hst, hw, by simp, fun m hm => absurd hm (Nat.not_lt_zero m)⟩
      rw [hD]
      exact ⟨rfl, hX, hy, List.Perm.refl _, rfl⟩
    | succ i ih =>
      intro hi
      obtain ⟨⟨g1, g2, g3, g4, g5⟩, v, hsi, hPv, hv, hnn⟩ := ih (by omega)
      obtain ⟨hsh, lr, hlr, t, l, ht0, ht1, hL, hstep⟩ := hrun i (by omega)
      rw [he i, Res.ok.injEq] at hlr
      subst hlr
      obtain ⟨⟨X2, y2⟩, hs, f1, f2, f3, f4, f5⟩ := C47_shuffle_pairs p.shuffle i (D i).1 g2 (D i).2 g3
        (fun q hq => by rw [g5]; exact hp q hq i)
      rw [hsh, Res.ok.injEq] at hs
      rw [hs] at hstep ⊢
      dsimp only at f1 f2 f3 f4 f5
      obtain ⟨nc, rows⟩ := X2
      dsimp only [DMat.nrows] at f1 f2 f3 f4 f5
      have hnc : nc = X.ncols := f1.trans g1
      subst hnc
      dsimp only at hstep
      have hperm : (rows.zip y2).Perm (X.rows.zip y) := f4.trans g4
      have hrl : rows.length = X.nrows := f5.trans g5
      have hz2 : (rows.zip y2).length = X.nrows := by rw [hperm.length_eq, hzl]
      refine ⟨⟨rfl, f2, f3, hperm, hrl⟩, ?_⟩
      have inner : ∀ k ≤ X.nrows / p.batchSize, ∃ v', t k = List.ofFn v' ∧ P v' ∧ ∑ j, (v' j - u j) ^ 2 +
          ∑ m ∈ Finset.range k, 2 * eta i * (l m - objective phi lambda (batch p.batchSize m (rows.zip y2)) u) ≤
            ∑ j, (v j - u j) ^ 2 ∧ ∀ m < k, 0 ≤ l m := by
        intro k
        induction k with
        | zero =>
          intro _
          exact ⟨v, ht0.trans hsi, hPv, by simp, fun m hm => absurd hm (Nat.not_lt_zero m)⟩
        | succ k ihk =>
          intro hk
          obtain ⟨v', e1, e2, e3, e4⟩ := ihk (by omega)
          obtain ⟨b1, b2, b3, b4⟩ := hstep k (by omega)
          have hwf : (⟨X.ncols, batch p.batchSize k rows⟩ : DMat ℝ).WF := fun r hr => f2 r (batch_mem _ _ _ hr)
          have hlb : (batch p.batchSize k y2).length = (⟨X.ncols, batch p.batchSize k rows⟩ : DMat ℝ).nrows := by
            rw [batch_length _ _ _ b2]
            exact (batch_length _ _ _ b1).symm
          have hll : (batch p.batchSize k (rows.zip y2)).length = p.batchSize := by
            refine batch_length _ _ _ ?_
            rw [hz2, ← hrl]; exact b1
          have hsub : ∀ q ∈ batch p.batchSize k (rows.zip y2), q ∈ X.rows.zip y := fun q hq =>
            hperm.mem_iff.mp (batch_mem _ _ _ hq)
          rw [e1] at b3
          unfold sgdStep at b3
          rw [hm.gradient _ hwf _ hlb, Res.bind_ok] at b3
          dsimp only at b3
          rw [batch_zip, vanilla_move, Res.ok.injEq] at b3
          rw [← b3, id, hm.evaluate _ hwf _ hlb, Res.ok.injEq] at b4
          dsimp only [DMat.nrows] at b4
          rw [batch_zip, batch_length _ _ _ b1] at b4
          obtain ⟨hc, hP'⟩ := hP i _ hll hsub v' e2
          obtain ⟨Ls, hSm, hr⟩ := hS i _ hll hsub
          have hprog := move_progress hSm (eta i) (h0 i) hr v' u hc
          refine ⟨_, b3.symm, hP', ?_, ?_⟩
          swap
          · intro m hmk
            rcases Nat.lt_succ_iff_lt_or_eq.mp hmk with h' | rfl
            · exact e4 m h'
            · have := objective_nonneg phi lambda hlam (batch p.batchSize m (rows.zip y2))
                (fun q hq => hpos q.2 (List.of_mem_zip (hsub q hq)).2)
                (move (gradOf dphi lambda (batch p.batchSize m (rows.zip y2))) (eta i) v')
              rwa [objective, hll, b4] at this
          have hobj : objective phi lambda (batch p.batchSize k (rows.zip y2))
              (move (gradOf dphi lambda (batch p.batchSize k (rows.zip y2))) (eta i) v') = l k := by
            rw [← b4, objective, hll]
          rw [hobj] at hprog
          rw [Finset.sum_range_succ]
          linarith
      obtain ⟨v', e1, e2, e3, e4⟩ := inner _ (le_refl _)
      refine ⟨v', ht1.symm.trans e1, e2, ?_, ?_⟩
      swap
      · intro m hmi
        rcases Nat.lt_succ_iff_lt_or_eq.mp hmi with h' | rfl
        · exact hnn m h'
        · rw [hL]
          exact Finset.sum_nonneg fun k hk => e4 k (Finset.mem_range.mp hk)
      have hbound := sum_objective_le phi lambda p.batchSize (rows.zip y2) u (fun q hq => hpos q.2 (List.of_mem_zip (hperm.mem_iff.mp hq)).2)
      rw [hz2, epochLoss_perm phi lambda p.batchSize hperm] at hbound
      rw [Finset.sum_range_succ, hL]
      rw [← Finset.mul_sum, Finset.sum_sub_distrib] at e3
      have := mul_le_mul_of_nonneg_left hbound (h0 i)
      nlinarith
  exact fun i hi => (key i hi).2

end OpenML.Descent
