import Verif.Spec.SgdNoise
import Verif.Lemmas.SgdStability

/-!
# Lemmas for C177: mini-batch gradient descent with errors in the steps
-/

namespace OpenML.SgdNoise

open Spec Loss SGD LogStability SgdStability Descent
open scoped BigOperators

variable {d : Nat}

theorem step_same (l : List (List ℝ × ℝ)) {R eta lambda : ℝ} {b : Nat} (hb : b ≠ 0) (hlen : l.length = b)
    (h : ∀ p ∈ l, ProperSample d p ∧ rowSize p.1 ≤ R) (h0 : 0 ≤ eta) (h1 : eta * (R ^ 2 / 4 + lambda / b) ≤ 1)
    (v w : EuclideanSpace ℝ (Fin d)) :
    ‖stepTo d lambda b eta l v - stepTo d lambda b eta l w‖ ≤ (1 - eta * (lambda / b)) * ‖v - w‖ := by
  have h2 := step_gap (l.map fun p => (p, p)) (lambda := lambda) hb (by rw [List.length_map, hlen]) (R := R) (by
    intro c hc
    obtain ⟨p, hp, rfl⟩ := List.mem_map.mp hc
    exact ⟨h p hp, h p hp⟩) h0 h1 v w
  have hc : ((l.map fun p => (p, p)).map cost).sum = 0 := by
    rw [List.map_map]
    have : (cost ∘ fun p : List ℝ × ℝ => (p, p)) = fun _ => 0 := by
      funext p
      simp [cost]
    rw [this]
    simp
  rw [hc, mul_zero, add_zero] at h2
  simpa [List.map_map, Function.comp_def] using h2

theorem step_norm (l : List (List ℝ × ℝ)) {R eta lambda : ℝ} {b : Nat} (hb : b ≠ 0) (hlen : l.length = b)
    (h : ∀ p ∈ l, ProperSample d p ∧ rowSize p.1 ≤ R) (h0 : 0 ≤ eta) (ha : 0 ≤ 1 - eta * (lambda / b))
    (v : EuclideanSpace ℝ (Fin d)) : ‖stepTo d lambda b eta l v‖ ≤ (1 - eta * (lambda / b)) * ‖v‖ + eta * R := by
  have hb' : (0 : ℝ) < b := by exact_mod_cast Nat.pos_of_ne_zero hb
  have e : stepTo d lambda b eta l v = (1 - eta * (lambda / b)) • v - (eta / b) • (l.map fun p => pull d p v).sum := by
    unfold stepTo force
    rw [sub_smul, one_smul, smul_add, smul_smul, show eta / b * lambda = eta * (lambda / b) by ring]
    abel
  rw [e]
  refine (norm_sub_le _ _).trans ?_
  rw [norm_smul, norm_smul, Real.norm_of_nonneg ha, Real.norm_of_nonneg (by positivity)]
  have := mul_le_mul_of_nonneg_left (sum_le l h v) (show 0 ≤ eta / b by positivity)
  rw [hlen] at this
  have e2 : eta / b * (b * R) = eta * R := by field_simp
  linarith

/-- With an error a step keeps the weights small for samples that are smaller by the error. -/
theorem small_error (l : List (List ℝ × ℝ)) {R ρ eta lambda : ℝ} {b : Nat} (hb : b ≠ 0) (hlen : l.length = b) (hl : 0 ≤ lambda)
    (h : ∀ p ∈ l, ProperSample d p ∧ rowSize p.1 ≤ R) (h0 : 0 ≤ eta) (ha : 0 ≤ 1 - eta * (lambda / b))
    (v e : EuclideanSpace ℝ (Fin d)) (he : ‖e‖ ≤ eta * ρ) (hv : Small lambda b (R + ρ) v) :
    Small lambda b (R + ρ) (stepTo d lambda b eta l v + e) := by
  have hb' : (0 : ℝ) < b := by exact_mod_cast Nat.pos_of_ne_zero hb
  have hn : 0 ≤ lambda / b := by positivity
  have h2 : ‖stepTo d lambda b eta l v + e‖ ≤ (1 - eta * (lambda / b)) * ‖v‖ + eta * (R + ρ) := by
    refine (norm_add_le _ _).trans ?_
    have := step_norm l hb hlen h h0 ha v
    linarith
  unfold SgdStability.Small at hv ⊢
  calc lambda / b * ‖stepTo d lambda b eta l v + e‖ ≤ lambda / b * ((1 - eta * (lambda / b)) * ‖v‖ + eta * (R + ρ)) :=
        mul_le_mul_of_nonneg_left h2 hn
    _ = (1 - eta * (lambda / b)) * (lambda / b * ‖v‖) + eta * (lambda / b) * (R + ρ) := by ring
    _ ≤ (1 - eta * (lambda / b)) * (R + ρ) + eta * (lambda / b) * (R + ρ) := by
        have := mul_le_mul_of_nonneg_left hv ha
        linarith
    _ = R + ρ := by ring

theorem add_ofFn (v : Fin d → ℝ) (e : List ℝ) (he : e.length = d) :
    ∃ f : Fin d → ℝ, e = List.ofFn f ∧ List.zipWith (· + ·) (List.ofFn v) e = List.ofFn (v + f) := by
  obtain ⟨f, rfl⟩ := exists_ofFn e he
  refine ⟨f, rfl, ?_⟩
  apply List.ext_getElem
  · simp
  · intro i h1 h2
    simp

section
variable {lambda R ρ : ℝ} {p : Params ℝ} {l : List (List ℝ × ℝ)} {eta : Nat → ℝ}
  {err : List ℝ → DMat ℝ → List ℝ → ℝ → Nat → List ℝ} (hlam : 0 ≤ lambda) (hb : p.batchSize ≠ 0) (hρ : 0 ≤ ρ)
  (hl : ∀ s ∈ l, ProperSample d s ∧ rowSize s.1 ≤ R)
  (h0 : ∀ i, 0 ≤ eta i) (h1 : ∀ i, eta i * (R ^ 2 / 4 + lambda / p.batchSize) ≤ 1) (hR : 2 * (R + ρ) ≤ 10 ^ 10)
  (herr : GradientError d ρ err)
include hlam hb hρ hl h0 h1 hR herr

/-- An epoch with and without errors. -/
theorem pass_noise (i k : Nat) (hk : k * p.batchSize ≤ l.length) (v v' : Fin d → ℝ) (hv : Small lambda p.batchSize (R + ρ) (vec v))
    (hv' : Small lambda p.batchSize (R + ρ) (vec v')) (s s' : List ℝ) (L L' : ℝ)
    (h : IsPass (lf lambda) id (st lambda) p.batchSize k (featuresOf d l) (labelsOf l) (eta i) (List.ofFn v) s L)
    (h' : IsPass (lf lambda) id (withError (st lambda) err) p.batchSize k (featuresOf d l) (labelsOf l) (eta i) (List.ofFn v') s' L') :
    ∃ u u' : Fin d → ℝ, s = List.ofFn u ∧ s' = List.ofFn u' ∧ Small lambda p.batchSize (R + ρ) (vec u) ∧
      Small lambda p.batchSize (R + ρ) (vec u') ∧
      ‖vec u - vec u'‖ ≤ (1 - eta i * (lambda / p.batchSize)) ^ k * ‖vec v - vec v'‖ + k * (eta i * ρ) ∧
      ∀ M, ρ ≤ lambda / p.batchSize * M → ‖vec v - vec v'‖ ≤ M → ‖vec u - vec u'‖ ≤ M := by
  obtain ⟨t, ls, ht0, ht1, -, hstep⟩ := h
  obtain ⟨t', ls', ht0', ht1', -, hstep'⟩ := h'
  have hb' : (0 : ℝ) < p.batchSize := by exact_mod_cast Nat.pos_of_ne_zero hb
  have ha0 : 0 ≤ 1 - eta i * (lambda / p.batchSize) := by nlinarith [h1 i, mul_nonneg (h0 i) (sq_nonneg R)]
  have ha1 : 1 - eta i * (lambda / p.batchSize) ≤ 1 := by
    have : 0 ≤ eta i * (lambda / p.batchSize) := mul_nonneg (h0 i) (by positivity)
    linarith
  have inner : ∀ j ≤ k, ∃ u u' : Fin d → ℝ, t j = List.ofFn u ∧ t' j = List.ofFn u' ∧ Small lambda p.batchSize (R + ρ) (vec u) ∧
      Small lambda p.batchSize (R + ρ) (vec u') ∧
      ‖vec u - vec u'‖ ≤ (1 - eta i * (lambda / p.batchSize)) ^ j * ‖vec v - vec v'‖ + j * (eta i * ρ) ∧
      ∀ M, ρ ≤ lambda / p.batchSize * M → ‖vec v - vec v'‖ ≤ M → ‖vec u - vec u'‖ ≤ M := by
    intro j
    induction j with
    | zero =>
      intro _
      exact ⟨v, v', ht0, ht0', hv, hv', by simp, fun M _ h => h⟩
    | succ j ih =>
      intro hj
      obtain ⟨u, u', e1, e2, e3, e4, e5, e6⟩ := ih (by omega)
      obtain ⟨-, -, b1, -⟩ := hstep j (by omega)
      obtain ⟨-, -, b2, -⟩ := hstep' j (by omega)
      have hlen : (batch p.batchSize j l).length = p.batchSize :=
        batch_length _ _ _ ((Nat.mul_le_mul_right _ (show j + 1 ≤ k from hj)).trans hk)
      have hz : ∀ q ∈ batch p.batchSize j l, ProperSample d q ∧ rowSize q.1 ≤ R := fun c hc => hl c (batch_mem _ _ _ hc)
      have hz' : ∀ q ∈ batch p.batchSize j l, ProperSample d q ∧ rowSize q.1 ≤ R + ρ := fun c hc =>
        ⟨(hz c hc).1, (hz c hc).2.trans (by linarith)⟩
      rw [(batch_of _ _ _).1, (batch_of (d := d) _ _ _).2, e1, sgd_step _ _ (fun q hq => (hz q hq).1), Res.ok.injEq] at b1
      obtain ⟨g1, -⟩ := step_eq _ hb hlen hlam hz' (h0 i) hR u e3
      obtain ⟨g1', -⟩ := step_eq _ hb hlen hlam hz' (h0 i) hR u' e4
      unfold withError at b2
      rw [(batch_of _ _ _).1, (batch_of (d := d) _ _ _).2, e2, sgd_step _ _ (fun q hq => (hz q hq).1), Res.bind_ok, Res.ok.injEq] at b2
      obtain ⟨hel, hes⟩ := herr (List.ofFn u') (featuresOf d (batch p.batchSize j l)) (labelsOf (batch p.batchSize j l)) (eta i) j (h0 i)
      obtain ⟨f, hf1, hf2⟩ := add_ofFn (move (gradOf (fun a s => Real.sigmoid s - a) lambda (batch p.batchSize j l)) (eta i) u') _ hel
      rw [hf2] at b2
      rw [hf1, ← norm_vec] at hes
      have hsum : vec (move (gradOf (fun a s => Real.sigmoid s - a) lambda (batch p.batchSize j l)) (eta i) u' + f) =
          stepTo d lambda p.batchSize (eta i) (batch p.batchSize j l) (vec u') + vec f := by
        rw [← g1']
        rfl
      have hgap : ‖vec (move (gradOf (fun a s => Real.sigmoid s - a) lambda (batch p.batchSize j l)) (eta i) u) -
          vec (move (gradOf (fun a s => Real.sigmoid s - a) lambda (batch p.batchSize j l)) (eta i) u' + f)‖ ≤
          (1 - eta i * (lambda / p.batchSize)) * ‖vec u - vec u'‖ + eta i * ρ := by
        rw [hsum, g1, ← sub_sub]
        refine (norm_sub_le _ _).trans (add_le_add (step_same _ hb hlen hz (h0 i) (h1 i) _ _) hes)
      refine ⟨_, _, b1.symm, b2.symm, ?_, ?_, ?_, ?_⟩
      · rw [g1]
        have := small_error (ρ := ρ) _ hb hlen hlam hz (h0 i) ha0 (vec u) 0 (by rw [norm_zero]; exact mul_nonneg (h0 i) hρ) e3
        rwa [add_zero] at this
      · rw [hsum]
        exact small_error _ hb hlen hlam hz (h0 i) ha0 _ _ hes e4
      · refine hgap.trans ?_
        have h5 := mul_le_mul_of_nonneg_left e5 ha0
        have h6 := mul_le_of_le_one_left (mul_nonneg (Nat.cast_nonneg j) (mul_nonneg (h0 i) hρ)) ha1
        rw [pow_succ]
        push_cast
        nlinarith
      · intro M hM hvM
        refine hgap.trans ?_
        have h5 := mul_le_mul_of_nonneg_left (e6 M hM hvM) ha0
        have h6 := mul_le_mul_of_nonneg_left hM (h0 i)
        nlinarith
  obtain ⟨u, u', e1, e2, e3, e4, e5, e6⟩ := inner k le_rfl
  exact ⟨u, u', ht1.symm.trans e1, ht1'.symm.trans e2, e3, e4, e5, e6⟩

variable (hp : ∀ q, p.shuffle = some q → ∀ i, (q i).Perm (List.range l.length)) (he : ∀ i, p.decay i = .ok (eta i))
include hp he

/-- A run with and without errors. -/
theorem run_noise (w w' : Fin d → ℝ) (hw : Small lambda p.batchSize (R + ρ) (vec w)) (hw' : Small lambda p.batchSize (R + ρ) (vec w'))
    (n : Nat) (D D' : Nat → DMat ℝ × List ℝ) (S S' : Nat → List ℝ) (L L' : Nat → ℝ)
    (h : IsRun (lf lambda) id (st lambda) p (l.length / p.batchSize) (featuresOf d l) (labelsOf l) (List.ofFn w) n D S L)
    (h' : IsRun (lf lambda) id (withError (st lambda) err) p (l.length / p.batchSize) (featuresOf d l) (labelsOf l) (List.ofFn w') n
      D' S' L') :
    ∃ u u' : Fin d → ℝ, S n = List.ofFn u ∧ S' n = List.ofFn u' ∧
      ‖vec u - vec u'‖ ≤ (∏ m ∈ Finset.range n, (1 - eta m * (lambda / p.batchSize)) ^ (l.length / p.batchSize)) * ‖vec w - vec w'‖ +
        (l.length / p.batchSize : ℕ) * (∑ m ∈ Finset.range n, eta m) * ρ ∧
      ∀ M, ρ ≤ lambda / p.batchSize * M → ‖vec w - vec w'‖ ≤ M → ‖vec u - vec u'‖ ≤ M := by
  obtain ⟨hD, hS, hrun⟩ := h
  obtain ⟨hD', hS', hrun'⟩ := h'
  have hb' : (0 : ℝ) < p.batchSize := by exact_mod_cast Nat.pos_of_ne_zero hb
  have key : ∀ i ≤ n, (∃ Y : List (List ℝ × ℝ), Y.Perm l ∧ D i = (featuresOf d Y, labelsOf Y) ∧ D' i = (featuresOf d Y, labelsOf Y)) ∧
      ∃ u u' : Fin d → ℝ, S i = List.ofFn u ∧ S' i = List.ofFn u' ∧ Small lambda p.batchSize (R + ρ) (vec u) ∧
      Small lambda p.batchSize (R + ρ) (vec u') ∧
      ‖vec u - vec u'‖ ≤ (∏ m ∈ Finset.range i, (1 - eta m * (lambda / p.batchSize)) ^ (l.length / p.batchSize)) * ‖vec w - vec w'‖ +
        (l.length / p.batchSize : ℕ) * (∑ m ∈ Finset.range i, eta m) * ρ ∧
      ∀ M, ρ ≤ lambda / p.batchSize * M → ‖vec w - vec w'‖ ≤ M → ‖vec u - vec u'‖ ≤ M := by
    intro i
    induction i with
    | zero =>
      intro _
      exact ⟨⟨l, List.Perm.refl _, hD, hD'⟩, w, w', hS, hS', hw, hw', by simp, fun M _ h => h⟩
    | succ i ih =>
      intro hi
      obtain ⟨⟨Y, hY, d1, d2⟩, u, u', e1, e2, e3, e4, e5, e6⟩ := ih (by omega)
      obtain ⟨a1, lr, a2, a3⟩ := hrun i (by omega)
      obtain ⟨a1', lr', a2', a3'⟩ := hrun' i (by omega)
      rw [he i, Res.ok.injEq] at a2 a2'
      subst a2
      subst a2'
      obtain ⟨Y', hY', s1, -⟩ := shuffle_pair (d := d) p.shuffle i (Y.map fun q => (q, q)) (by
        rw [List.length_map, hY.length_eq]
        exact hp)
      have hfst : (Y.map fun q => (q, q)).map Prod.fst = Y := by simp [List.map_map, Function.comp_def]
      have hYY : (Y'.map Prod.fst).Perm Y := by
        have := hY'.map Prod.fst
        rwa [hfst] at this
      have hYZ := hYY.trans hY
      rw [hfst] at s1
      rw [d1, s1, Res.ok.injEq] at a1
      rw [d2, s1, Res.ok.injEq] at a1'
      rw [← a1, e1] at a3
      rw [← a1', e2] at a3'
      obtain ⟨v, v', g1, g2, g3, g4, g5, g6⟩ := pass_noise (l := Y'.map Prod.fst) hlam hb hρ (fun c hc => hl c (hYZ.mem_iff.mp hc)) h0 h1 hR
        herr i _ (by rw [hYZ.length_eq]; exact Nat.div_mul_le_self _ _) u u' e3 e4 _ _ _ _ a3 a3'
      refine ⟨⟨_, hYZ, a1.symm, a1'.symm⟩, v, v', g1, g2, g3, g4, ?_, fun M hM hwM => g6 M hM (e6 M hM hwM)⟩
      have ha0 : 0 ≤ 1 - eta i * (lambda / p.batchSize) := by nlinarith [h1 i, mul_nonneg (h0 i) (sq_nonneg R)]
      have ha1 : 1 - eta i * (lambda / p.batchSize) ≤ 1 := by
        have : 0 ≤ eta i * (lambda / p.batchSize) := mul_nonneg (h0 i) (by positivity)
        linarith
      have hc : 0 ≤ ((l.length / p.batchSize : ℕ) : ℝ) * (∑ m ∈ Finset.range i, eta m) * ρ :=
        mul_nonneg (mul_nonneg (Nat.cast_nonneg _) (Finset.sum_nonneg fun m _ => h0 m)) hρ
      have h5 := mul_le_mul_of_nonneg_left e5 (pow_nonneg ha0 (l.length / p.batchSize))
      have h6 := mul_le_of_le_one_left hc (pow_le_one₀ (n := l.length / p.batchSize) ha0 ha1)
      rw [Finset.prod_range_succ, Finset.sum_range_succ]
      nlinarith
  obtain ⟨-, u, u', e1, e2, -, -, e5, e6⟩ := key n le_rfl
  exact ⟨u, u', e1, e2, e5, e6⟩

end

end OpenML.SgdNoise
