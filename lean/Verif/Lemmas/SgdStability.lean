import Verif.Spec.SgdStability
import Verif.Props.LogStability
import Verif.Props.LinearPredict
import Verif.Lemmas.Batches

/-!
# Lemmas for C172: two runs of mini-batch gradient descent on the penalised log loss side by side
-/

namespace OpenML.SgdStability

open Spec Loss SGD LogStability Descent
open scoped BigOperators

variable {d : Nat}

/-- A difference of values of the logistic function is a slope between zero and a quarter times the difference of the arguments. -/
theorem slope (s t : ℝ) : ∃ c, 0 ≤ c ∧ c ≤ 1 / 4 ∧ Real.sigmoid s - Real.sigmoid t = c * (s - t) := by
  rcases lt_trichotomy s t with h | h | h
  · refine ⟨(Real.sigmoid t - Real.sigmoid s) / (t - s), ?_, ?_, ?_⟩
    · exact div_nonneg (sub_nonneg.mpr (Real.sigmoid_monotone h.le)) (by linarith)
    · rw [div_le_iff₀ (by linarith)]
      exact sigmoid_step s t h.le
    · have : t - s ≠ 0 := by linarith
      field_simp
      ring
  · exact ⟨0, le_rfl, by norm_num, by rw [h]; ring⟩
  · refine ⟨(Real.sigmoid s - Real.sigmoid t) / (s - t), ?_, ?_, ?_⟩
    · exact div_nonneg (sub_nonneg.mpr (Real.sigmoid_monotone h.le)) (by linarith)
    · rw [div_le_iff₀ (by linarith)]
      exact sigmoid_step t s h.le
    · have : s - t ≠ 0 := by linarith
      field_simp

/-- The pull of one sample brings weights no further apart. -/
theorem nudge (p : List ℝ × ℝ) (hp : ProperSample d p) {R eta a : ℝ} (hR : rowSize p.1 ≤ R) (h0 : 0 ≤ eta) (ha : eta * (R ^ 2 / 4) ≤ a)
    (v w : EuclideanSpace ℝ (Fin d)) : ‖a • (v - w) - eta • (pull d p v - pull d p w)‖ ≤ a * ‖v - w‖ := by
  obtain ⟨c, c0, c1, hc⟩ := slope (inner ℝ (feat d p.1) v) (inner ℝ (feat d p.1) w)
  have h1 : pull d p v - pull d p w = (c * inner ℝ (feat d p.1) (v - w)) • feat d p.1 := by
    unfold pull
    rw [← sub_smul, inner_sub_right, ← hc]
    congr 1
    ring
  have hx : ‖feat d p.1‖ ^ 2 ≤ R ^ 2 := by
    rw [norm_feat p.1 hp.1]
    exact pow_le_pow_left₀ (Real.sqrt_nonneg _) hR 2
  have ha0 : 0 ≤ a := le_trans (by positivity) ha
  rw [h1, smul_smul]
  generalize hs : inner ℝ (feat d p.1) (v - w) = s
  refine abs_le_of_sq_le_sq' ?_ (mul_nonneg ha0 (norm_nonneg _)) |>.2
  rw [norm_sub_sq_real, real_inner_smul_left, real_inner_smul_right, real_inner_comm, hs, norm_smul, norm_smul, mul_pow, mul_pow, mul_pow,
    Real.norm_eq_abs, Real.norm_eq_abs, sq_abs, sq_abs]
  have h2 : eta * c * ‖feat d p.1‖ ^ 2 ≤ a := by
    calc eta * c * ‖feat d p.1‖ ^ 2 ≤ eta * (1 / 4) * R ^ 2 :=
          mul_le_mul (mul_le_mul_of_nonneg_left c1 h0) hx (sq_nonneg _) (by positivity)
      _ = eta * (R ^ 2 / 4) := by ring
      _ ≤ a := ha
  have h3 : 0 ≤ eta * c * s ^ 2 := by positivity
  nlinarith [mul_le_mul_of_nonneg_left h2 h3, mul_nonneg ha0 h3]

open Classical in
/-- The cost of a pair of samples. -/
noncomputable def cost (c : (List ℝ × ℝ) × (List ℝ × ℝ)) : ℝ := if c.1 = c.2 then 0 else rowSize c.1.1 + rowSize c.2.1

theorem cost_nonneg (c : (List ℝ × ℝ) × (List ℝ × ℝ)) : 0 ≤ cost c := by
  unfold cost
  split
  · exact le_rfl
  · exact add_nonneg (Real.sqrt_nonneg _) (Real.sqrt_nonneg _)

theorem pair_nudge (c : (List ℝ × ℝ) × (List ℝ × ℝ)) (h1 : ProperSample d c.1) (h2 : ProperSample d c.2) {R eta a : ℝ}
    (hR : rowSize c.1.1 ≤ R) (h0 : 0 ≤ eta) (ha : eta * (R ^ 2 / 4) ≤ a) (v w : EuclideanSpace ℝ (Fin d)) :
    ‖a • (v - w) - eta • (pull d c.1 v - pull d c.2 w)‖ ≤ a * ‖v - w‖ + eta * cost c := by
  unfold cost
  split
  · rename_i h
    rw [← h, mul_zero, add_zero]
    exact nudge c.1 h1 hR h0 ha v w
  · have ha0 : 0 ≤ a := le_trans (by positivity) ha
    refine (norm_sub_le _ _).trans ?_
    rw [norm_smul, norm_smul, Real.norm_of_nonneg ha0, Real.norm_of_nonneg h0]
    exact add_le_add le_rfl (mul_le_mul_of_nonneg_left
      ((norm_sub_le _ _).trans (add_le_add (pull_le c.1 h1 v) (pull_le c.2 h2 w))) h0)

theorem list_nudge (Z : List ((List ℝ × ℝ) × (List ℝ × ℝ))) {R eta a : ℝ}
    (hZ : ∀ c ∈ Z, (ProperSample d c.1 ∧ rowSize c.1.1 ≤ R) ∧ ProperSample d c.2 ∧ rowSize c.2.1 ≤ R)
    (h0 : 0 ≤ eta) (ha : eta * (R ^ 2 / 4) ≤ a) (v w : EuclideanSpace ℝ (Fin d)) :
    ‖((Z.length : ℝ) * a) • (v - w) - eta • (((Z.map Prod.fst).map fun p => pull d p v).sum - ((Z.map Prod.snd).map fun p => pull d p w).sum)‖ ≤
      Z.length * a * ‖v - w‖ + eta * (Z.map cost).sum := by
  induction Z with
  | nil => simp
  | cons c Z ih =>
    have h1 := ih fun c hc => hZ c (List.mem_cons_of_mem _ hc)
    obtain ⟨⟨h2, h3⟩, h4, _⟩ := hZ c List.mem_cons_self
    have h5 := pair_nudge c h2 h4 h3 h0 ha v w
    have e : ((((c :: Z).length : ℕ) : ℝ) * a) • (v - w) - eta • ((((c :: Z).map Prod.fst).map fun p => pull d p v).sum -
        (((c :: Z).map Prod.snd).map fun p => pull d p w).sum) =
        (((Z.length : ℝ) * a) • (v - w) - eta • (((Z.map Prod.fst).map fun p => pull d p v).sum - ((Z.map Prod.snd).map fun p => pull d p w).sum)) +
        (a • (v - w) - eta • (pull d c.1 v - pull d c.2 w)) := by
      simp only [List.length_cons, List.map_cons, List.sum_cons, Nat.cast_add, Nat.cast_one, add_mul, one_mul, add_smul, smul_sub, smul_add]
      abel
    rw [e]
    refine (norm_add_le _ _).trans ((add_le_add h1 h5).trans_eq ?_)
    simp only [List.length_cons, List.map_cons, List.sum_cons, Nat.cast_add, Nat.cast_one]
    ring

/-- One step on a batch. -/
noncomputable def stepTo (d : Nat) (lambda : ℝ) (b : Nat) (eta : ℝ) (l : List (List ℝ × ℝ)) (v : EuclideanSpace ℝ (Fin d)) :
    EuclideanSpace ℝ (Fin d) := v - (eta / b) • force d lambda l v

theorem step_gap (Z : List ((List ℝ × ℝ) × (List ℝ × ℝ))) {R eta lambda : ℝ} {b : Nat} (hb : b ≠ 0) (hlen : Z.length = b)
    (hZ : ∀ c ∈ Z, (ProperSample d c.1 ∧ rowSize c.1.1 ≤ R) ∧ ProperSample d c.2 ∧ rowSize c.2.1 ≤ R)
    (h0 : 0 ≤ eta) (h1 : eta * (R ^ 2 / 4 + lambda / b) ≤ 1) (v w : EuclideanSpace ℝ (Fin d)) :
    ‖stepTo d lambda b eta (Z.map Prod.fst) v - stepTo d lambda b eta (Z.map Prod.snd) w‖ ≤
      (1 - eta * (lambda / b)) * ‖v - w‖ + eta / b * (Z.map cost).sum := by
  have hb' : (0 : ℝ) < b := by exact_mod_cast Nat.pos_of_ne_zero hb
  have h2 := list_nudge Z hZ h0 (a := 1 - eta * (lambda / b)) (by linarith) v w
  rw [hlen] at h2
  have e : stepTo d lambda b eta (Z.map Prod.fst) v - stepTo d lambda b eta (Z.map Prod.snd) w = (1 / (b : ℝ)) •
      (((b : ℝ) * (1 - eta * (lambda / b))) • (v - w) - eta •
        (((Z.map Prod.fst).map fun p => pull d p v).sum - ((Z.map Prod.snd).map fun p => pull d p w).sum)) := by
    unfold stepTo force
    generalize ((Z.map Prod.fst).map fun p => pull d p v).sum = A
    generalize ((Z.map Prod.snd).map fun p => pull d p w).sum = B
    have e1 : (1 / (b : ℝ)) * ((b : ℝ) * (1 - eta * (lambda / b))) = 1 - eta / b * lambda := by
      field_simp
    rw [smul_sub (1 / (b : ℝ)), smul_smul, smul_smul, e1, show 1 / (b : ℝ) * eta = eta / b by ring]
    simp only [smul_sub, smul_add, sub_smul, one_smul, smul_smul]
    abel
  rw [e, norm_smul, Real.norm_of_nonneg (by positivity)]
  calc 1 / (b : ℝ) * _ ≤ 1 / (b : ℝ) * _ := mul_le_mul_of_nonneg_left h2 (by positivity)
    _ = _ := by
      field_simp

theorem force_le (l : List (List ℝ × ℝ)) {R lambda : ℝ} (hl : 0 ≤ lambda) (h : ∀ p ∈ l, ProperSample d p ∧ rowSize p.1 ≤ R)
    (v : EuclideanSpace ℝ (Fin d)) : ‖force d lambda l v‖ ≤ l.length * R + lambda * ‖v‖ := by
  unfold force
  refine (norm_add_le _ _).trans (add_le_add ?_ (by rw [norm_smul, Real.norm_of_nonneg hl]))
  induction l with
  | nil => simp
  | cons p l ih =>
    obtain ⟨h1, h2⟩ := h p List.mem_cons_self
    have h3 := ih fun p hp => h p (List.mem_cons_of_mem _ hp)
    simp only [List.map_cons, List.sum_cons, List.length_cons, Nat.cast_add, Nat.cast_one]
    refine (norm_add_le _ _).trans ?_
    have := pull_le p h1 v
    linarith

theorem sum_le (l : List (List ℝ × ℝ)) {R : ℝ} (h : ∀ p ∈ l, ProperSample d p ∧ rowSize p.1 ≤ R)
    (v : EuclideanSpace ℝ (Fin d)) : ‖(l.map fun p => pull d p v).sum‖ ≤ l.length * R := by
  have := force_le l (le_refl (0 : ℝ)) h v
  simpa [force] using this

/-- Weights so small that no gradient is clipped. -/
def Small (lambda : ℝ) (b : Nat) (R : ℝ) (v : EuclideanSpace ℝ (Fin d)) : Prop := lambda / b * ‖v‖ ≤ R

theorem step_small (l : List (List ℝ × ℝ)) {R eta lambda : ℝ} {b : Nat} (hb : b ≠ 0) (hlen : l.length = b) (hl : 0 ≤ lambda)
    (h : ∀ p ∈ l, ProperSample d p ∧ rowSize p.1 ≤ R)
    (h0 : 0 ≤ eta) (h1 : eta * (R ^ 2 / 4 + lambda / b) ≤ 1) (v : EuclideanSpace ℝ (Fin d)) (hv : Small lambda b R v) :
    Small lambda b R (stepTo d lambda b eta l v) := by
  have hb' : (0 : ℝ) < b := by exact_mod_cast Nat.pos_of_ne_zero hb
  have hn : 0 ≤ lambda / b := by positivity
  have ha : 0 ≤ 1 - eta * (lambda / b) := by nlinarith [mul_nonneg h0 (sq_nonneg R)]
  have e : stepTo d lambda b eta l v = (1 - eta * (lambda / b)) • v - (eta / b) • (l.map fun p => pull d p v).sum := by
    unfold stepTo force
    rw [sub_smul, one_smul, smul_add, smul_smul, show eta / b * lambda = eta * (lambda / b) by ring]
    abel
  have h2 : ‖stepTo d lambda b eta l v‖ ≤ (1 - eta * (lambda / b)) * ‖v‖ + eta * R := by
    rw [e]
    refine (norm_sub_le _ _).trans ?_
    rw [norm_smul, norm_smul, Real.norm_of_nonneg ha, Real.norm_of_nonneg (by positivity)]
    have := mul_le_mul_of_nonneg_left (sum_le l h v) (show 0 ≤ eta / b by positivity)
    rw [hlen] at this
    have e2 : eta / b * (b * R) = eta * R := by field_simp
    linarith
  unfold Small at hv ⊢
  calc lambda / b * ‖stepTo d lambda b eta l v‖ ≤ lambda / b * ((1 - eta * (lambda / b)) * ‖v‖ + eta * R) :=
        mul_le_mul_of_nonneg_left h2 hn
    _ = (1 - eta * (lambda / b)) * (lambda / b * ‖v‖) + eta * (lambda / b) * R := by ring
    _ ≤ (1 - eta * (lambda / b)) * R + eta * (lambda / b) * R := by
        have := mul_le_mul_of_nonneg_left hv ha
        linarith
    _ = R := by ring

/-- Small weights: the step of the optimizer is the one above, and it is short. -/
theorem step_eq (l : List (List ℝ × ℝ)) {R eta lambda : ℝ} {b : Nat} (hb : b ≠ 0) (hlen : l.length = b) (hl : 0 ≤ lambda)
    (h : ∀ p ∈ l, ProperSample d p ∧ rowSize p.1 ≤ R) (h0 : 0 ≤ eta) (hR : 2 * R ≤ 10 ^ 10) (v : Fin d → ℝ) (hv : Small lambda b R (vec v)) :
    vec (move (gradOf (fun a s => Real.sigmoid s - a) lambda l) eta v) = stepTo d lambda b eta l (vec v) ∧
      ‖stepTo d lambda b eta l (vec v) - vec v‖ ≤ eta * (2 * R) := by
  have hb' : (0 : ℝ) < b := by exact_mod_cast Nat.pos_of_ne_zero hb
  have hne : l ≠ [] := by
    rintro rfl
    exact hb hlen.symm
  have hf := force_gradOf lambda l hne v
  rw [hlen] at hf
  have h1 := force_le l hl h (vec v)
  have h2 : ‖force d lambda l (vec v)‖ ≤ b * (2 * R) := by
    refine h1.trans ?_
    unfold Small at hv
    have : lambda * ‖vec v‖ = b * (lambda / b * ‖vec v‖) := by field_simp
    rw [hlen, this]
    have := mul_le_mul_of_nonneg_left hv hb'.le
    linarith
  have h3 : ‖vec (gradOf (fun a s => Real.sigmoid s - a) lambda l v)‖ ≤ 2 * R := by
    rw [hf, norm_smul, Real.norm_of_nonneg hb'.le] at h2
    exact le_of_mul_le_mul_left h2 hb'
  have h4 : ∀ j, clipped (gradOf (fun a s => Real.sigmoid s - a) lambda l v j) = gradOf (fun a s => Real.sigmoid s - a) lambda l v j := by
    intro j
    refine clipped_of_sq _ ?_
    have h5 := PiLp.norm_apply_le (vec (gradOf (fun a s => Real.sigmoid s - a) lambda l v)) j
    have h6 : |gradOf (fun a s => Real.sigmoid s - a) lambda l v j| ≤ 10 ^ 10 := (h5.trans h3).trans hR
    rw [← sq_abs]
    calc |gradOf (fun a s => Real.sigmoid s - a) lambda l v j| ^ 2 ≤ (10 ^ 10) ^ 2 := pow_le_pow_left₀ (abs_nonneg _) h6 2
      _ = 10 ^ 20 := by norm_num
  constructor
  · unfold stepTo
    rw [hf, smul_smul, div_mul_cancel₀ _ hb'.ne']
    ext j
    simp [vec, move, h4]
  · unfold stepTo
    rw [sub_sub_cancel_left, norm_neg, norm_smul, Real.norm_of_nonneg (by positivity)]
    calc eta / b * ‖force d lambda l (vec v)‖ ≤ eta / b * (b * (2 * R)) := mul_le_mul_of_nonneg_left h2 (by positivity)
      _ = eta * (2 * R) := by field_simp

/-- The log loss as a loss function of an optimizer. -/
noncomputable abbrev lf (lambda : ℝ) : LossFn ℝ (List ℝ) := ⟨logEvaluate lambda, logGradient lambda⟩

/-- The step of `SGD` for the log loss. -/
noncomputable abbrev st (lambda : ℝ) : Step ℝ (List ℝ) := sgdStep (lf lambda) clipGrad vanillaUpdate

theorem sgd_step (lambda : ℝ) (l : List (List ℝ × ℝ)) (h : ∀ p ∈ l, ProperSample d p) (v : Fin d → ℝ) (eta : ℝ) (j : Nat) :
    st lambda (List.ofFn v) (featuresOf d l) (labelsOf l) eta j =
      .ok (List.ofFn (move (gradOf (fun a s => Real.sigmoid s - a) lambda l) eta v)) := by
  have h1 : (lf lambda).gradient (featuresOf d l) (labelsOf l) (List.ofFn v) = .ok (List.ofFn (gradOf (fun a s => Real.sigmoid s - a) lambda
      ((featuresOf d l).rows.zip (labelsOf l)) v)) :=
    (isMean_log lambda).gradient (featuresOf d l) (featuresOf_wf h) (labelsOf l) (labelsOf_length l) v
  rw [zip_of] at h1
  unfold st sgdStep
  rw [h1, Res.bind_ok, vanilla_move]

theorem batch_of (b j : Nat) (l : List (List ℝ × ℝ)) :
    (⟨(featuresOf d l).ncols, batch b j (featuresOf d l).rows⟩ : DMat ℝ) = featuresOf d (batch b j l) ∧
      batch b j (labelsOf l) = labelsOf (batch b j l) := by
  unfold featuresOf labelsOf batch
  simp [List.map_take, List.map_drop]

theorem batch_map {β γ : Type} (f : β → γ) (b j : Nat) (l : List β) : batch b j (l.map f) = (batch b j l).map f := by
  unfold batch
  simp [List.map_take, List.map_drop]

/-- Two shuffles with the same permutation. -/
theorem shuffle_pair (shuffle : Option (Nat → List Nat)) (i : Nat) (Z : List ((List ℝ × ℝ) × (List ℝ × ℝ)))
    (hp : ∀ q, shuffle = some q → ∀ i, (q i).Perm (List.range Z.length)) :
    ∃ Z' : List ((List ℝ × ℝ) × (List ℝ × ℝ)), Z'.Perm Z ∧
      shuffleXY shuffle i (featuresOf d (Z.map Prod.fst)) (labelsOf (Z.map Prod.fst)) =
        .ok (featuresOf d (Z'.map Prod.fst), labelsOf (Z'.map Prod.fst)) ∧
      shuffleXY shuffle i (featuresOf d (Z.map Prod.snd)) (labelsOf (Z.map Prod.snd)) =
        .ok (featuresOf d (Z'.map Prod.snd), labelsOf (Z'.map Prod.snd)) := by
  cases shuffle with
  | none => exact ⟨Z, List.Perm.refl _, rfl, rfl⟩
  | some q =>
    have h := hp q rfl i
    have hl : (q i).length = Z.length := by rw [h.length_eq, List.length_range]
    refine ⟨Data.scatter (q i) Z Z, Data.scatter_perm _ _ h, ?_, ?_⟩ <;>
    · unfold shuffleXY featuresOf labelsOf
      dsimp only
      rw [List.map_map, List.map_map, permuteRows_map, if_pos hl, Res.bind_ok, permuteRows_map, if_pos hl, Res.bind_ok, List.map_map,
        List.map_map]

section
variable {lambda R : ℝ} {p : Params ℝ} {Z : List ((List ℝ × ℝ) × (List ℝ × ℝ))} {eta : Nat → ℝ} (hlam : 0 ≤ lambda) (hb : p.batchSize ≠ 0)
  (hZ : ∀ c ∈ Z, (ProperSample d c.1 ∧ rowSize c.1.1 ≤ R) ∧ ProperSample d c.2 ∧ rowSize c.2.1 ≤ R)
  (h0 : ∀ i, 0 ≤ eta i) (h1 : ∀ i, eta i * (R ^ 2 / 4 + lambda / p.batchSize) ≤ 1) (hR : 2 * R ≤ 10 ^ 10)
include hlam hb hZ h0 h1 hR

/-- Two epochs side by side. -/
theorem pass_pair (i k : Nat) (hk : k * p.batchSize ≤ Z.length) (v v' : Fin d → ℝ) (hv : Small lambda p.batchSize R (vec v))
    (hv' : Small lambda p.batchSize R (vec v')) (s s' : List ℝ) (L L' : ℝ)
    (h : IsPass (lf lambda) id (st lambda) p.batchSize k (featuresOf d (Z.map Prod.fst)) (labelsOf (Z.map Prod.fst)) (eta i) (List.ofFn v) s L)
    (h' : IsPass (lf lambda) id (st lambda) p.batchSize k (featuresOf d (Z.map Prod.snd)) (labelsOf (Z.map Prod.snd)) (eta i) (List.ofFn v')
      s' L') :
    ∃ u u' : Fin d → ℝ, s = List.ofFn u ∧ s' = List.ofFn u' ∧ Small lambda p.batchSize R (vec u) ∧ Small lambda p.batchSize R (vec u') ∧
      ‖vec u - vec u'‖ ≤ (1 - eta i * (lambda / p.batchSize)) ^ k * ‖vec v - vec v'‖ + eta i / p.batchSize * (Z.map cost).sum ∧
      ‖vec u - vec v‖ ≤ k * (eta i * (2 * R)) := by
  obtain ⟨t, l, ht0, ht1, -, hstep⟩ := h
  obtain ⟨t', l', ht0', ht1', -, hstep'⟩ := h'
  have hb' : (0 : ℝ) < p.batchSize := by exact_mod_cast Nat.pos_of_ne_zero hb
  have ha0 : 0 ≤ 1 - eta i * (lambda / p.batchSize) := by nlinarith [h1 i, mul_nonneg (h0 i) (sq_nonneg R)]
  have ha1 : 1 - eta i * (lambda / p.batchSize) ≤ 1 := by
    have : 0 ≤ eta i * (lambda / p.batchSize) := mul_nonneg (h0 i) (by positivity)
    linarith
  have inner : ∀ j ≤ k, ∃ u u' : Fin d → ℝ, t j = List.ofFn u ∧ t' j = List.ofFn u' ∧ Small lambda p.batchSize R (vec u) ∧
      Small lambda p.batchSize R (vec u') ∧
      ‖vec u - vec u'‖ ≤ (1 - eta i * (lambda / p.batchSize)) ^ j * ‖vec v - vec v'‖ +
        eta i / p.batchSize * ∑ m ∈ Finset.range j, ((batch p.batchSize m Z).map cost).sum ∧
      ‖vec u - vec v‖ ≤ j * (eta i * (2 * R)) := by
    intro j
    induction j with
    | zero =>
      intro _
      exact ⟨v, v', ht0, ht0', hv, hv', by simp, by simp⟩
    | succ j ih =>
      intro hj
      obtain ⟨u, u', e1, e2, e3, e4, e5, e6⟩ := ih (by omega)
      obtain ⟨-, -, b1, -⟩ := hstep j (by omega)
      obtain ⟨-, -, b2, -⟩ := hstep' j (by omega)
      have hlen : (batch p.batchSize j Z).length = p.batchSize :=
        batch_length _ _ _ ((Nat.mul_le_mul_right _ (show j + 1 ≤ k from hj)).trans hk)
      have hbz : ∀ c ∈ batch p.batchSize j Z, (ProperSample d c.1 ∧ rowSize c.1.1 ≤ R) ∧ ProperSample d c.2 ∧ rowSize c.2.1 ≤ R :=
        fun c hc => hZ c (batch_mem _ _ _ hc)
      have hz1 : ∀ q ∈ (batch p.batchSize j Z).map Prod.fst, ProperSample d q ∧ rowSize q.1 ≤ R := by
        intro q hq
        obtain ⟨c, hc, rfl⟩ := List.mem_map.mp hq
        exact (hbz c hc).1
      have hz2 : ∀ q ∈ (batch p.batchSize j Z).map Prod.snd, ProperSample d q ∧ rowSize q.1 ≤ R := by
        intro q hq
        obtain ⟨c, hc, rfl⟩ := List.mem_map.mp hq
        exact (hbz c hc).2
      rw [(batch_of _ _ _).1, (batch_of (d := d) _ _ _).2, batch_map, e1, sgd_step _ _ (fun q hq => (hz1 q hq).1), Res.ok.injEq] at b1
      rw [(batch_of _ _ _).1, (batch_of (d := d) _ _ _).2, batch_map, e2, sgd_step _ _ (fun q hq => (hz2 q hq).1), Res.ok.injEq] at b2
      obtain ⟨g1, g2⟩ := step_eq _ hb (by rw [List.length_map, hlen]) hlam hz1 (h0 i) hR u e3
      obtain ⟨g1', g2'⟩ := step_eq _ hb (by rw [List.length_map, hlen]) hlam hz2 (h0 i) hR u' e4
      refine ⟨_, _, b1.symm, b2.symm, ?_, ?_, ?_, ?_⟩
      · rw [g1]
        exact step_small _ hb (by rw [List.length_map, hlen]) hlam hz1 (h0 i) (h1 i) _ e3
      · rw [g1']
        exact step_small _ hb (by rw [List.length_map, hlen]) hlam hz2 (h0 i) (h1 i) _ e4
      · rw [g1, g1']
        refine (step_gap _ hb hlen hbz (h0 i) (h1 i) _ _).trans ?_
        rw [Finset.sum_range_succ]
        have hc : 0 ≤ eta i / p.batchSize * ∑ m ∈ Finset.range j, ((batch p.batchSize m Z).map cost).sum := by
          refine mul_nonneg (div_nonneg (h0 i) hb'.le) (Finset.sum_nonneg fun m _ => List.sum_nonneg fun a ha => ?_)
          obtain ⟨c, _, rfl⟩ := List.mem_map.mp ha
          exact cost_nonneg c
        have h5 := mul_le_mul_of_nonneg_left e5 ha0
        have h6 := mul_le_of_le_one_left hc ha1
        rw [pow_succ]
        nlinarith
      · rw [g1]
        have : stepTo d lambda p.batchSize (eta i) ((batch p.batchSize j Z).map Prod.fst) (vec u) - vec v =
            (stepTo d lambda p.batchSize (eta i) ((batch p.batchSize j Z).map Prod.fst) (vec u) - vec u) + (vec u - vec v) := by abel
        rw [this]
        refine (norm_add_le _ _).trans ?_
        push_cast
        linarith
  obtain ⟨u, u', e1, e2, e3, e4, e5, e6⟩ := inner k le_rfl
  refine ⟨u, u', ht1.symm.trans e1, ht1'.symm.trans e2, e3, e4, e5.trans (add_le_add le_rfl (mul_le_mul_of_nonneg_left ?_
    (div_nonneg (h0 i) hb'.le))), e6⟩
  rw [sum_batches]
  conv_rhs => rw [← List.take_append_drop (k * p.batchSize) Z, List.map_append, List.sum_append]
  refine le_add_of_nonneg_right (List.sum_nonneg fun a ha => ?_)
  obtain ⟨c, _, rfl⟩ := List.mem_map.mp ha
  exact cost_nonneg c

variable (hp : ∀ q, p.shuffle = some q → ∀ i, (q i).Perm (List.range Z.length)) (he : ∀ i, p.decay i = .ok (eta i))
include hp he

/-- Two runs side by side. -/
theorem run_pair (w w' : Fin d → ℝ) (hw : Small lambda p.batchSize R (vec w)) (hw' : Small lambda p.batchSize R (vec w')) (n : Nat)
    (D D' : Nat → DMat ℝ × List ℝ) (S S' : Nat → List ℝ) (L L' : Nat → ℝ)
    (h : IsRun (lf lambda) id (st lambda) p (Z.length / p.batchSize) (featuresOf d (Z.map Prod.fst)) (labelsOf (Z.map Prod.fst)) (List.ofFn w) n D S L)
    (h' : IsRun (lf lambda) id (st lambda) p (Z.length / p.batchSize) (featuresOf d (Z.map Prod.snd)) (labelsOf (Z.map Prod.snd)) (List.ofFn w') n
      D' S' L') :
    ∀ i ≤ n, ∃ u u' : Fin d → ℝ, S i = List.ofFn u ∧ S' i = List.ofFn u' ∧
      ‖vec u - vec u'‖ ≤ (∏ m ∈ Finset.range i, (1 - eta m * (lambda / p.batchSize)) ^ (Z.length / p.batchSize)) * ‖vec w - vec w'‖ +
        (∑ m ∈ Finset.range i, eta m) / p.batchSize * (Z.map cost).sum ∧
      ∀ m < i, gap (S (m + 1)) (S m) ≤ (Z.length / p.batchSize : ℕ) * (eta m * (2 * R)) := by
  obtain ⟨hD, hS, hrun⟩ := h
  obtain ⟨hD', hS', hrun'⟩ := h'
  have hb' : (0 : ℝ) < p.batchSize := by exact_mod_cast Nat.pos_of_ne_zero hb
  have key : ∀ i ≤ n, (∃ Y : List ((List ℝ × ℝ) × (List ℝ × ℝ)), Y.Perm Z ∧ D i = (featuresOf d (Y.map Prod.fst), labelsOf (Y.map Prod.fst)) ∧
      D' i = (featuresOf d (Y.map Prod.snd), labelsOf (Y.map Prod.snd))) ∧
      ∃ u u' : Fin d → ℝ, S i = List.ofFn u ∧ S' i = List.ofFn u' ∧ Small lambda p.batchSize R (vec u) ∧ Small lambda p.batchSize R (vec u') ∧
      ‖vec u - vec u'‖ ≤ (∏ m ∈ Finset.range i, (1 - eta m * (lambda / p.batchSize)) ^ (Z.length / p.batchSize)) * ‖vec w - vec w'‖ +
        (∑ m ∈ Finset.range i, eta m) / p.batchSize * (Z.map cost).sum ∧
      ∀ m < i, gap (S (m + 1)) (S m) ≤ (Z.length / p.batchSize : ℕ) * (eta m * (2 * R)) := by
    intro i
    induction i with
    | zero =>
      intro _
      exact ⟨⟨Z, List.Perm.refl _, hD, hD'⟩, w, w', hS, hS', hw, hw', by simp, by simp⟩
    | succ i ih =>
      intro hi
      obtain ⟨⟨Y, hY, d1, d2⟩, u, u', e1, e2, e3, e4, e5, e6⟩ := ih (by omega)
      obtain ⟨a1, lr, a2, a3⟩ := hrun i (by omega)
      obtain ⟨a1', lr', a2', a3'⟩ := hrun' i (by omega)
      rw [he i, Res.ok.injEq] at a2 a2'
      subst a2
      subst a2'
      obtain ⟨Y', hY', s1, s2⟩ := shuffle_pair (d := d) p.shuffle i Y (by rw [hY.length_eq]; exact hp)
      have hYZ := hY'.trans hY
      rw [d1, s1, Res.ok.injEq] at a1
      rw [d2, s2, Res.ok.injEq] at a1'
      rw [← a1, e1] at a3
      rw [← a1', e2] at a3'
      obtain ⟨v, v', g1, g2, g3, g4, g5, g6⟩ := pass_pair (Z := Y') hlam hb (fun c hc => hZ c (hYZ.mem_iff.mp hc)) h0 h1 hR i _
        (by rw [hYZ.length_eq]; exact Nat.div_mul_le_self _ _) u u' e3 e4 _ _ _ _ a3 a3'
      refine ⟨⟨Y', hYZ, a1.symm, a1'.symm⟩, v, v', g1, g2, g3, g4, ?_, ?_⟩
      · rw [(hYZ.map cost).sum_eq] at g5
        have ha0 : 0 ≤ 1 - eta i * (lambda / p.batchSize) := by nlinarith [h1 i, mul_nonneg (h0 i) (sq_nonneg R)]
        have ha1 : 1 - eta i * (lambda / p.batchSize) ≤ 1 := by
          have : 0 ≤ eta i * (lambda / p.batchSize) := mul_nonneg (h0 i) (by positivity)
          linarith
        have hc : 0 ≤ (∑ m ∈ Finset.range i, eta m) / p.batchSize * (Z.map cost).sum := by
          refine mul_nonneg (div_nonneg (Finset.sum_nonneg fun m _ => h0 m) hb'.le) (List.sum_nonneg fun a ha => ?_)
          obtain ⟨c, _, rfl⟩ := List.mem_map.mp ha
          exact cost_nonneg c
        have h5 := mul_le_mul_of_nonneg_left e5 (pow_nonneg ha0 (Z.length / p.batchSize))
        have h6 := mul_le_of_le_one_left hc (pow_le_one₀ (n := Z.length / p.batchSize) ha0 ha1)
        rw [Finset.prod_range_succ, Finset.sum_range_succ, add_div, add_mul]
        nlinarith
      · intro m hm
        rcases Nat.lt_succ_iff_lt_or_eq.mp hm with h' | rfl
        · exact e6 m h'
        · rw [g1, e1, gap_norm]
          exact g6
  intro i hi
  obtain ⟨-, u, u', e1, e2, -, -, e5, e6⟩ := key i hi
  exact ⟨u, u', e1, e2, e5, e6⟩

end

end OpenML.SgdStability
