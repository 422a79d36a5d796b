import Verif.Spec.GMMSymmetry
import Verif.Props.GMM

/-!
# C130: Gaussian mixtures in other coordinates
-/

namespace OpenML.GMM

open Spec Matrix

variable {n K d : Nat}

theorem logNormal_moved {A C : Matrix (Fin d) (Fin d) ℝ} (hA : IsUnit A.det) (hC : C.PosDef) (μ x : Fin d → ℝ) :
    logNormal (μ ᵥ* A) (Aᵀ * C * A) (x ᵥ* A) = logNormal μ C x - Real.log |A.det| := by
  have hdet : Real.log (Aᵀ * C * A).det = 2 * Real.log |A.det| + Real.log C.det := by
    rw [det_mul, det_mul, det_transpose, mul_right_comm, Real.log_mul (mul_ne_zero hA.ne_zero hA.ne_zero) hC.det_pos.ne',
      Real.log_mul hA.ne_zero hA.ne_zero, Real.log_abs]
    ring
  have hq : (x ᵥ* A - μ ᵥ* A) ⬝ᵥ ((Aᵀ * C * A)⁻¹ *ᵥ (x ᵥ* A - μ ᵥ* A)) = (x - μ) ⬝ᵥ (C⁻¹ *ᵥ (x - μ)) := by
    rw [← sub_vecMul]
    generalize x - μ = u
    have hT : IsUnit Aᵀ.det := by rwa [det_transpose]
    rw [Matrix.mul_inv_rev, Matrix.mul_inv_rev, ← mulVec_transpose A u, mulVec_mulVec, Matrix.mul_assoc, Matrix.mul_assoc,
      nonsing_inv_mul _ hT, Matrix.mul_one, ← mulVec_mulVec, mulVec_transpose, ← dotProduct_mulVec, mulVec_mulVec,
      mul_nonsing_inv _ hA, one_mulVec]
  unfold logNormal
  rw [hdet, hq]
  ring

theorem density_moved {A : Matrix (Fin d) (Fin d) ℝ} (hA : IsUnit A.det) (π : Equiv.Perm (Fin K)) {θ : Mixture K d} (hθ : Proper θ)
    (x : Fin d → ℝ) : (θ.moved A π).density (x ᵥ* A) = θ.density x * Real.exp (-Real.log |A.det|) := by
  unfold Mixture.density Mixture.moved
  dsimp only
  rw [Finset.sum_mul, ← Equiv.sum_comp π fun k => θ.weight k * Real.exp (logNormal (θ.mean k) (θ.cov k) x) *
    Real.exp (-Real.log |A.det|)]
  refine Finset.sum_congr rfl fun k _ => ?_
  rw [logNormal_moved hA (hθ.cov _), sub_eq_add_neg, Real.exp_add, mul_assoc]

theorem posterior_moved {A : Matrix (Fin d) (Fin d) ℝ} (hA : IsUnit A.det) (π : Equiv.Perm (Fin K)) {θ : Mixture K d} (hθ : Proper θ)
    (x : Fin d → ℝ) (k : Fin K) : (θ.moved A π).posterior (x ᵥ* A) k = θ.posterior x (π k) := by
  unfold Mixture.posterior
  rw [density_moved hA π hθ]
  unfold Mixture.moved
  dsimp only
  rw [logNormal_moved hA (hθ.cov _), sub_eq_add_neg, Real.exp_add, ← mul_assoc, mul_div_mul_right _ _ (Real.exp_pos _).ne']

theorem meanLogLik_moved {A : Matrix (Fin d) (Fin d) ℝ} (hA : IsUnit A.det) (π : Equiv.Perm (Fin K)) (σ : Equiv.Perm (Fin n))
    (hK : 0 < K) (hn : 0 < n) {θ : Mixture K d} (hθ : Proper θ) (X : Matrix (Fin n) (Fin d) ℝ) :
    (θ.moved A π).meanLogLik (Matrix.of fun i => X (σ i) ᵥ* A) = θ.meanLogLik X - Real.log |A.det| := by
  have hn' : (n : ℝ) ≠ 0 := by exact_mod_cast hn.ne'
  unfold Mixture.meanLogLik
  rw [eq_sub_iff_add_eq, div_add' _ _ _ hn']
  congr 1
  rw [← Equiv.sum_comp σ (fun i => Real.log (θ.density (X i)))]
  have : ∀ i, Real.log ((θ.moved A π).density ((Matrix.of fun i => X (σ i) ᵥ* A) i)) = Real.log (θ.density (X (σ i))) - Real.log |A.det| := by
    intro i
    show Real.log ((θ.moved A π).density (X (σ i) ᵥ* A)) = _
    rw [density_moved hA π hθ, Real.log_mul (density_pos hK hθ.weight _).ne' (Real.exp_pos _).ne', Real.log_exp]
    ring
  simp only [this, Finset.sum_sub_distrib, Finset.sum_const, Finset.card_univ, Fintype.card_fin, nsmul_eq_mul]
  ring

theorem vecMulVec_moved (A : Matrix (Fin d) (Fin d) ℝ) (u v : Fin d → ℝ) : vecMulVec (u ᵥ* A) (v ᵥ* A) = Aᵀ * vecMulVec u v * A := by
  rw [mul_vecMulVec, vecMulVec_mul, mulVec_transpose]

theorem emUpdate_moved {A : Matrix (Fin d) (Fin d) ℝ} {c : ℝ} (hA : Aᵀ * A = c ^ 2 • (1 : Matrix (Fin d) (Fin d) ℝ))
    (π : Equiv.Perm (Fin K)) (σ : Equiv.Perm (Fin n)) (pooled : Bool) (eps reg : ℝ) (X : Matrix (Fin n) (Fin d) ℝ)
    (R : Fin n → Fin K → ℝ) :
    emUpdate pooled eps (c ^ 2 * reg) (Matrix.of fun i => X (σ i) ᵥ* A) (fun i k => R (σ i) (π k)) =
      (emUpdate pooled eps reg X R).moved A π := by
  have hN : ∀ k, ∑ i, R (σ i) (π k) = ∑ i, R i (π k) := fun k => Equiv.sum_comp σ fun i => R i (π k)
  have hμ : ∀ k, ((∑ i, R i (π k)) + 10 * eps)⁻¹ • ∑ i, R (σ i) (π k) • (X (σ i) ᵥ* A) =
      (((∑ i, R i (π k)) + 10 * eps)⁻¹ • ∑ i, R i (π k) • X i) ᵥ* A := by
    intro k
    rw [Equiv.sum_comp σ fun i => R i (π k) • (X i ᵥ* A), smul_vecMul, sum_vecMul]
    simp only [smul_vecMul]
  unfold emUpdate Mixture.moved
  dsimp only
  congr 1
  · funext k
    rw [hN]
  · funext k
    rw [hN]
    exact hμ k
  · funext k
    have hreg : (c ^ 2 * reg) • (1 : Matrix (Fin d) (Fin d) ℝ) = Aᵀ * (reg • (1 : Matrix (Fin d) (Fin d) ℝ)) * A := by
      rw [Matrix.mul_smul, Matrix.mul_one, Matrix.smul_mul, hA, smul_smul, mul_comm]
    cases pooled with
    | false =>
      simp only [Bool.false_eq_true, if_false, hN]
      rw [hreg, Matrix.mul_add, Matrix.add_mul]
      congr 1
      rw [Matrix.mul_smul, Matrix.smul_mul]
      congr 1
      rw [Matrix.mul_sum, Matrix.sum_mul, ← Equiv.sum_comp σ fun i => Aᵀ * R i (π k) • vecMulVec _ _ * A]
      refine Finset.sum_congr rfl fun i _ => ?_
      rw [Matrix.mul_smul, Matrix.smul_mul, ← vecMulVec_moved, sub_vecMul]
      rw [← hμ k]
      rfl
    | true =>
      simp only [if_true, hN]
      rw [hreg, Matrix.mul_add, Matrix.add_mul]
      congr 1
      rw [Matrix.mul_smul, Matrix.smul_mul, Equiv.sum_comp π fun l => (∑ i, R i l) + 10 * eps]
      congr 1
      rw [Matrix.mul_sub, Matrix.sub_mul]
      congr 1
      · rw [Matrix.mul_sum, Matrix.sum_mul, ← Equiv.sum_comp σ fun i => Aᵀ * vecMulVec (X i) (X i) * A]
        refine Finset.sum_congr rfl fun i _ => ?_
        rw [← vecMulVec_moved]
        rfl
      · rw [Matrix.mul_sum, Matrix.sum_mul, ← Equiv.sum_comp π fun l => Aᵀ * ((∑ i, R i l) + 10 * eps) • vecMulVec _ _ * A]
        refine Finset.sum_congr rfl fun l _ => ?_
        rw [Matrix.mul_smul, Matrix.smul_mul, ← vecMulVec_moved]
        rw [← hμ l]
        rfl

theorem emSeq_moved {A : Matrix (Fin d) (Fin d) ℝ} {c : ℝ} (hA : Aᵀ * A = c ^ 2 • (1 : Matrix (Fin d) (Fin d) ℝ)) (hdet : IsUnit A.det)
    (π : Equiv.Perm (Fin K)) (σ : Equiv.Perm (Fin n)) {pooled : Bool} {eps reg : ℝ} (heps : 0 < eps) (hreg : 0 < reg) (hn : 0 < n)
    (hK : 0 < K) (X : Matrix (Fin n) (Fin d) ℝ) (R : Fin n → Fin K → ℝ) (hR : ∀ i k, 0 ≤ R i k) (hrow : ∀ i, ∑ k, R i k = 1) (t : Nat) :
    emSeq pooled eps (c ^ 2 * reg) (Matrix.of fun i => X (σ i) ᵥ* A) (fun i k => R (σ i) (π k)) t =
      (emSeq pooled eps reg X R t).moved A π := by
  induction t with
  | zero => exact emUpdate_moved hA π σ pooled eps reg X R
  | succ t ih =>
    have hp := proper_emSeq (pooled := pooled) heps hreg hn hK X R hR hrow t
    show emUpdate _ _ _ _ _ = (emUpdate _ _ _ _ _).moved A π
    rw [← emUpdate_moved hA π σ]
    congr 1
    funext i k
    rw [ih]
    exact posterior_moved hdet π hp _ k

theorem stops_shift {v w : Nat → ℝ} {a : ℝ} (h : ∀ t, w t = v t - a) {maxIter : Nat} {tol : ℝ} {T : Nat} {conv : Bool}
    (hs : EMStopsAt v maxIter tol T conv) : EMStopsAt w maxIter tol T conv := by
  have e : ∀ s, w s - w (s - 1) = v s - v (s - 1) := by
    intro s
    rw [h, h]
    ring
  unfold EMStopsAt at hs ⊢
  simp only [e]
  exact hs

theorem isFirstArgmax_unique {v : Nat → ℝ} {m b b' : Nat} (h : IsFirstArgmax v m b) (h' : IsFirstArgmax v m b') : b = b' := by
  rcases Nat.lt_trichotomy b b' with hlt | he | hlt
  · exact absurd (h.2.1 b' h'.1) (not_le.mpr (h'.2.2 b hlt))
  · exact he
  · exact absurd (h'.2.1 b h.1) (not_le.mpr (h.2.2 b' hlt))

theorem isFirstArgmax_shift {v w : Nat → ℝ} {a : ℝ} (h : ∀ t, w t = v t - a) {m b : Nat} (hv : IsFirstArgmax v m b) :
    IsFirstArgmax w m b :=
  ⟨hv.1, fun i hi => by rw [h, h]; linarith [hv.2.1 i hi], fun i hi => by rw [h, h]; linarith [hv.2.2 i hi]⟩

theorem isUnit_of_conformal {A : Matrix (Fin d) (Fin d) ℝ} {c : ℝ} (hc : 0 < c) (hA : Aᵀ * A = c ^ 2 • (1 : Matrix (Fin d) (Fin d) ℝ)) :
    IsUnit A.det ∧ Real.log |A.det| = d * Real.log c := by
  have h := congrArg Matrix.det hA
  rw [det_mul, det_transpose, det_smul, det_one, mul_one, Fintype.card_fin] at h
  have hne : A.det ≠ 0 := by
    intro h0
    rw [h0, mul_zero] at h
    exact (pow_pos (pow_pos hc 2) d).ne' h.symm
  refine ⟨isUnit_iff_ne_zero.mpr hne, ?_⟩
  have h2 := congrArg Real.log h
  rw [Real.log_mul hne hne, Real.log_pow, Real.log_pow] at h2
  rw [Real.log_abs]
  push_cast at h2
  linarith

end OpenML.GMM

namespace OpenML

open Spec Matrix GMM

variable {n K d : Nat}

/-- C130, predictions: an object holding the moved mixture gives moved points the posteriors of the original mixture, in the new
numbering of the components, and the same predicted component when the numbering is kept. -/
theorem C130_predict (cfg cfg' : Config) (pooled : Bool)
    (hty : cfg.covarianceType = "full" ∧ pooled = false ∨ cfg.covarianceType = "tied" ∧ pooled = true ∧ K = 1)
    (hty' : cfg'.covarianceType = cfg.covarianceType) (hK : 0 < K) (st st' : State K d) (p p' : Params K d) (hp : st.params = some p)
    (hp' : st'.params = some p') (θ : Mixture K d) (hθ : Proper θ) (A : Matrix (Fin d) (Fin d) ℝ) (hdet : IsUnit A.det)
    (π : Equiv.Perm (Fin K)) (hrep : Represents p θ) (hrep' : Represents p' (θ.moved A π)) {m : Nat} (hm : 0 < m)
    (Z : Matrix (Fin m) (Fin d) ℝ) :
    (∃ Q Q', st.predictProb cfg Z = .ok Q ∧ st'.predictProb cfg' (Z * A) = .ok Q' ∧ ∀ i k, Q' i k = Q i (π k)) ∧
      (π = 1 → st'.predict cfg' (Z * A) = st.predict cfg Z) := by
  have hpost : ∀ i k, (θ.moved A π).posterior ((Z * A) i) k = θ.posterior (Z i) (π k) := by
    intro i k
    rw [Matrix.mul_apply_eq_vecMul]
    exact posterior_moved hdet π hθ (Z i) k
  have hw : ∀ k, 0 < θ.weight k := fun k => hθ.weight k
  obtain ⟨⟨Q, q1, q2, _⟩, ps, r1, r2, r3⟩ := C61_predict cfg pooled hty hK hm st p hp θ hrep hw Z
  obtain ⟨⟨Q', q1', q2', _⟩, ps', r1', r2', r3'⟩ := C61_predict cfg' pooled (by rw [hty']; exact hty) hK hm st' p' hp' (θ.moved A π) hrep'
    (fun k => hw (π k)) (Z * A)
  refine ⟨⟨Q, Q', q1, q1', fun i k => ?_⟩, ?_⟩
  · rw [(q2' i k).1, (q2 i (π k)).1, hpost]
  · rintro rfl
    rw [r1, r1']
    congr 1
    refine List.ext_getElem (by rw [r2, r2']) fun i h1 h2 => ?_
    obtain ⟨k, hk, hk'⟩ := r3 ⟨i, by omega⟩ ps[i] (List.getElem?_eq_getElem h2)
    obtain ⟨k', hk1, hk1'⟩ := r3' ⟨i, by omega⟩ ps'[i] (List.getElem?_eq_getElem h1)
    have e : ∀ l, (θ.moved A (1 : Equiv.Perm (Fin K))).posterior ((Z * A) ⟨i, by omega⟩) l = θ.posterior (Z ⟨i, by omega⟩) l := fun l => hpost _ l
    simp only [e] at hk1'
    have h12 := le_antisymm (hk' k').1 (hk1' k).1
    have := le_antisymm ((hk' k').2 h12) ((hk1' k).2 h12.symm)
    rw [← hk, ← hk1, this]

/-- C130: rotating or reflecting the data, changing the unit of measurement (with the regularisation in the square of the unit),
reordering the samples and renumbering the components carries over to the fitted mixture: `fit` ends the same way, weights stay,
means and covariances move with the data, the bound changes by `d log c`, and so do the predictions for moved points. -/
theorem C130_fit (cfg : Config) (pooled : Bool)
    (hty : cfg.covarianceType = "full" ∧ pooled = false ∨ cfg.covarianceType = "tied" ∧ pooled = true ∧ K = 1)
    (hinit : cfg.initParams = "random") (hK : 0 < K) (hKn : K ≤ n) (heps : 0 < cfg.eps) (hreg : 0 < cfg.reg) (hiter : 0 < cfg.maxIter)
    (chol chol' : Matrix (Fin d) (Fin d) ℝ → Option (Matrix (Fin d) (Fin d) ℝ)) (hchol : CholeskyRoutine chol)
    (hchol' : CholeskyRoutine chol') (st st' : State K d) (X : Matrix (Fin n) (Fin d) ℝ) (draws : Nat → Matrix (Fin n) (Fin K) ℝ)
    (hdraw : ∀ r i k, 0 ≤ draws r i k) (hsum : ∀ r i, 0 < ∑ k, draws r i k) (A : Matrix (Fin d) (Fin d) ℝ) (c : ℝ) (hc : 0 < c)
    (hA : Aᵀ * A = c ^ 2 • (1 : Matrix (Fin d) (Fin d) ℝ)) (π : Equiv.Perm (Fin K)) (σ : Equiv.Perm (Fin n)) :
    let cfg' := { cfg with reg := c ^ 2 * cfg.reg }
    let X' : Matrix (Fin n) (Fin d) ℝ := Matrix.of fun i => X (σ i) ᵥ* A
    let draws' : Nat → Matrix (Fin n) (Fin K) ℝ := fun r => Matrix.of fun i k => draws r (σ i) (π k)
    (st.fit cfg chol X draws = .throw .runtimeError ∧ st'.fit cfg' chol' X' draws' = .throw .runtimeError) ∨
    ∃ s s' p p' l, st.fit cfg chol X draws = .ok s ∧ st'.fit cfg' chol' X' draws' = .ok s' ∧ s.params = some p ∧ s'.params = some p' ∧
      s.lowerBound = some l ∧ s'.lowerBound = some (l - d * Real.log c) ∧ (∀ k, p'.weights k = p.weights (π k)) ∧
      (∀ k, p'.means k = p.means (π k) ᵥ* A) ∧
      p'.covariances = List.ofFn (fun k : Fin K => Aᵀ * p.covariances.getD (π k).val 0 * A) ∧
      ∀ (m : Nat) (Z : Matrix (Fin m) (Fin d) ℝ), 0 < m → (∃ Q Q', s.predictProb cfg Z = .ok Q ∧ s'.predictProb cfg' (Z * A) = .ok Q' ∧
        ∀ i k, Q' i k = Q i (π k)) ∧ (π = 1 → s'.predict cfg' (Z * A) = s.predict cfg Z) := by
  intro cfg' X' draws'
  obtain ⟨hdet, hlog⟩ := isUnit_of_conformal hc hA
  have hn : 0 < n := by omega
  have hty' : cfg'.covarianceType = "full" ∧ pooled = false ∨ cfg'.covarianceType = "tied" ∧ pooled = true ∧ K = 1 := hty
  have hreg' : 0 < cfg'.reg := mul_pos (pow_pos hc 2) hreg
  have hsum' : ∀ r i, 0 < ∑ k, draws' r i k := by
    intro r i
    have := hsum r (σ i)
    rwa [← Equiv.sum_comp π] at this
  obtain ⟨T, conv, hs, h1, h2⟩ := C61_fit cfg pooled hty hinit hK hKn heps hreg hiter chol hchol st X draws hdraw hsum
  obtain ⟨T', conv', hs', h1', h2'⟩ := C61_fit cfg' pooled hty' hinit hK hKn heps hreg' hiter chol' hchol' st' X' draws'
    (fun r i k => hdraw r (σ i) (π k)) hsum'
  have hRn : ∀ r i k, 0 ≤ normalised (draws r) i k := fun r => normalised_nonneg (hdraw r) (hsum r)
  have hRs : ∀ r i, ∑ k, normalised (draws r) i k = 1 := fun r => normalised_sum (hsum r)
  have hprop : ∀ r t, Proper (emSeq pooled cfg.eps cfg.reg X (fun i k => draws r i k / ∑ l, draws r i l) t) := fun r t =>
    proper_emSeq heps hreg hn hK X (normalised (draws r)) (hRn r) (hRs r) t
  have hseq : ∀ r t, emSeq pooled cfg'.eps cfg'.reg X' (fun i k => draws' r i k / ∑ l, draws' r i l) t =
      (emSeq pooled cfg.eps cfg.reg X (fun i k => draws r i k / ∑ l, draws r i l) t).moved A π := by
    intro r t
    refine Eq.trans ?_ (emSeq_moved hA hdet π σ heps hreg hn hK X (normalised (draws r)) (hRn r) (hRs r) t)
    congr 1
    funext i k
    show draws r (σ i) (π k) / ∑ l, draws r (σ i) (π l) = draws r (σ i) (π k) / ∑ l, draws r (σ i) l
    rw [Equiv.sum_comp π fun l => draws r (σ i) l]
  have hval : ∀ r t, (emSeq pooled cfg'.eps cfg'.reg X' (fun i k => draws' r i k / ∑ l, draws' r i l) t).meanLogLik X' =
      (emSeq pooled cfg.eps cfg.reg X (fun i k => draws r i k / ∑ l, draws r i l) t).meanLogLik X - d * Real.log c := by
    intro r t
    rw [hseq, ← hlog]
    exact meanLogLik_moved hdet π σ hK hn (hprop r t) X
  have hTc : ∀ r, T' r = T r ∧ conv' r = conv r := by
    intro r
    obtain ⟨T0, conv0, _, hu⟩ := C61_stops_unique (fun t => (emSeq pooled cfg'.eps cfg'.reg X' (fun i k => draws' r i k / ∑ l, draws' r i l) t).meanLogLik X')
      hiter cfg.tol
    obtain ⟨e1, e2⟩ := hu _ _ (hs' r)
    obtain ⟨e3, e4⟩ := hu _ _ (stops_shift (hval r) (hs r))
    exact ⟨e1.trans e3.symm, e2.trans e4.symm⟩
  by_cases hconv : ∃ r < cfg.numInit, conv r = true
  · right
    obtain ⟨b, p, hb, hfit, hrep, hpr⟩ := h2 hconv
    obtain ⟨b', p', hb', hfit', hrep', hpr'⟩ := h2' (by
      obtain ⟨r, hr, hcr⟩ := hconv
      exact ⟨r, hr, by rw [(hTc r).2, hcr]⟩)
    dsimp only at hb hb' hfit hfit' hrep hrep' hpr hpr'
    have hbb : b' = b := by
      refine isFirstArgmax_unique hb' (isFirstArgmax_shift (a := d * Real.log c) (fun r => ?_) hb)
      rw [(hTc r).1]
      exact hval r (T r)
    subst hbb
    rw [(hTc b').1] at hfit' hrep' hpr'
    rw [hseq] at hrep' hpr'
    have hpp := hprop b' (T b' + 1)
    generalize hθ : emSeq pooled cfg.eps cfg.reg X (fun i k => draws b' i k / ∑ l, draws b' i l) (T b' + 1) = θ at hrep hrep' hpp
    refine ⟨_, _, p, p', _, hfit, hfit', rfl, rfl, rfl, ?_, fun k => ?_, fun k => ?_, ?_, fun m Z hm => ?_⟩
    · dsimp only
      rw [hval]
    · rw [hrep'.weights, hrep.weights]
      rfl
    · rw [hrep'.means, hrep.means]
      rfl
    · rw [hrep'.covariances, hrep.covariances]
      congr 1
      funext k
      show Aᵀ * θ.cov (π k) * A = _
      congr 2
      simp [List.getD_eq_getElem?_getD]
    · exact C130_predict cfg cfg' pooled hty rfl hK _ _ p p' rfl rfl θ hpp A hdet π hrep hrep' hm Z
  · left
    push Not at hconv
    have hconv : ∀ r < cfg.numInit, conv r = false := fun r hr => by simpa using hconv r hr
    exact ⟨h1 hconv, h1' fun r hr => by rw [(hTc r).2, hconv r hr]⟩

/-- C130, translations: every published mean is a combination of the samples with non-negative coefficients whose sum is less than one,
by ten machine epsilons over the size of the component. So means are pulled towards the origin: if all samples are equal to `v`, the means
are `v` times a factor less than one, and moving the data by a vector does not move the means by it. -/
theorem C130_means (cfg : Config) (pooled : Bool)
    (hty : cfg.covarianceType = "full" ∧ pooled = false ∨ cfg.covarianceType = "tied" ∧ pooled = true ∧ K = 1)
    (hinit : cfg.initParams = "random") (hK : 0 < K) (hKn : K ≤ n) (heps : 0 < cfg.eps) (hreg : 0 < cfg.reg) (hiter : 0 < cfg.maxIter)
    (chol : Matrix (Fin d) (Fin d) ℝ → Option (Matrix (Fin d) (Fin d) ℝ)) (hchol : CholeskyRoutine chol) (st : State K d)
    (X : Matrix (Fin n) (Fin d) ℝ) (draws : Nat → Matrix (Fin n) (Fin K) ℝ)
    (hdraw : ∀ r i k, 0 ≤ draws r i k) (hsum : ∀ r i, 0 < ∑ k, draws r i k) (s : State K d) (hs : st.fit cfg chol X draws = .ok s) :
    ∃ p, s.params = some p ∧ ∀ k, 0 < p.weights k ∧ 10 * cfg.eps ≤ n * p.weights k ∧
      (∃ a : Fin n → ℝ, (∀ i, 0 ≤ a i) ∧ ∑ i, a i = 1 - 10 * cfg.eps / (n * p.weights k) ∧ p.means k = ∑ i, a i • X i) ∧
      ∀ v : Fin d → ℝ, (∀ i, X i = v) → p.means k = (1 - 10 * cfg.eps / (n * p.weights k)) • v ∧ (v ≠ 0 → p.means k ≠ v) := by
  have hn : 0 < n := by omega
  have hn' : (n : ℝ) ≠ 0 := by positivity
  obtain ⟨T, conv, _, h1, h2⟩ := C61_fit cfg pooled hty hinit hK hKn heps hreg hiter chol hchol st X draws hdraw hsum
  by_cases hconv : ∃ r < cfg.numInit, conv r = true
  swap
  · push Not at hconv
    rw [h1 fun r hr => by simpa using hconv r hr] at hs
    exact absurd hs (by simp)
  obtain ⟨b, p, hb, hfit, hrep, hpr⟩ := h2 hconv
  rw [hfit] at hs
  obtain rfl := Res.ok.inj hs
  refine ⟨p, rfl, fun k => ?_⟩
  have hprop := proper_emSeq (pooled := pooled) heps hreg hn hK X (normalised (draws b)) (normalised_nonneg (hdraw b) (hsum b))
    (normalised_sum (hsum b)) (T b)
  have hwk := (hpr k).1
  dsimp only at hrep hwk
  set R : Fin n → Fin K → ℝ := fun i k => (emSeq pooled cfg.eps cfg.reg X (normalised (draws b)) (T b)).posterior (X i) k with hR
  have hR0 : ∀ i, 0 ≤ R i k := fun i => (posterior_pos hK hprop.weight (X i) k).le
  have hw : p.weights k = ((∑ i, R i k) + 10 * cfg.eps) / n := by
    rw [hrep.weights]
    rfl
  have hm : p.means k = ((∑ i, R i k) + 10 * cfg.eps)⁻¹ • ∑ i, R i k • X i := by
    rw [hrep.means]
    rfl
  have hN : 0 < (∑ i, R i k) + 10 * cfg.eps := by
    have := Finset.sum_nonneg fun i (_ : i ∈ Finset.univ) => hR0 i
    linarith
  have hnw : n * p.weights k = (∑ i, R i k) + 10 * cfg.eps := by
    rw [hw]
    field_simp
  have hcomb : ∃ a : Fin n → ℝ, (∀ i, 0 ≤ a i) ∧ ∑ i, a i = 1 - 10 * cfg.eps / (n * p.weights k) ∧ p.means k = ∑ i, a i • X i := by
    refine ⟨fun i => ((∑ i, R i k) + 10 * cfg.eps)⁻¹ * R i k, fun i => mul_nonneg (inv_nonneg.mpr hN.le) (hR0 i), ?_, ?_⟩
    · rw [← Finset.mul_sum, hnw]
      field_simp
      ring
    · rw [hm, Finset.smul_sum]
      simp_rw [smul_smul]
  refine ⟨by rw [hw]; positivity, ?_, hcomb, fun v hv => ?_⟩
  · rw [hnw]
    have := Finset.sum_nonneg fun i (_ : i ∈ Finset.univ) => hR0 i
    linarith
  · obtain ⟨a, _, a2, a3⟩ := hcomb
    have e : p.means k = (1 - 10 * cfg.eps / (n * p.weights k)) • v := by
      rw [a3, ← a2, Finset.sum_smul]
      exact Finset.sum_congr rfl fun i _ => by rw [hv]
    refine ⟨e, fun hv0 he => ?_⟩
    rw [he, sub_smul, one_smul, eq_comm, sub_eq_self, smul_eq_zero] at e
    have hpos : 0 < 10 * cfg.eps / (n * p.weights k) := by
      rw [hnw]
      positivity
    exact e.elim hpos.ne' hv0

/-- Beside C130: turning the plane by the angle of the triangle with sides 3, 4 and 5, in units a fifth as large, with the components
exchanged. -/
example : (!![3, -4; 4, 3] : Matrix (Fin 2) (Fin 2) ℝ)ᵀ * !![3, -4; 4, 3] = (5 : ℝ) ^ 2 • 1 := by
  ext i j
  fin_cases i <;> fin_cases j <;> norm_num [Matrix.mul_apply, Fin.sum_univ_two, Matrix.one_apply]

/-- Beside C130: the fit of the example beside C61, in other units, with the samples reversed and the components exchanged. -/
example : ∃ (chol : Matrix (Fin 1) (Fin 1) ℝ → Option (Matrix (Fin 1) (Fin 1) ℝ)) (tol : ℝ) (s s' : State 2 1) (p p' : Params 2 1),
    CholeskyRoutine chol ∧ (State.new 2 1).fit ⟨2, 1, "random", "full", tol, 1, 1⟩ chol exampleData (fun _ => exampleResp) = .ok s ∧
    (State.new 2 1).fit ⟨2, 1, "random", "full", tol, 100 ^ 2 * 1, 1⟩ chol (Matrix.of fun i => exampleData (Fin.revPerm i) ᵥ* ((100 : ℝ) • (1 : Matrix (Fin 1) (Fin 1) ℝ)))
      (fun _ => Matrix.of fun i k => exampleResp (Fin.revPerm i) (Equiv.swap 0 1 k)) = .ok s' ∧ s.params = some p ∧ s'.params = some p' ∧
      p'.weights 0 = p.weights 1 := by
  obtain ⟨chol, tol, s, hchol, hs⟩ := GMM.fit_example
  have h := C130_fit ⟨2, 1, "random", "full", tol, 1, 1⟩ false (Or.inl ⟨rfl, rfl⟩) rfl (by decide) (by decide) one_pos one_pos (by norm_num)
    chol chol hchol hchol (State.new 2 1) (State.new 2 1) exampleData (fun _ => exampleResp) (fun _ => exampleResp_nonneg)
    (fun _ i => by rw [exampleResp_sum]; exact one_pos) ((100 : ℝ) • 1) 100 (by norm_num) (by
      rw [Matrix.transpose_smul, Matrix.transpose_one, Matrix.smul_mul, Matrix.one_mul, smul_smul, sq]) (Equiv.swap 0 1) Fin.revPerm
  rcases h with h | ⟨s1, s', p, p', l, h1, h2, h3, h4, _, _, h5, _⟩
  · rw [hs] at h
    exact absurd h.1 (by simp)
  · rw [hs] at h1
    obtain rfl := Res.ok.inj h1
    exact ⟨chol, tol, s, s', p, p', hchol, hs, h2, h3, h4, by simpa using h5 0⟩

end OpenML
