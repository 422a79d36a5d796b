import Verif.Lemmas.GMMFit
import Verif.Lemmas.Cholesky
import Mathlib.Analysis.Matrix.Spectrum
import Mathlib.Analysis.Matrix.PosDef

/-!
# One step of the EM iteration does not lower the likelihood
-/

namespace OpenML.GMM

open Matrix Spec

variable {n K d : Nat}

theorem gibbs {N w : Fin K → ℝ} {c : ℝ} (hN : ∀ k, 0 < N k) (hw : ∀ k, 0 < w k) (hc : 0 < c) (hNs : ∑ k, N k = c) (hws : ∑ k, w k ≤ 1) :
    ∑ k, N k * Real.log (w k) ≤ ∑ k, N k * Real.log (N k / c) := by
  have h : ∀ k, N k * Real.log (w k) - N k * Real.log (N k / c) ≤ c * w k - N k := by
    intro k
    have h1 := Real.log_le_sub_one_of_pos (div_pos (mul_pos (hw k) hc) (hN k))
    rw [Real.log_div (mul_pos (hw k) hc).ne' (hN k).ne', Real.log_mul (hw k).ne' hc.ne'] at h1
    rw [Real.log_div (hN k).ne' hc.ne']
    have h2 := mul_le_mul_of_nonneg_left h1 (hN k).le
    have h3 : N k * (w k * c / N k - 1) = c * w k - N k := by
      have := (hN k).ne'
      field_simp
    linarith
  have := Finset.sum_le_sum fun k (_ : k ∈ Finset.univ) => h k
  rw [Finset.sum_sub_distrib, Finset.sum_sub_distrib, ← Finset.mul_sum, hNs] at this
  have := mul_le_mul_of_nonneg_left hws hc.le
  linarith

theorem jensen_log {r a : Fin K → ℝ} (hr : ∀ k, 0 < r k) (hrs : ∑ k, r k = 1) (ha : ∀ k, 0 < a k) (hK : 0 < K) :
    ∑ k, r k * Real.log (a k) ≤ Real.log (∑ k, r k * a k) := by
  have : Nonempty (Fin K) := ⟨⟨0, hK⟩⟩
  set s := ∑ k, r k * a k with hs
  have hspos : 0 < s := Finset.sum_pos (fun k _ => mul_pos (hr k) (ha k)) Finset.univ_nonempty
  have h : ∀ k, r k * Real.log (a k) - r k * Real.log s ≤ r k * a k / s - r k := by
    intro k
    have h1 := Real.log_le_sub_one_of_pos (div_pos (ha k) hspos)
    rw [Real.log_div (ha k).ne' hspos.ne'] at h1
    have h2 := mul_le_mul_of_nonneg_left h1 (hr k).le
    have h3 : r k * (a k / s - 1) = r k * a k / s - r k := by ring
    linarith
  have := Finset.sum_le_sum fun k (_ : k ∈ Finset.univ) => h k
  rw [Finset.sum_sub_distrib, Finset.sum_sub_distrib, ← Finset.sum_mul, ← Finset.sum_div, ← hs, hrs, div_self hspos.ne'] at this
  linarith

theorem trace_sub_log_det {M : Matrix (Fin d) (Fin d) ℝ} (hM : M.PosDef) : (d : ℝ) + Real.log M.det ≤ M.trace := by
  have hd : M.det = ∏ i, hM.1.eigenvalues i := by simpa using hM.1.det_eq_prod_eigenvalues
  have ht : M.trace = ∑ i, hM.1.eigenvalues i := by simpa using hM.1.trace_eq_sum_eigenvalues
  have hpos : ∀ i, 0 < hM.1.eigenvalues i := hM.eigenvalues_pos
  rw [hd, ht, Real.log_prod (fun i _ => (hpos i).ne')]
  have : (d : ℝ) = ∑ _i : Fin d, (1 : ℝ) := by simp
  rw [this, ← Finset.sum_add_distrib]
  exact Finset.sum_le_sum fun i _ => by linarith [Real.log_le_sub_one_of_pos (hpos i)]

/-- Among all covariances, the one that is given maximises the likelihood of data with this covariance. -/
theorem trace_inv_log_det {C S : Matrix (Fin d) (Fin d) ℝ} (hC : C.PosDef) (hS : S.PosDef) :
    (d : ℝ) + Real.log S.det ≤ (C⁻¹ * S).trace + Real.log C.det := by
  obtain ⟨L, hL⟩ := exists_cholesky hC
  have hP := precisionChol_of_chol hL
  generalize (Lᵀ)⁻¹ = P at hP
  have hdet : P.det ≠ 0 := by
    have hup : P.IsUpperTriangular := fun i j hij => hP.upper i j hij
    rw [det_of_isUpperTriangular hup]
    exact (Finset.prod_pos fun i _ => hP.pos i).ne'
  have hM : (Pᵀ * S * P).PosDef := by
    have hinj : Function.Injective P.mulVec :=
      mulVec_injective_of_isUnit ((isUnit_iff_isUnit_det P).mpr (isUnit_iff_ne_zero.mpr hdet))
    have := hS.conjTranspose_mul_mul_same hinj
    rwa [conjTranspose_eq_transpose_of_trivial] at this
  have h := trace_sub_log_det hM
  have ht : (Pᵀ * S * P).trace = (C⁻¹ * S).trace := by
    rw [trace_mul_comm, ← Matrix.mul_assoc, hP.product]
  have hd : (Pᵀ * S * P).det = C.det⁻¹ * S.det := by
    have : C.det⁻¹ = P.det * P.det := by
      have h := congrArg det hP.product
      rw [det_mul, det_transpose, det_nonsing_inv, Ring.inverse_eq_inv'] at h
      exact h.symm
    rw [det_mul, det_mul, det_transpose, this]
    ring
  rw [ht, hd, Real.log_mul (inv_pos.mpr hC.det_pos).ne' hS.det_pos.ne', Real.log_inv] at h
  linarith

/-- The weighted sum of quadratic forms around any point. -/
theorem sum_quad {A : Matrix (Fin d) (Fin d) ℝ} {r : Fin n → ℝ} {N : ℝ} (hN : N ≠ 0) (hr : ∑ i, r i = N) (X : Matrix (Fin n) (Fin d) ℝ)
    {μ' : Fin d → ℝ} (hμ : μ' = N⁻¹ • ∑ i, r i • X i) (μ : Fin d → ℝ) :
    ∑ i, r i * ((X i - μ) ⬝ᵥ (A *ᵥ (X i - μ))) =
      N * (A * (N⁻¹ • ∑ i, r i • vecMulVec (X i - μ') (X i - μ'))).trace + N * ((μ' - μ) ⬝ᵥ (A *ᵥ (μ' - μ))) := by
  have hzero : ∑ i, r i • (X i - μ') = 0 := by
    simp only [smul_sub, Finset.sum_sub_distrib, ← Finset.sum_smul, hr]
    rw [hμ, smul_smul, mul_inv_cancel₀ hN, one_smul, sub_self]
  have htr : ∀ u : Fin d → ℝ, (A * vecMulVec u u).trace = u ⬝ᵥ (A *ᵥ u) := by
    intro u
    rw [mul_vecMulVec, trace_vecMulVec, dotProduct_comm]
  have h1 : N * (A * (N⁻¹ • ∑ i, r i • vecMulVec (X i - μ') (X i - μ'))).trace =
      ∑ i, r i * ((X i - μ') ⬝ᵥ (A *ᵥ (X i - μ'))) := by
    rw [Matrix.mul_smul, trace_smul, smul_eq_mul, ← mul_assoc, mul_inv_cancel₀ hN, one_mul, Matrix.mul_sum, trace_sum]
    exact Finset.sum_congr rfl fun i _ => by rw [Matrix.mul_smul, trace_smul, htr, smul_eq_mul]
  rw [h1]
  have hexp : ∀ i, r i * ((X i - μ) ⬝ᵥ (A *ᵥ (X i - μ))) = r i * ((X i - μ') ⬝ᵥ (A *ᵥ (X i - μ'))) +
      (r i • (X i - μ')) ⬝ᵥ (A *ᵥ (μ' - μ)) + (μ' - μ) ⬝ᵥ (A *ᵥ (r i • (X i - μ'))) + r i * ((μ' - μ) ⬝ᵥ (A *ᵥ (μ' - μ))) := by
    intro i
    rw [show X i - μ = (X i - μ') + (μ' - μ) by abel]
    simp only [mulVec_add, dotProduct_add, add_dotProduct, mulVec_smul, dotProduct_smul, smul_dotProduct, smul_eq_mul]
    ring
  rw [Finset.sum_congr rfl fun i _ => hexp i]
  simp only [Finset.sum_add_distrib]
  rw [← sum_dotProduct, ← dotProduct_sum, ← Matrix.mulVec_sum, hzero, zero_dotProduct, mulVec_zero, dotProduct_zero, ← Finset.sum_mul, hr]
  ring

/-- The weighted mean and the weighted covariance maximise the weighted log likelihood. -/
theorem normal_max {r : Fin n → ℝ} {N : ℝ} (hN : 0 < N) (hr : ∑ i, r i = N) (X : Matrix (Fin n) (Fin d) ℝ)
    {μ' : Fin d → ℝ} (hμ : μ' = N⁻¹ • ∑ i, r i • X i) {S : Matrix (Fin d) (Fin d) ℝ}
    (hS : S = N⁻¹ • ∑ i, r i • vecMulVec (X i - μ') (X i - μ')) (hSpd : S.PosDef) (μ : Fin d → ℝ) {C : Matrix (Fin d) (Fin d) ℝ}
    (hC : C.PosDef) : ∑ i, r i * logNormal μ C (X i) ≤ ∑ i, r i * logNormal μ' S (X i) := by
  have hsum : ∀ (m : Fin d → ℝ) (B : Matrix (Fin d) (Fin d) ℝ), ∑ i, r i * logNormal m B (X i) =
      -(1 / 2) * (∑ i, r i * ((X i - m) ⬝ᵥ (B⁻¹ *ᵥ (X i - m))) + N * (Real.log B.det + d * Real.log (2 * Real.pi))) := by
    intro m B
    simp only [logNormal]
    rw [← hr, Finset.sum_mul, ← Finset.sum_add_distrib, Finset.mul_sum]
    exact Finset.sum_congr rfl fun i _ => by ring
  rw [hsum, hsum, sum_quad hN.ne' hr X hμ, sum_quad hN.ne' hr X hμ, ← hS]
  have hSS : (S⁻¹ * S).trace = d := by
    rw [nonsing_inv_mul _ (isUnit_iff_ne_zero.mpr hSpd.det_pos.ne'), trace_one, Fintype.card_fin]
  have h1 := mul_le_mul_of_nonneg_left (trace_inv_log_det hC hSpd) hN.le
  have h2 : 0 ≤ (μ' - μ) ⬝ᵥ (C⁻¹ *ᵥ (μ' - μ)) := by
    have := hC.inv.posSemidef.dotProduct_mulVec_nonneg (μ' - μ)
    simpa using this
  have h3 := mul_nonneg hN.le h2
  rw [hSS, sub_self, mulVec_zero, dotProduct_zero]
  nlinarith

/-- Without regularisation and in exact arithmetic an EM step does not lower the mean log likelihood. -/
theorem em_monotone (hK : 0 < K) (hn : 0 < n) (X : Matrix (Fin n) (Fin d) ℝ) {θ : Mixture K d} (hp : Proper θ)
    (hws : ∑ k, θ.weight k ≤ 1)
    (hp' : ∀ k, ((emUpdate false 0 0 X fun i => θ.posterior (X i)).cov k).PosDef) :
    θ.meanLogLik X ≤ (emUpdate false 0 0 X fun i => θ.posterior (X i)).meanLogLik X := by
  have : Nonempty (Fin n) := ⟨⟨0, hn⟩⟩
  set θ' := emUpdate false 0 0 X fun i => θ.posterior (X i) with hθ'
  have hn' : (0 : ℝ) < n := by exact_mod_cast hn
  set r := fun i k => θ.posterior (X i) k with hrdef
  have hr : ∀ i k, 0 < r i k := fun i k => posterior_pos hK hp.weight _ k
  have hrs : ∀ i, ∑ k, r i k = 1 := fun i => posterior_sum hK hp.weight _
  set N := fun k => ∑ i, r i k with hNdef
  have hN : ∀ k, 0 < N k := fun k => Finset.sum_pos (fun i _ => hr i k) Finset.univ_nonempty
  have hw' : ∀ k, θ'.weight k = N k / n := fun k => by simp [hθ', emUpdate, hNdef, hrdef]
  have hw'pos : ∀ k, 0 < θ'.weight k := fun k => by rw [hw']; exact div_pos (hN k) hn'
  have hNs : ∑ k, N k = n := by
    simp only [hNdef]
    rw [Finset.sum_comm]
    simp [hrs]
  have hmean : ∀ k, θ'.mean k = (N k)⁻¹ • ∑ i, r i k • X i := fun k => by simp [hθ', emUpdate, hNdef, hrdef]
  have hcov : ∀ k, θ'.cov k = (N k)⁻¹ • ∑ i, r i k • vecMulVec (X i - θ'.mean k) (X i - θ'.mean k) := fun k => by
    simp [hθ', emUpdate, hNdef, hrdef]
  -- the quotients of the joint densities
  set g := fun i k => θ.weight k * Real.exp (logNormal (θ.mean k) (θ.cov k) (X i)) with hg
  set g' := fun i k => θ'.weight k * Real.exp (logNormal (θ'.mean k) (θ'.cov k) (X i)) with hg'
  have hgpos : ∀ i k, 0 < g i k := fun i k => mul_pos (hp.weight k) (Real.exp_pos _)
  have hg'pos : ∀ i k, 0 < g' i k := fun i k => mul_pos (hw'pos k) (Real.exp_pos _)
  have hrow : ∀ i, Real.log (θ.density (X i)) + ∑ k, r i k * (Real.log (g' i k) - Real.log (g i k)) ≤ Real.log (θ'.density (X i)) := by
    intro i
    have hd := density_pos hK hp.weight (X i)
    have hd' := density_pos hK hw'pos (X i)
    have hj := jensen_log (hr i) (hrs i) (a := fun k => g' i k / g i k) (fun k => div_pos (hg'pos i k) (hgpos i k)) hK
    have hq : ∑ k, r i k * (g' i k / g i k) = θ'.density (X i) / θ.density (X i) := by
      rw [Mixture.density, Finset.sum_div]
      refine Finset.sum_congr rfl fun k _ => ?_
      have h1 : r i k = g i k / θ.density (X i) := rfl
      rw [h1]
      have := (hgpos i k).ne'
      field_simp
      rfl
    rw [hq, Real.log_div hd'.ne' hd.ne'] at hj
    have : ∀ k, Real.log (g' i k / g i k) = Real.log (g' i k) - Real.log (g i k) := fun k =>
      Real.log_div (hg'pos i k).ne' (hgpos i k).ne'
    simp only [this] at hj
    linarith
  have hlog : ∀ i k, Real.log (g i k) = Real.log (θ.weight k) + logNormal (θ.mean k) (θ.cov k) (X i) := fun i k => by
    rw [hg, Real.log_mul (hp.weight k).ne' (Real.exp_pos _).ne', Real.log_exp]
  have hlog' : ∀ i k, Real.log (g' i k) = Real.log (θ'.weight k) + logNormal (θ'.mean k) (θ'.cov k) (X i) := fun i k => by
    rw [hg', Real.log_mul (hw'pos k).ne' (Real.exp_pos _).ne', Real.log_exp]
  have hQ : 0 ≤ ∑ i, ∑ k, r i k * (Real.log (g' i k) - Real.log (g i k)) := by
    rw [Finset.sum_comm]
    have hsplit : ∑ k, ∑ i, r i k * (Real.log (g' i k) - Real.log (g i k)) =
        (∑ k, N k * Real.log (N k / n) - ∑ k, N k * Real.log (θ.weight k)) +
        ∑ k, (∑ i, r i k * logNormal (θ'.mean k) (θ'.cov k) (X i) - ∑ i, r i k * logNormal (θ.mean k) (θ.cov k) (X i)) := by
      rw [← Finset.sum_sub_distrib, ← Finset.sum_add_distrib]
      refine Finset.sum_congr rfl fun k _ => ?_
      rw [← Finset.sum_sub_distrib, hNdef, Finset.sum_mul, Finset.sum_mul, ← Finset.sum_sub_distrib, ← Finset.sum_add_distrib]
      refine Finset.sum_congr rfl fun i _ => ?_
      rw [hlog, hlog', hw']
      ring
    rw [hsplit]
    have h1 := gibbs hN hp.weight hn' hNs hws
    have h2 : 0 ≤ ∑ k, (∑ i, r i k * logNormal (θ'.mean k) (θ'.cov k) (X i) - ∑ i, r i k * logNormal (θ.mean k) (θ.cov k) (X i)) :=
      Finset.sum_nonneg fun k _ => sub_nonneg.mpr
        (normal_max (hN k) rfl X (hmean k) (hcov k) (hp' k) (θ.mean k) (hp.cov k))
    linarith
  have hsum := Finset.sum_le_sum fun i (_ : i ∈ Finset.univ) => hrow i
  rw [Finset.sum_add_distrib] at hsum
  unfold Mixture.meanLogLik
  exact div_le_div_of_nonneg_right (by linarith) hn'.le

end OpenML.GMM
