import Verif.Lemmas.EM
import Verif.Props.GMM

/-!
# The likelihood during `fit` of the Gaussian mixture model
-/

namespace OpenML.GMM

open Matrix Spec

variable {n K d : Nat}

/-- The members hold a mixture with positive weights that sum to one and positive definite covariances. -/
def Sound (p : Params K d) : Prop := ∃ θ, Represents p θ ∧ Proper θ ∧ ∑ k, θ.weight k = 1

theorem posDef_of_chol {A L : Matrix (Fin d) (Fin d) ℝ} (h : IsCholesky A L) : A.PosDef := by
  have hinj : Function.Injective (Lᵀ.mulVec) := by
    refine mulVec_injective_of_isUnit ((isUnit_iff_isUnit_det _).mpr ?_)
    rw [det_transpose]
    exact isUnit_iff_ne_zero.mpr (chol_det h).ne'
  have := Matrix.PosDef.one.conjTranspose_mul_mul_same hinj
  rwa [conjTranspose_eq_transpose_of_trivial, transpose_transpose, Matrix.mul_one, h.product] at this

/-- Members estimated without regularisation, if the decompositions succeed. -/
theorem setParams_sound {cfg : Config} (hty : cfg.covarianceType = "full") (heps : cfg.eps = 0) (hreg : cfg.reg = 0)
    {chol : Matrix (Fin d) (Fin d) ℝ → Option (Matrix (Fin d) (Fin d) ℝ)} (hchol : CholeskyRoutine chol) (hn : 0 < n)
    (X : Matrix (Fin n) (Fin d) ℝ) (R : Matrix (Fin n) (Fin K) ℝ) (hR : ∀ i k, 0 < R i k) (hrow : ∀ i, ∑ k, R i k = 1)
    {p : Params K d} (hp : setParams cfg chol X R = .ok p) :
    Represents p (emUpdate false 0 0 X R) ∧ Proper (emUpdate false 0 0 X R) ∧ ∑ k, (emUpdate false 0 0 X R).weight k = 1 := by
  have : Nonempty (Fin n) := ⟨⟨0, hn⟩⟩
  have hn' : (0 : ℝ) < n := by exact_mod_cast hn
  unfold setParams at hp
  dsimp only at hp
  rw [covariancesOf_eq (Or.inl ⟨hty, rfl⟩), heps, hreg, Res.bind_eq_ok] at hp
  obtain ⟨chols, hch, hp⟩ := hp
  obtain rfl := Res.ok.inj hp
  set θ := emUpdate false 0 0 X R with hθ
  unfold precisionCholesky at hch
  rw [Res.bind_eq_ok] at hch
  obtain ⟨-, -, hch⟩ := hch
  rw [mapRes_ok_iff] at hch
  have hlen : chols.length = K := by rw [← hch.length_eq, List.length_ofFn]
  have hk : ∀ k : Fin K, ∃ L, IsCholesky (θ.cov k) L ∧ chols[k.val]'(by omega) = (Lᵀ)⁻¹ := by
    intro k
    have := (List.forall₂_iff_get.mp hch).2 k.val (by simp) (by omega)
    simp only [List.get_eq_getElem, List.getElem_ofFn, Fin.eta] at this
    cases hc : chol (θ.cov k) with
    | none => rw [hc] at this; simp at this
    | some L =>
      rw [hc] at this
      exact ⟨L, hchol.sound _ L (cov_symm false 0 0 X R k) hc, (Res.ok.inj this).symm⟩
  refine ⟨⟨rfl, meansOf_eq false 0 0 X R, rfl, fun k => chols[k.val]'(by omega), ?_, fun k => ?_⟩, ⟨fun k => ?_, fun k => ?_⟩, ?_⟩
  · refine List.ext_getElem (by simp [hlen]) fun i h1 h2 => ?_
    simp
  · obtain ⟨L, hL, he⟩ := hk k
    dsimp only
    rw [he]
    exact precisionChol_of_chol hL
  · refine div_pos ?_ hn'
    simp only [mul_zero, add_zero]
    exact Finset.sum_pos (fun i _ => hR i k) Finset.univ_nonempty
  · obtain ⟨L, hL, -⟩ := hk k
    exact posDef_of_chol hL
  · simp only [hθ, emUpdate, mul_zero, add_zero, ← Finset.sum_div]
    rw [Finset.sum_comm]
    simp only [hrow, Finset.sum_const, Finset.card_univ, Fintype.card_fin, nsmul_eq_mul, mul_one]
    exact div_self hn'.ne'

theorem setParams_sound' {cfg : Config} (hty : cfg.covarianceType = "full") (heps : cfg.eps = 0) (hreg : cfg.reg = 0)
    {chol : Matrix (Fin d) (Fin d) ℝ → Option (Matrix (Fin d) (Fin d) ℝ)} (hchol : CholeskyRoutine chol) (hn : 0 < n)
    (X : Matrix (Fin n) (Fin d) ℝ) (R : Fin n → Fin K → ℝ) (hR : ∀ i k, 0 < R i k) (hrow : ∀ i, ∑ k, R i k = 1)
    {p : Params K d} (hp : setParams cfg chol X (Matrix.of R) = .ok p) :
    Represents p (emUpdate false 0 0 X R) ∧ Proper (emUpdate false 0 0 X R) ∧ ∑ k, (emUpdate false 0 0 X R).weight k = 1 :=
  setParams_sound hty heps hreg hchol hn X (Matrix.of R) hR hrow hp

end OpenML.GMM

namespace OpenML

open Matrix Spec GMM

variable {n K d : Nat}

/-- C92: without regularisation and in exact arithmetic (machine epsilon zero), one E-step and M-step never lower the mean log
likelihood, and the new members are again as the theorem asks for. -/
theorem C92_step (cfg : Config) (hty : cfg.covarianceType = "full") (heps : cfg.eps = 0) (hreg : cfg.reg = 0)
    (chol : Matrix (Fin d) (Fin d) ℝ → Option (Matrix (Fin d) (Fin d) ℝ)) (hchol : CholeskyRoutine chol) (hK : 0 < K) (hn : 0 < n)
    (X : Matrix (Fin n) (Fin d) ℝ) (p : Params K d) (hp : Sound p) (e : ℝ × Matrix (Fin n) (Fin K) ℝ) (he : eStep cfg p X = .ok e)
    (p' : Params K d) (hp' : mStep cfg chol X e.2 = .ok p') :
    Sound p' ∧ ∃ e', eStep cfg p' X = .ok e' ∧ e.1 ≤ e'.1 := by
  obtain ⟨θ, hrep, hprop, hw⟩ := hp
  have hty' : TypeOK cfg K false := Or.inl ⟨hty, rfl⟩
  rw [eStep_eq hty' hrep hprop.weight hK hn X] at he
  have he := (Res.ok.inj he).symm
  have hp' : setParams cfg chol X (Matrix.of fun i => θ.posterior (X i)) = .ok p' := by
    rw [← hp', he, mStep]
    congr 1
    ext i k
    simp only [of_apply]
    exact (Real.exp_log (posterior_pos hK hprop.weight _ k)).symm
  obtain ⟨hrep', hprop', hw'⟩ := setParams_sound' hty heps hreg hchol hn X (fun i => θ.posterior (X i))
    (fun i k => posterior_pos hK hprop.weight (X i) k) (fun i => posterior_sum hK hprop.weight (X i)) hp'
  refine ⟨⟨_, hrep', hprop', hw'⟩, _, eStep_eq hty' hrep' hprop'.weight hK hn X, ?_⟩
  rw [he]
  exact em_monotone hK hn X hprop hw.le hprop'.cov

/-- C92: so the bound at the end of the iterations is at least the mean log likelihood of the members at the start, and at most the one
of the members at the end. -/
theorem C92_loop (cfg : Config) (hty : cfg.covarianceType = "full") (heps : cfg.eps = 0) (hreg : cfg.reg = 0)
    (chol : Matrix (Fin d) (Fin d) ℝ → Option (Matrix (Fin d) (Fin d) ℝ)) (hchol : CholeskyRoutine chol) (hK : 0 < K) (hn : 0 < n)
    (X : Matrix (Fin n) (Fin d) ℝ) : ∀ (rest : Nat) (p : Params K d) (lower : Option ℝ), Sound p →
      ∀ p' bound conv, 0 < rest → emLoop cfg chol X rest p lower = .ok (p', bound, conv) →
      Sound p' ∧ ∃ e l e', eStep cfg p X = .ok e ∧ bound = some l ∧ eStep cfg p' X = .ok e' ∧ e.1 ≤ l ∧ l ≤ e'.1 := by
  intro rest
  induction rest with
  | zero => intro p lower _ p' bound conv h; omega
  | succ rest ih =>
    intro p lower hp p' bound conv _ h
    rw [emLoop, Res.bind_eq_ok] at h
    obtain ⟨e, he, h⟩ := h
    rw [Res.bind_eq_ok] at h
    obtain ⟨q, hq, h⟩ := h
    obtain ⟨hs, e', he', hle⟩ := C92_step cfg hty heps hreg chol hchol hK hn X p hp e he q hq
    have hrest : emLoop cfg chol X rest q (some e.1) = .ok (p', bound, conv) →
        Sound p' ∧ ∃ e l e', eStep cfg p X = .ok e ∧ bound = some l ∧ eStep cfg p' X = .ok e' ∧ e.1 ≤ l ∧ l ≤ e'.1 := by
      intro h
      rcases Nat.eq_zero_or_pos rest with h0 | h0
      · subst h0
        rw [emLoop] at h
        obtain ⟨rfl, rfl, rfl⟩ := by simpa using h
        exact ⟨hs, e, e.1, e', he, rfl, he', le_rfl, hle⟩
      · obtain ⟨hs', e1, l, e2, h1, h2, h3, h4, h5⟩ := ih q _ hs p' bound conv h0 h
        rw [he'] at h1
        obtain rfl := Res.ok.inj h1
        exact ⟨hs', e, l, e2, he, h2, h3, hle.trans h4, h5⟩
    cases lower with
    | none => exact hrest h
    | some prev =>
      dsimp only at h
      by_cases hc : |e.1 - prev| < cfg.tol
      · rw [if_pos hc] at h
        obtain ⟨rfl, rfl, rfl⟩ := by simpa using h
        exact ⟨hs, e, e.1, e', he, rfl, he', le_rfl, hle⟩
      · rw [if_neg hc] at h
        exact hrest h

/-- C92: the members set by `initialize_parameters` from positive random numbers are as C92 asks for, if the decompositions succeed. -/
theorem C92_start (cfg : Config) (hty : cfg.covarianceType = "full") (hinit : cfg.initParams = "random") (heps : cfg.eps = 0)
    (hreg : cfg.reg = 0) (chol : Matrix (Fin d) (Fin d) ℝ → Option (Matrix (Fin d) (Fin d) ℝ)) (hchol : CholeskyRoutine chol)
    (hK : 0 < K) (hn : 0 < n) (X : Matrix (Fin n) (Fin d) ℝ) (draw : Matrix (Fin n) (Fin K) ℝ) (hd : ∀ i k, 0 < draw i k)
    (p : Params K d) (hp : initParams cfg chol X draw = .ok p) : Sound p := by
  have : Nonempty (Fin K) := ⟨⟨0, hK⟩⟩
  have hs : ∀ i, 0 < ∑ k, draw i k := fun i => Finset.sum_pos (fun k _ => hd i k) Finset.univ_nonempty
  rw [initParams, if_pos hinit] at hp
  exact ⟨_, setParams_sound' hty heps hreg hchol hn X (normalised draw) (fun i k => div_pos (hd i k) (hs i))
    (normalised_sum hs) hp⟩

/-- Beside C92: two components and the samples 0, 1, 5 without regularisation; the decompositions succeed. -/
example : ∃ (chol : Matrix (Fin 1) (Fin 1) ℝ → Option (Matrix (Fin 1) (Fin 1) ℝ)) (p : Params 2 1), CholeskyRoutine chol ∧
    initParams ⟨2, 1, "random", "full", 1, 0, 0⟩ chol exampleData !![1, 2; 1, 1; 2, 1] = .ok p := by
  obtain ⟨chol, hchol⟩ := exists_choleskyRoutine 1
  set R : Matrix (Fin 3) (Fin 2) ℝ := Matrix.of (normalised !![1, 2; 1, 1; 2, 1]) with hR
  have hpos : ∀ i k, 0 < R i k := by
    intro i k
    fin_cases i <;> fin_cases k <;> norm_num [hR, normalised, Fin.sum_univ_two]
  have hpd : ∀ C ∈ List.ofFn (emUpdate false 0 0 exampleData R).cov, C.PosDef := by
    intro C hC
    rw [List.mem_ofFn] at hC
    obtain ⟨k, rfl⟩ := hC
    refine Matrix.PosDef.of_dotProduct_mulVec_pos ?_ fun {v} hv => ?_
    · rw [Matrix.IsHermitian, conjTranspose_eq_transpose_of_trivial]
      exact cov_symm false 0 0 exampleData R k
    · rw [star_trivial]
      refine lt_of_lt_of_eq ?_ (cov_full_quad 0 0 exampleData R k v).symm
      have hv0 : v 0 ≠ 0 := fun h => hv (by funext i; rw [Subsingleton.elim i 0, h]; rfl)
      have hN : 0 < (∑ i, R i k) + 10 * 0 := by
        rw [mul_zero, add_zero]
        exact Finset.sum_pos (fun i _ => hpos i k) Finset.univ_nonempty
      set μ := (emUpdate false 0 0 exampleData R).mean k with hμ
      have hsum : 0 < ∑ i, R i k * ((exampleData i - μ) ⬝ᵥ v) ^ 2 := by
        by_contra hcon
        have hall : ∀ i, R i k * ((exampleData i - μ) ⬝ᵥ v) ^ 2 = 0 := by
          have hnn : ∀ i ∈ Finset.univ, 0 ≤ R i k * ((exampleData i - μ) ⬝ᵥ v) ^ 2 := fun i _ =>
            mul_nonneg (hpos i k).le (sq_nonneg _)
          have := le_antisymm (not_lt.mp hcon) (Finset.sum_nonneg hnn)
          exact fun i => (Finset.sum_eq_zero_iff_of_nonneg hnn).mp this i (Finset.mem_univ i)
        have hz : ∀ i, exampleData i 0 = μ 0 := by
          intro i
          have h1 := pow_eq_zero_iff (two_ne_zero) |>.mp ((mul_eq_zero.mp (hall i)).resolve_left (hpos i k).ne')
          simp only [dotProduct, Finset.univ_unique, Fin.default_eq_zero, Finset.sum_singleton, Pi.sub_apply] at h1
          have := (mul_eq_zero.mp h1).resolve_right hv0
          linarith
        have h0 := hz 0
        have h1 := hz 1
        rw [← h0] at h1
        norm_num [exampleData] at h1
      have := mul_pos (inv_pos.mpr hN) hsum
      linarith
  obtain ⟨f, hf, -⟩ := precisionCholesky_ok hchol (by simp) hpd
  have hs : ∃ p, setParams ⟨2, 1, "random", "full", 1, 0, 0⟩ chol exampleData R = .ok p := by
    unfold setParams
    dsimp only
    rw [covariancesOf_eq (pooled := false) (Or.inl ⟨rfl, rfl⟩), hf]
    exact ⟨_, rfl⟩
  obtain ⟨p, hp⟩ := hs
  exact ⟨chol, p, hchol, by rw [initParams, if_pos rfl]; exact hp⟩

end OpenML
