import Verif.Lemmas.GMM
import Verif.Lemmas.MapRes
import Verif.Lemmas.Analytic

/-!
# The steps of the Gaussian mixture model refine the EM iteration
-/

namespace OpenML.GMM

open Matrix Spec

variable {n K d : Nat}

theorem getD_eq_getElem' {α : Type} {l : List α} {i : Nat} {a : α} (h : i < l.length) : l.getD i a = l[i] := by
  simp [List.getD_eq_getElem?_getD, h]

/-- The members of an object hold a mixture. -/
structure Represents (p : Params K d) (θ : Mixture K d) : Prop where
  weights : p.weights = θ.weight
  means : p.means = Matrix.of θ.mean
  covariances : p.covariances = List.ofFn θ.cov
  chols : ∃ P : Fin K → Matrix (Fin d) (Fin d) ℝ, p.precisionsChol = List.ofFn P ∧ ∀ k, IsPrecisionChol (θ.cov k) (P k)

/-- The types of covariance the code can work with. -/
def TypeOK (cfg : Config) (K : Nat) (pooled : Bool) : Prop :=
  cfg.covarianceType = "full" ∧ pooled = false ∨ cfg.covarianceType = "tied" ∧ pooled = true ∧ K = 1

/-- Positive weights and positive definite covariances. -/
structure Proper (θ : Mixture K d) : Prop where
  weight : ∀ k, 0 < θ.weight k
  cov : ∀ k, (θ.cov k).PosDef

theorem precisionCholesky_ok {chol : Matrix (Fin d) (Fin d) ℝ → Option (Matrix (Fin d) (Fin d) ℝ)} (hchol : CholeskyRoutine chol)
    {covs : List (Matrix (Fin d) (Fin d) ℝ)} (hne : covs ≠ []) (hpd : ∀ c ∈ covs, c.PosDef) :
    ∃ f : Matrix (Fin d) (Fin d) ℝ → Matrix (Fin d) (Fin d) ℝ,
      precisionCholesky chol covs = .ok (covs.map f) ∧ ∀ c ∈ covs, IsPrecisionChol c (f c) := by
  refine ⟨fun c => (((chol c).getD 0)ᵀ)⁻¹, ?_, fun c hc => ?_⟩
  · unfold precisionCholesky
    rw [readAt_of_lt (List.length_pos_of_ne_nil hne)]
    simp only [Res.bind_ok]
    refine Analytic.mapRes_eq_map _ _ _ fun c hc => ?_
    obtain ⟨L, hL⟩ := Option.isSome_iff_exists.mp (hchol.complete c (hpd c hc))
    simp only [hL, Option.getD_some]
  · obtain ⟨L, hL⟩ := Option.isSome_iff_exists.mp (hchol.complete c (hpd c hc))
    have hs : c.IsSymm := by
      have := (hpd c hc).1
      rwa [Matrix.IsHermitian, conjTranspose_eq_transpose_of_trivial] at this
    simp only [hL, Option.getD_some]
    exact precisionChol_of_chol (hchol.sound c L hs hL)

theorem covariancesOf_eq {cfg : Config} {pooled : Bool} (hty : TypeOK cfg K pooled) (X : Matrix (Fin n) (Fin d) ℝ)
    (R : Matrix (Fin n) (Fin K) ℝ) : covariancesOf cfg X R = List.ofFn (emUpdate pooled cfg.eps cfg.reg X R).cov := by
  rcases hty with ⟨h, rfl⟩ | ⟨h, rfl, rfl⟩
  · rw [covariancesOf, if_pos h]
    congr 1
    funext k
    exact covFull_eq _ _ _ _ _
  · rw [covariancesOf, if_neg (by rw [h]; decide), if_pos h, List.ofFn_succ, List.ofFn_zero, covTied_eq _ _ _ _ 0]

theorem proper_emUpdate {pooled : Bool} {eps reg : ℝ} (heps : 0 < eps) (hreg : 0 < reg) (hn : 0 < n) (X : Matrix (Fin n) (Fin d) ℝ)
    (R : Fin n → Fin K → ℝ) (hR : ∀ i k, 0 ≤ R i k) (hrow : ∀ i, ∑ k, R i k = 1) : Proper (emUpdate pooled eps reg X R) :=
  ⟨fun k => div_pos (nk_pos heps (R := Matrix.of R) hR k) (by exact_mod_cast hn),
    fun k => cov_posDef pooled heps hreg X R hR hrow k⟩

theorem setParams_ok {cfg : Config} {pooled : Bool} (hty : TypeOK cfg K pooled)
    {chol : Matrix (Fin d) (Fin d) ℝ → Option (Matrix (Fin d) (Fin d) ℝ)} (hchol : CholeskyRoutine chol) (hK : 0 < K) (hn : 0 < n)
    (heps : 0 < cfg.eps) (hreg : 0 < cfg.reg) (X : Matrix (Fin n) (Fin d) ℝ) (R : Matrix (Fin n) (Fin K) ℝ)
    (hR : ∀ i k, 0 ≤ R i k) (hrow : ∀ i, ∑ k, R i k = 1) :
    ∃ p, setParams cfg chol X R = .ok p ∧ Represents p (emUpdate pooled cfg.eps cfg.reg X R) := by
  have hp := proper_emUpdate (pooled := pooled) heps hreg hn X R hR hrow
  have hne : List.ofFn (emUpdate pooled cfg.eps cfg.reg X R).cov ≠ [] := by
    intro h
    have := congrArg List.length h
    simp at this
    omega
  obtain ⟨f, hf, hP⟩ := precisionCholesky_ok hchol hne (fun c hc => by
    rw [List.mem_ofFn] at hc
    obtain ⟨k, rfl⟩ := hc
    exact hp.cov k)
  unfold setParams
  dsimp only
  rw [covariancesOf_eq hty, hf]
  refine ⟨_, rfl, rfl, meansOf_eq pooled _ _ _ _, rfl, fun k => f ((emUpdate pooled cfg.eps cfg.reg X R).cov k), ?_, fun k =>
    hP _ (List.mem_ofFn.mpr ⟨k, rfl⟩)⟩
  rw [List.map_ofFn]
  rfl

/-- The weighted log probability. -/
theorem weightedLogProb_eq {cfg : Config} {pooled : Bool} (hty : TypeOK cfg K pooled) {p : Params K d} {θ : Mixture K d}
    (hr : Represents p θ) (X : Matrix (Fin n) (Fin d) ℝ) :
    logProb cfg p X = .ok (Matrix.of fun i k => logNormal (θ.mean k) (θ.cov k) (X i)) ∧
    weightedLogProb cfg p X = .ok (Matrix.of fun i k => logNormal (θ.mean k) (θ.cov k) (X i) + Real.log (θ.weight k)) := by
  obtain ⟨P, hP, hPC⟩ := hr.chols
  have hmap : mapRes (fun k => cholFor cfg p.precisionsChol k) (List.range K) =
      .ok ((List.range K).map fun k => p.precisionsChol.getD k 0) := by
    refine Analytic.mapRes_eq_map _ _ _ fun k hk => ?_
    have hk := List.mem_range.mp hk
    have hlen : p.precisionsChol.length = K := by rw [hP, List.length_ofFn]
    rcases hty with ⟨h, -⟩ | ⟨h, -, h1⟩
    · rw [cholFor, if_neg (by rw [h]; decide), if_pos h, readAt_of_lt (by omega), getD_eq_getElem' (by omega)]
    · obtain rfl : k = 0 := by omega
      rw [cholFor, if_pos h, readAt_of_lt (by omega), getD_eq_getElem' (by omega)]
  have hlp : logProb cfg p X = .ok (Matrix.of fun i k => logNormal (θ.mean k) (θ.cov k) (X i)) := by
    unfold logProb
    rw [hmap]
    simp only [Res.bind_ok]
    rw [if_pos (by rw [hP, List.length_ofFn])]
    congr 1
    ext i k
    have hg : p.precisionsChol.getD k.val 0 = P k := by
      rw [hP, getD_eq_getElem' (by simp)]
      simp
    have hg' : ((List.range K).map fun k => p.precisionsChol.getD k 0).getD k.val 0 = P k := by
      rw [getD_eq_getElem' (by simp)]
      simpa using hg
    simp only [of_apply]
    rw [hg', hg, log_det_precision (hPC k), logNormal, hr.means]
    have hq := quad_precision (hPC k) (X i - θ.mean k)
    have : ∀ j, (X * P k) i j - (Matrix.of θ.mean k ᵥ* P k) j = ((X i - θ.mean k) ᵥ* P k) j := by
      intro j
      rw [sub_vecMul]
      rfl
    simp only [this, hq]
    ring
  refine ⟨hlp, ?_⟩
  unfold weightedLogProb
  rw [hlp, hr.weights]
  rfl

theorem density_pos {θ : Mixture K d} (hK : 0 < K) (hw : ∀ k, 0 < θ.weight k) (x : Fin d → ℝ) : 0 < θ.density x := by
  have : Nonempty (Fin K) := ⟨⟨0, hK⟩⟩
  exact Finset.sum_pos (fun k _ => mul_pos (hw k) (Real.exp_pos _)) Finset.univ_nonempty

theorem posterior_pos {θ : Mixture K d} (hK : 0 < K) (hw : ∀ k, 0 < θ.weight k) (x : Fin d → ℝ) (k : Fin K) :
    0 < θ.posterior x k := div_pos (mul_pos (hw k) (Real.exp_pos _)) (density_pos hK hw x)

theorem posterior_sum {θ : Mixture K d} (hK : 0 < K) (hw : ∀ k, 0 < θ.weight k) (x : Fin d → ℝ) : ∑ k, θ.posterior x k = 1 := by
  simp only [Mixture.posterior, ← Finset.sum_div]
  exact div_self (density_pos hK hw x).ne'

theorem logProbResp_eq {cfg : Config} {pooled : Bool} (hty : TypeOK cfg K pooled) {p : Params K d} {θ : Mixture K d}
    (hr : Represents p θ) (hw : ∀ k, 0 < θ.weight k) (hK : 0 < K) (hn : 0 < n) (X : Matrix (Fin n) (Fin d) ℝ) :
    logProbResp cfg p X = .ok (Matrix.of fun i k => Real.log (θ.posterior (X i) k), fun i => Real.log (θ.density (X i))) := by
  unfold logProbResp
  rw [(weightedLogProb_eq hty hr X).2]
  simp only [Res.bind_ok]
  rw [(C29_logsumexp _ (PCA.toDMat_wf _) (by
    intro h
    have := congrArg List.length h
    simp [PCA.toDMat] at this
    omega) hK).1]
  simp only [Res.bind_ok]
  have hl : ∀ i : Fin n, ((PCA.toDMat (Matrix.of fun i k => logNormal (θ.mean k) (θ.cov k) (X i) + Real.log (θ.weight k))).rows.map
      fun l => Real.log (sumExp l)).getD i.val 0 = Real.log (θ.density (X i)) := by
    intro i
    rw [getD_eq_getElem' (by simp [PCA.toDMat])]
    simp only [PCA.toDMat, List.getElem_map, List.getElem_ofFn, Fin.eta, of_apply]
    congr 1
    simp only [sumExp, List.map_ofFn, List.sum_ofFn, Mixture.density, Function.comp_apply]
    exact Finset.sum_congr rfl fun k _ => by rw [Real.exp_add, Real.exp_log (hw k), mul_comm]
  congr 2
  · ext i k
    simp only [of_apply, hl, Mixture.posterior]
    rw [Real.log_div (mul_pos (hw k) (Real.exp_pos _)).ne' (density_pos hK hw _).ne', Real.log_mul (hw k).ne' (Real.exp_pos _).ne',
      Real.log_exp, add_comm]
  · funext i
    exact hl i

theorem eStep_eq {cfg : Config} {pooled : Bool} (hty : TypeOK cfg K pooled) {p : Params K d} {θ : Mixture K d}
    (hr : Represents p θ) (hw : ∀ k, 0 < θ.weight k) (hK : 0 < K) (hn : 0 < n) (X : Matrix (Fin n) (Fin d) ℝ) :
    eStep cfg p X = .ok (θ.meanLogLik X, Matrix.of fun i k => Real.log (θ.posterior (X i) k)) := by
  unfold eStep
  rw [logProbResp_eq hty hr hw hK hn X]
  rfl

theorem mStep_ok {cfg : Config} {pooled : Bool} (hty : TypeOK cfg K pooled)
    {chol : Matrix (Fin d) (Fin d) ℝ → Option (Matrix (Fin d) (Fin d) ℝ)} (hchol : CholeskyRoutine chol) (hK : 0 < K) (hn : 0 < n)
    (heps : 0 < cfg.eps) (hreg : 0 < cfg.reg) (X : Matrix (Fin n) (Fin d) ℝ) {θ : Mixture K d} (hw : ∀ k, 0 < θ.weight k) :
    ∃ p, mStep cfg chol X (Matrix.of fun i k => Real.log (θ.posterior (X i) k)) = .ok p ∧
      Represents p (emUpdate pooled cfg.eps cfg.reg X fun i => θ.posterior (X i)) := by
  have he : (Matrix.of fun i k => Real.exp ((Matrix.of fun i k => Real.log (θ.posterior (X i) k)) i k)) =
      (Matrix.of fun i => θ.posterior (X i) : Matrix (Fin n) (Fin K) ℝ) := by
    ext i k
    simp only [of_apply]
    exact Real.exp_log (posterior_pos hK hw _ k)
  unfold mStep
  rw [he]
  exact setParams_ok hty hchol hK hn heps hreg X _ (fun i k => (posterior_pos hK hw _ k).le) fun i => posterior_sum hK hw _

theorem proper_emSeq {pooled : Bool} {eps reg : ℝ} (heps : 0 < eps) (hreg : 0 < reg) (hn : 0 < n) (hK : 0 < K)
    (X : Matrix (Fin n) (Fin d) ℝ) (R : Fin n → Fin K → ℝ) (hR : ∀ i k, 0 ≤ R i k) (hrow : ∀ i, ∑ k, R i k = 1) (t : Nat) :
    Proper (emSeq pooled eps reg X R t) := by
  induction t with
  | zero => exact proper_emUpdate heps hreg hn X R hR hrow
  | succ t ih =>
    exact proper_emUpdate heps hreg hn X _ (fun i k => (posterior_pos hK ih.weight _ k).le) fun i => posterior_sum hK ih.weight _

/-- The inner loop from iteration `t` on. -/
theorem emLoop_spec {cfg : Config} {pooled : Bool} (hty : TypeOK cfg K pooled)
    {chol : Matrix (Fin d) (Fin d) ℝ → Option (Matrix (Fin d) (Fin d) ℝ)} (hchol : CholeskyRoutine chol) (hK : 0 < K) (hn : 0 < n)
    (heps : 0 < cfg.eps) (hreg : 0 < cfg.reg) (X : Matrix (Fin n) (Fin d) ℝ) (R : Fin n → Fin K → ℝ)
    (hR : ∀ i k, 0 ≤ R i k) (hrow : ∀ i, ∑ k, R i k = 1) (maxIter : Nat) :
    let θ := emSeq pooled cfg.eps cfg.reg X R
    let v := fun t => (θ t).meanLogLik X
    ∀ (rest t : Nat) (p : Params K d) (lower : Option ℝ), 0 < rest → t + rest = maxIter → Represents p (θ t) →
      lower = (if t = 0 then none else some (v (t - 1))) → (∀ s, 1 ≤ s → s < t → cfg.tol ≤ |v s - v (s - 1)|) →
      ∃ p' T conv, emLoop cfg chol X rest p lower = .ok (p', some (v T), conv) ∧ Represents p' (θ (T + 1)) ∧
        EMStopsAt v maxIter cfg.tol T conv := by
  intro θ v rest
  induction rest with
  | zero => intro t p lower h; omega
  | succ rest ih =>
    intro t p lower _ hsum hp hl hbefore
    have hprop : Proper (θ t) := proper_emSeq heps hreg hn hK X R hR hrow t
    obtain ⟨p', hp', hrep'⟩ := mStep_ok hty hchol hK hn heps hreg X hprop.weight
    have hrep' : Represents p' (θ (t + 1)) := hrep'
    rw [emLoop, eStep_eq hty hp hprop.weight hK hn X]
    simp only [Res.bind_ok]
    rw [hp']
    simp only [Res.bind_ok]
    have hstep : (1 ≤ t → cfg.tol ≤ |v t - v (t - 1)|) → ∃ p'' T conv,
        emLoop cfg chol X rest p' (some (v t)) = .ok (p'', some (v T), conv) ∧ Represents p'' (θ (T + 1)) ∧
          EMStopsAt v maxIter cfg.tol T conv := by
      intro hge
      rcases Nat.eq_zero_or_pos rest with h0 | h0
      · subst h0
        exact ⟨p', t, false, rfl, hrep', by omega, hbefore, by simpa using ⟨by omega, hge⟩⟩
      · refine ih (t + 1) p' _ h0 (by omega) hrep' (by simp) fun s hs hst => ?_
        rcases Nat.lt_or_ge s t with h | h
        · exact hbefore s hs h
        · obtain rfl : s = t := by omega
          exact hge hs
    rcases Nat.eq_zero_or_pos t with h0 | h0
    · rw [if_pos h0] at hl
      subst hl
      exact hstep (by omega)
    · rw [if_neg (by omega)] at hl
      subst hl
      dsimp only
      by_cases hc : |(θ t).meanLogLik X - v (t - 1)| < cfg.tol
      · rw [if_pos hc]
        exact ⟨p', t, true, rfl, hrep', by omega, hbefore, by simpa using ⟨h0, hc⟩⟩
      · rw [if_neg hc]
        exact hstep fun _ => not_lt.mp hc

theorem emLoop_zero (cfg : Config) (chol : Matrix (Fin d) (Fin d) ℝ → Option (Matrix (Fin d) (Fin d) ℝ))
    (X : Matrix (Fin n) (Fin d) ℝ) (p : Params K d) : emLoop cfg chol X 0 p none = .ok (p, none, false) := rfl

end OpenML.GMM
