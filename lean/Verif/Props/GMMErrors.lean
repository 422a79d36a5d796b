import Verif.Props.GMM

/-!
# Errors and states of the Gaussian mixture model
-/

namespace OpenML.GMM

open Matrix Spec

theorem bind_not_throw {α β : Type} {r : Res α} {f : α → Res β} {e : Exn} (hr : r ≠ .throw e) (hf : ∀ a, f a ≠ .throw e) :
    (r >>= f) ≠ .throw e := by
  cases r with
  | ok a => simpa using hf a
  | throw e' => intro h; rw [Res.bind_throw] at h; exact hr (congrArg _ (Res.throw.inj h))
  | ub => simp
  | diverge => simp

theorem mapRes_not_throw {α β : Type} {f : α → Res β} {e : Exn} (hf : ∀ a, f a ≠ .throw e) (l : List α) :
    mapRes f l ≠ .throw e := by
  induction l with
  | nil => simp [mapRes]
  | cons a l ih => exact bind_not_throw (hf a) fun b => bind_not_throw ih fun bs => by simp

theorem readAt_not_throw {α : Type} (l : List α) (i : Nat) (e : Exn) : readAt l i ≠ .throw e := by
  unfold readAt; split <;> simp

variable {n K d : Nat}

theorem eStep_not_throw (cfg : Config) (X : Matrix (Fin n) (Fin d) ℝ) (e : Exn) (p : Params K d) : eStep cfg p X ≠ .throw e := by
  unfold eStep logProbResp weightedLogProb logProb
  refine bind_not_throw (bind_not_throw (bind_not_throw (bind_not_throw (mapRes_not_throw (fun k => ?_) _) fun ps => ?_) fun w => ?_)
    fun w => bind_not_throw ?_ fun l => ?_) fun r => ?_
  · unfold cholFor
    split_ifs
    · exact readAt_not_throw _ _ _
    · exact readAt_not_throw _ _ _
    · simp
  · split_ifs <;> simp
  · simp
  · rw [Analytic.logsumexp, if_pos rfl]
    refine mapRes_not_throw (fun l => bind_not_throw ?_ fun c => by simp) _
    cases l <;> simp [Analytic.maxLine]
  · simp
  · simp

end OpenML.GMM

namespace OpenML

open Matrix Spec GMM

variable {n K d : Nat}

/-- C90: fewer samples than components are rejected with `out_of_range`. -/
theorem C90_too_few (cfg : Config) (chol : Matrix (Fin d) (Fin d) ℝ → Option (Matrix (Fin d) (Fin d) ℝ)) (st : State K d)
    (X : Matrix (Fin n) (Fin d) ℝ) (draws : Nat → Matrix (Fin n) (Fin K) ℝ) :
    st.fit cfg chol X draws = .throw .outOfRange ↔ n < K := by
  constructor
  · intro h
    by_contra hn
    rw [State.fit, if_neg hn] at h
    have hchol : ∀ covs : List (Matrix (Fin d) (Fin d) ℝ), precisionCholesky chol covs ≠ .throw .outOfRange := by
      intro covs hc
      unfold precisionCholesky at hc
      cases hr : readAt covs 0 with
      | ok a =>
        rw [hr] at hc
        simp only [Res.bind_ok] at hc
        refine mapRes_not_throw (fun c => ?_) _ hc
        cases chol c <;> simp
      | throw e => exact readAt_not_throw _ _ _ hr
      | ub => rw [hr] at hc; simp at hc
      | diverge => rw [hr] at hc; simp at hc
    have hset : ∀ R : Matrix (Fin n) (Fin K) ℝ, setParams cfg chol X R ≠ .throw .outOfRange := by
      intro R hc
      unfold setParams at hc
      dsimp only at hc
      exact bind_not_throw (hchol _) (fun a => by simp) hc
    have hstep : ∀ p : Params K d, eStep cfg p X ≠ .throw .outOfRange := eStep_not_throw cfg X _
    have hem : ∀ rest (p : Params K d) lower, emLoop cfg chol X rest p lower ≠ .throw .outOfRange := by
      intro rest
      induction rest with
      | zero => intro p lower; simp [emLoop]
      | succ rest ih =>
        intro p lower
        rw [emLoop]
        refine bind_not_throw (hstep p) fun e => bind_not_throw (hset _) fun p' => ?_
        cases lower with
        | none => exact ih _ _
        | some prev => dsimp only; split_ifs <;> [simp; exact ih _ _]
    have hinit : ∀ rest i best max c, initLoop cfg chol X draws rest i best max c ≠ .throw .outOfRange := by
      intro rest
      induction rest with
      | zero => intro i best max c; simp [initLoop]
      | succ rest ih =>
        intro i best max c
        rw [initLoop]
        refine bind_not_throw ?_ fun p => bind_not_throw (hem _ _ _) fun r => ?_
        · rw [initParams]; split_ifs <;> [exact hset _; simp]
        · dsimp only
          split_ifs
          · exact ih (i + 1) _ _ _
          · exact ih (i + 1) _ _ _
    refine bind_not_throw (hinit _ _ _ _ _) (fun r => ?_) h
    split_ifs
    · cases r.1 with
      | none => simp
      | some p => exact bind_not_throw (hstep p) fun e => by simp
    · simp
  · intro h
    rw [State.fit, if_pos h]

/-- Beside C90: two samples are too few for three components. -/
example (chol : Matrix (Fin 1) (Fin 1) ℝ → Option (Matrix (Fin 1) (Fin 1) ℝ)) (draws : Nat → Matrix (Fin 2) (Fin 3) ℝ) :
    (State.new 3 1).fit ⟨100, 1, "random", "full", 1 / 1000, 1, 1⟩ chol !![0; 1] draws = .throw .outOfRange :=
  (C90_too_few _ _ _ _ _).mpr (by decide)

/-- C90: no iteration is compared with the one before if there is at most one, and no difference is below a tolerance that is not
positive: the call always throws `runtime_error`. So it does without initialisations. -/
theorem C90_never_converges (cfg : Config) (pooled : Bool)
    (hty : cfg.covarianceType = "full" ∧ pooled = false ∨ cfg.covarianceType = "tied" ∧ pooled = true ∧ K = 1)
    (hinit : cfg.initParams = "random") (hK : 0 < K) (hKn : K ≤ n) (heps : 0 < cfg.eps) (hreg : 0 < cfg.reg)
    (hnever : cfg.maxIter ≤ 1 ∨ cfg.tol ≤ 0 ∨ cfg.numInit = 0)
    (chol : Matrix (Fin d) (Fin d) ℝ → Option (Matrix (Fin d) (Fin d) ℝ)) (hchol : CholeskyRoutine chol)
    (st : State K d) (X : Matrix (Fin n) (Fin d) ℝ) (draws : Nat → Matrix (Fin n) (Fin K) ℝ)
    (hdraw : ∀ r i k, 0 ≤ draws r i k) (hsum : ∀ r i, 0 < ∑ k, draws r i k) :
    st.fit cfg chol X draws = .throw .runtimeError := by
  have hn : 0 < n := by omega
  rcases Nat.eq_zero_or_pos cfg.maxIter with h0 | h0
  · have hinit' : ∀ r, ∃ p, initParams cfg chol X (draws r) = .ok p := by
      intro r
      obtain ⟨p0, hp0, -⟩ := setParams_ok (pooled := pooled) hty hchol hK hn heps hreg X
        (Matrix.of (normalised (draws r))) (normalised_nonneg (hdraw r) (hsum r)) (normalised_sum (hsum r))
      exact ⟨p0, by rw [initParams, if_pos hinit]; exact hp0⟩
    have hloop : ∀ rest i best max, ∃ best' max', initLoop cfg chol X draws rest i best max false = .ok (best', max', false) := by
      intro rest
      induction rest with
      | zero => intro i best max; exact ⟨_, _, rfl⟩
      | succ rest ih =>
        intro i best max
        obtain ⟨p, hp⟩ := hinit' i
        rw [initLoop, hp]
        simp only [Res.bind_ok]
        rw [h0, emLoop_zero]
        simp only [Res.bind_ok, Bool.or_false]
        split_ifs
        · exact ih _ _ _
        · exact ih _ _ _
    obtain ⟨best, max, hl⟩ := hloop cfg.numInit 0 none none
    exact fit_throw (by omega) hl
  · obtain ⟨T, conv, hstop, hthrow, -⟩ := C61_fit cfg pooled hty hinit hK hKn heps hreg h0 chol hchol st X draws hdraw hsum
    refine hthrow fun r hr => ?_
    cases hc : conv r
    · rfl
    · exfalso
      obtain ⟨hT, -, hend⟩ := hstop r
      rw [hc, if_pos rfl] at hend
      rcases hnever with h | h | h
      · omega
      · exact absurd hend.2 (not_lt.mpr (h.trans (abs_nonneg _)))
      · omega

/-- Beside C90: two samples, two components, one iteration. -/
example (chol : Matrix (Fin 1) (Fin 1) ℝ → Option (Matrix (Fin 1) (Fin 1) ℝ)) (hchol : CholeskyRoutine chol) :
    (State.new 2 1).fit ⟨1, 5, "random", "full", 1 / 1000, 1, 1⟩ chol !![0; 1] (fun _ => !![1, 2; 3, 4]) = .throw .runtimeError :=
  C90_never_converges _ false (Or.inl ⟨rfl, rfl⟩) rfl (by decide) (by decide) one_pos one_pos (Or.inl le_rfl) chol hchol _ _ _
    (by intro r i k; fin_cases i <;> fin_cases k <;> norm_num) (by intro r i; fin_cases i <;> norm_num)

/-- C90: the type "tied" with more than one component always runs into the sum of matrices of different shapes. -/
theorem C90_tied (cfg : Config) (hty : cfg.covarianceType = "tied") (hinit : cfg.initParams = "random") (hK : 2 ≤ K) (hKn : K ≤ n)
    (heps : 0 < cfg.eps) (hreg : 0 < cfg.reg) (hiter : 0 < cfg.maxIter) (hnum : 0 < cfg.numInit)
    (chol : Matrix (Fin d) (Fin d) ℝ → Option (Matrix (Fin d) (Fin d) ℝ)) (hchol : CholeskyRoutine chol)
    (st : State K d) (X : Matrix (Fin n) (Fin d) ℝ) (draws : Nat → Matrix (Fin n) (Fin K) ℝ)
    (hdraw : ∀ r i k, 0 ≤ draws r i k) (hsum : ∀ r i, 0 < ∑ k, draws r i k) : st.fit cfg chol X draws = .ub := by
  have hne : cfg.covarianceType ≠ "full" := by rw [hty]; decide
  obtain ⟨p, hp, hlen, -, hall⟩ := C89_covariances cfg (Or.inr hty) (by omega) heps hreg chol hchol X
    (Matrix.of (normalised (draws 0))) (normalised_nonneg (hdraw 0) (hsum 0)) (normalised_sum (hsum 0))
  rw [if_neg hne] at hlen
  have hlen' : p.precisionsChol.length = 1 := by rw [← hall.length_eq, hlen]
  have he : eStep cfg p X = .ub := by
    unfold eStep logProbResp weightedLogProb logProb
    rw [Analytic.mapRes_eq_map _ (fun _ => p.precisionsChol.getD 0 0) _ (fun k hk => by
      rw [cholFor, if_pos hty, readAt_of_lt (by omega), getD_eq_getElem' (by omega)])]
    simp only [Res.bind_ok]
    rw [if_neg (by omega)]
    rfl
  obtain ⟨m, hm⟩ : ∃ m, cfg.numInit = m + 1 := ⟨cfg.numInit - 1, by omega⟩
  obtain ⟨t, ht⟩ : ∃ t, cfg.maxIter = t + 1 := ⟨cfg.maxIter - 1, by omega⟩
  have hp' : initParams cfg chol X (draws 0) = .ok p := by rw [initParams, if_pos hinit]; exact hp
  rw [State.fit, if_neg (by omega), hm, initLoop, hp']
  simp only [Res.bind_ok]
  rw [ht, emLoop, he]
  rfl

/-- Beside C90: two components with a common covariance. -/
example (chol : Matrix (Fin 1) (Fin 1) ℝ → Option (Matrix (Fin 1) (Fin 1) ℝ)) (hchol : CholeskyRoutine chol) :
    (State.new 2 1).fit ⟨100, 1, "random", "tied", 1 / 1000, 1, 1⟩ chol !![0; 1; 5] (fun _ => !![1, 2; 3, 4; 1, 1]) = .ub :=
  C90_tied _ rfl rfl (by decide) (by decide) one_pos one_pos (by decide) (by decide) chol hchol _ _ _
    (by intro r i k; fin_cases i <;> fin_cases k <;> norm_num) (by intro r i; fin_cases i <;> norm_num)

/-- C90: another name of the type of covariance reads the first entry of an empty vector, another name of the initialisation reads
uninitialised memory. -/
theorem C90_names (cfg : Config) (hname : cfg.covarianceType ≠ "full" ∧ cfg.covarianceType ≠ "tied" ∨ cfg.initParams ≠ "random")
    (hKn : K ≤ n) (hnum : 0 < cfg.numInit) (chol : Matrix (Fin d) (Fin d) ℝ → Option (Matrix (Fin d) (Fin d) ℝ))
    (st : State K d) (X : Matrix (Fin n) (Fin d) ℝ) (draws : Nat → Matrix (Fin n) (Fin K) ℝ) : st.fit cfg chol X draws = .ub := by
  obtain ⟨m, hm⟩ : ∃ m, cfg.numInit = m + 1 := ⟨cfg.numInit - 1, by omega⟩
  have hp : initParams cfg chol X (draws 0) = .ub := by
    rw [initParams]
    by_cases hi : cfg.initParams = "random"
    · obtain ⟨h1, h2⟩ := hname.resolve_right (not_not.mpr hi)
      rw [if_pos hi, setParams, show covariancesOf cfg X _ = [] by rw [covariancesOf, if_neg h1, if_neg h2]]
      rfl
    · rw [if_neg hi]
  rw [State.fit, if_neg (by omega), hm, initLoop, hp]
  rfl

/-- Beside C90: the type "diag" of other libraries. -/
example (chol : Matrix (Fin 1) (Fin 1) ℝ → Option (Matrix (Fin 1) (Fin 1) ℝ)) (draws : Nat → Matrix (Fin 3) (Fin 2) ℝ) :
    (State.new 2 1).fit ⟨100, 1, "random", "diag", 1 / 1000, 1, 1⟩ chol !![0; 1; 5] draws = .ub :=
  C90_names _ (Or.inl (by decide)) (by decide) (by decide) chol _ _ _

/-- C90: an object that was not fitted cannot predict. -/
theorem C90_unfitted (cfg : Config) (X : Matrix (Fin n) (Fin d) ℝ) :
    (State.new K d).predict cfg X = .ub ∧ (State.new K d).predictProb cfg X = .ub := ⟨rfl, rfl⟩

/-- C90: a second successful `fit` appends to the precisions: there are twice as many as components, and the first ones are the
inverses of the covariances of the first call, not of those the object holds now. -/
theorem C90_refit (cfg : Config) (pooled : Bool)
    (hty : cfg.covarianceType = "full" ∧ pooled = false ∨ cfg.covarianceType = "tied" ∧ pooled = true ∧ K = 1)
    (hinit : cfg.initParams = "random") (hK : 0 < K) (hKn : K ≤ n) (heps : 0 < cfg.eps) (hreg : 0 < cfg.reg) (hiter : 0 < cfg.maxIter)
    (chol : Matrix (Fin d) (Fin d) ℝ → Option (Matrix (Fin d) (Fin d) ℝ)) (hchol : CholeskyRoutine chol)
    (X Y : Matrix (Fin n) (Fin d) ℝ) (draws draws' : Nat → Matrix (Fin n) (Fin K) ℝ)
    (hdraw : ∀ r i k, 0 ≤ draws r i k) (hsum : ∀ r i, 0 < ∑ k, draws r i k)
    (hdraw' : ∀ r i k, 0 ≤ draws' r i k) (hsum' : ∀ r i, 0 < ∑ k, draws' r i k)
    (st st' : State K d) (h : (State.new K d).fit cfg chol X draws = .ok st) (h' : st.fit cfg chol Y draws' = .ok st') :
    ∃ p p', st.params = some p ∧ st'.params = some p' ∧ st.precisions = p.covariances.map (·⁻¹) ∧
      st'.precisions = p.covariances.map (·⁻¹) ++ p'.covariances.map (·⁻¹) ∧ st'.precisions.length = 2 * K := by
  have key : ∀ (st st' : State K d) (X : Matrix (Fin n) (Fin d) ℝ) (draws : Nat → Matrix (Fin n) (Fin K) ℝ)
      (_ : ∀ r i k, 0 ≤ draws r i k) (_ : ∀ r i, 0 < ∑ k, draws r i k), st.fit cfg chol X draws = .ok st' →
      ∃ p, st'.params = some p ∧ st'.precisions = st.precisions ++ p.covariances.map (·⁻¹) ∧ p.covariances.length = K := by
    intro st st' X draws hd hs hf
    obtain ⟨T, conv, -, hthrow, hok⟩ := C61_fit cfg pooled hty hinit hK hKn heps hreg hiter chol hchol st X draws hd hs
    by_cases hc : ∃ r < cfg.numInit, conv r = true
    · obtain ⟨b, p, -, hfit, hrep, -⟩ := hok hc
      rw [hf] at hfit
      obtain rfl := Res.ok.inj hfit
      refine ⟨p, rfl, ?_, by rw [hrep.covariances, List.length_ofFn]⟩
      dsimp only
      rw [hrep.covariances, List.map_ofFn]
      rfl
    · have := hthrow fun r hr => by
        cases h : conv r
        · rfl
        · exact absurd ⟨r, hr, h⟩ hc
      rw [hf] at this
      exact absurd this (by simp)
  obtain ⟨p, hp, hprec, hlen⟩ := key _ _ X draws hdraw hsum h
  obtain ⟨p', hp', hprec', hlen'⟩ := key _ _ Y draws' hdraw' hsum' h'
  have hnew : st.precisions = p.covariances.map (·⁻¹) := by rw [hprec]; rfl
  refine ⟨p, p', hp, hp', hnew, by rw [hprec', hnew], ?_⟩
  rw [hprec', hnew, List.length_append, List.length_map, List.length_map, hlen, hlen']
  omega

/-- C91: a mixture of one component is estimated in closed form: with at least two iterations and a positive tolerance the call
succeeds; the mean is the sum of the samples and the covariance their scatter around this mean, both over the number of samples plus ten
machine epsilons. -/
theorem C91_one_component (cfg : Config) (hty : cfg.covarianceType = "full") (hinit : cfg.initParams = "random") (hn : 0 < n)
    (heps : 0 < cfg.eps) (hreg : 0 < cfg.reg) (hiter : 2 ≤ cfg.maxIter) (htol : 0 < cfg.tol) (hnum : 0 < cfg.numInit)
    (chol : Matrix (Fin d) (Fin d) ℝ → Option (Matrix (Fin d) (Fin d) ℝ)) (hchol : CholeskyRoutine chol)
    (st0 : State 1 d) (X : Matrix (Fin n) (Fin d) ℝ) (draws : Nat → Matrix (Fin n) (Fin 1) ℝ) (hdraw : ∀ r i k, 0 < draws r i k) :
    ∃ st p, st0.fit cfg chol X draws = .ok st ∧ st.params = some p ∧ p.weights 0 = 1 + 10 * cfg.eps / n ∧
      p.means 0 = ((n : ℝ) + 10 * cfg.eps)⁻¹ • ∑ i, X i ∧
      p.covariances = [((n : ℝ) + 10 * cfg.eps)⁻¹ • ∑ i, vecMulVec (X i - p.means 0) (X i - p.means 0) + cfg.reg • 1] ∧
      st.precisions = st0.precisions ++ p.covariances.map (·⁻¹) := by
  have hsum : ∀ r i, 0 < ∑ k, draws r i k := fun r i => by
    rw [Fin.sum_univ_one]
    exact hdraw r i 0
  obtain ⟨T, conv, hstop, -, hok⟩ := C61_fit (K := 1) cfg false (Or.inl ⟨hty, rfl⟩) hinit one_pos hn heps hreg (by omega) chol hchol
    st0 X draws (fun r i k => (hdraw r i k).le) hsum
  have hR : ∀ r, (fun i k => draws r i k / ∑ l, draws r i l) = fun (_ : Fin n) (_ : Fin 1) => (1 : ℝ) := by
    intro r
    funext i k
    rw [Fin.sum_univ_one, Subsingleton.elim k 0]
    exact div_self (hdraw r i 0).ne'
  simp only [hR] at hstop hok
  set θ := emSeq false cfg.eps cfg.reg X fun (_ : Fin n) (_ : Fin 1) => (1 : ℝ) with hθ
  have hproper : ∀ t, Proper (θ t) := proper_emSeq heps hreg hn one_pos X _ (fun _ _ => zero_le_one) (fun _ => by simp)
  have hconst : ∀ t, θ t = emUpdate false cfg.eps cfg.reg X fun (_ : Fin n) (_ : Fin 1) => (1 : ℝ) := by
    intro t
    cases t with
    | zero => rfl
    | succ t =>
      have : (fun i => (θ t).posterior (X i)) = fun (_ : Fin n) (_ : Fin 1) => (1 : ℝ) := by
        funext i k
        have := posterior_sum one_pos (hproper t).weight (X i)
        rw [Fin.sum_univ_one] at this
        rw [Subsingleton.elim k 0, this]
      rw [hθ, emSeq, ← hθ, this]
  have hconv : conv 0 = true := by
    obtain ⟨hT, -, hend⟩ := hstop 0
    cases hc : conv 0
    · rw [hc, if_neg (by decide)] at hend
      have := hend.2 (by omega)
      simp only [hconst, sub_self, abs_zero] at this
      linarith
    · rfl
  obtain ⟨b, p, -, hfit, hrep, -⟩ := hok ⟨0, hnum, hconv⟩
  rw [hconst] at hrep hfit
  have hn' : (n : ℝ) ≠ 0 := by exact_mod_cast hn.ne'
  refine ⟨_, p, hfit, rfl, ?_, ?_, ?_, ?_⟩
  · rw [hrep.weights]
    simp only [emUpdate, Finset.sum_const, Finset.card_univ, Fintype.card_fin, nsmul_eq_mul, mul_one]
    rw [add_div, div_self hn']
  · rw [hrep.means]
    simp only [emUpdate, Finset.sum_const, Finset.card_univ, Fintype.card_fin, nsmul_eq_mul, mul_one, one_smul]
    rfl
  · rw [hrep.covariances, hrep.means, List.ofFn_succ, List.ofFn_zero]
    simp only [emUpdate, Finset.sum_const, Finset.card_univ, Fintype.card_fin, nsmul_eq_mul, mul_one, one_smul, Bool.false_eq_true,
      if_false]
    rfl
  · dsimp only
    rw [hrep.covariances, List.map_ofFn]
    rfl

/-- Beside C90 and C91: three samples and a routine for the decomposition; both calls of `fit` succeed. -/
example : ∃ (chol : Matrix (Fin 1) (Fin 1) ℝ → Option (Matrix (Fin 1) (Fin 1) ℝ)) (st st' : State 1 1), CholeskyRoutine chol ∧
    (State.new 1 1).fit ⟨2, 1, "random", "full", 1, 1, 1⟩ chol !![0; 1; 5] (fun _ _ _ => 1) = .ok st ∧
    st.fit ⟨2, 1, "random", "full", 1, 1, 1⟩ chol !![3; 3; 4] (fun _ _ _ => 1) = .ok st' := by
  obtain ⟨chol, hchol⟩ := exists_choleskyRoutine 1
  obtain ⟨st, -, h, -⟩ := C91_one_component ⟨2, 1, "random", "full", 1, 1, 1⟩ rfl rfl (by decide) one_pos one_pos le_rfl one_pos one_pos
    chol hchol (State.new 1 1) (!![0; 1; 5] : Matrix (Fin 3) (Fin 1) ℝ) (fun _ _ _ => 1) (fun _ _ _ => one_pos)
  obtain ⟨st', -, h', -⟩ := C91_one_component ⟨2, 1, "random", "full", 1, 1, 1⟩ rfl rfl (by decide) one_pos one_pos le_rfl one_pos one_pos
    chol hchol st (!![3; 3; 4] : Matrix (Fin 3) (Fin 1) ℝ) (fun _ _ _ => 1) (fun _ _ _ => one_pos)
  exact ⟨chol, st, st', hchol, h, h'⟩

end OpenML
