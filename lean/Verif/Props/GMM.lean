import Verif.Lemmas.GMMFit
import Verif.Lemmas.Cholesky
import Mathlib.Data.Real.StarOrdered

/-!
# Properties of the Gaussian mixture model
-/

namespace OpenML.GMM

open Matrix Spec

variable {n K d : Nat}

/-- Random numbers `draw` divided by the sum of their row. -/
noncomputable def normalised (draw : Matrix (Fin n) (Fin K) ℝ) (i : Fin n) (k : Fin K) : ℝ := draw i k / ∑ l, draw i l

theorem normalised_nonneg {draw : Matrix (Fin n) (Fin K) ℝ} (h : ∀ i k, 0 ≤ draw i k) (hs : ∀ i, 0 < ∑ k, draw i k) (i : Fin n)
    (k : Fin K) : 0 ≤ normalised draw i k := div_nonneg (h i k) (hs i).le

theorem normalised_sum {draw : Matrix (Fin n) (Fin K) ℝ} (hs : ∀ i, 0 < ∑ k, draw i k) (i : Fin n) :
    ∑ k, normalised draw i k = 1 := by
  simp only [normalised, ← Finset.sum_div]
  exact div_self (hs i).ne'

/-- The outer loop, when the inner loops are known. -/
theorem initLoop_abs {cfg : Config} {chol : Matrix (Fin d) (Fin d) ℝ → Option (Matrix (Fin d) (Fin d) ℝ)}
    {X : Matrix (Fin n) (Fin d) ℝ} {draws : Nat → Matrix (Fin n) (Fin K) ℝ} {p0 pf : Nat → Params K d} {val : Nat → ℝ}
    {conv : Nat → Bool} (h0 : ∀ i, initParams cfg chol X (draws i) = .ok (p0 i))
    (h1 : ∀ i, emLoop cfg chol X cfg.maxIter (p0 i) none = .ok (pf i, some (val i), conv i)) :
    ∀ (rest i : Nat) (best : Option (Params K d)) (max : Option ℝ) (c : Bool),
      (i = 0 ∧ best = none ∧ max = none ∨ ∃ b, IsFirstArgmax val i b ∧ best = some (pf b) ∧ max = some (val b)) →
      (c = true ↔ ∃ j < i, conv j = true) →
      ∃ best' max' c', initLoop cfg chol X draws rest i best max c = .ok (best', max', c') ∧
        (i + rest = 0 ∧ best' = none ∧ max' = none ∨
          ∃ b, IsFirstArgmax val (i + rest) b ∧ best' = some (pf b) ∧ max' = some (val b)) ∧
        (c' = true ↔ ∃ j < i + rest, conv j = true) := by
  intro rest
  induction rest with
  | zero => intro i best max c hb hc; exact ⟨best, max, c, rfl, hb, hc⟩
  | succ rest ih =>
    intro i best max c hb hc
    have hc' : (c || conv i) = true ↔ ∃ j < i + 1, conv j = true := by
      rw [Bool.or_eq_true, hc]
      constructor
      · rintro (⟨j, hj, h⟩ | h)
        · exact ⟨j, by omega, h⟩
        · exact ⟨i, by omega, h⟩
      · rintro ⟨j, hj, h⟩
        rcases Nat.lt_or_ge j i with hji | hji
        · exact Or.inl ⟨j, hji, h⟩
        · obtain rfl : j = i := by omega
          exact Or.inr h
    rw [initLoop, h0]
    simp only [Res.bind_ok]
    rw [h1]
    simp only [Res.bind_ok]
    rw [show i + (rest + 1) = i + 1 + rest by omega]
    rcases hb with ⟨hi, rfl, rfl⟩ | ⟨b, ⟨hbi, hmax, hfirst⟩, rfl, rfl⟩
    · rw [if_pos (by rfl)]
      refine ih (i + 1) _ _ _ (Or.inr ⟨i, ⟨by omega, fun j hj => ?_, fun j hj => ?_⟩, rfl, rfl⟩) hc'
      · obtain rfl : j = i := by omega
        exact le_refl _
      · omega
    · by_cases hlt : val b < val i
      · rw [if_pos (by simpa [better] using hlt)]
        refine ih (i + 1) _ _ _ (Or.inr ⟨i, ⟨by omega, fun j hj => ?_, fun j hj => ?_⟩, rfl, rfl⟩) hc'
        · rcases Nat.lt_or_ge j i with hji | hji
          · exact (hmax j hji).trans hlt.le
          · obtain rfl : j = i := by omega
            exact le_refl _
        · exact lt_of_le_of_lt (hmax j hj) hlt
      · rw [if_neg (by simpa [better] using hlt)]
        refine ih (i + 1) _ _ _ (Or.inr ⟨b, ⟨by omega, fun j hj => ?_, hfirst⟩, rfl, rfl⟩) hc'
        rcases Nat.lt_or_ge j i with hji | hji
        · exact hmax j hji
        · obtain rfl : j = i := by omega
          exact not_lt.mp hlt

theorem fit_throw {cfg : Config} {chol : Matrix (Fin d) (Fin d) ℝ → Option (Matrix (Fin d) (Fin d) ℝ)} {st : State K d}
    {X : Matrix (Fin n) (Fin d) ℝ} {draws : Nat → Matrix (Fin n) (Fin K) ℝ} (hKn : ¬ n < K) {best : Option (Params K d)}
    {max : Option ℝ} (hl : initLoop cfg chol X draws cfg.numInit 0 none none false = .ok (best, max, false)) :
    st.fit cfg chol X draws = .throw .runtimeError := by
  rw [State.fit, if_neg hKn, hl]
  rfl

theorem fit_done {cfg : Config} {chol : Matrix (Fin d) (Fin d) ℝ → Option (Matrix (Fin d) (Fin d) ℝ)} {st : State K d}
    {X : Matrix (Fin n) (Fin d) ℝ} {draws : Nat → Matrix (Fin n) (Fin K) ℝ} (hKn : ¬ n < K) {p : Params K d}
    {max : Option ℝ} (hl : initLoop cfg chol X draws cfg.numInit 0 none none false = .ok (some p, max, true))
    {e : ℝ × Matrix (Fin n) (Fin K) ℝ} (he : eStep cfg p X = .ok e) :
    st.fit cfg chol X draws = .ok ⟨some p, st.precisions ++ p.precisionsChol.map fun P => P * Pᵀ, max⟩ := by
  rw [State.fit, if_neg hKn, hl]
  simp only [Res.bind_ok]
  rw [if_pos trivial, he]
  rfl

theorem precisions_eq {p : Params K d} {θ : Mixture K d} (h : Represents p θ) :
    (p.precisionsChol.map fun P => P * Pᵀ) = List.ofFn fun k => (θ.cov k)⁻¹ := by
  obtain ⟨P, hP, hPC⟩ := h.chols
  rw [hP, List.map_ofFn]
  congr 1
  funext k
  exact (hPC k).product

end OpenML.GMM

namespace OpenML

open Matrix Spec GMM

variable {n K d : Nat}

/-- C61: where the EM iteration stops is determined by the values. -/
theorem C61_stops_unique (v : Nat → ℝ) {maxIter : Nat} (h : 0 < maxIter) (tol : ℝ) :
    ∃ T conv, EMStopsAt v maxIter tol T conv ∧ ∀ T' conv', EMStopsAt v maxIter tol T' conv' → T' = T ∧ conv' = conv := by
  have huniq : ∀ T conv T' conv', EMStopsAt v maxIter tol T conv → EMStopsAt v maxIter tol T' conv' → T' = T ∧ conv' = conv := by
    have hlt : ∀ T conv T' conv', EMStopsAt v maxIter tol T conv → EMStopsAt v maxIter tol T' conv' → ¬ T < T' := by
      rintro T conv T' conv' ⟨-, -, hend⟩ ⟨hT', hbefore', -⟩ hlt
      cases conv
      · simp only [Bool.false_eq_true, if_false] at hend
        omega
      · simp only [if_true] at hend
        have := hbefore' T hend.1 hlt
        linarith [hend.2]
    intro T conv T' conv' h1 h2
    have hT : T' = T := by
      have := hlt _ _ _ _ h1 h2
      have := hlt _ _ _ _ h2 h1
      omega
    subst hT
    refine ⟨rfl, ?_⟩
    obtain ⟨-, -, e1⟩ := h1
    obtain ⟨-, -, e2⟩ := h2
    cases conv <;> cases conv' <;> simp only [Bool.false_eq_true, if_false, if_true] at e1 e2 <;> try rfl
    · have := e1.2 e2.1
      linarith [e2.2]
    · have := e2.2 e1.1
      linarith [e1.2]
  have hex : ∃ T conv, EMStopsAt v maxIter tol T conv := by
    classical
    by_cases hc : ∃ T, T < maxIter ∧ 1 ≤ T ∧ |v T - v (T - 1)| < tol
    · refine ⟨Nat.find hc, true, (Nat.find_spec hc).1, fun s hs hst => ?_, by simpa using (Nat.find_spec hc).2⟩
      have := Nat.find_min hc hst
      by_contra hcon
      exact this ⟨by have := (Nat.find_spec hc).1; omega, hs, not_le.mp hcon⟩
    · refine ⟨maxIter - 1, false, by omega, fun s hs hst => ?_, ?_⟩
      · by_contra hcon
        exact hc ⟨s, by omega, hs, not_le.mp hcon⟩
      · simp only [Bool.false_eq_true, if_false]
        refine ⟨by omega, fun h1 => ?_⟩
        by_contra hcon
        exact hc ⟨_, by omega, h1, not_le.mp hcon⟩
  obtain ⟨T, conv, hs⟩ := hex
  exact ⟨T, conv, hs, fun T' conv' h' => huniq _ _ _ _ hs h'⟩

/-- Beside C61: the values 0, 2, 3, 3 with tolerance 1 stop at index 3 of at most ten. -/
example : EMStopsAt (fun t => if t = 0 then 0 else if t = 1 then 2 else 3) 10 1 3 true := by
  refine ⟨by decide, fun s hs hst => ?_, by simp⟩
  obtain rfl | rfl : s = 1 ∨ s = 2 := by omega
  · norm_num
  · norm_num

/-- C61: `fit` with the type "full" (or "tied" and one component) follows the EM iteration for every initialisation, each from its own
random responsibilities. If none of them gets below the tolerance, the call throws. Otherwise the object holds the mixture of the first
initialisation with the largest final mean log likelihood, after one more estimate than the published bound belongs to. -/
theorem C61_fit (cfg : Config) (pooled : Bool)
    (hty : cfg.covarianceType = "full" ∧ pooled = false ∨ cfg.covarianceType = "tied" ∧ pooled = true ∧ K = 1)
    (hinit : cfg.initParams = "random") (hK : 0 < K) (hKn : K ≤ n) (heps : 0 < cfg.eps) (hreg : 0 < cfg.reg) (hiter : 0 < cfg.maxIter)
    (chol : Matrix (Fin d) (Fin d) ℝ → Option (Matrix (Fin d) (Fin d) ℝ)) (hchol : CholeskyRoutine chol)
    (st : State K d) (X : Matrix (Fin n) (Fin d) ℝ) (draws : Nat → Matrix (Fin n) (Fin K) ℝ)
    (hdraw : ∀ r i k, 0 ≤ draws r i k) (hsum : ∀ r i, 0 < ∑ k, draws r i k) :
    let θ := fun r => emSeq pooled cfg.eps cfg.reg X fun i k => draws r i k / ∑ l, draws r i l
    ∃ (T : Nat → Nat) (conv : Nat → Bool), (∀ r, EMStopsAt (fun t => (θ r t).meanLogLik X) cfg.maxIter cfg.tol (T r) (conv r)) ∧
      ((∀ r < cfg.numInit, conv r = false) → st.fit cfg chol X draws = .throw .runtimeError) ∧
      ((∃ r < cfg.numInit, conv r = true) → ∃ b p, IsFirstArgmax (fun r => (θ r (T r)).meanLogLik X) cfg.numInit b ∧
        st.fit cfg chol X draws = .ok
          { params := some p
            precisions := st.precisions ++ List.ofFn fun k => ((θ b (T b + 1)).cov k)⁻¹
            lowerBound := some ((θ b (T b)).meanLogLik X) } ∧
        Represents p (θ b (T b + 1)) ∧ ∀ k, 0 < (θ b (T b + 1)).weight k ∧ ((θ b (T b + 1)).cov k).PosDef) := by
  intro θ
  have hn : 0 < n := by omega
  have hRn : ∀ r i k, 0 ≤ normalised (draws r) i k := fun r => normalised_nonneg (hdraw r) (hsum r)
  have hRs : ∀ r i, ∑ k, normalised (draws r) i k = 1 := fun r => normalised_sum (hsum r)
  have hall : ∀ r, ∃ p0 pf T conv, initParams cfg chol X (draws r) = .ok p0 ∧
      emLoop cfg chol X cfg.maxIter p0 none = .ok (pf, some ((θ r T).meanLogLik X), conv) ∧ Represents pf (θ r (T + 1)) ∧
      EMStopsAt (fun t => (θ r t).meanLogLik X) cfg.maxIter cfg.tol T conv := by
    intro r
    obtain ⟨p0, hp0, hrep0⟩ := setParams_ok (pooled := pooled) hty hchol hK hn heps hreg X
      (Matrix.of (normalised (draws r))) (hRn r) (hRs r)
    obtain ⟨pf, T, conv, hloop, hrep, hstop⟩ := emLoop_spec (pooled := pooled) hty hchol hK hn heps hreg X (normalised (draws r))
      (hRn r) (hRs r) cfg.maxIter cfg.maxIter 0 p0 none hiter (by omega) hrep0 rfl (by omega)
    refine ⟨p0, pf, T, conv, ?_, hloop, hrep, hstop⟩
    rw [initParams, if_pos hinit]
    exact hp0
  choose p0 pf T conv h0 h1 hrep hstop using hall
  refine ⟨T, conv, hstop, ?_⟩
  obtain ⟨best, max, c, hl, hb, hc⟩ := initLoop_abs h0 h1 cfg.numInit 0 none none false (Or.inl ⟨rfl, rfl, rfl⟩) (by simp)
  rw [Nat.zero_add] at hb hc
  constructor
  · intro hnone
    have : c = false := by
      cases hcc : c
      · rfl
      · obtain ⟨j, hj, hj'⟩ := hc.mp hcc
        rw [hnone j hj] at hj'
        exact absurd hj' (by decide)
    subst this
    exact fit_throw (by omega) hl
  · intro hsome
    have hct : c = true := hc.mpr hsome
    obtain ⟨r, hr, -⟩ := hsome
    rcases hb with ⟨h, -, -⟩ | ⟨b, hbest, rfl, rfl⟩
    · omega
    · have hprop : ∀ t, Proper (θ b t) := proper_emSeq heps hreg hn hK X _ (hRn b) (hRs b)
      refine ⟨b, pf b, hbest, ?_, hrep b, fun k => ⟨(hprop _).weight k, (hprop _).cov k⟩⟩
      subst hct
      rw [fit_done (by omega) hl (eStep_eq hty (hrep b) (hprop _).weight hK hn X), precisions_eq (hrep b)]

/-- Data of the examples: three samples with one feature. -/
def GMM.exampleData : Matrix (Fin 3) (Fin 1) ℝ := !![0; 1; 5]

/-- Responsibilities of the examples: two components. -/
noncomputable def GMM.exampleResp : Matrix (Fin 3) (Fin 2) ℝ := !![1, 0; 1 / 2, 1 / 2; 0, 1]

theorem GMM.exampleResp_nonneg (i : Fin 3) (k : Fin 2) : 0 ≤ exampleResp i k := by
  fin_cases i <;> fin_cases k <;> norm_num [exampleResp]

theorem GMM.exampleResp_sum (i : Fin 3) : ∑ k, exampleResp i k = 1 := by
  rw [Fin.sum_univ_two]
  fin_cases i <;> norm_num [exampleResp]

/-- Beside C61: with two components, two iterations and a large enough tolerance, `fit` succeeds. -/
theorem GMM.fit_example : ∃ (chol : Matrix (Fin 1) (Fin 1) ℝ → Option (Matrix (Fin 1) (Fin 1) ℝ)) (tol : ℝ) (st : State 2 1), CholeskyRoutine chol ∧
    (State.new 2 1).fit ⟨2, 1, "random", "full", tol, 1, 1⟩ chol exampleData (fun _ => exampleResp) = .ok st := by
  obtain ⟨chol, hchol⟩ := exists_choleskyRoutine 1
  let v := fun t => (emSeq false 1 1 exampleData (fun i k => exampleResp i k / ∑ l, exampleResp i l) t).meanLogLik exampleData
  obtain ⟨T, conv, hstop, -, hok⟩ := C61_fit ⟨2, 1, "random", "full", |v 1 - v 0| + 1, 1, 1⟩ false (Or.inl ⟨rfl, rfl⟩) rfl (by decide)
    (by decide) one_pos one_pos (by decide) chol hchol (State.new 2 1) exampleData (fun _ => exampleResp)
    (fun _ => exampleResp_nonneg) (fun _ i => by rw [exampleResp_sum]; exact one_pos)
  have hc : conv 0 = true := by
    obtain ⟨hT, -, hend⟩ := hstop 0
    cases h : conv 0
    · rw [h, if_neg (by decide)] at hend
      dsimp only at hend
      have hT1 : T 0 = 1 := by omega
      have := hend.2 (by omega)
      rw [hT1] at this
      have h2 : |v 1 - v 0| + 1 ≤ |v 1 - v 0| := this
      linarith
    · rfl
  obtain ⟨b, p, -, hfit, -⟩ := hok ⟨0, one_pos, hc⟩
  exact ⟨chol, _, _, hchol, hfit⟩

/-- C61: probabilities and labels of an object that holds a mixture with positive weights: the probabilities are the posterior
probabilities, they are positive and sum to one, and each label is the first most probable component. -/
theorem C61_predict (cfg : Config) (pooled : Bool)
    (hty : cfg.covarianceType = "full" ∧ pooled = false ∨ cfg.covarianceType = "tied" ∧ pooled = true ∧ K = 1) (hK : 0 < K) (hn : 0 < n)
    (st : State K d) (p : Params K d) (hp : st.params = some p) (θ : Mixture K d) (hrep : Represents p θ) (hw : ∀ k, 0 < θ.weight k)
    (X : Matrix (Fin n) (Fin d) ℝ) :
    (∃ Q, st.predictProb cfg X = .ok Q ∧ (∀ i k, Q i k = θ.posterior (X i) k ∧ 0 < Q i k) ∧ ∀ i, ∑ k, Q i k = 1) ∧
    ∃ ps, st.predict cfg X = .ok ps ∧ ps.length = n ∧ ∀ (i : Fin n) (c : Nat), ps[i.val]? = some c → ∃ k : Fin K, k.val = c ∧
      ∀ l, θ.posterior (X i) l ≤ θ.posterior (X i) k ∧ (θ.posterior (X i) l = θ.posterior (X i) k → k ≤ l) := by
  constructor
  · refine ⟨Matrix.of fun i k => θ.posterior (X i) k, ?_, fun i k => ⟨rfl, posterior_pos hK hw _ k⟩, fun i =>
      posterior_sum hK hw _⟩
    unfold State.predictProb
    rw [hp]
    dsimp only
    rw [logProbResp_eq hty hrep hw hK hn X]
    simp only [Res.bind_ok, of_apply]
    congr 1
    ext i k
    exact Real.exp_log (posterior_pos hK hw _ k)
  · set w : Matrix (Fin n) (Fin K) ℝ := Matrix.of fun i k => logNormal (θ.mean k) (θ.cov k) (X i) + Real.log (θ.weight k) with hwdef
    have hpost : ∀ i k, θ.posterior (X i) k = Real.exp (w i k) / θ.density (X i) := by
      intro i k
      rw [hwdef, of_apply, Real.exp_add, Real.exp_log (hw k), Mixture.posterior, mul_comm]
    have hmono : ∀ i k l, w i k ≤ w i l ↔ θ.posterior (X i) k ≤ θ.posterior (X i) l := by
      intro i k l
      rw [hpost, hpost, div_le_div_iff_of_pos_right (density_pos hK hw _), Real.exp_le_exp]
    obtain ⟨⟨ps, hps, hall⟩, -⟩ := C11_arg_rows (PCA.toDMat w) (PCA.toDMat_wf w) hK
    have hlen : ps.length = n := by
      rw [← hall.length_eq]
      simp [PCA.toDMat]
    refine ⟨ps, ?_, hlen, fun i c hc => ?_⟩
    · unfold State.predict
      rw [hp]
      dsimp only
      rw [(weightedLogProb_eq hty hrep X).2]
      exact hps
    · have hi : i.val < (PCA.toDMat w).rows.length := by simp [PCA.toDMat]
      have hi' : i.val < ps.length := by rw [hlen]; exact i.2
      have := (List.forall₂_iff_get.mp hall).2 i.val hi hi'
      have hc' : ps[i.val] = c := by
        rw [List.getElem?_eq_getElem hi'] at hc
        exact Option.some.inj hc
      have hrow : (PCA.toDMat w).rows[i.val] = List.ofFn fun k => w i k := by simp [PCA.toDMat]
      simp only [List.get_eq_getElem, hc', hrow] at this
      obtain ⟨v, hv, hmax⟩ := this
      have hcK : c < K := by
        have := (List.getElem?_eq_some_iff.mp hv).1
        simpa using this
      refine ⟨⟨c, hcK⟩, rfl, fun l => ?_⟩
      have hv' : v = w i ⟨c, hcK⟩ := by
        rw [List.getElem?_ofFn, dif_pos hcK] at hv
        exact (Option.some.inj hv).symm
      have hl := hmax l.val (w i l) (by rw [List.getElem?_ofFn, dif_pos l.2])
      rw [hv'] at hl
      refine ⟨(hmono i l _).mp hl.1, fun heq => ?_⟩
      exact hl.2 (le_antisymm ((hmono i _ _).mpr heq.le) ((hmono i _ _).mpr heq.ge))

/-- C61: estimated weights are positive and sum to one plus ten machine epsilons per component and sample. -/
theorem C61_weights (cfg : Config) (chol : Matrix (Fin d) (Fin d) ℝ → Option (Matrix (Fin d) (Fin d) ℝ)) (hn : 0 < n)
    (heps : 0 < cfg.eps) (X : Matrix (Fin n) (Fin d) ℝ) (R : Matrix (Fin n) (Fin K) ℝ) (hR : ∀ i k, 0 ≤ R i k)
    (hrow : ∀ i, ∑ k, R i k = 1) (p : Params K d) (hp : setParams cfg chol X R = .ok p) :
    (∀ k, 0 < p.weights k) ∧ ∑ k, p.weights k = 1 + 10 * cfg.eps * K / n := by
  unfold setParams at hp
  dsimp only at hp
  rw [Res.bind_eq_ok] at hp
  obtain ⟨chols, -, hp⟩ := hp
  obtain rfl := Res.ok.inj hp
  have hn' : (0 : ℝ) < n := by exact_mod_cast hn
  refine ⟨fun k => div_pos (nk_pos heps hR k) hn', ?_⟩
  simp only [← Finset.sum_div, nk, Finset.sum_add_distrib, Finset.sum_const, Finset.card_univ, Fintype.card_fin, nsmul_eq_mul]
  rw [Finset.sum_comm]
  simp only [hrow, Finset.sum_const, Finset.card_univ, Fintype.card_fin, nsmul_eq_mul, mul_one]
  rw [add_div, div_self hn'.ne']
  ring

/-- Beside C61 and C89: members of an object with two components that hold a mixture with positive weights. -/
example : ∃ (chol : Matrix (Fin 1) (Fin 1) ℝ → Option (Matrix (Fin 1) (Fin 1) ℝ)) (p : Params 2 1) (θ : Mixture 2 1),
    setParams ⟨2, 1, "random", "full", 1, 1, 1⟩ chol exampleData exampleResp = .ok p ∧ Represents p θ ∧ ∀ k, 0 < θ.weight k := by
  obtain ⟨chol, hchol⟩ := exists_choleskyRoutine 1
  obtain ⟨p, hp, hrep⟩ := setParams_ok (pooled := false) (cfg := ⟨2, 1, "random", "full", 1, 1, 1⟩) (Or.inl ⟨rfl, rfl⟩) hchol
    (by decide) (by decide) one_pos one_pos exampleData exampleResp exampleResp_nonneg exampleResp_sum
  exact ⟨chol, p, _, hp, hrep, (proper_emUpdate one_pos one_pos (by decide) _ _ exampleResp_nonneg exampleResp_sum).weight⟩

/-- C62: with the factors computed from the covariances, the log probability of a sample under a component is the logarithm of the
density of the normal distribution with that mean and covariance. -/
theorem C62_log_density (cfg : Config) (hty : cfg.covarianceType = "full") (C : Fin K → Matrix (Fin d) (Fin d) ℝ)
    (hC : ∀ k, (C k).PosDef) (hK : 0 < K) (chol : Matrix (Fin d) (Fin d) ℝ → Option (Matrix (Fin d) (Fin d) ℝ))
    (hchol : CholeskyRoutine chol) (μ : Matrix (Fin K) (Fin d) ℝ) (w : Fin K → ℝ) (X : Matrix (Fin n) (Fin d) ℝ) :
    ∃ P, precisionCholesky chol (List.ofFn C) = .ok P ∧
      logProb cfg ⟨List.ofFn C, P, μ, w⟩ X = .ok (Matrix.of fun i k => logNormal (μ k) (C k) (X i)) := by
  obtain ⟨f, hf, hP⟩ := precisionCholesky_ok hchol (covs := List.ofFn C) (by
    intro h
    have := congrArg List.length h
    simp at this
    omega) (fun c hc => by
      rw [List.mem_ofFn] at hc
      obtain ⟨k, rfl⟩ := hc
      exact hC k)
  refine ⟨_, hf, ?_⟩
  have hrep : Represents ⟨List.ofFn C, (List.ofFn C).map f, μ, w⟩ (⟨w, μ, C⟩ : Mixture K d) :=
    ⟨rfl, rfl, rfl, fun k => f (C k), by rw [List.map_ofFn]; rfl, fun k => hP _ (List.mem_ofFn.mpr ⟨k, rfl⟩)⟩
  exact (weightedLogProb_eq (pooled := false) (Or.inl ⟨hty, rfl⟩) hrep X).1

/-- Beside C62: the identity and a diagonal matrix are positive definite covariances of two components, and there is a routine. -/
example : (∀ k, ((![1, diagonal ![2, 3]] : Fin 2 → Matrix (Fin 2) (Fin 2) ℝ) k).PosDef) ∧
    ∃ chol : Matrix (Fin 2) (Fin 2) ℝ → Option (Matrix (Fin 2) (Fin 2) ℝ), CholeskyRoutine chol := by
  refine ⟨fun k => ?_, exists_choleskyRoutine 2⟩
  fin_cases k
  · exact Matrix.PosDef.one
  · refine Matrix.PosDef.diagonal fun i => ?_
    fin_cases i <;> norm_num

/-- C89: with a positive regularisation the estimated covariances are symmetric and positive definite for any responsibilities, so the
Cholesky decompositions succeed; each factor is upper triangular with positive diagonal and times its transpose gives the inverse of the
covariance. -/
theorem C89_covariances (cfg : Config) (hty : cfg.covarianceType = "full" ∨ cfg.covarianceType = "tied") (hK : 0 < K)
    (heps : 0 < cfg.eps) (hreg : 0 < cfg.reg) (chol : Matrix (Fin d) (Fin d) ℝ → Option (Matrix (Fin d) (Fin d) ℝ))
    (hchol : CholeskyRoutine chol) (X : Matrix (Fin n) (Fin d) ℝ) (R : Matrix (Fin n) (Fin K) ℝ) (hR : ∀ i k, 0 ≤ R i k)
    (hrow : ∀ i, ∑ k, R i k = 1) :
    ∃ p, setParams cfg chol X R = .ok p ∧ p.covariances.length = (if cfg.covarianceType = "full" then K else 1) ∧
      (∀ C ∈ p.covariances, C.PosDef ∧ C.IsSymm ∧ ∀ i, cfg.reg ≤ C i i) ∧
      List.Forall₂ IsPrecisionChol p.covariances p.precisionsChol := by
  have hcov : ∃ pooled, (∀ C ∈ covariancesOf cfg X R, ∃ k, C = (emUpdate pooled cfg.eps cfg.reg X R).cov k) ∧
      (covariancesOf cfg X R).length = if cfg.covarianceType = "full" then K else 1 := by
    by_cases hf : cfg.covarianceType = "full"
    · refine ⟨false, fun C hC => ?_, ?_⟩
      · rw [covariancesOf, if_pos hf, List.mem_ofFn] at hC
        obtain ⟨k, rfl⟩ := hC
        exact ⟨k, covFull_eq _ _ _ _ _⟩
      · rw [covariancesOf, if_pos hf, if_pos hf, List.length_ofFn]
    · have ht := hty.resolve_left hf
      refine ⟨true, fun C hC => ?_, ?_⟩
      · rw [covariancesOf, if_neg hf, if_pos ht, List.mem_singleton] at hC
        exact ⟨⟨0, hK⟩, hC.trans (covTied_eq _ _ _ _ _)⟩
      · rw [covariancesOf, if_neg hf, if_pos ht, if_neg hf, List.length_singleton]
  obtain ⟨pooled, hmem, hlen⟩ := hcov
  have hpd : ∀ C ∈ covariancesOf cfg X R, C.PosDef := by
    intro C hC
    obtain ⟨k, rfl⟩ := hmem C hC
    exact cov_posDef pooled heps hreg X R hR hrow k
  obtain ⟨f, hf, hP⟩ := precisionCholesky_ok hchol (covs := covariancesOf cfg X R) (by
    intro h
    rw [h] at hlen
    rw [List.length_nil] at hlen
    split_ifs at hlen
    omega) hpd
  unfold setParams
  dsimp only
  rw [hf]
  refine ⟨_, rfl, hlen, fun C hC => ⟨hpd C hC, ?_, fun i => ?_⟩, ?_⟩
  · have := (hpd C hC).1
    rwa [Matrix.IsHermitian, conjTranspose_eq_transpose_of_trivial] at this
  · obtain ⟨k, rfl⟩ := hmem C hC
    exact cov_diag_ge pooled heps X R hR hrow k i
  · rw [List.forall₂_map_right_iff]
    exact List.forall₂_same.mpr hP

/-- Beside C89: the configuration with a tied covariance and the responsibilities of the example. -/
example : ∃ (chol : Matrix (Fin 1) (Fin 1) ℝ → Option (Matrix (Fin 1) (Fin 1) ℝ)) (p : Params 2 1), CholeskyRoutine chol ∧
    setParams ⟨2, 1, "random", "tied", 1, 1, 1⟩ chol GMM.exampleData GMM.exampleResp = .ok p := by
  obtain ⟨chol, hchol⟩ := exists_choleskyRoutine 1
  obtain ⟨p, hp, -⟩ := C89_covariances ⟨2, 1, "random", "tied", 1, 1, 1⟩ (Or.inr rfl) (by decide) one_pos one_pos chol hchol
    GMM.exampleData GMM.exampleResp GMM.exampleResp_nonneg GMM.exampleResp_sum
  exact ⟨chol, p, hchol, hp⟩

end OpenML
