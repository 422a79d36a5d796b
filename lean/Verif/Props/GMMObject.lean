import Verif.Props.GMM
import Verif.Model.GMMObject
import Verif.Spec.GMMObject

/-!
# Properties of Gaussian mixture objects whose exceptions are caught
-/

namespace OpenML.GMMObject

open Matrix Spec GMM

variable {n K d : Nat}

theorem andThen_ok {σ α β : Type} {x : Call σ α} {f : α → Call σ β} {s s' : σ} {a : α} (h : x s = .ok (.ok a, s')) :
    x.andThen f s = f a s' := by
  unfold Call.andThen
  rw [h]

theorem put_put (p q : Params K d) (m : Members K d) : put p (put q m) = put p m := rfl

theorem held_put (p : Params K d) (m : Members K d) : held (put p m) = some p := rfl

theorem assign_ok {cfg : Config} {chol : Matrix (Fin d) (Fin d) ℝ → Option (Matrix (Fin d) (Fin d) ℝ)} {X : Matrix (Fin n) (Fin d) ℝ}
    {resp : Matrix (Fin n) (Fin K) ℝ} {p : Params K d} (h : setParams cfg chol X resp = .ok p) (m : Members K d) :
    assign cfg chol X resp m = .ok (.ok (), put p m) := by
  unfold setParams at h
  dsimp only at h
  rw [Res.bind_eq_ok] at h
  obtain ⟨chols, hc, h⟩ := h
  obtain rfl := Res.ok.inj h
  unfold assign
  rw [andThen_ok rfl, andThen_ok (a := chols) (by simp only [Call.const, hc]; rfl)]
  rfl

theorem expect_ok {cfg : Config} {X : Matrix (Fin n) (Fin d) ℝ} {p : Params K d} {e : ℝ × Matrix (Fin n) (Fin K) ℝ}
    (h : eStep cfg p X = .ok e) (m : Members K d) : expect cfg X (put p m) = .ok (.ok e, put p m) := by
  simp only [expect, Call.const, held_put, h]

theorem innerLoop_ok {cfg : Config} {chol : Matrix (Fin d) (Fin d) ℝ → Option (Matrix (Fin d) (Fin d) ℝ)} {X : Matrix (Fin n) (Fin d) ℝ}
    (m : Members K d) : ∀ (rest : Nat) (p p' : Params K d) (lower l : Option ℝ) (c : Bool),
      emLoop cfg chol X rest p lower = .ok (p', l, c) → innerLoop cfg chol X rest lower (put p m) = .ok (.ok (l, c), put p' m) := by
  intro rest
  induction rest with
  | zero =>
    intro p p' lower l c h
    rw [emLoop] at h
    injection h with h
    injection h with h1 h2
    injection h2 with h2 h3
    subst h1 h2 h3
    rfl
  | succ rest ih =>
    intro p p' lower l c h
    rw [emLoop, Res.bind_eq_ok] at h
    obtain ⟨e, he, h⟩ := h
    rw [Res.bind_eq_ok] at h
    obtain ⟨q, hq, h⟩ := h
    rw [innerLoop, andThen_ok (expect_ok he m), andThen_ok (assign_ok hq _), put_put]
    cases lower with
    | none => exact ih _ _ _ _ _ h
    | some prev =>
      dsimp only at h ⊢
      split_ifs at h ⊢ with ht
      · injection h with h
        injection h with h1 h2
        injection h2 with h2 h3
        subst h1 h2 h3
        rfl
      · exact ih _ _ _ _ _ h

theorem outerLoop_ok {cfg : Config} {chol : Matrix (Fin d) (Fin d) ℝ → Option (Matrix (Fin d) (Fin d) ℝ)}
    {X : Matrix (Fin n) (Fin d) ℝ} {draws : Nat → Matrix (Fin n) (Fin K) ℝ} (hinit : cfg.initParams = "random") {p0 pf : Nat → Params K d}
    {val : Nat → Option ℝ} {conv : Nat → Bool} (h0 : ∀ i, initParams cfg chol X (draws i) = .ok (p0 i))
    (h1 : ∀ i, emLoop cfg chol X cfg.maxIter (p0 i) none = .ok (pf i, val i, conv i)) :
    ∀ (rest i : Nat) (best : Option (Params K d)) (max : Option ℝ) (c : Bool) (m : Members K d) (r : Option (Params K d) × Option ℝ × Bool),
      initLoop cfg chol X draws rest i best max c = .ok r →
      outerLoop cfg chol X draws rest i best max c m = .ok (.ok r, if rest = 0 then m else put (pf (i + rest - 1)) m) := by
  intro rest
  induction rest with
  | zero =>
    intro i best max c m r h
    rw [initLoop] at h
    obtain rfl := Res.ok.inj h
    rfl
  | succ rest ih =>
    intro i best max c m r h
    have hi : initialise cfg chol X (draws i) m = .ok (.ok (), put (p0 i) m) := by
      have := h0 i
      rw [initParams, if_pos hinit] at this
      have hi : initialise cfg chol X (draws i) = assign cfg chol X (Matrix.of fun a k => draws i a k / ∑ l, draws i a l) :=
        if_pos hinit
      rw [hi]
      exact assign_ok this m
    rw [initLoop, h0] at h
    simp only [Res.bind_ok] at h
    rw [h1] at h
    simp only [Res.bind_ok] at h
    rw [outerLoop, andThen_ok hi, andThen_ok (innerLoop_ok m _ _ _ _ _ _ (h1 i)),
      andThen_ok (show Call.const (fun m => .ok (held m)) (put (pf i) m) = .ok (.ok (some (pf i)), put (pf i) m) from rfl),
      if_neg (Nat.succ_ne_zero rest)]
    have hend : (if rest = 0 then put (pf i) m else put (pf (i + 1 + rest - 1)) (put (pf i) m)) = put (pf (i + (rest + 1) - 1)) m := by
      split_ifs with hz
      · subst hz
        rfl
      · rw [put_put, show i + 1 + rest - 1 = i + (rest + 1) - 1 by omega]
    dsimp only at h ⊢
    split_ifs at h ⊢ with hb
    · rw [ih _ _ _ _ _ _ h, hend]
    · rw [ih _ _ _ _ _ _ h, hend]

end OpenML.GMMObject

namespace OpenML

open Matrix Spec GMM GMMObject

variable {n K d : Nat}

/-- What the members say about a mixture. -/
def GMMObject.Holds (m : Members K d) (θ : Option (Mixture K d)) : Prop :=
  match θ with
  | none => m.covariances = [] ∧ m.precisionsChol = [] ∧ m.means = none ∧ m.weights = none
  | some θ => ∃ p, held m = some p ∧ Represents p θ

/-- The constants of an object in the terms of the specification. -/
def GMMObject.setting (cfg : Config) (pooled : Bool) : MixtureSetting := ⟨pooled, cfg.eps, cfg.reg, cfg.tol, cfg.maxIter, cfg.numInit⟩

/-- C150: one call of `fit` on an object in any state. -/
theorem C150_fit (cfg : Config) (pooled : Bool)
    (hty : cfg.covarianceType = "full" ∧ pooled = false ∨ cfg.covarianceType = "tied" ∧ pooled = true ∧ K = 1)
    (hinit : cfg.initParams = "random") (hK : 0 < K) (heps : 0 < cfg.eps) (hreg : 0 < cfg.reg) (hiter : 0 < cfg.maxIter)
    (hnum : 0 < cfg.numInit) (chol : Matrix (Fin d) (Fin d) ℝ → Option (Matrix (Fin d) (Fin d) ℝ)) (hchol : CholeskyRoutine chol)
    (m : Members K d) (c : MixtureFit K d) (hc : c.Proper) :
    (c.n < K → GMMObject.fit cfg chol c.X c.draws m = .ok (.error .outOfRange, m)) ∧
    (K ≤ c.n → ∃ (T : Nat → Nat) (conv : Nat → Bool), c.Ends (setting cfg pooled) T conv ∧
      ((∀ r < cfg.numInit, conv r = false) → ∃ p, Represents p (c.em (setting cfg pooled) (cfg.numInit - 1) cfg.maxIter) ∧
        GMMObject.fit cfg chol c.X c.draws m = .ok (.error .runtimeError, put p m)) ∧
      ((∃ r < cfg.numInit, conv r = true) → ∃ b p,
        IsFirstArgmax (fun r => (c.em (setting cfg pooled) r (T r)).meanLogLik c.X) cfg.numInit b ∧
        Represents p (c.em (setting cfg pooled) b (T b + 1)) ∧
        GMMObject.fit cfg chol c.X c.draws m = .ok (.ok (), put p
          { m with precisions := m.precisions ++ List.ofFn fun k => ((c.em (setting cfg pooled) b (T b + 1)).cov k)⁻¹
                   lowerBound := some (some ((c.em (setting cfg pooled) b (T b)).meanLogLik c.X)) }))) := by
  refine ⟨fun h => ?_, fun hKn => ?_⟩
  · rw [GMMObject.fit, if_pos h]
    rfl
  obtain ⟨n, X, draws⟩ := c
  obtain ⟨hdraw, hsum⟩ := hc
  dsimp only at hdraw hsum hKn ⊢
  have hn : 0 < n := by omega
  have hRn : ∀ r i k, 0 ≤ normalised (draws r) i k := fun r => normalised_nonneg (hdraw r) (hsum r)
  have hRs : ∀ r i, ∑ k, normalised (draws r) i k = 1 := fun r => normalised_sum (hsum r)
  set θ := fun r => emSeq pooled cfg.eps cfg.reg X fun i k => draws r i k / ∑ l, draws r i l with hθ
  have hall : ∀ r, ∃ p0 pf T conv, initParams cfg chol X (draws r) = .ok p0 ∧
      emLoop cfg chol X cfg.maxIter p0 none = .ok (pf, some ((θ r T).meanLogLik X), conv) ∧ Represents pf (θ r (T + 1)) ∧
      EMStopsAt (fun t => (θ r t).meanLogLik X) cfg.maxIter cfg.tol T conv := by
    intro r
    obtain ⟨p0, hp0, hrep0⟩ := setParams_ok (pooled := pooled) hty hchol hK hn heps hreg X
      (Matrix.of (normalised (draws r))) (hRn r) (hRs r)
    obtain ⟨pf, T, conv, hloop, hrep, hstop⟩ := emLoop_spec (pooled := pooled) hty hchol hK hn heps hreg X (normalised (draws r))
      (hRn r) (hRs r) cfg.maxIter cfg.maxIter 0 p0 none hiter (by omega) hrep0 rfl (by omega)
    refine ⟨p0, pf, T, conv, ?_, hloop, hrep, hstop⟩
    rw [initParams, if_pos hinit]
    exact hp0
  choose p0 pf T conv h0 h1 hrep hstop using hall
  refine ⟨T, conv, fun r _ => hstop r, ?_⟩
  obtain ⟨best, max, c, hl, hb, hc⟩ := initLoop_abs h0 h1 cfg.numInit 0 none none false (Or.inl ⟨rfl, rfl, rfl⟩) (by simp)
  rw [Nat.zero_add] at hb hc
  have ho := outerLoop_ok hinit h0 h1 cfg.numInit 0 none none false m _ hl
  rw [if_neg hnum.ne', Nat.zero_add] at ho
  constructor
  · intro hnone
    have hcf : c = false := by
      cases hcc : c
      · rfl
      · obtain ⟨j, hj, hj'⟩ := hc.mp hcc
        rw [hnone j hj] at hj'
        exact absurd hj' (by decide)
    refine ⟨pf (cfg.numInit - 1), ?_, ?_⟩
    · have hs := (hstop (cfg.numInit - 1)).2.2
      rw [hnone _ (by omega), if_neg (by decide)] at hs
      have := hrep (cfg.numInit - 1)
      rw [hs.1] at this
      exact this
    · rw [hcf] at ho
      rw [GMMObject.fit, if_neg (by omega), andThen_ok ho]
      rfl
  · intro hsome
    have hct : c = true := hc.mpr hsome
    rcases hb with ⟨h, -, -⟩ | ⟨b, hbest, rfl, rfl⟩
    · omega
    · have hprop : ∀ t, Proper (θ b t) := proper_emSeq heps hreg hn hK X _ (hRn b) (hRs b)
      refine ⟨b, pf b, hbest, hrep b, ?_⟩
      rw [hct] at ho
      rw [GMMObject.fit, if_neg (by omega), andThen_ok ho]
      simp only [if_true]
      rw [andThen_ok rfl, andThen_ok rfl]
      change (expect (K := K) cfg X).andThen _ (put (pf b)
        { m with precisions := m.precisions ++ (pf b).precisionsChol.map fun P => P * Pᵀ
                 lowerBound := some (some ((θ b (T b)).meanLogLik X)) }) = _
      rw [andThen_ok (expect_ok (eStep_eq hty (hrep b) (hprop _).weight hK hn X) _)]
      simp only [Call.ret]
      rw [precisions_eq (hrep b)]
      rfl

namespace GMMObject

/-- The calls of `fit` in a program. -/
def fits : List (Op K d) → List (MixtureFit K d)
  | [] => []
  | .fit n X draws :: ops => ⟨n, X, draws⟩ :: fits ops
  | .ask _ :: ops => fits ops

theorem run_append (cfg : Config) (chol : Matrix (Fin d) (Fin d) ℝ → Option (Matrix (Fin d) (Fin d) ℝ)) :
    ∀ (ops more : List (Op K d)) (m m' : Members K d) (seen : List (Seen K d)), run cfg chol m ops = .ok (m', seen) →
      run cfg chol m (ops ++ more) = (do
        let r ← run cfg chol m' more
        .ok (r.1, seen ++ r.2)) := by
  intro ops
  induction ops with
  | nil =>
    intro more m m' seen h
    rw [run] at h
    injection h with h
    injection h with h1 h2
    subst h1 h2
    rw [List.nil_append]
    cases run cfg chol m more <;> rfl
  | cons op ops ih =>
    intro more m m' seen h
    rw [run, Res.bind_eq_ok] at h
    obtain ⟨r, hr, h⟩ := h
    rw [Res.bind_eq_ok] at h
    obtain ⟨q, hq, h⟩ := h
    injection h with h
    injection h with h1 h2
    subst h1 h2
    rw [List.cons_append, run, hr, Res.bind_ok, ih more _ _ _ hq]
    cases run cfg chol q.1 more <;> rfl

/-- What the members say after a history. -/
structure Inv (s : MixtureSetting) (m : Members K d) (L : List (MixtureFit K d)) (θ : Option (Mixture K d))
    (P : List (Matrix (Fin d) (Fin d) ℝ)) (b : Option ℝ) : Prop where
  history : MixtureHistory s L θ P b
  holds : Holds m θ
  positive : ∀ t, θ = some t → ∀ k, 0 < t.weight k
  precisions : m.precisions = P
  bound : m.lowerBound = b.map some

theorem inv_fresh (s : MixtureSetting) : Inv s (fresh K d) [] none [] none :=
  ⟨.start, ⟨rfl, rfl, rfl, rfl⟩, fun _ h => (Option.some_ne_none _ h.symm).elim, rfl, rfl⟩

theorem em_positive {cfg : Config} {pooled : Bool} (hK : 0 < K) (heps : 0 < cfg.eps) (hreg : 0 < cfg.reg) {c : MixtureFit K d} (hc : c.Proper)
    (hn : K ≤ c.n) (r t : Nat) (k : Fin K) : 0 < (c.em (setting cfg pooled) r t).weight k :=
  (proper_emSeq (pooled := pooled) heps hreg (by omega) hK c.X _ (normalised_nonneg (hc.1 r) (hc.2 r)) (normalised_sum (hc.2 r)) t).weight k

theorem step_fit {cfg : Config} {pooled : Bool}
    (hty : cfg.covarianceType = "full" ∧ pooled = false ∨ cfg.covarianceType = "tied" ∧ pooled = true ∧ K = 1)
    (hinit : cfg.initParams = "random") (hK : 0 < K) (heps : 0 < cfg.eps) (hreg : 0 < cfg.reg) (hiter : 0 < cfg.maxIter)
    (hnum : 0 < cfg.numInit) {chol : Matrix (Fin d) (Fin d) ℝ → Option (Matrix (Fin d) (Fin d) ℝ)} (hchol : CholeskyRoutine chol)
    {m : Members K d} {L : List (MixtureFit K d)} {θ : Option (Mixture K d)} {P : List (Matrix (Fin d) (Fin d) ℝ)} {b : Option ℝ}
    (hm : Inv (setting cfg pooled) m L θ P b) (c : MixtureFit K d) (hc : c.Proper) :
    ∃ m' o θ' P' b', step cfg chol m (.fit c.n c.X c.draws) = .ok (m', o) ∧ Inv (setting cfg pooled) m' (L ++ [c]) θ' P' b' := by
  obtain ⟨h1, h2⟩ := C150_fit cfg pooled hty hinit hK heps hreg hiter hnum chol hchol m c hc
  rcases Nat.lt_or_ge c.n K with hn | hn
  · refine ⟨m, .caught .outOfRange, θ, P, b, by simp only [step, h1 hn], .refused c hm.history hn, hm.holds, hm.positive, hm.precisions, hm.bound⟩
  · obtain ⟨T, conv, hends, hfail, hfit⟩ := h2 hn
    by_cases hany : ∃ r < cfg.numInit, conv r = true
    · obtain ⟨r, p, hr, hrep, hf⟩ := hfit hany
      refine ⟨_, .done, _, _, _, by simp only [step, hf]; rfl, .fitted c T conv r hm.history hn hends hany hr, ⟨p, rfl, hrep⟩, ?_, ?_, rfl⟩
      · intro t ht k
        obtain rfl := Option.some.inj ht
        exact em_positive hK heps hreg hc hn _ _ _
      · simp only [put, hm.precisions]
    · have hnone : ∀ r < cfg.numInit, conv r = false := by
        intro r hr
        cases h : conv r
        · rfl
        · exact absurd ⟨r, hr, h⟩ hany
      obtain ⟨p, hrep, hf⟩ := hfail hnone
      refine ⟨put p m, .caught .runtimeError, _, _, _, by simp only [step, hf], .failed c T conv hm.history hn hends hnone, ⟨p, rfl, hrep⟩,
        ?_, hm.precisions, hm.bound⟩
      intro t ht k
      obtain rfl := Option.some.inj ht
      exact em_positive hK heps hreg hc hn _ _ _

theorem step_ask {cfg : Config} {chol : Matrix (Fin d) (Fin d) ℝ → Option (Matrix (Fin d) (Fin d) ℝ)} {m m' : Members K d} {q : Query d}
    {o : Seen K d} (h : step cfg chol m (.ask q) = .ok (m', o)) : m' = m := by
  simp only [step] at h
  cases hq : ask cfg m q with
  | ok a => rw [hq] at h; injection h with h; injection h with h1 h2; exact h1.symm
  | throw e => rw [hq] at h; injection h with h; injection h with h1 h2; exact h1.symm
  | ub => rw [hq] at h; cases h
  | diverge => rw [hq] at h; cases h

theorem run_inv {cfg : Config} {pooled : Bool}
    (hty : cfg.covarianceType = "full" ∧ pooled = false ∨ cfg.covarianceType = "tied" ∧ pooled = true ∧ K = 1)
    (hinit : cfg.initParams = "random") (hK : 0 < K) (heps : 0 < cfg.eps) (hreg : 0 < cfg.reg) (hiter : 0 < cfg.maxIter)
    (hnum : 0 < cfg.numInit) {chol : Matrix (Fin d) (Fin d) ℝ → Option (Matrix (Fin d) (Fin d) ℝ)} (hchol : CholeskyRoutine chol) :
    ∀ (ops : List (Op K d)) (m m' : Members K d) (seen : List (Seen K d)) (L : List (MixtureFit K d)) (θ : Option (Mixture K d))
      (P : List (Matrix (Fin d) (Fin d) ℝ)) (b : Option ℝ), Inv (setting cfg pooled) m L θ P b → (∀ c ∈ fits ops, c.Proper) →
      run cfg chol m ops = .ok (m', seen) → ∃ θ' P' b', Inv (setting cfg pooled) m' (L ++ fits ops) θ' P' b' := by
  intro ops
  induction ops with
  | nil =>
    intro m m' seen L θ P b hm _ h
    rw [run] at h
    injection h with h
    injection h with h1 h2
    subst h1
    exact ⟨θ, P, b, by rw [fits, List.append_nil]; exact hm⟩
  | cons op ops ih =>
    intro m m' seen L θ P b hm hp h
    rw [run, Res.bind_eq_ok] at h
    obtain ⟨r, hr, h⟩ := h
    rw [Res.bind_eq_ok] at h
    obtain ⟨q, hq, h⟩ := h
    injection h with h
    injection h with h1 h2
    subst h1
    cases op with
    | ask a =>
      have := step_ask (o := r.2) (m' := r.1) hr
      rw [this] at hq
      exact ih _ _ _ _ _ _ _ hm (fun c hc => hp c hc) hq
    | fit n X draws =>
      obtain ⟨m1, o, θ', P', b', hs, hm1⟩ := step_fit hty hinit hK heps hreg hiter hnum hchol hm ⟨n, X, draws⟩ (hp _ (by simp [fits]))
      rw [hr] at hs
      obtain rfl := Res.ok.inj hs
      obtain ⟨θ'', P'', b'', h'⟩ := ih _ _ _ _ _ _ _ hm1 (fun c hc => hp c (by simp [fits, hc])) hq
      exact ⟨θ'', P'', b'', by rw [fits, List.append_cons]; exact h'⟩

end GMMObject

/-- C150: at every point of a program with one object, in which exceptions are caught, the calls of `fit` so far decide what the object
answers. Weights, means, covariances and predictions belong to one mixture, but precisions and lower bound may belong to others. A further
call of `fit` never has undefined behaviour. -/
theorem C150_program (cfg : Config) (pooled : Bool)
    (hty : cfg.covarianceType = "full" ∧ pooled = false ∨ cfg.covarianceType = "tied" ∧ pooled = true ∧ K = 1)
    (hinit : cfg.initParams = "random") (hK : 0 < K) (heps : 0 < cfg.eps) (hreg : 0 < cfg.reg) (hiter : 0 < cfg.maxIter)
    (hnum : 0 < cfg.numInit) (chol : Matrix (Fin d) (Fin d) ℝ → Option (Matrix (Fin d) (Fin d) ℝ)) (hchol : CholeskyRoutine chol)
    (ops : List (Op K d)) (hp : ∀ c ∈ fits ops, c.Proper) (m : Members K d) (seen : List (Seen K d))
    (hr : run cfg chol (fresh K d) ops = .ok (m, seen)) :
    (∀ c : MixtureFit K d, c.Proper → ∃ m' o, run cfg chol (fresh K d) (ops ++ [.fit c.n c.X c.draws]) = .ok (m', seen ++ [o])) ∧
    ∃ θ P b, MixtureHistory (setting cfg pooled) (fits ops) θ P b ∧
      run cfg chol (fresh K d) (ops ++ [.ask .weights]) = .ok (m, seen ++ [.answer (.weights (θ.map (·.weight)))]) ∧
      run cfg chol (fresh K d) (ops ++ [.ask .means]) = .ok (m, seen ++ [.answer (.means (θ.map fun t => Matrix.of t.mean))]) ∧
      run cfg chol (fresh K d) (ops ++ [.ask .covariance]) =
        .ok (m, seen ++ [.answer (.matrices (θ.elim [] fun t => List.ofFn t.cov))]) ∧
      run cfg chol (fresh K d) (ops ++ [.ask .precisions]) = .ok (m, seen ++ [.answer (.matrices P)]) ∧
      (∃ F, run cfg chol (fresh K d) (ops ++ [.ask .precisionsCholesky]) = .ok (m, seen ++ [.answer (.matrices F)]) ∧
        (θ = none → F = []) ∧
        ∀ t, θ = some t → ∃ G : Fin K → Matrix (Fin d) (Fin d) ℝ, F = List.ofFn G ∧ ∀ k, IsPrecisionChol (t.cov k) (G k)) ∧
      run cfg chol (fresh K d) (ops ++ [.ask .lowerBound]) =
        b.elim .ub (fun v => .ok (m, seen ++ [.answer (.bound (some v))])) ∧
      (θ = none → ∀ n Z, run cfg chol (fresh K d) (ops ++ [.ask (.predict n Z)]) = .ub ∧
        run cfg chol (fresh K d) (ops ++ [.ask (.prob n Z)]) = .ub) ∧
      (∀ t, θ = some t → ∀ n Z, 0 < n →
        (∃ Q, run cfg chol (fresh K d) (ops ++ [.ask (.prob n Z)]) = .ok (m, seen ++ [.answer (.probs n Q)]) ∧
          ∀ i k, Q i k = t.posterior (Z i) k) ∧
        ∃ ps, run cfg chol (fresh K d) (ops ++ [.ask (.predict n Z)]) = .ok (m, seen ++ [.answer (.labels ps)]) ∧ ps.length = n ∧
          ∀ (i : Fin n) (c : Nat), ps[i.val]? = some c → ∃ k : Fin K, k.val = c ∧
            ∀ l, t.posterior (Z i) l ≤ t.posterior (Z i) k ∧ (t.posterior (Z i) l = t.posterior (Z i) k → k ≤ l)) := by
  obtain ⟨θ, P, b, hm⟩ := run_inv hty hinit hK heps hreg hiter hnum hchol ops _ _ _ _ _ _ _ (inv_fresh _) hp hr
  rw [List.nil_append] at hm
  have hask : ∀ q a, ask cfg m q = .ok a → run cfg chol (fresh K d) (ops ++ [.ask q]) = .ok (m, seen ++ [.answer a]) := by
    intro q a h
    rw [run_append cfg chol ops _ _ _ _ hr]
    simp only [run, step, h, Res.bind_ok]
  have hub : ∀ q, ask cfg m q = .ub → run cfg chol (fresh K d) (ops ++ [.ask q]) = .ub := by
    intro q h
    rw [run_append cfg chol ops _ _ _ _ hr]
    simp only [run, step, h, Res.bind_ub]
  refine ⟨fun c hc => ?_, θ, P, b, hm.history, hask _ _ ?_, hask _ _ ?_, hask _ _ ?_, hask _ _ ?_, ⟨m.precisionsChol, hask _ _ rfl, ?_, ?_⟩,
    ?_, fun h n Z => ⟨hub _ ?_, hub _ ?_⟩,
    fun t ht n Z hn => ?_⟩
  · obtain ⟨m', o, -, -, -, h, -⟩ := step_fit hty hinit hK heps hreg hiter hnum hchol hm c hc
    refine ⟨m', o, ?_⟩
    rw [run_append cfg chol ops _ _ _ _ hr]
    simp only [run, h, Res.bind_ok]
  · have hh := hm.holds
    cases θ with
    | none => simp only [ask, hh.2.2.2]; rfl
    | some t =>
      obtain ⟨p, hheld, hrep⟩ := hh
      unfold held at hheld
      split at hheld
      · rename_i mu w e1 e2
        obtain rfl := Option.some.inj hheld
        simp only [ask, e2, Option.map_some]
        rw [← hrep.weights]
      · cases hheld
  · have hh := hm.holds
    cases θ with
    | none => simp only [ask, hh.2.2.1]; rfl
    | some t =>
      obtain ⟨p, hheld, hrep⟩ := hh
      unfold held at hheld
      split at hheld
      · rename_i mu w e1 e2
        obtain rfl := Option.some.inj hheld
        simp only [ask, e1, Option.map_some]
        rw [← hrep.means]
      · cases hheld
  · have hh := hm.holds
    cases θ with
    | none => simp only [ask, hh.1]; rfl
    | some t =>
      obtain ⟨p, hheld, hrep⟩ := hh
      unfold held at hheld
      split at hheld
      · rename_i mu w e1 e2
        obtain rfl := Option.some.inj hheld
        simp only [ask, Option.elim]
        rw [← hrep.covariances]
      · cases hheld
  · simp only [ask, hm.precisions]
  · intro h
    have hh := hm.holds
    subst h
    exact hh.2.1
  · intro t h
    have hh := hm.holds
    subst h
    obtain ⟨p, hheld, hrep⟩ := hh
    unfold held at hheld
    split at hheld
    · obtain rfl := Option.some.inj hheld
      exact hrep.chols
    · cases hheld
  · have hb := hm.bound
    cases b with
    | none => exact hub _ (by simp only [ask, hb, Option.map_none])
    | some v => exact hask _ _ (by simp only [ask, hb, Option.map_some])
  · have hh := hm.holds
    subst h
    have : held m = none := by unfold held; rw [hh.2.2.1]
    simp only [ask, this, State.predict]
    rfl
  · have hh := hm.holds
    subst h
    have : held m = none := by unfold held; rw [hh.2.2.1]
    simp only [ask, this, State.predictProb]
    rfl
  · have hh := hm.holds
    have hpos := hm.positive t ht
    subst ht
    obtain ⟨p, hheld, hrep⟩ := hh
    obtain ⟨⟨Q, hQ, hQ'⟩, ps, hps, hlen, hps'⟩ := C61_predict cfg pooled hty hK hn ⟨held m, [], none⟩ p hheld t hrep hpos Z
    refine ⟨⟨Q, hask _ _ ?_, fun i k => (hQ'.1 i k).1⟩, ps, hask _ _ ?_, hlen, hps'⟩
    · simp only [ask, hQ, Res.bind_ok]
    · simp only [ask, hps, Res.bind_ok]

/-- C150: what a history leaves is unique. -/
theorem C150_unique (s : MixtureSetting) (hiter : 0 < s.maxIter) {L : List (MixtureFit K d)} {θ θ' : Option (Mixture K d)}
    {P P' : List (Matrix (Fin d) (Fin d) ℝ)} {b b' : Option ℝ} (h : MixtureHistory s L θ P b) (h' : MixtureHistory s L θ' P' b') :
    θ = θ' ∧ P = P' ∧ b = b' := by
  have hends : ∀ (c : MixtureFit K d) (T T' : Nat → Nat) (conv conv' : Nat → Bool), c.Ends s T conv → c.Ends s T' conv' →
      ∀ r < s.numInit, T r = T' r ∧ conv r = conv' r := by
    intro c T T' conv conv' e e' r hr
    obtain ⟨T0, c0, -, hu⟩ := C61_stops_unique (fun t => (c.em s r t).meanLogLik c.X) hiter s.tol
    obtain ⟨a1, a2⟩ := hu _ _ (e r hr)
    obtain ⟨b1, b2⟩ := hu _ _ (e' r hr)
    exact ⟨a1.trans b1.symm, a2.trans b2.symm⟩
  induction h generalizing θ' P' b' with
  | start =>
    generalize hL : ([] : List (MixtureFit K d)) = L' at h'
    cases h' with
    | start => exact ⟨rfl, rfl, rfl⟩
    | refused => simp at hL
    | failed => simp at hL
    | fitted => simp at hL
  | @refused L0 _ _ _ c hh hlt ih =>
    generalize hL : L0 ++ [c] = L' at h'
    cases h' with
    | start => simp at hL
    | refused c' hh' hlt' =>
      obtain ⟨rfl, e⟩ := List.append_inj' hL rfl
      exact ih hh'
    | failed c' T' conv' hh' hle' =>
      obtain ⟨rfl, e⟩ := List.append_inj' hL rfl
      obtain rfl := List.singleton_inj.mp e
      omega
    | fitted c' T' conv' r' hh' hle' =>
      obtain ⟨rfl, e⟩ := List.append_inj' hL rfl
      obtain rfl := List.singleton_inj.mp e
      omega
  | @failed L0 _ _ _ c T conv hh hle he hn ih =>
    generalize hL : L0 ++ [c] = L' at h'
    cases h' with
    | start => simp at hL
    | refused c' hh' hlt' =>
      obtain ⟨rfl, e⟩ := List.append_inj' hL rfl
      obtain rfl := List.singleton_inj.mp e
      omega
    | failed c' T' conv' hh' hle' he' hn' =>
      obtain ⟨rfl, e⟩ := List.append_inj' hL rfl
      obtain rfl := List.singleton_inj.mp e
      obtain ⟨-, h2, h3⟩ := ih hh'
      exact ⟨rfl, h2, h3⟩
    | fitted c' T' conv' r' hh' hle' he' hs' =>
      obtain ⟨rfl, e⟩ := List.append_inj' hL rfl
      obtain rfl := List.singleton_inj.mp e
      obtain ⟨r, hr, ht⟩ := hs'
      have := (hends c T T' conv conv' he he' r hr).2
      rw [hn r hr, ht] at this
      exact absurd this (by decide)
  | @fitted L0 _ _ _ c T conv r hh hle he hs hm ih =>
    generalize hL : L0 ++ [c] = L' at h'
    cases h' with
    | start => simp at hL
    | refused c' hh' hlt' =>
      obtain ⟨rfl, e⟩ := List.append_inj' hL rfl
      obtain rfl := List.singleton_inj.mp e
      omega
    | failed c' T' conv' hh' hle' he' hn' =>
      obtain ⟨rfl, e⟩ := List.append_inj' hL rfl
      obtain rfl := List.singleton_inj.mp e
      obtain ⟨r, hr, ht⟩ := hs
      have := (hends c T T' conv conv' he he' r hr).2
      rw [hn' r hr, ht] at this
      exact absurd this (by decide)
    | fitted c' T' conv' r' hh' hle' he' hs' hm' =>
      obtain ⟨rfl, e⟩ := List.append_inj' hL rfl
      obtain rfl := List.singleton_inj.mp e
      obtain ⟨-, h2, -⟩ := ih hh'
      have hT : ∀ i < s.numInit, T i = T' i := fun i hi => (hends c T T' conv conv' he he' i hi).1
      obtain ⟨m1, m2, m3⟩ := hm
      obtain ⟨n1, n2, n3⟩ := hm'
      have hrr : r = r' := by
        rcases Nat.lt_trichotomy r r' with hlt | rfl | hlt
        · have a := n3 r hlt
          have a' := m2 r' n1
          simp only [hT r m1, hT r' n1] at a a'
          linarith
        · rfl
        · have a := m3 r' hlt
          have a' := n2 r m1
          simp only [hT r m1, hT r' n1] at a a'
          linarith
      subst hrr
      rw [hT r m1, h2]
      exact ⟨rfl, rfl, rfl⟩

/-- Data of the example: two samples with one feature, two components, the same random numbers for every initialisation. -/
def GMMObject.exampleCall : MixtureFit 2 1 := ⟨2, !![0; 1], fun _ => !![1, 2; 3, 4]⟩

theorem GMMObject.exampleCall_proper : exampleCall.Proper := by
  refine ⟨fun r (i : Fin 2) k => ?_, fun r (i : Fin 2) => ?_⟩
  · change (0 : ℝ) ≤ (!![1, 2; 3, 4] : Matrix (Fin 2) (Fin 2) ℝ) i k
    fin_cases i <;> fin_cases k <;> norm_num
  · change (0 : ℝ) < ∑ k, (!![1, 2; 3, 4] : Matrix (Fin 2) (Fin 2) ℝ) i k
    rw [Fin.sum_univ_two]
    fin_cases i <;> norm_num

/-- Beside C150: with one iteration, `fit` on a new object throws, and the object predicts nevertheless; a lower bound and precisions were
never computed. -/
example (chol : Matrix (Fin 1) (Fin 1) ℝ → Option (Matrix (Fin 1) (Fin 1) ℝ)) (hchol : CholeskyRoutine chol) (Z : Matrix (Fin 3) (Fin 1) ℝ) :
    ∃ m Q, run ⟨1, 5, "random", "full", 1 / 1000, 1, 1⟩ chol (fresh 2 1) [.fit 2 exampleCall.X exampleCall.draws, .ask (.prob 3 Z), .ask .precisions] =
      .ok (m, [.caught .runtimeError, .answer (.probs 3 Q), .answer (.matrices [])]) := by
  set cfg : Config := ⟨1, 5, "random", "full", 1 / 1000, 1, 1⟩
  obtain ⟨-, h⟩ := C150_fit (K := 2) cfg false (Or.inl ⟨rfl, rfl⟩) rfl (by decide) one_pos one_pos (by decide) (by decide) chol hchol (fresh 2 1)
    exampleCall exampleCall_proper
  obtain ⟨T, conv, he, hf, -⟩ := h (le_refl _)
  have hnone : ∀ r < cfg.numInit, conv r = false := by
    intro r hr
    obtain ⟨h1, -, h2⟩ := he r hr
    cases hc : conv r
    · rfl
    · rw [hc, if_pos rfl] at h2
      have h1 : T r < 1 := h1
      omega
  obtain ⟨p, hrep, hfit⟩ := hf hnone
  obtain ⟨⟨Q, hQ, -⟩, -⟩ := C61_predict cfg false (Or.inl ⟨rfl, rfl⟩) (by decide) (by decide : 0 < 3) ⟨some p, [], none⟩ p rfl _ hrep
    (em_positive (K := 2) (by decide) one_pos one_pos exampleCall_proper (le_refl _) _ _) Z
  refine ⟨put p (fresh 2 1), Q, ?_⟩
  have hs : step cfg chol (fresh 2 1) (.fit 2 exampleCall.X exampleCall.draws) = .ok (put p (fresh 2 1), .caught .runtimeError) := by
    have hfit' : GMMObject.fit cfg chol (n := 2) exampleCall.X exampleCall.draws (fresh 2 1) = .ok (.error .runtimeError, put p (fresh 2 1)) := hfit
    simp only [step, hfit']
  simp only [run, hs, Res.bind_ok]
  simp only [step, ask, held_put, hQ, Res.bind_ok]
  rfl

/-- Beside C150: a history with a refused call and a failed call. -/
example : ∃ θ, MixtureHistory (setting ⟨1, 1, "random", "full", 1, 1, 1⟩ false) [⟨1, !![0], fun _ => !![1, 2]⟩, exampleCall] (some θ) [] none := by
  have hE : ∀ r, EMStopsAt (fun t => (exampleCall.em (setting ⟨1, 1, "random", "full", 1, 1, 1⟩ false) r t).meanLogLik exampleCall.X) 1 1 0 false :=
    fun r => ⟨one_pos, fun s h1 h2 => by omega, by simp⟩
  exact ⟨_, .failed (L := [_]) exampleCall (fun _ => 0) (fun _ => false) (.refused (L := []) ⟨1, !![0], fun _ => !![1, 2]⟩ .start (by decide)) (le_refl _)
    (fun r _ => hE r) fun _ _ => rfl⟩

/-- C150: if the Cholesky decomposition of the first estimate fails, `fit` throws `runtime_error`, and the object then holds means, weights
and covariances of the new data together with the Cholesky factors, precisions and bound it had before. -/
theorem C150_torn (cfg : Config) (pooled : Bool)
    (hty : cfg.covarianceType = "full" ∧ pooled = false ∨ cfg.covarianceType = "tied" ∧ pooled = true ∧ K = 1)
    (hinit : cfg.initParams = "random") (hK : 0 < K) (hnum : 0 < cfg.numInit)
    (chol : Matrix (Fin d) (Fin d) ℝ → Option (Matrix (Fin d) (Fin d) ℝ)) (m : Members K d) (c : MixtureFit K d) (hn : K ≤ c.n)
    (hfail : ∃ k, chol ((c.em (setting cfg pooled) 0 0).cov k) = none) :
    let θ := c.em (setting cfg pooled) 0 0
    GMMObject.fit cfg chol c.X c.draws m = .ok (.error .runtimeError,
      { m with means := some (Matrix.of θ.mean), weights := some θ.weight, covariances := List.ofFn θ.cov }) := by
  intro θ
  obtain ⟨n, X, draws⟩ := c
  dsimp only at hn ⊢
  set R : Matrix (Fin n) (Fin K) ℝ := Matrix.of fun i k => draws 0 i k / ∑ l, draws 0 i l with hR
  have hcov : covariancesOf cfg X R = List.ofFn θ.cov := covariancesOf_eq hty X R
  have hmean : meansOf cfg.eps X R = Matrix.of θ.mean := meansOf_eq pooled cfg.eps cfg.reg X R
  have hthrow : precisionCholesky chol (List.ofFn θ.cov) = .throw .runtimeError := by
    obtain ⟨k, hk⟩ := hfail
    have hlen : 0 < (List.ofFn θ.cov).length := by simpa using hK
    unfold precisionCholesky
    rw [readAt_of_lt hlen, Res.bind_ok]
    have key : ∀ l : List (Matrix (Fin d) (Fin d) ℝ), (∃ C ∈ l, chol C = none) →
        mapRes (fun c => match chol c with
          | none => (.throw .runtimeError : Res (Matrix (Fin d) (Fin d) ℝ))
          | some L => .ok (Lᵀ)⁻¹) l = .throw .runtimeError := by
      intro l
      induction l with
      | nil => rintro ⟨C, hC, -⟩; simp at hC
      | cons A l ih =>
        rintro ⟨C, hC, hn⟩
        rw [mapRes]
        cases hA : chol A with
        | none => rfl
        | some L =>
          rcases List.mem_cons.mp hC with rfl | hC
          · rw [hn] at hA
            cases hA
          · dsimp only
            rw [Res.bind_ok, ih ⟨C, hC, hn⟩]
            rfl
    exact key _ ⟨_, List.mem_ofFn.mpr ⟨k, rfl⟩, hk⟩
  have hassign : initialise cfg chol X (draws 0) m = .ok (.error .runtimeError,
      { m with means := some (Matrix.of θ.mean), weights := some θ.weight, covariances := List.ofFn θ.cov }) := by
    have hi : initialise cfg chol X (draws 0) = assign cfg chol X R := if_pos hinit
    rw [hi, assign, andThen_ok rfl]
    simp only [hcov, hmean]
    simp only [Call.andThen, Call.const, hthrow]
    rfl
  rw [GMMObject.fit, if_neg (by omega)]
  obtain ⟨j, hj⟩ := Nat.exists_eq_succ_of_ne_zero hnum.ne'
  rw [hj]
  simp only [Call.andThen, outerLoop, hassign]

/-- Beside `C150_torn`: without anything added to the diagonal, two equal samples have no invertible covariance, and a Cholesky routine
fails. -/
example (m : Members 1 1) : ∃ chol : Matrix (Fin 1) (Fin 1) ℝ → Option (Matrix (Fin 1) (Fin 1) ℝ), CholeskyRoutine chol ∧
    GMMObject.fit ⟨100, 1, "random", "full", 1 / 1000, 0, 0⟩ chol (!![3; 3] : Matrix (Fin 2) (Fin 1) ℝ) (fun _ => (!![1; 1] : Matrix (Fin 2) (Fin 1) ℝ)) m =
      .ok (.error .runtimeError, { m with means := some !![3], weights := some fun _ => 1, covariances := [0] }) := by
  obtain ⟨chol, hchol⟩ := exists_choleskyRoutine 1
  refine ⟨chol, hchol, ?_⟩
  set c : MixtureFit 1 1 := ⟨2, !![3; 3], fun _ => !![1; 1]⟩
  have hup : c.em (setting ⟨100, 1, "random", "full", 1 / 1000, 0, 0⟩ false) 0 0 = emUpdate (n := 2) false 0 0 !![3; 3]
      fun i k => (!![1; 1] : Matrix (Fin 2) (Fin 1) ℝ) i k / ∑ l, (!![1; 1] : Matrix (Fin 2) (Fin 1) ℝ) i l := rfl
  have hmean : (c.em (setting ⟨100, 1, "random", "full", 1 / 1000, 0, 0⟩ false) 0 0).mean = fun _ _ => 3 := by
    funext k j
    fin_cases k; fin_cases j
    norm_num [hup, emUpdate, Fin.sum_univ_two]
  have hw : (c.em (setting ⟨100, 1, "random", "full", 1 / 1000, 0, 0⟩ false) 0 0).weight = fun _ => 1 := by
    funext k
    fin_cases k
    norm_num [hup, emUpdate, Fin.sum_univ_two]
  have hc : (c.em (setting ⟨100, 1, "random", "full", 1 / 1000, 0, 0⟩ false) 0 0).cov = fun _ => 0 := by
    funext k
    ext i j
    fin_cases k; fin_cases i; fin_cases j
    norm_num [hup, emUpdate, Fin.sum_univ_two, vecMulVec]
  have hnone : chol 0 = none := by
    cases h : chol 0 with
    | none => rfl
    | some L =>
      have hL := hchol.sound 0 L (by ext i j; rfl) h
      have := congrFun (congrFun hL.product 0) 0
      simp [Matrix.mul_apply] at this
      exact absurd this (hL.pos 0).ne'
  have := C150_torn (K := 1) ⟨100, 1, "random", "full", 1 / 1000, 0, 0⟩ false (Or.inl ⟨rfl, rfl⟩) rfl one_pos one_pos chol m c (by decide)
    ⟨0, by rw [hc]; exact hnone⟩
  dsimp only at this
  rw [hmean, hw, hc] at this
  refine this.trans ?_
  congr 4
  · ext i j
    fin_cases i; fin_cases j
    rfl

end OpenML
