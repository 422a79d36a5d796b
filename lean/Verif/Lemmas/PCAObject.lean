import Verif.Spec.PCAObject
import Verif.Props.PCACov

/-!
# Lemmas for programs with a PCA object
-/

namespace OpenML.PCAObject

open Matrix PCA Spec

variable {k d : Nat}

/-- What `fit` computes from data. -/
noncomputable def fitOf (k : Nat) (D : Decompositions d) (n : Nat) (X : Matrix (Fin n) (Fin d) ℝ) : Res (Fitted k d) :=
  PCA.fit k (D.thin n (centred X)).1 (D.thin n (centred X)).2.1 (D.thin n (centred X)).2.2

/-- What `get_precision` computes from the covariance. -/
noncomputable def precOf (D : Decompositions d) (c : Option (Matrix (Fin d) (Fin d) ℝ)) : Option (Matrix (Fin d) (Fin d) ℝ) :=
  c.map fun c => LinAlg.pinv (1 / 1000000) (D.full c).1 (D.full c).2.1 (D.full c).2.2

theorem splits_snoc {p : Call d → Prop} {cs : List (Call d)} {c : Call d} (h : p c) : SplitsAtLast p (cs ++ [c]) cs c :=
  ⟨[], rfl, h, by simp⟩

theorem splits_keep {p : Call d → Prop} {cs b : List (Call d)} {c e : Call d} (h : SplitsAtLast p cs b c) (he : ¬ p e) :
    SplitsAtLast p (cs ++ [e]) b c := by
  obtain ⟨a, rfl, hc, ha⟩ := h
  refine ⟨a ++ [e], by simp, hc, ?_⟩
  intro x hx
  rcases List.mem_append.mp hx with hx | hx
  · exact ha x hx
  · rw [List.mem_singleton.mp hx]; exact he

/-- The last call with a property is unique. -/
theorem splits_unique {p : Call d → Prop} {cs b b' : List (Call d)} {c c' : Call d} (h : SplitsAtLast p cs b c)
    (h' : SplitsAtLast p cs b' c') : b = b' ∧ c = c' := by
  obtain ⟨a, rfl, hc, ha⟩ := h
  obtain ⟨a', he, hc', ha'⟩ := h'
  rcases List.append_eq_append_iff.mp he with ⟨l, h1, h2⟩ | ⟨l, h1, h2⟩
  · cases l with
    | nil =>
      simp only [List.append_nil, List.nil_append, List.cons.injEq] at h1 h2
      exact ⟨h1.symm, h2.1⟩
    | cons x l =>
      simp only [List.cons_append, List.cons.injEq] at h2
      exact absurd hc' (ha c' (by rw [h2.2]; simp))
  · cases l with
    | nil =>
      simp only [List.append_nil, List.nil_append, List.cons.injEq] at h1 h2
      exact ⟨h1, h2.1.symm⟩
    | cons x l =>
      simp only [List.cons_append, List.cons.injEq] at h2
      exact absurd hc (ha' c (by rw [h2.2]; simp))

theorem lastData_snoc {cs : List (Call d)} {n : Nat} (X : Matrix (Fin n) (Fin d) ℝ) : LastData (cs ++ [.fit n X]) n X :=
  ⟨cs, splits_snoc ⟨n, X, rfl⟩⟩

theorem lastData_keep {cs : List (Call d)} {n : Nat} {X : Matrix (Fin n) (Fin d) ℝ} {e : Call d} (h : LastData cs n X) (he : ¬ IsFit e) :
    LastData (cs ++ [e]) n X := by
  obtain ⟨b, hb⟩ := h
  exact ⟨b, splits_keep hb he⟩

theorem covarianceData_keep {cs : List (Call d)} {n : Nat} {X : Matrix (Fin n) (Fin d) ℝ} {e : Call d} (h : CovarianceData cs n X)
    (he : e ≠ .covariance) : CovarianceData (cs ++ [e]) n X := by
  obtain ⟨b, hb, hd⟩ := h
  exact ⟨b, splits_keep hb he, hd⟩

theorem precisionData_keep {cs : List (Call d)} {n : Nat} {X : Matrix (Fin n) (Fin d) ℝ} {e : Call d} (h : PrecisionData cs n X)
    (he : e ≠ .precision) : PrecisionData (cs ++ [e]) n X := by
  obtain ⟨b, hb, hd⟩ := h
  exact ⟨b, splits_keep hb he, hd⟩

/-- How the members of the object come from the calls. -/
structure Reflects (D : Decompositions d) (cs : List (Call d)) (st : State k d) : Prop where
  fitted : (st.fitted = none ∧ ∀ c ∈ cs, ¬ IsFit c) ∨ ∃ n X f, LastData cs n X ∧ fitOf k D n X = .ok f ∧ st.fitted = some f
  covariance : (st.covariance = none ∧ Call.covariance ∉ cs) ∨
    ∃ n X f, CovarianceData cs n X ∧ fitOf k D n X = .ok f ∧ st.covariance = some (covarianceOf f)
  precision : (st.precision = none ∧ Call.precision ∉ cs) ∨
    ∃ n X f, PrecisionData cs n X ∧ fitOf k D n X = .ok f ∧ st.precision = some (precOf D (covarianceOf f))

theorem reflects_new (D : Decompositions d) : Reflects D [] (State.new k d) :=
  ⟨.inl ⟨rfl, by simp⟩, .inl ⟨rfl, by simp⟩, .inl ⟨rfl, by simp⟩⟩

theorem fitted_keep {D : Decompositions d} {cs : List (Call d)} {o : Option (Fitted k d)} {e : Call d} (he : ¬ IsFit e)
    (h : (o = none ∧ ∀ c ∈ cs, ¬ IsFit c) ∨ ∃ n X f, LastData cs n X ∧ fitOf k D n X = .ok f ∧ o = some f) :
    (o = none ∧ ∀ c ∈ cs ++ [e], ¬ IsFit c) ∨ ∃ n X f, LastData (cs ++ [e]) n X ∧ fitOf k D n X = .ok f ∧ o = some f := by
  rcases h with ⟨h1, h2⟩ | ⟨n, X, f, h1, h2⟩
  · refine .inl ⟨h1, ?_⟩
    intro c hc
    rcases List.mem_append.mp hc with hc | hc
    · exact h2 c hc
    · rw [List.mem_singleton.mp hc]; exact he
  · exact .inr ⟨n, X, f, lastData_keep h1 he, h2⟩

theorem covariance_keep {D : Decompositions d} {cs : List (Call d)} {o : Option (Option (Matrix (Fin d) (Fin d) ℝ))} {e : Call d}
    (he : e ≠ .covariance)
    (h : (o = none ∧ Call.covariance ∉ cs) ∨ ∃ n X f, CovarianceData cs n X ∧ fitOf k D n X = .ok f ∧ o = some (covarianceOf f)) :
    (o = none ∧ Call.covariance ∉ cs ++ [e]) ∨
      ∃ n X f, CovarianceData (cs ++ [e]) n X ∧ fitOf k D n X = .ok f ∧ o = some (covarianceOf f) := by
  rcases h with ⟨h1, h2⟩ | ⟨n, X, f, h1, h2⟩
  · refine .inl ⟨h1, ?_⟩
    simp only [List.mem_append, List.mem_singleton, not_or]
    exact ⟨h2, fun h => he h.symm⟩
  · exact .inr ⟨n, X, f, covarianceData_keep h1 he, h2⟩

theorem precision_keep {D : Decompositions d} {cs : List (Call d)} {o : Option (Option (Matrix (Fin d) (Fin d) ℝ))} {e : Call d}
    (he : e ≠ .precision)
    (h : (o = none ∧ Call.precision ∉ cs) ∨
      ∃ n X f, PrecisionData cs n X ∧ fitOf k D n X = .ok f ∧ o = some (precOf D (covarianceOf f))) :
    (o = none ∧ Call.precision ∉ cs ++ [e]) ∨
      ∃ n X f, PrecisionData (cs ++ [e]) n X ∧ fitOf k D n X = .ok f ∧ o = some (precOf D (covarianceOf f)) := by
  rcases h with ⟨h1, h2⟩ | ⟨n, X, f, h1, h2⟩
  · refine .inl ⟨h1, ?_⟩
    simp only [List.mem_append, List.mem_singleton, not_or]
    exact ⟨h2, fun h => he h.symm⟩
  · exact .inr ⟨n, X, f, precisionData_keep h1 he, h2⟩

theorem reflects_keep {D : Decompositions d} {cs : List (Call d)} {st : State k d} {e : Call d} (h : Reflects D cs st)
    (h1 : ¬ IsFit e) (h2 : e ≠ .covariance) (h3 : e ≠ .precision) : Reflects D (cs ++ [e]) st :=
  ⟨fitted_keep h1 h.fitted, covariance_keep h2 h.covariance, precision_keep h3 h.precision⟩

theorem getPrecision_eq (D : Decompositions d) (st : State k d) (c : Option (Matrix (Fin d) (Fin d) ℝ)) (h : st.covariance = some c) :
    st.getPrecision D.full = .ok { st with precision := some (precOf D c) } := by
  unfold State.getPrecision
  rw [h]
  cases c <;> rfl

/-- A call keeps the relation. -/
theorem reflects_step {D : Decompositions d} {cs : List (Call d)} {st st' : State k d} {e : Call d} {s : Seen k d}
    (h : Reflects D cs st) (hs : step D st e = .ok (st', s)) : Reflects D (cs ++ [e]) st' := by
  cases e with
  | fit n X =>
    rw [step] at hs
    simp only [Res.bind_eq_ok, State.fit] at hs
    obtain ⟨_, ⟨f, hf, h1⟩, h2⟩ := hs
    cases h1
    cases h2
    exact ⟨.inr ⟨n, X, f, lastData_snoc X, hf, rfl⟩, covariance_keep (by simp) h.covariance, precision_keep (by simp) h.precision⟩
  | transform m Z =>
    rw [step] at hs
    split at hs
    · cases hs
    · cases hs
      exact reflects_keep h (by rintro ⟨n, X, h⟩; cases h) (by simp) (by simp)
  | components => cases hs; exact reflects_keep h (by rintro ⟨n, X, h⟩; cases h) (by simp) (by simp)
  | explainedVar => cases hs; exact reflects_keep h (by rintro ⟨n, X, h⟩; cases h) (by simp) (by simp)
  | explainedVarRatio => cases hs; exact reflects_keep h (by rintro ⟨n, X, h⟩; cases h) (by simp) (by simp)
  | singularValues => cases hs; exact reflects_keep h (by rintro ⟨n, X, h⟩; cases h) (by simp) (by simp)
  | covariance =>
    rw [step] at hs
    simp only [Res.bind_eq_ok, State.getCovariance] at hs
    obtain ⟨a, h1, h2⟩ := hs
    rcases h.fitted with ⟨hf, -⟩ | ⟨n, X, f, hl, hf, hst⟩
    · rw [hf] at h1; cases h1
    · rw [hst] at h1
      cases h1
      cases h2
      exact ⟨.inr ⟨n, X, f, lastData_keep hl (by rintro ⟨n, X, h⟩; cases h), hf, rfl⟩,
        .inr ⟨n, X, f, ⟨cs, splits_snoc rfl, hl⟩, hf, rfl⟩,
        precision_keep (by simp) h.precision⟩
  | precision =>
    rw [step] at hs
    simp only [Res.bind_eq_ok] at hs
    obtain ⟨a, h1, h2⟩ := hs
    rcases h.covariance with ⟨hf, -⟩ | ⟨n, X, f, hl, hf, hst⟩
    · unfold State.getPrecision at h1
      rw [hf] at h1; cases h1
    · rw [getPrecision_eq D st _ hst] at h1
      cases h1
      cases h2
      exact ⟨fitted_keep (by rintro ⟨n, X, h⟩; cases h) h.fitted, covariance_keep (by simp) h.covariance,
        .inr ⟨n, X, f, ⟨cs, splits_snoc rfl, hl⟩, hf, rfl⟩⟩
  | score m Y =>
    rw [step] at hs
    simp only [Res.bind_eq_ok] at hs
    obtain ⟨a, h1, h2⟩ := hs
    cases h2
    exact reflects_keep h (by rintro ⟨n, X, h⟩; cases h) (by simp) (by simp)

theorem run_append (D : Decompositions d) (cs es : List (Call d)) (st : State k d) :
    run D st (cs ++ es) = (do let r ← run D st cs; let t ← run D r.1 es; .ok (t.1, r.2 ++ t.2)) := by
  induction cs generalizing st with
  | nil =>
    rw [List.nil_append, run, Res.bind_ok]
    dsimp only
    cases run D st es <;> rfl
  | cons c cs ih =>
    rw [List.cons_append, run, run]
    cases step D st c with
    | ok r =>
      rw [Res.bind_ok, Res.bind_ok, ih]
      cases run D r.1 cs with
      | ok q =>
        simp only [Res.bind_ok]
        cases run D q.1 es <;> rfl
      | throw e => rfl
      | ub => rfl
      | diverge => rfl
    | throw e => rfl
    | ub => rfl
    | diverge => rfl

theorem run_one (D : Decompositions d) (c : Call d) (st : State k d) :
    run D st [c] = (do let r ← step D st c; .ok (r.1, [r.2])) := rfl

/-- The state after a program comes from its calls. -/
theorem reflects_run {D : Decompositions d} {cs : List (Call d)} {st : State k d} {seen : List (Seen k d)}
    (h : run D (State.new k d) cs = .ok (st, seen)) : Reflects D cs st := by
  induction cs using List.reverseRecOn generalizing st seen with
  | nil => cases h; exact reflects_new D
  | append_singleton cs c ih =>
    rw [run_append, Res.bind_eq_ok] at h
    obtain ⟨⟨st1, seen1⟩, h1, h2⟩ := h
    rw [run_one] at h2
    simp only [Res.bind_eq_ok] at h2
    obtain ⟨_, ⟨⟨st2, s⟩, h3, h4⟩, h5⟩ := h2
    cases h4
    cases h5
    exact reflects_step (ih h1) h3

theorem program_snoc {D : Decompositions d} {cs : List (Call d)} {c : Call d} {seen : List (Seen k d)}
    (h : program k D (cs ++ [c]) = .ok seen) :
    ∃ st seen1 st2 s, run D (State.new k d) cs = .ok (st, seen1) ∧ Reflects D cs st ∧ step D st c = .ok (st2, s) ∧
      seen = seen1 ++ [s] := by
  unfold program at h
  rw [Res.bind_eq_ok] at h
  obtain ⟨⟨st3, seen3⟩, h, h'⟩ := h
  cases h'
  rw [run_append, Res.bind_eq_ok] at h
  obtain ⟨⟨st1, seen1⟩, h1, h2⟩ := h
  rw [run_one] at h2
  simp only [Res.bind_eq_ok] at h2
  obtain ⟨_, ⟨⟨st2, s⟩, h3, h4⟩, h5⟩ := h2
  cases h4
  cases h5
  exact ⟨st1, seen1, st2, s, h1, reflects_run h1, h3, rfl⟩

theorem lastData_unique {cs : List (Call d)} {n n' : Nat} {X : Matrix (Fin n) (Fin d) ℝ} {X' : Matrix (Fin n') (Fin d) ℝ}
    (h : LastData cs n X) (h' : LastData cs n' X') : (Call.fit n X : Call d) = .fit n' X' := by
  obtain ⟨b, hb⟩ := h
  obtain ⟨b', hb'⟩ := h'
  exact (splits_unique hb hb').2

theorem covarianceData_unique {cs : List (Call d)} {n n' : Nat} {X : Matrix (Fin n) (Fin d) ℝ} {X' : Matrix (Fin n') (Fin d) ℝ}
    (h : CovarianceData cs n X) (h' : CovarianceData cs n' X') : (Call.fit n X : Call d) = .fit n' X' := by
  obtain ⟨b, hb, hd⟩ := h
  obtain ⟨b', hb', hd'⟩ := h'
  obtain ⟨rfl, -⟩ := splits_unique hb hb'
  exact lastData_unique hd hd'

theorem precisionData_unique {cs : List (Call d)} {n n' : Nat} {X : Matrix (Fin n) (Fin d) ℝ} {X' : Matrix (Fin n') (Fin d) ℝ}
    (h : PrecisionData cs n X) (h' : PrecisionData cs n' X') : (Call.fit n X : Call d) = .fit n' X' := by
  obtain ⟨b, hb, hd⟩ := h
  obtain ⟨b', hb', hd'⟩ := h'
  obtain ⟨rfl, -⟩ := splits_unique hb hb'
  exact covarianceData_unique hd hd'

theorem splits_append {p : Call d → Prop} {cs b : List (Call d)} {c : Call d} (h : SplitsAtLast p cs b c) {es : List (Call d)}
    (he : ∀ e ∈ es, ¬ p e) : SplitsAtLast p (cs ++ es) b c := by
  obtain ⟨a, rfl, hc, ha⟩ := h
  refine ⟨a ++ es, by simp, hc, ?_⟩
  intro x hx
  rcases List.mem_append.mp hx with hx | hx
  · exact ha x hx
  · exact he x hx

theorem lastData_append {cs es : List (Call d)} {n : Nat} {X : Matrix (Fin n) (Fin d) ℝ} (h : LastData cs n X)
    (he : ∀ e ∈ es, ¬ IsFit e) : LastData (cs ++ es) n X := by
  obtain ⟨b, hb⟩ := h
  exact ⟨b, splits_append hb he⟩

theorem covarianceData_append {cs es : List (Call d)} {n : Nat} {X : Matrix (Fin n) (Fin d) ℝ} (h : CovarianceData cs n X)
    (he : Call.covariance ∉ es) : CovarianceData (cs ++ es) n X := by
  obtain ⟨b, hb, hd⟩ := h
  exact ⟨b, splits_append hb fun e h1 h2 => he (h2 ▸ h1), hd⟩

theorem precisionData_append {cs es : List (Call d)} {n : Nat} {X : Matrix (Fin n) (Fin d) ℝ} (h : PrecisionData cs n X)
    (he : Call.precision ∉ es) : PrecisionData (cs ++ es) n X := by
  obtain ⟨b, hb, hd⟩ := h
  exact ⟨b, splits_append hb fun e h1 h2 => he (h2 ▸ h1), hd⟩

theorem splits_mem {p : Call d → Prop} {cs b : List (Call d)} {c : Call d} (h : SplitsAtLast p cs b c) : c ∈ cs ∧ ∀ e ∈ b, e ∈ cs := by
  obtain ⟨a, rfl, -, -⟩ := h
  exact ⟨by simp, fun e he => by simp [he]⟩

theorem precisionData_mem {cs : List (Call d)} {n : Nat} {X : Matrix (Fin n) (Fin d) ℝ} (h : PrecisionData cs n X) :
    Call.fit n X ∈ cs := by
  obtain ⟨b, hb, b', hb', b'', hb''⟩ := h
  exact (splits_mem hb).2 _ ((splits_mem hb').2 _ (splits_mem hb'').1)

/-- A fit from nothing. -/
theorem program_fit {D : Decompositions d} {n : Nat} {X : Matrix (Fin n) (Fin d) ℝ} {f : Fitted k d} (hf : fitOf k D n X = .ok f)
    (cs : List (Call d)) :
    program k D (.fit n X :: cs) = (do let r ← run D ⟨some f, none, none⟩ cs; .ok (.done :: r.2)) := by
  unfold program
  rw [run, step, State.fit]
  have : PCA.fit k (D.thin n (LinAlg.center X)).1 (D.thin n (LinAlg.center X)).2.1 (D.thin n (LinAlg.center X)).2.2 = .ok f := hf
  rw [this]
  simp only [Res.bind_ok]
  show (Res.bind (Res.bind (run D ⟨some f, none, none⟩ cs) _) _) = _
  cases run D (⟨some f, none, none⟩ : State k d) cs <;> rfl

/-- `get_precision` after `get_covariance` after `fit`. -/
theorem run_precision (D : Decompositions d) (f : Fitted k d) (cs : List (Call d)) :
    run D (⟨some f, none, none⟩ : State k d) (.covariance :: .precision :: cs) =
      (do let r ← run D ⟨some f, some (covarianceOf f), some (precOf D (covarianceOf f))⟩ cs
          .ok (r.1, .square (covarianceOf f) :: .square (precOf D (covarianceOf f)) :: r.2)) := by
  rw [run, step, State.getCovariance]
  simp only [Res.bind_ok]
  rw [run, step, getPrecision_eq D _ (covarianceOf f) rfl]
  simp only [Res.bind_ok]
  cases run D (⟨some f, some (covarianceOf f), some (precOf D (covarianceOf f))⟩ : State k d) cs <;> rfl

theorem score_congr (D : Decompositions d) {m : Nat} (Y : Matrix (Fin m) (Fin d) ℝ) {st st' : State k d}
    (h : st.precision = st'.precision) : st.score D.lu Y = st'.score D.lu Y := by
  unfold State.score
  rw [h]

/-- Which calls are defined. -/
theorem step_allowed {D : Decompositions d} {cs : List (Call d)} {st : State k d} {e : Call d} (h : Reflects D cs st)
    (hp : ProperData D [e]) :
    (Allowed k cs e → ∃ r, step D st e = .ok r) ∧ (¬ Allowed k cs e → step D st e = .ub) := by
  have hfit : (∃ c ∈ cs, IsFit c) ↔ ∃ f, st.fitted = some f := by
    rcases h.fitted with ⟨h1, h2⟩ | ⟨n, X, f, ⟨b, hb⟩, -, h3⟩
    · rw [h1]
      constructor
      · rintro ⟨c, hc, hf⟩; exact absurd hf (h2 c hc)
      · rintro ⟨f, hf⟩; cases hf
    · exact ⟨fun _ => ⟨f, h3⟩, fun _ => ⟨_, (splits_mem hb).1, n, X, rfl⟩⟩
  have hcov : Call.covariance ∈ cs ↔ ∃ c, st.covariance = some c := by
    rcases h.covariance with ⟨h1, h2⟩ | ⟨n, X, f, ⟨b, hb, -⟩, -, h3⟩
    · rw [h1]
      exact ⟨fun h => absurd h h2, by rintro ⟨f, hf⟩; cases hf⟩
    · exact ⟨fun _ => ⟨_, h3⟩, fun _ => (splits_mem hb).1⟩
  have hpre : Call.precision ∈ cs ↔ ∃ c, st.precision = some c := by
    rcases h.precision with ⟨h1, h2⟩ | ⟨n, X, f, ⟨b, hb, -⟩, -, h3⟩
    · rw [h1]
      exact ⟨fun h => absurd h h2, by rintro ⟨f, hf⟩; cases hf⟩
    · exact ⟨fun _ => ⟨_, h3⟩, fun _ => (splits_mem hb).1⟩
  cases e with
  | fit n X =>
    obtain ⟨hn, hsvd⟩ := hp n X (by simp)
    obtain ⟨σ, -, -, hf⟩ := fit_ok (k := k) hn hsvd
    have he : step D st (.fit n X) = (do
        let f ← fitOf k D n X
        .ok (({ st with fitted := some f } : State k d), (.done : Seen k d))) := by
      rw [step, State.fit, fitOf]
      simp only [center_eq]
      cases PCA.fit k (D.thin n (centred X)).1 (D.thin n (centred X)).2.1 (D.thin n (centred X)).2.2 <;> rfl
    rw [he, fitOf, hf]
    constructor
    · intro hk
      rw [dif_pos (show k ≤ min n d from hk), Res.bind_ok]
      exact ⟨_, rfl⟩
    · intro hk
      rw [dif_neg (show ¬ k ≤ min n d from hk)]
      rfl
  | transform m Z =>
    show ((∃ c ∈ cs, IsFit c) → _) ∧ (¬ (∃ c ∈ cs, IsFit c) → _)
    rw [hfit, step]
    cases st.fitted with
    | none => exact ⟨(by rintro ⟨f, hf⟩; cases hf), fun _ => rfl⟩
    | some f => exact ⟨fun _ => ⟨_, rfl⟩, fun h => absurd ⟨f, rfl⟩ h⟩
  | components => exact ⟨fun _ => ⟨_, rfl⟩, fun h => absurd trivial h⟩
  | explainedVar => exact ⟨fun _ => ⟨_, rfl⟩, fun h => absurd trivial h⟩
  | explainedVarRatio => exact ⟨fun _ => ⟨_, rfl⟩, fun h => absurd trivial h⟩
  | singularValues => exact ⟨fun _ => ⟨_, rfl⟩, fun h => absurd trivial h⟩
  | covariance =>
    show ((∃ c ∈ cs, IsFit c) → _) ∧ (¬ (∃ c ∈ cs, IsFit c) → _)
    rw [hfit, step, State.getCovariance]
    cases st.fitted with
    | none => exact ⟨(by rintro ⟨f, hf⟩; cases hf), fun _ => rfl⟩
    | some f => exact ⟨fun _ => ⟨_, rfl⟩, fun h => absurd ⟨f, rfl⟩ h⟩
  | precision =>
    show (Call.covariance ∈ cs → _) ∧ (Call.covariance ∉ cs → _)
    rw [hcov, step]
    constructor
    · rintro ⟨c, hc⟩
      rw [getPrecision_eq D st c hc]
      exact ⟨_, rfl⟩
    · intro hc
      unfold State.getPrecision
      cases hcs : st.covariance with
      | none => rfl
      | some c => exact absurd ⟨c, hcs⟩ hc
  | score m Y =>
    show (Call.precision ∈ cs → _) ∧ (Call.precision ∉ cs → _)
    rw [hpre, step]
    unfold State.score
    constructor
    · rintro ⟨c, hc⟩
      rw [hc]
      cases c with
      | none => exact ⟨_, rfl⟩
      | some P =>
        dsimp only
        cases LinAlg.logdet (D.lu P).1 (D.lu P).2 <;> exact ⟨_, rfl⟩
    · intro hc
      cases hcs : st.precision with
      | none => rfl
      | some c => exact absurd ⟨c, hcs⟩ hc

end OpenML.PCAObject
