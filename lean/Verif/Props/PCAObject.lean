import Verif.Lemmas.PCAObject

/-!
# Programs with a PCA object (C165)
-/

namespace OpenML

open Matrix PCA Spec PCAObject

namespace PCAObject

/-- Decompositions for the examples: of the example data (four samples) and of two equal samples. -/
noncomputable def exampleDec : Decompositions 2 where
  thin := fun n _ => match n with
    | 4 => (exampleU, ![4, 2], exampleV)
    | 2 => ((1 : Matrix (Fin 2) (Fin 2) ℝ), 0, (1 : Matrix (Fin 2) (Fin 2) ℝ))
    | _ => (0, 0, 0)
  full := fun c => (1, fun i => if i = 0 then c 0 0 else c 1 1, 1)
  lu := fun c => (1, fun i => c i i)

/-- Two equal samples. -/
noncomputable def equalSamples : Matrix (Fin 2) (Fin 2) ℝ := fun _ _ => 7

theorem equalSamples_svd : IsThinSVD (n := 2) (k := 2) (centred equalSamples) 1 0 1 := by
  refine ⟨by simp, by simp, fun _ => le_rfl, fun _ _ _ => le_rfl, ?_⟩
  ext i j
  simp [centred, columnMean, equalSamples]

theorem example_proper (cs : List (Call 2))
    (h : ∀ n X, Call.fit n X ∈ cs → (Call.fit n X : Call 2) = .fit 4 exampleData ∨ (Call.fit n X : Call 2) = .fit 2 equalSamples) :
    ProperData exampleDec cs := by
  intro n X hX
  rcases h n X hX with h | h
  · cases h
    exact ⟨by norm_num, example_svd⟩
  · cases h
    exact ⟨by norm_num, equalSamples_svd⟩

end PCAObject

/-- C165: a program is defined exactly if every `fit` gets at least as many samples and features as components, and every other call
comes after those it needs: `transform` and `get_covariance` after a `fit`, `get_precision` after a `get_covariance`, `score` after a
`get_precision`. Otherwise an assertion is violated. -/
theorem C165_defined {k d : Nat} (D : Decompositions d) (cs : List (Call d)) (hp : ProperData D cs) :
    ((∀ before c after, cs = before ++ c :: after → Allowed k before c) →
      ∃ seen, program k D cs = .ok seen ∧ seen.length = cs.length) ∧
    ((∃ before c after, cs = before ++ c :: after ∧ ¬ Allowed k before c) → program k D cs = .ub) := by
  have main : ((∀ before c after, cs = before ++ c :: after → Allowed k before c) →
      ∃ r, run D (State.new k d) cs = .ok r ∧ r.2.length = cs.length) ∧
    ((∃ before c after, cs = before ++ c :: after ∧ ¬ Allowed k before c) → run D (State.new k d) cs = .ub) := by
    induction cs using List.reverseRecOn with
    | nil => exact ⟨fun _ => ⟨_, rfl, rfl⟩, by rintro ⟨b, c, a, h, -⟩; simp at h⟩
    | append_singleton cs e ih =>
      obtain ⟨ih1, ih2⟩ := ih fun n X h => hp n X (by simp [h])
      have hpe : ProperData D [e] := fun n X h => hp n X (by rw [List.mem_singleton] at h; simp [h])
      constructor
      · intro h
        obtain ⟨⟨st, seen⟩, hr, hl⟩ := ih1 fun b c a hc => h b c (a ++ [e]) (by rw [hc]; simp)
        obtain ⟨⟨st2, s⟩, hs⟩ := (step_allowed (reflects_run hr) hpe).1 (h cs e [] rfl)
        refine ⟨(st2, seen ++ [s]), ?_, ?_⟩
        · rw [run_append, hr, Res.bind_ok, run_one, hs]
          rfl
        · simpa using hl
      · rintro ⟨b, c, a, hc, hn⟩
        rcases List.eq_nil_or_concat a with rfl | ⟨a', e', rfl⟩
        · obtain ⟨rfl, h2⟩ := List.append_inj' hc rfl
          obtain rfl := List.singleton_inj.mp h2
          by_cases hall : ∀ before c after, cs = before ++ c :: after → Allowed k before c
          · obtain ⟨⟨st, seen⟩, hr, -⟩ := ih1 hall
            rw [run_append, hr, Res.bind_ok, run_one, (step_allowed (reflects_run hr) hpe).2 hn]
            rfl
          · push Not at hall
            rw [run_append, ih2 hall]
            rfl
        · have hc' : cs ++ [e] = (b ++ c :: a') ++ [e'] := by rw [hc]; simp
          obtain ⟨h1, -⟩ := List.append_inj' hc' rfl
          rw [run_append, ih2 ⟨b, c, a', h1, hn⟩]
          rfl
  unfold program
  constructor
  · intro h
    obtain ⟨r, hr, hl⟩ := main.1 h
    exact ⟨r.2, by rw [hr]; rfl, hl⟩
  · intro h
    rw [main.2 h]
    rfl

/-- Example for C165: all calls in a good order, with a second fit in between; the score without `get_precision` is not allowed. -/
example : (∃ seen, program 1 exampleDec [.components, .fit 4 exampleData, .covariance, .precision, .fit 2 equalSamples,
      .transform 2 equalSamples, .score 4 exampleData] = .ok seen ∧ seen.length = 7) ∧
    program 1 exampleDec [.fit 4 exampleData, .covariance, .score 4 exampleData] = .ub := by
  constructor
  · refine (C165_defined exampleDec _ (example_proper _ ?_)).1 ?_
    · intro n X h
      simpa using h
    · intro b c a h
      have hb : b.length < 7 := by
        have := congrArg List.length h
        simp at this
        omega
      have hbt : b = List.take b.length (b ++ c :: a) := by simp
      have hc : (b ++ c :: a)[b.length]? = some c := by simp
      rw [← h] at hbt hc
      generalize b.length = i at hb hbt hc
      subst hbt
      interval_cases i <;> simp at hc <;> subst hc <;> simp [Allowed, IsFit]
      exact ⟨4, exampleData, .inl ⟨rfl, HEq.rfl⟩⟩
  · refine (C165_defined exampleDec _ (example_proper _ ?_)).2 ⟨[.fit 4 exampleData, .covariance], _, [], rfl, by simp [Allowed]⟩
    intro n X h
    left
    simpa using h

/-- C165: `transform`, the getters and `get_covariance` answer as a new object would that has only been given the data of the last
call of `fit`, whatever happened before. Without any `fit` the getters return empty matrices. -/
theorem C165_latest {k d : Nat} (D : Decompositions d) (cs : List (Call d)) (c : Call d) (hc : AsksLastFit c) (seen : List (Seen k d))
    (h : program k D (cs ++ [c]) = .ok seen) :
    (∃ n X s, LastData cs n X ∧ program k D [.fit n X, c] = .ok [.done, s] ∧ seen.getLast? = some s) ∨
    (∀ e ∈ cs, ¬ IsFit e) ∧ program k D [c] = .ok [.empty] ∧ seen.getLast? = some .empty := by
  obtain ⟨st, seen1, st2, s, hr, hR, hs, rfl⟩ := program_snoc h
  rcases hR.fitted with ⟨h1, h2⟩ | ⟨n, X, f, h1, h2, h3⟩
  · right
    refine ⟨h2, ?_⟩
    cases hc <;> rw [step] at hs
    · rw [h1] at hs; cases hs
    · rw [getter, h1] at hs; cases hs; exact ⟨rfl, by simp⟩
    · rw [getter, h1] at hs; cases hs; exact ⟨rfl, by simp⟩
    · rw [getter, h1] at hs; cases hs; exact ⟨rfl, by simp⟩
    · rw [getter, h1] at hs; cases hs; exact ⟨rfl, by simp⟩
    · rw [State.getCovariance, h1] at hs; cases hs
  · left
    refine ⟨n, X, s, h1, ?_, by simp⟩
    rw [program_fit h2]
    cases hc <;> rw [step] at hs
    · rw [h3] at hs; cases hs; rfl
    · rw [getter, h3] at hs; cases hs; rfl
    · rw [getter, h3] at hs; cases hs; rfl
    · rw [getter, h3] at hs; cases hs; rfl
    · rw [getter, h3] at hs; cases hs; rfl
    · rw [State.getCovariance, h3] at hs; cases hs; rfl

/-- Example for C165: a program whose last question comes after two calls of `fit`. -/
example : ∃ seen, program 1 exampleDec ([.fit 4 exampleData, .covariance, .fit 2 equalSamples] ++ [.components]) = .ok seen := by
  refine (C165_defined exampleDec _ (example_proper _ ?_)).1 ?_ |>.imp fun _ h => h.1
  · intro n X h
    simpa using h
  · intro b c a h
    have hb : b.length < 4 := by
      have := congrArg List.length h
      simp at this
      omega
    have hbt : b = List.take b.length (b ++ c :: a) := by simp
    have hc : (b ++ c :: a)[b.length]? = some c := by simp
    rw [← h] at hbt hc
    generalize b.length = i at hb hbt hc
    subst hbt
    interval_cases i <;> simp at hc <;> subst hc <;> simp [Allowed, IsFit]

/-- C165: `get_precision` answers from the data that had been fitted when `get_covariance` was called last, which need not be the data
of the last `fit`. -/
theorem C165_precision {k d : Nat} (D : Decompositions d) (cs : List (Call d)) (seen : List (Seen k d))
    (h : program k D (cs ++ [.precision]) = .ok seen) :
    ∃ n X C P, CovarianceData cs n X ∧ program k D [.fit n X, .covariance, .precision] = .ok [.done, .square C, .square P] ∧
      seen.getLast? = some (.square P) := by
  obtain ⟨st, seen1, st2, s, hr, hR, hs, rfl⟩ := program_snoc h
  rw [step, Res.bind_eq_ok] at hs
  obtain ⟨st3, h1, h2⟩ := hs
  rcases hR.covariance with ⟨hc, -⟩ | ⟨n, X, f, hd, hf, hc⟩
  · unfold State.getPrecision at h1
    rw [hc] at h1; cases h1
  · rw [getPrecision_eq D st _ hc] at h1
    cases h1
    cases h2
    refine ⟨n, X, covarianceOf f, precOf D (covarianceOf f), hd, ?_, by simp⟩
    rw [program_fit hf, run_precision]
    rfl

/-- C165: `score` answers from the data that had been fitted when `get_covariance` was called last before the last call of
`get_precision`. -/
theorem C165_score {k d m : Nat} (D : Decompositions d) (cs : List (Call d)) (Y : Matrix (Fin m) (Fin d) ℝ) (seen : List (Seen k d))
    (h : program k D (cs ++ [.score m Y]) = .ok seen) :
    ∃ n X C P a, PrecisionData cs n X ∧
      program k D [.fit n X, .covariance, .precision, .score m Y] = .ok [.done, .square C, .square P, .number a] ∧
      seen.getLast? = some (.number a) := by
  obtain ⟨st, seen1, st2, s, hr, hR, hs, rfl⟩ := program_snoc h
  rw [step, Res.bind_eq_ok] at hs
  obtain ⟨a, h1, h2⟩ := hs
  cases h2
  rcases hR.precision with ⟨hc, -⟩ | ⟨n, X, f, hd, hf, hc⟩
  · unfold State.score at h1
    rw [hc] at h1; cases h1
  · refine ⟨n, X, covarianceOf f, precOf D (covarianceOf f), a, hd, ?_, by simp⟩
    rw [program_fit hf, run_precision, run_one, step,
      score_congr D Y (st' := st) (show some (precOf D (covarianceOf f)) = st.precision from hc.symm), h1]
    rfl

/-- Example for C165: the hypotheses hold for a program in which the three kinds of data differ, and the data that matter are the
first. -/
example : PrecisionData ([.fit 4 exampleData, .covariance, .fit 2 equalSamples, .precision, .covariance] : List (Call 2)) 4 exampleData ∧
    ∃ seen, program 1 exampleDec ([.fit 4 exampleData, .covariance, .fit 2 equalSamples, .precision, .covariance] ++
      [.score 4 exampleData]) = .ok seen := by
  constructor
  · refine ⟨[.fit 4 exampleData, .covariance, .fit 2 equalSamples], ⟨[.covariance], rfl, rfl, by simp⟩, [.fit 4 exampleData],
      ⟨[.fit 2 equalSamples], rfl, rfl, by simp⟩, [], [], rfl, ⟨4, exampleData, rfl⟩, by simp⟩
  · refine (C165_defined exampleDec _ (example_proper _ ?_)).1 ?_ |>.imp fun _ h => h.1
    · intro n X h
      simpa using h
    · intro b c a h
      have hb : b.length < 6 := by
        have := congrArg List.length h
        simp at this
        omega
      have hbt : b = List.take b.length (b ++ c :: a) := by simp
      have hc : (b ++ c :: a)[b.length]? = some c := by simp
      rw [← h] at hbt hc
      generalize b.length = i at hb hbt hc
      subst hbt
      interval_cases i <;> simp at hc <;> subst hc <;> simp [Allowed, IsFit]

/-- C165: the score in any program is the mean log density of the rows under the normal distribution with their mean and the covariance
`C` that a new object reports for the data that matter, if all eigenvalues of `C` exceed the cut-off of the pseudo-inverse. -/
theorem C165_density {k d m n : Nat} (D : Decompositions d) (cs : List (Call d)) (hp : ProperData D cs) (Y : Matrix (Fin m) (Fin d) ℝ)
    (seen : List (Seen k d)) (h : program k D (cs ++ [.score m Y]) = .ok seen) (X : Matrix (Fin n) (Fin d) ℝ)
    (hX : PrecisionData cs n X) (C : Matrix (Fin d) (Fin d) ℝ)
    (hC : program k D [.fit n X, .covariance] = .ok [.done, .square (some C)])
    (hsv : IsFullSVD C (D.full C).1 (D.full C).2.1 (D.full C).2.2)
    (hlu : ∃ L U, IsPartialPivLU C⁻¹ (D.lu C⁻¹).1 L U ∧ ∀ i, (D.lu C⁻¹).2 i = U i i)
    (hpos : ∀ u, u ≠ 0 → 1 / 1000000 * (u ⬝ᵥ u) < u ⬝ᵥ (C *ᵥ u)) :
    seen.getLast? = some (.number (some (((∑ i, logNormal (columnMean Y) C (Y i)) / (m : ℝ) : ℝ) : WithBot ℝ))) := by
  obtain ⟨st, seen1, st2, s, hr, hR, hs, rfl⟩ := program_snoc h
  rw [step, Res.bind_eq_ok] at hs
  obtain ⟨a, h1, h2⟩ := hs
  cases h2
  rcases hR.precision with ⟨hc, -⟩ | ⟨n', X', f, hd, hf, hc⟩
  · unfold State.score at h1
    rw [hc] at h1; cases h1
  · cases precisionData_unique hX hd
    have hCf : covarianceOf f = some C := by
      rw [program_fit hf] at hC
      have h3 : run D (⟨some f, none, none⟩ : State k d) [.covariance] = .ok (⟨some f, some (covarianceOf f), none⟩, [.square (covarianceOf f)]) := rfl
      rw [h3, Res.bind_ok] at hC
      have h4 := Res.ok.inj hC
      simpa using h4
    obtain ⟨hn, hsvd⟩ := hp n X (precisionData_mem hX)
    have hn2 : 2 ≤ n := by
      by_contra hlt
      obtain rfl : n = 1 := by omega
      obtain ⟨σ, -, -, hfe⟩ := fit_ok (k := k) hn hsvd
      rw [fitOf, hfe] at hf
      split at hf
      · cases hf
        rw [covarianceOf, explainedAll, if_pos rfl] at hCf
        cases hCf
      · cases hf
    obtain ⟨e, v, C', he, hv, hC', hsym, -⟩ := C85_covariance X _ _ _ hn2 hsvd f hf
    obtain rfl : C = C' := by rw [hCf] at hC'; exact Option.some.inj hC'
    have h3 := (score_eq D.full D.lu C hsv hlu hsym hpos (⟨some f, some (some C), none⟩ : State k d) _ rfl
      (getPrecision_eq D _ (some C) rfl) Y).2.2 st (by rw [hc, hCf])
    rw [h3] at h1
    cases h1
    simp

/-- Example for C165: what the example object reports after the first fit; the contracts hold, and the eigenvalues exceed the
cut-off. -/
example : ∃ C : Matrix (Fin 2) (Fin 2) ℝ, program 1 exampleDec [.fit 4 exampleData, .covariance] = .ok [.done, .square (some C)] ∧
    IsFullSVD C (exampleDec.full C).1 (exampleDec.full C).2.1 (exampleDec.full C).2.2 ∧
    (∃ L U, IsPartialPivLU C⁻¹ (exampleDec.lu C⁻¹).1 L U ∧ ∀ i, (exampleDec.lu C⁻¹).2 i = U i i) ∧
    ∀ u, u ≠ 0 → 1 / 1000000 * (u ⬝ᵥ u) < u ⬝ᵥ (C *ᵥ u) := by
  obtain ⟨f, hf, hv, hC⟩ := example_cov
  refine ⟨diagonal ![16 / 3, 4 / 3], ?_, ⟨by simp [exampleDec], by simp [exampleDec], ?_, ?_⟩,
    ⟨1, (diagonal ![16 / 3, 4 / 3])⁻¹, ⟨by simp [exampleDec], ?_, by simp, ?_⟩, fun i => rfl⟩, ?_⟩
  · rw [program_fit (f := f) (by exact hf)]
    rw [← hC]
    rfl
  · intro i _ _
    simp only [exampleDec]
    split <;> norm_num
  · simp only [exampleDec]
    rw [Matrix.one_mul, transpose_one, Matrix.mul_one]
    ext i j
    fin_cases i <;> fin_cases j <;> norm_num
  · intro i j hij
    exact one_apply_ne hij.ne
  · intro i j hij
    rw [inv_diagonal, diagonal_apply_ne _ hij.ne']
  · intro u hu
    have h1 : u ⬝ᵥ (diagonal ![16 / 3, 4 / 3] *ᵥ u) = 16 / 3 * u 0 ^ 2 + 4 / 3 * u 1 ^ 2 := by
      simp [dotProduct, mulVec_diagonal, Fin.sum_univ_two]
      ring
    have h2 : u ⬝ᵥ u = u 0 ^ 2 + u 1 ^ 2 := by
      simp [dotProduct, Fin.sum_univ_two]
      ring
    have h3 := dot_self_pos hu
    rw [h2] at h3
    rw [h1, h2]
    nlinarith [sq_nonneg (u 0), sq_nonneg (u 1)]

/-- C165: as long as `get_precision` is not called again `score` gives the same number for the same samples, and as long as
`get_covariance` is not called again `get_precision` gives the same matrix, whatever else is called, also `fit`. -/
theorem C165_frozen {k d m : Nat} (D : Decompositions d) (cs es : List (Call d)) (Y : Matrix (Fin m) (Fin d) ℝ)
    (seen seen' : List (Seen k d)) :
    (.precision ∉ es → program k D (cs ++ [.score m Y]) = .ok seen → program k D (cs ++ es ++ [.score m Y]) = .ok seen' →
      seen'.getLast? = seen.getLast?) ∧
    (.covariance ∉ es → program k D (cs ++ [.precision]) = .ok seen → program k D (cs ++ es ++ [.precision]) = .ok seen' →
      seen'.getLast? = seen.getLast?) := by
  constructor
  · intro he h h'
    obtain ⟨n, X, C, P, a, hd, h1, h2⟩ := C165_score D cs Y seen h
    obtain ⟨n', X', C', P', a', hd', h1', h2'⟩ := C165_score D (cs ++ es) Y seen' h'
    cases precisionData_unique (precisionData_append hd he) hd'
    rw [h1] at h1'
    have := Res.ok.inj h1'
    simp only [List.cons.injEq] at this
    rw [h2, h2', this.2.2.2.1]
  · intro he h h'
    obtain ⟨n, X, C, P, hd, h1, h2⟩ := C165_precision D cs seen h
    obtain ⟨n', X', C', P', hd', h1', h2'⟩ := C165_precision D (cs ++ es) seen' h'
    cases covarianceData_unique (covarianceData_append hd he) hd'
    rw [h1] at h1'
    have := Res.ok.inj h1'
    simp only [List.cons.injEq] at this
    rw [h2, h2', this.2.2.1]

/-- Example for C165: the score before and after a second `fit` are both defined. -/
example : Call.precision ∉ ([.fit 2 equalSamples, .covariance] : List (Call 2)) ∧
    (∃ seen, program 1 exampleDec ([.fit 4 exampleData, .covariance, .precision] ++ [.score 4 exampleData]) = .ok seen) ∧
    ∃ seen, program 1 exampleDec ([.fit 4 exampleData, .covariance, .precision] ++ [.fit 2 equalSamples, .covariance] ++
      [.score 4 exampleData]) = .ok seen := by
  refine ⟨by simp, ?_, ?_⟩
  all_goals
    refine (C165_defined exampleDec _ (example_proper _ ?_)).1 ?_ |>.imp fun _ h => h.1
    · intro n X h
      simp at h
      simp [h]
    · intro b c a h
      have hb : b.length < 6 := by
        have := congrArg List.length h
        simp at this
        omega
      have hbt : b = List.take b.length (b ++ c :: a) := by simp
      have hc : (b ++ c :: a)[b.length]? = some c := by simp
      rw [← h] at hbt hc
      generalize b.length = i at hb hbt hc
      subst hbt
      interval_cases i <;> simp at hc <;> subst hc <;> simp [Allowed, IsFit]

/-- C165: what a program reads after fitting at least two samples: orthonormal components, their variances, which are the largest possible,
the square roots of the sums of squares of the transformed data, the ratios of the variances to that of all features, and the
products of the centred new samples with the components. -/
theorem C165_values {k d n m : Nat} (D : Decompositions d) (X : Matrix (Fin n) (Fin d) ℝ) (hp : ProperData D [.fit n X]) (hn : 2 ≤ n)
    (hk : k ≤ min n d) (Z : Matrix (Fin m) (Fin d) ℝ) :
    ∃ (C : Matrix (Fin k) (Fin d) ℝ) (e : Fin k → ℝ) (r : Option (Fin k → ℝ)) (σ : Fin k → ℝ),
      program k D [.fit n X, .transform m Z, .components, .explainedVar, .explainedVarRatio, .singularValues] =
        .ok [.done, .projected m (centred Z * Cᵀ), .components C, .vector (some e), .vector r, .vector (some σ)] ∧
      C * Cᵀ = 1 ∧
      (∀ i, e i = sampleVar (X *ᵥ C i) ∧ ∀ v : Fin d → ℝ, v ⬝ᵥ v = 1 → (∀ j < i, C j ⬝ᵥ v = 0) → sampleVar (X *ᵥ v) ≤ e i) ∧
      (∀ i, σ i = Real.sqrt (∑ a, (centred X * Cᵀ) a i ^ 2)) ∧
      (r = none ↔ ∑ j, sampleVar (fun i => X i j) = 0) ∧
      ∀ r', r = some r' → ∀ i, r' i = e i / ∑ j, sampleVar (fun i => X i j) := by
  obtain ⟨-, hsvd⟩ := hp n X (by simp)
  obtain ⟨f, hf⟩ := (C84_defined X _ _ _ (by omega) hsvd).mpr hk
  obtain ⟨h1, ⟨e, he, hcov, -⟩, h3, -, -⟩ := C84_components X _ _ _ hn hsvd f hf
  obtain ⟨h4, h5, -⟩ := C84_ratio X _ _ _ hn hsvd f hf
  refine ⟨f.components, e, f.ratio, f.singular, ?_, h1, ?_, h3, h4, ?_⟩
  · have hf' : PCA.fit k (D.thin n (LinAlg.center X)).1 (D.thin n (LinAlg.center X)).2.1 (D.thin n (LinAlg.center X)).2.2 = .ok f := hf
    unfold program
    rw [run, step, State.fit, hf', ← he]
    rfl
  · intro i
    obtain ⟨e', he', h6, h7⟩ := C84_max_variance X _ _ _ hn hsvd f hf i
    rw [he] at he'
    cases he'
    exact ⟨h6.symm, h7⟩
  · intro r' hr i
    have h6 : sampleVar (fun a => PCA.transform f X a i) = sampleCov (PCA.transform f X) i i := by
      simp only [sampleVar, sampleCov, of_apply, columnMean, sq]
    rw [h5 r' hr i, h6, hcov, diagonal_apply_eq]

/-- Example: the example data. -/
example : ProperData exampleDec [.fit 4 exampleData] ∧ 2 ≤ 4 ∧ 1 ≤ min 4 2 :=
  ⟨example_proper _ (by intro n X h; exact .inl (List.mem_singleton.mp h)), by norm_num, by norm_num⟩

end OpenML
