import Verif.Lemmas.NaiveBayesObject

/-!
# C164: naive Bayes objects in programs
-/

set_option linter.unusedSectionVars false

namespace OpenML
open Spec NB NBObject

namespace NBObject

theorem gaussianInv_run (checked : Bool) (s : ℝ) (as : List (Action Moment)) (hp : ProperFits (fitCalls as))
    (o : Object (Gaussian ℝ)) (seen : List Seen) (h : run (gaussian checked s) (construct (gaussian checked s)) as = .ok (o, seen)) :
    GaussianInv s (fitCalls as) o := by
  have := run_keeps (gaussian checked s) (GaussianInv s)
    (fun cs o X y o' sn ho hx hne hf => gaussianInv_fit checked s cs o X y o' sn ho hx hne hf) as hp [] _ o seen
    ⟨⟨rfl, rfl⟩, fun _ => rfl, fun before X y after he => by simpa using he.1⟩ h
  simpa using this

theorem multinomialInv_run (checked : Bool) (alpha : ℝ) (as : List (Action Unit)) (hp : ProperFits (fitCalls as))
    (o : Object (Counts ℝ)) (seen : List Seen)
    (h : run (multinomial checked alpha) (construct (multinomial checked alpha)) as = .ok (o, seen)) :
    MultinomialInv (fitCalls as) o := by
  have := run_keeps (multinomial checked alpha) MultinomialInv
    (fun cs o X y o' sn ho hx hne hf => multinomialInv_fit checked alpha cs o X y o' sn ho hx hne hf) as hp [] _ o seen
    ⟨⟨rfl, rfl⟩, by simp, fun _ => rfl, fun before X y after he => by simpa using he.1⟩ h
  simpa using this

theorem reports_of_inv {θ Q : Type} (K : Kind θ Q) (cs : List (DMat ℝ × List ℝ)) (o : Object θ) (h : Inv cs o) :
    ∃ cl, answer K o .classes = .ok (.vector cl) ∧ cl.Pairwise (· < ·) ∧ (∀ b, b ∈ cl ↔ b ∈ allLabels cs) ∧
      (cs = [] → answer K o .priors = .ok (.vector [])) ∧
      ∀ c, cs.getLast? = some c → answer K o .priors = .ok (.vector (cl.map fun b => ((allLabels cs).count b : ℝ) / c.2.length)) := by
  have ha := holds_after (cs.map Prod.snd)
  refine ⟨classesOf o.labelMap, rfl, by rw [h.map]; exact ha.sorted, fun b => by rw [h.map]; exact ha.keys b, ?_, fun c hc => ?_⟩
  · rintro rfl
    simp only [answer, h.priors]
    rfl
  · simp only [answer, h.priors, hc, Option.map_some, Option.getD_some, h.map]
    congr 2
    have := (priors_spec _ _ ha c.2.length).1
    rw [List.forall₂_iff_get] at this
    apply List.ext_getElem
    · rw [List.length_map]; exact this.1.symm
    · intro i h1 h2
      rw [List.getElem_map]
      rw [List.length_map] at h2
      exact this.2 i h2 h1

theorem mapRes_after {β γ δ : Type} (f : β → Res γ) (g : γ → δ) (l : List β) :
    mapRes (fun x => f x >>= fun a => .ok (g a)) l = (mapRes f l >>= fun r => .ok (r.map g)) := by
  induction l with
  | nil => rfl
  | cons a l ih =>
    simp only [mapRes]
    rw [ih]
    cases f a with
    | ok b => simp only [Res.bind_ok]; cases mapRes f l <;> rfl
    | throw e => rfl
    | ub => rfl
    | diverge => rfl

/-- Another first prior shifts all joint log likelihoods. -/
theorem gaussianJLL_shift (checked : Bool) (p q : ℝ) (ps qs : List ℝ) (hl : ps.length = qs.length) (g : Gaussian ℝ) (Z : DMat ℝ) :
    gaussianJLL checked (q :: qs) g Z = (gaussianJLL checked (p :: ps) g Z >>= fun J =>
      .ok ⟨J.ncols, J.rows.map fun r => r.map (· + (Real.log q - Real.log p))⟩) := by
  have h1 : ∀ x, mapRes (fun (mv : List ℝ × List ℝ) => do
      let ll ← gaussianLL mv.1 mv.2 x
      if checked = true ∧ (q :: qs).length ≠ 1 then .ub
      else do
        let p ← readAt (q :: qs) 0
        .ok (ll + Real.log p)) (g.mean.zip g.var) = (mapRes (fun (mv : List ℝ × List ℝ) => do
      let ll ← gaussianLL mv.1 mv.2 x
      if checked = true ∧ (p :: ps).length ≠ 1 then .ub
      else do
        let p ← readAt (p :: ps) 0
        .ok (ll + Real.log p)) (g.mean.zip g.var) >>= fun r => .ok (r.map (· + (Real.log q - Real.log p)))) := by
    intro x
    rw [← mapRes_after]
    congr 1
    funext mv
    cases gaussianLL mv.1 mv.2 x with
    | ok ll =>
      simp only [Res.bind_ok, List.length_cons, hl]
      split
      · rfl
      · simp only [readAt, List.getElem?_cons_zero, Res.bind_ok, Res.ok.injEq]
        ring
    | throw e => rfl
    | ub => rfl
    | diverge => rfl
  simp only [gaussianJLL, h1]
  rw [mapRes_after]
  simp only [List.length_cons, hl]
  generalize mapRes (fun x => mapRes (fun (mv : List ℝ × List ℝ) => do
      let ll ← gaussianLL mv.1 mv.2 x
      if checked = true ∧ qs.length + 1 ≠ 1 then .ub
      else do
        let p ← readAt (p :: ps) 0
        .ok (ll + Real.log p)) (g.mean.zip g.var)) Z.rows = R
  cases R <;> rfl

theorem gaussianJLL_wf (checked : Bool) (ps : List ℝ) (g : Gaussian ℝ) (Z J : DMat ℝ) (h : gaussianJLL checked ps g Z = .ok J)
    (hl : (g.mean.zip g.var).length = ps.length) : J.WF ∧ J.ncols = ps.length := by
  simp only [gaussianJLL, Res.bind_eq_ok] at h
  obtain ⟨rows, h1, h2⟩ := h
  cases h2
  refine ⟨fun r hr => ?_, rfl⟩
  rw [mapRes_ok_iff] at h1
  obtain ⟨i, hi, rfl⟩ := List.mem_iff_getElem.mp hr
  have h3 := h1.get (i := i) (by rw [h1.length_eq]; exact hi) hi
  rw [mapRes_ok_iff] at h3
  rw [← hl]
  exact h3.length_eq.symm

/-- Shifted joint log likelihoods give the same answers. -/
theorem shift_same (J : DMat ℝ) (hw : J.WF) (hc : 0 < J.ncols) (t : List ℝ → ℝ) :
    predict ⟨J.ncols, J.rows.map fun r => r.map (· + t r)⟩ = predict J ∧
    predictLogProb J.ncols ⟨J.ncols, J.rows.map fun r => r.map (· + t r)⟩ = predictLogProb J.ncols J ∧
    predictProb J.ncols ⟨J.ncols, J.rows.map fun r => r.map (· + t r)⟩ = predictProb J.ncols J := by
  have hw' : (⟨J.ncols, J.rows.map fun r => r.map (· + t r)⟩ : DMat ℝ).WF := by
    intro r hr
    obtain ⟨q, hq, rfl⟩ := List.mem_map.mp hr
    rw [List.length_map]
    exact hw q hq
  have p1 := predictProb_spec _ hw hc
  have p2 := predictProb_spec _ hw' hc
  have hP : predictProb J.ncols ⟨J.ncols, J.rows.map fun r => r.map (· + t r)⟩ = predictProb J.ncols J := by
    simp only at p2
    rw [p1, p2, List.map_map]
    congr 2
    exact List.map_congr_left fun x _ => NB.softmax_shift _ _
  refine ⟨?_, ?_, hP⟩
  · obtain ⟨ps1, q1, q2⟩ := predict_spec _ hw hc
    obtain ⟨ps2, r1, r2⟩ := predict_spec _ hw' hc
    rw [q1, r1]
    congr 2
    simp only [List.forall₂_map_left_iff] at r2
    clear q1 r1 p1 p2 hP hw hw'
    generalize J.rows = rows at q2 r2
    clear hc
    induction q2 generalizing ps2 with
    | nil => cases r2; rfl
    | cons h1 _ ih =>
      cases r2 with
      | cons h2 r2 => rw [NB.isFirstMax_unique _ _ _ (NB.isFirstMax_shift _ _ _ h2) h1, ih _ r2]
  · rw [p1] at hP
    rw [predictProb, Res.bind_eq_ok] at hP p1
    obtain ⟨l1, a1, a2⟩ := p1
    obtain ⟨l2, b1, b2⟩ := hP
    rw [a1, b1]
    have e := b2.trans a2.symm
    simp only [Res.ok.injEq, DMat.mk.injEq] at e
    have hinj : Function.Injective (List.map Real.exp) := List.map_injective_iff.mpr Real.exp_injective
    have := List.map_injective_iff.mpr hinj e.2
    cases l1; cases l2
    simp only at e this
    rw [e.1, this]

end NBObject

/-- C164. Whatever calls of `fit` a program has made, failed ones included: the classes are the distinct labels of all calls in
increasing order, and the priors are the numbers of their occurrences in all calls divided by the number of labels of the last call. -/
theorem C164_priors (checked : Bool) (s alpha : ℝ) :
    (∀ (as : List (Action Moment)) o seen, ProperFits (fitCalls as) →
      run (gaussian checked s) (construct (gaussian checked s)) as = .ok (o, seen) →
      ∃ cl, answer (gaussian checked s) o .classes = .ok (.vector cl) ∧ cl.Pairwise (· < ·) ∧
        (∀ b, b ∈ cl ↔ b ∈ allLabels (fitCalls as)) ∧
        (fitCalls as = [] → answer (gaussian checked s) o .priors = .ok (.vector [])) ∧
        ∀ c, (fitCalls as).getLast? = some c → answer (gaussian checked s) o .priors =
          .ok (.vector (cl.map fun b => ((allLabels (fitCalls as)).count b : ℝ) / c.2.length))) ∧
    (∀ (as : List (Action Unit)) o seen, ProperFits (fitCalls as) →
      run (multinomial checked alpha) (construct (multinomial checked alpha)) as = .ok (o, seen) →
      ∃ cl, answer (multinomial checked alpha) o .classes = .ok (.vector cl) ∧ cl.Pairwise (· < ·) ∧
        (∀ b, b ∈ cl ↔ b ∈ allLabels (fitCalls as)) ∧
        (fitCalls as = [] → answer (multinomial checked alpha) o .priors = .ok (.vector [])) ∧
        ∀ c, (fitCalls as).getLast? = some c → answer (multinomial checked alpha) o .priors =
          .ok (.vector (cl.map fun b => ((allLabels (fitCalls as)).count b : ℝ) / c.2.length))) :=
  ⟨fun as o seen hp h => reports_of_inv _ _ o (gaussianInv_run checked s as hp o seen h).1,
    fun as o seen hp h => reports_of_inv _ _ o (multinomialInv_run checked alpha as hp o seen h).1⟩

namespace NBObject

/-- A program for the examples: a fit, one with too few labels, whose exception is caught, and a question. -/
def program (Q : Type) : List (Action Q) :=
  [.fit ⟨2, [[1, 2], [0, 3], [5, 2]]⟩ [7, 5, 7], .fit ⟨2, [[1, 1], [2, 2]]⟩ [7], .ask .priors]

theorem program_proper (Q : Type) : ProperFits (fitCalls (program Q)) := by
  intro c hc
  simp only [fitCalls, program, List.filterMap_cons, List.filterMap_nil, List.mem_cons, List.not_mem_nil, or_false] at hc
  rcases hc with rfl | rfl
  · exact ⟨by intro r hr; simp at hr; rcases hr with rfl | rfl | rfl <;> rfl, by simp⟩
  · exact ⟨by intro r hr; simp at hr; rcases hr with rfl | rfl <;> rfl, by simp⟩

theorem program_ends (Q : Type) : EndsWith (fitCalls (program Q)) [] ⟨2, [[1, 2], [0, 3], [5, 2]]⟩ [7, 5, 7]
    [(⟨2, [[1, 1], [2, 2]]⟩, [7])] :=
  ⟨rfl, rfl, by simp [DMat.nrows]⟩

/-- It runs on Gaussian objects. -/
theorem program_gaussian (checked : Bool) (s : ℝ) :
    ∃ o seen, run (gaussian checked s) (construct (gaussian checked s)) (program Moment) = .ok (o, seen) := by
  obtain ⟨m, g, top, e1, -⟩ := C71_fit s (⟨2, [[1, 2], [0, 3], [5, 2]]⟩ : DMat ℝ)
    (by intro r hr; simp at hr; rcases hr with rfl | rfl | rfl <;> rfl) [7, 5, 7] rfl (by simp [DMat.nrows]) (by simp)
  have e2 : fitGaussian s m (⟨2, [[1, 1], [2, 2]]⟩ : DMat ℝ) [7] = .throw .invalidArgument := by
    simp [fitGaussian, updateMeanVariance, groups_throw, DMat.nrows]
  have f1 : fit (gaussian checked s) (construct (gaussian checked s)) ⟨2, [[1, 2], [0, 3], [5, 2]]⟩ [7, 5, 7] =
      .ok (⟨m, some (priorsOf m 3), g⟩, .fitted) := by
    simp only [NBObject.fit, gaussian, construct, e1]
    rfl
  have f2 : ∀ ps, ∃ o sn, fit (gaussian checked s) ⟨m, ps, g⟩ ⟨2, [[1, 1], [2, 2]]⟩ [7] = .ok (o, sn) := fun ps => by
    simp only [NBObject.fit, gaussian, e2]
    exact ⟨_, _, rfl⟩
  obtain ⟨o, sn, f3⟩ := f2 (some (priorsOf m 3))
  simp only [program, run, f1, Res.bind_ok, f3, answer]
  exact ⟨_, _, rfl⟩

/-- It runs on multinomial objects (assertions disabled). -/
theorem program_multinomial (alpha : ℝ) :
    ∃ o seen, run (multinomial false alpha) (construct (multinomial false alpha)) (program Unit) = .ok (o, seen) := by
  obtain ⟨m, g, e1, -⟩ := C44_counts (⟨2, [[1, 2], [0, 3], [5, 2]]⟩ : DMat ℝ)
    (by intro r hr; simp at hr; rcases hr with rfl | rfl | rfl <;> rfl) [7, 5, 7] rfl (by simp)
  have e2 : fitMultinomial false m (⟨2, [[1, 1], [2, 2]]⟩ : DMat ℝ) [7] = .throw .invalidArgument := by
    simp [fitMultinomial, groups_throw, DMat.nrows]
  have f1 : fit (multinomial false alpha) (construct (multinomial false alpha)) ⟨2, [[1, 2], [0, 3], [5, 2]]⟩ [7, 5, 7] =
      .ok (⟨m, some (priorsOf m 3), g⟩, .fitted) := by
    simp only [NBObject.fit, multinomial, construct, e1]
    rfl
  have f2 : ∀ ps, ∃ o sn, fit (multinomial false alpha) ⟨m, ps, g⟩ ⟨2, [[1, 1], [2, 2]]⟩ [7] = .ok (o, sn) := fun ps => by
    simp only [NBObject.fit, multinomial, e2]
    exact ⟨_, _, rfl⟩
  obtain ⟨o, sn, f3⟩ := f2 (some (priorsOf m 3))
  simp only [program, run, f1, Res.bind_ok, f3, answer]
  exact ⟨_, _, rfl⟩

end NBObject

/-- Beside `C164_priors`: after the two calls of the program above, the second of which failed, the priors are 1/1 and 3/1. -/
example : ∃ o seen, run (multinomial false 1) (construct (multinomial false 1)) (program Unit) = .ok (o, seen) ∧
    answer (multinomial false 1) o .priors = .ok (.vector [1, 3]) := by
  obtain ⟨o, seen, h⟩ := program_multinomial 1
  refine ⟨o, seen, h, ?_⟩
  have hI := (multinomialInv_run false 1 _ (program_proper Unit) o seen h).1
  have hm : labelMapAfter ([[7, 5, 7], [7]] : List (List ℝ)) = [(5, 1), (7, 3)] := by
    norm_num [labelMapAfter, countLabels, countLabel]
  have : (fitCalls (program Unit)).map Prod.snd = [[7, 5, 7], [7]] := rfl
  simp only [answer, hI.priors, this, hm]
  norm_num [fitCalls, program, priorsOf]

/-- C164. Before a call of `fit` with as many labels as samples, predictions are undefined. -/
theorem C164_unfitted (checked : Bool) (s alpha : ℝ) (Z : DMat ℝ) :
    (∀ (as : List (Action Moment)) o seen, ProperFits (fitCalls as) → (∀ c ∈ fitCalls as, c.2.length ≠ c.1.nrows) →
      run (gaussian checked s) (construct (gaussian checked s)) as = .ok (o, seen) →
      ∀ q, (q = .predict Z ∨ q = .predictProb Z ∨ q = .predictLogProb Z) → answer (gaussian checked s) o q = .ub) ∧
    (∀ (as : List (Action Unit)) o seen, ProperFits (fitCalls as) → (∀ c ∈ fitCalls as, c.2.length ≠ c.1.nrows) →
      run (multinomial checked alpha) (construct (multinomial checked alpha)) as = .ok (o, seen) →
      ∀ q, (q = .predict Z ∨ q = .predictProb Z ∨ q = .predictLogProb Z) → answer (multinomial checked alpha) o q = .ub) := by
  have hpos : ∀ cs : List (DMat ℝ × List ℝ), ProperFits cs → cs ≠ [] → ∀ n, 0 < (priorsOf (labelMapAfter (cs.map Prod.snd)) n).length := by
    intro cs hp hne n
    have hk := holds_after (cs.map Prod.snd)
    obtain ⟨c, cs, rfl⟩ := List.exists_cons_of_ne_nil hne
    obtain ⟨b, hb⟩ := List.exists_mem_of_ne_nil _ (hp c (by simp)).2
    have := (hk.keys b).mpr (by simp [hb])
    simp only [priorsOf, List.length_map]
    simp only [classesOf] at this
    exact List.length_pos_iff.mpr fun h0 => by rw [h0] at this; simp at this
  constructor
  · intro as o seen hp hbad h
    have hI := gaussianInv_run checked s as hp o seen h
    have hj : joint (gaussian checked s) o Z = .ub := by
      unfold joint
      rw [hI.1.priors]
      cases hl : (fitCalls as).getLast? with
      | none => rfl
      | some c =>
        have := hpos (fitCalls as) hp (by rintro h0; rw [h0] at hl; simp at hl) c.2.length
        simp only [Option.map_some, gaussian, hI.2.1 hbad, List.length_nil, this, if_true]
    rintro q (rfl | rfl | rfl) <;> simp only [answer, hj] <;> rfl
  · intro as o seen hp hbad h
    have hI := multinomialInv_run checked alpha as hp o seen h
    have hj : joint (multinomial checked alpha) o Z = .ub := by
      unfold joint
      rw [hI.1.priors]
      cases hl : (fitCalls as).getLast? with
      | none => rfl
      | some c =>
        have := hpos (fitCalls as) hp (by rintro h0; rw [h0] at hl; simp at hl) c.2.length
        simp only [Option.map_some, multinomial, hI.2.2.1 hbad, List.length_nil, this, if_true]
    rintro q (rfl | rfl | rfl) <;> simp only [answer, hj] <;> rfl

/-- Beside `C164_unfitted`: two samples and one label; the exception is caught. -/
example : (∀ c ∈ fitCalls ([.fit ⟨2, [[1, 1], [2, 2]]⟩ [7]] : List (Action Unit)), c.2.length ≠ c.1.nrows) ∧
    ∃ o, run (multinomial false 1) (construct (multinomial false 1)) [.fit ⟨2, [[1, 1], [2, 2]]⟩ [7]] =
      .ok (o, [.caught .invalidArgument]) := by
  refine ⟨by simp [fitCalls, DMat.nrows], ?_⟩
  have e2 : fitMultinomial false [] (⟨2, [[1, 1], [2, 2]]⟩ : DMat ℝ) [7] = .throw .invalidArgument := by
    simp [fitMultinomial, groups_throw, DMat.nrows]
  simp only [run, NBObject.fit, multinomial, construct, e2, Res.bind_ok]
  exact ⟨_, rfl⟩

/-- C164. A Gaussian object answers from its last call of `fit` with as many labels as samples: every question except that for the
priors is answered as by a new object that was fitted once - provided that the failed calls since then brought no new label.
Otherwise predictions are undefined. -/
theorem C164_gaussian (checked : Bool) (s : ℝ) (as : List (Action Moment)) (hp : ProperFits (fitCalls as)) (o : Object (Gaussian ℝ))
    (seen : List Seen) (h : run (gaussian checked s) (construct (gaussian checked s)) as = .ok (o, seen))
    (before : List (DMat ℝ × List ℝ)) (X : DMat ℝ) (y : List ℝ) (after : List (DMat ℝ × List ℝ))
    (he : EndsWith (fitCalls as) before X y after) :
    ∃ o₁, run (gaussian checked s) (construct (gaussian checked s)) [.fit X y] = .ok (o₁, [.fitted]) ∧
      ((∀ b ∈ allLabels after, b ∈ y) → ∀ q, q ≠ .priors → answer (gaussian checked s) o q = answer (gaussian checked s) o₁ q) ∧
      ((∃ b ∈ allLabels after, b ∉ y) → ∀ Z q, (q = .predict Z ∨ q = .predictProb Z ∨ q = .predictLogProb Z) →
        answer (gaussian checked s) o q = .ub) := by
  have hI := gaussianInv_run checked s as hp o seen h
  obtain ⟨hf, hb⟩ := hI.2.2 before X y after he
  have hXy : X.WF ∧ y ≠ [] := hp (X, y) (by rw [he.1]; simp)
  have hn : 0 < X.nrows := by rw [← he.2.1]; exact List.length_pos_iff.mpr hXy.2
  have hd : 2 ≤ X.ncols := by
    by_contra hd
    have := (C72_few_features true s [] X hXy.1 y he.2.1 hn (by omega)).1
    simp only [labelMapAfter, List.foldl_nil] at this
    rw [hf] at this
    cases this
  obtain ⟨m, g, top, e1, e2, e3, e4, e5, -⟩ := C71_fit s X hXy.1 y he.2.1 hn hd
  rw [hf] at e1
  simp only [Res.ok.injEq, Prod.mk.injEq] at e1
  obtain ⟨rfl, rfl⟩ := e1
  refine ⟨⟨countLabels [] y, some (priorsOf (countLabels [] y) y.length), o.params⟩, ?_, ?_, ?_⟩
  · simp only [run, NBObject.fit, gaussian, construct, hf, Res.bind_ok]
  · intro ha q hq
    have hall : ∀ b ∈ ((fitCalls as).map Prod.snd).flatten, b ∈ y := by
      intro b hm
      rw [he.1, List.map_append, List.map_cons, List.flatten_append, List.flatten_cons] at hm
      rcases List.mem_append.mp hm with hm | hm
      · exact hb b hm
      · rcases List.mem_append.mp hm with hm | hm
        · exact hm
        · exact ha b hm
    have hcl : classesOf o.labelMap = classesOf (countLabels [] y) := by
      rw [hI.1.map]
      have h1 := holds_after ((fitCalls as).map Prod.snd)
      refine h1.sorted.eq_of_mem_iff e2 fun k => ?_
      rw [h1.keys, e3]
      refine ⟨hall k, fun hk => ?_⟩
      rw [he.1]
      simp [hk]
    have hlen : o.labelMap.length = (countLabels [] y).length := by
      have := congrArg List.length hcl
      simpa [classesOf] using this
    have hzip : (o.params.mean.zip o.params.var).length = (countLabels [] y).length := by
      rw [e4, e5]
      simp [classesOf]
    have hpos : 0 < (countLabels [] y).length := by
      obtain ⟨b, hb⟩ := List.exists_mem_of_ne_nil _ hXy.2
      have := (e3 b).mpr hb
      simp only [classesOf] at this
      exact List.length_pos_iff.mpr fun h0 => by rw [h0] at this; simp at this
    have hps : ∃ p ps, o.priors = some (p :: ps) ∧ ps.length + 1 = (countLabels [] y).length := by
      obtain ⟨c, hc⟩ : ∃ c, (fitCalls as).getLast? = some c := by
        cases hl : (fitCalls as).getLast? with
        | none =>
          rw [List.getLast?_eq_none_iff, he.1] at hl
          simp at hl
        | some c => exact ⟨c, rfl⟩
      rw [hI.1.priors, hc, Option.map_some, ← hI.1.map]
      cases hm : o.labelMap with
      | nil => rw [hm] at hlen; simp at hlen; omega
      | cons e m => exact ⟨_, _, rfl, by rw [← hlen, hm]; simp⟩
    obtain ⟨p, ps, hp1, hp2⟩ := hps
    have hqs : ∃ q qs, priorsOf (countLabels [] y) y.length = q :: qs ∧ qs.length + 1 = (countLabels [] y).length := by
      cases hm : (countLabels [] y) with
      | nil => rw [hm] at hpos; simp at hpos
      | cons e m => exact ⟨_, _, rfl, by simp⟩
    obtain ⟨r, rs, hq1, hq2⟩ := hqs
    have hmean : o.params.mean.length = (countLabels [] y).length := by rw [e4]; simp [classesOf]
    have hj : ∀ Z, joint (gaussian checked s) o Z = gaussianJLL checked (p :: ps) o.params Z := fun Z => by
      simp only [joint, hp1, gaussian]
      rw [if_neg (by rw [hmean, List.length_cons]; omega)]
    have hj' : ∀ Z, joint (gaussian checked s) ⟨countLabels [] y, some (priorsOf (countLabels [] y) y.length), o.params⟩ Z =
        gaussianJLL checked (r :: rs) o.params Z := fun Z => by
      simp only [joint, hq1, gaussian]
      rw [if_neg (by rw [hmean, List.length_cons]; omega)]
    have hkey : ∀ Z, (∃ J, joint (gaussian checked s) o Z = .ok J ∧ J.WF ∧ J.ncols = (countLabels [] y).length ∧
        joint (gaussian checked s) ⟨countLabels [] y, some (priorsOf (countLabels [] y) y.length), o.params⟩ Z =
          .ok ⟨J.ncols, J.rows.map fun r' => r'.map (· + (Real.log r - Real.log p))⟩) ∨
        (joint (gaussian checked s) o Z =
          joint (gaussian checked s) ⟨countLabels [] y, some (priorsOf (countLabels [] y) y.length), o.params⟩ Z ∧
          ∀ J, joint (gaussian checked s) o Z ≠ .ok J) := fun Z => by
      rw [hj, hj', gaussianJLL_shift checked p r ps rs (by omega) o.params Z]
      cases hJ : gaussianJLL checked (p :: ps) o.params Z with
      | ok J =>
        obtain ⟨w1, w2⟩ := gaussianJLL_wf checked (p :: ps) o.params Z J hJ (by rw [hzip, List.length_cons]; omega)
        exact Or.inl ⟨J, rfl, w1, by rw [w2, List.length_cons]; omega, rfl⟩
      | throw e => exact Or.inr ⟨rfl, fun _ h => by cases h⟩
      | ub => exact Or.inr ⟨rfl, fun _ h => by cases h⟩
      | diverge => exact Or.inr ⟨rfl, fun _ h => by cases h⟩
    cases q with
    | predict Z =>
      simp only [answer]
      rcases hkey Z with ⟨J, a1, a2, a3, a4⟩ | ⟨a1, a2⟩
      · rw [a1, a4, Res.bind_ok, Res.bind_ok, (shift_same J a2 (by omega) fun _ => Real.log r - Real.log p).1]
      · rw [← a1]
    | predictProb Z =>
      simp only [answer]
      rcases hkey Z with ⟨J, a1, a2, a3, a4⟩ | ⟨a1, a2⟩
      · rw [a1, a4, Res.bind_ok, Res.bind_ok, hlen, ← a3, (shift_same J a2 (by omega) fun _ => Real.log r - Real.log p).2.2]
      · rw [← a1, hlen]
    | predictLogProb Z =>
      simp only [answer]
      rcases hkey Z with ⟨J, a1, a2, a3, a4⟩ | ⟨a1, a2⟩
      · rw [a1, a4, Res.bind_ok, Res.bind_ok, hlen, ← a3, (shift_same J a2 (by omega) fun _ => Real.log r - Real.log p).2.1]
      · rw [← a1, hlen]
    | priors => exact absurd rfl hq
    | classes => simp only [answer, hcl]
    | member q => rfl
  · rintro ⟨b, hbm, hby⟩ Z q hq
    have hj : joint (gaussian checked s) o Z = .ub := by
      unfold joint
      obtain ⟨c, hc⟩ : ∃ c, (fitCalls as).getLast? = some c := by
        cases hl : (fitCalls as).getLast? with
        | none =>
          rw [List.getLast?_eq_none_iff, he.1] at hl
          simp at hl
        | some c => exact ⟨c, rfl⟩
      rw [hI.1.priors, hc, Option.map_some]
      simp only [gaussian]
      rw [if_pos]
      have h1 := holds_after ((fitCalls as).map Prod.snd)
      have hsub : (b :: classesOf (countLabels [] y)).Subperm (classesOf (labelMapAfter ((fitCalls as).map Prod.snd))) := by
        refine List.subperm_of_subset ?_ ?_
        · rw [List.nodup_cons]
          exact ⟨fun hb => hby ((e3 b).mp hb), e2.imp fun h => h.ne⟩
        · intro k hk
          rw [h1.keys, he.1]
          rcases List.mem_cons.mp hk with rfl | hk
          · simp only [List.map_append, List.map_cons, List.flatten_append, List.flatten_cons, List.mem_append]
            exact Or.inr (Or.inr hbm)
          · simp [(e3 k).mp hk]
      have := hsub.length_le
      rw [e4]
      simp only [priorsOf, List.length_map, List.length_cons, classesOf] at this ⊢
      omega
    rcases hq with rfl | rfl | rfl <;> simp only [answer, hj] <;> rfl

/-- Beside `C164_gaussian`: the program above; the failed call brought no new label. -/
example : (∃ o seen, run (gaussian false 1) (construct (gaussian false 1)) (program Moment) = .ok (o, seen)) ∧
    ProperFits (fitCalls (program Moment)) ∧
    EndsWith (fitCalls (program Moment)) [] ⟨2, [[1, 2], [0, 3], [5, 2]]⟩ [7, 5, 7] [(⟨2, [[1, 1], [2, 2]]⟩, [7])] ∧
    ∀ b ∈ allLabels [((⟨2, [[1, 1], [2, 2]]⟩ : DMat ℝ), ([7] : List ℝ))], b ∈ ([7, 5, 7] : List ℝ) :=
  ⟨program_gaussian false 1, program_proper _, program_ends _, by simp [allLabels]⟩

/-- C164. A label that occurred in any earlier call of `fit`, even a failed one, must occur in every later one: otherwise the later fit
of a Gaussian object is undefined (it takes the means of no samples). -/
theorem C164_gaussian_missing (checked : Bool) (s : ℝ) (as : List (Action Moment)) (hp : ProperFits (fitCalls as))
    (o : Object (Gaussian ℝ)) (seen : List Seen) (h : run (gaussian checked s) (construct (gaussian checked s)) as = .ok (o, seen))
    (X : DMat ℝ) (hx : X.WF) (y : List ℝ) (hy : y.length = X.nrows) (hne : y ≠ []) (b : ℝ) (hb : b ∈ allLabels (fitCalls as))
    (hby : b ∉ y) (rest : List (Action Moment)) : run (gaussian checked s) o (.fit X y :: rest) = .ub := by
  have hI := gaussianInv_run checked s as hp o seen h
  have := gaussian_missing s ((fitCalls as).map Prod.snd) X hx y hy hne b hb hby
  simp only [run, NBObject.fit, gaussian, hI.1.map, this, Res.bind_ub]

/-- Beside `C164_gaussian_missing`: after the program above, data without the label 5. -/
example : (5 : ℝ) ∈ allLabels (fitCalls (program Moment)) ∧ (5 : ℝ) ∉ ([7, 7, 7] : List ℝ) := by
  constructor
  · simp [allLabels, fitCalls, program]
  · norm_num

/-- C164. A multinomial object answers with the sums of its last call of `fit` with as many labels as samples, the occurrences of the
labels in all calls as weights - also of calls that failed -, and the number of features of the last call, even if that one failed. -/
theorem C164_multinomial (alpha : ℝ) (as : List (Action Unit)) (hp : ProperFits (fitCalls as)) (o : Object (Counts ℝ))
    (seen : List Seen) (h : run (multinomial false alpha) (construct (multinomial false alpha)) as = .ok (o, seen))
    (before : List (DMat ℝ × List ℝ)) (X : DMat ℝ) (y : List ℝ) (after : List (DMat ℝ × List ℝ))
    (he : EndsWith (fitCalls as) before X y after) (c : DMat ℝ × List ℝ) (hc : (fitCalls as).getLast? = some c)
    (Z : DMat ℝ) (hZ : Z.WF) (hZX : Z.ncols = X.ncols) :
    ((∀ b ∈ allLabels after, b ∈ allLabels (before ++ [(X, y)])) → ∃ (cl : List ℝ) (ps : List Nat),
      cl.Pairwise (· < ·) ∧ (∀ b, b ∈ cl ↔ b ∈ allLabels (fitCalls as)) ∧
      (let scores := fun x : List ℝ => cl.map fun b => multinomialScore alpha c.1.ncols ((allLabels (fitCalls as)).count b)
        ((List.range X.ncols).map fun f => (featureOf (classRows X.rows y b) f).sum) x
      answer (multinomial false alpha) o (.predictProb Z) = .ok (.matrix (Z.rows.map fun x => softmaxOf (scores x))) ∧
      answer (multinomial false alpha) o (.predict Z) = .ok (.vector (ps.map fun (i : Nat) => (i : ℝ))) ∧
      List.Forall₂ (fun x p => IsFirstMax (scores x) p) Z.rows ps)) ∧
    ((∃ b ∈ allLabels after, b ∉ allLabels (before ++ [(X, y)])) →
      ∀ q, (q = .predict Z ∨ q = .predictProb Z ∨ q = .predictLogProb Z) → answer (multinomial false alpha) o q = .ub) := by
  have hI := multinomialInv_run false alpha as hp o seen h
  have hnum := hI.2.1 c hc
  obtain ⟨hd, hfeat, htot⟩ := hI.2.2.2 before X y after he
  have hXy : X.WF ∧ y ≠ [] := hp (X, y) (by rw [he.1]; simp)
  have hcp : c.1.WF ∧ c.2 ≠ [] := hp c (List.mem_of_getLast? hc)
  have hk := holds_after ((fitCalls as).map Prod.snd)
  have hk' := holds_after ((before ++ [(X, y)]).map Prod.snd)
  have hpri : o.priors = some (priorsOf o.labelMap c.2.length) := by
    rw [hI.1.priors, hc, Option.map_some, hI.1.map]
  constructor
  · intro ha
    have hcl : classesOf (labelMapAfter ((before ++ [(X, y)]).map Prod.snd)) = classesOf o.labelMap := by
      rw [hI.1.map]
      refine hk'.sorted.eq_of_mem_iff hk.sorted fun b => ?_
      rw [hk.keys, hk'.keys]
      constructor
      · intro hb
        rw [he.1]
        simp only [List.map_append, List.map_cons, List.map_nil, List.flatten_append, List.flatten_cons, List.flatten_nil,
          List.append_nil, List.mem_append] at hb ⊢
        tauto
      · intro hb
        rw [he.1] at hb
        simp only [List.map_append, List.map_cons, List.map_nil, List.flatten_append, List.flatten_cons, List.flatten_nil,
          List.append_nil, List.mem_append] at hb ⊢
        rcases hb with hb | hb | hb
        · exact Or.inl hb
        · exact Or.inr hb
        · have := ha b hb
          simpa [allLabels] using this
    rw [hcl] at hfeat
    have hcount : ∀ e ∈ o.labelMap, e.2 = (allLabels (fitCalls as)).count e.1 ∧ 0 < e.2 := by
      intro e hm
      rw [hI.1.map] at hm
      have h1 := entry_stored _ hk.sorted e hm
      rw [hk.stored] at h1
      refine ⟨h1, ?_⟩
      rw [h1]
      exact List.count_pos_iff.mpr ((hk.keys e.1).mp (List.mem_map.mpr ⟨e, hm, rfl⟩))
    let F : ℝ → List ℝ := fun b => (List.range X.ncols).map fun f => (featureOf (classRows X.rows y b) f).sum
    let sc : List ℝ → List ℝ := fun x => (classesOf o.labelMap).map fun b =>
      multinomialScore alpha c.1.ncols ((allLabels (fitCalls as)).count b) (F b) x
    have hn : (0 : ℝ) < c.2.length := by exact_mod_cast List.length_pos_iff.mpr hcp.2
    have hJ : joint (multinomial false alpha) o Z =
        .ok ⟨o.labelMap.length, Z.rows.map fun x => (sc x).map (· + (-Real.log c.2.length))⟩ := by
      simp only [joint, hpri, multinomial]
      rw [if_neg (by rw [hfeat]; simp [priorsOf, classesOf])]
      rw [multinomialJLL]
      have hz : (priorsOf o.labelMap c.2.length).zip (o.params.feature.zip o.params.total) =
          o.labelMap.map fun e => ((e.2 : ℝ) / (c.2.length : ℝ), F e.1, (F e.1).sum) := by
        rw [htot, hfeat]
        simp only [priorsOf, classesOf, List.map_map, List.zip_map', Function.comp_def, F]
      rw [hz, Analytic.mapRes_eq_map _ (fun x => (sc x).map (· + (-Real.log c.2.length))) _ fun x hx => ?_]
      · simp [priorsOf]
      · rw [mapRes_map]
        simp only [sc, classesOf, List.map_map]
        refine Analytic.mapRes_eq_map _ _ _ fun e hm => ?_
        obtain ⟨h1, h2⟩ := hcount e hm
        simp only [Function.comp]
        rw [multinomialLL_eq alpha _ (F e.1) _ x (by simp only [F, List.length_map, List.length_range]; rw [hZ x hx, hZX]), Res.bind_ok,
          Real.log_div (by exact_mod_cast h2.ne') hn.ne', hnum, multinomialScore, ← h1]
        congr 1
        ring
    have hlen : ∀ x, (sc x).length = o.labelMap.length := fun x => by simp [sc, classesOf]
    have hpos : 0 < o.labelMap.length := by
      obtain ⟨b, hb⟩ := List.exists_mem_of_ne_nil _ hXy.2
      have := (hk.keys b).mpr (by rw [he.1]; simp [hb])
      rw [← hI.1.map] at this
      simp only [classesOf] at this
      exact List.length_pos_iff.mpr fun h0 => by rw [h0] at this; simp at this
    have hw : (⟨o.labelMap.length, Z.rows.map fun x => (sc x).map (· + (-Real.log c.2.length))⟩ : DMat ℝ).WF := by
      intro r hr
      obtain ⟨x, -, rfl⟩ := List.mem_map.mp hr
      rw [List.length_map]
      exact hlen x
    obtain ⟨ps, q1, q2⟩ := predict_spec _ hw hpos
    refine ⟨classesOf o.labelMap, ps, by rw [hI.1.map]; exact hk.sorted, fun b => by rw [hI.1.map]; exact hk.keys b, ?_, ?_, ?_⟩
    · have p1 := predictProb_spec _ hw hpos
      simp only at p1
      simp only [answer, hJ, Res.bind_ok, p1, List.map_map]
      congr 2
      exact List.map_congr_left fun x _ => NB.softmax_shift (sc x) _
    · simp only [answer, hJ, Res.bind_ok, q1]
    · simp only [List.forall₂_map_left_iff] at q2
      exact q2.imp fun x p hx => NB.isFirstMax_shift (sc x) _ p hx
  · rintro ⟨b, hbm, hby⟩ q hq
    have hj : joint (multinomial false alpha) o Z = .ub := by
      simp only [joint, hpri, multinomial]
      rw [if_pos]
      have hsub : (b :: classesOf (labelMapAfter ((before ++ [(X, y)]).map Prod.snd))).Subperm (classesOf o.labelMap) := by
        refine List.subperm_of_subset ?_ ?_
        · rw [List.nodup_cons]
          exact ⟨fun hb => hby ((hk'.keys b).mp hb), hk'.sorted.imp fun h => h.ne⟩
        · intro k hk1
          rw [hI.1.map, hk.keys, he.1]
          simp only [List.map_append, List.map_cons, List.flatten_append, List.flatten_cons, List.mem_append]
          rcases List.mem_cons.mp hk1 with rfl | hk1
          · exact Or.inr (Or.inr hbm)
          · have := (hk'.keys k).mp hk1
            simp only [List.map_append, List.map_cons, List.map_nil, List.flatten_append, List.flatten_cons, List.flatten_nil,
              List.append_nil, List.mem_append] at this
            tauto
      have := hsub.length_le
      rw [hfeat]
      simp only [priorsOf, List.length_map, List.length_cons, classesOf] at this ⊢
      omega
    rcases hq with rfl | rfl | rfl <;> simp only [answer, hj] <;> rfl

/-- Beside `C164_multinomial`: the program above with its last call. -/
example : (∃ o seen, run (multinomial false 1) (construct (multinomial false 1)) (program Unit) = .ok (o, seen)) ∧
    ProperFits (fitCalls (program Unit)) ∧
    EndsWith (fitCalls (program Unit)) [] ⟨2, [[1, 2], [0, 3], [5, 2]]⟩ [7, 5, 7] [(⟨2, [[1, 1], [2, 2]]⟩, [7])] ∧
    (fitCalls (program Unit)).getLast? = some (⟨2, [[1, 1], [2, 2]]⟩, [7]) ∧
    ∀ b ∈ allLabels [((⟨2, [[1, 1], [2, 2]]⟩ : DMat ℝ), ([7] : List ℝ))],
      b ∈ allLabels [((⟨2, [[1, 2], [0, 3], [5, 2]]⟩ : DMat ℝ), ([7, 5, 7] : List ℝ))] :=
  ⟨program_multinomial 1, program_proper _, program_ends _, rfl, by simp [allLabels]⟩

/-- C164. `get_mean` and `get_var` return a vector although the members are matrices: with assertions enabled they abort after every
successful fit; without them they give the values of the first feature only, one for each class of the last call of `fit` with as many
labels as samples. -/
theorem C164_moments (checked : Bool) (s : ℝ) (as : List (Action Moment)) (hp : ProperFits (fitCalls as)) (o : Object (Gaussian ℝ))
    (seen : List Seen) (h : run (gaussian checked s) (construct (gaussian checked s)) as = .ok (o, seen))
    (before : List (DMat ℝ × List ℝ)) (X : DMat ℝ) (y : List ℝ) (after : List (DMat ℝ × List ℝ))
    (he : EndsWith (fitCalls as) before X y after) :
    (checked = true → answer (gaussian checked s) o (.member .mean) = .ub ∧ answer (gaussian checked s) o (.member .var) = .ub) ∧
    (checked = false → ∃ cl : List ℝ, cl.Pairwise (· < ·) ∧ (∀ b, b ∈ cl ↔ b ∈ y) ∧
      answer (gaussian checked s) o (.member .mean) =
        .ok (.vector (cl.map fun b => average (featureOf (classRows X.rows y b) 0))) ∧
      ∃ top, answer (gaussian checked s) o (.member .var) =
        .ok (.vector (cl.map fun b => meanSquaredDeviation (featureOf (classRows X.rows y b) 0) + s * top)) ∧
        (∃ b ∈ y, ∃ f < X.ncols, top = meanSquaredDeviation (featureOf (classRows X.rows y b) f)) ∧
        ∀ b ∈ y, ∀ f < X.ncols, meanSquaredDeviation (featureOf (classRows X.rows y b) f) ≤ top) := by
  have hI := gaussianInv_run checked s as hp o seen h
  obtain ⟨hf, -⟩ := hI.2.2 before X y after he
  have hXy : X.WF ∧ y ≠ [] := hp (X, y) (by rw [he.1]; simp)
  have hn : 0 < X.nrows := by rw [← he.2.1]; exact List.length_pos_iff.mpr hXy.2
  have hd : 2 ≤ X.ncols := by
    by_contra hd
    have := (C72_few_features true s [] X hXy.1 y he.2.1 hn (by omega)).1
    simp only [labelMapAfter, List.foldl_nil] at this
    rw [hf] at this
    cases this
  obtain ⟨m, g, top, e1, e2, e3, e4, e5, e6, e7⟩ := C71_fit s X hXy.1 y he.2.1 hn hd
  rw [hf] at e1
  simp only [Res.ok.injEq, Prod.mk.injEq] at e1
  obtain ⟨rfl, rfl⟩ := e1
  obtain ⟨d, hd'⟩ : ∃ d, X.ncols = d + 1 := ⟨X.ncols - 1, by omega⟩
  constructor
  · rintro rfl
    obtain ⟨b, hb⟩ := List.exists_mem_of_ne_nil _ hXy.2
    have hbc := (e3 b).mpr hb
    constructor
    · simp only [answer, gaussian, asVector]
      rw [if_pos]
      · rfl
      · refine ⟨trivial, Or.inr ?_⟩
        rw [e4]
        exact ⟨_, List.mem_map.mpr ⟨b, hbc, rfl⟩, by simp; omega⟩
    · simp only [answer, gaussian, asVector]
      rw [if_pos]
      · rfl
      · refine ⟨trivial, Or.inr ?_⟩
        rw [e5]
        exact ⟨_, List.mem_map.mpr ⟨b, hbc, rfl⟩, by simp; omega⟩
  · rintro rfl
    refine ⟨classesOf (countLabels [] y), e2, e3, ?_, top, ?_, e6, e7⟩
    · simp only [answer, gaussian, asVector]
      rw [if_neg (by simp), e4, mapRes_map, Analytic.mapRes_eq_map _ (fun b => average (featureOf (classRows X.rows y b) 0)) _ fun b _ => ?_]
      · rfl
      · simp [hd', List.range_succ_eq_map, readAt]
    · simp only [answer, gaussian, asVector]
      rw [if_neg (by simp), e5, mapRes_map,
        Analytic.mapRes_eq_map _ (fun b => meanSquaredDeviation (featureOf (classRows X.rows y b) 0) + s * top) _ fun b _ => ?_]
      · rfl
      · simp [hd', List.range_succ_eq_map, readAt]

/-- Beside `C164_moments`: the means of the first feature of the example. -/
example : (fitGaussian (1 / 4) [] (⟨2, [[1, 2], [0, 3], [5, 2]]⟩ : DMat ℚ) [7, 5, 7]) =
    .ok ([(5, 1), (7, 2)], ⟨[[0, 3], [3, 2]], [[1, 1], [5, 1]]⟩) ∧
    average (featureOf (classRows [[1, 2], [0, 3], [5, 2]] [(7 : ℚ), 5, 7] 7) 0) = 3 := by decide +kernel

namespace NBObject

theorem memory_fit (fits : List (List ℝ)) (y : List ℝ) (hy : y.length = 2) :
    ∃ r, fitMultinomial false (labelMapAfter fits) (⟨2, [[1, 1], [1, 1]]⟩ : DMat ℝ) y = .ok r :=
  multinomial_total fits _ (by intro r hr; simp at hr; rw [hr]; rfl) y hy (by simp)

/-- The prediction for the sample (1, 1) after calls with two equal samples each. -/
theorem memory_predict (as : List (Action Unit)) (hp : ProperFits (fitCalls as)) (o : Object (Counts ℝ)) (seen : List Seen)
    (h : run (multinomial false 1) (construct (multinomial false 1)) as = .ok (o, seen)) (before : List (DMat ℝ × List ℝ))
    (he : EndsWith (fitCalls as) before ⟨2, [[1, 1], [1, 1]]⟩ [0, 1] []) (hb : ∀ b ∈ allLabels before, b = 0 ∨ b = 1) :
    ∃ p : Nat, answer (multinomial false 1) o (.predict ⟨2, [[1, 1]]⟩) = .ok (.vector [(p : ℝ)]) ∧
      IsFirstMax ([0, 1].map fun b : ℝ => multinomialScore 1 2 ((allLabels (fitCalls as)).count b) [1, 1] [1, 1]) p := by
  obtain ⟨cl, ps, h1, h2, -, h4, h5⟩ := (C164_multinomial 1 as hp o seen h before _ _ [] he (⟨2, [[1, 1], [1, 1]]⟩, [0, 1])
    (by rw [he.1]; simp) ⟨2, [[1, 1]]⟩ (by intro r hr; simp at hr; rw [hr]; rfl) rfl).1 (by simp [allLabels])
  have hcl : cl = [0, 1] := by
    refine h1.eq_of_mem_iff (by simp) fun b => ?_
    rw [h2, he.1]
    simp only [allLabels, List.map_append, List.map_cons, List.map_nil, List.flatten_append, List.flatten_cons, List.flatten_nil,
      List.append_nil, List.mem_append, List.mem_cons, List.not_mem_nil, or_false]
    exact ⟨fun hm => hm.elim (hb b) id, Or.inr⟩
  subst hcl
  cases h5 with
  | cons a1 a2 =>
    cases a2
    refine ⟨_, h4, ?_⟩
    refine (congrArg (fun l => IsFirstMax l _) (List.map_congr_left fun b hb => ?_)).mp a1
    refine congrArg (fun l => multinomialScore 1 2 ((allLabels (fitCalls as)).count b) l [1, 1]) ?_
    simp only [List.mem_cons, List.not_mem_nil, or_false] at hb
    rcases hb with rfl | rfl <;> norm_num [classRows, featureOf, List.range_succ]

end NBObject

/-- C164. So a multinomial object remembers: two objects whose last call of `fit` is the same, without any failure, predict different
classes for the same sample. -/
theorem C164_multinomial_memory : ∃ (as as' : List (Action Unit)) (o o' : Object (Counts ℝ)) (seen seen' : List Seen) (X Z : DMat ℝ)
    (y : List ℝ), run (multinomial false 1) (construct (multinomial false 1)) (as ++ [.fit X y]) = .ok (o, seen) ∧
      run (multinomial false 1) (construct (multinomial false 1)) (as' ++ [.fit X y]) = .ok (o', seen') ∧
      (∀ sn ∈ seen ++ seen', sn = .fitted) ∧
      answer (multinomial false 1) o (.predict Z) = .ok (.vector [0]) ∧
      answer (multinomial false 1) o' (.predict Z) = .ok (.vector [1]) := by
  have hX : (⟨2, [[1, 1], [1, 1]]⟩ : DMat ℝ).WF := by intro r hr; simp at hr; rw [hr]; rfl
  obtain ⟨r, hr⟩ := memory_fit [] [0, 1] rfl
  obtain ⟨r1, hr1⟩ := memory_fit [] [1, 1] rfl
  obtain ⟨r2, hr2⟩ := memory_fit [[1, 1]] [0, 1] rfl
  have hm1 := multinomial_map _ _ _ _ _ hr1
  have hl1 : labelMapAfter [[1, 1]] = r1.1 := by rw [hm1]; rfl
  have hl0 : labelMapAfter ([] : List (List ℝ)) = [] := rfl
  rw [hl1] at hr2
  rw [hl0] at hr hr1
  have run1 : run (multinomial false 1) (construct (multinomial false 1)) ([] ++ [.fit ⟨2, [[1, 1], [1, 1]]⟩ [0, 1]]) =
      .ok (⟨r.1, some (priorsOf r.1 2), r.2⟩, [.fitted]) := by
    simp only [List.nil_append, run, NBObject.fit, multinomial, construct, hr, Res.bind_ok]
    rfl
  have run2 : run (multinomial false 1) (construct (multinomial false 1)) ([.fit ⟨2, [[1, 1], [1, 1]]⟩ [1, 1]] ++
      [.fit ⟨2, [[1, 1], [1, 1]]⟩ [0, 1]]) = .ok (⟨r2.1, some (priorsOf r2.1 2), r2.2⟩, [.fitted, .fitted]) := by
    simp only [List.cons_append, List.nil_append, run, NBObject.fit, multinomial, construct, hr1, hr2, Res.bind_ok]
    rfl
  refine ⟨_, _, _, _, _, _, _, ⟨2, [[1, 1]]⟩, _, run1, run2, by simp, ?_, ?_⟩
  · obtain ⟨p, h1, h2⟩ := memory_predict _ (by intro c hc; simp [fitCalls] at hc; subst hc; exact ⟨hX, by simp⟩) _ _ run1 []
      ⟨rfl, rfl, by simp⟩ (by simp [allLabels])
    have hp : p = 0 := by
      obtain ⟨v, hv, hmax⟩ := h2
      have := (hmax 0 _ rfl)
      match p, hv with
      | 0, _ => rfl
      | 1, hv =>
        simp only [List.map_cons, List.map_nil, List.getElem?_cons_succ, List.getElem?_cons_zero, Option.some.injEq] at hv
        exact absurd (this.2 (by rw [← hv]; simp [fitCalls, allLabels])) (by omega)
      | n + 2, hv => simp at hv
    rw [h1, hp]
    norm_num
  · obtain ⟨p, h1, h2⟩ := memory_predict _
      (by intro c hc; simp [fitCalls] at hc; rcases hc with rfl | rfl <;> exact ⟨hX, by simp⟩) _ _ run2 [(⟨2, [[1, 1], [1, 1]]⟩, [1, 1])]
      ⟨rfl, rfl, by simp⟩ (by simp [allLabels])
    have hp : p = 1 := by
      obtain ⟨v, hv, hmax⟩ := h2
      have := (hmax 1 _ rfl)
      match p, hv with
      | 0, hv =>
        simp only [List.map_cons, List.getElem?_cons_zero, Option.some.injEq] at hv
        have h3 := this.1
        rw [← hv] at h3
        simp only [multinomialScore, add_le_add_iff_right] at h3
        have hc0 : (allLabels (fitCalls ([.fit ⟨2, [[1, 1], [1, 1]]⟩ [1, 1]] ++ [.fit ⟨2, [[1, 1], [1, 1]]⟩ [0, 1]] : List (Action Unit)))).count
            (0 : ℝ) = 1 := by
          show ([1, 1, 0, 1] : List ℝ).count 0 = 1
          norm_num [List.count_cons]
        have hc1 : (allLabels (fitCalls ([.fit ⟨2, [[1, 1], [1, 1]]⟩ [1, 1]] ++ [.fit ⟨2, [[1, 1], [1, 1]]⟩ [0, 1]] : List (Action Unit)))).count
            (1 : ℝ) = 3 := by
          show ([1, 1, 0, 1] : List ℝ).count 1 = 3
          norm_num [List.count_cons]
        rw [hc0, hc1] at h3
        have : Real.log 3 > 0 := Real.log_pos (by norm_num)
        norm_num at h3
        linarith
      | 1, _ => rfl
      | n + 2, hv => simp at hv
    rw [h1, hp]
    norm_num

end OpenML
