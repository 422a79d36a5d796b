import Verif.Model.NaiveBayesObject
import Verif.Spec.NaiveBayesObject
import Verif.Props.NaiveBayes
import Verif.Props.NaiveBayesInvariance

/-!
# Lemmas about naive Bayes objects
-/

set_option linter.unusedSectionVars false

namespace OpenML.NBObject
open Spec NB

theorem labelMapAfter_snoc (fits : List (List ℝ)) (y : List ℝ) :
    labelMapAfter (fits ++ [y]) = countLabels (labelMapAfter fits) y := by
  simp [labelMapAfter, List.foldl_append]

/-- What holds between two statements, whatever the derived class is. -/
structure Inv {θ : Type} (cs : List (DMat ℝ × List ℝ)) (o : Object θ) : Prop where
  map : o.labelMap = labelMapAfter (cs.map Prod.snd)
  priors : o.priors = cs.getLast?.map fun c => priorsOf (labelMapAfter (cs.map Prod.snd)) c.2.length

/-- Programs keep an invariant that `fit` keeps. -/
theorem run_keeps {θ Q : Type} (K : Kind θ Q) (P : List (DMat ℝ × List ℝ) → Object θ → Prop)
    (hfit : ∀ cs o X y o' s, P cs o → X.WF → y ≠ [] → fit K o X y = .ok (o', s) → P (cs ++ [(X, y)]) o')
    (as : List (Action Q)) (hp : ProperFits (fitCalls as)) (cs : List (DMat ℝ × List ℝ)) (o o' : Object θ) (seen : List Seen) (ho : P cs o)
    (h : run K o as = .ok (o', seen)) : P (cs ++ fitCalls as) o' := by
  induction as generalizing cs o seen with
  | nil =>
    simp only [run] at h
    cases h
    simpa [fitCalls] using ho
  | cons a as ih =>
    cases a with
    | fit X y =>
      have hc : fitCalls (Action.fit X y :: as) = (X, y) :: fitCalls as := rfl
      simp only [run, Res.bind_eq_ok] at h
      obtain ⟨⟨o₁, s₁⟩, h1, ⟨o₂, s₂⟩, h2, h3⟩ := h
      cases h3
      have hX := hp (X, y) (by rw [hc]; simp)
      have := ih (fun c hm => hp c (by rw [hc]; simp [hm])) _ _ _ (hfit cs o X y o₁ s₁ ho hX.1 hX.2 h1) h2
      rw [hc]
      simpa using this
    | ask q =>
      have hc : fitCalls (Action.ask q :: as) = fitCalls as := rfl
      have hp' : ProperFits (fitCalls as) := fun c hm => hp c (by rw [hc]; exact hm)
      rw [hc]
      simp only [run] at h
      split at h
      · simp only [Res.bind_eq_ok] at h
        obtain ⟨⟨o₂, s₂⟩, h2, h3⟩ := h
        cases h3
        exact ih hp' _ _ _ ho h2
      · simp only [Res.bind_eq_ok] at h
        obtain ⟨⟨o₂, s₂⟩, h2, h3⟩ := h
        cases h3
        exact ih hp' _ _ _ ho h2
      · cases h
      · cases h

theorem inv_fit {θ Q : Type} (K : Kind θ Q) (hK : ∀ m X y r, K.fit m X y = .ok r → r.1 = countLabels m y) (cs : List (DMat ℝ × List ℝ))
    (o : Object θ) (X : DMat ℝ) (y : List ℝ) (o' : Object θ) (s : Seen) (ho : Inv cs o) (h : fit K o X y = .ok (o', s)) :
    Inv (cs ++ [(X, y)]) o' := by
  have hm : labelMapAfter ((cs ++ [(X, y)]).map Prod.snd) = countLabels o.labelMap y := by
    rw [List.map_append, List.map_singleton, labelMapAfter_snoc, ho.map]
  simp only [fit] at h
  split at h
  · rename_i r hr
    cases h
    refine ⟨?_, ?_⟩
    · rw [hm]; exact hK _ _ _ _ hr
    · simp only [hm, hK _ _ _ _ hr, List.getLast?_append, List.getLast?_singleton, Option.some_or, Option.map_some]
  · cases h
    refine ⟨hm.symm, ?_⟩
    simp only [hm, List.getLast?_append, List.getLast?_singleton, Option.some_or, Option.map_some]
  · cases h
  · cases h

theorem gaussian_map (s : ℝ) (m : List (ℝ × Nat)) (X : DMat ℝ) (y : List ℝ) (r : List (ℝ × Nat) × Gaussian ℝ)
    (h : fitGaussian s m X y = .ok r) : r.1 = countLabels m y := by
  simp only [fitGaussian, Res.bind_eq_ok] at h
  obtain ⟨_, -, _, -, h⟩ := h
  cases h
  rfl

theorem multinomial_map (checked : Bool) (m : List (ℝ × Nat)) (X : DMat ℝ) (y : List ℝ) (r : List (ℝ × Nat) × Counts ℝ)
    (h : fitMultinomial checked m X y = .ok r) : r.1 = countLabels m y := by
  simp only [fitMultinomial, Res.bind_eq_ok] at h
  obtain ⟨_, -, _, -, h⟩ := h
  cases h
  rfl

theorem groups_throw (X : DMat ℝ) (y : List ℝ) (hy : y.length ≠ X.nrows) (labels : List ℝ) :
    groups X y labels = .throw .invalidArgument := by
  have : X.nrows ≠ (⟨1, y.map fun b => [b]⟩ : DMat ℝ).nrows := by
    show X.nrows ≠ (y.map fun b => [b]).length
    rw [List.length_map]
    exact Ne.symm hy
  simp [groups, MatOps.hstack, this]

/-- A class without samples makes a Gaussian fit undefined. -/
theorem gaussian_missing (s : ℝ) (fits : List (List ℝ)) (X : DMat ℝ) (hx : X.WF) (y : List ℝ) (hy : y.length = X.nrows) (hne : y ≠ [])
    (b : ℝ) (hb : b ∈ fits.flatten) (hby : b ∉ y) : fitGaussian s (labelMapAfter fits) X y = .ub := by
  have hn : 0 < X.nrows := by rw [← hy]; exact List.length_pos_iff.mpr hne
  by_cases hd : X.ncols < 2
  · exact (C72_few_features true s fits X hx y hy hn hd).1
  · have h' := holds_countLabels _ _ y (holds_after fits)
    have hk : b ∈ classesOf (countLabels (labelMapAfter fits) y) := (h'.keys b).mpr (by simp [hb])
    rw [fitGaussian]
    simp only [updateMeanVariance, groups_spec X hx y hy (by omega), Res.bind_ok]
    have hmean : mapRes (fun g => definedRow (Stats.mean g 0))
        ((classesOf (countLabels (labelMapAfter fits) y)).map fun b => (⟨X.ncols, classRows X.rows y b⟩ : DMat ℝ)) = .ub := by
      rw [mapRes_map]
      refine mapRes_ub _ _ (fun c _ => Or.symm ?_) ⟨b, hk, ?_⟩
      · by_cases hc : classRows X.rows y c = []
        · left
          simp only [Function.comp, hc]
          obtain ⟨d, hd'⟩ : ∃ d, X.ncols = d + 1 := ⟨X.ncols - 1, by omega⟩
          simp [Stats.mean, Stats.reduce, DMat.cols, DMat.col, hd', List.range_succ_eq_map, definedRow, readAt, mapRes, Stats.meanLine]
        · right
          refine ⟨(List.range X.ncols).map fun f => average (featureOf (classRows X.rows y c) f), ?_⟩
          have : (⟨X.ncols, classRows X.rows y c⟩ : DMat ℝ).cols.map Stats.meanLine =
              ((List.range X.ncols).map fun f => average (featureOf (classRows X.rows y c) f)).map some := by
            rw [cols_classRows _ _ (classRows_width X hx y c), List.map_map, List.map_map]
            apply List.map_congr_left
            intro f _
            have hf : featureOf (classRows X.rows y c) f ≠ [] := by simpa [featureOf] using hc
            simp [Stats.meanLine, hf, average]
          simp only [Function.comp_apply, Stats.mean, Stats.reduce, if_true, this]
          exact definedRow_some _ _
      · have hc : classRows X.rows y b = [] := by
          unfold classRows
          rw [List.map_eq_nil_iff, List.filter_eq_nil_iff]
          intro e he
          have := (List.of_mem_zip (a := e.1) (b := e.2) he).2
          simpa using fun h0 : e.2 = b => hby (h0 ▸ this)
        simp only [Function.comp, hc]
        obtain ⟨d, hd'⟩ : ∃ d, X.ncols = d + 1 := ⟨X.ncols - 1, by omega⟩
        simp [Stats.mean, Stats.reduce, DMat.cols, DMat.col, hd', List.range_succ_eq_map, definedRow, readAt, mapRes, Stats.meanLine]
    rw [hmean]
    rfl

theorem classes_same (fits : List (List ℝ)) (y : List ℝ) (h : ∀ b ∈ fits.flatten, b ∈ y) :
    classesOf (countLabels (labelMapAfter fits) y) = classesOf (countLabels [] y) := by
  have h1 := holds_countLabels _ _ y (holds_after fits)
  have h2 := holds_countLabels ([] : List (ℝ × Nat)) [] y holds_nil
  refine h1.sorted.eq_of_mem_iff h2.sorted fun k => ?_
  rw [h1.keys, h2.keys, List.nil_append, List.mem_append]
  exact ⟨fun hk => hk.elim (h k) id, Or.inr⟩

/-- With every earlier label present, a Gaussian fit is that of a new object. -/
theorem gaussian_same (s : ℝ) (fits : List (List ℝ)) (X : DMat ℝ) (y : List ℝ) (h : ∀ b ∈ fits.flatten, b ∈ y) :
    fitGaussian s (labelMapAfter fits) X y =
      (do let r ← fitGaussian s [] X y; .ok (countLabels (labelMapAfter fits) y, r.2)) := by
  simp only [fitGaussian, classes_same fits y h]
  cases updateMeanVariance X y (classesOf (countLabels [] y)) with
  | ok g => simp only [Res.bind_ok]; cases maxEntry g.var <;> rfl
  | throw e => rfl
  | ub => rfl
  | diverge => rfl

/-- The parameters of an object: those of a new one as long as no call was proper, afterwards those of the last proper call. -/
def ParamsInv {θ : Type} (start : θ → Prop) (P : List (DMat ℝ × List ℝ) → DMat ℝ → List ℝ → θ → Prop) (cs : List (DMat ℝ × List ℝ))
    (t : θ) : Prop :=
  ((∀ c ∈ cs, c.2.length ≠ c.1.nrows) → start t) ∧ ∀ before X y after, EndsWith cs before X y after → P before X y t

theorem paramsInv_good {θ : Type} (start : θ → Prop) (P : List (DMat ℝ × List ℝ) → DMat ℝ → List ℝ → θ → Prop)
    (cs : List (DMat ℝ × List ℝ)) (X : DMat ℝ) (y : List ℝ) (hy : y.length = X.nrows) (t : θ) (h : P cs X y t) :
    ParamsInv start P (cs ++ [(X, y)]) t := by
  refine ⟨fun h0 => absurd hy (h0 (X, y) (by simp)), ?_⟩
  rintro before X' y' after ⟨e, -, ha⟩
  rcases List.eq_nil_or_concat after with rfl | ⟨a, b, rfl⟩
  · obtain ⟨e1, e2⟩ := List.append_inj' e rfl
    cases e2
    rwa [← e1]
  · exfalso
    rw [List.concat_eq_append, ← List.cons_append, ← List.append_assoc] at e
    obtain ⟨-, e2⟩ := List.append_inj' e rfl
    cases e2
    exact ha (X, y) (by simp) hy

theorem paramsInv_bad {θ : Type} (start : θ → Prop) (P : List (DMat ℝ × List ℝ) → DMat ℝ → List ℝ → θ → Prop)
    (cs : List (DMat ℝ × List ℝ)) (X : DMat ℝ) (y : List ℝ) (hy : y.length ≠ X.nrows) (t t' : θ) (h : ParamsInv start P cs t)
    (hs : start t → start t') (hP : ∀ b X y, P b X y t → P b X y t') : ParamsInv start P (cs ++ [(X, y)]) t' := by
  refine ⟨fun h0 => hs (h.1 fun c hc => h0 c (by simp [hc])), ?_⟩
  rintro before X' y' after ⟨e, hy', ha⟩
  rcases List.eq_nil_or_concat after with rfl | ⟨a, b, rfl⟩
  · exfalso
    obtain ⟨-, e2⟩ := List.append_inj' e rfl
    cases e2
    exact hy hy'
  · rw [List.concat_eq_append, ← List.cons_append, ← List.append_assoc] at e
    obtain ⟨e1, -⟩ := List.append_inj' e rfl
    exact hP _ _ _ (h.2 before X' y' a ⟨e1, hy', fun c hc => ha c (by simp [hc])⟩)

/-- The parameters of a Gaussian object. -/
def GaussianInv (s : ℝ) (cs : List (DMat ℝ × List ℝ)) (o : Object (Gaussian ℝ)) : Prop :=
  Inv cs o ∧ ParamsInv (fun g => g.mean = [])
    (fun before X y g => fitGaussian s [] X y = .ok (countLabels [] y, g) ∧ ∀ b ∈ allLabels before, b ∈ y) cs o.params

theorem gaussianInv_fit (checked : Bool) (s : ℝ) (cs : List (DMat ℝ × List ℝ)) (o : Object (Gaussian ℝ)) (X : DMat ℝ) (y : List ℝ)
    (o' : Object (Gaussian ℝ)) (sn : Seen) (ho : GaussianInv s cs o) (hx : X.WF) (hne : y ≠ [])
    (h : fit (gaussian checked s) o X y = .ok (o', sn)) : GaussianInv s (cs ++ [(X, y)]) o' := by
  refine ⟨inv_fit _ (fun m X y r hr => gaussian_map s m X y r hr) cs o X y o' sn ho.1 h, ?_⟩
  by_cases hy : y.length = X.nrows
  · refine paramsInv_good _ _ cs X y hy _ ?_
    simp only [fit, gaussian, ho.1.map] at h
    by_cases hall : ∀ b ∈ (cs.map Prod.snd).flatten, b ∈ y
    · rw [gaussian_same s _ X y hall] at h
      cases hf : fitGaussian s [] X y with
      | ok r =>
        rw [hf] at h
        simp only [Res.bind_ok] at h
        cases h
        refine ⟨?_, hall⟩
        rw [← gaussian_map s [] X y r hf]
      | throw e =>
        exfalso
        have hn : 0 < X.nrows := by rw [← hy]; exact List.length_pos_iff.mpr hne
        by_cases hd : X.ncols < 2
        · have := (C72_few_features true s [] X hx y hy hn hd).1
          simp only [labelMapAfter, List.foldl_nil] at this
          rw [hf] at this
          cases this
        · obtain ⟨m, g, top, e1, -⟩ := C71_fit s X hx y hy hn (by omega)
          rw [hf] at e1
          cases e1
      | ub => rw [hf] at h; cases h
      | diverge => rw [hf] at h; cases h
    · push Not at hall
      obtain ⟨b, hb, hby⟩ := hall
      rw [gaussian_missing s _ X hx y hy hne b hb hby] at h
      cases h
  · have hf : fitGaussian s o.labelMap X y = .throw .invalidArgument := by
      simp [fitGaussian, updateMeanVariance, groups_throw X y hy]
    simp only [fit, gaussian, hf] at h
    cases h
    exact paramsInv_bad _ _ cs X y hy _ _ ho.2 id fun _ _ _ => id

/-- The parameters of a multinomial object. -/
def MultinomialInv (cs : List (DMat ℝ × List ℝ)) (o : Object (Counts ℝ)) : Prop :=
  Inv cs o ∧ (∀ c, cs.getLast? = some c → o.params.numFeatures = c.1.ncols) ∧
  ParamsInv (fun k => k.feature = [])
    (fun before X y k => 2 ≤ X.ncols ∧
      (k.feature = (classesOf (labelMapAfter ((before ++ [(X, y)]).map Prod.snd))).map fun b =>
        (List.range X.ncols).map fun f => (featureOf (classRows X.rows y b) f).sum) ∧
      k.total = k.feature.map List.sum) cs o.params

theorem multinomial_fit (checked : Bool) (fits : List (List ℝ)) (X : DMat ℝ) (hx : X.WF) (y : List ℝ) (hy : y.length = X.nrows)
    (hne : y ≠ []) (r : List (ℝ × Nat) × Counts ℝ) (h : fitMultinomial checked (labelMapAfter fits) X y = .ok r) :
    checked = false ∧ 2 ≤ X.ncols ∧ r.2.numFeatures = X.ncols ∧
    (r.2.feature = (classesOf (labelMapAfter (fits ++ [y]))).map fun b =>
      (List.range X.ncols).map fun f => (featureOf (classRows X.rows y b) f).sum) ∧
    r.2.total = r.2.feature.map List.sum := by
  have hn : 0 < X.nrows := by rw [← hy]; exact List.length_pos_iff.mpr hne
  have hc : checked = false := by
    cases checked
    · rfl
    · rw [C72_multinomial_checked fits X hx y hy hn] at h; cases h
  have hd : 2 ≤ X.ncols := by
    by_contra hd
    rw [(C72_few_features checked 0 fits X hx y hy hn (by omega)).2] at h
    cases h
  subst hc
  refine ⟨rfl, hd, ?_⟩
  rw [fitMultinomial] at h
  simp only [groups_spec X hx y hy hd, Res.bind_ok, mapRes_map, Function.comp_def] at h
  rw [Analytic.mapRes_eq_map _ _ _ fun b _ => countGroup_spec _ _ (classRows_width X hx y b)] at h
  simp only [Res.bind_ok, Res.ok.injEq] at h
  subst h
  rw [labelMapAfter_snoc]
  refine ⟨rfl, by simp, by simp [Function.comp_def]⟩

theorem multinomial_total (fits : List (List ℝ)) (X : DMat ℝ) (hx : X.WF) (y : List ℝ) (hy : y.length = X.nrows) (hd : 2 ≤ X.ncols) :
    ∃ r, fitMultinomial false (labelMapAfter fits) X y = .ok r := by
  rw [fitMultinomial]
  simp only [groups_spec X hx y hy hd, Res.bind_ok, mapRes_map, Function.comp_def]
  rw [Analytic.mapRes_eq_map _ _ _ fun b _ => countGroup_spec _ _ (classRows_width X hx y b)]
  exact ⟨_, rfl⟩

theorem multinomialInv_fit (checked : Bool) (alpha : ℝ) (cs : List (DMat ℝ × List ℝ)) (o : Object (Counts ℝ)) (X : DMat ℝ) (y : List ℝ)
    (o' : Object (Counts ℝ)) (sn : Seen) (ho : MultinomialInv cs o) (hx : X.WF) (hne : y ≠ [])
    (h : fit (multinomial checked alpha) o X y = .ok (o', sn)) : MultinomialInv (cs ++ [(X, y)]) o' := by
  refine ⟨inv_fit _ (fun m X y r hr => multinomial_map checked m X y r hr) cs o X y o' sn ho.1 h, ?_⟩
  by_cases hy : y.length = X.nrows
  · simp only [fit, multinomial, ho.1.map] at h
    split at h
    · rename_i r hr
      cases h
      obtain ⟨-, h1, h2, h3, h4⟩ := multinomial_fit checked _ X hx y hy hne r hr
      refine ⟨by simpa using h2, paramsInv_good _ _ cs X y hy _ ⟨h1, ?_, h4⟩⟩
      rw [List.map_append, List.map_singleton]
      exact h3
    · rename_i e he
      exfalso
      have hn : 0 < X.nrows := by rw [← hy]; exact List.length_pos_iff.mpr hne
      cases checked
      · by_cases hd : X.ncols < 2
        · rw [(C72_few_features false 0 _ X hx y hy hn hd).2] at he; cases he
        · obtain ⟨r, hr⟩ := multinomial_total (cs.map Prod.snd) X hx y hy (by omega)
          rw [hr] at he; cases he
      · rw [C72_multinomial_checked _ X hx y hy hn] at he; cases he
    · cases h
    · cases h
  · have hf : fitMultinomial checked o.labelMap X y = .throw .invalidArgument := by
      simp [fitMultinomial, groups_throw X y hy]
    simp only [fit, multinomial, hf] at h
    cases h
    exact ⟨by simp, paramsInv_bad _ _ cs X y hy _ _ ho.2.2 id fun _ _ _ => id⟩

end OpenML.NBObject
