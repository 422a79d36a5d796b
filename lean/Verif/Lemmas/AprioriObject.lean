import Verif.Model.AprioriObject
import Verif.Spec.AprioriObject
import Verif.Lemmas.Apriori
import Verif.Lemmas.Rules

/-! # Lemmas on `Apriori` objects whose exceptions are caught -/

namespace OpenML.AprioriObject

open Apriori HashTree GMMObject Sort2D Spec

theorem record_record (b b' : Bucket) (a : Model) : record b' (record b a) = record (b ++ b') a := by
  simp [record]

theorem record_nil (a : Model) : record [] a = a := by
  simp [record]

/-- The loop from a non-empty level on. -/
theorem levels_spec (X : List (List Nat)) (supp : Nat) : ∀ (fuel k : Nat) (L : List (List Nat)),
    Level X supp k L → L ≠ [] → X.flatten.length + 3 ≤ fuel + k →
    ∃ new : Bucket, (new.map Prod.fst).Nodup ∧
      (∀ s c, (s, c) ∈ new ↔ ∃ j M, k < j ∧ Level X supp j M ∧ s ∈ M ∧ c = occurrences X s) ∧
      ((∀ a, levels X supp fuel L (k + 1) a = .ok (.ok (), record new a)) ∧
          (∀ all, levelLoop X supp fuel L (k + 1) all = .ok (all ++ new)) ∨
       (∀ a, levels X supp fuel L (k + 1) a = .ok (.error .invalidArgument, record new a)) ∧
          (∀ all, levelLoop X supp fuel L (k + 1) all = .throw .invalidArgument)) := by
  intro fuel
  induction fuel with
  | zero =>
    intro k L hL hne hf
    have := hL.inv.size_le hne
    omega
  | succ fuel ih =>
    intro k L hL hne hf
    have inv := hL.inv
    unfold levels levelLoop
    by_cases h1 : L.length ≤ 1
    · refine ⟨[], by simp, ?_, Or.inl ⟨fun a => by rw [if_pos h1, record_nil]; rfl, fun all => by rw [if_pos h1]; simp⟩⟩
      intro s' c
      simp only [List.not_mem_nil, false_iff]
      rintro ⟨j, M, hj, hM, _, _⟩
      obtain ⟨d, rfl⟩ : ∃ d, j = k + d + 1 := ⟨j - k - 1, by omega⟩
      obtain ⟨L0, h0, h2⟩ := Level.down d hM inv.pos
      have := h0.unique hL
      subst this
      omega
    · obtain ⟨n, rfl⟩ : ∃ n, k = n + 1 := ⟨k - 1, by have := inv.pos; omega⟩
      obtain ⟨curr, h2, h3, h4⟩ := nextLevel_spec X supp n L inv.len
      have hmem : ∀ s, s ∈ curr.map Prod.fst ↔
          ∃ P x y, s = P ++ [x, y] ∧ Before L (P ++ [x]) (P ++ [y]) ∧ supp ≤ occurrences X s := by
        intro s
        rw [List.mem_map]
        constructor
        · rintro ⟨⟨s', c⟩, h, rfl⟩
          obtain ⟨ha, rfl, hc⟩ := (h4 s' c).mp h
          obtain ⟨P, x, y, e, hb⟩ := (mem_candList_iff inv.pos inv.len inv.sorted).mp ha
          exact ⟨P, x, y, e, hb, hc⟩
        · rintro ⟨P, x, y, e, hb, hc⟩
          exact ⟨(s, occurrences X s), (h4 _ _).mpr
            ⟨(mem_candList_iff inv.pos inv.len inv.sorted).mpr ⟨P, x, y, e, hb⟩, rfl, hc⟩, rfl⟩
      by_cases hc : curr = []
      · subst hc
        have hs : sortrows (List.map Prod.fst ([] : Bucket)) false = .throw .invalidArgument := by simp [sortrows]
        have hlast : Level X supp (n + 2) [] := Level.next hL (by omega) List.Pairwise.nil hmem
        refine ⟨[], by simp, ?_, Or.inr ⟨fun a => ?_, fun all => ?_⟩⟩
        · intro s' c
          simp only [List.not_mem_nil, false_iff]
          rintro ⟨j, M, hj, hM, hs, _⟩
          by_cases hj2 : j = n + 2
          · subst hj2
            rw [hM.unique hlast] at hs
            simp at hs
          · obtain ⟨d, rfl⟩ : ∃ d, j = n + 2 + d + 1 := ⟨j - (n + 2) - 1, by omega⟩
            obtain ⟨L0, h0, h2⟩ := Level.down d hM (by omega)
            have := h0.unique hlast
            subst this
            simp at h2
        · rw [if_neg h1]
          simp only [Call.andThen, Call.const, Call.modify, h2, hs]
        · rw [if_neg h1, h2]
          simp only [Res.bind_ok, hs]
          rfl
      · have hlen : ∀ r ∈ curr.map Prod.fst, r.length = n + 2 := by
          intro r hr
          obtain ⟨P, x, y, rfl, hb, _⟩ := (hmem r).mp hr
          have := inv.len _ (hb.subset (by simp) : P ++ [x] ∈ L)
          simp at this ⊢; omega
        obtain ⟨y, h5, h6, h7⟩ := (sortrows_rect (curr.map Prod.fst) (n + 2) (by omega) (by simpa using hc) hlen h3)
        have hy : Level X supp (n + 2) y := Level.next hL (by omega) h7 fun s => (h6.mem_iff).trans (hmem s)
        have hyne : y ≠ [] := by
          intro e
          rw [e] at h6
          have := h6.length_eq
          simp at this
          exact hc (List.length_eq_zero_iff.mp this.symm)
        have hcurr : ∀ s c, (s, c) ∈ curr ↔ s ∈ y ∧ c = occurrences X s := by
          intro s c
          rw [h6.mem_iff, hmem, h4, mem_candList_iff inv.pos inv.len inv.sorted]
          constructor
          · rintro ⟨⟨P, x, y, e, hb⟩, rfl, hc⟩
            exact ⟨⟨P, x, y, e, hb, hc⟩, rfl⟩
          · rintro ⟨⟨P, x, y, e, hb, hc⟩, rfl⟩
            exact ⟨⟨P, x, y, e, hb⟩, rfl, hc⟩
        obtain ⟨new, e4, e5, e6⟩ := ih (n + 2) y hy hyne (by omega)
        refine ⟨curr ++ new, ?_, ?_, ?_⟩
        · rw [List.map_append, List.nodup_append]
          refine ⟨h3, e4, ?_⟩
          rintro a ha b hb rfl
          obtain ⟨⟨b', c⟩, hb', rfl⟩ := List.mem_map.mp hb
          obtain ⟨j, M, hj, hM, hbM, _⟩ := (e5 _ _).mp hb'
          have l1 : b'.length = n + 2 := hlen _ ha
          have l2 : b'.length = j := hM.inv.len _ hbM
          omega
        · intro s c
          rw [List.mem_append, e5, hcurr]
          constructor
          · rintro (⟨h, rfl⟩ | ⟨j, M, hj, h⟩)
            · exact ⟨n + 2, y, by omega, hy, h, rfl⟩
            · exact ⟨j, M, by omega, h⟩
          · rintro ⟨j, M, hj, hM, hs, rfl⟩
            by_cases hjn : j = n + 2
            · subst hjn
              rw [hM.unique hy] at hs
              exact Or.inl ⟨hs, rfl⟩
            · exact Or.inr ⟨j, M, by omega, hM, hs, rfl⟩
        · have step : ∀ a, (if L.length ≤ 1 then Call.ret () else
              (Call.const fun _ => nextLevel X supp L (n + 1 + 1)).andThen fun curr =>
              (Call.modify (record curr)).andThen fun _ =>
              (Call.const fun _ => sortrows (curr.map Prod.fst) false).andThen fun prev' =>
              levels X supp fuel prev' (n + 1 + 1 + 1)) a = levels X supp fuel y (n + 2 + 1) (record curr a) := by
            intro a
            rw [if_neg h1]
            simp only [Call.andThen, Call.const, Call.modify, h2, h5]
          have step' : ∀ all, (if L.length ≤ 1 then Res.ok all else do
              let curr ← nextLevel X supp L (n + 1 + 1)
              let prev' ← sortrows (curr.map Prod.fst) false
              levelLoop X supp fuel prev' (n + 1 + 1 + 1) (all ++ curr)) = levelLoop X supp fuel y (n + 2 + 1) (all ++ curr) := by
            intro all
            rw [if_neg h1, h2]
            simp only [Res.bind_ok, h5]
          rcases e6 with ⟨e6, e7⟩ | ⟨e6, e7⟩
          · exact Or.inl ⟨fun a => by rw [step, e6, record_record], fun all => by rw [step', e7, List.append_assoc]⟩
          · exact Or.inr ⟨fun a => by rw [step, e6, record_record], fun all => by rw [step', e7]⟩

/-- What a fit records, whether it completes or throws. -/
theorem fitData_records (X : List (List Nat)) (supp : Nat) :
    ∃ new : Bucket, (new.map Prod.fst).Nodup ∧
      (∀ s c, (s, c) ∈ new ↔ (∃ j M, Level X supp j M ∧ s ∈ M) ∧ c = if s.length = 1 then support X s else occurrences X s) ∧
      ((∀ a : Model, supportCount X.length a.minSupport = supp → fitData X a = .ok (.ok (), record new a)) ∧
          (∀ all, Apriori.fitData X supp all = .ok (all ++ new)) ∨
       ∃ e, (∀ a : Model, supportCount X.length a.minSupport = supp → fitData X a = .ok (.error e, record new a)) ∧
          (∀ all, Apriori.fitData X supp all = .throw e)) := by
  have h1 : Level X supp 1 ((levelOne X supp).map Prod.fst) := by rw [levelOne_fst]; exact Level.one
  by_cases hn : ∀ v ∈ (TransactionEncoder.fitTransform X).stored.map Prod.snd, keptRecord X supp v = false
  · refine ⟨[], by simp, ?_, Or.inr ⟨.runtimeError, fun a ha => ?_, fun all => ?_⟩⟩
    · intro s c
      simp only [List.not_mem_nil, false_iff]
      rintro ⟨⟨j, M, hM, hs⟩, _⟩
      rw [noRecords_iff.mp hn] at h1
      by_cases hj : j = 1
      · subst hj
        rw [hM.unique h1] at hs
        simp at hs
      · have := hM.inv.pos
        obtain ⟨d, rfl⟩ : ∃ d, j = 1 + d + 1 := ⟨j - 2, by omega⟩
        obtain ⟨L0, h0, h2⟩ := Level.down d hM (by omega)
        have := h0.unique h1
        subst this
        simp at h2
    · unfold fitData
      subst ha
      dsimp only
      rw [if_pos hn, record_nil]
      rfl
    · unfold Apriori.fitData
      rw [if_pos hn]
  · obtain ⟨new, e4, e5, e6⟩ := levels_spec X supp (X.flatten.length + 2) 1 _ h1
      (by rw [noRecords_iff] at hn; simpa using hn) (by omega)
    refine ⟨levelOne X supp ++ new, ?_, ?_, ?_⟩
    · rw [List.map_append, List.nodup_append]
      refine ⟨levelOne_nodup X supp, e4, ?_⟩
      rintro a ha b hb rfl
      obtain ⟨⟨b', c⟩, hb', rfl⟩ := List.mem_map.mp hb
      obtain ⟨j, M, hj, hM, hbM, _⟩ := (e5 _ _).mp hb'
      have l1 : b'.length = 1 := h1.inv.len _ ha
      have l2 : b'.length = j := hM.inv.len _ hbM
      omega
    · intro s c
      rw [List.mem_append, e5]
      constructor
      · rintro (h | ⟨j, M, hj, hM, hs, rfl⟩)
        · have hs : s ∈ (levelOne X supp).map Prod.fst := List.mem_map.mpr ⟨_, h, rfl⟩
          obtain ⟨v, rfl, _, rfl, _⟩ := mem_levelOne.mp h
          exact ⟨⟨1, _, h1, hs⟩, by simp⟩
        · have : s.length = j := hM.inv.len _ hs
          exact ⟨⟨j, M, hM, hs⟩, by rw [if_neg (by omega)]⟩
      · rintro ⟨⟨j, M, hM, hs⟩, rfl⟩
        have hl : s.length = j := hM.inv.len _ hs
        have hj := hM.inv.pos
        by_cases h : j = 1
        · subst h
          left
          rw [hM.unique h1] at hs
          obtain ⟨⟨s', c⟩, h2, rfl⟩ := List.mem_map.mp hs
          obtain ⟨v, rfl, h3, rfl, h4⟩ := mem_levelOne.mp h2
          simpa using h2
        · right
          rw [if_neg (by omega)]
          exact ⟨j, M, by omega, hM, hs, rfl⟩
    · have step : ∀ a : Model, supportCount X.length a.minSupport = supp → fitData X a =
          levels X supp (X.flatten.length + 2) ((levelOne X supp).map Prod.fst) (1 + 1) (record (levelOne X supp) a) := by
        rintro a rfl
        unfold fitData
        dsimp only
        rw [if_neg hn]
        rfl
      have step' : ∀ all, Apriori.fitData X supp all =
          levelLoop X supp (X.flatten.length + 2) ((levelOne X supp).map Prod.fst) (1 + 1) (all ++ levelOne X supp) := by
        intro all
        unfold Apriori.fitData
        rw [if_neg hn]
      rcases e6 with ⟨e6, e7⟩ | ⟨e6, e7⟩
      · exact Or.inl ⟨fun a ha => by rw [step a ha, e6, record_record], fun all => by rw [step', e7, List.append_assoc]⟩
      · exact Or.inr ⟨.invalidArgument, fun a ha => by rw [step a ha, e6, record_record], fun all => by rw [step', e7]⟩

theorem transformData_total (table : Bucket) (q : ℚ) : ∃ rs, Apriori.transformData table q = .ok rs := by
  obtain ⟨rs, h, _⟩ := rulesAll_spec (frequencyMap table) q (frequencyMap table)
  exact ⟨rs, h⟩

/-- What `fit_transform` adds to the table. -/
noncomputable def added (q : ℚ) (X : List (List Nat)) : Bucket := (fitData_records X (supportCount X.length q)).choose

open Classical in
/-- Whether `fit_transform` completes. -/
noncomputable def done (q : ℚ) (X : List (List Nat)) : Bool := ∃ r, Apriori.fitData X (supportCount X.length q) [] = .ok r

/-- The rules drawn from a table. -/
noncomputable def drawnFrom (r : ℚ) (table : Bucket) : List Rule := (transformData_total table r).choose

/-- The databases of a program. -/
def databases : List Statement → List (List (List Nat))
  | [] => []
  | .fit X :: ps => X :: databases ps
  | .getRules :: ps => databases ps
  | .printRules :: ps => databases ps

/-- The exception that `fit_transform` throws if it does not complete. -/
noncomputable def failure (q : ℚ) (X : List (List Nat)) : Exn :=
  match Apriori.fitData X (supportCount X.length q) [] with
  | .throw e => e
  | _ => .runtimeError

theorem drawnFrom_spec (r : ℚ) (table : Bucket) : Apriori.transformData table r = .ok (drawnFrom r table) :=
  (transformData_total table r).choose_spec

theorem added_spec (q : ℚ) (X : List (List Nat)) : ((added q X).map Prod.fst).Nodup ∧
    ∀ s c, (s, c) ∈ added q X ↔ (∃ j M, Level X (supportCount X.length q) j M ∧ s ∈ M) ∧
      c = if s.length = 1 then support X s else occurrences X s := by
  obtain ⟨h1, h2, _⟩ := (fitData_records X (supportCount X.length q)).choose_spec
  exact ⟨h1, h2⟩

theorem done_spec (q : ℚ) (X : List (List Nat)) :
    (∀ a : Model, a.minSupport = q → fitData X a = .ok (if done q X then .ok () else .error (failure q X), record (added q X) a)) ∧
    (∀ all, Apriori.fitData X (supportCount X.length q) all = if done q X then .ok (all ++ added q X) else .throw (failure q X)) := by
  obtain ⟨_, _, h3⟩ := (fitData_records X (supportCount X.length q)).choose_spec
  rcases h3 with ⟨h3, h4⟩ | ⟨e, h3, h4⟩
  · have hd : done q X = true := by
      unfold done
      rw [h4]
      simp
    simp only [hd, if_true]
    exact ⟨fun a ha => h3 a (by rw [ha]), h4⟩
  · have hd : done q X = false := by
      unfold done
      rw [h4]
      simp
    have hf : failure q X = e := by
      unfold failure
      rw [h4]
    simp only [hd, hf, Bool.false_eq_true, if_false]
    exact ⟨fun a ha => h3 a (by rw [ha]), h4⟩

/-- The object after `fit_transform`. -/
noncomputable def afterFit (X : List (List Nat)) (a : Model) : Model :=
  { a with allFrequency := a.allFrequency ++ added a.minSupport X,
           rules := if done a.minSupport X then a.rules ++ drawnFrom a.minConfidence (a.allFrequency ++ added a.minSupport X)
             else a.rules }

theorem fit_step (X : List (List Nat)) (a : Model) :
    fitTransform X a = .ok (if done a.minSupport X then .ok () else .error (failure a.minSupport X), afterFit X a) := by
  have h1 := (done_spec a.minSupport X).1 a rfl
  unfold fitTransform transformData afterFit
  cases hd : done a.minSupport X with
  | true =>
    simp only [hd, if_true] at h1 ⊢
    simp only [Call.andThen, Call.const, Call.modify, h1, record, drawnFrom_spec]
  | false =>
    simp only [hd, Bool.false_eq_true, if_false] at h1 ⊢
    simp only [Call.andThen, h1, record]

theorem run_append (conf : ℚ → List Char) (ps qs : List Statement) (a : Model) {seen : List Seen} {a' : Model}
    (h : run conf ps a = .ok (seen, a')) {seen' : List Seen} {a'' : Model} (h' : run conf qs a' = .ok (seen', a'')) :
    run conf (ps ++ qs) a = .ok (seen ++ seen', a'') := by
  induction ps generalizing a seen with
  | nil =>
    simp only [run, Res.ok.injEq, Prod.mk.injEq] at h
    obtain ⟨rfl, rfl⟩ := h
    simpa using h'
  | cons p ps ih =>
    rw [run, Res.bind_eq_ok] at h
    obtain ⟨⟨x, b⟩, h1, h⟩ := h
    rw [Res.bind_eq_ok] at h
    obtain ⟨⟨ss, b'⟩, h2, h⟩ := h
    simp only [Res.ok.injEq, Prod.mk.injEq] at h
    obtain ⟨rfl, rfl⟩ := h
    rw [List.cons_append, run, h1, Res.bind_ok, ih b h2]
    rfl

theorem run_state (conf : ℚ → List Char) (q r : ℚ) (ps : List Statement) (a : Model) (h1 : a.minSupport = q) (h2 : a.minConfidence = r) :
    ∃ seen a', run conf ps a = .ok (seen, a') ∧ a'.minSupport = q ∧ a'.minConfidence = r ∧
      (a'.allFrequency, a'.rules) = mined (added q) (done q) (drawnFrom r) (databases ps) (a.allFrequency, a.rules) := by
  induction ps generalizing a with
  | nil => exact ⟨[], a, rfl, h1, h2, rfl⟩
  | cons p ps ih =>
    cases p with
    | fit X =>
      obtain ⟨seen, a', e1, e2, e3, e4⟩ := ih (afterFit X a) h1 h2
      have hs : ∃ x, step conf a (.fit X) = .ok (x, afterFit X a) := by
        unfold step
        simp only [fit_step]
        cases done a.minSupport X <;> exact ⟨_, rfl⟩
      obtain ⟨x, hs⟩ := hs
      refine ⟨x :: seen, a', by rw [run, hs, Res.bind_ok, e1]; rfl, e2, e3, ?_⟩
      rw [e4, databases, mined]
      subst h1 h2
      rfl
    | getRules =>
      obtain ⟨seen, a', e1, e2, e3, e4⟩ := ih a h1 h2
      exact ⟨.rules a.rules :: seen, a', by simp only [run, step, Res.bind_ok, e1], e2, e3, e4⟩
    | printRules =>
      obtain ⟨seen, a', e1, e2, e3, e4⟩ := ih a h1 h2
      exact ⟨.text (printRules conf a.rules) :: seen, a', by simp only [run, step, Res.bind_ok, e1], e2, e3, e4⟩

end OpenML.AprioriObject
