import Verif.Lemmas.Copies
import Verif.Spec.ExtraFeature

/-!
# Trees and an appended feature
-/

set_option linter.unusedSectionVars false

namespace OpenML.ExtraFeature

open Spec DTree

variable {α : Type} [Field α] [LinearOrder α] [IsStrictOrderedRing α] {R : Type} [LinearOrder R]

section
variable (g : List α → α) (X : DMat α) (hx : X.WF) (y : List α) (hy : y.length = X.nrows)

omit [Field α] [LinearOrder α] [IsStrictOrderedRing α] in
theorem wf (hx : X.WF) : (withFeature g X).WF := by
  intro r hr
  obtain ⟨x, h, rfl⟩ := List.mem_map.mp hr
  simp [withFeature, hx x h]

omit [Field α] [LinearOrder α] [IsStrictOrderedRing α] in
theorem nrows : (withFeature g X).nrows = X.nrows := by simp [withFeature, DMat.nrows]

omit [Field α] [LinearOrder α] [IsStrictOrderedRing α] in
theorem col_old (hx : X.WF) (f : Nat) (hf : f < X.ncols) : (withFeature g X).col f = X.col f := by
  unfold DMat.col withFeature
  rw [List.filterMap_map]
  refine List.filterMap_congr fun x h => ?_
  simp [List.getElem?_append_left (show f < x.length by rw [hx x h]; exact hf)]

omit [Field α] [LinearOrder α] [IsStrictOrderedRing α] in
theorem getElem_new (x : List α) (hx : x.length = X.ncols) : (x ++ [g x])[X.ncols]? = some (g x) := by
  rw [List.getElem?_append_right (by omega), hx]; simp

omit [Field α] [LinearOrder α] [IsStrictOrderedRing α] in
theorem col_new (hx : X.WF) : (withFeature g X).col X.ncols = X.rows.map g := by
  unfold DMat.col withFeature
  rw [List.filterMap_map, ← List.filterMap_eq_map]
  refine List.filterMap_congr fun x h => ?_
  exact getElem_new g X x (hx x h)

omit [Field α] [LinearOrder α] [IsStrictOrderedRing α] in
theorem zip_ext : (withFeature g X).rows.zip y = (X.rows.zip y).map fun e => (e.1 ++ [g e.1], e.2) := by
  unfold withFeature
  rw [List.zip_map_left]
  rfl

theorem part_old (hx : X.WF) (f : Nat) (hf : f < X.ncols) (p : α → Bool) :
    part (withFeature g X) y f p = (part X y f p).map fun e => (e.1 ++ [g e.1], e.2) := by
  unfold part
  rw [zip_ext, List.filter_map]
  congr 1
  refine List.filter_congr fun e he => ?_
  have hm := (List.of_mem_zip he).1
  simp only [Function.comp, side]
  rw [List.getElem?_append_left (show f < e.1.length by rw [hx _ hm]; exact hf)]

theorem part_new (hx : X.WF) (f : Nat) (hf : f < X.ncols) (p p' : α → Bool)
    (hp : ∀ x ∈ X.rows, ∀ a, x[f]? = some a → p' (g x) = p a) :
    (part (withFeature g X) y X.ncols p').map Prod.snd = (part X y f p).map Prod.snd := by
  unfold part
  rw [zip_ext, List.filter_map, List.map_map]
  refine (List.map_congr_left fun _ _ => rfl).trans (congrArg (List.map Prod.snd) (List.filter_congr fun e he => ?_))
  have hm := (List.of_mem_zip he).1
  have hl : f < e.1.length := by rw [hx _ hm]; exact hf
  simp only [Function.comp, side]
  rw [getElem_new g X _ (hx _ hm), List.getElem?_eq_getElem hl]
  exact hp _ hm _ (List.getElem?_eq_getElem hl)

variable (imp : List α → List α → List α → Res R)

theorem score_old (hx : X.WF) (f : Nat) (hf : f < X.ncols) (t : α) : score imp (withFeature g X) y f t = score imp X y f t := by
  unfold score
  rw [part_old g X y hx f hf, part_old g X y hx f hf, List.map_map, List.map_map]
  rfl

theorem score_new (hx : X.WF) (f : Nat) (hf : f < X.ncols) (t t' : α)
    (ht : ∀ x ∈ X.rows, ∀ a, x[f]? = some a → (g x ≤ t' ↔ a ≤ t)) :
    score imp (withFeature g X) y X.ncols t' = score imp X y f t := by
  unfold score
  rw [part_new g X y hx f hf (fun a => decide (a ≤ t)) (fun a => decide (a ≤ t')) fun x h a ha => by simp [ht x h a ha],
    part_new g X y hx f hf (fun a => decide (t < a)) (fun a => decide (t' < a)) fun x h a ha => by
      simp only [← not_le, ht x h a ha]]

theorem tryThresholds_old (hx : X.WF) (hy : y.length = X.nrows) (f : Nat) (hf : f < X.ncols) (ts : List α) (b : Best α R) :
    tryThresholds imp (withFeature g X) y f ts b = tryThresholds imp X y f ts b := by
  induction ts generalizing b with
  | nil => rfl
  | cons t ts ih =>
    rw [tryThresholds_cons imp _ (wf g X hx) y (by rw [nrows]; exact hy) f (Nat.lt_succ_of_lt hf), tryThresholds_cons imp X hx y hy f hf,
      score_old g X y imp hx f hf]
    simp only [ih]

theorem tryFeatures_old (hx : X.WF) (hy : y.length = X.nrows) (fs : List Nat) (hfs : ∀ f ∈ fs, f < X.ncols) (b : Best α R) :
    tryFeatures imp (withFeature g X) y fs b = tryFeatures imp X y fs b := by
  induction fs generalizing b with
  | nil => rfl
  | cons f fs ih =>
    have hf := hfs f List.mem_cons_self
    simp only [tryFeatures, col_old g X hx f hf, tryThresholds_old g X y imp hx hy f hf,
      ih fun k hk => hfs k (List.mem_cons_of_mem _ hk)]

theorem tryFeatures_append (fs gs : List Nat) (b : Best α R) :
    tryFeatures imp X y (fs ++ gs) b = (do let b' ← tryFeatures imp X y fs b; tryFeatures imp X y gs b') := by
  induction fs generalizing b with
  | nil => rfl
  | cons f fs ih =>
    simp only [List.cons_append, tryFeatures, ih]
    cases thresholds (X.col f) with
    | ok ts =>
      simp only [Res.bind_ok]
      cases tryThresholds imp X y f ts b <;> rfl
    | _ => rfl

/-- Candidates that are not better than the best so far change nothing. -/
theorem tryThresholds_keep (hx : X.WF) (hy : y.length = X.nrows) (f : Nat) (hf : f < X.ncols) (ts : List α) (b : Best α R)
    (h : ∀ t ∈ ts, ∃ v, score imp X y f t = .ok v ∧ v ≤ b.impurity) : tryThresholds imp X y f ts b = .ok b := by
  induction ts with
  | nil => rfl
  | cons t ts ih =>
    obtain ⟨v, hv, hle⟩ := h t List.mem_cons_self
    rw [tryThresholds_cons imp X hx y hy f hf, hv, Res.bind_ok, if_neg (not_lt.mpr hle)]
    exact ih fun u hu => h u (List.mem_cons_of_mem _ hu)

/-- Every candidate threshold of the new feature separates the samples like a candidate threshold of feature `f`, or does not
separate them; the latter only if `f` has a threshold that does not either, if the new feature rises strictly. -/
theorem candidate_new (hx : X.WF) (f : Nat) (hf : f < X.ncols) (hg : RisesWith X.rows f g) (t' : α)
    (hc : IsCandidate (withFeature g X) X.ncols t') :
    (∃ t, IsCandidate X f t ∧ ∀ x ∈ X.rows, ∀ a, x[f]? = some a → (g x ≤ t' ↔ a ≤ t)) ∨
      (∀ x ∈ X.rows, g x ≤ t') ∧ ¬ StrictlyRisesWith X.rows f g := by
  rw [Copies.candidate_iff, col_new g X hx] at hc
  obtain ⟨-, hc⟩ := hc
  have hcol : ∀ a, a ∈ X.col f ↔ ∃ x ∈ X.rows, x[f]? = some a := fun a => by simp [DMat.col]
  have hval : ∀ x ∈ X.rows, ∃ a, x[f]? = some a := fun x h =>
    ⟨_, List.getElem?_eq_getElem (show f < x.length by rw [hx x h]; exact hf)⟩
  -- some sample is not above the threshold
  have hlow : ∃ x ∈ X.rows, g x ≤ t' := by
    rcases hc with h2 | ⟨a, ha, b, hb, hab, -, rfl⟩
    · obtain ⟨x, h, e⟩ := List.mem_map.mp (List.count_pos_iff.mp (lt_of_lt_of_le (by norm_num) h2))
      exact ⟨x, h, e.le⟩
    · obtain ⟨x, h, e⟩ := List.mem_map.mp ha
      exact ⟨x, h, by rw [e]; linarith⟩
  by_cases hall : ∀ x ∈ X.rows, g x ≤ t'
  · by_cases hs : StrictlyRisesWith X.rows f g
    · left
      -- the threshold is the largest value, and repeated
      rcases hc with h2 | ⟨a, ha, b, hb, hab, -, rfl⟩
      · obtain ⟨x₀, h₀, e₀⟩ := List.mem_map.mp (List.count_pos_iff.mp (lt_of_lt_of_le (by norm_num) h2))
        obtain ⟨A, hA⟩ := hval x₀ h₀
        have heq : ∀ x ∈ X.rows, ∀ a, x[f]? = some a → a ≤ A := by
          intro x h a ha
          by_contra hlt
          have := hs.2 x₀ h₀ x h A a hA ha (not_le.mp hlt)
          rw [e₀] at this
          exact absurd (hall x h) (not_le.mpr this)
        refine ⟨A, (Copies.candidate_iff X f A).mpr ⟨hf, Or.inl (h2.trans ?_)⟩, fun x h a ha => ⟨fun _ => heq x h a ha, fun _ => hall x h⟩⟩
        have : X.col f = X.rows.map fun x => x.getD f 0 := by
          unfold DMat.col
          rw [← List.filterMap_eq_map]
          refine List.filterMap_congr fun x h => ?_
          obtain ⟨a, ha⟩ := hval x h
          simp [ha]
        rw [this, List.count_eq_countP, List.count_eq_countP, List.countP_map, List.countP_map]
        refine List.countP_mono_left fun x h hxt => ?_
        simp only [Function.comp, beq_iff_eq] at hxt ⊢
        obtain ⟨a, ha⟩ := hval x h
        simp only [List.getD_eq_getElem?_getD, ha, Option.getD_some]
        refine le_antisymm (heq x h a ha) ?_
        by_contra hlt
        have := hs.2 x h x₀ h₀ a A ha hA (not_le.mp hlt)
        rw [e₀, hxt] at this
        exact lt_irrefl _ this
      · exfalso
        obtain ⟨z, h, e⟩ := List.mem_map.mp hb
        have := hall z h
        rw [e] at this
        linarith
    · exact Or.inr ⟨hall, hs⟩
  · left
    push Not at hall
    obtain ⟨z₀, hz₀, hgt⟩ := hall
    obtain ⟨x₀, hx₀, hle⟩ := hlow
    -- the largest value of `f` below and the least above
    have n1 : ((X.rows.filter fun x => decide (g x ≤ t')).filterMap (·[f]?)).toFinset.Nonempty := by
      obtain ⟨a, ha⟩ := hval x₀ hx₀
      exact ⟨a, by simp only [List.mem_toFinset, List.mem_filterMap, List.mem_filter, decide_eq_true_eq]; exact ⟨x₀, ⟨hx₀, hle⟩, ha⟩⟩
    have n2 : ((X.rows.filter fun x => decide (t' < g x)).filterMap (·[f]?)).toFinset.Nonempty := by
      obtain ⟨a, ha⟩ := hval z₀ hz₀
      exact ⟨a, by simp only [List.mem_toFinset, List.mem_filterMap, List.mem_filter, decide_eq_true_eq]; exact ⟨z₀, ⟨hz₀, hgt⟩, ha⟩⟩
    obtain ⟨A, hA, hmax⟩ := Finset.exists_max_image _ id n1
    obtain ⟨B, hB, hmin⟩ := Finset.exists_min_image _ id n2
    simp only [List.mem_toFinset, List.mem_filterMap, List.mem_filter, decide_eq_true_eq, id, forall_exists_index, and_imp]
      at hA hmax hB hmin
    obtain ⟨xA, ⟨hxA, hgA⟩, eA⟩ := hA
    obtain ⟨xB, ⟨hxB, hgB⟩, eB⟩ := hB
    have hAB : A < B := by
      by_contra h
      exact absurd (hg xB hxB xA hxA B A eB eA (not_lt.mp h)) (not_le.mpr (lt_of_le_of_lt hgA hgB))
    refine ⟨(A + B) / 2, (Copies.candidate_iff X f _).mpr ⟨hf, Or.inr ⟨A, (hcol A).mpr ⟨xA, hxA, eA⟩, B, (hcol B).mpr ⟨xB, hxB, eB⟩, hAB,
      fun c hc => ?_, rfl⟩⟩, fun x h a ha => ?_⟩
    · obtain ⟨x, h, e⟩ := (hcol c).mp hc
      rcases le_or_gt (g x) t' with hh | hh
      · exact Or.inl (hmax c x h hh e)
      · exact Or.inr (hmin c x h hh e)
    · constructor
      · intro hh
        have := hmax a x h hh ha
        linarith
      · intro hh
        by_contra hlt
        have := hmin a x h (not_le.mp hlt) ha
        linarith

/-- What is used of a criterion: no split is worse than one that leaves a side empty. -/
structure NeverWorse : Prop where
  total : ∀ y l r, ∃ v, imp y l r = .ok v
  least : ∀ y l r, y ≠ [] → y.Perm (l ++ r) → ∀ v v₀, imp y l r = .ok v → imp y y [] = .ok v₀ → v₀ ≤ v

theorem score_least (hi : NeverWorse imp) (hx : X.WF) (hy : y.length = X.nrows) (h0 : y ≠ []) (f : Nat) (hf : f < X.ncols)
    (t : α) (v v₀ : R) (hv : score imp X y f t = .ok v) (hv₀ : imp y y [] = .ok v₀) : v₀ ≤ v := by
  refine hi.least y _ _ h0 ?_ v v₀ hv hv₀
  rw [← List.map_append]
  have : (X.rows.zip y).Perm (part X y f (fun a => decide (a ≤ t)) ++ part X y f fun a => decide (t < a)) := by
    unfold part
    refine (List.filter_append_perm (side f fun a => decide (a ≤ t)) _).symm.trans (List.Perm.of_eq ?_)
    congr 1
    refine List.filter_congr fun e he => ?_
    have hm := (List.of_mem_zip he).1
    have hl : f < e.1.length := by rw [hx _ hm]; exact hf
    unfold side
    rw [List.getElem?_eq_getElem hl]
    simp [← not_le]
  have := this.map Prod.snd
  rwa [List.map_snd_zip (by rw [hy]; exact le_rfl)] at this

/-- The best split is found among the old features. -/
theorem bestSplit_ext (hx : X.WF) (hy : y.length = X.nrows) (f : Nat) (hf : f < X.ncols) (hg : RisesWith X.rows f g)
    (h3 : 3 ≤ X.nrows) (hi : NeverWorse imp ∨ StrictlyRisesWith X.rows f g) (start : R) :
    bestSplit start imp (withFeature g X) y = bestSplit start imp X y := by
  have hx' := wf g X hx
  have hy' : y.length = (withFeature g X).nrows := by rw [nrows]; exact hy
  have h0 : y ≠ [] := by rintro rfl; simp at hy; omega
  unfold bestSplit
  rw [show (withFeature g X).ncols = X.ncols + 1 from rfl, List.range_succ, tryFeatures_append,
    tryFeatures_old g X y imp hx hy _ fun k hk => List.mem_range.mp hk]
  cases hb : tryFeatures imp X y (List.range X.ncols) ⟨start, none⟩ with
  | ok b =>
    have hb' : bestSplit start imp X y = .ok b := hb
    obtain ⟨cs, hcs, -, hsc, -⟩ := bestSplit_candidates imp X hx y hy h3 start b hb'
    obtain ⟨ts, hts, -, -, hmem⟩ := thresholds_ok ((withFeature g X).col X.ncols) (by
      rw [col_new g X hx, List.length_map]; exact h3)
    simp only [Res.bind_ok, tryFeatures, hts]
    rw [tryThresholds_keep _ y imp hx' hy' X.ncols (Nat.lt_succ_self _) ts b, Res.bind_ok]
    intro t' ht'
    have hc : IsCandidate (withFeature g X) X.ncols t' := ⟨Nat.lt_succ_self _, (hmem t').mp ht'⟩
    rcases candidate_new g X hx f hf hg t' hc with ⟨t, c, e⟩ | ⟨hall, hns⟩
    · rw [score_new g X y imp hx f hf t t' e]
      exact hsc (f, t) ((hcs (f, t)).mpr c)
    · obtain hi := hi.resolve_right hns
      have hcoll : ∀ a ∈ (withFeature g X).col X.ncols, a ≤ t' := by
        rw [col_new g X hx]
        intro a ha
        obtain ⟨x, h, rfl⟩ := List.mem_map.mp ha
        exact hall x h
      rw [Copies.score_trivial hx' hy' X.ncols (Nat.lt_succ_self _) t' hcoll]
      obtain ⟨v₀, hv₀⟩ := hi.total y y []
      refine ⟨v₀, hv₀, ?_⟩
      obtain ⟨t, c⟩ := exists_candidate X hx y hy h3 f hf
      obtain ⟨v, hv, hle⟩ := hsc (f, t) ((hcs (f, t)).mpr c)
      exact (score_least X y imp hi hx hy h0 f hf t v v₀ hv hv₀).trans hle
  | _ => rfl

end

omit [Field α] [IsStrictOrderedRing α] in
theorem risesWith_sub {rows rows' : List (List α)} {f : Nat} {g : List α → α} (h : RisesWith rows f g) (hs : ∀ x ∈ rows', x ∈ rows) :
    RisesWith rows' f g := fun x hx z hz => h x (hs x hx) z (hs z hz)

omit [Field α] [IsStrictOrderedRing α] in
theorem strictly_sub {rows rows' : List (List α)} {f : Nat} {g : List α → α} (h : StrictlyRisesWith rows f g)
    (hs : ∀ x ∈ rows', x ∈ rows) : StrictlyRisesWith rows' f g :=
  ⟨risesWith_sub h.1 hs, fun x hx z hz => h.2 x (hs x hx) z (hs z hz)⟩

/-- The same tree is built. -/
theorem build_ext {ν : Type} (A : Algo α ν R) (P : Params R) (h3 : 3 ≤ P.minSplit) (g : List α → α) (f : Nat) (fuel : Nat)
    (X : DMat α) (hx : X.WF) (y : List α) (hy : y.length = X.nrows) (hf : f < X.ncols) (hg : RisesWith X.rows f g)
    (hi : NeverWorse A.impurity ∨ StrictlyRisesWith X.rows f g) (depth : Nat) :
    build A P fuel (withFeature g X) y depth = build A P fuel X y depth := by
  induction fuel generalizing X y depth with
  | zero => rfl
  | succ fuel ih =>
    rw [build, build]
    cases A.nodeValue y with
    | ok v =>
      simp only [Res.bind_ok]
      cases A.stop y with
      | true => rfl
      | false =>
        rw [nrows]
        simp only [Bool.false_eq_true, if_false]
        by_cases hms : X.nrows < P.minSplit
        · rw [if_pos hms, if_pos hms]
        rw [if_neg hms, if_neg hms]
        by_cases hd : P.maxDepth < depth
        · rw [if_pos hd, if_pos hd]
        rw [if_neg hd, if_neg hd, bestSplit_ext g X y A.impurity hx hy f hf hg (by omega) hi]
        cases hb : bestSplit A.start A.impurity X y with
        | ok b =>
          simp only [Res.bind_ok]
          cases hs : b.split with
          | none => rfl
          | some q =>
            obtain ⟨k, t⟩ := q
            simp only
            by_cases hdec : b.impurity ≤ P.minDecrease
            · rw [if_pos hdec, if_pos hdec]
            rw [if_neg hdec, if_neg hdec]
            have hk := (bestSplit_lt A.impurity X hx y hy A.start b hb k t hs).1
            have hk' : k < (withFeature g X).ncols := Nat.lt_succ_of_lt hk
            have hx' := wf g X hx
            have hy' : y.length = (withFeature g X).nrows := by rw [nrows]; exact hy
            simp only [gather_rows X hx y hy k hk, gather_targets X hx y hy k hk, gather_rows _ hx' y hy' k hk',
              gather_targets _ hx' y hy' k hk', Res.bind_ok, List.length_map]
            have sub : ∀ p : α → Bool, build A P fuel ⟨(withFeature g X).ncols, (part (withFeature g X) y k p).map Prod.fst⟩
                ((part (withFeature g X) y k p).map Prod.snd) (depth + 1) =
                build A P fuel ⟨X.ncols, (part X y k p).map Prod.fst⟩ ((part X y k p).map Prod.snd) (depth + 1) := by
              intro p
              have hsub : ∀ x ∈ (part X y k p).map Prod.fst, x ∈ X.rows := by
                intro x h
                rw [Copies.part_rows hy] at h
                exact (List.mem_filter.mp h).1
              have e : (⟨(withFeature g X).ncols, (part (withFeature g X) y k p).map Prod.fst⟩ : DMat α) =
                  withFeature g ⟨X.ncols, (part X y k p).map Prod.fst⟩ := by
                rw [part_old g X y hx k hk, List.map_map]
                unfold withFeature
                rw [List.map_map]
                rfl
              have e2 : (part (withFeature g X) y k p).map Prod.snd = (part X y k p).map Prod.snd := by
                rw [part_old g X y hx k hk, List.map_map]
                rfl
              rw [e, e2]
              exact ih ⟨X.ncols, (part X y k p).map Prod.fst⟩ (fun x h => hx x (hsub x h)) _ (by simp [DMat.nrows]) hf
                (risesWith_sub hg hsub) (hi.imp_right fun h => strictly_sub h hsub) (depth + 1)
            have hlen : ∀ p : α → Bool, (part (withFeature g X) y k p).length = (part X y k p).length := fun p => by
              rw [part_old g X y hx k hk, List.length_map]
            simp only [sub, hlen]
        | _ => rfl
    | _ => rfl

/-- Features of a fitted tree are those of the data, so further features of a sample are not read. -/
theorem route_ext {ν : Type} (A : Algo α ν R) (P : Params R) (fuel : Nat) (X : DMat α) (hx : X.WF) (y : List α)
    (hy : y.length = X.nrows) (depth : Nat) (T : Tree α ν) (h : build A P fuel X y depth = .ok T) (z e : List α)
    (hz : X.ncols ≤ z.length) : route (z ++ e) T = route z T := by
  induction fuel generalizing X y depth T with
  | zero => cases h
  | succ fuel ih =>
    obtain ⟨v, -, rfl | ⟨f, t, l, r, b, rfl, -, -, -, -, -, -, hf, hl, hr⟩⟩ := build_cases A P fuel X hx y hy depth T h
    · rfl
    · have hl' : route (z ++ e) l = route z l := by
        split at hl
        · exact ih _ (part_wf X hx y f _) _ (part_len X y f _) (depth + 1) l hl hz
        · rw [hl]; rfl
      have hr' : route (z ++ e) r = route z r := by
        split at hr
        · exact ih _ (part_wf X hx y f _) _ (part_len X y f _) (depth + 1) r hr hz
        · rw [hr]; rfl
      cases l with
      | null => rfl
      | node v' s' l' r'' =>
        rw [route, route, readAt, readAt, List.getElem?_append_left (lt_of_lt_of_le hf hz)]
        rw [hl', hr']

end OpenML.ExtraFeature
