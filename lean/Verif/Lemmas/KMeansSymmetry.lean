import Verif.Lemmas.KMeans
import Verif.Spec.Similarity
import Mathlib.Data.List.GetD

/-!
# k-means on transformed, reordered and repeated data
-/

set_option linter.unusedSectionVars false

namespace OpenML.KMeans
open Spec
open scoped BigOperators

variable {α : Type} [Field α] [LinearOrder α] [IsStrictOrderedRing α]

/-- What k-means needs of a transformation: it keeps the width, multiplies squared distances by `ρ` and keeps averages. -/
structure Scales (d : Nat) (ρ : α) (T : List α → List α) : Prop where
  pos : 0 < ρ
  len : ∀ x : List α, x.length = d → (T x).length = d
  dist : ∀ x y : List α, x.length = d → y.length = d → sqDist (T x) (T y) = ρ * sqDist x y
  centre : ∀ pts : List (List α), pts ≠ [] → (∀ p ∈ pts, p.length = d) → centreOf d (pts.map T) = T (centreOf d pts)

theorem scales_similar {d : Nat} (s : α) (hs : s ≠ 0) (Q : Fin d → Fin d → α) (hQ : IsOrthogonal Q) (t : Fin d → α) :
    Scales d (s ^ 2) (similar s Q t) where
  pos := by positivity
  len := by intro x _; simp [similar]
  dist := by
    intro x y hx hy
    rw [sqDist_coord d _ _ (by simp [similar]) (by simp [similar]), sqDist_coord d _ _ hx hy]
    rw [Finset.sum_range, Finset.sum_range]
    have h1 : ∀ i : Fin d, ((similar s Q t x).getD i 0 - (similar s Q t y).getD i 0) ^ 2 =
        s ^ 2 * ∑ j, ∑ k, (Q i j * Q i k) * ((x.getD j 0 - y.getD j 0) * (x.getD k 0 - y.getD k 0)) := by
      intro i
      have h2 : ∀ z : List α, (similar s Q t z).getD i 0 = s * ∑ j, Q i j * z.getD j 0 + t i := by
        intro z
        rw [List.getD_eq_getElem _ _ (by simp [similar])]
        simp [similar]
      rw [h2, h2]
      have h3 : s * ∑ j, Q i j * x.getD j 0 + t i - (s * ∑ j, Q i j * y.getD j 0 + t i) =
          s * ∑ j, Q i j * (x.getD j 0 - y.getD j 0) := by
        simp only [mul_sub, Finset.sum_sub_distrib]
        ring
      rw [h3, mul_pow, sq (∑ j, _), Finset.sum_mul_sum]
      congr 1
      refine Finset.sum_congr rfl fun j _ => Finset.sum_congr rfl fun k _ => by ring
    rw [Finset.sum_congr rfl fun i _ => h1 i, ← Finset.mul_sum]
    congr 1
    rw [Finset.sum_comm]
    refine Finset.sum_congr rfl fun j _ => ?_
    rw [Finset.sum_comm]
    have h4 : ∀ k, ∑ i, Q i j * Q i k * ((x.getD j 0 - y.getD j 0) * (x.getD k 0 - y.getD k 0)) =
        if j = k then (x.getD j 0 - y.getD j 0) * (x.getD k 0 - y.getD k 0) else 0 := by
      intro k
      rw [← Finset.sum_mul, hQ j k]
      split <;> simp
    rw [Finset.sum_congr rfl fun k _ => h4 k, Finset.sum_ite_eq, if_pos (Finset.mem_univ j)]
    ring
  centre := by
    intro pts hne hl
    have hn : (pts.length : α) ≠ 0 := by
      have := List.length_pos_iff.mpr hne
      exact_mod_cast this.ne'
    refine List.ext_getElem (by simp [centreOf, similar]) fun i h1 h2 => ?_
    have hi : i < d := by simpa [centreOf] using h1
    have hc : ∀ j : Fin d, (centreOf d pts).getD j 0 = (pts.map fun p => p.getD j 0).sum / (pts.length : α) := by
      intro j
      rw [List.getD_eq_getElem _ _ (by simp [centreOf])]
      simp [centreOf]
    simp only [centreOf, similar, List.getElem_map, List.getElem_range, List.getElem_ofFn, List.length_map, List.map_map]
    have hc' := hc
    simp only [centreOf] at hc'
    rw [Finset.sum_congr rfl fun j _ => by rw [hc' j]]
    have h5 : ∀ l : List (List α), (l.map ((fun p : List α => p.getD i 0) ∘ similar s Q t)).sum =
        s * ∑ j, Q ⟨i, hi⟩ j * (l.map fun p => p.getD j 0).sum + l.length * t ⟨i, hi⟩ := by
      intro l
      induction l with
      | nil => simp
      | cons p l ih =>
        have h6 : (similar s Q t p).getD i 0 = s * ∑ j, Q ⟨i, hi⟩ j * p.getD j 0 + t ⟨i, hi⟩ := by
          rw [List.getD_eq_getElem _ _ (by simpa [similar] using hi)]
          simp [similar]
        simp only [List.map_cons, List.sum_cons, ih, Function.comp_apply, h6, List.length_cons, mul_add, Finset.sum_add_distrib]
        push_cast
        ring
    rw [h5, add_div, mul_div_assoc, mul_div_cancel_left₀ _ hn, Finset.sum_div]
    congr 2
    exact Finset.sum_congr rfl fun j _ => by ring

section Transform

variable {d : Nat} {ρ : α} {T : List α → List α}

theorem sqNorm_of_rowDiff {x c e : List α} (h : rowDiff x c = .ok e) : sqNorm e = sqDist x c := by
  unfold rowDiff at h
  split at h
  · next hl =>
    obtain ⟨e', h1, h2, -⟩ := rowDiff_sq x c hl
    rw [rowDiff, if_pos hl] at h1
    cases h
    cases h1
    exact h2
  · cases h

theorem nearestFrom_transform (hT : Scales d ρ T) (x : List α) (hx : x.length = d) (cs : List (List α))
    (hc : ∀ c ∈ cs, c.length = d) (j : Nat) (best : Option α) (arg : Nat) :
    nearestFrom (T x) (cs.map T) j (best.map (ρ * ·)) arg = nearestFrom x cs j best arg := by
  induction cs generalizing j best arg with
  | nil => rfl
  | cons c cs ih =>
    have hcl := hc c (by simp)
    obtain ⟨e, h1, h2, -⟩ := rowDiff_sq x c (by rw [hx, hcl])
    obtain ⟨e', h1', h2', -⟩ := rowDiff_sq (T x) (T c) (by rw [hT.len x hx, hT.len c hcl])
    have ih' := ih fun c' h => hc c' (by simp [h])
    simp only [List.map_cons, nearestFrom, h1, h1', Res.bind_ok, h2, h2', hT.dist x c hx hcl]
    have hcond : ((best.map (ρ * ·)).all fun b => decide (ρ * sqDist x c < b)) = best.all fun b => decide (sqDist x c < b) := by
      cases best with
      | none => rfl
      | some b => simp [mul_lt_mul_iff_right₀ hT.pos]
    rw [hcond]
    split
    · exact ih' (j + 1) (some (sqDist x c)) j
    · exact ih' (j + 1) best arg

/-- The data with every row transformed. -/
def transform (T : List α → List α) (X : DMat α) : DMat α := ⟨X.ncols, X.rows.map T⟩

theorem transform_wf (X : DMat α) (hT : Scales X.ncols ρ T) (hx : X.WF) : (transform T X).WF := by
  intro r hr
  obtain ⟨q, hq, rfl⟩ := List.mem_map.mp hr
  exact hT.len q (hx q hq)

theorem predict_transform (X : DMat α) (hT : Scales X.ncols ρ T) (hx : X.WF) (C : List (List α))
    (hw : ∀ r ∈ C, r.length = X.ncols) : predict (C.map T) (transform T X) = predict C X := by
  unfold predict transform
  dsimp only
  rw [mapRes_map]
  have : ∀ rows : List (List α), (∀ r ∈ rows, r.length = X.ncols) → mapRes (nearest (C.map T) ∘ T) rows = mapRes (nearest C) rows := by
    intro rows hr
    induction rows with
    | nil => rfl
    | cons r rs ih =>
      have h1 : nearest (C.map T) (T r) = nearest C r := nearestFrom_transform hT r (hr r (by simp)) C hw 0 none 0
      simp only [mapRes, Function.comp_apply, h1, ih fun q hq => hr q (by simp [hq])]
  exact this X.rows hx

theorem withLabel_map (T : List α → List α) (rows : List (List α)) (labels : List Nat) (j : Nat) :
    withLabel (rows.map T) labels j = (withLabel rows labels j).map T := by
  unfold withLabel
  rw [List.zip_map_left, List.filter_map, List.map_map, List.map_map]
  rfl

/-- Squared lengths of the moves of one iteration. -/
theorem sqNorm_diffs {X : DMat α} {C C' diffs : List (List α)} {labels : List Nat}
    (h : List.Forall₂ (fun c d => sqNorm d = sqDist (C'.getD c []) (C.getD c [])) (Impurity.keys labels) diffs) :
    diffs.map sqNorm = (Impurity.keys labels).map fun c => sqDist (C'.getD c []) (C.getD c []) := by
  generalize Impurity.keys labels = ks at h ⊢
  induction h with
  | nil => rfl
  | cons h _ ih => rw [List.map_cons, List.map_cons, h, ih]

theorem iterate_transform (checked : Bool) (X : DMat α) (hT : Scales X.ncols ρ T) (hx : X.WF)
    (hck : checked = false ∨ X.ncols = 1) (C : List (List α)) (hC : C ≠ []) (hw : ∀ r ∈ C, r.length = X.ncols)
    (C' diffs : List (List α)) (h : iterate checked X C = .ok (C', diffs)) :
    ∃ diffs', iterate checked (transform T X) (C.map T) = .ok (C'.map T, diffs') ∧
      diffs'.map sqNorm = diffs.map fun e => ρ * sqNorm e := by
  obtain ⟨labels, C1, ds, h1, h2, h3, h4, h5, h6, -⟩ := iterate_spec checked X hx hck C hC hw
  rw [h] at h2
  cases h2
  obtain ⟨labels', C2, ds', g1, g2, g3, g4, g5, g6, -⟩ := iterate_spec checked (transform T X) (transform_wf X hT hx) hck (C.map T)
    (by simpa using hC) (by
      intro r hr
      obtain ⟨q, hq, rfl⟩ := List.mem_map.mp hr
      exact hT.len q (hw q hq))
  rw [predict_transform X hT hx C hw, h1] at g1
  cases g1
  have hll : labels.length = X.rows.length := by
    obtain ⟨l', e1, e2⟩ := predict_spec X hx C hC hw
    rw [h1] at e1
    cases e1
    exact e2.length_eq.symm
  have hlt : ∀ j ∈ labels, j < C.length := by
    intro j hj
    have := h5 j
    rw [if_pos hj] at this
    rw [← h3]
    exact (List.getElem?_eq_some_iff.mp this).1
  have hC2 : C2 = C'.map T := by
    refine List.ext_getElem? fun j => ?_
    rw [g5 j, List.getElem?_map (l := C'), h5 j]
    split
    · next hj =>
      have hne : withLabel X.rows labels j ≠ [] := (mem_iff_withLabel hll j).mp hj
      change some (centreOf X.ncols (withLabel (X.rows.map T) labels j)) = _
      rw [withLabel_map, hT.centre _ hne]
      · rfl
      · intro p hp
        unfold withLabel at hp
        obtain ⟨e, he, rfl⟩ := List.mem_map.mp hp
        exact hx _ (List.of_mem_zip (List.mem_filter.mp he).1).1
    · rw [List.getElem?_map]
  subst hC2
  refine ⟨ds', g2, ?_⟩
  rw [sqNorm_diffs (X := X) g6, show (diffs.map fun e => ρ * sqNorm e) = (diffs.map sqNorm).map (ρ * ·) by rw [List.map_map]; rfl, sqNorm_diffs (X := X) h6, List.map_map]
  refine List.map_congr_left fun c hc => ?_
  have hcl : c < C.length := hlt c ((Impurity.mem_keys labels c).mp hc)
  have hcl' : c < C'.length := by rw [h3]; exact hcl
  simp only [Function.comp_apply]
  rw [List.getD_eq_getElem _ _ (by simpa using hcl'), List.getD_eq_getElem _ _ (by simpa using hcl),
    List.getD_eq_getElem _ _ hcl', List.getD_eq_getElem _ _ hcl, List.getElem_map, List.getElem_map]
  exact hT.dist _ _ (h4 _ (List.getElem_mem _)) (hw _ (List.getElem_mem _))

theorem lloyd_transform (checked : Bool) (X : DMat α) (hT : Scales X.ncols ρ T) (hx : X.WF)
    (hck : checked = false ∨ X.ncols = 1) (stop stop' : List (List α) → Bool)
    (hst : ∀ ds ds', (ds'.map sqNorm = ds.map fun e => ρ * sqNorm e) → stop' ds' = stop ds) (n : Nat) (C : List (List α))
    (hC : C ≠ []) (hw : ∀ r ∈ C, r.length = X.ncols) (C' : List (List α)) (h : lloyd checked stop n X C = .ok C') :
    lloyd checked stop' n (transform T X) (C.map T) = .ok (C'.map T) := by
  induction n generalizing C with
  | zero => simp only [lloyd, Res.ok.injEq] at h ⊢; rw [h]
  | succ n ih =>
    obtain ⟨labels, C1, ds, h1, h2, h3, h4, -⟩ := iterate_spec checked X hx hck C hC hw
    obtain ⟨ds', g1, g2⟩ := iterate_transform checked X hT hx hck C hC hw C1 ds h2
    simp only [lloyd, h2, g1, Res.bind_ok, hst ds ds' g2] at h ⊢
    split
    · next hs => rw [if_pos hs] at h; cases h; rfl
    · next hs =>
      rw [if_neg hs] at h
      exact ih C1 (by intro h0; rw [h0] at h3; exact hC (List.length_eq_zero_iff.mp h3.symm)) h4 h

/-! ### k-means++ -/

theorem distancesTo_transform (X : DMat α) (hT : Scales X.ncols ρ T) (hx : X.WF) (c : List α) (hc : c.length = X.ncols) :
    ∃ ds, distancesTo X c = .ok ds ∧ distancesTo (transform T X) (T c) = .ok (ds.map (ρ * ·)) := by
  refine ⟨_, distancesTo_spec X hx c hc, ?_⟩
  rw [distancesTo_spec _ (transform_wf X hT hx) _ (hT.len c hc)]
  congr 1
  unfold transform
  rw [List.map_map, List.map_map]
  exact List.map_congr_left fun x hxr => hT.dist x c (hx x hxr) hc

theorem partialSums_scale (ρ acc : α) (l : List α) :
    Stats.partialSums (ρ * acc) (l.map (ρ * ·)) = (Stats.partialSums acc l).map (ρ * ·) := by
  induction l generalizing acc with
  | nil => rfl
  | cons a l ih => simp only [List.map_cons, Stats.partialSums, ← mul_add, ih]

theorem sum_scale (ρ : α) (l : List α) : (l.map (ρ * ·)).sum = ρ * l.sum := List.sum_map_mul_left l _ ρ |>.trans (by simp)

theorem candidate_scale (hρ : 0 < ρ) (closest : List α) (pot r : α) :
    candidate (closest.map (ρ * ·)) (ρ * pot) r = candidate closest pot r := by
  have h : lowerBound (Stats.partialSums 0 (closest.map (ρ * ·))) (r * (ρ * pot)) = lowerBound (Stats.partialSums 0 closest) (r * pot) := by
    have := partialSums_scale ρ 0 closest
    rw [mul_zero] at this
    rw [this]
    unfold lowerBound
    rw [List.findIdx_map]
    congr 1
    funext a
    simp only [Function.comp_apply]
    rw [show r * (ρ * pot) = ρ * (r * pot) by ring, decide_eq_decide]
    exact mul_le_mul_iff_right₀ hρ
  unfold candidate
  rw [h, List.length_map]

theorem keepSmaller_scale (hρ : 0 < ρ) (a b : List α) :
    keepSmaller (a.map (ρ * ·)) (b.map (ρ * ·)) = (keepSmaller a b).map (ρ * ·) := by
  unfold keepSmaller
  rw [List.zipWith_map, List.map_zipWith]
  congr 1
  funext c d
  by_cases h : c < d
  · rw [if_pos h, if_pos (mul_lt_mul_of_pos_left h hρ)]
  · rw [if_neg h, if_neg (by rwa [mul_lt_mul_iff_right₀ hρ])]

theorem readAt_map {β γ : Type} (f : β → γ) (l : List β) (i : Nat) (b : β) (h : readAt l i = .ok b) : readAt (l.map f) i = .ok (f b) := by
  rw [readAt_eq_ok] at h ⊢
  rw [List.getElem?_map, h]
  rfl

/-- Scales the potential and the distances of a candidate. -/
def scaleBest (ρ : α) (b : α × Nat × List α) : α × Nat × List α := (ρ * b.1, b.2.1, b.2.2.map (ρ * ·))

theorem trials_transform (X : DMat α) (hT : Scales X.ncols ρ T) (hx : X.WF) (closest : List α) (pot : α) (rs : List α)
    (best best' : Option (α × Nat × List α)) (h : trials X closest pot rs best = .ok best') :
    trials (transform T X) (closest.map (ρ * ·)) (ρ * pot) rs (best.map (scaleBest ρ)) = .ok (best'.map (scaleBest ρ)) := by
  induction rs generalizing best with
  | nil => simp only [trials, Res.ok.injEq] at h ⊢; rw [h]
  | cons r rs ih =>
    simp only [trials] at h ⊢
    rw [candidate_scale hT.pos]
    obtain ⟨row, hrow⟩ : ∃ row, readAt X.rows (candidate closest pot r) = .ok row := by
      by_cases hi : candidate closest pot r < X.rows.length
      · exact ⟨_, readAt_of_lt hi⟩
      · exfalso
        have hn : X.rows[candidate closest pot r]? = none := List.getElem?_eq_none (by omega)
        simp [readAt, hn] at h
    have hm : row ∈ X.rows := List.mem_of_getElem? (readAt_eq_ok.mp hrow)
    obtain ⟨ds, e1, e2⟩ := distancesTo_transform X hT hx row (hx row hm)
    have hrow' : readAt (transform T X).rows (candidate closest pot r) = .ok (T row) := readAt_map T X.rows _ row hrow
    rw [hrow'] 
    rw [hrow] at h
    simp only [Res.bind_ok, e1, e2, keepSmaller_scale hT.pos, sum_scale] at h ⊢
    have hcond : ((best.map (scaleBest ρ)).all fun b => decide (ρ * (keepSmaller closest ds).sum < b.1)) =
        best.all fun b => decide ((keepSmaller closest ds).sum < b.1) := by
      cases best with
      | none => rfl
      | some b => simp [scaleBest, mul_lt_mul_iff_right₀ hT.pos]
    rw [hcond]
    split
    · next hs => rw [if_pos hs] at h; exact ih _ h
    · next hs => rw [if_neg hs] at h; exact ih _ h

theorem addCenters_transform (X : DMat α) (hT : Scales X.ncols ρ T) (hx : X.WF) (draws : List (List α)) (closest : List α)
    (pot : α) (C C' : List (List α)) (cl : List α) (h : addCenters X draws closest pot C = .ok (C', cl)) :
    addCenters (transform T X) draws (closest.map (ρ * ·)) (ρ * pot) (C.map T) = .ok (C'.map T, cl.map (ρ * ·)) := by
  induction draws generalizing closest pot C with
  | nil => simp only [addCenters, Res.ok.injEq, Prod.mk.injEq] at h ⊢; rw [h.1, h.2]; exact ⟨rfl, rfl⟩
  | cons rs rest ih =>
    simp only [addCenters] at h ⊢
    cases ht : trials X closest pot rs none with
    | ok best =>
      have := trials_transform X hT hx closest pot rs none best ht
      rw [Option.map_none] at this
      rw [this]
      rw [ht] at h
      simp only [Res.bind_ok] at h ⊢
      cases best with
      | none => cases h
      | some b =>
        obtain ⟨p, i, e⟩ := b
        simp only [Option.map_some, scaleBest] at h ⊢
        cases hr : readAt X.rows i with
        | ok row =>
          have hr' : readAt (transform T X).rows i = .ok (T row) := readAt_map T X.rows _ row hr
          rw [hr']
          rw [hr] at h
          simp only [Res.bind_ok] at h ⊢
          have := ih e p (C ++ [row]) h
          rwa [List.map_append] at this
        | throw e => rw [hr] at h; cases h
        | ub => rw [hr] at h; cases h
        | diverge => rw [hr] at h; cases h
    | throw e => rw [ht] at h; cases h
    | ub => rw [ht] at h; cases h
    | diverge => rw [ht] at h; cases h

theorem plusPlus_transform (X : DMat α) (hT : Scales X.ncols ρ T) (hx : X.WF) (first : Nat) (draws : List (List α))
    (C : List (List α)) (cl : List α) (h : plusPlus first draws X = .ok (C, cl)) :
    plusPlus first draws (transform T X) = .ok (C.map T, cl.map (ρ * ·)) := by
  unfold plusPlus at h ⊢
  cases hr : readAt X.rows first with
  | ok c =>
    have hr' : readAt (transform T X).rows first = .ok (T c) := readAt_map T X.rows _ c hr
    have hm : c ∈ X.rows := List.mem_of_getElem? (readAt_eq_ok.mp hr)
    obtain ⟨ds, e1, e2⟩ := distancesTo_transform X hT hx c (hx c hm)
    rw [hr']
    rw [hr] at h
    simp only [Res.bind_ok, e1, e2, sum_scale] at h ⊢
    exact addCenters_transform X hT hx draws ds ds.sum [c] C cl h
  | throw e => rw [hr] at h; cases h
  | ub => rw [hr] at h; cases h
  | diverge => rw [hr] at h; cases h

end Transform

/-! ### Reordered and repeated rows -/

section Repeat

theorem labels_eq_map (X : DMat α) (hx : X.WF) (C : List (List α)) (hC : C ≠ []) (hw : ∀ r ∈ C, r.length = X.ncols) :
    ∃ f : List α → Nat, ∀ rows : List (List α), (∀ r ∈ rows, r.length = X.ncols) → mapRes (nearest C) rows = .ok (rows.map f) := by
  refine ⟨fun x => match nearest C x with | .ok j => j | _ => 0, fun rows hr => ?_⟩
  refine mapRes_ok fun r hrr => ?_
  obtain ⟨j, h, -⟩ := nearest_spec C r hC fun c hc => by rw [hw c hc, hr r hrr]
  rw [h]

theorem withLabel_map_self (f : List α → Nat) (rows : List (List α)) (j : Nat) :
    withLabel rows (rows.map f) j = rows.filter fun x => f x = j := by
  unfold withLabel
  induction rows with
  | nil => rfl
  | cons r rs ih =>
    rw [List.map_cons, List.zip_cons_cons, List.filter_cons, List.filter_cons]
    by_cases h : f r = j
    · simp only [h, decide_true, if_true, List.map_cons]
      rw [← ih]
    · simp only [h, decide_false, Bool.false_eq_true, if_false]
      exact ih

theorem sum_copies (m : Nat) (l : List α) : ((List.replicate m l).flatten).sum = m * l.sum := by
  induction m with
  | zero => simp
  | succ m ih => rw [List.replicate_succ, List.flatten_cons, List.sum_append, ih]; push_cast; ring

theorem centreOf_copies (d m : Nat) (hm : 0 < m) (pts pts' : List (List α)) (h : pts'.Perm (List.replicate m pts).flatten) :
    centreOf d pts' = centreOf d pts := by
  unfold centreOf
  refine List.map_congr_left fun i _ => ?_
  have hm' : (m : α) ≠ 0 := by exact_mod_cast hm.ne'
  have h1 : (pts'.map fun p => p.getD i 0).sum = m * (pts.map fun p => p.getD i 0).sum := by
    rw [(h.map _).sum_eq, List.map_flatten, List.map_replicate, sum_copies]
  have h2 : (pts'.length : α) = m * (pts.length : α) := by
    rw [h.length_eq]
    simp
  rw [h1, h2, mul_div_mul_left _ _ hm']

theorem filter_copies (p : List α → Bool) (m : Nat) (l l' : List (List α)) (h : l'.Perm (List.replicate m l).flatten) :
    (l'.filter p).Perm (List.replicate m (l.filter p)).flatten := by
  have := h.filter p
  rwa [List.filter_flatten, List.map_replicate] at this

theorem mem_copies {β : Type} (m : Nat) (hm : 0 < m) (l l' : List β) (h : l'.Perm (List.replicate m l).flatten) (b : β) :
    b ∈ l' ↔ b ∈ l := by
  rw [h.mem_iff, List.mem_flatten]
  constructor
  · rintro ⟨a, ha, hb⟩
    rwa [List.eq_of_mem_replicate ha] at hb
  · intro hb
    exact ⟨l, List.mem_replicate.mpr ⟨hm.ne', rfl⟩, hb⟩

theorem iterate_copies (checked : Bool) (X X' : DMat α) (hx : X.WF) (hn : X'.ncols = X.ncols) (m : Nat) (hm : 0 < m)
    (hp : X'.rows.Perm (List.replicate m X.rows).flatten)
    (hck : checked = false ∨ X.ncols = 1) (C : List (List α)) (hC : C ≠ []) (hw : ∀ r ∈ C, r.length = X.ncols)
    (C' diffs : List (List α)) (h : iterate checked X C = .ok (C', diffs)) :
    ∃ diffs', iterate checked X' C = .ok (C', diffs') ∧ diffs'.map sqNorm = diffs.map sqNorm := by
  have hx' : X'.WF := fun r hr => by rw [hn]; exact hx r ((mem_copies m hm _ _ hp r).mp hr)
  obtain ⟨f, hf⟩ := labels_eq_map X hx C hC hw
  obtain ⟨labels, C1, ds, h1, h2, h3, h4, h5, h6, -⟩ := iterate_spec checked X hx hck C hC hw
  rw [h] at h2
  cases h2
  obtain ⟨labels', C2, ds', g1, g2, g3, g4, g5, g6, -⟩ := iterate_spec checked X' hx' (by rwa [hn]) C hC (by rwa [hn])
  have h1' := h1.symm.trans (hf X.rows hx)
  have g1' := g1.symm.trans (hf X'.rows fun r hr => by rw [← hn]; exact hx' r hr)
  cases h1'
  cases g1'
  have hmem : ∀ j, j ∈ X'.rows.map f ↔ j ∈ X.rows.map f := by
    intro j
    simp only [List.mem_map, mem_copies m hm _ _ hp]
  have hC2 : C2 = C' := by
    refine List.ext_getElem? fun j => ?_
    rw [g5 j, h5 j, if_congr (hmem j) rfl rfl, withLabel_map_self, withLabel_map_self, hn,
      centreOf_copies X.ncols m hm _ _ (filter_copies _ m _ _ hp)]
  subst hC2
  refine ⟨ds', g2, ?_⟩
  have hk : Impurity.keys (X'.rows.map f) = Impurity.keys (X.rows.map f) := by
    refine List.Perm.eq_of_pairwise' (r := (· < ·)) (Impurity.keys_sorted _) (Impurity.keys_sorted _) ?_
    exact (List.perm_ext_iff_of_nodup (Impurity.keys_nodup _) (Impurity.keys_nodup _)).mpr fun j => by
      rw [Impurity.mem_keys, Impurity.mem_keys, hmem]
  rw [sqNorm_diffs (X := X) g6, sqNorm_diffs (X := X) h6, hk]

theorem lloyd_copies (checked : Bool) (X X' : DMat α) (hx : X.WF) (hn : X'.ncols = X.ncols) (m : Nat) (hm : 0 < m)
    (hp : X'.rows.Perm (List.replicate m X.rows).flatten)
    (hck : checked = false ∨ X.ncols = 1) (stop : List (List α) → Bool)
    (hst : ∀ ds ds', ds'.map sqNorm = ds.map sqNorm → stop ds' = stop ds) (n : Nat) (C : List (List α))
    (hC : C ≠ []) (hw : ∀ r ∈ C, r.length = X.ncols) : lloyd checked stop n X' C = lloyd checked stop n X C := by
  induction n generalizing C with
  | zero => rfl
  | succ n ih =>
    obtain ⟨labels, C1, ds, h1, h2, h3, h4, -⟩ := iterate_spec checked X hx hck C hC hw
    obtain ⟨ds', g1, g2⟩ := iterate_copies checked X X' hx hn m hm hp hck C hC hw C1 ds h2
    simp only [lloyd, h2, g1, Res.bind_ok, hst ds ds' g2]
    split
    · rfl
    · exact ih C1 (by intro h0; rw [h0] at h3; exact hC (List.length_eq_zero_iff.mp h3.symm)) h4

end Repeat

end OpenML.KMeans
