import Verif.Lemmas.ExtraFeature
import Verif.Props.KMeansSymmetry
import Verif.Props.NaiveBayesInvariance

/-!
# k-means, naive Bayes and an appended constant feature
-/

namespace OpenML.ExtraFeature

open Spec

section kmeans
open KMeans
variable {α : Type} [Field α] [LinearOrder α] [IsStrictOrderedRing α]

theorem sqDist_ext (x k : List α) (h : x.length = k.length) (a c : α) :
    sqDist (x ++ [a]) (k ++ [c]) = sqDist x k + (a - c) ^ 2 := by
  unfold sqDist
  rw [List.zipWith_append h, List.sum_append]
  simp

theorem nearestFrom_ext (x : List α) (a c : α) (cs : List (List α)) (hc : ∀ k ∈ cs, k.length = x.length) (j : Nat)
    (best : Option α) (arg : Nat) : nearestFrom (x ++ [a]) (cs.map (· ++ [c])) j (best.map (· + (a - c) ^ 2)) arg =
      nearestFrom x cs j best arg := by
  induction cs generalizing j best arg with
  | nil => rfl
  | cons k cs ih =>
    have hcl := hc k (by simp)
    obtain ⟨e, h1, h2, -⟩ := rowDiff_sq x k hcl.symm
    obtain ⟨e', h1', h2', -⟩ := rowDiff_sq (x ++ [a]) (k ++ [c]) (by simp [hcl])
    have ih' := ih fun c' h => hc c' (by simp [h])
    simp only [List.map_cons, nearestFrom, h1, h1', Res.bind_ok, h2, h2', sqDist_ext x k hcl.symm]
    have hcond : ((best.map (· + (a - c) ^ 2)).all fun b => decide (sqDist x k + (a - c) ^ 2 < b)) =
        best.all fun b => decide (sqDist x k < b) := by
      cases best with
      | none => rfl
      | some b => simp
    rw [hcond]
    split
    · exact ih' (j + 1) (some (sqDist x k)) j
    · exact ih' (j + 1) best arg

theorem predict_ext (q : List α → α) (c : α) (C : List (List α)) (Z : DMat α) (hw : ∀ k ∈ C, ∀ z ∈ Z.rows, k.length = z.length) :
    predict (C.map (· ++ [c])) (withFeature q Z) = predict C Z := by
  unfold predict withFeature
  dsimp only
  rw [mapRes_map]
  have : ∀ rows : List (List α), (∀ k ∈ C, ∀ z ∈ rows, k.length = z.length) →
      mapRes (nearest (C.map (· ++ [c])) ∘ fun x => x ++ [q x]) rows = mapRes (nearest C) rows := by
    intro rows hr
    induction rows with
    | nil => rfl
    | cons r rs ih =>
      have h1 : nearest (C.map (· ++ [c])) (r ++ [q r]) = nearest C r :=
        nearestFrom_ext r (q r) c C (fun k hk => hr k hk r (by simp)) 0 none 0
      simp only [mapRes, Function.comp_apply, h1, ih fun k hk z hz => hr k hk z (by simp [hz])]
  exact this Z.rows hw

theorem centreOf_ext (d : Nat) (c : α) (pts : List (List α)) (hne : pts ≠ []) (hw : ∀ p ∈ pts, p.length = d) :
    centreOf (d + 1) (pts.map (· ++ [c])) = centreOf d pts ++ [c] := by
  unfold centreOf
  rw [List.range_succ, List.map_append]
  congr 1
  · refine List.map_congr_left fun i hi => ?_
    rw [List.map_map, List.length_map]
    congr 2
    refine List.map_congr_left fun p hp => ?_
    simp only [Function.comp, List.getD_eq_getElem?_getD]
    rw [List.getElem?_append_left (by rw [hw p hp]; exact List.mem_range.mp hi)]
  · have : (pts.map (· ++ [c])).map (fun p => p.getD d 0) = pts.map fun _ => c := by
      rw [List.map_map]
      refine List.map_congr_left fun p hp => ?_
      simp only [Function.comp, List.getD_eq_getElem?_getD]
      rw [List.getElem?_append_right (by rw [hw p hp]), hw p hp]
      simp
    have hn : (pts.length : α) ≠ 0 := Nat.cast_ne_zero.mpr (by simpa using hne)
    rw [List.map_singleton, this, List.map_const', List.sum_replicate, nsmul_eq_mul, List.length_map, mul_div_cancel_left₀ _ hn]

theorem iterate_ext (c : α) (X : DMat α) (hx : X.WF) (C : List (List α)) (hC : C ≠ []) (hw : ∀ r ∈ C, r.length = X.ncols)
    (C' diffs : List (List α)) (h : iterate false X C = .ok (C', diffs)) :
    ∃ diffs', iterate false (withFeature (fun _ => c) X) (C.map (· ++ [c])) = .ok (C'.map (· ++ [c]), diffs') ∧
      diffs'.map sqNorm = diffs.map sqNorm := by
  obtain ⟨labels, C1, ds, h1, h2, h3, h4, h5, h6, -⟩ := iterate_spec false X hx (Or.inl rfl) C hC hw
  rw [h] at h2
  cases h2
  obtain ⟨labels', C2, ds', g1, g2, g3, g4, g5, g6, -⟩ := iterate_spec false (withFeature (fun _ => c) X) (wf _ X hx) (Or.inl rfl)
    (C.map (· ++ [c])) (by simpa using hC) (by
      intro r hr
      obtain ⟨q, hq, rfl⟩ := List.mem_map.mp hr
      simp [withFeature, hw q hq])
  rw [predict_ext _ c C X fun k hk z hz => by rw [hw k hk, hx z hz], h1] at g1
  cases g1
  have hll : labels.length = X.rows.length := by
    obtain ⟨l', e1, e2⟩ := predict_spec X hx C hC hw
    rw [h1] at e1
    cases e1
    exact e2.length_eq.symm
  have hlt : ∀ j ∈ labels, j < C.length := by
    intro j hj
    have := h5 j
    rw [if_pos hj] at this
    rw [← h3]
    exact (List.getElem?_eq_some_iff.mp this).1
  have hC2 : C2 = C'.map (· ++ [c]) := by
    refine List.ext_getElem? fun j => ?_
    rw [g5 j, List.getElem?_map (l := C'), h5 j]
    split
    · next hj =>
      have hne : withLabel X.rows labels j ≠ [] := (mem_iff_withLabel hll j).mp hj
      change some (centreOf (X.ncols + 1) (withLabel (X.rows.map (· ++ [c])) labels j)) = _
      rw [withLabel_map, centreOf_ext _ c _ hne]
      · rfl
      · intro p hp
        unfold withLabel at hp
        obtain ⟨e, he, rfl⟩ := List.mem_map.mp hp
        exact hx _ (List.of_mem_zip (List.mem_filter.mp he).1).1
    · rw [List.getElem?_map]
  subst hC2
  refine ⟨ds', g2, ?_⟩
  rw [sqNorm_diffs (X := X) g6, sqNorm_diffs (X := X) h6]
  refine List.map_congr_left fun k hk => ?_
  have hcl : k < C.length := hlt k ((Impurity.mem_keys labels k).mp hk)
  have hcl' : k < C'.length := by rw [h3]; exact hcl
  rw [List.getD_eq_getElem _ _ (by simpa using hcl'), List.getD_eq_getElem _ _ (by simpa using hcl),
    List.getD_eq_getElem _ _ hcl', List.getD_eq_getElem _ _ hcl, List.getElem_map, List.getElem_map,
    sqDist_ext _ _ (by rw [h4 _ (List.getElem_mem _), hw _ (List.getElem_mem _)]), sub_self]
  ring

theorem lloyd_ext (c : α) (X : DMat α) (hx : X.WF) (stop : List (List α) → Bool)
    (hst : ∀ ds ds', ds'.map sqNorm = ds.map sqNorm → stop ds' = stop ds) (n : Nat) (C : List (List α))
    (hC : C ≠ []) (hw : ∀ r ∈ C, r.length = X.ncols) (C' : List (List α)) (h : lloyd false stop n X C = .ok C') :
    lloyd false stop n (withFeature (fun _ => c) X) (C.map (· ++ [c])) = .ok (C'.map (· ++ [c])) := by
  induction n generalizing C with
  | zero => simp only [lloyd, Res.ok.injEq] at h ⊢; rw [h]
  | succ n ih =>
    obtain ⟨labels, C1, ds, h1, h2, h3, h4, -⟩ := iterate_spec false X hx (Or.inl rfl) C hC hw
    obtain ⟨ds', g1, g2⟩ := iterate_ext c X hx C hC hw C1 ds h2
    simp only [lloyd, h2, g1, Res.bind_ok, hst ds ds' g2] at h ⊢
    split
    · next hs => rw [if_pos hs] at h; cases h; rfl
    · next hs =>
      rw [if_neg hs] at h
      exact ih C1 (by intro h0; rw [h0] at h3; exact hC (List.length_eq_zero_iff.mp h3.symm)) h4 h

theorem distancesTo_ext (c : α) (X : DMat α) (hx : X.WF) (r : List α) (hr : r.length = X.ncols) :
    distancesTo (withFeature (fun _ => c) X) (r ++ [c]) = distancesTo X r := by
  rw [distancesTo_spec _ (wf _ X hx) _ (by simp [withFeature, hr]), distancesTo_spec X hx r hr]
  congr 1
  unfold withFeature
  rw [List.map_map]
  refine List.map_congr_left fun x h => ?_
  simp only [Function.comp]
  rw [sqDist_ext x r (by rw [hx x h, hr]), sub_self]
  ring

theorem trials_ext (c : α) (X : DMat α) (hx : X.WF) (closest : List α) (pot : α) (rs : List α) (best : Option (α × Nat × List α)) :
    trials (withFeature (fun _ => c) X) closest pot rs best = trials X closest pot rs best := by
  induction rs generalizing best with
  | nil => rfl
  | cons r rs ih =>
    have e : readAt (withFeature (fun _ => c) X).rows (candidate closest pot r) =
        (do let row ← readAt X.rows (candidate closest pot r); .ok (row ++ [c])) := by
      unfold readAt withFeature
      rw [List.getElem?_map]
      cases X.rows[candidate closest pot r]? <;> rfl
    simp only [trials, e]
    cases hrow : readAt X.rows (candidate closest pot r) with
    | ok row =>
      have hm : row ∈ X.rows := by
        unfold readAt at hrow
        split at hrow
        · next h => cases hrow; exact List.mem_of_getElem? h
        · cases hrow
      simp only [Res.bind_ok, distancesTo_ext c X hx row (hx row hm), ih]
    | _ => rfl

theorem addCenters_ext (c : α) (X : DMat α) (hx : X.WF) (draws : List (List α)) (closest : List α) (pot : α) (C : List (List α)) :
    addCenters (withFeature (fun _ => c) X) draws closest pot (C.map (· ++ [c])) =
      (do let q ← addCenters X draws closest pot C; .ok (q.1.map (· ++ [c]), q.2)) := by
  induction draws generalizing closest pot C with
  | nil => rfl
  | cons rs draws ih =>
    simp only [addCenters, trials_ext c X hx]
    cases trials X closest pot rs none with
    | ok best =>
      cases best with
      | none => rfl
      | some b =>
        obtain ⟨p, i, d⟩ := b
        have e : readAt (withFeature (fun _ => c) X).rows i = (do let row ← readAt X.rows i; .ok (row ++ [c])) := by
          unfold readAt withFeature
          rw [List.getElem?_map]
          cases X.rows[i]? <;> rfl
        simp only [Res.bind_ok, e]
        cases readAt X.rows i with
        | ok row =>
          simp only [Res.bind_ok]
          have := ih d p (C ++ [row])
          rwa [List.map_append, List.map_singleton] at this
        | _ => rfl
    | _ => rfl

theorem plusPlus_ext (c : α) (X : DMat α) (hx : X.WF) (first : Nat) (draws : List (List α)) :
    plusPlus first draws (withFeature (fun _ => c) X) = (do let q ← plusPlus first draws X; .ok (q.1.map (· ++ [c]), q.2)) := by
  have e : readAt (withFeature (fun _ => c) X).rows first = (do let row ← readAt X.rows first; .ok (row ++ [c])) := by
    unfold readAt withFeature
    rw [List.getElem?_map]
    cases X.rows[first]? <;> rfl
  simp only [plusPlus, e]
  cases hrow : readAt X.rows first with
  | ok row =>
    have hm : row ∈ X.rows := by
      unfold readAt at hrow
      split at hrow
      · next h => cases hrow; exact List.mem_of_getElem? h
      · cases hrow
    simp only [Res.bind_ok, distancesTo_ext c X hx row (hx row hm)]
    cases distancesTo X row with
    | ok closest => exact addCenters_ext c X hx draws closest closest.sum [row]
    | _ => rfl
  | _ => rfl

end kmeans

section bayes
open NB

theorem classRows_ext {α : Type} [Field α] [LinearOrder α] (g : List α → α) (X : DMat α) (y : List α) (k : α) :
    classRows (withFeature g X).rows y k = (classRows X.rows y k).map fun x => x ++ [g x] := by
  unfold classRows withFeature
  rw [List.zip_map_left, List.filter_map, List.map_map, List.map_map]
  rfl

theorem featureOf_old (g : List ℝ → ℝ) (X : DMat ℝ) (hx : X.WF) (y : List ℝ) (k : ℝ) (f : Nat) (hf : f < X.ncols) :
    featureOf (classRows (withFeature g X).rows y k) f = featureOf (classRows X.rows y k) f := by
  rw [classRows_ext, featureOf, featureOf, List.map_map]
  refine List.map_congr_left fun r hr => ?_
  have hlen := classRows_width X hx y k r hr
  simp only [Function.comp, List.getD_eq_getElem?_getD]
  rw [List.getElem?_append_left (by omega)]

theorem featureOf_new (c : ℝ) (X : DMat ℝ) (hx : X.WF) (y : List ℝ) (k : ℝ) :
    featureOf (classRows (withFeature (fun _ => c) X).rows y k) X.ncols =
      List.replicate (classRows X.rows y k).length c := by
  rw [classRows_ext, featureOf, List.map_map, ← List.map_const']
  refine List.map_congr_left fun r hr => ?_
  have hlen := classRows_width X hx y k r hr
  simp only [Function.comp, List.getD_eq_getElem?_getD]
  rw [List.getElem?_append_right (by omega), hlen]
  simp

theorem average_replicate (n : Nat) (hn : n ≠ 0) (c : ℝ) : average (List.replicate n c) = c := by
  unfold average
  rw [List.sum_replicate, List.length_replicate, nsmul_eq_mul, mul_div_cancel_left₀ _ (Nat.cast_ne_zero.mpr hn)]

theorem msd_replicate (n : Nat) (hn : n ≠ 0) (c : ℝ) : meanSquaredDeviation (List.replicate n c) = 0 := by
  unfold meanSquaredDeviation
  rw [average_replicate n hn, List.map_replicate, sub_self]
  unfold average
  simp

theorem gaussianLL_ext (mean var x : List ℝ) (h1 : x.length = mean.length) (h2 : x.length = var.length) (m v a : ℝ) :
    ∃ ll, gaussianLL mean var x = .ok ll ∧ gaussianLL (mean ++ [m]) (var ++ [v]) (x ++ [a]) =
      .ok (ll + (-(1 / 2) * Real.log (v * 2 * Real.pi) - (a - m) ^ 2 / v * (1 / 2))) := by
  refine ⟨_, by rw [gaussianLL, if_pos ⟨h1, h2⟩], ?_⟩
  rw [gaussianLL, if_pos ⟨by simp [h1], by simp [h2]⟩]
  congr 1
  rw [List.zipWith_append h1, List.zipWith_append (by rw [List.length_zipWith, ← h1, min_self, h2]), List.sum_append]
  simp only [sumLogVar, List.map_append, List.sum_append, List.map_cons, List.map_nil, List.sum_cons, List.sum_nil,
    List.zipWith_cons_cons, List.zipWith_nil_left]
  ring

end bayes

end OpenML.ExtraFeature
