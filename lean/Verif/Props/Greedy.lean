import Verif.Props.PlusPlus
import Mathlib.MeasureTheory.Constructions.Pi

/-!
# Several proposals per centroid in k-means++ (C136)
-/

namespace OpenML

open Spec KMeans PlusPlus MeasureTheory

namespace Greedy

/-- A finite vector of random numbers as a sequence. -/
def toSeq {T : Nat} (v : Fin T → ℝ) : Nat → ℝ := fun i => if h : i < T then v ⟨i, h⟩ else 0

theorem mem_range_map {T : Nat} (v : Fin T → ℝ) (r : ℝ) : r ∈ (List.range T).map (toSeq v) ↔ ∃ i, v i = r := by
  simp only [List.mem_map, List.mem_range, toSeq]
  constructor
  · rintro ⟨i, hi, rfl⟩
    exact ⟨⟨i, hi⟩, by rw [dif_pos hi]⟩
  · rintro ⟨i, rfl⟩
    exact ⟨i, i.2, by rw [dif_pos i.2]⟩

/-- The share of the weights of the rows with a property is the probability to propose one of them. -/
theorem pick_set {w : List ℝ} (hw : ∀ a ∈ w, 0 ≤ a) (hpos : 0 < w.sum) (Q : Nat → Prop) [DecidablePred Q] :
    volume.restrict (Set.Ico (0 : ℝ) 1) {r | ∀ i, IsRoulettePick w r i → Q i} =
      ENNReal.ofReal (∑ i : Fin w.length, if Q i then w[i] / w.sum else 0) := by
  have hne : w ≠ [] := by rintro rfl; simp at hpos
  rw [Measure.restrict_congr_set Ico_ae_eq_Ioc, Measure.restrict_apply' measurableSet_Ioc]
  have h1 : {r | ∀ i, IsRoulettePick w r i → Q i} ∩ Set.Ioc 0 1 =
      ⋃ i ∈ Finset.univ.filter fun i : Fin w.length => Q i, Set.Ioc ((w.take i).sum / w.sum) ((w.take (i + 1)).sum / w.sum) := by
    ext r
    simp only [Set.mem_iUnion, Finset.mem_filter, Finset.mem_univ, true_and, exists_prop]
    constructor
    · rintro ⟨h1, h2⟩
      have h3 := candidate_roulette w r hw h2.2 hne
      exact ⟨⟨_, h3.1⟩, h1 _ h3, (pick_iff hw hpos h2.1 ⟨_, h3.1⟩).mp h3⟩
    · rintro ⟨i, h1, h2⟩
      have hr := pick_subset hw hpos i h2
      refine ⟨fun q hq => ?_, hr⟩
      rw [roulette_unique hq ((pick_iff hw hpos hr.1 i).mpr h2)]
      exact h1
  rw [h1, measure_biUnion_finset, ENNReal.ofReal_sum_of_nonneg]
  · rw [Finset.sum_filter]
    refine Finset.sum_congr rfl fun i _ => ?_
    split
    · exact pick_measure hw hpos i
    · simp
  · intro i _
    split
    · exact div_nonneg (hw _ (List.getElem_mem _)) hpos.le
    · exact le_rfl
  · intro i _ j _ hij
    rw [Function.onFun, Set.disjoint_left]
    intro r h1 h2
    have hr := pick_subset hw hpos i h1
    exact hij (Fin.ext (roulette_unique ((pick_iff hw hpos hr.1 i).mpr h1) ((pick_iff hw hpos hr.1 j).mpr h2)))
  · intro i _
    exact measurableSet_Ioc

/-- The potential kept is the sum of the distances kept. -/
theorem trials_sum (X : DMat ℝ) (closest : List ℝ) (pot : ℝ) (rs : List ℝ) :
    ∀ (best out : Option (ℝ × Nat × List ℝ)), (∀ b ∈ best, b.1 = b.2.2.sum) → trials X closest pot rs best = .ok out →
      ∀ b ∈ out, b.1 = b.2.2.sum := by
  induction rs with
  | nil => intro best out h ht; cases ht; exact h
  | cons r rs ih =>
    intro best out h ht
    unfold trials at ht
    obtain ⟨row, -, ht⟩ := Res.bind_eq_ok.mp ht
    obtain ⟨dist, -, ht⟩ := Res.bind_eq_ok.mp ht
    dsimp only at ht
    split at ht
    · refine ih _ out ?_ ht
      rintro b hb
      cases hb
      rfl
    · exact ih _ out h ht

/-- The loop over the centroids in two parts. -/
theorem addCenters_append (X : DMat ℝ) (b : List (List ℝ)) : ∀ (a : List (List ℝ)) (closest : List ℝ) (C : List (List ℝ)),
    addCenters X (a ++ b) closest closest.sum C = (do
      let r ← addCenters X a closest closest.sum C
      addCenters X b r.2 r.2.sum r.1) := by
  intro a
  induction a with
  | nil => intro closest C; rfl
  | cons rs a ih =>
    intro closest C
    rw [List.cons_append, addCenters, addCenters]
    cases ht : trials X closest closest.sum rs none with
    | ok best =>
      simp only [Res.bind_ok]
      cases best with
      | none => rfl
      | some q =>
        obtain ⟨p, i, d⟩ := q
        have hp : p = d.sum := trials_sum X _ _ _ _ _ (by simp) ht _ rfl
        subst hp
        dsimp only
        cases readAt X.rows i with
        | ok row => simp only [Res.bind_ok, ih]
        | _ => rfl
    | _ => rfl

/-- The centroids so far stay. -/
theorem addCenters_prefix (X : DMat ℝ) : ∀ (b : List (List ℝ)) (closest : List ℝ) (pot : ℝ) (C : List (List ℝ)) (r : List (List ℝ) × List ℝ),
    addCenters X b closest pot C = .ok r → C <+: r.1 := by
  intro b
  induction b with
  | nil => intro closest pot C r h; cases h; exact List.prefix_refl _
  | cons rs b ih =>
    intro closest pot C r h
    rw [addCenters] at h
    obtain ⟨best, -, h⟩ := Res.bind_eq_ok.mp h
    cases best with
    | none => cases h
    | some q =>
      obtain ⟨p, i, d⟩ := q
      obtain ⟨row, -, h⟩ := Res.bind_eq_ok.mp h
      exact (List.prefix_append C [row]).trans (ih _ _ _ _ h)

theorem plusPlus_prefix (X : DMat ℝ) (first : Nat) (a b : List (List ℝ)) (r q : List (List ℝ) × List ℝ) (h : plusPlus first (a ++ b) X = .ok r)
    (h' : plusPlus first a X = .ok q) : q.1 <+: r.1 := by
  unfold plusPlus at h h'
  obtain ⟨c, hc, h⟩ := Res.bind_eq_ok.mp h
  rw [hc, Res.bind_ok] at h'
  obtain ⟨d, hd, h⟩ := Res.bind_eq_ok.mp h
  rw [hd, Res.bind_ok] at h'
  rw [addCenters_append, h', Res.bind_ok] at h
  exact addCenters_prefix X _ _ _ _ _ h

end Greedy

open Greedy

/-- C136: k-means++ for `k` clusters. Given the random numbers of the other centroids, the centroids before the one with index `j + 1` do not
depend on the numbers `v` drawn for that one, and the inertia with it exceeds `t` with probability `p ^ (2 + ⌊log k⌋)`, where `p` is the
share of the rows that would leave more than `t` in the inertia before. -/
theorem C136_greedy (k first : Nat) (X : DMat ℝ) (hx : X.WF) (hf : first < X.rows.length) (u : Nat → Nat → ℝ) (hu : ∀ c i, u c i ≤ 1) (j : Nat)
    (hj : j + 1 < k) :
    ∃ P : List (List ℝ), P.length = j + 1 ∧
      (∀ v : Fin (2 + ⌊Real.log k⌋₊) → ℝ, (∀ i, v i ≤ 1) →
        ∃ C, initPlusPlus k first (Function.update u j (toSeq v)) X = .ok C ∧ C.length = k ∧ C.take (j + 1) = P) ∧
      (0 < inertia X.rows P → ∀ t,
        Measure.pi (fun _ : Fin (2 + ⌊Real.log k⌋₊) => volume.restrict (Set.Ico (0 : ℝ) 1))
          {v | ∃ C, initPlusPlus k first (Function.update u j (toSeq v)) X = .ok C ∧ t < inertia X.rows (C.take (j + 2))} =
        ENNReal.ofReal (∑ i : Fin X.rows.length,
          if t < inertia X.rows (P ++ [X.rows[i]]) then minSqDist X.rows[i] P / inertia X.rows P else 0) ^ (2 + ⌊Real.log k⌋₊)) := by
  classical
  set T := 2 + ⌊Real.log k⌋₊ with hT
  have hTk : numTrials k = T := rfl
  have hdr : ∀ u' : Nat → Nat → ℝ, (∀ c i, u' c i ≤ 1) → ∀ rs ∈ drawsFor k u', rs ≠ [] ∧ ∀ r ∈ rs, r ≤ 1 := by
    intro u' hu' rs hrs
    obtain ⟨c, -, rfl⟩ := List.mem_map.mp hrs
    refine ⟨by simp [hTk, hT], fun r hr => ?_⟩
    obtain ⟨i, -, rfl⟩ := List.mem_map.mp hr
    exact hu' c i
  have hlen : ∀ u', (drawsFor k u').length = k - 1 := fun u' => by simp [drawsFor]
  have hx0 : X.rows[first]? = some X.rows[first] := List.getElem?_eq_getElem hf
  obtain ⟨D0, hD0, hD0l, hD0m, -⟩ := C41_plusplus X hx first _ hx0 ((drawsFor k u).take j) fun rs hrs => hdr u hu rs (List.mem_of_mem_take hrs)
  rw [List.length_take, hlen, min_eq_left (by omega)] at hD0l
  have hupd : ∀ v : Fin T → ℝ, (∀ i, v i ≤ 1) → ∀ c i, Function.update u j (toSeq v) c i ≤ 1 := by
    intro v hv c i
    rw [Function.update_apply]
    split
    · unfold toSeq
      split
      · exact hv _
      · norm_num
    · exact hu c i
  have htake : ∀ v : Fin T → ℝ, (drawsFor k (Function.update u j (toSeq v))).take j = (drawsFor k u).take j := by
    intro v
    unfold drawsFor
    rw [← List.map_take, ← List.map_take]
    refine List.map_congr_left fun c hc => ?_
    rw [List.take_range, List.mem_range] at hc
    rw [Function.update_of_ne (by omega)]
  have hget : ∀ v : Fin T → ℝ, (drawsFor k (Function.update u j (toSeq v)))[j]? = some ((List.range T).map (toSeq v)) := by
    intro v
    unfold drawsFor
    rw [List.getElem?_map, List.getElem?_range (by omega), Option.map_some, Function.update_self, hTk]
  have hrun : ∀ v : Fin T → ℝ, (∀ i, v i ≤ 1) → ∃ C b, initPlusPlus k first (Function.update u j (toSeq v)) X = .ok C ∧ C.length = k ∧
      C.take (j + 1) = X.rows[first] :: D0 ∧ C.take (j + 2) = (X.rows[first] :: D0) ++ [b] ∧
      GreedyPick X.rows (X.rows[first] :: D0) ((List.range T).map (toSeq v)) b := by
    intro v hv
    obtain ⟨D, h1, h2, -, h4⟩ := C41_plusplus X hx first _ hx0 _ (hdr _ (hupd v hv))
    obtain ⟨b, hb, hg⟩ := h4 j _ (hget v)
    have h5 := h1
    rw [← List.take_append_drop j (drawsFor k (Function.update u j (toSeq v))), htake v] at h5
    have h6 := plusPlus_prefix X first _ _ _ _ h5 hD0
    rw [List.prefix_iff_eq_take] at h6
    simp only [List.length_cons, hD0l, List.take_succ_cons, List.cons.injEq, true_and] at h6
    refine ⟨_, b, by rw [initPlusPlus, h1, Res.bind_ok], by simp only [List.length_cons, h2, hlen]; omega, ?_, ?_, ?_⟩
    · rw [List.take_succ_cons, ← h6]
    · rw [List.take_succ_cons, List.take_add_one, ← h6, hb]
      rfl
    · rwa [← h6] at hg
  refine ⟨X.rows[first] :: D0, by rw [List.length_cons, hD0l], ?_, ?_⟩
  · intro v hv
    obtain ⟨C, b, h1, h2, h3, -⟩ := hrun v hv
    exact ⟨C, h1, h2, h3⟩
  intro hpos t
  set P := X.rows[first] :: D0 with hP
  have hw : ∀ a ∈ X.rows.map fun x => minSqDist x P, 0 ≤ a := by
    intro a ha
    obtain ⟨x, -, rfl⟩ := List.mem_map.mp ha
    exact minSqDist_nonneg _ _
  have hwl : (X.rows.map fun x => minSqDist x P).length = X.rows.length := List.length_map _
  let Q : Nat → Prop := fun i => ∀ row, X.rows[i]? = some row → t < inertia X.rows (P ++ [row])
  have hset : {v : Fin T → ℝ | ∃ C, initPlusPlus k first (Function.update u j (toSeq v)) X = .ok C ∧ t < inertia X.rows (C.take (j + 2))} ∩
        Set.univ.pi (fun _ => Set.Ico (0 : ℝ) 1) =
      Set.univ.pi (fun _ => {r | ∀ i, IsRoulettePick (X.rows.map fun x => minSqDist x P) r i → Q i}) ∩
        Set.univ.pi (fun _ => Set.Ico (0 : ℝ) 1) := by
    ext v
    simp only [Set.mem_inter_iff, Set.mem_setOf_eq, Set.mem_univ_pi, and_congr_left_iff]
    intro hv
    obtain ⟨C, b, h1, -, -, h4, h5, h6⟩ := hrun v fun i => (hv i).2.le
    rw [h1]
    constructor
    · rintro ⟨C', hC, ht⟩ i q hq row hrow
      cases hC
      rw [h4] at ht
      exact ht.trans_le (h6 (v i) ((mem_range_map v _).mpr ⟨i, rfl⟩) q row hq hrow)
    · intro h
      refine ⟨C, rfl, ?_⟩
      rw [h4]
      obtain ⟨r, hr, i, hi, hb⟩ := h5
      obtain ⟨q, rfl⟩ := (mem_range_map v r).mp hr
      exact h q i hi b hb
  rw [← Measure.restrict_pi_pi, Measure.restrict_apply' (MeasurableSet.univ_pi fun _ => measurableSet_Ico), hset,
    ← Measure.restrict_apply' (MeasurableSet.univ_pi fun _ => measurableSet_Ico), Measure.restrict_pi_pi, Measure.pi_pi,
    Finset.prod_const, Finset.card_univ, Fintype.card_fin, pick_set hw hpos Q]
  congr 2
  refine Fintype.sum_equiv (finCongr hwl) _ _ fun i => ?_
  have h1 : Q i ↔ t < inertia X.rows (P ++ [X.rows[finCongr hwl i]]) := by
    have : X.rows[(i : Nat)]? = some X.rows[finCongr hwl i] := List.getElem?_eq_getElem _
    simp only [Q, this, Option.some.injEq, forall_eq']
  have h2 : (X.rows.map fun x => minSqDist x P)[i] = minSqDist X.rows[finCongr hwl i] P := List.getElem_map _
  rw [h2]
  by_cases h : Q i
  · rw [if_pos h, if_pos (h1.mp h)]
    rfl
  · rw [if_neg h, if_neg (fun h' => h (h1.mpr h'))]

/-- The hypotheses of `C136_greedy` hold for four points on a line, two clusters and the second point as the first centroid. Only the first
two points as second centroid would leave more than 2 of the inertia 42. -/
example : (⟨1, [[0], [1], [5], [6]]⟩ : DMat ℝ).WF ∧ inertia ([[0], [1], [5], [6]] : List (List ℝ)) [[1]] = 42 ∧
    (∑ i : Fin 4, if 2 < inertia ([[0], [1], [5], [6]] : List (List ℝ)) ([[1]] ++ [([[0], [1], [5], [6]] : List (List ℝ))[i]]) then
      minSqDist ([[0], [1], [5], [6]] : List (List ℝ))[i] [[1]] / 42 else 0) = 1 / 42 ∧ 2 + ⌊Real.log (2 : Nat)⌋₊ = 2 := by
  refine ⟨by intro r hr; simp at hr; rcases hr with rfl | rfl | rfl | rfl <;> rfl, ?_, ?_, ?_⟩
  · norm_num [inertia, minSqDist, sqDist]
  · rw [Fin.sum_univ_four]
    norm_num [inertia, minSqDist, sqDist]
  · rw [show ⌊Real.log (2 : Nat)⌋₊ = 0 from Nat.floor_eq_zero.mpr ?_]
    have := Real.log_lt_sub_one_of_pos (show (0 : ℝ) < 2 by norm_num) (by norm_num)
    norm_num at this ⊢
    linarith

end OpenML
