import Verif.Lemmas.KMeansRecovery
import Verif.Props.KMeans

/-!
# C175: k-means finds well separated groups
-/

namespace OpenML

open Spec KMeans KMeansRecovery

/-- C175: if samples of one group are within `δ` of each other and samples of different groups more than `2 δ` apart, and the
initial centroids are samples, one of each group (`gs` lists their groups), then after one iteration or more, whatever the
stopping test, the centroids are the means of the groups; `predict` gives each sample, and every new point that belongs to
a group, the number of its group. -/
theorem C175_recovers (checked : Bool) (stop : List (List ℝ) → Bool) (n : Nat) (X : DMat ℝ) (hx : X.WF)
    (hck : checked = false ∨ X.ncols = 1) (G : List Nat) (hG : G.length = X.nrows) (δ : ℝ)
    (hsep : WellSeparated δ X.rows G) (gs : List Nat) (hgs : gs.Nodup) (hne : gs ≠ []) (hcov : ∀ a ∈ G, a ∈ gs)
    (C : List (List ℝ)) (hC : List.Forall₂ (fun c a => (c, a) ∈ X.rows.zip G) C gs) :
    ∃ C', fitFrom checked stop (n + 1) X (.ok C) = .ok C' ∧
      C' = gs.map (fun a => centreOf X.ncols (withLabel X.rows G a)) ∧
      predict C' X = .ok (G.map gs.idxOf) ∧
      ∀ q a, q.length = X.ncols → a ∈ gs → BelongsTo δ X.rows G q a → predict C' ⟨X.ncols, [q]⟩ = .ok [gs.idxOf a] := by
  have hlenC : C.length = gs.length := hC.length_eq
  have hCi : ∀ (j : Nat) (hj : j < C.length), (C[j], gs[j]'(hlenC ▸ hj)) ∈ X.rows.zip G := fun j hj =>
    (List.forall₂_iff_get.mp hC).2 j hj (hlenC ▸ hj)
  have hidx : ∀ (j : Nat) (hj : j < gs.length), gs.idxOf gs[j] = j := fun j hj => hgs.idxOf_getElem j hj
  have hG' : (G.map gs.idxOf).length = X.nrows := by rw [List.length_map, hG]
  have hsep' : WellSeparated δ X.rows (G.map gs.idxOf) := by
    intro e he
    obtain ⟨a, ha, hea⟩ := (mem_zip_renumber _).mp he
    rw [hea]
    exact belongs_renumber hcov (hcov a (List.of_mem_zip ha).2) (hsep _ ha)
  have hCi' : ∀ (j : Nat) (hj : j < C.length), (C[j], j) ∈ X.rows.zip (G.map gs.idxOf) := fun j hj =>
    (mem_zip_renumber _).mpr ⟨_, hCi j hj, (hidx j (hlenC ▸ hj)).symm⟩
  have hCne : C ≠ [] := by
    intro h
    rw [h] at hlenC
    exact hne (List.length_eq_zero_iff.mp hlenC.symm)
  have hw : ∀ c ∈ C, c.length = X.ncols := by
    intro c hc
    obtain ⟨j, hj, rfl⟩ := List.mem_iff_getElem.mp hc
    exact hx _ (List.of_mem_zip (hCi j hj)).1
  have hall : ∀ j < C.length, j ∈ G.map gs.idxOf := fun j hj => (List.of_mem_zip (hCi' j hj)).2
  have hlt : ∀ a ∈ G.map gs.idxOf, a < C.length := by
    intro a ha
    obtain ⟨b, hb, rfl⟩ := List.mem_map.mp ha
    rw [hlenC]
    exact List.idxOf_lt_length_of_mem (hcov b hb)
  have hδ : 0 ≤ δ := by
    have hp : 0 < C.length := List.length_pos_iff.mpr hCne
    exact (apart_nonneg _ _).trans ((hsep' _ (hCi' 0 hp) _ (hCi' 0 hp)).1 rfl)
  have hcv : ∀ j < C.length, ∃ x, (x, j) ∈ X.rows.zip (G.map gs.idxOf) := fun j hj => ⟨_, hCi' j hj⟩
  have hml : (means X.ncols X.rows (G.map gs.idxOf) C.length).length = C.length := by simp [means]
  have hmw : ∀ c ∈ means X.ncols X.rows (G.map gs.idxOf) C.length, c.length = X.ncols := by
    intro c hc
    obtain ⟨j, -, rfl⟩ := List.mem_map.mp hc
    exact length_centreOf _ _
  have hmne : means X.ncols X.rows (G.map gs.idxOf) C.length ≠ [] := by
    intro h
    rw [h] at hml
    exact hCne (List.length_eq_zero_iff.mp hml.symm)
  have hms : ∀ e ∈ X.rows.zip (G.map gs.idxOf), ∀ (j : Nat)
      (hj : j < (means X.ncols X.rows (G.map gs.idxOf) C.length).length),
      (j = e.2 → apart e.1 (means X.ncols X.rows (G.map gs.idxOf) C.length)[j] ≤ δ) ∧
      (j ≠ e.2 → δ < apart e.1 (means X.ncols X.rows (G.map gs.idxOf) C.length)[j]) := fun e he j hj =>
    means_sep hx hcv hsep' (hx _ (List.of_mem_zip he).1) (hsep' e he) j hj
  have hfit := lloyd_means checked stop n hx hck hG' hCne hw hall hlt (r := δ)
    (fun e he j hj => ⟨fun h => (hsep' e he _ (hCi' j hj)).1 h, fun h => by
      have := (hsep' e he _ (hCi' j hj)).2 h
      simp only at this
      linarith⟩) hms
  refine ⟨means X.ncols X.rows (G.map gs.idxOf) C.length, hfit, ?_, ?_, ?_⟩
  · apply List.ext_getElem
    · rw [hml, List.length_map, hlenC]
    · intro j h1 h2
      have hj : j < gs.length := by simpa using h2
      simp only [means, List.getElem_map, List.getElem_range]
      rw [withLabel_renumber X.rows G gs hgs hcov j hj]
  · obtain ⟨labels, h1, hF⟩ := predict_spec X hx _ hmne hmw
    rw [h1, labels_eq hG' (by rwa [hml]) hms hF]
  · intro q a hq ha hb
    have hb' := belongs_renumber hcov ha hb
    obtain ⟨j, h1, h2⟩ := nearest_spec _ q hmne fun c hc => (hmw c hc).trans hq.symm
    have hal : gs.idxOf a < (means X.ncols X.rows (G.map gs.idxOf) C.length).length := by
      rw [hml, hlenC]
      exact List.idxOf_lt_length_of_mem ha
    have hs := means_sep hx hcv hsep' hq hb'
    have hj := nearest_eq hal ((hs _ hal).1 rfl) (fun i hi hne => (hs i hi).2 hne) h2
    have hp : predict (means X.ncols X.rows (G.map gs.idxOf) C.length) ⟨X.ncols, [q]⟩ = .ok [j] := by
      simp only [predict, mapRes, h1, Res.bind_ok]
    rw [hp, hj]

/-- Two groups on a line, the initial centroids in the other order. -/
theorem twoGroups_separated : WellSeparated 2 [[0], [10], [2], [11]] [0, 1, 0, 1] := by
  intro e he f hf
  have hs : ∀ a b : ℝ, apart [a] [b] = |a - b| := by
    intro a b
    simp [apart, sqDist, Real.sqrt_sq_eq_abs]
  simp only [List.zip_cons_cons, List.zip_nil_right, List.mem_cons, List.not_mem_nil, or_false] at he hf
  rcases he with rfl | rfl | rfl | rfl <;> rcases hf with rfl | rfl | rfl | rfl <;> norm_num [hs, abs_of_nonneg, abs_of_neg]

example : ([1, 0] : List Nat).Nodup ∧ (∀ a ∈ [0, 1, 0, 1], a ∈ [1, 0]) ∧
    List.Forall₂ (fun c a => (c, a) ∈ ([[0], [10], [2], [11]] : List (List ℝ)).zip [0, 1, 0, 1]) [[10], [2]] [1, 0] :=
  ⟨by decide, by decide, .cons (by simp) (.cons (by simp) .nil)⟩

example : fitFrom false (fun _ => false) 1 (⟨1, [[0], [10], [2], [11]]⟩ : DMat ℚ) (.ok [[10], [2]]) = .ok [[21 / 2], [1]] ∧
    predict [[21 / 2], [1]] (⟨1, [[0], [10], [2], [11]]⟩ : DMat ℚ) = .ok [1, 0, 1, 0] := by decide +kernel

/-- With two initial centroids in one group the groups are not found. -/
example : fitFrom false (fun _ => false) 5 (⟨1, [[0], [1], [10], [11], [100], [101]]⟩ : DMat ℚ)
    (.ok [[0], [100], [101]]) = .ok [[11 / 2], [100], [101]] := by decide +kernel

/-- C175: with `init = "random"`, if the first `k` samples of the shuffled order are of `k` different groups and there are
no others, training finds the groups: `predict` gives two samples the same label exactly if they are of one group. -/
theorem C175_random (checked : Bool) (stop : List (List ℝ) → Bool) (n : Nat) (X : DMat ℝ) (hx : X.WF)
    (hck : checked = false ∨ X.ncols = 1) (G : List Nat) (hG : G.length = X.nrows) (δ : ℝ)
    (hsep : WellSeparated δ X.rows G) (perm : List Nat) (hp : perm.Perm (List.range X.nrows)) (k : Nat) (hk0 : 0 < k)
    (hk : k ≤ X.nrows) (hdiff : ((perm.take k).map (G.getD · 0)).Nodup)
    (hcov : ∀ a ∈ G, a ∈ (perm.take k).map (G.getD · 0)) :
    ∃ C' labels, fitFrom checked stop (n + 1) X (initRandom perm k X) = .ok C' ∧
      C' = ((perm.take k).map (G.getD · 0)).map (fun a => centreOf X.ncols (withLabel X.rows G a)) ∧
      predict C' X = .ok labels ∧ labels.length = X.nrows ∧
      ∀ i j (hi : i < G.length) (hj : j < G.length), labels[i]? = labels[j]? ↔ G[i] = G[j] := by
  obtain ⟨-, C, hC, hCl, hCi⟩ := (C41_random perm k X hp).1 hk
  have hpl : perm.length = X.nrows := by rw [hp.length_eq, List.length_range]
  have hF : List.Forall₂ (fun c a => (c, a) ∈ X.rows.zip G) C ((perm.take k).map (G.getD · 0)) := by
    rw [List.forall₂_iff_get]
    refine ⟨by simp [hCl, hpl, hk], ?_⟩
    intro t h1 h2
    obtain ⟨i, hi, hin, hr⟩ := hCi t (by omega)
    have hiG : i < G.length := by omega
    have hiR : i < X.rows.length := hin
    have h3 : t < perm.length := by omega
    rw [List.getElem?_eq_getElem h3] at hi
    have hi' : perm[t] = i := by simpa using hi
    rw [List.getElem?_eq_getElem h1, List.getElem?_eq_getElem hiR] at hr
    simp only [List.get_eq_getElem, List.getElem_map, List.getElem_take]
    rw [hi', Option.some.inj hr, List.getD_eq_getElem?_getD, List.getElem?_eq_getElem hiG, Option.getD_some]
    have : (X.rows.zip G)[i]'(by rw [List.length_zip]; omega) = (X.rows[i], G[i]) := List.getElem_zip
    rw [← this]
    exact List.getElem_mem _
  have hne : (perm.take k).map (G.getD · 0) ≠ [] := by
    intro h
    have := congrArg List.length h
    simp [hpl] at this
    omega
  obtain ⟨C', h1, h2, h3, -⟩ := C175_recovers checked stop n X hx hck G hG δ hsep _ hdiff hne hcov C hF
  refine ⟨C', _, by rw [hC]; exact h1, h2, h3, by rw [List.length_map, hG], ?_⟩
  intro i j hi hj
  rw [List.getElem?_map, List.getElem?_map, List.getElem?_eq_getElem hi, List.getElem?_eq_getElem hj]
  simp only [Option.map_some, Option.some.injEq]
  exact List.idxOf_inj (hcov _ (List.getElem_mem hi))

example : ([3, 0, 2, 1] : List Nat).Perm (List.range 4) ∧
    (([3, 0, 2, 1].take 2).map (([0, 1, 0, 1] : List Nat).getD · 0)) = [1, 0] := by decide

example : fitFrom false (fun _ => false) 1 (⟨1, [[0], [10], [2], [11]]⟩ : DMat ℚ)
    (initRandom [3, 0, 2, 1] 2 ⟨1, [[0], [10], [2], [11]]⟩) = .ok [[21 / 2], [1]] := by decide +kernel

namespace KMeansRecovery

theorem inertia_pos {X : DMat ℝ} (hx : X.WF) {P : List (List ℝ)} (hP : P ≠ []) (hw : ∀ c ∈ P, c.length = X.ncols)
    {x : List ℝ} (hxm : x ∈ X.rows) (hxP : x ∉ P) : 0 < inertia X.rows P := by
  obtain ⟨⟨c, hc, h⟩, -⟩ := minSqDist_spec x P hP
  have hne : sqDist x c ≠ 0 := fun h0 => hxP (eq_of_sqDist_zero x c ((hx x hxm).trans (hw c hc).symm) h0 ▸ hc)
  have hpos : 0 < minSqDist x P := by
    rw [h]
    exact lt_of_le_of_ne (sqDist_nonneg x c) hne.symm
  refine lt_of_lt_of_le hpos (List.single_le_sum ?_ _ (List.mem_map.mpr ⟨x, hxm, rfl⟩))
  intro a ha
  obtain ⟨y, -, rfl⟩ := List.mem_map.mp ha
  exact minSqDist_nonneg y P

/-- With positive random numbers the centroids of k-means++ differ while there are further samples. -/
theorem picks_differ {X : DMat ℝ} (hx : X.WF) (R : List (List ℝ)) (hR : R.Nodup) (hmem : ∀ x, x ∈ R ↔ x ∈ X.rows)
    (x₀ : List ℝ) (D : List (List ℝ)) (draws : List (List ℝ)) (hd : ∀ rs ∈ draws, ∀ r ∈ rs, 0 < r)
    (hlen : R.length = draws.length + 1) (hDl : D.length = draws.length) (hDm : ∀ c ∈ x₀ :: D, c ∈ X.rows)
    (hD : ∀ (t : Nat) rs, draws[t]? = some rs → ∃ c, D[t]? = some c ∧ GreedyPick X.rows (x₀ :: D.take t) rs c) :
    ∀ t ≤ draws.length, (x₀ :: D.take t).Nodup := by
  intro t
  induction t with
  | zero => intro; simp
  | succ t ih =>
    intro ht
    have h1 := ih (by omega)
    obtain ⟨c, hc, hg⟩ := hD t _ (List.getElem?_eq_getElem (by omega : t < draws.length))
    have hw : ∀ c ∈ x₀ :: D.take t, c.length = X.ncols := by
      intro c hc
      refine hx c (hDm c ?_)
      rcases List.mem_cons.mp hc with rfl | hc
      · simp
      · exact List.mem_cons_of_mem _ (List.mem_of_mem_take hc)
    have hex : ∃ x ∈ X.rows, x ∉ x₀ :: D.take t := by
      by_contra hcon
      push Not at hcon
      have hsub : R ⊆ x₀ :: D.take t := fun x hxR => hcon x ((hmem x).mp hxR)
      have := (hR.subperm hsub).length_le
      rw [List.length_cons, List.length_take] at this
      omega
    obtain ⟨x, hxm, hxP⟩ := hex
    have hnew := C41_new_centroid X.rows _ _ c hg (by simp)
      (hd _ (List.getElem_mem _)) (inertia_pos hx (by simp) hw hxm hxP)
    have htk : x₀ :: D.take (t + 1) = (x₀ :: D.take t) ++ [c] := by
      rw [List.take_add_one, hc]
      rfl
    rw [htk, List.nodup_append]
    exact ⟨h1, by simp, by rintro a ha b hb rfl; rw [List.mem_singleton] at hb; exact hnew (hb ▸ ha)⟩

theorem apart_self (x : List ℝ) : apart x x = 0 := by rw [apart, sqDist_self, Real.sqrt_zero]

theorem apart_pos {x y : List ℝ} (h : x.length = y.length) (hne : x ≠ y) : 0 < apart x y := by
  apply Real.sqrt_pos.mpr
  exact lt_of_le_of_ne (sqDist_nonneg x y) fun h0 => hne (eq_of_sqDist_zero x y h h0.symm)

end KMeansRecovery

/-- C175: if the data has exactly `k` different rows, k-means++ with positive random numbers followed by any number of
iterations ends with each of these rows as a centroid once and inertia zero, and `predict` gives two samples the same label
exactly if they are equal. -/
theorem C175_plusplus (checked : Bool) (stop : List (List ℝ) → Bool) (n : Nat) (X : DMat ℝ) (hx : X.WF)
    (hck : checked = false ∨ X.ncols = 1) (R : List (List ℝ)) (hR : R.Nodup) (hmem : ∀ x, x ∈ R ↔ x ∈ X.rows)
    (first : Nat) (hf : first < X.nrows) (u : Nat → Nat → ℝ) (hu : ∀ c t, 0 < u c t ∧ u c t ≤ 1) :
    ∃ C labels, fitFrom checked stop n X (initPlusPlus R.length first u X) = .ok C ∧ C.Perm R ∧ inertia X.rows C = 0 ∧
      predict C X = .ok labels ∧ labels.length = X.nrows ∧
      ∀ i j (hi : i < X.rows.length) (hj : j < X.rows.length), labels[i]? = labels[j]? ↔ X.rows[i] = X.rows[j] := by
  have hf' : first < X.rows.length := hf
  have hRpos : 0 < R.length := List.length_pos_iff.mpr (List.ne_nil_of_mem ((hmem _).mpr (List.getElem_mem hf')))
  have hdl : (drawsFor R.length u).length = R.length - 1 := by simp [drawsFor]
  have hd1 : ∀ rs ∈ drawsFor R.length u, rs ≠ [] ∧ ∀ r ∈ rs, r ≤ 1 := by
    intro rs hrs
    obtain ⟨c, -, rfl⟩ := List.mem_map.mp hrs
    refine ⟨by simp [numTrials], ?_⟩
    intro r hr
    obtain ⟨t, -, rfl⟩ := List.mem_map.mp hr
    exact (hu c t).2
  have hd2 : ∀ rs ∈ drawsFor R.length u, ∀ r ∈ rs, 0 < r := by
    intro rs hrs r hr
    obtain ⟨c, -, rfl⟩ := List.mem_map.mp hrs
    obtain ⟨t, -, rfl⟩ := List.mem_map.mp hr
    exact (hu c t).1
  obtain ⟨D, hpp, hDl, hDm, hD⟩ := C41_plusplus X hx first _ (List.getElem?_eq_getElem hf') _ hd1
  have hnd := picks_differ hx R hR hmem _ D _ hd2 (by omega) hDl hDm hD (drawsFor R.length u).length le_rfl
  rw [← hDl, List.take_length] at hnd
  generalize hCdef : X.rows[first] :: D = C at *
  have hinit : initPlusPlus R.length first u X = .ok C := by
    rw [initPlusPlus, hpp]
    rfl
  have hCl : C.length = R.length := by
    rw [← hCdef, List.length_cons]
    omega
  have hCR : C.Perm R := (hnd.subperm fun c hc => (hmem c).mpr (hDm c hc)).perm_of_length_le (by omega)
  have hCm : ∀ x, x ∈ C ↔ x ∈ X.rows := fun x => hCR.mem_iff.trans (hmem x)
  have hCne : C ≠ [] := List.length_pos_iff.mp (by omega)
  have hw : ∀ c ∈ C, c.length = X.ncols := fun c hc => hx c (hDm c hc)
  -- the group of a row is its place among the centroids
  have hzip : ∀ e ∈ X.rows.zip (X.rows.map C.idxOf), e.1 ∈ X.rows ∧ e.2 = C.idxOf e.1 := by
    intro e he
    obtain ⟨i, hi, rfl⟩ := List.mem_iff_getElem.mp he
    rw [List.getElem_zip]
    exact ⟨List.getElem_mem _, by simp⟩
  have hsep : WellSeparated 0 X.rows (X.rows.map C.idxOf) := by
    intro e he f hf
    obtain ⟨h1, h2⟩ := hzip e he
    obtain ⟨h3, h4⟩ := hzip f hf
    rw [h2, h4]
    constructor
    · intro h
      rw [(List.idxOf_inj ((hCm _).mpr h3)).mp h, apart_self]
    · intro h
      rw [mul_zero]
      exact apart_pos ((hx _ h1).trans (hx _ h3).symm) fun h' => h (by rw [h'])
  have hF : List.Forall₂ (fun c a => (c, a) ∈ X.rows.zip (X.rows.map C.idxOf)) C (List.range C.length) := by
    rw [List.forall₂_iff_get]
    refine ⟨by simp, ?_⟩
    intro t h1 h2
    simp only [List.get_eq_getElem, List.getElem_range]
    obtain ⟨i, hi, hir⟩ := List.mem_iff_getElem.mp ((hCm _).mp (List.getElem_mem h1))
    have : (X.rows.zip (X.rows.map C.idxOf))[i]'(by simpa using hi) = (C[t], t) := by
      rw [List.getElem_zip, List.getElem_map, hir, hnd.idxOf_getElem t h1]
    rw [← this]
    exact List.getElem_mem _
  have hidx : ∀ a < C.length, (List.range C.length).idxOf a = a := by
    intro a ha
    have := (List.nodup_range (n := C.length)).idxOf_getElem a (by simpa using ha)
    rwa [List.getElem_range] at this
  have hrange : ∀ a ∈ X.rows.map C.idxOf, a ∈ List.range C.length := by
    intro a ha
    obtain ⟨x, hxm, rfl⟩ := List.mem_map.mp ha
    exact List.mem_range.mpr (List.idxOf_lt_length_of_mem ((hCm x).mpr hxm))
  obtain ⟨C', -, h2, h3, -⟩ := C175_recovers checked stop 0 X hx hck _ (by simp [DMat.nrows]) 0 hsep (List.range C.length)
    List.nodup_range (by simpa using List.length_pos_iff.mpr hCne |>.ne') hrange C hF
  have hC' : C' = C := by
    apply List.ext_getElem
    · rw [h2, List.length_map, List.length_range]
    · intro j hj1 hj2
      have hget : C'[j] = centreOf X.ncols (withLabel X.rows (X.rows.map C.idxOf) j) := by simp [h2]
      have hmw : ∀ p ∈ withLabel X.rows (X.rows.map C.idxOf) j, p = C[j] := by
        intro p hp
        obtain ⟨e, he, rfl⟩ := List.mem_map.mp hp
        obtain ⟨he1, he2⟩ := List.mem_filter.mp he
        obtain ⟨h4, h5⟩ := hzip e he1
        have h6 : C.idxOf e.1 = j := by rw [← h5]; simpa using he2
        subst h6
        exact (List.getElem_idxOf hj2).symm
      have hne : withLabel X.rows (X.rows.map C.idxOf) j ≠ [] := by
        rw [← mem_iff_withLabel (by simp)]
        have := (List.of_mem_zip ((List.forall₂_iff_get.mp hF).2 j hj2 (by simpa using hj2))).2
        simpa using this
      have hcj := hw _ (List.getElem_mem hj2)
      have hle := centre_near (d := X.ncols) hne (fun p hp => by rw [hmw p hp]; exact hcj) hcj (r := 0)
        fun p hp => by rw [hmw p hp, apart_self]
      rw [hget]
      by_contra hcon
      exact absurd hle (not_le.mpr (apart_pos (hcj.trans (length_centreOf _ _).symm) fun h => hcon h.symm))
  refine ⟨C, X.rows.map C.idxOf, ?_, hCR, ?_, ?_, by simp [DMat.nrows], ?_⟩
  · rw [hinit]
    cases n with
    | zero => rfl
    | succ n =>
      obtain ⟨C'', h4, h5, -⟩ := C175_recovers checked stop n X hx hck _ (by simp [DMat.nrows]) 0 hsep (List.range C.length)
        List.nodup_range (by simpa using List.length_pos_iff.mpr hCne |>.ne') hrange C hF
      rw [h4, h5, ← h2, hC']
  · have : X.rows.map (fun x => minSqDist x C) = X.rows.map fun _ => (0 : ℝ) := by
      apply List.map_congr_left
      intro x hxm
      refine le_antisymm ?_ (minSqDist_nonneg x C)
      rw [← sqDist_self x]
      exact (minSqDist_spec x C hCne).2 x ((hCm x).mpr hxm)
    rw [inertia, this]
    simp
  · rw [hC'] at h3
    rw [h3, List.map_map]
    congr 1
    apply List.map_congr_left
    intro x hxm
    exact hidx _ (List.idxOf_lt_length_of_mem ((hCm x).mpr hxm))
  · intro i j hi hj
    rw [List.getElem?_map, List.getElem?_map, List.getElem?_eq_getElem hi, List.getElem?_eq_getElem hj]
    simp only [Option.map_some, Option.some.injEq]
    exact List.idxOf_inj ((hCm _).mpr (List.getElem_mem hi))

example : ([[1], [4], [6]] : List (List ℝ)).Nodup ∧
    (∀ x, x ∈ ([[1], [4], [6]] : List (List ℝ)) ↔ x ∈ ([[4], [1], [4], [6], [1]] : List (List ℝ))) := by
  refine ⟨by norm_num, fun x => ?_⟩
  simp only [List.mem_cons, List.not_mem_nil, or_false]
  tauto

example : (do let r ← plusPlus 0 [[1 / 2, 1 / 4], [9 / 10, 1 / 3]] (⟨1, [[4], [1], [4], [6], [1]]⟩ : DMat ℚ)
              fitFrom false (fun _ => false) 2 (⟨1, [[4], [1], [4], [6], [1]]⟩ : DMat ℚ) (.ok r.1)) =
    .ok [[4], [1], [6]] := by decide +kernel

end OpenML
