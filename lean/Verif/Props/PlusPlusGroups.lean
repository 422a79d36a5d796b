import Verif.Lemmas.PlusPlusGroups

/-!
# k-means with k-means++ finds far groups for nearly all random numbers (C184)
-/

namespace OpenML

open Spec KMeans KMeansRecovery

namespace PlusPlusGroups

theorem draws_eq (k : Nat) (v : Nat → Nat → ℝ) (rs : List ℝ) (hl : rs.length = k - 1) :
    drawsFor k (fun c t => if t = 0 then rs.getD c 0 else v c t) =
      drawsOf (fun c => (List.range (numTrials k - 1)).map fun t => v c (t + 1)) 0 rs := by
  have hone : ∀ (u : Nat → ℝ), (List.range (numTrials k)).map u = u 0 :: (List.range (numTrials k - 1)).map fun t => u (t + 1) := by
    intro u
    have : numTrials k = (numTrials k - 1) + 1 := by
      unfold numTrials
      omega
    conv_lhs => rw [this, List.range_succ_eq_map]
    simp [Function.comp_def]
  have hgen : ∀ (rs : List ℝ) (s : Nat), drawsOf (fun c => (List.range (numTrials k - 1)).map fun t => v c (t + 1)) s rs =
      (List.range rs.length).map fun c => rs.getD c 0 :: (List.range (numTrials k - 1)).map fun t => v (s + c) (t + 1) := by
    intro rs
    induction rs with
    | nil => intro s; simp [drawsOf]
    | cons r rs ih =>
      intro s
      rw [drawsOf, ih (s + 1), List.length_cons, List.range_succ_eq_map, List.map_cons, List.map_map]
      refine congrArg₂ _ (by simp) (List.map_congr_left fun c _ => ?_)
      have : s + 1 + c = s + (c + 1) := by omega
      simp [this]
  rw [hgen, hl]
  unfold drawsFor
  refine List.map_congr_left fun c _ => ?_
  rw [hone]
  simp

end PlusPlusGroups

open PlusPlusGroups

/-- C184: samples of one group are within `δ` of each other, samples of different groups at least `Δ` apart, all samples within `D` of each other,
and `n (2 D δ + δ²) < Δ²` for `n` samples. Then k-means with k-means++ for as many clusters as there are groups, one iteration or more and any
stopping test finds the groups (`predict` gives two samples the same label exactly if they are of one group) except with probability at most
`(k - 1) n δ² / Δ²` over the first random numbers for the further centroids, whatever the first row and the other random numbers are. -/
theorem C184_groups (checked : Bool) (stop : List (List ℝ) → Bool) (n : Nat) (X : DMat ℝ) (hx : X.WF)
    (hck : checked = false ∨ X.ncols = 1) (G : List Nat) (hG : G.length = X.nrows) (δ Δ D : ℝ) (hΔ : 0 < Δ)
    (hsep : ∀ e ∈ X.rows.zip G, BelongsWithin δ Δ X.rows G e.1 e.2) (hD : ∀ x ∈ X.rows, ∀ y ∈ X.rows, apart x y ≤ D)
    (hbig : X.nrows * (2 * D * δ + δ ^ 2) < Δ ^ 2) (first : Nat) (hf : first < X.nrows) (v : Nat → Nat → ℝ) (hv : ∀ c t, v c t ≤ 1) :
    failureProbability (G.dedup.length - 1) (fun rs => FindsGroups G (do
      let C ← fitFrom checked stop (n + 1) X (initPlusPlus G.dedup.length first (fun c t => if t = 0 then rs.getD c 0 else v c t) X)
      predict C X)) ≤ ENNReal.ofReal ((G.dedup.length - 1 : Nat) * (X.nrows * δ ^ 2 / Δ ^ 2)) := by
  have hf' : first < X.rows.length := hf
  have hx0 := List.getElem?_eq_getElem hf'
  have hz0 := at_zip (G := G) hG hx0
  have hD0 : 0 ≤ D := (apart_nonneg _ _).trans (hD _ (List.getElem_mem hf') _ (List.getElem_mem hf'))
  have hδ : 0 ≤ δ := (apart_nonneg _ _).trans ((hsep _ hz0 _ hz0).1 rfl)
  have hn1 : (1 : ℝ) ≤ X.nrows := by exact_mod_cast Nat.succ_le_of_lt (lt_of_le_of_lt (Nat.zero_le _) hf)
  have hws : WellSeparated δ X.rows G := by
    intro e he f hfm
    refine ⟨(hsep e he f hfm).1, fun hne => ?_⟩
    have h1 := (hsep e he f hfm).2 hne
    have h2 := hD _ (List.of_mem_zip he).1 _ (List.of_mem_zip hfm).1
    have h3 : Δ ≤ D := h1.trans h2
    have h4 : 2 * D * δ + δ ^ 2 ≤ X.nrows * (2 * D * δ + δ ^ 2) := le_mul_of_one_le_left (by positivity) hn1
    have h5 : D * (2 * δ) < D * Δ := by nlinarith [sq_nonneg δ]
    have h6 := lt_of_mul_lt_mul_left h5 hD0
    linarith
  have hk : 0 < G.dedup.length :=
    List.length_pos_of_mem (List.mem_dedup.mpr (List.of_mem_zip hz0).2)
  have hT : Transversal X.rows G [G.getD first 0] [X.rows[first]] := ⟨by simp, .cons hz0 .nil⟩
  have hs := seeding hx hG hΔ hD0 hsep hD hbig (fun c => (List.range (numTrials G.dedup.length - 1)).map fun t => v c (t + 1)) (by
    intro s r hr
    obtain ⟨t, -, rfl⟩ := List.mem_map.mp hr
    exact hv _ _) (G.dedup.length - 1) 0 _ _ (by simp) hT (by rw [List.length_singleton]; omega)
  refine (failure_mono _ fun rs hl _ hrs => ?_).trans hs
  obtain ⟨C, cl, gs, h1, h2, h3⟩ := hrs
  rw [List.length_singleton] at h3
  have hlen : gs.length = G.dedup.length := by rw [← h2.2.length_eq, h3]; omega
  have hsub : gs ⊆ G.dedup := by
    intro a ha
    obtain ⟨p, -, hpa⟩ := covered h2 ha
    exact List.mem_dedup.mpr (List.of_mem_zip hpa).2
  have hperm : gs.Perm G.dedup := (h2.1.subperm hsub).perm_of_length_le hlen.ge
  have hcov : ∀ a ∈ G, a ∈ gs := fun a ha => hperm.mem_iff.mpr (List.mem_dedup.mpr ha)
  have hgne : gs ≠ [] := by
    rintro rfl
    simp at hlen
    omega
  obtain ⟨C', g1, -, g3, -⟩ := C175_recovers checked stop n X hx hck G hG δ hws gs h2.1 hgne hcov C h2.2
  have hinit : initPlusPlus G.dedup.length first (fun c t => if t = 0 then rs.getD c 0 else v c t) X = .ok C := by
    unfold initPlusPlus plusPlus
    rw [draws_eq _ v rs hl, (readAt_eq_ok).mpr hx0, Res.bind_ok, distancesTo_spec X hx _ (hx _ (List.getElem_mem hf')), Res.bind_ok]
    have : (X.rows.map fun x => sqDist x X.rows[first]).sum = inertia X.rows [X.rows[first]] := rfl
    rw [this]
    have h1' := h1
    simp only [minSqDist] at h1'
    rw [h1', Res.bind_ok]
  refine ⟨G.map gs.idxOf, by rw [hinit, g1, Res.bind_ok, g3], by rw [List.length_map], ?_⟩
  intro i j hi hj
  rw [List.getElem?_map, List.getElem?_map, List.getElem?_eq_getElem hi, List.getElem?_eq_getElem hj]
  simp only [Option.map_some, Option.some.injEq]
  exact List.idxOf_inj (hcov _ (List.getElem_mem hi))

/-- Example for C184: two groups on a line; the probability of failure is at most `4 / 999²`. -/
example (first : Nat) (hf : first < 4) (v : Nat → Nat → ℝ) (hv : ∀ c t, v c t ≤ 1) :
    failureProbability 1 (fun rs => FindsGroups [0, 1, 0, 1] (do
      let C ← fitFrom true (fun _ => false) 5 ⟨1, [[0], [1000], [1], [1001]]⟩
        (initPlusPlus 2 first (fun c t => if t = 0 then rs.getD c 0 else v c t) ⟨1, [[0], [1000], [1], [1001]]⟩)
      predict C ⟨1, [[0], [1000], [1], [1001]]⟩)) ≤ ENNReal.ofReal (4 / 999 ^ 2) := by
  have hs : ∀ a b : ℝ, apart [a] [b] = |a - b| := by
    intro a b
    simp [apart, sqDist, Real.sqrt_sq_eq_abs]
  have h := C184_groups true (fun _ => false) 4 ⟨1, [[0], [1000], [1], [1001]]⟩ (by intro r hr; fin_cases hr <;> rfl) (Or.inr rfl) [0, 1, 0, 1] rfl
    1 999 1001 (by norm_num) (by
      intro e he f hf
      simp only [List.zip_cons_cons, List.zip_nil_right, List.mem_cons, List.not_mem_nil, or_false] at he hf
      rcases he with rfl | rfl | rfl | rfl <;> rcases hf with rfl | rfl | rfl | rfl <;> norm_num [hs, abs_of_nonneg, abs_of_neg]) (by
      intro x hx y hy
      simp only [List.mem_cons, List.not_mem_nil, or_false] at hx hy
      rcases hx with rfl | rfl | rfl | rfl <;> rcases hy with rfl | rfl | rfl | rfl <;> norm_num [hs, abs_of_nonneg, abs_of_neg])
    (by norm_num [DMat.nrows]) first hf v hv
  have hk : ([0, 1, 0, 1] : List Nat).dedup.length = 2 := by decide
  rw [hk] at h
  refine h.trans (le_of_eq ?_)
  norm_num [DMat.nrows]

end OpenML
