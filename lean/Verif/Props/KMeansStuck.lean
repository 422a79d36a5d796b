import Verif.Props.RandomGroups

/-!
# k-means never moves a centroid from one far group of samples to another (C189)
-/

namespace OpenML

open Spec KMeans KMeansRecovery Random

namespace KMeansStuck

variable {X : DMat ℝ} (hx : X.WF) {H : List Nat} (hH : H.length = X.nrows) {δ : ℝ} (hsep : WellSeparated δ X.rows H) {hs : List Nat}
  (hw : ∀ a ∈ hs, ∃ y, (y, a) ∈ X.rows.zip H) (hcov : ∀ a ∈ H, a ∈ hs)

/-- Every centroid is within `δ` of all samples of its group. -/
structure Sides (X : DMat ℝ) (H : List Nat) (δ : ℝ) (hs : List Nat) (C : List (List ℝ)) : Prop where
  length : C.length = hs.length
  width : ∀ c ∈ C, c.length = X.ncols
  near : ∀ (j : Nat) (c : List ℝ) (a : Nat), C[j]? = some c → hs[j]? = some a → ∀ e ∈ X.rows.zip H, e.2 = a → apart e.1 c ≤ δ

include hx hsep hw hcov in
theorem side {C : List (List ℝ)} (hC : Sides X H δ hs C) {e : List ℝ × Nat} (he : e ∈ X.rows.zip H) {l : Nat}
    (hl : IsFirstMin (C.map (sqDist e.1)) l) : hs[l]? = some e.2 := by
  have hlt := label_lt hl
  have hlh : l < hs.length := by rw [← hC.length]; exact hlt
  rw [List.getElem?_eq_getElem hlh]
  by_contra hne
  have hne : hs[l] ≠ e.2 := fun h => hne (by rw [h])
  obtain ⟨j, hj, hje⟩ := List.mem_iff_getElem.mp (hcov _ (List.of_mem_zip he).2)
  have hjC : j < C.length := by rw [hC.length]; exact hj
  have h1 := hC.near j C[j] e.2 (List.getElem?_eq_getElem hjC) (by rw [List.getElem?_eq_getElem hj, hje]) e he rfl
  obtain ⟨y, hy⟩ := hw hs[l] (List.getElem_mem hlh)
  have h2 := hC.near l C[l] hs[l] (List.getElem?_eq_getElem hlt) (List.getElem?_eq_getElem hlh) _ hy rfl
  have h3 := (hsep e he _ hy).2 hne
  have hel : e.1.length = X.ncols := hx _ (List.of_mem_zip he).1
  have hyl : y.length = X.ncols := hx _ (List.of_mem_zip hy).1
  have hcl := hC.width C[l] (List.getElem_mem hlt)
  have h4 := apart_tri hel hcl hyl
  rw [apart_comm hcl hyl] at h4
  obtain ⟨v, hv, hm⟩ := hl
  rw [List.getElem?_map, List.getElem?_eq_getElem hlt] at hv
  cases hv
  have h5 := Real.sqrt_le_sqrt (hm j (sqDist e.1 C[j]) (by rw [List.getElem?_map, List.getElem?_eq_getElem hjC]; rfl)).1
  have h6 : apart e.1 C[l] ≤ apart e.1 C[j] := h5
  simp only at h2 h3
  linarith

include hx hH hsep hw hcov in
theorem labels_side {C : List (List ℝ)} (hC : Sides X H δ hs C) {labels : List Nat}
    (hF : List.Forall₂ (fun x j => IsFirstMin (C.map (sqDist x)) j) X.rows labels) (i l : Nat) (hi : labels[i]? = some l) :
    hs[l]? = H[i]? := by
  obtain ⟨hil, rfl⟩ := List.getElem?_eq_some_iff.mp hi
  have hlen := hF.length_eq
  have hr : X.rows.length = X.nrows := rfl
  have hir : i < X.rows.length := by omega
  have hiH : i < H.length := by omega
  have he : (X.rows[i], H[i]) ∈ X.rows.zip H := by
    rw [← List.getElem_zip (h := by rw [List.length_zip]; omega)]
    exact List.getElem_mem _
  rw [List.getElem?_eq_getElem hiH]
  exact side hx hsep hw hcov hC he ((List.forall₂_iff_get.mp hF).2 i hir hil)

include hx hH hsep hw hcov in
theorem iterate_sides (checked : Bool) (hck : checked = false ∨ X.ncols = 1) {C : List (List ℝ)} (hne : C ≠ []) (hC : Sides X H δ hs C) :
    ∃ C' diffs, iterate checked X C = .ok (C', diffs) ∧ Sides X H δ hs C' := by
  obtain ⟨labels, C', diffs, h1, h2, h3, h4, h5, -⟩ := iterate_spec checked X hx hck C hne hC.width
  obtain ⟨labels', h1', hF⟩ := predict_spec X hx C hne hC.width
  rw [h1] at h1'
  cases h1'
  refine ⟨C', diffs, h2, by rw [h3, hC.length], h4, ?_⟩
  intro j c a hc ha e he hea
  rw [h5] at hc
  split at hc
  · rename_i hj
    cases hc
    have hmem : ∀ p ∈ withLabel X.rows labels j, (p, a) ∈ X.rows.zip H := by
      intro p hp
      unfold withLabel at hp
      obtain ⟨f, hf, rfl⟩ := List.mem_map.mp hp
      obtain ⟨hf1, hf2⟩ := List.mem_filter.mp hf
      have hf2 : f.2 = j := by simpa using hf2
      obtain ⟨i, hi, hif⟩ := List.mem_iff_getElem.mp hf1
      rw [List.getElem_zip] at hif
      rw [List.length_zip] at hi
      have hr : X.rows.length = X.nrows := rfl
      have hiH : i < H.length := by omega
      have hil : i < labels.length := by omega
      have h6 := labels_side hx hH hsep hw hcov hC hF i labels[i] (List.getElem?_eq_getElem hil)
      have h7 : labels[i] = j := by rw [← hf2, ← hif]
      rw [h7, ha, List.getElem?_eq_getElem hiH] at h6
      have h8 : f.1 = X.rows[i] := by rw [← hif]
      rw [h8, Option.some.inj h6, ← List.getElem_zip (h := by rw [List.length_zip]; omega)]
      exact List.getElem_mem _
    refine centre_near ?_ (fun p hp => hx _ (List.of_mem_zip (hmem p hp)).1) (hx _ (List.of_mem_zip he).1) fun p hp => ?_
    · exact (mem_iff_withLabel hF.length_eq.symm j).mp hj
    · exact (hsep e he _ (hmem p hp)).1 hea.symm
  · exact hC.near j c a hc ha e he hea

include hx hH hsep hw hcov in
theorem lloyd_sides (checked : Bool) (stop : List (List ℝ) → Bool) (hck : checked = false ∨ X.ncols = 1) (hsn : hs ≠ []) :
    ∀ (n : Nat) (C : List (List ℝ)), Sides X H δ hs C → ∃ C', lloyd checked stop n X C = .ok C' ∧ Sides X H δ hs C'
  | 0, C, hC => ⟨C, rfl, hC⟩
  | n + 1, C, hC => by
    have hne : C ≠ [] := by
      rintro rfl
      exact hsn (List.length_eq_zero_iff.mp hC.length.symm)
    obtain ⟨C', diffs, h1, h2⟩ := iterate_sides hx hH hsep hw hcov checked hck hne hC
    rw [lloyd, h1, Res.bind_ok]
    split
    · exact ⟨C', rfl, h2⟩
    · exact lloyd_sides checked stop hck hsn n C' h2

/-- Six samples of one feature: 0 and 1, and far from them two pairs. -/
def sixRows : DMat ℝ := ⟨1, [[0], [1], [100], [101], [110], [111]]⟩

theorem sixRows_wf : sixRows.WF := by
  intro r hr
  simp only [sixRows, List.mem_cons, List.not_mem_nil, or_false] at hr
  rcases hr with rfl | rfl | rfl | rfl | rfl | rfl <;> rfl

theorem sixRows_separated : WellSeparated 11 sixRows.rows [0, 0, 1, 1, 1, 1] := by
  have hs : ∀ a b : ℝ, apart [a] [b] = |a - b| := by
    intro a b
    simp [apart, sqDist, Real.sqrt_sq_eq_abs]
  intro e he f hf
  simp only [sixRows, List.zip_cons_cons, List.zip_nil_right, List.mem_cons, List.not_mem_nil, or_false] at he hf
  rcases he with rfl | rfl | rfl | rfl | rfl | rfl <;> rcases hf with rfl | rfl | rfl | rfl | rfl | rfl <;>
    norm_num [hs, abs_of_nonneg, abs_of_neg]

end KMeansStuck

open KMeansStuck

/-- C189: samples of one far group (numbers `H`) are within `δ` of each other, those of different far groups more than `2 δ` apart, and the initial
centroids are samples, at least one of each far group (`hs` lists their far groups). Then after any number of iterations, whatever the stopping
test, `predict` gives every sample the number of a centroid that started in its far group. -/
theorem C189_stays (checked : Bool) (stop : List (List ℝ) → Bool) (n : Nat) (X : DMat ℝ) (hx : X.WF)
    (hck : checked = false ∨ X.ncols = 1) (H : List Nat) (hH : H.length = X.nrows) (δ : ℝ) (hsep : WellSeparated δ X.rows H)
    (hs : List Nat) (hne : hs ≠ []) (hcov : ∀ a ∈ H, a ∈ hs) (C : List (List ℝ))
    (hC : List.Forall₂ (fun c a => (c, a) ∈ X.rows.zip H) C hs) :
    ∃ C' labels, fitFrom checked stop n X (.ok C) = .ok C' ∧ predict C' X = .ok labels ∧ labels.length = X.nrows ∧
      ∀ i l : Nat, labels[i]? = some l → hs[l]? = H[i]? := by
  have hw : ∀ a ∈ hs, ∃ y, (y, a) ∈ X.rows.zip H := by
    intro a ha
    obtain ⟨j, hj, rfl⟩ := List.mem_iff_getElem.mp ha
    have hjC : j < C.length := by rw [hC.length_eq]; exact hj
    exact ⟨C[j], (List.forall₂_iff_get.mp hC).2 j hjC hj⟩
  have hS : Sides X H δ hs C := by
    refine ⟨hC.length_eq, ?_, ?_⟩
    · intro c hc
      obtain ⟨j, hj, rfl⟩ := List.mem_iff_getElem.mp hc
      exact hx _ (List.of_mem_zip ((List.forall₂_iff_get.mp hC).2 j hj (hC.length_eq ▸ hj))).1
    · intro j c a hc ha e he hea
      obtain ⟨h1, rfl⟩ := List.getElem?_eq_some_iff.mp hc
      obtain ⟨h2, rfl⟩ := List.getElem?_eq_some_iff.mp ha
      exact (hsep e he _ ((List.forall₂_iff_get.mp hC).2 j h1 h2)).1 hea.symm
  obtain ⟨C', h1, h2⟩ := lloyd_sides hx hH hsep hw hcov checked stop hck hne n C hS
  have hne' : C' ≠ [] := by
    rintro rfl
    exact hne (List.length_eq_zero_iff.mp h2.length.symm)
  obtain ⟨labels, h3, hF⟩ := predict_spec X hx C' hne' h2.width
  refine ⟨C', labels, ?_, h3, hF.length_eq.symm, labels_side hx hH hsep hw hcov h2 hF⟩
  rw [fitFrom, Res.bind_ok, h1]

/-- Started from 0, 1 and 100, the samples from 100 on are always of the third centroid. -/
example (n : Nat) (stop : List (List ℝ) → Bool) :
    ∃ C' labels, fitFrom true stop n sixRows (.ok [[0], [1], [100]]) = .ok C' ∧ predict C' sixRows = .ok labels ∧ labels.length = 6 ∧
      ∀ i l : Nat, labels[i]? = some l → ([0, 0, 1] : List Nat)[l]? = ([0, 0, 1, 1, 1, 1] : List Nat)[i]? :=
  C189_stays true stop n sixRows sixRows_wf (Or.inr rfl) [0, 0, 1, 1, 1, 1] rfl 11 sixRows_separated [0, 0, 1] (by simp) (by simp)
    [[0], [1], [100]] (by simp [sixRows])

/-- C189: hence, if one far group consists of more groups (numbers `G`) than initial centroids were taken from it, the groups are never found. -/
theorem C189_not_found (checked : Bool) (stop : List (List ℝ) → Bool) (n : Nat) (X : DMat ℝ) (hx : X.WF)
    (hck : checked = false ∨ X.ncols = 1) (H : List Nat) (hH : H.length = X.nrows) (δ : ℝ) (hsep : WellSeparated δ X.rows H)
    (hs : List Nat) (hcov : ∀ a ∈ H, a ∈ hs) (C : List (List ℝ))
    (hC : List.Forall₂ (fun c a => (c, a) ∈ X.rows.zip H) C hs) (G : List Nat) (hG : G.length = X.nrows) (a : Nat)
    (hfew : hs.count a < (((H.zip G).filter fun e => e.1 = a).map Prod.snd).dedup.length) :
    ¬ FindsGroups G (do
      let C' ← fitFrom checked stop n X (.ok C)
      predict C' X) := by
  classical
  rintro ⟨labels', hp, hll, hiff⟩
  have hin : ∀ g ∈ (((H.zip G).filter fun e => e.1 = a).map Prod.snd).toFinset, ∃ i : Nat, H[i]? = some a ∧ G[i]? = some g := by
    intro g hg
    obtain ⟨e, he, rfl⟩ := List.mem_map.mp (List.mem_toFinset.mp hg)
    obtain ⟨h1, h2⟩ := List.mem_filter.mp he
    have h2 : e.1 = a := by simpa using h2
    obtain ⟨i, hi, hie⟩ := List.mem_iff_getElem.mp h1
    rw [List.length_zip] at hi
    rw [List.getElem_zip] at hie
    have e1 : H[i]'(by omega) = a := by rw [← h2, ← hie]
    have e2 : G[i]'(by omega) = e.2 := by rw [← hie]
    exact ⟨i, by rw [List.getElem?_eq_getElem (by omega), e1], by rw [List.getElem?_eq_getElem (by omega), e2]⟩
  have hne : hs ≠ [] := by
    rintro rfl
    have h0 : 0 < (((H.zip G).filter fun e => e.1 = a).map Prod.snd).dedup.length := lt_of_le_of_lt (Nat.zero_le _) hfew
    obtain ⟨g, hg⟩ := List.exists_mem_of_length_pos h0
    obtain ⟨i, hi, -⟩ := hin g (List.mem_toFinset.mpr (List.mem_dedup.mp hg))
    obtain ⟨h1, h2⟩ := List.getElem?_eq_some_iff.mp hi
    exact absurd (hcov _ (List.getElem_mem h1)) (by simp)
  obtain ⟨C', labels, h1, h2, h3, h4⟩ := C189_stays checked stop n X hx hck H hH δ hsep hs hne hcov C hC
  rw [h1, Res.bind_ok, h2] at hp
  have hpe : labels = labels' := by
    cases hp
    rfl
  rw [← hpe] at hll hiff
  have hlab : ∀ g ∈ (((H.zip G).filter fun e => e.1 = a).map Prod.snd).toFinset, ∃ l : Fin hs.length, hs[l] = a ∧
      ∃ i : Nat, G[i]? = some g ∧ labels[i]? = some l.val := by
    intro g hg
    obtain ⟨i, hiH, hiG⟩ := hin g hg
    obtain ⟨h5, -⟩ := List.getElem?_eq_some_iff.mp hiG
    have hil : i < labels.length := by omega
    have h6 := h4 i labels[i] (List.getElem?_eq_getElem hil)
    rw [hiH] at h6
    obtain ⟨h7, h8⟩ := List.getElem?_eq_some_iff.mp h6
    exact ⟨⟨labels[i], h7⟩, h8, i, hiG, List.getElem?_eq_getElem hil⟩
  choose f hf1 hf2 using hlab
  have hcard : (((H.zip G).filter fun e => e.1 = a).map Prod.snd).toFinset.card ≤ (Finset.univ.filter fun l : Fin hs.length => hs[l] = a).card := by
    refine Finset.card_le_card_of_injOn (fun g => if hg : g ∈ (((H.zip G).filter fun e => e.1 = a).map Prod.snd).toFinset then f g hg else
      ⟨0, List.length_pos_of_ne_nil hne⟩) ?_ ?_
    · intro g hg
      have hg := Finset.mem_coe.mp hg
      dsimp only
      rw [dif_pos hg]
      exact Finset.mem_coe.mpr (Finset.mem_filter.mpr ⟨Finset.mem_univ _, hf1 g hg⟩)
    · intro g hg g' hg' h
      have hg := Finset.mem_coe.mp hg
      have hg' := Finset.mem_coe.mp hg'
      dsimp only at h
      rw [dif_pos hg, dif_pos hg'] at h
      obtain ⟨i, hi1, hi2⟩ := hf2 g hg
      obtain ⟨j, hj1, hj2⟩ := hf2 g' hg'
      obtain ⟨hi3, hi4⟩ := List.getElem?_eq_some_iff.mp hi1
      obtain ⟨hj3, hj4⟩ := List.getElem?_eq_some_iff.mp hj1
      rw [← hi4, ← hj4]
      exact (hiff i j hi3 hj3).mp (by rw [hi2, hj2, h])
  rw [List.card_toFinset, RandomGroups.card_group] at hcard
  omega

/-- Started from 0, 1 and 100, the three pairs are never found. -/
example (n : Nat) (stop : List (List ℝ) → Bool) : ¬ FindsGroups [0, 0, 1, 1, 2, 2] (do
    let C' ← fitFrom true stop n sixRows (.ok [[0], [1], [100]])
    predict C' sixRows) :=
  C189_not_found true stop n sixRows sixRows_wf (Or.inr rfl) [0, 0, 1, 1, 1, 1] rfl 11 sixRows_separated [0, 0, 1] (by simp)
    [[0], [1], [100]] (by simp [sixRows]) [0, 0, 1, 1, 2, 2] rfl 1 (by decide)

/-- C189: so for random initialisation: if the shuffle puts samples of every far group among the first `k`, but fewer of one far group than it
has groups, no number of iterations finds the groups. -/
theorem C189_random (checked : Bool) (stop : List (List ℝ) → Bool) (n : Nat) (X : DMat ℝ) (hx : X.WF)
    (hck : checked = false ∨ X.ncols = 1) (H : List Nat) (hH : H.length = X.nrows) (δ : ℝ) (hsep : WellSeparated δ X.rows H)
    (perm : List Nat) (hp : perm.Perm (List.range X.nrows)) (k : Nat) (hk : k ≤ X.nrows)
    (hcov : ∀ a ∈ H, a ∈ (perm.take k).map (H.getD · 0)) (G : List Nat) (hG : G.length = X.nrows) (a : Nat)
    (hfew : ((perm.take k).map (H.getD · 0)).count a < (((H.zip G).filter fun e => e.1 = a).map Prod.snd).dedup.length) :
    ¬ FindsGroups G (do
      let C ← fitFrom checked stop n X (initRandom perm k X)
      predict C X) := by
  obtain ⟨-, C, hC, hCl, hCi⟩ := (C41_random perm k X hp).1 hk
  have hpl : perm.length = X.nrows := by rw [hp.length_eq, List.length_range]
  have hr : X.rows.length = X.nrows := rfl
  rw [hC]
  refine C189_not_found checked stop n X hx hck H hH δ hsep _ hcov C ?_ G hG a hfew
  rw [List.forall₂_iff_get]
  refine ⟨by rw [hCl, List.length_map, List.length_take]; omega, fun t ht ht' => ?_⟩
  obtain ⟨i, hi, hin, hCt⟩ := hCi t (by omega)
  obtain ⟨h1, h2⟩ := List.getElem?_eq_some_iff.mp hi
  rw [List.getElem?_eq_getElem ht, List.getElem?_eq_getElem (by omega)] at hCt
  have h3 : C[t] = X.rows[i] := Option.some.inj hCt
  have h4 : ((perm.take k).map (H.getD · 0))[t] = H[i]'(by omega) := by
    rw [List.getElem_map, List.getElem_take, h2, List.getD_eq_getElem?_getD, List.getElem?_eq_getElem (by omega), Option.getD_some]
  rw [List.get_eq_getElem, List.get_eq_getElem]
  simp only
  rw [h3, h4]
  exact List.mem_iff_getElem.mpr ⟨i, by rw [List.length_zip]; omega, List.getElem_zip⟩

/-- The shuffle 1, 4, 0, 2, 3, 5 takes the samples 1, 110 and 0. -/
example (n : Nat) (stop : List (List ℝ) → Bool) : ¬ FindsGroups [0, 0, 1, 1, 2, 2] (do
    let C ← fitFrom true stop n sixRows (initRandom [1, 4, 0, 2, 3, 5] 3 sixRows)
    predict C sixRows) :=
  C189_random true stop n sixRows sixRows_wf (Or.inr rfl) [0, 0, 1, 1, 1, 1] rfl 11 sixRows_separated [1, 4, 0, 2, 3, 5]
    (by rw [show sixRows.nrows = 6 from rfl]; decide) 3 (by rw [show sixRows.nrows = 6 from rfl]; decide) (by decide)
    [0, 0, 1, 1, 2, 2] rfl 1 (by decide)

end OpenML
