import Verif.Spec.KMeansRecovery
import Verif.Lemmas.KMeans
import Mathlib.Analysis.InnerProductSpace.PiL2
import Mathlib.Analysis.Convex.Combination
import Mathlib.Analysis.Normed.Module.Convex

/-!
# Lemmas for C175: k-means on well separated groups
-/

namespace OpenML.KMeansRecovery

open Spec KMeans

/-- A sample as a vector. -/
noncomputable def pt (d : Nat) (x : List ℝ) : EuclideanSpace ℝ (Fin d) := WithLp.toLp 2 fun j => x.getD j 0

theorem apart_norm {d : Nat} {x y : List ℝ} (hx : x.length = d) (hy : y.length = d) :
    apart x y = ‖pt d x - pt d y‖ := by
  rw [EuclideanSpace.norm_eq, apart, sqDist_coord d x y hx hy, Finset.sum_range]
  simp [pt]

/-- The mean of points as a vector. -/
theorem pt_centre (d : Nat) (pts : List (List ℝ)) :
    pt d (centreOf d pts) = (pts.length : ℝ)⁻¹ • (pts.map (pt d)).sum := by
  have h : ∀ (l : List (List ℝ)) (j : Fin d), ((l.map (pt d)).sum) j = (l.map fun p => p.getD j 0).sum := by
    intro l j
    induction l with
    | nil => simp
    | cons p l ih => rw [List.map_cons, List.sum_cons, PiLp.add_apply, ih, List.map_cons, List.sum_cons]; rfl
  ext j
  rw [PiLp.smul_apply, h]
  simp [pt, centreOf, div_eq_inv_mul]

/-- A mean lies in every ball that has all points. -/
theorem centre_near {d : Nat} {pts : List (List ℝ)} (hne : pts ≠ []) (hp : ∀ p ∈ pts, p.length = d) {x : List ℝ}
    (hx : x.length = d) {r : ℝ} (h : ∀ p ∈ pts, apart x p ≤ r) : apart x (centreOf d pts) ≤ r := by
  rw [apart_norm hx (length_centreOf d pts), pt_centre]
  have hn : (0 : ℝ) < pts.length := by exact_mod_cast List.length_pos_iff.mpr hne
  have key : ∀ l : List (List ℝ), (∀ p ∈ l, ‖pt d x - pt d p‖ ≤ r) →
      ‖(l.length : ℝ) • pt d x - (l.map (pt d)).sum‖ ≤ l.length * r := by
    intro l hl
    induction l with
    | nil => simp
    | cons p l ih =>
      have h1 := ih fun q hq => hl q (by simp [hq])
      have h2 := hl p (by simp)
      have : ((p :: l).length : ℝ) • pt d x - ((p :: l).map (pt d)).sum =
          (pt d x - pt d p) + ((l.length : ℝ) • pt d x - (l.map (pt d)).sum) := by
        simp only [List.length_cons, List.map_cons, List.sum_cons, Nat.cast_add, Nat.cast_one, add_smul, one_smul]
        abel
      rw [this]
      refine (norm_add_le _ _).trans ?_
      push_cast [List.length_cons]
      linarith
  have h1 := key pts fun p hpm => by rw [← apart_norm hx (hp p hpm)]; exact h p hpm
  have : pt d x - (pts.length : ℝ)⁻¹ • (pts.map (pt d)).sum =
      (pts.length : ℝ)⁻¹ • ((pts.length : ℝ) • pt d x - (pts.map (pt d)).sum) := by
    rw [smul_sub, smul_smul, inv_mul_cancel₀ hn.ne', one_smul]
  rw [this, norm_smul, Real.norm_of_nonneg (inv_nonneg.mpr hn.le)]
  rw [inv_mul_le_iff₀ hn]
  exact h1

theorem apart_tri {d : Nat} {x y z : List ℝ} (hx : x.length = d) (hy : y.length = d) (hz : z.length = d) :
    apart x z ≤ apart x y + apart y z := by
  rw [apart_norm hx hz, apart_norm hx hy, apart_norm hy hz]
  exact norm_sub_le_norm_sub_add_norm_sub _ _ _

theorem apart_comm {d : Nat} {x y : List ℝ} (hx : x.length = d) (hy : y.length = d) : apart x y = apart y x := by
  rw [apart_norm hx hy, apart_norm hy hx, norm_sub_rev]

theorem apart_nonneg (x y : List ℝ) : 0 ≤ apart x y := Real.sqrt_nonneg _

/-- The index chosen for a point that is within `r` of one centroid and further from all others. -/
theorem nearest_eq {C : List (List ℝ)} {x : List ℝ} {a l : Nat} {r : ℝ} (ha : a < C.length)
    (h1 : apart x C[a] ≤ r) (h2 : ∀ (j : Nat) (hj : j < C.length), j ≠ a → r < apart x C[j])
    (h : IsFirstMin (C.map (sqDist x)) l) : l = a := by
  by_contra hne
  have hl := label_lt h
  obtain ⟨v, hv, hm⟩ := h
  rw [List.getElem?_map, List.getElem?_eq_getElem hl] at hv
  cases hv
  have := (hm a (sqDist x C[a]) (by rw [List.getElem?_map, List.getElem?_eq_getElem ha]; rfl)).1
  have h3 := Real.sqrt_le_sqrt this
  have h4 := h2 l hl hne
  unfold apart at h1 h4
  linarith

/-- Labels for the samples of well separated groups. -/
theorem labels_eq {X : DMat ℝ} {C : List (List ℝ)} {G labels : List Nat} {r : ℝ} (hG : G.length = X.nrows)
    (hlt : ∀ a ∈ G, a < C.length)
    (hC : ∀ e ∈ X.rows.zip G, ∀ (j : Nat) (hj : j < C.length), (j = e.2 → apart e.1 C[j] ≤ r) ∧
      (j ≠ e.2 → r < apart e.1 C[j]))
    (h : List.Forall₂ (fun x j => IsFirstMin (C.map (sqDist x)) j) X.rows labels) : labels = G := by
  have key : ∀ (rows : List (List ℝ)) (G labels : List Nat), G.length = rows.length →
      (∀ a ∈ G, a < C.length) → (∀ e ∈ rows.zip G, ∀ (j : Nat) (hj : j < C.length), (j = e.2 → apart e.1 C[j] ≤ r) ∧
      (j ≠ e.2 → r < apart e.1 C[j])) →
      List.Forall₂ (fun x j => IsFirstMin (C.map (sqDist x)) j) rows labels → labels = G := by
    intro rows G labels hG hlt hC h
    induction h generalizing G with
    | nil => exact (List.length_eq_zero_iff.mp hG).symm
    | cons hab _ ih =>
      match G, hG with
      | a :: G, hG =>
        have ha : a < C.length := hlt a (by simp)
        rw [ih G (by simpa using hG) (fun b hb => hlt b (by simp [hb])) (fun e he => hC e (by simp [he]))]
        have h0 := hC (_, a) (by simp only [List.zip_cons_cons]; exact List.mem_cons_self)
        rw [nearest_eq ha ((h0 a ha).1 rfl) (fun j hj hne => (h0 j hj).2 hne) hab]
  exact key X.rows G labels hG hlt hC h

/-- The means of the groups. -/
noncomputable def means (d : Nat) (rows : List (List ℝ)) (G : List Nat) (k : Nat) : List (List ℝ) :=
  (List.range k).map fun j => centreOf d (withLabel rows G j)

theorem means_sep {X : DMat ℝ} (hx : X.WF) {G : List Nat} {δ : ℝ} {k : Nat} (hcov : ∀ j < k, ∃ x, (x, j) ∈ X.rows.zip G)
    (hsep : WellSeparated δ X.rows G) {q : List ℝ} (hq : q.length = X.ncols) {a : Nat} (hb : BelongsTo δ X.rows G q a)
    (j : Nat) (hj : j < (means X.ncols X.rows G k).length) :
    (j = a → apart q (means X.ncols X.rows G k)[j] ≤ δ) ∧ (j ≠ a → δ < apart q (means X.ncols X.rows G k)[j]) := by
  have hjk : j < k := by simpa [means] using hj
  have hget : (means X.ncols X.rows G k)[j] = centreOf X.ncols (withLabel X.rows G j) := by simp [means]
  rw [hget]
  obtain ⟨y, hy⟩ := hcov j hjk
  have hmem : ∀ p, p ∈ withLabel X.rows G j ↔ (p, j) ∈ X.rows.zip G := by
    intro p
    unfold withLabel
    constructor
    · intro h
      obtain ⟨e, he, rfl⟩ := List.mem_map.mp h
      obtain ⟨h1, h2⟩ := List.mem_filter.mp he
      have : e.2 = j := by simpa using h2
      rw [← this]
      exact h1
    · intro h
      exact List.mem_map.mpr ⟨(p, j), List.mem_filter.mpr ⟨h, by simp⟩, rfl⟩
  have hlen : ∀ p ∈ withLabel X.rows G j, p.length = X.ncols := fun p hp =>
    hx p (List.of_mem_zip ((hmem p).mp hp)).1
  have hne : withLabel X.rows G j ≠ [] := List.ne_nil_of_mem ((hmem y).mpr hy)
  constructor
  · rintro rfl
    exact centre_near hne hlen hq fun p hp => (hb _ ((hmem p).mp hp)).1 rfl
  · intro hja
    have hyl := hlen y ((hmem y).mpr hy)
    have h1 : apart y (centreOf X.ncols (withLabel X.rows G j)) ≤ δ :=
      centre_near hne hlen hyl fun p hp => (hsep _ hy _ ((hmem p).mp hp)).1 rfl
    have h2 := (hb _ hy).2 hja
    have h3 := apart_tri hq (length_centreOf X.ncols (withLabel X.rows G j)) hyl
    rw [apart_comm (length_centreOf X.ncols (withLabel X.rows G j)) hyl] at h3
    simp only at h2
    linarith

theorem lloyd_means (checked : Bool) (stop : List (List ℝ) → Bool) (n : Nat) {X : DMat ℝ} (hx : X.WF)
    (hck : checked = false ∨ X.ncols = 1) {G : List Nat} (hG : G.length = X.nrows) {r : ℝ} {C : List (List ℝ)} (hC : C ≠ [])
    (hw : ∀ c ∈ C, c.length = X.ncols) (hall : ∀ j < C.length, j ∈ G) (hlt : ∀ a ∈ G, a < C.length)
    (hnear : ∀ e ∈ X.rows.zip G, ∀ (j : Nat) (hj : j < C.length), (j = e.2 → apart e.1 C[j] ≤ r) ∧
      (j ≠ e.2 → r < apart e.1 C[j]))
    (hmeans : ∀ e ∈ X.rows.zip G, ∀ (j : Nat) (hj : j < (means X.ncols X.rows G C.length).length),
      (j = e.2 → apart e.1 (means X.ncols X.rows G C.length)[j] ≤ r) ∧
      (j ≠ e.2 → r < apart e.1 (means X.ncols X.rows G C.length)[j])) :
    lloyd checked stop (n + 1) X C = .ok (means X.ncols X.rows G C.length) := by
  induction n generalizing C with
  | zero =>
    obtain ⟨labels, C', diffs, h1, h2, h3, h4, h5, -⟩ := iterate_spec checked X hx hck C hC hw
    obtain ⟨labels', h1', hF⟩ := predict_spec X hx C hC hw
    rw [h1] at h1'
    cases h1'
    have hlab := labels_eq hG hlt hnear hF
    subst hlab
    have hC' : C' = means X.ncols X.rows labels C.length := by
      apply List.ext_getElem?
      intro j
      rw [h5]
      by_cases hj : j < C.length
      · rw [if_pos (hall j hj)]
        simp [means, hj]
      · rw [if_neg fun hm => hj (hlt j hm)]
        simp [means, Nat.le_of_not_lt hj]
    rw [lloyd, h2, Res.bind_ok, hC']
    simp only [lloyd]
    split <;> rfl
  | succ n ih =>
    obtain ⟨labels, C', diffs, h1, h2, h3, h4, h5, -⟩ := iterate_spec checked X hx hck C hC hw
    obtain ⟨labels', h1', hF⟩ := predict_spec X hx C hC hw
    rw [h1] at h1'
    cases h1'
    have hlab := labels_eq hG hlt hnear hF
    subst hlab
    have hC' : C' = means X.ncols X.rows labels C.length := by
      apply List.ext_getElem?
      intro j
      rw [h5]
      by_cases hj : j < C.length
      · rw [if_pos (hall j hj)]
        simp [means, hj]
      · rw [if_neg fun hm => hj (hlt j hm)]
        simp [means, Nat.le_of_not_lt hj]
    rw [lloyd, h2, Res.bind_ok]
    simp only
    split
    · rw [hC']
    · have hne' : C' ≠ [] := by
        intro h
        rw [h] at h3
        exact hC (List.length_eq_zero_iff.mp h3.symm)
      have := ih (C := C') hne' h4 (by rwa [h3]) (by rwa [h3]) (by subst hC'; simpa only [means, List.length_map, List.length_range] using hmeans) (by rw [h3]; exact hmeans)
      rw [this, h3]

/-- Numbering the groups anew. -/
theorem withLabel_renumber (rows : List (List ℝ)) (G gs : List Nat) (hgs : gs.Nodup) (hcov : ∀ a ∈ G, a ∈ gs) (j : Nat)
    (hj : j < gs.length) : withLabel rows (G.map gs.idxOf) j = withLabel rows G gs[j] := by
  unfold withLabel
  induction rows generalizing G with
  | nil => simp
  | cons r rows ih =>
    cases G with
    | nil => simp
    | cons a G =>
      have h := ih G fun b hb => hcov b (by simp [hb])
      have ha : gs.idxOf a = j ↔ a = gs[j] := by
        constructor
        · rintro rfl
          exact (List.getElem_idxOf hj).symm
        · rintro rfl
          exact hgs.idxOf_getElem j hj
      simp only [List.map_cons, List.zip_cons_cons]
      by_cases hc : a = gs[j]
      · rw [List.filter_cons_of_pos (by simpa using ha.mpr hc), List.filter_cons_of_pos (by simpa using hc), List.map_cons,
          List.map_cons, h]
      · rw [List.filter_cons_of_neg (by simpa using fun hh => hc (ha.mp hh)), List.filter_cons_of_neg (by simpa using hc), h]

theorem mem_zip_renumber {rows : List (List ℝ)} {G : List Nat} (f : Nat → Nat) {e : List ℝ × Nat} :
    e ∈ rows.zip (G.map f) ↔ ∃ a, (e.1, a) ∈ rows.zip G ∧ e.2 = f a := by
  rw [List.zip_map_right, List.mem_map]
  constructor
  · rintro ⟨⟨x, a⟩, h, rfl⟩
    exact ⟨a, h, rfl⟩
  · rintro ⟨a, h, h2⟩
    exact ⟨(e.1, a), h, by cases e; simp_all⟩

theorem belongs_renumber {δ : ℝ} {rows : List (List ℝ)} {G gs : List Nat} (hcov : ∀ a ∈ G, a ∈ gs) {x : List ℝ} {a : Nat}
    (ha : a ∈ gs) (h : BelongsTo δ rows G x a) : BelongsTo δ rows (G.map gs.idxOf) x (gs.idxOf a) := by
  intro e he
  obtain ⟨b, hb, heb⟩ := (mem_zip_renumber _).mp he
  have := h _ hb
  have hbg := hcov b (List.of_mem_zip hb).2
  rw [heb, ne_eq, List.idxOf_inj hbg]
  exact this

end OpenML.KMeansRecovery
