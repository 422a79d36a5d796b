import Verif.Spec.PlusPlusGroups
import Verif.Lemmas.PlusPlus
import Verif.Props.KMeansRecovery

/-!
# k-means++ on groups of samples that are far from each other
-/

namespace OpenML.PlusPlusGroups

open Spec KMeans KMeansRecovery PlusPlus MeasureTheory

theorem sq_apart (x y : List ℝ) : apart x y ^ 2 = sqDist x y := Real.sq_sqrt (sqDist_nonneg x y)

theorem uniformMean_mono (n : Nat) {F F' : List ℝ → ENNReal} (h : ∀ rs, rs.length = n → (∀ r ∈ rs, r ≤ 1) → F rs ≤ F' rs) :
    uniformMean n F ≤ uniformMean n F' := by
  induction n generalizing F F' with
  | zero => exact h [] rfl (by simp)
  | succ n ih =>
    refine setLIntegral_mono' measurableSet_Ico fun r hr => ih fun rs hl h1 => h (r :: rs) (by simp [hl]) ?_
    intro a ha
    rcases List.mem_cons.mp ha with rfl | ha
    · exact hr.2.le
    · exact h1 a ha

theorem uniformMean_one (n : Nat) : uniformMean n (fun _ => 1) = 1 := by
  induction n with
  | zero => rfl
  | succ n ih =>
    change ∫⁻ _ in Set.Ico (0 : ℝ) 1, uniformMean n (fun _ => 1) = 1
    rw [ih]
    simp

theorem failure_le_one (n : Nat) (P : List ℝ → Prop) : failureProbability n P ≤ 1 := by
  rw [← uniformMean_one n]
  refine uniformMean_mono n fun rs _ _ => ?_
  split <;> simp

theorem failure_mono (n : Nat) {P Q : List ℝ → Prop} (h : ∀ rs, rs.length = n → (∀ r ∈ rs, r ≤ 1) → P rs → Q rs) :
    failureProbability n Q ≤ failureProbability n P := by
  refine uniformMean_mono n fun rs hl h1 => ?_
  by_cases hp : P rs
  · rw [if_pos hp, if_pos (h rs hl h1 hp)]
  · rw [if_neg hp]
    split <;> simp

/-- The random numbers for each further centroid: the first from `rs`, the others given. -/
def drawsOf (rest : Nat → List ℝ) : Nat → List ℝ → List (List ℝ)
  | _, [] => []
  | s, r :: rs => (r :: rest s) :: drawsOf rest (s + 1) rs

/-- One further centroid. -/
theorem one_step {X : DMat ℝ} (hx : X.WF) (hne : X.rows ≠ []) (rs : List ℝ) (hrs : rs ≠ []) (hr1 : ∀ r ∈ rs, r ≤ 1) (P : List (List ℝ))
    (hP : P ≠ []) : ∃ c, GreedyPick X.rows P rs c ∧ ∀ ds, addCenters X (rs :: ds) (X.rows.map fun x => minSqDist x P) (inertia X.rows P) P =
      addCenters X ds (X.rows.map fun x => minSqDist x (P ++ [c])) (inertia X.rows (P ++ [c])) (P ++ [c]) := by
  have h0 : ∀ a ∈ X.rows.map fun x => minSqDist x P, 0 ≤ a := by
    intro a ha
    obtain ⟨x, -, rfl⟩ := List.mem_map.mp ha
    exact minSqDist_nonneg x P
  have hpick := fun r (hr : r ∈ rs) => candidate_roulette (X.rows.map fun x => minSqDist x P) r h0 (hr1 r hr) (by simpa using hne)
  obtain ⟨i, row, h1, h2, h3, h4⟩ := trials_some X hx P hP hne (X.rows.map fun x => minSqDist x P).sum rs hrs
  refine ⟨row, ⟨?_, ?_⟩, fun ds => ?_⟩
  · obtain ⟨r, hr, rfl⟩ := List.mem_map.mp h3
    exact ⟨r, hr, _, hpick r hr, h2⟩
  · intro r hr k row' hk hrow'
    rw [roulette_unique hk (hpick r hr)] at hrow'
    exact h4 _ (List.mem_map.mpr ⟨r, hr, rfl⟩) row' hrow'
  · have h1' : trials X (X.rows.map fun x => minSqDist x P) (inertia X.rows P) rs none =
      .ok (some (inertia X.rows (P ++ [row]), i, X.rows.map fun x => minSqDist x (P ++ [row]))) := h1
    have hrd : readAt X.rows i = .ok row := (readAt_eq_ok).mpr h2
    simp only [addCenters, h1', Res.bind_ok, hrd]

/-- The centroids are samples of different groups `gs`. -/
def Transversal (rows : List (List ℝ)) (G gs : List Nat) (P : List (List ℝ)) : Prop :=
  gs.Nodup ∧ List.Forall₂ (fun c a => (c, a) ∈ rows.zip G) P gs

theorem sum_gap {β : Type} (l : List β) (f g : β → ℝ) (h : ∀ y ∈ l, f y ≤ g y) (x : β) (hx : x ∈ l) (e : ℝ) (he : f x + e ≤ g x) :
    (l.map f).sum + e ≤ (l.map g).sum := by
  induction l with
  | nil => simp at hx
  | cons a l ih =>
    simp only [List.map_cons, List.sum_cons]
    have ha := h a (List.mem_cons_self ..)
    rcases List.mem_cons.mp hx with rfl | hx
    · have : (l.map f).sum ≤ (l.map g).sum := List.sum_le_sum fun y hy => h y (List.mem_cons_of_mem _ hy)
      linarith
    · have := ih (fun y hy => h y (List.mem_cons_of_mem _ hy)) hx
      linarith

theorem sum_le_add {β : Type} (l : List β) (f g : β → ℝ) (e : ℝ) (h : ∀ y ∈ l, f y ≤ g y + e) :
    (l.map f).sum ≤ (l.map g).sum + l.length * e := by
  induction l with
  | nil => simp
  | cons a l ih =>
    simp only [List.map_cons, List.sum_cons, List.length_cons, Nat.cast_add, Nat.cast_one]
    have ha := h a (List.mem_cons_self ..)
    have := ih fun y hy => h y (List.mem_cons_of_mem _ hy)
    linarith

theorem at_zip {rows : List (List ℝ)} {G : List Nat} (hG : G.length = rows.length) {i : Nat} {c : List ℝ} (h : rows[i]? = some c) :
    (c, G.getD i 0) ∈ rows.zip G := by
  obtain ⟨hi, rfl⟩ := List.getElem?_eq_some_iff.mp h
  have hg : i < G.length := by omega
  have : (rows.zip G)[i]'(by rw [List.length_zip]; omega) = (rows[i], G.getD i 0) := by
    rw [List.getElem_zip, List.getD_eq_getElem?_getD, List.getElem?_eq_getElem hg, Option.getD_some]
  rw [← this]
  exact List.getElem_mem _

section
variable {X : DMat ℝ} (hx : X.WF) {G : List Nat} (hG : G.length = X.nrows) {δ Δ D : ℝ} (hΔ : 0 < Δ) (hD0 : 0 ≤ D)
  (hsep : ∀ e ∈ X.rows.zip G, BelongsWithin δ Δ X.rows G e.1 e.2) (hD : ∀ x ∈ X.rows, ∀ y ∈ X.rows, apart x y ≤ D)
  (hbig : X.nrows * (2 * D * δ + δ ^ 2) < Δ ^ 2) {gs : List Nat} {P : List (List ℝ)} (hP : P ≠ []) (hT : Transversal X.rows G gs P)

include hT in
theorem mem_of_transversal {p : List ℝ} (hp : p ∈ P) : ∃ a ∈ gs, (p, a) ∈ X.rows.zip G := by
  obtain ⟨i, hi, rfl⟩ := List.mem_iff_getElem.mp hp
  have hl := hT.2.length_eq
  exact ⟨gs[i]'(hl ▸ hi), List.getElem_mem _, (List.forall₂_iff_get.mp hT.2).2 i hi (hl ▸ hi)⟩

include hT in
theorem covered {a : Nat} (ha : a ∈ gs) : ∃ p ∈ P, (p, a) ∈ X.rows.zip G := by
  obtain ⟨i, hi, rfl⟩ := List.mem_iff_getElem.mp ha
  have hl := hT.2.length_eq
  exact ⟨P[i]'(hl ▸ hi), List.getElem_mem _, (List.forall₂_iff_get.mp hT.2).2 i (hl ▸ hi) hi⟩

include hP hT hΔ hsep in
theorem far_uncovered {x : List ℝ} {a : Nat} (hxa : (x, a) ∈ X.rows.zip G) (ha : a ∉ gs) : Δ ^ 2 ≤ minSqDist x P := by
  obtain ⟨⟨p, hp, h⟩, -⟩ := minSqDist_spec x P hP
  obtain ⟨b, hb, hpb⟩ := mem_of_transversal hT hp
  have := (hsep _ hxa _ hpb).2 (fun h => ha (by have h : b = a := h; exact h ▸ hb))
  rw [h, ← sq_apart]
  exact pow_le_pow_left₀ hΔ.le this 2

include hP hT hsep in
theorem near_covered {x : List ℝ} {a : Nat} (hxa : (x, a) ∈ X.rows.zip G) (ha : a ∈ gs) : minSqDist x P ≤ δ ^ 2 := by
  obtain ⟨p, hp, hpa⟩ := covered hT ha
  have := (hsep _ hxa _ hpa).1 rfl
  refine ((minSqDist_spec x P hP).2 p hp).trans ?_
  rw [← sq_apart]
  exact pow_le_pow_left₀ (apart_nonneg _ _) this 2

include hx hsep hD hbig hP hT hΔ hD0 in
/-- A centroid that is at least as good as a sample of a new group is of a new group. -/
theorem better_is_new {c x : List ℝ} {b a : Nat} (hcb : (c, b) ∈ X.rows.zip G) (hxa : (x, a) ∈ X.rows.zip G) (ha : a ∉ gs)
    (h : inertia X.rows (P ++ [c]) ≤ inertia X.rows (P ++ [x])) : b ∉ gs := by
  intro hb
  obtain ⟨p, hp, hpb⟩ := covered hT hb
  have hcp := (hsep _ hcb _ hpb).1 rfl
  have hδ : 0 ≤ δ := (apart_nonneg _ _).trans hcp
  have hcm := (List.of_mem_zip hcb).1
  have hpm := (List.of_mem_zip hpb).1
  have hxm := (List.of_mem_zip hxa).1
  have h1 : inertia X.rows P ≤ inertia X.rows (P ++ [c]) + X.rows.length * (2 * D * δ + δ ^ 2) := by
    refine sum_le_add X.rows _ _ _ fun y hy => ?_
    rw [minSqDist_append y P c hP]
    have hpos : 0 ≤ 2 * D * δ + δ ^ 2 := by positivity
    rcases min_choice (minSqDist y P) (sqDist y c) with e | e
    · rw [e]
      linarith
    · rw [e]
      refine ((minSqDist_spec y P hP).2 p hp).trans ?_
      rw [← sq_apart, ← sq_apart]
      have ht := apart_tri (hx y hy) (hx c hcm) (hx p hpm)
      have hyc := hD y hy c hcm
      have h0 := apart_nonneg y c
      have : apart y p ≤ apart y c + δ := by linarith
      calc apart y p ^ 2 ≤ (apart y c + δ) ^ 2 := pow_le_pow_left₀ (apart_nonneg _ _) this 2
        _ = apart y c ^ 2 + (2 * apart y c * δ + δ ^ 2) := by ring
        _ ≤ apart y c ^ 2 + (2 * D * δ + δ ^ 2) := by
          have := mul_le_mul_of_nonneg_right hyc hδ
          linarith
  have h2 : inertia X.rows (P ++ [x]) + Δ ^ 2 ≤ inertia X.rows P := by
    refine sum_gap X.rows _ _ (fun y _ => ?_) x hxm _ ?_
    · rw [minSqDist_append y P x hP]
      exact min_le_left _ _
    · rw [minSqDist_append x P x hP, sqDist_self, min_eq_right (minSqDist_nonneg x P), zero_add]
      exact far_uncovered hΔ hsep hP hT hxa ha
  have : (X.rows.length : ℝ) = X.nrows := rfl
  rw [this] at h1
  linarith

theorem transversal_append {c : List ℝ} {b : Nat} (hT : Transversal X.rows G gs P) (hcb : (c, b) ∈ X.rows.zip G) (hb : b ∉ gs) :
    Transversal X.rows G (gs ++ [b]) (P ++ [c]) := by
  refine ⟨List.nodup_append.mpr ⟨hT.1, by simp, ?_⟩, List.rel_append hT.2 (.cons hcb .nil)⟩
  rintro a ha b' hb' rfl
  rw [List.mem_singleton] at hb'
  exact hb (hb' ▸ ha)

end

section
variable {X : DMat ℝ} (hx : X.WF) {G : List Nat} (hG : G.length = X.nrows) {δ Δ D : ℝ} (hΔ : 0 < Δ) (hD0 : 0 ≤ D)
  (hsep : ∀ e ∈ X.rows.zip G, BelongsWithin δ Δ X.rows G e.1 e.2) (hD : ∀ x ∈ X.rows, ∀ y ∈ X.rows, apart x y ≤ D)
  (hbig : X.nrows * (2 * D * δ + δ ^ 2) < Δ ^ 2) (rest : Nat → List ℝ) (hrest : ∀ s, ∀ r ∈ rest s, r ≤ 1)

include hx hG hΔ hD0 hsep hD hbig hrest in
theorem seeding : ∀ (m s : Nat) (gs : List Nat) (P : List (List ℝ)), P ≠ [] → Transversal X.rows G gs P →
    P.length + m ≤ G.dedup.length →
    failureProbability m (fun rs => ∃ C cl gs', addCenters X (drawsOf rest s rs) (X.rows.map fun x => minSqDist x P) (inertia X.rows P) P =
      .ok (C, cl) ∧ Transversal X.rows G gs' C ∧ C.length = P.length + m) ≤ ENNReal.ofReal (m * (X.nrows * δ ^ 2 / Δ ^ 2))
  | 0, s, gs, P, hP, hT, _ => by
    unfold failureProbability uniformMean
    dsimp only
    rw [if_pos]
    · exact zero_le
    · exact ⟨P, _, gs, rfl, hT, rfl⟩
  | m + 1, s, gs, P, hP, hT, hk => by
    classical
    set ε := (X.nrows : ℝ) * δ ^ 2 / Δ ^ 2 with hε
    have hε0 : 0 ≤ ε := by positivity
    have hr : X.rows.length = X.nrows := rfl
    -- an uncovered group
    obtain ⟨a, haG, ha⟩ : ∃ a ∈ G, a ∉ gs := by
      by_contra hno
      push Not at hno
      have hsub : G.dedup ⊆ gs := fun a ha => hno a (List.mem_dedup.mp ha)
      have h1 := ((List.nodup_dedup G).subperm hsub).length_le
      have h2 := hT.2.length_eq
      omega
    obtain ⟨i₀, hi₀, rfl⟩ := List.mem_iff_getElem.mp haG
    have hi₀' : i₀ < X.rows.length := by omega
    have hne : X.rows ≠ [] := by
      intro h
      rw [h] at hi₀'
      simp at hi₀'
    have hzip₀ := at_zip (G := G) (by omega) (List.getElem?_eq_getElem hi₀')
    rw [List.getD_eq_getElem?_getD, List.getElem?_eq_getElem hi₀, Option.getD_some] at hzip₀
    set w := X.rows.map fun x => minSqDist x P with hwdef
    have hw0 : ∀ a ∈ w, 0 ≤ a := by
      intro a ha
      obtain ⟨x, -, rfl⟩ := List.mem_map.mp ha
      exact minSqDist_nonneg x P
    have hwl : w.length = X.rows.length := List.length_map _
    have hW : Δ ^ 2 ≤ w.sum :=
      (far_uncovered hΔ hsep hP hT hzip₀ ha).trans
        (List.single_le_sum hw0 _ (List.mem_map.mpr ⟨_, List.getElem_mem hi₀', rfl⟩))
    have hWpos : 0 < w.sum := lt_of_lt_of_le (by positivity) hW
    -- the integrand
    let H : ℝ → ENNReal := fun r => failureProbability m (fun rs => ∃ C cl gs', addCenters X (drawsOf rest s (r :: rs)) w (inertia X.rows P) P =
      .ok (C, cl) ∧ Transversal X.rows G gs' C ∧ C.length = P.length + (m + 1))
    have hgoal : failureProbability (m + 1) (fun rs => ∃ C cl gs', addCenters X (drawsOf rest s rs) w (inertia X.rows P) P =
      .ok (C, cl) ∧ Transversal X.rows G gs' C ∧ C.length = P.length + (m + 1)) = ∫⁻ r in Set.Ico (0 : ℝ) 1, H r := rfl
    rw [hgoal, Measure.restrict_congr_set Ico_ae_eq_Ioc]
    have hH1 : ∀ r, H r ≤ 1 := fun r => failure_le_one _ _
    have hHt : ∀ r, ENNReal.ofReal (H r).toReal = H r := fun r =>
      ENNReal.ofReal_toReal (ne_top_of_le_ne_top ENNReal.one_ne_top (hH1 r))
    let V : Nat → ℝ := fun i => m * ε + if G.getD i 0 ∈ gs then 1 else 0
    have hmε : 0 ≤ (m : ℝ) * ε := by positivity
    have hV : ∀ i, 0 ≤ V i := fun i => by
      dsimp only [V]
      split <;> linarith
    have hb := pick_lintegral hw0 hWpos (fun i : Fin w.length => V i) (fun i => hV i) (fun r => (H r).toReal) (by
      intro r hr i hi
      dsimp only [V]
      by_cases hc : G.getD i 0 ∈ gs
      · rw [if_pos hc]
        have : (H r).toReal ≤ 1 := ENNReal.toReal_le_of_le_ofReal zero_le_one (by simpa using hH1 r)
        linarith
      · rw [if_neg hc, add_zero]
        refine ENNReal.toReal_le_of_le_ofReal hmε ?_
        obtain ⟨c, hg, hstep⟩ := one_step hx hne (r :: rest s) (by simp) (by
          intro q hq
          rcases List.mem_cons.mp hq with rfl | hq
          · exact hr.2
          · exact hrest s q hq) P hP
        have hir : (i : Nat) < X.rows.length := by rw [← hwl]; exact i.2
        have hle := hg.2 r (by simp) i X.rows[i] hi (List.getElem?_eq_getElem hir)
        obtain ⟨⟨r', -, i', -, hci⟩, -⟩ := hg
        have hcz := at_zip (G := G) (by omega) hci
        have hxz := at_zip (G := G) (by omega) (List.getElem?_eq_getElem hir)
        have hnew := better_is_new hx hΔ hD0 hsep hD hbig hP hT hcz hxz hc hle
        have ih := seeding m (s + 1) _ (P ++ [c]) (by simp) (transversal_append hT hcz hnew) (by
          rw [List.length_append, List.length_singleton]; omega)
        refine (failure_mono m fun rs _ _ hrs => ?_).trans ih
        obtain ⟨C, cl, gs', h1, h2, h3⟩ := hrs
        refine ⟨C, cl, gs', ?_, h2, by rw [h3, List.length_append, List.length_singleton]; omega⟩
        rw [drawsOf, hwdef, hstep]
        exact h1)
    simp only [hHt] at hb
    refine hb.trans (ENNReal.ofReal_le_ofReal ?_)
    have hsum1 : ∑ i : Fin w.length, w[i] = w.sum := by
      conv_rhs => rw [← List.ofFn_getElem (xs := w), List.sum_ofFn]
      rfl
    have hterm : ∀ i : Fin w.length, w[i] / w.sum * V i ≤ w[i] / w.sum * (m * ε) + δ ^ 2 / w.sum := by
      intro i
      dsimp only [V]
      rw [mul_add]
      have hir : (i : Nat) < X.rows.length := by rw [← hwl]; exact i.2
      split
      · rename_i hc
        have hxz := at_zip (G := G) (by omega) (List.getElem?_eq_getElem hir)
        have h1 := near_covered hsep hP hT hxz hc
        have h2 : w[i] = minSqDist X.rows[(i : Nat)] P := List.getElem_map _
        rw [mul_one, h2]
        exact add_le_add le_rfl (div_le_div_of_nonneg_right h1 hWpos.le)
      · rw [mul_zero]
        have : 0 ≤ δ ^ 2 / w.sum := by positivity
        linarith
    refine (Finset.sum_le_sum fun i _ => hterm i).trans ?_
    rw [Finset.sum_add_distrib, ← Finset.sum_mul, ← Finset.sum_div, hsum1, div_self hWpos.ne', one_mul, Finset.sum_const, Finset.card_univ,
      Fintype.card_fin, nsmul_eq_mul, hwl, hr]
    have : (X.nrows : ℝ) * (δ ^ 2 / w.sum) ≤ ε := by
      rw [hε, ← mul_div_assoc]
      exact div_le_div_of_nonneg_left (by positivity) (by positivity) hW
    push_cast
    linarith

end

end OpenML.PlusPlusGroups
