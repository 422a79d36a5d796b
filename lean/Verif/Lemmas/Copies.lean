import Verif.Spec.Copies
import Verif.Lemmas.KMeansSymmetry
import Verif.Props.DecisionTreeMore
import Verif.Props.Impurity

/-!
# Lemmas about decision trees fitted to a training set that contains every sample several times
-/

set_option linter.unusedSectionVars false

namespace OpenML.Copies
open Spec DTree

variable {α : Type} {r : Nat} {X X' : DMat α} {y y' : List α}

theorem map_copies {β γ : Type} (g : β → γ) (m : Nat) (l l' : List β) (h : l'.Perm (List.replicate m l).flatten) :
    (l'.map g).Perm (List.replicate m (l.map g)).flatten := by
  have := h.map g
  rwa [List.map_flatten, List.map_replicate] at this

theorem filter_copies {β : Type} (p : β → Bool) (m : Nat) (l l' : List β) (h : l'.Perm (List.replicate m l).flatten) :
    (l'.filter p).Perm (List.replicate m (l.filter p)).flatten := by
  have := h.filter p
  rwa [List.filter_flatten, List.map_replicate] at this

theorem count_copies {β : Type} [DecidableEq β] (m : Nat) (l l' : List β) (h : l'.Perm (List.replicate m l).flatten) (b : β) :
    l'.count b = m * l.count b := by
  rw [h.count_eq, List.count_flatten, List.map_replicate, List.sum_replicate, smul_eq_mul]

theorem length_copies {β : Type} (m : Nat) (l l' : List β) (h : l'.Perm (List.replicate m l).flatten) :
    l'.length = m * l.length := by
  rw [h.length_eq]; simp

theorem targets (h : Copied r X y X' y') : y'.Perm (List.replicate r y).flatten := by
  have := map_copies Prod.snd r _ _ h.perm
  rwa [List.map_snd_zip (by rw [h.len']; exact le_rfl), List.map_snd_zip (by rw [h.len]; exact le_rfl)] at this

theorem rows (h : Copied r X y X' y') : X'.rows.Perm (List.replicate r X.rows).flatten := by
  have := map_copies Prod.fst r _ _ h.perm
  rwa [List.map_fst_zip (by rw [h.len']; exact le_rfl), List.map_fst_zip (by rw [h.len]; exact le_rfl)] at this

theorem nrows (h : Copied r X y X' y') : X'.nrows = r * X.nrows := length_copies r _ _ (rows h)

theorem col (h : Copied r X y X' y') (f : Nat) : (X'.col f).Perm (List.replicate r (X.col f)).flatten := by
  have := (rows h).filterMap (fun r => r[f]?)
  rwa [List.filterMap_flatten, List.map_replicate] at this

variable [Field α] [LinearOrder α] [IsStrictOrderedRing α]

theorem part_copies (h : Copied r X y X' y') (f : Nat) (p p' : α → Bool) (hp : ∀ a ∈ X.col f, p' a = p a) :
    (part X' y' f p').Perm (List.replicate r (part X y f p)).flatten := by
  have := filter_copies (side f p') r _ _ h.perm
  refine this.trans (List.Perm.of_eq ?_)
  congr 2
  refine List.filter_congr fun e he => ?_
  have hm := (List.of_mem_zip he).1
  unfold side
  cases hc : e.1[f]? with
  | none => rfl
  | some a => exact hp a (List.mem_filterMap.mpr ⟨e.1, hm, hc⟩)

theorem child (h : Copied r X y X' y') (f : Nat) (p p' : α → Bool) (hp : ∀ a ∈ X.col f, p' a = p a) :
    Copied r ⟨X.ncols, (part X y f p).map Prod.fst⟩ ((part X y f p).map Prod.snd)
      ⟨X'.ncols, (part X' y' f p').map Prod.fst⟩ ((part X' y' f p').map Prod.snd) :=
  ⟨part_wf X h.wf y f p, part_wf X' h.wf' y' f p', h.cols, part_len X y f p, part_len X' y' f p',
    by rw [part_zip, part_zip]; exact part_copies h f p p' hp⟩

/-- The averages of neighbours in a sorted list. -/
theorem mem_midpoints_sorted (l : List α) (hs : l.Pairwise (· ≤ ·)) (t : α) :
    t ∈ midpoints l ↔ (2 ≤ l.count t) ∨ ∃ a ∈ l, ∃ b ∈ l, a < b ∧ (∀ c ∈ l, c ≤ a ∨ b ≤ c) ∧ t = (a + b) / 2 := by
  induction l with
  | nil => simp [midpoints]
  | cons a l ih =>
    cases l with
    | nil =>
      simp only [midpoints, List.not_mem_nil, List.mem_singleton, false_iff, not_or, not_le]
      refine ⟨lt_of_le_of_lt List.count_le_length (by simp), ?_⟩
      rintro ⟨_, rfl, _, rfl, h, -⟩
      exact lt_irrefl _ h
    | cons b l =>
      have hab : a ≤ b := List.rel_of_pairwise_cons hs (by simp)
      have hs' := List.Pairwise.of_cons hs
      have hb : ∀ c ∈ b :: l, b ≤ c := by
        intro c hc
        rcases List.mem_cons.mp hc with rfl | hc
        · exact le_rfl
        · exact List.rel_of_pairwise_cons hs' hc
      rw [midpoints, List.mem_cons, ih hs']
      constructor
      · rintro (rfl | h | ⟨u, hu, v, hv, huv, hc, rfl⟩)
        · rcases hab.eq_or_lt with rfl | hlt
          · left
            rw [show (a + a) / 2 = a by ring]
            simp
          · right
            exact ⟨a, by simp, b, by simp, hlt, fun c hc => by
              rcases List.mem_cons.mp hc with rfl | hc
              · exact Or.inl le_rfl
              · exact Or.inr (hb c hc), rfl⟩
        · exact Or.inl (h.trans (List.count_le_count_cons ..))
        · right
          refine ⟨u, List.mem_cons_of_mem _ hu, v, List.mem_cons_of_mem _ hv, huv, fun c hc' => ?_, rfl⟩
          rcases List.mem_cons.mp hc' with rfl | hc'
          · exact Or.inl (hab.trans (hb u hu))
          · exact hc c hc'
      · rintro (h | ⟨u, hu, v, hv, huv, hc, rfl⟩)
        · by_cases hat : a = t
          · subst hat
            have h1 : 1 ≤ (b :: l).count a := by
              rw [List.count_cons_self] at h; omega
            have hm : a ∈ b :: l := List.one_le_count_iff.mp h1
            have : b = a := le_antisymm (hb a hm) hab
            left
            rw [this]; ring
          · right; left
            rwa [List.count_cons_of_ne hat] at h
        · rcases List.mem_cons.mp hv with rfl | hv'
          · exfalso
            rcases List.mem_cons.mp hu with rfl | hu'
            · exact lt_irrefl _ huv
            · exact absurd (hab.trans (hb u hu')) (not_le.mpr huv)
          · rcases List.mem_cons.mp hu with rfl | hu'
            · rcases hc b (by simp) with h1 | h1
              · have hbu : b = u := le_antisymm h1 hab
                right; right
                exact ⟨u, by simp [hbu], v, hv', huv, fun c hc' => hc c (List.mem_cons_of_mem _ hc'), rfl⟩
              · left
                rw [le_antisymm h1 (hb v hv')]
            · right; right
              exact ⟨u, hu', v, hv', huv, fun c hc' => hc c (List.mem_cons_of_mem _ hc'), rfl⟩

/-- The candidate thresholds: values that occur twice, and the averages of values that are next to each other. -/
theorem candidate_iff (X : DMat α) (f : Nat) (t : α) : IsCandidate X f t ↔ f < X.ncols ∧
    ((2 ≤ (X.col f).count t) ∨
      ∃ a ∈ X.col f, ∃ b ∈ X.col f, a < b ∧ (∀ c ∈ X.col f, c ≤ a ∨ b ≤ c) ∧ t = (a + b) / 2) := by
  unfold IsCandidate
  rw [← mem_midpoints, mem_midpoints_sorted _ (List.pairwise_insertionSort _ _)]
  simp only [List.mem_insertionSort, (List.perm_insertionSort (· ≤ ·) (X.col f)).count_eq]

theorem mem_col (h : Copied r X y X' y') (hr : 0 < r) (f : Nat) (a : α) : a ∈ X'.col f ↔ a ∈ X.col f :=
  KMeans.mem_copies r hr _ _ (col h f) a

theorem candidate_copies (h : Copied r X y X' y') (hr : 0 < r) (f : Nat) (t : α) (hc : IsCandidate X f t) :
    IsCandidate X' f t := by
  rw [candidate_iff] at hc ⊢
  simp only [mem_col h hr, h.cols, count_copies r _ _ (col h f)]
  refine ⟨hc.1, hc.2.imp_left fun h2 => ?_⟩
  exact h2.trans (Nat.le_mul_of_pos_left _ hr)

/-- Every candidate of the copies separates the samples like a candidate of the original, or does not separate them. -/
theorem candidate_original (h : Copied r X y X' y') (hr : 0 < r) (f : Nat) (t' : α) (hc : IsCandidate X' f t') :
    (∃ t, IsCandidate X f t ∧ t' ≤ t ∧ ∀ a ∈ X.col f, a ≤ t' ↔ a ≤ t) ∨ ∀ a ∈ X.col f, a ≤ t' := by
  rw [candidate_iff] at hc
  simp only [mem_col h hr, h.cols, count_copies r _ _ (col h f)] at hc
  obtain ⟨hf, h2 | ⟨a, ha, b, hb, hab, hc, rfl⟩⟩ := hc
  · have hmem : t' ∈ X.col f := by
      apply List.count_pos_iff.mp
      rcases Nat.eq_zero_or_pos ((X.col f).count t') with h0 | h0
      · rw [h0] at h2; omega
      · exact h0
    by_cases hall : ∀ a ∈ X.col f, a ≤ t'
    · exact Or.inr hall
    · left
      push Not at hall
      obtain ⟨w0, hw0, hlt0⟩ := hall
      have hne : ((X.col f).toFinset.filter (t' < ·)).Nonempty := ⟨w0, by simp [hw0, hlt0]⟩
      obtain ⟨w, hw, hmin⟩ := Finset.exists_min_image _ id hne
      simp only [Finset.mem_filter, List.mem_toFinset, id] at hw hmin
      have hnext : ∀ c ∈ X.col f, c ≤ t' ∨ w ≤ c := fun c hc => by
        rcases le_or_gt c t' with h | h
        · exact Or.inl h
        · exact Or.inr (hmin c ⟨hc, h⟩)
      refine ⟨(t' + w) / 2, (candidate_iff X f _).mpr ⟨hf, Or.inr ⟨t', hmem, w, hw.1, hw.2, hnext, rfl⟩⟩, ?_, fun a ha => ?_⟩
      · linarith [hw.2]
      · rcases hnext a ha with h | h
        · exact ⟨fun _ => by linarith [hw.2], fun _ => h⟩
        · exact ⟨fun h' => absurd (h.trans h') (not_le.mpr hw.2), fun h' => by exfalso; linarith [hw.2]⟩
  · exact Or.inl ⟨_, (candidate_iff X f _).mpr ⟨hf, Or.inr ⟨a, ha, b, hb, hab, hc, rfl⟩⟩, le_rfl, fun _ _ => Iff.rfl⟩

variable {R : Type} [LinearOrder R] (imp : List α → List α → List α → Res R)

/-- What is used of a criterion: it is always defined, counts samples relative to each other, and no split is worse than one
that leaves a side empty. -/
structure Relative : Prop where
  total : ∀ y l r, ∃ v, imp y l r = .ok v
  copies : ∀ k, 0 < k → ∀ y l r y' l' r', y'.Perm (List.replicate k y).flatten → l'.Perm (List.replicate k l).flatten →
    r'.Perm (List.replicate k r).flatten → imp y' l' r' = imp y l r
  least : ∀ y l r, y ≠ [] → y.Perm (l ++ r) → ∀ v v₀, imp y l r = .ok v → imp y y [] = .ok v₀ → v₀ ≤ v

variable {imp}

theorem score_copies (hi : Relative imp) (h : Copied r X y X' y') (hr : 0 < r) (f : Nat) (t t' : α)
    (ht : ∀ a ∈ X.col f, a ≤ t' ↔ a ≤ t) : score imp X' y' f t' = score imp X y f t := by
  unfold score
  refine hi.copies r hr _ _ _ _ _ _ (targets h) ?_ ?_
  · exact targets (child h f (fun a => decide (a ≤ t)) (fun a => decide (a ≤ t')) fun a ha => by simp [ht a ha])
  · exact targets (child h f (fun a => decide (t < a)) (fun a => decide (t' < a)) fun a ha => by
      simp only [← not_le, ht a ha])

theorem part_all (hx : X.WF) (hy : y.length = X.nrows) (f : Nat) (hf : f < X.ncols) (p : α → Bool)
    (hp : ∀ a ∈ X.col f, p a = true) : part X y f p = X.rows.zip y := by
  unfold part
  refine List.filter_eq_self.mpr fun e he => ?_
  have hm := (List.of_mem_zip he).1
  have hl : f < e.1.length := by rw [hx _ hm]; exact hf
  unfold side
  rw [List.getElem?_eq_getElem hl]
  exact hp _ (List.mem_filterMap.mpr ⟨e.1, hm, List.getElem?_eq_getElem hl⟩)

theorem part_none (f : Nat) (p : α → Bool)
    (hp : ∀ a ∈ X.col f, p a = false) : part X y f p = [] := by
  unfold part
  refine List.filter_eq_nil_iff.mpr fun e he => ?_
  have hm := (List.of_mem_zip he).1
  unfold side
  cases hc : e.1[f]? with
  | none => simp
  | some a => simp [hp a (List.mem_filterMap.mpr ⟨e.1, hm, hc⟩)]

/-- A threshold above all samples scores what an empty side scores. -/
theorem score_trivial (hx : X.WF) (hy : y.length = X.nrows) (f : Nat) (hf : f < X.ncols) (t : α)
    (ht : ∀ a ∈ X.col f, a ≤ t) : score imp X y f t = imp y y [] := by
  unfold score
  rw [part_all hx hy f hf _ fun a ha => by simp [ht a ha], part_none f _ fun a ha => by simp [ht a ha],
    List.map_snd_zip (by rw [hy]; exact le_rfl), List.map_nil]

theorem score_least (hi : Relative imp) (hx : X.WF) (hy : y.length = X.nrows) (h0 : y ≠ []) (f : Nat) (hf : f < X.ncols)
    (t : α) (v v₀ : R) (hv : score imp X y f t = .ok v) (hv₀ : imp y y [] = .ok v₀) : v₀ ≤ v := by
  refine hi.least y _ _ h0 ?_ v v₀ hv hv₀
  rw [← List.map_append]
  have : (X.rows.zip y).Perm (part X y f (fun a => decide (a ≤ t)) ++ part X y f fun a => decide (t < a)) := by
    unfold part
    refine (List.filter_append_perm (side f fun a => decide (a ≤ t)) _).symm.trans (List.Perm.of_eq ?_)
    congr 1
    refine List.filter_congr fun e he => ?_
    have hm := (List.of_mem_zip he).1
    have hl : f < e.1.length := by rw [hx _ hm]; exact hf
    unfold side
    rw [List.getElem?_eq_getElem hl]
    simp [← not_le]
  have := this.map Prod.snd
  rwa [List.map_snd_zip (by rw [hy]; exact le_rfl)] at this

/-- The best split of the copies is the best split of the original up to a threshold that separates the samples alike. -/
theorem bestSplit_copies (hi : Relative imp) (h : Copied r X y X' y') (hr : 0 < r) (h3 : 3 ≤ X.nrows) (start : R)
    (b b' : Best α R) (hb : bestSplit start imp X y = .ok b) (hb' : bestSplit start imp X' y' = .ok b') :
    (b.split = none → b'.split = none) ∧ ∀ f t, b.split = some (f, t) → ∃ t', b'.split = some (f, t') ∧
      b'.impurity = b.impurity ∧ ∀ a ∈ X.col f, a ≤ t' ↔ a ≤ t := by
  have h3' : 3 ≤ X'.nrows := by rw [nrows h]; exact h3.trans (Nat.le_mul_of_pos_left _ hr)
  have h0 : y ≠ [] := by rintro rfl; have := h.len; simp at this; omega
  obtain ⟨-, n1, s1⟩ := C64_best_split start imp X h.wf h3 y h.len b hb
  obtain ⟨-, n2, s2⟩ := C64_best_split start imp X' h.wf' h3' y' h.len' b' hb'
  simp only [← score_eq] at n1 s1 n2 s2
  -- every candidate of the copies is dominated by a candidate of the original
  have key : ∀ f t' v, IsCandidate X' f t' → score imp X' y' f t' = .ok v → ∃ t w, IsCandidate X f t ∧
      score imp X y f t = .ok w ∧ v ≤ w := by
    intro f t' v hc hv
    rcases candidate_original h hr f t' hc with ⟨t, c, -, e⟩ | hall
    · exact ⟨t, v, c, by rw [← score_copies hi h hr f t t' e]; exact hv, le_rfl⟩
    · have hf : f < X.ncols := by rw [← h.cols]; exact hc.1
      obtain ⟨t, c⟩ := exists_candidate X h.wf y h.len h3 f hf
      obtain ⟨w, hw⟩ := hi.total y ((part X y f fun a => decide (a ≤ t)).map Prod.snd)
        ((part X y f fun a => decide (t < a)).map Prod.snd)
      refine ⟨t, w, c, hw, ?_⟩
      refine score_least hi h.wf h.len h0 f hf t w v hw ?_
      rw [← hv, score_copies hi h hr f t' t' fun _ _ => Iff.rfl, score_trivial h.wf h.len f hf t' hall]
  refine ⟨fun hn => n2.mpr fun f t' v hc hv => ?_, fun f t hs => ?_⟩
  · obtain ⟨t, w, c, hw, hvw⟩ := key f t' v hc hv
    exact hvw.trans (n1.mp hn f t w c hw)
  · obtain ⟨c, hv, hst, hmax⟩ := s1 f t hs
    have c' := candidate_copies h hr f t c
    have hv' : score imp X' y' f t = .ok b.impurity := by rw [score_copies hi h hr f t t fun _ _ => Iff.rfl]; exact hv
    cases hs' : b'.split with
    | none => exact absurd (n2.mp hs' f t _ c' hv') (not_le.mpr hst)
    | some q =>
      obtain ⟨g, t'⟩ := q
      obtain ⟨d, hw, -, hmax'⟩ := s2 g t' hs'
      obtain ⟨u, w, cu, hu, hle⟩ := key g t' _ d hw
      have hwle := (hmax g u w cu hu).1
      have hble := (hmax' f t _ c' hv').1
      have e1 : b'.impurity = b.impurity := le_antisymm (hle.trans hwle) hble
      have e2 : w = b.impurity := le_antisymm hwle (e1 ▸ hle)
      have hg := (hmax g u w cu hu).2 e2
      have hf := (hmax' f t _ c' hv').2 e1.symm
      have hgf : g = f := by omega
      subst hgf
      have ht' : t' ≤ t := by
        rcases hf with h | h
        · omega
        · exact h.2
      refine ⟨t', rfl, e1, ?_⟩
      rcases candidate_original h hr g t' d with ⟨s, cs, -, e⟩ | hall
      · have hs2 : score imp X y g s = .ok b.impurity := by
          rw [← score_copies hi h hr g s t' e, hw, e1]
        have hts : t ≤ s := by
          rcases (hmax g s _ cs hs2).2 rfl with h | h
          · omega
          · exact h.2
        intro a ha
        exact ⟨fun h => h.trans ht', fun h => (e a ha).mpr (h.trans hts)⟩
      · intro a ha
        exact ⟨fun _ => (hall a ha).trans ht', fun _ => hall a ha⟩

/-- Two trees that count `r` times as many samples and send the samples `S` the same way. -/
inductive Same (r : Nat) : List (List α) → Tree α (List Nat) → Tree α (List Nat) → Prop
  | null (S) : Same r S .null .null
  | leaf (S v) : Same r S (.node v none .null .null) (.node (v.map (r * ·)) none .null .null)
  | node (S v f t t' l l' q q') (hS : ∀ x ∈ S, ∀ a, x[f]? = some a → (a ≤ t' ↔ a ≤ t))
      (hl : Same r (S.filter fun x => x[f]?.any fun a => decide (a ≤ t)) l l')
      (hq : Same r (S.filter fun x => x[f]?.any fun a => decide (t < a)) q q') :
      Same r S (.node v (some (f, t)) l q) (.node (v.map (r * ·)) (some (f, t')) l' q')

theorem Same.null_iff {S : List (List α)} {T T' : Tree α (List Nat)} (h : Same r S T T') : T' = .null ↔ T = .null := by
  cases h <;> simp

theorem route_split {ν : Type} (x : List α) (v : ν) (f : Nat) (t : α) (l q : Tree α ν) (hl : l ≠ .null) :
    DTree.route x (.node v (some (f, t)) l q) = (do
      let a ← readAt x f
      if a ≤ t then DTree.route x l else DTree.route x q) := by
  cases l with
  | null => exact absurd rfl hl
  | node => rw [DTree.route]

theorem Same.route {S : List (List α)} {T T' : Tree α (List Nat)} (h : Same r S T T') (x : List α) (hx : x ∈ S) :
    route x T' = (do let v ← route x T; .ok (v.map (r * ·))) := by
  induction h with
  | null S => rfl
  | leaf S v => rfl
  | node S v f t t' l l' q q' hS hl hq ihl ihq =>
    by_cases hn : l = .null
    · rw [hl.null_iff.mpr hn, hn]; rfl
    · rw [route_split x _ f t l q hn, route_split x _ f t' l' q' (hl.null_iff.not.mpr hn)]
      unfold readAt
      cases hc : x[f]? with
      | none => rfl
      | some a =>
        simp only [Res.bind_ok, hS x hx a hc]
        by_cases ha : a ≤ t
        · rw [if_pos ha, if_pos ha]
          exact ihl (List.mem_filter.mpr ⟨hx, by simp [hc, ha]⟩)
        · rw [if_neg ha, if_neg ha]
          exact ihq (List.mem_filter.mpr ⟨hx, by simp [hc, not_le.mp ha]⟩)

theorem part_rows (hy : y.length = X.nrows) (f : Nat) (p : α → Bool) :
    (part X y f p).map Prod.fst = X.rows.filter fun x => x[f]?.any p := by
  unfold part
  rw [side_eq, show (fun e : List α × α => e.1[f]?.any p) = (fun x : List α => x[f]?.any p) ∘ Prod.fst from rfl,
    ← List.filter_map, List.map_fst_zip (by rw [hy]; exact le_rfl)]

theorem children_ok {β : Type} (c d : Prop) [Decidable c] [Decidable d] (A B : Res β) (n : β) (F : β → β → β) (T : β)
    (h : (if c then (do
        let l ← A
        if d then (do
          let q ← B
          .ok (F l q)) else .ok (F l n))
      else if d then (do
        let q ← B
        .ok (F n q)) else .ok (F n n)) = Res.ok T) :
    ∃ l q, (if c then A else .ok n) = .ok l ∧ (if d then B else .ok n) = .ok q ∧ T = F l q := by
  by_cases hc : c <;> by_cases hd : d <;> simp only [if_pos, if_neg, hc, hd, not_false_eq_true, Res.bind_eq_ok] at h ⊢
  · obtain ⟨l, hl, q, hq, h⟩ := h
    exact ⟨l, q, by simpa using hl, by simpa using hq, (Res.ok.inj h).symm⟩
  · obtain ⟨l, hl, h⟩ := h
    exact ⟨l, n, by simpa using hl, by simp, (Res.ok.inj h).symm⟩
  · obtain ⟨q, hq, h⟩ := h
    exact ⟨n, q, by simp, by simpa using hq, (Res.ok.inj h).symm⟩
  · exact ⟨n, n, by simp, by simp, (Res.ok.inj h).symm⟩

theorem build_copies (hi : Relative imp) (hr : 0 < r) (classes : List α) (start : R) (P : Params R) (h3 : 3 ≤ P.minSplit)
    (fuel : Nat) (X X' : DMat α) (y y' : List α) (h : Copied r X y X' y') (depth : Nat) (T T' : Tree α (List Nat))
    (hT : build (classifier classes start imp) P fuel X y depth = .ok T)
    (hT' : build (classifier classes start imp) ⟨r * P.minSplit, r * P.minLeaf, P.maxDepth, P.minDecrease⟩ fuel X' y' depth =
      .ok T') : Same r X.rows T T' := by
  induction fuel generalizing X X' y y' depth T T' with
  | zero => cases hT
  | succ fuel ih =>
    have hval : ∀ v v', classCounts classes y = .ok v → classCounts classes y' = .ok v' → v' = v.map (r * ·) := by
      intro v v' hv hv'
      unfold classCounts at hv hv'
      split at hv
      · cases hv
      next hne =>
      rw [if_neg hne] at hv'
      cases hv; cases hv'
      rw [List.map_map]
      exact List.map_congr_left fun c _ => count_copies r _ _ (targets h) c
    rw [build, Res.bind_eq_ok] at hT hT'
    obtain ⟨v, hv, hT⟩ := hT
    obtain ⟨v', hv', hT'⟩ := hT'
    obtain rfl := hval v v' hv hv'
    have hstop : ∀ z, ¬ (classifier classes start imp).stop z = true := fun z => Bool.false_ne_true
    rw [if_neg (hstop _)] at hT hT'
    by_cases hms : X.nrows < P.minSplit
    · rw [if_pos hms] at hT
      rw [if_pos (by rw [nrows h]; exact (Nat.mul_lt_mul_left hr).mpr hms)] at hT'
      cases hT; cases hT'
      exact .leaf _ _
    rw [if_neg hms] at hT
    rw [if_neg (by rw [nrows h, Nat.mul_lt_mul_left hr]; exact hms)] at hT'
    by_cases hd : P.maxDepth < depth
    · rw [if_pos hd] at hT hT'
      cases hT; cases hT'
      exact .leaf _ _
    rw [if_neg hd] at hT hT'
    rw [Res.bind_eq_ok] at hT hT'
    obtain ⟨b, hb, hT⟩ := hT
    obtain ⟨b', hb', hT'⟩ := hT'
    obtain ⟨k1, k2⟩ := bestSplit_copies hi h hr (by omega) start b b' hb hb'
    cases hs : b.split with
    | none =>
      rw [hs] at hT
      rw [k1 hs] at hT'
      cases hT; cases hT'
      exact .leaf _ _
    | some q =>
      obtain ⟨f, t⟩ := q
      obtain ⟨t', hs', himp, hsep⟩ := k2 f t hs
      rw [hs] at hT
      rw [hs'] at hT'
      simp only [himp] at hT hT'
      by_cases hdec : b.impurity ≤ P.minDecrease
      · rw [if_pos hdec] at hT hT'
        cases hT; cases hT'
        exact .leaf _ _
      rw [if_neg hdec] at hT hT'
      have hf := (bestSplit_lt imp X h.wf y h.len start b hb f t hs).1
      have hf' : f < X'.ncols := by rw [h.cols]; exact hf
      simp only [gather_rows X h.wf y h.len f hf, gather_targets X h.wf y h.len f hf, Res.bind_ok, List.length_map] at hT
      simp only [gather_rows X' h.wf' y' h.len' f hf', gather_targets X' h.wf' y' h.len' f hf', Res.bind_ok,
        List.length_map] at hT'
      obtain ⟨l, q, hl, hq, rfl⟩ := children_ok _ _ _ _ _ _ _ hT
      obtain ⟨l', q', hl', hq', rfl⟩ := children_ok _ _ _ _ _ _ _ hT'
      have sub : ∀ (p p' : α → Bool) (_ : ∀ a ∈ X.col f, p' a = p a) (S S' : Tree α (List Nat)),
          (if P.minLeaf ≤ (part X y f p).length then build (classifier classes start imp) P fuel
            ⟨X.ncols, (part X y f p).map Prod.fst⟩ ((part X y f p).map Prod.snd) (depth + 1) else .ok .null) = .ok S →
          (if r * P.minLeaf ≤ (part X' y' f p').length then build (classifier classes start imp)
            ⟨r * P.minSplit, r * P.minLeaf, P.maxDepth, P.minDecrease⟩ fuel ⟨X'.ncols, (part X' y' f p').map Prod.fst⟩
            ((part X' y' f p').map Prod.snd) (depth + 1) else .ok .null) = .ok S' →
          Same r (X.rows.filter fun x => x[f]?.any p) S S' := by
        intro p p' hp S S' hS hS'
        rw [length_copies r _ _ (part_copies h f p p' hp)] at hS'
        by_cases hm : P.minLeaf ≤ (part X y f p).length
        · rw [if_pos hm] at hS
          rw [if_pos (Nat.mul_le_mul_left r hm)] at hS'
          have := ih _ _ _ _ (child h f p p' hp) (depth + 1) S S' hS hS'
          rwa [part_rows h.len] at this
        · rw [if_neg hm] at hS
          rw [if_neg (by rw [Nat.mul_le_mul_left_iff hr]; exact hm)] at hS'
          cases hS; cases hS'
          exact .null _
      refine .node _ _ _ _ _ _ _ _ _ (fun x hx a ha => hsep a (List.mem_filterMap.mpr ⟨x, hx, ha⟩)) ?_ ?_
      · exact sub _ _ (fun a ha => by simp [hsep a ha]) l l' hl hl'
      · exact sub _ _ (fun a ha => by simp only [← not_le, hsep a ha]) q q' hq hq'

/-- Multiplied counts are the same proportions. -/
theorem probs_copies (hr : 0 < r) (v : List Nat) : probs (α := α) (v.map (r * ·)) = probs v := by
  have hs : (v.map (r * ·)).sum = r * v.sum := by rw [List.sum_map_mul_left]; simp
  unfold probs
  rw [hs, List.map_map]
  refine List.map_congr_left fun c _ => ?_
  simp only [Function.comp, Nat.mul_eq_zero, hr.ne', false_or]
  have : (r : α) ≠ 0 := by exact_mod_cast hr.ne'
  push_cast
  rw [mul_div_mul_left _ _ this]

end OpenML.Copies
