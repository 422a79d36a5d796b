import Verif.Model.KMeansRounded
import Verif.Props.KMeansRecovery
import Verif.Props.Rounding

/-!
# C176: k-means with rounding
-/

namespace OpenML

open Spec Rounding KMeansRecovery

namespace KMeansRounding

theorem sq_apart (x y : List ℝ) : apart x y ^ 2 = sqDist x y := Real.sq_sqrt (KMeans.sqDist_nonneg x y)

/-- The computed index for a point that is near one centroid and far from the others. -/
theorem nearest_rounded {A : Arith} {C : List (List ℝ)} {x : List ℝ} {a l : Nat} {s t : ℝ} (ha : a < C.length) (ht : 0 ≤ t)
    (hst : (1 + A.u) ^ (x.length + 4) * s ^ 2 < (1 - A.u) ^ (x.length + 4) * t ^ 2)
    (h1 : apart x C[a] ≤ s) (h2 : ∀ (j : Nat) (hj : j < C.length), j ≠ a → t ≤ apart x C[j])
    (h : Nearest A C x l) : l = a := by
  obtain ⟨c, -, -, hu, -⟩ := C131_nearest A C (List.ne_nil_of_length_pos (by omega)) x l h
  refine hu a C[a] (List.getElem?_eq_getElem ha) ?_
  intro i c' hc' hne
  obtain ⟨hi, rfl⟩ := List.getElem?_eq_some_iff.mp hc'
  rw [← sq_apart, ← sq_apart]
  have hp1 : (0 : ℝ) ≤ (1 + A.u) ^ (x.length + 4) := by have := A.nonneg; positivity
  have hp2 : (0 : ℝ) ≤ (1 - A.u) ^ (x.length + 4) := pow_nonneg (by linarith [A.lt_one]) _
  calc (1 + A.u) ^ (x.length + 4) * apart x C[a] ^ 2 ≤ (1 + A.u) ^ (x.length + 4) * s ^ 2 :=
        mul_le_mul_of_nonneg_left (pow_le_pow_left₀ (apart_nonneg _ _) h1 2) hp1
    _ < (1 - A.u) ^ (x.length + 4) * t ^ 2 := hst
    _ ≤ (1 - A.u) ^ (x.length + 4) * apart x C[i] ^ 2 :=
        mul_le_mul_of_nonneg_left (pow_le_pow_left₀ ht (h2 i hi hne) 2) hp2

theorem labels_rounded {A : Arith} {d : Nat} {C : List (List ℝ)} {s t : ℝ} (ht : 0 ≤ t)
    (hst : (1 + A.u) ^ (d + 4) * s ^ 2 < (1 - A.u) ^ (d + 4) * t ^ 2) (rows : List (List ℝ)) (G labels : List Nat)
    (hw : ∀ r ∈ rows, r.length = d) (hG : G.length = rows.length) (hlt : ∀ a ∈ G, a < C.length)
    (hC : ∀ e ∈ rows.zip G, ∀ (j : Nat) (hj : j < C.length), (j = e.2 → apart e.1 C[j] ≤ s) ∧ (j ≠ e.2 → t ≤ apart e.1 C[j]))
    (h : Labels A C rows labels) : labels = G := by
  unfold Labels at h
  induction h generalizing G with
  | nil => exact (List.length_eq_zero_iff.mp hG).symm
  | @cons x j rows labels hab _ ih =>
    match G, hG with
    | a :: G, hG =>
      have ha : a < C.length := hlt a (by simp)
      rw [ih G (fun r hr => hw r (by simp [hr])) (by simpa using hG) (fun b hb => hlt b (by simp [hb]))
        (fun e he => hC e (by simp [he]))]
      have h0 := hC (x, a) (by simp)
      rw [nearest_rounded ha ht (by rw [hw x (by simp)]; exact hst) ((h0 a ha).1 rfl) (fun j hj hne => (h0 j hj).2 hne) hab]

/-- The rounding error of a mean of rows. -/
theorem meanRow_error {A : Arith} {d n : Nat} {rows : List (List ℝ)} {m : List ℝ} {B ε : ℝ} (hne : rows ≠ [])
    (hn : rows.length ≤ n) (hB0 : 0 ≤ B) (hB : ∀ r ∈ rows, ∀ i, |r.getD i 0| ≤ B) (hε : 0 ≤ ε)
    (hεd : (d : ℝ) * (((1 + A.u) ^ n - 1) * B) ^ 2 ≤ ε ^ 2) (h : MeanRow A d rows m) : apart m (centreOf d rows) ≤ ε := by
  refine Real.sqrt_le_iff.mpr ⟨hε, le_trans ?_ hεd⟩
  rw [KMeans.sqDist_coord d m (centreOf d rows) h.1 (KMeans.length_centreOf d rows)]
  have hl : (0 : ℝ) < rows.length := by exact_mod_cast List.length_pos_iff.mpr hne
  have hpn : (1 : ℝ) ≤ (1 + A.u) ^ rows.length := Rounding.one_le_pow A _
  have hmono : (1 + A.u) ^ rows.length ≤ (1 + A.u) ^ n := pow_le_pow_right₀ (by linarith [A.nonneg]) hn
  calc ∑ i ∈ Finset.range d, (m.getD i 0 - (centreOf d rows).getD i 0) ^ 2
      ≤ ∑ i ∈ Finset.range d, (((1 + A.u) ^ n - 1) * B) ^ 2 := by
        refine Finset.sum_le_sum fun i hi => ?_
        have hid : i < d := Finset.mem_range.mp hi
        have hm := C131_mean A (rows.map fun r => r.getD i 0) (by simpa using hne) _ (h.2 i hid)
        have hc : (centreOf d rows).getD i 0 = average (rows.map fun r => r.getD i 0) := by
          simp [centreOf, average, hid]
        rw [hc, ← sq_abs]
        refine pow_le_pow_left₀ (abs_nonneg _) (hm.trans ?_) 2
        have hav : average ((rows.map fun r => r.getD i 0).map fun x => |x|) ≤ B := by
          rw [average, div_le_iff₀ (by simpa using List.length_pos_iff.mpr hne)]
          have : ∀ l : List (List ℝ), (∀ r ∈ l, ∀ i, |r.getD i 0| ≤ B) →
              ((l.map fun r => r.getD i 0).map fun x => |x|).sum ≤ B * l.length := by
            intro l hl
            induction l with
            | nil => simp
            | cons r l ih =>
              have h1 := ih fun r hr => hl r (by simp [hr])
              have h2 := hl r (by simp) i
              simp only [List.map_cons, List.sum_cons, List.length_cons, Nat.cast_add, Nat.cast_one]
              linarith
          simpa using this rows hB
        rw [List.length_map]
        have h0 : 0 ≤ average ((rows.map fun r => r.getD i 0).map fun x => |x|) := by
          refine div_nonneg (List.sum_nonneg ?_) (Nat.cast_nonneg _)
          intro a ha
          obtain ⟨b, -, rfl⟩ := List.mem_map.mp ha
          exact abs_nonneg b
        exact mul_le_mul (by linarith) hav h0 (by linarith)
    _ = d * (((1 + A.u) ^ n - 1) * B) ^ 2 := by simp

theorem moves_spec {A : Arith} {X : DMat ℝ} {labels cs : List Nat} {C C' : List (List ℝ)} (h : Moves A X labels cs C C')
    (hnd : cs.Nodup) : C'.length = C.length ∧
      ∀ j, (j ∈ cs → ∃ m, C'[j]? = some m ∧ MeanRow A X.ncols (KMeans.members X labels j) m) ∧ (j ∉ cs → C'[j]? = C[j]?) := by
  induction h with
  | nil C => exact ⟨rfl, fun j => ⟨by simp, fun _ => rfl⟩⟩
  | @cons c cs C C' m hc hm _ ih =>
    obtain ⟨hcn, hnd'⟩ := List.nodup_cons.mp hnd
    obtain ⟨h1, h2⟩ := ih hnd'
    refine ⟨by rw [h1, List.length_set], fun j => ⟨fun hj => ?_, fun hj => ?_⟩⟩
    · rcases List.mem_cons.mp hj with rfl | hj
      · exact ⟨m, by rw [(h2 j).2 hcn, List.getElem?_set_self hc], hm⟩
      · exact (h2 j).1 hj
    · rw [(h2 j).2 fun h => hj (by simp [h]), List.getElem?_set_ne (fun h => hj (by simp [h]))]

theorem moves_exists (A : Arith) (X : DMat ℝ) (labels cs : List Nat) (C : List (List ℝ)) (h : ∀ c ∈ cs, c < C.length) :
    ∃ C', Moves A X labels cs C C' := by
  have hsum : ∀ l : List ℝ, ∃ s, Summed A l s := by
    intro l
    induction l with
    | nil => exact ⟨0, .nil⟩
    | cons a l ih =>
      obtain ⟨s, hs⟩ := ih
      cases l with
      | nil => exact ⟨a, .single a⟩
      | cons b l => exact ⟨_, .add (.single a) hs (by simp) (by simp) (List.Perm.refl _)⟩
  induction cs generalizing C with
  | nil => exact ⟨C, .nil C⟩
  | cons c cs ih =>
    choose f hf using fun i => hsum ((KMeans.members X labels c).map fun r => r.getD i 0)
    obtain ⟨C', hC'⟩ := ih (C.set c ((List.range X.ncols).map fun i => A.rnd (f i / (KMeans.members X labels c).length)))
      fun b hb => by rw [List.length_set]; exact h b (by simp [hb])
    refine ⟨C', .cons (h c (by simp)) ⟨by simp, fun i hi => ⟨f i, hf i, ?_⟩⟩ hC'⟩
    simp [hi]

end KMeansRounding

open KMeansRounding

/-- C176: with rounding errors k-means still finds well separated groups. Groups are numbered by the initial centroids, which are
samples of theirs; coordinates are at most `B`, and `ε` bounds the rounding error of a mean. If samples of one group are within `δ`
and others at least `Δ` apart, and `δ + ε` is below `Δ - δ - ε` by the factor that rounding may cost, then in whatever order sums
are computed and after however many iterations, the centroids are within `ε` of the exact means of the groups, and `predict` gives every
sample, and every point that belongs to a group, exactly the number of its group. -/
theorem C176_recovers (A : Arith) (X : DMat ℝ) (hx : X.WF) (G : List Nat) (hG : G.length = X.nrows) (δ Δ B ε : ℝ)
    (hB : ∀ r ∈ X.rows, ∀ a ∈ r, |a| ≤ B) (hB0 : 0 ≤ B) (hε : 0 ≤ ε)
    (hεd : (X.ncols : ℝ) * (((1 + A.u) ^ X.nrows - 1) * B) ^ 2 ≤ ε ^ 2)
    (hsep : ∀ e ∈ X.rows.zip G, BelongsWithin δ Δ X.rows G e.1 e.2) (hle : 0 ≤ Δ - δ - ε)
    (hfac : (1 + A.u) ^ (X.ncols + 4) * (δ + ε) ^ 2 < (1 - A.u) ^ (X.ncols + 4) * (Δ - δ - ε) ^ 2)
    (C : List (List ℝ)) (hC : ∀ (j : Nat) (hj : j < C.length), (C[j], j) ∈ X.rows.zip G) (hlt : ∀ a ∈ G, a < C.length)
    (n : Nat) (C' : List (List ℝ)) (h : Lloyd A X (n + 1) C C') :
    C'.length = C.length ∧
      (∀ (j : Nat) (hj : j < C'.length), C'[j].length = X.ncols ∧ apart C'[j] (centreOf X.ncols (withLabel X.rows G j)) ≤ ε) ∧
      (∀ labels, Labels A C' X.rows labels → labels = G) ∧
      ∀ q a j, q.length = X.ncols → a < C.length → BelongsWithin δ Δ X.rows G q a → Nearest A C' q j → j = a := by
  have hBg : ∀ r ∈ X.rows, ∀ i, |r.getD i 0| ≤ B := by
    intro r hr i
    by_cases hi : i < r.length
    · rw [List.getD_eq_getElem?_getD, List.getElem?_eq_getElem hi, Option.getD_some]
      exact hB r hr _ (List.getElem_mem hi)
    · rw [List.getD_eq_getElem?_getD, List.getElem?_eq_none (by omega)]
      simpa using hB0
  have hmem : ∀ p j, p ∈ withLabel X.rows G j ↔ (p, j) ∈ X.rows.zip G := by
    intro p j
    unfold withLabel
    constructor
    · intro h
      obtain ⟨e, he, rfl⟩ := List.mem_map.mp h
      obtain ⟨h1, h2⟩ := List.mem_filter.mp he
      have : e.2 = j := by simpa using h2
      rw [← this]
      exact h1
    · intro h
      exact List.mem_map.mpr ⟨(p, j), List.mem_filter.mpr ⟨h, by simp⟩, rfl⟩
  have hwl : ∀ j, ∀ p ∈ withLabel X.rows G j, p.length = X.ncols := fun j p hp => hx p (List.of_mem_zip ((hmem p j).mp hp)).1
  -- centroids close to the means of the groups
  let Near : List (List ℝ) → Prop := fun P => P.length = C.length ∧
    ∀ (j : Nat) (hj : j < P.length), P[j].length = X.ncols ∧ apart P[j] (centreOf X.ncols (withLabel X.rows G j)) ≤ ε
  -- centroids that separate the groups
  let Good : List (List ℝ) → Prop := fun P => P.length = C.length ∧ ∀ q a, q.length = X.ncols → BelongsWithin δ Δ X.rows G q a →
    ∀ (j : Nat) (hj : j < P.length), (j = a → apart q P[j] ≤ δ + ε) ∧ (j ≠ a → Δ - δ - ε ≤ apart q P[j])
  have hstart : Good C := by
    refine ⟨rfl, fun q a _ hb j hj => ⟨fun hja => ?_, fun hja => ?_⟩⟩
    · have := (hb _ (hC j hj)).1 hja
      simp only at this
      linarith
    · have h1 := (hb _ (hC j hj)).2 hja
      have h2 := (apart_nonneg _ _).trans ((hsep _ (hC j hj) _ (hC j hj)).1 rfl)
      simp only at h1
      linarith
  have hNG : ∀ P, Near P → Good P := by
    rintro P ⟨hl, hP⟩
    refine ⟨hl, fun q a hq hb j hj => ?_⟩
    obtain ⟨hPl, hPe⟩ := hP j hj
    have hjC : j < C.length := by omega
    have hne : withLabel X.rows G j ≠ [] := List.ne_nil_of_mem ((hmem _ j).mpr (hC j hjC))
    have hcl := KMeans.length_centreOf X.ncols (withLabel X.rows G j)
    rw [apart_comm hPl hcl] at hPe
    constructor
    · rintro rfl
      have h1 := centre_near hne (hwl j) hq fun p hp => (hb _ ((hmem p j).mp hp)).1 rfl
      have h2 := apart_tri hq hcl hPl
      linarith
    · intro hja
      have hy := hC j hjC
      have hyl := hwl j _ ((hmem _ j).mpr hy)
      have h1 := centre_near hne (hwl j) hyl fun p hp => (hsep _ hy _ ((hmem p j).mp hp)).1 rfl
      have h2 := (hb _ hy).2 hja
      have h3 := apart_tri hq hPl hyl
      have h4 := apart_tri hPl hcl hyl
      rw [apart_comm hyl hcl] at h1
      rw [apart_comm hPl hcl] at h4
      simp only at h2
      linarith
  have hlab : ∀ P, Good P → ∀ labels, Labels A P X.rows labels → labels = G := by
    rintro P ⟨hl, hP⟩ labels hL
    exact labels_rounded hle hfac X.rows G labels hx hG (by rwa [hl]) (fun e he => hP e.1 e.2 (hx _ (List.of_mem_zip he).1) (hsep e he)) hL
  have hstep : ∀ P P', Good P → Iteration A X P P' → Near P' := by
    rintro P P' hP ⟨labels, hL, hM⟩
    obtain rfl := hlab P hP labels hL
    obtain ⟨h1, h2⟩ := moves_spec hM (Impurity.keys_nodup labels)
    refine ⟨h1.trans hP.1, fun j hj => ?_⟩
    have hjC : j < C.length := by rw [← hP.1, ← h1]; exact hj
    have hjl : j ∈ labels := (List.of_mem_zip (hC j hjC)).2
    obtain ⟨m, hm1, hm2⟩ := (h2 j).1 ((Impurity.mem_keys labels j).mpr hjl)
    rw [List.getElem?_eq_getElem hj] at hm1
    obtain rfl := Option.some.inj hm1
    have hmw : KMeans.members X labels j = withLabel X.rows labels j := KMeans.members_eq X labels j
    rw [hmw] at hm2
    refine ⟨hm2.1, meanRow_error (List.ne_nil_of_mem ((hmem _ j).mpr (hC j hjC))) ?_ hB0
      (fun r hr => hBg r (List.of_mem_zip ((hmem r j).mp hr)).1) hε hεd hm2⟩
    unfold withLabel
    rw [List.length_map]
    refine (List.length_filter_le _ _).trans ?_
    rw [List.length_zip]
    exact min_le_left _ _
  have hrun : ∀ n P P', Good P → Lloyd A X (n + 1) P P' → Near P' := by
    intro n
    induction n with
    | zero =>
      intro P P' hP hl
      cases hl with
      | stop hi => exact hstep P P' hP hi
      | next hi hl =>
        cases hl
        exact hstep P _ hP hi
    | succ n ih =>
      intro P P' hP hl
      cases hl with
      | stop hi => exact hstep P P' hP hi
      | next hi hl => exact ih _ _ (hNG _ (hstep P _ hP hi)) hl
  have hN := hrun n C C' hstart h
  have hGd := hNG _ hN
  refine ⟨hN.1, hN.2, hlab C' hGd, ?_⟩
  intro q a j hq ha hb hj
  exact nearest_rounded (by rw [hN.1]; exact ha) hle (by rw [hq]; exact hfac) ((hGd.2 q a hq hb a (by rw [hN.1]; exact ha)).1 rfl)
    (fun i hi hne => (hGd.2 q a hq hb i hi).2 hne) hj

/-- Two groups on a line in double precision, rounding error of the means below one hundredth. -/
theorem twoGroups_double : ((1 : ℕ) : ℝ) * (((1 + (binary 53 (by norm_num)).u) ^ 4 - 1) * 11) ^ 2 ≤ (1 / 100) ^ 2 ∧
    (1 + (binary 53 (by norm_num)).u) ^ (1 + 4) * (2 + 1 / 100 : ℝ) ^ 2 <
      (1 - (binary 53 (by norm_num)).u) ^ (1 + 4) * (8 - 2 - 1 / 100) ^ 2 ∧
    ∀ e ∈ ([[0], [10], [2], [11]] : List (List ℝ)).zip [0, 1, 0, 1],
      BelongsWithin 2 8 [[0], [10], [2], [11]] [0, 1, 0, 1] e.1 e.2 := by
  have hu : (binary 53 (by norm_num)).u = 2⁻¹ ^ 53 := rfl
  refine ⟨by rw [hu]; norm_num, by rw [hu]; norm_num, ?_⟩
  intro e he f hf
  have hs : ∀ a b : ℝ, apart [a] [b] = |a - b| := by
    intro a b
    simp [apart, sqDist, Real.sqrt_sq_eq_abs]
  simp only [List.zip_cons_cons, List.zip_nil_right, List.mem_cons, List.not_mem_nil, or_false] at he hf
  rcases he with rfl | rfl | rfl | rfl <;> rcases hf with rfl | rfl | rfl | rfl <;> norm_num [hs, abs_of_nonneg, abs_of_neg]

example (n : Nat) (C' : List (List ℝ)) (labels : List Nat)
    (h : Lloyd (binary 53 (by norm_num)) ⟨1, [[0], [10], [2], [11]]⟩ (n + 1) [[0], [10]] C')
    (hl : Labels (binary 53 (by norm_num)) C' [[0], [10], [2], [11]] labels) : labels = [0, 1, 0, 1] := by
  refine (C176_recovers (binary 53 (by norm_num)) ⟨1, [[0], [10], [2], [11]]⟩ ?_ [0, 1, 0, 1] rfl 2 8 11 (1 / 100) ?_ (by norm_num)
    (by norm_num) twoGroups_double.1 twoGroups_double.2.2 (by norm_num) twoGroups_double.2.1 [[0], [10]] ?_ (by decide) n C' h).2.2.1
    labels hl
  · intro r hr
    simp at hr
    rcases hr with rfl | rfl | rfl | rfl <;> rfl
  · intro r hr a ha
    simp at hr
    rcases hr with rfl | rfl | rfl | rfl <;> simp at ha <;> subst ha <;> norm_num [abs_of_nonneg]
  · intro j hj
    match j, hj with
    | 0, _ => simp
    | 1, _ => simp

/-- C176: every computation has a result, and in exact arithmetic the iterations are those of the model over the real numbers, and
all its runs are possible. -/
theorem C176_exact (X : DMat ℝ) (hx : X.WF) :
    (∀ (A : Arith) (n : Nat) (C : List (List ℝ)), C ≠ [] → (∀ c ∈ C, c.length = X.ncols) → ∃ C', Lloyd A X n C C') ∧
    (∀ C C' : List (List ℝ), C ≠ [] → (∀ c ∈ C, c.length = X.ncols) →
      (Iteration exact X C C' ↔ ∃ diffs, KMeans.iterate false X C = .ok (C', diffs))) ∧
    ∀ (stop : List (List ℝ) → Bool) (n : Nat) (C C' : List (List ℝ)), C ≠ [] → (∀ c ∈ C, c.length = X.ncols) →
      KMeans.lloyd false stop n X C = .ok C' → Lloyd exact X n C C' := by
  have hiter : ∀ (A : Arith) (C : List (List ℝ)), C ≠ [] → (∀ c ∈ C, c.length = X.ncols) →
      ∃ C', Iteration A X C C' := by
    intro A C hC hw
    have hl : ∃ labels, Labels A C X.rows labels := by
      have : ∀ rows : List (List ℝ), (∀ r ∈ rows, r.length = X.ncols) → ∃ labels, Labels A C rows labels := by
        intro rows hr
        induction rows with
        | nil => exact ⟨[], .nil⟩
        | cons r rows ih =>
          obtain ⟨labels, hl⟩ := ih fun r hr' => hr r (by simp [hr'])
          obtain ⟨j, hj⟩ := C131_exact.2.2.1 A C r fun c hc => (hw c hc).trans (hr r (by simp)).symm
          exact ⟨j :: labels, .cons hj hl⟩
      exact this X.rows hx
    obtain ⟨labels, hl⟩ := hl
    obtain ⟨C', hC'⟩ := moves_exists A X labels (Impurity.keys labels) C (by
      intro c hc
      obtain ⟨i, hi, rfl⟩ := List.mem_iff_getElem.mp ((Impurity.mem_keys labels c).mp hc)
      obtain ⟨e, he, -⟩ := C131_nearest A C hC _ _ ((List.forall₂_iff_get.mp hl).2 i (by rw [hl.length_eq]; exact hi) hi)
      exact (List.getElem?_eq_some_iff.mp he).1)
    exact ⟨C', labels, hl, hC'⟩
  have hwid : ∀ (A : Arith) (C C' : List (List ℝ)), (∀ c ∈ C, c.length = X.ncols) → Iteration A X C C' →
      C'.length = C.length ∧ ∀ c ∈ C', c.length = X.ncols := by
    rintro A C C' hw ⟨labels, -, hM⟩
    obtain ⟨h1, h2⟩ := moves_spec hM (Impurity.keys_nodup labels)
    refine ⟨h1, fun c hc => ?_⟩
    obtain ⟨j, hj, rfl⟩ := List.mem_iff_getElem.mp hc
    by_cases hjk : j ∈ Impurity.keys labels
    · obtain ⟨m, hm1, hm2⟩ := (h2 j).1 hjk
      rw [List.getElem?_eq_getElem hj] at hm1
      rw [Option.some.inj hm1]
      exact hm2.1
    · have := (h2 j).2 hjk
      rw [List.getElem?_eq_getElem hj, List.getElem?_eq_getElem (by omega)] at this
      rw [Option.some.inj this]
      exact hw _ (List.getElem_mem _)
  have huniq : ∀ C C' : List (List ℝ), C ≠ [] → (∀ c ∈ C, c.length = X.ncols) → Iteration exact X C C' →
      ∃ diffs, KMeans.iterate false X C = .ok (C', diffs) := by
    rintro C C' hC hw ⟨labels, hL, hM⟩
    obtain ⟨labels', C'', diffs, e1, e2, e3, -, e5, -⟩ := KMeans.iterate_spec false X hx (Or.inl rfl) C hC hw
    have hlab : labels' = labels := by
      have : ∀ (rows : List (List ℝ)) (labels : List Nat), (∀ r ∈ rows, r.length = X.ncols) → Labels exact C rows labels →
          mapRes (KMeans.nearest C) rows = .ok labels := by
        intro rows labels hr hl
        unfold Labels at hl
        induction hl with
        | nil => rfl
        | @cons r j rows labels hj _ ih =>
          rw [mapRes, (C131_exact.2.2.2.2 C r j hC fun c hc => (hw c hc).trans (hr r (by simp)).symm).mp hj, Res.bind_ok,
            ih fun r hr' => hr r (by simp [hr'])]
          rfl
      have h2 : KMeans.predict C X = .ok labels := this X.rows labels hx hL
      rw [e1] at h2
      exact Res.ok.inj h2
    subst hlab
    obtain ⟨h1, h2⟩ := moves_spec hM (Impurity.keys_nodup labels')
    have hCC : C' = C'' := by
      apply List.ext_getElem?
      intro j
      rw [e5]
      by_cases hj : j ∈ labels'
      · rw [if_pos hj]
        obtain ⟨m, hm1, hm2, hm3⟩ := (h2 j).1 ((Impurity.mem_keys labels' j).mpr hj)
        rw [hm1, Option.some.injEq]
        rw [KMeans.members_eq] at hm3
        have hne : withLabel X.rows labels' j ≠ [] :=
          (KMeans.mem_iff_withLabel hL.length_eq.symm j).mp hj
        apply List.ext_getElem
        · rw [hm2, KMeans.length_centreOf]
        · intro i hi1 hi2
          have hid : i < X.ncols := by rw [← hm2]; exact hi1
          have := C131_mean exact ((withLabel X.rows labels' j).map fun r => r.getD i 0) (by simpa using hne) _ (hm3 i hid)
          have h0 : exact.u = 0 := rfl
          rw [h0, add_zero, one_pow, sub_self, zero_mul] at this
          have heq := sub_eq_zero.mp (abs_eq_zero.mp (le_antisymm this (abs_nonneg _)))
          rw [List.getD_eq_getElem?_getD, List.getElem?_eq_getElem hi1, Option.getD_some] at heq
          rw [heq]
          simp [centreOf, average]
      · rw [if_neg hj]
        exact (h2 j).2 fun h => hj ((Impurity.mem_keys labels' j).mp h)
    exact ⟨diffs, by rw [e2, hCC]⟩
  have hiff : ∀ C C' : List (List ℝ), C ≠ [] → (∀ c ∈ C, c.length = X.ncols) →
      (Iteration exact X C C' ↔ ∃ diffs, KMeans.iterate false X C = .ok (C', diffs)) := by
    refine fun C C' hC hw => ⟨huniq C C' hC hw, ?_⟩
    rintro ⟨diffs, h⟩
    obtain ⟨C'', hC''⟩ := hiter exact C hC hw
    obtain ⟨diffs', h'⟩ := huniq C C'' hC hw hC''
    rw [h'] at h
    rw [← (Prod.mk.inj (Res.ok.inj h)).1]
    exact hC''
  have hne : ∀ C C' : List (List ℝ), C ≠ [] → C'.length = C.length → C' ≠ [] := by
    rintro C C' hC h rfl
    exact hC (List.length_eq_zero_iff.mp h.symm)
  refine ⟨?_, hiff, ?_⟩
  · intro A n
    induction n with
    | zero => exact fun C _ _ => ⟨C, .limit C⟩
    | succ n ih =>
      intro C hC hw
      obtain ⟨C', hC'⟩ := hiter A C hC hw
      exact ⟨C', .stop hC'⟩
  · intro stop n
    induction n with
    | zero =>
      intro C C' _ _ h
      rw [← Res.ok.inj h]
      exact .limit C
    | succ n ih =>
      intro C C' hC hw h
      rw [KMeans.lloyd] at h
      obtain ⟨⟨C1, ds⟩, h1, h2⟩ := Res.bind_eq_ok.mp h
      have hi := (hiff C C1 hC hw).mpr ⟨ds, h1⟩
      obtain ⟨w1, w2⟩ := hwid exact C C1 hw hi
      simp only at h2
      split at h2
      · rw [← Res.ok.inj h2]
        exact .stop hi
      · exact .next hi (ih C1 C' (hne C C1 hC w1) w2 h2)

example : ∃ C', Lloyd (binary 53 (by norm_num)) ⟨1, [[0], [10], [2], [11]]⟩ 300 [[0], [10]] C' :=
  (C176_exact ⟨1, [[0], [10], [2], [11]]⟩ (by intro r hr; simp at hr; rcases hr with rfl | rfl | rfl | rfl <;> rfl)).1 _ _ _
    (by simp) (by simp)

end OpenML
