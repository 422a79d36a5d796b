import Verif.Spec.KMeansObject
import Verif.Props.KMeans
import Verif.Props.RandomMat

/-!
# Theorems about programs on k-means objects (C161)
-/

namespace OpenML

open Spec KMeansObject

namespace KMeansObject

theorem mapRes_readAt_all (C : List (List ℝ)) : mapRes (readAt C) (List.range C.length) = .ok C := by
  rw [mapRes_ok_iff, List.forall₂_iff_get]
  refine ⟨by simp, fun i h1 h2 => ?_⟩
  rw [readAt_eq_ok]
  simp [h2]

theorem mapRes_readAt_none (k : Nat) (hk : 1 ≤ k) : mapRes (readAt ([] : List (List ℝ))) (List.range k) = .ub := by
  obtain ⟨k, rfl⟩ : ∃ m, k = m + 1 := ⟨k - 1, by omega⟩
  rw [List.range_succ_eq_map]
  rfl

theorem predict_entries (o : Object) (C : List (List ℝ)) (h : o.centroids = .entries C) (hk : C.length = o.params.k)
    (X : DMat ℝ) : predict o X = KMeans.predict C X := by
  rw [predict, h]
  simp only [← hk, mapRes_readAt_all, Res.bind_ok]
  rfl

theorem predict_empty (o : Object) (X : DMat ℝ) (hX : X.rows = []) : predict o X = .ok [] := by
  rw [predict]
  cases o.centroids with
  | entries C => simp only [hX]; rfl
  | indeterminate => simp only [hX]; rfl

theorem predict_new (o : Object) (h : o.centroids = .entries []) (hk : 1 ≤ o.params.k) (X : DMat ℝ) (hX : X.rows ≠ []) :
    predict o X = .ub := by
  rw [predict, h]
  obtain ⟨x, xs, hx⟩ := List.exists_cons_of_ne_nil hX
  simp only [mapRes_readAt_none _ hk, hx, mapRes, Res.bind_ub]

theorem nearest_width (C : List (List ℝ)) (hC : C ≠ []) (x : List ℝ) (w : Nat) (hw : ∀ r ∈ C, r.length = w)
    (hx : x.length ≠ w) : KMeans.nearest C x = .ub := by
  obtain ⟨c, cs, rfl⟩ := List.exists_cons_of_ne_nil hC
  simp [KMeans.nearest, KMeans.nearestFrom, KMeans.rowDiff, hw c (by simp), hx]

theorem predict_width (C : List (List ℝ)) (hC : C ≠ []) (w : Nat) (hw : ∀ r ∈ C, r.length = w) (X : DMat ℝ) (hX : X.WF)
    (hne : X.rows ≠ []) (hd : X.ncols ≠ w) : KMeans.predict C X = .ub := by
  obtain ⟨x, xs, hx⟩ := List.exists_cons_of_ne_nil hne
  rw [KMeans.predict, hx, mapRes, nearest_width C hC x w hw (by rw [hX x (by simp [hx])]; exact hd)]
  rfl

/-- The centroids before the iterations. -/
theorem initCentroid_spec (p : Params) (hp : p.init = "random" ∨ p.init = "kmeans++") (hk : 1 ≤ p.k) (g : Draw) (X : DMat ℝ)
    (hX : X.WF) (hg : ProperDraw g X.nrows) :
    ((p.init = "random" → p.k ≤ X.nrows) ∧ X.rows ≠ [] → ∃ C, initCentroid p g X = .ok (.entries C) ∧ C.length = p.k ∧
      ∀ r ∈ C, r ∈ X.rows) ∧
    (¬ ((p.init = "random" → p.k ≤ X.nrows) ∧ X.rows ≠ []) → initCentroid p g X = .ub) := by
  rcases hp with hp | hp
  · obtain ⟨h1, h2⟩ := C41_random g.perm p.k X hg.1
    constructor
    · rintro ⟨hle, -⟩
      obtain ⟨-, C, h3, h4, h5⟩ := h1 (hle hp)
      refine ⟨C, by rw [initCentroid, if_pos hp, h3]; rfl, h4, fun r hr => ?_⟩
      obtain ⟨t, ht, rfl⟩ := List.mem_iff_getElem.mp hr
      obtain ⟨i, -, -, h6⟩ := h5 t (h4 ▸ ht)
      rw [List.getElem?_eq_getElem ht] at h6
      exact List.mem_of_getElem? h6.symm
    · intro hn
      rw [initCentroid, if_pos hp, h2, Res.bind_ub]
      by_contra hlt
      refine hn ⟨fun _ => by omega, fun h0 => ?_⟩
      have : X.nrows = 0 := by rw [DMat.nrows, h0]; rfl
      omega
  · have hr : p.init ≠ "random" := by rw [hp]; decide
    obtain ⟨h1, h2⟩ := C159_kmeans g.index g.unit hg.2 p.k hk X hX
    constructor
    · rintro ⟨-, hne⟩
      obtain ⟨C, h3, h4, h5⟩ := h1 hne
      exact ⟨C, by rw [initCentroid, if_neg hr, if_pos hp, if_neg (by omega), h3]; rfl, h4, h5⟩
    · intro hn
      rw [initCentroid, if_neg hr, if_pos hp, if_neg (by omega), h2, Res.bind_ub]
      by_contra hne
      exact hn ⟨fun h => absurd h hr, hne⟩

/-- One call of `fit`. -/
theorem fit_spec (checked : Bool) (o : Object) (hp : o.params.init = "random" ∨ o.params.init = "kmeans++")
    (hk : 1 ≤ o.params.k) (g : Draw) (X : DMat ℝ) (hX : X.WF) (hg : ProperDraw g X.nrows) :
    (MayFit checked o.params X → ∃ C C₀, fit checked g X o = .ok ⟨o.params, .entries C⟩ ∧ C.length = o.params.k ∧
      (∀ r ∈ C, r.length = X.ncols) ∧ C₀.length = o.params.k ∧ (∀ r ∈ C₀, r ∈ X.rows) ∧
      inertia X.rows C ≤ inertia X.rows C₀) ∧
    (¬ MayFit checked o.params X → fit checked g X o = .ub) := by
  obtain ⟨h1, h2⟩ := initCentroid_spec o.params hp hk g X hX hg
  have hne : ∀ C : List (List ℝ), C.length = o.params.k → C ≠ [] := by
    rintro C hC rfl
    simp at hC
    omega
  constructor
  · rintro ⟨ha, hb, hc⟩
    obtain ⟨C, h3, h4, h5⟩ := h1 ⟨ha, hb⟩
    have hw : ∀ r ∈ C, r.length = X.ncols := fun r hr => hX r (h5 r hr)
    rw [← or_assoc] at hc
    rcases hc with hc | hc
    · obtain ⟨C', g1, g2, g3, g4⟩ := C40_fit checked (KMeans.epsBelow o.params.tol) o.params.maxIter X hX hc C (hne C h4) hw
      refine ⟨C', C, ?_, g2.trans h4, g3, h4, h5, g4⟩
      have g1' : KMeans.lloyd checked (KMeans.epsBelow o.params.tol) o.params.maxIter X C = .ok C' := g1
      rw [fit, h3]
      simp only [Res.bind_ok, g1']
    · refine ⟨C, C, ?_, h4, hw, h4, h5, le_rfl⟩
      rw [fit, h3, hc]
      rfl
  · intro hn
    by_cases hab : (o.params.init = "random" → o.params.k ≤ X.nrows) ∧ X.rows ≠ []
    · obtain ⟨C, h3, h4, h5⟩ := h1 hab
      have hw : ∀ r ∈ C, r.length = X.ncols := fun r hr => hX r (h5 r hr)
      have hc : ¬ (checked = false ∨ X.ncols = 1 ∨ o.params.maxIter = 0) := fun hc => hn ⟨hab.1, hab.2, hc⟩
      push Not at hc
      obtain ⟨c1, c2, c3⟩ := hc
      have hck : checked = true := by simpa using c1
      obtain ⟨m, hm⟩ := Nat.exists_eq_succ_of_ne_zero c3
      have := C70_assertions (KMeans.epsBelow o.params.tol) m X hX hab.2 c2 C (hne C h4) hw
      have this' : KMeans.lloyd true (KMeans.epsBelow o.params.tol) (m + 1) X C = .ub := this
      rw [fit, h3, hm, hck]
      simp only [Res.bind_ok, Nat.succ_eq_add_one, this', Res.bind_ub]
    · rw [fit, h2 hab, Res.bind_ub]

/-- What holds for the centroids of an object between two calls. -/
def Holds (o : Object) : Option (Nat × List (List ℝ)) → Prop
  | none => o.centroids = .entries []
  | some (w, C) => o.centroids = .entries C ∧ C.length = o.params.k ∧ ∀ r ∈ C, r.length = w

theorem run_spec (checked : Bool) (as : List Action) (has : ∀ a ∈ as, ProperCall a) (o : Object)
    (hp : o.params.init = "random" ∨ o.params.init = "kmeans++") (hk : 1 ≤ o.params.k) (s : Option (Nat × List (List ℝ)))
    (hs : Holds o s) :
    (MayRun checked o.params (s.map Prod.fst) as → ∃ o' answers, run checked o as = .ok (o', answers) ∧ o'.params = o.params ∧
      Explained o.params.k (s.map Prod.snd) as answers) ∧
    (¬ MayRun checked o.params (s.map Prod.fst) as → run checked o as = .ub) := by
  induction as generalizing o s with
  | nil => exact ⟨fun _ => ⟨o, [], rfl, rfl, .done _⟩, fun h => absurd trivial h⟩
  | cons a as ih =>
    have has' : ∀ a ∈ as, ProperCall a := fun b hb => has b (by simp [hb])
    cases a with
    | fit g X =>
      obtain ⟨hX, hg⟩ : X.WF ∧ ProperDraw g X.nrows := has (.fit g X) (by simp)
      obtain ⟨f1, f2⟩ := fit_spec checked o hp hk g X hX hg
      by_cases hm : MayFit checked o.params X
      · obtain ⟨C, C₀, e1, e2, e3, e4, e5, e6⟩ := f1 hm
        obtain ⟨i1, i2⟩ := ih has' ⟨o.params, .entries C⟩ hp hk (some (X.ncols, C)) ⟨rfl, e2, e3⟩
        simp only [run, e1, Res.bind_ok]
        constructor
        · rintro ⟨-, h⟩
          obtain ⟨o', answers, r1, r2, r3⟩ := i1 h
          exact ⟨o', answers, r1, r2, .fit _ g X as answers C C₀ e2 e3 e4 e5 e6 r3⟩
        · intro h
          exact i2 fun h' => h ⟨hm, h'⟩
      · refine ⟨fun h => absurd h.1 hm, fun _ => ?_⟩
        simp only [run, f2 hm, Res.bind_ub]
    | predict X =>
      have hX : X.WF := has (.predict X) (by simp)
      obtain ⟨i1, i2⟩ := ih has' o hp hk s hs
      by_cases hrows : X.rows = []
      · simp only [run, predict_empty o X hrows, Res.bind_ok]
        constructor
        · rintro ⟨-, h⟩
          obtain ⟨o', answers, r1, r2, r3⟩ := i1 h
          exact ⟨o', [] :: answers, by rw [r1]; rfl, r2, .nothing _ X as answers hrows r3⟩
        · intro h
          rw [i2 fun h' => h ⟨Or.inl hrows, h'⟩]
          rfl
      · match s, hs with
        | none, hs =>
          refine ⟨fun h => ?_, fun _ => ?_⟩
          · rcases h.1 with h | h
            · exact absurd h hrows
            · simp at h
          · simp only [run, predict_new o hs hk X hrows, Res.bind_ub]
        | some (w, C), hs =>
          obtain ⟨hs1, hs2, hs3⟩ := hs
          have hC : C ≠ [] := by
            rintro rfl
            simp at hs2
            omega
          have hpe := predict_entries o C hs1 hs2 X
          by_cases hd : X.ncols = w
          · obtain ⟨labels, l1, l2⟩ := C40_predict X hX C hC fun r hr => (hs3 r hr).trans hd.symm
            simp only [run, hpe, l1, Res.bind_ok]
            constructor
            · rintro ⟨-, h⟩
              obtain ⟨o', answers, r1, r2, r3⟩ := i1 h
              exact ⟨o', labels :: answers, by rw [r1]; rfl, r2, .labels C X as answers labels l2 r3⟩
            · intro h
              rw [i2 fun h' => h ⟨Or.inr (by simp [hd]), h'⟩]
              rfl
          · refine ⟨fun h => ?_, fun _ => ?_⟩
            · rcases h.1 with h | h
              · exact absurd h hrows
              · simp only [Option.map_some, Option.some.injEq] at h
                exact absurd h.symm hd
            · simp only [run, hpe, predict_width C hC w hs3 X hX hrows hd, Res.bind_ub]

end KMeansObject

/-- C161: what a k-means object with at least one cluster and a known initialisation does in any program. The program is defined
exactly if each `fit` has enough samples (and one column, no iterations or no assertions) and each `predict` of at least one sample
follows a `fit` with the same number of columns; then the labels are explained by centroids which only `fit` replaces. Otherwise the
behaviour is undefined; there are no exceptions. -/
theorem C161_program (checked : Bool) (p : Params) (hp : p.init = "random" ∨ p.init = "kmeans++") (hk : 1 ≤ p.k)
    (as : List Action) (has : ∀ a ∈ as, ProperCall a) :
    (MayRun checked p none as → ∃ o answers, run checked (construct p) as = .ok (o, answers) ∧ Explained p.k none as answers) ∧
    (¬ MayRun checked p none as → run checked (construct p) as = .ub) := by
  obtain ⟨h1, h2⟩ := run_spec checked as has (construct p) hp hk none rfl
  refine ⟨fun h => ?_, h2⟩
  obtain ⟨o, answers, r1, -, r3⟩ := h1 h
  exact ⟨o, answers, r1, r3⟩

namespace KMeansObject

/-- Random numbers for two samples. -/
noncomputable def draw₂ : Draw := ⟨[1, 0], fun _ => 5, fun _ _ => 1 / 2⟩

theorem draw₂_proper (X : DMat ℝ) (h : X.nrows = 2) : ProperDraw draw₂ X.nrows := by
  rw [h]
  refine ⟨?_, fun c i => ?_⟩
  · change [1, 0].Perm (List.range 2)
    decide
  · constructor <;> norm_num [draw₂]

end KMeansObject

/-- Beside C161_program: with assertions, two samples with one column and two clusters; then a program that labels a sample first. -/
example : (∀ a ∈ [Action.fit draw₂ ⟨1, [[0], [4]]⟩, .predict ⟨1, [[7]]⟩, .predict ⟨2, []⟩], ProperCall a) ∧
    MayRun true ⟨"random", 10, 2, 300, 1⟩ none [.fit draw₂ ⟨1, [[0], [4]]⟩, .predict ⟨1, [[7]]⟩, .predict ⟨2, []⟩] ∧
    ¬ MayRun true ⟨"random", 10, 2, 300, 1⟩ none [.predict ⟨1, [[7]]⟩, .fit draw₂ ⟨1, [[0], [4]]⟩] := by
  refine ⟨?_, ?_, ?_⟩
  · intro a ha
    simp only [List.mem_cons, List.not_mem_nil, or_false] at ha
    rcases ha with rfl | rfl | rfl
    · exact ⟨by intro r hr; simp at hr; rcases hr with rfl | rfl <;> rfl, draw₂_proper _ rfl⟩
    · intro r hr
      simp at hr
      subst hr
      rfl
    · intro r hr
      simp at hr
  · simp [MayRun, MayFit, DMat.nrows]
  · simp [MayRun]

/-- C161: an earlier life of the object and `num_init` leave no trace: after a `fit` the answers of the rest of a program are those
of a new object with another `num_init` on which only this `fit` was called. -/
theorem C161_last_fit (checked : Bool) (p : Params) (m : Nat) (before rest : List Action) (g : Draw) (X : DMat ℝ) (o : Object)
    (first : List (List Nat)) (h : run checked (construct p) before = .ok (o, first)) (answers : List (List Nat)) :
    (∃ o', run checked (construct p) (before ++ .fit g X :: rest) = .ok (o', first ++ answers)) ↔
      ∃ o', run checked (construct { p with numInit := m }) (.fit g X :: rest) = .ok (o', answers) := by
  have happ : ∀ (as bs : List Action) (o o₁ : Object) (l : List (List Nat)), run checked o as = .ok (o₁, l) → ∀ out,
      ((∃ o', run checked o (as ++ bs) = .ok (o', l ++ out)) ↔ ∃ o', run checked o₁ bs = .ok (o', out)) := by
    intro as bs
    induction as with
    | nil =>
      intro o o₁ l h out
      simp only [run, Res.ok.injEq, Prod.mk.injEq] at h
      obtain ⟨rfl, rfl⟩ := h
      rfl
    | cons a as ih =>
      intro o o₁ l h out
      cases a with
      | fit g X =>
        rw [run] at h
        obtain ⟨o₂, h1, h2⟩ := Res.bind_eq_ok.mp h
        rw [List.cons_append, run, h1, Res.bind_ok]
        exact ih o₂ o₁ l h2 out
      | predict X =>
        rw [run] at h
        obtain ⟨labels, h1, h2⟩ := Res.bind_eq_ok.mp h
        obtain ⟨⟨o₂, l₂⟩, h3, h4⟩ := Res.bind_eq_ok.mp h2
        simp only [Res.ok.injEq, Prod.mk.injEq] at h4
        obtain ⟨rfl, rfl⟩ := h4
        rw [List.cons_append, run, h1, Res.bind_ok, ← ih o o₂ l₂ h3 out]
        constructor
        · rintro ⟨o', h5⟩
          obtain ⟨⟨o₃, l₃⟩, h6, h7⟩ := Res.bind_eq_ok.mp h5
          simp only [Res.ok.injEq, Prod.mk.injEq, List.cons_append, List.cons.injEq, true_and] at h7
          exact ⟨o₃, by rw [h6, h7.2]⟩
        · rintro ⟨o', h5⟩
          exact ⟨o', by rw [h5]; rfl⟩
  have hpar : ∀ (as : List Action) (o o₁ : Object) (l : List (List Nat)), run checked o as = .ok (o₁, l) → o₁.params = o.params := by
    intro as
    induction as with
    | nil =>
      intro o o₁ l h
      simp only [run, Res.ok.injEq, Prod.mk.injEq] at h
      rw [h.1]
    | cons a as ih =>
      intro o o₁ l h
      cases a with
      | fit g X =>
        rw [run] at h
        obtain ⟨o₂, h1, h2⟩ := Res.bind_eq_ok.mp h
        rw [ih _ _ _ h2]
        rw [fit] at h1
        obtain ⟨c, -, h3⟩ := Res.bind_eq_ok.mp h1
        cases c with
        | entries C =>
          obtain ⟨C', -, h4⟩ := Res.bind_eq_ok.mp h3
          cases h4
          rfl
        | indeterminate =>
          dsimp only at h3
          split at h3
          · cases h3; rfl
          · cases h3
      | predict X =>
        rw [run] at h
        obtain ⟨labels, h1, h2⟩ := Res.bind_eq_ok.mp h
        obtain ⟨⟨o₂, l₂⟩, h3, h4⟩ := Res.bind_eq_ok.mp h2
        simp only [Res.ok.injEq, Prod.mk.injEq] at h4
        rw [← h4.1]
        exact ih _ _ _ h3
  -- two objects that differ in `numInit` only answer alike
  have hsim : ∀ (as : List Action) (q : Params) (c : Centroids) (out : List (List Nat)),
      ((∃ o', run checked ⟨q, c⟩ as = .ok (o', out)) ↔ ∃ o', run checked ⟨{ q with numInit := m }, c⟩ as = .ok (o', out)) := by
    intro as
    induction as with
    | nil => intro q c out; simp [run]
    | cons a as ih =>
      intro q c out
      cases a with
      | fit g X =>
        simp only [run]
        have hf : (∀ c', fit checked g X ⟨q, c⟩ = .ok ⟨q, c'⟩ → fit checked g X ⟨{ q with numInit := m }, c⟩ = .ok ⟨{ q with numInit := m }, c'⟩) ∧
            ((∀ c', fit checked g X ⟨q, c⟩ ≠ .ok ⟨q, c'⟩) → (∀ o', fit checked g X ⟨q, c⟩ ≠ .ok o') ∧ ∀ o', fit checked g X ⟨{ q with numInit := m }, c⟩ ≠ .ok o') := by
          unfold fit
          dsimp only
          have hi : initCentroid { q with numInit := m } g X = initCentroid q g X := rfl
          rw [hi]
          cases hc : initCentroid q g X with
          | ok c =>
            simp only [Res.bind_ok]
            cases c with
            | entries C =>
              dsimp only
              cases hl : KMeans.lloyd checked (KMeans.epsBelow q.tol) q.maxIter X C <;> simp
            | indeterminate =>
              dsimp only
              split <;> simp
          | throw e => simp
          | ub => simp
          | diverge => simp
        by_cases hex : ∃ c', fit checked g X ⟨q, c⟩ = .ok ⟨q, c'⟩
        · obtain ⟨c', hc'⟩ := hex
          rw [hc', hf.1 c' hc', Res.bind_ok, Res.bind_ok]
          exact ih q c' out
        · push Not at hex
          obtain ⟨k1, k2⟩ := hf.2 hex
          constructor
          · rintro ⟨o', h⟩
            obtain ⟨o₂, h1, -⟩ := Res.bind_eq_ok.mp h
            exact absurd h1 (k1 o₂)
          · rintro ⟨o', h⟩
            obtain ⟨o₂, h1, -⟩ := Res.bind_eq_ok.mp h
            exact absurd h1 (k2 o₂)
      | predict X =>
        have hpq : predict ⟨{ q with numInit := m }, c⟩ X = predict ⟨q, c⟩ X := rfl
        simp only [run, hpq]
        cases predict ⟨q, c⟩ X with
        | ok labels =>
          simp only [Res.bind_ok, Res.bind_eq_ok, Prod.exists, Res.ok.injEq, Prod.mk.injEq]
          constructor
          · rintro ⟨o', o₁, l, h1, rfl, rfl⟩
            obtain ⟨o₂, h2⟩ := (ih q c l).mp ⟨o₁, h1⟩
            exact ⟨o₂, o₂, l, h2, rfl, rfl⟩
          · rintro ⟨o', o₁, l, h1, rfl, rfl⟩
            obtain ⟨o₂, h2⟩ := (ih q c l).mpr ⟨o₁, h1⟩
            exact ⟨o₂, o₂, l, h2, rfl, rfl⟩
        | throw e => simp
        | ub => simp
        | diverge => simp
  rw [happ before (.fit g X :: rest) (construct p) o first h answers]
  have ho : o.params = p := hpar _ _ _ _ h
  obtain ⟨q, c⟩ := o
  dsimp only at ho
  subst ho
  rw [hsim (.fit g X :: rest) q c answers]
  rfl

/-- Beside C161_last_fit: a life before, and the answers after a `fit` without iterations. -/
example : (∃ o, run true (construct ⟨"random", 10, 1, 0, 1⟩) [.predict ⟨3, []⟩, .fit draw₂ ⟨1, [[0], [4]]⟩] = .ok (o, [[]])) ∧
    ∃ o, run true (construct ⟨"random", 10, 1, 0, 1⟩) [.fit draw₂ ⟨1, [[0], [4]]⟩, .predict ⟨1, [[7]]⟩] = .ok (o, [[0]]) := by
  constructor
  · refine ⟨⟨⟨"random", 10, 1, 0, 1⟩, .entries [[4]]⟩, ?_⟩
    simp [run, predict, construct, fit, initCentroid, KMeans.initRandom, draw₂, mapRes, readAt, KMeans.lloyd]
  · refine ⟨⟨⟨"random", 10, 1, 0, 1⟩, .entries [[4]]⟩, ?_⟩
    simp [run, predict, construct, fit, initCentroid, KMeans.initRandom, draw₂, mapRes, readAt, KMeans.lloyd, KMeans.nearest,
      KMeans.nearestFrom, KMeans.rowDiff]

/-- C161: an object whose initialisation is any other string never clusters anything: as soon as it is given a sample with a
coordinate to label, or one to fit with an iteration, the behaviour is undefined, and all answers it gives are 0. -/
theorem C161_unknown (checked : Bool) (p : Params) (hp : p.init ≠ "random" ∧ p.init ≠ "kmeans++") (hk : 1 ≤ p.k)
    (as : List Action) (has : ∀ a ∈ as, ProperCall a) :
    (MayRunUnknown checked p none as → ∃ o, run checked (construct p) as = .ok (o, zeroAnswers as)) ∧
    (¬ MayRunUnknown checked p none as → run checked (construct p) as = .ub) := by
  -- the state after a call of `fit` on data with `w` columns
  have key : ∀ (as : List Action) (_ : ∀ a ∈ as, ProperCall a) (c : Centroids) (w : Option Nat)
      (_ : (w = none ∧ c = .entries []) ∨ (∃ C : List (List ℝ), w = some 0 ∧ c = .entries C ∧ C.length = p.k ∧ ∀ r ∈ C, r.length = 0) ∨
        (∃ v, w = some (v + 1) ∧ c = .indeterminate)),
      (MayRunUnknown checked p w as → ∃ o, run checked ⟨p, c⟩ as = .ok (o, zeroAnswers as)) ∧
      (¬ MayRunUnknown checked p w as → run checked ⟨p, c⟩ as = .ub) := by
    intro as
    induction as with
    | nil => intro _ c w _; exact ⟨fun _ => ⟨⟨p, c⟩, rfl⟩, fun h => absurd trivial h⟩
    | cons a as ih =>
      intro has c w hw
      have has' : ∀ a ∈ as, ProperCall a := fun b hb => has b (by simp [hb])
      cases a with
      | fit g X =>
        obtain ⟨hX, hg⟩ : X.WF ∧ ProperDraw g X.nrows := has (.fit g X) (by simp)
        have hfit : ((p.maxIter = 0 ∨ X.rows = [] ∨ X.ncols = 0 ∧ checked = false) → ∃ c', fit checked g X ⟨p, c⟩ = .ok ⟨p, c'⟩ ∧
            ((∃ C : List (List ℝ), X.ncols = 0 ∧ c' = .entries C ∧ C.length = p.k ∧ ∀ r ∈ C, r.length = 0) ∨
              ∃ v, X.ncols = v + 1 ∧ c' = .indeterminate)) ∧
            (¬ (p.maxIter = 0 ∨ X.rows = [] ∨ X.ncols = 0 ∧ checked = false) → fit checked g X ⟨p, c⟩ = .ub) := by
          by_cases hd : X.ncols = 0
          · have hi : initCentroid p g X = .ok (.entries (List.replicate p.k [])) := by
              rw [initCentroid, if_neg hp.1, if_neg hp.2, if_pos (Or.inr hd)]
            have hC : (List.replicate p.k ([] : List ℝ)) ≠ [] := by
              simp only [ne_eq, List.replicate_eq_nil_iff]
              omega
            have hw0 : ∀ r ∈ List.replicate p.k ([] : List ℝ), r.length = X.ncols := by
              intro r hr
              rw [List.eq_of_mem_replicate hr, hd]
              rfl
            constructor
            · intro h
              have hl : ∃ C', KMeans.lloyd checked (KMeans.epsBelow p.tol) p.maxIter X (List.replicate p.k []) = .ok C' ∧
                  C'.length = p.k ∧ ∀ r ∈ C', r.length = 0 := by
                rcases h with h | h | h
                · rw [h]
                  exact ⟨_, rfl, by simp, fun r hr => by rw [List.eq_of_mem_replicate hr]; rfl⟩
                · have hlo : ∀ n (C : List (List ℝ)), KMeans.lloyd checked (KMeans.epsBelow p.tol) n X C = .ok C := by
                    intro n
                    induction n with
                    | zero => intro C; rfl
                    | succ n ihn =>
                      intro C
                      have hit : KMeans.iterate checked X C = .ok (C, []) := by
                        rw [KMeans.iterate, h]
                        rfl
                      rw [KMeans.lloyd, hit]
                      simp only [Res.bind_ok, ihn]
                      split <;> rfl
                  rw [hlo]
                  exact ⟨_, rfl, by simp, fun r hr => by rw [List.eq_of_mem_replicate hr]; rfl⟩
                · obtain ⟨C', g1, g2, g3, -⟩ := C40_fit checked (KMeans.epsBelow p.tol) p.maxIter X hX (Or.inl h.2) _ hC hw0
                  exact ⟨C', g1, by simpa using g2, fun r hr => (g3 r hr).trans hd⟩
              obtain ⟨C', l1, l2, l3⟩ := hl
              refine ⟨.entries C', ?_, Or.inl ⟨C', hd, rfl, l2, l3⟩⟩
              rw [fit]
              dsimp only
              rw [hi]
              simp only [Res.bind_ok, l1]
            · intro h
              push Not at h
              obtain ⟨h1, h2, h3⟩ := h
              obtain ⟨m, hm⟩ := Nat.exists_eq_succ_of_ne_zero h1
              have hck : checked = true := by simpa using h3 hd
              have := C70_assertions (KMeans.epsBelow p.tol) m X hX h2 (by omega) _ hC hw0
              have this' : KMeans.lloyd true (KMeans.epsBelow p.tol) (m + 1) X (List.replicate p.k []) = .ub := this
              rw [fit]
              dsimp only
              rw [hi, hm, hck]
              simp only [Res.bind_ok, Nat.succ_eq_add_one, this', Res.bind_ub]
          · obtain ⟨v, hv⟩ := Nat.exists_eq_succ_of_ne_zero hd
            have hi : initCentroid p g X = .ok .indeterminate := by
              rw [initCentroid, if_neg hp.1, if_neg hp.2, if_neg (by omega)]
            constructor
            · intro h
              refine ⟨.indeterminate, ?_, Or.inr ⟨v, hv, rfl⟩⟩
              rw [fit]
              dsimp only
              rw [hi]
              simp only [Res.bind_ok]
              rw [if_pos]
              rcases h with h | h | h
              · exact Or.inl h
              · exact Or.inr h
              · exact absurd h.1 hd
            · intro h
              rw [fit]
              dsimp only
              rw [hi]
              simp only [Res.bind_ok]
              rw [if_neg]
              rintro (h' | h')
              · exact h (Or.inl h')
              · exact h (Or.inr (Or.inl h'))
        by_cases hm : p.maxIter = 0 ∨ X.rows = [] ∨ X.ncols = 0 ∧ checked = false
        · obtain ⟨c', f1, f2⟩ := hfit.1 hm
          simp only [run, f1, Res.bind_ok]
          obtain ⟨i1, i2⟩ := ih has' c' (some X.ncols) (by
            right
            rcases f2 with ⟨C, h0, h1, h2⟩ | ⟨v, h0, h1⟩
            · exact Or.inl ⟨C, by rw [h0], h1, h2⟩
            · exact Or.inr ⟨v, by rw [h0], h1⟩)
          exact ⟨fun h => i1 h.2, fun h => i2 fun h' => h ⟨hm, h'⟩⟩
        · refine ⟨fun h => absurd h.1 hm, fun _ => ?_⟩
          simp only [run, hfit.2 hm, Res.bind_ub]
      | predict X =>
        have hX : X.WF := has (.predict X) (by simp)
        obtain ⟨i1, i2⟩ := ih has' c w hw
        by_cases hm : X.rows = [] ∨ w = some 0 ∧ X.ncols = 0
        · have hpr : predict ⟨p, c⟩ X = .ok (List.replicate X.rows.length 0) := by
            by_cases hrows : X.rows = []
            · rw [predict_empty _ X hrows, hrows]
              rfl
            · obtain ⟨hw0, hd⟩ := hm.resolve_left hrows
              rcases hw with ⟨h, -⟩ | ⟨C, -, hc, hC1, hC2⟩ | ⟨v, h, -⟩
              · rw [h] at hw0
                cases hw0
              · rw [predict_entries ⟨p, c⟩ C hc hC1]
                have hC : C ≠ [] := by
                  rintro rfl
                  simp at hC1
                  omega
                obtain ⟨labels, l1, l2⟩ := C40_predict X hX C hC fun r hr => (hC2 r hr).trans hd.symm
                rw [l1, Res.ok.injEq]
                refine List.eq_replicate_iff.mpr ⟨l2.length_eq.symm, fun j hj => ?_⟩
                obtain ⟨i, hi, rfl⟩ := List.mem_iff_getElem.mp hj
                have hi' : i < X.rows.length := by rw [l2.length_eq]; exact hi
                obtain ⟨b, hb1, hb2⟩ := List.forall₂_iff_get.mp l2 |>.2 i hi' hi
                have hall : ∀ y ∈ C.map (sqDist (X.rows[i])), y = 0 := by
                  intro y hy
                  obtain ⟨r, hr, rfl⟩ := List.mem_map.mp hy
                  rw [List.length_eq_zero_iff.mp (hC2 r hr)]
                  simp [sqDist]
                have hb0 : b = 0 := hall b (List.mem_of_getElem? hb1)
                obtain ⟨y0, ys, hy⟩ := List.exists_cons_of_ne_nil (show C.map (sqDist (X.rows[i])) ≠ [] by simpa using hC)
                have h0 := hb2 0 y0 (by simp only [List.get_eq_getElem]; rw [hy]; rfl)
                have hy0 : y0 = 0 := hall y0 (by rw [hy]; simp)
                have := h0.2 (by rw [hy0, hb0])
                simpa using this
              · rw [h] at hw0
                simp at hw0
          simp only [run, hpr, Res.bind_ok]
          constructor
          · rintro ⟨-, h⟩
            obtain ⟨o, r⟩ := i1 h
            exact ⟨o, by rw [r]; rfl⟩
          · intro h
            rw [i2 fun h' => h ⟨hm, h'⟩]
            rfl
        · refine ⟨fun h => absurd h.1 hm, fun _ => ?_⟩
          have hrows : X.rows ≠ [] := fun h => hm (Or.inl h)
          have hpr : predict ⟨p, c⟩ X = .ub := by
            rcases hw with ⟨-, hc⟩ | ⟨C, hw0, hc, hC1, hC2⟩ | ⟨v, -, hc⟩
            · exact predict_new ⟨p, c⟩ hc hk X hrows
            · rw [predict_entries ⟨p, c⟩ C hc hC1]
              refine predict_width C ?_ 0 hC2 X hX hrows fun h => hm (Or.inr ⟨hw0, h⟩)
              rintro rfl
              simp at hC1
              omega
            · rw [hc, predict]
              dsimp only
              rw [if_neg hrows]
          simp only [run, hpr, Res.bind_ub]
  exact key as has (.entries []) none (Or.inl ⟨rfl, rfl⟩)

/-- Beside C161_unknown: a misspelt initialisation on samples with one column and on samples without columns. -/
example : ¬ MayRunUnknown false ⟨"k-means++", 10, 2, 300, 1⟩ none [.fit draw₂ ⟨1, [[0], [4]]⟩] ∧
    MayRunUnknown false ⟨"k-means++", 10, 2, 300, 1⟩ none [.fit draw₂ ⟨0, [[], []]⟩, .predict ⟨0, [[]]⟩] := by
  constructor <;> simp [MayRunUnknown]

/-- C161: an object without clusters labels every sample with 0 at any time, also before any `fit`; `fit` is undefined with "kmeans++",
and with any other string if there is a sample and an iteration. -/
theorem C161_no_clusters (checked : Bool) (p : Params) (hk : p.k = 0) (as : List Action) :
    (MayRunEmpty p as → ∃ o, run checked (construct p) as = .ok (o, zeroAnswers as)) ∧
    (¬ MayRunEmpty p as → run checked (construct p) as = .ub) := by
  have hpre : ∀ X, predict (construct p) X = .ok (List.replicate X.rows.length 0) := by
    intro X
    rw [predict_entries (construct p) [] rfl hk.symm, KMeans.predict, mapRes_ok_iff, List.forall₂_iff_get]
    refine ⟨by simp, fun i h1 h2 => ?_⟩
    simp [KMeans.nearest, KMeans.nearestFrom]
  have hfit : ∀ g X, ((p.init ≠ "kmeans++" ∧ (p.maxIter = 0 ∨ X.rows = [])) → fit checked g X (construct p) = .ok (construct p)) ∧
      (¬ (p.init ≠ "kmeans++" ∧ (p.maxIter = 0 ∨ X.rows = [])) → fit checked g X (construct p) = .ub) := by
    intro g X
    by_cases hpp : p.init = "kmeans++"
    · refine ⟨fun h => absurd hpp h.1, fun _ => ?_⟩
      rw [fit, construct]
      dsimp only
      rw [initCentroid, if_neg (by rw [hpp]; decide), if_pos hpp, if_pos hk]
      rfl
    · have hi : initCentroid p g X = .ok (.entries []) := by
        rw [initCentroid, hk]
        split
        · rw [KMeans.initRandom, if_pos (by omega)]
          rfl
        · rw [if_pos (Or.inl rfl)]
          rfl
      constructor
      · rintro ⟨-, h⟩
        have hlo : KMeans.lloyd checked (KMeans.epsBelow p.tol) p.maxIter X [] = .ok [] := by
          rcases h with h | h
          · rw [h]
            rfl
          · generalize p.maxIter = n
            induction n with
            | zero => rfl
            | succ n ihn =>
              have hit : KMeans.iterate checked X [] = .ok ([], []) := by
                rw [KMeans.iterate, h]
                rfl
              rw [KMeans.lloyd, hit]
              simp only [Res.bind_ok, ihn]
              split <;> rfl
        rw [fit, construct]
        dsimp only
        rw [hi]
        simp only [Res.bind_ok, hlo]
      · intro h
        have h' : p.maxIter ≠ 0 ∧ X.rows ≠ [] := by
          constructor
          · exact fun h1 => h ⟨hpp, Or.inl h1⟩
          · exact fun h1 => h ⟨hpp, Or.inr h1⟩
        obtain ⟨m, hm⟩ := Nat.exists_eq_succ_of_ne_zero h'.1
        obtain ⟨x, xs, hx⟩ := List.exists_cons_of_ne_nil h'.2
        have hlab : mapRes (KMeans.nearest ([] : List (List ℝ))) X.rows = .ok (List.replicate X.rows.length 0) := by
          have := hpre X
          rwa [predict_entries (construct p) [] rfl hk.symm] at this
        have hlo : KMeans.lloyd checked (KMeans.epsBelow p.tol) (m + 1) X [] = .ub := by
          rw [KMeans.lloyd, KMeans.iterate, hlab, Res.bind_ok]
          obtain ⟨c, cs, hkeys⟩ : ∃ c cs, Impurity.keys (List.replicate X.rows.length 0) = c :: cs := by
            have h0 := (Impurity.mem_keys (List.replicate X.rows.length 0) 0).mpr (by simp [hx])
            exact List.exists_cons_of_ne_nil (List.ne_nil_of_mem h0)
          rw [hkeys]
          simp [KMeans.moveCenters, readAt]
        rw [fit, construct]
        dsimp only
        rw [hi, hm]
        simp only [Res.bind_ok, Nat.succ_eq_add_one, hlo, Res.bind_ub]
  induction as with
  | nil => exact ⟨fun _ => ⟨construct p, rfl⟩, fun h => absurd trivial h⟩
  | cons a as ih =>
    cases a with
    | fit g X =>
      obtain ⟨f1, f2⟩ := hfit g X
      by_cases hm : p.init ≠ "kmeans++" ∧ (p.maxIter = 0 ∨ X.rows = [])
      · simp only [run, f1 hm, Res.bind_ok]
        exact ⟨fun h => ih.1 h.2, fun h => ih.2 fun h' => h ⟨hm, h'⟩⟩
      · refine ⟨fun h => absurd h.1 hm, fun _ => ?_⟩
        simp only [run, f2 hm, Res.bind_ub]
    | predict X =>
      simp only [run, hpre X, Res.bind_ok]
      constructor
      · intro h
        obtain ⟨o, r⟩ := ih.1 h
        exact ⟨o, by rw [r]; rfl⟩
      · intro h
        rw [ih.2 h]
        rfl

/-- Beside C161_no_clusters. -/
example : MayRunEmpty ⟨"random", 10, 0, 300, 1⟩ [.predict ⟨1, [[7], [8]]⟩, .fit draw₂ ⟨1, []⟩] ∧
    zeroAnswers [.predict ⟨1, [[7], [8]]⟩, .fit draw₂ ⟨1, []⟩] = [[0, 0]] ∧
    ¬ MayRunEmpty Params.default [.fit draw₂ ⟨1, []⟩] := by
  refine ⟨?_, rfl, ?_⟩ <;> simp [MayRunEmpty, Params.default]

end OpenML
