import Verif.Spec.LBFGS
import Verif.Lemmas.Loss
import Mathlib.Tactic.Linarith
import Mathlib.Tactic.Ring

/-!
# Lemmas about the line searches
-/

namespace OpenML.LBFGS

open SGD Spec

set_option linter.unusedSectionVars false

variable {α : Type} [Field α] [LinearOrder α] [IsStrictOrderedRing α]

theorem dot_ok {a b : List α} (h : a.length = b.length) : dot a b = .ok (Loss.dotL a b) := if_pos h

theorem dot_eq_ok {a b : List α} {c : α} : dot a b = .ok c ↔ a.length = b.length ∧ Loss.dotL a b = c := by
  unfold dot
  split <;> simp_all

theorem addV_eq_ok {a b c : List α} : Loss.addV a b = .ok c ↔ a.length = b.length ∧ List.zipWith (· + ·) a b = c := by
  unfold Loss.addV
  split <;> simp_all

theorem subV_eq_ok {a b c : List α} : Loss.subV a b = .ok c ↔ a.length = b.length ∧ List.zipWith (· - ·) a b = c := by
  unfold Loss.subV
  split <;> simp_all

theorem strong_iff (c m0 s : α) (hm : m0 ≤ 0) : |s| ≤ c * |m0| ↔ c * m0 ≤ s ∧ s ≤ -c * m0 := by
  rw [abs_of_nonpos hm, abs_le]
  constructor <;> rintro ⟨h1, h2⟩ <;> constructor <;> linarith

theorem verdict_spec {p : SearchParams α} {f0 m0 : α} (hm : m0 ≤ 0) {e : Trial α} {d g : List α} (hs : Loss.dotL d g = e.slope)
    {v : Verdict} (h : verdict p f0 m0 e.t e.f d g = .ok v) :
    (v = .accept ↔ Condition p.condition p.ftol p.wolfe f0 m0 e) ∧ (v = .grow ↔ TooShort p.condition p.ftol p.wolfe f0 m0 e) := by
  have hA : Armijo p.ftol f0 m0 e ↔ ¬ e.f > f0 + e.t * (p.ftol * m0) := by
    unfold Armijo
    rw [gt_iff_lt, not_lt, show p.ftol * e.t * m0 = e.t * (p.ftol * m0) by ring]
  unfold verdict at h
  unfold Condition TooShort Curvature StrongCurvature
  rw [hA, strong_iff _ _ _ hm]
  split at h
  · cases h
    simp_all
  · rename_i h1
    split at h
    · cases h
      simp_all
    · rename_i h2
      obtain ⟨dg, hdg, h⟩ := Res.bind_eq_ok.mp h
      obtain ⟨-, rfl⟩ := dot_eq_ok.mp hdg
      rw [hs] at h
      split at h
      · cases h
        simp_all
      · rename_i h3
        rw [not_lt] at h3
        split at h
        · cases h
          simp_all
        · rename_i h4
          split at h
          · rename_i h5
            cases h
            simp_all
          · rename_i h5
            cases h
            simp_all

/-- The trials of a search that starts with step length `step` and bracket `lo`, `hi`: the rejected ones and the accepted one. -/
inductive Run (policy : Policy) (p : SearchParams α) (ev : List α → Res α) (gr : List α → Res (List α)) (f0 m0 : α)
    (xp d : List α) : α → α → Option α → List (Trial α) → Trial α → Prop
  | last {step lo hi e} (h : IsTrial ev gr xp d e) (ht : e.t = step) (hc : Condition p.condition p.ftol p.wolfe f0 m0 e) :
      Run policy p ev gr f0 m0 xp d step lo hi [] e
  | next {step lo hi a pre e v} (h : IsTrial ev gr xp d a) (ht : a.t = step) (hc : ¬ Condition p.condition p.ftol p.wolfe f0 m0 a)
      (h1 : p.minStep ≤ a.t) (h2 : a.t ≤ p.maxStep) (hv : v = .grow ↔ TooShort p.condition p.ftol p.wolfe f0 m0 a)
      (hr : Run policy p ev gr f0 m0 xp d (nextStep policy p v step lo hi).1 (nextStep policy p v step lo hi).2.1
        (nextStep policy p v step lo hi).2.2 pre e) : Run policy p ev gr f0 m0 xp d step lo hi (a :: pre) e

theorem zipWith_step (x d : List α) (t : α) :
    List.zipWith (· + ·) x (d.map fun a => t * a) = List.zipWith (fun a b => a + t * b) x d := by
  rw [List.zipWith_map_right]

theorem probe_spec {p : SearchParams α} {loss : LossFn α (List α)} {X : DMat α} {y : List α} {f0 m0 : α} (hm : m0 ≤ 0)
    {xp d : List α} {count : Nat} {step : α} {v : Verdict} {r : Found α}
    (h : probe p loss X y f0 m0 xp d count step = .ok (v, r)) :
    ∃ e : Trial α, IsTrial (loss.evaluate X y) (loss.gradient X y) xp d e ∧ e.t = step ∧
      (v = .accept ↔ Condition p.condition p.ftol p.wolfe f0 m0 e) ∧ (v = .grow ↔ TooShort p.condition p.ftol p.wolfe f0 m0 e) ∧
      r.count = count + 1 ∧ r.step = e.t ∧ r.fx = e.f ∧ loss.gradient X y r.x = .ok r.g ∧ Loss.dotL d r.g = e.slope ∧
      xp.length = d.length ∧ r.x = List.zipWith (fun a b => a + r.step * b) xp d ∧ loss.evaluate X y r.x = .ok r.fx := by
  unfold probe at h
  obtain ⟨x, hx, h⟩ := Res.bind_eq_ok.mp h
  obtain ⟨f, hf, h⟩ := Res.bind_eq_ok.mp h
  obtain ⟨g, hg, h⟩ := Res.bind_eq_ok.mp h
  obtain ⟨v', hv, h⟩ := Res.bind_eq_ok.mp h
  obtain ⟨hl, rfl⟩ := addV_eq_ok.mp hx
  cases h
  rw [List.length_map] at hl
  rw [zipWith_step] at hf hg
  have hs := verdict_spec hm (e := ⟨step, f, Loss.dotL d g⟩) rfl hv
  refine ⟨⟨step, f, Loss.dotL d g⟩, ⟨g, hf, hg, rfl⟩, rfl, hs.1, hs.2, rfl, rfl, rfl, ?_, rfl, hl, ?_, ?_⟩
  · rw [zipWith_step]; exact hg
  · rw [zipWith_step]
  · rw [zipWith_step]; exact hf

theorem searchLoop_run (policy : Policy) (p : SearchParams α) (loss : LossFn α (List α)) (X : DMat α) (y : List α) (f0 m0 : α)
    (hm : m0 ≤ 0) (xp d : List α) (n count : Nat) (step lo : α) (hi : Option α) (r : Found α)
    (h : searchLoop policy p loss X y f0 m0 xp d n count step lo hi = .ok (some r)) :
    ∃ pre e, Run policy p (loss.evaluate X y) (loss.gradient X y) f0 m0 xp d step lo hi pre e ∧ r.count = count + pre.length + 1 ∧
      pre.length ≤ n ∧ r.step = e.t ∧ r.fx = e.f ∧ loss.gradient X y r.x = .ok r.g ∧ Loss.dotL d r.g = e.slope ∧
      xp.length = d.length ∧ r.x = List.zipWith (fun a b => a + r.step * b) xp d ∧ loss.evaluate X y r.x = .ok r.fx := by
  induction n generalizing count step lo hi with
  | zero =>
    unfold searchLoop at h
    obtain ⟨⟨v, q⟩, hp, h⟩ := Res.bind_eq_ok.mp h
    obtain ⟨e, he, ht, hacc, hgrow, hc, hrest⟩ := probe_spec hm hp
    split at h
    · rename_i hva
      cases h
      exact ⟨[], e, .last he ht (hacc.mp hva), hc, le_rfl, hrest⟩
    · cases h
  | succ n ih =>
    unfold searchLoop at h
    obtain ⟨⟨v, q⟩, hp, h⟩ := Res.bind_eq_ok.mp h
    obtain ⟨e, he, ht, hacc, hgrow, hc, hrest⟩ := probe_spec hm hp
    split at h
    · rename_i hva
      cases h
      exact ⟨[], e, .last he ht (hacc.mp hva), hc, Nat.zero_le _, hrest⟩
    · rename_i hva
      split at h
      · cases h
      · rename_i h1
        split at h
        · cases h
        · rename_i h2
          obtain ⟨pre, e', hrun, hc', hn, hrest'⟩ := ih _ _ _ _ h
          refine ⟨e :: pre, e', .next he ht (fun hc => hva (hacc.mpr hc)) (by rw [ht]; exact not_lt.mp h1)
            (by rw [ht]; exact not_lt.mp h2) hgrow hrun, ?_, ?_, hrest'⟩
          · rw [hc', List.length_cons]
            omega
          · rw [List.length_cons]
            omega

theorem searchLoop_none (policy : Policy) (p : SearchParams α) (loss : LossFn α (List α)) (X : DMat α) (y : List α) (f0 m0 : α)
    (hm : m0 ≤ 0) (xp d : List α) (n count : Nat) (step lo : α) (hi : Option α)
    (h : searchLoop policy p loss X y f0 m0 xp d n count step lo hi = .ok none) :
    ∃ pre e, (∀ a ∈ pre ++ [e], IsTrial (loss.evaluate X y) (loss.gradient X y) xp d a ∧
        ¬ Condition p.condition p.ftol p.wolfe f0 m0 a) ∧
      pre.length ≤ n ∧ (pre ++ [e]).head?.map Trial.t = some step ∧
      (e.t < p.minStep ∨ p.maxStep < e.t ∨ pre.length = n) := by
  induction n generalizing count step lo hi with
  | zero =>
    unfold searchLoop at h
    obtain ⟨⟨v, q⟩, hp, h⟩ := Res.bind_eq_ok.mp h
    obtain ⟨e, he, ht, hacc, -⟩ := probe_spec hm hp
    split at h
    · cases h
    · rename_i hva
      refine ⟨[], e, ?_, le_rfl, by simp [ht], Or.inr (Or.inr rfl)⟩
      intro a ha
      rw [List.nil_append, List.mem_singleton] at ha
      subst ha
      exact ⟨he, fun hc => hva (hacc.mpr hc)⟩
  | succ n ih =>
    unfold searchLoop at h
    obtain ⟨⟨v, q⟩, hp, h⟩ := Res.bind_eq_ok.mp h
    obtain ⟨e, he, ht, hacc, -⟩ := probe_spec hm hp
    have hthis : v ≠ .accept → ∀ a ∈ [e],
        IsTrial (loss.evaluate X y) (loss.gradient X y) xp d a ∧ ¬ Condition p.condition p.ftol p.wolfe f0 m0 a := by
      intro hva a ha
      rw [List.mem_singleton] at ha
      subst ha
      exact ⟨he, fun hc => hva (hacc.mpr hc)⟩
    split at h
    · cases h
    · rename_i hva
      split at h
      · rename_i h1
        exact ⟨[], _, hthis hva, Nat.zero_le _, by simp [ht], Or.inl (by rwa [ht])⟩
      · split at h
        · rename_i h2
          exact ⟨[], _, hthis hva, Nat.zero_le _, by simp [ht], Or.inr (Or.inl (by rwa [ht]))⟩
        · obtain ⟨pre, e', hall, hn, -, hend⟩ := ih _ _ _ _ h
          refine ⟨e :: pre, e', ?_, by rw [List.length_cons]; omega, by simp [ht], ?_⟩
          · intro a ha
            rw [List.cons_append, List.mem_cons] at ha
            rcases ha with ha | ha
            · exact hthis hva a (List.mem_singleton.mpr ha)
            · exact hall a ha
          · rcases hend with h | h | h
            · exact Or.inl h
            · exact Or.inr (Or.inl h)
            · exact Or.inr (Or.inr (by rw [List.length_cons, h]))

section RunLemmas
variable {policy : Policy} {p : SearchParams α} {ev : List α → Res α} {gr : List α → Res (List α)} {f0 m0 : α} {xp d : List α}
  {step lo : α} {hi : Option α} {pre : List (Trial α)} {e : Trial α}

theorem Run.trials (h : Run policy p ev gr f0 m0 xp d step lo hi pre e) :
    (∀ a ∈ pre, IsTrial ev gr xp d a ∧ ¬ Condition p.condition p.ftol p.wolfe f0 m0 a ∧ p.minStep ≤ a.t ∧ a.t ≤ p.maxStep) ∧
    IsTrial ev gr xp d e ∧ Condition p.condition p.ftol p.wolfe f0 m0 e ∧ (pre ++ [e]).head?.map Trial.t = some step := by
  induction h with
  | last h ht hc => exact ⟨fun a ha => by simp at ha, h, hc, by simp [ht]⟩
  | next h ht hc h1 h2 hv hr ih =>
    obtain ⟨i1, i2, i3, i4⟩ := ih
    refine ⟨fun a ha => ?_, i2, i3, by simp [ht]⟩
    rcases List.mem_cons.mp ha with rfl | ha
    · exact ⟨h, hc, h1, h2⟩
    · exact i1 a ha

/-- Backtracking: each step length is the one before times one of the two factors. -/
theorem Run.backtracking (h : Run .backtracking p ev gr f0 m0 xp d step lo hi pre e) :
    List.IsChain (fun a b : Trial α =>
      (TooShort p.condition p.ftol p.wolfe f0 m0 a → b.t = a.t * p.inc) ∧
      (¬ TooShort p.condition p.ftol p.wolfe f0 m0 a → b.t = a.t * p.dec)) (pre ++ [e]) := by
  induction h with
  | last h ht hc => simp
  | next h ht hc h1 h2 hv hr ih =>
    rename_i a pre e v
    have hhead := hr.trials.2.2.2
    match hl : pre ++ [e], ih, hhead with
    | b :: l, ih, hhead =>
      rw [List.cons_append, hl]
      refine List.IsChain.cons_cons ⟨fun hs => ?_, fun hs => ?_⟩ ih
      · have hvg := hv.mpr hs
        simp only [List.head?_cons, Option.map_some, Option.some.injEq, nextStep, hvg, if_true] at hhead
        rw [hhead, ht]
      · have hvg : v ≠ .grow := fun hg => hs (hv.mp hg)
        simp only [List.head?_cons, Option.map_some, Option.some.injEq, nextStep, if_neg hvg] at hhead
        rw [hhead, ht]

theorem Run.pos (hd : 0 < p.dec) (hin : 0 < p.inc) (hlo : 0 ≤ lo) (hhi : ∀ b, hi = some b → 0 < b)
    (h : Run policy p ev gr f0 m0 xp d step lo hi pre e) (hs : 0 < step) : ∀ a ∈ pre ++ [e], 0 < a.t := by
  induction h with
  | last h ht hc =>
    intro a ha
    rw [List.nil_append, List.mem_singleton] at ha
    subst ha
    rwa [ht]
  | next h ht hc h1 h2 hv hr ih =>
    rename_i step lo hi a pre e v
    have key : 0 ≤ (nextStep policy p v step lo hi).2.1 ∧ (∀ b, (nextStep policy p v step lo hi).2.2 = some b → 0 < b) ∧
        0 < (nextStep policy p v step lo hi).1 := by
      cases policy with
      | backtracking =>
        refine ⟨hlo, hhi, ?_⟩
        simp only [nextStep]
        split
        · exact mul_pos hs hin
        · exact mul_pos hs hd
      | bracketing =>
        by_cases hvg : v = .grow
        · cases hhi' : hi with
          | none =>
            simp only [nextStep, hvg, if_true]
            exact ⟨hs.le, by simp, mul_pos two_pos hs⟩
          | some b =>
            have := hhi b hhi'
            simp only [nextStep, hvg, if_true]
            refine ⟨hs.le, fun b' hb => ?_, by linarith⟩
            cases hb
            exact this
        · simp only [nextStep, if_neg hvg]
          refine ⟨hlo, fun b' hb => ?_, by linarith⟩
          cases hb
          exact hs
    have := ih key.1 key.2.1 key.2.2
    intro b hb
    rw [List.cons_append, List.mem_cons] at hb
    rcases hb with rfl | hb
    · rwa [ht]
    · exact this b hb

/-- Bracketing: all step lengths lie in the bracket, and each trial bounds the later ones. -/
theorem Run.bracketing (h : Run .bracketing p ev gr f0 m0 xp d step lo hi pre e) (h0 : 0 ≤ lo) (hlo : lo < step)
    (hhi : ∀ b, hi = some b → step < b) :
    (∀ a ∈ pre ++ [e], lo < a.t ∧ ∀ b, hi = some b → a.t < b) ∧
    List.Pairwise (fun a b : Trial α =>
      (TooShort p.condition p.ftol p.wolfe f0 m0 a → a.t < b.t) ∧
      (¬ TooShort p.condition p.ftol p.wolfe f0 m0 a → b.t < a.t)) (pre ++ [e]) := by
  induction h with
  | last h ht hc =>
    refine ⟨fun a ha => ?_, by simp⟩
    rw [List.nil_append, List.mem_singleton] at ha
    subst ha
    rw [ht]
    exact ⟨hlo, hhi⟩
  | next h ht hc h1 h2 hv hr ih =>
    rename_i step lo hi a pre e v
    by_cases hs : TooShort p.condition p.ftol p.wolfe f0 m0 a
    · have hvg := hv.mpr hs
      cases hi with
      | none =>
        simp only [nextStep, hvg, if_true] at ih
        obtain ⟨i1, i2⟩ := ih (by linarith) (by linarith) (by simp)
        refine ⟨fun b hb => ?_, ?_⟩
        · rw [List.cons_append, List.mem_cons] at hb
          rcases hb with rfl | hb
          · rw [ht]
            exact ⟨hlo, hhi⟩
          · exact ⟨hlo.trans (i1 b hb).1, by simp⟩
        · rw [List.cons_append, List.pairwise_cons]
          exact ⟨fun b hb => ⟨fun _ => by rw [ht]; exact (i1 b hb).1, fun hn => absurd hs hn⟩, i2⟩
      | some u =>
        have hu := hhi u rfl
        simp only [nextStep, hvg, if_true] at ih
        obtain ⟨i1, i2⟩ := ih (by linarith) (by linarith) (fun b hb => by cases hb; linarith)
        refine ⟨fun b hb => ?_, ?_⟩
        · rw [List.cons_append, List.mem_cons] at hb
          rcases hb with rfl | hb
          · rw [ht]
            exact ⟨hlo, hhi⟩
          · exact ⟨hlo.trans (i1 b hb).1, (i1 b hb).2⟩
        · rw [List.cons_append, List.pairwise_cons]
          exact ⟨fun b hb => ⟨fun _ => by rw [ht]; exact (i1 b hb).1, fun hn => absurd hs hn⟩, i2⟩
    · have hvg : v ≠ .grow := fun hg => hs (hv.mp hg)
      simp only [nextStep, if_neg hvg] at ih
      obtain ⟨i1, i2⟩ := ih (by linarith) (by linarith) (fun b hb => by cases hb; linarith)
      refine ⟨fun b hb => ?_, ?_⟩
      · rw [List.cons_append, List.mem_cons] at hb
        rcases hb with rfl | hb
        · rw [ht]
          exact ⟨hlo, hhi⟩
        · exact ⟨(i1 b hb).1, fun u hu => ((i1 b hb).2 step rfl).trans (hhi u hu)⟩
      · rw [List.cons_append, List.pairwise_cons]
        exact ⟨fun b hb => ⟨fun hn => absurd hn hs, fun _ => by rw [ht]; exact (i1 b hb).2 step rfl⟩, i2⟩

end RunLemmas

end OpenML.LBFGS
