import Verif.Spec.EstimatorObject
import Verif.Props.LinearFit
import Verif.Props.LBFGSRun
import Verif.Props.LinearPredict
import Verif.Props.Defaults

/-!
# C146: the life of linear model objects
-/

namespace OpenML

open EstObject Spec

namespace EstObject

variable {κ Q A : Type} (C : Class κ Q A)

theorem bind_ok' {α β : Type} (a : α) (f : α → Res β) : (Res.ok a >>= f) = f a := rfl

theorem run_append (w : World) (a b : List (Op κ Q)) :
    run C w (a ++ b) = (run C w a >>= fun r => run C r.1 b >>= fun s => .ok (s.1, r.2 ++ s.2)) := by
  induction a generalizing w with
  | nil =>
    simp only [List.nil_append, run, bind_ok']
    cases run C w b <;> rfl
  | cons op a ih =>
    simp only [List.cons_append, run]
    cases step C w op with
    | ok r =>
      simp only [bind_ok', ih]
      cases run C r.1 a with
      | ok s =>
        simp only [bind_ok']
        cases run C s.1 b <;> rfl
      | throw e => rfl
      | ub => rfl
      | diverge => rfl
    | throw e => rfl
    | ub => rfl
    | diverge => rfl

/-- What an object with a given history knows. -/
def known (L : List (FitCall κ)) : DMat ℝ := (lastSuccess C.fitData L).getD fresh

theorem known_snoc_ok (L : List (FitCall κ)) {k : κ} {X : DMat ℝ} {y : List ℝ} {x : DMat ℝ} (h : C.fitData k X y = .ok x) :
    known C (L ++ [(k, X, y)]) = x := by
  simp [known, lastSuccess, List.filterMap_append, h]

theorem known_snoc_throw (L : List (FitCall κ)) {k : κ} {X : DMat ℝ} {y : List ℝ} {e : Exn} (h : C.fitData k X y = .throw e) :
    known C (L ++ [(k, X, y)]) = known C L := by
  simp [known, lastSuccess, List.filterMap_append, h]

theorem step_histories {h : Nat → Option (List (FitCall κ))} {w : World} (hw : ∀ n, w n = (h n).map (known C)) (op : Op κ Q)
    {r : World × Seen A} (hr : step C w op = .ok r) : ∀ n, r.1 n = (extend h op n).map (known C) := by
  cases op with
  | construct m =>
    simp only [step] at hr
    split at hr
    · cases hr
    · cases hr
      intro n
      by_cases hn : n = m
      · subst hn; simp [extend, known, lastSuccess]
      · simp [extend, hn, hw n]
  | copy d s =>
    simp only [step] at hr
    split at hr
    · rename_i x h1 h2
      cases hr
      intro n
      by_cases hn : n = d
      · subst hn; simp [extend, ← hw, h2]
      · simp [extend, hn, hw n]
    · cases hr
  | assign d s =>
    simp only [step] at hr
    split at hr
    · rename_i x h1 h2
      cases hr
      intro n
      by_cases hn : n = d
      · subst hn; simp [extend, ← hw, h2]
      · simp [extend, hn, hw n]
    · cases hr
  | destroy m =>
    simp only [step] at hr
    split at hr
    · cases hr
    · cases hr
      intro n
      by_cases hn : n = m
      · subst hn; simp [extend]
      · simp [extend, hn, hw n]
  | fit m k X y =>
    simp only [step] at hr
    split at hr
    · cases hr
    · rename_i v hm
      rw [hw m] at hm
      obtain ⟨L, hL, rfl⟩ := Option.map_eq_some_iff.mp hm
      split at hr
      · rename_i x hx
        cases hr
        intro n
        by_cases hn : n = m
        · subst hn; simp [extend, hL, known_snoc_ok C L hx]
        · simp [extend, hn, hw n]
      · rename_i e he
        cases hr
        intro n
        by_cases hn : n = m
        · subst hn; simp [extend, hL, known_snoc_throw C L he, hw]
        · simp [extend, hn, hw n]
      · cases hr
      · cases hr
  | ask m q =>
    simp only [step] at hr
    split at hr
    · cases hr
    · split at hr
      · cases hr; exact hw
      · cases hr; exact hw
      · cases hr
      · cases hr

theorem run_histories {h : Nat → Option (List (FitCall κ))} {w : World} (hw : ∀ n, w n = (h n).map (known C)) (ops : List (Op κ Q))
    {r : World × List (Seen A)} (hr : run C w ops = .ok r) : ∀ n, r.1 n = (ops.foldl extend h n).map (known C) := by
  induction ops generalizing h w r with
  | nil => cases hr; exact hw
  | cons op ops ih =>
    simp only [run, Res.bind_eq_ok] at hr
    obtain ⟨a, ha, b, hb, hr⟩ := hr
    cases hr
    exact ih (r := b) (step_histories C hw op ha) hb

/-- What a program sees of a question. -/
def seenOf {A : Type} (w : World) (seen : List (Seen A)) : Res A → Res (World × List (Seen A))
  | .ok a => .ok (w, seen ++ [.answer a])
  | .throw e => .ok (w, seen ++ [.caught e])
  | .ub => .ub
  | .diverge => .diverge

theorem run_ask {ops : List (Op κ Q)} {w0 w : World} {seen : List (Seen A)} (hr : run C w0 ops = .ok (w, seen)) {n : Nat} {x : DMat ℝ}
    (hn : w n = some x) (q : Q) : run C w0 (ops ++ [.ask n q]) = seenOf w seen (C.ask x q) := by
  rw [run_append, hr, bind_ok']
  simp only [run, step, hn]
  cases C.ask x q <;> rfl

end EstObject

open EstObject

section General

variable {κ Q A : Type} (C : Class κ Q A)

/-- C146: in every program on linear models, with any number of objects, copies and caught exceptions, the answer to a question
depends only on the last successful fit in the history of the object asked; before the first successful fit it is the answer from the
empty matrix. -/
theorem C146_history {ops : List (Op κ Q)} {w : World} {seen : List (Seen A)} (hr : run C (fun _ => none) ops = .ok (w, seen))
    {n : Nat} {L : List (FitCall κ)} (hL : histories ops n = some L) (q : Q) :
    run C (fun _ => none) (ops ++ [.ask n q]) = match C.ask ((lastSuccess C.fitData L).getD ⟨0, []⟩) q with
      | .ok a => .ok (w, seen ++ [.answer a])
      | .throw e => .ok (w, seen ++ [.caught e])
      | .ub => .ub
      | .diverge => .diverge := by
  have h := run_histories C (h := fun _ => none) (fun _ => rfl) ops hr n
  change w n = (histories ops n).map (known C) at h
  rw [hL] at h
  exact run_ask C hr h q

/-- C146: refitting forgets: after a fit that returns, an object answers as a new object fitted in the same way, whatever happened
before. -/
theorem C146_refit {ops : List (Op κ Q)} {w : World} {seen : List (Seen A)} (hr : run C (fun _ => none) ops = .ok (w, seen))
    {n : Nat} (hn : histories ops n ≠ none) (k : κ) (X : DMat ℝ) (y : List ℝ) (x : DMat ℝ) (hx : C.fitData k X y = .ok x) (q : Q) :
    ∃ out : Res (Seen A),
      (run C (fun _ => none) (ops ++ [.fit n k X y, .ask n q]) >>= fun r => .ok r.2) = (out >>= fun s => .ok (seen ++ [.done, s])) ∧
      (run C (fun _ => none) [.construct 0, .fit 0 k X y, .ask 0 q] >>= fun r => .ok r.2) = (out >>= fun s => .ok [.done, .done, s]) := by
  have h := run_histories C (h := fun _ => none) (fun _ => rfl) ops hr n
  change w n = (histories ops n).map (known C) at h
  obtain ⟨L, hL⟩ := Option.ne_none_iff_exists'.mp hn
  rw [hL, Option.map_some] at h
  have h1 : run C (fun _ => none) (ops ++ [.fit n k X y]) = .ok (Function.update w n (some x), seen ++ [.done]) := by
    rw [run_append, hr, bind_ok']
    simp only [run, step, h, hx, bind_ok']
  have h2 : run C (fun _ => none) [.construct 0, .fit 0 k X y] =
      .ok (Function.update (Function.update (fun _ : Nat => (none : Option (DMat ℝ))) 0 (some fresh)) 0 (some x), [.done, .done]) := by
    simp only [run, step, Function.update_self, hx, bind_ok']
  have e1 := run_ask C h1 (Function.update_self n (some x) w) q
  have e2 := run_ask C h2 (Function.update_self (β := fun _ : Nat => Option (DMat ℝ)) 0 (some x) _) q
  rw [List.append_assoc] at e1
  simp only [List.cons_append, List.nil_append] at e1 e2
  refine ⟨match C.ask x q with
      | .ok a => .ok (.answer a)
      | .throw e => .ok (.caught e)
      | .ub => .ub
      | .diverge => .diverge, ?_, ?_⟩
  · rw [e1]
    cases C.ask x q <;> simp only [seenOf, List.append_assoc, List.cons_append, List.nil_append] <;> rfl
  · rw [e2]
    cases C.ask x q <;> simp only [seenOf, List.append_assoc, List.cons_append, List.nil_append] <;> rfl

/-- C146: a fit that throws changes no later answer. -/
theorem C146_failed_fit {ops : List (Op κ Q)} {w : World} {seen : List (Seen A)} (hr : run C (fun _ => none) ops = .ok (w, seen))
    {n : Nat} (hn : histories ops n ≠ none) (k : κ) (X : DMat ℝ) (y : List ℝ) (e : Exn) (he : C.fitData k X y = .throw e)
    (more : List (Op κ Q)) :
    (run C (fun _ => none) (ops ++ .fit n k X y :: more) >>= fun r => .ok r.2) =
      (run C w more >>= fun r => .ok (seen ++ .caught e :: r.2)) ∧
    (run C (fun _ => none) (ops ++ more) >>= fun r => .ok r.2) = (run C w more >>= fun r => .ok (seen ++ r.2)) := by
  have h := run_histories C (h := fun _ => none) (fun _ => rfl) ops hr n
  change w n = (histories ops n).map (known C) at h
  obtain ⟨L, hL⟩ := Option.ne_none_iff_exists'.mp hn
  rw [hL, Option.map_some] at h
  constructor
  · rw [run_append, hr, bind_ok']
    simp only [run, step, h, he, bind_ok']
    cases run C w more <;> rfl
  · rw [run_append, hr, bind_ok']
    cases run C w more <;> rfl

theorem EstObject.leaves_history (n : Nat) (ops : List (Op κ Q)) (h : ∀ op ∈ ops, Leaves n op)
    (g : Nat → Option (List (FitCall κ))) : ops.foldl extend g n = g n := by
  induction ops generalizing g with
  | nil => rfl
  | cons op ops ih =>
    rw [List.foldl_cons, ih (fun o ho => h o (List.mem_cons_of_mem _ ho))]
    have := h op (by simp)
    cases op <;> simp only [Leaves, ne_eq] at this <;> simp only [extend] <;> first | rfl | exact if_neg (Ne.symm this)

/-- C146: copies are independent: whatever the program does afterwards to the original and to other objects, a copy answers as the
original did when it was copied. -/
theorem C146_copy {ops : List (Op κ Q)} {w : World} {seen : List (Seen A)} (hr : run C (fun _ => none) ops = .ok (w, seen))
    {d s : Nat} (hs : histories ops s ≠ none) (more : List (Op κ Q)) (hm : ∀ op ∈ more, Leaves d op) {w' : World}
    {seen' : List (Seen A)} (hr' : run C (fun _ => none) (ops ++ .copy d s :: more) = .ok (w', seen')) (q : Q) :
    ∃ out : Res (Seen A),
      (run C (fun _ => none) (ops ++ [.ask s q]) >>= fun r => .ok r.2) = (out >>= fun a => .ok (seen ++ [a])) ∧
      (run C (fun _ => none) ((ops ++ .copy d s :: more) ++ [.ask d q]) >>= fun r => .ok r.2) =
        (out >>= fun a => .ok (seen' ++ [a])) := by
  obtain ⟨L, hL⟩ := Option.ne_none_iff_exists'.mp hs
  have h := run_histories C (h := fun _ => none) (fun _ => rfl) ops hr s
  change w s = (histories ops s).map (known C) at h
  rw [hL, Option.map_some] at h
  have h' := run_histories C (h := fun _ => none) (fun _ => rfl) (ops ++ .copy d s :: more) hr' d
  rw [List.foldl_append, List.foldl_cons, leaves_history d more hm] at h'
  have e : extend (ops.foldl extend fun _ => none) (.copy d s : Op κ Q) d = some L := by
    simp only [extend, if_true]; exact hL
  rw [e, Option.map_some] at h'
  refine ⟨match C.ask (known C L) q with
      | .ok a => .ok (.answer a)
      | .throw e => .ok (.caught e)
      | .ub => .ub
      | .diverge => .diverge, ?_, ?_⟩
  · rw [run_ask C hr h q]
    cases C.ask (known C L) q <;> rfl
  · rw [run_ask C hr' h' q]
    cases C.ask (known C L) q <;> rfl

end General

namespace EstObject

theorem run_fit {κ Q A : Type} (C : Class κ Q A) {ops : List (Op κ Q)} {w : World} {seen : List (Seen A)}
    (hr : run C (fun _ => none) ops = .ok (w, seen)) {n : Nat} (hn : histories ops n ≠ none) {k : κ} {X : DMat ℝ} {y : List ℝ}
    {x : DMat ℝ} (hx : C.fitData k X y = .ok x) :
    run C (fun _ => none) (ops ++ [.fit n k X y]) = .ok (Function.update w n (some x), seen ++ [.done]) := by
  have h := run_histories C (h := fun _ => none) (fun _ => rfl) ops hr n
  change w n = (histories ops n).map (known C) at h
  obtain ⟨L, hL⟩ := Option.ne_none_iff_exists'.mp hn
  rw [hL, Option.map_some] at h
  rw [run_append, hr, bind_ok']
  simp only [run, step, h, hx, bind_ok']

theorem asVector_fresh : asVector fresh = .ub := rfl

theorem askBase_fresh (b : Bool) (q : Query) : askBase b fresh q = .ub := by cases q <;> rfl

theorem askPerceptron_fresh (b : Bool) (q : Query) : askPerceptron b fresh q = .ub := by cases q <;> rfl

theorem askLogistic_fresh (q : ProbQuery) : askLogistic fresh q = .ub := by cases q <;> rfl

theorem askSoftmax_fresh (q : ProbQuery) : askSoftmax fresh q = .ub := by
  have h : ∀ X : DMat ℝ, LinearFit.softmaxBoundary fresh X = .ub := fun X => if_neg fun h => absurd h.2 (by decide)
  cases q with
  | coef => rfl
  | predict X => simp only [askSoftmax, LinearFit.softmaxPredict, LinearFit.softmaxProb, h]; rfl
  | prob X => simp only [askSoftmax, LinearFit.softmaxProb, h]; rfl

theorem lastSuccess_none {κ β : Type} (fit : κ → DMat ℝ → List ℝ → Res β) (L : List (FitCall κ))
    (h : ∀ c ∈ L, ∀ b, fit c.1 c.2.1 c.2.2 ≠ .ok b) : lastSuccess fit L = none := by
  unfold lastSuccess
  rw [List.filterMap_eq_nil_iff.mpr]
  · rfl
  · intro c hc
    have := h c hc
    split
    · rename_i b hb
      exact absurd hb (this b)
    · rfl

theorem col_ofVector (w : List ℝ) : (ofVector w).col 0 = w := by
  unfold DMat.col ofVector
  induction w with
  | nil => rfl
  | cons a w ih => simp

theorem asVector_ofVector (w : List ℝ) : asVector (ofVector w) = .ok w := by
  rw [asVector, if_pos (show (ofVector w).ncols = 1 from rfl), col_ofVector]

theorem zipWith_take (r v : List ℝ) : List.zipWith (· * ·) r (v.take r.length) = List.zipWith (· * ·) r v := by
  induction r generalizing v with
  | nil => simp
  | cons a r ih =>
    cases v with
    | nil => simp
    | cons c v => simp [ih]

end EstObject

/-- C146: asking an object of any linear regression or perceptron class before a fit has returned, for coefficients or for
predictions, violates an assertion, with and without intercept and whatever the argument is. -/
theorem C146_unfitted {κ : Type} (C : Class κ Query (List ℝ)) (b : Bool) (hC : C.ask = askBase b ∨ C.ask = askPerceptron b)
    {ops : List (Op κ Query)} {w : World} {seen : List (Seen (List ℝ))} (hr : run C (fun _ => none) ops = .ok (w, seen)) {n : Nat}
    {L : List (FitCall κ)} (hL : histories ops n = some L) (hno : ∀ c ∈ L, ∀ W, C.fitData c.1 c.2.1 c.2.2 ≠ .ok W) (q : Query) :
    run C (fun _ => none) (ops ++ [.ask n q]) = .ub := by
  rw [C146_history C hr hL q, lastSuccess_none _ L hno, Option.getD_none]
  have : C.ask ⟨0, []⟩ q = .ub := by
    rcases hC with h | h <;> rw [h]
    · exact askBase_fresh b q
    · exact askPerceptron_fresh b q
  rw [this]

/-- C146: the same for logistic and softmax regression, probabilities included. -/
theorem C146_unfitted_prob {κ : Type} (C : Class κ ProbQuery ProbAnswer) (hC : C.ask = askLogistic ∨ C.ask = askSoftmax)
    {ops : List (Op κ ProbQuery)} {w : World} {seen : List (Seen ProbAnswer)} (hr : run C (fun _ => none) ops = .ok (w, seen))
    {n : Nat} {L : List (FitCall κ)} (hL : histories ops n = some L) (hno : ∀ c ∈ L, ∀ W, C.fitData c.1 c.2.1 c.2.2 ≠ .ok W)
    (q : ProbQuery) : run C (fun _ => none) (ops ++ [.ask n q]) = .ub := by
  rw [C146_history C hr hL q, lastSuccess_none _ L hno, Option.getD_none]
  have : C.ask ⟨0, []⟩ q = .ub := by
    rcases hC with h | h <;> rw [h]
    · exact askLogistic_fresh q
    · exact askSoftmax_fresh q
  rw [this]

/-- C146: logistic regression with L-BFGS: if the gradient at the random initial weights is within the tolerance, `fit` returns
normally but destroys what the object had learned: every later question violates an assertion. -/
theorem C146_lbfgs_forgets (m : LogisticObject.Members) (hpen : m.penalty = "l2" ∨ m.penalty = "None") (hs : m.solver = "lbfgs")
    (hpol : m.policy = "backtracking" ∨ m.policy = "bracketing") {ops : List (Op LogisticDraw ProbQuery)} {w : World}
    {seen : List (Seen ProbAnswer)} (hr : run (logistic m) (fun _ => none) ops = .ok (w, seen)) {n : Nat}
    (hn : histories ops n ≠ none) (k : LogisticDraw) (X : DMat ℝ) (hX : X.WF) (y : List ℝ) (hy : y.length = X.nrows)
    (hi : k.init.length = X.ncols + 1) (g : List ℝ) (hg : Loss.logGradient m.lambda (LinearFit.withOnes X) y k.init = .ok g)
    (hsmall : Real.sqrt (g.map fun a => a * a).sum ≤ m.tol * max 1 (Real.sqrt (k.init.map fun a => a * a).sum)) :
    (∃ w', run (logistic m) (fun _ => none) (ops ++ [.fit n k X y]) = .ok (w', seen ++ [.done])) ∧
    ∀ q, run (logistic m) (fun _ => none) ((ops ++ [.fit n k X y]) ++ [.ask n q]) = .ub := by
  have hXn : (LinearFit.withOnes X).WF := by
    intro r hr
    obtain ⟨r', hr', rfl⟩ := List.mem_map.mp hr
    simp [LinearFit.withOnes, hX r' hr']
  obtain ⟨f, hf⟩ := logEvaluate_total m.lambda (LinearFit.withOnes X) hXn y k.init
    (by simpa [LinearFit.withOnes, DMat.nrows] using hy) (by simpa [LinearFit.withOnes] using hi)
  have hopt := (C54_stationary_start Real.sqrt (LogisticObject.lbfgsParams m) k.junk k.fuel
    ⟨Loss.logEvaluate m.lambda, Loss.logGradient m.lambda⟩ (LinearFit.withOnes X) y k.init hpol f g hf hg).mpr hsmall
  have hfit : (logistic m).fitData k X y = .ok fresh := by
    simp only [logistic, LogisticObject.fit, LinearFit.fitLogistic]
    rw [if_pos hpen, hs, if_neg (by decide), if_neg (by decide), if_pos rfl, hopt]
    rfl
  have h := run_fit (logistic m) hr hn hfit
  refine ⟨⟨_, h⟩, fun q => ?_⟩
  rw [run_ask (logistic m) h (Function.update_self n _ _) q, show (logistic m).ask = askLogistic from rfl, askLogistic_fresh]
  rfl

/-- C146: an object of `SoftmaxRegression` never answers both kinds of question: if it has learned from a single class, `predict` and
`predict_prob` throw `invalid_argument`, otherwise `get_coef` violates an assertion. -/
theorem C146_softmax_answers (lambda : ℝ) (p : SGD.Params ℝ) (shuffle : Bool) {ops : List (Op (Nat → List Nat) ProbQuery)} {w : World}
    {seen : List (Seen ProbAnswer)} (hr : run (softmax lambda p shuffle) (fun _ => none) ops = .ok (w, seen)) {n : Nat}
    {L : List (FitCall (Nat → List Nat))} (hL : histories ops n = some L) (W : DMat ℝ)
    (hW : lastSuccess (softmax lambda p shuffle).fitData L = some W) (hWF : W.WF) (hc : 0 < W.ncols) :
    (W.ncols = 1 → ∀ X : DMat ℝ, X.rows ≠ [] → W.nrows = X.ncols + 1 →
      run (softmax lambda p shuffle) (fun _ => none) (ops ++ [.ask n (.predict X)]) = .ok (w, seen ++ [.caught .invalidArgument]) ∧
      run (softmax lambda p shuffle) (fun _ => none) (ops ++ [.ask n (.prob X)]) = .ok (w, seen ++ [.caught .invalidArgument])) ∧
    (W.ncols ≠ 1 → run (softmax lambda p shuffle) (fun _ => none) (ops ++ [.ask n .coef]) = .ub) := by
  constructor
  · intro h1 X hX hn
    obtain ⟨a, b⟩ := (C82_predict W X hWF hn hX hc).1 (Or.inr h1)
    rw [C146_history _ hr hL, C146_history _ hr hL, hW, Option.getD_some]
    simp only [softmax, askSoftmax, a, b]
    exact ⟨rfl, rfl⟩
  · intro h1
    rw [C146_history _ hr hL, hW, Option.getD_some]
    simp only [softmax, askSoftmax, asVector, if_neg h1]
    rfl

/-- C146: an object with intercept that has learned `d + 1` weights accepts matrices with any number of columns up to `d + 1`: it uses
as many weights as there are columns and adds the last weight, so that with `d + 1` columns the last weight counts twice. More columns
violate an assertion. Without intercept every other number of columns does. -/
theorem C146_columns {κ : Type} (C : Class κ Query (List ℝ)) (b : Bool) (hC : C.ask = askBase b) {ops : List (Op κ Query)} {w : World}
    {seen : List (Seen (List ℝ))} (hr : run C (fun _ => none) ops = .ok (w, seen)) {n : Nat} {L : List (FitCall κ)}
    (hL : histories ops n = some L) (v : List ℝ) (hv : v ≠ [])
    (hW : lastSuccess C.fitData L = some ⟨1, v.map fun a => [a]⟩) (X : DMat ℝ) (hX : X.WF) :
    (b = true → X.ncols ≤ v.length → run C (fun _ => none) (ops ++ [.ask n (.predict X)]) =
      .ok (w, seen ++ [.answer (X.rows.map fun r => (List.zipWith (· * ·) r v).sum + v.getLast hv)])) ∧
    (b = true → v.length < X.ncols → run C (fun _ => none) (ops ++ [.ask n (.predict X)]) = .ub) ∧
    (b = false → X.ncols ≠ v.length → run C (fun _ => none) (ops ++ [.ask n (.predict X)]) = .ub) ∧
    (b = false → X.ncols = v.length → run C (fun _ => none) (ops ++ [.ask n (.predict X)]) =
      .ok (w, seen ++ [.answer (X.rows.map fun r => (List.zipWith (· * ·) r v).sum)])) := by
  have hask : C.ask ⟨1, v.map fun a => [a]⟩ (.predict X) = LinearFit.predictLabel b v X := by
    rw [hC]
    simp only [askBase]
    rw [show (⟨1, v.map fun a => [a]⟩ : DMat ℝ) = ofVector v from rfl, asVector_ofVector, bind_ok']
  rw [C146_history C hr hL, hW, Option.getD_some, hask]
  refine ⟨?_, ?_, ?_, ?_⟩
  · rintro rfl hle
    have hz : ∀ r ∈ X.rows, Loss.dotL r (v.take X.ncols) = (List.zipWith (· * ·) r v).sum := by
      intro r hr
      rw [Loss.dotL, ← hX r hr, zipWith_take]
    rw [LinearFit.predictLabel, if_pos rfl, if_pos hle, Loss.mulVec, if_pos (by simp [hle]), bind_ok', List.map_congr_left hz]
    have hl : readAt v (v.length - 1) = .ok (v.getLast hv) := by
      rw [readAt, List.getLast_eq_getElem, List.getElem?_eq_getElem]
    rw [hl, bind_ok', List.map_map]
    rfl
  · rintro rfl hlt
    rw [LinearFit.predictLabel, if_pos rfl, if_neg (by omega)]
  · rintro rfl hne
    simp only [LinearFit.predictLabel, Loss.mulVec, if_neg hne]
    rfl
  · rintro rfl he
    simp only [LinearFit.predictLabel, Loss.mulVec, if_pos he]
    rfl

namespace EstObject

/-- A lasso object without iterations, and a program that fits it, copies it and fits it again. -/
noncomputable def exampleLasso : Class (Nat → List Nat) Query (List ℝ) := lasso false 1 1 0 false

noncomputable def exampleOps : List (Op (Nat → List Nat) Query) :=
  [.construct 0, .fit 0 (fun _ => []) ⟨2, [[1, 2]]⟩ [1], .copy 1 0, .fit 0 (fun _ => []) ⟨1, [[1]]⟩ [1]]

theorem example_fit (perms : Nat → List Nat) (X : DMat ℝ) (y : List ℝ) :
    exampleLasso.fitData perms X y = .ok ⟨1, (List.replicate X.ncols 0).map fun a => [a]⟩ := rfl

theorem example_run : ∃ w, run exampleLasso (fun _ => none) exampleOps = .ok (w, [.done, .done, .done, .done]) := ⟨_, rfl⟩

theorem example_history : histories exampleOps 1 = some [(fun _ => [], ⟨2, [[1, 2]]⟩, [1])] ∧
    histories exampleOps 0 = some [(fun _ => [], ⟨2, [[1, 2]]⟩, [1]), (fun _ => [], ⟨1, [[1]]⟩, [1])] := ⟨rfl, rfl⟩

end EstObject

/-- Beside C146_history: the copy answers from the first fit although the original has been fitted again. -/
example : ∃ w, run exampleLasso (fun _ => none) (exampleOps ++ [.ask 1 (.predict ⟨2, [[3, 4]]⟩)]) =
    .ok (w, [.done, .done, .done, .done, .answer [0]]) := by
  obtain ⟨w, hw⟩ := example_run
  refine ⟨w, ?_⟩
  rw [C146_history exampleLasso hw example_history.1]
  have : lastSuccess exampleLasso.fitData [((fun _ => [] : Nat → List Nat), (⟨2, [[1, 2]]⟩ : DMat ℝ), ([1] : List ℝ))] =
    some ⟨1, [[0], [0]]⟩ := rfl
  rw [this, Option.getD_some]
  have : exampleLasso.ask ⟨1, [[0], [0]]⟩ (.predict ⟨2, [[3, 4]]⟩) = .ok [0] := by
    change LinearFit.predictLabel false [0, 0] ⟨2, [[3, 4]]⟩ = .ok [0]
    rw [LinearFit.predictLabel, if_neg (by decide), Loss.mulVec, if_pos (by rfl)]
    simp [Loss.dotL]
  rw [this]
  rfl

/-- Beside C146_refit and C146_copy: the program above has the objects 0 and 1, and statements on object 0 leave object 1 alone. -/
example : histories exampleOps 0 ≠ none ∧ histories exampleOps 1 ≠ none ∧
    (∀ op ∈ ([.fit 0 (fun _ => []) ⟨1, [[1]]⟩ [1]] : List (Op (Nat → List Nat) Query)), Leaves 1 op) ∧
    exampleOps = [.construct 0, .fit 0 (fun _ => []) ⟨2, [[1, 2]]⟩ [1]] ++ .copy 1 0 :: [.fit 0 (fun _ => []) ⟨1, [[1]]⟩ [1]] := by
  refine ⟨by rw [example_history.2]; simp, by rw [example_history.1]; simp, ?_, rfl⟩
  intro op hop
  rw [List.mem_singleton] at hop
  subst hop
  exact Nat.zero_ne_one

/-- Beside C146_columns: the weights of object 1 of the program above. -/
example : lastSuccess exampleLasso.fitData [((fun _ => [] : Nat → List Nat), (⟨2, [[1, 2]]⟩ : DMat ℝ), ([1] : List ℝ))] =
    some ⟨1, ([0, 0] : List ℝ).map fun a => [a]⟩ := rfl

/-- Beside C146_failed_fit, C146_unfitted and C146_unfitted_prob: a logistic regression with an unknown penalty throws at each fit. -/
example (m : LogisticObject.Members) (k : LogisticDraw) (X : DMat ℝ) (y : List ℝ) :
    (logistic { m with penalty := "l3" }).fitData k X y = .throw .invalidArgument ∧
    ∀ q, run (logistic { m with penalty := "l3" }) (fun _ => none) ([.construct 0, .fit 0 k X y] ++ [.ask 0 q]) = .ub := by
  have h : (logistic { m with penalty := "l3" }).fitData k X y = .throw .invalidArgument := by
    simp only [logistic, LogisticObject.fit, LinearFit.fitLogistic]
    rw [if_neg (by decide), if_neg (by decide)]
    rfl
  refine ⟨h, fun q => C146_unfitted_prob _ (Or.inl rfl) (L := [(k, X, y)]) (w := Function.update (fun _ => none) 0 (some fresh))
    (seen := [.done, .caught .invalidArgument]) ?_ rfl ?_ q⟩
  · simp only [run, step, Function.update_self, h, bind_ok']
  · intro c hc W
    rw [List.mem_singleton] at hc
    subst hc
    rw [h]
    simp

/-- Beside C146_lbfgs_forgets: its premises hold for every data set if the tolerance is the length of the first gradient. -/
example (m : LogisticObject.Members) (k : LogisticDraw) (g : List ℝ)
    (_hg : Loss.logGradient m.lambda (LinearFit.withOnes ⟨1, [[2]]⟩) [1] k.init = .ok g) :
    Real.sqrt (g.map fun a => a * a).sum ≤
      ({ m with tol := Real.sqrt (g.map fun a => a * a).sum } : LogisticObject.Members).tol *
        max 1 (Real.sqrt (k.init.map fun a => a * a).sum) :=
  le_mul_of_one_le_right (Real.sqrt_nonneg _) (le_max_left _ _)

/-- Beside C146_softmax_answers: with fewer samples than a batch softmax regression learns a matrix with a column per class. -/
example : ∃ W, (softmax 0 ⟨2, 4, 1, 1, fun _ => .ok 1, none⟩ false).fitData (fun _ => []) ⟨1, [[1], [2]]⟩ [0, 1] = .ok W ∧
    W.ncols = 2 ∧ W.nrows = 2 := by
  obtain ⟨W, h, h1, h2, -⟩ := C57_softmax_untrained 0 ⟨2, 4, 1, 1, fun _ => .ok 1, none⟩ rfl (fun i _ => ⟨1, rfl⟩) one_pos
    ⟨1, [[1], [2]]⟩ [0, 1] (by decide) (by decide)
  refine ⟨W, h, h2.trans ?_, h1⟩
  rw [List.dedup_eq_self.mpr (by simp)]
  rfl

end OpenML
