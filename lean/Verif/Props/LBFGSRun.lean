import Verif.Props.LBFGS

/-!
# Whole runs of L-BFGS (C54, C83)
-/

namespace OpenML

open SGD (LossFn)
open Spec LBFGS Matrix

set_option linter.unusedSectionVars false

section
variable {α : Type} [Field α] [LinearOrder α] [IsStrictOrderedRing α]

namespace LBFGS

/-- The euclidean length, with a given square root. -/
def _root_.OpenML.Spec.len (sqrt : α → α) (v : List α) : α := sqrt (v.map fun a => a * a).sum

theorem norm_eq (sqrt : α → α) (v : List α) : norm sqrt v = len sqrt v := by
  unfold norm len Loss.dotL
  rw [List.zipWith_self]

theorem converged_iff (sqrt : α → α) (tol : α) (x g : List α) :
    converged sqrt tol x g = true ↔ len sqrt g ≤ tol * max 1 (len sqrt x) := by
  unfold converged
  rw [norm_eq, norm_eq]
  have h : (if len sqrt x < 1 then 1 else len sqrt x) = max 1 (len sqrt x) := by
    split
    · rename_i h
      rw [max_eq_left h.le]
    · rename_i h
      rw [max_eq_right (not_lt.mp h)]
  dsimp only
  rw [h, decide_eq_true_iff, div_le_iff₀ (lt_of_lt_of_le one_pos (le_max_left _ _))]

theorem search_decrease {policy : Policy} {p : SearchParams α} (hf : Factors p) (hft : 0 ≤ p.ftol) {loss : LossFn α (List α)}
    {X : DMat α} {y : List α} {fx : α} {g d : List α} {step : α} {xp : List α} {r : Found α}
    (h : search policy p loss X y fx g d step xp = .ok (some r)) : loss.evaluate X y r.x = .ok r.fx ∧ r.fx ≤ fx := by
  obtain ⟨-, hm, -, he, -, hs, hc, -⟩ := C53_success policy p hf loss X y fx g d step xp r h
  refine ⟨he, hc.1.trans ?_⟩
  have : p.ftol * r.step * (List.zipWith (· * ·) d g).sum ≤ 0 :=
    mul_nonpos_of_nonneg_of_nonpos (mul_nonneg hft hs.le) hm
  dsimp only
  linarith

theorem iteration_decrease {sqrt : α → α} {policy : Policy} {p : LBFGS.Params α} (hf : Factors p.search) (hft : 0 ≤ p.search.ftol)
    {loss : LossFn α (List α)} {X : DMat α} {y : List α} {f0 : α} {st : State α}
    (hst : loss.evaluate X y st.x = .ok st.fx ∧ st.fx ≤ f0) {o : List α ⊕ State α}
    (h : iteration sqrt policy p loss X y st = .ok o) :
    (∀ x, o = .inl x → ∃ f, loss.evaluate X y x = .ok f ∧ f ≤ f0) ∧
    (∀ st', o = .inr st' → loss.evaluate X y st'.x = .ok st'.fx ∧ st'.fx ≤ f0) := by
  unfold iteration at h
  obtain ⟨ls, hls, h⟩ := Res.bind_eq_ok.mp h
  cases ls with
  | none =>
    cases h
    exact ⟨fun x hx => by cases hx; exact ⟨_, hst.1, hst.2⟩, fun st' hx => by cases hx⟩
  | some r =>
    have hr := search_decrease hf hft hls
    have hr' : ∀ x, (Sum.inl r.x : List α ⊕ State α) = .inl x → ∃ f, loss.evaluate X y x = .ok f ∧ f ≤ f0 :=
      fun x hx => by cases hx; exact ⟨_, hr.1, hr.2.trans hst.2⟩
    dsimp only at h
    split at h
    · cases h
      exact ⟨hr', fun st' hx => by cases hx⟩
    · obtain ⟨t, ht, h⟩ := Res.bind_eq_ok.mp h
      cases t with
      | none =>
        cases h
        exact ⟨hr', fun st' hx => by cases hx⟩
      | some pfx =>
        dsimp only at h
        split at h
        · cases h
          exact ⟨hr', fun st' hx => by cases hx⟩
        · obtain ⟨st'', hu, h⟩ := Res.bind_eq_ok.mp h
          cases h
          refine ⟨fun x hx => (by cases hx), fun st' hx => ?_⟩
          cases hx
          unfold update at hu
          obtain ⟨_, -, hu⟩ := Res.bind_eq_ok.mp hu
          obtain ⟨_, -, hu⟩ := Res.bind_eq_ok.mp hu
          obtain ⟨_, -, hu⟩ := Res.bind_eq_ok.mp hu
          obtain ⟨_, -, hu⟩ := Res.bind_eq_ok.mp hu
          obtain ⟨_, -, hu⟩ := Res.bind_eq_ok.mp hu
          dsimp only at hu
          obtain ⟨_, -, hu⟩ := Res.bind_eq_ok.mp hu
          cases hu
          exact ⟨hr.1, hr.2.trans hst.2⟩

theorem mainLoop_decrease {sqrt : α → α} {policy : Policy} {p : LBFGS.Params α} (hf : Factors p.search) (hft : 0 ≤ p.search.ftol)
    {loss : LossFn α (List α)} {X : DMat α} {y : List α} {f0 : α} (fuel : Nat) (st : State α)
    (hst : loss.evaluate X y st.x = .ok st.fx ∧ st.fx ≤ f0) {x : List α}
    (h : mainLoop sqrt policy p loss X y fuel st = .ok x) : ∃ f, loss.evaluate X y x = .ok f ∧ f ≤ f0 := by
  induction fuel generalizing st with
  | zero => cases h
  | succ fuel ih =>
    rw [mainLoop] at h
    obtain ⟨o, ho, h⟩ := Res.bind_eq_ok.mp h
    have := iteration_decrease hf hft hst ho
    cases o with
    | inl x' =>
      cases h
      exact this.1 x rfl
    | inr st' => exact ih st' (this.2 st' rfl) h

end LBFGS

/-- C54: if `LBFGS::optimize` publishes weights, the loss there is not larger than the loss at the initial weights. -/
theorem C54_never_worse (sqrt : α → α) (p : LBFGS.Params α) (hf : Factors p.search) (hft : 0 ≤ p.search.ftol) (junk : Nat → α)
    (fuel : Nat) (loss : LossFn α (List α)) (X : DMat α) (y x0 x : List α)
    (h : LBFGS.optimize sqrt p junk fuel loss X y x0 = .ok (some x)) :
    ∃ f0 f, loss.evaluate X y x0 = .ok f0 ∧ loss.evaluate X y x = .ok f ∧ f ≤ f0 := by
  unfold LBFGS.optimize at h
  obtain ⟨policy, -, h⟩ := Res.bind_eq_ok.mp h
  obtain ⟨f0, hf0, h⟩ := Res.bind_eq_ok.mp h
  obtain ⟨g, -, h⟩ := Res.bind_eq_ok.mp h
  split at h
  · cases h
  · obtain ⟨step, -, h⟩ := Res.bind_eq_ok.mp h
    obtain ⟨x', hx', h⟩ := Res.bind_eq_ok.mp h
    cases h
    obtain ⟨f, h1, h2⟩ := mainLoop_decrease hf hft fuel _ (⟨hf0, le_rfl⟩ :
      loss.evaluate X y (initial p junk x0 g f0 step).x = .ok (initial p junk x0 g f0 step).fx ∧ _ ≤ f0) hx'
    exact ⟨f0, f, hf0, h1, h2⟩

/-- C54: nothing is published exactly if the initial weights already pass the test of the gradient. -/
theorem C54_stationary_start (sqrt : α → α) (p : LBFGS.Params α) (junk : Nat → α) (fuel : Nat) (loss : LossFn α (List α))
    (X : DMat α) (y x0 : List α) (hp : p.policy = "backtracking" ∨ p.policy = "bracketing") (f : α) (g : List α)
    (hev : loss.evaluate X y x0 = .ok f) (hgr : loss.gradient X y x0 = .ok g) :
    LBFGS.optimize sqrt p junk fuel loss X y x0 = .ok none ↔ len sqrt g ≤ p.tol * max 1 (len sqrt x0) := by
  obtain ⟨policy, hpol⟩ : ∃ q, policyOf p.policy = .ok q := by
    unfold policyOf
    rcases hp with h | h <;> rw [h] <;> exact ⟨_, rfl⟩
  unfold LBFGS.optimize
  rw [hpol, Res.bind_ok, hev, Res.bind_ok, hgr, Res.bind_ok, ← converged_iff]
  split
  · simp_all
  · rename_i hc
    constructor
    · intro h
      obtain ⟨step, -, h⟩ := Res.bind_eq_ok.mp h
      obtain ⟨x', -, h⟩ := Res.bind_eq_ok.mp h
      cases h
    · intro h
      exact absurd h hc

/-- C54: unknown names of line searches are rejected before anything else is done. -/
theorem C54_unknown_search (sqrt : α → α) (p : LBFGS.Params α) (junk : Nat → α) (fuel : Nat) (loss : LossFn α (List α))
    (X : DMat α) (y x0 : List α) (h1 : p.policy ≠ "backtracking") (h2 : p.policy ≠ "bracketing") :
    LBFGS.optimize sqrt p junk fuel loss X y x0 = .throw .invalidArgument := by
  unfold LBFGS.optimize policyOf
  rw [if_neg h1, if_neg h2]
  rfl

theorem searchLoop_factors (p : SearchParams α) (dec inc : α) (loss : LossFn α (List α)) (X : DMat α) (y : List α) (fxInit dgInit : α)
    (xp d : List α) (n : Nat) : ∀ (count : Nat) (step lo : α) (hi : Option α),
    searchLoop .bracketing { p with dec := dec, inc := inc } loss X y fxInit dgInit xp d n count step lo hi =
      searchLoop .bracketing p loss X y fxInit dgInit xp d n count step lo hi := by
  induction n with
  | zero => intro count step lo hi; rfl
  | succ n ih =>
    intro count step lo hi
    simp only [searchLoop]
    congr 1
    funext r
    split
    · rfl
    · split
      · rfl
      · split
        · rfl
        · exact ih _ _ _ _

/-- C54: with the bracketing search the factors by which a step is shortened or lengthened have no influence. -/
theorem C54_bracketing_factors (sqrt : α → α) (p : LBFGS.Params α) (hp : p.policy = "bracketing") (dec inc : α) (junk : Nat → α)
    (fuel : Nat) (loss : LossFn α (List α)) (X : DMat α) (y x0 : List α) :
    LBFGS.optimize sqrt { p with search := { p.search with dec := dec, inc := inc } } junk fuel loss X y x0 =
      LBFGS.optimize sqrt p junk fuel loss X y x0 := by
  have hpol : policyOf p.policy = .ok .bracketing := by rw [hp]; rfl
  have hsearch : ∀ fx g d step xp, search .bracketing { p.search with dec := dec, inc := inc } loss X y fx g d step xp =
      search .bracketing p.search loss X y fx g d step xp := by
    intro fx g d step xp
    simp only [search, searchLoop_factors]
  have hiter : ∀ s, iteration sqrt .bracketing { p with search := { p.search with dec := dec, inc := inc } } loss X y s =
      iteration sqrt .bracketing p loss X y s := by
    intro s
    unfold iteration
    rw [hsearch]
    rfl
  have hmain : ∀ fuel s, mainLoop sqrt .bracketing { p with search := { p.search with dec := dec, inc := inc } } loss X y fuel s =
      mainLoop sqrt .bracketing p loss X y fuel s := by
    intro fuel
    induction fuel with
    | zero => intro s; rfl
    | succ n ih =>
      intro s
      simp only [mainLoop, hiter]
      congr 1
      funext r
      split
      · rfl
      · exact ih _
  unfold LBFGS.optimize
  simp only [hpol, Res.bind_ok, hmain]
  rfl

/-- C54: with `past = 0` weights are published only if the first line search fails, which leaves the initial weights, or if the first
point found passes the test of the gradient; in all other runs there is a division by zero. -/
theorem C54_past_zero (sqrt : α → α) (p : LBFGS.Params α) (hp : p.past = 0) (junk : Nat → α) (fuel : Nat) (loss : LossFn α (List α))
    (X : DMat α) (y x0 x : List α) (h : LBFGS.optimize sqrt p junk fuel loss X y x0 = .ok (some x)) :
    x = x0 ∨ ∃ g, loss.gradient X y x = .ok g ∧ len sqrt g ≤ p.tol * max 1 (len sqrt x) := by
  unfold LBFGS.optimize at h
  obtain ⟨policy, -, h⟩ := Res.bind_eq_ok.mp h
  obtain ⟨f0, hf0, h⟩ := Res.bind_eq_ok.mp h
  obtain ⟨g, -, h⟩ := Res.bind_eq_ok.mp h
  split at h
  · cases h
  · obtain ⟨step, -, h⟩ := Res.bind_eq_ok.mp h
    obtain ⟨x', hx', h⟩ := Res.bind_eq_ok.mp h
    cases h
    cases fuel with
    | zero => cases hx'
    | succ fuel =>
      rw [mainLoop] at hx'
      obtain ⟨o, ho, hx'⟩ := Res.bind_eq_ok.mp hx'
      unfold iteration at ho
      obtain ⟨ls, hls, ho⟩ := Res.bind_eq_ok.mp ho
      cases ls with
      | none =>
        cases ho
        cases hx'
        exact Or.inl rfl
      | some r =>
        dsimp only at ho
        split at ho
        · rename_i hc
          cases ho
          cases hx'
          rw [converged_iff] at hc
          refine Or.inr ⟨r.g, ?_, hc⟩
          unfold search at hls
          split at hls
          · cases hls
          · obtain ⟨m0, hm0, hls⟩ := Res.bind_eq_ok.mp hls
            split at hls
            · cases hls
            · rename_i hm
              obtain ⟨pre, e, -, -, -, -, -, h3, -⟩ := searchLoop_run _ _ _ _ _ _ _ (not_lt.mp hm) _ _ _ _ _ _ _ _ hls
              exact h3
        · rw [show pastTest p (initial p junk x0 g f0 step).k r.fx (initial p junk x0 g f0 step).pfx = .ub by
            unfold pastTest
            rw [if_pos (by rw [hp]; exact Nat.zero_le _), if_pos hp]] at ho
          cases ho

namespace LBFGS

theorem bind_nd {β γ : Type} {x : Res β} {f : β → Res γ} (hx : x ≠ .diverge) (hf : ∀ a, x = .ok a → f a ≠ .diverge) :
    (x >>= f) ≠ .diverge := by
  cases x with
  | ok a => exact hf a rfl
  | throw e => intro h; cases h
  | ub => intro h; cases h
  | diverge => exact absurd rfl hx

theorem ite_nd {β : Type} {c : Prop} [Decidable c] {a b : Res β} (ha : a ≠ .diverge) (hb : b ≠ .diverge) :
    (if c then a else b) ≠ .diverge := by
  split
  · exact ha
  · exact hb

theorem ok_nd {β : Type} (a : β) : (Res.ok a) ≠ .diverge := fun h => by cases h

theorem ub_nd {β : Type} : (Res.ub : Res β) ≠ .diverge := fun h => by cases h

theorem loop1_nd (m : Nat) (mem : List (Option (Pair α))) (b j : Nat) (d : List α) (al : List (Option α)) :
    loop1 m mem b j d al ≠ .diverge := by
  induction b generalizing j d al with
  | zero => exact ok_nd _
  | succ b ih =>
    rw [loop1]
    refine ite_nd ub_nd ?_
    refine bind_nd (by unfold readMem; split <;> simp) fun e _ => ?_
    refine bind_nd (ite_nd (ok_nd _) ub_nd) fun sd _ => ?_
    refine bind_nd (ite_nd ub_nd (ok_nd _)) fun a _ => ?_
    refine bind_nd (ite_nd (ok_nd _) ub_nd) fun al _ => ?_
    refine bind_nd (ite_nd (ok_nd _) ub_nd) fun d _ => ?_
    exact ih _ _ _

theorem loop2_nd (m : Nat) (mem : List (Option (Pair α))) (al : List (Option α)) (b j : Nat) (d : List α) :
    loop2 m mem al b j d ≠ .diverge := by
  induction b generalizing j d with
  | zero => exact ok_nd _
  | succ b ih =>
    rw [loop2]
    refine ite_nd ub_nd ?_
    refine bind_nd (by unfold readMem; split <;> simp) fun e _ => ?_
    refine bind_nd (ite_nd (ok_nd _) ub_nd) fun sd _ => ?_
    refine bind_nd (ite_nd ub_nd (ok_nd _)) fun a _ => ?_
    refine bind_nd (by unfold readMem; split <;> simp) fun al _ => ?_
    refine bind_nd (ite_nd (ok_nd _) ub_nd) fun d _ => ?_
    exact ih _ _

theorem searchLoop_nd (policy : Policy) (p : SearchParams α) (loss : LossFn α (List α)) (X : DMat α) (y : List α)
    (h1 : ∀ w, loss.evaluate X y w ≠ .diverge) (h2 : ∀ w, loss.gradient X y w ≠ .diverge) (f0 m0 : α) (xp d : List α) (n c : Nat)
    (step lo : α) (hi : Option α) : searchLoop policy p loss X y f0 m0 xp d n c step lo hi ≠ .diverge := by
  have hp : ∀ c step, probe p loss X y f0 m0 xp d c step ≠ .diverge := by
    intro c step
    refine bind_nd (ite_nd (ok_nd _) ub_nd) fun x _ => bind_nd (h1 x) fun fx _ => bind_nd (h2 x) fun g _ => bind_nd ?_ fun v _ => ok_nd _
    refine ite_nd (ok_nd _) (ite_nd (ok_nd _) ?_)
    exact bind_nd (ite_nd (ok_nd _) ub_nd) fun dg _ => ite_nd (ok_nd _) (ite_nd (ok_nd _) (ite_nd (ok_nd _) (ok_nd _)))
  induction n generalizing c step lo hi with
  | zero => exact bind_nd (hp _ _) fun r _ => ite_nd (ok_nd _) (ok_nd _)
  | succ n ih => exact bind_nd (hp _ _) fun r _ => ite_nd (ok_nd _) (ite_nd (ok_nd _) (ite_nd (ok_nd _) (ih _ _ _ _)))

theorem update_nd (p : LBFGS.Params α) (st : State α) (r : Found α) (pfx : List α) : update p st r pfx ≠ .diverge := by
  refine bind_nd (ite_nd (ok_nd _) ub_nd) fun s _ => ?_
  refine bind_nd (ite_nd (ok_nd _) ub_nd) fun yv _ => ?_
  refine bind_nd (ite_nd (ok_nd _) ub_nd) fun ys _ => ?_
  refine bind_nd (ite_nd (ok_nd _) ub_nd) fun yy _ => ?_
  refine bind_nd (ite_nd (ok_nd _) ub_nd) fun mem _ => ?_
  refine bind_nd ?_ fun da _ => ok_nd _
  refine bind_nd (loop1_nd _ _ _ _ _ _) fun r _ => ?_
  exact bind_nd (ite_nd ub_nd (ok_nd _)) fun c _ => bind_nd (loop2_nd _ _ _ _ _ _) fun d _ => ok_nd _

theorem iteration_nd (sqrt : α → α) (policy : Policy) (p : LBFGS.Params α) (loss : LossFn α (List α)) (X : DMat α) (y : List α)
    (h1 : ∀ w, loss.evaluate X y w ≠ .diverge) (h2 : ∀ w, loss.gradient X y w ≠ .diverge) (st : State α) :
    iteration sqrt policy p loss X y st ≠ .diverge := by
  refine bind_nd ?_ fun ls _ => ?_
  · refine ite_nd (ok_nd _) (bind_nd (ite_nd (ok_nd _) ub_nd) fun m0 _ => ite_nd (ok_nd _) ?_)
    exact searchLoop_nd _ _ _ _ _ h1 h2 _ _ _ _ _ _ _ _ _
  · cases ls with
    | none => exact ok_nd _
    | some r =>
      refine ite_nd (ok_nd _) (bind_nd ?_ fun t _ => ?_)
      · refine ite_nd (ite_nd ub_nd (bind_nd ?_ fun v _ => ite_nd (ok_nd _) (ok_nd _))) (ok_nd _)
        unfold readAt
        split <;> simp
      · cases t with
        | none => exact ok_nd _
        | some pfx => exact ite_nd (ok_nd _) (bind_nd (update_nd _ _ _ _) fun st' _ => ok_nd _)

theorem mainLoop_iters {sqrt : α → α} {policy : Policy} {p : LBFGS.Params α} (hm : p.maxIter ≠ 0) {loss : LossFn α (List α)}
    {X : DMat α} {y : List α} (hd : ∀ st, iteration sqrt policy p loss X y st ≠ .diverge) (fuel : Nat) (st : State α)
    (h1 : 1 ≤ fuel) (h : p.maxIter < st.k + fuel) : mainLoop sqrt policy p loss X y fuel st ≠ .diverge := by
  induction fuel generalizing st with
  | zero => omega
  | succ fuel ih =>
    rw [mainLoop]
    intro hdiv
    cases hit : iteration sqrt policy p loss X y st with
    | ok o =>
      rw [hit, Res.bind_ok] at hdiv
      cases o with
      | inl x => cases hdiv
      | inr st' =>
        obtain ⟨r, pfx, -, -, -, hmax, hu⟩ := iteration_inr hit
        have hk : st'.k = st.k + 1 := by
          unfold update at hu
          obtain ⟨_, -, hu⟩ := Res.bind_eq_ok.mp hu
          obtain ⟨_, -, hu⟩ := Res.bind_eq_ok.mp hu
          obtain ⟨_, -, hu⟩ := Res.bind_eq_ok.mp hu
          obtain ⟨_, -, hu⟩ := Res.bind_eq_ok.mp hu
          obtain ⟨_, -, hu⟩ := Res.bind_eq_ok.mp hu
          dsimp only at hu
          obtain ⟨_, -, hu⟩ := Res.bind_eq_ok.mp hu
          cases hu
          rfl
        have : st.k + 1 ≤ p.maxIter := by
          by_contra hc
          exact hmax ⟨hm, by omega⟩
        exact ih st' (by omega) (by omega) hdiv
    | throw e => rw [hit] at hdiv; cases hdiv
    | ub => rw [hit] at hdiv; cases hdiv
    | diverge => exact hd st hit

end LBFGS

/-- C54: with a positive maximal number of iterations the loop ends after at most that many iterations (if the loss function
always terminates). -/
theorem C54_terminates (sqrt : α → α) (p : LBFGS.Params α) (hm : p.maxIter ≠ 0) (junk : Nat → α) (fuel : Nat)
    (hfuel : p.maxIter ≤ fuel) (loss : LossFn α (List α)) (X : DMat α) (y x0 : List α)
    (h1 : ∀ w, loss.evaluate X y w ≠ .diverge) (h2 : ∀ w, loss.gradient X y w ≠ .diverge) :
    LBFGS.optimize sqrt p junk fuel loss X y x0 ≠ .diverge := by
  refine bind_nd ?_ fun policy _ => bind_nd (h1 _) fun fx _ => bind_nd (h2 _) fun g _ => ite_nd (ok_nd _) ?_
  · refine ite_nd (ok_nd _) (ite_nd (ok_nd _) ?_)
    intro h
    cases h
  · refine bind_nd (ite_nd ub_nd (ok_nd _)) fun step _ => bind_nd ?_ fun x _ => ok_nd _
    exact mainLoop_iters hm (iteration_nd _ _ _ _ _ _ h1 h2) fuel _ (by omega) (by simp only [initial]; omega)

namespace LBFGS

/-- States that differ at most in the entries of `pfx` other than the first one. -/
def SameButJunk (s s' : State α) : Prop :=
  ∃ pfx', s' = { s with pfx := pfx' } ∧ s.pfx.head? = pfx'.head?

theorem update_pfx (p : LBFGS.Params α) (st : State α) (r : Found α) (pfx pfx' : List α) (st' : State α) :
    update p { st with pfx := pfx' } r pfx = .ok st' ↔ update p st r pfx = .ok st' := Iff.rfl

theorem update_change (p : LBFGS.Params α) (st : State α) (r : Found α) (pfx pfx' : List α) :
    update p st r pfx' = (update p st r pfx) >>= fun s => .ok { s with pfx := pfx' } := by
  unfold update
  simp only [bind_assoc, Res.bind_ok]

theorem mainLoop_junk (sqrt : α → α) (policy : Policy) (p : LBFGS.Params α) (hm : p.maxIter ≠ 0) (hp : p.maxIter ≤ p.past)
    (loss : LossFn α (List α)) (X : DMat α) (y : List α) (fuel : Nat) (st : State α) (pfx' : List α)
    (hh : st.pfx.head? = pfx'.head?) (hk : st.k ≤ p.maxIter) :
    mainLoop sqrt policy p loss X y fuel { st with pfx := pfx' } = mainLoop sqrt policy p loss X y fuel st := by
  induction fuel generalizing st pfx' with
  | zero => rfl
  | succ fuel ih =>
    rw [mainLoop, mainLoop]
    unfold iteration
    dsimp only
    rw [bind_assoc, bind_assoc]
    congr 1
    funext ls
    cases ls with
    | none => rfl
    | some r =>
      dsimp only
      split
      · rfl
      · by_cases hpk : p.past ≤ st.k
        · -- the last iteration: the first entry is compared, then the loop ends
          have hkk : st.k = p.past := by omega
          have hmax : p.maxIter ≠ 0 ∧ p.maxIter < st.k + 1 := ⟨hm, by omega⟩
          have hr : readAt pfx' 0 = readAt st.pfx 0 := by
            unfold readAt
            rw [← List.head?_eq_getElem?, ← List.head?_eq_getElem?, hh]
          unfold pastTest
          have h0 : ¬ p.past = 0 := by omega
          have h1 : p.maxIter ≠ 0 ∧ p.maxIter < p.past + 1 := by omega
          rw [if_pos hpk, if_pos hpk, if_neg h0, if_neg h0, hkk, Nat.mod_self, hr]
          cases readAt st.pfx 0 with
          | ok v =>
            simp only [Res.bind_ok]
            split
            · rfl
            · simp only [Res.bind_ok]
          | throw e => rfl
          | ub => rfl
          | diverge => rfl
        · unfold pastTest
          rw [if_neg hpk, if_neg hpk]
          simp only [Res.bind_ok]
          split
          · rfl
          · rename_i hmax
            have h1 : update p { st with pfx := pfx' } r pfx' = update p st r pfx' := rfl
            simp only [bind_assoc, Res.bind_ok]
            have h2 : update p { x := st.x, fx := st.fx, g := st.g, d := st.d, step := st.step, k := st.k, end' := st.end', mem := st.mem, al := st.al, pfx := pfx' } r pfx' = update p st r pfx' := rfl
            rw [h2, update_change p st r st.pfx pfx', bind_assoc]
            cases hu : update p st r st.pfx with
            | ok st' =>
              simp only [Res.bind_ok]
              refine ih st' pfx' ?_ ?_
              · unfold update at hu
                obtain ⟨_, -, hu⟩ := Res.bind_eq_ok.mp hu
                obtain ⟨_, -, hu⟩ := Res.bind_eq_ok.mp hu
                obtain ⟨_, -, hu⟩ := Res.bind_eq_ok.mp hu
                obtain ⟨_, -, hu⟩ := Res.bind_eq_ok.mp hu
                obtain ⟨_, -, hu⟩ := Res.bind_eq_ok.mp hu
                dsimp only at hu
                obtain ⟨_, -, hu⟩ := Res.bind_eq_ok.mp hu
                cases hu
                exact hh
              · unfold update at hu
                obtain ⟨_, -, hu⟩ := Res.bind_eq_ok.mp hu
                obtain ⟨_, -, hu⟩ := Res.bind_eq_ok.mp hu
                obtain ⟨_, -, hu⟩ := Res.bind_eq_ok.mp hu
                obtain ⟨_, -, hu⟩ := Res.bind_eq_ok.mp hu
                obtain ⟨_, -, hu⟩ := Res.bind_eq_ok.mp hu
                dsimp only at hu
                obtain ⟨_, -, hu⟩ := Res.bind_eq_ok.mp hu
                cases hu
                dsimp only
                omega
            | throw e => rfl
            | ub => rfl
            | diverge => rfl

end LBFGS

/-- C54: the content of the uninitialised entries of the array of past losses has no influence if `past` is at most one, or if the
number of iterations is limited to at most `past`. -/
theorem C54_defined_reads (sqrt : α → α) (p : LBFGS.Params α) (h : p.past ≤ 1 ∨ (p.maxIter ≠ 0 ∧ p.maxIter ≤ p.past))
    (junk junk' : Nat → α) (fuel : Nat) (loss : LossFn α (List α)) (X : DMat α) (y x0 : List α) :
    LBFGS.optimize sqrt p junk fuel loss X y x0 = LBFGS.optimize sqrt p junk' fuel loss X y x0 := by
  unfold LBFGS.optimize
  rcases h with h | ⟨h1, h2⟩
  · have : max 1 p.past - 1 = 0 := by omega
    simp only [initial, this, List.range_zero, List.map_nil]
  · congr 1
    funext policy
    congr 1
    funext fx
    congr 1
    funext g
    split
    · rfl
    · congr 1
      funext step
      have := mainLoop_junk sqrt policy p h1 h2 loss X y fuel (initial p junk x0 g fx step) (initial p junk' x0 g fx step).pfx rfl
        (by simp only [initial]; omega)
      rw [← this]
      rfl

end

/-- The square root of squares of rational numbers. -/
def ratSqrt (q : ℚ) : ℚ := (q.num.natAbs.sqrt : ℚ) / q.den.sqrt

/-- The loss `w ^ 4` of one weight. -/
def quarticLoss : LossFn ℚ (List ℚ) where
  evaluate _ _ w := .ok (w.map fun a => a ^ 4).sum
  gradient _ _ w := .ok (w.map fun a => 4 * a ^ 3)

/-- Parameters for the examples. -/
def exampleParams (maxIter past : Nat) : LBFGS.Params ℚ :=
  ⟨maxIter, 3, past, 1 / 1000, 1 / 1000, "backtracking", ⟨1 / 2, 21 / 10, 1 / 10000, 9 / 10, 100, 1 / 1000, 40, "WOLFE"⟩⟩

/-- Example for C54: the loss `w ^ 4` from weight 3 with at most 2 iterations. -/
example : Factors (exampleParams 2 3).search ∧ (0 : ℚ) ≤ (exampleParams 2 3).search.ftol ∧
    ∀ junk, LBFGS.optimize ratSqrt (exampleParams 2 3) junk 2 quarticLoss ⟨1, []⟩ [] [3] = .ok (some [30 / 19]) := by
  refine ⟨by constructor <;> norm_num [exampleParams], by norm_num [exampleParams], fun junk => ?_⟩
  rw [C54_defined_reads ratSqrt (exampleParams 2 3) (Or.inr ⟨by decide, by decide⟩) junk fun _ => 0]
  decide +kernel

/-- Example for C54: a start at the minimum publishes nothing, and with `past = 0` the second iteration is not reached. -/
example : LBFGS.optimize ratSqrt (exampleParams 2 3) (fun _ => 0) 2 quarticLoss ⟨1, []⟩ [] [0] = .ok none ∧
    LBFGS.optimize ratSqrt (exampleParams 5 0) (fun _ => 0) 5 quarticLoss ⟨1, []⟩ [] [1] = .ok (some [0]) ∧
    LBFGS.optimize ratSqrt (exampleParams 5 0) (fun _ => 0) 5 quarticLoss ⟨1, []⟩ [] [3] = .ub := by
  decide +kernel

/-- Example for `C54_bracketing_factors`: the loss `w ^ 4` from weight 1/3; with factors 1/5 and 5 the bracketing search finds the
same weights as before, the backtracking search finds others. -/
example : let p := exampleParams 1 3
    let q := { p.search with dec := 1 / 5, inc := 5 }
    LBFGS.optimize ratSqrt { p with policy := "bracketing" } (fun _ => 0) 1 quarticLoss ⟨1, []⟩ [] [1 / 3] = .ok (some [-1 / 6]) ∧
    LBFGS.optimize ratSqrt { p with policy := "bracketing", search := q } (fun _ => 0) 1 quarticLoss ⟨1, []⟩ [] [1 / 3] =
      .ok (some [-1 / 6]) ∧
    LBFGS.optimize ratSqrt { p with search := q } (fun _ => 0) 1 quarticLoss ⟨1, []⟩ [] [1 / 3] = .ok (some [2 / 15]) := by
  decide +kernel

/-- Without the hypotheses of `C54_defined_reads` uninitialised memory decides when the loop is left: with `past = 2` and four
iterations. -/
example : LBFGS.optimize ratSqrt (exampleParams 4 2) (fun _ => 0) 4 quarticLoss ⟨1, []⟩ [] [3] = .ok (some [515780 / 579541]) ∧
    LBFGS.optimize ratSqrt (exampleParams 4 2) (fun _ => (1020 / 871) ^ 4) 4 quarticLoss ⟨1, []⟩ [] [3] = .ok (some [1020 / 871]) := by
  decide +kernel

end OpenML
