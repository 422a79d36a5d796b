import Verif.Props.LBFGSLosses
import Verif.Spec.Armijo

/-!
# L-BFGS with the Armijo condition (C151)
-/

namespace OpenML

open SGD (LossFn)
open Spec LBFGS Matrix

set_option linter.unusedSectionVars false

section
variable {α : Type} [Field α] [LinearOrder α] [IsStrictOrderedRing α]

namespace LBFGS

/-- What is known about the state with number `i` if the gradient is strictly monotone. -/
structure Rising (n : Nat) (p : LBFGS.Params α) (loss : LossFn α (List α)) (X : DMat α) (y : List α) (σ : Nat → State α) (i : Nat) :
    Prop where
  desc : Desc n p σ i
  grad : loss.gradient X y (σ i).x = .ok (σ i).g

variable {n : Nat} {policy : Policy} {p : LBFGS.Params α} {loss : LossFn α (List α)} {X : DMat α} {y : List α}

theorem rising_pair (hf : Factors p.search) (hm : StrictlyMonotone loss X y n) {σ : Nat → State α} {i : Nat}
    (hR : Rising n p loss X y σ i) {r : Found α} (hrg : r.g.length = n)
    (h : search policy p.search loss X y (σ i).fx (σ i).g (σ i).d (σ i).step (σ i).x = .ok (some r)) :
    0 < (vec n r.x - vec n (σ i).x) ⬝ᵥ (vec n r.g - vec n (σ i).g) := by
  have hx := hR.desc.inv.hx
  have hg := hR.desc.inv.hg
  obtain ⟨-, -, hrx, -, hgr, hstep, -⟩ := C53_success policy p.search hf loss X y _ _ _ _ _ r h
  have hdx : vec n r.x - vec n (σ i).x = r.step • vec n (σ i).d := by
    rw [hrx, vec_zipWith_step hx hR.desc.hd]
    abel
  have hlx : r.x.length = n := (search_lengths h).2.2.trans hx
  have hxne : r.x ≠ (σ i).x := by
    intro he
    rw [he, sub_self] at hdx
    have h0 : vec n (σ i).d = 0 := by
      rcases smul_eq_zero.mp hdx.symm with h | h
      · exact absurd h hstep.ne'
      · exact h
    have := hR.desc.desc
    rw [h0, zero_dotProduct] at this
    exact lt_irrefl _ this
  have := hm r.x (σ i).x r.g (σ i).g hlx hx hxne hgr hR.grad
  unfold diffProduct at this
  change 0 < Loss.dotL _ _ at this
  rw [← ofFn_vec hlx, ← ofFn_vec hx, ← ofFn_vec hrg, ← ofFn_vec hg, zipWith_ofFn, zipWith_ofFn, dotL_ofFn] at this
  exact this

/-- The step of the invariant from the product of the new pair. -/
theorem desc_next {σ : Nat → State α} {i : Nat} (hD : Desc n p σ i) {r : Found α} {pfx : List α} (hrx : r.x.length = n)
    (hp : 0 < (vec n r.x - vec n (σ i).x) ⬝ᵥ (vec n r.g - vec n (σ i).g))
    (hne : vec n r.g ≠ 0) (hu : update p (σ i) r pfx = .ok (σ (i + 1))) : Desc n p σ (i + 1) := by
  have hU := update_inv hD.inv hrx hu
  have hpos : ∀ N < i + 1, 0 < (pairOf n σ N).1 ⬝ᵥ (pairOf n σ N).2 := by
    intro N hN
    rcases Nat.lt_succ_iff_lt_or_eq.mp hN with h | rfl
    · exact hD.pos N h
    · unfold pairOf
      rw [hU.2.2.2.1, hU.2.2.2.2.2.1]
      exact hp
  obtain ⟨hinv, hyy, hm, hx, -, hg, hst, -, hdir⟩ := hU
  refine ⟨hinv, by rw [hdir]; simp, hpos, ?_, by rw [hst]; exact one_pos⟩
  rw [hdir, vec_ofFn, neg_dotProduct, neg_lt_zero, dotProduct_comm]
  have hyypos : 0 < (pairOf n σ i).2 ⬝ᵥ (pairOf n σ i).2 := dot_self_pos fun h => hyy (by rw [h, dotProduct_zero])
  refine bfgsList_pos (div_pos ?_ hyypos) _ ?_ _ (by rw [hg]; exact hne)
  · rw [dotProduct_comm]
    exact hpos i (by omega)
  · intro e he
    unfold recent at he
    obtain ⟨j, hj, rfl⟩ := List.mem_map.mp he
    exact hpos _ (by omega)

theorem Rising.congr {σ σ' : Nat → State α} {i : Nat} (h : Rising n p loss X y σ i) (he : ∀ j ≤ i, σ' j = σ j) :
    Rising n p loss X y σ' i :=
  ⟨h.desc.congr he, by rw [he i le_rfl]; exact h.grad⟩

theorem rising_mainLoop {sqrt : α → α} (hsq : sqrt 0 = 0) (hf : Factors p.search) (htol : 0 ≤ p.tol) (hmem : 0 < p.memSize)
    (hp : 0 < p.past) (hT : TotalOn loss X y n) (hm : StrictlyMonotone loss X y n) (fuel : Nat) (σ : Nat → State α) (i : Nat)
    (hR : Rising n p loss X y σ i) (hl : (σ i).pfx.length = p.past) :
    (mainLoop sqrt policy p loss X y fuel (σ i) = .diverge ∧ (p.maxIter ≠ 0 → i < p.maxIter → i + fuel < p.maxIter)) ∨
    ∃ x, mainLoop sqrt policy p loss X y fuel (σ i) = .ok x ∧ x.length = n ∧
      (0 < p.search.ftol → x = (σ i).x ∨ ∃ f, loss.evaluate X y x = .ok f ∧ f < (σ i).fx) := by
  induction fuel generalizing σ i with
  | zero => exact Or.inl ⟨rfl, fun _ h => by omega⟩
  | succ fuel ih =>
    have hD := hR.desc
    obtain ⟨o, ho, hog⟩ := search_total (policy := policy) (p := p.search) hT (σ i).fx hD.inv.hx hD.hd hD.inv.hg (σ i).step
    rw [mainLoop]
    unfold iteration
    rw [ho, Res.bind_ok]
    cases o with
    | none => exact Or.inr ⟨_, rfl, hD.inv.hx, fun _ => Or.inl rfl⟩
    | some r =>
      have hrx : r.x.length = n := (search_lengths ho).2.2.trans hD.inv.hx
      have hrg := hog r rfl
      obtain ⟨-, -, -, hev, hgr, hst, hcond, -⟩ := C53_success policy p.search hf loss X y _ _ _ _ _ r ho
      have hlt : 0 < p.search.ftol → r.fx < (σ i).fx := by
        intro hft
        have h1 := hcond.1
        unfold Armijo at h1
        dsimp only at h1
        rw [zipWith_sum hD.hd hD.inv.hg] at h1
        have := mul_neg_of_pos_of_neg (mul_pos hft hst) hD.desc
        linarith
      dsimp only
      split
      · exact Or.inr ⟨_, rfl, hrx, fun h => Or.inr ⟨_, hev, hlt h⟩⟩
      · rename_i hcv
        obtain ⟨t, ht, htl⟩ := pastTest_total hp (σ i).k r.fx hl
        rw [ht, Res.bind_ok]
        cases t with
        | none => exact Or.inr ⟨_, rfl, hrx, fun h => Or.inr ⟨_, hev, hlt h⟩⟩
        | some pfx =>
          dsimp only
          split
          · exact Or.inr ⟨_, rfl, hrx, fun h => Or.inr ⟨_, hev, hlt h⟩⟩
          · rename_i hmx
            have hpair := rising_pair hf hm hR hrg ho
            obtain ⟨st', hu⟩ := update_total hD.inv hmem pfx hrx hrg hpair
            rw [hu, Res.bind_ok, Res.bind_ok]
            dsimp only
            have he : ∀ j ≤ i, Function.update σ (i + 1) st' j = σ j := fun j hj => Function.update_of_ne (by omega) _ _
            have e1 : Function.update σ (i + 1) st' (i + 1) = st' := Function.update_self _ _ _
            have hu' : update p (Function.update σ (i + 1) st' i) r pfx = .ok (Function.update σ (i + 1) st' (i + 1)) := by
              rw [e1, he i le_rfl]
              exact hu
            have hU := update_inv (hD.congr he).inv hrx hu'
            have hD' := desc_next (hD.congr he) hrx (by rw [he i le_rfl]; exact hpair)
              (not_converged_ne hsq htol hrg (by simpa using hcv)) hu'
            have hk := hD.inv.k
            have hR' : Rising n p loss X y (Function.update σ (i + 1) st') (i + 1) :=
              ⟨hD', by rw [hU.2.2.2.1, hU.2.2.2.2.2.1]; exact hgr⟩
            have := ih (Function.update σ (i + 1) st') (i + 1) hR' (by rw [hU.2.2.2.2.2.2.2.1]; exact htl pfx rfl)
            rw [hU.2.2.2.1, hU.2.2.2.2.1, e1] at this
            rcases this with ⟨h1, h2⟩ | ⟨x, h1, h2, h3⟩
            · refine Or.inl ⟨h1, fun h4 h5 => ?_⟩
              have := h2 h4 (by by_contra hc; exact hmx ⟨h4, by omega⟩)
              omega
            · refine Or.inr ⟨x, h1, h2, fun h4 => Or.inr ?_⟩
              rcases h3 h4 with rfl | ⟨f, h5, h6⟩
              · exact ⟨_, hev, hlt h4⟩
              · exact ⟨f, h5, h6.trans (hlt h4)⟩

theorem sum_squares_pos {c : List α} {a : α} (ha : a ∈ c) (h : a ≠ 0) : 0 < (c.map fun a => a * a).sum := by
  have hnn : ∀ c : List α, 0 ≤ (c.map fun a => a * a).sum := fun c => List.sum_nonneg fun b hb => by
    obtain ⟨z, -, rfl⟩ := List.mem_map.mp hb
    exact mul_self_nonneg z
  induction c with
  | nil => cases ha
  | cons b c ih =>
    rw [List.map_cons, List.sum_cons]
    rcases List.mem_cons.mp ha with rfl | h'
    · exact add_pos_of_pos_of_nonneg (mul_self_pos.mpr h) (hnn c)
    · exact add_pos_of_nonneg_of_pos (mul_self_nonneg b) (ih h')

theorem neg_self_sum (c : List α) : (List.zipWith (· * ·) (c.map fun a => -a) c).sum = -(c.map fun a => a * a).sum := by
  induction c with
  | nil => simp
  | cons a c ih =>
    simp only [List.map_cons, List.zipWith_cons_cons, List.sum_cons, ih]
    ring

theorem line_sum (c x : List α) (t : α) (h : x.length = c.length) :
    (List.zipWith (· * ·) c (List.zipWith (fun a b => a + t * b) x (c.map fun a => -a))).sum =
      (List.zipWith (· * ·) c x).sum - t * (c.map fun a => a * a).sum := by
  induction c generalizing x with
  | nil => simp
  | cons a c ih =>
    cases x with
    | nil => simp at h
    | cons b x =>
      simp only [List.map_cons, List.zipWith_cons_cons, List.sum_cons]
      rw [ih x (by simpa using h)]
      ring

theorem zero_dot (c l : List α) (h : l.length = c.length) : Loss.dotL (List.zipWith (· - ·) c c) l = 0 := by
  induction c generalizing l with
  | nil => simp [Loss.dotL]
  | cons a c ih =>
    cases l with
    | nil => simp at h
    | cons b l =>
      simp only [Loss.dotL, List.zipWith_cons_cons, List.sum_cons]
      have := ih l (by simpa using h)
      unfold Loss.dotL at this
      rw [this]
      ring

end LBFGS

/-- C151: on a loss with a strictly monotone gradient L-BFGS cannot fail, whatever condition the line search uses, the Armijo
condition included. It ends within the maximal number of iterations, if there is one; the weights have the right length, and they
have a strictly smaller loss than the initial ones or are the initial ones. -/
theorem C151_total (sqrt : α → α) (hsq : sqrt 0 = 0) (hsq' : ∀ a, 0 < a → 0 < sqrt a) (p : LBFGS.Params α)
    (hpol : p.policy = "backtracking" ∨ p.policy = "bracketing") (hf : Factors p.search) (htol : 0 ≤ p.tol) (hmem : 0 < p.memSize)
    (hp : 0 < p.past) (junk : Nat → α) (fuel : Nat) (loss : LossFn α (List α)) (X : DMat α) (y x0 : List α)
    (hT : TotalOn loss X y x0.length) (hm : StrictlyMonotone loss X y x0.length) :
    (LBFGS.optimize sqrt p junk fuel loss X y x0 = .diverge ∧ (p.maxIter ≠ 0 → fuel < p.maxIter)) ∨
    ∃ o, LBFGS.optimize sqrt p junk fuel loss X y x0 = .ok o ∧ ∀ x, o = some x → x.length = x0.length ∧
      (0 < p.search.ftol → x = x0 ∨ ∃ f0 f, loss.evaluate X y x0 = .ok f0 ∧ loss.evaluate X y x = .ok f ∧ f < f0) := by
  obtain ⟨policy, hpo⟩ : ∃ q, policyOf p.policy = .ok q := by
    unfold policyOf
    rcases hpol with h | h <;> rw [h] <;> exact ⟨_, rfl⟩
  obtain ⟨⟨f, hfe⟩, g, hg, hgl⟩ := hT x0 rfl
  unfold LBFGS.optimize
  rw [hpo, Res.bind_ok, hfe, Res.bind_ok, hg, Res.bind_ok]
  split
  · exact Or.inr ⟨_, rfl, fun x h => by cases h⟩
  · rename_i hcv
    have hne := not_converged_ne hsq htol hgl (by simpa using hcv)
    have hnorm : 0 < LBFGS.norm sqrt (g.map fun a => -a) := by
      unfold LBFGS.norm
      apply hsq'
      have h1 : vec x0.length (g.map fun a => -a) = -vec x0.length g := by
        conv_lhs => rw [← ofFn_vec hgl, map_ofFn', vec_ofFn]
        rfl
      have h2 := zipWith_sum (a := g.map fun a => -a) (b := g.map fun a => -a) (n := x0.length) (by simpa using hgl)
        (by simpa using hgl)
      unfold Loss.dotL
      rw [h2, h1, neg_dotProduct_neg]
      exact dot_self_pos hne
    rw [quot_ok hnorm.ne', Res.bind_ok]
    rcases rising_mainLoop (policy := policy) hsq hf htol hmem hp hT hm fuel
      (fun _ => initial p junk x0 g f (1 / LBFGS.norm sqrt (g.map fun a => -a))) 0
      ⟨desc_initial p junk x0 g f _ rfl hgl hne (by positivity) _ rfl, hg⟩
      (by simp only [initial, List.length_cons, List.length_map, List.length_range]; omega) with ⟨h1, h2⟩ | ⟨x, h1, h2, h3⟩
    · rw [h1]
      exact Or.inl ⟨rfl, fun h => by have := h2 h (by omega); omega⟩
    · rw [h1, Res.bind_ok]
      refine Or.inr ⟨_, rfl, fun z hz => ?_⟩
      cases hz
      refine ⟨h2, fun h4 => ?_⟩
      rcases h3 h4 with h | ⟨f', h5, h6⟩
      · exact Or.inl h
      · exact Or.inr ⟨f, f', rfl, h5, h6⟩

/-- C151: in such runs all directions are directions of strict descent and all correction pairs have positive products. -/
theorem C151_descent (sqrt : α → α) (hsq : sqrt 0 = 0) (policy : Policy) (p : LBFGS.Params α) (hf : Factors p.search)
    (htol : 0 ≤ p.tol) (loss : LossFn α (List α)) (X : DMat α) (y : List α) (σ : Nat → State α) (K : Nat)
    (h : IsIterates sqrt policy p loss X y σ K) (junk : Nat → α) (x0 g0 : List α) (hm : StrictlyMonotone loss X y x0.length)
    (f0 step : α) (h0 : σ 0 = initial p junk x0 g0 f0 step) (hgr : loss.gradient X y x0 = .ok g0) (hg0 : g0.length = x0.length)
    (hs : 0 < step) (hne : ∃ a ∈ g0, a ≠ 0) :
    (∀ i ≤ K, (List.zipWith (· * ·) (σ i).d (σ i).g).sum < 0) ∧
    ∀ i < K, 0 < diffProduct (σ (i + 1)).x (σ i).x (σ (i + 1)).g (σ i).g := by
  have hne' : vec x0.length g0 ≠ 0 := by
    intro h
    obtain ⟨a, ha, hane⟩ := hne
    obtain ⟨i, hi, rfl⟩ := List.getElem_of_mem ha
    apply hane
    have := congrFun h ⟨i, hg0 ▸ hi⟩
    simpa [vec, List.getD_eq_getElem?_getD, hi] using this
  have hR : ∀ i ≤ K, Rising x0.length p loss X y σ i := by
    intro i
    induction i with
    | zero => exact fun _ => ⟨desc_initial p junk x0 g0 f0 step rfl hg0 hne' hs σ h0, by rw [h0]; exact hgr⟩
    | succ i ih =>
      intro hi
      have hR := ih (by omega)
      obtain ⟨r, pfx, hls, hc, -, -, hu⟩ := iteration_inr (h i (by omega))
      have hrx := (search_lengths hls).2.2.trans hR.desc.inv.hx
      have hU := update_inv hR.desc.inv hrx hu
      have hrg : r.g.length = x0.length := by rw [← hU.2.2.2.2.2.1]; exact hU.1.hg
      have hgr := (C53_success policy p.search hf loss X y _ _ _ _ _ r hls).2.2.2.2.1
      exact ⟨desc_next hR.desc hrx (rising_pair hf hm hR hrg hls) (not_converged_ne hsq htol hrg hc) hu,
        by rw [hU.2.2.2.1, hU.2.2.2.2.2.1]; exact hgr⟩
  refine ⟨fun i hi => ?_, fun i hi => ?_⟩
  · rw [zipWith_sum (hR i hi).desc.hd (hR i hi).desc.inv.hg]
    exact (hR i hi).desc.desc
  · have h1 := (hR (i + 1) hi).desc.pos i (by omega)
    unfold diffProduct
    change 0 < Loss.dotL _ _
    rw [← ofFn_vec (hR (i + 1) hi).desc.inv.hx, ← ofFn_vec (hR i hi.le).desc.inv.hx, ← ofFn_vec (hR (i + 1) hi).desc.inv.hg,
      ← ofFn_vec (hR i hi.le).desc.inv.hg, zipWith_ofFn, zipWith_ofFn, dotL_ofFn]
    exact h1

/-- C151: without this assumption the Armijo condition does not protect from divisions by zero. On each linear loss with a nonzero
gradient the first step is accepted and the gradient does not change, so that the next direction is undefined; only the tests of
the gradient and of the loss or an iteration limit of one could prevent this. -/
theorem C151_linear (sqrt : α → α) (hsq' : ∀ a, 0 < a → 0 < sqrt a) (p : LBFGS.Params α)
    (hpol : p.policy = "backtracking" ∨ p.policy = "bracketing") (hc : p.search.condition = "ARMIJO") (hft : p.search.ftol ≤ 1)
    (htol : p.tol ≤ 0) (hdelta : p.delta ≤ 0) (hmax : p.maxIter ≠ 1) (junk : Nat → α) (fuel : Nat) (loss : LossFn α (List α))
    (X : DMat α) (y c : List α) (b : α) (hL : IsLinear loss X y c b) (hne : ∃ a ∈ c, a ≠ 0) (x0 : List α)
    (hx : x0.length = c.length) : LBFGS.optimize sqrt p junk (fuel + 1) loss X y x0 = .ub := by
  obtain ⟨policy, hpo⟩ : ∃ q, policyOf p.policy = .ok q := by
    unfold policyOf
    rcases hpol with h | h <;> rw [h] <;> exact ⟨_, rfl⟩
  have hcc : 0 < (c.map fun a => a * a).sum := by
    obtain ⟨a, ha, hane⟩ := hne
    exact LBFGS.sum_squares_pos ha hane
  have hlen : 0 < len sqrt c := hsq' _ hcc
  have hcv : ∀ x, converged sqrt p.tol x c = false := by
    intro x
    rw [Bool.eq_false_iff, ne_eq, converged_iff, not_le]
    exact lt_of_le_of_lt (mul_nonpos_of_nonpos_of_nonneg htol (le_trans zero_le_one (le_max_left _ _))) hlen
  have hneg : (List.zipWith (· * ·) (c.map fun a => -a) c).sum = -(c.map fun a => a * a).sum := LBFGS.neg_self_sum c
  have hnorm : LBFGS.norm sqrt (c.map fun a => -a) = len sqrt c := by
    rw [norm_eq]
    unfold len
    rw [List.map_map]
    congr 3
    funext a
    simp
  unfold LBFGS.optimize
  rw [hpo, Res.bind_ok, (hL x0 hx).1, Res.bind_ok, (hL x0 hx).2, Res.bind_ok, hcv, if_neg (by simp), hnorm, quot_ok hlen.ne',
    Res.bind_ok]
  set t := 1 / len sqrt c with ht
  have htpos : 0 < t := by rw [ht]; positivity
  set f0 := (List.zipWith (· * ·) c x0).sum + b with hf0
  set x1 := List.zipWith (fun a b => a + t * b) x0 (c.map fun a => -a) with hx1
  have hlx : x1.length = c.length := by rw [hx1]; simp [hx]
  have hsum : (List.zipWith (· * ·) c x1).sum = (List.zipWith (· * ·) c x0).sum - t * (c.map fun a => a * a).sum := by
    rw [hx1]
    exact LBFGS.line_sum c x0 t hx
  have hsearch : search policy p.search loss X y f0 c (c.map fun a => -a) t x0 =
      .ok (some ⟨1, x1, (List.zipWith (· * ·) c x1).sum + b, c, t⟩) := by
    have hprobe : probe p.search loss X y f0 (-(c.map fun a => a * a).sum) x0 (c.map fun a => -a) 0 t =
        .ok (.accept, ⟨1, x1, (List.zipWith (· * ·) c x1).sum + b, c, t⟩) := by
      unfold probe
      rw [addV_eq_ok.mpr ⟨by simp [hx], rfl⟩, Res.bind_ok, zipWith_step, ← hx1, (hL x1 hlx).1, Res.bind_ok, (hL x1 hlx).2, Res.bind_ok]
      unfold verdict
      rw [if_neg, if_pos hc, Res.bind_ok]
      rw [gt_iff_lt, not_lt, hsum, hf0]
      have : p.search.ftol * (t * (c.map fun a => a * a).sum) ≤ 1 * (t * (c.map fun a => a * a).sum) :=
        mul_le_mul_of_nonneg_right hft (mul_pos htpos hcc).le
      linarith
    unfold search
    rw [if_neg (not_le.mpr htpos), dot_ok (by simp), Res.bind_ok]
    change (if (List.zipWith (· * ·) (c.map fun a => -a) c).sum > 0 then _ else _) = _
    unfold Loss.dotL
    rw [hneg, if_neg (by linarith)]
    cases p.search.maxLinesearch - 1 with
    | zero => rw [searchLoop, hprobe, Res.bind_ok, if_pos rfl]
    | succ m => rw [searchLoop, hprobe, Res.bind_ok, if_pos rfl]
  rw [mainLoop]
  unfold iteration
  have e : search policy p.search loss X y (initial p junk x0 c f0 t).fx (initial p junk x0 c f0 t).g (initial p junk x0 c f0 t).d
      (initial p junk x0 c f0 t).step (initial p junk x0 c f0 t).x = .ok (some ⟨1, x1, (List.zipWith (· * ·) c x1).sum + b, c, t⟩) :=
    hsearch
  rw [e, Res.bind_ok]
  dsimp only
  rw [hcv, if_neg (by simp)]
  by_cases hpast : p.past = 0
  · have : ∀ fx pfx, pastTest p 1 fx pfx = .ub := by
      intro fx pfx
      unfold pastTest
      rw [if_pos (by omega), if_pos hpast]
    change ((pastTest p 1 _ _ >>= _) >>= _) >>= _ = _
    rw [this]
    rfl
  · obtain ⟨o, ho, -⟩ := pastTest_total (p := p) (Nat.pos_of_ne_zero hpast) (initial p junk x0 c f0 t).k
      ((List.zipWith (· * ·) c x1).sum + b) (pfx := (initial p junk x0 c f0 t).pfx)
      (by simp only [initial, List.length_cons, List.length_map, List.length_range]; omega)
    obtain ⟨pfx, rfl⟩ : ∃ pfx, o = some pfx := by
      cases o with
      | some pfx => exact ⟨pfx, rfl⟩
      | none =>
        exfalso
        unfold pastTest at ho
        split at ho
        · obtain ⟨v, -, ho⟩ := Res.bind_eq_ok.mp ho
          split at ho
          · rename_i h
            have h2 : (0 : α) < max |(List.zipWith (· * ·) c x1).sum + b| 1 := lt_of_lt_of_le one_pos (le_max_right _ _)
            have := div_nonneg (abs_nonneg (v - ((List.zipWith (· * ·) c x1).sum + b))) h2.le
            linarith
          · cases ho
        · cases ho
    rw [ho, Res.bind_ok]
    dsimp only
    rw [if_neg (by rintro ⟨h1, h2⟩; change p.maxIter < 1 + 1 at h2; omega)]
    have hu : update p (initial p junk x0 c f0 t) ⟨1, x1, (List.zipWith (· * ·) c x1).sum + b, c, t⟩ pfx = .ub := by
      unfold update
      by_cases hm0 : p.memSize = 0
      · dsimp only [initial]
        rw [subV_eq_ok.mpr ⟨hlx.trans hx.symm, rfl⟩, Res.bind_ok, subV_eq_ok.mpr ⟨rfl, rfl⟩, Res.bind_ok,
          dot_ok (by simp [hlx, hx]), Res.bind_ok, dot_ok rfl, Res.bind_ok]
        unfold writeMem
        rw [if_neg (by simp [hm0])]
        rfl
      have hb : (if p.memSize ≤ (initial p junk x0 c f0 t).k then p.memSize else (initial p junk x0 c f0 t).k) = 1 := by
        change (if p.memSize ≤ 1 then p.memSize else 1) = 1
        split <;> omega
      rw [hb]
      dsimp only [initial]
      rw [subV_eq_ok.mpr ⟨hlx.trans hx.symm, rfl⟩, Res.bind_ok, subV_eq_ok.mpr ⟨rfl, rfl⟩, Res.bind_ok]
      have hz : ∀ l : List α, l.length = c.length → Loss.dotL (List.zipWith (· - ·) c c) l = 0 := LBFGS.zero_dot c
      rw [dot_ok (by simp [hlx, hx]), Res.bind_ok, dot_ok rfl, Res.bind_ok, hz _ (by simp [hlx, hx])]
      unfold writeMem
      split
      · rename_i hm
        rw [List.length_replicate] at hm
        rw [Res.bind_ok]
        unfold direction
        rw [loop1, if_neg hm.ne']
        dsimp only
        have hr := ring_pred p.memSize 0 hm
        rw [hr, readMem_eq_ok.mpr (by rw [Nat.zero_mod, List.getElem?_set_self (by simpa using hm)]), Res.bind_ok,
          dot_ok (by simp [hlx, hx]), Res.bind_ok]
        have hq : ∀ a : α, quot a 0 = .ub := fun a => if_pos rfl
        rw [hq]
        rfl
      · rfl
    rw [hu]
    rfl

theorem LBFGS.monotone_of_strong {loss : LossFn α (List α)} {X : DMat α} {y : List α} {n : Nat} {mu : α} (h0 : 0 < mu)
    (hmu : StrongConvexity loss X y n mu) (hT : TotalOn loss X y n) : StrictlyMonotone loss X y n := by
  intro u v gu gv hu hv hne hgu hgv
  obtain ⟨⟨fu, eu⟩, gu', hgu', lu⟩ := hT u hu
  obtain ⟨⟨fv, ev⟩, gv', hgv', lv⟩ := hT v hv
  rw [hgu] at hgu'
  rw [hgv] at hgv'
  obtain rfl := Res.ok.inj hgu'
  obtain rfl := Res.ok.inj hgv'
  have h := slope_lower hmu hv hu lv lu ev eu hgv hgu
  have hvne : vec n u - vec n v ≠ 0 := by
    intro h
    apply hne
    rw [← ofFn_vec hu, ← ofFn_vec hv, sub_eq_zero.mp h]
  have := lt_of_lt_of_le (mul_pos h0 (dot_self_pos hvne)) h
  unfold diffProduct
  change 0 < Loss.dotL _ _
  rw [← ofFn_vec hu, ← ofFn_vec hv, ← ofFn_vec lu, ← ofFn_vec lv, zipWith_ofFn, zipWith_ofFn, dotL_ofFn]
  exact this

end

open LBFGSLosses Loss LinearFit LogisticObject Descent

/-- C151: with a positive ridge factor the gradients of the mean squared error and of the log loss are strictly monotone. -/
theorem C151_losses (lambda : ℝ) (hl : 0 < lambda) (X : DMat ℝ) (hX : X.WF) (hn : X.nrows ≠ 0) (y : List ℝ)
    (hy : y.length = X.nrows) :
    StrictlyMonotone ⟨mseEvaluate lambda, mseGradient lambda⟩ X y X.ncols ∧
    StrictlyMonotone ⟨logEvaluate lambda, logGradient lambda⟩ X y X.ncols := by
  have h0 : 0 < lambda / X.nrows := div_pos hl (by exact_mod_cast Nat.pos_of_ne_zero hn)
  exact ⟨monotone_of_strong h0 (mean_strong _ _ _ lambda halfSquare_tangent (isMean_mse lambda) X hX hn y hy)
      (mean_total _ _ _ lambda (isMean_mse lambda) X hX y hy),
    monotone_of_strong h0 (mean_strong _ _ _ lambda crossEntropy_tangent (isMean_log lambda) X hX hn y hy)
      (mean_total _ _ _ lambda (isMean_log lambda) X hX y hy)⟩

/-- C151: `fit` of logistic regression with the solver "lbfgs", a positive ridge factor and an iteration limit succeeds for all
data, whatever the condition of the line search is called. -/
theorem C151_logistic (m : Members) (hp : m.penalty = "l2" ∨ m.penalty = "None") (hs : m.solver = "lbfgs") (hl : 0 < m.lambda)
    (hpol : m.policy = "backtracking" ∨ m.policy = "bracketing") (htol : 0 ≤ m.tol) (hmem : 0 < m.memSize) (hpast : 0 < m.past)
    (hmax : m.maxIter ≠ 0) (perms : Nat → List Nat) (junk : Nat → ℝ) (fuel : Nat) (hfuel : m.maxIter ≤ fuel) (X : DMat ℝ) (hX : X.WF)
    (hn : X.nrows ≠ 0) (y : List ℝ) (hy : y.length = X.nrows) (init : List ℝ) (hi : init.length = X.ncols + 1) :
    ∃ w, fit m perms junk fuel X y init = .ok w ∧ (w = [] ∨ w.length = X.ncols + 1) := by
  have hnr : (withOnes X).nrows = X.nrows := by simp [withOnes, DMat.nrows]
  have hd : init.length = (withOnes X).ncols := hi
  have hT := mean_total _ _ _ m.lambda (isMean_log m.lambda) (withOnes X) (withOnes_wf X hX) y (by rw [hnr]; exact hy)
  have hM := (C151_losses m.lambda hl (withOnes X) (withOnes_wf X hX) (by rw [hnr]; exact hn) y (by rw [hnr]; exact hy)).2
  rw [← hd] at hT hM
  rw [fit_lbfgs m perms junk fuel X y init hp hs]
  rcases C151_total Real.sqrt Real.sqrt_zero (fun a ha => Real.sqrt_pos.mpr ha) (lbfgsParams m) hpol
    (by constructor <;> norm_num [lbfgsParams]) htol hmem hpast junk fuel ⟨logEvaluate m.lambda, logGradient m.lambda⟩ (withOnes X) y init
    hT hM with ⟨-, h⟩ | ⟨o, h1, h2⟩
  · have : fuel < m.maxIter := h hmax
    omega
  · rw [h1, Res.bind_ok]
    cases o with
    | none => exact ⟨[], rfl, Or.inl rfl⟩
    | some x => exact ⟨x, rfl, Or.inr ((h2 x rfl).1.trans hi)⟩

/-- The loss `a ^ 2 + 2 * b ^ 2` of two weights, with any data. -/
def dishLoss : LossFn ℚ (List ℚ) where
  evaluate _ _ w := .ok (List.zipWith (fun c a => c * a ^ 2) [1, 2] w).sum
  gradient _ _ w := .ok (List.zipWith (fun c a => 2 * c * a) [1, 2] w)

/-- Parameters with the Armijo condition: two correction pairs, backtracking. -/
def armijoParams : LBFGS.Params ℚ :=
  ⟨10, 2, 1, 0, 0, "backtracking", ⟨1 / 2, 21 / 10, 1 / 10000, 9 / 10, 100, 1 / 1000, 40, "ARMIJO"⟩⟩

/-- Example for `C151_total`: the loss `a ^ 2 + 2 * b ^ 2` has a strictly monotone gradient, so that L-BFGS with the Armijo condition
ends from all initial weights (with `v ↦ v` in place of the square root). -/
example (a b : ℚ) : StrictlyMonotone dishLoss ⟨2, []⟩ [] 2 ∧
    ∃ o, LBFGS.optimize id armijoParams (fun _ => 0) 10 dishLoss ⟨2, []⟩ [] [a, b] = .ok o := by
  have hT : TotalOn dishLoss ⟨2, []⟩ [] 2 := fun w hw => ⟨⟨_, rfl⟩, _, rfl, by simp [hw]⟩
  have hM : StrictlyMonotone dishLoss ⟨2, []⟩ [] 2 := by
    intro u v gu gv hu hv hne hgu hgv
    match u, v, hu, hv with
    | [a, b], [c, d], _, _ =>
      obtain rfl := Res.ok.inj hgu
      obtain rfl := Res.ok.inj hgv
      simp only [diffProduct, List.zipWith_cons_cons, List.zipWith_nil_left, List.sum_cons, List.sum_nil]
      have : (a - c) * (2 * 1 * a - 2 * 1 * c) + ((b - d) * (2 * 2 * b - 2 * 2 * d) + 0) = 2 * (a - c) ^ 2 + 4 * (b - d) ^ 2 := by ring
      rw [this]
      by_cases h : a - c = 0
      · have h2 : b - d ≠ 0 := fun h2 => hne (by rw [sub_eq_zero.mp h, sub_eq_zero.mp h2])
        positivity
      · positivity
  refine ⟨hM, ?_⟩
  rcases C151_total id rfl (fun _ h => h) armijoParams (Or.inl rfl) (by constructor <;> norm_num [armijoParams])
    (by norm_num [armijoParams]) (by decide) (by decide) (fun _ => 0) 10 dishLoss ⟨2, []⟩ [] [a, b] hT hM with ⟨-, h⟩ | ⟨o, h, -⟩
  · exact absurd (h (by decide)) (by decide)
  · exact ⟨o, h⟩

/-- The states of a run from the weights `(3, 1)`. -/
def dishRun : Nat → State ℚ
  | 0 => initial armijoParams (fun _ => 0) [3, 1] [6, 4] 11 (1 / 52)
  | i + 1 =>
    match iteration id .backtracking armijoParams dishLoss ⟨2, []⟩ [] (dishRun i) with
    | .ok (.inr st) => st
    | _ => dishRun i

/-- Example for `C151_descent`: three iterations with the Armijo condition. -/
example : IsIterates id .backtracking armijoParams dishLoss ⟨2, []⟩ [] dishRun 3 ∧
    dishRun 0 = initial armijoParams (fun _ => 0) [3, 1] [6, 4] 11 (1 / 52) ∧
    dishLoss.gradient ⟨2, []⟩ [] [3, 1] = .ok [6, 4] := by
  refine ⟨?_, rfl, by decide +kernel⟩
  unfold IsIterates
  decide +kernel

/-- The loss `a - 2 * b + 5` of two weights. -/
def slopeLoss : LossFn ℚ (List ℚ) where
  evaluate _ _ w := .ok ((List.zipWith (· * ·) [1, -2] w).sum + 5)
  gradient _ _ _ := .ok [1, -2]

/-- Example for `C151_linear`: the same parameters fail on the linear loss `a - 2 * b + 5`, from all initial weights. -/
example (a b : ℚ) : IsLinear slopeLoss ⟨2, []⟩ [] [1, -2] 5 ∧
    LBFGS.optimize id armijoParams (fun _ => 0) 10 slopeLoss ⟨2, []⟩ [] [a, b] = .ub := by
  have hL : IsLinear slopeLoss ⟨2, []⟩ [] [1, -2] 5 := fun w _ => ⟨rfl, rfl⟩
  exact ⟨hL, C151_linear id (fun _ h => h) armijoParams (Or.inl rfl) rfl (by norm_num [armijoParams]) le_rfl le_rfl (by decide)
    (fun _ => 0) 9 slopeLoss ⟨2, []⟩ [] [1, -2] 5 hL ⟨1, by simp, by norm_num⟩ [a, b] rfl⟩

/-- Example for `C151_losses` and `C151_logistic`: two samples without features, one of each class, with the Armijo condition. -/
example (a : ℝ) : ∃ m : Members, m.solver = "lbfgs" ∧ m.condition = "ARMIJO" ∧ ∀ perms junk, ∃ w,
    fit m perms junk 7 two [0, 1] [a] = .ok w ∧ (w = [] ∨ w.length = 1) := by
  let m : Members := ⟨false, false, 0, 1 / 2, 1 / 10, 0, 1 / 10, 9 / 10, 0, 0, 10, 0, 7, 1, 1, "lbfgs", "l2", "bracketing", "ARMIJO"⟩
  exact ⟨m, rfl, rfl, fun perms junk => C151_logistic m (Or.inl rfl) rfl (by norm_num [m]) (Or.inr rfl) (by norm_num [m]) Nat.one_pos
    Nat.one_pos (by change 7 ≠ 0; decide) perms junk 7 le_rfl two (by intro r hr; simp_all [two]) (by decide) [0, 1] rfl [a] rfl⟩

end OpenML
