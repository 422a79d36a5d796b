import Verif.Props.LBFGSRun

/-!
# L-BFGS with a Wolfe condition: descent directions and total correctness (C83)
-/

namespace OpenML

open SGD (LossFn)
open Spec LBFGS Matrix

set_option linter.unusedSectionVars false

section
variable {α : Type} [Field α] [LinearOrder α] [IsStrictOrderedRing α]

/-- A matrix with positive quadratic form. -/
def Spec.PosForm {n : Nat} (H : Matrix (Fin n) (Fin n) α) : Prop := ∀ v, v ≠ 0 → 0 < v ⬝ᵥ (H *ᵥ v)

namespace LBFGS

theorem dot_self_pos {n : Nat} {v : Fin n → α} (h : v ≠ 0) : 0 < v ⬝ᵥ v := by
  obtain ⟨i, hi⟩ := Function.ne_iff.mp h
  refine Finset.sum_pos' (fun j _ => mul_self_nonneg (v j)) ⟨i, Finset.mem_univ _, ?_⟩
  exact mul_self_pos.mpr hi

theorem bfgs_form {n : Nat} (H : Matrix (Fin n) (Fin n) α) (s y v : Fin n → α) (h : s ⬝ᵥ y ≠ 0) :
    v ⬝ᵥ (bfgs H s y *ᵥ v) = (v - (s ⬝ᵥ v / (s ⬝ᵥ y)) • y) ⬝ᵥ (H *ᵥ (v - (s ⬝ᵥ v / (s ⬝ᵥ y)) • y)) + (s ⬝ᵥ v) ^ 2 / (s ⬝ᵥ y) := by
  rw [bfgs_mulVec, dotProduct_add, dotProduct_smul, sub_dotProduct, smul_dotProduct, dotProduct_comm v s]
  simp only [smul_eq_mul]
  field_simp
  ring

theorem bfgs_pos {n : Nat} {H : Matrix (Fin n) (Fin n) α} (hH : PosForm H) {s y : Fin n → α} (h : 0 < s ⬝ᵥ y) :
    PosForm (bfgs H s y) := by
  intro v hv
  rw [bfgs_form H s y v h.ne']
  by_cases hq : v - (s ⬝ᵥ v / (s ⬝ᵥ y)) • y = 0
  · rw [hq, zero_dotProduct, zero_add]
    refine div_pos (pow_pos_of_ne_zero ?_) h
    intro h0
    rw [h0, zero_div, zero_smul, sub_zero] at hq
    exact hv hq
  · exact add_pos_of_pos_of_nonneg (hH _ hq) (div_nonneg (sq_nonneg _) h.le)
where
  pow_pos_of_ne_zero {a : α} (h : a ≠ 0) : 0 < a ^ 2 := by positivity

theorem bfgsList_pos {n : Nat} {c : α} (hc : 0 < c) (l : List ((Fin n → α) × (Fin n → α))) (h : ∀ e ∈ l, 0 < e.1 ⬝ᵥ e.2) :
    PosForm (bfgsList c l) := by
  induction l with
  | nil =>
    intro v hv
    rw [bfgsList, smul_mulVec, one_mulVec, dotProduct_smul, smul_eq_mul]
    exact mul_pos hc (dot_self_pos hv)
  | cons e l ih =>
    exact bfgs_pos (ih fun e he => h e (List.mem_cons_of_mem _ he)) (h e List.mem_cons_self)

theorem vec_zipWith_step {n : Nat} {x d : List α} (hx : x.length = n) (hd : d.length = n) (t : α) :
    vec n (List.zipWith (fun a b => a + t * b) x d) = vec n x + t • vec n d := by
  conv_lhs => rw [← ofFn_vec hx, ← ofFn_vec hd, zipWith_ofFn, vec_ofFn]
  rfl

theorem zipWith_sum {n : Nat} {a b : List α} (ha : a.length = n) (hb : b.length = n) :
    (List.zipWith (· * ·) a b).sum = vec n a ⬝ᵥ vec n b := by
  have := dotL_ofFn (vec n a) (vec n b)
  rw [ofFn_vec ha, ofFn_vec hb] at this
  exact this

/-- A successful search along a direction of descent gives a correction pair with positive product. -/
theorem search_pair_pos {policy : Policy} {p : SearchParams α} (hf : Factors p) (hc : p.condition ≠ "ARMIJO") (hw : p.wolfe < 1)
    {loss : LossFn α (List α)} {X : DMat α} {y : List α} {fx : α} {g d : List α} {step : α} {xp : List α} {r : Found α}
    (h : search policy p loss X y fx g d step xp = .ok (some r)) {n : Nat} (hn : xp.length = n) (hg : g.length = n)
    (hrg : r.g.length = n) (hdesc : vec n d ⬝ᵥ vec n g < 0) :
    0 < (vec n r.x - vec n xp) ⬝ᵥ (vec n r.g - vec n g) := by
  obtain ⟨l1, l2, l3⟩ := search_lengths h
  have hd : d.length = n := l1.trans hg
  obtain ⟨-, -, hx, -, -, hs, hcond, -⟩ := C53_success policy p hf loss X y fx g d step xp r h
  have hcurv := (hcond.2 hc).1
  unfold Curvature at hcurv
  dsimp only at hcurv
  rw [zipWith_sum hd hg, zipWith_sum hd hrg] at hcurv
  rw [hx, vec_zipWith_step hn hd, add_sub_cancel_left, smul_dotProduct, dotProduct_sub, smul_eq_mul]
  refine mul_pos hs ?_
  nlinarith

theorem not_converged_ne {sqrt : α → α} (hsq : sqrt 0 = 0) {tol : α} (htol : 0 ≤ tol) {x g : List α} {n : Nat} (hg : g.length = n)
    (h : converged sqrt tol x g = false) : vec n g ≠ 0 := by
  intro h0
  have : ¬ converged sqrt tol x g = true := by rw [h]; simp
  rw [converged_iff] at this
  apply this
  have hz : (g.map fun a => a * a).sum = 0 := by
    have := zipWith_sum hg hg
    rw [List.zipWith_self, h0, zero_dotProduct] at this
    exact this
  unfold len
  rw [hz, hsq]
  exact mul_nonneg htol (le_trans zero_le_one (le_max_left _ _))

/-- What is known about the state with number `i` in runs with a Wolfe condition. -/
structure Desc (n : Nat) (p : LBFGS.Params α) (σ : Nat → State α) (i : Nat) : Prop where
  inv : Inv n p σ i
  hd : (σ i).d.length = n
  pos : ∀ N < i, 0 < (pairOf n σ N).1 ⬝ᵥ (pairOf n σ N).2
  desc : vec n (σ i).d ⬝ᵥ vec n (σ i).g < 0
  step : 0 < (σ i).step

theorem desc_step {n : Nat} {policy : Policy} {p : LBFGS.Params α} (hf : Factors p.search) (hc : p.search.condition ≠ "ARMIJO")
    (hw : p.search.wolfe < 1) {loss : LossFn α (List α)} {X : DMat α} {y : List α} {σ : Nat → State α} {i : Nat}
    (hD : Desc n p σ i) {r : Found α} {pfx : List α}
    (hs : search policy p.search loss X y (σ i).fx (σ i).g (σ i).d (σ i).step (σ i).x = .ok (some r))
    (hne : vec n r.g ≠ 0) (hu : update p (σ i) r pfx = .ok (σ (i + 1))) : Desc n p σ (i + 1) := by
  obtain ⟨l1, l2, l3⟩ := search_lengths hs
  have hU := update_inv hD.inv (l3.trans hD.inv.hx) hu
  have hrg : r.g.length = n := by rw [← hU.2.2.2.2.2.1]; exact hU.1.hg
  have hp := search_pair_pos hf hc hw hs hD.inv.hx hD.inv.hg hrg hD.desc
  have hpos : ∀ N < i + 1, 0 < (pairOf n σ N).1 ⬝ᵥ (pairOf n σ N).2 := by
    intro N hN
    rcases Nat.lt_succ_iff_lt_or_eq.mp hN with h | rfl
    · exact hD.pos N h
    · unfold pairOf
      rw [hU.2.2.2.1, hU.2.2.2.2.2.1]
      exact hp
  obtain ⟨hinv, hyy, hm, hx, -, hg, hst, -, hdir⟩ := hU
  refine ⟨hinv, by rw [hdir, List.length_ofFn], hpos, ?_, by rw [hst]; exact one_pos⟩
  rw [hdir, vec_ofFn, neg_dotProduct, neg_lt_zero, dotProduct_comm]
  have hc : 0 < (pairOf n σ i).2 ⬝ᵥ (pairOf n σ i).1 / ((pairOf n σ i).2 ⬝ᵥ (pairOf n σ i).2) := by
    refine div_pos ?_ (dot_self_pos fun h => hyy (by rw [h, zero_dotProduct]))
    rw [dotProduct_comm]
    exact hpos i (by omega)
  refine bfgsList_pos hc _ ?_ _ (by rw [hg]; exact hne)
  intro e he
  unfold recent at he
  obtain ⟨j, hj, rfl⟩ := List.mem_map.mp he
  exact hpos _ (by omega)

theorem desc_initial {n : Nat} (p : LBFGS.Params α) (junk : Nat → α) (x0 g0 : List α) (f0 step : α) (hx : x0.length = n)
    (hg : g0.length = n) (hne : vec n g0 ≠ 0) (hs : 0 < step) (σ : Nat → State α) (h0 : σ 0 = initial p junk x0 g0 f0 step) :
    Desc n p σ 0 := by
  refine ⟨⟨by rw [h0]; rfl, by rw [h0]; exact hx, by rw [h0]; exact hg, by rw [h0]; simp [initial], by rw [h0]; simp [initial],
    by rw [h0]; simp [initial], fun N hN => absurd hN (by omega), fun N hN => absurd hN (by omega)⟩, ?_,
    fun N hN => absurd hN (by omega), ?_, by rw [h0]; exact hs⟩
  · rw [h0]
    simp [initial, hg]
  · rw [h0]
    have : vec n (g0.map fun a => -a) = -vec n g0 := by
      conv_lhs => rw [← ofFn_vec hg, map_ofFn', vec_ofFn]
      rfl
    change vec n (g0.map fun a => -a) ⬝ᵥ vec n g0 < 0
    rw [this, neg_dotProduct, neg_lt_zero]
    exact dot_self_pos hne

end LBFGS

/-- C83: if the line search uses the Wolfe or the strong Wolfe condition with a constant below one, all directions are directions of
descent (their product with the gradient is negative) and all correction pairs have positive products, so that the divisions of the
recursion are defined. -/
theorem C83_descent (sqrt : α → α) (hsq : sqrt 0 = 0) (policy : Policy) (p : LBFGS.Params α) (hf : Factors p.search)
    (hc : p.search.condition ≠ "ARMIJO") (hw : p.search.wolfe < 1) (htol : 0 ≤ p.tol) (loss : LossFn α (List α)) (X : DMat α)
    (y : List α) (σ : Nat → State α) (K : Nat) (h : IsIterates sqrt policy p loss X y σ K) (junk : Nat → α) (x0 g0 : List α)
    (f0 step : α) (h0 : σ 0 = initial p junk x0 g0 f0 step) (hg0 : g0.length = x0.length) (hs : 0 < step)
    (hne : ∃ a ∈ g0, a ≠ 0) :
    (∀ i ≤ K, (List.zipWith (· * ·) (σ i).d (σ i).g).sum < 0) ∧
    ∀ i < K, 0 < (List.zipWith (· * ·) (List.zipWith (· - ·) (σ (i + 1)).x (σ i).x)
      (List.zipWith (· - ·) (σ (i + 1)).g (σ i).g)).sum := by
  have hne' : vec x0.length g0 ≠ 0 := by
    intro h
    obtain ⟨a, ha, hane⟩ := hne
    obtain ⟨i, hi, rfl⟩ := List.getElem_of_mem ha
    apply hane
    have := congrFun h ⟨i, hg0 ▸ hi⟩
    simpa [vec, List.getD_eq_getElem?_getD, hi] using this
  have hD : ∀ i ≤ K, Desc x0.length p σ i := by
    intro i
    induction i with
    | zero => exact fun _ => desc_initial p junk x0 g0 f0 step rfl hg0 hne' hs σ h0
    | succ i ih =>
      intro hi
      have hI := ih (by omega)
      obtain ⟨r, pfx, hs, hcv, -, -, hu⟩ := iteration_inr (h i (by omega))
      obtain ⟨-, -, hl⟩ := search_lengths hs
      have hU := update_inv hI.inv (hl.trans hI.inv.hx) hu
      have hrg : r.g.length = x0.length := by rw [← hU.2.2.2.2.2.1]; exact hU.1.hg
      exact desc_step hf hc hw hI hs (not_converged_ne hsq htol hrg hcv) hu
  refine ⟨fun i hi => ?_, fun i hi => ?_⟩
  · rw [zipWith_sum (hD i hi).hd (hD i hi).inv.hg]
    exact (hD i hi).desc
  · have hx1 := (hD (i + 1) hi).inv.hx
    have hg1 := (hD (i + 1) hi).inv.hg
    have hx := (hD i hi.le).inv.hx
    have hg := (hD i hi.le).inv.hg
    have := (hD (i + 1) hi).pos i (by omega)
    rw [← dotL_ofFn] at this
    unfold pairOf at this
    have e1 : ∀ a b : List α, a.length = x0.length → b.length = x0.length →
        List.ofFn (vec x0.length a - vec x0.length b) = List.zipWith (· - ·) a b := by
      intro a b ha hb
      conv_rhs => rw [← ofFn_vec ha, ← ofFn_vec hb, zipWith_ofFn]
      rfl
    dsimp only at this
    rw [e1 _ _ hx1 hx, e1 _ _ hg1 hg] at this
    exact this

namespace LBFGS

theorem Inv.congr {n : Nat} {p : LBFGS.Params α} {σ σ' : Nat → State α} {i : Nat} (h : Inv n p σ i) (he : ∀ j ≤ i, σ' j = σ j) :
    Inv n p σ' i := by
  have hp : ∀ N < i, pairOf n σ' N = pairOf n σ N := by
    intro N hN
    unfold pairOf
    rw [he N hN.le, he (N + 1) hN]
  have hi := he i le_rfl
  refine ⟨by rw [hi]; exact h.k, by rw [hi]; exact h.hx, by rw [hi]; exact h.hg, by rw [hi]; exact h.hend, by rw [hi]; exact h.hmem,
    by rw [hi]; exact h.hal, fun N h1 h2 => ?_, fun N hN => ?_⟩
  · rw [hi, hp N h1]
    exact h.slots N h1 h2
  · rw [hp N hN]
    exact h.ne N hN

theorem Desc.congr {n : Nat} {p : LBFGS.Params α} {σ σ' : Nat → State α} {i : Nat} (h : Desc n p σ i) (he : ∀ j ≤ i, σ' j = σ j) :
    Desc n p σ' i := by
  have hi := he i le_rfl
  refine ⟨h.inv.congr he, by rw [hi]; exact h.hd, fun N hN => ?_, by rw [hi]; exact h.desc, by rw [hi]; exact h.step⟩
  unfold pairOf
  rw [he N hN.le, he (N + 1) hN]
  exact h.pos N hN

theorem update_total {n : Nat} {p : LBFGS.Params α} {σ : Nat → State α} {i : Nat} (hI : Inv n p σ i) (hm : 0 < p.memSize)
    {r : Found α} (pfx : List α) (hrx : r.x.length = n) (hrg : r.g.length = n)
    (hpos : 0 < (vec n r.x - vec n (σ i).x) ⬝ᵥ (vec n r.g - vec n (σ i).g)) : ∃ st', update p (σ i) r pfx = .ok st' := by
  have hs : Loss.subV r.x (σ i).x = .ok (List.ofFn (vec n r.x - vec n (σ i).x)) := by
    rw [← subV_ofFn, ofFn_vec hrx, ofFn_vec hI.hx]
  have hy : Loss.subV r.g (σ i).g = .ok (List.ofFn (vec n r.g - vec n (σ i).g)) := by
    rw [← subV_ofFn, ofFn_vec hrg, ofFn_vec hI.hg]
  obtain ⟨s, hs'⟩ : ∃ s, s = vec n r.x - vec n (σ i).x := ⟨_, rfl⟩
  obtain ⟨yv, hy'⟩ : ∃ s, s = vec n r.g - vec n (σ i).g := ⟨_, rfl⟩
  rw [← hs'] at hs hpos
  rw [← hy'] at hy hpos
  have hyy : yv ⬝ᵥ yv ≠ 0 := (dot_self_pos fun h => by rw [h, dotProduct_zero] at hpos; exact lt_irrefl _ hpos).ne'
  let P : Nat → (Fin n → α) × (Fin n → α) := fun N => if N < i then pairOf n σ N else (s, yv)
  have hlt : (σ i).end' < (σ i).mem.length := by
    rw [hI.hend, hI.hmem]
    exact Nat.mod_lt _ hm
  have hb : (if p.memSize ≤ (σ i).k then p.memSize else (σ i).k) = min p.memSize (i + 1) := by
    rw [hI.k, Nat.min_def]
  have he : ((σ i).end' + 1) % p.memSize = (i + 1) % p.memSize := by rw [hI.hend, Nat.mod_add_mod]
  have hset : ∀ N, i + 1 - min p.memSize (i + 1) ≤ N → N < i + 1 →
      ((σ i).mem.set (σ i).end' (some ⟨List.ofFn s, List.ofFn yv, yv ⬝ᵥ s⟩))[N % p.memSize]? =
      some (some ⟨List.ofFn (P N).1, List.ofFn (P N).2, (P N).2 ⬝ᵥ (P N).1⟩) ∧ (P N).1 ⬝ᵥ (P N).2 ≠ 0 := by
    intro N hN hN'
    rw [hI.hend]
    rcases Nat.lt_succ_iff_lt_or_eq.mp hN' with h | rfl
    · simp only [P, if_pos h]
      rw [List.getElem?_set_ne (ring_ne _ N i h (by omega)).symm]
      exact ⟨hI.slots N h (by omega), hI.ne N h⟩
    · simp only [P, if_neg (lt_irrefl N)]
      rw [List.getElem?_set_self (by rw [← hI.hend]; exact hlt)]
      exact ⟨rfl, hpos.ne'⟩
  obtain ⟨al', -, hdir⟩ := direction_eq p.memSize hm _ P (min p.memSize (i + 1)) (i + 1) (by omega) (by omega) hset
    (vec n r.g) (σ i).al hI.hal (yv ⬝ᵥ s) _ hyy
  rw [ofFn_vec hrg] at hdir
  unfold update
  rw [hs, Res.bind_ok, hy, Res.bind_ok, dot_ofFn, Res.bind_ok, dot_ofFn, Res.bind_ok, writeMem_eq_ok.mpr ⟨hlt, rfl⟩, Res.bind_ok]
  dsimp only
  rw [hb, he, hdir, Res.bind_ok]
  exact ⟨_, rfl⟩

/-- The loss function is defined on all weights of length `n`, and its gradients have length `n`. -/
def _root_.OpenML.Spec.TotalOn (loss : LossFn α (List α)) (X : DMat α) (y : List α) (n : Nat) : Prop :=
  ∀ w : List α, w.length = n → (∃ f, loss.evaluate X y w = .ok f) ∧ ∃ g, loss.gradient X y w = .ok g ∧ g.length = n

theorem probe_total {p : SearchParams α} {loss : LossFn α (List α)} {X : DMat α} {y : List α} {n : Nat} (hT : TotalOn loss X y n)
    (f0 m0 : α) {xp d : List α} (hx : xp.length = n) (hd : d.length = n) (c : Nat) (step : α) :
    ∃ v r, probe p loss X y f0 m0 xp d c step = .ok (v, r) ∧ r.g.length = n := by
  have hadd : Loss.addV xp (d.map fun a => step * a) = .ok (List.zipWith (fun a b => a + b) xp (d.map fun a => step * a)) :=
    if_pos (by rw [List.length_map, hx, hd])
  obtain ⟨⟨f, hf⟩, g, hg, hgl⟩ := hT (List.zipWith (fun a b => a + b) xp (d.map fun a => step * a)) (by simp [hx, hd])
  have hv : ∃ v, verdict p f0 m0 step f d g = .ok v := by
    unfold verdict
    rw [dot_ok (hd.trans hgl.symm), Res.bind_ok]
    split
    · exact ⟨_, rfl⟩
    · split
      · exact ⟨_, rfl⟩
      · split
        · exact ⟨_, rfl⟩
        · split
          · exact ⟨_, rfl⟩
          · split <;> exact ⟨_, rfl⟩
  obtain ⟨v, hv⟩ := hv
  refine ⟨v, ⟨c + 1, List.zipWith (fun a b => a + b) xp (d.map fun a => step * a), f, g, step⟩, ?_, hgl⟩
  unfold probe
  rw [hadd, Res.bind_ok, hf, Res.bind_ok, hg, Res.bind_ok, hv, Res.bind_ok]

theorem searchLoop_total {policy : Policy} {p : SearchParams α} {loss : LossFn α (List α)} {X : DMat α} {y : List α} {n : Nat}
    (hT : TotalOn loss X y n) (f0 m0 : α) {xp d : List α} (hx : xp.length = n) (hd : d.length = n) (m c : Nat) (step lo : α)
    (hi : Option α) : ∃ o, searchLoop policy p loss X y f0 m0 xp d m c step lo hi = .ok o ∧ ∀ r, o = some r → r.g.length = n := by
  induction m generalizing c step lo hi with
  | zero =>
    obtain ⟨v, r, h, hl⟩ := probe_total (p := p) hT f0 m0 hx hd c step
    rw [searchLoop, h, Res.bind_ok]
    split
    · exact ⟨_, rfl, fun r' h => by cases h; exact hl⟩
    · exact ⟨_, rfl, fun r' h => by cases h⟩
  | succ m ih =>
    obtain ⟨v, r, h, hl⟩ := probe_total (p := p) hT f0 m0 hx hd c step
    rw [searchLoop, h, Res.bind_ok]
    split
    · exact ⟨_, rfl, fun r' h => by cases h; exact hl⟩
    · split
      · exact ⟨_, rfl, fun r' h => by cases h⟩
      · split
        · exact ⟨_, rfl, fun r' h => by cases h⟩
        · exact ih _ _ _ _

theorem search_total {policy : Policy} {p : SearchParams α} {loss : LossFn α (List α)} {X : DMat α} {y : List α} {n : Nat}
    (hT : TotalOn loss X y n) (fx : α) {g d xp : List α} (hx : xp.length = n) (hd : d.length = n) (hg : g.length = n) (step : α) :
    ∃ o, search policy p loss X y fx g d step xp = .ok o ∧ ∀ r, o = some r → r.g.length = n := by
  unfold search
  split
  · exact ⟨_, rfl, fun r' h => by cases h⟩
  · rw [dot_ok (hd.trans hg.symm), Res.bind_ok]
    split
    · exact ⟨_, rfl, fun r' h => by cases h⟩
    · exact searchLoop_total hT _ _ hx hd _ _ _ _ _

theorem pastTest_total {p : LBFGS.Params α} (hp : 0 < p.past) (k : Nat) (fx : α) {pfx : List α} (hl : pfx.length = p.past) :
    ∃ o, pastTest p k fx pfx = .ok o ∧ ∀ l, o = some l → l.length = p.past := by
  unfold pastTest
  split
  · rw [if_neg hp.ne']
    rw [readAt_of_lt (by rw [hl]; exact Nat.mod_lt _ hp), Res.bind_ok]
    split
    · exact ⟨_, rfl, fun r' h => by cases h⟩
    · exact ⟨_, rfl, fun r' h => by cases h; rw [List.length_set, hl]⟩
  · exact ⟨_, rfl, fun r' h => by cases h; exact hl⟩

theorem mainLoop_total {sqrt : α → α} (hsq : sqrt 0 = 0) {n : Nat} {policy : Policy} {p : LBFGS.Params α} (hf : Factors p.search)
    (hc : p.search.condition ≠ "ARMIJO") (hw : p.search.wolfe < 1) (htol : 0 ≤ p.tol) (hm : 0 < p.memSize) (hp : 0 < p.past)
    (hmax : p.maxIter ≠ 0) {loss : LossFn α (List α)} {X : DMat α} {y : List α} (hT : TotalOn loss X y n) (fuel : Nat)
    (σ : Nat → State α) (i : Nat) (hD : Desc n p σ i) (hl : (σ i).pfx.length = p.past) (hfuel : p.maxIter ≤ fuel + i)
    (hi : i < p.maxIter) :
    ∃ x, mainLoop sqrt policy p loss X y fuel (σ i) = .ok x ∧ x.length = n := by
  induction fuel generalizing σ i with
  | zero => omega
  | succ fuel ih =>
    obtain ⟨o, ho, hog⟩ := search_total (policy := policy) (p := p.search) hT (σ i).fx hD.inv.hx hD.hd hD.inv.hg (σ i).step
    rw [mainLoop]
    unfold iteration
    rw [ho, Res.bind_ok]
    cases o with
    | none => exact ⟨_, rfl, hD.inv.hx⟩
    | some r =>
      have hrx : r.x.length = n := (search_lengths ho).2.2.trans hD.inv.hx
      dsimp only
      split
      · exact ⟨_, rfl, hrx⟩
      · rename_i hcv
        obtain ⟨t, ht, htl⟩ := pastTest_total hp (σ i).k r.fx hl
        rw [ht, Res.bind_ok]
        cases t with
        | none => exact ⟨_, rfl, hrx⟩
        | some pfx =>
          dsimp only
          split
          · exact ⟨_, rfl, hrx⟩
          · rename_i hmx
            have hrg := hog r rfl
            obtain ⟨st', hu⟩ := update_total hD.inv hm pfx hrx hrg
              (search_pair_pos hf hc hw ho hD.inv.hx hD.inv.hg hrg hD.desc)
            rw [hu, Res.bind_ok, Res.bind_ok]
            dsimp only
            have he : ∀ j ≤ i, Function.update σ (i + 1) st' j = σ j := fun j hj => Function.update_of_ne (by omega) _ _
            have e1 : Function.update σ (i + 1) st' (i + 1) = st' := Function.update_self _ _ _
            have hu' : update p (Function.update σ (i + 1) st' i) r pfx = .ok (Function.update σ (i + 1) st' (i + 1)) := by
              rw [e1, he i le_rfl]
              exact hu
            have hD' := desc_step hf hc hw (hD.congr he) (by rw [he i le_rfl]; exact ho)
              (not_converged_ne hsq htol hrg (by simpa using hcv)) hu'
            have hk := hD.inv.k
            have := ih (Function.update σ (i + 1) st') (i + 1) hD' ?_ (by omega) (by omega)
            · rw [e1] at this
              exact this
            · rw [(update_inv (hD.congr he).inv hrx hu').2.2.2.2.2.2.2.1]
              exact htl pfx rfl

end LBFGS

/-- C83: with a Wolfe condition whose constant is below one, a known line search, at least one correction pair and one past loss, and
a positive maximal number of iterations, the optimizer ends without error for every loss function that is defined on all weights:
it leaves weights of the right length, unless the initial weights pass the test of the gradient. -/
theorem C83_total (sqrt : α → α) (hsq : sqrt 0 = 0) (hsq' : ∀ a, 0 < a → 0 < sqrt a) (p : LBFGS.Params α)
    (hpol : p.policy = "backtracking" ∨ p.policy = "bracketing") (hf : Factors p.search)
    (hc : p.search.condition ≠ "ARMIJO") (hw : p.search.wolfe < 1) (htol : 0 ≤ p.tol) (hm : 0 < p.memSize) (hp : 0 < p.past)
    (hmax : p.maxIter ≠ 0) (junk : Nat → α) (fuel : Nat) (hfuel : p.maxIter ≤ fuel) (loss : LossFn α (List α)) (X : DMat α)
    (y x0 : List α) (hT : TotalOn loss X y x0.length) :
    ∃ o, LBFGS.optimize sqrt p junk fuel loss X y x0 = .ok o ∧ ∀ x, o = some x → x.length = x0.length := by
  obtain ⟨policy, hpo⟩ : ∃ q, policyOf p.policy = .ok q := by
    unfold policyOf
    rcases hpol with h | h <;> rw [h] <;> exact ⟨_, rfl⟩
  obtain ⟨⟨f, hfe⟩, g, hg, hgl⟩ := hT x0 rfl
  unfold LBFGS.optimize
  rw [hpo, Res.bind_ok, hfe, Res.bind_ok, hg, Res.bind_ok]
  split
  · exact ⟨_, rfl, fun x h => by cases h⟩
  · rename_i hcv
    have hne := not_converged_ne hsq htol hgl (by simpa using hcv)
    have hnorm : 0 < LBFGS.norm sqrt (g.map fun a => -a) := by
      unfold LBFGS.norm
      apply hsq'
      have h1 : vec x0.length (g.map fun a => -a) = -vec x0.length g := by
        conv_lhs => rw [← ofFn_vec hgl, map_ofFn', vec_ofFn]
        rfl
      have h2 := zipWith_sum (a := g.map fun a => -a) (b := g.map fun a => -a) (n := x0.length) (by simpa using hgl)
        (by simpa using hgl)
      unfold Loss.dotL
      rw [h2, h1, neg_dotProduct_neg]
      exact dot_self_pos hne
    rw [quot_ok hnorm.ne', Res.bind_ok]
    obtain ⟨x, hx, hl⟩ := mainLoop_total (policy := policy) hsq hf hc hw htol hm hp hmax hT fuel
      (fun _ => initial p junk x0 g f (1 / LBFGS.norm sqrt (g.map fun a => -a))) 0
      (desc_initial p junk x0 g f _ rfl hgl hne (by positivity) _ rfl)
      (by simp only [initial, List.length_cons, List.length_map, List.length_range]; omega) (by omega) (by omega)
    rw [hx, Res.bind_ok]
    exact ⟨_, rfl, fun x h => by cases h; exact hl⟩

end

/-- Example for C83: the hypotheses hold for the runs of the example beside C55; the directions and pairs are as claimed. -/
example : Factors bowlParams.search ∧ bowlParams.search.condition ≠ "ARMIJO" ∧ bowlParams.search.wolfe < 1 ∧ 0 ≤ bowlParams.tol ∧
    IsIterates id .backtracking bowlParams bowlLoss ⟨2, []⟩ [] bowlRun 3 ∧ (∃ a ∈ [(108 : ℚ), 2], a ≠ 0) ∧
    (∀ i ≤ 3, (List.zipWith (· * ·) (bowlRun i).d (bowlRun i).g).sum < 0) := by
  have h : IsIterates id .backtracking bowlParams bowlLoss ⟨2, []⟩ [] bowlRun 3 := by
    unfold IsIterates
    decide +kernel
  have hf : Factors bowlParams.search := by constructor <;> norm_num [bowlParams]
  refine ⟨hf, by decide, by norm_num [bowlParams], by norm_num [bowlParams], h, ⟨2, by simp, by norm_num⟩, ?_⟩
  exact (C83_descent id rfl .backtracking bowlParams hf (by decide) (by norm_num [bowlParams]) (by norm_num [bowlParams]) bowlLoss
    ⟨2, []⟩ [] bowlRun 3 h (fun _ => 0) [3, 1] [108, 2] 82 (1 / 100) rfl rfl (by norm_num) ⟨2, by simp, by norm_num⟩).1

/-- Example for C83: the loss `a ^ 4 + b ^ 2` is defined for all pairs of weights, so the optimizer ends for all initial weights. -/
example (a b : ℚ) : TotalOn bowlLoss ⟨2, []⟩ [] 2 ∧
    ∃ o, LBFGS.optimize id bowlParams (fun _ => 0) 10 bowlLoss ⟨2, []⟩ [] [a, b] = .ok o := by
  have hT : TotalOn bowlLoss ⟨2, []⟩ [] 2 := fun w hw => ⟨⟨_, rfl⟩, _, rfl, by simp [hw]⟩
  refine ⟨hT, ?_⟩
  obtain ⟨o, ho, -⟩ := C83_total id rfl (fun _ h => h) bowlParams (Or.inl rfl) (by constructor <;> norm_num [bowlParams]) (by decide)
    (by norm_num [bowlParams]) (by norm_num [bowlParams]) (by decide) (by decide) (by decide) (fun _ => 0) 10 (by decide) bowlLoss
    ⟨2, []⟩ [] [a, b] hT
  exact ⟨o, ho⟩

end OpenML
